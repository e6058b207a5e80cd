import Verif.TreeRead

/-! # Lemmas about represented trees and lists -/

namespace Verif

theorem Holds.congr {m m' : TMem} : ∀ {t : Tree} {r : Nat}, Holds m t r →
    (∀ k ∈ t.toList, m'.left k = m.left k ∧ m'.right k = m.right k ∧ m'.size k = m.size k) →
    Holds m' t r := by
  intro t
  induction t with
  | leaf => intro r h _; exact h
  | node a k b iha ihb =>
    intro r h hk
    obtain ⟨h1, h2, h3, h4, h5⟩ := h
    have hkk := hk k (by simp [Tree.toList])
    refine ⟨h1, h2, ?_, ?_, ?_⟩
    · rw [hkk.1]; exact iha h3 fun j hj => hk j (by simp [Tree.toList, hj])
    · rw [hkk.2.1]; exact ihb h4 fun j hj => hk j (by simp [Tree.toList, hj])
    · rw [hkk.2.2]; exact h5

theorem Holds.nonzero {m : TMem} : ∀ {t : Tree} {r : Nat}, Holds m t r → ∀ k ∈ t.toList, k ≠ 0 := by
  intro t
  induction t with
  | leaf => intro r _ k hk; simp [Tree.toList] at hk
  | node a k b iha ihb =>
    intro r h j hj
    obtain ⟨h1, h2, h3, h4, h5⟩ := h
    simp only [Tree.toList, List.mem_append, List.mem_cons] at hj
    rcases hj with hj | rfl | hj
    · exact iha h3 j hj
    · exact h2
    · exact ihb h4 j hj

theorem Holds.size_pos {m : TMem} : ∀ {t : Tree} {r : Nat}, Holds m t r →
    ∀ k ∈ t.toList, 1 ≤ m.size k := by
  intro t
  induction t with
  | leaf => intro r _ k hk; simp [Tree.toList] at hk
  | node a k b iha ihb =>
    intro r h j hj
    obtain ⟨h1, h2, h3, h4, h5⟩ := h
    simp only [Tree.toList, List.mem_append, List.mem_cons] at hj
    rcases hj with hj | rfl | hj
    · exact iha h3 j hj
    · rw [h5]; simp [Tree.size]; omega
    · exact ihb h4 j hj

theorem Holds.root_eq {m : TMem} {t : Tree} {r : Nat} (h : Holds m t r) : r = t.root := by
  cases t with
  | leaf => exact h
  | node a k b => exact h.1

theorem IsTree.congr {P : Tree → Prop} {lt lt' : Nat → Nat → Bool} {m m' : TMem} {t : Tree} {r : Nat}
    (h : IsTree P lt m t r)
    (hm : ∀ k ∈ t.toList, m'.left k = m.left k ∧ m'.right k = m.right k ∧ m'.size k = m.size k)
    (hlt : ∀ a ∈ t.toList, ∀ b ∈ t.toList, lt' a b = lt a b) : IsTree P lt' m' t r :=
  ⟨h.shape, h.holds.congr hm, h.nodup,
    h.ordered.imp_of_mem fun {a b} ha hb hab => by rw [hlt b hb a ha]; exact hab⟩

theorem IsTree.leaf {P : Tree → Prop} (h : P .leaf) (lt : Nat → Nat → Bool) (m : TMem) : IsTree P lt m .leaf 0 :=
  ⟨h, rfl, by simp [Tree.toList], by simp [Ordered, Tree.toList]⟩

/-- A duplicate-free list of positive numbers up to `a` has at most `a` elements. -/
theorem length_le_of_nodup_le : ∀ (a : Nat) (l : List Nat), l.Nodup → (∀ k ∈ l, 1 ≤ k ∧ k ≤ a) →
    l.length ≤ a := by
  intro a
  induction a with
  | zero =>
    intro l _ hl
    cases l with
    | nil => simp
    | cons x xs => have := hl x (by simp); omega
  | succ a ih =>
    intro l hn hl
    by_cases hm : a + 1 ∈ l
    · have h1 := ih (l.erase (a + 1)) (hn.erase _) (fun k hk => by
        have h2 := (hn.mem_erase_iff).1 hk
        have := hl k h2.2
        omega)
      rw [List.length_erase_of_mem hm] at h1
      omega
    · have := ih l hn (fun k hk => by
        have := hl k hk
        have : k ≠ a + 1 := fun h => hm (h ▸ hk)
        omega)
      omega

theorem IsList.congr {m m' : LMem} {l : List Nat} (h : IsList m l)
    (hf : m'.first = m.first) (hl : m'.last = m.last) (hs : m'.size = m.size)
    (hk : ∀ k ∈ l, m'.prev k = m.prev k ∧ m'.next k = m.next k) : IsList m' l := by
  have hmem : ∀ i, i < l.length → l.getD i 0 ∈ l := by
    intro i hi
    rw [List.getD_eq_getElem?_getD, List.getElem?_eq_getElem hi]; simp
  refine ⟨h.nodup, h.nonzero, by rw [hs, h.size_eq], by rw [hf, h.first_eq], by rw [hl, h.last_eq],
    ?_, ?_⟩
  · intro i hi
    rw [(hk _ (hmem i hi)).2]; exact h.next_eq i hi
  · intro i hi
    have hlt : (i + 1) % l.length < l.length := Nat.mod_lt _ (by omega)
    rw [(hk _ (hmem _ hlt)).1]; exact h.prev_eq i hi

theorem IsList.prev_mem {m : LMem} {l : List Nat} (h : IsList m l) {x : Nat} (hx : x ∈ l) :
    m.prev x ∈ l := by
  obtain ⟨j, hj, rfl⟩ := List.getElem_of_mem hx
  have key : ∃ i, i < l.length ∧ (i + 1) % l.length = j := by
    cases j with
    | zero => exact ⟨l.length - 1, by omega, by
        rw [show l.length - 1 + 1 = l.length by omega]; simp⟩
    | succ j => exact ⟨j, by omega, Nat.mod_eq_of_lt hj⟩
  obtain ⟨i, hi, hij⟩ := key
  have := h.prev_eq i hi
  rw [hij] at this
  simp only [List.getD_eq_getElem?_getD, List.getElem?_eq_getElem hj,
    List.getElem?_eq_getElem hi, Option.getD_some] at this
  rw [this]; exact List.getElem_mem hi

theorem IsList.first_mem {m : LMem} {l : List Nat} (h : IsList m l) (h0 : m.first ≠ 0) :
    m.first ∈ l := by
  rw [h.first_eq] at h0 ⊢
  cases l with
  | nil => simp at h0
  | cons a l => simp

end Verif
