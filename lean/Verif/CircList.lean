import Verif.RefTrees

/-!
# The usual algorithm for circular lists

Constant-time attaching at the front and detaching on a circular doubly linked list, as in textbooks. It meets the list
part of the contract of `Verif/Trees.lean`. It models no code of /repo: the crate that /repo uses is not part of it.
Unlike the functions of `Verif/RefTrees.lean` it touches the element and its two neighbours only and never asks whether
the element is in the list. That makes it the realistic choice for histories that detach an element which is not.
-/

namespace Verif.Circ
open Verif

/-- Set the pointer to the previous element. -/
def setPrev (m : LMem) (x v : Nat) : LMem := { m with prev := fun k => if k = x then v else m.prev k }

/-- Set the pointer to the next element. -/
def setNext (m : LMem) (x v : Nat) : LMem := { m with next := fun k => if k = x then v else m.next k }

/-- Attach `n` before the first element, or as the only one. -/
def attachFirst (m : LMem) (n : Nat) : Option LMem :=
  let f := m.first
  let p := m.prev f
  if f = 0 then
    some { setNext (setPrev m n n) n n with first := n, last := n, size := m.size + 1 }
  else
    some { setPrev (setNext (setNext (setPrev m n p) n f) p n) f n with first := n, size := m.size + 1 }

/-- Detach `n`; `none` if the size is 0 already. -/
def detach (m : LMem) (n : Nat) : Option LMem :=
  let p := m.prev n
  let q := m.next n
  if m.size = 0 then none
  else if q = n then
    some { setNext (setPrev m n 0) n 0 with first := 0, last := 0, size := m.size - 1 }
  else
    some { setNext (setPrev (setPrev (setNext m p q) q p) n 0) n 0 with
      first := if n = m.first then q else m.first
      last := if n = m.last then p else m.last
      size := m.size - 1 }

/-- The position after `i` on a circle of `n`. -/
def after (n i : Nat) : Nat := if i + 1 = n then 0 else i + 1

theorem mod_eq {n i : Nat} (h : i < n) : (i + 1) % n = after n i := by
  unfold after
  split
  · next e => rw [e, Nat.mod_self]
  · exact Nat.mod_eq_of_lt (by omega)

theorem getD_inj {l : List Nat} (hn : l.Nodup) {i j : Nat} (hi : i < l.length) (hj : j < l.length) :
    l.getD i 0 = l.getD j 0 ↔ i = j := by
  rw [Ref.getD_lt hi, Ref.getD_lt hj]
  refine ⟨fun e => ?_, fun e => by subst e; rfl⟩
  rw [← hn.idxOf_getElem i hi, ← hn.idxOf_getElem j hj, e]

theorem getD_mem {l : List Nat} {i : Nat} (hi : i < l.length) : l.getD i 0 ∈ l := by
  rw [Ref.getD_lt hi]; exact List.getElem_mem hi

theorem headD_eq (l : List Nat) : l.headD 0 = l.getD 0 0 := by cases l <;> rfl

theorem getLastD_eq {l : List Nat} (h : 0 < l.length) : l.getLastD 0 = l.getD (l.length - 1) 0 := by
  rw [List.getLastD_eq_getLast?, List.getLast?_eq_getElem?, List.getD_eq_getElem?_getD]

theorem attachFirst_ok {m : LMem} {l : List Nat} {n : Nat} (h : IsList m l) (hz : n ≠ 0) (hn : n ∉ l) :
    ∃ m', attachFirst m n = some m' ∧ IsList m' (n :: l) ∧
      ∀ k, k ∉ n :: l → m'.prev k = m.prev k ∧ m'.next k = m.next k := by
  cases hl : l with
  | nil =>
    subst hl
    have hf : m.first = 0 := h.first_eq
    refine ⟨_, by simp only [attachFirst, hf, if_true]; rfl, ?_, ?_⟩
    · refine ⟨by simp, by simpa using hz, by simp [h.size_eq], rfl, rfl, ?_, ?_⟩
      · intro i hi
        have : i = 0 := by simpa using hi
        subst this; simp [setNext, setPrev]
      · intro i hi
        have : i = 0 := by simpa using hi
        subst this; simp [setNext, setPrev]
    · intro k hk
      have hk : k ≠ n := by simpa using hk
      simp [setNext, setPrev, hk]
  | cons a t =>
    rw [← hl]
    have hlen : 0 < l.length := by rw [hl]; simp
    have hf : m.first = l.getD 0 0 := by rw [h.first_eq, headD_eq]
    have hla : m.last = l.getD (l.length - 1) 0 := by rw [h.last_eq, getLastD_eq hlen]
    have hmem : ∀ i, i < l.length → l.getD i 0 ∈ l := fun i hi => getD_mem hi
    have hne : ∀ i, i < l.length → l.getD i 0 ≠ n := fun i hi e => hn (e ▸ hmem i hi)
    have hf0 : m.first ≠ 0 := by rw [hf]; exact h.nonzero _ (hmem 0 hlen)
    have hp : m.prev m.first = l.getD (l.length - 1) 0 := by
      have := h.prev_eq (l.length - 1) (by omega)
      rw [mod_eq (by omega), after, if_pos (by omega)] at this
      rw [hf]; exact this
    refine ⟨_, by simp only [attachFirst, if_neg hf0]; rfl, ?_, ?_⟩
    · refine ⟨List.nodup_cons.2 ⟨hn, h.nodup⟩, ?_, by simp [h.size_eq, setPrev, setNext], rfl, ?_, ?_, ?_⟩
      · intro x hx
        rcases List.mem_cons.1 hx with rfl | hx
        · exact hz
        · exact h.nonzero x hx
      · show m.last = _
        rw [hla, getLastD_eq (by simp)]
        simp only [List.length_cons, Nat.add_sub_cancel]
        rw [show l.length = (l.length - 1) + 1 by omega, List.getD_cons_succ]
        simp
      · intro i hi
        rw [mod_eq hi, List.length_cons]
        simp only [List.length_cons] at hi
        simp only [setPrev, setNext, hp]
        cases i with
        | zero =>
          have h1 := hne (l.length - 1) (by omega)
          have e : after (l.length + 1) 0 = 0 + 1 := if_neg (by omega)
          rw [e, List.getD_cons_succ, List.getD_cons_zero, if_neg (Ne.symm h1), if_pos rfl, hf]
        | succ i =>
          rw [List.getD_cons_succ]
          by_cases hi' : i + 1 = l.length
          · have e : after (l.length + 1) (i + 1) = 0 := if_pos (by omega)
            rw [e, List.getD_cons_zero, if_pos (by rw [getD_inj h.nodup (by omega) (by omega)]; omega)]
          · have e : after (l.length + 1) (i + 1) = i + 1 + 1 := if_neg (by omega)
            have e' : after l.length i = i + 1 := if_neg hi'
            rw [e, List.getD_cons_succ, if_neg (by rw [getD_inj h.nodup (by omega) (by omega)]; omega),
              if_neg (hne i (by omega)), h.next_eq i (by omega), mod_eq (by omega), e']
      · intro i hi
        rw [mod_eq hi, List.length_cons]
        simp only [List.length_cons] at hi
        simp only [setPrev, setNext, hp, hf]
        cases i with
        | zero =>
          have e : after (l.length + 1) 0 = 0 + 1 := if_neg (by omega)
          rw [e, List.getD_cons_succ, List.getD_cons_zero, if_pos rfl]
        | succ i =>
          rw [List.getD_cons_succ]
          by_cases hi' : i + 1 = l.length
          · have h1 := hne 0 hlen
            have e : after (l.length + 1) (i + 1) = 0 := if_pos (by omega)
            rw [hf] at hp
            rw [e, List.getD_cons_zero, if_neg (Ne.symm h1), if_pos rfl, hp]
            congr 1; omega
          · have e : after (l.length + 1) (i + 1) = i + 1 + 1 := if_neg (by omega)
            have e' : after l.length i = i + 1 := if_neg hi'
            rw [e, List.getD_cons_succ,
              if_neg (by rw [getD_inj h.nodup (by omega) (by omega)]; omega), if_neg (hne (i + 1) (by omega))]
            have := h.prev_eq i (by omega)
            rwa [mod_eq (by omega), e'] at this
    · intro k hk
      have h1 : k ≠ n := fun e => hk (by simp [e])
      have h2 : k ∉ l := fun e => hk (by simp [e])
      have h3 : k ≠ m.first := by rw [hf]; exact fun e => h2 (e ▸ hmem 0 hlen)
      have h4 : k ≠ m.prev m.first := by rw [hp]; exact fun e => h2 (e ▸ hmem _ (by omega))
      simp [setPrev, setNext, h1, h3, h4]

/-- Where position `i` of a list without its position `j` was before. -/
def skip (j i : Nat) : Nat := if i < j then i else i + 1

theorem eraseIdx_getD (l : List Nat) (j i : Nat) : (l.eraseIdx j).getD i 0 = l.getD (skip j i) 0 := by
  simp only [List.getD_eq_getElem?_getD, List.getElem?_eraseIdx, skip]
  by_cases h : i < j
  · simp [h]
  · simp [h]

theorem erase_eq {l : List Nat} (hn : l.Nodup) {j : Nat} (hj : j < l.length) :
    l.erase (l.getD j 0) = l.eraseIdx j := by
  rw [Ref.getD_lt hj, List.erase_eq_eraseIdx_of_idxOf (hn.idxOf_getElem j hj)]

theorem detach_ok {m : LMem} {l : List Nat} {n : Nat} (h : IsList m l) (hn : n ∈ l) :
    ∃ m', detach m n = some m' ∧ IsList m' (l.erase n) ∧ m'.prev n = 0 ∧ m'.next n = 0 ∧
      ∀ k, k ∉ l → m'.prev k = m.prev k ∧ m'.next k = m.next k := by
  obtain ⟨j, hj, rfl⟩ : ∃ j, j < l.length ∧ l.getD j 0 = n := by
    obtain ⟨j, hj, e⟩ := List.getElem_of_mem hn
    exact ⟨j, hj, by rw [Ref.getD_lt hj]; exact e⟩
  have hs : m.size ≠ 0 := by rw [h.size_eq]; omega
  have hne : ∀ k, k ∉ l → ∀ i, i < l.length → k ≠ l.getD i 0 := fun k hk i hi e => hk (e ▸ getD_mem hi)
  have hnx : m.next (l.getD j 0) = l.getD (after l.length j) 0 := by rw [h.next_eq j hj, mod_eq hj]
  have hnxt : ∀ i, i < l.length → m.next (l.getD i 0) = l.getD (after l.length i) 0 :=
    fun i hi => by rw [h.next_eq i hi, mod_eq hi]
  have hprv : ∀ i, i < l.length → m.prev (l.getD (after l.length i) 0) = l.getD i 0 :=
    fun i hi => by have := h.prev_eq i hi; rwa [mod_eq hi] at this
  have haf : ∀ i, i < l.length → after l.length i < l.length := fun i hi => by unfold after; split <;> omega
  -- the position before `j`
  obtain ⟨p, hp, hpj⟩ : ∃ p, p < l.length ∧ after l.length p = j := by
    by_cases h0 : j = 0
    · exact ⟨l.length - 1, by omega, by unfold after; rw [if_pos (by omega), h0]⟩
    · exact ⟨j - 1, by omega, by unfold after; rw [if_neg (by omega)]; omega⟩
  have hpv : m.prev (l.getD j 0) = l.getD p 0 := by rw [← hpj]; exact hprv p hp
  have hnd : (l.eraseIdx j).Nodup := h.nodup.sublist (List.eraseIdx_sublist _ _)
  have hlen : (l.eraseIdx j).length = l.length - 1 := List.length_eraseIdx_of_lt hj
  have hnz : ∀ x ∈ l.eraseIdx j, x ≠ 0 := fun x hx => h.nonzero x ((List.eraseIdx_sublist _ _).subset hx)
  rw [erase_eq h.nodup hj]
  by_cases h1 : l.length = 1
  · have hj0 : j = 0 := by omega
    have hq : m.next (l.getD j 0) = l.getD j 0 := by rw [hnx]; congr 1; unfold after; rw [if_pos (by omega)]; omega
    have he : l.eraseIdx j = [] := List.eq_nil_of_length_eq_zero (by omega)
    refine ⟨_, by simp only [detach, if_neg hs, if_pos hq]; rfl, ?_, by simp [setNext, setPrev], by simp [setNext, setPrev], ?_⟩
    · rw [he]
      exact ⟨by simp, by simp, by simp [h.size_eq, h1, setNext, setPrev], rfl, rfl, by simp, by simp⟩
    · intro k hk
      have := hne k hk j hj
      simp only [setNext, setPrev, if_neg this, and_self]
  · have hq : m.next (l.getD j 0) ≠ l.getD j 0 := by
      rw [hnx, Ne, getD_inj h.nodup (haf j hj) hj]; unfold after; split <;> omega
    have hpn : p ≠ j := by rintro rfl; unfold after at hpj; split at hpj <;> omega
    have hqn : after l.length j ≠ j := by unfold after; split <;> omega
    refine ⟨_, by simp only [detach, if_neg hs, if_neg hq]; rfl, ?_, by simp [setNext, setPrev], by simp [setNext, setPrev], ?_⟩
    · simp only [hnx, hpv, setNext, setPrev]
      refine ⟨hnd, hnz, by simp [hlen, h.size_eq], ?_, ?_, ?_, ?_⟩
      · simp only
        rw [h.first_eq, headD_eq, headD_eq, eraseIdx_getD]
        simp only [getD_inj h.nodup hj (show 0 < l.length by omega)]
        by_cases h0 : j = 0
        · rw [if_pos h0]; congr 1; subst h0; unfold after skip; rw [if_neg (by omega)]; simp
        · rw [if_neg h0]; congr 1; unfold skip; rw [if_pos (by omega)]
      · simp only
        rw [h.last_eq, getLastD_eq (by omega), getLastD_eq (by omega), eraseIdx_getD, hlen]
        simp only [getD_inj h.nodup hj (show l.length - 1 < l.length by omega)]
        by_cases h0 : j = l.length - 1
        · rw [if_pos h0]; congr 1; unfold skip; rw [if_pos (by omega)]
          unfold after at hpj; split at hpj <;> omega
        · rw [if_neg h0]; congr 1; unfold skip; rw [if_neg (by omega)]; omega
      · intro i hi
        rw [hlen] at hi ⊢
        rw [mod_eq (by omega), eraseIdx_getD, eraseIdx_getD]
        have hk : skip j i < l.length := by unfold skip; split <;> omega
        have hkj : skip j i ≠ j := by unfold skip; split <;> omega
        simp only
        rw [if_neg (by rw [getD_inj h.nodup hk hj]; exact hkj)]
        simp only [getD_inj h.nodup hk hp]
        by_cases hip : skip j i = p
        · rw [if_pos hip]; congr 1
          unfold skip at hip; unfold after at *; unfold skip
          split at hpj <;> split at hip <;> repeat' split
          all_goals omega
        · rw [if_neg hip, hnxt _ hk]; congr 1
          unfold skip at hip; unfold after at *; unfold skip
          split at hpj <;> split at hip <;> repeat' split
          all_goals omega
      · intro i hi
        rw [hlen] at hi ⊢
        rw [mod_eq (by omega), eraseIdx_getD, eraseIdx_getD]
        have hk : skip j i < l.length := by unfold skip; split <;> omega
        have hkj : skip j i ≠ j := by unfold skip; split <;> omega
        have hk' : skip j (after (l.length - 1) i) < l.length := by unfold skip after; (repeat' split) <;> omega
        have hkj' : skip j (after (l.length - 1) i) ≠ j := by unfold skip after; (repeat' split) <;> omega
        simp only
        rw [if_neg (by rw [getD_inj h.nodup hk' hj]; exact hkj')]
        simp only [getD_inj h.nodup hk' (haf j hj)]
        by_cases hip : skip j (after (l.length - 1) i) = after l.length j
        · rw [if_pos hip]; congr 1
          unfold skip after at *
          repeat' split at hpj
          all_goals repeat' split at hip
          all_goals repeat' split
          all_goals omega
        · rw [if_neg hip]
          have hx : skip j (after (l.length - 1) i) = after l.length (skip j i) := by
            unfold skip after at *
            repeat' split at hpj
            all_goals repeat' split at hip
            all_goals repeat' split
            all_goals omega
          rw [hx]
          exact hprv _ hk
    · intro k hk
      simp only [hnx, hpv, setNext, setPrev, if_neg (hne k hk _ hj), if_neg (hne k hk _ hp),
        if_neg (hne k hk _ (haf j hj)), and_self]

/-- The trees of `Verif/RefTrees.lean` with these lists. -/
def trees : TreesCrate := ⟨fun _ => True, Ref.attach, Ref.detach, attachFirst, detach⟩

/-- They meet the contract. -/
theorem lawful : LawfulTrees trees where
  leaf := trivial
  attach := Ref.lawful.attach
  detach := Ref.lawful.detach
  listAttachFirst := fun _ _ _ => attachFirst_ok
  listDetach := fun _ _ _ => detach_ok

end Verif.Circ
