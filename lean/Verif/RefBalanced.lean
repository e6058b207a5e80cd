import Verif.RefTrees
import Verif.ReadCost

/-!
# A size-balanced reference implementation of the `trees` interface

Shows that the contract can be met together with the promise that trees are size-balanced: after each change the tree
is rewritten as a perfectly balanced one. It models no code.
-/

namespace Verif.Ref
open Verif

/-- The balanced tree with given nodes in order. `fuel` is at least their number. -/
def build : Nat → List Nat → Tree
  | 0, _ => .leaf
  | fuel + 1, l =>
    match l.drop (l.length / 2) with
    | [] => .leaf
    | k :: r => .node (build fuel (l.take (l.length / 2))) k (build fuel r)

/-- Write a tree into memory. -/
def writeTree (m : TMem) : Tree → TMem
  | .leaf => m
  | .node a k b =>
    putNode (writeTree (writeTree m a) b) k a.root b.root (a.size + 1 + b.size)

theorem build_toList : ∀ (fuel : Nat) (l : List Nat), l.length ≤ fuel → (build fuel l).toList = l := by
  intro fuel
  induction fuel with
  | zero => intro l h; cases l with
    | nil => rfl
    | cons a b => simp at h
  | succ fuel ih =>
    intro l h
    unfold build
    split
    · next e =>
      rw [List.drop_eq_nil_iff] at e
      have : l.length = 0 := by omega
      rw [List.length_eq_zero_iff.1 this]; rfl
    · next k r e =>
      have hl : (l.drop (l.length / 2)).length = r.length + 1 := by rw [e]; rfl
      rw [List.length_drop] at hl
      rw [Tree.toList, ih _ (by rw [List.length_take]; omega), ih r (by omega), ← e, List.take_append_drop]

theorem build_size {fuel : Nat} {l : List Nat} (h : l.length ≤ fuel) : (build fuel l).size = l.length := by
  rw [Tree.size_eq_length, build_toList fuel l h]

theorem build_larger {fuel : Nat} {l : List Nat} (h : l.length ≤ fuel) : (build fuel l).larger ≤ l.length / 2 := by
  cases fuel with
  | zero => simp [build, Tree.larger]
  | succ fuel =>
    unfold build
    split
    · simp [Tree.larger]
    · next k r e =>
      have hl : (l.drop (l.length / 2)).length = r.length + 1 := by rw [e]; rfl
      rw [List.length_drop] at hl
      simp only [Tree.larger]
      rw [build_size (by rw [List.length_take]; omega), build_size (by omega), List.length_take]
      omega

theorem build_balanced : ∀ (fuel : Nat) (l : List Nat), l.length ≤ fuel → (build fuel l).SizeBalanced := by
  intro fuel
  induction fuel with
  | zero => intro l h; trivial
  | succ fuel ih =>
    intro l h
    unfold build
    split
    · trivial
    · next k r e =>
      have hl : (l.drop (l.length / 2)).length = r.length + 1 := by rw [e]; rfl
      rw [List.length_drop] at hl
      have ht : (l.take (l.length / 2)).length = l.length / 2 := by rw [List.length_take]; omega
      refine ⟨ih _ (by omega), ih _ (by omega), ?_, ?_⟩
      · refine Nat.le_trans (build_larger (by omega)) ?_
        rw [build_size (by omega), ht]; omega
      · refine Nat.le_trans (build_larger (by omega)) ?_
        rw [build_size (by omega), ht]; omega

theorem writeTree_off (m : TMem) (t : Tree) {k : Nat} (hk : k ∉ t.toList) :
    (writeTree m t).left k = m.left k ∧ (writeTree m t).right k = m.right k ∧
      (writeTree m t).size k = m.size k := by
  induction t generalizing m with
  | leaf => exact ⟨rfl, rfl, rfl⟩
  | node a x b iha ihb =>
    simp only [Tree.toList, List.mem_append, List.mem_cons, not_or] at hk
    have h1 := iha m hk.1
    have h2 := ihb (writeTree m a) hk.2.2
    simp only [writeTree, putNode, hk.2.1, if_false]
    exact ⟨h2.1.trans h1.1, h2.2.1.trans h1.2.1, h2.2.2.trans h1.2.2⟩

theorem holds_writeTree (m : TMem) (t : Tree) (hn : t.toList.Nodup) (hz : ∀ x ∈ t.toList, x ≠ 0) :
    Holds (writeTree m t) t t.root := by
  induction t generalizing m with
  | leaf => rfl
  | node a k b iha ihb =>
    simp only [Tree.toList, List.nodup_append, List.nodup_cons, List.mem_cons, List.mem_append] at hn hz
    obtain ⟨ha, ⟨hkb, hb⟩, hab⟩ := hn
    have hka : k ∉ a.toList := fun hx => hab k hx k (.inl rfl) rfl
    refine ⟨rfl, hz k (.inr (.inl rfl)), ?_, ?_, ?_⟩
    · have e : (writeTree m (.node a k b)).left k = a.root := by simp [writeTree, putNode]
      rw [e]
      refine (iha m ha fun x hx => hz x (.inl hx)).congr fun x hx => ?_
      have hxk : x ≠ k := fun e => hka (e ▸ hx)
      have := writeTree_off (writeTree m a) b (k := x) fun h => hab x hx x (.inr h) rfl
      simpa [writeTree, putNode, hxk] using this
    · have e : (writeTree m (.node a k b)).right k = b.root := by simp [writeTree, putNode]
      rw [e]
      refine (ihb (writeTree m a) hb fun x hx => hz x (.inr (.inr hx))).congr fun x hx => ?_
      have hxk : x ≠ k := fun e => hkb (e ▸ hx)
      simp [writeTree, putNode, hxk]
    · simp [writeTree, putNode, Tree.size]

/-- Write a list of nodes as a balanced tree. -/
def writeBalanced (m : TMem) (l : List Nat) : TMem × Nat :=
  (writeTree m (build l.length l), (build l.length l).root)

/-- Attach: read, insert, write. -/
def attachBal (lt _gt : Nat → Nat → Bool) (m : TMem) (r n : Nat) : Option (TMem × Nat) :=
  forceNat n fun n => forceList (insertBy lt n (readTree m (m.size r + 1) r)) fun l =>
  some (writeBalanced m l)

/-- Detach: read, remove, write, clear. -/
def detachBal (_lt _gt : Nat → Nat → Bool) (m : TMem) (r n : Nat) : Option (TMem × Nat) :=
  forceNat n fun n => forceList ((readTree m (m.size r + 1) r).erase n) fun l =>
  some (putNode (writeBalanced m l).1 n 0 0 0, (writeBalanced m l).2)

/-- The size-balanced reference implementation. -/
def balanced : TreesCrate := ⟨Tree.SizeBalanced, attachBal, detachBal, listAttachFirst, listDetach⟩

theorem balanced_lawful : LawfulTrees balanced where
  leaf := trivial
  attach := by
    intro lt gt m t r n w h hz hn _ _
    have hl := readRoot h.holds
    have hp := insertBy_perm lt n t.toList
    have hnd : (insertBy lt n t.toList).Nodup := hp.nodup_iff.2 (List.nodup_cons.2 ⟨hn, h.nodup⟩)
    have hnz : ∀ x ∈ insertBy lt n t.toList, x ≠ 0 := by
      intro x hx
      rcases List.mem_cons.1 (hp.mem_iff.1 hx) with rfl | hx
      · exact hz
      · exact h.holds.nonzero x hx
    have hb := build_toList _ (insertBy lt n t.toList) (Nat.le_refl _)
    refine ⟨_, _, build _ (insertBy lt n t.toList), by simp only [balanced, attachBal, hl, forceNat_eq, forceList_eq]; rfl,
      ⟨build_balanced _ _ (Nat.le_refl _), holds_writeTree m _ (by rw [hb]; exact hnd) (by rw [hb]; exact hnz),
       by rw [hb]; exact hnd, by rw [hb]; exact insertBy_ordered w n _ h.ordered⟩, by rw [hb]; exact hp, ?_⟩
    intro k hk
    exact writeTree_off m _ (by rw [hb]; exact fun hm => hk (hp.mem_iff.1 hm))
  detach := by
    intro lt gt m t r n w h hn _
    have hl := readRoot h.holds
    have hsub : (t.toList.erase n).Sublist t.toList := List.erase_sublist
    have hnd := h.nodup.erase n
    have hnot : n ∉ t.toList.erase n := fun hm => ((h.nodup.mem_erase_iff).1 hm).1 rfl
    have hb := build_toList _ (t.toList.erase n) (Nat.le_refl _)
    refine ⟨_, _, build _ (t.toList.erase n), by simp only [balanced, detachBal, hl, forceNat_eq, forceList_eq]; rfl,
      ⟨build_balanced _ _ (Nat.le_refl _), ?_, by rw [hb]; exact hnd,
       by rw [hb]; exact h.ordered.sublist hsub⟩, ?_, by simp [putNode], by simp [putNode],
       by simp [putNode], ?_⟩
    · refine (holds_writeTree m _ (by rw [hb]; exact hnd) fun x hx =>
        h.holds.nonzero x (hsub.subset (by rwa [hb] at hx))).congr ?_
      intro x hx
      rw [hb] at hx
      have : x ≠ n := fun e => hnot (e ▸ hx)
      simp [putNode, this, writeBalanced]
    · rw [hb]; exact (List.perm_cons_erase hn).symm
    · intro k hk
      have hkn : k ≠ n := fun e => hk (e ▸ hn)
      have := writeTree_off m (build _ (t.toList.erase n)) (k := k) (by rw [hb]; exact fun hm => hk (hsub.subset hm))
      simp [putNode, hkn, this, writeBalanced]
  listAttachFirst := lawful.listAttachFirst
  listDetach := lawful.listDetach

end Verif.Ref
