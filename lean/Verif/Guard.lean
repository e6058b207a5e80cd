import Verif.TreeLemmas
import Verif.Access
import Verif.Mend

/-!
# A crate that refuses what its contract does not cover

`guard D X` does what `X` does where the contract, restricted to trees in the domain `D`, promises something, and fails
elsewhere. It keeps that contract, so all theorems about stores over such a crate hold over it too; and where a call over it
returns, every operation of the crate on the way was within the contract. (Helper for the accessor level of the split store.)
-/

namespace Verif

variable {D : (Nat → Nat → Bool) → (Nat → Nat → Bool) → List Nat → Prop}

/-- The contract covers the insertion. -/
def AttachPre (D : (Nat → Nat → Bool) → (Nat → Nat → Bool) → List Nat → Prop) (X : TreesCrate) (lt gt : Nat → Nat → Bool) (m : TMem) (r n : Nat) (t : Tree) : Prop :=
  WeakOrd lt gt ∧ IsTree X.shape lt m t r ∧ n ≠ 0 ∧ n ∉ t.toList ∧ m.left n = 0 ∧ m.right n = 0 ∧ D lt gt (n :: t.toList)

/-- The contract covers the removal. -/
def DetachPre (D : (Nat → Nat → Bool) → (Nat → Nat → Bool) → List Nat → Prop) (X : TreesCrate) (lt gt : Nat → Nat → Bool) (m : TMem) (r n : Nat) (t : Tree) : Prop :=
  WeakOrd lt gt ∧ IsTree X.shape lt m t r ∧ n ∈ t.toList ∧ (∀ k ∈ t.toList, k ≠ n → lt n k = true ∨ gt n k = true) ∧
    D lt gt t.toList

open Classical in
/-- The crate, failing where its contract promises nothing. -/
noncomputable def guard (D : (Nat → Nat → Bool) → (Nat → Nat → Bool) → List Nat → Prop) (X : TreesCrate) : TreesCrate where
  shape := X.shape
  treeAttach lt gt m r n := if ∃ t, AttachPre D X lt gt m r n t then X.treeAttach lt gt m r n else none
  treeDetach lt gt m r n := if ∃ t, DetachPre D X lt gt m r n t then X.treeDetach lt gt m r n else none
  listAttachFirst m n := if ∃ l, IsList m l ∧ n ≠ 0 ∧ n ∉ l then X.listAttachFirst m n else none
  listDetach m n := if ∃ l, IsList m l ∧ n ∈ l then X.listDetach m n else none

theorem guard_attach {X : TreesCrate} {lt gt : Nat → Nat → Bool} {m : TMem} {r n : Nat} {v : TMem × Nat}
    (h : (guard D X).treeAttach lt gt m r n = some v) :
    X.treeAttach lt gt m r n = some v ∧ ∃ t, AttachPre D X lt gt m r n t := by
  simp only [guard] at h
  split at h
  · next hp => exact ⟨h, hp⟩
  · cases h

theorem guard_detach {X : TreesCrate} {lt gt : Nat → Nat → Bool} {m : TMem} {r n : Nat} {v : TMem × Nat}
    (h : (guard D X).treeDetach lt gt m r n = some v) :
    X.treeDetach lt gt m r n = some v ∧ ∃ t, DetachPre D X lt gt m r n t := by
  simp only [guard] at h
  split at h
  · next hp => exact ⟨h, hp⟩
  · cases h

theorem guard_listAttachFirst {X : TreesCrate} {m v : LMem} {n : Nat} (h : (guard D X).listAttachFirst m n = some v) :
    X.listAttachFirst m n = some v ∧ ∃ l, IsList m l ∧ n ≠ 0 ∧ n ∉ l := by
  simp only [guard] at h
  split at h
  · next hp => exact ⟨h, hp⟩
  · cases h

theorem guard_listDetach {X : TreesCrate} {m v : LMem} {n : Nat} (h : (guard D X).listDetach m n = some v) :
    X.listDetach m n = some v ∧ ∃ l, IsList m l ∧ n ∈ l := by
  simp only [guard] at h
  split at h
  · next hp => exact ⟨h, hp⟩
  · cases h

theorem guard_lawful {X : TreesCrate} (h : LawfulTrees X) : LawfulTrees (guard (fun _ _ _ => True) X) where
  leaf := h.leaf
  attach lt gt m t r n h1 h2 h3 h4 h5 h6 := by
    have := h.attach lt gt m t r n h1 h2 h3 h4 h5 h6
    simp only [guard]
    rw [if_pos ⟨t, h1, h2, h3, h4, h5, h6, trivial⟩]
    exact this
  detach lt gt m t r n h1 h2 h3 h4 := by
    have := h.detach lt gt m t r n h1 h2 h3 h4
    simp only [guard]
    rw [if_pos ⟨t, h1, h2, h3, h4, trivial⟩]
    exact this
  listAttachFirst m l n h1 h2 h3 := by
    have := h.listAttachFirst m l n h1 h2 h3
    simp only [guard]
    rw [if_pos ⟨l, h1, h2, h3⟩]
    exact this
  listDetach m l n h1 h2 := by
    have := h.listDetach m l n h1 h2
    simp only [guard]
    rw [if_pos ⟨l, h1, h2⟩]
    exact this

/-- The crate that fails where the weaker contract promises nothing keeps that contract. -/
theorem guard_weak {X : TreesCrate} (h : LawfulTrees₀ X) : LawfulTrees₀ (guard Apart X) where
  leaf := h.leaf
  attach lt gt m t r n h1 h2 h3 h4 h5 h6 h7 := by
    have := h.attach lt gt m t r n h1 h2 h3 h4 h5 h6 h7
    simp only [guard]
    rw [if_pos ⟨t, h1, h2, h3, h4, h5, h6, h7⟩]
    exact this
  detach lt gt m t r n h1 h2 h3 h4 := by
    have := h.detach lt gt m t r n h1 h2 h3 h4
    simp only [guard]
    rw [if_pos ⟨t, h1, h2, h3, fun k hk hkn => h4 n h3 k hk (Ne.symm hkn), h4⟩]
    exact this
  listAttachFirst m l n h1 h2 h3 := by
    have := h.listAttachFirst m l n h1 h2 h3
    simp only [guard]
    rw [if_pos ⟨l, h1, h2, h3⟩]
    exact this
  listDetach m l n h1 h2 := by
    have := h.listDetach m l n h1 h2
    simp only [guard]
    rw [if_pos ⟨l, h1, h2⟩]
    exact this

/-- A program for the crate is, on trees without equal nodes, a program for the mended crate. -/
theorem Programs.ImplementsOn.mend {P : Programs} {X : TreesCrate} (h : P.ImplementsOn Apart X) :
    P.ImplementsOn Apart (Verif.mend X) where
  attach lt gt m t r n h1 h2 h3 h4 h5 h6 h7 := by
    rw [mend_attach (X := X) h2 h7]
    exact h.attach lt gt m t r n h1 h2 h3 h4 h5 h6 h7
  detach lt gt m t r n h1 h2 h3 h4 h5 := by
    rw [mend_detach (X := X) h2 h5]
    exact h.detach lt gt m t r n h1 h2 h3 h4 h5
  listAttachFirst := h.listAttachFirst
  listDetach := h.listDetach

/-- A memory holds one list only. -/
theorem IsList.unique {m : LMem} {l l' : List Nat} (h : IsList m l) (h' : IsList m l') : l = l' := by
  have hlen : l.length = l'.length := h.size_eq.symm.trans h'.size_eq
  have key : ∀ i, i < l.length → l.getD i 0 = l'.getD i 0 := by
    intro i
    induction i with
    | zero =>
      intro _
      have := h.first_eq.symm.trans h'.first_eq
      cases l <;> cases l' <;> simp_all
    | succ i ih =>
      intro hi
      have e := ih (by omega)
      have n1 := h.next_eq i (by omega)
      have n2 := h'.next_eq i (by omega)
      rw [e, n2, Nat.mod_eq_of_lt (by omega), Nat.mod_eq_of_lt hi] at n1
      exact n1.symm
  refine List.ext_getElem hlen fun i h1 h2 => ?_
  have := key i h1
  simpa [List.getD_eq_getElem?_getD, List.getElem?_eq_getElem, h1, h2] using this

end Verif
