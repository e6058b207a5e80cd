import Verif.TreeLemmas

/-!
# A reference implementation of the `trees` interface

The algorithms of the external crate are not available, so this module shows that the contract
`LawfulTrees` can be met, and supplies something executable for the concrete examples. It models no code.
-/

namespace Verif.Ref
open Verif

/-! ### Trees -/

/-- In-order reading of a tree laid out in memory. -/
def readTree (m : TMem) : Nat → Nat → List Nat
  | 0, _ => []
  | f + 1, r => if r = 0 then [] else readTree m f (m.left r) ++ r :: readTree m f (m.right r)

/-- The tree with only right children. -/
def spine : List Nat → Tree
  | [] => .leaf
  | k :: ks => .node .leaf k (spine ks)

/-- Set the fields of one node. -/
def putNode (m : TMem) (k l r z : Nat) : TMem :=
  ⟨fun x => if x = k then l else m.left x, fun x => if x = k then r else m.right x,
   fun x => if x = k then z else m.size x⟩

/-- Write a list of nodes as a right spine. -/
def writeSpine (m : TMem) : List Nat → TMem
  | [] => m
  | k :: ks => putNode (writeSpine m ks) k 0 (ks.headD 0) (ks.length + 1)

/-- Insertion before the first greater element. -/
def insertBy (lt : Nat → Nat → Bool) (n : Nat) : List Nat → List Nat
  | [] => [n]
  | k :: ks => if lt n k then n :: k :: ks else k :: insertBy lt n ks

/-- `f n`, with `n` evaluated first (keeps the kernel from re-evaluating it in closures). -/
def forceNat {α : Type} (n : Nat) (f : Nat → α) : α :=
  match n with
  | 0 => f 0
  | k + 1 => f (k + 1)

/-- `f l`, with all of `l` evaluated first. -/
def forceList {α : Type} : List Nat → (List Nat → α) → α
  | [], f => f []
  | x :: xs, f => forceNat x fun x => forceList xs fun xs => f (x :: xs)

theorem forceNat_eq {α : Type} (n : Nat) (f : Nat → α) : forceNat n f = f n := by
  cases n <;> rfl

theorem forceList_eq {α : Type} (l : List Nat) (f : List Nat → α) : forceList l f = f l := by
  induction l generalizing f with
  | nil => rfl
  | cons x xs ih => simp [forceList, forceNat_eq, ih]

/-- Attach: read, insert, write. -/
def attach (lt _gt : Nat → Nat → Bool) (m : TMem) (r n : Nat) : Option (TMem × Nat) :=
  forceNat n fun n => forceList (insertBy lt n (readTree m (m.size r + 1) r)) fun l =>
  some (writeSpine m l, l.headD 0)

/-- Detach: read, remove, write, clear. -/
def detach (_lt _gt : Nat → Nat → Bool) (m : TMem) (r n : Nat) : Option (TMem × Nat) :=
  forceNat n fun n => forceList ((readTree m (m.size r + 1) r).erase n) fun l =>
  some (putNode (writeSpine m l) n 0 0 0, l.headD 0)

theorem readTree_eq {m : TMem} : ∀ (t : Tree) (r f : Nat), Holds m t r → t.size < f →
    readTree m f r = t.toList := by
  intro t
  induction t with
  | leaf => intro r f h hf; cases f with
    | zero => omega
    | succ f => simp [readTree, show r = 0 from h, Tree.toList]
  | node a k b iha ihb =>
    intro r f h hf
    obtain ⟨h1, h2, h3, h4, h5⟩ := h
    subst h1
    cases f with
    | zero => omega
    | succ f =>
      simp only [Tree.size] at hf
      simp [readTree, h2, iha _ f h3 (by omega), ihb _ f h4 (by omega), Tree.toList]

theorem readRoot {m : TMem} {t : Tree} {r : Nat} (h : Holds m t r) :
    readTree m (m.size r + 1) r = t.toList := by
  cases t with
  | leaf => simp [readTree, show r = 0 from h, Tree.toList]
  | node a k b =>
    obtain ⟨h1, h2, h3, h4, h5⟩ := id h
    apply readTree_eq _ _ _ h
    rw [h1, h5]; omega

theorem spine_toList (l : List Nat) : (spine l).toList = l := by
  induction l with
  | nil => rfl
  | cons k ks ih => simp [spine, Tree.toList, ih]

theorem writeSpine_off (m : TMem) (l : List Nat) (k : Nat) (hk : k ∉ l) :
    (writeSpine m l).left k = m.left k ∧ (writeSpine m l).right k = m.right k ∧
      (writeSpine m l).size k = m.size k := by
  induction l with
  | nil => exact ⟨rfl, rfl, rfl⟩
  | cons x xs ih =>
    simp only [List.mem_cons, not_or] at hk
    have := ih hk.2
    simp [writeSpine, putNode, hk.1, this]

theorem holds_writeSpine (m : TMem) : ∀ (l : List Nat), l.Nodup → (∀ x ∈ l, x ≠ 0) →
    Holds (writeSpine m l) (spine l) (l.headD 0) := by
  intro l
  induction l with
  | nil => intro _ _; rfl
  | cons k ks ih =>
    intro hn hz
    rw [List.nodup_cons] at hn
    refine ⟨rfl, hz k (by simp), ?_, ?_, ?_⟩
    · simp [writeSpine, putNode, Holds]
    · have h := ih hn.2 (fun x hx => hz x (by simp [hx]))
      have : (writeSpine m (k :: ks)).right k = ks.headD 0 := by simp [writeSpine, putNode]
      rw [this]
      refine h.congr fun x hx => ?_
      rw [spine_toList] at hx
      have hxk : x ≠ k := fun e => hn.1 (e ▸ hx)
      simp [writeSpine, putNode, hxk]
    · rw [Tree.size_eq_length, show Tree.node .leaf k (spine ks) = spine (k :: ks) from rfl, spine_toList]
      simp [writeSpine, putNode]

theorem insertBy_perm (lt : Nat → Nat → Bool) (n : Nat) (l : List Nat) :
    (insertBy lt n l).Perm (n :: l) := by
  induction l with
  | nil => exact .refl _
  | cons k ks ih =>
    simp only [insertBy]
    split
    · exact .refl _
    · exact (ih.cons k).trans (.swap n k ks)

theorem insertBy_ordered {lt gt : Nat → Nat → Bool} (w : WeakOrd lt gt) (n : Nat) (l : List Nat)
    (h : Ordered lt l) : Ordered lt (insertBy lt n l) := by
  induction l with
  | nil => simp [insertBy, Ordered]
  | cons k ks ih =>
    have hp : (∀ b ∈ ks, lt b k = false) ∧ Ordered lt ks := by
      simpa [Ordered, List.pairwise_cons] using h
    simp only [insertBy]
    by_cases hl : lt n k = true
    · rw [if_pos hl]
      have hkn : lt k n = false := by
        cases hh : lt k n with
        | false => rfl
        | true => have := w.trans _ _ _ hl hh; rw [w.irrefl] at this; exact absurd this (by simp)
      refine List.pairwise_cons.2 ⟨?_, h⟩
      intro b hb
      rcases List.mem_cons.1 hb with rfl | hb
      · exact hkn
      · exact w.ntrans _ _ _ (hp.1 b hb) hkn
    · rw [if_neg hl]
      refine List.pairwise_cons.2 ⟨?_, ih hp.2⟩
      intro b hb
      rcases List.mem_cons.1 ((insertBy_perm lt n ks).mem_iff.1 hb) with rfl | hb
      · simpa using hl
      · exact hp.1 b hb

/-! ### Lists -/

/-- Follow the `next` pointers. -/
def readList (m : LMem) : Nat → Nat → List Nat
  | 0, _ => []
  | f + 1, x => x :: readList m f (m.next x)

/-- Write a circular list. -/
def writeList (m : LMem) (l : List Nat) : LMem where
  prev x := if x ∈ l then l.getD ((l.idxOf x + (l.length - 1)) % l.length) 0 else m.prev x
  next x := if x ∈ l then l.getD ((l.idxOf x + 1) % l.length) 0 else m.next x
  first := l.headD 0
  last := l.getLastD 0
  size := l.length

/-- Attach at the front. -/
def listAttachFirst (m : LMem) (n : Nat) : Option LMem :=
  forceList (n :: readList m m.size m.first) fun l => some (writeList m l)

/-- Detach. -/
def listDetach (m : LMem) (n : Nat) : Option LMem :=
  forceNat n fun n => forceList ((readList m m.size m.first).erase n) fun l =>
  let m' := writeList m l
  some { m' with prev := fun x => if x = n then 0 else m'.prev x
                 next := fun x => if x = n then 0 else m'.next x }

theorem getD_lt {l : List Nat} {i : Nat} (h : i < l.length) : l.getD i 0 = l[i] := by
  simp [List.getD_eq_getElem?_getD, h]

theorem readList_aux {m : LMem} {l : List Nat} (h : IsList m l) : ∀ (f i : Nat), i + f = l.length →
    readList m f (l.getD i 0) = l.drop i := by
  intro f
  induction f with
  | zero => intro i hi; simp [readList, show l.length ≤ i by omega]
  | succ f ih =>
    intro i hi
    have hlt : i < l.length := by omega
    rw [readList, h.next_eq i hlt, List.drop_eq_getElem_cons hlt, getD_lt hlt]
    congr 1
    cases f with
    | zero => simp [readList, show l.length ≤ i + 1 by omega]
    | succ f => rw [Nat.mod_eq_of_lt (by omega)]; exact ih (i + 1) (by omega)

theorem readList_eq {m : LMem} {l : List Nat} (h : IsList m l) : readList m m.size m.first = l := by
  have := readList_aux h l.length 0 (by omega)
  rw [h.size_eq, h.first_eq]
  cases l with
  | nil => rfl
  | cons a b => simpa using this

theorem writeList_isList (m : LMem) {l : List Nat} (hn : l.Nodup) (hz : ∀ x ∈ l, x ≠ 0) :
    IsList (writeList m l) l := by
  have key : ∀ i (_ : i < l.length), l.getD i 0 ∈ l ∧ l.idxOf (l.getD i 0) = i := by
    intro i hi
    rw [getD_lt hi]
    exact ⟨List.getElem_mem hi, hn.idxOf_getElem i hi⟩
  refine ⟨hn, hz, rfl, rfl, rfl, ?_, ?_⟩
  · intro i hi
    have := key i hi
    simp only [writeList, this, if_true]
  · intro i hi
    have hp : 0 < l.length := by omega
    have := key _ (Nat.mod_lt (i + 1) hp)
    simp only [writeList, this, if_true]
    congr 1
    rw [Nat.mod_add_mod, show i + 1 + (l.length - 1) = i + l.length by omega, Nat.add_mod_right,
      Nat.mod_eq_of_lt hi]

theorem writeList_off (m : LMem) {l : List Nat} {k : Nat} (hk : k ∉ l) :
    (writeList m l).prev k = m.prev k ∧ (writeList m l).next k = m.next k := by
  simp [writeList, hk]

/-! ### The instance -/

/-- The reference implementation. -/
def trees : TreesCrate := ⟨fun _ => True, attach, detach, listAttachFirst, listDetach⟩

theorem lawful : LawfulTrees trees where
  leaf := trivial
  attach := by
    intro lt gt m t r n w h hz hn _ _
    have hl := readRoot h.holds
    have hp := insertBy_perm lt n t.toList
    have hnd : (insertBy lt n t.toList).Nodup := hp.nodup_iff.2 (List.nodup_cons.2 ⟨hn, h.nodup⟩)
    have hnz : ∀ x ∈ insertBy lt n t.toList, x ≠ 0 := by
      intro x hx
      rcases List.mem_cons.1 (hp.mem_iff.1 hx) with rfl | hx
      · exact hz
      · exact h.holds.nonzero x hx
    refine ⟨_, _, spine (insertBy lt n t.toList), by simp only [trees, attach, hl, forceNat_eq, forceList_eq],
      ⟨trivial, holds_writeSpine m _ hnd hnz, by rw [spine_toList]; exact hnd,
       by rw [spine_toList]; exact insertBy_ordered w n _ h.ordered⟩, by rw [spine_toList]; exact hp, ?_⟩
    intro k hk
    exact writeSpine_off m _ k fun hm => hk (hp.mem_iff.1 hm)
  detach := by
    intro lt gt m t r n w h hn _
    have hl := readRoot h.holds
    have hsub : (t.toList.erase n).Sublist t.toList := List.erase_sublist
    have hnd := h.nodup.erase n
    have hnot : n ∉ t.toList.erase n := fun hm => ((h.nodup.mem_erase_iff).1 hm).1 rfl
    refine ⟨_, _, spine (t.toList.erase n), by simp only [trees, detach, hl, forceNat_eq, forceList_eq]; rfl,
      ⟨trivial, ?_, by rw [spine_toList]; exact hnd,
       by rw [spine_toList]; exact h.ordered.sublist hsub⟩, ?_, by simp [putNode], by simp [putNode],
       by simp [putNode], ?_⟩
    · refine (holds_writeSpine m _ hnd fun x hx => h.holds.nonzero x (hsub.subset hx)).congr ?_
      intro x hx
      rw [spine_toList] at hx
      have : x ≠ n := fun e => hnot (e ▸ hx)
      simp [putNode, this]
    · rw [spine_toList]; exact (List.perm_cons_erase hn).symm
    · intro k hk
      have hkn : k ≠ n := fun e => hk (e ▸ hn)
      have := writeSpine_off m (t.toList.erase n) k fun hm => hk (hsub.subset hm)
      simp [putNode, hkn, this]
  listAttachFirst := by
    intro m l n h hz hn
    refine ⟨_, by simp only [trees, listAttachFirst, readList_eq h, forceList_eq]; rfl, ?_, ?_⟩
    · apply writeList_isList _ (List.nodup_cons.2 ⟨hn, h.nodup⟩)
      intro x hx
      rcases List.mem_cons.1 hx with rfl | hx
      · exact hz
      · exact h.nonzero x hx
    · intro k hk; exact writeList_off m hk
  listDetach := by
    intro m l n h hn
    have hsub : (l.erase n).Sublist l := List.erase_sublist
    have hnot : n ∉ l.erase n := fun hm => ((h.nodup.mem_erase_iff).1 hm).1 rfl
    refine ⟨_, by simp only [trees, listDetach, readList_eq h, forceNat_eq, forceList_eq]; rfl, ?_, by simp, by simp, ?_⟩
    · refine (writeList_isList m (h.nodup.erase n) fun x hx => h.nonzero x (hsub.subset hx)).congr
        rfl rfl rfl ?_
      intro k hk
      have : k ≠ n := fun e => hnot (e ▸ hk)
      simp [this]
    · intro k hk
      have hkn : k ≠ n := fun e => hk (e ▸ hn)
      have := writeList_off m (l := l.erase n) (k := k) fun hm => hk (hsub.subset hm)
      simp [hkn, this]

end Verif.Ref
