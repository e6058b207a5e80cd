import Verif.Split.AccessLaws
import Verif.Split.CrashLaws

/-!
# The accessor level of the split store: whole calls

`gc D c` is the configuration with the guarded crate. If a piece of code over `gc D c` ends, then each of its operations on
trees and lists was within the contract, so the same code through the accessors ends in the same state (`Follows`), and
each of its memory images differs from an image of `Split/Crash.lean` only in the links between tree nodes and, inside the
list of unused slots, in the data parts of that list.
-/

namespace Verif.Split
open Verif
open Verif.Unit (Hdr)
variable {c : Cfg} {P : Programs} {L : Nat} {D : (Nat → Nat → Bool) → (Nat → Nat → Bool) → List Nat → Prop}

/-- The configuration with the guarded crate. -/
noncomputable def gc (D : (Nat → Nat → Bool) → (Nat → Nat → Bool) → List Nat → Prop) (c : Cfg) : Cfg :=
  { c with trees := guard D c.trees }

/-- Both memories have `L` slots, which the links fit in, and the pointers are up to date. -/
structure Sz (L : Nat) (s : Store) : Prop where
  fresh : s.stale = false
  dlen : s.dlen = L
  ilen : s.ilen = L
  alloc : s.hdr.allocated < L

/-- Neither the trees nor the list of unused slots reach beyond the slots in use. -/
structure Tidy (s : Store) : Prop where
  tree : ∀ d k, s.hdr.allocated < k → nodeOf d (s.idx k) = (0, 0, 0)
  list : ∀ l, IsList s.listMem l → ∀ k ∈ l, k ≤ s.hdr.allocated

theorem Tidy.inMem {s : Store} (h : Tidy s) (hz : Sz L s) {X : Tree → Prop} {lt : Nat → Nat → Bool} {d : Side} {t : Tree}
    {r : Nat} (ht : IsTree X lt (s.tmem d) t r) {k : Nat} (hk : k ∈ t.toList) : k ≠ 0 ∧ k < L := by
  refine ⟨ht.holds.nonzero k hk, ?_⟩
  have hp := ht.holds.size_pos k hk
  apply Classical.byContradiction
  intro hn
  have := h.tree d k (by have := hz.alloc; omega)
  simp only [Store.tmem, this] at hp
  omega

theorem Sz.mem {s : Store} (h : Sz L s) {k : Nat} (hk : k ≠ 0 ∧ k < L) : InMem s k :=
  ⟨hk.1, by rw [h.ilen]; exact hk.2, by rw [h.dlen]; exact hk.2⟩

theorem Sz.pos {s : Store} (h : Sz L s) : 0 < s.ilen := by have := h.alloc; have := h.ilen; omega

/-! ### Reads -/

theorem isUnusedA_of {s : Store} (h : Sz L s) (n : Nat) : isUnusedA n (.of s) = isUnused s n := by
  simp only [isUnusedA, header_of .main h.pos, Option.bind_some, isUnused, getI_eq, getD_eq]

theorem getLinkA_of {s : Store} (h : Sz L s) (n : Nat) : getLinkA c n (.of s) = getLink c s n := by
  simp only [getLinkA, existsA, header_of .main h.pos, Option.bind_some, isUnusedA_of h, getLink, exists?, getD_eq,
    getLinkUnchecked]
  congr 1
  funext e
  cases e with
  | false => rfl
  | true => simp only [if_true]; cases s.getD n <;> rfl

theorem readA_of {α : Type} {s : Store} (h : Sz L s) {f : Store → Option α} {x : α} (hx : f s = some x)
    {I : AStore → Prop} : (readA f).Does (.of s) x (.of s) I := by
  refine .ask ?_
  simp [AStore.of, h.fresh, hx]

/-! ### Single operations -/

/-- `x` is `m` but for tree fields, and where `m` has no node in a tree by targets `x` has none either. -/
def Close (m : Store) (x : AStore) : Prop := SameEnds m x ∧ ∀ k, (m.idx k).sizeT = 0 → (x.s.idx k).sizeT = 0

/-- A tree that a node is taken out of: the sizes of its nodes are positive before. -/
theorem close_detach {s : Store} {d : Side} {t : Tree} {r : Nat} {X : Tree → Prop} {lt : Nat → Nat → Bool}
    (ht : IsTree X lt (s.tmem d) t r) {x : AStore} (h : SameEnds s x ∧ SameSizes (fun k => d = .tgt ∧ k ∈ t.toList) s x) :
    Close s x := by
  refine ⟨h.1, fun k hk => ?_⟩
  by_cases hm : d = .tgt ∧ k ∈ t.toList
  · obtain ⟨rfl, hm⟩ := hm
    have hp := ht.holds.size_pos k hm
    have : (s.tmem .tgt).size k = (s.idx k).sizeT := rfl
    omega
  · rw [h.2 k hm]; exact hk

/-- A tree that a node is put into: the sizes of its nodes are positive afterwards. -/
theorem close_attach {s s' : Store} {d : Side} {t t' : Tree} {i r' : Nat} {X : Tree → Prop} {lt : Nat → Nat → Bool} {m' : TMem}
    (ht : IsTree X lt m' t' r') (hp : t'.toList.Perm (i :: t.toList)) (he : ∀ x, SameEnds s x → SameEnds s' x)
    (hn : ∀ k, (s'.idx k).sizeT = if d = .tgt then m'.size k else (s.idx k).sizeT)
    (hs : ∀ k, k ∉ i :: t.toList → m'.size k = (s.tmem d).size k) {x : AStore}
    (h : SameEnds s x ∧ SameSizes (fun k => d = .tgt ∧ k ∈ i :: t.toList) s x) : Close s' x := by
  refine ⟨he x h.1, fun k hk => ?_⟩
  rw [hn] at hk
  by_cases hd : d = .tgt
  · subst hd
    rw [if_pos rfl] at hk
    by_cases hm : k ∈ i :: t.toList
    · have := ht.holds.size_pos k (hp.mem_iff.2 hm); omega
    · rw [h.2 k fun g => hm g.2]
      rw [hs k hm] at hk
      exact hk
  · rw [if_neg hd] at hk
    rw [h.2 k fun g => hd g.1]; exact hk

theorem detachIntA_does (hP : P.ImplementsOn D c.trees) {s s' : Store} (hz : Sz L s) (ht : Tidy s) {d : Side} {a i : Nat}
    (ha : a ≠ 0) (hs : detachInt (gc D c) d s a i = some s') :
    Sz L s' ∧ (i ≠ 0 ∧ i < L) ∧ detachInt c d s a i = some s' ∧
      Ev fun f => (detachIntA P f d a i).Does (.of s) () (.of s') (Close s) := by
  unfold detachInt at hs
  split at hs
  · next hl =>
    cases hv : (gc D c).trees.treeDetach (s.ltI d) (s.gtI d) (s.tmem d) (rootOf d (s.idx a)) i with
    | none => rw [hv] at hs; cases hs
    | some v =>
      rw [hv] at hs
      simp only [Option.map_some, Option.some.injEq] at hs
      obtain ⟨hv, t, h1, h2, h3, h4, hD⟩ := guard_detach hv
      have hin := fun k hk => ht.inMem hz h2 (k := k) hk
      refine ⟨hs ▸ ⟨hz.fresh, hz.dlen, hz.ilen, hz.alloc⟩, hin i h3, by simp only [detachInt, hl, if_true, hv]; rw [← hs]; rfl, ?_⟩
      refine Ev.mono (hP.detach _ _ _ _ _ i h1 h2 h3 h4 hD) fun f hf => ?_
      rw [hv] at hf
      refine Tr.Does.bind (a := (a, rootWord d)) (.ask ?_) ?_
      · simp only [rootPtr, getI_of .main ha hl]; cases d <;> rfl
      · refine (treeProg (intAcc d) (intRootAt d ha) hz.fresh (r0 := rootOf d (s.idx a)) (v := v) (by
          simp only [Store.putNodes, setIntRoot, Store.tmem, setNode_nodeOf]
          congr 1
          funext k
          by_cases hk : k = a
          · subst hk; cases d <;> simp [setRoot, rootOf]
          · simp [hk]) (fun n hn => hz.mem (hin n hn)) hf.1 hf.2 hs.symm).mono
          fun x hx => close_detach h2 hx
  · cases hs

theorem attachIntA_does (hX : LawfulTrees c.trees) (hP : P.ImplementsOn D c.trees) {s s' : Store} (hz : Sz L s) (ht : Tidy s) {d : Side} {a i : Nat}
    (ha : a ≠ 0) (hi : i < L) (hs : attachInt (gc D c) d s a i = some s') :
    Sz L s' ∧ attachInt c d s a i = some s' ∧
      Ev fun f => (attachIntA P f d a i).Does (.of s) () (.of s') (Close s') := by
  unfold attachInt at hs
  split at hs
  · next hl =>
    cases hv : (gc D c).trees.treeAttach (s.ltI d) (s.gtI d) (s.tmem d) (rootOf d (s.idx a)) i with
    | none => rw [hv] at hs; cases hs
    | some v =>
      rw [hv] at hs
      simp only [Option.map_some, Option.some.injEq] at hs
      obtain ⟨hv, t, h1, h2, h3, h4, h5, h6, hD⟩ := guard_attach hv
      obtain ⟨m', r', t', g1, g2, g3, g4⟩ := hX.attach _ _ _ _ _ i h1 h2 h3 h4 h5 h6
      rw [hv, Option.some.injEq] at g1
      subst g1
      have hin : ∀ k ∈ i :: t.toList, k ≠ 0 ∧ k < L := fun k hk => by
        rcases List.mem_cons.1 hk with rfl | hk
        · exact ⟨h3, hi⟩
        · exact ht.inMem hz h2 hk
      refine ⟨hs ▸ ⟨hz.fresh, hz.dlen, hz.ilen, hz.alloc⟩, by simp only [attachInt, hl, if_true, hv]; rw [← hs]; rfl, ?_⟩
      refine Ev.mono (hP.attach _ _ _ _ _ i h1 h2 h3 h4 h5 h6 hD) fun f hf => ?_
      rw [hv] at hf
      refine Tr.Does.bind (a := (a, rootWord d)) (.ask ?_) ?_
      · simp only [rootPtr, getI_of .main ha hl]; cases d <;> rfl
      · refine (treeProg (intAcc d) (intRootAt d ha) hz.fresh (r0 := rootOf d (s.idx a)) (v := (m', r')) (by
          simp only [Store.putNodes, setIntRoot, Store.tmem, setNode_nodeOf]
          congr 1
          funext k
          by_cases hk : k = a
          · subst hk; cases d <;> simp [setRoot, rootOf]
          · simp [hk]) (fun n hn => hz.mem (hin n hn)) hf.1 hf.2 hs.symm).mono fun x hx => ?_
        exact close_attach (d := d) g2 g3 (fun y hy => by rw [← hs]; exact hy) (fun k => by
          rw [← hs]; cases d <;> simp [Store.putInt, setNode, setRoot] <;> split <;> rfl) (fun k hk => (g4 k hk).2.2) hx
  · cases hs

theorem setExtRoot_self (d : Side) (s : Store) : setExtRoot d (s.putNodes d (s.tmem d)) (hrootOf d s.hdr) = s := by
  simp only [Store.putNodes, setExtRoot, Store.tmem, setNode_nodeOf]
  cases d <;> rfl

theorem Sz.putExt {s : Store} (h : Sz L s) (d : Side) (m : TMem) (r : Nat) : Sz L (s.putExt d m r) := by
  cases d <;> exact ⟨h.fresh, h.dlen, h.ilen, h.alloc⟩

theorem detachExtA_does (hP : P.ImplementsOn D c.trees) {s s' : Store} (hz : Sz L s) (ht : Tidy s) {d : Side} {i : Nat}
    (hs : detachExt (gc D c) d s i = some s') :
    Sz L s' ∧ (i ≠ 0 ∧ i < L) ∧ detachExt c d s i = some s' ∧
      Ev fun f => (detachExtA P f d i).Does (.of s) () (.of s') (Close s) := by
  unfold detachExt at hs
  cases hv : (gc D c).trees.treeDetach (s.cmpE (lt4 d)) (s.cmpE (gt4 d)) (s.tmem d) (hrootOf d s.hdr) i with
  | none => rw [hv] at hs; cases hs
  | some v =>
    rw [hv] at hs
    simp only [Option.map_some, Option.some.injEq] at hs
    obtain ⟨hv, t, h1, h2, h3, h4, hD⟩ := guard_detach hv
    have hin := fun k hk => ht.inMem hz h2 (k := k) hk
    refine ⟨hs ▸ hz.putExt d _ _, hin i h3, by simp only [detachExt, hv]; rw [← hs]; rfl, ?_⟩
    refine Ev.mono (hP.detach _ _ _ _ _ i h1 h2 h3 h4 hD) fun f hf => ?_
    rw [hv] at hf
    refine Tr.Does.bind (a := (0, hrootWord d)) (.ask ?_) ?_
    · simp only [hrootPtr, getI_of0 .main hz.pos]; cases d <;> rfl
    · refine (treeProg (extAcc d) (extRootAt d) hz.fresh (r0 := hrootOf d s.hdr) (v := v) (setExtRoot_self d s)
        (fun n hn => hz.mem (hin n hn)) hf.1 hf.2 hs.symm).mono
          fun x hx => close_detach h2 hx

theorem attachExtA_does (hX : LawfulTrees c.trees) (hP : P.ImplementsOn D c.trees) {s s' : Store} (hz : Sz L s) (ht : Tidy s) {d : Side} {i : Nat}
    (hi : i < L) (hs : attachExt (gc D c) d s i = some s') :
    Sz L s' ∧ attachExt c d s i = some s' ∧
      Ev fun f => (attachExtA P f d i).Does (.of s) () (.of s') (Close s') := by
  unfold attachExt at hs
  cases hv : (gc D c).trees.treeAttach (s.cmpE (lt4 d)) (s.cmpE (gt4 d)) (s.tmem d) (hrootOf d s.hdr) i with
  | none => rw [hv] at hs; cases hs
  | some v =>
    rw [hv] at hs
    simp only [Option.map_some, Option.some.injEq] at hs
    obtain ⟨hv, t, h1, h2, h3, h4, h5, h6, hD⟩ := guard_attach hv
    obtain ⟨m', r', t', g1, g2, g3, g4⟩ := hX.attach _ _ _ _ _ i h1 h2 h3 h4 h5 h6
    rw [hv, Option.some.injEq] at g1
    subst g1
    have hin : ∀ k ∈ i :: t.toList, k ≠ 0 ∧ k < L := fun k hk => by
      rcases List.mem_cons.1 hk with rfl | hk
      · exact ⟨h3, hi⟩
      · exact ht.inMem hz h2 hk
    refine ⟨hs ▸ hz.putExt d _ _, by simp only [attachExt, hv]; rw [← hs]; rfl, ?_⟩
    refine Ev.mono (hP.attach _ _ _ _ _ i h1 h2 h3 h4 h5 h6 hD) fun f hf => ?_
    rw [hv] at hf
    refine Tr.Does.bind (a := (0, hrootWord d)) (.ask ?_) ?_
    · simp only [hrootPtr, getI_of0 .main hz.pos]; cases d <;> rfl
    · refine (treeProg (extAcc d) (extRootAt d) hz.fresh (r0 := hrootOf d s.hdr) (v := (m', r')) (setExtRoot_self d s)
        (fun n hn => hz.mem (hin n hn)) hf.1 hf.2 hs.symm).mono fun x hx => ?_
      exact close_attach (d := d) g2 g3 (fun y hy => by rw [← hs]; cases d <;> exact hy) (fun k => by
        rw [← hs]; cases d <;> rfl) (fun k hk => (g4 k hk).2.2) hx

/-- `x` is `m` but for tree fields and the data parts of unused slots, and where `m` has no node in a tree by targets `x` has none
either. -/
def Near (m : Store) (x : AStore) : Prop :=
  x.s.hdr.allocated = m.hdr.allocated ∧ (∀ l, IsList m.listMem l → ∀ k, k ∉ l → x.s.data k = m.data k) ∧
    ∀ k, (m.idx k).sizeT = 0 → (x.s.idx k).sizeT = 0

theorem Close.near {s : Store} {x : AStore} (h : Close s x) : Near s x :=
  ⟨h.1.2, fun _ _ k _ => by rw [h.1.1], h.2⟩

theorem near_self (s : Store) : Near s (.of s) := ⟨rfl, fun _ _ _ _ => rfl, fun _ h => h⟩

theorem unusedDetachA_does (hP : P.ImplementsOn D c.trees) {s s' : Store} (hz : Sz L s) (ht : Tidy s) {i : Nat}
    (hs : unusedDetach (gc D c) s i = some s') :
    Sz L s' ∧ unusedDetach c s i = some s' ∧
      Ev fun f => (unusedDetachA P f i).Does (.of s) () (.of s') (Near s) := by
  unfold unusedDetach at hs
  rw [hz.fresh] at hs
  simp only [Bool.false_eq_true, if_false] at hs
  cases hv : (gc D c).trees.listDetach s.listMem i with
  | none => rw [hv] at hs; cases hs
  | some v =>
    rw [hv] at hs
    simp only [Option.map_some, Option.some.injEq] at hs
    obtain ⟨hv, l, h1, h2⟩ := guard_listDetach hv
    refine ⟨hs ▸ ⟨hz.fresh, hz.dlen, hz.ilen, hz.alloc⟩, by simp [unusedDetach, hz.fresh, hv, hs], ?_⟩
    refine Ev.mono (hP.listDetach _ _ i h1 h2) fun f hf => ?_
    rw [hv] at hf
    refine (listProg hz.fresh hz.pos (fun n hn => ?_) hf.1 hf.2 hs.symm).mono fun x hx =>
      ⟨hx.2.1, fun l' hl' k hk => ?_, fun k hk => by rw [hx.2.2 k id]; exact hk⟩
    · have := ht.list l h1 n hn; have := hz.alloc; have := hz.dlen; omega
    · exact hx.1 k (h1.unique hl' ▸ hk)

theorem unusedAttachFirstA_does (hX : LawfulTrees c.trees) (hP : P.ImplementsOn D c.trees) {s s' : Store} (hz : Sz L s) (ht : Tidy s) {i : Nat}
    (hi : i < L) (hs : unusedAttachFirst (gc D c) s i = some s') :
    Sz L s' ∧ unusedAttachFirst c s i = some s' ∧
      Ev fun f => (unusedAttachFirstA P f i).Does (.of s) () (.of s') (Near s') := by
  unfold unusedAttachFirst at hs
  rw [hz.fresh] at hs
  simp only [Bool.false_eq_true, if_false] at hs
  cases hv : (gc D c).trees.listAttachFirst s.listMem i with
  | none => rw [hv] at hs; cases hs
  | some v =>
    rw [hv] at hs
    simp only [Option.map_some, Option.some.injEq] at hs
    obtain ⟨hv, l, h1, h2, h3⟩ := guard_listAttachFirst hv
    obtain ⟨m', g1, g2, g3⟩ := hX.listAttachFirst _ _ i h1 h2 h3
    rw [hv, Option.some.injEq] at g1
    subst g1
    refine ⟨hs ▸ ⟨hz.fresh, hz.dlen, hz.ilen, hz.alloc⟩, by simp [unusedAttachFirst, hz.fresh, hv, hs], ?_⟩
    refine Ev.mono (hP.listAttachFirst _ _ i h1 h2 h3) fun f hf => ?_
    rw [hv] at hf
    refine (listProg hz.fresh hz.pos (fun n hn => ?_) hf.1 hf.2 hs.symm).mono fun x hx =>
      ⟨by rw [← hs]; exact hx.2.1, fun l' hl' k hk => ?_, fun k hk => by rw [hx.2.2 k id]; rw [← hs] at hk; exact hk⟩
    · rcases List.mem_cons.1 hn with rfl | hn
      · rw [hz.dlen]; exact hi
      · have := ht.list l h1 n hn; have := hz.alloc; have := hz.dlen; omega
    · have hl2 : IsList s'.listMem (i :: l) := by rw [← hs]; exact g2
      have hk2 : k ∉ i :: l := hl2.unique hl' ▸ hk
      have := g3 k hk2
      rw [hx.1 k hk2, ← hs]
      exact (Prod.ext this.1 this.2).symm

/-! ### The guarded crate does no more than the crate -/

/-- Where `r` ends `q` ends in the same state, and the images of `r` are images of `q`. -/
def Run.Sub (r q : Run) : Prop := ∀ s, (∀ m ∈ (r s).1, m ∈ (q s).1) ∧ ∀ s', (r s).2 = some s' → (q s).2 = some s'

theorem Run.Sub.refl (r : Run) : r.Sub r := fun _ => ⟨fun _ h => h, fun _ h => h⟩

theorem Run.Sub.upd {f g : Store → Option Store} (h : ∀ s s', f s = some s' → g s = some s') : (Run.upd f).Sub (.upd g) := by
  intro s
  unfold Run.upd
  cases hf : f s with
  | none => exact ⟨fun m hm => (by cases hm), fun s' hs => (by cases hs)⟩
  | some s' => rw [h s s' hf]; exact ⟨fun _ h => h, fun _ h => h⟩

theorem Run.Sub.seq {a b a' b' : Run} (ha : a.Sub a') (hb : b.Sub b') : (Run.seq a b).Sub (.seq a' b') := by
  intro s
  unfold Run.seq
  obtain ⟨h1, h2⟩ := ha s
  cases hs : (a s).2 with
  | none =>
    refine ⟨fun m hm => ?_, fun s' hs => by cases hs⟩
    cases (a' s).2 with
    | none => exact h1 m hm
    | some s1 => exact List.mem_append_left _ (h1 m hm)
  | some s1 =>
    rw [h2 s1 hs]
    obtain ⟨h3, h4⟩ := hb s1
    refine ⟨fun m hm => ?_, h4⟩
    rcases List.mem_append.1 hm with hm | hm
    · exact List.mem_append_left _ (h1 m hm)
    · exact List.mem_append_right _ (h3 m hm)

theorem Run.Sub.read {α : Type} (f : Store → Option α) {g g' : α → Run} (h : ∀ x, (g x).Sub (g' x)) :
    (Run.read f g).Sub (.read f g') := by
  intro s
  unfold Run.read
  cases f s with
  | none => exact ⟨fun _ h => h, fun _ h => h⟩
  | some x => exact h x s

theorem sub_move {f g f' g' : Nat → Store → Option Store} (hf : ∀ k s s', f k s = some s' → f' k s = some s')
    (hg : ∀ k s s', g k s = some s' → g' k s = some s') : ∀ ks, (moveRun f g ks).Sub (moveRun f' g' ks)
  | [] => .refl _
  | k :: ks => .seq (.upd (hf k)) (.seq (.upd (hg k)) (sub_move hf hg ks))

theorem map_sub {α β : Type} {x y : Option α} {f : α → β} (h : ∀ v, x = some v → y = some v) :
    ∀ v, x.map f = some v → y.map f = some v := by
  intro v hv
  cases x with
  | none => cases hv
  | some a => rw [h a rfl]; exact hv

theorem detachInt_sub (d : Side) (a i : Nat) (s s' : Store) (h : detachInt (gc D c) d s a i = some s') :
    detachInt c d s a i = some s' := by
  unfold detachInt at h ⊢
  split at h
  · next hl => rw [if_pos hl]; exact map_sub (fun v hv => (guard_detach hv).1) _ h
  · cases h

theorem attachInt_sub (d : Side) (a i : Nat) (s s' : Store) (h : attachInt (gc D c) d s a i = some s') :
    attachInt c d s a i = some s' := by
  unfold attachInt at h ⊢
  split at h
  · next hl => rw [if_pos hl]; exact map_sub (fun v hv => (guard_attach hv).1) _ h
  · cases h

theorem detachExt_sub (d : Side) (i : Nat) (s s' : Store) (h : detachExt (gc D c) d s i = some s') :
    detachExt c d s i = some s' := map_sub (fun v hv => (guard_detach hv).1) _ h

theorem attachExt_sub (d : Side) (i : Nat) (s s' : Store) (h : attachExt (gc D c) d s i = some s') :
    attachExt c d s i = some s' := map_sub (fun v hv => (guard_attach hv).1) _ h

theorem unusedDetach_sub (i : Nat) (s s' : Store) (h : unusedDetach (gc D c) s i = some s') : unusedDetach c s i = some s' := by
  unfold unusedDetach at h ⊢
  split at h
  · cases h
  · next hl => rw [if_neg hl]; exact map_sub (fun v hv => (guard_listDetach hv).1) _ h

theorem unusedAttachFirst_sub (i : Nat) (s s' : Store) (h : unusedAttachFirst (gc D c) s i = some s') :
    unusedAttachFirst c s i = some s' := by
  unfold unusedAttachFirst at h ⊢
  split at h
  · cases h
  · next hl => rw [if_neg hl]; exact map_sub (fun v hv => (guard_listAttachFirst hv).1) _ h

theorem eachIdx_gc {σ : Type} (s : Store) (h : RH σ) : ∀ ks st, eachIdx (gc D c) s h ks st = eachIdx c s h ks st := by
  intro ks
  induction ks with
  | nil => intro st; rfl
  | cons k ks ih =>
    intro st
    unfold eachIdx
    simp only [ih]
    rfl

theorem eachIter_gc (s : Store) (q : List Nat) : eachIter (gc D c) s q = eachIter c s q := by
  unfold eachIter eachLinks each3 eachAll
  simp only [eachIdx_gc]
  rfl

theorem sub_resolveInternal (i : Nat) : (resolveInternalRun (gc D c) i).Sub (resolveInternalRun c i) := by
  unfold resolveInternalRun
  simp only [eachIter_gc]
  exact .read _ fun _ => .seq (sub_move (fun k => detachInt_sub _ i k) (fun k => attachExt_sub _ k) _)
    (.read _ fun _ => sub_move (fun k => detachInt_sub _ i k) (fun k => attachExt_sub _ k) _)

theorem sub_resolveExternal (i : Nat) : (resolveExternalRun (gc D c) i).Sub (resolveExternalRun c i) := by
  unfold resolveExternalRun
  simp only [eachIter_gc]
  exact .read _ fun _ => .seq (sub_move (fun k => detachExt_sub _ k) (fun k => attachInt_sub _ i k) _)
    (.read _ fun _ => sub_move (fun k => detachExt_sub _ k) (fun k => attachInt_sub _ i k) _)

theorem detachEnd_sub (d : Side) (e i : Nat) (s s' : Store) (h : detachEnd (gc D c) d e i s = some s') :
    detachEnd c d e i s = some s' := by
  unfold detachEnd at h ⊢
  split at h
  · next h0 => rw [if_pos h0]; exact h
  · next h0 =>
    rw [if_neg h0]
    cases hu : isUnused s e with
    | none => rw [hu] at h; cases h
    | some v =>
      rw [hu] at h
      simp only [Option.bind_some] at h ⊢
      cases v with
      | true => exact detachExt_sub _ _ _ _ h
      | false => exact detachInt_sub _ _ _ _ _ h

theorem attachEnd_sub (d : Side) (v : Bool) (e i : Nat) (s s' : Store) (h : attachEnd (gc D c) d v e i s = some s') :
    attachEnd c d v e i s = some s' := by
  unfold attachEnd at h ⊢
  split at h
  · next h0 => rw [if_pos h0]; exact h
  · next h0 =>
    rw [if_neg h0]
    cases v with
    | true => exact attachExt_sub _ _ _ _ h
    | false => exact attachInt_sub _ _ _ _ _ h

theorem sub_relink (l : Link) (i a b : Nat) : (relinkRun (gc D c) l i a b).Sub (relinkRun c l i a b) :=
  .seq (.upd (detachEnd_sub _ _ _)) <| .seq (.upd (detachEnd_sub _ _ _)) <| .read _ fun _ => .read _ fun _ =>
    .seq (.refl _) <| .seq (.refl _) <| .seq (.upd (attachEnd_sub _ _ _ _)) (.upd (attachEnd_sub _ _ _ _))

theorem sub_release : ∀ fuel, (releaseRun (gc D c) fuel).Sub (releaseRun c fuel)
  | 0 => .refl _
  | fuel + 1 => .read _ fun u => by
    cases u with
    | false => exact .refl _
    | true => exact .read _ fun a => .seq (.upd (unusedDetach_sub a)) (.seq (.refl _) (sub_release fuel))

theorem sub_drop (i : Nat) : (dropRun (gc D c) i).Sub (dropRun c i) := by
  intro s
  unfold dropRun
  split
  · exact Run.Sub.upd (unusedAttachFirst_sub i) s
  · split
    · exact Run.Sub.seq (.refl _) (sub_release _) s
    · exact ⟨fun _ h => h, fun _ h => h⟩

theorem sub_create : (createRun (gc D c)).Sub (createRun c) := by
  intro s
  have hb : (Run.seq (bumpRun (gc D c)) (.read (fun s => some s.hdr.allocated) (resolveExternalRun (gc D c)))).Sub
      (Run.seq (bumpRun c) (.read (fun s => some s.hdr.allocated) (resolveExternalRun c))) :=
    .seq (.refl _) (.read _ fun i => sub_resolveExternal i)
  unfold createRun
  by_cases h1 : s.hdr.firstFree = c.consts.null
  · rw [if_pos h1, if_pos (show s.hdr.firstFree = (gc D c).consts.null from h1)]
    by_cases h2 : c.consts.internalEnd ≤ s.hdr.allocated
    · rw [if_pos h2, if_pos (show (gc D c).consts.internalEnd ≤ s.hdr.allocated from h2)]
      exact Run.Sub.refl _ s
    · rw [if_neg h2, if_neg (show ¬ (gc D c).consts.internalEnd ≤ s.hdr.allocated from h2)]
      cases csub s.hdr.reserved 1 with
      | none => exact ⟨fun _ h => h, fun _ h => h⟩
      | some r1 =>
        simp only
        by_cases h4 : r1 ≤ s.hdr.allocated
        · simp only [h4, if_true]
          cases h5 : c.dalloc s.dlen (s.dlen + c.step) with
          | none => rw [show (gc D c).dalloc s.dlen (s.dlen + (gc D c).step) = none from h5]; exact Run.Sub.refl _ s
          | some d =>
            rw [show (gc D c).dalloc s.dlen (s.dlen + (gc D c).step) = some d from h5]
            simp only
            cases h6 : c.ialloc s.ilen (s.ilen + c.step) with
            | none => rw [show (gc D c).ialloc s.ilen (s.ilen + (gc D c).step) = none from h6]; exact Run.Sub.refl _ s
            | some n =>
              rw [show (gc D c).ialloc s.ilen (s.ilen + (gc D c).step) = some n from h6]
              exact Run.Sub.seq (.refl _) (.seq (.refl _) (.seq (.refl _) hb)) s
        · simp only [h4, if_false]; exact hb s
  · rw [if_neg h1, if_neg (show ¬ s.hdr.firstFree = (gc D c).consts.null from h1)]
    exact Run.Sub.seq (.upd (unusedDetach_sub _)) (sub_resolveExternal _) s

theorem sub_call (k : Call) : (callRun (gc D c) k).Sub (callRun c k) := by
  cases k with
  | create => exact sub_create
  | update i a b =>
    refine .read _ fun x => ?_
    cases x with
    | none => exact .refl _
    | some l => exact sub_relink l i a b
  | delete i =>
    refine .read _ fun x => ?_
    cases x with
    | none => exact .refl _
    | some _ =>
      refine .seq (sub_resolveInternal i) (.read _ fun x => ?_)
      cases x with
      | none => exact .refl _
      | some l => exact .seq (sub_relink l i 0 0) (sub_drop i)

theorem images_gc {s : Store} {k : Call} {m : Store} (h : m ∈ callImages (gc D c) s k) : m ∈ callImages c s k := by
  rcases List.mem_cons.1 h with rfl | h
  · exact List.mem_cons_self
  · exact List.mem_cons_of_mem _ ((sub_call k s).1 m h)

/-! ### Composition -/

/-- Where the run `r` (over the guarded crate) ends, so does the run `q`, and the code `t` at the accessor level, in the same
state; every image of `t` is near one of `r`. -/
def Follows (L : Nat) (t : Nat → Tr AStore _root_.Unit) (r q : Run) : Prop :=
  ∀ s s', Sz L s → (∀ m ∈ s :: (r s).1, Tidy m) → (r s).2 = some s' →
    Sz L s' ∧ (q s).2 = some s' ∧ Ev fun f => (t f).Does (.of s) () (.of s') fun x => ∃ m ∈ s :: (r s).1, Near m x

theorem Run.Ends.mem {r : Run} (h : r.Ends) {s s' : Store} (hs : (r s).2 = some s') : s' ∈ s :: (r s).1 :=
  List.mem_of_getLast? (h s s' hs)

theorem follows_done : Follows L (fun _ => pure ()) .done .done := by
  intro s s' hz _ hs
  cases hs
  exact ⟨hz, rfl, .of fun _ => .pure _ _⟩

theorem follows_upd {t : Nat → Tr AStore _root_.Unit} {g g2 : Store → Option Store}
    (h : ∀ s s', Sz L s → Tidy s → g s = some s' → Sz L s' ∧ g2 s = some s' ∧
      Ev fun f => (t f).Does (.of s) () (.of s') fun x => Near s x ∨ Near s' x) :
    Follows L t (.upd g) (.upd g2) := by
  intro s s' hz ht hs
  rw [Run.upd_2] at hs ⊢
  obtain ⟨h1, h2, h3⟩ := h s s' hz (ht s (by simp)) hs
  refine ⟨h1, h2, h3.mono fun f w => w.mono fun x hx => ?_⟩
  have : (Run.upd g s).1 = [s'] := by simp only [Run.upd, hs]
  rw [this]
  rcases hx with hx | hx
  · exact ⟨s, by simp, hx⟩
  · exact ⟨s', by simp, hx⟩

theorem follows_seq {t u : Nat → Tr AStore _root_.Unit} {a b a2 b2 : Run} (he : a.Ends) (ha : Follows L t a a2)
    (hb : ∀ s s1, Sz L s → Tidy s → (a s).2 = some s1 → Follows L u b b2) :
    Follows L (fun f => do t f; u f) (.seq a b) (.seq a2 b2) := by
  intro s s' hz ht hs
  rw [Run.seq_2] at hs ⊢
  cases h1 : (a s).2 with
  | none => rw [h1] at hs; cases hs
  | some s1 =>
    rw [h1] at hs
    have himg : (Run.seq a b s).1 = (a s).1 ++ (b s1).1 := by simp only [Run.seq, h1]
    rw [himg] at ht ⊢
    obtain ⟨z1, q1, e1⟩ := ha s s1 hz (fun m hm => ht m (by
      rcases List.mem_cons.1 hm with rfl | hm
      · simp
      · simp [hm])) h1
    have hs1 : s1 ∈ s :: (a s).1 := he.mem h1
    have sub : ∀ m ∈ s1 :: (b s1).1, m ∈ s :: ((a s).1 ++ (b s1).1) := fun m hm => by
      rcases List.mem_cons.1 hm with rfl | hm
      · rcases List.mem_cons.1 hs1 with e | e
        · rw [e]; simp
        · simp [e]
      · simp [hm]
    obtain ⟨z2, q2, e2⟩ := hb s s1 hz (ht s (by simp)) h1 s1 s' z1 (fun m hm => ht m (sub m hm)) hs
    refine ⟨z2, by rw [q1]; exact q2, Ev.and e1 e2 fun f w1 w2 => ?_⟩
    refine Tr.Does.bind (w1.mono fun x hx => ?_) (w2.mono fun x hx => ?_)
    · obtain ⟨m, hm, hx⟩ := hx
      exact ⟨m, by
        rcases List.mem_cons.1 hm with rfl | hm
        · simp
        · simp [hm], hx⟩
    · obtain ⟨m, hm, hx⟩ := hx
      exact ⟨m, sub m hm, hx⟩

theorem follows_read {α : Type} {rd : Tr AStore α} {t : α → Nat → Tr AStore _root_.Unit} {f : Store → Option α}
    {g g2 : α → Run} (hr : ∀ s x, Sz L s → f s = some x → rd.Does (.of s) x (.of s) fun _ => False)
    (hg : ∀ s x, Sz L s → Tidy s → f s = some x → Follows L (t x) (g x) (g2 x)) :
    Follows L (fun n => do let x ← rd; t x n) (.read f g) (.read f g2) := by
  intro s s' hz ht hs
  rw [Run.read_2] at hs ⊢
  cases h1 : f s with
  | none => rw [h1] at hs; cases hs
  | some x =>
    rw [h1] at hs
    have himg : (Run.read f g s).1 = (g x s).1 := by simp only [Run.read, h1]
    rw [himg] at ht ⊢
    obtain ⟨z2, q2, e2⟩ := hg s x hz (ht s (by simp)) h1 s s' hz ht hs
    exact ⟨z2, q2, e2.mono fun n w => Tr.Does.bind ((hr s x hz h1).mono fun _ h => h.elim) w⟩

/-! ### Parts of calls -/

theorem getLink_gc (s : Store) (i : Nat) : getLink (gc D c) s i = getLink c s i := rfl

theorem follows_move {d : Side} {out into out2 into2 : Nat → Store → Option Store} {tout tin : Nat → Nat → Tr AStore _root_.Unit}
    (ho : ∀ k s s', Sz L s → Tidy s → out k s = some s' → (k ≠ 0 ∧ k < L) ∧ Sz L s' ∧ out2 k s = some s' ∧
      Ev fun f => (tout f k).Does (.of s) () (.of s') (Close s))
    (hi : ∀ k s s', k < L → Sz L s → Tidy s → into k s = some s' → Sz L s' ∧ into2 k s = some s' ∧
      Ev fun f => (tin f k).Does (.of s) () (.of s') (Close s')) :
    ∀ ks, Follows L (fun f => moveA (tout f) (tin f) ks) (moveRun out into ks) (moveRun out2 into2 ks)
  | [] => follows_done
  | k :: ks => by
    refine follows_seq (Run.ends_upd _) (follows_upd fun s s' hz ht hs => ?_) fun s s1 hz ht hs => ?_
    · obtain ⟨-, h2, h3, h4⟩ := ho k s s' hz ht hs
      exact ⟨h2, h3, h4.mono fun f w => w.mono fun x hx => .inl hx.near⟩
    · rw [Run.upd_2] at hs
      have hk := (ho k s s1 hz ht hs).1.2
      refine follows_seq (Run.ends_upd _) (follows_upd fun s s' hz ht hs => ?_)
        fun s s1 hz ht hs => follows_move (d := d) ho hi ks
      obtain ⟨h2, h3, h4⟩ := hi k s s' hk hz ht hs
      exact ⟨h2, h3, h4.mono fun f w => w.mono fun x hx => .inr hx.near⟩

theorem follows_moveOut (hX : LawfulTrees c.trees) (hP : P.ImplementsOn D c.trees) (d : Side) {i : Nat} (hi : i ≠ 0) (ks : List Nat) :
    Follows L (fun f => moveA (fun k => detachIntA P f d i k) (fun k => attachExtA P f d k) ks)
      (moveRun (fun k s => detachInt (gc D c) d s i k) (fun k s => attachExt (gc D c) d s k) ks)
      (moveRun (fun k s => detachInt c d s i k) (fun k s => attachExt c d s k) ks) := by
  refine follows_move (d := d) (tout := fun f k => detachIntA P f d i k) (tin := fun f k => attachExtA P f d k)
    (fun k s s' hz ht hs => ?_) (fun k s s' hk hz ht hs => ?_) ks
  · obtain ⟨h1, h2, h3, h4⟩ := detachIntA_does hP hz ht hi hs
    exact ⟨h2, h1, h3, h4⟩
  · exact attachExtA_does hX hP hz ht hk hs

theorem follows_moveIn (hX : LawfulTrees c.trees) (hP : P.ImplementsOn D c.trees) (d : Side) {i : Nat} (hi : i ≠ 0) (ks : List Nat) :
    Follows L (fun f => moveA (fun k => detachExtA P f d k) (fun k => attachIntA P f d i k) ks)
      (moveRun (fun k s => detachExt (gc D c) d s k) (fun k s => attachInt (gc D c) d s i k) ks)
      (moveRun (fun k s => detachExt c d s k) (fun k s => attachInt c d s i k) ks) := by
  refine follows_move (d := d) (tout := fun f k => detachExtA P f d k) (tin := fun f k => attachIntA P f d i k)
    (fun k s s' hz ht hs => ?_) (fun k s s' hk hz ht hs => ?_) ks
  · obtain ⟨h1, h2, h3, h4⟩ := detachExtA_does hP hz ht hs
    exact ⟨h2, h1, h3, h4⟩
  · exact attachIntA_does hX hP hz ht hi hk hs

theorem follows_resolveInternal (hX : LawfulTrees c.trees) (hP : P.ImplementsOn D c.trees) {i : Nat} (hi : i ≠ 0) :
    Follows L (fun f => resolveInternalA c P f i) (resolveInternalRun (gc D c) i) (resolveInternalRun c i) := by
  unfold resolveInternalRun
  simp only [eachIter_gc]
  exact follows_read (fun s x hz hx => readA_of hz hx) fun _ _ _ _ _ =>
    follows_seq (ends_moveRun _ _ _) (follows_moveOut hX hP .src hi _) fun _ _ _ _ _ =>
      follows_read (fun s x hz hx => readA_of hz hx) fun _ _ _ _ _ => follows_moveOut hX hP .tgt hi _

theorem follows_resolveExternal (hX : LawfulTrees c.trees) (hP : P.ImplementsOn D c.trees) {i : Nat} (hi : i ≠ 0) :
    Follows L (fun f => resolveExternalA c P f i) (resolveExternalRun (gc D c) i) (resolveExternalRun c i) := by
  unfold resolveExternalRun
  simp only [eachIter_gc]
  exact follows_read (fun s x hz hx => readA_of hz hx) fun _ _ _ _ _ =>
    follows_seq (ends_moveRun _ _ _) (follows_moveIn hX hP .src hi _) fun _ _ _ _ _ =>
      follows_read (fun s x hz hx => readA_of hz hx) fun _ _ _ _ _ => follows_moveIn hX hP .tgt hi _

theorem follows_detachEnd (hP : P.ImplementsOn D c.trees) (d : Side) (e i : Nat) :
    Follows L (fun f => detachEndA P f d e i) (.upd (detachEnd (gc D c) d e i)) (.upd (detachEnd c d e i)) := by
  refine follows_upd fun s s' hz ht hs => ?_
  unfold detachEnd at hs ⊢
  unfold detachEndA
  by_cases he : e = 0
  · simp only [he, if_true, Option.some.injEq] at hs ⊢
    subst hs
    exact ⟨hz, rfl, .of fun f => .pure _ _⟩
  · simp only [he, if_false] at hs ⊢
    cases hv : isUnused s e with
    | none => rw [hv] at hs; cases hs
    | some v =>
      rw [hv] at hs
      simp only [Option.bind_some] at hs ⊢
      have ha : ∀ {I : AStore → Prop}, (Tr.ask (isUnusedA e)).Does (.of s) v (.of s) I :=
        .ask (by rw [isUnusedA_of hz, hv])
      cases v with
      | true =>
        obtain ⟨h1, -, h3, h4⟩ := detachExtA_does hP hz ht hs
        exact ⟨h1, h3, h4.mono fun f w => Tr.Does.bind ha (w.mono fun x hx => .inl hx.near)⟩
      | false =>
        obtain ⟨h1, -, h3, h4⟩ := detachIntA_does hP hz ht he hs
        exact ⟨h1, h3, h4.mono fun f w => Tr.Does.bind ha (w.mono fun x hx => .inl hx.near)⟩

theorem follows_attachEnd (hX : LawfulTrees c.trees) (hP : P.ImplementsOn D c.trees) (d : Side) (v : Bool) (e : Nat) {i : Nat} (hi : i < L) :
    Follows L (fun f => attachEndA P f d v e i) (.upd (attachEnd (gc D c) d v e i)) (.upd (attachEnd c d v e i)) := by
  refine follows_upd fun s s' hz ht hs => ?_
  unfold attachEnd at hs ⊢
  unfold attachEndA
  by_cases he : e = 0
  · simp only [he, if_true, Option.some.injEq] at hs ⊢
    subst hs
    exact ⟨hz, rfl, .of fun f => .pure _ _⟩
  · simp only [he, if_false] at hs ⊢
    cases v with
    | true =>
      obtain ⟨h1, h3, h4⟩ := attachExtA_does hX hP hz ht hi hs
      exact ⟨h1, h3, h4.mono fun f w => w.mono fun x hx => .inr hx.near⟩
    | false =>
      obtain ⟨h1, h3, h4⟩ := attachIntA_does hX hP hz ht he hi hs
      exact ⟨h1, h3, h4.mono fun f w => w.mono fun x hx => .inr hx.near⟩

theorem follows_setSource (i a : Nat) :
    Follows L (fun _ => Tr.tell (AStore.modD .main i fun p => (a, p.2))) (.upd (setSource i a)) (.upd (setSource i a)) := by
  refine follows_upd fun s s' hz ht hs => ⟨?_, hs, .of fun _ => ?_⟩
  · unfold setSource setPair at hs
    split at hs
    · cases hs; exact ⟨hz.fresh, hz.dlen, hz.ilen, hz.alloc⟩
    · cases hs
  · unfold setSource setPair at hs
    split at hs
    · next hl =>
      cases hs
      exact .tell (modD_of .main _ hz.fresh hl.2) (.inr (near_self _))
    · cases hs

theorem follows_setTarget (i a : Nat) :
    Follows L (fun _ => Tr.tell (AStore.modD .main i fun p => (p.1, a))) (.upd (setTarget i a)) (.upd (setTarget i a)) := by
  refine follows_upd fun s s' hz ht hs => ⟨?_, hs, .of fun _ => ?_⟩
  · unfold setTarget setPair at hs
    split at hs
    · cases hs; exact ⟨hz.fresh, hz.dlen, hz.ilen, hz.alloc⟩
    · cases hs
  · unfold setTarget setPair at hs
    split at hs
    · next hl =>
      cases hs
      exact .tell (modD_of .main _ hz.fresh hl.2) (.inr (near_self _))
    · cases hs

theorem follows_relink (hX : LawfulTrees c.trees) (hP : P.ImplementsOn D c.trees) (l : Link) {i : Nat} (hi : i < L) (a b : Nat) :
    Follows L (fun f => relinkA P f l i a b) (relinkRun (gc D c) l i a b) (relinkRun c l i a b) :=
  follows_seq (Run.ends_upd _) (follows_detachEnd hP _ _ _) fun _ _ _ _ _ =>
  follows_seq (Run.ends_upd _) (follows_detachEnd hP _ _ _) fun _ _ _ _ _ =>
  follows_read (fun s x hz hx => .ask (by rw [isUnusedA_of hz, hx])) fun _ _ _ _ _ =>
  follows_read (fun s x hz hx => .ask (by rw [isUnusedA_of hz, hx])) fun _ _ _ _ _ =>
  follows_seq (Run.ends_upd _) (follows_setSource _ _) fun _ _ _ _ _ =>
  follows_seq (Run.ends_upd _) (follows_setTarget _ _) fun _ _ _ _ _ =>
  follows_seq (Run.ends_upd _) (follows_attachEnd hX hP _ _ _ hi) fun _ _ _ _ _ => follows_attachEnd hX hP _ _ _ hi

theorem follows_unusedDetach (hP : P.ImplementsOn D c.trees) (i : Nat) :
    Follows L (fun f => unusedDetachA P f i) (.upd (unusedDetach (gc D c) · i)) (.upd (unusedDetach c · i)) :=
  follows_upd fun s s' hz ht hs => by
    obtain ⟨h1, h2, h3⟩ := unusedDetachA_does hP hz ht hs
    exact ⟨h1, h2, h3.mono fun f w => w.mono fun x hx => .inl hx⟩

theorem follows_setAllocated {n : Nat} (hn : n < L) :
    Follows L (fun _ => setHeader fun h => { h with allocated := n })
      (.upd fun s => some { s with hdr := { s.hdr with allocated := n } })
      (.upd fun s => some { s with hdr := { s.hdr with allocated := n } }) :=
  follows_upd fun s s' hz ht hs => by
    cases hs
    exact ⟨⟨hz.fresh, hz.dlen, hz.ilen, hn⟩, rfl, .of fun f => .tell (modHeader_of .main _ hz.pos) (.inr (near_self _))⟩

theorem follows_release (hP : P.ImplementsOn D c.trees) : ∀ fuel,
    Follows L (fun f => releaseTopA P f fuel) (releaseRun (gc D c) fuel) (releaseRun c fuel)
  | 0 => fun s s' _ _ hs => by cases hs
  | fuel + 1 => by
    intro s s' hz ht hs
    rw [releaseRun, Run.read_2] at hs
    cases hu : (if s.hdr.allocated = 0 then some false else isUnused s s.hdr.allocated) with
    | none => rw [hu] at hs; cases hs
    | some u =>
      rw [hu, Option.bind_some] at hs
      have hask : ∀ {I : AStore → Prop}, (topUnusedA s.hdr).Does (.of s) u (.of s) I := by
        intro I
        unfold topUnusedA
        by_cases h0 : s.hdr.allocated = 0
        · simp only [h0, if_true, Option.some.injEq] at hu ⊢
          rw [← hu]; exact .pure _ _
        · simp only [h0, if_false] at hu ⊢
          exact .ask (by rw [isUnusedA_of hz, hu])
      cases u with
      | false =>
        cases hs
        refine ⟨hz, by rw [releaseRun, Run.read_2, hu]; rfl, .of fun f => ?_⟩
        refine Tr.Does.bind (.ask (header_of .main hz.pos)) (Tr.Does.bind hask ?_)
        exact .pure _ _
      | true =>
        simp only [if_true, Run.read_2, Option.bind_some] at hs
        have himg : (releaseRun (gc D c) (fuel + 1) s).1 = ((Run.upd (unusedDetach (gc D c) · s.hdr.allocated)).seq
            ((Run.upd fun t => some { t with hdr := { t.hdr with allocated := s.hdr.allocated - 1 } }).seq
              (releaseRun (gc D c) fuel)) s).1 := by
          simp only [releaseRun, Run.read, hu, if_true]
        rw [himg] at ht ⊢
        obtain ⟨z, q, e⟩ := follows_seq (Run.ends_upd _) (follows_unusedDetach hP s.hdr.allocated) (fun _ _ _ _ _ =>
          follows_seq (Run.ends_upd _) (follows_setAllocated (by have := hz.alloc; omega)) fun _ _ _ _ _ =>
            follows_release hP fuel) s s' hz ht hs
        refine ⟨z, ?_, e.mono fun f w => ?_⟩
        · rw [releaseRun, Run.read_2, hu]
          simp only [Option.bind_some, if_true, Run.read_2]
          exact q
        · exact Tr.Does.bind (.ask (header_of .main hz.pos)) (Tr.Does.bind hask w)

theorem follows_drop (hX : LawfulTrees c.trees) (hP : P.ImplementsOn D c.trees) {i : Nat} (hi : i < L) :
    Follows L (fun f => dropA P f i) (dropRun (gc D c) i) (dropRun c i) := by
  intro s s' hz ht hs
  unfold dropRun at hs ht ⊢
  have hh : ∀ {I : AStore → Prop}, (Tr.ask (AStore.header · .main)).Does (.of s) s.hdr (.of s) I :=
    .ask (header_of .main hz.pos)
  by_cases h1 : i < s.hdr.allocated
  · simp only [h1, if_true] at hs ht ⊢
    obtain ⟨z, q, e⟩ := follows_upd (L := L) (t := fun f => unusedAttachFirstA P f i)
      (g := (unusedAttachFirst (gc D c) · i)) (g2 := (unusedAttachFirst c · i)) (fun s s' hz ht hs => by
        obtain ⟨h1, h2, h3⟩ := unusedAttachFirstA_does hX hP hz ht hi hs
        exact ⟨h1, h2, h3.mono fun f w => w.mono fun x hx => .inr hx⟩) s s' hz ht hs
    refine ⟨z, q, e.mono fun f w => Tr.Does.bind hh ?_⟩
    simp only [h1, if_true]; exact w
  · by_cases h2 : i = s.hdr.allocated
    · simp only [h1, if_false] at hs ht ⊢
      rw [if_pos h2] at hs ht ⊢
      rw [if_pos h2]
      cases hn : csub s.hdr.allocated 1 with
      | none => simp only [Run.seq_2, Run.upd_2, hn, Option.map_none, Option.bind_none] at hs; cases hs
      | some n =>
        have hnL : n < L := by
          have := hz.alloc
          unfold csub at hn
          split at hn
          · cases hn; omega
          · cases hn
        have hr : ∀ c : Cfg, Run.seq (.upd fun s => (csub s.hdr.allocated 1).map fun a =>
            { s with hdr := { s.hdr with allocated := a } }) (releaseRun c (s.hdr.allocated + 1)) s =
            Run.seq (.upd fun s => some { s with hdr := { s.hdr with allocated := n } })
              (releaseRun c (s.hdr.allocated + 1)) s := by
          intro c
          simp only [Run.seq, Run.upd, hn, Option.map_some]
        rw [hr] at hs ht ⊢
        rw [hr]
        obtain ⟨z, q, e⟩ := follows_seq (Run.ends_upd _) (follows_setAllocated hnL) (fun _ _ _ _ _ =>
            follows_release hP (s.hdr.allocated + 1)) s s' hz ht hs
        refine ⟨z, q, e.mono fun f w => Tr.Does.bind hh ?_⟩
        simp only [h1, if_false]
        rw [if_pos h2]
        exact Tr.Does.bind (.ofOption hn) w
    · simp only [h1, h2, if_false] at hs
      cases hs

/-! ### Whole calls -/

/-- What a call does at the accessor level, compared to the model. -/
def Agree {σ : Type} (t : Tr AStore (Except Err Flow × σ)) (m : AStore) (o : Option (Out Store σ Flow))
    (I : AStore → Prop) : Prop :=
  (t m).2 = o.map (fun o => ((o.res, o.hs), AStore.of o.st)) ∧ ∀ x ∈ (t m).1, I x

theorem Tr.Does.agree {σ : Type} {t : Tr AStore (Except Err Flow × σ)} {m : AStore} {o : Out Store σ Flow}
    {I : AStore → Prop} (h : t.Does m (o.res, o.hs) (.of o.st) I) : Agree t m (some o) I := ⟨h.res, h.img⟩

theorem getLink_le {s : Store} {i : Nat} {l : Link} (h : getLink c s i = some (some l)) :
    c.consts.internalStart ≤ i ∧ i ≤ s.hdr.allocated := by
  unfold getLink exists? at h
  split at h
  · assumption
  · simp at h

theorem Run.seq_1 {a b : Run} {s s1 : Store} (h : (a s).2 = some s1) : (Run.seq a b s).1 = (a s).1 ++ (b s1).1 := by
  simp only [Run.seq, h]

theorem Tr.bind_assoc {M α β γ : Type} (f : Tr M α) (g : α → Tr M β) (h : β → Tr M γ) :
    (f >>= g) >>= h = f >>= fun a => g a >>= h := by
  funext m
  show Tr.bind (Tr.bind f g) h m = Tr.bind f (fun a => Tr.bind (g a) h) m
  unfold Tr.bind
  rcases hf : f m with ⟨l, _ | ⟨a, m1⟩⟩
  · simp
  · simp only
    rcases hg : g a m1 with ⟨l1, _ | ⟨b, m2⟩⟩
    · simp
    · simp

theorem updateA_agree (hX : LawfulTrees c.trees) (hP : P.ImplementsOn D c.trees) {s : Store} (hz : Sz L s) (i a b : Nat)
    (ht : ∀ m ∈ callImages (gc D c) s (.update i a b), Tidy m) {σ : Type} (hd : WH σ) (st : σ)
    (he : callExec (gc D c) s hd st (.update i a b) ≠ none) :
    Ev fun f => Agree (callA c P f hd st (.update i a b)) (.of s) (callExec c s hd st (.update i a b)) fun x =>
      ∃ m ∈ callImages (gc D c) s (.update i a b), Near m x := by
  simp only [callExec, links, updateLinks, List.getElem?_cons_zero, List.getElem?_cons_succ, Option.bind_some,
    getLink_gc] at he ⊢
  cases hg : getLink c s i with
  | none => rw [hg] at he; exact absurd rfl he
  | some r =>
    have hga : getLinkA c i (.of s) = some r := by rw [getLinkA_of hz, hg]
    cases r with
    | none => exact .of fun f => Tr.Does.agree (Tr.Does.bind (.ask hga) (.pure _ _))
    | some l =>
      simp only [hg, Option.bind_some] at he ⊢
      cases hr : relink (gc D c) s l i a b with
      | none => rw [hr] at he; exact absurd rfl he
      | some s' =>
        have himg : callImages (gc D c) s (.update i a b) = s :: (relinkRun (gc D c) l i a b s).1 := by
          simp only [callImages, callRun, Run.read, getLink_gc, hg]
        rw [himg] at ht ⊢
        rw [← relink_run] at hr
        obtain ⟨z, q, e⟩ := follows_relink hX hP l (Nat.lt_of_le_of_lt (getLink_le hg).2 hz.alloc) a b s s' hz ht hr
        rw [relink_run] at q
        rw [q]
        exact e.mono fun f w => Tr.Does.agree (Tr.Does.bind (.ask hga) (Tr.Does.bind w (.pure _ _)))

theorem deleteA_agree (hc : CfgOK c) (hP : P.ImplementsOn D c.trees) {s : Store} (hz : Sz L s) (i : Nat)
    (ht : ∀ m ∈ callImages (gc D c) s (.delete i), Tidy m) {σ : Type} (hd : WH σ) (st : σ)
    (he : callExec (gc D c) s hd st (.delete i) ≠ none) :
    Ev fun f => Agree (callA c P f hd st (.delete i)) (.of s) (callExec c s hd st (.delete i)) fun x =>
      ∃ m ∈ callImages (gc D c) s (.delete i), Near m x := by
  have hrun := call_run (gc D c) s (.delete i) hd st
  cases he' : callExec (gc D c) s hd st (.delete i) with
  | none => exact absurd he' he
  | some o' =>
  rw [he', Option.map_some] at hrun
  clear he he'
  simp only [callImages, callRun, Run.read, getLink_gc] at hrun ht ⊢
  simp only [callExec, links, deleteLinks, List.getElem?_cons_zero, Option.bind_some]
  cases hg : getLink c s i with
  | none => rw [hg] at hrun; cases hrun
  | some r =>
    have hga : getLinkA c i (.of s) = some r := by rw [getLinkA_of hz, hg]
    cases r with
    | none => exact .of fun f => Tr.Does.agree (Tr.Does.bind (.ask hga) (.pure _ _))
    | some l =>
      obtain ⟨hi1, hi2⟩ := getLink_le hg
      have hi0 : i ≠ 0 := by rw [hc.start_eq] at hi1; omega
      have hiL := Nat.lt_of_le_of_lt hi2 hz.alloc
      simp only [hg, Option.bind_some] at hrun ht ⊢
      rw [Run.seq_2] at hrun
      cases hr0 : (resolveInternalRun (gc D c) i s).2 with
      | none => rw [hr0] at hrun; cases hrun
      | some s0 =>
        rw [hr0, Option.bind_some] at hrun
        rw [Run.seq_1 hr0] at ht ⊢
        simp only [Run.read] at hrun ht ⊢
        obtain ⟨z0, q0, e0⟩ := follows_resolveInternal hc.trees hP hi0 s s0 hz (fun m hm => ht m (by
          rcases List.mem_cons.1 hm with rfl | hm
          · simp
          · simp [hm])) hr0
        have hs0 : s0 ∈ s :: (resolveInternalRun (gc D c) i s).1 := (ends_resolveInternal _ _).mem hr0
        have sub0 : ∀ m ∈ s :: (resolveInternalRun (gc D c) i s).1, ∀ l, m ∈ s :: ((resolveInternalRun (gc D c) i s).1 ++ l) :=
          fun m hm l => by
            rcases List.mem_cons.1 hm with rfl | hm
            · simp
            · simp [hm]
        rw [resolveInternal_run] at q0
        simp only [q0, Option.bind_some, updateLinks, List.getElem?_cons_zero, List.getElem?_cons_succ]
        cases hg0 : getLink c s0 i with
        | none => rw [hg0] at hrun; cases hrun
        | some r0 =>
          have hga0 : getLinkA c i (.of s0) = some r0 := by rw [getLinkA_of z0, hg0]
          cases r0 with
          | none =>
            refine e0.mono fun f w => Tr.Does.agree (Tr.Does.bind (.ask hga) (Tr.Does.bind (w.mono ?_)
              (Tr.Does.bind (.ask hga0) (.pure _ _))))
            exact fun x ⟨m, hm, hx⟩ => ⟨m, sub0 m hm _, hx⟩
          | some l0 =>
            simp only [hg0, Option.bind_some] at hrun ht ⊢
            have sub1 : ∀ m ∈ s0 :: (Run.seq (relinkRun (gc D c) l0 i 0 0) (dropRun (gc D c) i) s0).1, m ∈ s ::
                ((resolveInternalRun (gc D c) i s).1 ++ (Run.seq (relinkRun (gc D c) l0 i 0 0) (dropRun (gc D c) i) s0).1) :=
              fun m hm => by
                rcases List.mem_cons.1 hm with rfl | hm
                · exact sub0 _ hs0 _
                · simp [hm]
            obtain ⟨z1, q1, e1⟩ := follows_seq (ends_relink _ _ _ _ _) (follows_relink hc.trees hP l0 hiL 0 0)
              (fun _ _ _ _ _ => follows_drop hc.trees hP hiL) s0 o'.st z0 (fun m hm => ht m (sub1 m hm)) hrun
            rw [Run.seq_2, relink_run] at q1
            cases hr1 : relink c s0 l0 i 0 0 with
            | none => rw [hr1] at q1; cases q1
            | some s1 =>
              rw [hr1, Option.bind_some] at q1
              simp only [Option.map_some, Option.bind_some]
              have hdrop : (if i < s1.hdr.allocated then unusedAttachFirst c s1 i
                  else if i = s1.hdr.allocated then
                    (csub s1.hdr.allocated 1).bind fun a =>
                      releaseTop c (s1.hdr.allocated + 1) { s1 with hdr := { s1.hdr with allocated := a } }
                  else none) = some o'.st := by
                rw [← q1]
                unfold dropRun
                by_cases h1 : i < s1.hdr.allocated
                · simp only [h1, if_true, Run.upd_2]
                · simp only [h1, if_false]
                  by_cases h2 : i = s1.hdr.allocated
                  · rw [if_pos h2, if_pos h2]
                    simp only [Run.seq_2, Run.upd_2, release_run]
                    cases csub s1.hdr.allocated 1 <;> rfl
                  · rw [if_neg h2, if_neg h2]
              dsimp only at hdrop
              rw [hdrop]
              refine Ev.and e0 e1 fun f w0 w1 => Tr.Does.agree (Tr.Does.bind (.ask hga) (Tr.Does.bind (w0.mono ?_)
                (Tr.Does.bind (.ask hga0) ?_)))
              · exact fun x ⟨m, hm, hx⟩ => ⟨m, sub0 m hm _, hx⟩
              · have w1' : (do relinkA P f l0 i 0 0; dropA P f i : Tr AStore _root_.Unit).Does (.of s0) () (.of o'.st)
                    fun x => ∃ m ∈ s :: ((resolveInternalRun (gc D c) i s).1 ++
                      (Run.seq (relinkRun (gc D c) l0 i 0 0) (dropRun (gc D c) i) s0).1), Near m x :=
                  w1.mono fun x ⟨m, hm, hx⟩ => ⟨m, sub1 m hm, hx⟩
                have := Tr.Does.bind (g := fun _ => (Pure.pure (Except.ok (hd st l Link.nothing).1,
                  (hd st l Link.nothing).2) : Tr AStore (Except Err Flow × σ))) w1' (.pure _ _)
                rw [Verif.Split.Tr.bind_assoc] at this
                exact this

/-- The code panics, with these images on the way. -/
def Fails {α : Type} (t : Tr AStore α) (m : AStore) (I : AStore → Prop) : Prop := (t m).2 = none ∧ ∀ x ∈ (t m).1, I x

theorem Fails.left {α β : Type} {f : Tr AStore α} {m : AStore} {I : AStore → Prop} (h : Fails f m I) (g : α → Tr AStore β) :
    Fails (f >>= g) m I := by
  refine ⟨Tr.bind_none h.1, fun x hx => ?_⟩
  rcases Tr.mem_bind.1 hx with hx | ⟨a, m1, e, -⟩
  · exact h.2 x hx
  · rw [h.1] at e; cases e

theorem Fails.right {α β : Type} {f : Tr AStore α} {g : α → Tr AStore β} {m m' : AStore} {a : α} {I : AStore → Prop}
    (h : f.Does m a m' I) (hg : Fails (g a) m' I) : Fails (f >>= g) m I := by
  refine ⟨by rw [Tr.bind_some h.res]; exact hg.1, fun x hx => ?_⟩
  rcases Tr.mem_bind.1 hx with hx | ⟨a', m1, e, hx⟩
  · exact h.img x hx
  · rw [h.res] at e
    cases e
    exact hg.2 x hx

/-- The end of `create_links` as a run. -/
def topRun (c : Cfg) : Run := .seq (bumpRun c) (.read (fun s => some s.hdr.allocated) (resolveExternalRun c))

theorem createTopA_does (hX : LawfulTrees c.trees) (hP : P.ImplementsOn D c.trees) {s s' : Store} (hz : Sz L s) (hr : s.hdr.allocated + 1 < L)
    (ht : ∀ m ∈ s :: (topRun (gc D c) s).1, Tidy m) (hs : (topRun (gc D c) s).2 = some s') {σ : Type} (hd : WH σ) (st : σ) :
    createTop c s hd st = some ⟨.ok (hd st Link.nothing ⟨s.hdr.allocated + 1, 0, 0⟩).1, s',
      (hd st Link.nothing ⟨s.hdr.allocated + 1, 0, 0⟩).2⟩ ∧
    Ev fun f => (createTopA c P f).Does (.of s) (.ok (s.hdr.allocated + 1)) (.of s') fun x =>
      ∃ m ∈ s :: (topRun (gc D c) s).1, Near m x := by
  unfold topRun bumpRun at hs
  rw [Run.seq_2, Run.upd_2] at hs
  cases ha : cadd c.maxT s.hdr.allocated 1 with
  | none => rw [show cadd (gc D c).maxT s.hdr.allocated 1 = none from ha] at hs; cases hs
  | some a =>
    have ha1 : a = s.hdr.allocated + 1 := by
      unfold cadd at ha
      split at ha
      · cases ha; rfl
      · cases ha
    subst ha1
    have himg : (topRun (gc D c) s).1 = (Run.seq (.upd fun t => some { t with hdr := { t.hdr with allocated := s.hdr.allocated + 1 } })
        (resolveExternalRun (gc D c) (s.hdr.allocated + 1)) s).1 := by
      simp only [topRun, bumpRun, Run.seq, Run.upd, show cadd (gc D c).maxT s.hdr.allocated 1 = some _ from ha,
        Option.map_some, Run.read]
    rw [himg] at ht ⊢
    have hs2 : (Run.seq (.upd fun t => some { t with hdr := { t.hdr with allocated := s.hdr.allocated + 1 } })
        (resolveExternalRun (gc D c) (s.hdr.allocated + 1)) s).2 = some s' := by
      rw [show cadd (gc D c).maxT s.hdr.allocated 1 = some _ from ha, Option.map_some, Option.bind_some, Run.read_2,
        Option.bind_some] at hs
      rw [Run.seq_2, Run.upd_2, Option.bind_some]
      exact hs
    obtain ⟨z, q, e⟩ := follows_seq (Run.ends_upd _) (follows_setAllocated hr) (fun _ _ _ _ _ =>
      follows_resolveExternal hX hP (i := s.hdr.allocated + 1) (by omega)) s s' hz ht hs2
    rw [Run.seq_2, Run.upd_2, Option.bind_some, resolveExternal_run] at q
    refine ⟨by simp only [createTop, ha, Option.bind_some, createEnd, q, Option.map_some], e.mono fun f w => ?_⟩
    refine Tr.Does.bind (.ask (header_of .main hz.pos)) (Tr.Does.bind (.ofOption ha) ?_)
    have := Tr.Does.bind (g := fun _ => (Pure.pure (Except.ok (s.hdr.allocated + 1)) : Tr AStore (Except Err Nat))) w (.pure _ _)
    rw [Verif.Split.Tr.bind_assoc] at this
    exact this

/-- The grown memories. -/
def Store.grown (c : Cfg) (s : Store) : Store :=
  { s with dlen := s.dlen + c.step, ilen := s.ilen + c.step, stale := false,
           hdr := { s.hdr with reserved := s.ilen + c.step } }

theorem createRun_grow {s : Store} (h1 : s.hdr.firstFree = c.consts.null) (h2 : ¬ c.consts.internalEnd ≤ s.hdr.allocated)
    {r1 : Nat} (h3 : csub s.hdr.reserved 1 = some r1) (h4 : r1 ≤ s.hdr.allocated)
    (h5 : c.dalloc s.dlen (s.dlen + c.step) = some (s.dlen + c.step))
    (h6 : c.ialloc s.ilen (s.ilen + c.step) = some (s.ilen + c.step)) (h7 : s.ilen + c.step ≤ c.maxT) :
    createRun c s = ({ s with dlen := s.dlen + c.step, stale := true } ::
      { s with dlen := s.dlen + c.step, ilen := s.ilen + c.step, stale := false } :: s.grown c ::
        (topRun c (s.grown c)).1, (topRun c (s.grown c)).2) := by
  unfold createRun
  rw [if_pos h1, if_neg h2, h3]
  simp only [h4, if_true, h5, h6]
  rw [Run.seq, Run.upd]
  simp only
  rw [Run.seq, Run.upd]
  simp only
  rw [Run.seq, Run.upd]
  simp only [h7, if_true]
  rfl

theorem createRun_top {s : Store} (h1 : s.hdr.firstFree = c.consts.null) (h2 : ¬ c.consts.internalEnd ≤ s.hdr.allocated)
    {r1 : Nat} (h3 : csub s.hdr.reserved 1 = some r1) (h4 : ¬ r1 ≤ s.hdr.allocated) :
    createRun c s = topRun c s := by
  unfold createRun
  rw [if_pos h1, if_neg h2, h3]
  simp only [h4, if_false]
  rfl

theorem growA_does {s : Store} (h1 : c.dalloc s.dlen (s.dlen + c.step) = some (s.dlen + c.step))
    (h2 : c.ialloc s.ilen (s.ilen + c.step) = some (s.ilen + c.step)) (hpos : 0 < s.ilen + c.step) :
    (if s.ilen + c.step ≤ c.maxT then (growA c (.of s)).2 = some (true, .of (s.grown c)) else (growA c (.of s)).2 = none) ∧
    ∀ x ∈ (growA c (.of s)).1, Near s x := by
  have hb : ∀ {α β : Type} (f : Tr AStore α) (g : α → Tr AStore β) (m : AStore), (f >>= g) m = Tr.bind f g m :=
    fun _ _ _ => rfl
  unfold growA
  rw [hb, Tr.bind]
  simp only [dallocA, show (AStore.of s).s = s from rfl, h1]
  rw [hb, Tr.bind]
  simp only [iallocA, h2]
  rw [hb, Tr.bind]
  simp only [updateMem]
  rw [hb, Tr.bind]
  simp only [Tr.ask, Option.map_some]
  have near : ∀ (d i : Holder → Bool) (a b : Nat) (v : Bool), Near s ⟨{ s with dlen := a, ilen := b, stale := v }, d, i⟩ :=
    fun _ _ _ _ _ => ⟨rfl, fun _ _ _ _ => rfl, fun _ h => h⟩
  by_cases hm : s.ilen + c.step ≤ c.maxT
  · have hn : AStore.refresh (AStore.refresh (AStore.refresh (AStore.refresh (AStore.refresh (AStore.refresh (AStore.refresh
        ⟨{ s with dlen := s.dlen + c.step, ilen := s.ilen + c.step, stale := false }, fun _ => false, fun _ => false⟩
        .main) .intSrc) .extSrc) .intTgt) .extTgt) .list) .unused =
        .of { s with dlen := s.dlen + c.step, ilen := s.ilen + c.step, stale := false } := by
      unfold AStore.refresh AStore.of
      congr 1 <;> (funext o; cases o <;> rfl)
    simp only [AStore.refresh, AStore.of] at hn ⊢
    simp only [hm, if_true]
    rw [hb, Tr.bind]
    have ht := modHeader_of (s := { s with dlen := s.dlen + c.step, ilen := s.ilen + c.step, stale := false }) .main
      (fun h => { h with reserved := s.ilen + c.step }) hpos
    simp only [AStore.of] at ht
    simp only [setHeader, Tr.tell, hn, ht, Option.map_some]
    refine ⟨?_, fun x hx => ?_⟩
    · simp only [Tr.run_pure, Store.grown]
    · simp only [Tr.run_pure, Option.toList, List.append_nil, List.nil_append, List.mem_cons, List.cons_append,
        List.not_mem_nil, or_false] at hx
      rcases hx with rfl | rfl | rfl
      · exact ⟨rfl, fun _ _ _ _ => rfl, fun _ h => h⟩
      · exact ⟨rfl, fun _ _ _ _ => rfl, fun _ h => h⟩
      · exact ⟨rfl, fun _ _ _ _ => rfl, fun _ h => h⟩
  · simp only [AStore.refresh, hm, if_false, Tr.fail, true_and]
    intro x hx
    simp only [List.append_nil, List.nil_append, List.mem_cons, List.cons_append, List.not_mem_nil, or_false] at hx
    rcases hx with rfl | rfl
    · exact ⟨rfl, fun _ _ _ _ => rfl, fun _ h => h⟩
    · exact ⟨rfl, fun _ _ _ _ => rfl, fun _ h => h⟩

theorem createA_agree (hc : CfgOK c) (hP : P.ImplementsOn D c.trees) {s : Store} {free : List Nat} (h : Base c s free)
    (ht : ∀ m ∈ callImages (gc D c) s .create, Tidy m) {σ : Type} (hd : WH σ) (st : σ)
    (he : callExec (gc D c) s hd st .create = none → s.hdr.firstFree = 0 ∧ s.hdr.allocated < c.consts.internalEnd ∧
      s.hdr.reserved ≤ s.hdr.allocated + 1 ∧ c.dalloc s.dlen (s.dlen + c.step) ≠ none ∧
      c.ialloc s.ilen (s.ilen + c.step) ≠ none ∧ c.maxT < s.ilen + c.step) :
    Ev fun f => Agree (callA c P f hd st .create) (.of s) (callExec c s hd st .create) fun x =>
      ∃ m ∈ callImages (gc D c) s .create, Near m x := by
  have hz : Sz s.ilen s := ⟨h.fresh, h.len_eq, rfl, h.alloc_lt⟩
  have hh : ∀ {I : AStore → Prop}, (Tr.ask (AStore.header · .main)).Does (.of s) s.hdr (.of s) I :=
    .ask (header_of .main hz.pos)
  have hnull : (gc D c).consts.null = 0 := hc.null_eq
  have hnull' := hc.null_eq
  have hcons : (gc D c).consts = c.consts := rfl
  have hrun := call_run (gc D c) s .create hd st
  -- a finished run of the part up to the handler
  have fin : ∀ {f : Nat} {x : Nat} {s' : Store} {I : AStore → Prop}, (createA c P f).Does (.of s) (.ok x) (.of s') I →
      Agree (callA c P f hd st .create) (.of s) (some ⟨.ok (hd st Link.nothing ⟨x, 0, 0⟩).1, s',
        (hd st Link.nothing ⟨x, 0, 0⟩).2⟩) I := fun w => Tr.Does.agree (Tr.Does.bind w (.pure _ _))
  have bad : ∀ {f : Nat} {e : Err} {s' : Store} {I : AStore → Prop}, (createA c P f).Does (.of s) (.error e) (.of s') I →
      Agree (callA c P f hd st .create) (.of s) (some ⟨.error e, s', st⟩) I :=
    fun w => Tr.Does.agree (Tr.Does.bind w (.pure _ _))
  by_cases hff : s.hdr.firstFree = 0
  · have hA : ∀ {f : Nat} {v : Except Err Nat} {s' : Store} {I : AStore → Prop},
        (if c.consts.internalEnd ≤ s.hdr.allocated then pure (.error (.limitReached c.consts.internalEnd))
          else do
            let r1 ← Tr.ofOption (csub s.hdr.reserved 1)
            if r1 ≤ s.hdr.allocated then do
              if ← growA c then createTopA c P f else pure (.error .allocFailed)
            else createTopA c P f : Tr AStore (Except Err Nat)).Does (.of s) v (.of s') I →
        (createA c P f).Does (.of s) v (.of s') I := by
      intro f v s' I w
      unfold createA
      refine Tr.Does.bind hh ?_
      rw [if_pos (by rw [hff, hnull'])]
      exact w
    by_cases hend : c.consts.internalEnd ≤ s.hdr.allocated
    · have : callExec c s hd st .create = some ⟨.error (.limitReached c.consts.internalEnd), s, st⟩ := by
        simp only [callExec, links, createLinks, hff, hnull', if_true, hend]
      rw [this]
      refine .of fun f => bad (hA ?_)
      rw [if_pos hend]
      exact .pure _ _
    · have hcs := csub_eq h.res_pos
      by_cases hr : s.hdr.reserved - 1 ≤ s.hdr.allocated
      · cases h5 : c.dalloc s.dlen (s.dlen + c.step) with
        | none =>
          have : callExec c s hd st .create = some ⟨.error .allocFailed, s, st⟩ := by
            simp only [callExec, links, createLinks, hff, hnull', if_true, hend, if_false, hcs, Option.bind_some, hr, h5]
          rw [this]
          refine .of fun f => bad (hA ?_)
          rw [if_neg hend]
          refine Tr.Does.bind (.ofOption hcs) ?_
          rw [if_pos hr]
          refine Tr.Does.bind (a := false) (m' := .of s) ?_ (.pure _ _)
          refine Tr.Does.bind (a := none) (m' := .of s) ⟨?_, ?_⟩ (.pure _ _)
          · simp only [dallocA, show (AStore.of s).s = s from rfl, h5]
          · simp only [dallocA, show (AStore.of s).s = s from rfl, h5]
            intro x hx; cases hx
        | some d =>
          have hd5 := hc.dalloc_eq _ _ _ h5
          subst hd5
          cases h6 : c.ialloc s.ilen (s.ilen + c.step) with
          | none =>
            have : callExec c s hd st .create =
                some ⟨.error .allocFailed, { s with dlen := s.dlen + c.step, stale := true }, st⟩ := by
              simp only [callExec, links, createLinks, hff, hnull', if_true, hend, if_false, hcs, Option.bind_some, hr, h5, h6]
            rw [this]
            refine .of fun f => bad (hA ?_)
            rw [if_neg hend]
            refine Tr.Does.bind (.ofOption hcs) ?_
            rw [if_pos hr]
            have hnr : ∀ x ∈ [AStore.of { s with dlen := s.dlen + c.step, stale := true }],
                ∃ m ∈ callImages (gc D c) s .create, Near m x := fun x hx => by
              rw [List.mem_singleton] at hx
              subst hx
              exact ⟨s, by simp [callImages], rfl, fun _ _ _ _ => rfl, fun _ h => h⟩
            refine Tr.Does.bind (a := false) (m' := .of { s with dlen := s.dlen + c.step, stale := true }) ?_ (.pure _ _)
            refine Tr.Does.bind (a := some ()) (m' := .of { s with dlen := s.dlen + c.step, stale := true }) ⟨?_, ?_⟩ ?_
            · simp only [dallocA, show (AStore.of s).s = s from rfl, h5]; rfl
            · simp only [dallocA, show (AStore.of s).s = s from rfl, h5]; exact hnr
            · refine Tr.Does.bind (a := none) (m' := .of { s with dlen := s.dlen + c.step, stale := true }) ⟨?_, ?_⟩ (.pure _ _)
              · simp only [iallocA, AStore.of, h6]
              · simp only [iallocA, AStore.of, h6]; intro x hx; cases hx
          | some n =>
            have hd6 := hc.ialloc_eq _ _ _ h6
            subst hd6
            obtain ⟨g1, g2⟩ := growA_does h5 h6 (by have := hz.pos; omega)
            have g2' : ∀ x ∈ (growA c (.of s)).1, ∃ m ∈ callImages (gc D c) s .create, Near m x :=
              fun x hx => ⟨s, by simp [callImages], g2 x hx⟩
            by_cases hm : s.ilen + c.step ≤ c.maxT
            · rw [if_pos hm] at g1
              have hz' : Sz (s.ilen + c.step) (s.grown c) :=
                ⟨rfl, by show s.dlen + c.step = _; rw [h.len_eq], rfl, by
                  show s.hdr.allocated < _; have := h.alloc_lt; omega⟩
              have hcr := createRun_grow (c := gc D c) (hff.trans hnull.symm) hend hcs hr h5 h6 hm
              have hsub : ∀ m ∈ s.grown c :: (topRun (gc D c) (s.grown c)).1, m ∈ callImages (gc D c) s .create := by
                intro m hm'
                simp only [callImages, callRun]
                rw [hcr]
                rcases List.mem_cons.1 hm' with rfl | hm'
                · simp [Store.grown, gc]
                · simp only [List.mem_cons]
                  exact .inr (.inr (.inr (.inr hm')))
              have hex : callExec (gc D c) s hd st .create ≠ none := fun e => by
                have := (he e).2.2.2.2.2; omega
              cases hs : (topRun (gc D c) (s.grown c)).2 with
              | none =>
                rw [show callRun (gc D c) .create s = createRun (gc D c) s from rfl, hcr,
                  show (gc D c).step = c.step from rfl] at hrun
                have e : (topRun (gc D c) (s.grown (gc D c))).2 = none := hs
                simp only [e] at hrun
                cases hq : callExec (gc D c) s hd st .create with
                | none => exact absurd hq hex
                | some o => rw [hq] at hrun; cases hrun
              | some s' =>
                obtain ⟨q, e⟩ := createTopA_does hc.trees hP hz' (by
                  show s.hdr.allocated + 1 < _
                  have := h.alloc_lt
                  have := hc.step_pos
                  omega) (fun m hm => ht m (hsub m hm)) hs hd st
                have : callExec c s hd st .create = createTop c (s.grown c) hd st := by
                  simp only [callExec, links, createLinks, hff, hnull', if_true, hend, if_false, hcs, Option.bind_some, hr, h5, h6, hm,
                    Store.grown]
                rw [this, q]
                refine e.mono fun f w => fin (hA ?_)
                rw [if_neg hend]
                refine Tr.Does.bind (.ofOption hcs) ?_
                rw [if_pos hr]
                refine Tr.Does.bind ⟨g1, g2'⟩ ?_
                exact w.mono fun x ⟨m, hm, hx⟩ => ⟨m, hsub m hm, hx⟩
            · rw [if_neg hm] at g1
              have : callExec c s hd st .create = none := by
                simp only [callExec, links, createLinks, hff, hnull', if_true, hend, if_false, hcs, Option.bind_some, hr, h5, h6, hm]
              rw [this]
              refine .of fun f => ?_
              refine Fails.left (Fails.right hh ?_) _
              rw [if_pos (by rw [hff, hnull']), if_neg hend]
              refine Fails.right (.ofOption hcs) ?_
              rw [if_pos hr]
              exact Fails.left ⟨g1, g2'⟩ _
      · have hcr := createRun_top (c := gc D c) (hff.trans hnull.symm) hend hcs hr
        have hci : callImages (gc D c) s .create = s :: (topRun (gc D c) s).1 := by
          simp only [callImages, callRun]; rw [hcr]
        have hex : callExec (gc D c) s hd st .create ≠ none := fun e => by
          have := (he e).2.2.1; omega
        cases hs : (topRun (gc D c) s).2 with
        | none =>
          rw [show callRun (gc D c) .create s = createRun (gc D c) s from rfl, hcr, hs] at hrun
          cases hq : callExec (gc D c) s hd st .create with
          | none => exact absurd hq hex
          | some o => rw [hq] at hrun; cases hrun
        | some s' =>
          rw [hci] at ht ⊢
          obtain ⟨q, e⟩ := createTopA_does hc.trees hP hz (by have := h.res_le; have := h.res_pos; omega) ht hs hd st
          have : callExec c s hd st .create = createTop c s hd st := by
            simp only [callExec, links, createLinks, hff, hnull', if_true, hend, if_false, hcs, Option.bind_some, hr]
          rw [this, q]
          refine e.mono fun f w => fin (hA ?_)
          rw [if_neg hend]
          refine Tr.Does.bind (.ofOption hcs) ?_
          rw [if_neg hr]
          exact w
  · have hcr : createRun (gc D c) s = Run.seq (.upd (unusedDetach (gc D c) · s.hdr.firstFree))
        (resolveExternalRun (gc D c) s.hdr.firstFree) s := by
      unfold createRun
      rw [if_neg (by rw [hnull]; exact hff)]
    have hex : callExec (gc D c) s hd st .create ≠ none := fun e => hff (he e).1
    have hci : callImages (gc D c) s .create = s :: (createRun (gc D c) s).1 := rfl
    cases hs : (createRun (gc D c) s).2 with
    | none =>
      rw [show callRun (gc D c) .create s = createRun (gc D c) s from rfl, hs] at hrun
      cases hq : callExec (gc D c) s hd st .create with
      | none => exact absurd hq hex
      | some o => rw [hq] at hrun; cases hrun
    | some s' =>
      rw [hci] at ht ⊢
      rw [hcr] at ht hs ⊢
      obtain ⟨z, q, e⟩ := follows_seq (Run.ends_upd _) (follows_unusedDetach hP s.hdr.firstFree)
        (fun _ _ _ _ _ => follows_resolveExternal hc.trees hP hff) s s' hz ht hs
      rw [Run.seq_2, Run.upd_2] at q
      cases hu : unusedDetach c s s.hdr.firstFree with
      | none => rw [hu] at q; cases q
      | some s1 =>
        rw [hu, Option.bind_some, resolveExternal_run] at q
        have : callExec c s hd st .create = some ⟨.ok (hd st Link.nothing ⟨s.hdr.firstFree, 0, 0⟩).1, s',
            (hd st Link.nothing ⟨s.hdr.firstFree, 0, 0⟩).2⟩ := by
          simp only [callExec, links, createLinks, hnull', hff, if_false, hu, Option.bind_some, createEnd, q, Option.map_some]
        rw [this]
        refine e.mono fun f w => fin ?_
        unfold createA
        refine Tr.Does.bind hh ?_
        rw [if_neg (by rw [hnull']; exact hff)]
        have := Tr.Does.bind (g := fun _ => (Pure.pure (Except.ok s.hdr.firstFree) : Tr AStore (Except Err Nat))) w (.pure _ _)
        rw [Verif.Split.Tr.bind_assoc] at this
        exact this

/-! ### The guarded crate is as good -/

theorem CfgOK.gc (hc : CfgOK c) : CfgOK (gc (fun _ _ _ => True) c) where
  null_eq := hc.null_eq
  index_eq := hc.index_eq
  source_eq := hc.source_eq
  target_eq := hc.target_eq
  start_eq := hc.start_eq
  end_lt_any := hc.end_lt_any
  end_le := hc.end_le
  step_pos := hc.step_pos
  trees := guard_lawful hc.trees
  dalloc_eq := hc.dalloc_eq
  ialloc_eq := hc.ialloc_eq

theorem Base.gc {s : Store} {free : List Nat} (h : Base c s free) : Base (gc D c) s free :=
  ⟨h.fresh, h.len_eq, h.alloc_lt, h.alloc_le, h.res_pos, h.res_le, h.res8, h.data0, h.list, h.free_le, h.beyond⟩

theorem Inv.gc {s : Store} {free : List Nat} (h : Inv c s free) : Inv (gc D c) s free :=
  ⟨⟨h.base.gc, h.forest, h.half⟩, h.free_lt⟩

theorem Net.tidy {m : Store} {free : List Nat} {I E : Side → Nat → Prop} (h : Net c m free I E) : Tidy m where
  tree d k hk := by
    obtain ⟨ti, te, -, -, -, -, -, -, h7⟩ := h.forest d
    have hnl : ¬ LiveIn m free k := fun hl => by have := hl.2.1; omega
    exact h7 k (by omega) (fun hi => hnl (h.live d k (.inl hi))) (fun hi => hnl (h.live d k (.inr hi)))
  list l hl k hk := h.base.free_le k (hl.unique h.base.list ▸ hk)

theorem SameMem.tidy {m m0 : Store} (h : SameMem m m0) (ht : Tidy m0) : Tidy m := by
  obtain ⟨h1, h2, h3⟩ := h
  have ha : m.hdr.allocated = m0.hdr.allocated := by simpa using congrArg (Hdr.allocated) h3
  have hf : m.hdr.firstFree = m0.hdr.firstFree := by simpa using congrArg (Hdr.firstFree) h3
  have hl : m.hdr.lastFree = m0.hdr.lastFree := by simpa using congrArg (Hdr.lastFree) h3
  have hn : m.hdr.free = m0.hdr.free := by simpa using congrArg (Hdr.free) h3
  have hlm : m.listMem = m0.listMem := by
    simp only [Store.listMem, h2, hf, hl, hn]
  exact ⟨fun d k hk => by rw [h1]; exact ht.tree d k (by omega), fun l hl k hk => by
    rw [ha]; exact ht.list l (hlm ▸ hl) k hk⟩

theorem images_tidy (hc : CfgOK c) {s : Store} {free : List Nat} (h : Inv c s free) {k : Call}
    (hk : Supported ((links c).view s) k) {m : Store} (hm : m ∈ callImages c s k) : Tidy m := by
  obtain ⟨i, m0, h1, ⟨_, _, _, h2⟩, -⟩ := call_images hc h (k := k) hk hm
  exact h1.tidy h2.net.tidy

/-- A supported call on an existing or missing link returns. -/
theorem supported_returns (hc : CfgOK c) {s : Store} {free : List Nat} (h : Inv c s free) {k : Call}
    (hk : Supported ((links c).view s) k) (hne : k ≠ .create) {σ : Type} (hd : WH σ) (st : σ) :
    callExec c s hd st k ≠ none := by
  cases k with
  | create => exact absurd rfl hne
  | update i a b =>
    by_cases hl : LiveIn s free i
    · obtain ⟨s', e, -⟩ := updateLinks_ok hc h hl (noTwinIn hc h.toInv0 hl hk.1) [] i a b []
        ⟨hk.2.1, fun hh => hk.2.2 hh _ (by rw [view_eq hc h.toInv0, if_pos hl])⟩ hd st
      show updateLinks c s [i] [i, a, b] hd st ≠ none
      rw [e]; simp
    · show updateLinks c s [i] [i, a, b] hd st ≠ none
      rw [updateLinks_missing hc h.toInv0 hl]; simp
  | delete i =>
    by_cases hl : LiveIn s free i
    · obtain ⟨s', f', e, -⟩ := deleteLinks_ok hc h hl (noTwinIn hc h.toInv0 hl hk.1) (by
        intro d k hk'
        refine noTwinIn hc h.toInv0 hk'.1 (hk.2 k ⟨hk'.2.1, (s.data k).1, (s.data k).2,
          by rw [view_eq hc h.toInv0, if_pos hk'.1], ?_⟩)
        cases d
        · exact Or.inl hk'.2.2
        · exact Or.inr hk'.2.2) [] hd st
      show deleteLinks c s [i] hd st ≠ none
      rw [e]; simp
    · show deleteLinks c s [i] hd st ≠ none
      rw [deleteLinks_missing hc h.toInv0 hl]; simp

/-- The call returns over the guarded crate, but for an overflow of the number of slots. -/
def Guarded (D : (Nat → Nat → Bool) → (Nat → Nat → Bool) → List Nat → Prop) (c : Cfg) (s : Store) {σ : Type} (hd : WH σ)
    (st : σ) (k : Call) : Prop :=
  callExec (gc D c) s hd st k = none → k = .create ∧ s.hdr.firstFree = 0 ∧ s.hdr.allocated < c.consts.internalEnd ∧
    s.hdr.reserved ≤ s.hdr.allocated + 1 ∧ c.dalloc s.dlen (s.dlen + c.step) ≠ none ∧
    c.ialloc s.ilen (s.ilen + c.step) ≠ none ∧ c.maxT < s.ilen + c.step

/-- A call at the accessor level does what the model says, and every image on the way is near one of the model's images. -/
theorem callA_agreeOn (hc : CfgOK c) (hP : P.ImplementsOn D c.trees) {s : Store} {free : List Nat} (h : Inv c s free) {k : Call}
    (hk : Supported ((links c).view s) k) {σ : Type} (hd : WH σ) (st : σ) (hg : Guarded D c s hd st k) :
    Ev fun f => Agree (callA c P f hd st k) (.of s) (callExec c s hd st k) fun x =>
      ∃ m ∈ callImages c s k, Near m x := by
  have hz : Sz s.ilen s := ⟨h.base.fresh, h.base.len_eq, rfl, h.base.alloc_lt⟩
  have ht : ∀ m ∈ callImages (gc D c) s k, Tidy m := fun m hm => images_tidy hc h hk (images_gc hm)
  have fin : (Ev fun f => Agree (callA c P f hd st k) (.of s) (callExec c s hd st k) fun x =>
      ∃ m ∈ callImages (gc D c) s k, Near m x) → _ := fun e => e.mono fun f w =>
    (⟨w.1, fun x hx => by
      obtain ⟨m, h1, h2⟩ := w.2 x hx
      exact ⟨m, images_gc h1, h2⟩⟩ : Agree (callA c P f hd st k) (.of s) (callExec c s hd st k) fun x =>
        ∃ m ∈ callImages c s k, Near m x)
  refine fin ?_
  cases k with
  | create => exact createA_agree hc hP h.base ht hd st fun e => (hg e).2
  | update i a b => exact updateA_agree hc.trees hP hz i a b ht hd st fun e => by cases (hg e).1
  | delete i => exact deleteA_agree hc hP hz i ht hd st fun e => by cases (hg e).1

/-- A supported call on a good store returns, but for an overflow of the number of slots. -/
theorem supported_guarded (hc : CfgOK c) {s : Store} {free : List Nat} (h : Inv c s free) {k : Call}
    (hk : Supported ((links c).view s) k) {σ : Type} (hd : WH σ) (st : σ) :
    callExec c s hd st k = none → k = .create ∧ s.hdr.firstFree = 0 ∧ s.hdr.allocated < c.consts.internalEnd ∧
    s.hdr.reserved ≤ s.hdr.allocated + 1 ∧ c.dalloc s.dlen (s.dlen + c.step) ≠ none ∧
    c.ialloc s.ilen (s.ilen + c.step) ≠ none ∧ c.maxT < s.ilen + c.step := by
  intro e
  have hret := fun hne => supported_returns hc h (k := k) hk hne hd st
  cases k with
  | create =>
    refine ⟨rfl, ?_⟩
    have hff : free = [] → s.hdr.firstFree = 0 := fun hf => by
      subst hf
      have := h.base.list.first_eq; simpa [Store.listMem] using this
    have e : createLinks c s [] hd st = none := e
    rcases createLinks_ok hc h [] hd st with ⟨x, rest, s', _, e', _⟩ | ⟨_, _, e'⟩ | ⟨_, _, _, _, e'⟩ |
      ⟨_, _, _, _, _, e'⟩ | ⟨g1, g2, g3, g4, g5, g6, _⟩ | ⟨_, _, s', e', _⟩
    · rw [e] at e'; cases e'
    · rw [e] at e'; cases e'
    · rw [e] at e'; cases e'
    · rw [e] at e'; cases e'
    · exact ⟨hff g1, g2, g3, g4, g5, g6⟩
    · rw [e] at e'; cases e'
  | update i a b => exact absurd e (hret (by simp))
  | delete i => exact absurd e (hret (by simp))

/-- The same for programs that keep the full contract. -/
theorem callA_agree (hc : CfgOK c) (hP : P.Implements c.trees) {s : Store} {free : List Nat} (h : Inv c s free) {k : Call}
    (hk : Supported ((links c).view s) k) {σ : Type} (hd : WH σ) (st : σ) :
    Ev fun f => Agree (callA c P f hd st k) (.of s) (callExec c s hd st k) fun x =>
      ∃ m ∈ callImages c s k, Near m x :=
  callA_agreeOn hc (hP.on fun _ _ _ => True) h hk hd st (supported_guarded hc.gc h.gc (k := k) hk hd st)

/-- What an image near one of the model's images keeps. -/
theorem near_keeps (hc : CfgOK c) {s : Store} {free : List Nat} (h : Inv c s free) {k : Call}
    (hk : Supported ((links c).view s) k) {m : Store} (hm : m ∈ callImages c s k) {x : AStore}
    (hx : Near m x) {i : Nat} (hi : LiveIn s free i) (hca : ¬ callAbout i k) :
    x.s.data i = s.data i := by
  obtain ⟨j, m0, ⟨g1, g2, g3⟩, ⟨free', I, E, him⟩, hj, -⟩ := call_images hc h hk hm
  have hlist : IsList m.listMem free' := by
    have hf : m.hdr.firstFree = m0.hdr.firstFree := by simpa using congrArg (Hdr.firstFree) g3
    have hl : m.hdr.lastFree = m0.hdr.lastFree := by simpa using congrArg (Hdr.lastFree) g3
    have hn : m.hdr.free = m0.hdr.free := by simpa using congrArg (Hdr.free) g3
    have : m.listMem = m0.listMem := by simp only [Store.listMem, g2, hf, hl, hn]
    rw [this]; exact him.net.base.list
  have hne : i ≠ j := fun e => hca (e ▸ hj (e ▸ hi))
  obtain ⟨h3, h4⟩ := him.keep _ hne hi
  rw [hx.2.1 free' hlist _ h3.2.2, g2, h4]

/-- In an image near one of the model's images a slot is in no tree by targets, or has no source, or holds a link of `s`, or is
being updated and has its new ends. -/
theorem near_made (hc : CfgOK c) {s : Store} {free : List Nat} (h : Inv c s free) {k : Call}
    (hk : Supported ((links c).view s) k) {m : Store} (hm : m ∈ callImages c s k) {x : AStore} (hx : Near m x) {j : Nat}
    (hj : j ≠ 0) : (x.s.idx j).sizeT = 0 ∨ (x.s.data j).1 = 0 ∨ (LiveIn s free j ∧ x.s.data j = s.data j) ∨
      ∃ a b, k = .update j a b ∧ x.s.data j = (a, b) := by
  by_cases h0 : (x.s.idx j).sizeT = 0
  · exact .inl h0
  obtain ⟨i, m0, ⟨g1, g2, g3⟩, ⟨free', I, E, him⟩, hi, -⟩ := call_images hc h hk hm
  have hlist : IsList m.listMem free' := by
    have hf : m.hdr.firstFree = m0.hdr.firstFree := by simpa using congrArg (Hdr.firstFree) g3
    have hl : m.hdr.lastFree = m0.hdr.lastFree := by simpa using congrArg (Hdr.lastFree) g3
    have hn : m.hdr.free = m0.hdr.free := by simpa using congrArg (Hdr.free) g3
    have : m.listMem = m0.listMem := by simp only [Store.listMem, g2, hf, hl, hn]
    rw [this]; exact him.net.base.list
  have hm0 : (m0.idx j).sizeT ≠ 0 := fun e => h0 (hx.2.2 j (by rw [g1]; exact e))
  have hin : I .tgt j ∨ E .tgt j := by
    obtain ⟨ti, te, -, -, -, -, -, -, h7⟩ := him.net.forest .tgt
    apply Classical.byContradiction
    intro hn
    have := h7 j hj (fun e => hn (.inl e)) (fun e => hn (.inr e))
    exact hm0 (congrArg (·.2.2) this)
  have hl := him.net.live .tgt j hin
  have hd : x.s.data j = m0.data j := by rw [hx.2.1 free' hlist j hl.2.2, g2]
  rw [hd]
  rcases him.only j hl with hs | hs
  · by_cases hji : j = i
    · subst hji
      rcases him.own hin with e | e
      · exact .inr (.inr (.inl ⟨hs, e⟩))
      · have ha := hi hs
        cases k with
        | create => exact ha.elim
        | update i' a b =>
          obtain rfl : i' = j := ha
          exact .inr (.inr (.inr ⟨a, b, rfl, e⟩))
        | delete i' => exact .inr (.inl (by rw [e]; rfl))
    · exact .inr (.inr (.inl ⟨hs, (him.keep j hji hs).2⟩))
  · exact .inr (.inl (by rw [hs]))

/-- What an image near one of the model's images has in its slots, if the call deletes nothing and the store has no unused
slots. -/
theorem near_raw (hc : CfgOK c) {s : Store} (h : Inv c s []) {k : Call} (hd : ∀ i, k ≠ .delete i)
    (hk : Supported ((links c).view s) k) {m : Store} (hm : m ∈ callImages c s k) {x : AStore} (hx : Near m x) {j : Nat}
    (hj : j ≠ 0) : ((x.s.data j).1 = (s.data j).1 ∨ ∃ a b, k = .update j a b ∧ (x.s.data j).1 = a) ∧
      ((x.s.data j).2 = (s.data j).2 ∨ ∃ a b, k = .update j a b ∧ (x.s.data j).2 = b) := by
  obtain ⟨i, m0, ⟨g1, g2, g3⟩, ⟨free', I, E, him⟩, hi, hi'⟩ := call_images hc h hk hm
  obtain ⟨hf, hp⟩ := him.raw (hd i)
  have hf : free' = [] := List.eq_nil_iff_forall_not_mem.2 fun k hk => List.not_mem_nil (hf k hk)
  subst hf
  have hlist : IsList m.listMem [] := by
    have hf : m.hdr.firstFree = m0.hdr.firstFree := by simpa using congrArg (Hdr.firstFree) g3
    have hl : m.hdr.lastFree = m0.hdr.lastFree := by simpa using congrArg (Hdr.lastFree) g3
    have hn : m.hdr.free = m0.hdr.free := by simpa using congrArg (Hdr.free) g3
    have : m.listMem = m0.listMem := by simp only [Store.listMem, g2, hf, hl, hn]
    rw [this]; exact him.net.base.list
  have hdt : x.s.data j = m0.data j := by rw [hx.2.1 [] hlist j (by simp), g2]
  have hbey : ∀ {t : Store}, (∀ k, t.hdr.allocated < k → t.data k = (0, 0)) → ¬ LiveIn t [] j → t.data j = (0, 0) :=
    fun hb hn => hb j (Nat.lt_of_not_le fun hle => hn ⟨by omega, hle, by simp⟩)
  rw [hdt]
  by_cases hji : j = i
  · subst hji
    cases k with
    | create =>
      rw [hbey h.base.beyond fun hl => (hi hl).elim] at hp ⊢
      exact ⟨.inl (hp.1.elim id id), .inl (hp.2.elim id id)⟩
    | update i' a b =>
      obtain rfl : i' = j := hi' i' rfl
      exact ⟨hp.1.imp id fun e => ⟨a, b, rfl, e⟩, hp.2.imp id fun e => ⟨a, b, rfl, e⟩⟩
    | delete i' => exact absurd rfl (hd i')
  · have : m0.data j = s.data j := by
      by_cases hl : LiveIn s [] j
      · exact (him.keep j hji hl).2
      · rw [hbey h.base.beyond hl]
        by_cases hl' : LiveIn m0 [] j
        · exact (him.only j hl').resolve_left hl
        · exact hbey him.net.base.beyond hl'
    rw [this]
    exact ⟨.inl rfl, .inl rfl⟩

/-! ### Opening -/

/-- Opening a store: whatever the memories hold and wherever the pointers point. Only the number of reserved slots is
written. -/
theorem initA_agree (a : AStore) :
    (match init c a.s with
      | none => (initA c a).2 = none
      | some (.error e) => ∃ m, (initA c a).2 = some (.error e, m)
      | some (.ok s') => (initA c a).2 = some (.ok (), .of s')) ∧
    ∀ x ∈ (initA c a).1, SameMem x.s a.s := by
  obtain ⟨s, fd, fi⟩ := a
  unfold init initA
  simp only
  have hb : ∀ {α β : Type} (f : Tr AStore α) (g : α → Tr AStore β) (m : AStore), (f >>= g) m = Tr.bind f g m :=
    fun _ _ _ => rfl
  have hsm : ∀ (a b r : Nat) (v : Bool) (p q : Holder → Bool), 
      SameMem (AStore.s ⟨{ s with dlen := a, ilen := b, stale := v, hdr := { s.hdr with reserved := r } }, p, q⟩) s := fun _ _ _ _ _ _ => ⟨rfl, rfl, rfl⟩
  have hsm' : ∀ (a b : Nat) (v : Bool) (p q : Holder → Bool), 
      SameMem (AStore.s ⟨{ s with dlen := a, ilen := b, stale := v }, p, q⟩) s := fun _ _ _ _ _ => ⟨rfl, rfl, rfl⟩
  have hup : ∀ (t : Store) (p q : Holder → Bool), updateMem ⟨t, p, q⟩ = ([], some ((), .of { t with stale := false })) := by
    intro t p q
    unfold updateMem AStore.refresh AStore.of
    simp only [Prod.mk.injEq, true_and, Option.some.injEq]
    congr 1 <;> (funext o; cases o <;> rfl)
  rw [hb, Tr.bind]
  simp only [dallocA]
  cases h1 : c.dalloc s.dlen c.page with
  | none => exact ⟨⟨_, rfl⟩, fun x hx => (by cases hx)⟩
  | some d1 =>
    simp only
    rw [hb, Tr.bind]
    simp only [iallocA]
    cases h2 : c.ialloc s.ilen c.page with
    | none =>
      refine ⟨⟨_, rfl⟩, fun x hx => ?_⟩
      simp only [Tr.run_pure, List.append_nil, List.nil_append, List.mem_singleton] at hx
      subst hx
      exact hsm' _ _ _ _ _
    | some i1 =>
      simp only
      rw [hb, Tr.bind, hup]
      simp only
      rw [hb, Tr.bind]
      by_cases hn : i1 = 0
      · subst hn
        simp [Tr.ask, AStore.header, AStore.getI, AStore.of]
        exact ⟨⟨rfl, rfl, rfl⟩, ⟨rfl, rfl, rfl⟩⟩
      · have hh : AStore.header (.of { s with dlen := d1, ilen := i1, stale := false }) .main = some s.hdr :=
          header_of .main (s := { s with dlen := d1, ilen := i1, stale := false }) (by show 0 < i1; omega)
        have hask : ∀ {α : Type} (f : AStore → Option α) (m : AStore) (x : α), f m = some x →
            Tr.ask f m = ([], some (x, m)) := fun f m x e => by simp only [Tr.ask, e, Option.map_some]
        rw [hask _ _ _ hh]
        simp only [hn, if_false]
        rw [hb, Tr.bind, hask _ _ d1 rfl]
        simp only
        rw [hb, Tr.bind, hask _ _ i1 rfl]
        simp only
        rw [hb, Tr.bind]
        simp only [AStore.of, dallocA]
        cases h3 : c.dalloc d1 (align (max (max s.hdr.allocated d1) c.step) c.step) with
        | none =>
          refine ⟨⟨_, rfl⟩, fun x hx => ?_⟩
          simp only [Tr.run_pure, List.append_nil, List.nil_append, List.mem_cons, List.cons_append, List.not_mem_nil,
            or_false] at hx
          rcases hx with rfl | rfl <;> exact hsm' _ _ _ _ _
        | some d2 =>
          simp only
          rw [hb, Tr.bind]
          simp only [iallocA]
          cases h4 : c.ialloc i1 (align (max (max s.hdr.allocated i1) c.step) c.step) with
          | none =>
            refine ⟨⟨_, rfl⟩, fun x hx => ?_⟩
            simp only [Tr.run_pure, List.append_nil, List.nil_append, List.mem_cons, List.cons_append, List.not_mem_nil,
              or_false] at hx
            rcases hx with rfl | rfl | rfl <;> exact hsm' _ _ _ _ _
          | some i2 =>
            simp only
            rw [hb, Tr.bind, hup]
            simp only
            rw [hb, Tr.bind, hask _ _ d2 rfl]
            simp only [AStore.of]
            rw [hb, Tr.bind]
            simp only [Tr.ofOption, Tr.ask]
            have himg : ∀ x ∈ ([⟨{ s with dlen := d1, stale := true }, fun _ => false, fi⟩,
                ⟨{ s with dlen := d1, ilen := i1, stale := true }, fun _ => false, fun _ => false⟩,
                ⟨{ s with dlen := d2, ilen := i1, stale := true }, fun _ => false, fun _ => true⟩,
                ⟨{ s with dlen := d2, ilen := i2, stale := true }, fun _ => false, fun _ => false⟩] : List AStore),
                SameMem x.s s := by
              intro x hx
              simp only [List.mem_cons, List.not_mem_nil, or_false] at hx
              rcases hx with rfl | rfl | rfl | rfl <;> exact hsm' _ _ _ _ _
            cases h5 : csub d2 1 with
            | none =>
              simp only [Option.map_none, Option.bind_none, true_and]
              exact fun x hx => himg x (by simpa using hx)
            | some r =>
              simp only [Option.map_some, Option.bind_some]
              by_cases hi2 : i2 = 0
              · subst hi2
                simp only [if_true]
                by_cases hr : r ≤ c.maxT
                · simp only [hr, if_true]
                  rw [hb, Tr.bind]
                  simp only [setHeader, Tr.tell, AStore.modHeader, AStore.modI, Bool.true_and, Nat.lt_irrefl, decide_false,
                    Bool.false_eq_true, if_false, Option.map_none, Option.toList, true_and]
                  exact fun x hx => himg x (by simpa using hx)
                · simp only [hr, if_false, Tr.fail, true_and]
                  exact fun x hx => himg x (by simpa using hx)
              · simp only [hi2, if_false]
                by_cases hr : r ≤ c.maxT
                · simp only [hr, if_true]
                  rw [hb, Tr.bind]
                  have ht := modHeader_of (s := { s with dlen := d2, ilen := i2, stale := false }) .main
                    (fun h => { h with reserved := r }) (by show 0 < i2; omega)
                  simp only [AStore.of] at ht
                  simp only [setHeader, Tr.tell, Bool.not_false] at ht ⊢
                  simp only [ht, Option.map_some]
                  refine ⟨rfl, fun x hx => ?_⟩
                  simp only [Tr.run_pure, Option.toList, List.append_nil, List.nil_append, List.mem_cons, List.cons_append,
                    List.not_mem_nil, or_false] at hx
                  rcases hx with rfl | rfl | rfl | rfl | rfl
                  · exact hsm' _ _ _ _ _
                  · exact hsm' _ _ _ _ _
                  · exact hsm' _ _ _ _ _
                  · exact hsm' _ _ _ _ _
                  · exact hsm _ _ _ _ _ _
                · simp only [hr, if_false, Tr.fail, true_and]
                  exact fun x hx => himg x (by simpa using hx)

end Verif.Split
