import Verif.Split.Lawful

/-!
# Reachable states of the split store

`Reach c s`: `s` is the state of some store opened on two empty memories, after any finite history of calls
with any handlers, growth of the memories failing at any time, and any number of close/reopen cycles,
within the guards below. Outside the guards the store misbehaves (see `Props/SplitFindings.lean`).
-/

namespace Verif.Split
open Verif

/-- An allocator that gives exactly what was asked, or fails. -/
def ExactAlloc (a : Nat → Nat → Option Nat) : Prop := ∀ len req n, a len req = some n → n = req

/-- The configuration with other allocators for the data and the index memory. -/
def Cfg.withAllocs (c : Cfg) (d i : Nat → Nat → Option Nat) : Cfg := { c with dalloc := d, ialloc := i }

/-- If the data memory can grow then so can the index memory. -/
def GrowTogether (c : Cfg) (s : Store) : Prop :=
  c.dalloc s.dlen (s.dlen + c.step) ≠ none → c.ialloc s.ilen (s.ilen + c.step) ≠ none

inductive Reach (c : Cfg) : Store → Prop
  /-- `Store::new` / `with_constants` on empty memories. -/
  | fresh (d i) {s : Store} : ExactAlloc d → ExactAlloc i → init (c.withAllocs d i) {} = some (.ok s) →
      Reach c s
  /-- `create_links`, successful or not, when no link refers to the index it would return. -/
  | create (d i) {s : Store} {q : List Nat} {σ : Type} {h : WH σ} {st : σ} {o : Out Store σ Flow} :
      Reach c s → ExactAlloc d → ExactAlloc i → GrowTogether (c.withAllocs d i) s →
      NewUnused (c.withAllocs d i) s →
      (links (c.withAllocs d i)).createLinks s q h st = some o → Reach c o.st
  /-- `update_links`, successful or not, of a link without duplicates, to supported values. -/
  | update {s : Store} {q ch : List Nat} {σ : Type} {h : WH σ} {st : σ} {o : Out Store σ Flow} :
      Reach c s → (∀ i x a b, q.head? = some i → ch.take 3 = [x, a, b] →
        ((links c).view s).NoTwin i ∧ CanUpdate ((links c).view s) i a b) →
      (links c).updateLinks s q ch h st = some o → Reach c o.st
  /-- `delete_links`, successful or not, of a link that, like its users, has no duplicates. -/
  | delete {s : Store} {q : List Nat} {σ : Type} {h : WH σ} {st : σ} {o : Out Store σ Flow} :
      Reach c s → (∀ i, q.head? = some i → ((links c).view s).NoTwin i ∧ CanDelete ((links c).view s) i) →
      (links c).deleteLinks s q h st = some o → Reach c o.st
  /-- Closing the store and opening another one on the same memories, provided they get mapped to an extent
  that covers the links. -/
  | reopen (d i) (n m : Nat) {s s' : Store} : Reach c s → ExactAlloc d → ExactAlloc i →
      init (c.withAllocs d i) { s with dlen := n, ilen := m } = some (.ok s') → s.hdr.allocated < s'.ilen →
      Reach c s'

variable {c : Cfg}

theorem CfgOK.withAllocs (hc : CfgOK c) {d i : Nat → Nat → Option Nat} (hd : ExactAlloc d)
    (hi : ExactAlloc i) : CfgOK (c.withAllocs d i) :=
  ⟨hc.null_eq, hc.index_eq, hc.source_eq, hc.target_eq, hc.start_eq, hc.end_lt_any, hc.end_le,
   hc.step_pos, hc.trees, hd, hi⟩

theorem Base.withAllocs {s : Store} {free : List Nat} (h : Base c s free)
    (d i : Nat → Nat → Option Nat) : Base (c.withAllocs d i) s free :=
  ⟨h.fresh, h.len_eq, h.alloc_lt, h.alloc_le, h.res_pos, h.res_le, h.res8, h.data0, h.list, h.free_le,
   h.beyond⟩

theorem Base.ofAllocs {s : Store} {free : List Nat} {d i : Nat → Nat → Option Nat}
    (h : Base (c.withAllocs d i) s free) : Base c s free :=
  ⟨h.fresh, h.len_eq, h.alloc_lt, h.alloc_le, h.res_pos, h.res_le, h.res8, h.data0, h.list, h.free_le,
   h.beyond⟩

theorem Inv.withAllocs {s : Store} {free : List Nat} (h : Inv c s free)
    (d i : Nat → Nat → Option Nat) : Inv (c.withAllocs d i) s free :=
  ⟨⟨h.base.withAllocs d i, h.forest, h.half⟩, h.free_lt⟩

theorem Inv.ofAllocs {s : Store} {free : List Nat} {d i : Nat → Nat → Option Nat}
    (h : Inv (c.withAllocs d i) s free) : Inv c s free :=
  ⟨⟨h.base.ofAllocs, h.forest, h.half⟩, h.free_lt⟩

theorem view_withAllocs (s : Store) (d i : Nat → Nat → Option Nat) :
    (links (c.withAllocs d i)).view s = (links c).view s := rfl

theorem le_align {a s : Nat} (hs : 0 < s) : a ≤ align a s := by
  unfold align
  split
  · have h1 := Nat.div_add_mod a s
    have h2 := Nat.mod_lt a hs
    rw [Nat.mul_comm] at h1
    omega
  · exact Nat.le_refl _

/-- What a successful `init` does: the extents change, the header keeps all but the reserved count. -/
theorem init_ok (hc : CfgOK c) {s s' : Store} (h : init c s = some (.ok s')) :
    ∃ n, 2 ≤ n ∧ s.hdr.allocated ≤ n ∧
      s' = { s with dlen := n, ilen := n, stale := false, hdr := { s.hdr with reserved := n - 1 } } := by
  unfold init at h
  split at h
  · simp at h
  · next d1 hd1 =>
    split at h
    · simp at h
    · next i1 hi1 =>
      split at h
      · simp at h
      · simp only at h
        split at h
        · simp at h
        · next d2 hd2 =>
          split at h
          · simp at h
          · next i2 hi2 =>
            have e1 := hc.dalloc_eq _ _ _ hd1
            have e2 := hc.ialloc_eq _ _ _ hi1
            have e3 := hc.dalloc_eq _ _ _ hd2
            have e4 := hc.ialloc_eq _ _ _ hi2
            have hsp := hc.step_pos
            have hle := le_align (a := max (max s.hdr.allocated d1) c.step) (s := c.step) (by omega)
            have e5 : i2 = d2 := by rw [e4, e3, e1, e2]
            have h2 : 2 ≤ d2 := by omega
            rw [csub_eq (by omega)] at h
            simp only [Option.bind_some] at h
            split at h
            · simp at h
            · split at h
              · simp only [Option.some.injEq, Except.ok.injEq] at h
                exact ⟨d2, h2, by omega, by rw [← h, e5]⟩
              · simp at h

theorem init_fresh (hc : CfgOK c) {s : Store} (h : init c {} = some (.ok s)) :
    Inv c s [] ∧ s.hdr.allocated = 0 := by
  obtain ⟨n, h2, -, rfl⟩ := init_ok hc h
  refine ⟨⟨⟨⟨rfl, rfl, ?_, Nat.zero_le _, ?_, ?_, rfl, ⟨rfl, rfl⟩, ?_, by simp, fun _ _ => rfl⟩, ?_, ?_⟩,
    by simp⟩, rfl⟩
  · show 0 < n; omega
  · show 1 ≤ n - 1; omega
  · show n - 1 ≤ n; omega
  · exact ⟨List.nodup_nil, by simp, rfl, rfl, rfl, by simp, by simp⟩
  · intro d
    refine ⟨fun _ => .leaf, .leaf, ?_, ?_, ?_, ?_, ?_, ?_, ?_⟩
    · intro a _; cases d <;> exact IsTree.leaf hc.trees.leaf _ _
    · cases d <;> exact IsTree.leaf hc.trees.leaf _ _
    · intro a k ha
      constructor
      · intro h; simp [Tree.toList] at h
      · rintro ⟨h, -⟩
        have h1 := h.1.1; have h2 : k ≤ 0 := h.1.2.1; omega
    · intro k
      constructor
      · intro h; simp [Tree.toList] at h
      · intro h
        have h1 := h.1.1; have h2 : k ≤ 0 := h.1.2.1; omega
    · intro k h; have h1 := h.1.1; have h2 : k ≤ 0 := h.1.2.1; omega
    · intro k h; have h1 := h.1.1; have h2 : k ≤ 0 := h.1.2.1; omega
    · intro k _ _ _; cases d <;> rfl
  · intro k h; have h1 := h.1; have h2 : k ≤ 0 := h.2.1; omega

theorem init_reopen (hc : CfgOK c) {s s' : Store} {n m : Nat} {free : List Nat}
    (hi : Inv c s free) (h : init c { s with dlen := n, ilen := m } = some (.ok s'))
    (hlt : s.hdr.allocated < s'.ilen) :
    Inv c s' free ∧ s'.hdr.allocated = s.hdr.allocated ∧ (∀ k, s'.data k = s.data k) := by
  obtain ⟨r, h2, -, rfl⟩ := init_ok hc h
  refine ⟨⟨⟨⟨rfl, rfl, hlt, hi.base.alloc_le, ?_, ?_, hi.base.res8, hi.base.data0, hi.base.list,
    hi.base.free_le, hi.base.beyond⟩, fun d => by cases d <;> exact hi.forest _, hi.half⟩, hi.free_lt⟩, rfl, fun _ => rfl⟩
  · show 1 ≤ r - 1; omega
  · show r - 1 ≤ r; omega

theorem reach_good (hc : CfgOK c) {s : Store} (h : Reach c s) : Good c s := by
  induction h with
  | fresh d i hd hi h => exact ⟨_, (init_fresh (hc.withAllocs hd hi) h).1.ofAllocs⟩
  | @create d i s q σ h st o _ hd hi hg hn ho ih =>
    obtain ⟨free, hv⟩ := ih
    have hc' := hc.withAllocs hd hi
    have hw := hv.withAllocs d i
    have ho : createLinks (c.withAllocs d i) s q h st = some o := ho
    have hq : (∀ {s' e}, Links.Succeeds (fun _ hd st => createLinks (c.withAllocs d i) s q hd st) s'
        Link.nothing e →
        Links.Succeeds (fun _ hd st => createLinks (c.withAllocs d i) s [] hd st) s' Link.nothing e) :=
      fun hS => hS
    rcases create_cases hc' hw q with ⟨x, rest, s', hf, h1, h2, h3, h4⟩ | ⟨hf, h1, h2⟩ |
      ⟨hf, h1, h2, h3⟩ | ⟨hf, h1, h2, h3, h4⟩ | ⟨hf, h1, h2, h3, h4, h5⟩ | ⟨hf, h1, s', h2, h3, h4⟩
    · cases ho.symm.trans (h1 _ h st)
      refine ⟨rest, (h2.inv hc' hw ?_ (hn x s' (create_of_succeeds (hq h1)))).ofAllocs⟩
      intro y hy
      rw [h3]; exact hv.free_lt y (by rw [hf]; simp [hy])
    · cases ho.symm.trans (h2 _ h st); exact ⟨_, hv⟩
    · cases ho.symm.trans (h3 _ h st); exact ⟨_, hv⟩
    · exact absurd h3 (hg h2)
    · cases ho.symm.trans (h5 _ h st)
    · cases ho.symm.trans (h2 _ h st)
      exact ⟨[], (h3.inv hc' hw (by simp) (hn _ s' (create_of_succeeds (hq h2)))).ofAllocs⟩
  | @update s q ch σ h st o _ ht ho ih =>
    obtain ⟨free, hi⟩ := ih
    have ho : updateLinks c s q ch h st = some o := ho
    match q, ch with
    | [], _ => simp [updateLinks] at ho
    | _ :: _, [] => simp [updateLinks] at ho
    | _ :: _, [_] => simp [updateLinks] at ho
    | _ :: _, [_, _] => simp [updateLinks] at ho
    | i :: q, x :: a :: b :: ch =>
      by_cases hl : LiveIn s free i
      · obtain ⟨g1, g2⟩ := ht i x a b rfl rfl
        obtain ⟨s', h1, h2, -⟩ := updateLinks_ok hc hi hl (noTwinIn hc hi.toInv0 hl g1) q x a b ch
          ⟨g2.1, fun hh => g2.2 hh _ (by rw [view_eq hc hi.toInv0, if_pos hl])⟩ h st
        rw [h1] at ho; cases ho; exact ⟨_, h2⟩
      · rw [updateLinks_missing hc hi.toInv0 hl] at ho; cases ho; exact ⟨_, hi⟩
  | @delete s q σ h st o _ ht ho ih =>
    obtain ⟨free, hi⟩ := ih
    have ho : deleteLinks c s q h st = some o := ho
    match q with
    | [] => simp [deleteLinks] at ho
    | i :: q =>
      by_cases hl : LiveIn s free i
      · obtain ⟨g1, g2⟩ := ht i rfl
        obtain ⟨s', free', h1, h2, -⟩ := deleteLinks_ok hc hi hl (noTwinIn hc hi.toInv0 hl g1) (by
          intro d k hk
          refine noTwinIn hc hi.toInv0 hk.1 (g2 k ⟨hk.2.1, (s.data k).1, (s.data k).2,
            by rw [view_eq hc hi.toInv0, if_pos hk.1], ?_⟩)
          cases d
          · exact Or.inl hk.2.2
          · exact Or.inr hk.2.2) q h st
        rw [h1] at ho; cases ho; exact ⟨_, h2⟩
      · rw [deleteLinks_missing hc hi.toInv0 hl] at ho; cases ho; exact ⟨_, hi⟩
  | reopen d i n m _ hd hi h hlt ih =>
    obtain ⟨free, hv⟩ := ih
    exact ⟨_, (init_reopen (hc.withAllocs hd hi) (hv.withAllocs d i) h hlt).1.ofAllocs⟩

/-- The split store is lawful on its reachable states. -/
def reachLawful (hc : CfgOK c) : Lawful (links c) :=
  let W := lawful hc
  { Inv := Reach c
    CanCreate := fun s => CanGrow c s ∧ NewUnused c s
    CanUpdate := CanUpdate
    CanDelete := CanDelete
    canDelete_del := W.canDelete_del
    canDelete_uniq := W.canDelete_uniq
    get := fun s h => W.get s (reach_good hc h)
    null := fun s h => W.null s (reach_good hc h)
    any_pos := fun s h => W.any_pos s (reach_good hc h)
    any_absent := fun s h => W.any_absent s (reach_good hc h)
    create := by
      intro s h hg q
      rcases W.create s (reach_good hc h) hg q with e | ⟨i, s', h1, -, h3, h4, h5⟩
      · exact .inl e
      · exact .inr ⟨i, s', h1, .create (h := fun (u : Unit) _ _ => (.cont, u)) (st := ()) c.dalloc c.ialloc h
          hc.dalloc_eq hc.ialloc_eq (fun hh => (hg.1 hh).1) hg.2 (h5 _ _ _), h3, h4, h5⟩
    update_missing := fun s h => W.update_missing s (reach_good hc h)
    update := by
      intro s h i p hv ht x a b hu
      obtain ⟨s', before, h1, -, h3, h4, h5⟩ := W.update s (reach_good hc h) i p hv ht x a b hu
      exact ⟨s', before, h1, .update (q := [i]) (ch := [x, a, b])
        (h := fun (u : Unit) _ _ => (.cont, u)) (st := ()) h
        (fun j x' a' b' hj hh => by cases hj; cases hh; exact ⟨ht, hu⟩) (h5 _ _ _), h3, h4, h5⟩
    delete_missing := fun s h => W.delete_missing s (reach_good hc h)
    delete := by
      intro s h i p hv ht hu
      obtain ⟨s', -, h3, h4, h5⟩ := W.delete s (reach_good hc h) i p hv ht hu
      exact ⟨s', .delete (q := [i]) (h := fun (u : Unit) _ _ => (.cont, u)) (st := ()) h
        (fun j hj => by cases hj; exact ⟨ht, hu⟩) (h5 _ _ _), h3, h4, h5⟩
    each_all := fun s h => W.each_all s (reach_good hc h)
    count_all := fun s h => W.count_all s (reach_good hc h)
    bounded := fun s h => W.bounded s (reach_good hc h)
    each_index := fun s h => W.each_index s (reach_good hc h)
    count_index := fun s h => W.count_index s (reach_good hc h)
    each_source := fun s h => W.each_source s (reach_good hc h)
    each_target := fun s h => W.each_target s (reach_good hc h)
    each_pair := fun s h => W.each_pair s (reach_good hc h)
    count_pair := fun s h => W.count_pair s (reach_good hc h)
    count_usages := fun s h => W.count_usages s (reach_good hc h)
    count_source := fun s h => W.count_source s (reach_good hc h)
    count_target := fun s h => W.count_target s (reach_good hc h) }

end Verif.Split
