import Verif.Undo
import Verif.Props.Copy
import Verif.Props.Crash
import Verif.Props.UnitDerived
import Verif.Props.SplitDerived
import Verif.Props.Decorators

/-!
# C91: from any contents to any other; every change can be undone
-/

namespace Verif.Unit
open Verif
variable {c : Cfg}

/-- The memory has at most one slot more than is reserved. -/
theorem reach_room (hc : CfgOK c) {s : Store} (h : Reach c s) : s.len ≤ s.hdr.reserved + 1 := by
  have open_ : ∀ {a : Nat → Nat → Option Nat} {m s : Store}, GoodAlloc a → init (c.withAlloc a) m = some (.ok s) →
      s.len ≤ s.hdr.reserved + 1 := fun ha h => by
    obtain ⟨n1, n2, -, -, -, -, rfl⟩ := (Props.C72_open_iff (hc.withAlloc ha) _ _).1 h
    show n2 ≤ n2 - 1 + 1
    omega
  induction h with
  | fresh a ha h => exact open_ ha h
  | create a _ ha ho ih =>
    rcases createLinks_room (c := c.withAlloc a) (q := []) ho with hk | ⟨-, -, -, k⟩
    · have k1 := hk.len; have k2 := hk.reserved; omega
    · omega
  | update _ ht ho ih => have hk := updateLinks_room ho; have k1 := hk.len; have k2 := hk.reserved; omega
  | delete _ ht ho ih => have hk := deleteLinks_room ho; have k1 := hk.len; have k2 := hk.reserved; omega
  | reopen a n _ ha hin hlt ih => exact open_ ha hin

/-- A store without links is as good as new. -/
theorem made_empty (hc : CfgOK c) {s : Store} (h : Reach c s) (he : (links c).view s = View.empty) : Made c 0 s := by
  obtain ⟨free, ts, tt, hi⟩ := reach_good hc h
  have h0 : s.hdr.allocated = 0 := by
    rcases (Props.C04_highest_slot_is_live hc h).1 with h0 | h0
    · exact h0
    · rw [he] at h0; exact absurd rfl h0
  have hf : free = [] := List.eq_nil_iff_forall_not_mem.2 fun x hx => by have := hi.free_lt x hx; omega
  exact ⟨h, ⟨ts, tt, hf ▸ hi⟩, h0, reach_room hc h⟩

theorem null_step (hc : CfgOK c) (s : Store) (i : Nat) (p : Nat × Nat) (h : Reach c s) (ht : ((links c).view s).NoTwin i)
    (hv : (links c).view s i = some p) : ∃ r s', step c c.alloc s (.update i 0 0) = some ⟨.ok r, s', ()⟩ ∧ Reach c s' ∧
      (links c).view s' = ((links c).view s).set i (0, 0) := by
  obtain ⟨s', -, h2, h3⟩ := update_law hc (reach_good hc h) hv ht i 0 0
  exact ⟨_, s', Links.update_ok (D := links c) h3,
    .update (q := [i]) (ch := [i, 0, 0]) h (fun j hj => by cases hj; exact ht) (h3 _ recH none), h2⟩

end Verif.Unit

namespace Verif.Unit.Props
open Verif Verif.Unit
variable {c : Cfg}

/-- **C91**, united store: a client can take a store in which no two links have the same ends from its contents `L` to any others `L'`,
on the same memory: all calls of `replace` succeed, and then the links are those of `L'`. -/
theorem C91_from_any_contents_to_any_other (hc : CfgOK c) {s : Store} (h : Reach c s) (ht : ((links c).view s).Uniq) {L L' : List Link}
    (hv : (links c).Visits s [] L) (hn' : (L'.map (·.index)).Nodup)
    (hL' : ∀ l ∈ L', 1 ≤ l.index ∧ l.index ≤ c.consts.internalEnd) (hr : RoomFor c (highest L')) :
    ∃ s', runAll (step c c.alloc) (replace L L') s = some s' ∧ Reach c s' ∧ ∀ l, ((links c).view s').Has l ↔ l ∈ L' := by
  have hB := builds hc (highest_le fun l hl => (hL' l hl).2) hr
  obtain ⟨L1, g1, hn, hL⟩ := (reachLawful hc).each_all s h
  obtain rfl := hv.unique g1
  obtain ⟨s1, h1, h2, h3⟩ := hB.clear (null_step hc) h ht (index_nodup hn fun l hl => (hL l).1 hl) hL fun l hl e => by
    have h1 : (links c).view s l.index = some (l.source, l.target) := (hL l).1 hl
    obtain ⟨free, ts, tt, hi⟩ := reach_good hc h
    rw [e, view_eq hc hi.toInv0, if_neg (fun h => absurd h.1 (by omega))] at h1
    cases h1
  obtain ⟨s2, h4, h5, h6⟩ := hB.rebuild (made_empty hc h2 h3) h3 hn' fun l hl => ⟨(hL' l hl).1, trivial⟩
  exact ⟨s2, by rw [replace, runAll_append h1, h4], h5, h6⟩

/-- **C91**, united store: whatever a client did, it can go back. It remembers the links `L'` of a state `s'`; from any later or other
state `s` in which no two links have the same ends it comes back to the contents of `s'`. -/
theorem C91_every_change_can_be_undone (hc : CfgOK c) {s s' : Store} (h : Reach c s) (h' : Reach c s') (ht : ((links c).view s).Uniq)
    {L L' : List Link} (hv : (links c).Visits s [] L) (hv' : (links c).Visits s' [] L')
    (hr : RoomFor c (highest L')) :
    ∃ r, runAll (step c c.alloc) (replace L L') s = some r ∧ Reach c r ∧ (links c).view r = (links c).view s' := by
  obtain ⟨L2, k1, k2, k3⟩ := (reachLawful hc).each_all s' h'
  obtain rfl := hv'.unique k1
  obtain ⟨free, ts, tt, hi⟩ := reach_good hc h'
  obtain ⟨r, h1, h2, h3⟩ := C91_from_any_contents_to_any_other hc h ht hv (index_nodup k2 fun l hl => (k3 l).1 hl) (fun l hl => by
    have h1 : (links c).view s' l.index = some (l.source, l.target) := (k3 l).1 hl
    rw [view_eq hc hi.toInv0] at h1
    split at h1
    · next hl => exact ⟨hl.1, Nat.le_trans hl.2.1 hi.base.alloc_le⟩
    · cases h1) hr
  exact ⟨r, h1, h2, View.ext_has fun l => (h3 l).trans (k3 l)⟩

/-- **C91**, united store: a creation is undone by deleting the new link. -/
theorem C91_creation_is_undone_by_deletion (hc : CfgOK c) {s s1 : Store} (h : Reach c s) (hg : CanGrow c s) {i : Nat}
    (ho : (links c).create s = some ⟨.ok i, s1, ()⟩) :
    ∃ s2, (links c).delete s1 i = some ⟨.ok 0, s2, ()⟩ ∧ (links c).view s2 = (links c).view s := by
  obtain ⟨s2, h1, -, h2⟩ := (reachLawful hc).create_undone h hg ho trivial
  exact ⟨s2, h1, h2⟩

/-- **C91**, united store: an update is undone by another, provided that neither pair is also that of another link. -/
theorem C91_update_is_undone_by_update (hc : CfgOK c) {s : Store} (h : Reach c s) {i a b : Nat} (x y : Nat)
    (hv : (links c).view s i = some (a, b)) (ht : ((links c).view s).NoTwin i)
    (ht' : (((links c).view s).set i (x, y)).NoTwin i) :
    ∃ s1 s2, (links c).update s i x y = some ⟨.ok i, s1, ()⟩ ∧ (links c).update s1 i a b = some ⟨.ok i, s2, ()⟩ ∧
      (links c).view s2 = (links c).view s := by
  obtain ⟨s1, s2, h1, h2, -, h3⟩ := (reachLawful hc).update_undone h hv ht trivial ht' trivial
  exact ⟨s1, s2, h1, h2, h3⟩

/-- **C91**, united store: the deletion of a link other than the highest is undone by a creation and an update. -/
theorem C91_deletion_is_undone_by_creation (hc : CfgOK c) {s : Store} (h : Reach c s) {i a b : Nat}
    (hv : (links c).view s i = some (a, b)) (ht : ((links c).view s).NoTwin i) (hnot : ∃ j, i < j ∧ (links c).view s j ≠ none) :
    ∃ s1 s2 s3, (links c).delete s i = some ⟨.ok 0, s1, ()⟩ ∧ (links c).create s1 = some ⟨.ok i, s2, ()⟩ ∧
      (links c).update s2 i a b = some ⟨.ok i, s3, ()⟩ ∧ (links c).view s3 = (links c).view s := by
  obtain ⟨s1, s2, h1, h2, h3, -⟩ := C15_delete_then_create_restores_the_index hc h hv ht hnot
  have hr1 : Reach c s1 := by
    obtain ⟨s1', g1, g2, -⟩ := (reachLawful hc).delete_undone h hv ht trivial
    rw [h1] at g1; cases g1; exact g2
  obtain ⟨o, ho, e⟩ := create_unfold (c := c) h2
  have hr2 : Reach c s2 := by
    have := Reach.create (q := []) c.alloc hr1 hc.alloc_ge ho
    rwa [e] at this
  have hi : (links c).view s2 i = some (0, 0) := by rw [h3, View.set, if_pos rfl]
  obtain ⟨s3, k1, k2, k3⟩ := update_law hc (reach_good hc hr2) hi (fun p hp hne => by rw [hi] at hp; cases hp; exact absurd rfl hne) i a b
  refine ⟨s1, s2, s3, h1, h2, Links.update_ok (D := links c) k3, ?_⟩
  rw [k2, h3]
  funext k
  simp only [View.set]
  split
  · next e => rw [e, hv]
  · rfl

/-- From the six links of the example network to four others, and back to a store with the links 1 and 3. -/
example : ∃ L, (links cfg0).Visits sNet [] L ∧
    (∃ s', runAll (step cfg0 cfg0.alloc) (replace L [⟨9, 9, 77⟩, ⟨2, 5, 5⟩, ⟨4, 5, 5⟩, ⟨5, 0, 3⟩]) sNet = some s' ∧
      Reach cfg0 s' ∧ ∀ l, ((links cfg0).view s').Has l ↔ l ∈ [⟨9, 9, 77⟩, ⟨2, 5, 5⟩, ⟨4, 5, 5⟩, ⟨5, 0, 3⟩]) ∧
    ∃ L' s', (links cfg0).Visits sGap [] L' ∧ runAll (step cfg0 cfg0.alloc) (replace L L') sNet = some s' ∧
      (links cfg0).view s' = (links cfg0).view sGap := by
  obtain ⟨L, h1, -, -⟩ := (reachLawful cfg0_ok).each_all sNet sNet_reach
  obtain ⟨L', k1, -, k3⟩ := (reachLawful cfg0_ok).each_all sGap sGap_reach
  obtain ⟨free, ts, tt, hi⟩ := reach_good cfg0_ok sGap_reach
  have hle : sGap.hdr.allocated = 3 := by decide +kernel
  have hL : ∀ l ∈ L', l.index ≤ 3 := fun l hl => by
    have hl : (links cfg0).view sGap l.index = some _ := (k3 l).1 hl
    rw [view_eq cfg0_ok hi.toInv0] at hl
    split at hl
    · next hlive => exact Nat.le_trans hlive.2.1 (by omega)
    · cases hl
  obtain ⟨s', g1, -, g3⟩ := C91_every_change_can_be_undone cfg0_ok sNet_reach sGap_reach sNet_uniq h1 k1
    (cfg0_room (Nat.le_trans (highest_le hL) (by omega)))
  exact ⟨L, h1, C91_from_any_contents_to_any_other cfg0_ok sNet_reach sNet_uniq h1 (by decide +kernel) (by decide +kernel)
    (cfg0_room (by decide +kernel)), L', s', k1, g1, g3⟩

/-- Link 3 of the example network is (2, 2), and there is a higher one. -/
example : ∃ s1 s2 s3, (links cfg0).delete sNet 3 = some ⟨.ok 0, s1, ()⟩ ∧ (links cfg0).create s1 = some ⟨.ok 3, s2, ()⟩ ∧
    (links cfg0).update s2 3 2 2 = some ⟨.ok 3, s3, ()⟩ ∧ (links cfg0).view s3 = (links cfg0).view sNet :=
  C91_deletion_is_undone_by_creation cfg0_ok sNet_reach (by decide +kernel) (sNet_uniq 3) ⟨6, by omega, by decide +kernel⟩

/-- **C91**, united store: that only holds for links other than the highest. When link 3 of a store with the links 1 and 3 is deleted the
next creation returns 2. -/
theorem C91_deletion_of_the_highest_is_not : Reach cfg0 sGap ∧ (links cfg0).view sGap 3 = some (1, 3) ∧
    (((links cfg0).delete sGap 3).bind fun o => (links cfg0).create o.st).map (·.res) = some (.ok 2) :=
  ⟨sGap_reach, by decide +kernel, by decide +kernel⟩

/-- A creation on the example network, and an update of its link 3 to (5, 6). -/
example : ∃ i s1 s2, (links cfg0).create sNet = some ⟨.ok i, s1, ()⟩ ∧ (links cfg0).delete s1 i = some ⟨.ok 0, s2, ()⟩ ∧
    (links cfg0).view s2 = (links cfg0).view sNet := by
  obtain ⟨i, s1, h⟩ : ∃ i s1, (links cfg0).create sNet = some ⟨.ok i, s1, ()⟩ := by
    have h : ((links cfg0).create sNet).map (·.res) = some (.ok 5) := by decide +kernel
    cases ho : (links cfg0).create sNet with
    | none => rw [ho] at h; cases h
    | some o =>
      obtain ⟨r, s1, hs⟩ := o
      rw [ho] at h
      have h : some r = some (.ok 5) := h
      cases h
      exact ⟨5, s1, rfl⟩
  obtain ⟨s2, h2, h3⟩ := C91_creation_is_undone_by_deletion cfg0_ok sNet_reach (cfg0_canGrow (by decide +kernel)) h
  exact ⟨i, s1, s2, h, h2, h3⟩

example : ∃ s1 s2, (links cfg0).update sNet 3 5 6 = some ⟨.ok 3, s1, ()⟩ ∧ (links cfg0).update s1 3 2 2 = some ⟨.ok 3, s2, ()⟩ ∧
    (links cfg0).view s2 = (links cfg0).view sNet :=
  C91_update_is_undone_by_update cfg0_ok sNet_reach 5 6 (by decide +kernel) (sNet_uniq 3)
    (sNet_uniq.set (fun j _ hj => by
      have := forall_links sNet_reach (p := fun _ p => p != (5, 6)) (by decide +kernel) j _ hj
      simp at this) 3)

end Verif.Unit.Props

namespace Verif.Split
open Verif
variable {c : Cfg}

/-- The memories have at most one slot more than is reserved. -/
theorem reach_room (hc : CfgOK c) {s : Store} (h : Reach c s) : s.ilen ≤ s.hdr.reserved + 1 := by
  have open_ : ∀ {d i : Nat → Nat → Option Nat} {m s : Store}, ExactAlloc d → ExactAlloc i →
      init (c.withAllocs d i) m = some (.ok s) → s.ilen ≤ s.hdr.reserved + 1 := fun hd hi h => by
    obtain ⟨-, n, -, -, -, -, -, -, rfl⟩ := (Props.C72_split_open_iff (hc.withAllocs hd hi) _ _).1 h
    show n ≤ n - 1 + 1
    omega
  induction h with
  | fresh d i hd hi h => exact open_ hd hi h
  | create d i _ hd hi hg _ ho ih =>
    rcases createLinks_room (c := c.withAllocs d i) (q := []) hg ho with hk | ⟨-, -, -, -, k⟩
    · have k1 := hk.ilen; have k2 := hk.reserved; omega
    · omega
  | update _ ht ho ih => have hk := updateLinks_room ho; have k1 := hk.ilen; have k2 := hk.reserved; omega
  | delete _ ht ho ih => have hk := deleteLinks_room ho; have k1 := hk.ilen; have k2 := hk.reserved; omega
  | reopen d i n m _ hd hi hin hlt ih => exact open_ hd hi hin

/-- A store without links is as good as new. -/
theorem made_empty (hc : CfgOK c) {s : Store} (h : Reach c s) (he : (links c).view s = View.empty) : Made c 0 s := by
  obtain ⟨free, hi⟩ := reach_good hc h
  have h0 : s.hdr.allocated = 0 := by
    apply Classical.byContradiction
    intro hne
    have h1 : (links c).view s s.hdr.allocated = none := by rw [he]; rfl
    rw [view_eq hc hi.toInv0, if_pos ⟨by omega, Nat.le_refl _, fun hx => Nat.lt_irrefl _ (hi.free_lt _ hx)⟩] at h1
    cases h1
  have hf : free = [] := List.eq_nil_iff_forall_not_mem.2 fun x hx => by have := hi.free_lt x hx; omega
  exact ⟨h, hf ▸ hi, h0, reach_room hc h⟩

theorem null_step (hc : CfgOK c) (s : Store) (i : Nat) (p : Nat × Nat) (h : Reach c s) (ht : ((links c).view s).NoTwin i)
    (hv : (links c).view s i = some p) : ∃ r s', step c c.dalloc c.ialloc s (.update i 0 0) = some ⟨.ok r, s', ()⟩ ∧ Reach c s' ∧
      (links c).view s' = ((links c).view s).set i (0, 0) := by
  have hu : CanUpdate ((links c).view s) i 0 0 := ⟨fun h => h, fun h0 => by
    obtain ⟨free, hi⟩ := reach_good hc h
    have := (live_of_view hc hi.toInv0 hv).1.1
    omega⟩
  obtain ⟨s', -, h2, h3⟩ := update_law hc (reach_good hc h) hv ht i 0 0 hu
  exact ⟨_, s', Links.update_ok (D := links c) h3,
    .update (q := [i]) (ch := [i, 0, 0]) h (fun j x a b hj hch => by cases hj; cases hch; exact ⟨ht, hu⟩) (h3 _ recH none), h2⟩

end Verif.Split

namespace Verif.Split.Props
open Verif Verif.Split
variable {c : Cfg}

/-- **C91**, split store. As `C91_from_any_contents_to_any_other`, to contents without links that have a source but no target. -/
theorem C91_split_from_any_contents_to_any_other (hc : CfgOK c) {s : Store} (h : Reach c s) (ht : ((links c).view s).Uniq)
    {L L' : List Link} (hv : (links c).Visits s [] L) (hn' : (L'.map (·.index)).Nodup)
    (hL' : ∀ l ∈ L', 1 ≤ l.index ∧ l.index ≤ c.consts.internalEnd ∧ (l.source ≠ 0 → l.target ≠ 0)) (hr : RoomFor c (highest L')) :
    ∃ s', runAll (step c c.dalloc c.ialloc) (replace L L') s = some s' ∧ Reach c s' ∧ ∀ l, ((links c).view s').Has l ↔ l ∈ L' := by
  have hB := builds hc (highest_le fun l hl => (hL' l hl).2.1) hr
  obtain ⟨g1, g2, g3⟩ := visited_all hc h hv
  obtain ⟨s1, h1, h2, h3⟩ := hB.clear (null_step hc) h ht g1 g2 fun l hl e => by have := (g3 l hl).1; omega
  obtain ⟨s2, h4, h5, h6⟩ := hB.rebuild (made_empty hc h2 h3) h3 hn' fun l hl => ⟨(hL' l hl).1, (hL' l hl).2.2⟩
  exact ⟨s2, by rw [replace, runAll_append h1, h4], h5, h6⟩

/-- **C91**, split store: whatever a client did, it can go back. -/
theorem C91_split_every_change_can_be_undone (hc : CfgOK c) {s s' : Store} (h : Reach c s) (h' : Reach c s')
    (ht : ((links c).view s).Uniq) {L L' : List Link} (hv : (links c).Visits s [] L) (hv' : (links c).Visits s' [] L')
    (hr : RoomFor c (highest L')) :
    ∃ r, runAll (step c c.dalloc c.ialloc) (replace L L') s = some r ∧ Reach c r ∧ (links c).view r = (links c).view s' := by
  obtain ⟨k1, k2, k3⟩ := visited_all hc h' hv'
  obtain ⟨free, hi⟩ := reach_good hc h'
  obtain ⟨r, h1, h2, h3⟩ := C91_split_from_any_contents_to_any_other hc h ht hv k1 (fun l hl =>
    ⟨(k3 l hl).1, Nat.le_trans (live_of_view hc hi.toInv0 ((k2 l).1 hl)).1.2.1 hi.base.alloc_le, (k3 l hl).2⟩) hr
  exact ⟨r, h1, h2, View.ext_has fun l => (h3 l).trans (k2 l)⟩

/-- **C91**, split store: a creation is undone by deleting the new link. -/
theorem C91_split_creation_is_undone_by_deletion (hc : CfgOK c) {s s1 : Store} (h : Reach c s) (hg : CanGrow c s)
    (hN : NewUnused c s) {i : Nat} (ho : (links c).create s = some ⟨.ok i, s1, ()⟩) :
    ∃ s2, (links c).delete s1 i = some ⟨.ok 0, s2, ()⟩ ∧ (links c).view s2 = (links c).view s := by
  obtain ⟨s2, h1, -, h2⟩ := (reachLawful hc).create_undone h ⟨hg, hN⟩ ho (fun j hj => by
    obtain ⟨hne, a, b, hab, hor⟩ := hj
    rw [View.set, if_neg hne] at hab
    have := hN i s1 ho j a b hab
    exact absurd hor (by simp [this]))
  exact ⟨s2, h1, h2⟩

/-- **C91**, split store: an update is undone by another, provided that neither pair is also that of another link. -/
theorem C91_split_update_is_undone_by_update (hc : CfgOK c) {s : Store} (h : Reach c s) {i a b : Nat} (x y : Nat)
    (hv : (links c).view s i = some (a, b)) (ht : ((links c).view s).NoTwin i)
    (ht' : (((links c).view s).set i (x, y)).NoTwin i) (hu : CanUpdate ((links c).view s) i x y)
    (hu' : CanUpdate (((links c).view s).set i (x, y)) i a b) :
    ∃ s1 s2, (links c).update s i x y = some ⟨.ok i, s1, ()⟩ ∧ (links c).update s1 i a b = some ⟨.ok i, s2, ()⟩ ∧
      (links c).view s2 = (links c).view s := by
  obtain ⟨s1, s2, h1, h2, -, h3⟩ := (reachLawful hc).update_undone h hv ht hu ht' hu'
  exact ⟨s1, s2, h1, h2, h3⟩

theorem delete_then_create (hc : CfgOK c) {s : Store} (h : Reach c s) {i : Nat}
    {p : Nat × Nat} (hv : (links c).view s i = some p) (ht : ((links c).view s).NoTwin i) (hd : CanDelete ((links c).view s) i)
    (hnot : ∃ j, i < j ∧ (links c).view s j ≠ none) :
    ∃ s1 s2, (links c).delete s i = some ⟨.ok 0, s1, ()⟩ ∧ (links c).create s1 = some ⟨.ok i, s2, ()⟩ ∧
      (links c).view s2 = ((links c).view s).set i (0, 0) ∧ ((∀ j, ¬ ((links c).view s).Uses i j) → Good c s2) := by
  obtain ⟨free, hi⟩ := reach_good hc h
  obtain ⟨j, hij, hj⟩ := hnot
  obtain ⟨hl, hp⟩ := live_of_view hc hi.toInv0 hv
  have hlt : i < s.hdr.allocated := by
    obtain ⟨q, hq⟩ := Option.ne_none_iff_exists'.1 hj
    have := (live_of_view hc hi.toInv0 hq).1.2.1
    omega
  obtain ⟨s1, -, h2, h3⟩ := delete_law hc (reach_good hc h) hv ht hd
  obtain ⟨s1', free1, g1, g2, g3, -⟩ := deleteLinks_ok hc hi hl (noTwinIn hc hi.toInv0 hl ht)
    (fun d k hk => noTwinIn hc hi.toInv0 hk.1 (hd k ⟨hk.2.1, (s.data k).1, (s.data k).2,
      by rw [view_eq hc hi.toInv0, if_pos hk.1], by
        cases d
        · exact .inl hk.2.2
        · exact .inr hk.2.2⟩)) [] recH none
  obtain rfl : s1 = s1' := by
    have := (h3 _ recH none).symm.trans g1
    simp only [Option.some.injEq, Out.mk.injEq] at this
    exact this.2.1
  obtain ⟨hf1, -⟩ := g3 hlt
  subst hf1
  rcases create_cases hc g2 [] with ⟨x, rest, s2, hf, hS, hC, ha, -⟩ | ⟨hf, -⟩ | ⟨hf, -⟩ | ⟨hf, -⟩ | ⟨hf, -⟩ | ⟨hf, -⟩
  · cases hf
    refine ⟨s1, s2, Links.delete_ok (D := links c) h3, create_of_succeeds hS, ?_, fun hu => ?_⟩
    · rw [(hC.view hc g2.toInv0).2, h2]; funext k; simp only [View.set, View.del]; split <;> rfl
    · refine ⟨_, hC.inv hc g2 (fun x hx => ha ▸ g2.free_lt x (List.mem_cons_of_mem _ hx)) fun j a b hj => ?_⟩
      rw [h2, View.del] at hj
      split at hj
      · cases hj
      · next hne => exact ⟨fun e => hu j ⟨hne, a, b, hj, .inl e⟩, fun e => hu j ⟨hne, a, b, hj, .inr e⟩⟩
  all_goals cases hf

/-- **C15**, split store. As `C15_delete_then_create_restores_the_index`, for links that, like their users, have no duplicates. -/
theorem C15_split_delete_then_create_restores_the_index (hc : CfgOK c) {s : Store} (h : Reach c s) {i : Nat}
    {p : Nat × Nat} (hv : (links c).view s i = some p) (ht : ((links c).view s).NoTwin i) (hd : CanDelete ((links c).view s) i)
    (hnot : ∃ j, i < j ∧ (links c).view s j ≠ none) :
    ∃ s1 s2, (links c).delete s i = some ⟨.ok 0, s1, ()⟩ ∧ (links c).create s1 = some ⟨.ok i, s2, ()⟩ ∧
      (links c).view s2 = ((links c).view s).set i (0, 0) ∧
      (p = (0, 0) → (links c).view s2 = (links c).view s) := by
  obtain ⟨s1, s2, h1, h2, h3, -⟩ := delete_then_create hc h hv ht hd hnot
  refine ⟨s1, s2, h1, h2, h3, fun hp => ?_⟩
  rw [h3]; funext k; simp only [View.set]; split
  · next hk => rw [hk, hv, hp]
  · rfl

/-- **C91**, split store: the deletion of a link other than the highest, to which no link refers, is undone by a creation and an update. -/
theorem C91_split_deletion_is_undone_by_creation (hc : CfgOK c) {s : Store} (h : Reach c s) {i a b : Nat}
    (hv : (links c).view s i = some (a, b)) (ht : ((links c).view s).NoTwin i) (hu : ∀ j, ¬ ((links c).view s).Uses i j)
    (hnot : ∃ j, i < j ∧ (links c).view s j ≠ none) :
    ∃ s1 s2 s3, (links c).delete s i = some ⟨.ok 0, s1, ()⟩ ∧ (links c).create s1 = some ⟨.ok i, s2, ()⟩ ∧
      (links c).update s2 i a b = some ⟨.ok i, s3, ()⟩ ∧ (links c).view s3 = (links c).view s := by
  obtain ⟨s1, s2, h1, h2, h3, h4⟩ := delete_then_create hc h hv ht (fun j hj => absurd hj (hu j)) hnot
  have hi : (links c).view s2 i = some (0, 0) := by rw [h3, View.set, if_pos rfl]
  obtain ⟨s3, -, k2, k3⟩ := update_law hc (h4 hu) hi (fun p hp hne => by rw [hi] at hp; cases hp; exact absurd rfl hne) i a b
    ⟨view_half hc h hv, fun _ p hp => by rw [hi] at hp; cases hp; rfl⟩
  refine ⟨s1, s2, s3, h1, h2, Links.update_ok (D := links c) k3, ?_⟩
  rw [k2, h3]
  funext k
  simp only [View.set]
  split
  · next e => rw [e, hv]
  · rfl

/-- From the six links of the example network to four others, and to the contents of another store. -/
example : ∃ L, (links cfg0).Visits sNetU [] L ∧
    (∃ s', runAll (step cfg0 cfg0.dalloc cfg0.ialloc) (replace L [⟨9, 9, 77⟩, ⟨2, 5, 5⟩, ⟨4, 5, 5⟩, ⟨5, 0, 3⟩]) sNetU = some s' ∧
      Reach cfg0 s' ∧ ∀ l, ((links cfg0).view s').Has l ↔ l ∈ [⟨9, 9, 77⟩, ⟨2, 5, 5⟩, ⟨4, 5, 5⟩, ⟨5, 0, 3⟩]) ∧
    ∃ L' s', (links cfg0).Visits sNet [] L' ∧ runAll (step cfg0 cfg0.dalloc cfg0.ialloc) (replace L L') sNetU = some s' ∧
      (links cfg0).view s' = (links cfg0).view sNet := by
  obtain ⟨L, h1, -, -⟩ := (reachLawful cfg0_ok).each_all sNetU sNetU_reach
  obtain ⟨L', k1, -, k3⟩ := (reachLawful cfg0_ok).each_all sNet sNet_reach
  obtain ⟨free, hi⟩ := reach_good cfg0_ok sNet_reach
  have hL : ∀ l ∈ L', l.index ≤ 100 := fun l hl =>
    Nat.le_trans (live_of_view cfg0_ok hi.toInv0 ((k3 l).1 hl)).1.2.1 (by decide +kernel)
  obtain ⟨s', g1, -, g3⟩ := C91_split_every_change_can_be_undone cfg0_ok sNetU_reach sNet_reach sNetU_uniq h1 k1
    (cfg0_room (Nat.le_trans (highest_le hL) (by omega)))
  exact ⟨L, h1, C91_split_from_any_contents_to_any_other cfg0_ok sNetU_reach sNetU_uniq h1 (by decide +kernel) (by decide +kernel)
    (cfg0_room (by decide +kernel)), L', s', k1, g1, g3⟩

/-- A creation on the example network, and an update of its link 3 to (5, 6). -/
example : ∃ i s1 s2, (links cfg0).create sNetU = some ⟨.ok i, s1, ()⟩ ∧ (links cfg0).delete s1 i = some ⟨.ok 0, s2, ()⟩ ∧
    (links cfg0).view s2 = (links cfg0).view sNetU := by
  obtain ⟨i, s1, h⟩ : ∃ i s1, (links cfg0).create sNetU = some ⟨.ok i, s1, ()⟩ := by
    have h : ((links cfg0).create sNetU).map (·.res) = some (.ok 5) := by decide +kernel
    cases ho : (links cfg0).create sNetU with
    | none => rw [ho] at h; cases h
    | some o =>
      obtain ⟨r, s1, hs⟩ := o
      rw [ho] at h
      have h : some r = some (.ok 5) := h
      cases h
      exact ⟨5, s1, rfl⟩
  obtain ⟨s2, h2, h3⟩ := C91_split_creation_is_undone_by_deletion cfg0_ok sNetU_reach (cfg0_canGrow (by decide +kernel))
    sNetU_newUnused h
  exact ⟨i, s1, s2, h, h2, h3⟩

example : ∃ s1 s2, (links cfg0).update sNetU 3 5 6 = some ⟨.ok 3, s1, ()⟩ ∧ (links cfg0).update s1 3 2 2 = some ⟨.ok 3, s2, ()⟩ ∧
    (links cfg0).view s2 = (links cfg0).view sNetU :=
  C91_split_update_is_undone_by_update cfg0_ok sNetU_reach 5 6 (by decide +kernel) (sNetU_uniq 3)
    (sNetU_uniq.set (fun j _ hj => by
      have := forall_of_collect (reachLawful cfg0_ok) sNetU_reach (p := fun l => l.source != 5 || l.target != 6) (by decide +kernel) hj
      simp at this) 3) ⟨by decide, by decide⟩ ⟨by decide, by decide⟩

/-- Link 3 of the example network is (2, 2), and there is a higher one. -/
example : ∃ s1 s2, (links cfg0).delete sNetU 3 = some ⟨.ok 0, s1, ()⟩ ∧ (links cfg0).create s1 = some ⟨.ok 3, s2, ()⟩ ∧
    (links cfg0).view s2 = ((links cfg0).view sNetU).set 3 (0, 0) := by
  obtain ⟨s1, s2, h1, h2, h3, -⟩ := C15_split_delete_then_create_restores_the_index cfg0_ok sNetU_reach (i := 3) (p := (2, 2))
    (by decide +kernel) (sNetU_uniq 3) (fun j _ => sNetU_uniq j) ⟨6, by omega, by decide +kernel⟩
  exact ⟨s1, s2, h1, h2, h3⟩

/-- Link 4 of the example network is (0, 0), and no link refers to it. -/
example : ∃ s1 s2 s3, (links cfg0).delete sNetU 4 = some ⟨.ok 0, s1, ()⟩ ∧ (links cfg0).create s1 = some ⟨.ok 4, s2, ()⟩ ∧
    (links cfg0).update s2 4 0 0 = some ⟨.ok 4, s3, ()⟩ ∧ (links cfg0).view s3 = (links cfg0).view sNetU :=
  C91_split_deletion_is_undone_by_creation cfg0_ok sNetU_reach (by decide +kernel) (sNetU_uniq 4)
    (fun j ⟨_, a, b, hj, hor⟩ => by
      have := forall_of_collect (reachLawful cfg0_ok) sNetU_reach (p := fun l => l.source != 4 && l.target != 4) (by decide +kernel) hj
      simp at this
      exact absurd hor (by simp [this])) ⟨6, by omega, by decide +kernel⟩

end Verif.Split.Props
