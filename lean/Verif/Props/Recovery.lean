import Verif.Props.Copy
import Verif.Props.AnyFile
import Verif.Props.Crash
import Verif.Props.SplitCrash
import Verif.Props.PowerLoss
import Verif.Props.SplitQueries

/-!
# C90: a damaged store can be recovered by copying it

After a crash the trees of the reopened store may be broken: searches, traversals by an end and further changes are not to be trusted
(C40, C54, C83). The traversal of everything and the lookup do not use the trees. A client can therefore store what that traversal
visits in a fresh store (`rebuild` of `Copy.lean`), and has a sound store again.
-/

namespace Verif

/-- Links in increasing order of their indices have distinct indices. -/
theorem sorted_nodup {L : List Link} (h : L.Pairwise fun a b => a.index < b.index) : (L.map (·.index)).Nodup := by
  rw [List.Nodup, List.pairwise_map]
  exact h.imp fun hab => Nat.ne_of_lt hab

/-- The view is what lookups return. -/
theorem has_iff_getLink {S : Type} (D : Links S) {s : S} (h : ∀ i l, D.getLink s i = some (some l) → l.index = i) (l : Link) :
    (D.view s).Has l ↔ D.getLink s l.index = some (some l) := by
  simp only [View.Has, Links.view]
  cases hg : D.getLink s l.index with
  | none => simp
  | some o =>
    cases o with
    | none => simp
    | some x =>
      have := h _ _ hg
      cases x; cases l
      simp_all

/-- The link has a target if it has a source. -/
def Link.whole (l : Link) : Bool := l.source == 0 || l.target != 0

end Verif

namespace Verif.Unit.Props
open Verif Verif.Unit
variable {c c' : Cfg} {P : Programs}

/-- A traversal does not depend on the allocator. -/
theorem visits_withAlloc (a : Nat → Nat → Option Nat) {s : Store} {q : List Nat} {L : List Link} :
    (links (c.withAlloc a)).Visits s q L ↔ (links c).Visits s q L := by
  have hi : ∀ {σ : Type} (h : RH σ) ks st, eachIdx (c.withAlloc a) s h ks st = eachIdx c s h ks st := by
    intro σ h ks
    induction ks with
    | nil => intro st; rfl
    | cons k ks ih =>
      intro st
      unfold eachIdx
      simp only [ih]
      rfl
  have he : ∀ {σ : Type} (h : RH σ) st, eachLinks (c.withAlloc a) s q h st = eachLinks c s q h st := by
    intro σ h st
    unfold eachLinks each3 eachAll
    simp only [hi]
    rfl
  exact ⟨fun h σ hd st => (he hd st).symm.trans (h σ hd st), fun h σ hd st => (he hd st).trans (h σ hd st)⟩

/-- A traversal of everything that ends, whatever is in the memory, visits what the lookups find, once each, by increasing index. -/
theorem visited_any (hc : CfgOK c) {m s : Store} (ho : init c m = some (.ok s)) {L : List Link} (hv : (links c).Visits s [] L) :
    (L.map (·.index)).Nodup ∧ (∀ l ∈ L, 1 ≤ l.index) ∧ ∀ l, l ∈ L ↔ ((links c).view s).Has l := by
  obtain ⟨h1, h2⟩ := C78_traversal_of_any_memory hc ho
  have hall : ∀ i, (links c).getLink s i ≠ none := fun i hi => by
    have := h2 ⟨i, hi⟩ _root_.Unit (fun _ _ => (.cont, ())) (fun _ _ => rfl) ()
    rw [hv] at this
    cases this
  obtain ⟨L', g1, g2, g3⟩ := h1 hall
  obtain rfl := Links.Visits.unique hv g1
  have hidx : ∀ i l, (links c).getLink s i = some (some l) → l.index = i ∧ 1 ≤ i := fun i l hl => by
    obtain ⟨rfl, h3, -⟩ := (C78_lookup_in_any_memory hc ho i).2 l hl
    exact ⟨rfl, h3⟩
  refine ⟨sorted_nodup g2, fun l hl => (hidx _ _ ((g3 l).1 hl)).2, fun l => ?_⟩
  rw [g3 l, has_iff_getLink _ fun i l hl => (hidx i l hl).1]

/-- **C90**, united store: any memory that opens. If the traversal of everything ends, then storing what it visits in a fresh store
succeeds and gives a store in which lookups return what they return in the damaged one, and which is sound: everything proved about
reachable stores holds of it. -/
theorem C90_any_memory_can_be_copied (hc : CfgOK c) (hc' : CfgOK c') {m s : Store} (ho : init c m = some (.ok s)) {L : List Link}
    (hv : (links c).Visits s [] L) (hL : ∀ l ∈ L, l.index ≤ c'.consts.internalEnd) (hr : RoomFor c' (highest L)) {s0 : Store}
    (h0 : init c' {} = some (.ok s0)) :
    ∃ r, runAll (step c' c'.alloc) (rebuild L) s0 = some r ∧ Reach c' r ∧ (links c').view r = (links c).view s := by
  obtain ⟨h1, h2, h3⟩ := visited_any hc ho hv
  obtain ⟨r, g1, g2, g3⟩ := C89_any_links_can_be_stored hc' h1 (fun l hl => ⟨h2 l hl, hL l hl⟩) hr h0
  exact ⟨r, g1, g2, View.ext_has fun l => (g3 l).trans (h3 l)⟩

/-- **C90**, united store: the process dies at any point of a call, between two memory updates, the memory is reopened, and a client
copies what a traversal of everything visits to a fresh store. The copy is sound and has every link that the call is not about. Whatever
else it has is the link the call is about, or holds the null doublet. -/
theorem C90_recovery_after_a_crash (hc : CfgOK c) (hc' : CfgOK c') {s : Store} (h : Reach c s) {k : Call}
    (hk : ∀ j, callAbout j k → ((links c).view s).NoTwin j) {a a' : Nat → Nat → Option Nat} (ha : GoodAlloc a)
    (ha' : GoodAlloc a') {m : Store} (hm : m ∈ callImages (c.withAlloc a) s k) {n : Nat} {s' : Store}
    (ho : init (c.withAlloc a') { m with len := n } = some (.ok s')) (hlt : m.hdr.allocated < s'.len) :
    ∃ L, (links c).Visits s' [] L ∧ ∀ s0, init c' {} = some (.ok s0) → (∀ l ∈ L, l.index ≤ c'.consts.internalEnd) →
      RoomFor c' (highest L) → ∃ r, runAll (step c' c'.alloc) (rebuild L) s0 = some r ∧ Reach c' r ∧
      (∀ l, ((links c).view s).Has l → ¬ callAbout l.index k → ((links c').view r).Has l) ∧
      ∀ l, ((links c').view r).Has l → ((links c).view s).Has l ∨ callAbout l.index k ∨ (l.source = 0 ∧ l.target = 0) := by
  obtain ⟨g1, g2⟩ := C40_crash_partial hc h hk ha ha' hm ho hlt
  obtain ⟨L, g3, g4, -⟩ := g2 [] (by simp)
  obtain ⟨k1, k2, k3⟩ := visited_any (hc.withAlloc ha') ho ((visits_withAlloc a').2 g3)
  refine ⟨L, g3, fun s0 h0 hL hr => ?_⟩
  obtain ⟨r, r1, r2, r3⟩ := C89_any_links_can_be_stored hc' k1 (fun l hl => ⟨k2 l hl, hL l hl⟩) hr h0
  refine ⟨r, r1, r2, fun l hl hca => (r3 l).2 ((k3 l).2 ?_), fun l hl => (g4 l ((r3 l).1 hl)).2⟩
  have := (g1 l hl hca).1
  rw [view_withAlloc]
  simp only [View.Has, Links.view, this]

/-- **C90**, united store: the power fails at any moment of a session, the file is left as any mixture of what it was at the moments
since it was last on disk, a store is opened on it, and a client copies what a traversal of everything visits to a fresh store. The
copy is sound, and under the index of a link that was there back then and that no call was about it has that link or none. -/
theorem C90_recovery_after_power_loss (hc : CfgOK c) (hc' : CfgOK c') (hP : P.Implements c.trees) {s : Store} (h : Reach c s)
    {xs : List Step} (hs : Session c s xs) :
    ∃ f0, ∀ f, f0 ≤ f → ∀ t, Torn (s :: written c P f xs (.of s)) t →
      ∀ (a' : Nat → Nat → Option Nat) (n : Nat) (s' : Store), GoodAlloc a' →
      init (c.withAlloc a') { t with len := n } = some (.ok s') → t.hdr.allocated < s'.len →
      ∃ L, (links c).Visits s' [] L ∧ ∀ s0, init c' {} = some (.ok s0) → (∀ l ∈ L, l.index ≤ c'.consts.internalEnd) →
        RoomFor c' (highest L) → ∃ r, runAll (step c' c'.alloc) (rebuild L) s0 = some r ∧ Reach c' r ∧
        (∀ i, (links c').view r i = (links c).view s' i) ∧
        ∀ l, ((links c).view s).Has l → (∀ x ∈ xs, ¬ callAbout l.index x.call) →
          (links c').view r l.index = some (l.source, l.target) ∨ (links c').view r l.index = none := by
  obtain ⟨f0, hf⟩ := C83_power_loss_keeps_the_ends hc hP h hs
  refine ⟨f0, fun f hff t ht a' n s' ha' ho hlt => ?_⟩
  obtain ⟨g1, L, g2, -⟩ := hf f hff t ht a' n s' ho hlt
  refine ⟨L, g2, fun s0 h0 hL hr => ?_⟩
  obtain ⟨r, r1, r2, r3⟩ := C90_any_memory_can_be_copied (hc.withAlloc ha') hc' ho ((visits_withAlloc a').2 g2) hL hr h0
  refine ⟨r, r1, r2, fun i => congrFun r3 i, fun l hl hca => ?_⟩
  rw [r3, view_withAlloc]
  obtain ⟨-, -, g | g⟩ := g1 l hl hca
  · exact .inl (by simp only [Links.view, g])
  · exact .inr (by simp only [Links.view, g])

/-- A crash while `sGap` deletes its link 3 (see `C40_crash_can_revive_a_deleted_link`): the copy has link 1, not link 3, and instead of the
index 2 that had been deleted before a link with the null doublet. -/
example : ∃ m ∈ callImages cfg0 sGap (.delete 3), ∃ s' L r, init cfg0 m = some (.ok s') ∧ (links cfg0).Visits s' [] L ∧
    runAll (step cfg0 cfg0.alloc) (rebuild L) (store0 cfg0) = some r ∧ Reach cfg0 r ∧ (links cfg0).view r 1 = some (1, 1) ∧
    (links cfg0).view r 2 = some (0, 0) ∧ (links cfg0).view r 3 = none := by
  have hlen : 8 < (callImages cfg0 sGap (.delete 3)).length := by decide +kernel
  generalize hm : (callImages cfg0 sGap (.delete 3))[8]'hlen = m
  have hd : ((callImages cfg0 sGap (.delete 3))[8]?.bind fun m => match init cfg0 m with
      | some (.ok s') => some (decide (m.hdr.allocated < s'.len ∧ m.hdr.allocated ≤ 100), (links cfg0).view s' 1,
        (links cfg0).view s' 2, (links cfg0).view s' 3)
      | _ => none) = some (true, some (1, 1), some (0, 0), none) := by decide +kernel
  rw [List.getElem?_eq_getElem hlen, hm, Option.bind_some] at hd
  have hmem : m ∈ callImages cfg0 sGap (.delete 3) := hm ▸ List.getElem_mem hlen
  refine ⟨m, hmem, ?_⟩
  split at hd
  · next s' hs' =>
    simp only [Option.some.injEq, Prod.mk.injEq, decide_eq_true_eq] at hd
    obtain ⟨⟨d1, d2⟩, d3, d4, d5⟩ := hd
    obtain ⟨-, g⟩ := C40_crash_partial cfg0_ok sGap_reach (k := .delete 3) (fun j hj => by
      cases hj
      exact twinFree_noTwin cfg0_ok (reach_good cfg0_ok sGap_reach) (by decide +kernel)) alloc0_good alloc0_good hmem
      (n := m.len) hs' d1
    obtain ⟨L, hv, -⟩ := g [] (by simp)
    obtain ⟨-, -, hmemL⟩ := visited_any cfg0_ok hs' hv
    have hL : ∀ l ∈ L, l.index ≤ 100 := fun l hl => by
      have h1 := (has_iff_getLink _ (fun i l hl => by
        obtain ⟨rfl, -⟩ := (C78_lookup_in_any_memory cfg0_ok hs' i).2 l hl; rfl) l).1 ((hmemL l).1 hl)
      exact Nat.le_trans ((C78_lookup_in_any_memory cfg0_ok hs' _).2 l h1).2.2 d2
    obtain ⟨r, h1, h2, h3⟩ := C90_any_memory_can_be_copied cfg0_ok cfg0_ok hs' hv
      (fun l hl => Nat.le_trans (hL l hl) (by decide +kernel)) (cfg0_room (Nat.le_trans (highest_le hL) (by omega))) (s0 := store0 cfg0) rfl
    exact ⟨s', L, r, hs', hv, h1, h2, by rw [h3, d3], by rw [h3, d4], by rw [h3, d5]⟩
  · cases hd

end Verif.Unit.Props

namespace Verif.Split.Props
open Verif Verif.Split
variable {c c' : Cfg} {P : Programs}

/-- A traversal does not depend on the allocators. -/
theorem visits_withAllocs (d i : Nat → Nat → Option Nat) {s : Store} {q : List Nat} {L : List Link} :
    (links (c.withAllocs d i)).Visits s q L ↔ (links c).Visits s q L := by
  have he : ∀ {σ : Type} (h : RH σ) st, eachLinks (c.withAllocs d i) s q h st = eachLinks c s q h st := by
    intro σ h st
    unfold eachLinks each3 eachAll
    simp only [eachIdx_withAllocs]
    rfl
  exact ⟨fun h σ hd st => (he hd st).symm.trans (h σ hd st), fun h σ hd st => (he hd st).trans (h σ hd st)⟩

/-- As `Unit.Props.visited_any`. -/
theorem visited_any (hc : CfgOK c) {m s : Store} (ho : init c m = some (.ok s)) {L : List Link} (hv : (links c).Visits s [] L) :
    (L.map (·.index)).Nodup ∧ (∀ l ∈ L, 1 ≤ l.index) ∧ ∀ l, l ∈ L ↔ ((links c).view s).Has l := by
  obtain ⟨h1, h2⟩ := C78_split_traversal_of_any_memory hc ho
  have hall : ∀ i, (links c).getLink s i ≠ none := fun i hi => by
    have := h2 ⟨i, hi⟩ _root_.Unit (fun _ _ => (.cont, ())) (fun _ _ => rfl) ()
    rw [hv] at this
    cases this
  obtain ⟨L', g1, g2, g3⟩ := h1 hall
  obtain rfl := Links.Visits.unique hv g1
  have hidx : ∀ i l, (links c).getLink s i = some (some l) → l.index = i ∧ 1 ≤ i := fun i l hl => by
    obtain ⟨rfl, h3, -⟩ := (C78_split_lookup_in_any_memory hc ho i).2 l hl
    exact ⟨rfl, h3⟩
  refine ⟨sorted_nodup g2, fun l hl => (hidx _ _ ((g3 l).1 hl)).2, fun l => ?_⟩
  rw [g3 l, has_iff_getLink _ fun i l hl => (hidx i l hl).1]

/-- **C90**, split store: any memories that open. If the traversal of everything ends, then storing what it visits, except links that have
a source but no target, in a fresh split store succeeds and gives a sound store with these links. -/
theorem C90_split_any_memory_can_be_copied (hc : CfgOK c) (hc' : CfgOK c') {m s : Store} (ho : init c m = some (.ok s))
    {L : List Link} (hv : (links c).Visits s [] L) (hL : ∀ l ∈ L, l.index ≤ c'.consts.internalEnd)
    (hr : RoomFor c' (highest (L.filter Link.whole))) {s0 : Store} (h0 : init c' {} = some (.ok s0)) :
    ∃ r, runAll (step c' c'.dalloc c'.ialloc) (rebuild (L.filter Link.whole)) s0 = some r ∧ Reach c' r ∧
      ∀ l, ((links c').view r).Has l ↔ ((links c).view s).Has l ∧ (l.source ≠ 0 → l.target ≠ 0) := by
  obtain ⟨h1, h2, h3⟩ := visited_any hc ho hv
  have hw : ∀ l : Link, l.whole = true ↔ (l.source ≠ 0 → l.target ≠ 0) := fun l => by
    simp only [Link.whole, Bool.or_eq_true, beq_iff_eq, bne_iff_ne, ne_eq]
    omega
  obtain ⟨r, g1, g2, g3⟩ := C89_split_any_links_can_be_stored hc' (L := L.filter Link.whole)
    (h1.sublist ((List.filter_sublist).map _)) (fun l hl => by
      obtain ⟨hl, hw'⟩ := List.mem_filter.1 hl
      exact ⟨h2 l hl, hL l hl, (hw l).1 hw'⟩) hr h0
  refine ⟨r, g1, g2, fun l => ?_⟩
  rw [g3 l, List.mem_filter, h3 l, hw l]

/-- **C90**: any memories of a split store that open can be copied to a united store, all links included. -/
theorem C90_split_any_memory_to_united {c' : Unit.Cfg} (hc : CfgOK c) (hc' : Unit.CfgOK c') {m s : Store}
    (ho : init c m = some (.ok s)) {L : List Link} (hv : (links c).Visits s [] L) (hL : ∀ l ∈ L, l.index ≤ c'.consts.internalEnd)
    (hr : Unit.RoomFor c' (highest L)) {s0 : Unit.Store} (h0 : Unit.init c' {} = some (.ok s0)) :
    ∃ r, runAll (Unit.step c' c'.alloc) (rebuild L) s0 = some r ∧ Unit.Reach c' r ∧
      (Unit.links c').view r = (links c).view s := by
  obtain ⟨h1, h2, h3⟩ := visited_any hc ho hv
  obtain ⟨r, g1, g2, g3⟩ := Unit.Props.C89_any_links_can_be_stored hc' h1 (fun l hl => ⟨h2 l hl, hL l hl⟩) hr h0
  exact ⟨r, g1, g2, View.ext_has fun l => (g3 l).trans (h3 l)⟩

/-- **C90**, split store: as `C90_recovery_after_a_crash`. The copy has every link that the call is not about and whose target is not
being deleted. -/
theorem C90_split_recovery_after_a_crash (hc : CfgOK c) (hc' : CfgOK c') {s : Store} (h : Reach c s) {k : Call}
    (hk : Supported ((links c).view s) k) {d i d' i' : Nat → Nat → Option Nat} (hd : ExactAlloc d) (hi : ExactAlloc i)
    (hd' : ExactAlloc d') (hi' : ExactAlloc i') {m : Store} (hm : m ∈ callImages (c.withAllocs d i) s k)
    {n1 n2 : Nat} {s' : Store}
    (ho : init (c.withAllocs d' i') { m with dlen := n1, ilen := n2 } = some (.ok s')) (hlt : m.hdr.allocated < s'.ilen) :
    ∃ L, (links c).Visits s' [] L ∧ ∀ s0, init c' {} = some (.ok s0) → (∀ l ∈ L, l.index ≤ c'.consts.internalEnd) →
      RoomFor c' (highest (L.filter Link.whole)) →
      ∃ r, runAll (step c' c'.dalloc c'.ialloc) (rebuild (L.filter Link.whole)) s0 = some r ∧ Reach c' r ∧
      (∀ l, ((links c).view s).Has l → ¬ callAbout l.index k → k ≠ .delete l.target → ((links c').view r).Has l) ∧
      ∀ l, ((links c').view r).Has l → ((links c).view s).Has l ∨ callAbout l.index k ∨ (l.source = 0 ∧ l.target = 0) := by
  obtain ⟨g1, ⟨L, g3, g4, -⟩, -⟩ := C54_split_crash_partial hc h hk hd hi hd' hi' hm ho hlt
  have hc1 := hc.withAllocs hd' hi'
  refine ⟨L, g3, fun s0 h0 hL hr => ?_⟩
  obtain ⟨-, -, k3⟩ := visited_any hc1 ho ((visits_withAllocs d' i').2 g3)
  obtain ⟨r, r1, r2, r3⟩ := C90_split_any_memory_can_be_copied hc1 hc' ho ((visits_withAllocs d' i').2 g3) hL hr h0
  refine ⟨r, r1, r2, fun l hl hca hne => (r3 l).2 ⟨?_, view_half hc h hl⟩, fun l hl => g4 l ((k3 l).2 ((r3 l).1 hl).1)⟩
  have := g1 l hl hca hne
  rw [view_withAllocs]
  simp only [View.Has, Links.view, this]

/-- **C90**, split store: as `C90_recovery_after_power_loss`. -/
theorem C90_split_recovery_after_power_loss (hc : CfgOK c) (hc' : CfgOK c') (hP : P.Implements c.trees) {s : Store} (h : Reach c s)
    {xs : List Step} (hs : Session c s xs) :
    ∃ f0, ∀ f, f0 ≤ f → ∀ t, Torn (s :: written c P f xs (.of s)) t →
      ∀ (d' i' : Nat → Nat → Option Nat), ExactAlloc d' → ExactAlloc i' → ∀ (n1 n2 : Nat) (s' : Store),
      init (c.withAllocs d' i') { t with dlen := n1, ilen := n2 } = some (.ok s') → t.hdr.allocated < s'.ilen →
      ∃ L, (links c).Visits s' [] L ∧ ∀ s0, init c' {} = some (.ok s0) → (∀ l ∈ L, l.index ≤ c'.consts.internalEnd) →
        RoomFor c' (highest (L.filter Link.whole)) →
        ∃ r, runAll (step c' c'.dalloc c'.ialloc) (rebuild (L.filter Link.whole)) s0 = some r ∧ Reach c' r ∧
        (∀ l, ((links c').view r).Has l ↔ ((links c).view s').Has l ∧ (l.source ≠ 0 → l.target ≠ 0)) ∧
        ∀ l, ((links c).view s).Has l → (∀ x ∈ xs, ¬ callAbout l.index x.call) →
          (links c').view r l.index = some (l.source, l.target) ∨ (links c').view r l.index = none := by
  obtain ⟨f0, hf⟩ := C83_split_power_loss_keeps_the_ends hc hP h hs
  refine ⟨f0, fun f hff t ht d' i' hd' hi' n1 n2 s' ho hlt => ?_⟩
  obtain ⟨g1, L, g2, -⟩ := hf f hff t ht d' i' hd' hi' n1 n2 s' ho hlt
  refine ⟨L, g2, fun s0 h0 hL hr => ?_⟩
  obtain ⟨r, r1, r2, r3⟩ := C90_split_any_memory_can_be_copied (hc.withAllocs hd' hi') hc' ho ((visits_withAllocs d' i').2 g2) hL hr h0
  rw [view_withAllocs] at r3
  refine ⟨r, r1, r2, r3, fun l hl hca => ?_⟩
  obtain ⟨-, g⟩ := g1 l hl hca
  cases hr' : (links c').view r l.index with
  | none => exact .inr rfl
  | some p =>
    have hp : (links c).view s' l.index = some p := ((r3 ⟨l.index, p.1, p.2⟩).1 hr').1
    rcases g with g | g
    · simp only [Links.view, g, Option.some.injEq] at hp
      exact .inl (by rw [← hp])
    · simp only [Links.view, g] at hp
      cases hp

/-- A crash while link 2 of `sNet` is updated to (4,3), after which a search for (4,3) is undefined
(`C54_search_after_crash_can_be_undefined`). The copy has the other links, and the search returns. -/
example : ∃ m ∈ callImages cfg0 sNet (.update 2 4 3), ∃ s' L r, init cfg0 m = some (.ok s') ∧
    (links cfg0).search s' 4 3 = none ∧ (links cfg0).Visits s' [] L ∧
    runAll (step cfg0 cfg0.dalloc cfg0.ialloc) (rebuild (L.filter Link.whole)) (store0 cfg0) = some r ∧ Reach cfg0 r ∧
    ((links cfg0).view r).Has ⟨4, 9, 1⟩ ∧ (links cfg0).search r 4 3 ≠ none := by
  have ex : ExactAlloc fun _ req => some req := fun _ _ _ h => (Option.some.inj h).symm
  have hlen : 5 < (callImages cfg0 sNet (.update 2 4 3)).length := by decide +kernel
  generalize hm : (callImages cfg0 sNet (.update 2 4 3))[5]'hlen = m
  have hd : ((callImages cfg0 sNet (.update 2 4 3))[5]?.bind fun m => match init cfg0 m with
      | some (.ok s') => some (decide (m.hdr.allocated < s'.ilen ∧ m.hdr.allocated ≤ 100), (links cfg0).view s' 4,
        (links cfg0).search s' 4 3)
      | _ => none) = some (true, some (9, 1), none) := by decide +kernel
  rw [List.getElem?_eq_getElem hlen, hm, Option.bind_some] at hd
  have hmem : m ∈ callImages cfg0 sNet (.update 2 4 3) := hm ▸ List.getElem_mem hlen
  refine ⟨m, hmem, ?_⟩
  split at hd
  · next s' hs' =>
    simp only [Option.some.injEq, Prod.mk.injEq, decide_eq_true_eq] at hd
    obtain ⟨⟨d1, d2⟩, d3, d4⟩ := hd
    obtain ⟨-, ⟨L, hv, -⟩, -⟩ := C54_split_crash_partial cfg0_ok sNet_reach (k := .update 2 4 3)
      ⟨twinFree_noTwin cfg0_ok (reach_good cfg0_ok sNet_reach) (by decide +kernel), by decide, by decide⟩ ex ex ex ex
      hmem (n1 := m.dlen) (n2 := m.ilen) hs' d1
    obtain ⟨-, -, hmemL⟩ := visited_any cfg0_ok hs' hv
    have hL : ∀ l ∈ L, l.index ≤ 100 := fun l hl => by
      have h1 := (has_iff_getLink _ (fun i l hl => by
        obtain ⟨rfl, -⟩ := (C78_split_lookup_in_any_memory cfg0_ok hs' i).2 l hl; rfl) l).1 ((hmemL l).1 hl)
      exact Nat.le_trans ((C78_split_lookup_in_any_memory cfg0_ok hs' _).2 l h1).2.2 d2
    obtain ⟨r, h1, h2, h3⟩ := C90_split_any_memory_can_be_copied cfg0_ok cfg0_ok hs' hv
      (fun l hl => Nat.le_trans (hL l hl) (by decide +kernel))
      (cfg0_room (Nat.le_trans (highest_le fun l hl => hL l (List.mem_filter.1 hl).1) (by omega))) (s0 := store0 cfg0) rfl
    refine ⟨s', L, r, hs', d4, hv, h1, h2, (h3 _).2 ⟨d3, by decide⟩, fun h => ?_⟩
    obtain ⟨x, hx, -⟩ := C45_split_search cfg0_ok h2 (x := 4) (y := 3) (by decide) (by decide) (by decide) (by decide)
    rw [h] at hx
    cases hx
  · cases hd

end Verif.Split.Props
