import Verif.Copy
import Verif.Props.Growth
import Verif.Props.Reopen
import Verif.Props.Careful
import Verif.Props.SplitDerived
import Verif.Unit.Example
import Verif.Split.Example

/-!
# C89: every network can be stored, and a store can be copied link by link
-/

namespace Verif

/-- **C89**, **C91**: what a run says. If it ends, each of its calls returned and succeeded, in the state to which the calls before it led. -/
theorem C89_all_calls_succeed {S : Type} {step : S → Call → Option (Out S _root_.Unit Nat)} {ks ks' : List Call} {k : Call} {s s' : S}
    (h : runAll step (ks ++ k :: ks') s = some s') :
    ∃ s1 n s2, runAll step ks s = some s1 ∧ step s1 k = some ⟨.ok n, s2, ()⟩ ∧ runAll step ks' s2 = some s' := by
  induction ks generalizing s with
  | nil =>
    simp only [List.nil_append, runAll] at h
    split at h
    · next n s2 _ e => exact ⟨s, n, s2, rfl, e, h⟩
    · cases h
  | cons j ks ih =>
    simp only [List.cons_append, runAll] at h
    split at h
    · next n s2 _ e =>
      obtain ⟨s1, n', s3, h1, h2, h3⟩ := ih h
      exact ⟨s1, n', s3, by simp only [runAll, e, h1], h2, h3⟩
    · cases h
example : (runAll (Unit.step Unit.cfg0 Unit.cfg0.alloc) ([.create, .create] ++ .delete 1 :: [.create]) (Unit.store0 Unit.cfg0)).isSome = true ∧
    (runAll (Unit.step Unit.cfg0 Unit.cfg0.alloc) [.create, .delete 2] (Unit.store0 Unit.cfg0)).isSome = false :=
  ⟨by decide +kernel, by decide +kernel⟩

/-- The links of the map `v` with an index from 1 to `t`. -/
def View.listTo (v : View) (t : Nat) : List Link :=
  (List.range' 1 t).filterMap fun i => (v i).map fun p => ⟨i, p.1, p.2⟩

theorem View.mem_listTo {v : View} {t : Nat} (h0 : v 0 = none) (ht : ∀ i, v i ≠ none → i ≤ t) (l : Link) :
    l ∈ v.listTo t ↔ v.Has l := by
  simp only [View.listTo, List.mem_filterMap, List.mem_range'_1, Option.map_eq_some_iff]
  constructor
  · rintro ⟨i, -, p, hp, rfl⟩; exact hp
  · intro hl
    have hl : v l.index = some (l.source, l.target) := hl
    refine ⟨l.index, ⟨Nat.pos_of_ne_zero fun e => ?_, ?_⟩, _, hl, rfl⟩
    · rw [e, h0] at hl; cases hl
    · have := ht l.index (by rw [hl]; simp)
      omega

theorem View.listTo_nodup (v : View) (t : Nat) : ((v.listTo t).map (·.index)).Nodup := by
  unfold View.listTo
  suffices h : ∀ k, (((List.range' k t).filterMap fun i => (v i).map fun p => (⟨i, p.1, p.2⟩ : Link)).map (·.index)).Nodup from h 1
  intro k
  induction t generalizing k with
  | zero => simp
  | succ t ih =>
    rw [List.range'_succ, List.filterMap_cons]
    cases hv : v k with
    | none => simpa [hv] using ih (k + 1)
    | some p =>
      simp only [Option.map_some, List.map_cons, List.nodup_cons]
      refine ⟨fun hm => ?_, ih (k + 1)⟩
      simp only [List.mem_map, List.mem_filterMap, List.mem_range'_1, Option.map_eq_some_iff] at hm
      obtain ⟨x, ⟨i, hi, q, -, rfl⟩, he⟩ := hm
      simp only at he
      omega

/-- Maps with the same links are equal. -/
theorem View.ext_has {v w : View} (h : ∀ l, v.Has l ↔ w.Has l) : v = w := by
  funext i
  cases hv : v i with
  | some p => exact ((h ⟨i, p.1, p.2⟩).1 hv).symm
  | none =>
    cases hw : w i with
    | none => rfl
    | some p => have := (h ⟨i, p.1, p.2⟩).2 hw; simp only [View.Has, hv] at this; cases this

/-- A list of all links of a map, each once, has each index once. -/
theorem index_nodup {v : View} {L : List Link} (hn : L.Nodup) (hL : ∀ l ∈ L, v.Has l) : (L.map (·.index)).Nodup := by
  induction L with
  | nil => simp
  | cons x L ih =>
    rw [List.nodup_cons] at hn
    rw [List.map_cons, List.nodup_cons]
    refine ⟨fun hm => ?_, ih hn.2 fun l hl => hL l (by simp [hl])⟩
    obtain ⟨y, hy, he⟩ := List.mem_map.1 hm
    have h1 : v x.index = some (x.source, x.target) := hL x (by simp)
    have h2 : v y.index = some (y.source, y.target) := hL y (by simp [hy])
    rw [he, h1] at h2
    apply hn.1
    cases x; cases y; simp_all

end Verif

namespace Verif.Unit
open Verif
variable {c : Cfg}

/-- The memory can always grow while it has at most `t + 1` slots, and what it is given then can be counted. -/
def RoomFor (c : Cfg) (t : Nat) : Prop := ∀ len, len ≤ t + 1 → ∃ n, c.alloc len (len + c.step) = some n ∧ n ≤ c.maxT

/-- A store with the links `1 … n`, all null pairs. -/
structure Made (c : Cfg) (n : Nat) (s : Store) : Prop where
  reach : Reach c s
  inv : ∃ ts tt, Inv c s [] ts tt
  top : s.hdr.allocated = n
  room : s.len ≤ s.hdr.reserved + 1

theorem builds (hc : CfgOK c) {t : Nat} (ht : t ≤ c.consts.internalEnd) (hr : RoomFor c t) :
    Builds (step c c.alloc) (links c).view t (fun _ _ => True) (Made c) (Reach c) where
  create n s h hn hz := by
    obtain ⟨ts, tt, hi⟩ := h.inv
    have htop := h.top
    have hroom := h.room
    rcases createLinks_ok hc hi [] recH none with ⟨x, rest, s', hf, -⟩ | ⟨-, h1, -⟩ | ⟨-, -, h2, h3, -⟩ | ⟨-, -, h2, m, h3, h4, -⟩ |
        ⟨-, h1, s', h2, h3, h4, -⟩
    · cases hf
    · omega
    · obtain ⟨m, g, -⟩ := hr s.len (by omega)
      rw [h3] at g; cases g
    · obtain ⟨m', g, g'⟩ := hr s.len (by omega)
      rw [h3] at g; cases g; omega
    · rcases create_cases hc hi [] with ⟨x, rest, s', hf, -⟩ | ⟨-, h1, -⟩ | ⟨-, -, -, e⟩ | ⟨-, -, -, e⟩ |
        ⟨-, -, s2, g1, g2, g3, -, g5⟩
      · cases hf
      · omega
      · have := h2.symm.trans (e _ recH none); cases this
      · have := h2.symm.trans (e _ recH none); cases this
      · have he := g3 _ recH none
        rw [htop] at g3 g5
        refine ⟨n + 1, s2, Links.create_ok (D := links c) g3, ⟨.create (q := []) c.alloc h.reach hc.alloc_ge he, ⟨_, _, g1⟩,
          by rw [g2, htop], ?_⟩, g5⟩
        rcases createLinks_room (c := c) he with hk | ⟨-, -, -, k⟩
        · have k1 := hk.len; have k2 := hk.reserved; simp only at k1 k2; omega
        · simp only at k; omega
  made n s h := h.reach
  delete s i h _ hi hz := by
    have ht : ((links c).view s).NoTwin i := fun p hp hne => absurd (hz i p hp) hne
    obtain ⟨s', -, h2, h3⟩ := delete_law hc (reach_good hc h) hi ht
    exact ⟨_, s', Links.delete_ok (D := links c) h3, .delete (q := [i]) h (fun j hj => by cases hj; exact ht) (h3 _ recH none), h2⟩
  update s i a b h hi _ := by
    have ht : ((links c).view s).NoTwin i := fun p hp hne => by rw [hi] at hp; cases hp; exact absurd rfl hne
    obtain ⟨s', -, h2, h3⟩ := update_law hc (reach_good hc h) hi ht i a b
    exact ⟨_, s', Links.update_ok (D := links c) h3,
      .update (q := [i]) (ch := [i, a, b]) h (fun j hj => by cases hj; exact ht) (h3 _ recH none), h2⟩

theorem made_fresh (hc : CfgOK c) {s : Store} (h : init c {} = some (.ok s)) : Made c 0 s ∧ (links c).view s = View.empty := by
  obtain ⟨h1, h2⟩ := init_fresh hc h
  refine ⟨⟨.fresh c.alloc hc.alloc_ge h, ⟨_, _, h1⟩, h2, ?_⟩, ?_⟩
  · obtain ⟨n1, n2, -, -, -, -, rfl⟩ := (Props.C72_open_iff hc _ _).1 h
    show n2 ≤ n2 - 1 + 1
    omega
  · funext k
    rw [view_eq hc h1.toInv0, if_neg]
    · rfl
    · rintro ⟨h3, h4, -⟩; omega

end Verif.Unit

namespace Verif.Unit.Props
open Verif Verif.Unit
variable {c : Cfg}

/-- **C89**, united store. Any list of links with distinct indices from the internal range can be stored: on a fresh store
whose memory can grow enough, all calls of `rebuild` succeed, and then the links of the store are those of the list. Two
links may have the same ends, and an end may be any number. -/
theorem C89_any_links_can_be_stored (hc : CfgOK c) {L : List Link} (hn : (L.map (·.index)).Nodup)
    (hL : ∀ l ∈ L, 1 ≤ l.index ∧ l.index ≤ c.consts.internalEnd) (hr : RoomFor c (highest L)) {s : Store}
    (h : init c {} = some (.ok s)) :
    ∃ s', runAll (step c c.alloc) (rebuild L) s = some s' ∧ Reach c s' ∧ ∀ l, ((links c).view s').Has l ↔ l ∈ L := by
  obtain ⟨h1, h2⟩ := made_fresh hc h
  exact (builds hc (highest_le fun l hl => (hL l hl).2) hr).rebuild h1 h2 hn fun l hl => ⟨(hL l hl).1, trivial⟩

/-- **C89**, united store: which contents a store can have. If the index type can count a growth beyond the internal range, they
are exactly the maps whose indices are in that range. -/
theorem C89_possible_contents (hc : CfgOK c) (hT : c.consts.internalEnd + 1 + c.step ≤ c.maxT) (v : View) :
    (∃ s, Reach c s ∧ (links c).view s = v) ↔ v 0 = none ∧ ∀ i, c.consts.internalEnd < i → v i = none := by
  constructor
  · rintro ⟨s, h, rfl⟩
    obtain ⟨free, ts, tt, hi⟩ := reach_good hc h
    have hle := hi.base.alloc_le
    refine ⟨?_, fun i hlt => ?_⟩ <;> rw [view_eq hc hi.toInv0, if_neg]
    · rintro ⟨h1, -⟩; omega
    · rintro ⟨-, h1, -⟩; omega
  · rintro ⟨h0, hv⟩
    have hb : ∀ i, v i ≠ none → i ≤ c.consts.internalEnd := fun i hi => by
      rcases Nat.lt_or_ge c.consts.internalEnd i with h | h
      · exact absurd (hv i h) hi
      · exact h
    have ha : GoodAlloc fun _ req => some (max req 1) := fun len req n h => by cases h; exact Nat.le_max_left ..
    have hc' := hc.withAlloc ha
    have hst := hc.step_pos
    generalize hLd : v.listTo c.consts.internalEnd = L
    have hm := fun l => View.mem_listTo h0 hb l
    have hn := v.listTo_nodup c.consts.internalEnd
    rw [hLd] at hm hn
    have hL : ∀ l ∈ L, 1 ≤ l.index ∧ l.index ≤ c.consts.internalEnd := fun l hl => by
      have hl : v l.index = some (l.source, l.target) := (hm l).1 hl
      exact ⟨Nat.pos_of_ne_zero fun e => (by rw [e, h0] at hl; cases hl), hb _ (by rw [hl]; simp)⟩
    have hh := highest_le fun l hl => (hL l hl).2
    obtain ⟨s0, hi⟩ : ∃ s0, init (c.withAlloc fun _ req => some (max req 1)) {} = some (.ok s0) :=
      ⟨_, (C72_open_iff hc' _ _).2 ⟨max c.page 1, max (max c.step 0) 1, rfl, by omega, rfl, by
        show max (max c.step 0) 1 ≤ c.maxT + 1; omega, rfl⟩⟩
    obtain ⟨s', -, h1, h2⟩ := C89_any_links_can_be_stored hc' hn hL (fun len hlen => ⟨_, rfl, by
      show max (len + c.step) 1 ≤ c.maxT; omega⟩) hi
    exact ⟨s', reach_ofAlloc h1, View.ext_has fun l => (h2 l).trans (hm l)⟩

/-- **C89**, united store: copying. What a traversal of a store visits, stored again in a fresh store (of any memory, index type and
tree crate, as long as the indices are in its range and its memory can grow enough), gives a store with the same contents. -/
theorem C89_copies_have_the_same_contents {c' : Cfg} (hc : CfgOK c) (hc' : CfgOK c') {s : Store} (h : Reach c s) {L : List Link}
    (hv : (links c).Visits s [] L) (hL : ∀ l ∈ L, l.index ≤ c'.consts.internalEnd) (hr : RoomFor c' (highest L)) {s0 : Store}
    (h0 : init c' {} = some (.ok s0)) :
    ∃ s', runAll (step c' c'.alloc) (rebuild L) s0 = some s' ∧ Reach c' s' ∧ (links c').view s' = (links c).view s := by
  obtain ⟨L', h1, h2, h3⟩ := (reachLawful hc).each_all s h
  obtain rfl := Links.Visits.unique hv h1
  obtain ⟨free, ts, tt, hi⟩ := reach_good hc h
  have hpos : ∀ l ∈ L, 1 ≤ l.index := fun l hl => by
    have hl : (links c).view s l.index = some _ := (h3 l).1 hl
    rw [view_eq hc hi.toInv0] at hl
    split at hl
    · next hlive => exact hlive.1
    · cases hl
  obtain ⟨s', g1, g2, g3⟩ := C89_any_links_can_be_stored hc' (index_nodup h2 fun l hl => (h3 l).1 hl)
    (fun l hl => ⟨hpos l hl, hL l hl⟩) hr h0
  exact ⟨s', g1, g2, View.ext_has fun l => (g3 l).trans (h3 l)⟩

/-- The links of `sNet`. -/
def netLinks : List Link := [⟨1, 1, 1⟩, ⟨2, 1, 3⟩, ⟨3, 2, 2⟩, ⟨4, 0, 0⟩, ⟨6, 3, 2⟩]

example : rebuild netLinks = [.create, .create, .create, .create, .create, .create, .delete 5, .update 1 1 1, .update 2 1 3,
    .update 3 2 2, .update 4 0 0, .update 6 3 2] := by decide +kernel

theorem cfg0_room {t : Nat} (ht : t ≤ 200) : RoomFor cfg0 t := fun len hlen => ⟨_, rfl, by
  show len + 8 ≤ 255; omega⟩

/-- Links with equal ends, ends that are no links, and gaps. -/
example : ∃ s', runAll (step cfg0 cfg0.alloc) (rebuild [⟨9, 9, 77⟩, ⟨2, 5, 5⟩, ⟨4, 5, 5⟩, ⟨5, 0, 3⟩]) (store0 cfg0) = some s' ∧
    Reach cfg0 s' ∧ ∀ l, ((links cfg0).view s').Has l ↔ l ∈ [⟨9, 9, 77⟩, ⟨2, 5, 5⟩, ⟨4, 5, 5⟩, ⟨5, 0, 3⟩] :=
  C89_any_links_can_be_stored cfg0_ok (by decide +kernel) (by decide +kernel) (cfg0_room (by decide +kernel)) rfl

example : ∃ L, (links cfg0).Visits sNet [] L ∧ ∃ s', runAll (step cfg0 cfg0.alloc) (rebuild L) (store0 cfg0) = some s' ∧
    Reach cfg0 s' ∧ (links cfg0).view s' = (links cfg0).view sNet ∧ (links cfg0).view s' 6 = some (3, 2) := by
  obtain ⟨L, h1, -, h3⟩ := (reachLawful cfg0_ok).each_all sNet sNet_reach
  obtain ⟨free, ts, tt, hi⟩ := reach_good cfg0_ok sNet_reach
  have hle : sNet.hdr.allocated = 6 := by decide +kernel
  have hL : ∀ l ∈ L, l.index ≤ 6 := fun l hl => by
    have hl : (links cfg0).view sNet l.index = some _ := (h3 l).1 hl
    rw [view_eq cfg0_ok hi.toInv0] at hl
    split at hl
    · next hlive => exact Nat.le_trans hlive.2.1 (by omega)
    · cases hl
  obtain ⟨s', g1, g2, g3⟩ := C89_copies_have_the_same_contents cfg0_ok cfg0_ok sNet_reach h1
    (fun l hl => Nat.le_trans (hL l hl) (by decide +kernel)) (cfg0_room (Nat.le_trans (highest_le hL) (by omega))) rfl
  exact ⟨L, h1, s', g1, g2, g3, by rw [g3]; decide +kernel⟩

example : cfg0.consts.internalEnd + 1 + cfg0.step ≤ cfg0.maxT := by decide +kernel

/-- Three links, of which the second and then the first are deleted. -/
def freed : List Call := [.create, .create, .create, .delete 2, .delete 1]

/-- **C89**, united store: a copy has the contents, not the future. The next creation can return one index on a store and another on
its copy. -/
theorem C89_copies_can_number_differently : ∃ s s' L, Reach cfg0 s ∧ (∀ l, ((links cfg0).view s).Has l ↔ l ∈ L) ∧
    runAll (step cfg0 cfg0.alloc) (rebuild L) (store0 cfg0) = some s' ∧ Reach cfg0 s' ∧
    (links cfg0).view s' = (links cfg0).view s ∧
    ((links cfg0).create s).map (·.res) = some (.ok 1) ∧ ((links cfg0).create s').map (·.res) = some (.ok 2) := by
  have hh := runs_history (ks := freed) (by decide +kernel)
  have hview : ∀ k, (links cfg0).view (runs cfg0 freed) k = if k = 3 then some (0, 0) else none := fun k => by
    rw [(history_inv cfg0_ok hh).1.view, show trace cfg0 freed = [(.create, .ok 1), (.create, .ok 2), (.create, .ok 3),
      (.delete 2, .ok 0), (.delete 1, .ok 0)] by decide +kernel]
    simp only [replay, List.foldl, Call.apply, View.set, View.del, View.empty]
    repeat' split
    all_goals first | rfl | omega
  obtain ⟨s', h1, h2, h3⟩ := C89_any_links_can_be_stored (L := [⟨3, 0, 0⟩]) cfg0_ok (by decide +kernel) (by decide +kernel)
    (cfg0_room (by decide +kernel)) (s := store0 cfg0) rfl
  have hl : ∀ l, ((links cfg0).view (runs cfg0 freed)).Has l ↔ l ∈ [(⟨3, 0, 0⟩ : Link)] := fun l => by
    simp only [View.Has, hview, List.mem_singleton]
    constructor
    · intro h
      split at h
      · next h3 => cases l; cases h; cases h3; rfl
      · cases h
    · rintro rfl; rfl
  refine ⟨runs cfg0 freed, s', [⟨3, 0, 0⟩], runs_reach (by decide +kernel), hl, h1, h2, View.ext_has fun l => (h3 l).trans (hl l).symm, by decide +kernel, ?_⟩
  have : ((runAll (step cfg0 cfg0.alloc) (rebuild [⟨3, 0, 0⟩]) (store0 cfg0)).bind fun s => (links cfg0).create s).map (·.res) =
      some (.ok 2) := by decide +kernel
  rw [h1] at this
  exact this

end Verif.Unit.Props

namespace Verif.Split
open Verif
variable {c : Cfg}

/-- Both memories can always grow while they have at most `t + 1` slots, what they are given then can be counted, and the second
memory can grow whenever the first one can. -/
def RoomFor (c : Cfg) (t : Nat) : Prop :=
  (∀ len, len ≤ t + 1 → c.dalloc len (len + c.step) ≠ none ∧ len + c.step ≤ c.maxT) ∧
  ∀ len, c.dalloc len (len + c.step) ≠ none → c.ialloc len (len + c.step) ≠ none

/-- A store with the links `1 … n`, all null pairs. -/
structure Made (c : Cfg) (n : Nat) (s : Store) : Prop where
  reach : Reach c s
  inv : Inv c s []
  top : s.hdr.allocated = n
  room : s.ilen ≤ s.hdr.reserved + 1

theorem builds (hc : CfgOK c) {t : Nat} (ht : t ≤ c.consts.internalEnd) (hr : RoomFor c t) :
    Builds (step c c.dalloc c.ialloc) (links c).view t (fun a b => a ≠ 0 → b ≠ 0) (Made c) (Reach c) where
  create n s h hn hz := by
    have hi := h.inv
    have htop := h.top
    have hroom := h.room
    have hlen := hi.base.len_eq
    have hg : GrowTogether c s := fun hd => by rw [← hlen]; exact hr.2 _ hd
    rcases createLinks_ok hc hi [] recH none with ⟨x, rest, s', hf, -⟩ | ⟨-, h1, -⟩ | ⟨-, -, h2, h3, -⟩ | ⟨-, -, h2, h3, h4, -⟩ |
        ⟨-, -, h2, h3, h4, h5, -⟩ | ⟨-, h1, s', h2, h3, h4⟩
    · cases hf
    · omega
    · exact absurd h3 (hr.1 _ (by omega)).1
    · exact absurd h4 (hg h3)
    · have := (hr.1 s.ilen (by omega)).2
      omega
    · have hS := (createLinks_uniform c s []).succeeds h2
      rw [htop] at hS h3 h4
      have hcr := create_of_succeeds hS
      have hnew : ∀ j a b, (links c).view s j = some (a, b) → a ≠ n + 1 ∧ b ≠ n + 1 := fun j a b hj => by
        cases hz j _ hj
        exact ⟨by omega, by omega⟩
      have hN : NewUnused c s := fun i s2 he j a b hj => by
        rw [hcr] at he; cases he
        exact hnew j a b hj
      have he := hS _ recH none
      have h3' := h3.inv hc hi (by simp) hnew
      refine ⟨n + 1, s', hcr, ⟨.create (q := []) c.dalloc c.ialloc h.reach hc.dalloc_eq hc.ialloc_eq hg hN he, h3', h4, ?_⟩,
        (h3.view hc hi.toInv0).2⟩
      rcases createLinks_room (c := c) hg he with hk | ⟨-, -, -, -, k⟩
      · have k1 := hk.ilen; have k2 := hk.reserved; simp only at k1 k2; omega
      · simp only at k; omega
  made n s h := h.reach
  delete s i h h0 hi hz := by
    have ht : ∀ i, ((links c).view s).NoTwin i := fun i p hp hne => absurd (hz i p hp) hne
    obtain ⟨s', -, h2, h3⟩ := delete_law hc (reach_good hc h) hi (ht i) fun j _ => ht j
    exact ⟨_, s', Links.delete_ok (D := links c) h3,
      .delete (q := [i]) h (fun j hj => by cases hj; exact ⟨ht i, fun j _ => ht j⟩) (h3 _ recH none), h2⟩
  update s i a b h hi hab := by
    have ht : ((links c).view s).NoTwin i := fun p hp hne => by rw [hi] at hp; cases hp; exact absurd rfl hne
    have hu : CanUpdate ((links c).view s) i a b := ⟨hab, fun _ p hp => by rw [hi] at hp; cases hp; rfl⟩
    obtain ⟨s', -, h2, h3⟩ := update_law hc (reach_good hc h) hi ht i a b hu
    exact ⟨_, s', Links.update_ok (D := links c) h3,
      .update (q := [i]) (ch := [i, a, b]) h (fun j x a b hj hch => by cases hj; cases hch; exact ⟨ht, hu⟩) (h3 _ recH none), h2⟩

theorem made_fresh (hc : CfgOK c) {s : Store} (h : init c {} = some (.ok s)) : Made c 0 s ∧ (links c).view s = View.empty := by
  obtain ⟨h1, h2⟩ := init_fresh hc h
  refine ⟨⟨.fresh c.dalloc c.ialloc hc.dalloc_eq hc.ialloc_eq h, h1, h2, ?_⟩, ?_⟩
  · obtain ⟨n, -, -, rfl⟩ := init_ok hc h
    show n ≤ n - 1 + 1
    omega
  · funext k
    rw [view_eq hc h1.toInv0, if_neg]
    · rfl
    · rintro ⟨h3, h4, -⟩; omega

end Verif.Split

namespace Verif.Split.Props
open Verif Verif.Split
variable {c : Cfg}

/-- **C89**, split store. As `C89_any_links_can_be_stored`, for lists without links that have a source but no target. -/
theorem C89_split_any_links_can_be_stored (hc : CfgOK c) {L : List Link} (hn : (L.map (·.index)).Nodup)
    (hL : ∀ l ∈ L, 1 ≤ l.index ∧ l.index ≤ c.consts.internalEnd ∧ (l.source ≠ 0 → l.target ≠ 0)) (hr : RoomFor c (highest L))
    {s : Store} (h : init c {} = some (.ok s)) :
    ∃ s', runAll (step c c.dalloc c.ialloc) (rebuild L) s = some s' ∧ Reach c s' ∧ ∀ l, ((links c).view s').Has l ↔ l ∈ L := by
  obtain ⟨h1, h2⟩ := made_fresh hc h
  exact (builds hc (highest_le fun l hl => (hL l hl).2.1) hr).rebuild h1 h2 hn fun l hl => ⟨(hL l hl).1, (hL l hl).2.2⟩

/-- **C89**, split store: which contents a store can have when it is used as it supports: the maps whose indices are in the internal
range and in which every link with a source has a target. -/
theorem C89_split_possible_contents (hc : CfgOK c) (hp : c.page ≠ 0) (hT : c.consts.internalEnd + 1 + c.step ≤ c.maxT)
    (hT' : c.page + c.step ≤ c.maxT) (v : View) :
    (∃ s, Reach c s ∧ (links c).view s = v) ↔
      v 0 = none ∧ (∀ i, c.consts.internalEnd < i → v i = none) ∧ ∀ i a b, v i = some (a, b) → a ≠ 0 → b ≠ 0 := by
  constructor
  · rintro ⟨s, h, rfl⟩
    obtain ⟨free, hi⟩ := reach_good hc h
    have hle := hi.base.alloc_le
    refine ⟨?_, fun i hlt => ?_, fun i a b hv => view_half hc h hv⟩ <;> rw [view_eq hc hi.toInv0, if_neg]
    · rintro ⟨h1, -⟩; omega
    · rintro ⟨-, h1, -⟩; omega
  · rintro ⟨h0, hv, hhalf⟩
    have hb : ∀ i, v i ≠ none → i ≤ c.consts.internalEnd := fun i hi => by
      rcases Nat.lt_or_ge c.consts.internalEnd i with h | h
      · exact absurd (hv i h) hi
      · exact h
    have ha : ExactAlloc fun _ req => some req := fun len req n h => by cases h; rfl
    have hc' := hc.withAllocs ha ha
    have hst := hc.step_pos
    generalize hLd : v.listTo c.consts.internalEnd = L
    have hm := fun l => View.mem_listTo h0 hb l
    have hn := v.listTo_nodup c.consts.internalEnd
    rw [hLd] at hm hn
    have hL : ∀ l ∈ L, 1 ≤ l.index ∧ l.index ≤ c.consts.internalEnd ∧ (l.source ≠ 0 → l.target ≠ 0) := fun l hl => by
      have hl : v l.index = some (l.source, l.target) := (hm l).1 hl
      exact ⟨Nat.pos_of_ne_zero fun e => (by rw [e, h0] at hl; cases hl), hb _ (by rw [hl]; simp), hhalf _ _ _ hl⟩
    have hh := highest_le fun l hl => (hL l hl).2.1
    have hS := align_slots hc' 0
    have hle : align (max (max 0 c.page) c.step) c.step ≤ c.maxT + 1 := by
      have h1 := Nat.div_add_mod (c.page + c.step) c.step
      have h2 := Nat.mod_lt (c.page + c.step) (show 0 < c.step by omega)
      have := hS.2.2.2.2 (c.step * ((c.page + c.step) / c.step)) (Nat.dvd_mul_right ..) (Nat.zero_le _) (by
        show c.page ≤ _; omega) (by
        show c.step ≤ _
        exact Nat.le_mul_of_pos_right _ (Nat.div_pos (by omega) (by omega)))
      have : align (max (max 0 c.page) c.step) c.step ≤ c.step * ((c.page + c.step) / c.step) := this
      omega
    obtain ⟨s0, hi⟩ : ∃ s0, init (c.withAllocs (fun _ req => some req) fun _ req => some req) {} = some (.ok s0) :=
      ⟨_, (C72_split_open_iff hc' _ _).2 ⟨hp, _, hS, hle, by simp [Cfg.withAllocs], by simp [Cfg.withAllocs],
        by simp [Cfg.withAllocs], by simp [Cfg.withAllocs], rfl⟩⟩
    obtain ⟨s', -, h1, h2⟩ := C89_split_any_links_can_be_stored hc' hn hL ⟨fun len hlen => ⟨by simp [Cfg.withAllocs], by
      show len + c.step ≤ c.maxT; omega⟩, fun len _ => by simp [Cfg.withAllocs]⟩ hi
    exact ⟨s', reach_ofAllocs h1, View.ext_has fun l => (h2 l).trans (hm l)⟩

/-- The links of a store at rest have indices from 1 on, are listed once by a traversal, and have no source without a target. -/
theorem visited_all (hc : CfgOK c) {s : Store} (h : Reach c s) {L : List Link} (hv : (links c).Visits s [] L) :
    (L.map (·.index)).Nodup ∧ (∀ l, l ∈ L ↔ ((links c).view s).Has l) ∧ ∀ l ∈ L, 1 ≤ l.index ∧ (l.source ≠ 0 → l.target ≠ 0) := by
  obtain ⟨L', h1, h2, h3⟩ := (reachLawful hc).each_all s h
  obtain rfl := Links.Visits.unique hv h1
  obtain ⟨free, hi⟩ := reach_good hc h
  refine ⟨index_nodup h2 fun l hl => (h3 l).1 hl, h3, fun l hl => ⟨?_, view_half hc h ((h3 l).1 hl)⟩⟩
  exact (live_of_view hc hi.toInv0 ((h3 l).1 hl)).1.1

/-- **C89**, split store: copying to a split store. -/
theorem C89_split_copies_have_the_same_contents {c' : Cfg} (hc : CfgOK c) (hc' : CfgOK c') {s : Store} (h : Reach c s)
    {L : List Link} (hv : (links c).Visits s [] L) (hL : ∀ l ∈ L, l.index ≤ c'.consts.internalEnd) (hr : RoomFor c' (highest L))
    {s0 : Store} (h0 : init c' {} = some (.ok s0)) :
    ∃ s', runAll (step c' c'.dalloc c'.ialloc) (rebuild L) s0 = some s' ∧ Reach c' s' ∧
      (links c').view s' = (links c).view s := by
  obtain ⟨h2, h3, h4⟩ := visited_all hc h hv
  obtain ⟨s', g1, g2, g3⟩ := C89_split_any_links_can_be_stored hc' h2 (fun l hl => ⟨(h4 l hl).1, hL l hl, (h4 l hl).2⟩) hr h0
  exact ⟨s', g1, g2, View.ext_has fun l => (g3 l).trans (h3 l)⟩

/-- **C89**: copying from a split store to a united store. -/
theorem C89_split_to_united {c' : Unit.Cfg} (hc : CfgOK c) (hc' : Unit.CfgOK c') {s : Store} (h : Reach c s)
    {L : List Link} (hv : (links c).Visits s [] L) (hL : ∀ l ∈ L, l.index ≤ c'.consts.internalEnd)
    (hr : Unit.RoomFor c' (highest L)) {s0 : Unit.Store} (h0 : Unit.init c' {} = some (.ok s0)) :
    ∃ s', runAll (Unit.step c' c'.alloc) (rebuild L) s0 = some s' ∧ Unit.Reach c' s' ∧
      (Unit.links c').view s' = (links c).view s := by
  obtain ⟨h2, h3, h4⟩ := visited_all hc h hv
  obtain ⟨s', g1, g2, g3⟩ := Unit.Props.C89_any_links_can_be_stored hc' h2 (fun l hl => ⟨(h4 l hl).1, hL l hl⟩) hr h0
  exact ⟨s', g1, g2, View.ext_has fun l => (g3 l).trans (h3 l)⟩

/-- **C89**: copying from a united store to a split store, if no link has a source without a target. -/
theorem C89_united_to_split {c' : Unit.Cfg} (hc : CfgOK c) (hc' : Unit.CfgOK c') {s : Unit.Store} (h : Unit.Reach c' s)
    {L : List Link} (hv : (Unit.links c').Visits s [] L)
    (hL : ∀ l ∈ L, l.index ≤ c.consts.internalEnd ∧ (l.source ≠ 0 → l.target ≠ 0)) (hr : RoomFor c (highest L)) {s0 : Store}
    (h0 : init c {} = some (.ok s0)) :
    ∃ s', runAll (step c c.dalloc c.ialloc) (rebuild L) s0 = some s' ∧ Reach c s' ∧
      (links c).view s' = (Unit.links c').view s := by
  obtain ⟨L', h1, h2, h3⟩ := (Unit.reachLawful hc').each_all s h
  obtain rfl := Links.Visits.unique hv h1
  obtain ⟨free, ts, tt, hi⟩ := Unit.reach_good hc' h
  have hpos : ∀ l ∈ L, 1 ≤ l.index := fun l hl => by
    have hl : (Unit.links c').view s l.index = some _ := (h3 l).1 hl
    rw [Unit.view_eq hc' hi.toInv0] at hl
    split at hl
    · next hlive => exact hlive.1
    · cases hl
  obtain ⟨s', g1, g2, g3⟩ := C89_split_any_links_can_be_stored hc (index_nodup h2 fun l hl => (h3 l).1 hl)
    (fun l hl => ⟨hpos l hl, hL l hl⟩) hr h0
  exact ⟨s', g1, g2, View.ext_has fun l => (g3 l).trans (h3 l)⟩

theorem cfg0_room {t : Nat} (ht : t ≤ 200) : RoomFor cfg0 t :=
  ⟨fun len hlen => ⟨by simp [cfg0], by show len + 8 ≤ 255; omega⟩, fun len _ => by simp [cfg0]⟩

/-- Links with equal ends, ends that are no links, and gaps. -/
example : ∃ s', runAll (step cfg0 cfg0.dalloc cfg0.ialloc) (rebuild [⟨9, 9, 77⟩, ⟨2, 5, 5⟩, ⟨4, 5, 5⟩, ⟨5, 0, 3⟩]) (store0 cfg0) =
    some s' ∧ Reach cfg0 s' ∧ ∀ l, ((links cfg0).view s').Has l ↔ l ∈ [⟨9, 9, 77⟩, ⟨2, 5, 5⟩, ⟨4, 5, 5⟩, ⟨5, 0, 3⟩] :=
  C89_split_any_links_can_be_stored cfg0_ok (by decide +kernel) (by decide +kernel) (cfg0_room (by decide +kernel)) rfl

example : cfg0.page ≠ 0 ∧ cfg0.consts.internalEnd + 1 + cfg0.step ≤ cfg0.maxT ∧ cfg0.page + cfg0.step ≤ cfg0.maxT := by
  decide +kernel

/-- The united example network has no link with a source and no target: it can be copied to a split store. -/
example : ∃ L, (Unit.links Unit.cfg0).Visits Unit.sNet [] L ∧ ∃ s',
    runAll (step cfg0 cfg0.dalloc cfg0.ialloc) (rebuild L) (store0 cfg0) = some s' ∧ Reach cfg0 s' ∧
    (links cfg0).view s' = (Unit.links Unit.cfg0).view Unit.sNet := by
  obtain ⟨L, h1, -, h3⟩ := (Unit.reachLawful Unit.cfg0_ok).each_all Unit.sNet Unit.sNet_reach
  obtain ⟨free, ts, tt, hi⟩ := Unit.reach_good Unit.cfg0_ok Unit.sNet_reach
  have hle : Unit.sNet.hdr.allocated = 6 := by decide +kernel
  have hL : ∀ l ∈ L, l.index ≤ 6 ∧ (l.source ≠ 0 → l.target ≠ 0) := fun l hl => by
    have hl : (Unit.links Unit.cfg0).view Unit.sNet l.index = some _ := (h3 l).1 hl
    have hl' := hl
    rw [Unit.view_eq Unit.cfg0_ok hi.toInv0] at hl
    split at hl
    · next hlive =>
      have h6 := hlive.2.1
      rw [hle] at h6
      refine ⟨h6, ?_⟩
      have hall : ∀ i, i ≤ 6 → ∀ p, (Unit.links Unit.cfg0).view Unit.sNet i = some p → p.1 ≠ 0 → p.2 ≠ 0 := by
        have : ((List.range 7).all fun i => match (Unit.links Unit.cfg0).view Unit.sNet i with
          | some p => p.1 == 0 || p.2 != 0
          | none => true) = true := by decide +kernel
        intro i hi p hp
        have := List.all_eq_true.1 this i (List.mem_range.2 (by omega))
        rw [hp] at this
        simp only [Bool.or_eq_true, beq_iff_eq, bne_iff_ne] at this
        intro h1
        exact this.resolve_left h1
      exact hall _ h6 _ hl'
    · cases hl
  obtain ⟨s', g1, g2, g3⟩ := C89_united_to_split cfg0_ok Unit.cfg0_ok Unit.sNet_reach h1
    (fun l hl => ⟨Nat.le_trans (hL l hl).1 (by decide +kernel), (hL l hl).2⟩)
    (cfg0_room (Nat.le_trans (highest_le fun l hl => (hL l hl).1) (by omega))) rfl
  exact ⟨L, h1, s', g1, g2, g3⟩

/-- A split store and its copies, in a split and in a united store. -/
example : ∃ L, (links cfg0).Visits sNet [] L ∧
    (∃ s', runAll (step cfg0 cfg0.dalloc cfg0.ialloc) (rebuild L) (store0 cfg0) = some s' ∧ Reach cfg0 s' ∧
      (links cfg0).view s' = (links cfg0).view sNet) ∧
    ∃ s', runAll (Unit.step Unit.cfg0 Unit.cfg0.alloc) (rebuild L) (Unit.store0 Unit.cfg0) = some s' ∧ Unit.Reach Unit.cfg0 s' ∧
      (Unit.links Unit.cfg0).view s' = (links cfg0).view sNet := by
  obtain ⟨L, h1, -, h3⟩ := (reachLawful cfg0_ok).each_all sNet sNet_reach
  have hle : sNet.hdr.allocated ≤ 20 := by decide +kernel
  have hL : ∀ l ∈ L, l.index ≤ 20 := fun l hl => by
    have := view_bound cfg0_ok (reach_good cfg0_ok sNet_reach) ((h3 l).1 hl)
    omega
  refine ⟨L, h1, C89_split_copies_have_the_same_contents cfg0_ok cfg0_ok sNet_reach h1 ?_ ?_ rfl,
    C89_split_to_united cfg0_ok Unit.cfg0_ok sNet_reach h1 ?_ ?_ rfl⟩
  · exact fun l hl => Nat.le_trans (hL l hl) (by decide +kernel)
  · exact cfg0_room (Nat.le_trans (highest_le hL) (by omega))
  · exact fun l hl => Nat.le_trans (hL l hl) (by decide +kernel)
  · exact Unit.Props.cfg0_room (Nat.le_trans (highest_le hL) (by omega))

end Verif.Split.Props
