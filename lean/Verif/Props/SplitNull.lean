import Verif.Split.NullQuery
import Verif.Split.Example
import Verif.Props.SplitQueries

/-!
# Property C67: queries of the split store for the null link
-/

namespace Verif.Split.Props
open Verif Verif.Split

variable {c : Cfg}

theorem has_of_live (hc : CfgOK c) {s : Store} {free : List Nat} (h : Inv c s free) {L : List Nat}
    (hl : ∀ k ∈ L, LiveIn s free k) : ∀ l ∈ L.map s.linkAt, ((links c).view s).Has l := by
  intro l hm
  obtain ⟨k, hk, rfl⟩ := List.mem_map.1 hm
  exact (has_iff hc h.toInv0 _).2 ⟨hl k hk, rfl⟩

theorem any_not_live (hc : CfgOK c) {s : Store} {free : List Nat} (h : Inv c s free) : ¬ LiveIn s free c.consts.any := by
  intro hh
  have := hh.2.1; have := h.base.alloc_le; have := hc.end_lt_any; omega

theorem any_ne_null (hc : CfgOK c) : c.consts.any ≠ 0 := by have := hc.end_lt_any; omega

/-- The two traversals by one null end. -/
theorem null_sides (hc : CfgOK c) {s : Store} {free : List Nat} (h : Inv c s free) :
    (links c).Visits s [c.consts.any, c.consts.any, 0] [] ∧
    ∃ L : List Nat, (links c).Visits s [c.consts.any, 0, c.consts.any] (L.map s.linkAt) ∧
      (∀ k ∈ L, LiveIn s free k) ∧ L.Nodup ∧ (free = [] → L = []) ∧
      (free ≠ [] → s.hdr.allocated ∈ L ∧ ((s.data s.hdr.allocated).1 = 0 → L = [s.hdr.allocated]) ∧
        ((s.data s.hdr.allocated).1 ≠ 0 → ∀ k ∈ L, (s.data k).1 ≠ 0)) := by
  have hu := isUnused_null h.base
  have ha := any_ne_null hc
  obtain ⟨b, hany⟩ := isUnused_some h.base c.consts.any
  have hie := hc.index_eq
  have hse := hc.source_eq
  have hte := hc.target_eq
  have hemp : ∀ d, ∀ {σ : Type} (hd : RH σ) (st : σ), extEach s d 0 hd st = some (.cont, st) := by
    intro d σ hd st
    obtain ⟨L, g1, -, -, -, g4⟩ := ext_usages hc h.net d 0
    have : L = [] := by
      cases L with
      | nil => rfl
      | cons k r => have := (g4 k).1 (by simp); exact absurd this.2 this.1.2.1
    rw [g1, this]; rfl
  by_cases hf : free = []
  · refine ⟨fun σ hd st => ?_, [], fun σ hd st => ?_, by simp, by simp, fun _ => rfl, fun hh => absurd hf hh⟩
    · simp [links, eachLinks, each3, hie, hse, hte, hu, hany, hf, ha.symm, hemp, runH]
    · simp [links, eachLinks, each3, hie, hse, hte, hu, hany, hf, ha.symm, hemp, runH]
  · obtain ⟨L, g1, g2, g3, g4, g5, g6⟩ := intEach_null_src h hf
    refine ⟨fun σ hd st => ?_, L, fun σ hd st => ?_, g4, g3, fun hh => absurd hh hf, fun _ => ⟨g2, g5, g6⟩⟩
    · simp [links, eachLinks, each3, hie, hse, hte, hu, hany, hf, ha.symm, intEach_null_tgt h.toInv0, runH]
    · rw [← g1]
      simp [links, eachLinks, each3, hie, hse, hte, hu, hany, hf, ha.symm]

/-- The query by one null end of either kind. -/
theorem null_visits_two (hc : CfgOK c) {s : Store} {L : List Link}
    (h1 : (links c).Visits s [c.consts.any, c.consts.any, 0] []) (h2 : (links c).Visits s [c.consts.any, 0, c.consts.any] L) :
    (links c).Visits s [c.consts.any, 0] L := by
  intro σ hd st
  have ha := any_ne_null hc
  have e1 : ∀ st, each3 c s c.consts.any c.consts.any 0 hd st = some (.cont, st) := by
    intro st
    have := h1 σ hd st
    simpa [links, eachLinks, hc.index_eq, hc.source_eq, hc.target_eq, runH] using this
  have e2 : each3 c s c.consts.any 0 c.consts.any hd st = some (runH hd L st) := by
    have := h2 σ hd st
    simpa [links, eachLinks, hc.index_eq, hc.source_eq, hc.target_eq] using this
  simp only [links, eachLinks, hc.index_eq, List.length_cons, List.length_nil, Nat.reduceAdd, Nat.reduceEqDiff, if_false,
    if_true, List.getElem?_cons_zero, List.getElem?_cons_succ, Option.bind_some, ha.symm, e2, andThen, e1]
  rcases runH hd L st with ⟨_ | _, st'⟩ <;> rfl

/-- The traversal by source and target visits what the search finds. -/
theorem pair_visits (hc : CfgOK c) {s : Store} {free : List Nat} (h : Inv c s free) {x y : Nat} (hx : x ≠ c.consts.any)
    (hy : y ≠ c.consts.any) {vs vt : Bool} {k : Nat} (h1 : isUnused s x = some vs) (h2 : isUnused s y = some vt)
    (h3 : pairSearch s vs vt x y = some k) (hk : k = 0 ∨ LiveIn s free k) :
    (links c).Visits s [c.consts.any, x, y] (if k = 0 then [] else [s.linkAt k]) := by
  intro σ hd st
  have hE : (links c).eachLinks s [c.consts.any, x, y] hd st = each3 c s c.consts.any x y hd st := by
    simp [links, eachLinks, hc.index_eq, hc.source_eq, hc.target_eq]
  rw [hE]
  simp only [each3, h1, h2, Option.bind_some, h3, hc.null_eq, getLink_eq hc h.net h.exact, hx, hy]
  rcases hk with rfl | hk
  · simp [runH]
  · have h0 : k ≠ 0 := by have := hk.1; omega
    simp only [h0, if_false, hk, if_true, Option.bind_some, false_and, runH]
    rcases hd st (s.linkAt k) with ⟨_ | _, st'⟩ <;> rfl

/-! ## C67 -/

/-- **C67**: every traversal of a split store by a query of at most three parts returns, whatever the parts are, and
calls the handler only on links of the store. -/
theorem C67_reads_return (hc : CfgOK c) {s : Store} (h : Reach c s) (q : List Nat) (hq : q.length ≤ 3) :
    ∃ L, (links c).Visits s q L ∧ ∀ l ∈ L, ((links c).view s).Has l := by
  by_cases hn : NullFree c.consts.any q
  · obtain ⟨L, h1, -, h3, -⟩ := query_law hc (reach_good hc h) q hq hn
    exact ⟨L, h1, fun l hl => (h3 l hl).1⟩
  · obtain ⟨free, hi⟩ := reach_good hc h
    have ha := any_ne_null hc
    obtain ⟨n1, L, n2, n3, -⟩ := null_sides hc hi
    have hL := has_of_live hc hi n3
    have hp : ∀ x y, x ≠ c.consts.any → y ≠ c.consts.any →
        ∃ L, (links c).Visits s [c.consts.any, x, y] L ∧ ∀ l ∈ L, ((links c).view s).Has l := by
      intro x y hx hy
      obtain ⟨vs, vt, k, h1, h2, h3, h4⟩ := pairSearch_any hc hi x y
      refine ⟨_, pair_visits hc hi hx hy h1 h2 h3 h4, ?_⟩
      rcases h4 with rfl | h4
      · simp
      · have h0 : k ≠ 0 := by have := h4.1; omega
        simpa [h0] using (has_iff hc hi.toInv0 (s.linkAt k)).2 ⟨h4, rfl⟩
    match q, hq with
    | [], _ => exact absurd (by intro hh; simp at hh) hn
    | [i], _ => exact absurd (by intro _ x hx; simp at hx) hn
    | [i, x], _ =>
      have hi' : i = c.consts.any := Decidable.byContradiction fun hh => hn fun e => absurd (by simpa using e) hh
      have hx : x = 0 := Decidable.byContradiction fun hh => hn fun _ z hz => by
        simp at hz; rw [hz]; exact hh
      subst hi' hx
      exact ⟨L.map s.linkAt, null_visits_two hc n1 n2, hL⟩
    | [i, x, y], _ =>
      have hi' : i = c.consts.any := Decidable.byContradiction fun hh => hn fun e => absurd (by simpa using e) hh
      have hxy : x = 0 ∨ y = 0 := Decidable.byContradiction fun hh => hn fun _ z hz => by
        simp at hz
        rintro rfl
        exact hh (hz.imp Eq.symm Eq.symm)
      subst hi'
      by_cases hx : x = c.consts.any
      · have : y = 0 := hxy.resolve_left fun e => ha (hx ▸ e)
        subst hx this
        exact ⟨[], n1, by simp⟩
      · by_cases hy : y = c.consts.any
        · have : x = 0 := hxy.resolve_right fun e => ha (hy ▸ e)
          subst hy this
          exact ⟨_, n2, hL⟩
        · exact hp x y hx hy

/-- Without gaps: 1 = (0,0), 2 = (0,1), 3 = (1,2), 4 = (0,9). -/
def sFull : Store := runs cfg0 [.create, .create, .create, .create, .update 2 0 1, .update 3 1 2, .update 4 0 9]

theorem sFull_reach : Reach cfg0 sFull := (runs_history (by decide +kernel)).reach cfg0_ok

/-- With a gap at 1: 2 = (0,1), 3 = (1,2), 4 = (0,9). -/
def sGap : Store :=
  runs cfg0 [.create, .create, .create, .create, .update 2 0 1, .update 3 1 2, .update 4 0 9, .delete 1]

theorem sGap_reach : Reach cfg0 sGap := (runs_history (by decide +kernel)).reach cfg0_ok

/-- Null ends, on stores without and with gaps. -/
example : Reach cfg0 sNet ∧
    [[252, 0, 252], [252, 252, 0], [252, 0], [252, 0, 0], [252, 3, 0], [252, 0, 3]].map ((links cfg0).collect sNet) =
      [some [⟨6, 5, 3⟩, ⟨4, 9, 1⟩], some [], some [⟨6, 5, 3⟩, ⟨4, 9, 1⟩], some [], some [], some [⟨6, 5, 3⟩]] :=
  ⟨sNet_reach, by decide +kernel⟩

theorem extCount_any (hc : CfgOK c) {s : Store} {free : List Nat} (h : Inv c s free) (d : Side) (v : Nat) :
    ∃ n, extCount c s d v = some n := by
  obtain ⟨L, -, g2, g2', -⟩ := ext_usages hc h.net d v
  by_cases hno : d = .src ∧ NoExt (ExtRef s free) .src
  · exact ⟨_, g2' hno.1 hno.2⟩
  · refine ⟨_, g2 ?_⟩
    cases d
    · exact .inr (.inl fun hh => hno ⟨rfl, hh⟩)
    · exact .inl rfl

theorem intCount_used {s : Store} {free : List Nat} (h : Inv c s free) (d : Side) {v : Nat}
    (hv : isUnused s v = some false) : ∃ n, intCount s d v = some n := by
  rw [isUnused_any h.toInv0] at hv
  have hv : (v = 0 ∧ free ≠ []) ∨ LiveIn s free v := Decidable.byContradiction fun hh => by
    rw [decide_eq_true hh] at hv; cases hv
  rcases hv with ⟨rfl, hf⟩ | hv
  · exact intCount_any h hf d (.inl rfl)
  · have h0 : v ≠ 0 := by have := hv.1; omega
    obtain ⟨L, -, g2, -⟩ := int_usages h.net d h0 (live_lt h.base hv)
    exact ⟨_, g2⟩

/-- **C67**: every count of a split store by a query of at most three parts returns, whatever the parts are, except
possibly by `[any, x]`, where the sum of two numbers of links can overflow (C34). -/
theorem C67_counts_return (hc : CfgOK c) {s : Store} (h : Reach c s) (q : List Nat) (hq : q.length ≤ 3)
    (h2 : q.length = 2 → q.head? ≠ some c.consts.any) : ∃ n, (links c).countBy s q = some n := by
  obtain ⟨free, hi⟩ := reach_good hc h
  have hie := hc.index_eq
  have hse := hc.source_eq
  have hte := hc.target_eq
  have htot : ∃ n, total s = some n := ⟨_, total_eq hi.base⟩
  have hex := exists_eq hc hi.net hi.exact
  have hget : ∀ i, LiveIn s free i → ∃ p, s.getD i = some p := by
    intro i hl
    have hg := getLinkUnchecked_eq hi.base hl
    unfold getLinkUnchecked at hg
    cases hd : s.getD i with
    | none => rw [hd] at hg; simp at hg
    | some p => exact ⟨p, rfl⟩
  show ∃ n, countLinks c s q = some n
  match q, hq with
  | [], _ => simpa [countLinks] using htot
  | [i], _ =>
    by_cases hi' : i = c.consts.any
    · simpa [countLinks, hie, hi'] using htot
    · simp [countLinks, hie, hi', hex]
  | [i, x], _ =>
    have hi' : i ≠ c.consts.any := fun e => h2 rfl (by simp [e])
    obtain ⟨u, hu⟩ := isUnused_some hi.base x
    by_cases hl : LiveIn s free i
    · obtain ⟨p, hp⟩ := hget i hl
      by_cases hx : x = c.consts.any <;> simp_all [countLinks]
    · simp_all [countLinks]
  | [i, x, y], _ =>
    have hC : countLinks c s [i, x, y] = count3 c s i x y := by simp [countLinks, hie, hse, hte]
    rw [hC]
    obtain ⟨vs, vt, k, h1, h2, h3, -⟩ := pairSearch_any hc hi x y
    simp only [count3, h1, h2, h3, Option.bind_some, Option.map_some, hex]
    by_cases hi' : i = c.consts.any
    · simp only [hi', if_true]
      split
      · exact htot
      · split
        · split
          · exact extCount_any hc hi _ _
          · exact intCount_used hi _ (by simp_all)
        · split
          · exact extCount_any hc hi _ _
          · split
            · exact intCount_used hi _ (by simp_all)
            · exact ⟨_, rfl⟩
    · simp only [hi', if_false]
      by_cases hl : LiveIn s free i
      · have := getLinkUnchecked_eq hi.base hl
        simp only [hl, decide_true, Bool.not_true, Bool.false_eq_true, if_false, this, Option.map_some]
        split <;> exact ⟨_, rfl⟩
      · simp [hl]

example : Reach cfg0 sNet ∧
    [[252, 0, 252], [252, 252, 0], [5, 0], [252, 0, 0], [252, 3, 0], [252, 0, 3]].map ((links cfg0).countBy sNet) =
      [some 2, some 1, some 0, some 0, some 0, some 1] := ⟨sNet_reach, by decide +kernel⟩

/-- **C67**, no unused index below a link: a query for a null source or a null target visits nothing, although the store may
hold many links with null ends; a query for a null source and a target visits one such link if the target exists, and
nothing otherwise. -/
theorem C67_null_ends_without_gaps (hc : CfgOK c) {s : Store} (h : Reach c s) (hg : ((links c).view s).GapFree) :
    (links c).Visits s [c.consts.any, 0, c.consts.any] [] ∧ (links c).Visits s [c.consts.any, c.consts.any, 0] [] ∧
    (links c).Visits s [c.consts.any, 0] [] ∧ (links c).Visits s [c.consts.any, 0, 0] [] ∧
    (∀ x, x ≠ c.consts.any → (links c).Visits s [c.consts.any, x, 0] []) ∧
    (∀ y, y ≠ 0 → y ≠ c.consts.any → ∃ L, (links c).Visits s [c.consts.any, 0, y] L ∧ L.length ≤ 1 ∧
      (∀ l ∈ L, ((links c).view s).Has l ∧ l.source = 0 ∧ l.target = y) ∧
      (L ≠ [] ↔ (links c).view s y ≠ none ∧ ∃ l, ((links c).view s).Has l ∧ l.source = 0 ∧ l.target = y)) := by
  obtain ⟨free, hi⟩ := reach_good hc h
  have ha := any_ne_null hc
  have hf := (gapFree_iff hc hi).1 hg
  subst hf
  obtain ⟨n1, L, n2, -, -, n5, -⟩ := null_sides hc hi
  rw [n5 rfl] at n2
  have hu : isUnused s 0 = some true := by simpa using isUnused_null hi.base
  have hx0 : ∀ x, x ≠ c.consts.any → (links c).Visits s [c.consts.any, x, 0] [] := by
    intro x hx
    by_cases hl : LiveIn s [] x
    · have h0 : x ≠ 0 := by have := hl.1; omega
      have hux : isUnused s x = some false := by rw [hi.net.unused h0 (hi.exact x)]; simp [hl]
      obtain ⟨k, e1, e2⟩ := intSearch_ok hi.net .src x 0 h0 (live_lt hi.base hl)
      have e0 : k = 0 := by
        rcases e2 with e | ⟨e0, e2, e3⟩
        · exact e.1
        · have := hi.half k e2.1 e2.2.1
          rw [e3] at this; exact absurd rfl this
      subst e0
      simpa using pair_visits hc hi hx ha.symm hux hu (k := 0) (by simpa [pairSearch] using e1) (.inl rfl)
    · have hux : isUnused s x = some true := by
        by_cases h0 : x = 0
        · rw [h0]; exact hu
        · rw [hi.net.unused h0 (hi.exact x)]; simp [hl]
      obtain ⟨k, e1, e2⟩ := extSearch_ok hi.net x 0
      have e0 : k = 0 := by
        rcases e2 with e | ⟨e0, e2, e3⟩
        · exact e.1
        · have := hi.half k e2.1 e2.2.1
          rw [e3] at this; exact absurd rfl this
      subst e0
      simpa using pair_visits hc hi hx ha.symm hux hu (k := 0) (by simpa [pairSearch] using e1) (.inl rfl)
  refine ⟨n2, n1, null_visits_two hc n1 n2, hx0 0 ha.symm, hx0, fun y hy0 hy => ?_⟩
  by_cases hl : LiveIn s [] y
  · have huy : isUnused s y = some false := by rw [hi.net.unused hy0 (hi.exact y)]; simp [hl]
    obtain ⟨k, e1, e2⟩ := intSearch_ok hi.net .tgt 0 y hy0 (live_lt hi.base hl)
    have hv := pair_visits hc hi ha.symm hy hu huy (k := k) (by simpa [pairSearch] using e1)
      (e2.imp And.left fun e => e.2.1.1)
    have hyv := (view_ne_none hc hi.toInv0).2 hl
    rcases e2 with ⟨rfl, e3⟩ | ⟨e0, e3, e4⟩
    · refine ⟨_, hv, by simp, by simp, ?_⟩
      constructor
      · intro hh; exact absurd rfl hh
      · rintro ⟨-, l, h1, h2, h3⟩
        obtain ⟨g1, g2⟩ := (has_iff hc hi.toInv0 l).1 h1
        have es : (s.data l.index).1 = l.source := by rw [g2]; rfl
        have et : (s.data l.index).2 = l.target := by rw [g2]; rfl
        exact absurd (by rw [Prod.ext_iff, es, et]; exact ⟨h2, h3⟩)
          (e3 l.index ⟨g1, by simp only [endOf]; omega, by simp only [endOf]; rw [et, h3]; exact hl⟩)
    · have hH : ((links c).view s).Has (s.linkAt k) ∧ (s.linkAt k).source = 0 ∧ (s.linkAt k).target = y :=
        ⟨(has_iff hc hi.toInv0 _).2 ⟨e3.1, rfl⟩, by simp [Store.linkAt, e4], by simp [Store.linkAt, e4]⟩
      rw [if_neg e0] at hv
      exact ⟨_, hv, by simp, by simpa using hH, by simp [hyv]; exact ⟨_, hH⟩⟩
  · have huy : isUnused s y = some true := by rw [hi.net.unused hy0 (hi.exact y)]; simp [hl]
    obtain ⟨k, e1, e2⟩ := extSearch_ok hi.net 0 y
    have e0 : k = 0 := by
      rcases e2 with e | ⟨e0, e2, e3⟩
      · exact e.1
      · have := e2.2.1
        simp only [endOf, e3] at this; exact absurd rfl this
    subst e0
    have hv := pair_visits hc hi ha.symm hy hu huy (k := 0) (by simpa [pairSearch] using e1) (.inl rfl)
    refine ⟨_, hv, by simp, by simp, ?_⟩
    constructor
    · intro hh; exact absurd rfl hh
    · rintro ⟨h1, -⟩; exact absurd ((view_ne_none hc hi.toInv0).1 h1) hl

/-- The hypotheses are met, and links with null ends are missed: 1 and 2 and 4 have the source 0, only 2 is found. -/
example : Reach cfg0 sFull ∧ ((links cfg0).view sFull).GapFree ∧
    (links cfg0).collect sFull [] = some [⟨1, 0, 0⟩, ⟨2, 0, 1⟩, ⟨3, 1, 2⟩, ⟨4, 0, 9⟩] ∧
    [[252, 0, 252], [252, 252, 0], [252, 0], [252, 0, 0], [252, 1, 0], [252, 0, 1], [252, 0, 9]].map
      ((links cfg0).collect sFull) = [some [], some [], some [], some [], some [], some [⟨2, 0, 1⟩], some []] :=
  ⟨sFull_reach, by
    obtain ⟨free, hi⟩ := reach_good cfg0_ok sFull_reach
    refine (gapFree_iff cfg0_ok hi).2 ?_
    have hf : sFull.hdr.firstFree = free.headD 0 := hi.base.list.first_eq
    have h0 : sFull.hdr.firstFree = 0 := by decide +kernel
    cases free with
    | nil => rfl
    | cons x r => exact absurd (h0.symm.trans hf).symm (hi.base.list.nonzero x (by simp)), by decide +kernel, by decide +kernel⟩

/-- **C67**, some unused index below a link: a query for a null target still visits nothing, but a query for a null source
visits the link with the highest index, whatever its source is. If that source is null, this is the only link visited; if
not, all the links visited have a source. -/
theorem C67_null_ends_with_gaps (hc : CfgOK c) {s : Store} (h : Reach c s) (hg : ¬ ((links c).view s).GapFree) :
    (links c).Visits s [c.consts.any, c.consts.any, 0] [] ∧
    ∃ L top, (links c).Visits s [c.consts.any, 0, c.consts.any] L ∧ (links c).Visits s [c.consts.any, 0] L ∧ L.Nodup ∧
      top ∈ L ∧ (∀ l, ((links c).view s).Has l → l.index ≤ top.index) ∧ (∀ l ∈ L, ((links c).view s).Has l) ∧
      (top.source = 0 → L = [top]) ∧ (top.source ≠ 0 → ∀ l ∈ L, l.source ≠ 0) := by
  obtain ⟨free, hi⟩ := reach_good hc h
  have hf : free ≠ [] := fun e => hg ((gapFree_iff hc hi).2 e)
  obtain ⟨n1, L, n2, n3, n4, -, n5⟩ := null_sides hc hi
  obtain ⟨m1, m2, m3⟩ := n5 hf
  refine ⟨n1, L.map s.linkAt, s.linkAt s.hdr.allocated, n2, null_visits_two hc n1 n2, ?_, List.mem_map_of_mem m1, ?_,
    has_of_live hc hi n3, fun e => by rw [m2 e]; rfl, fun e => ?_⟩
  · rw [List.nodup_iff_pairwise_ne, List.pairwise_map] 
    exact (List.nodup_iff_pairwise_ne.1 n4).imp fun hne e => hne (congrArg Link.index e)
  · intro l hl
    exact ((has_iff hc hi.toInv0 l).1 hl).1.2.1
  · intro l hl
    obtain ⟨k, hk, rfl⟩ := List.mem_map.1 hl
    exact m3 e k hk

/-- The hypotheses are met, both ways: the highest link has a source, or has not. -/
example : Reach cfg0 sNet ∧ ¬ ((links cfg0).view sNet).GapFree ∧ Reach cfg0 sGap ∧ ¬ ((links cfg0).view sGap).GapFree ∧
    (links cfg0).collect sNet [252, 0, 252] = some [⟨6, 5, 3⟩, ⟨4, 9, 1⟩] ∧
    (links cfg0).collect sGap [252, 0, 252] = some [⟨4, 0, 9⟩] := by
  refine ⟨sNet_reach, fun h => ?_, sGap_reach, fun h => ?_, by decide +kernel, by decide +kernel⟩
  · exact h 5 6 (by decide +kernel) (by omega) (by omega) (by decide +kernel)
  · exact h 1 2 (by decide +kernel) (by omega) (by omega) (by decide +kernel)

/-- What the search finds, said of the links of the store. -/
theorem one_found (hc : CfgOK c) {s : Store} {free : List Nat} (h : Inv c s free) {x y : Nat} {P : Link → Prop}
    (hx : x ≠ c.consts.any) (hy : y ≠ c.consts.any) {vs vt : Bool} {k : Nat} (h1 : isUnused s x = some vs)
    (h2 : isUnused s y = some vt) (h3 : pairSearch s vs vt x y = some k)
    (hk : k = 0 ∨ LiveIn s free k ∧ P (s.linkAt k)) :
    ∃ L, (links c).Visits s [c.consts.any, x, y] L ∧ L.length ≤ 1 ∧ ∀ l ∈ L, ((links c).view s).Has l ∧ P l := by
  refine ⟨_, pair_visits hc h hx hy h1 h2 h3 (hk.imp id And.left), ?_⟩
  rcases hk with rfl | ⟨hl, hp⟩
  · simp
  · have h0 : k ≠ 0 := by have := hl.1; omega
    simpa [h0] using ⟨(has_iff hc h.toInv0 (s.linkAt k)).2 ⟨hl, rfl⟩, hp⟩

/-- **C67**, some unused index below a link, queries for a source and a target of which one is null. Let `top` be the link
with the highest index.

* No link has a source and no target, but the query for a source `x` and the null target may visit one link: a link with
  the source `x` and some other target.
* If `top` has no source, the query for the null source and a target visits `top` if that is its target, and nothing else.
* If `top` has a source, the query for the null source and the target `y` visits at most one link. Its target is `y`, but its
  source need not be null. The query for two null ends visits at most one link, which has no source, but has a target. -/
theorem C67_null_pairs_with_gaps (hc : CfgOK c) {s : Store} (h : Reach c s) (hg : ¬ ((links c).view s).GapFree) :
    ∃ top, ((links c).view s).Has top ∧ (∀ l, ((links c).view s).Has l → l.index ≤ top.index) ∧
      (∀ x, x ≠ 0 → x ≠ c.consts.any → ∃ L, (links c).Visits s [c.consts.any, x, 0] L ∧ L.length ≤ 1 ∧
        ∀ l ∈ L, ((links c).view s).Has l ∧ l.source = x ∧ l.target ≠ 0) ∧
      (top.source = 0 → ∀ y, y ≠ c.consts.any →
        (links c).Visits s [c.consts.any, 0, y] (if top.target = y then [top] else [])) ∧
      (top.source ≠ 0 →
        (∃ L, (links c).Visits s [c.consts.any, 0, 0] L ∧ L.length ≤ 1 ∧
          ∀ l ∈ L, ((links c).view s).Has l ∧ l.source = 0 ∧ l.target ≠ 0) ∧
        ∀ y, y ≠ 0 → y ≠ c.consts.any → ∃ L, (links c).Visits s [c.consts.any, 0, y] L ∧ L.length ≤ 1 ∧
          ∀ l ∈ L, ((links c).view s).Has l ∧ l.target = y) := by
  obtain ⟨free, hi⟩ := reach_good hc h
  have hf : free ≠ [] := fun e => hg ((gapFree_iff hc hi).2 e)
  have ha := any_ne_null hc
  have htop := top_live hi hf
  have hu0 : isUnused s 0 = some false := by rw [isUnused_null hi.base]; simp [hf]
  have huy : ∀ y, y ≠ 0 → isUnused s y = some (decide (¬ LiveIn s free y)) := fun y hy =>
    hi.net.unused hy (hi.exact y)
  have hA := intCount_any hi hf .src (.inl rfl)
  refine ⟨s.linkAt s.hdr.allocated, (has_iff hc hi.toInv0 _).2 ⟨htop, rfl⟩,
    fun l hl => ((has_iff hc hi.toInv0 l).1 hl).1.2.1, fun x hx hxa => ?_, fun ht y hya => ?_, fun ht => ⟨?_, fun y hy hya => ?_⟩⟩
  · -- a source and the null target
    obtain ⟨k, e1, e2⟩ := intSearch_null_tgt hi x
    by_cases hl : LiveIn s free x
    · obtain ⟨m, hm⟩ := intCount_any hi hf .src (.inr hl)
      obtain ⟨n, hn⟩ := intCount_any hi hf .tgt (.inl rfl)
      obtain ⟨j, f1, f2⟩ := intSearch_ok hi.net .src x 0 hx (live_lt hi.base hl)
      have f0 : j = 0 := by
        rcases f2 with e | ⟨e0, e2, e3⟩
        · exact e.1
        · have := hi.half j e2.1 e2.2.1
          rw [e3] at this; exact absurd rfl this
      subst f0
      by_cases hmn : m > n
      · exact one_found hc hi hxa ha.symm (huy x hx) hu0 (k := k) (by simp [pairSearch, hl, hm, hn, hmn, e1]) e2
      · exact one_found hc hi hxa ha.symm (huy x hx) hu0 (k := 0) (by simp [pairSearch, hl, hm, hn, hmn, f1]) (.inl rfl)
    · exact one_found hc hi hxa ha.symm (huy x hx) hu0 (k := k) (by simp [pairSearch, hl, e1]) e2
  · -- the null source, the highest link has no source
    obtain ⟨k, e1, e2, e3, -⟩ := intSearch_null_src hi hf y
    have h0 : s.hdr.allocated ≠ 0 := by have := htop.1; omega
    have hC := intCount_null_src hi hf ht
    have hv : ∃ vt, isUnused s y = some vt ∧ pairSearch s false vt 0 y = some k := by
      by_cases hl : (y = 0 ∧ free ≠ []) ∨ LiveIn s free y
      · obtain ⟨n, hn⟩ := intCount_any hi hf .tgt (hl.imp And.left id)
        exact ⟨false, by rw [isUnused_any hi.toInv0]; simp [hl], by simp [pairSearch, hC, hn, e1]⟩
      · exact ⟨true, by rw [isUnused_any hi.toInv0]; simp [hl], by simp [pairSearch, e1]⟩
    obtain ⟨vt, v1, v2⟩ := hv
    have hV := pair_visits hc hi ha.symm hya hu0 v1 v2 (e2.imp id And.left)
    have e3 := e3 ht
    by_cases hy : (s.data s.hdr.allocated).2 = y
    · rw [if_pos hy] at e3
      rw [e3, if_neg h0] at hV
      have : (s.linkAt s.hdr.allocated).target = y := hy
      rwa [if_pos this]
    · rw [if_neg hy] at e3
      rw [e3, if_pos rfl] at hV
      have : ¬ (s.linkAt s.hdr.allocated).target = y := hy
      rwa [if_neg this]
  · -- two null ends
    obtain ⟨m, hm⟩ := hA
    obtain ⟨n, hn⟩ := intCount_any hi hf .tgt (.inl rfl)
    obtain ⟨j, f1, f2, -, f4⟩ := intSearch_null_src hi hf 0
    have f0 : j = 0 := Decidable.byContradiction fun h0 => by
      obtain ⟨a, b⟩ := f2.resolve_left h0
      exact hi.half j a (f4 ht h0) b
    subst f0
    obtain ⟨k, e1, e2⟩ := intSearch_null_tgt hi 0
    by_cases hmn : m > n
    · exact one_found hc hi ha.symm ha.symm hu0 hu0 (k := k) (by simp [pairSearch, hm, hn, hmn, e1]) e2
    · exact one_found hc hi ha.symm ha.symm hu0 hu0 (k := 0) (by simp [pairSearch, hm, hn, hmn, f1]) (.inl rfl)
  · -- the null source and a target
    obtain ⟨m, hm⟩ := hA
    obtain ⟨k, e1, e2, -⟩ := intSearch_null_src hi hf y
    by_cases hl : LiveIn s free y
    · obtain ⟨n, hn⟩ := intCount_any hi hf .tgt (.inr hl)
      obtain ⟨j, f1, f2⟩ := intSearch_ok hi.net .tgt 0 y hy (live_lt hi.base hl)
      by_cases hmn : m > n
      · refine one_found hc hi ha.symm hya hu0 (huy y hy) (k := j) (by simp [pairSearch, hl, hm, hn, hmn, f1])
          (f2.imp And.left fun e => ⟨e.2.1.1, ?_⟩)
        show (s.data j).2 = y
        rw [e.2.2]
      · exact one_found hc hi ha.symm hya hu0 (huy y hy) (k := k) (by simp [pairSearch, hl, hm, hn, hmn, e1]) e2
    · exact one_found hc hi ha.symm hya hu0 (huy y hy) (k := k) (by simp [pairSearch, hl, e1]) e2

/-- The hypotheses are met, in both ways, and wrong links are visited. -/
example : Reach cfg0 sNet ∧ ¬ ((links cfg0).view sNet).GapFree ∧ Reach cfg0 sGap ∧ ¬ ((links cfg0).view sGap).GapFree ∧
    [[252, 5, 0], [252, 1, 0], [252, 0, 0], [252, 0, 3], [252, 0, 1]].map ((links cfg0).collect sNet) =
      [some [⟨6, 5, 3⟩], some [], some [], some [⟨6, 5, 3⟩], some []] ∧
    [[252, 0, 9], [252, 0, 1], [252, 0, 0]].map ((links cfg0).collect sGap) = [some [⟨4, 0, 9⟩], some [], some []] := by
  refine ⟨sNet_reach, fun h => ?_, sGap_reach, fun h => ?_, by decide +kernel, by decide +kernel⟩
  · exact h 5 6 (by decide +kernel) (by omega) (by omega) (by decide +kernel)
  · exact h 1 2 (by decide +kernel) (by omega) (by omega) (by decide +kernel)

/-- **C67**, counter-theorem: with an unused index, looking for a pair with a null end can find a link that is another pair,
and getting or creating that pair then returns this link and creates nothing. -/
theorem C67_wrong_pair_is_found : ∃ s : Store, Reach cfg0 s ∧ (links cfg0).getLink s 6 = some (some ⟨6, 5, 3⟩) ∧
    (links cfg0).search s 5 0 = some (some 6) ∧ (links cfg0).search s 0 3 = some (some 6) ∧
    ((links cfg0).getOrCreate s 5 0).map (·.res.toOption) = some (some 6) ∧
    ((links cfg0).getOrCreate s 0 3).map (·.res.toOption) = some (some 6) ∧
    ((links cfg0).getOrCreate s 0 3).map (fun o => (links cfg0).count o.st) = some ((links cfg0).count s) :=
  ⟨sNet, sNet_reach, by decide +kernel, by decide +kernel, by decide +kernel, by decide +kernel, by decide +kernel,
    by decide +kernel⟩

end Verif.Split.Props
