import Verif.Props.SplitNull
import Verif.Props.SplitCounts

/-!
# C73, queries for null ends: what `count_by` returns on the split store
-/

namespace Verif.Split
open Verif

variable {c : Cfg}

/-- The part of a tree below a link that has an end: the other links in it have the same end, if it is a link, or ends that
are not links either. -/
theorem sub_facts_ends {s : Store} {free : List Nat} (h : Inv0 c s free) (d : Side) {k : Nat} (hk : LiveIn s free k)
    (he : endOf d (s.data k) ≠ 0) :
    ∃ t, Rep (s.node d) s.data t k ∧ k ∈ t.toList ∧ t.size ≤ s.hdr.allocated ∧
      ∀ j ∈ t.toList, LiveIn s free j ∧ endOf d (s.data j) ≠ 0 ∧
        (LiveIn s free (endOf d (s.data k)) → endOf d (s.data j) = endOf d (s.data k)) ∧
        (¬ LiveIn s free (endOf d (s.data k)) → ¬ LiveIn s free (endOf d (s.data j))) := by
  have hn := h.net
  obtain ⟨ti, te, f1, f2, f3, f4, f5, f6, f7⟩ := h.forest d
  by_cases hi : LiveIn s free (endOf d (s.data k))
  · obtain ⟨hrep, hsz⟩ := hn.tree_facts (f1 _ he) fun k hk => Or.inl ((f3 _ k he).1 hk).1
    obtain ⟨t, g1, g2, g3, g4⟩ := Rep.sub _ _ hrep ((f3 _ k he).2 ⟨⟨hk, he, hi⟩, rfl⟩)
    refine ⟨t, g1, g3, by omega, fun j hj => ?_⟩
    have := (f3 _ j he).1 (g2.subset hj)
    exact ⟨this.1.1, this.1.2.1, fun _ => this.2, fun hh => absurd hi hh⟩
  · obtain ⟨hrep, hsz⟩ := hn.tree_facts f2 fun k hk => Or.inr ((f4 k).1 hk)
    obtain ⟨t, g1, g2, g3, g4⟩ := Rep.sub _ _ hrep ((f4 k).2 ⟨hk, he, hi⟩)
    refine ⟨t, g1, g3, by omega, fun j hj => ?_⟩
    have := (f4 j).1 (g2.subset hj)
    exact ⟨this.1, this.2.1, fun hh => absurd hh hi, fun _ => this.2.2⟩

/-- What the code counts and visits for a null source, if some index is free. -/
theorem null_src_count {s : Store} {free : List Nat} (h : Inv c s free) (hf : free ≠ []) :
    ((s.data s.hdr.allocated).1 = 0 → intCount s .src 0 = some 0) ∧
    ((s.data s.hdr.allocated).1 ≠ 0 → ∃ L : List Nat,
      (∀ (σ : Type) (hd : RH σ) (st : σ), intEach s .src 0 hd st = some (runH hd (L.map s.linkAt) st)) ∧
      intCount s .src 0 = some L.length ∧ ∀ j ∈ L, LiveIn s free j ∧ (s.data j).1 ≠ 0 ∧
        (LiveIn s free (s.data s.hdr.allocated).1 → (s.data j).1 = (s.data s.hdr.allocated).1) ∧
        (¬ LiveIn s free (s.data s.hdr.allocated).1 → ¬ LiveIn s free (s.data j).1)) := by
  have htop := top_live h hf
  have hlt := h.base.alloc_lt
  have h0 : s.hdr.allocated ≠ 0 := by have := htop.1; omega
  constructor
  · intro he
    have hn := cleared_node h.toInv0 .src htop he
    simp [intCount, (iroot_null h.base).1, sizeOrZero, h0, hn]
  · intro he
    obtain ⟨t, g1, g2, g4, g5⟩ := sub_facts_ends h.toInv0 .src htop he
    refine ⟨t.toList, fun σ hd st => ?_, ?_, g5⟩
    · simp only [intEach, (iroot_null h.base).1, Option.bind_some]
      exact eachInorder_eq hd _ _ _ st g1 (by omega)
    · rw [intCount, (iroot_null h.base).1, Option.bind_some, sizeOrZero_eq g1, Tree.size_eq_length]

/-- What the code counts for a null target, if some index is free. -/
theorem null_tgt_count {s : Store} {free : List Nat} (h : Inv0 c s free) :
    ∃ n, intCount s .tgt 0 = some n ∧ (n = 0 ↔ NoExt (ExtRef s free) .src) := by
  obtain ⟨ti, te, f1, f2, f3, f4, f5, f6, f7⟩ := h.forest .src
  have hh := f2.holds
  cases te with
  | leaf =>
    have hr : s.hdr.rootS = 0 := hh
    refine ⟨0, by simp [intCount, (iroot_null h.base).2, hr, sizeOrZero], fun _ k hk => ?_, fun _ => rfl⟩
    have := (f4 k).2 hk
    simp [Tree.toList] at this
  | node a k b =>
    have hr : s.hdr.rootS = k := hh.1
    have hk := (f4 k).1 (by simp [Tree.toList])
    obtain ⟨t, g1, g2, -, -⟩ := sub_facts_ends h .tgt hk.1 (h.half k hk.1 hk.2.1)
    refine ⟨t.size, ?_, fun hz => ?_, fun hno => absurd hk (hno k)⟩
    · rw [intCount, (iroot_null h.base).2, Option.bind_some, hr, sizeOrZero_eq g1]
    · rw [Tree.size_eq_length] at hz
      rw [List.length_eq_zero_iff.1 hz] at g2
      cases g2

end Verif.Split

namespace Verif.Split.Props
open Verif

variable {c : Cfg}

theorem countBy_three (hc : CfgOK c) {s : Store} (a b d : Nat) : (links c).countBy s [a, b, d] = count3 c s a b d := by
  show countLinks c s [a, b, d] = _
  simp [countLinks, hc.index_eq, hc.source_eq, hc.target_eq]

/-- **C73**, null ends, no index below a link unused: every query for a null source, a null target, or a null end on either side counts 0, as
does a query for two ends one of which is null; but the query for a source that is not a link and the null target counts the links with that source. -/
theorem C73_split_count_null_without_gaps (hc : CfgOK c) {s : Store} (h : Reach c s) (hg : ((links c).view s).GapFree) :
    (links c).countBy s [c.consts.any, 0, c.consts.any] = some 0 ∧ (links c).countBy s [c.consts.any, c.consts.any, 0] = some 0 ∧
    (links c).countBy s [c.consts.any, 0] = some 0 ∧ (∀ y, (links c).countBy s [c.consts.any, 0, y] = some 0) ∧
    (∀ x, x ≠ c.consts.any → (links c).view s x ≠ none → (links c).countBy s [c.consts.any, x, 0] = some 0) ∧
    (∀ x, x ≠ 0 → x ≠ c.consts.any → (links c).view s x = none →
      ∃ n, (links c).countBy s [c.consts.any, x, 0] = some n ∧ ((links c).view s).Counts (·.source = x) n) := by
  obtain ⟨free, hi⟩ := reach_good hc h
  have ha := any_ne_null hc
  have hf := (gapFree_iff hc hi).1 hg
  subst hf
  have hu : isUnused s 0 = some true := by simpa using isUnused_null hi.base
  have hE : ∀ d, extCount c s d 0 = some 0 := fun d => by
    obtain ⟨L, -, g2, -, -, g5⟩ := ext_usages hc hi.net d 0
    have : L = [] := by
      cases L with
      | nil => rfl
      | cons k r => have := (g5 k).1 (by simp); exact absurd this.2 this.1.2.1
    rw [g2 (.inr (.inr rfl)), this]; rfl
  have hx0 : ∀ y, (links c).countBy s [c.consts.any, 0, y] = some 0 := fun y => by
    obtain ⟨b, hb⟩ := isUnused_some hi.base y
    rw [countBy_three hc]
    simp [count3, hu, hb, ha.symm, hE]
  refine ⟨hx0 _, ?_, ?_, hx0, fun x hx hv => ?_, fun x h0 hx hv => ?_⟩
  · obtain ⟨b, hb⟩ := isUnused_some hi.base c.consts.any
    rw [countBy_three hc]
    simp [count3, hu, hb, ha.symm, hE]
  · show countLinks c s [c.consts.any, 0] = _
    simp [countLinks, hc.index_eq, hu, ha.symm, hE, cadd]
  · have hl := (view_ne_none hc hi.toInv0).1 hv
    have h0 : x ≠ 0 := by have := hl.1; omega
    have hux : isUnused s x = some false := by rw [hi.net.unused h0 (hi.exact x)]; simp [hl]
    obtain ⟨k, e1, e2⟩ := intSearch_ok hi.net .src x 0 h0 (live_lt hi.base hl)
    have e0 : k = 0 := by
      rcases e2 with e | ⟨e0, e2, e3⟩
      · exact e.1
      · have := hi.half k e2.1 e2.2.1
        rw [e3] at this; exact absurd rfl this
    subst e0
    rw [countBy_three hc]
    simp [count3, hu, hux, hx, ha.symm, pairSearch, e1, hc.null_eq]
  · have hl : ¬ LiveIn s [] x := fun hl => (view_ne_none hc hi.toInv0).2 hl hv
    have hux : isUnused s x = some true := by rw [hi.net.unused h0 (hi.exact x)]; simp [hl]
    obtain ⟨b, hb⟩ := isUnused_some hi.base c.consts.any
    obtain ⟨n, e1, -, e3⟩ := source_count hc hi h0 hx
    have e1 : (links c).countBy s [c.consts.any, x, c.consts.any] = some n := e1
    rw [countBy_three hc] at e1
    have e2 : count3 c s c.consts.any x 0 = count3 c s c.consts.any x c.consts.any := by
      simp [count3, hu, hux, hx, hb, ha.symm]
    refine ⟨n, by rw [countBy_three hc, e2, e1], ?_⟩
    by_cases hd : ((links c).view s).SourceDangles
    · exact e3.2 (.inr hd)
    · rw [show n = 0 from e3.1 ⟨hv, hd⟩]
      refine ⟨[], List.nodup_nil, rfl, fun l => ⟨by simp, fun hl' => ?_⟩⟩
      exact absurd ⟨l.index, l.source, l.target, hl'.1, by rw [hl'.2]; exact h0, by rw [hl'.2]; exact hv⟩ hd

/-- **C73**, null ends, some index below a link unused; `top` is the link with the highest index.

* The query for a null source counts 0 if `top` has no source, although it then visits `top`; otherwise it counts the links it visits. They have the
  source of `top`, if that is a link, and otherwise sources that are not links.
* The query for a null target, which visits nothing, counts 0 exactly if no source is missing.
* The query for a null end on either side counts the sum of the two.
* The query for the null source and a target, or a source that is a link and the null target, counts what it visits, at most one link. That for
  a source that is not a link and the null target counts as if the target were not asked for. -/
theorem C73_split_count_null_with_gaps (hc : CfgOK c) {s : Store} (h : Reach c s) (hg : ¬ ((links c).view s).GapFree) :
    ∃ top L a b, ((links c).view s).Has top ∧ (∀ l, ((links c).view s).Has l → l.index ≤ top.index) ∧
      (links c).Visits s [c.consts.any, 0, c.consts.any] L ∧
      (links c).countBy s [c.consts.any, 0, c.consts.any] = some a ∧ (links c).countBy s [c.consts.any, c.consts.any, 0] = some b ∧
      (links c).countBy s [c.consts.any, 0] = (if a + b ≤ c.maxT then some (a + b) else none) ∧
      (top.source = 0 → L = [top] ∧ a = 0) ∧
      (top.source ≠ 0 → a = L.length ∧ ∀ l ∈ L, l.source ≠ 0 ∧
        ((links c).view s top.source ≠ none → l.source = top.source) ∧
        ((links c).view s top.source = none → (links c).view s l.source = none)) ∧
      (b = 0 ↔ ¬ ((links c).view s).SourceDangles) ∧
      (∀ y, y ≠ c.consts.any → ∃ M, (links c).Visits s [c.consts.any, 0, y] M ∧ M.length ≤ 1 ∧
        (links c).countBy s [c.consts.any, 0, y] = some M.length) ∧
      (∀ x, x ≠ c.consts.any → (links c).view s x ≠ none → ∃ M, (links c).Visits s [c.consts.any, x, 0] M ∧ M.length ≤ 1 ∧
        (links c).countBy s [c.consts.any, x, 0] = some M.length) ∧
      (∀ x, x ≠ 0 → x ≠ c.consts.any → (links c).view s x = none →
        (links c).countBy s [c.consts.any, x, 0] = (links c).countBy s [c.consts.any, x, c.consts.any]) := by
  obtain ⟨free, hi⟩ := reach_good hc h
  have ha := any_ne_null hc
  have hf : free ≠ [] := fun e => hg ((gapFree_iff hc hi).2 e)
  have htop := top_live hi hf
  have hu : isUnused s 0 = some false := by simpa [hf] using isUnused_null hi.base
  obtain ⟨u, hany⟩ := isUnused_some hi.base c.consts.any
  obtain ⟨-, L, n2, n3, n4, -, n6⟩ := null_sides hc hi
  obtain ⟨m1, m2, m3⟩ := n6 hf
  obtain ⟨a1, a2⟩ := null_src_count hi hf
  obtain ⟨b, b1, b2⟩ := null_tgt_count hi.toInv0
  have hcs : (links c).countBy s [c.consts.any, 0, c.consts.any] = intCount s .src 0 := by
    rw [countBy_three hc]; simp [count3, hu, hany, ha.symm]
  have hct : (links c).countBy s [c.consts.any, c.consts.any, 0] = intCount s .tgt 0 := by
    rw [countBy_three hc]; simp [count3, hu, hany, ha.symm]
  obtain ⟨a, ha1⟩ := intCount_any hi hf .src (.inl rfl)
  have hpair : ∀ x y, x ≠ c.consts.any → y ≠ c.consts.any → isUnused s x = some false →
      ∃ M, (links c).Visits s [c.consts.any, x, y] M ∧ M.length ≤ 1 ∧ (links c).countBy s [c.consts.any, x, y] = some M.length := by
    intro x y hx hy hux
    obtain ⟨vs, vt, k, h1, h2, h3, h4⟩ := pairSearch_any hc hi x y
    rw [hux] at h1
    cases h1
    refine ⟨_, pair_visits hc hi hx hy hux h2 h3 h4, by split <;> simp, ?_⟩
    rw [countBy_three hc]
    simp only [count3, hux, h2, h3, Option.bind_some, hx, hy, and_self, if_false, if_true, Bool.false_eq_true, Option.map_some, hc.null_eq]
    by_cases hk : k = 0 <;> simp [hk]
  refine ⟨s.linkAt s.hdr.allocated, L.map s.linkAt, a, b, (has_iff hc hi.toInv0 _).2 ⟨htop, rfl⟩, fun l hl => ?_, n2, hcs.trans ha1,
    hct.trans b1, ?_, fun e => ?_, fun e => ?_, ?_, fun y hy => hpair 0 y ha.symm hy hu, fun x hx hv => ?_, fun x h0 hx hv => ?_⟩
  · exact ((has_iff hc hi.toInv0 l).1 hl).1.2.1
  · show countLinks c s [c.consts.any, 0] = _
    simp [countLinks, hc.index_eq, hu, ha.symm, ha1, b1, cadd]
  · have e : (s.data s.hdr.allocated).1 = 0 := e
    rw [m2 e]
    refine ⟨rfl, ?_⟩
    have := a1 e
    rw [ha1] at this
    exact Option.some.inj this
  · have e : (s.data s.hdr.allocated).1 ≠ 0 := e
    obtain ⟨L', k1, k2, k3⟩ := a2 e
    have hv' : (links c).Visits s [c.consts.any, 0, c.consts.any] (L'.map s.linkAt) := fun σ hd st => by
      rw [← k1]
      simp [links, eachLinks, each3, hc.index_eq, hc.source_eq, hc.target_eq, hu, hany, ha.symm]
    have hLL := Links.Visits.unique n2 hv'
    rw [hLL]
    rw [ha1] at k2
    refine ⟨by rw [List.length_map]; exact Option.some.inj k2, fun l hl => ?_⟩
    obtain ⟨j, hj, rfl⟩ := List.mem_map.1 hl
    obtain ⟨q1, q2, q3, q4⟩ := k3 j hj
    refine ⟨q2, fun hv => q3 ((view_ne_none hc hi.toInv0).1 hv), fun hv => ?_⟩
    refine Classical.byContradiction fun hh => ?_
    exact q4 (fun hl => (view_ne_none hc hi.toInv0).2 hl hv) ((view_ne_none hc hi.toInv0).1 hh)
  · rw [b2, sourceDangles_iff hc hi.toInv0, Classical.not_not]
  · have hl := (view_ne_none hc hi.toInv0).1 hv
    have h0 : x ≠ 0 := by have := hl.1; omega
    exact hpair x 0 hx ha.symm (by rw [hi.net.unused h0 (hi.exact x)]; simp [hl])
  · have hl : ¬ LiveIn s free x := fun hl => (view_ne_none hc hi.toInv0).2 hl hv
    have hux : isUnused s x = some true := by rw [hi.net.unused h0 (hi.exact x)]; simp [hl]
    rw [countBy_three hc, countBy_three hc]
    simp [count3, hu, hux, hx, hany]

/-- The case without gaps is met by `sFull`: 1 = (0,0), 2 = (0,1), 3 = (1,2), 4 = (0,9), where three links have a null source. -/
example : Reach cfg0 sFull ∧ ((links cfg0).view sFull).GapFree ∧
    [[252, 0, 252], [252, 252, 0], [252, 0], [252, 0, 1], [252, 1, 0], [252, 9, 0]].map ((links cfg0).countBy sFull) =
      [some 0, some 0, some 0, some 0, some 0, some 0] :=
  ⟨sFull_reach, by
    obtain ⟨free, hi⟩ := reach_good cfg0_ok sFull_reach
    refine (gapFree_iff cfg0_ok hi).2 ?_
    have hf : sFull.hdr.firstFree = free.headD 0 := hi.base.list.first_eq
    have h0 : sFull.hdr.firstFree = 0 := by decide +kernel
    cases free with
    | nil => rfl
    | cons x r => exact absurd (h0.symm.trans hf).symm (hi.base.list.nonzero x (by simp)), by decide +kernel⟩

/-- The case with gaps is met by `sGap`, where the link of highest index, 4 = (0,9), has no source and is visited but not counted, and by `sNet`,
where that link is 6 = (5,3): two links are visited and counted, none of them with a null source, and the query for a null target counts 1 and
visits nothing. -/
example : Reach cfg0 sGap ∧ ¬ ((links cfg0).view sGap).GapFree ∧ Reach cfg0 sNet ∧ ¬ ((links cfg0).view sNet).GapFree ∧
    [[252, 0, 252], [252, 252, 0], [252, 0]].map ((links cfg0).countBy sGap) = [some 0, some 1, some 1] ∧
    (links cfg0).collect sGap [252, 0, 252] = some [⟨4, 0, 9⟩] ∧
    [[252, 0, 252], [252, 252, 0], [252, 0]].map ((links cfg0).countBy sNet) = [some 2, some 1, some 3] ∧
    [[252, 0, 252], [252, 252, 0]].map ((links cfg0).collect sNet) = [some [⟨6, 5, 3⟩, ⟨4, 9, 1⟩], some []] :=
  ⟨sGap_reach, fun h => h 1 2 (by decide +kernel) (by omega) (by omega) (by decide +kernel), sNet_reach,
    fun h => h 5 6 (by decide +kernel) (by omega) (by omega) (by decide +kernel), by decide +kernel, by decide +kernel, by decide +kernel,
    by decide +kernel⟩

end Verif.Split.Props
