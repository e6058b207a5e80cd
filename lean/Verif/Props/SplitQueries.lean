import Verif.Split.Example
import Verif.Props.UnitQueries
import Verif.Props.SplitWrites
import Verif.Compare

/-!
# Properties C31, C34, C45: queries on the split store, and the two stores compared

The counterexamples to the full statements are in `Props/SplitFindings.lean`.
-/

namespace Verif.Split.Props
open Verif Verif.Split
open Verif.Unit.Props (DoubleEnd visitsOf_match stAfter runH_spec)

variable {c : Cfg}

/-! ## C45 -/

/-- **C45** (partial: queries that do not ask for null ends, a link with `x` at both ends is visited twice by
`[any, x]`, one of several links with the same doublet). A traversal of a split store visits only links of the
store that match the query, and every one of them exactly once, with the two exceptions named. -/
theorem C45_split_traversal_partial (hc : CfgOK c) {s : Store} (h : Reach c s) (q : List Nat)
    (hq : q.length ≤ 3) (hn : NullFree c.consts.any q) :
    ∃ L, (links c).Visits s q L ∧
      (∀ l ∈ L, ((links c).view s).Has l ∧ MatchQ c.consts.any q l) ∧
      ∀ l, ((links c).view s).Has l → MatchQ c.consts.any q l →
        (¬ IsPair c.consts.any q → ¬ DoubleEnd c.consts.any q l → L.count l = 1) ∧
        (DoubleEnd c.consts.any q l → L.count l = 2) ∧
        (IsPair c.consts.any q → L.length = 1 ∧
          ((∀ l', ((links c).view s).Has l' → MatchQ c.consts.any q l' → l' = l) → L = [l])) := by
  obtain ⟨L, h1, -, h3, h4, h5, -⟩ := query_law hc (reach_good hc h) q hq hn
  refine ⟨L, h1, h3, fun l hl hm => ⟨fun hp hd => ?_, fun hd => ?_, fun hp => ?_⟩⟩
  · rw [h4 hp l hl]
    rcases visitsOf_match hm with ⟨e, -⟩ | ⟨-, hd'⟩
    · exact e
    · exact absurd hd' hd
  · have hp : ¬ IsPair c.consts.any q := by
      rintro ⟨x, y, e, -⟩
      obtain ⟨z, e', -⟩ := hd
      rw [e] at e'; cases e'
    rw [h4 hp l hl]
    rcases visitsOf_match hm with ⟨-, hd'⟩ | ⟨e, -⟩
    · exact absurd hd hd'
    · exact e
  · obtain ⟨h6, h7⟩ := h5 hp
    have h8 := h7 ⟨l, hl, hm⟩
    match L, h6, h8 with
    | [x], _, _ =>
      refine ⟨rfl, fun hu => ?_⟩
      have := h3 x (by simp)
      rw [hu x this.1 this.2]

/-- All kinds of queries on `sNet`, where 1 = (1,1), 2 = (1,3), 3 = (2,2), 4 = (9,1), 6 = (5,3), any = 252; 5 and 9
are not links. -/
example : Reach cfg0 sNet ∧ NullFree cfg0.consts.any [252, 5, 3] ∧
    [[], [252, 3], [252, 1, 3], [2, 252, 3], [252, 9, 252], [252, 5], [252, 5, 3], [252, 3, 5]].map
      ((links cfg0).collect sNet) =
    [some [⟨1, 1, 1⟩, ⟨2, 1, 3⟩, ⟨3, 2, 2⟩, ⟨4, 9, 1⟩, ⟨6, 5, 3⟩], some [⟨2, 1, 3⟩, ⟨6, 5, 3⟩],
     some [⟨2, 1, 3⟩], some [⟨2, 1, 3⟩], some [⟨4, 9, 1⟩], some [⟨6, 5, 3⟩], some [⟨6, 5, 3⟩], some []] :=
  ⟨sNet_reach, by intro _ x hx; simp at hx; omega, by decide +kernel⟩

/-- **C45**, early stop: there is one sequence of links, the same for all handlers, on which the handler is called in
turn. Either it continued on all of them and the call returns Continue, or it broke at some link: then it was not
called any more and the call returns the break. -/
theorem C45_split_traversal_stops_at_first_break (hc : CfgOK c) {s : Store} (h : Reach c s) (q : List Nat)
    (hq : q.length ≤ 3) (hn : NullFree c.consts.any q) :
    ∃ L : List Link, ∀ (σ ρ : Type) (hd : σ → Link → Ctl ρ × σ) (st : σ),
      ((∀ k (hk : k < L.length), (hd (stAfter hd st (L.take k)) L[k]).1 = .cont) ∧
        (links c).eachBy s q hd st = some (.cont, stAfter hd st L)) ∨
      ∃ (k : Nat) (hk : k < L.length) (x : ρ),
        (∀ j (hj : j < k), (hd (stAfter hd st (L.take j)) L[j]).1 = .cont) ∧
        (hd (stAfter hd st (L.take k)) L[k]).1 = .brk x ∧
        (links c).eachBy s q hd st = some (.brk x, stAfter hd st (L.take (k + 1))) := by
  obtain ⟨L, h1, -⟩ := query_law hc (reach_good hc h) q hq hn
  refine ⟨L, fun σ ρ hd st => ?_⟩
  rw [Links.eachBy_eq h1]
  rcases runH_spec hd L st with ⟨h2, h3⟩ | ⟨k, hk, x, h2, h3, h4⟩
  · exact .inl ⟨h2, by rw [h3]⟩
  · exact .inr ⟨k, hk, x, h2, h3, by rw [h4]⟩

/-- A handler that counts its calls and breaks at the third. -/
example : Reach cfg0 sNet ∧ (links cfg0).eachBy sNet [] (fun (n : Nat) (l : Link) =>
    (if n = 2 then Ctl.brk l.index else .cont, n + 1)) 0 = some (.brk 3, 3) := ⟨sNet_reach, by decide +kernel⟩

/-- **C45**, search: for a non-null source and target other than `any`, search returns a link with that source and
target if there is one (whether or not the source and target are links), and None otherwise. -/
theorem C45_split_search (hc : CfgOK c) {s : Store} (h : Reach c s) {x y : Nat} (hx : x ≠ 0) (hy : y ≠ 0)
    (hx' : x ≠ c.consts.any) (hy' : y ≠ c.consts.any) :
    ∃ r, (links c).search s x y = some r ∧
      (∀ i, r = some i → (links c).getLink s i = some (some ⟨i, x, y⟩)) ∧
      (r = none → ∀ i, (links c).getLink s i ≠ some (some ⟨i, x, y⟩)) ∧
      (∀ i, (links c).getLink s i = some (some ⟨i, x, y⟩) →
        (∀ j, (links c).getLink s j = some (some ⟨j, x, y⟩) → j = i) → r = some i) := by
  have hg := reach_good hc h
  have hget : ∀ i, (links c).getLink s i = some (some ⟨i, x, y⟩) ↔ (links c).view s i = some (x, y) := by
    intro i
    rw [(lawful hc).get s hg i]
    cases (links c).view s i with
    | none => simp
    | some p => rcases p with ⟨p1, p2⟩; simp
  obtain ⟨L, h1, h2, h3, h4⟩ := (lawful hc).each_pair s hg x y hx hx' hy hy'
  have hs : (links c).search s x y = some (L.head?.map (·.index)) := by
    simp only [Links.search, Links.find]
    rw [Links.eachBy_eq (q := [((links c).consts s).any, x, y]) h1]
    cases L <;> rfl
  match L, h2, h3, h4, hs with
  | [], _, _, h4, hs =>
    have hno : ∀ i, (links c).view s i ≠ some (x, y) := fun i hv => h4 ⟨i, hv⟩ rfl
    refine ⟨_, hs, by simp, fun _ i hi => hno i ((hget i).1 hi), fun i hi => absurd ((hget i).1 hi) (hno i)⟩
  | [l], _, h3, _, hs =>
    obtain ⟨g1, g2, g3⟩ := h3 l (by simp)
    have hl : (links c).view s l.index = some (x, y) := by rw [← g2, ← g3]; exact g1
    refine ⟨_, hs, ?_, by simp, ?_⟩
    · intro i hi
      cases hi
      exact (hget _).2 hl
    · intro i _ hu
      rw [← hu l.index ((hget _).2 hl)]; rfl
  | _ :: _ :: _, h2, _, _, _ => simp at h2

/-- Search among links (1,3), with a source that is no link (9,1) and (5,3), and misses. -/
example : Reach cfg0 sNet ∧ [(1, 3), (9, 1), (5, 3), (3, 1), (9, 9)].map
    (fun p => (links cfg0).search sNet p.1 p.2) =
      [some (some 2), some (some 4), some (some 6), some none, some none] := ⟨sNet_reach, by decide +kernel⟩

/-! ## C34 -/

/-- **C34** (partial: see `CountOK` and the counterexamples in `Props/SplitFindings.lean`). Whenever the count returns,
it returns the number of links the traversal with the same query visits, for queries without null ends, except:
one link and one end when exactly one end of the link matches; a source or end that is no link while there are
unused indices below a link and no source dangles; a source that is no link together with a target. -/
theorem C34_count_equals_visits_partial (hc : CfgOK c) {s : Store} (h : Reach c s) (q : List Nat)
    (hq : q.length ≤ 3) (hnf : NullFree c.consts.any q) (hok : CountOK c.consts.any ((links c).view s) q)
    {n : Nat} (hn : (links c).countBy s q = some n) :
    ∃ L, (links c).collect s q = some L ∧ L.length = n := by
  obtain ⟨L, h1, h2, -⟩ := query_law hc (reach_good hc h) q hq hnf
  refine ⟨L, Links.collect_eq h1, ?_⟩
  have := (h2 hok).symm.trans hn
  split at this
  · cases this; rfl
  · cases this

example : Reach cfg0 sNet ∧ CountOK cfg0.consts.any ((links cfg0).view sNet) [252, 1] ∧
    CountOK cfg0.consts.any ((links cfg0).view sNet) [252, 9, 252] ∧
    [[], [252, 1], [252, 9, 252], [252, 252, 3], [3, 2]].map ((links cfg0).countBy sNet) =
      [some 5, some 4, some 1, some 2, some 1] := by
  refine ⟨sNet_reach, ⟨fun h => absurd rfl h, fun _ _ => .inl ?_⟩, fun _ _ => .inr ⟨rfl, .inl ?_⟩, by decide +kernel⟩
  · decide +kernel
  · exact ⟨4, 9, 1, by decide +kernel, by decide, by decide +kernel⟩

/-! ## C31 -/

/-- Two traversals that visit only links of the same contents, the same number of times each. -/
theorem perm_of_counts {v : View} {L M : List Link} {n : Link → Nat} (hL : ∀ l ∈ L, v.Has l)
    (hM : ∀ l ∈ M, v.Has l) (h1 : ∀ l, v.Has l → L.count l = n l) (h2 : ∀ l, v.Has l → M.count l = n l) :
    L.Perm M := by
  rw [List.perm_iff_count]
  intro l
  by_cases hl : v.Has l
  · rw [h1 l hl, h2 l hl]
  · rw [List.count_eq_zero_of_not_mem fun h => hl (hL l h), List.count_eq_zero_of_not_mem fun h => hl (hM l h)]

/-- **C31** (partial: queries that ask for null ends, and counts outside `CountOK`, differ). A united and a split store
with the same limit that served the same calls, neither running out of memory, returned the same results to all
of them, have the same links at the same indices and the same number of links; any query without null ends visits
the same links the same number of times (for a source and a target: one of the links with that doublet, if any,
so the same if doublets are unique); counts and searches agree. -/
theorem C31_split_and_united_agree_partial {cU : Verif.Unit.Cfg} (hU : Verif.Unit.CfgOK cU) (hc : CfgOK c)
    (hlim : cU.consts.internalEnd = c.consts.internalEnd) (hany : cU.consts.any = c.consts.any)
    {sU : Verif.Unit.Store} {s : Store} {trU tr : List (Call × Except Err Nat)}
    (h1 : Verif.Unit.History cU sU trU) (h2 : History c s tr) (hcalls : trU.map Prod.fst = tr.map Prod.fst)
    (hf1 : ∀ x ∈ trU, x.2 ≠ .error .allocFailed) (hf2 : ∀ x ∈ tr, x.2 ≠ .error .allocFailed) :
    trU = tr ∧
    (∀ i, (Verif.Unit.links cU).getLink sU i = (links c).getLink s i) ∧
    (∃ n, (Verif.Unit.links cU).count sU = some n ∧ (links c).count s = some n) ∧
    (∀ q, q.length ≤ 3 → NullFree c.consts.any q → ∃ L M,
      (Verif.Unit.links cU).Visits sU q L ∧ (links c).Visits s q M ∧ L.length = M.length ∧
      (¬ IsPair c.consts.any q ∨ ((links c).view s).Uniq → L.Perm M)) ∧
    (∀ q, q.length ≤ 3 → NullFree c.consts.any q → CountOK c.consts.any ((links c).view s) q →
      cU.maxT = c.maxT → (Verif.Unit.links cU).countBy sU q = (links c).countBy s q) ∧
    (∀ x y, x ≠ 0 → y ≠ 0 → x ≠ c.consts.any → y ≠ c.consts.any → ((links c).view s).Uniq →
      (Verif.Unit.links cU).search sU x y = (links c).search s x y) := by
  have htr : trU = tr := Determined.unique (Verif.Unit.history_determined hU h1)
    (by rw [hlim]; exact history_determined hc h2) hf1 hf2 hcalls
  subst htr
  obtain ⟨i1, -⟩ := Verif.Unit.history_inv hU h1
  obtain ⟨i2, -⟩ := history_inv hc h2
  obtain ⟨⟨ts, tt, iu⟩, -, v1, -⟩ := i1
  have g1 : Verif.Unit.Good cU sU := ⟨_, _, _, iu⟩
  have g2 : Good c s := ⟨_, i2.inv⟩
  have hv : (Verif.Unit.links cU).view sU = (links c).view s := v1.trans i2.view.symm
  have hq0 : ∀ q, q.length ≤ 3 → NullFree c.consts.any q → ∃ L M,
      (Verif.Unit.links cU).Visits sU q L ∧ (links c).Visits s q M ∧ L.length = M.length ∧
      (¬ IsPair c.consts.any q ∨ ((links c).view s).Uniq → L.Perm M) ∧
      (Verif.Unit.countLinks cU sU q = if L.length ≤ cU.maxT then some L.length else none) ∧
      (CountOK c.consts.any ((links c).view s) q →
        countLinks c s q = if M.length ≤ c.maxT then some M.length else none) := by
    intro q hq hn
    obtain ⟨L, a1, a2, a3, a4, a5, -⟩ := Verif.Unit.query_law hU g1 q hq
    obtain ⟨M, b1, b2, b3, b4, b5, -⟩ := query_law hc g2 q hq hn
    rw [hany] at a3 a4 a5
    rw [hv] at a3 a4 a5
    have hnp : ¬ IsPair c.consts.any q → L.Perm M := fun hp =>
      perm_of_counts (fun l hl => (a3 l hl).1) (fun l hl => (b3 l hl).1) (a4 hn hp) (b4 hp)
    by_cases hp : IsPair c.consts.any q
    · obtain ⟨a6, a7⟩ := a5 hp
      obtain ⟨b6, b7⟩ := b5 hp
      obtain ⟨x, y, rfl, hx, hy⟩ := hp
      have hx0 : x ≠ 0 := hn rfl x (by simp)
      match L, M, a3, b3, a6, b6 with
      | [], [], _, _, _, _ => exact ⟨[], [], a1, b1, rfl, fun _ => .nil, a2, b2⟩
      | [], m :: _, _, b3, _, _ => exact absurd rfl (a7 hn ⟨m, b3 m (by simp)⟩)
      | l :: _, [], a3, _, _, _ => exact absurd rfl (b7 ⟨l, a3 l (by simp)⟩)
      | [l], [m], a3, b3, _, _ =>
        refine ⟨[l], [m], a1, b1, rfl, ?_, a2, b2⟩
        rintro (hnp | hu)
        · exact absurd ⟨x, y, rfl, hx, hy⟩ hnp
        · obtain ⟨l1, l2⟩ := a3 l (by simp)
          obtain ⟨m1, m2⟩ := b3 m (by simp)
          have l3 := l2.2.1.resolve_left hx
          have l4 := l2.2.2.resolve_left hy
          have m3 := m2.2.1.resolve_left hx
          have m4 := m2.2.2.resolve_left hy
          unfold View.Has at l1 m1
          rw [l3, l4] at l1
          rw [m3, m4] at m1
          have := hu m.index _ m1 (by simp [hx0]) l.index l1
          have : l = m := by cases l; cases m; simp_all
          rw [this]
      | _ :: _ :: _, _, _, _, a6, _ => simp at a6
      | _, _ :: _ :: _, _, _, _, b6 => simp at b6
    · exact ⟨L, M, a1, b1, (hnp hp).length_eq, fun _ => hnp hp, a2, b2⟩
  refine ⟨rfl, fun i => ?_, ?_, ?_, ?_, ?_⟩
  · rw [(Verif.Unit.lawful hU).get sU g1, (lawful hc).get s g2, hv]
  · obtain ⟨L, M, a1, b1, e, -⟩ := hq0 [] (by simp) (by intro h; cases h)
    exact ⟨L.length, (Verif.Unit.lawful hU).count_all sU g1 L a1, by rw [e]; exact (lawful hc).count_all s g2 M b1⟩
  · intro q hq hn
    obtain ⟨L, M, a1, a2, a3, a4, -⟩ := hq0 q hq hn
    exact ⟨L, M, a1, a2, a3, a4⟩
  · intro q hq hn hok hmax
    obtain ⟨L, M, -, -, a3, -, a5, a6⟩ := hq0 q hq hn
    show Verif.Unit.countLinks cU sU q = countLinks c s q
    rw [a5, a6 hok, a3, hmax]
  · intro x y hx hy hx' hy' hu
    obtain ⟨L, M, a1, a2, a3, a4, -⟩ := hq0 [c.consts.any, x, y] (by simp)
      (by intro _ z hz; simp at hz; rcases hz with rfl | rfl <;> assumption)
    have hp := a4 (.inr hu)
    have hl : M.length ≤ 1 := by
      obtain ⟨M', b1, b2, -⟩ := (lawful hc).each_pair s g2 x y hx hx' hy hy'
      rw [a2.unique b1]; exact b2
    have hLM : L = M := by
      match M, hp, hl with
      | [], hp, _ => exact hp.eq_nil
      | [m], hp, _ => exact List.perm_singleton.1 hp
      | _ :: _ :: _, _, hl => simp at hl
    have e1 : [((Verif.Unit.links cU).consts sU).any, x, y] = [c.consts.any, x, y] := by
      rw [← hany]; rfl
    simp only [Links.search, Links.find]
    rw [e1, Links.eachBy_eq a1]
    rw [Links.eachBy_eq (D := links c) (q := [((links c).consts s).any, x, y]) a2, hLM]

/-- The fourteen calls that build the network on both stores. -/
example : Verif.Unit.History Verif.Unit.cfg0 Verif.Unit.sNet (Verif.Unit.trace Verif.Unit.cfg0 Verif.Unit.net) ∧
    History cfg0 sNetU (trace cfg0 Verif.Unit.net) ∧
    (Verif.Unit.trace Verif.Unit.cfg0 Verif.Unit.net).map Prod.fst = (trace cfg0 Verif.Unit.net).map Prod.fst ∧
    (∀ x ∈ Verif.Unit.trace Verif.Unit.cfg0 Verif.Unit.net, x.2 ≠ .error .allocFailed) ∧
    (∀ x ∈ trace cfg0 Verif.Unit.net, x.2 ≠ .error .allocFailed) ∧
    cfg0.consts.internalEnd = Verif.Unit.cfg0.consts.internalEnd ∧ cfg0.consts.any = Verif.Unit.cfg0.consts.any :=
  ⟨Verif.Unit.sNet_history, sNetU_history, by decide +kernel⟩

end Verif.Split.Props
