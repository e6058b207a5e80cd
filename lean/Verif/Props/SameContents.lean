import Verif.Props.SplitCounts
import Verif.Props.Exact
import Verif.Props.Cost
import Verif.Props.UnitDerived

/-!
# C74: what a read returns is determined by the contents, and the order in which the split store visits
-/

namespace Verif

/-- Two lists of matching links in which every link occurs equally often. -/
theorem perm_of_count {L L' : List Link} (h : ∀ l, L.count l = L'.count l) : L.Perm L' :=
  List.perm_iff_count.2 h

/-- At most one matching link: two lists of matching links of the same length are the same. -/
theorem eq_of_single {L L' : List Link} {P : Link → Prop} (hu : ∀ l l', P l → P l' → l = l') (h : ∀ l ∈ L, P l)
    (h' : ∀ l ∈ L', P l) (hl : L.length = L'.length) : L = L' := by
  refine List.ext_getElem hl fun i h1 h2 => hu _ _ (h _ (List.getElem_mem h1)) (h' _ (List.getElem_mem h2))

end Verif

namespace Verif.Unit.Props
open Verif Verif.Unit

variable {c c' : Cfg}

/-- With unique doublets a query for a source and a target, not both null, matches at most one link. -/
theorem uniq_pair {v : View} (hu : v.Uniq) {any : Nat} {q : List Nat} (hp : IsPair any q) (hn : ¬ NullAsk any q)
    {l l' : Link} (hl : v.Has l) (hm : MatchQ any q l) (hl' : v.Has l') (hm' : MatchQ any q l') : l = l' := by
  obtain ⟨x, y, rfl, hx, hy⟩ := hp
  have hx0 : x ≠ 0 := fun e => hn (.inr (.inr ⟨y, by rw [e]⟩))
  have a1 := hm.2.1.resolve_left hx
  have a2 := hm.2.2.resolve_left hy
  have b1 := hm'.2.1.resolve_left hx
  have b2 := hm'.2.2.resolve_left hy
  obtain ⟨i, a, b⟩ := l
  obtain ⟨j, a', b'⟩ := l'
  simp only at a1 a2 b1 b2
  subst a1 a2 b1 b2
  have : j = i := hu i _ hl (by simp [hx0]) j hl'
  subst this
  rfl

/-- **C74**, united store. Two stores (whatever their memories, tree crates and histories) with the same contents, no two
links of which have the same doublet, answer every query alike: the traversals visit the same links equally often, and the
counts are the same. -/
theorem C74_same_contents_same_answers (hc : CfgOK c) (hc' : CfgOK c') (hk : c'.consts = c.consts) (hT : c'.maxT = c.maxT)
    {s s' : Store} (h : Reach c s) (h' : Reach c' s') (hv : (links c).view s = (links c').view s')
    (hu : ((links c).view s).Uniq) (q : List Nat) (hq : q.length ≤ 3) :
    (∃ L L', (links c).Visits s q L ∧ (links c').Visits s' q L' ∧ L.Perm L') ∧
    (links c).countBy s q = (links c').countBy s' q := by
  obtain ⟨L, a1, a2, a3, a4⟩ := C58_traversal_exact hc h q hq
  obtain ⟨L', b1, b2, b3, b4⟩ := C58_traversal_exact hc' h' q hq
  rw [hk, ← hv] at b2
  rw [hk] at b3
  rw [hk, ← hv] at b4
  have hp : L.Perm L' := by
    by_cases hn : NullAsk c.consts.any q
    · rw [a3 hn, b3 hn]
    · have a4 := a4 hn
      have b4 := b4 hn
      by_cases hpair : IsPair c.consts.any q
      · by_cases hex : ∃ l, ((links c).view s).Has l ∧ MatchQ c.consts.any q l
        · obtain ⟨l, hl, hm⟩ := hex
          refine List.Perm.of_eq (eq_of_single
            (P := fun l => ((links c).view s).Has l ∧ MatchQ c.consts.any q l)
            (fun l l' x y => uniq_pair hu hpair hn x.1 x.2 y.1 y.2) a2 b2 ?_)
          rw [(a4 l hl hm).1 hpair, (b4 l hl hm).1 hpair]
        · rw [List.eq_nil_iff_forall_not_mem.2 fun l hl => hex ⟨l, a2 l hl⟩,
            List.eq_nil_iff_forall_not_mem.2 fun l hl => hex ⟨l, b2 l hl⟩]
      · refine perm_of_count fun l => ?_
        by_cases hl : ((links c).view s).Has l ∧ MatchQ c.consts.any q l
        · obtain ⟨-, x2, x3⟩ := a4 l hl.1 hl.2
          obtain ⟨-, y2, y3⟩ := b4 l hl.1 hl.2
          by_cases hd : DoubleEnd c.consts.any q l
          · rw [x2 hd, y2 hd]
          · rw [x3 hpair hd, y3 hpair hd]
        · rw [List.count_eq_zero_of_not_mem fun hm => hl (a2 l hm),
            List.count_eq_zero_of_not_mem fun hm => hl (b2 l hm)]
  refine ⟨⟨L, L', a1, b1, hp⟩, ?_⟩
  obtain ⟨M, k1, k2, -⟩ := query_law hc (reach_good hc h) q hq
  obtain ⟨M', k1', k2', -⟩ := query_law hc' (reach_good hc' h') q hq
  have e := Links.Visits.unique k1 a1
  have e' := Links.Visits.unique k1' b1
  subst e e'
  show countLinks c s q = countLinks c' s' q
  rw [k2, k2', hT, hp.length_eq]

/-- **C74**, searches. -/
theorem C74_same_contents_same_search (hc : CfgOK c) (hc' : CfgOK c') (hk : c'.consts = c.consts)
    {s s' : Store} (h : Reach c s) (h' : Reach c' s') (hv : (links c).view s = (links c').view s')
    (hu : ((links c).view s).Uniq) {x y : Nat} (hx : x ≠ 0) (hx' : x ≠ c.consts.any) (hy' : y ≠ c.consts.any) :
    (links c).search s x y = (links c').search s' x y := by
  have hget : ∀ i, (links c).getLink s i = (links c').getLink s' i := fun i => by
    rw [(lawful hc).get s (reach_good hc h), (lawful hc').get s' (reach_good hc' h'), hv]
  obtain ⟨r, e, a1, a2, a3⟩ := C12_search hc h hx hx' hy'
  obtain ⟨r', e', b1, b2, b3⟩ := C12_search hc' h' hx (by rw [hk]; exact hx') (by rw [hk]; exact hy')
  rw [e, e']
  cases r' with
  | none =>
    cases r with
    | none => rfl
    | some i => exact absurd ((hget i).symm.trans (a1 i rfl)) (b2 rfl i)
  | some i =>
    have hi := b1 i rfl
    rw [← hget] at hi
    refine congrArg some (a3 i hi fun j hj => ?_)
    have hh : ∀ k, (links c).getLink s k = some (some ⟨k, x, y⟩) → (links c).view s k = some (x, y) := fun k hk => by
      simp [Links.view, hk]
    exact hu i _ (hh i hi) (by simp [hx]) j (hh j hj)

end Verif.Unit.Props

namespace Verif

/-- Two concrete stores have the same contents. -/
theorem view_eq_of_collect {S S' : Type} {D : Links S} {D' : Links S'} {W : Lawful D} {W' : Lawful D'} {s : S} {s' : S'}
    (hs : W.Inv s) (hs' : W'.Inv s') (h1 : (D.collect s []).map (·.all fun l => D'.view s' l.index == some (l.source, l.target)) =
      some true) (h2 : (D'.collect s' []).map (·.all fun l => D.view s l.index == some (l.source, l.target)) = some true) :
    D.view s = D'.view s' := by
  funext i
  cases hv : D.view s i with
  | none =>
    cases hv' : D'.view s' i with
    | none => rfl
    | some p =>
      have := forall_of_collect W' hs' h2 (j := i) (x := p.1) (y := p.2) hv'
      simp [hv] at this
  | some p =>
    have := forall_of_collect W hs h1 (j := i) (x := p.1) (y := p.2) hv
    exact (by simpa using this : D'.view s' i = some p).symm

theorem View.Counts.unique {v : View} {P : Link → Prop} {n m : Nat} (h : v.Counts P n) (h' : v.Counts P m) : n = m := by
  obtain ⟨L, a1, rfl, a3⟩ := h
  obtain ⟨M, b1, rfl, b3⟩ := h'
  exact (List.Perm.length_eq ((List.perm_ext_iff_of_nodup a1 b1).2 fun l => (a3 l).trans (b3 l).symm))

theorem View.SourceCount.unique {v : View} {f x n m : Nat} (h : v.SourceCount f x n) (h' : v.SourceCount f x m) : n = m := by
  by_cases hx : v x = none ∧ ¬ v.SourceDangles
  · rw [h.1 hx, h'.1 hx]
  · have : v x ≠ none ∨ v.SourceDangles := by
      by_cases h1 : v x = none
      · exact .inr (Classical.byContradiction fun h2 => hx ⟨h1, h2⟩)
      · exact .inl h1
    exact (h.2 this).unique (h'.2 this)

theorem View.SplitCount.unique {v : View} {any f : Nat} {q : List Nat} {n m : Nat} (h : v.SplitCount any f q n)
    (h' : v.SplitCount any f q m) : n = m := by
  match q with
  | [] => exact View.Counts.unique h h'
  | [i] => exact View.Counts.unique h h'
  | [i, x] =>
    simp only [View.SplitCount] at h h'
    split at h
    · next e => rw [if_pos e] at h'; exact h.unique h'
    · next e =>
      rw [if_neg e] at h'
      split at h
      · next e =>
        rw [if_pos e] at h'
        obtain ⟨a, b, h1, h2, rfl⟩ := h
        obtain ⟨a', b', h1', h2', rfl⟩ := h'
        rw [h1.unique h1', h2.unique h2']
      · next e => rw [if_neg e] at h'; exact h.unique h'
  | [i, x, y] =>
    simp only [View.SplitCount] at h h'
    split at h
    · next e => rw [if_pos e] at h'; exact h.unique h'
    · next e =>
      rw [if_neg e] at h'
      split at h
      · next e => rw [if_pos e] at h'; rw [h, h']
      · next e => rw [if_neg e] at h'; exact h.unique h'
  | _ :: _ :: _ :: _ :: _ => exact View.Counts.unique h h'

end Verif

namespace Verif.Unit.Props
open Verif Verif.Unit

/-- Three links with source 1, set in two orders, the second time with another crate. -/
def sUp : Store := runs cfg0 [.create, .create, .create, .update 1 1 1, .update 2 1 2, .update 3 1 3]
def sDown : Store := runs cfgBal [.create, .create, .create, .create, .update 3 1 3, .update 2 1 2, .delete 4, .update 1 1 1]

theorem sUp_reach : Reach cfg0 sUp := runs_reach (by decide +kernel)

theorem sDown_reach : Reach cfgBal sDown := by
  have h : (exec cfgBal [.create, .create, .create, .create, .update 3 1 3, .update 2 1 2, .delete 4, .update 1 1 1]
    (store0 cfgBal)).isSome = true := by decide +kernel
  obtain ⟨r, hr⟩ := Option.isSome_iff_exists.1 h
  have e : sDown = r.1 := by unfold sDown runs; rw [hr]; rfl
  rw [e]
  exact exec_reach cfgBal_ok cfgBal_ok.alloc_ge _ (store0_reach cfgBal_ok.alloc_ge rfl) hr

theorem sUp_view : (links cfg0).view sUp = (links cfgBal).view sDown :=
  view_eq_of_collect (W := reachLawful cfg0_ok) (W' := reachLawful cfgBal_ok) sUp_reach sDown_reach
    (by decide +kernel) (by decide +kernel)

theorem sUp_uniq : ((links cfg0).view sUp).Uniq := uniq_of_check sUp_reach (by decide +kernel)

/-- Both theorems on these stores. -/
example : (links cfg0).countBy sUp [cfg0.consts.any, 1] = (links cfgBal).countBy sDown [cfg0.consts.any, 1] ∧
    (links cfg0).countBy sUp [cfg0.consts.any, 1] = some 4 ∧
    (links cfg0).search sUp 1 3 = (links cfgBal).search sDown 1 3 ∧ (links cfg0).search sUp 1 3 = some (some 3) :=
  ⟨(C74_same_contents_same_answers cfg0_ok cfgBal_ok rfl rfl sUp_reach sDown_reach sUp_view sUp_uniq _ (by decide)).2,
    by decide +kernel,
    C74_same_contents_same_search cfg0_ok cfgBal_ok rfl sUp_reach sDown_reach sUp_view sUp_uniq (by decide) (by decide)
      (by decide), by decide +kernel⟩

/-- The order of the visits is not determined by the contents: it follows the shape of the trees. -/
theorem C74_order_is_not_determined : Reach cfg0 sUp ∧ Reach cfgBal sDown ∧
    (links cfg0).view sUp = (links cfgBal).view sDown ∧
    ((links cfg0).collect sUp [cfg0.consts.any, 1, cfg0.consts.any]).map (·.map (·.index)) = some [1, 2, 3] ∧
    ((links cfgBal).collect sDown [cfg0.consts.any, 1, cfg0.consts.any]).map (·.map (·.index)) = some [2, 1, 3] :=
  ⟨sUp_reach, sDown_reach, sUp_view, by decide +kernel, by decide +kernel⟩

end Verif.Unit.Props

namespace Verif.Split.Props
open Verif Verif.Split

variable {c c' : Cfg}

/-- **C74**, split store, queries that do not ask for null ends over all links. Traversals of stores with the same contents
visit the same links equally often. -/
theorem C74_split_same_contents_same_links (hc : CfgOK c) (hc' : CfgOK c') (hk : c'.consts = c.consts)
    {s s' : Store} (h : Reach c s) (h' : Reach c' s') (hv : (links c).view s = (links c').view s')
    (hu : ((links c).view s).Uniq) (q : List Nat) (hq : q.length ≤ 3) (hn : NullFree c.consts.any q) :
    ∃ L L', (links c).Visits s q L ∧ (links c').Visits s' q L' ∧ L.Perm L' := by
  obtain ⟨L, a1, -, a3, a4, a5, -⟩ := query_law hc (reach_good hc h) q hq hn
  obtain ⟨L', b1, -, b3, b4, b5, -⟩ := query_law hc' (reach_good hc' h') q hq (by rw [hk]; exact hn)
  rw [hk, ← hv] at b3 b4 b5
  refine ⟨L, L', a1, b1, ?_⟩
  by_cases hpair : IsPair c.consts.any q
  · obtain ⟨a5, a6⟩ := a5 hpair
    obtain ⟨b5, b6⟩ := b5 hpair
    by_cases hex : ∃ l, ((links c).view s).Has l ∧ MatchQ c.consts.any q l
    · have hna : ¬ Unit.Props.NullAsk c.consts.any q := by
        obtain ⟨x, y, rfl, hx, hy⟩ := hpair
        have hx0 : x ≠ 0 := hn rfl x (by simp)
        rintro (e | e | ⟨z, e⟩)
        · cases e
        · cases e; exact hx rfl
        · cases e; exact hx0 rfl
      refine List.Perm.of_eq (eq_of_single
        (P := fun l => ((links c).view s).Has l ∧ MatchQ c.consts.any q l)
        (fun l l' x y => Unit.Props.uniq_pair hu hpair hna x.1 x.2 y.1 y.2) a3 b3 ?_)
      have := List.length_pos_iff.2 (a6 hex)
      have := List.length_pos_iff.2 (b6 hex)
      omega
    · rw [List.eq_nil_iff_forall_not_mem.2 fun l hl => hex ⟨l, a3 l hl⟩,
        List.eq_nil_iff_forall_not_mem.2 fun l hl => hex ⟨l, b3 l hl⟩]
  · refine perm_of_count fun l => ?_
    by_cases hl : ((links c).view s).Has l
    · rw [a4 hpair l hl, b4 hpair l hl]
    · rw [List.count_eq_zero_of_not_mem fun hm => hl (a3 l hm).1,
        List.count_eq_zero_of_not_mem fun hm => hl (b3 l hm).1]

/-- **C74**, split store: counts of stores with the same contents are the same, if the same index would be created next or if
no index below a link is unused. -/
theorem C74_split_same_contents_same_counts_partial (hc : CfgOK c) (hc' : CfgOK c') (hk : c'.consts = c.consts)
    (hT : c'.maxT = c.maxT) {s s' : Store} (h : Reach c s) (h' : Reach c' s') (hv : (links c).view s = (links c').view s')
    (hnext : ((links c).view s).GapFree ∨ ∃ i t t', (links c).create s = some ⟨.ok i, t, ()⟩ ∧
      (links c').create s' = some ⟨.ok i, t', ()⟩)
    (q : List Nat) (hq : q.length ≤ 3) (hn : NullFree c.consts.any q) :
    (links c).countBy s q = (links c').countBy s' q := by
  obtain ⟨f, a1, a2, a3⟩ := C73_split_count hc h
  obtain ⟨f', b1, b2, b3⟩ := C73_split_count hc' h'
  rw [← hv] at b1 b2
  have hf : f = f' := by
    by_cases hg : ((links c).view s).GapFree
    · rw [a1 hg, b1 hg]
    · obtain ⟨i, t, t', e, e'⟩ := hnext.resolve_left hg
      obtain ⟨u, a2⟩ := a2 hg
      obtain ⟨u', b2⟩ := b2 hg
      rw [e] at a2
      rw [e'] at b2
      cases a2
      cases b2
      rfl
  subst hf
  obtain ⟨n, n1, n2⟩ := a3 q hq hn
  obtain ⟨m, m1, m2⟩ := b3 q hq (by rw [hk]; exact hn)
  rw [hk, ← hv] at m1
  rw [n2, m2, n1.unique m1, hT]

/-- Two ways to a store with link 3 only: 1 and 2 deleted in either order. -/
def sOrder1 : Store := runs cfg0 [.create, .create, .create, .delete 1, .delete 2]
def sOrder2 : Store := runs cfg0 [.create, .create, .create, .delete 2, .delete 1]

theorem sOrder1_reach : Reach cfg0 sOrder1 := runs_reach (by decide +kernel)
theorem sOrder2_reach : Reach cfg0 sOrder2 := runs_reach (by decide +kernel)

theorem sOrder_view : (links cfg0).view sOrder1 = (links cfg0).view sOrder2 :=
  view_eq_of_collect (W := reachLawful cfg0_ok) (W' := reachLawful cfg0_ok) sOrder1_reach sOrder2_reach
    (by decide +kernel) (by decide +kernel)

/-- **C74** is false for counts of the split store in general: two stores with the same contents report different numbers of
links with source 9. -/
theorem C74_split_count_depends_on_history : Reach cfg0 sOrder1 ∧ Reach cfg0 sOrder2 ∧
    (links cfg0).view sOrder1 = (links cfg0).view sOrder2 ∧
    (links cfg0).countBy sOrder1 [cfg0.consts.any, 9, cfg0.consts.any] = some 2 ∧
    (links cfg0).countBy sOrder2 [cfg0.consts.any, 9, cfg0.consts.any] = some 1 :=
  ⟨sOrder1_reach, sOrder2_reach, sOrder_view, by decide +kernel, by decide +kernel⟩

/-- **C74**, order. A traversal of a split store by an existing source visits in ascending order of targets. -/
theorem C74_split_order_by_source (hc : CfgOK c) {s : Store} (h : Reach c s) {x : Nat} (hx : (links c).view s x ≠ none) :
    ∃ L, (links c).Visits s [c.consts.any, x, c.consts.any] L ∧ L.Nodup ∧
      (∀ l, l ∈ L ↔ ((links c).view s).Has l ∧ l.source = x) ∧ L.Pairwise fun l l' => l.target ≤ l'.target := by
  obtain ⟨free, hi⟩ := reach_good hc h
  have hl := (view_ne_none hc hi.toInv0).1 hx
  have h0 : x ≠ 0 := by have := hl.1; omega
  have hxa : x ≠ c.consts.any := by
    have := hl.2.1; have := hi.net.base.alloc_le; have := hc.end_lt_any; omega
  obtain ⟨ti, te, f1, f2, f3, f4, f5, f6, f7⟩ := hi.net.forest .src
  obtain ⟨hrep, hsz⟩ := hi.net.tree_facts (f1 x h0) fun k hk => Or.inl ((f3 x k h0).1 hk).1
  have hlt := hi.net.base.alloc_lt
  have hun := hi.net.unused h0 (hi.exact x)
  obtain ⟨b, hany⟩ := isUnused_some hi.net.base c.consts.any
  refine ⟨(ti x).toList.map s.linkAt, fun σ hd st => ?_, ?_, fun l => ?_, ?_⟩
  · have e : eachLinks c s [c.consts.any, x, c.consts.any] hd st = intEach s .src x hd st := by
      simp [eachLinks, each3, hc.index_eq, hc.source_eq, hc.target_eq, hun, hany, hl, hxa]
    show eachLinks c s [c.consts.any, x, c.consts.any] hd st = _
    rw [e]
    simp only [intEach, iroot_eq h0 (live_lt hi.net.base hl), Option.bind_some]
    exact eachInorder_eq hd _ _ _ st hrep (by omega)
  · refine List.Pairwise.map _ (fun a b (hab : a ≠ b) => ?_) (f1 x h0).nodup
    exact fun e => hab (congrArg Link.index e)
  · rw [List.mem_map, has_iff hc hi.toInv0]
    constructor
    · rintro ⟨k, hk, rfl⟩
      obtain ⟨k1, k2⟩ := (f3 x k h0).1 hk
      exact ⟨⟨k1.1, rfl⟩, k2⟩
    · rintro ⟨⟨h1, h2⟩, h3⟩
      have h4 : (s.data l.index).1 = x := by rw [← h3, h2]; rfl
      exact ⟨l.index, (f3 x _ h0).2 ⟨⟨h1, by rw [show endOf .src (s.data l.index) = x from h4]; exact h0,
        by rw [show endOf .src (s.data l.index) = x from h4]; exact hl⟩, h4⟩, h2.symm⟩
  · rw [List.pairwise_map]
    refine (f1 x h0).ordered.imp fun {a b} hab => ?_
    exact Nat.not_lt.1 (of_decide_eq_false hab)

/-- On `sNetU` the links with source 1 are 1 = (1,1) and 2 = (1,3). -/
example : ∃ L, (links cfg0).Visits sNetU [cfg0.consts.any, 1, cfg0.consts.any] L ∧
    L.Pairwise (fun l l' => l.target ≤ l'.target) ∧ ⟨2, 1, 3⟩ ∈ L := by
  obtain ⟨L, h1, -, h3, h4⟩ := C74_split_order_by_source cfg0_ok sNetU_reach (x := 1) (by decide +kernel)
  exact ⟨L, h1, h4, (h3 _).2 ⟨show (links cfg0).view sNetU 2 = some (1, 3) by decide +kernel, rfl⟩⟩

/-- Two histories with the same contents and the same next index. -/
def sAgain : Store := runs cfg0 (Verif.Unit.net ++ [.update 4 6 6, .update 2 4 3, .update 2 1 3, .update 4 0 0])

theorem sAgain_reach : Reach cfg0 sAgain := runs_reach (by decide +kernel)

theorem sAgain_view : (links cfg0).view sNetU = (links cfg0).view sAgain :=
  view_eq_of_collect (W := reachLawful cfg0_ok) (W' := reachLawful cfg0_ok) sNetU_reach sAgain_reach
    (by decide +kernel) (by decide +kernel)

example := C74_split_same_contents_same_links cfg0_ok cfg0_ok rfl sNetU_reach sAgain_reach sAgain_view
  (uniq_of_collect (W := reachLawful cfg0_ok) sNetU_reach (by decide +kernel)) [252, 3] (by decide)
  (by intro _ x hx; simp at hx; omega)

example : (links cfg0).countBy sNetU [252, 9, 252] = (links cfg0).countBy sAgain [252, 9, 252] := by
  have hr : ∀ s, ((links cfg0).create s).map (fun o => o.res) = some (.ok 5) →
      ∃ t, (links cfg0).create s = some ⟨.ok 5, t, ()⟩ := by
    intro s hs
    cases h : (links cfg0).create s with
    | none => rw [h] at hs; cases hs
    | some o =>
      obtain ⟨r, st, hh⟩ := o
      rw [h] at hs
      simp only [Option.map_some, Option.some.injEq] at hs
      subst hs
      exact ⟨st, rfl⟩
  obtain ⟨t, h1⟩ := hr sNetU (by decide +kernel)
  obtain ⟨t', h2⟩ := hr sAgain (by decide +kernel)
  exact C74_split_same_contents_same_counts_partial cfg0_ok cfg0_ok rfl rfl sNetU_reach sAgain_reach sAgain_view
    (.inr ⟨5, t, t', h1, h2⟩) _ (by decide) (by intro _ x hx; simp at hx; omega)

end Verif.Split.Props
