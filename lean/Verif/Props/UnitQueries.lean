import Verif.Unit.Example
import Verif.Unit.CreateCases
import Verif.Props.UnitWrites

/-!
# Properties C09–C12, C14, C39: queries on the united store, absence of panics, index types
-/

namespace Verif.Unit.Props
open Verif Verif.Unit

variable {c : Cfg}

/-! ## C09 -/

/-- The query `[any, x]` meets a link that has `x` at both ends. -/
def DoubleEnd (any : Nat) (q : List Nat) (l : Link) : Prop :=
  ∃ x, q = [any, x] ∧ x ≠ any ∧ l.source = x ∧ l.target = x

theorem visitsOf_match {any : Nat} {q : List Nat} {l : Link} (hm : MatchQ any q l) :
    visitsOf any q l = 1 ∧ ¬ DoubleEnd any q l ∨ visitsOf any q l = 2 ∧ DoubleEnd any q l := by
  match q, hm with
  | [], _ => exact .inl ⟨rfl, by rintro ⟨x, h, -⟩; cases h⟩
  | [i], hm =>
    refine .inl ⟨if_pos hm, by rintro ⟨x, h, -⟩; cases h⟩
  | [i, x], hm =>
    obtain ⟨h1, h2⟩ := hm
    simp only [visitsOf]
    by_cases hx : x = any
    · rw [if_pos hx, if_pos h1]
      refine .inl ⟨rfl, ?_⟩
      rintro ⟨y, h, hy, -⟩; cases h; exact hy hx
    · rw [if_neg hx]
      have h2' := h2.resolve_left hx
      by_cases hi : i = any
      · rw [if_pos hi]
        subst hi
        by_cases hs : l.source = x <;> by_cases ht : l.target = x
        · right; rw [if_pos hs, if_pos ht]; exact ⟨by omega, x, rfl, hx, hs, ht⟩
        · left; rw [if_pos hs, if_neg ht]
          refine ⟨by omega, ?_⟩
          rintro ⟨y, h, -, -, h4⟩; cases h; exact ht h4
        · left; rw [if_neg hs, if_pos ht]
          refine ⟨by omega, ?_⟩
          rintro ⟨y, h, -, h3, -⟩; cases h; exact hs h3
        · rcases h2' with h2 | h2
          · exact absurd h2 hs
          · exact absurd h2 ht
      · rw [if_neg hi, if_pos ⟨h1.resolve_left hi, h2'⟩]
        refine .inl ⟨rfl, ?_⟩
        rintro ⟨y, h, -⟩; cases h; exact hi rfl
  | [i, x, y], hm => exact .inl ⟨if_pos hm, by rintro ⟨x, h, -⟩; cases h⟩
  | _ :: _ :: _ :: _ :: _, hm => cases hm

/-- **C09** (partial: see the three counterexamples below). For every query of at most three parts the traversal
visits only links of the store that match. If the query does not ask for null ends (null is in no index),
it visits every matching link, exactly once — except that `[any, x]` visits a link with `x` at both ends
exactly twice, and that a query for a source and a target visits one of the links with that doublet (so the only
one, if doublets are unique). -/
theorem C09_traversal_partial (hc : CfgOK c) {s : Store} (h : Reach c s) (q : List Nat) (hq : q.length ≤ 3) :
    ∃ L, (links c).Visits s q L ∧
      (∀ l ∈ L, ((links c).view s).Has l ∧ MatchQ c.consts.any q l) ∧
      (NullFree c.consts.any q → ∀ l, ((links c).view s).Has l → MatchQ c.consts.any q l →
        (¬ IsPair c.consts.any q → ¬ DoubleEnd c.consts.any q l → L.count l = 1) ∧
        (DoubleEnd c.consts.any q l → L.count l = 2) ∧
        (IsPair c.consts.any q → L.length = 1 ∧
          ((∀ l', ((links c).view s).Has l' → MatchQ c.consts.any q l' → l' = l) → L = [l]))) := by
  obtain ⟨L, h1, -, h3, h4, h5, -⟩ := query_law hc (reach_good hc h) q hq
  refine ⟨L, h1, h3, fun hn l hl hm => ⟨fun hp hd => ?_, fun hd => ?_, fun hp => ?_⟩⟩
  · rw [h4 hn hp l hl]
    rcases visitsOf_match hm with ⟨e, -⟩ | ⟨-, hd'⟩
    · exact e
    · exact absurd hd' hd
  · have hp : ¬ IsPair c.consts.any q := by
      rintro ⟨x, y, e, -⟩
      obtain ⟨z, e', -⟩ := hd
      rw [e] at e'; cases e'
    rw [h4 hn hp l hl]
    rcases visitsOf_match hm with ⟨-, hd'⟩ | ⟨e, -⟩
    · exact absurd hd hd'
    · exact e
  · obtain ⟨h6, h7⟩ := h5 hp
    have h8 := h7 hn ⟨l, hl, hm⟩
    match L, h6, h8 with
    | [x], _, _ =>
      refine ⟨rfl, fun hu => ?_⟩
      have := h3 x (by simp)
      rw [hu x this.1 this.2]

/-- All kinds of queries on `sNet`, where 1 = (1,1), 2 = (1,3), 3 = (2,2), 4 = (0,0), 6 = (3,2), any = 252. -/
example : Reach cfg0 sNet ∧
    (links cfg0).eachIter sNet [] = some [⟨1, 1, 1⟩, ⟨2, 1, 3⟩, ⟨3, 2, 2⟩, ⟨4, 0, 0⟩, ⟨6, 3, 2⟩] ∧
    (links cfg0).eachIter sNet [252, 3] = some [⟨6, 3, 2⟩, ⟨2, 1, 3⟩] ∧
    (links cfg0).eachIter sNet [252, 1, 3] = some [⟨2, 1, 3⟩] ∧
    (links cfg0).eachIter sNet [2, 252, 3] = some [⟨2, 1, 3⟩] := ⟨sNet_reach, by decide +kernel⟩

/-- **C09** is false for `[any, x]`: link 1 = (1,1) is visited twice, and counted twice. -/
theorem C09_double_visit : Reach cfg0 sNet ∧
    (links cfg0).eachIter sNet [cfg0.consts.any, 1] = some [⟨1, 1, 1⟩, ⟨2, 1, 3⟩, ⟨1, 1, 1⟩] ∧
    (links cfg0).countBy sNet [cfg0.consts.any, 1] = some 3 := ⟨sNet_reach, by decide +kernel⟩

/-- **C09** is false for null ends: link 4 = (0,0) has source 0 but the query for source 0 finds nothing. -/
theorem C09_null_source_not_found : Reach cfg0 sNet ∧
    (links cfg0).getLink sNet 4 = some (some ⟨4, 0, 0⟩) ∧
    (links cfg0).eachIter sNet [cfg0.consts.any, 0, cfg0.consts.any] = some [] := ⟨sNet_reach, by decide +kernel⟩

/-- Two links with the same doublet. -/
def sTwins : Store := runs cfg0 [.create, .create, .create, .update 1 3 3, .update 2 3 3]

/-- **C09** is false for duplicate doublets: 1 = 2 = (3,3), the query for (3,3) visits only one of them. -/
theorem C09_twins_visited_once : Reach cfg0 sTwins ∧
    (links cfg0).getLink sTwins 1 = some (some ⟨1, 3, 3⟩) ∧
    (links cfg0).getLink sTwins 2 = some (some ⟨2, 3, 3⟩) ∧
    ((links cfg0).eachIter sTwins [cfg0.consts.any, 3, 3]).map List.length = some 1 :=
  ⟨runs_reach (by decide +kernel), by decide +kernel⟩

/-! ## C10 -/

/-- **C10.** Whenever the count returns, it returns the number of links the traversal with the same query
visits. -/
theorem C10_count_equals_visits (hc : CfgOK c) {s : Store} (h : Reach c s) (q : List Nat) (hq : q.length ≤ 3)
    {n : Nat} (hn : (links c).countBy s q = some n) :
    ∃ L, (links c).eachIter s q = some L ∧ L.length = n := by
  obtain ⟨L, h1, h2, -⟩ := query_law hc (reach_good hc h) q hq
  refine ⟨L, ?_, ?_⟩
  · simp only [Links.eachIter, Links.collect_eq h1, hn]; rfl
  · have := h2.symm.trans hn
    split at this
    · cases this; rfl
    · cases this

example : Reach cfg0 sNet ∧ (links cfg0).countBy sNet [252, 2] = some 3 ∧
    (links cfg0).countBy sNet [252, 1, 252] = some 2 := ⟨sNet_reach, by decide +kernel⟩

/-! ## C11 -/

/-- The handler's state after it was called on the links of `L` in turn. -/
def stAfter {σ ρ : Type} (hd : σ → Link → Ctl ρ × σ) (st : σ) (L : List Link) : σ :=
  L.foldl (fun st l => (hd st l).2) st

theorem runH_spec {σ ρ : Type} (hd : σ → Link → Ctl ρ × σ) (L : List Link) (st : σ) :
    ((∀ k (hk : k < L.length), (hd (stAfter hd st (L.take k)) L[k]).1 = .cont) ∧
      runH hd L st = (.cont, stAfter hd st L)) ∨
    ∃ (k : Nat) (hk : k < L.length) (x : ρ),
      (∀ j (hj : j < k), (hd (stAfter hd st (L.take j)) L[j]).1 = .cont) ∧
      (hd (stAfter hd st (L.take k)) L[k]).1 = .brk x ∧
      runH hd L st = (.brk x, stAfter hd st (L.take (k + 1))) := by
  induction L generalizing st with
  | nil => exact .inl ⟨by simp, rfl⟩
  | cons l L ih =>
    cases hh : hd st l with
    | mk r st' =>
      cases r with
      | brk x =>
        right
        refine ⟨0, by simp, x, by simp, ?_, ?_⟩
        · simp [stAfter, hh]
        · simp [runH, hh, stAfter]
      | cont =>
        have e2 : (hd st l).2 = st' := by rw [hh]
        rcases ih st' with ⟨h1, h2⟩ | ⟨k, hk, x, h1, h2, h3⟩
        · left
          refine ⟨?_, ?_⟩
          · intro k hk
            cases k with
            | zero => simp [stAfter, hh]
            | succ k =>
              have := h1 k (by simpa using hk)
              simpa [stAfter, e2] using this
          · simp only [runH, hh]
            rw [h2]
            simp [stAfter, e2]
        · right
          refine ⟨k + 1, by simpa using hk, x, ?_, ?_, ?_⟩
          · intro j hj
            cases j with
            | zero => simp [stAfter, hh]
            | succ j =>
              have := h1 j (by omega)
              simpa [stAfter, e2] using this
          · simpa [stAfter, e2] using h2
          · simp only [runH, hh]
            rw [h3]
            simp [stAfter, e2]

/-- **C11.** There is one sequence of links, the same for all handlers, on which the handler is called in turn.
Either it continued on all of them and the call returns Continue, or it broke at some link: then it was not
called any more and the call returns the break. -/
theorem C11_traversal_stops_at_first_break (hc : CfgOK c) {s : Store} (h : Reach c s) (q : List Nat)
    (hq : q.length ≤ 3) :
    ∃ L : List Link, ∀ (σ ρ : Type) (hd : σ → Link → Ctl ρ × σ) (st : σ),
      ((∀ k (hk : k < L.length), (hd (stAfter hd st (L.take k)) L[k]).1 = .cont) ∧
        (links c).eachBy s q hd st = some (.cont, stAfter hd st L)) ∨
      ∃ (k : Nat) (hk : k < L.length) (x : ρ),
        (∀ j (hj : j < k), (hd (stAfter hd st (L.take j)) L[j]).1 = .cont) ∧
        (hd (stAfter hd st (L.take k)) L[k]).1 = .brk x ∧
        (links c).eachBy s q hd st = some (.brk x, stAfter hd st (L.take (k + 1))) := by
  obtain ⟨L, h1, -⟩ := query_law hc (reach_good hc h) q hq
  refine ⟨L, fun σ ρ hd st => ?_⟩
  rw [Links.eachBy_eq h1]
  rcases runH_spec hd L st with ⟨h2, h3⟩ | ⟨k, hk, x, h2, h3, h4⟩
  · exact .inl ⟨h2, by rw [h3]⟩
  · exact .inr ⟨k, hk, x, h2, h3, by rw [h4]⟩

/-- A handler that counts its calls and breaks at the third. -/
example : Reach cfg0 sNet ∧ (links cfg0).eachBy sNet [] (fun (n : Nat) (l : Link) =>
    (if n = 2 then Ctl.brk l.index else .cont, n + 1)) 0 = some (.brk 3, 3) := ⟨sNet_reach, by decide +kernel⟩

/-! ## C12 -/

/-- **C12.** For a non-null source and target other than `any`, search returns a link with that source and target if
there is one, and None otherwise; if there is only one, it returns that one. -/
theorem C12_search (hc : CfgOK c) {s : Store} (h : Reach c s) {x y : Nat} (hx : x ≠ 0)
    (hx' : x ≠ c.consts.any) (hy' : y ≠ c.consts.any) :
    ∃ r, (links c).search s x y = some r ∧
      (∀ i, r = some i → (links c).getLink s i = some (some ⟨i, x, y⟩)) ∧
      (r = none → ∀ i, (links c).getLink s i ≠ some (some ⟨i, x, y⟩)) ∧
      (∀ i, (links c).getLink s i = some (some ⟨i, x, y⟩) →
        (∀ j, (links c).getLink s j = some (some ⟨j, x, y⟩) → j = i) → r = some i) := by
  obtain ⟨free, ts, tt, hi⟩ := reach_good hc h
  have hget : ∀ i, (links c).getLink s i = some (if LiveIn s free i then some (s.linkAt i) else none) :=
    getLink_eq hc hi.toInv0
  have hlive : ∀ i, (links c).getLink s i = some (some ⟨i, x, y⟩) ↔ LiveIn s free i ∧ s.lk i = (x, y) := by
    intro i
    rw [hget]
    by_cases hl : LiveIn s free i
    · rw [if_pos hl]
      simp [Store.linkAt, Store.lk, hl]
    · simp [hl]
  obtain ⟨k, h1, h2⟩ := srcSearch_ok hi.toInv0 x y
  have hvis : (links c).search s x y = some (if k = 0 then none else some k) := by
    have hv : (links c).Visits s [c.consts.any, x, y] (if k = 0 then [] else [s.linkAt k]) := by
      intro σ hd st
      show eachLinks c s [c.consts.any, x, y] hd st = _
      have : c.consts.indexPart = 0 ∧ c.consts.sourcePart = 1 ∧ c.consts.targetPart = 2 :=
        ⟨hc.index_eq, hc.source_eq, hc.target_eq⟩
      simp only [eachLinks, this, List.length_cons, List.length_nil, each3, h1]
      simp only [Nat.reduceAdd, Nat.reduceEqDiff, if_false, List.getElem?_cons_zero,
        List.getElem?_cons_succ, Option.bind_some, if_true, hx', hy', false_and]
      rw [h1, Option.bind_some, getLink_eq hc hi.toInv0]
      rcases h2 with ⟨h2, -⟩ | ⟨h2, hl, -⟩
      · have hn : ¬ LiveIn s free k := fun hl => by have := hl.1; omega
        rw [if_neg hn, if_pos h2]; rfl
      · simp only [hl, if_true, h2, if_false, Option.map_some, runH]
        rcases hd st (s.linkAt k) with ⟨_ | _, _⟩ <;> rfl
    simp only [Links.search, Links.find]
    rw [Links.eachBy_eq (q := [((links c).consts s).any, x, y]) hv]
    by_cases hk : k = 0
    · simp [hk, runH]
    · simp [hk, runH, Store.linkAt]
  refine ⟨_, hvis, ?_, ?_, ?_⟩
  · intro i hi'
    rcases h2 with ⟨h2, -⟩ | ⟨h2, hl, -, he⟩
    · simp [h2] at hi'
    · simp [h2] at hi'
      rw [← hi']
      exact (hlive k).2 ⟨hl, he⟩
  · intro hi' i hg
    rcases h2 with ⟨h2, hno⟩ | ⟨h2, -⟩
    · have := (hlive i).1 hg
      exact hno i this.1 hx this.2
    · simp [h2] at hi'
  · intro i hg hu
    rcases h2 with ⟨h2, hno⟩ | ⟨h2, hl, -, he⟩
    · have := (hlive i).1 hg
      exact absurd this.2 (hno i this.1 hx)
    · rw [if_neg h2, hu k ((hlive k).2 ⟨hl, he⟩)]

example : Reach cfg0 sNet ∧ (links cfg0).search sNet 1 3 = some (some 2) ∧
    (links cfg0).search sNet 3 1 = some none := ⟨sNet_reach, by decide +kernel⟩

/-! ## C14 -/

theorem length_le_of_subset {α : Type} [DecidableEq α] : ∀ {L M : List α}, L.Nodup → (∀ l ∈ L, l ∈ M) →
    L.length ≤ M.length := by
  intro L
  induction L with
  | nil => intro M _ _; simp
  | cons a L ih =>
    intro M hn hs
    rw [List.nodup_cons] at hn
    have := ih (M := M.erase a) hn.2 fun l hl =>
      (List.mem_erase_of_ne (fun (e : l = a) => hn.1 (e ▸ hl))).2 (hs l (List.mem_cons_of_mem _ hl))
    have hm := hs a (by simp)
    rw [List.length_erase_of_mem hm] at this
    have := List.length_pos_of_mem hm
    simp only [List.length_cons]; omega

theorem length_le_of_count {L M : List Link} {l0 : Link} (hsub : ∀ l ∈ L, l ∈ M) (hM : M.Nodup)
    (h1 : ∀ l, l ≠ l0 → L.count l ≤ 1) (h2 : L.count l0 ≤ 2) : L.length ≤ M.length + 1 := by
  have hn : (L.erase l0).Nodup := by
    rw [List.nodup_iff_count]
    intro l
    by_cases hl : l = l0
    · subst hl; rw [List.count_erase_self]; omega
    · rw [List.count_erase_of_ne hl]; exact h1 l hl
  have hle := length_le_of_subset hn (fun l hl => hsub l (List.mem_of_mem_erase hl))
  by_cases hm : l0 ∈ L
  · rw [List.length_erase_of_mem hm] at hle; omega
  · rw [List.erase_of_not_mem hm] at hle; omega

/-- **C14**, reads: on every reachable store lookup, traversal and count with a query of at most three parts
return normally; the count with a two part query under the condition that no two links share a doublet and
`any` is a value of the index type (otherwise the two partial counts can exceed the type). -/
theorem C14_reads_never_panic (hc : CfgOK c) {s : Store} (h : Reach c s) :
    (∀ i, ∃ r, (links c).getLink s i = some r) ∧
    (∀ q, q.length ≤ 3 → ∀ {σ ρ : Type} (hd : σ → Link → Ctl ρ × σ) (st : σ),
      ∃ r, (links c).eachBy s q hd st = some r) ∧
    (∀ q, q.length ≤ 3 → q.length ≠ 2 → ∃ n, (links c).countBy s q = some n) ∧
    (∀ q, q.length ≤ 3 → ((links c).view s).Uniq → c.consts.any ≤ c.maxT →
      ∃ n, (links c).countBy s q = some n) ∧
    (∀ x y, ∃ r, (links c).search s x y = some r) := by
  have hg := reach_good hc h
  have hend := hc.end_le
  refine ⟨fun i => ⟨_, (lawful hc).get s hg i⟩, ?_, ?_, ?_, ?_⟩
  · intro q hq σ ρ hd st
    obtain ⟨L, h1, -⟩ := query_law hc hg q hq
    exact ⟨_, Links.eachBy_eq h1 hd st⟩
  · intro q hq h2
    obtain ⟨L, -, h3, -, -, -, h6⟩ := query_law hc hg q hq
    exact ⟨_, h3.trans (if_pos (by have := h6 h2; omega))⟩
  · intro q hq hu hany
    by_cases hz : q = [c.consts.any, 0]
    · subst hz
      obtain ⟨free, ts, tt, hi⟩ := hg
      obtain ⟨L1, -, h1, -, h2⟩ := src_usages hc hi.toInv0 0
      obtain ⟨L2, -, h3, -, h4⟩ := tgt_usages hc hi.toInv0 0
      have e1 : L1 = [] := List.eq_nil_iff_forall_not_mem.2 fun k hk => ((h2 k).1 hk).2.1 rfl
      have e2 : L2 = [] := List.eq_nil_iff_forall_not_mem.2 fun k hk => ((h4 k).1 hk).2.1 rfl
      subst e1 e2
      by_cases ha : (0 : Nat) = c.consts.any
      · refine ⟨(liveList s free).length, ?_⟩
        show countLinks c s [c.consts.any, 0] = _
        simp [countLinks, hc.index_eq, ← ha, getTotal_eq hi.toInv0]
      · refine ⟨0, ?_⟩
        show countLinks c s [c.consts.any, 0] = _
        simp [countLinks, hc.index_eq, ha, h1, h3, cadd]
    rcases Decidable.em (q.length = 2) with h2 | h2
    rotate_left
    · obtain ⟨L, -, h3, -, -, -, h6⟩ := query_law hc hg q hq
      exact ⟨_, h3.trans (if_pos (by have := h6 h2; omega))⟩
    have hn : NullFree c.consts.any q := by
      match q, h2 with
      | [i, x], _ =>
        intro hi y hy h0
        simp at hi hy
        subst hi hy h0
        exact hz rfl
    obtain ⟨L, -, h3, h4, h5, h7, h6⟩ := query_law hc hg q hq
    refine ⟨_, h3.trans (if_pos ?_)⟩
    · have hp : ¬ IsPair c.consts.any q := by rintro ⟨x, y, e, -⟩; rw [e] at h2; cases h2
      obtain ⟨M, -, hMn, hMm⟩ := (lawful hc).each_all s hg
      have hMlen : M.length ≤ c.consts.internalEnd := by
        obtain ⟨L', h1', -, -, -, -, h6'⟩ := query_law hc hg [] (by simp)
        obtain ⟨M', hM', -⟩ := (lawful hc).each_all s hg
        have hh := h6' (by simp)
        obtain ⟨free, ts, tt, hi⟩ := hg
        have hM2 : M.Perm ((liveList s free).map s.linkAt) := by
          rw [List.perm_ext_iff_of_nodup hMn]
          · intro l
            rw [hMm, has_iff hc hi.toInv0, List.mem_map]
            constructor
            · rintro ⟨ha, hb⟩; exact ⟨l.index, mem_liveList.2 ha, hb.symm⟩
            · rintro ⟨k, hk, rfl⟩; exact ⟨mem_liveList.1 hk, rfl⟩
          · refine List.pairwise_map.2 ((nodup_liveList s free).imp fun {a b} hab he => hab ?_)
            exact congrArg Link.index he
        rw [hM2.length_eq, ← (show L' = _ from h1'.unique fun σ hd st => eachAll_eq hc hi.toInv0 hd st)]
        exact hh
      have hlt := hc.end_lt_any
      have hle2 : ∀ l, L.count l ≤ 2 ∧ (¬ DoubleEnd c.consts.any q l → L.count l ≤ 1) := by
        intro l
        by_cases hm : l ∈ L
        · have hh := h4 l hm
          rw [h5 hn hp l hh.1]
          rcases visitsOf_match hh.2 with ⟨e, -⟩ | ⟨e, hd⟩
          · exact ⟨by omega, fun _ => by omega⟩
          · exact ⟨by omega, fun hd' => absurd hd hd'⟩
        · rw [List.count_eq_zero_of_not_mem hm]; exact ⟨by omega, fun _ => by omega⟩
      have hsub := fun l hl => (hMm l).2 (h4 l hl).1
      by_cases hdd : ∃ l0 ∈ L, DoubleEnd c.consts.any q l0
      · obtain ⟨l0, hm0, x, hq0, hx, hs0, ht0⟩ := hdd
        have hl0 := (h4 l0 hm0).1
        have := length_le_of_count (l0 := l0) hsub hMn ?_ (hle2 l0).1
        · omega
        · intro l hl
          by_cases hm : l ∈ L
          · refine (hle2 l).2 ?_
            rintro ⟨y, hq1, -, hs, ht⟩
            have hh := (h4 l hm).1
            rw [hq0] at hq1; cases hq1
            have e1 : (links c).view s l.index = some (x, x) := by rw [hh, hs, ht]
            have e0 : (links c).view s l0.index = some (x, x) := by rw [hl0, hs0, ht0]
            have hx0 : x ≠ 0 := by
              intro h0
              exact hn (by rw [hq0]; rfl) x (by rw [hq0]; simp) h0
            have := hu l0.index _ e0 (by simp [hx0]) l.index e1
            apply hl
            cases l; cases l0; simp_all
          · rw [List.count_eq_zero_of_not_mem hm]; omega
      · have hnd : L.Nodup := by
          rw [List.nodup_iff_count]
          intro l
          by_cases hm : l ∈ L
          · exact (hle2 l).2 fun hd => hdd ⟨l, hm, hd⟩
          · rw [List.count_eq_zero_of_not_mem hm]; omega
        have := length_le_of_subset hnd hsub
        omega
  · intro x y
    obtain ⟨L, h1, -⟩ := query_law hc hg [c.consts.any, x, y] (by simp)
    simp only [Links.search, Links.find]
    rw [Links.eachBy_eq (q := [((links c).consts s).any, x, y]) h1]
    exact ⟨_, rfl⟩

example : Reach cfg0 sNet ∧ ((links cfg0).view sNet).Uniq ∧ cfg0.consts.any ≤ cfg0.maxT := by
  refine ⟨sNet_reach, fun i => ?_, by decide⟩
  by_cases hi : i ∈ List.range 7
  · refine twinFree_noTwin cfg0_ok (reach_good cfg0_ok sNet_reach) ?_
    revert i
    decide +kernel
  · intro p hp
    have := (C04_highest_slot_is_live cfg0_ok sNet_reach).2 i (by
      have h6 : sNet.hdr.allocated = 6 := by decide +kernel
      rw [List.mem_range] at hi; omega)
    rw [this] at hp; cases hp

/-- **C14**, writes: on every reachable store creation returns normally whenever the memory it may grow to can be
counted in the index type; update and delete return normally for every index, source and target, whenever no
other link holds the same doublet as the link being changed. -/
theorem C14_writes_never_panic (hc : CfgOK c) {s : Store} (h : Reach c s)
    {σ ρ : Type} (hd : σ → Link → Link → Ctl ρ × σ) (st : σ) :
    ((∀ n, c.alloc s.len (s.len + c.step) = some n → n ≤ c.maxT) →
      ∃ o, (links c).createWith s hd st = some o) ∧
    (∀ i, ((links c).view s).NoTwin i →
      (∀ a b, ∃ o, (links c).updateWith s i a b hd st = some o) ∧
      (∃ o, (links c).deleteWith s i hd st = some o)) := by
  have hg := reach_good hc h
  refine ⟨fun hgrow => ?_, fun i ht => ?_⟩
  · rcases create_law hc hg hgrow [] with ⟨e, he⟩ | ⟨i, s', -, -, -, he⟩
    · exact ⟨_, Links.createByWith_err he hd st⟩
    · exact ⟨_, Links.createByWith_ok he hd st⟩
  · cases hv : (links c).view s i with
    | none =>
      exact ⟨fun a b => ⟨_, Links.updateByWith_err ((lawful hc).update_missing s hg i hv i a b) hd st⟩,
        ⟨_, Links.deleteByWith_err ((lawful hc).delete_missing s hg i hv) hd st⟩⟩
    | some p =>
      refine ⟨fun a b => ?_, ?_⟩
      · obtain ⟨s', -, -, hS⟩ := update_law hc hg hv ht i a b
        exact ⟨_, Links.updateByWith_ok hS hd st⟩
      · obtain ⟨s', -, -, hS⟩ := delete_law hc hg hv ht
        exact ⟨_, Links.deleteByWith_ok hS hd st⟩

example : Reach cfg0 sNet ∧ (∀ n, cfg0.alloc sNet.len (sNet.len + cfg0.step) = some n → n ≤ cfg0.maxT) ∧
    ((links cfg0).view sNet).NoTwin 3 := by
  have hl : sNet.len = 8 := by decide +kernel
  refine ⟨sNet_reach, ?_, twinFree_noTwin cfg0_ok (reach_good cfg0_ok sNet_reach) (by decide +kernel)⟩
  intro n hn
  simp only [cfg0, hl, Option.some.injEq] at hn
  subst hn; decide

/-- The condition on memory is needed: an allocator that grants more slots than the index type can count makes
creation panic. -/
theorem C14_growth_beyond_the_index_type_panics (hc : CfgOK c) {s : Store} (h : Reach c s)
    (hfull : ∀ k, 0 < k → k ≤ s.hdr.allocated → (links c).getLink s k ≠ some none)
    (hend : s.hdr.allocated < c.consts.internalEnd) (hres : s.hdr.reserved ≤ s.hdr.allocated + 1)
    {n : Nat} (hn : c.alloc s.len (s.len + c.step) = some n) (hbig : c.maxT < n) :
    (links c).create s = none := by
  obtain ⟨free, ts, tt, hi⟩ := reach_good hc h
  have hf : free = [] := by
    apply List.eq_nil_iff_forall_not_mem.2
    intro x hx
    refine hfull x (Nat.pos_of_ne_zero (hi.base.list.nonzero x hx)) (hi.base.free_le x hx) ?_
    show getLink c s x = _
    rw [getLink_eq hc hi.toInv0, if_neg fun hl => hl.2.2 hx]
  apply create_none
  intro σ hd st
  have hres1 := hi.base.res_pos
  have hff : s.hdr.firstFree = 0 := by have := hi.base.list; rw [hf] at this; exact this.first_eq
  unfold createLinks
  simp only [hff, hc.null_eq, if_true]
  rw [if_neg (by omega), csub_eq hres1, Option.bind_some, if_pos (by omega), hn]
  simp only
  rw [if_neg (by omega)]

/-! ## C39 -/

/-- **C39** is false: if the index type has fewer than `SIZE_STEP` values, no store can be opened on any memory
with any (truthful) allocator: opening panics or reports an allocation error. `SIZE_STEP` is 2^20, so
this covers `u8` (maxT = 255) and `u16` (maxT = 65535). -/
theorem C39_small_index_types_cannot_be_opened (hc : CfgOK c) (hsmall : c.maxT + 1 < c.step) (s : Store) :
    ∀ s', init c s ≠ some (.ok s') := by
  intro s' h
  unfold init at h
  simp only at h
  split at h
  · simp at h
  · next n1 hn1 =>
    split at h
    · simp at h
    · split at h
      · simp at h
      · next n2 hn2 =>
        have hge := hc.alloc_ge _ _ _ hn2
        have : c.step ≤ n2 := by omega
        rw [csub_eq (by omega)] at h
        simp only [Option.bind_some] at h
        rw [if_neg (by omega)] at h
        cases h

/-- The configurations of `Store::<u8>` and `Store::<u16>` with the real `SIZE_STEP`. -/
def cfgU (maxT : Nat) : Cfg := { cfg0 with maxT := maxT, step := 2 ^ 20 }

example : CfgOK (cfgU 255) ∧ (cfgU 255).maxT + 1 < (cfgU 255).step ∧ CfgOK (cfgU 65535) ∧
    (cfgU 65535).maxT + 1 < (cfgU 65535).step := by
  refine ⟨⟨rfl, rfl, rfl, rfl, rfl, by decide, by decide, by decide, Ref.lawful, cfg0_ok.alloc_ge⟩, by decide,
    ⟨rfl, rfl, rfl, rfl, rfl, by decide, by decide, by decide, Ref.lawful, cfg0_ok.alloc_ge⟩, by decide⟩

/-- **C39**, the part that holds: if the slots granted by the allocator can be counted in the index type, opening a
store succeeds and the store is empty. -/
theorem C39_open_partial (hc : CfgOK c) {n1 n2 : Nat} (h1 : c.alloc 0 c.page = some n1) (h0 : n1 ≠ 0)
    (h2 : c.alloc n1 c.step = some n2) (hle : n2 ≤ c.maxT + 1) :
    ∃ s, init c {} = some (.ok s) ∧ Reach c s ∧ (∀ i, (links c).getLink s i = some none) ∧
      (links c).count s = some 0 := by
  have hge := hc.alloc_ge _ _ _ h2
  have hst := hc.step_pos
  have hi : init c {} = some (.ok { len := n2, hdr := { reserved := n2 - 1 } }) := by
    unfold init
    simp only [h1, h0, if_false, Nat.max_zero, h2]
    rw [csub_eq (by omega), Option.bind_some, if_pos (by omega)]
  have hr : Reach c { len := n2, hdr := { reserved := n2 - 1 } } := .fresh c.alloc hc.alloc_ge hi
  refine ⟨_, hi, hr, fun i => ?_, rfl⟩
  obtain ⟨h3, h4⟩ := init_fresh hc hi
  show getLink c _ i = _
  rw [getLink_eq hc h3.toInv0, if_neg]
  intro hl
  have := hl.1; have := hl.2.1
  simp only at h4 this; omega

example : cfg0.alloc 0 cfg0.page = some 8 ∧ cfg0.alloc 8 cfg0.step = some 8 ∧ 8 ≤ cfg0.maxT + 1 := by decide

end Verif.Unit.Props
