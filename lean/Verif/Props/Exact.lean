import Verif.Props.UnitQueries

/-!
# C58: exactly when a traversal of the united store visits each matching link once
-/

namespace Verif.Unit.Props
open Verif

variable {c : Cfg}

/-- The query asks, over all links, for a null source or (alone) a null target, or for a null end. -/
def NullAsk (any : Nat) (q : List Nat) : Prop :=
  q = [any, 0] ∨ q = [any, any, 0] ∨ ∃ y, q = [any, 0, y]

/-- The traversal visits exactly the links of the store that match the query, each once. -/
def VisitsEachOnce {S : Type} (D : Links S) (any : Nat) (s : S) (q : List Nat) : Prop :=
  ∃ L, D.Visits s q L ∧ (∀ l ∈ L, (D.view s).Has l ∧ MatchQ any q l) ∧
    ∀ l, (D.view s).Has l → MatchQ any q l → L.count l = 1

theorem any_ne_zero (hc : CfgOK c) : c.consts.any ≠ 0 := by have := hc.end_lt_any; omega

/-- Queries for null ends over all links visit nothing. -/
theorem nullAsk_visits (hc : CfgOK c) {s : Store} (h : Good c s) {q : List Nat} (hq : NullAsk c.consts.any q) :
    (links c).Visits s q [] := by
  obtain ⟨free, ts, tt, hi⟩ := h
  have hany := any_ne_zero hc
  have hs : ∀ (σ : Type) (hd : RH σ) (st : σ), srcEach s 0 hd st = some (.cont, st) := by
    obtain ⟨L, h1, -, -, h4⟩ := src_usages hc hi.toInv0 0
    have e : L = [] := List.eq_nil_iff_forall_not_mem.2 fun k hk => ((h4 k).1 hk).2.1 rfl
    subst e; exact h1
  have ht : ∀ (σ : Type) (hd : RH σ) (st : σ), tgtEach s 0 hd st = some (.cont, st) := by
    obtain ⟨L, h1, -, -, h4⟩ := tgt_usages hc hi.toInv0 0
    have e : L = [] := List.eq_nil_iff_forall_not_mem.2 fun k hk => ((h4 k).1 hk).2.1 rfl
    subst e; exact h1
  have h0 : ¬ (0 : Nat) = c.consts.any := fun e => hany e.symm
  have h00 : ¬ LiveIn s free 0 := fun hl => by have := hl.1; omega
  intro σ hd st
  rcases hq with rfl | rfl | ⟨y, rfl⟩
  · simp [links, eachLinks, hc.index_eq, each3, h0, hs, ht, andThen, runH]
  · simp [links, eachLinks, hc.index_eq, hc.source_eq, hc.target_eq, each3, h0, ht, runH]
  · by_cases hy : y = c.consts.any
    · simp [links, eachLinks, hc.index_eq, hc.source_eq, hc.target_eq, each3, h0, hs, hy, runH]
    · obtain ⟨k, e1, e2⟩ := srcSearch_ok hi.toInv0 0 y
      rcases e2 with ⟨rfl, -⟩ | ⟨-, -, e4, -⟩
      · simp [links, eachLinks, hc.index_eq, hc.source_eq, hc.target_eq, each3, h0, hy, e1, getLink_eq hc hi.toInv0, h00,
          runH]
      · exact absurd rfl e4

/-- The query for a given source and no target visits one of the links with that doublet, if there is one. -/
theorem pair_null_target (hc : CfgOK c) {s : Store} (h : Good c s) {x : Nat} (hx : x ≠ c.consts.any) (hx0 : x ≠ 0)
    {L : List Link} (hL : (links c).Visits s [c.consts.any, x, 0] L)
    (hm : ∃ l, ((links c).view s).Has l ∧ MatchQ c.consts.any [c.consts.any, x, 0] l) : L ≠ [] := by
  obtain ⟨free, ts, tt, hi⟩ := h
  have h0 : ¬ (0 : Nat) = c.consts.any := fun e => any_ne_zero hc e.symm
  obtain ⟨l, hl, -, h2, h3⟩ := hm
  have hl2 := (has_iff hc hi.toInv0 l).1 hl
  obtain ⟨k, e1, e2⟩ := srcSearch_ok hi.toInv0 x 0
  rcases e2 with ⟨rfl, e3⟩ | ⟨e2, e3, e4, e5⟩
  · exfalso
    refine e3 _ hl2.1 hx0 ?_
    have es : (s.cell l.index).source = l.source := by rw [hl2.2]; rfl
    have et : (s.cell l.index).target = l.target := by rw [hl2.2]; rfl
    simp [Store.lk, es, et, h2.resolve_left hx, h3.resolve_left h0]
  · rintro rfl
    have := hL (List Link) (fun acc l => (.cont, l :: acc)) []
    simp [links, eachLinks, hc.index_eq, hc.source_eq, hc.target_eq, each3, h0, hx, e1, getLink_eq hc hi.toInv0, e3,
      runH] at this

theorem cases_nullFree {any : Nat} {q : List Nat} (hany : any ≠ 0) (hq : q.length ≤ 3) (hn : ¬ NullAsk any q) :
    NullFree any q ∨ ∃ x, q = [any, x, 0] ∧ x ≠ any ∧ x ≠ 0 := by
  match q, hq with
  | [], _ => left; intro h; cases h
  | [i], _ => left; intro _ x hx; cases hx
  | [i, x], _ =>
    left
    intro hi y hy h0
    simp only [List.head?_cons, Option.some.injEq] at hi
    simp only [List.tail_cons, List.mem_singleton] at hy
    subst hi hy h0
    exact hn (.inl rfl)
  | [i, x, y], _ =>
    by_cases hi : i = any
    · subst hi
      by_cases hx0 : x = 0
      · subst hx0; exact absurd (.inr (.inr ⟨y, rfl⟩)) hn
      · by_cases hy0 : y = 0
        · subst hy0
          by_cases hx : x = i
          · subst hx; exact absurd (.inr (.inl rfl)) hn
          · exact .inr ⟨x, rfl, hx, hx0⟩
        · left
          intro _ z hz
          simp only [List.tail_cons, List.mem_cons, List.not_mem_nil, or_false] at hz
          rcases hz with rfl | rfl
          · exact hx0
          · exact hy0
    · left; intro h; simp only [List.head?_cons, Option.some.injEq] at h; exact absurd h hi

/-- **C58**: what a traversal visits, for every query of at most three parts: only matching links; nothing for
queries for null ends; a link with `x` at both ends twice for `[any, x]`; one of the matching links if the query gives
source and target; in all other cases every matching link once. -/
theorem C58_traversal_exact (hc : CfgOK c) {s : Store} (h : Reach c s) (q : List Nat) (hq : q.length ≤ 3) :
    ∃ L, (links c).Visits s q L ∧
      (∀ l ∈ L, ((links c).view s).Has l ∧ MatchQ c.consts.any q l) ∧
      (NullAsk c.consts.any q → L = []) ∧
      (¬ NullAsk c.consts.any q → ∀ l, ((links c).view s).Has l → MatchQ c.consts.any q l →
        (IsPair c.consts.any q → L.length = 1) ∧
        (DoubleEnd c.consts.any q l → L.count l = 2) ∧
        (¬ IsPair c.consts.any q → ¬ DoubleEnd c.consts.any q l → L.count l = 1)) := by
  obtain ⟨L, h1, h2, h3⟩ := C09_traversal_partial hc h q hq
  refine ⟨L, h1, h2, fun hn => Links.Visits.unique h1 (nullAsk_visits hc (reach_good hc h) hn), fun hn l hl hm => ?_⟩
  rcases cases_nullFree (any_ne_zero hc) hq hn with hf | ⟨x, rfl, hx, hx0⟩
  · obtain ⟨a1, a2, a3⟩ := h3 hf l hl hm
    exact ⟨fun hp => (a3 hp).1, a2, a1⟩
  · have h0 : (0 : Nat) ≠ c.consts.any := fun e => any_ne_zero hc e.symm
    have hp : IsPair c.consts.any [c.consts.any, x, 0] := ⟨x, 0, rfl, hx, h0⟩
    refine ⟨fun _ => ?_, ?_, fun hp' => absurd hp hp'⟩
    · obtain ⟨L', k1, -, -, -, k5, -⟩ := query_law hc (reach_good hc h) _ hq
      have e := Links.Visits.unique h1 k1
      subst e
      have k6 := (k5 hp).1
      have k7 := pair_null_target hc (reach_good hc h) hx hx0 h1 ⟨l, hl, hm⟩
      have k8 := List.length_pos_iff.2 k7
      omega
    · rintro ⟨z, e, -⟩; cases e

/-- **C58**: a traversal visits every matching link exactly once, except exactly in these cases: there is a matching
link and the query is for null ends; the query is `[any, x]` and some link has `x` at both ends; the query gives source
and target and two links match it. -/
theorem C58_traversal_correct_iff (hc : CfgOK c) {s : Store} (h : Reach c s) (q : List Nat) (hq : q.length ≤ 3) :
    VisitsEachOnce (links c) c.consts.any s q ↔
      (∀ l, ((links c).view s).Has l → MatchQ c.consts.any q l →
        ¬ NullAsk c.consts.any q ∧ ¬ DoubleEnd c.consts.any q l ∧
        (IsPair c.consts.any q → ∀ l', ((links c).view s).Has l' → MatchQ c.consts.any q l' → l' = l)) := by
  obtain ⟨L, h1, h2, h3, h4⟩ := C58_traversal_exact hc h q hq
  constructor
  · rintro ⟨L', k1, k2, k3⟩ l hl hm
    have e := Links.Visits.unique k1 h1
    subst e
    have hn : ¬ NullAsk c.consts.any q := by
      intro hn
      have := k3 l hl hm
      rw [h3 hn] at this
      simp at this
    obtain ⟨a1, a2, a3⟩ := h4 hn l hl hm
    refine ⟨hn, fun hd => ?_, fun hp l' hl' hm' => ?_⟩
    · have := a2 hd; have := k3 l hl hm; omega
    · have e1 := k3 l hl hm
      have e2 := k3 l' hl' hm'
      have e3 := a1 hp
      match L', e3 with
      | [z], _ =>
        have m1 : l ∈ [z] := List.count_pos_iff.1 (by omega)
        have m2 : l' ∈ [z] := List.count_pos_iff.1 (by omega)
        rw [List.mem_singleton.1 m1, List.mem_singleton.1 m2]
  · intro hg
    refine ⟨L, h1, h2, fun l hl hm => ?_⟩
    obtain ⟨hn, hd, hp⟩ := hg l hl hm
    obtain ⟨a1, a2, a3⟩ := h4 hn l hl hm
    by_cases hp' : IsPair c.consts.any q
    · have e3 := a1 hp'
      match L, e3, h2 with
      | [z], _, h2 =>
        have hz := h2 z (by simp)
        rw [hp hp' z hz.1 hz.2]; simp
    · exact a3 hp' hd

/-- Non-vacuity: on `sNet` (1 = (1,1), 2 = (1,3), 3 = (2,2), 4 = (0,0), 6 = (3,2)) the traversal `[any, 3]` is correct and
`[any, 1]` is not. -/
example : VisitsEachOnce (links cfg0) cfg0.consts.any sNet [252, 3, 2] ∧
    ¬ VisitsEachOnce (links cfg0) cfg0.consts.any sNet [252, 1] := by
  have hv : (links cfg0).view sNet 1 = some (1, 1) := by decide +kernel
  refine ⟨(C58_traversal_correct_iff cfg0_ok sNet_reach _ (by decide)).2 ?_, fun h => ?_⟩
  · rintro ⟨i, a, b⟩ hl ⟨-, h2, h3⟩
    have e2 : a = 3 := h2.resolve_left (by decide)
    have e3 : b = 2 := h3.resolve_left (by decide)
    subst e2 e3
    have key : ∀ j, (links cfg0).view sNet j = some (3, 2) → j = 6 := by
      intro j hj
      have hle : j < 7 := by
        apply Classical.byContradiction
        intro hge
        have hnone := (C04_highest_slot_is_live cfg0_ok sNet_reach).2 j (by
          have h6 : sNet.hdr.allocated = 6 := by decide +kernel
          omega)
        rw [hnone] at hj; cases hj
      have : ∀ j ∈ List.range 7, (links cfg0).view sNet j = some (3, 2) → j = 6 := by decide +kernel
      exact this j (List.mem_range.2 hle) hj
    refine ⟨?_, ?_, fun _ => ?_⟩
    · rintro (h | h | ⟨y, h⟩) <;> cases h
    · rintro ⟨x, h, -⟩; cases h
    · rintro ⟨j, a, b⟩ hl' ⟨-, h2', h3'⟩
      have e2' : a = 3 := h2'.resolve_left (by decide)
      have e3' : b = 2 := h3'.resolve_left (by decide)
      subst e2' e3'
      rw [key j hl', key i hl]
  · exact ((C58_traversal_correct_iff cfg0_ok sNet_reach _ (by decide)).1 h ⟨1, 1, 1⟩ hv
      ⟨.inl rfl, .inr (.inl rfl)⟩).2.1 ⟨1, rfl, by decide, rfl, rfl⟩

end Verif.Unit.Props
