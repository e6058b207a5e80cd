import Verif.Props.Exact
import Verif.Props.DoubleUsers
import Verif.Props.SplitDerived

/-!
# C68: what `delete_query_with` does, for every query

C24 is false in two cases: queries for null ends, which visit nothing, and `[any, x]` when a link has `x` at both ends.
-/

namespace Verif.Unit.Props
open Verif

variable {c : Cfg}

/-- The two part query visits the links with that source, then the links with that target. -/
theorem visits_two (hc : CfgOK c) {s : Store} {x : Nat} (hx : x ≠ c.consts.any) {L1 L2 : List Link}
    (h1 : (links c).Visits s [c.consts.any, x, c.consts.any] L1)
    (h2 : (links c).Visits s [c.consts.any, c.consts.any, x] L2) : (links c).Visits s [c.consts.any, x] (L1 ++ L2) := by
  intro σ hd st
  have e1 : each3 c s c.consts.any x c.consts.any hd st = some (runH hd L1 st) := by
    have := h1 σ hd st
    simpa [links, eachLinks, hc.index_eq, hc.source_eq, hc.target_eq] using this
  have e2 : ∀ st, each3 c s c.consts.any c.consts.any x hd st = some (runH hd L2 st) := by
    intro st
    have := h2 σ hd st
    simpa [links, eachLinks, hc.index_eq, hc.source_eq, hc.target_eq] using this
  simp only [links, eachLinks, hc.index_eq, List.length_cons, List.length_nil, Nat.reduceAdd, Nat.reduceEqDiff, if_false,
    if_true, List.getElem?_cons_zero, List.getElem?_cons_succ, Option.bind_some, hx, e1, andThen, e2, runH_append]

/-- The links left when the links of a list are deleted. -/
theorem has_of_deleted {v v' : View} {L : List Link} (hL : ∀ l ∈ L, v.Has l)
    (hv : v' = fun k => if k ∈ L.map (·.index) then none else v k) (l : Link) : v'.Has l ↔ v.Has l ∧ l ∉ L := by
  unfold View.Has
  rw [hv]
  simp only
  constructor
  · intro h
    split at h
    · cases h
    · next hm => exact ⟨h, fun hl => hm (List.mem_map_of_mem hl)⟩
  · rintro ⟨h, hl⟩
    rw [if_neg]
    · exact h
    · intro hin
      obtain ⟨l', hl', e⟩ := List.mem_map.1 hin
      have k := hL l' hl'
      unfold View.Has at k
      rw [e, h] at k
      rcases l with ⟨a, b, d⟩; rcases l' with ⟨a', b', d'⟩
      simp at k e
      rw [e, ← k.1, ← k.2] at hl'
      exact hl hl'

/-- **C68.** `delete_query_with(q)`, united store, every query of at most three parts whose count returns, the matching links
having doublets of their own. If the query asks for null ends it succeeds and does nothing, whatever matches. Otherwise, if no
link is met from both ends, it removes the matching links and nothing else, calling the handler once with each. If a link is met
from both ends (`[any, x]` and a link `(x, x)`), it fails with `NotExists(j)`, `j` being such a link; by then it has
deleted, with one call of the handler each, all links with target `x` and some with source `x`, and nothing else. -/
theorem C68_delete_query_exact (hc : CfgOK c) {s : Store} (h : Reach c s) {q : List Nat} (hq : q.length ≤ 3)
    (hn : (links c).countBy s q ≠ none)
    (hu : ∀ l, ((links c).view s).Has l → MatchQ c.consts.any q l → ((links c).view s).NoTwin l.index) :
    (NullAsk c.consts.any q → ∀ (σ ρ : Type) (hd : σ → Link → Link → Ctl ρ × σ) (st : σ),
      (links c).deleteQueryWith s q hd st = some ⟨.ok (), s, st⟩) ∧
    (¬ NullAsk c.consts.any q → (∀ l, ((links c).view s).Has l → ¬ DoubleEnd c.consts.any q l) →
      ∃ (s' : Store) (L : List Link), Reach c s' ∧ L.Nodup ∧
        (∀ l, l ∈ L ↔ ((links c).view s).Has l ∧ MatchQ c.consts.any q l) ∧
        (∀ l, ((links c).view s').Has l ↔ ((links c).view s).Has l ∧ ¬ MatchQ c.consts.any q l) ∧
        ∀ (σ ρ : Type) (hd : σ → Link → Link → Ctl ρ × σ) (st : σ), (links c).deleteQueryWith s q hd st =
          some ⟨.ok (), s', callAll hd (L.map fun l => (l, Link.nothing)) st⟩) ∧
    (¬ NullAsk c.consts.any q → ∀ d, ((links c).view s).Has d → DoubleEnd c.consts.any q d →
      ∃ (s' : Store) (A : List Link) (j : Link), Reach c s' ∧ ((links c).view s).Has j ∧ DoubleEnd c.consts.any q j ∧
        A.Nodup ∧ (∀ l ∈ A, ((links c).view s).Has l ∧ MatchQ c.consts.any q l) ∧
        (∀ l, ((links c).view s).Has l → l.target = d.target → l ∈ A) ∧
        (∀ l, ((links c).view s').Has l ↔ ((links c).view s).Has l ∧ l ∉ A) ∧
        ∀ (σ ρ : Type) (hd : σ → Link → Link → Ctl ρ × σ) (st : σ), (links c).deleteQueryWith s q hd st =
          some ⟨.error (.notExists j.index), s', callAll hd (A.map fun l => (l, Link.nothing)) st⟩) := by
  obtain ⟨n, hn⟩ := Option.ne_none_iff_exists'.1 hn
  obtain ⟨L, h1, h2, h3, h4⟩ := C58_traversal_exact hc h q hq
  refine ⟨fun hna σ ρ hd st => ?_, fun hna hde => ?_, fun hna d hd hde => ?_⟩
  · rw [h3 hna] at h1
    simp only [Links.deleteQueryWith, hn, Links.collect_eq h1, Option.bind_some]
    rfl
  · have hcount : ∀ l, ((links c).view s).Has l → MatchQ c.consts.any q l → L.count l = 1 := by
      intro l hl hm
      obtain ⟨a1, -, a3⟩ := h4 hna l hl hm
      by_cases hp : IsPair c.consts.any q
      · match L, a1 hp, h2 with
        | [z], _, h2 =>
          have hz := h2 z (by simp)
          obtain ⟨x, y, rfl, hx, hy⟩ := hp
          have hx0 : x ≠ 0 := by rintro rfl; exact hna (.inr (.inr ⟨y, rfl⟩))
          obtain ⟨zh, -, z1, z2⟩ := hz
          obtain ⟨-, l1, l2⟩ := hm
          have z1 := z1.resolve_left hx
          have z2 := z2.resolve_left hy
          have l1 := l1.resolve_left hx
          have l2 := l2.resolve_left hy
          have ht := hu l hl ⟨.inl rfl, .inr l1, .inr l2⟩ (l.source, l.target) hl
            (by intro e; rw [Prod.mk.injEq] at e; exact hx0 (l1 ▸ e.1)) z.index (by
              have : (links c).view s z.index = some (z.source, z.target) := zh
              rw [this, z1, z2, l1, l2])
          have : z = l := by
            rcases z with ⟨za, zb, zd⟩; rcases l with ⟨la, lb, ld⟩
            simp only at ht z1 z2 l1 l2
            rw [ht, z1, z2, l1, l2]
          rw [this]; simp
      · exact a3 hp (hde l hl)
    have hmem : ∀ l, l ∈ L ↔ ((links c).view s).Has l ∧ MatchQ c.consts.any q l := fun l =>
      ⟨h2 l, fun hl => List.count_pos_iff.1 (by rw [hcount l hl.1 hl.2]; omega)⟩
    have hnod : L.Nodup := nodup_of_count fun l hl => by rw [hcount l (h2 l hl).1 (h2 l hl).2]; omega
    obtain ⟨s', g1, g2, g3⟩ := Links.deleteQueryWith_law (reachLawful hc) h hn h1 hnod
      (fun l hl => ⟨(h2 l hl).1, hu l (h2 l hl).1 (h2 l hl).2⟩) (fun _ _ => trivial)
    refine ⟨s', L.reverse, g1, nodup_rev hnod, fun l => by rw [List.mem_reverse, hmem], fun l => ?_,
      fun _ _ hd st => g3 hd st⟩
    rw [has_of_deleted (fun l hl => (h2 l hl).1) g2 l, hmem]
    exact ⟨fun k => ⟨k.1, fun m => k.2 ⟨k.1, m⟩⟩, fun k => ⟨k.1, fun m => k.2 m.2⟩⟩
  · obtain ⟨x, rfl, hx, d1, d2⟩ := hde
    have hx0 : x ≠ 0 := by rintro rfl; exact hna (.inl rfl)
    obtain ⟨L1, v1, n1, m1⟩ := (reachLawful hc).each_source s h x hx0 hx
    obtain ⟨L2, v2, n2, m2⟩ := (reachLawful hc).each_target s h x hx0 hx
    have hmt : ∀ j a b, (links c).view s j = some (a, b) → (a = x ∨ b = x) → ((links c).view s).NoTwin j :=
      fun j a b hj hab => hu ⟨j, a, b⟩ hj ⟨.inl rfl, .inr hab⟩
    obtain ⟨s', A, j, g1, g2, g3, g4, g5, g6, g7⟩ := Links.deleteQueryWith_double (reachLawful hc) h hn
      (visits_two hc hx v1 v2) n1 m1 n2 m2 (d := d.index)
      (by have : (links c).view s d.index = some (d.source, d.target) := hd
          rw [this, d1, d2]) hmt (fun _ _ _ _ _ => trivial)
    refine ⟨s', A, ⟨j, x, x⟩, g1, g2, ⟨x, rfl, hx, rfl, rfl⟩, g3, fun l hl => ⟨(g4 l hl).1, .inl rfl, .inr (g4 l hl).2⟩,
      fun l k1 k2 => g5 l k1 (k2.trans d2), fun l => has_of_deleted (fun l hl => (g4 l hl).1) g6 l, fun _ _ hd st => g7 hd st⟩

/-- The three cases on `sNet` (1 = (1,1), 2 = (1,3), 3 = (2,2), 4 = (0,0), 6 = (3,2)). -/
example : ∃ (s' : Store) (j : Link), Reach cfg0 s' ∧ (∀ k, (links cfg0).view s' k ≠ some (1, 1)) ∧
    ((links cfg0).deleteQueryWith (ρ := _root_.Unit) sNet [cfg0.consts.any, 1] (fun (n : Nat) _ _ => (.cont, n + 1)) 0).map
      (·.res) = some (.error (.notExists j.index)) := by
  have hv : (links cfg0).view sNet 1 = some (1, 1) := by decide +kernel
  obtain ⟨s', A, j, h1, -, -, -, -, h6, h7, h8⟩ := (C68_delete_query_exact cfg0_ok sNet_reach (q := [cfg0.consts.any, 1])
    (by decide) (by decide +kernel) (fun l _ _ => sNet_uniq l.index)).2.2 (by rintro (h | h | ⟨y, h⟩) <;> cases h)
    ⟨1, 1, 1⟩ hv ⟨1, rfl, by decide, rfl, rfl⟩
  refine ⟨s', j, h1, fun k hk => ?_, by rw [h8]; rfl⟩
  have := (h7 ⟨k, 1, 1⟩).1 hk
  exact this.2 (h6 _ this.1 rfl)

example := (C68_delete_query_exact cfg0_ok sNet_reach (q := [cfg0.consts.any, 3]) (by decide) (by decide +kernel)
  (fun l _ _ => sNet_uniq l.index)).2.1 (by rintro (h | h | ⟨y, h⟩) <;> cases h) (by
    rintro ⟨i, a, b⟩ hl ⟨x, e, -, (ha : a = x), (hb : b = x)⟩
    cases e
    subst ha hb
    have := forall_links sNet_reach (p := fun _ q => q != (3, 3)) (by decide +kernel) i _ hl
    simp at this)

/-- A link matches, nothing is deleted. -/
example : ((links cfg0).view sNet).Has ⟨4, 0, 0⟩ ∧ ∀ (σ ρ : Type) (hd : σ → Link → Link → Ctl ρ × σ) (st : σ),
    (links cfg0).deleteQueryWith sNet [cfg0.consts.any, 0] hd st = some ⟨.ok (), sNet, st⟩ :=
  ⟨show (links cfg0).view sNet 4 = some (0, 0) by decide +kernel,
   (C68_delete_query_exact cfg0_ok sNet_reach (q := [cfg0.consts.any, 0]) (by decide) (by decide +kernel)
    (fun l _ _ => sNet_uniq l.index)).1 (.inl rfl)⟩

end Verif.Unit.Props

namespace Verif.Split.Props
open Verif
open Verif.Unit (nodup_of_count)
open Verif.Unit.Props (DoubleEnd has_of_deleted)

variable {c : Cfg}

/-- The two part query visits the links with that source, then the links with that target. -/
theorem visits_two (hc : CfgOK c) {s : Store} {x : Nat} (hx : x ≠ c.consts.any) {L1 L2 : List Link}
    (h1 : (links c).Visits s [c.consts.any, x, c.consts.any] L1)
    (h2 : (links c).Visits s [c.consts.any, c.consts.any, x] L2) : (links c).Visits s [c.consts.any, x] (L1 ++ L2) := by
  intro σ hd st
  have e1 : each3 c s c.consts.any x c.consts.any hd st = some (runH hd L1 st) := by
    have := h1 σ hd st
    simpa [links, eachLinks, hc.index_eq, hc.source_eq, hc.target_eq] using this
  have e2 : ∀ st, each3 c s c.consts.any c.consts.any x hd st = some (runH hd L2 st) := by
    intro st
    have := h2 σ hd st
    simpa [links, eachLinks, hc.index_eq, hc.source_eq, hc.target_eq] using this
  simp only [links, eachLinks, hc.index_eq, List.length_cons, List.length_nil, Nat.reduceAdd, Nat.reduceEqDiff, if_false,
    if_true, List.getElem?_cons_zero, List.getElem?_cons_succ, Option.bind_some, hx, e1, andThen, e2, runH_append]

/-- **C68**, split store, for queries that do not ask for null ends and unique doublets: the last two cases of the theorem for
the united store. -/
theorem C68_split_delete_query_exact (hc : CfgOK c) {s : Store} (h : Reach c s) {q : List Nat} (hq : q.length ≤ 3)
    (hnf : NullFree c.consts.any q) (hn : (links c).countBy s q ≠ none) (hu : ((links c).view s).Uniq) :
    ((∀ l, ((links c).view s).Has l → ¬ DoubleEnd c.consts.any q l) →
      ∃ (s' : Store) (L : List Link), Reach c s' ∧ L.Nodup ∧
        (∀ l, l ∈ L ↔ ((links c).view s).Has l ∧ MatchQ c.consts.any q l) ∧
        (∀ l, ((links c).view s').Has l ↔ ((links c).view s).Has l ∧ ¬ MatchQ c.consts.any q l) ∧
        ∀ (σ ρ : Type) (hd : σ → Link → Link → Ctl ρ × σ) (st : σ), (links c).deleteQueryWith s q hd st =
          some ⟨.ok (), s', callAll hd (L.map fun l => (l, Link.nothing)) st⟩) ∧
    (∀ d, ((links c).view s).Has d → DoubleEnd c.consts.any q d →
      ∃ (s' : Store) (A : List Link) (j : Link), Reach c s' ∧ ((links c).view s).Has j ∧ DoubleEnd c.consts.any q j ∧
        A.Nodup ∧ (∀ l ∈ A, ((links c).view s).Has l ∧ MatchQ c.consts.any q l) ∧
        (∀ l, ((links c).view s).Has l → l.target = d.target → l ∈ A) ∧
        (∀ l, ((links c).view s').Has l ↔ ((links c).view s).Has l ∧ l ∉ A) ∧
        ∀ (σ ρ : Type) (hd : σ → Link → Link → Ctl ρ × σ) (st : σ), (links c).deleteQueryWith s q hd st =
          some ⟨.error (.notExists j.index), s', callAll hd (A.map fun l => (l, Link.nothing)) st⟩) := by
  obtain ⟨n, hn⟩ := Option.ne_none_iff_exists'.1 hn
  refine ⟨fun hde => ?_, fun d hd hde => ?_⟩
  · refine C24_split_delete_query_partial hc h ⟨hq, hnf, hde, ?_⟩ hn hu
    rintro ⟨x, y, rfl, hx, hy⟩ l l' hl ⟨-, l1, l2⟩ hl' ⟨-, z1, z2⟩
    have z1 := z1.resolve_left hx
    have z2 := z2.resolve_left hy
    have l1 := l1.resolve_left hx
    have l2 := l2.resolve_left hy
    have hx0 : x ≠ 0 := hnf rfl x (by simp)
    have ht := hu l'.index (l'.source, l'.target) hl'
      (by intro e; rw [Prod.mk.injEq] at e; exact hx0 (z1 ▸ e.1)) l.index (by
        have : (links c).view s l.index = some (l.source, l.target) := hl
        rw [this, z1, z2, l1, l2])
    rcases l' with ⟨za, zb, zd⟩; rcases l with ⟨la, lb, ld⟩
    simp only at ht z1 z2 l1 l2
    rw [ht, z1, z2, l1, l2]
  · obtain ⟨x, rfl, hx, d1, d2⟩ := hde
    have hx0 : x ≠ 0 := hnf rfl x (by simp)
    obtain ⟨L1, v1, n1, m1⟩ := (reachLawful hc).each_source s h x hx0 hx
    obtain ⟨L2, v2, n2, m2⟩ := (reachLawful hc).each_target s h x hx0 hx
    obtain ⟨s', A, j, g1, g2, g3, g4, g5, g6, g7⟩ := Links.deleteQueryWith_double (reachLawful hc) h hn
      (visits_two hc hx v1 v2) n1 m1 n2 m2 (d := d.index)
      (by have : (links c).view s d.index = some (d.source, d.target) := hd
          rw [this, d1, d2]) (fun j _ _ _ _ => hu j) (fun _ _ _ _ _ => (reachLawful hc).canDelete_uniq _ _ hu)
    refine ⟨s', A, ⟨j, x, x⟩, g1, g2, ⟨x, rfl, hx, rfl, rfl⟩, g3, fun l hl => ⟨(g4 l hl).1, .inl rfl, .inr (g4 l hl).2⟩,
      fun l k1 k2 => g5 l k1 (k2.trans d2), fun l => has_of_deleted (fun l hl => (g4 l hl).1) g6 l, fun _ _ hd st => g7 hd st⟩

/-- Both cases on `sNetU`, where link 1 is (1,1). -/
example : ∃ (s' : Store) (j : Link), Reach cfg0 s' ∧ (∀ k, (links cfg0).view s' k ≠ some (1, 1)) ∧
    ((links cfg0).deleteQueryWith (ρ := _root_.Unit) sNetU [cfg0.consts.any, 1] (fun (n : Nat) _ _ => (.cont, n + 1)) 0).map
      (·.res) = some (.error (.notExists j.index)) := by
  have hv : (links cfg0).view sNetU 1 = some (1, 1) := by decide +kernel
  obtain ⟨s', A, j, h1, -, -, -, -, h6, h7, h8⟩ := (C68_split_delete_query_exact cfg0_ok sNetU_reach
    (q := [cfg0.consts.any, 1]) (by decide) (by intro _ x hx; simp at hx; omega) (by decide +kernel) sNetU_uniq).2
    ⟨1, 1, 1⟩ hv ⟨1, rfl, by decide, rfl, rfl⟩
  refine ⟨s', j, h1, fun k hk => ?_, by rw [h8]; rfl⟩
  have := (h7 ⟨k, 1, 1⟩).1 hk
  exact this.2 (h6 _ this.1 rfl)

example := (C68_split_delete_query_exact cfg0_ok sNetU_reach (q := [cfg0.consts.any, 3]) (by decide)
  (by intro _ x hx; simp at hx; omega) (by decide +kernel) sNetU_uniq).1 (by
    rintro ⟨i, a, b⟩ hl ⟨x, e, -, (ha : a = x), (hb : b = x)⟩
    cases e
    subst ha hb
    have hd : (⟨i, 3, 3⟩ : Link) ∈ ([] : List Link) := by
      have e := sNetU_no_double i hl
      subst e
      have : (links cfg0).view sNetU 3 = some (2, 2) := by decide +kernel
      have h2 : (links cfg0).view sNetU 3 = some (3, 3) := hl
      rw [this] at h2; cases h2
    cases hd)

end Verif.Split.Props
