import Verif.Props.Exact
import Verif.Props.UnitDerived
import Verif.Props.SplitWrites
import Verif.Props.SplitCounts
import Verif.Props.SplitNull

/-!
# C100: what `find`, `single` and `found` return, for every query

C25 is false of some queries. Here is what the three calls return in general, on both stores.
-/

namespace Verif
open Unit.Props (DoubleEnd only)

/-- Over every store: the first and the only link of a traversal, and if there is one. -/
theorem Links.find_single {S : Type} {D : Links S} {s : S} {q : List Nat} {L : List Link} (h : D.Visits s q L) :
    D.find s q = some L.head? ∧ D.single s q = some (only L) := by
  constructor
  · simp only [Links.find, Links.eachBy_eq h, Option.map_some]
    cases L <;> rfl
  · simp only [Links.single, Links.eachBy_eq h, Option.map_some]
    match L with
    | [] => rfl
    | [l] => rfl
    | _ :: _ :: _ => rfl


/-- What `single` answers, `r`, when there are the links `v`: for a source and a target one link that has them; for other
queries the only link that matches, unless it has the end `x` of the query `[any, x]` at both ends. -/
def View.SingleIs (v : View) (any : Nat) (q : List Nat) (r : Option Link) : Prop :=
  (IsPair any q → (∀ l, r = some l → v.Has l ∧ MatchQ any q l) ∧ (r = none → ∀ l, v.Has l → ¬ MatchQ any q l)) ∧
  (¬ IsPair any q → ∀ l, r = some l ↔
    v.Has l ∧ MatchQ any q l ∧ ¬ DoubleEnd any q l ∧ ∀ l', v.Has l' → MatchQ any q l' → l' = l)

/-- What `find` answers: a link that matches if there is one. -/
def View.FindIs (v : View) (any : Nat) (q : List Nat) (r : Option Link) : Prop :=
  (∀ l, r = some l → v.Has l ∧ MatchQ any q l) ∧ (r = none → ∀ l, v.Has l → ¬ MatchQ any q l)

theorem first_and_only {v : View} {any : Nat} {q : List Nat} {L : List Link}
    (h2 : ∀ l ∈ L, v.Has l ∧ MatchQ any q l)
    (h3 : ∀ l, v.Has l → MatchQ any q l → (IsPair any q → L.length = 1) ∧ (DoubleEnd any q l → L.count l = 2) ∧
      (¬ IsPair any q → ¬ DoubleEnd any q l → L.count l = 1)) :
    v.FindIs any q L.head? ∧ v.SingleIs any q (only L) := by
  have hne : ∀ l, v.Has l → MatchQ any q l → L ≠ [] := by
    rintro l hl hm rfl
    obtain ⟨a, b, d⟩ := h3 l hl hm
    by_cases hp : IsPair any q
    · cases a hp
    · by_cases hd : DoubleEnd any q l
      · cases b hd
      · cases d hp hd
  refine ⟨⟨fun l hl => h2 l (List.mem_of_mem_head? hl), fun he l hl hm => hne l hl hm (List.head?_eq_none_iff.1 he)⟩,
    fun hp => ⟨fun l he => ?_, fun he l hl hm => ?_⟩, fun hp l => ⟨fun he => ?_, ?_⟩⟩
  · match L, he with
    | [x], he =>
      cases he
      exact h2 l (by simp)
  · have := (h3 l hl hm).1 hp
    match L, this, he with
    | [x], _, he => cases he
  · match L, he, h2, h3 with
    | [x], he, h2, h3 =>
      cases he
      have k := h2 l (by simp)
      refine ⟨k.1, k.2, fun hd => ?_, fun l' hl' hm' => ?_⟩
      · have e := (h3 l k.1 k.2).2.1 hd
        simp at e
      · obtain ⟨-, b, d⟩ := h3 l' hl' hm'
        have hm : l' ∈ [l] := List.count_pos_iff.1 (by
          by_cases hd : DoubleEnd any q l'
          · have := b hd; omega
          · have := d hp hd; omega)
        exact List.mem_singleton.1 hm
  · rintro ⟨hl, hm, hd, hu⟩
    have hc := (h3 l hl hm).2.2 hp hd
    have hall : ∀ x ∈ L, x = l := fun x hx => hu x (h2 x hx).1 (h2 x hx).2
    match L, hc, hall with
    | [x], _, ha => rw [ha x (by simp)]; rfl
    | x :: y :: L, hc, ha =>
      rw [ha x (by simp), ha y (by simp)] at hc
      simp at hc

end Verif

namespace Verif.Unit.Props
open Verif

variable {c : Cfg}

/-- **C100**, united store, every query of at most three parts. For null ends over all links (`NullAsk`) `find` and `single`
return nothing and `found` returns false, whatever links there are. For all other queries `find` returns a matching link if
there is one; `found`, when it returns, tells if there is one; `single` returns one of the matching links if the query gives
source and target, even if there are several, and otherwise the only matching link, unless it is visited twice. -/
theorem C100_find_single_found (hc : CfgOK c) {s : Store} (h : Reach c s) (q : List Nat) (hq : q.length ≤ 3) :
    (NullAsk c.consts.any q → (links c).find s q = some none ∧ (links c).single s q = some none ∧
      ∀ b, (links c).found s q = some b → b = false) ∧
    (¬ NullAsk c.consts.any q → ∃ f r, (links c).find s q = some f ∧ (links c).single s q = some r ∧
      ((links c).view s).FindIs c.consts.any q f ∧ ((links c).view s).SingleIs c.consts.any q r ∧
      ∀ b, (links c).found s q = some b → (b = true ↔ ∃ l, ((links c).view s).Has l ∧ MatchQ c.consts.any q l)) := by
  obtain ⟨L, h1, h2, h3, h4⟩ := C58_traversal_exact hc h q hq
  obtain ⟨e1, e2⟩ := Links.find_single h1
  have hfound : ∀ b, (links c).found s q = some b → (b = true ↔ L ≠ []) := by
    intro b hb
    unfold Links.found at hb
    cases hcnt : (links c).countBy s q with
    | none => rw [hcnt] at hb; cases hb
    | some n =>
      obtain ⟨M, m1, m2⟩ := C10_count_equals_visits hc h q hq hcnt
      have hM : M = L := by
        obtain ⟨L', k1, -, k2⟩ := C29_iterators_yield_the_traversal hc h hq
        have k3 := k2 n hcnt
        rw [m1] at k3
        cases k3
        have a := k1 (List Link) _root_.Unit (fun acc l => (.cont, acc ++ [l])) []
        rw [Links.eachBy_eq h1] at a
        have col : ∀ (X : List Link) (acc : List Link),
            runH (ρ := _root_.Unit) (fun acc l => (.cont, acc ++ [l])) X acc = (.cont, acc ++ X) := by
          intro X
          induction X with
          | nil => intro acc; simp [runH]
          | cons x X ih => intro acc; simp [runH, ih]
        rw [col, col] at a
        simpa using (congrArg Prod.snd (Option.some.inj a)).symm
      rw [hcnt] at hb
      simp only [Option.map_some, Option.some.injEq] at hb
      rw [← hb, bne_iff_ne, ← m2, hM]
      exact ⟨fun k e => k (by rw [e]; rfl), fun k e => k (List.eq_nil_of_length_eq_zero e)⟩
  refine ⟨fun hn => ?_, fun hn => ?_⟩
  · have := h3 hn
    subst this
    refine ⟨e1, e2, fun b hb => ?_⟩
    have := hfound b hb
    cases b
    · rfl
    · exact absurd rfl (this.1 rfl)
  · have hfo := first_and_only h2 (h4 hn)
    refine ⟨_, _, e1, e2, hfo.1, hfo.2, fun b hb => (hfound b hb).trans ⟨fun hne => ?_, ?_⟩⟩
    · obtain ⟨l, hl⟩ := List.exists_mem_of_ne_nil L hne
      exact ⟨l, h2 l hl⟩
    · rintro ⟨l, hl, hm⟩ e
      rw [e] at hfo
      exact hfo.1.2 rfl l hl hm

end Verif.Unit.Props

namespace Verif

/-- When the split store answers that a query finds something: `[i, x]` only if link `i` has both ends `x`; for an end or a
source that is not a link also if no link has a source that is not a link and some index below a link is unused; for a
source that is not a link, whatever the target. -/
def View.SplitFound (v : View) (any : Nat) : List Nat → Prop
  | [i, x] =>
    (x = any → ∃ l, v.Has l ∧ MatchQ any [i] l) ∧
    (x ≠ any → i = any → (∃ l, v.Has l ∧ (l.source = x ∨ l.target = x)) ∨ v x = none ∧ ¬ v.SourceDangles ∧ ¬ v.GapFree) ∧
    (x ≠ any → i ≠ any → v.Has ⟨i, x, x⟩)
  | [i, x, y] =>
    (i = any → x ≠ any → v x = none → (∃ l, v.Has l ∧ l.source = x) ∨ ¬ v.SourceDangles ∧ ¬ v.GapFree) ∧
    (¬ (i = any ∧ x ≠ any ∧ v x = none) → ∃ l, v.Has l ∧ MatchQ any [i, x, y] l)
  | q => ∃ l, v.Has l ∧ MatchQ any q l

theorem View.Counts.ne_zero {v : View} {P : Link → Prop} {n : Nat} (h : v.Counts P n) : n ≠ 0 ↔ ∃ l, v.Has l ∧ P l := by
  obtain ⟨L, -, h2, h3⟩ := h
  rw [← h2]
  constructor
  · intro hn
    obtain ⟨l, hl⟩ := List.exists_mem_of_length_pos (Nat.pos_of_ne_zero hn)
    exact ⟨l, (h3 l).1 hl⟩
  · rintro ⟨l, hl⟩ e
    have := (h3 l).2 hl
    rw [List.eq_nil_of_length_eq_zero e] at this
    cases this

theorem View.SourceCount.ne_zero {v : View} {f x n : Nat} (h : v.SourceCount f x n) (hx : x ≠ 0) (hf : v.GapFree → f = 0)
    (hf' : ¬ v.GapFree → f ≠ 0) :
    n ≠ 0 ↔ (∃ l, v.Has l ∧ l.source = x) ∨ v x = none ∧ ¬ v.SourceDangles ∧ ¬ v.GapFree := by
  by_cases hd : v x ≠ none ∨ v.SourceDangles
  · rw [(h.2 hd).ne_zero]
    constructor
    · exact .inl
    · rintro (k | ⟨k1, k2, -⟩)
      · exact k
      · rcases hd with e | e
        · exact absurd k1 e
        · exact absurd e k2
  · have h1 : v x = none := Classical.byContradiction fun e => hd (.inl e)
    have h2 : ¬ v.SourceDangles := fun e => hd (.inr e)
    rw [h.1 ⟨h1, h2⟩]
    constructor
    · intro k
      exact .inr ⟨h1, h2, fun g => k (hf g)⟩
    · rintro (⟨l, hl, e⟩ | ⟨-, -, k⟩)
      · exact absurd ⟨l.index, l.source, l.target, hl, e ▸ hx, e ▸ h1⟩ h2
      · exact hf' k

end Verif

namespace Verif.Split.Props
open Verif

variable {c : Cfg}

/-- **C100**, split store, every query of at most three parts that does not ask for null ends over all links: `find` and
`single` answer as on the united store; `found`, when it returns, answers what `SplitFound` says. -/
theorem C100_split_find_single_found (hc : CfgOK c) {s : Store} (h : Reach c s) (q : List Nat) (hq : q.length ≤ 3)
    (hn : NullFree c.consts.any q) : ∃ f r, (links c).find s q = some f ∧ (links c).single s q = some r ∧
      ((links c).view s).FindIs c.consts.any q f ∧ ((links c).view s).SingleIs c.consts.any q r ∧
      ∀ b, (links c).found s q = some b → (b = true ↔ ((links c).view s).SplitFound c.consts.any q) := by
  obtain ⟨L, h1, h2, h3⟩ := C45_split_traversal_partial hc h q hq hn
  obtain ⟨e1, e2⟩ := Links.find_single h1
  have hfo := first_and_only h2 (fun l hl hm =>
    ⟨fun hp => ((h3 l hl hm).2.2 hp).1, (h3 l hl hm).2.1, (h3 l hl hm).1⟩)
  refine ⟨_, _, e1, e2, hfo.1, hfo.2, fun b hb => ?_⟩
  obtain ⟨free, hi⟩ := reach_good hc h
  obtain ⟨n, n1, n2⟩ := split_count hc hi q hq hn
  have f1 : ((links c).view s).GapFree → free.headD 0 = 0 := fun hg => by rw [(gapFree_iff hc hi).1 hg]; rfl
  have hf' : ¬ ((links c).view s).GapFree → free.headD 0 ≠ 0 := by
    intro hg
    rw [gapFree_iff hc hi] at hg
    match free, hi, hg with
    | x :: rest, hi, _ => exact hi.base.list.nonzero x (by simp)
  generalize free.headD 0 = f at f1 hf' n1
  have hb' : b = true ↔ n ≠ 0 := by
    rw [Links.found, n2] at hb
    split at hb
    · simp only [Option.map_some, Option.some.injEq] at hb
      rw [← hb, bne_iff_ne]
    · cases hb
  rw [hb']
  generalize (links c).view s = v at *
  match q, n1, hn with
  | [], n1, _ => exact n1.ne_zero
  | [i], n1, _ => exact n1.ne_zero
  | [i, x], n1, hn =>
    by_cases hx : x = c.consts.any
    · simp only [View.SplitCount, hx, if_true] at n1
      simp only [View.SplitFound, hx]
      simpa using n1.ne_zero
    · by_cases hi : i = c.consts.any
      · have hx0 : x ≠ 0 := hn (by simp [hi]) x (by simp)
        simp only [View.SplitCount, hx, hi, if_false, if_true] at n1
        obtain ⟨a, b, a1, a2, rfl⟩ := n1
        have k1 := a1.ne_zero hx0 f1 hf'
        have k2 := a2.ne_zero
        have k3 : a + b ≠ 0 ↔ a ≠ 0 ∨ b ≠ 0 := by omega
        rw [k3, k1, k2]
        simp only [View.SplitFound, hx, hi]
        constructor
        · rintro ((⟨l, l1, l2⟩ | k) | ⟨l, l1, l2⟩)
          · exact ⟨fun k => k.elim, fun _ _ => .inl ⟨l, l1, .inl l2⟩, fun _ k => absurd rfl k⟩
          · exact ⟨fun k => k.elim, fun _ _ => .inr k, fun _ k => absurd rfl k⟩
          · exact ⟨fun k => k.elim, fun _ _ => .inl ⟨l, l1, .inr l2⟩, fun _ k => absurd rfl k⟩
        · rintro ⟨-, k, -⟩
          rcases k hx trivial with ⟨l, l1, l2 | l2⟩ | k
          · exact .inl (.inl ⟨l, l1, l2⟩)
          · exact .inr ⟨l, l1, l2⟩
          · exact .inl (.inr k)
      · simp only [View.SplitCount, hx, hi, if_false] at n1
        rw [n1.ne_zero]
        constructor
        · rintro ⟨⟨i', a, b⟩, l1, (l2 : i' = i), (l3 : a = x), (l4 : b = x)⟩
          rw [l2, l3, l4] at l1
          exact ⟨fun k => absurd k hx, fun _ k => absurd k hi, fun _ _ => l1⟩
        · rintro ⟨-, -, k⟩
          exact ⟨_, k hx hi, rfl, rfl, rfl⟩
  | [i, x, y], n1, hn =>
    simp only [View.SplitCount] at n1
    by_cases hix : i = c.consts.any ∧ x ≠ c.consts.any
    · have hx0 : x ≠ 0 := hn (by simp [hix.1]) x (by simp)
      by_cases hv : v x = none
      · rw [if_pos ⟨hix.1, hix.2, .inl hv⟩] at n1
        rw [n1.ne_zero hx0 f1 hf']
        constructor
        · rintro (k | ⟨-, k⟩)
          · exact ⟨fun _ _ _ => .inl k, fun k => absurd ⟨hix.1, hix.2, hv⟩ k⟩
          · exact ⟨fun _ _ _ => .inr k, fun k => absurd ⟨hix.1, hix.2, hv⟩ k⟩
        · rintro ⟨k, -⟩
          rcases k hix.1 hix.2 hv with k | k
          · exact .inl k
          · exact .inr ⟨hv, k⟩
      · have hg : (∃ l, v.Has l ∧ MatchQ c.consts.any [i, x, y] l) ↔ v.SplitFound c.consts.any [i, x, y] :=
          ⟨fun k => ⟨fun _ _ e => absurd e hv, fun _ => k⟩, fun k => k.2 fun e => hv e.2.2⟩
        rw [← hg]
        by_cases hy : y = c.consts.any
        · rw [if_pos ⟨hix.1, hix.2, .inr hy⟩] at n1
          rw [n1.ne_zero hx0 f1 hf']
          constructor
          · rintro (⟨l, l1, l2⟩ | ⟨k, -⟩)
            · exact ⟨l, l1, .inl hix.1, .inr l2, .inl hy⟩
            · exact absurd k hv
          · rintro ⟨l, l1, -, l2, -⟩
            exact .inl ⟨l, l1, l2.resolve_left hix.2⟩
        · rw [if_neg (by rintro ⟨-, -, k | k⟩ <;> contradiction), if_pos hix] at n1
          rw [n1]
          constructor
          · intro k
            split at k
            · next hl =>
              obtain ⟨l, l1, l2, l3⟩ := hl
              exact ⟨l, l1, .inl hix.1, .inr l2, .inr l3⟩
            · exact absurd rfl k
          · rintro ⟨l, l1, -, l2, l3⟩
            rw [if_pos ⟨l, l1, l2.resolve_left hix.2, l3.resolve_left hy⟩]
            decide
    · rw [if_neg (fun k => hix ⟨k.1, k.2.1⟩), if_neg hix] at n1
      rw [n1.ne_zero]
      exact ⟨fun k => ⟨fun e1 e2 _ => absurd ⟨e1, e2⟩ hix, fun _ => k⟩, fun k => k.2 fun e => hix ⟨e.1, e.2.1⟩⟩
  | _ :: _ :: _ :: _ :: _, _, _ => simp at hq

end Verif.Split.Props

namespace Verif.Unit.Props
open Verif

/-- `sDouble` is 1 = (0,0), 2 = (0,0), 3 = (2,1), 4 = (2,2). -/
example : Reach cfg0 sDouble ∧ (links cfg0).find sDouble [252, 0] = some none ∧
    (links cfg0).single sDouble [252, 252, 2] = some (some ⟨4, 2, 2⟩) ∧ (links cfg0).single sDouble [252, 2] = some none ∧
    (links cfg0).found sDouble [252, 1] = some true := ⟨sDouble_reach, by decide +kernel⟩

example : ¬ NullAsk cfg0.consts.any [252, 252, 2] := by
  rintro (h | h | ⟨y, h⟩) <;> simp [cfg0] at h

end Verif.Unit.Props

namespace Verif.Split.Props
open Verif

/-- **C100**, split store, every query of at most three parts, null ends included: `find` and `single` return, and what they
return is a link of the store, but for null ends not always one that matches; `single` returns nothing or what `find` does. -/
theorem C100_split_answers_are_links {c : Cfg} (hc : CfgOK c) {s : Store} (h : Reach c s) (q : List Nat) (hq : q.length ≤ 3) :
    ∃ f r, (links c).find s q = some f ∧ (links c).single s q = some r ∧ (∀ l, f = some l → ((links c).view s).Has l) ∧
      (r = none ∨ r = f) := by
  obtain ⟨L, h1, h2⟩ := C67_reads_return hc h q hq
  obtain ⟨e1, e2⟩ := Links.find_single h1
  refine ⟨_, _, e1, e2, fun l hl => h2 l (List.mem_of_mem_head? hl), ?_⟩
  match L with
  | [] => exact .inl rfl
  | [l] => exact .inr rfl
  | _ :: _ :: _ => exact .inl rfl

/-- The query for source 0 finds 6 = (3,2). -/
example : Reach cfg0 sNetU ∧ (links cfg0).find sNetU [252, 0, 252] = some (some ⟨6, 3, 2⟩) := ⟨sNetU_reach, by decide +kernel⟩

/-- `sNetU` is 1 = (1,1), 2 = (1,3), 3 = (2,2), 4 = (0,0), 6 = (3,2): link 2 has the end 1, but is not found; nothing has the
source 9, but something is found. -/
example : Reach cfg0 sNetU ∧ NullFree cfg0.consts.any [252, 9, 252] ∧ (links cfg0).found sNetU [2, 1] = some false ∧
    (links cfg0).found sNetU [252, 9, 252] = some true ∧ (links cfg0).found sNetU [252, 9, 4] = some true ∧
    (links cfg0).found sNetU [252, 252, 9] = some false ∧ (links cfg0).single sNetU [252, 9, 252] = some none :=
  ⟨sNetU_reach, by intro _ x hx; simp at hx; omega, by decide +kernel⟩

end Verif.Split.Props
