import Verif.Split.Query
import Verif.Split.Reach
import Verif.Split.Example
import Verif.Props.SplitFindings
import Verif.DecoratorLaws
import Verif.Props.Exact
import Verif.Props.SplitQueries

/-!
# C73: what `count_by` returns on the split store

C34 is false: the counts differ from the traversals in three cases. This file gives the count for every query of at most
three parts that does not ask for null ends over all links.
-/

namespace Verif

/-- Exactly `n` links satisfy `P`. -/
def View.Counts (v : View) (P : Link → Prop) (n : Nat) : Prop :=
  ∃ L : List Link, L.Nodup ∧ L.length = n ∧ ∀ l, l ∈ L ↔ v.Has l ∧ P l

/-- The number the split store reports for the links with source `x`: their number, unless `x` is not a link and no link has a
source that is not a link; then it is `f`. -/
def View.SourceCount (v : View) (f x n : Nat) : Prop :=
  (v x = none ∧ ¬ v.SourceDangles → n = f) ∧ (v x ≠ none ∨ v.SourceDangles → v.Counts (·.source = x) n)

open Classical in
/-- The number the split store reports for a query. -/
noncomputable def View.SplitCount (v : View) (any f : Nat) : List Nat → Nat → Prop
  | [i, x], n =>
    if x = any then v.Counts (MatchQ any [i]) n
    else if i = any then ∃ a b, v.SourceCount f x a ∧ v.Counts (·.target = x) b ∧ n = a + b
    else v.Counts (fun l => l.index = i ∧ l.source = x ∧ l.target = x) n
  | [i, x, y], n =>
    if i = any ∧ x ≠ any ∧ (v x = none ∨ y = any) then v.SourceCount f x n
    else if i = any ∧ x ≠ any then n = if ∃ l, v.Has l ∧ l.source = x ∧ l.target = y then 1 else 0
    else v.Counts (MatchQ any [i, x, y]) n
  | q, n => v.Counts (MatchQ any q) n

end Verif

namespace Verif.Split
open Verif
open Verif.Unit (callIf oneIf)

variable {c : Cfg}

theorem counts_map (hc : CfgOK c) {s : Store} {free : List Nat} (h : Inv c s free) {L : List Nat} {P : Link → Prop}
    (hn : L.Nodup) (hP : ∀ k, k ∈ L ↔ LiveIn s free k ∧ P (s.linkAt k)) : ((links c).view s).Counts P L.length := by
  refine ⟨L.map s.linkAt, ?_, by simp, fun l => ?_⟩
  · exact List.pairwise_map.2 (hn.imp fun {a b} hab he => hab (congrArg Link.index he))
  · rw [has_iff hc h.toInv0, List.mem_map]
    constructor
    · rintro ⟨k, hk, rfl⟩
      exact ⟨⟨((hP k).1 hk).1, rfl⟩, ((hP k).1 hk).2⟩
    · rintro ⟨⟨h1, h2⟩, h3⟩
      exact ⟨l.index, (hP _).2 ⟨h1, h2 ▸ h3⟩, h2.symm⟩

theorem source_count (hc : CfgOK c) {s : Store} {free : List Nat} (h : Inv c s free) {x : Nat} (h0 : x ≠ 0)
    (ha : x ≠ c.consts.any) :
    ∃ n, countLinks c s [c.consts.any, x, c.consts.any] = some n ∧ n ≤ c.consts.internalEnd ∧
      ((links c).view s).SourceCount (free.headD 0) x n := by
  obtain ⟨L, -, g2, g3, ⟨n, g4, g5⟩, g6⟩ := side_usages hc h .src h0 ha
  refine ⟨n, g4, g5, ?_⟩
  unfold View.SourceCount
  have g4 : countLinks c s (sideQuery c .src x) = some n := g4
  constructor
  · intro hx
    obtain ⟨M, -, -, k, -⟩ := each_side_ext hc h.net h.exact .src
      (fun hl => (view_ne_none hc h.toInv0).2 hl hx.1) h0 ha
    have := k rfl (Classical.byContradiction fun hno => hx.2 ((sourceDangles_iff hc h.toInv0).2 hno))
    rw [g4] at this
    exact Option.some.inj this
  · intro this
    have e := g2 (.inr (this.imp_right .inl))
    rw [g4] at e
    cases e
    exact counts_map hc h g3 g6

theorem target_count (hc : CfgOK c) {s : Store} {free : List Nat} (h : Inv c s free) {y : Nat} (h0 : y ≠ 0)
    (ha : y ≠ c.consts.any) :
    ∃ n, countLinks c s [c.consts.any, c.consts.any, y] = some n ∧ n ≤ c.consts.internalEnd ∧
      ((links c).view s).Counts (·.target = y) n := by
  obtain ⟨L, -, g2, g3, ⟨n, g4, g5⟩, g6⟩ := side_usages hc h .tgt h0 ha
  have e : countLinks c s [c.consts.any, c.consts.any, y] = some L.length := g2 (.inl rfl)
  have g4 : countLinks c s [c.consts.any, c.consts.any, y] = some n := g4
  rw [e] at g4
  cases g4
  exact ⟨_, e, g5, counts_map hc h g3 g6⟩

theorem counts_congr {v : View} {P Q : Link → Prop} {n : Nat} (h : v.Counts P n) (hPQ : ∀ l, v.Has l → (P l ↔ Q l)) :
    v.Counts Q n := by
  obtain ⟨L, h1, h2, h3⟩ := h
  exact ⟨L, h1, h2, fun l => (h3 l).trans (and_congr_right (hPQ l))⟩

/-- Counting the links with index `i` that satisfy `b`. -/
theorem counts_index (hc : CfgOK c) {s : Store} {free : List Nat} (h : Inv c s free) (i : Nat) (P : Link → Prop)
    [Decidable (LiveIn s free i ∧ P (s.linkAt i))] (hP : ∀ l, P l → l.index = i) :
    ((links c).view s).Counts P (if LiveIn s free i ∧ P (s.linkAt i) then 1 else 0) := by
  split
  · next hi =>
    have := counts_map hc h (L := [i]) (P := P) (by simp) (fun k => by
      rw [List.mem_singleton]
      constructor
      · rintro rfl; exact hi
      · rintro ⟨_, h2⟩; exact hP _ h2)
    simpa using this
  · next hi =>
    have := counts_map hc h (L := []) (P := P) (by simp) (fun k => by
      simp only [List.not_mem_nil, false_iff]
      rintro ⟨h1, h2⟩
      have e : k = i := hP _ h2
      subst e
      exact hi ⟨h1, h2⟩)
    simpa using this

theorem split_count (hc : CfgOK c) {s : Store} {free : List Nat} (h : Inv c s free) (q : List Nat) (hq : q.length ≤ 3)
    (hnf : NullFree c.consts.any q) :
    ∃ n, ((links c).view s).SplitCount c.consts.any (free.headD 0) q n ∧
      (links c).countBy s q = if n ≤ c.maxT then some n else none := by
  have h0 := h.toInv0
  have hend := hc.end_le
  have hal := h.base.alloc_le
  show ∃ n, _ ∧ countLinks c s q = _
  have hall : ∀ P : Link → Prop, (∀ l, P l) → ∃ n, ((links c).view s).Counts P n ∧
      total s = if n ≤ c.maxT then some n else none := by
    intro P hP
    refine ⟨_, counts_map hc h (nodup_liveList s free) (fun k => ?_), ?_⟩
    · rw [mem_liveList]; exact ⟨fun x => ⟨x, hP _⟩, fun x => x.1⟩
    · have : (liveList s free).length ≤ c.consts.internalEnd :=
        Nat.le_trans (length_le_of_nodup_le _ _ (nodup_liveList s free) fun k hk =>
          ⟨(mem_liveList.1 hk).1, (mem_liveList.1 hk).2.1⟩) hal
      rw [total_eq h.base, if_pos (by omega)]
  have hex := exists_eq hc h.net h.exact
  have hunc := fun {i} (hi : LiveIn s free i) => getLinkUnchecked_eq h.base hi
  have hun := fun v => isUnused_some h.base v
  have hie := hc.index_eq
  have hse := hc.source_eq
  have hte := hc.target_eq
  have hunv : ∀ v, v ≠ 0 → isUnused s v = some (decide (¬ LiveIn s free v)) :=
    fun v hv => h.net.unused hv (h.exact v)
  have hone : ∀ {i}, LiveIn s free i → 1 ≤ c.maxT := fun {i} hi => by have := hi.1; have := hi.2.1; omega
  have hle1 : ∀ {i} {P : Prop} [Decidable P], (if LiveIn s free i ∧ P then 1 else 0) ≤ c.maxT := by
    intro i P _
    split
    · next hi => exact hone hi.1
    · exact Nat.zero_le _
  match q, hq with
  | [], _ =>
    obtain ⟨n, h1, h2⟩ := hall (MatchQ c.consts.any []) (fun _ => trivial)
    exact ⟨n, h1, by simpa [countLinks] using h2⟩
  | [i], _ =>
    by_cases hi : i = c.consts.any
    · obtain ⟨n, h1, h2⟩ := hall (MatchQ c.consts.any [i]) (fun _ => .inl hi)
      exact ⟨n, h1, by simpa [countLinks, hie, hi] using h2⟩
    · refine ⟨if LiveIn s free i ∧ True then 1 else 0, ?_, ?_⟩
      · show ((links c).view s).Counts (MatchQ c.consts.any [i]) _
        have := counts_index hc h i (fun l => l.index = i) (fun _ => id)
        simp only [Store.linkAt] at this
        have := counts_congr this (Q := MatchQ c.consts.any [i]) (fun l _ => by simp [MatchQ, hi])
        simpa using this
      · rw [if_pos hle1]
        simp only [countLinks, List.length_singleton, hie, List.getElem?_cons_zero,
          Option.bind_some, hi, if_false, if_true, hex, Option.map_some, Nat.one_ne_zero, and_true]
        by_cases hl : LiveIn s free i <;> simp [hl, oneIf]
  | [i, x], _ =>
    obtain ⟨u, hu⟩ := hun x
    by_cases hx : x = c.consts.any
    · by_cases hi : i = c.consts.any
      · obtain ⟨n, h1, h2⟩ := hall (MatchQ c.consts.any [i]) (fun _ => .inl hi)
        refine ⟨n, by simp only [View.SplitCount, hx, if_true]; exact h1, ?_⟩
        rw [hx] at hu
        simpa [countLinks, hie, hi, hx, hu] using h2
      · refine ⟨if LiveIn s free i ∧ True then 1 else 0, ?_, ?_⟩
        · simp only [View.SplitCount, hx, if_true]
          have := counts_index hc h i (fun l => l.index = i) (fun _ => id)
          simp only [Store.linkAt] at this
          have := counts_congr this (Q := MatchQ c.consts.any [i]) (fun l _ => by simp [MatchQ, hi])
          simpa using this
        · rw [if_pos hle1]
          rw [hx] at hu
          by_cases hl : LiveIn s free i <;> simp [countLinks, hie, hi, hex, hl, hx, hu]
    · by_cases hi : i = c.consts.any
      · have hx0 : x ≠ 0 := hnf (by simp [hi]) x (by simp)
        obtain ⟨a, a1, a2, a3⟩ := source_count hc h hx0 hx
        obtain ⟨b, b1, b2, b3⟩ := target_count hc h hx0 hx
        refine ⟨a + b, ?_, ?_⟩
        · simp only [View.SplitCount, hx, hi, if_false, if_true]
          exact ⟨a, b, a3, b3, rfl⟩
        · have hxs := hunv x hx0
          obtain ⟨w, hw⟩ := hun c.consts.any
          simp only [countLinks, hie, hse, hte, List.length_cons, List.length_nil,
            Nat.reduceAdd, Nat.reduceEqDiff, if_false, if_true, List.getElem?_cons_zero,
            List.getElem?_cons_succ, Option.bind_some, count3, hxs, hw, hx, true_and, and_false,
            and_true] at a1 b1
          simp only [countLinks, hie, List.length_cons, List.length_nil, Nat.reduceAdd,
            Nat.reduceEqDiff, if_false, if_true, List.getElem?_cons_zero,
            List.getElem?_cons_succ, Option.bind_some, hxs, hi, hx]
          by_cases hl : LiveIn s free x
          · simp only [hl, not_true, decide_false, Bool.false_eq_true, if_false] at a1 b1 ⊢
            simp [a1, b1, cadd]
          · simp only [hl, not_false_eq_true, decide_true, if_true] at a1 b1 ⊢
            simp [a1, b1, cadd]
      · refine ⟨if LiveIn s free i ∧ ((s.data i).1 = x ∧ (s.data i).2 = x) then 1 else 0, ?_, ?_⟩
        · simp only [View.SplitCount, hx, hi, if_false]
          have := counts_index hc h i (fun l => l.index = i ∧ l.source = x ∧ l.target = x) (fun _ hh => hh.1)
          simpa [Store.linkAt] using this
        · rw [if_pos hle1]
          by_cases hl : LiveIn s free i
          · have hg := hunc hl
            have hdat : s.getD i = some (s.data i) := by
              unfold getLinkUnchecked at hg
              cases hd : s.getD i with
              | none => rw [hd] at hg; simp at hg
              | some p =>
                unfold Store.getD at hd
                split at hd
                · rw [← hd]
                · cases hd
            simp only [countLinks, hie, hi, hex, hl, hx, hu, hdat, oneIf, List.length_cons,
              List.length_nil, Nat.reduceAdd, Nat.reduceEqDiff, if_false, if_true,
              List.getElem?_cons_zero, List.getElem?_cons_succ, Option.bind_some, decide_true,
              Bool.not_true, Bool.false_eq_true, Option.map_some, true_and]
            by_cases e1 : (s.data i).1 = x <;> by_cases e2 : (s.data i).2 = x <;> simp [e1, e2]
          · simp [countLinks, hie, hi, hex, hl, hu]
  | [i, x, y], _ =>
    have hC : countLinks c s [i, x, y] = count3 c s i x y := by
      simp [countLinks, hie, hse, hte]
    by_cases hi : i = c.consts.any
    · have hx0 : x ≠ 0 := hnf (by simp [hi]) x (by simp)
      have hy0 : y ≠ 0 := hnf (by simp [hi]) y (by simp)
      have hux := hunv x hx0
      have huy := hunv y hy0
      subst hi
      by_cases hx : x = c.consts.any
      · subst hx
        by_cases hy : y = c.consts.any
        · obtain ⟨n, h1, h2⟩ := hall (MatchQ c.consts.any [c.consts.any, c.consts.any, y])
            (fun _ => ⟨.inl rfl, .inl rfl, .inl hy⟩)
          refine ⟨n, by simpa [View.SplitCount] using h1, ?_⟩
          rw [hC]
          simp only [count3, hux, huy, Option.bind_some]
          simpa [hy] using h2
        · obtain ⟨n, h1, h2, h3⟩ := target_count hc h hy0 hy
          refine ⟨n, ?_, by rw [if_pos (by omega)]; exact h1⟩
          simp only [View.SplitCount, ne_eq, not_true_eq_false, false_and, and_false, if_false]
          exact counts_congr h3 fun l _ => by simp [MatchQ, hy]
      · by_cases hv : (links c).view s x = none ∨ y = c.consts.any
        · obtain ⟨n, h1, h2, h3⟩ := source_count hc h hx0 hx
          refine ⟨n, by simp only [View.SplitCount, true_and]; rw [if_pos ⟨hx, hv⟩]; exact h3, ?_⟩
          rw [if_pos (by omega), ← h1]
          rcases hv with hv | rfl
          · have hl : ¬ LiveIn s free x := fun hl => (view_ne_none hc h0).2 hl hv
            obtain ⟨w, hw⟩ := hun c.consts.any
            rw [hC]
            simp [countLinks, hie, hse, hte, count3, hux, huy, hw, hl, hx]
          · rfl
        · have hv1 : (links c).view s x ≠ none := fun hh => hv (.inl hh)
          have hy : y ≠ c.consts.any := fun hh => hv (.inr hh)
          have hxl := (view_ne_none hc h0).1 hv1
          obtain ⟨k, e1, e2⟩ := pairSearch_ok hc h0 hx0 hy0
          have hS : ∀ n, ((links c).view s).SplitCount c.consts.any (free.headD 0) [c.consts.any, x, y] n ↔
              n = open Classical in (if ∃ l, ((links c).view s).Has l ∧ l.source = x ∧ l.target = y then 1 else 0) := by
            intro n
            simp only [View.SplitCount, true_and]
            rw [if_neg fun hh => hv hh.2, if_pos hx]
          rcases e2 with ⟨rfl, e3⟩ | ⟨e2, e3, e5⟩
          · refine ⟨0, (hS 0).2 ?_, ?_⟩
            · rw [if_neg]
              rintro ⟨l, hl, h2, h3⟩
              have hl2 := (has_iff hc h0 l).1 hl
              refine e3 _ hl2.1 ?_
              have es : (s.data l.index).1 = l.source := by rw [hl2.2]; rfl
              have et : (s.data l.index).2 = l.target := by rw [hl2.2]; rfl
              exact Prod.ext (es.trans h2) (et.trans h3)
            · rw [hC, if_pos (Nat.zero_le _)]
              simp only [count3, hux, huy, Option.bind_some, e1]
              simp [hx, hy, hc.null_eq, hxl]
          · refine ⟨1, (hS 1).2 ?_, ?_⟩
            · rw [if_pos ⟨s.linkAt k, (has_iff hc h0 _).2 ⟨e3, rfl⟩, congrArg Prod.fst e5, congrArg Prod.snd e5⟩]
            · rw [hC, if_pos (hone e3)]
              simp only [count3, hux, huy, Option.bind_some, e1]
              simp [hx, hy, hc.null_eq, hxl, e2]
    · obtain ⟨ux, hux⟩ := hun x
      obtain ⟨uy, huy⟩ := hun y
      refine ⟨if LiveIn s free i ∧ ((x = c.consts.any ∨ (s.data i).1 = x) ∧ (y = c.consts.any ∨ (s.data i).2 = y))
        then 1 else 0, ?_, ?_⟩
      · simp only [View.SplitCount, hi, false_and, if_false]
        have := counts_index hc h i (fun l => l.index = i ∧ (x = c.consts.any ∨ l.source = x) ∧
          (y = c.consts.any ∨ l.target = y)) (fun _ hh => hh.1)
        have := counts_congr this (Q := MatchQ c.consts.any [i, x, y]) (fun l _ => by simp [MatchQ, hi])
        simpa [Store.linkAt] using this
      · rw [hC, if_pos hle1]
        by_cases hl : LiveIn s free i
        · simp only [count3, hux, huy, hi, if_false, hex, hl, hunc hl, Option.map_some, oneIf,
            Store.linkAt, Option.bind_some, decide_true, Bool.not_true, true_and]
          by_cases hx : x = c.consts.any <;> by_cases hy : y = c.consts.any <;>
            simp [hx, hy]
        · simp [count3, hux, huy, hi, hex, hl]

end Verif.Split

namespace Verif.Split.Props
open Verif
open Verif.Unit.Props (DoubleEnd)

variable {c : Cfg}

/-- **C73.** There is a number `f` (0 if no index below a link is unused, otherwise the index the next creation will return) such
that every count by a query of at most three parts that does not ask for null ends over all links is the one described by
`SplitCount`; it overflows only if that number is not a value of the index type. -/
theorem C73_split_count (hc : CfgOK c) {s : Store} (h : Reach c s) :
    ∃ f, (((links c).view s).GapFree → f = 0) ∧
      (¬ ((links c).view s).GapFree → ∃ s', (links c).create s = some ⟨.ok f, s', ()⟩) ∧
      ∀ q : List Nat, q.length ≤ 3 → NullFree c.consts.any q → ∃ n,
        ((links c).view s).SplitCount c.consts.any f q n ∧
        (links c).countBy s q = if n ≤ c.maxT then some n else none := by
  obtain ⟨free, hi⟩ := reach_good hc h
  refine ⟨free.headD 0, fun hg => ?_, fun hg => ?_, fun q hq hn => split_count hc hi q hq hn⟩
  · rw [(gapFree_iff hc hi).1 hg]; rfl
  · rw [gapFree_iff hc hi] at hg
    rcases create_cases hc hi [] with ⟨x, rest, s1, hf, hS, -⟩ | ⟨hf, -⟩ | ⟨hf, -⟩ | ⟨hf, -⟩ | ⟨hf, -⟩ | ⟨hf, -⟩
    · exact ⟨s1, by rw [hf]; exact create_of_succeeds hS⟩
    all_goals exact absurd hf hg

/-- The count for a source that is not a link, when no source dangles, is the index the next creation returns. -/
theorem C73_split_count_of_nothing (hc : CfgOK c) {s : Store} (h : Reach c s) {x i : Nat} {s' : Store} (hx0 : x ≠ 0)
    (hx : x ≠ c.consts.any) (hv : (links c).view s x = none) (hd : ¬ ((links c).view s).SourceDangles)
    (hg : ¬ ((links c).view s).GapFree) (hcr : (links c).create s = some ⟨.ok i, s', ()⟩) :
    (links c).countBy s [c.consts.any, x, c.consts.any] = some i ∧ (links c).collect s [c.consts.any, x, c.consts.any] = some [] := by
  have hany : c.consts.any ≠ 0 := (reachLawful hc).any_pos s h
  have hnf : NullFree c.consts.any [c.consts.any, x, c.consts.any] := by
    intro _ y hy
    simp only [List.tail_cons, List.mem_cons, List.not_mem_nil, or_false] at hy
    rcases hy with rfl | rfl
    · exact hx0
    · exact hany
  obtain ⟨f, -, h2, h3⟩ := C73_split_count hc h
  obtain ⟨t, h2⟩ := h2 hg
  rw [hcr] at h2
  cases h2
  obtain ⟨n, h4, h5⟩ := h3 [c.consts.any, x, c.consts.any] (by simp) hnf
  simp only [View.SplitCount, true_and, or_true, and_true, hx, ne_eq, not_false_eq_true, if_true, View.SourceCount] at h4
  have e := h4.1 ⟨hv, hd⟩
  subst e
  constructor
  · obtain ⟨free, hi⟩ := reach_good hc h
    obtain ⟨m, g1, g2, -⟩ := source_count hc hi hx0 hx
    have g1 : (links c).countBy s [c.consts.any, x, c.consts.any] = some m := g1
    rw [g1] at h5
    split at h5
    · rw [g1]; exact h5
    · cases h5
  · obtain ⟨L, k1, -, k3, -⟩ := query_law hc (reach_good hc h) [c.consts.any, x, c.consts.any] (by simp) hnf
    rw [Links.collect_eq k1]
    cases L with
    | nil => rfl
    | cons l t =>
      exfalso
      obtain ⟨q1, -, q2, -⟩ := k3 l (by simp)
      exact hd ⟨l.index, l.source, l.target, q1, by rw [q2.resolve_left hx]; exact hx0, by rw [q2.resolve_left hx]; exact hv⟩

/-- `sNetU` has a gap at 5 and no source dangles: `[any, 9, any]` counts 5. -/
example : ∃ s', (links cfg0).create sNetU = some ⟨.ok 5, s', ()⟩ ∧
    (links cfg0).countBy sNetU [cfg0.consts.any, 9, cfg0.consts.any] = some 5 := by
  have hr : (links cfg0).create sNetU = some ⟨.ok 5, ((links cfg0).create sNetU).elim sNetU (·.st), ()⟩ := by
    have : ((links cfg0).create sNetU).map (fun o => o.res) = some (.ok 5) := by decide +kernel
    cases hcr : (links cfg0).create sNetU with
    | none => rw [hcr] at this; cases this
    | some o =>
      rw [hcr] at this
      obtain ⟨r, st, hs⟩ := o
      simp only [Option.map_some, Option.some.injEq] at this
      subst this
      rfl
  refine ⟨_, hr, (C73_split_count_of_nothing cfg0_ok sNetU_reach (by decide) (by decide) (by decide +kernel) ?_ ?_ hr).1⟩
  · rintro ⟨j, a, b, hj, ha, hna⟩
    have := forall_of_collect (reachLawful cfg0_ok) sNetU_reach
      (p := fun l => l.source == 0 || ((links cfg0).view sNetU l.source).isSome) (by decide +kernel) hj
    simp [ha, hna] at this
  · exact fun hg => hg 5 6 (by decide +kernel) (by decide) (by decide) (by decide +kernel)

/-- **C58**, split store, queries that do not ask for null ends over all links: a traversal visits every matching link exactly
once, except exactly if the query is `[any, x]` and a link has `x` at both ends, or gives source and target and two links match. -/
theorem C58_split_traversal_correct_iff (hc : CfgOK c) {s : Store} (h : Reach c s) (q : List Nat) (hq : q.length ≤ 3)
    (hn : NullFree c.consts.any q) :
    Unit.Props.VisitsEachOnce (links c) c.consts.any s q ↔
      (∀ l, ((links c).view s).Has l → MatchQ c.consts.any q l → ¬ DoubleEnd c.consts.any q l ∧
        (IsPair c.consts.any q → ∀ l', ((links c).view s).Has l' → MatchQ c.consts.any q l' → l' = l)) := by
  obtain ⟨L, h1, h2, h3⟩ := C45_split_traversal_partial hc h q hq hn
  constructor
  · rintro ⟨L', k1, k2, k3⟩ l hl hm
    have e := Links.Visits.unique k1 h1
    subst e
    obtain ⟨a1, a2, a3⟩ := h3 l hl hm
    refine ⟨fun hd => ?_, fun hp l' hl' hm' => ?_⟩
    · have := a2 hd; have := k3 l hl hm; omega
    · have e1 := k3 l hl hm
      have e2 := k3 l' hl' hm'
      have e3 := (a3 hp).1
      match L', e3 with
      | [z], _ =>
        have m1 : l ∈ [z] := List.count_pos_iff.1 (by omega)
        have m2 : l' ∈ [z] := List.count_pos_iff.1 (by omega)
        rw [List.mem_singleton.1 m1, List.mem_singleton.1 m2]
  · intro hg
    refine ⟨L, h1, h2, fun l hl hm => ?_⟩
    obtain ⟨hd, hp⟩ := hg l hl hm
    obtain ⟨a1, -, a3⟩ := h3 l hl hm
    by_cases hp' : IsPair c.consts.any q
    · rw [(a3 hp').2 (hp hp')]; simp
    · exact a1 hp' hd

/-- On `sNetU` (1 = (1,1), 2 = (1,3), 3 = (2,2), 4 = (0,0), 6 = (3,2)) the traversal `[any, 3]` is correct and `[any, 1]` is not. -/
example : Unit.Props.VisitsEachOnce (links cfg0) cfg0.consts.any sNetU [252, 3] ∧
    ¬ Unit.Props.VisitsEachOnce (links cfg0) cfg0.consts.any sNetU [252, 1] := by
  refine ⟨(C58_split_traversal_correct_iff cfg0_ok sNetU_reach _ (by decide) (by intro _ x hx; simp at hx; omega)).2 ?_,
    fun h => ?_⟩
  · rintro ⟨i, a, b⟩ hl -
    refine ⟨?_, by rintro ⟨x, y, h, -⟩; cases h⟩
    rintro ⟨x, e, -, (ha : a = x), (hb : b = x)⟩
    cases e
    subst ha hb
    have := forall_of_collect (reachLawful cfg0_ok) sNetU_reach (p := fun l => (l.source, l.target) != (3, 3))
      (by decide +kernel) hl
    simp at this
  · exact ((C58_split_traversal_correct_iff cfg0_ok sNetU_reach _ (by decide) (by intro _ x hx; simp at hx; omega)).1 h
      ⟨1, 1, 1⟩ (show (links cfg0).view sNetU 1 = some (1, 1) by decide +kernel) ⟨.inl rfl, .inr (.inl rfl)⟩).1
      ⟨1, rfl, by decide, rfl, rfl⟩

end Verif.Split.Props
