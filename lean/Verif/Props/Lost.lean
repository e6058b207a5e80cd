import Verif.Split.Hidden
import Verif.Props.SplitFindings

/-!
# C75: the split store when creations reuse indices that links refer to

C32 is false: a creation that returns an index that links refer to hides these links from queries for that index. This file
describes what the store answers after any number of such creations, and after updates that make a link refer to
itself: `Filed` (in `Split/Hidden.lean`) is the contents together with the references that are lost.
-/

namespace Verif.Filed

/-- Exactly `n` links are found by their end `e` on side `d`. -/
def Found (f : Filed) (d : Split.Side) (e n : Nat) : Prop :=
  ∃ L : List Nat, L.Nodup ∧ L.length = n ∧ ∀ k, k ∈ L ↔ f.view.Refers d k e ∧ ¬ f.lost d k

/-- The side on which the doublet `(x, y)` is looked up: the target if it is a link and the source is not, or if both are
links and fewer links are found by target `y` than by source `x`; the source otherwise. -/
def LooksBy (f : Filed) (x y : Nat) : Split.Side → Prop
  | .tgt => f.view y ≠ none ∧ (f.view x = none ∨ ∃ m n, f.Found .src x m ∧ f.Found .tgt y n ∧ n < m)
  | .src => f.view y = none ∨ (f.view x ≠ none ∧ ∃ m n, f.Found .src x m ∧ f.Found .tgt y n ∧ m ≤ n)

end Verif.Filed

namespace Verif.Split
open Verif

variable {c : Cfg}

theorem At.has {s : Store} {free : List Nat} {f : Filed} (h : At c s free f) (l : Link) :
    f.view.Has l ↔ LiveIn s free l.index ∧ l = s.linkAt l.index := by
  rcases l with ⟨i, a, b⟩
  unfold View.Has
  rw [h.some_iff]
  simp only [Store.linkAt, Link.mk.injEq, true_and]
  refine and_congr_right fun _ => ?_
  constructor
  · intro e; rw [e]; exact ⟨rfl, rfl⟩
  · rintro ⟨rfl, rfl⟩; rfl

theorem nodup_linkAt {s : Store} {L : List Nat} (h : L.Nodup) : (L.map s.linkAt).Nodup := by
  rw [List.Nodup, List.pairwise_map]
  exact h.imp fun hab e => hab (congrArg Link.index e)

/-- Traversal and count by one end. -/
theorem At.usages (hc : CfgOK c) {s : Store} {free : List Nat} {f : Filed} (h : At c s free f) (d : Side) {v : Nat}
    (h0 : v ≠ 0) (ha : v ≠ c.consts.any) :
    ∃ L : List Nat, (links c).Visits s (sideQuery c d v) (L.map s.linkAt) ∧ L.Nodup ∧
      (∀ k, k ∈ L ↔ f.view.Refers d k v ∧ ¬ f.lost d k) ∧
      (f.view v ≠ none ∨ d = .tgt ∨ f.view.SourceDangles ∨ (∃ k, f.lost .src k) →
        countLinks c s (sideQuery c d v) = some L.length) := by
  by_cases hv : LiveIn s free v
  · obtain ⟨L, g1, g2, g3, g4⟩ := each_side_int hc h.net h.exact d hv
    refine ⟨L, g1, g3, fun k => ?_, fun _ => g2⟩
    rw [g4, h.refers]
    constructor
    · rintro ⟨⟨a1, a2⟩, a3⟩; exact ⟨⟨a1.1, a3⟩, a2⟩
    · rintro ⟨⟨a1, a3⟩, a2⟩
      exact ⟨⟨⟨a1, by rw [a3]; exact h0, by rw [a3]; exact hv⟩, a2⟩, a3⟩
  · obtain ⟨L, g1, g2, -, g3, g4⟩ := each_side_ext hc h.net h.exact d hv h0 ha
    refine ⟨L, g1, g3, fun k => ?_, ?_⟩
    · rw [g4, h.refers]
      constructor
      · rintro ⟨a1 | a1, a3⟩
        · exact ⟨⟨a1.1, a3⟩, fun x => a1.2.2 (h.lost d k x).2.2⟩
        · exact absurd (a3 ▸ (h.lost d k a1).2.2) hv
      · rintro ⟨⟨a1, a3⟩, a2⟩
        exact ⟨Or.inl ⟨a1, by rw [a3]; exact h0, by rw [a3]; exact hv⟩, a3⟩
    · rintro (x | x | x | ⟨k, x⟩)
      · exact absurd (h.live.1 x) hv
      · exact g2 (.inl x)
      · refine g2 (.inr (.inl fun hn => ?_))
        obtain ⟨j, a, b, e1, e2, e3⟩ := x
        obtain ⟨e4, e5⟩ := h.some_iff.1 e1
        refine hn j (Or.inl ⟨e4, ?_, ?_⟩) <;> rw [e5]
        · exact e2
        · exact fun hl => h.live.2 hl e3
      · exact g2 (.inr (.inl fun hn => hn k (Or.inr x)))

theorem At.found {s : Store} {free : List Nat} {f : Filed} (h : At c s free f) (d : Side) {v : Nat}
    (hv : LiveIn s free v) : ∃ n, intCount s d v = some n ∧ f.Found d v n := by
  have h0 : v ≠ 0 := by have := hv.1; omega
  obtain ⟨L, -, g2, g3, g4⟩ := int_usages h.net d h0 (live_lt h.net.base hv)
  refine ⟨_, g2, L, g3, rfl, fun k => ?_⟩
  rw [g4, h.refers]
  constructor
  · rintro ⟨⟨a1, a2⟩, a3⟩; exact ⟨⟨a1.1, a3⟩, a2⟩
  · rintro ⟨⟨a1, a3⟩, a2⟩
    exact ⟨⟨⟨a1, by rw [a3]; exact h0, by rw [a3]; exact hv⟩, a2⟩, a3⟩

/-- Lookup of a doublet. -/
theorem At.lookup {s : Store} {free : List Nat} {f : Filed} (h : At c s free f) {x y : Nat}
    (hx0 : x ≠ 0) (hy0 : y ≠ 0) :
    ∃ d k, f.LooksBy x y d ∧
      pairSearch s (decide (¬ LiveIn s free x)) (decide (¬ LiveIn s free y)) x y = some k ∧
      ((k = 0 ∧ ∀ j, f.view j = some (x, y) → f.lost d j) ∨
       (k ≠ 0 ∧ f.view k = some (x, y) ∧ ¬ f.lost d k)) := by
  have hn := h.net
  have side : ∀ d, LiveIn s free (endOf d (x, y)) → ∃ k, intSearch s d x y = some k ∧
      ((k = 0 ∧ ∀ j, f.view j = some (x, y) → f.lost d j) ∨
       (k ≠ 0 ∧ f.view k = some (x, y) ∧ ¬ f.lost d k)) := by
    intro d hl
    have h0 : endOf d (x, y) ≠ 0 := by cases d <;> assumption
    obtain ⟨k, e1, e2⟩ := intSearch_ok hn d x y h0 (live_lt hn.base hl)
    refine ⟨k, e1, ?_⟩
    rcases e2 with ⟨e2, e3⟩ | ⟨e2, e3, e4⟩
    · refine Or.inl ⟨e2, fun j hj => Classical.byContradiction fun hnl => ?_⟩
      obtain ⟨j1, j2⟩ := h.some_iff.1 hj
      exact e3 j ⟨⟨j1, by rw [j2]; exact h0, by rw [j2]; exact hl⟩, hnl⟩ j2
    · exact Or.inr ⟨e2, h.some_iff.2 ⟨e3.1.1, e4⟩, e3.2⟩
  have hnone : ∀ {i}, ¬ LiveIn s free i → f.view i = none := fun hl => by rw [h.view, if_neg hl]
  by_cases hx : LiveIn s free x
  · by_cases hy : LiveIn s free y
    · obtain ⟨m, c1, f1⟩ := h.found .src hx
      obtain ⟨n, c2, f2⟩ := h.found .tgt hy
      simp only [pairSearch, hx, hy, not_true_eq_false, decide_false, Bool.and_self, c1,
        c2, Option.bind_some, Bool.false_eq_true, if_false]
      by_cases hgt : m > n
      · simp only [hgt, if_true]
        obtain ⟨k, g⟩ := side .tgt hy
        exact ⟨.tgt, k, ⟨h.live.2 hy, .inr ⟨m, n, f1, f2, hgt⟩⟩, g⟩
      · simp only [hgt, if_false]
        obtain ⟨k, g⟩ := side .src hx
        exact ⟨.src, k, .inr ⟨h.live.2 hx, m, n, f1, f2, by omega⟩, g⟩
    · simp only [pairSearch, hx, hy, not_true_eq_false, decide_false, Bool.false_and,
        Bool.false_eq_true, if_false, not_false_eq_true, decide_true, if_true]
      obtain ⟨k, g⟩ := side .src hx
      exact ⟨.src, k, .inl (hnone hy), g⟩
  · by_cases hy : LiveIn s free y
    · simp only [pairSearch, hx, hy, not_true_eq_false, decide_false, Bool.and_false,
        Bool.false_eq_true, if_false, not_false_eq_true, decide_true, if_true]
      obtain ⟨k, g⟩ := side .tgt hy
      exact ⟨.tgt, k, ⟨h.live.2 hy, .inl (hnone hx)⟩, g⟩
    · simp only [pairSearch, hx, hy, not_false_eq_true, decide_true, Bool.and_self, if_true]
      obtain ⟨k, e1, e2⟩ := extSearch_ok hn x y
      refine ⟨.src, k, .inl (hnone hy), e1, ?_⟩
      rcases e2 with ⟨e2, e3⟩ | ⟨e2, e3, e4⟩
      · refine Or.inl ⟨e2, fun j hj => ?_⟩
        obtain ⟨j1, j2⟩ := h.some_iff.1 hj
        exact absurd j2 (e3 j (Or.inl ⟨j1, by rw [j2]; exact hx0, by rw [j2]; exact hx⟩))
      · have hl := h.net.live .src k (Or.inr e3)
        refine Or.inr ⟨e2, h.some_iff.2 ⟨hl, e4⟩, fun hlo => hx ?_⟩
        have := (h.lost .src k hlo).2.2
        rwa [e4] at this

/-! ### Executable histories for the examples -/

/-- The references lost after a call, among those of the store `s` before it; `L` were lost before. -/
def lostAfter (c : Cfg) (s : Store) (L : List (Side × Nat)) : Call → Except Err Nat → List (Side × Nat)
  | .create, .ok i => L ++ (List.range (s.hdr.allocated + 1)).flatMap fun k =>
      match (links c).view s k with
      | none => []
      | some p => (if p.1 = i then [(Side.src, k)] else []) ++ (if p.2 = i then [(Side.tgt, k)] else [])
  | .update i a b, .ok _ => L.filter (fun p => p.2 ≠ i) ++
      (match (links c).view s i with
      | none => []
      | some p => if p.1 = 0 then [] else
        (if a = i then [(Side.src, i)] else []) ++ (if b = i then [(Side.tgt, i)] else []))
  | .delete i, .ok _ => L.filter fun p => p.2 != i &&
      (match (links c).view s p.2 with
      | none => true
      | some q => endOf p.1 q != i)
  | _, .error _ => L

/-- `Filed.Single`, checked. -/
def singleB (c : Cfg) (s : Store) (L : List (Side × Nat)) (d : Side) (i : Nat) : Bool :=
  match (links c).view s i with
  | none => true
  | some p => endOf d p == 0 || (List.range (s.hdr.allocated + 1)).all fun j =>
      j == i || (links c).view s j != some p || decide ((d, j) ∈ L)

/-- `Filed.Allows`, checked. -/
def allowsB (c : Cfg) (s : Store) (L : List (Side × Nat)) : Call → Bool
  | .create => true
  | .update i a b => [Side.src, .tgt].all (fun d => decide ((d, i) ∉ L) && singleB c s L d i) && (a == 0 || b != 0)
  | .delete i => [Side.src, .tgt].all fun d => decide ((d, i) ∉ L) && singleB c s L d i &&
      (List.range (s.hdr.allocated + 1)).all fun k => k == i ||
        match (links c).view s k with
        | none => true
        | some p => endOf d p != i || decide ((d, k) ∈ L) || singleB c s L d k

/-- Run calls, checking that the store supports each. -/
def execL (c : Cfg) : List Call → Store → List (Side × Nat) → Option (Store × List (Side × Nat))
  | [], s, L => some (s, L)
  | k :: ks, s, L =>
    (step c c.dalloc c.ialloc s k).bind fun o =>
      if allowsB c s L k then execL c ks o.st (lostAfter c s L k o.res) else none

/-- `L` lists the lost references of `f`. -/
def Lists (L : List (Side × Nat)) (f : Filed) : Prop := ∀ d k, f.lost d k ↔ (d, k) ∈ L

theorem side_all (p : Side → Bool) : [Side.src, .tgt].all p = true ↔ ∀ d, p d = true := by
  simp only [List.all_cons, List.all_nil, Bool.and_true, Bool.and_eq_true]
  constructor
  · rintro ⟨h1, h2⟩ d; cases d <;> assumption
  · intro h; exact ⟨h _, h _⟩

theorem singleB_single (hc : CfgOK c) {s : Store} {free : List Nat} {f : Filed} (h : At c s free f)
    {L : List (Side × Nat)} (hL : Lists L f) {d : Side} {i : Nat} (hb : singleB c s L d i = true) :
    f.Single d i := by
  intro j p hj hi hjp hnz
  unfold singleB at hb
  rw [h.links_view hc, hi] at hb
  simp only [Bool.or_eq_true, beq_iff_eq, List.all_eq_true, List.mem_range, bne_iff_ne, ne_eq,
    decide_eq_true_eq] at hb
  rcases hb with hb | hb
  · exact absurd ((refers_iff _ _ _ _).2 ⟨p, hi, hb⟩) hnz
  · have hlt := (h.some_iff.1 hjp).1.2.1
    rcases hb j (by omega) with (hb | hb) | hb
    · exact absurd hb hj
    · exact absurd hjp hb
    · exact (hL _ _).2 hb

theorem allowsB_allows (hc : CfgOK c) {s : Store} {free : List Nat} {f : Filed} (h : At c s free f)
    {L : List (Side × Nat)} (hL : Lists L f) {k : Call} (hb : allowsB c s L k = true) : f.Allows k := by
  cases k with
  | create => trivial
  | update i a b =>
    simp only [allowsB, Bool.and_eq_true, Bool.or_eq_true, side_all, decide_eq_true_eq, beq_iff_eq,
      bne_iff_ne, ne_eq] at hb
    refine ⟨fun d => ⟨fun x => (hb.1 d).1 ((hL _ _).1 x), singleB_single hc h hL (hb.1 d).2⟩, fun ha => ?_⟩
    rcases hb.2 with x | x
    · exact absurd x ha
    · exact x
  | delete i =>
    simp only [allowsB, side_all] at hb
    simp only [Bool.and_eq_true, decide_eq_true_eq, List.all_eq_true, List.mem_range,
      Bool.or_eq_true, beq_iff_eq] at hb
    refine ⟨fun d => ⟨fun x => (hb d).1.1 ((hL _ _).1 x), singleB_single hc h hL (hb d).1.2⟩, ?_⟩
    intro d k hki hr hnl
    obtain ⟨p, hp, he⟩ := (refers_iff _ _ _ _).1 hr
    have hlt := (h.some_iff.1 hp).1.2.1
    rcases (hb d).2 k (by omega) with x | x
    · exact absurd x hki
    · rw [h.links_view hc, hp] at x
      simp only [Bool.or_eq_true, bne_iff_ne, ne_eq, decide_eq_true_eq] at x
      rcases x with (x | x) | x
      · exact absurd he x
      · exact absurd ((hL _ _).2 x) hnl
      · exact singleB_single hc h hL x

theorem lostAfter_lists (hc : CfgOK c) {s : Store} {free : List Nat} {f : Filed} (h : At c s free f)
    {L : List (Side × Nat)} (hL : Lists L f) (k : Call) (r : Except Err Nat) :
    Lists (lostAfter c s L k r) (f.after k r) := by
  cases r with
  | error e => cases k <;> exact hL
  | ok n =>
    intro d k'
    cases k with
    | create =>
      show f.lost d k' ∨ f.view.Refers d k' n ↔ _
      simp only [lostAfter, List.mem_append, List.mem_flatMap, List.mem_range]
      refine or_congr (hL d k') ?_
      rw [refers_iff]
      constructor
      · rintro ⟨p, hp, he⟩
        have hlt := (h.some_iff.1 hp).1.2.1
        refine ⟨k', by omega, ?_⟩
        rw [h.links_view hc, hp]
        cases d
        · simp [show p.1 = n from he]
        · simp [show p.2 = n from he]
      · rintro ⟨j, -, hj⟩
        rw [h.links_view hc] at hj
        split at hj
        · cases hj
        · next p hp =>
          rcases List.mem_append.1 hj with hj | hj <;> split at hj
          · simp only [List.mem_singleton, Prod.mk.injEq] at hj
            obtain ⟨rfl, rfl⟩ := hj
            exact ⟨p, hp, ‹p.1 = n›⟩
          · cases hj
          · simp only [List.mem_singleton, Prod.mk.injEq] at hj
            obtain ⟨rfl, rfl⟩ := hj
            exact ⟨p, hp, ‹p.2 = n›⟩
          · cases hj
    | update i a b =>
      show (k' ≠ i ∧ f.lost d k') ∨ (k' = i ∧ (f.view.set i (a, b)).Refers d i i ∧ _) ↔ _
      simp only [lostAfter, List.mem_append, List.mem_filter, h.links_view hc]
      refine or_congr ?_ ?_
      · rw [hL d k', and_comm]; simp
      · rw [refers_iff]
        simp only [View.set, if_true, Option.some.injEq, exists_eq_left']
        cases hv : f.view i with
        | none => simp
        | some p =>
          rcases p with ⟨p1, p2⟩
          by_cases h0 : p1 = 0
          · simp [h0]
          · simp only [Option.some.injEq, Prod.mk.injEq, h0, if_false, List.mem_append]
            constructor
            · rintro ⟨rfl, he, -⟩
              cases d
              · exact .inl (by simp [show a = k' from he])
              · exact .inr (by simp [show b = k' from he])
            · rintro (hj | hj) <;> split at hj
              · simp only [List.mem_singleton, Prod.mk.injEq] at hj
                obtain ⟨rfl, rfl⟩ := hj
                exact ⟨rfl, ‹a = k'›, p1, p2, ⟨rfl, rfl⟩, h0⟩
              · cases hj
              · simp only [List.mem_singleton, Prod.mk.injEq] at hj
                obtain ⟨rfl, rfl⟩ := hj
                exact ⟨rfl, ‹b = k'›, p1, p2, ⟨rfl, rfl⟩, h0⟩
              · cases hj
    | delete i =>
      show f.lost d k' ∧ k' ≠ i ∧ ¬ f.view.Refers d k' i ↔ _
      simp only [lostAfter, List.mem_filter, h.links_view hc, hL d k', refers_iff]
      cases hv : f.view k' with
      | none => simp
      | some p => simp

theorem execL_history (hc : CfgOK c) (hg : ∀ s, GrowTogether c s) : ∀ (ks : List Call) {s s' : Store}
    {L L' : List (Side × Nat)} {f : Filed}, LostHistory c s f → Lists L f → execL c ks s L = some (s', L') →
    ∃ f', LostHistory c s' f' ∧ Lists L' f' := by
  intro ks
  induction ks with
  | nil =>
    intro s s' L L' f h hL he
    simp only [execL, Option.some.injEq, Prod.mk.injEq] at he
    exact ⟨f, he.1 ▸ h, he.2 ▸ hL⟩
  | cons k ks ih =>
    intro s s' L L' f h hL he
    unfold execL at he
    cases ho : step c c.dalloc c.ialloc s k with
    | none => rw [ho] at he; simp at he
    | some o =>
      rw [ho] at he
      simp only [Option.bind_some] at he
      split at he
      · next hk =>
        obtain ⟨free, hat⟩ := lost_history hc h
        exact ih (.call c.dalloc c.ialloc k h hc.dalloc_eq hc.ialloc_eq (fun _ => hg s) (allowsB_allows hc hat hL hk) ho)
          (lostAfter_lists hc hat hL k o.res) he
      · simp at he

end Verif.Split

namespace Verif.Split.Props
open Verif Verif.Split

variable {c : Cfg}

/-- `sNet`, then a creation that returns 5, to which link 6 = (5,3) refers; an update of link 4 = (9,1), which has a
source, to (4,1); and one more link 7 = (6,6). -/
def lostNet : List Call := net ++ [.create, .update 4 4 1, .create, .update 7 6 6]

def sLost : Store := ((execL cfg0 lostNet (store0 cfg0) []).map (·.1)).getD {}

/-- Link 6 is lost by its source 5, link 4 by its source 4, nothing else. -/
theorem sLost_history : ∃ f, LostHistory cfg0 sLost f ∧ Lists [(.src, 6), (.src, 4)] f := by
  refine execL_history (s := store0 cfg0) (L := []) (f := .empty) cfg0_ok (fun s _ => by simp [cfg0]) lostNet
    (.fresh (c := cfg0) cfg0.dalloc cfg0.ialloc cfg0_ok.dalloc_eq cfg0_ok.ialloc_eq rfl) (fun d k => by simp [Filed.empty]) ?_
  have h : (execL cfg0 lostNet (store0 cfg0) []).map (·.2) = some [(.src, 6), (.src, 4)] := by decide +kernel
  unfold sLost
  revert h
  cases execL cfg0 lostNet (store0 cfg0) [] with
  | none => simp
  | some r => intro h; simp at h; simp [← h]

/-! ## C75 -/

/-- **C75** (contents). Whichever indices creations reuse: the store holds what the calls put there, and the only
references that are lost are references of links to existing links. -/
theorem C75_contents (hc : CfgOK c) {s : Store} {f : Filed} (h : LostHistory c s f) :
    (∀ i a b, (links c).getLink s i = some (some ⟨i, a, b⟩) ↔ f.view i = some (a, b)) ∧
    (∀ i, (links c).getLink s i = some none ↔ f.view i = none) ∧
    ∀ d k, f.lost d k → ∃ e, f.view.Refers d k e ∧ e ≠ 0 ∧ f.view e ≠ none := by
  obtain ⟨free, h⟩ := lost_history hc h
  have hget : ∀ i, (links c).getLink s i = some (if LiveIn s free i then some (s.linkAt i) else none) :=
    fun i => getLink_eq hc h.net h.exact i
  refine ⟨fun i a b => ?_, fun i => ?_, fun d k hk => ?_⟩
  · rw [hget, h.some_iff]
    by_cases hl : LiveIn s free i
    · simp only [hl, if_true, Option.some.injEq, Store.linkAt, Link.mk.injEq, true_and]
      exact ⟨fun ⟨h1, h2⟩ => Prod.ext h1 h2, fun h1 => by rw [h1]; exact ⟨rfl, rfl⟩⟩
    · simp [hl]
  · rw [hget, h.view]
    by_cases hl : LiveIn s free i <;> simp [hl]
  · obtain ⟨h1, h2, h3⟩ := h.lost d k hk
    exact ⟨_, h.refers.2 ⟨h1, rfl⟩, h2, h.live.2 h3⟩

/-- The contents of `sLost`. -/
example : (∃ f, LostHistory cfg0 sLost f ∧ Lists [(.src, 6), (.src, 4)] f) ∧
    (List.range 9).map ((links cfg0).view sLost) = [none, some (1, 1), some (1, 3), some (2, 2), some (4, 1), some (0, 0),
      some (5, 3), some (6, 6), none] := ⟨sLost_history, by decide +kernel⟩

/-- **C75** (calls). Every call the store supports returns, with a result that the contents allow; only a creation whose
request for more index memory overflows the address type does not. -/
theorem C75_calls (hc : CfgOK c) {s : Store} {f : Filed} (h : LostHistory c s f) {d i : Nat → Nat → Option Nat}
    (hd : ExactAlloc d) (hi : ExactAlloc i) {k : Call}
    (hg : k = .create → GrowTogether (c.withAllocs d i) s) (hk : f.Allows k) :
    (∃ o, step c d i s k = some o ∧ k.Legit f.view o.res ∧ LostHistory c o.st (f.after k o.res)) ∨
    (k = .create ∧ c.maxT < s.ilen + c.step ∧ step c d i s k = none) := by
  obtain ⟨free, hat⟩ := lost_history hc h
  have fin : ∀ {o}, step c d i s k = some o → k.Legit f.view o.res →
      ∃ o, step c d i s k = some o ∧ k.Legit f.view o.res ∧ LostHistory c o.st (f.after k o.res) :=
    fun ho hl => ⟨_, ho, hl, .call d i k h hd hi hg hk ho⟩
  cases k with
  | create =>
    rcases (hat.withAllocs d i).create (hc.withAllocs hd hi) (hg rfl) with ⟨h1, h2⟩ | ⟨i, s', h1, h2, h3, -⟩ |
      ⟨e, h1, h2⟩
    · exact .inr ⟨rfl, h1, h2⟩
    · exact .inl (fin h1 ⟨h3, h2⟩)
    · exact .inl (fin h1 h2)
  | update j a b =>
    rcases hat.update hc hk with ⟨h1, s', h2, -⟩ | ⟨h1, h2⟩
    · exact .inl (fin h2 ⟨h1, rfl⟩)
    · exact .inl (fin h2 ⟨h1, rfl⟩)
  | delete j =>
    rcases hat.delete hc hk with ⟨h1, s', h2, -⟩ | ⟨h1, h2⟩
    · exact .inl (fin h2 ⟨h1, rfl⟩)
    · exact .inl (fin h2 ⟨h1, rfl⟩)

/-- In `sLost` link 7 may be updated and link 1, which other links refer to, may be deleted. The lost link 6 may not. -/
example : allowsB cfg0 sLost [(.src, 6), (.src, 4)] (.update 7 5 5) = true ∧
    allowsB cfg0 sLost [(.src, 6), (.src, 4)] (.delete 1) = true ∧
    allowsB cfg0 sLost [(.src, 6), (.src, 4)] (.delete 6) = false ∧
    ((links cfg0).update sLost 7 5 5).map (·.res) = some (.ok 7) ∧
    ((links cfg0).delete sLost 1).map (·.res) = some (.ok 0) := by decide +kernel

/-- **C75** (by source). A query for source `x` visits exactly the links with that source that are not lost, each once, and
counts them (the count needs `x` to be a link, or some source that dangles or is lost). -/
theorem C75_found_by_source (hc : CfgOK c) {s : Store} {f : Filed} (h : LostHistory c s f) {x : Nat} (h0 : x ≠ 0)
    (ha : x ≠ c.consts.any) :
    ∃ L, (links c).Visits s [c.consts.any, x, c.consts.any] L ∧ L.Nodup ∧
      (∀ l, l ∈ L ↔ f.view.Has l ∧ l.source = x ∧ ¬ f.lost .src l.index) ∧
      (f.view x ≠ none ∨ f.view.SourceDangles ∨ (∃ k, f.lost .src k) →
        (links c).countLinks s [c.consts.any, x, c.consts.any] = some L.length) := by
  obtain ⟨free, hat⟩ := lost_history hc h
  obtain ⟨L, g1, g2, g3, g4⟩ := hat.usages hc .src h0 ha
  refine ⟨L.map s.linkAt, g1, nodup_linkAt g2, fun l => ?_, fun hh => ?_⟩
  · rw [hat.has]
    simp only [List.mem_map, g3, hat.refers]
    constructor
    · rintro ⟨k, ⟨⟨h1, h2⟩, h3⟩, rfl⟩; exact ⟨⟨h1, rfl⟩, h2, h3⟩
    · rintro ⟨⟨h1, h2⟩, h3, h4⟩
      refine ⟨l.index, ⟨⟨h1, ?_⟩, h4⟩, h2.symm⟩
      rw [h2] at h3; exact h3
  · rw [List.length_map]
    refine g4 ?_
    rcases hh with hh | hh | hh
    · exact .inl hh
    · exact .inr (.inr (.inl hh))
    · exact .inr (.inr (.inr hh))

/-- By source 4 and 5 nothing is found, by sources 1 and 6 everything. -/
example : (∃ f, LostHistory cfg0 sLost f) ∧ [4, 5, 1, 6].map (fun x => (links cfg0).collect sLost [252, x, 252]) =
    [some [], some [], some [⟨1, 1, 1⟩, ⟨2, 1, 3⟩], some [⟨7, 6, 6⟩]] :=
  ⟨sLost_history.imp fun _ h => h.1, by decide +kernel⟩

/-- **C75** (by target). The same for targets; the count needs no condition. -/
theorem C75_found_by_target (hc : CfgOK c) {s : Store} {f : Filed} (h : LostHistory c s f) {x : Nat} (h0 : x ≠ 0)
    (ha : x ≠ c.consts.any) :
    ∃ L, (links c).Visits s [c.consts.any, c.consts.any, x] L ∧ L.Nodup ∧
      (∀ l, l ∈ L ↔ f.view.Has l ∧ l.target = x ∧ ¬ f.lost .tgt l.index) ∧
      (links c).countLinks s [c.consts.any, c.consts.any, x] = some L.length := by
  obtain ⟨free, hat⟩ := lost_history hc h
  obtain ⟨L, g1, g2, g3, g4⟩ := hat.usages hc .tgt h0 ha
  refine ⟨L.map s.linkAt, g1, nodup_linkAt g2, fun l => ?_, ?_⟩
  · rw [hat.has]
    simp only [List.mem_map, g3, hat.refers]
    constructor
    · rintro ⟨k, ⟨⟨h1, h2⟩, h3⟩, rfl⟩; exact ⟨⟨h1, rfl⟩, h2, h3⟩
    · rintro ⟨⟨h1, h2⟩, h3, h4⟩
      refine ⟨l.index, ⟨⟨h1, ?_⟩, h4⟩, h2.symm⟩
      rw [h2] at h3; exact h3
  · rw [List.length_map]
    exact g4 (.inr (.inl rfl))

/-- The lost links 4 and 6 are found by their targets. -/
example : (∃ f, LostHistory cfg0 sLost f) ∧ [1, 3].map (fun x => ((links cfg0).collect sLost [252, 252, x],
      (links cfg0).countLinks sLost [252, 252, x])) =
    [(some [⟨1, 1, 1⟩, ⟨4, 4, 1⟩], some 2), (some [⟨2, 1, 3⟩, ⟨6, 5, 3⟩], some 2)] :=
  ⟨sLost_history.imp fun _ h => h.1, by decide +kernel⟩

/-- **C75** (search). `search(x, y)` looks among the links found by one end; it finds a link with that doublet that
is not lost on that side, and nothing only if all links with that doublet are lost there. -/
theorem C75_search (hc : CfgOK c) {s : Store} {f : Filed} (h : LostHistory c s f) {x y : Nat} (hx0 : x ≠ 0)
    (hy0 : y ≠ 0) (hx : x ≠ c.consts.any) (hy : y ≠ c.consts.any) :
    ∃ d r, f.LooksBy x y d ∧ (links c).search s x y = some r ∧
      (∀ i, r = some i → f.view i = some (x, y) ∧ ¬ f.lost d i) ∧
      (r = none → ∀ i, f.view i = some (x, y) → f.lost d i) := by
  obtain ⟨free, hat⟩ := lost_history hc h
  obtain ⟨d, k, hd, e1, e2⟩ := hat.lookup hx0 hy0
  have hun : ∀ {v}, v ≠ 0 → isUnused s v = some (decide (¬ LiveIn s free v)) :=
    fun {v} hv => isUnused_eq hat.net.base (hat.net.forest .tgt) (hat.net.live .tgt) hv (hat.exact v)
  have hE : ∀ (σ : Type) (hd : RH σ) (st : σ),
      (links c).eachLinks s [c.consts.any, x, y] hd st = each3 c s c.consts.any x y hd st := by
    intro σ hd st; simp [links, eachLinks, hc.index_eq, hc.source_eq, hc.target_eq]
  have fin : ∀ {L}, (links c).Visits s [c.consts.any, x, y] L →
      (links c).search s x y = some (L.head?.map (·.index)) := by
    intro L hv
    simp only [Links.search, Links.find]
    rw [Links.eachBy_eq (q := [((links c).consts s).any, x, y]) hv]
    cases L <;> rfl
  rcases e2 with ⟨rfl, e3⟩ | ⟨e2, e3, e4⟩
  · refine ⟨d, none, hd, fin (L := []) ?_, by simp, fun _ => e3⟩
    intro σ hd st
    rw [hE]
    simp only [each3, hun hx0, hun hy0, Option.bind_some, e1]
    simp [hx, hy, hc.null_eq, runH]
  · refine ⟨d, some k, hd, fin (L := [s.linkAt k]) ?_, ?_, by simp⟩
    · intro σ hd st
      rw [hE]
      have hl := (hat.some_iff.1 e3).1
      simp only [each3, hx, hy, hun hx0, hun hy0, e1, getLink_eq hc hat.net hat.exact, hl, runH, if_true, and_self,
        if_false, Option.bind_some, hc.null_eq, e2]
      rcases hd st (s.linkAt k) with ⟨_ | _, st'⟩ <;> rfl
    · intro i hi; cases hi; exact ⟨e3, e4⟩

/-- Link 6 = (5,3) is not found, because no link is found by source 5 and two are found by target 3; link 2 = (1,3) is
found. -/
example : (∃ f, LostHistory cfg0 sLost f) ∧ [(5, 3), (4, 1), (1, 3), (6, 6)].map
      (fun p => (links cfg0).search sLost p.1 p.2) = [some none, some none, some (some 2), some (some 7)] :=
  ⟨sLost_history.imp fun _ h => h.1, by decide +kernel⟩

/-- **C75** (duplicates). A lost link is not found by `get_or_create` either: in `sLost`, which has link 6 = (5,3),
`get_or_create(5, 3)` creates a second link with that doublet. -/
theorem C75_get_or_create_duplicates : (∃ f, LostHistory cfg0 sLost f) ∧
    (links cfg0).getLink sLost 6 = some (some ⟨6, 5, 3⟩) ∧
    ((links cfg0).getOrCreate sLost 5 3).map (fun o => (o.res, (links cfg0).getLink o.st 6,
      (links cfg0).getLink o.st 8)) = some (.ok 8, some (some ⟨6, 5, 3⟩), some (some ⟨8, 5, 3⟩)) :=
  ⟨sLost_history.imp fun _ h => h.1, by decide +kernel, by decide +kernel⟩

/-- **C75** (traversal). A traversal of everything visits every link once, lost or not, and the total is their number. -/
theorem C75_everything (hc : CfgOK c) {s : Store} {f : Filed} (h : LostHistory c s f) :
    ∃ L, (links c).Visits s [] L ∧ L.Nodup ∧ (∀ l, l ∈ L ↔ f.view.Has l) ∧
      (links c).countLinks s [] = some L.length := by
  obtain ⟨free, hat⟩ := lost_history hc h
  refine ⟨(liveList s free).map s.linkAt, ?_, nodup_linkAt (nodup_liveList s free), fun l => ?_, ?_⟩
  · intro σ hd st; exact eachAll_eq hc hat.net hat.exact hd st
  · rw [hat.has]
    simp only [List.mem_map, mem_liveList]
    constructor
    · rintro ⟨k, h1, rfl⟩; exact ⟨h1, rfl⟩
    · rintro ⟨h1, h2⟩; exact ⟨_, h1, h2.symm⟩
  · rw [List.length_map, ← total_eq hat.net.base]; rfl

example : (∃ f, LostHistory cfg0 sLost f) ∧ (links cfg0).collect sLost [] = some [⟨1, 1, 1⟩, ⟨2, 1, 3⟩, ⟨3, 2, 2⟩, ⟨4, 4, 1⟩,
    ⟨5, 0, 0⟩, ⟨6, 5, 3⟩, ⟨7, 6, 6⟩] := ⟨sLost_history.imp fun _ h => h.1, by decide +kernel⟩

/-- **C75** (histories without reuse). The histories of `Split/History.lean`, in which no creation returns an index that
links refer to and no link with a source is made to refer to itself, lose nothing. -/
theorem C75_nothing_lost (hc : CfgOK c) {s : Store} {tr} (h : History c s tr) :
    LostHistory c s ⟨replay tr, fun _ _ => False⟩ := by
  induction h with
  | fresh d i hd hi h => exact .fresh d i hd hi h
  | @call d i k s tr o h hd hi hg ho hok ih =>
    have hns : ∀ {j} (d : Side), (replay tr).NoTwin j → Filed.Single ⟨replay tr, fun _ _ => False⟩ d j := by
      intro j d hn m p hm hj hmp hz
      refine hm (hn p hj ?_ m hmp)
      rintro rfl
      refine hz ?_
      show (replay tr).Refers d j 0
      rw [refers_iff]
      exact ⟨_, hj, by cases d <;> rfl⟩
    have hal : Filed.Allows ⟨replay tr, fun _ _ => False⟩ k := by
      cases k with
      | create => trivial
      | update j a b => exact ⟨fun d => ⟨id, hns d hok.1⟩, hok.2.1⟩
      | delete j =>
        refine ⟨fun d => ⟨id, hns d hok.1⟩, fun d m hm hr _ => hns d (hok.2 m ?_)⟩
        cases d
        · obtain ⟨b, hb⟩ := hr; exact ⟨hm, _, _, hb, .inl rfl⟩
        · obtain ⟨a, hb⟩ := hr; exact ⟨hm, _, _, hb, .inr rfl⟩
    have h2 := LostHistory.call d i k ih hd hi (fun _ => hg) hal ho
    have : Filed.after ⟨replay tr, fun _ _ => False⟩ k o.res = ⟨replay (tr ++ [(k, o.res)]), fun _ _ => False⟩ := by
      rw [Verif.Unit.replay_snoc]
      cases hr : o.res with
      | error e => cases k <;> rfl
      | ok n =>
        rw [hr] at hok
        cases k with
        | create =>
          simp only [Filed.after, Filed.create, Call.apply, Filed.mk.injEq, true_and, false_or]
          funext d k'
          refine propext ⟨fun hr => ?_, False.elim⟩
          cases d
          · obtain ⟨b, hb⟩ := hr; exact (hok _ _ _ hb).1 rfl
          · obtain ⟨a, hb⟩ := hr; exact (hok _ _ _ hb).2 rfl
        | update j a b =>
          simp only [Filed.after, Filed.update, Call.apply, Filed.mk.injEq, true_and, and_false, false_or]
          funext d k'
          refine propext ⟨?_, False.elim⟩
          rintro ⟨-, hr, x, y, hxy, hx⟩
          have := hok.2.2 ?_ _ hxy
          · exact hx this
          · cases d
            · obtain ⟨b', hb⟩ := hr; simp [View.set] at hb; exact .inl hb.1
            · obtain ⟨b', hb⟩ := hr; simp [View.set] at hb; exact .inr hb.2
        | delete j =>
          simp only [Filed.after, Filed.delete, Call.apply, Filed.mk.injEq, true_and, false_and]
    rwa [this] at h2
  | reopen d i n m h hd hi hini hlt ih => exact .reopen d i n m ih hd hi hini hlt

example : History cfg0 sNet (trace cfg0 net) ∧ (trace cfg0 net).length = 13 := ⟨sNet_history, by decide +kernel⟩

/-- **C75** (recovery). What a creation loses, deleting the created link finds again: the store is back to the
contents, and the lost references, it had before the creation. -/
theorem C75_deletion_recovers (hc : CfgOK c) {s : Store} {f : Filed} (h : LostHistory c s f)
    (hg : GrowTogether c s) {i : Nat} {s' : Store} (ho : (links c).create s = some ⟨.ok i, s', ()⟩) :
    ∃ s2, (links c).delete s' i = some ⟨.ok 0, s2, ()⟩ ∧ LostHistory c s2 f := by
  obtain ⟨free, hat⟩ := lost_history hc h
  have h1 : LostHistory c s' (f.create i) :=
    .call (f := f) c.dalloc c.ialloc .create h hc.dalloc_eq hc.ialloc_eq (fun _ => hg) trivial ho
  have hv : f.view i = none := by
    rcases hat.create hc hg with ⟨-, g⟩ | ⟨j, s1, g, -, g2, -⟩ | ⟨e, g, -⟩
    · rw [g] at ho; cases ho
    · rw [g] at ho; cases ho; exact g2
    · rw [g] at ho; cases ho
  have hnr : ∀ d e, ¬ f.view.Refers d i e := by
    intro d e hr
    obtain ⟨p, hp, -⟩ := (refers_iff _ _ _ _).1 hr
    rw [hv] at hp; cases hp
  have hlost : ∀ d k, f.lost d k → k ≠ i ∧ ¬ f.view.Refers d k i := by
    intro d k hk
    obtain ⟨g1, g2, g3⟩ := hat.lost d k hk
    constructor
    · rintro rfl; exact hat.live.2 g1 hv
    · intro hr
      rw [(hat.refers.1 hr).2] at g3
      exact hat.live.2 g3 hv
  have hset : ∀ {d k e}, k ≠ i → ((f.view.set i (0, 0)).Refers d k e ↔ f.view.Refers d k e) := by
    intro d k e hk
    simp [refers_iff, View.set, hk]
  have hal : (f.create i).Allows (.delete i) := by
    refine ⟨fun d => ⟨?_, ?_⟩, ?_⟩
    · rintro (x | x)
      · exact (hlost d i x).1 rfl
      · exact hnr d i x
    · intro j p hj hp _ hz
      refine absurd ?_ hz
      show (f.view.set i (0, 0)).Refers d i 0
      rw [refers_iff]
      exact ⟨(0, 0), by simp [View.set], by cases d <;> rfl⟩
    · intro d k hk hr hnl
      exact absurd (Or.inr ((hset hk).1 hr)) hnl
  have hback : (f.create i).delete i = f := by
    rcases f with ⟨v, lo⟩
    simp only [Filed.create, Filed.delete, Filed.mk.injEq]
    constructor
    · funext k
      by_cases hk : k = i
      · subst hk; simp [View.del]; exact hv.symm
      · simp [View.del, View.set, hk]
    · funext d k
      refine propext ⟨?_, fun hk => ?_⟩
      · rintro ⟨g1 | g1, g2, g3⟩
        · exact g1
        · exact absurd ((hset g2).2 g1) g3
      · obtain ⟨g1, g2⟩ := hlost d k hk
        exact ⟨.inl hk, g1, fun x => g2 ((hset g1).1 x)⟩
  obtain ⟨free', hat'⟩ := lost_history hc h1
  rcases hat'.delete hc hal with ⟨-, s2, g1, -⟩ | ⟨g, -⟩
  · refine ⟨s2, g1, ?_⟩
    have h2 : LostHistory c s2 ((f.create i).delete i) := by
      refine .call (f := f.create i) (o := ⟨.ok 0, s2, ()⟩) c.dalloc c.ialloc (.delete i) h1 hc.dalloc_eq
        hc.ialloc_eq (by simp) hal g1
    rwa [hback] at h2
  · exact absurd g (by simp [Filed.create, View.set])

/-- The creation that returns 5 loses link 6; deleting 5 finds it again. -/
example : (∃ f, LostHistory cfg0 sNet f) ∧ ((links cfg0).create sNet).bind (fun o =>
      ((links cfg0).delete o.st 5).map fun p => (o.res, (links cfg0).collect o.st [252, 5, 252], p.res,
        (links cfg0).collect p.st [252, 5, 252])) = some (.ok 5, some [], .ok 0, some [⟨6, 5, 3⟩]) :=
  ⟨⟨_, C75_nothing_lost cfg0_ok sNet_history⟩, by decide +kernel⟩

end Verif.Split.Props
