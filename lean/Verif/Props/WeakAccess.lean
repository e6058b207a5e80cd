import Verif.SbtPrograms
import Verif.Unit.SharedMend
import Verif.Split.SharedMend
import Verif.Props.WeakTrees
import Verif.Props.PowerLoss
import Verif.Props.Shared
import Verif.Props.SplitShared

/-!
# C94: clients that make no duplicates need less of the tree crate, also below the level of calls

C93 is about whole calls. Here the store is seen as in C76, C77, C83 and C85: the crate is a set of programs that use the accessors of
the store, and every single assignment counts. `P.ImplementsOn Apart X` says that the programs do what `X` says on trees whose nodes
compare as smaller or greater, and touch nothing else. Nothing is asked for on other trees.
-/

namespace Verif.Props
open Verif

/-- **C94**: there are such programs. The published algorithm of size-balanced trees, which finds nodes by comparing them, as programs
over the accessors, does what `Sbt.trees` says as long as no two nodes are equal; this keeps the weaker contract and not the full
one, which C76, C77, C83 and C85 need. -/
theorem C94_size_balanced_trees : Sbt.programs.ImplementsOn Apart Sbt.trees ∧ LawfulTrees₀ Sbt.trees ∧ ¬ LawfulTrees Sbt.trees :=
  ⟨Sbt.programs_implement, Sbt.trees_weak, Sbt.trees_not_lawful⟩

end Verif.Props

namespace Verif.Unit.Props
open Verif Verif.Unit
variable {c : Cfg} {P : Programs}

/-- **C94**, united store, as C76: after any history in which no update made two links with the same ends, a call that makes none
does through the accessors what the model says. -/
theorem C94_calls_through_accessors (hc : CfgOK₀ c) (hP : P.ImplementsOn Apart c.trees) {s : Store} (h : ReachU c s) (k : Call)
    (hk : ∀ i a b, k = .update i a b → (links c).view s i ≠ none → (((links c).view s).set i (a, b)).Uniq)
    {a : Nat → Nat → Option Nat} (ha : GoodAlloc a) {σ : Type} (hd : WH σ) (st : σ) :
    ∃ f0, ∀ f, f0 ≤ f → (callA (c.withAlloc a) P f hd st k (.of s)).2 =
      (callExec (c.withAlloc a) s hd st k).map fun o => ((o.res, o.hs), AStore.of o.st) := by
  obtain ⟨free, ts, tt, hi⟩ := reach_good hc.mend (reachU_mend hc h).1
  obtain ⟨f0, hf⟩ := step_accessU hc hP h hi ha (k := k) (by cases k <;> first | trivial | exact hk _ _ _ rfl) hd st
  exact ⟨f0, fun f h => (hf f h).1⟩

theorem sActsS_reachU : ReachU cfgS sActsS := (weak_client cfgS_ok sActsS_client).1

theorem sActsS_update : (((links cfgS).view sActsS).set 5 (4, 1)).Uniq :=
  (weak_client cfgS_ok sActsS_client).2.uniq.add fun j hj => by
    have := forall_of_collect (weakLawful cfgS_ok) sActsS_reachU (p := fun l => l.source != 4) (by decide +kernel) hj
    simp at this

/-- Link 5 of `sActsS` is updated to (4, 1) and then link 3 is deleted, through the programs of size-balanced trees. -/
example : CfgOK₀ cfgS ∧ Sbt.programs.ImplementsOn Apart cfgS.trees ∧ ReachU cfgS sActsS ∧
    (((links cfgS).view sActsS).set 5 (4, 1)).Uniq ∧
    ((callA cfgS Sbt.programs 40 (σ := Nat) (fun n _ _ => (.cont, n + 1)) 0 (.update 5 4 1) (.of sActsS)).2.bind fun r =>
      (callA cfgS Sbt.programs 40 (σ := Nat) (fun n _ _ => (.cont, n + 1)) r.1.2 (.delete 3) r.2).2.map fun r =>
        (r.1.2, (List.range 6).map fun i => getLinkA cfgS i r.2)) =
      some (2, [some none, some (some ⟨1, 1, 1⟩), some (some ⟨2, 2, 2⟩), some none, some (some ⟨4, 3, 5⟩), some (some ⟨5, 4, 1⟩)]) :=
  ⟨cfgS_ok, Sbt.programs_implement, sActsS_reachU, sActsS_update, by decide +kernel⟩

/-- **C94**, united store, as C77: a crash after any single assignment inside such a call keeps the ends of the other links. -/
theorem C94_single_writes_keep_the_ends (hc : CfgOK₀ c) (hP : P.ImplementsOn Apart c.trees) {s : Store} (h : ReachU c s) (k : Call)
    (hk : ∀ i a b, k = .update i a b → (links c).view s i ≠ none → (((links c).view s).set i (a, b)).Uniq)
    {a : Nat → Nat → Option Nat} (ha : GoodAlloc a) {σ : Type} (hd : WH σ) (st : σ) :
    ∃ f0, ∀ f, f0 ≤ f → ∀ m ∈ (callA (c.withAlloc a) P f hd st k (.of s)).1,
      ∀ (a' : Nat → Nat → Option Nat) (n : Nat) (s' : Store),
      init (c.withAlloc a') { m.s with len := n } = some (.ok s') → m.s.hdr.allocated < s'.len →
      (∀ l, ((links c).view s).Has l → ¬ callAbout l.index k →
        (s'.cell l.index).source = l.source ∧ (s'.cell l.index).target = l.target ∧
        ((links c).getLink s' l.index = some (some l) ∨ (links c).getLink s' l.index = some none)) ∧
      ∃ L, (links c).Visits s' [] L ∧
        ∀ l, ((links c).view s).Has l → ¬ callAbout l.index k → ∀ l' ∈ L, l'.index = l.index → l' = l := by
  obtain ⟨free, ts, tt, hi⟩ := reach_good hc.mend (reachU_mend hc h).1
  obtain ⟨f0, hf⟩ := step_accessU hc hP h hi ha (k := k) (by cases k <;> first | trivial | exact hk _ _ _ rfl) hd st
  refine ⟨f0, fun f hff m hm a' n s' ho hlt => ?_⟩
  obtain ⟨g1, L, g2, g3⟩ := image_ends (c := c.mend) hc.mend hi ((hf f hff).2 m hm) (a' := a') ho hlt
  exact ⟨g1, L, by rw [visits_mend] at g2; exact g2, g3⟩

/-- What reopening finds at `i` after each single assignment of a call made through the programs of size-balanced trees. -/
def afterWriteS (s : Store) (k : Call) (i : Nat) : List (Option (Option Link)) :=
  (callA cfgS Sbt.programs 40 (σ := _root_.Unit) (fun _ _ _ => (.cont, ())) () k (.of s)).1.map fun m =>
    match init cfgS m.s with
    | some (.ok s') => if m.s.hdr.allocated < s'.len then (links cfgS).getLink s' i else none
    | _ => none

/-- An update in `sActsS` makes 30 assignments; the ends of link 3 are found after each of them. -/
example : (((links cfgS).view sActsS).set 5 (4, 1)).Uniq ∧ ¬ callAbout 3 (.update 5 4 1) ∧
    (links cfgS).getLink sActsS 3 = some (some ⟨3, 1, 2⟩) ∧
    afterWriteS sActsS (.update 5 4 1) 3 = List.replicate 30 (some (some ⟨3, 1, 2⟩)) :=
  ⟨sActsS_update, fun h => by simp [callAbout] at h, by decide +kernel, by decide +kernel⟩

/-- **C94**, united store, as C83: a power loss during a session of such calls keeps the ends of the links they are not about. -/
theorem C94_power_loss_keeps_the_ends (hc : CfgOK₀ c) (hP : P.ImplementsOn Apart c.trees) {s : Store} (h : ReachU c s)
    {xs : List Step} (hs : SessionU c s xs) :
    ∃ f0, ∀ f, f0 ≤ f → ∀ t, Torn (s :: written c P f xs (.of s)) t →
      ∀ (a' : Nat → Nat → Option Nat) (n : Nat) (s' : Store),
      init (c.withAlloc a') { t with len := n } = some (.ok s') → t.hdr.allocated < s'.len →
      (∀ l, ((links c).view s).Has l → (∀ x ∈ xs, ¬ callAbout l.index x.call) →
        (s'.cell l.index).source = l.source ∧ (s'.cell l.index).target = l.target ∧
        ((links c).getLink s' l.index = some (some l) ∨ (links c).getLink s' l.index = some none)) ∧
      ∃ L, (links c).Visits s' [] L ∧
        ∀ l, ((links c).view s).Has l → (∀ x ∈ xs, ¬ callAbout l.index x.call) → ∀ l' ∈ L, l'.index = l.index → l' = l := by
  obtain ⟨free, ts, tt, hi⟩ := reach_good hc.mend (reachU_mend hc h).1
  obtain ⟨f0, hf⟩ := written_keepsU hc hP hs h
  refine ⟨f0, fun f hff t ht a' n s' ho hlt => ?_⟩
  obtain ⟨g1, L, g2, g3⟩ := torn_ends (c := c.mend) hc.mend hi (Q := fun i => ∀ x ∈ xs, ¬ callAbout i x.call) (hf f hff) ht
    (a' := a') ho hlt
  exact ⟨g1, L, by rw [visits_mend] at g2; exact g2, g3⟩

/-- The update of link 5 and the deletion of link 3 are such a session. -/
theorem sActsS_session : SessionU cfgS sActsS ([.update 5 4 1, .delete 3].map quiet) := by
  have h : ((callExec (cfgS.withAlloc cfg0.alloc) sActsS (σ := _root_.Unit) (fun _ _ _ => (.cont, ())) () (.update 5 4 1)).bind fun o =>
      callExec (cfgS.withAlloc cfg0.alloc) o.st (σ := _root_.Unit) (fun _ _ _ => (.cont, ())) () (.delete 3)).isSome = true := by
    decide +kernel
  cases h1 : callExec (cfgS.withAlloc cfg0.alloc) sActsS (σ := _root_.Unit) (fun _ _ _ => (.cont, ())) () (.update 5 4 1) with
  | none => rw [h1] at h; cases h
  | some o =>
    rw [h1] at h
    obtain ⟨o2, h2⟩ := Option.isSome_iff_exists.1 h
    exact .step (x := quiet (.update 5 4 1)) alloc0_good (fun _ => sActsS_update) h1
      (.step (x := quiet (.delete 3)) alloc0_good trivial h2 (.done _))

example : ∃ t, Torn (sActsS :: written cfgS Sbt.programs 40 ([.update 5 4 1, .delete 3].map quiet) (.of sActsS)) t ∧
    ((links cfgS).view sActsS).Has ⟨4, 3, 5⟩ ∧ ∀ x ∈ [Call.update 5 4 1, .delete 3].map quiet, ¬ callAbout 4 x.call :=
  ⟨sActsS, fun i f => ⟨_, List.mem_cons_self, rfl⟩, by show (links cfgS).view sActsS 4 = some (3, 5); decide +kernel, by
    intro x hx
    simp only [List.map_cons, List.map_nil, List.mem_cons, List.not_mem_nil, or_false] at hx
    rcases hx with rfl | rfl <;> simp [quiet, callAbout]⟩

/-- **C94**, united store, as C85: whatever the schedule of threads that make no duplicates, the results are those of the calls made
one at a time, and no thread panics. -/
theorem C94_every_schedule (hc : CfgOK₀ c) (hP : P.ImplementsOn Apart c.trees) {s0 : Store} (h0 : ReachU c s0)
    {cl : Clients Reply (Req (Nat → Nat → Option Nat))} (hd : Disciplined (answer c) (AllowedU c) cl s0)
    {y : Sys AStore Loc Reply} (hy : Runs AStore.look (job c P) cl (.of s0) y) :
    ∃ s, Serial (answer c) cl s0 y.log s ∧ ReachU c s ∧ (y.NoWriter → y.mem = .of s) ∧
      ∀ i, y.phase i ≠ .idle → ∃ q r s' y', cl i (mine y.log i) q ∧ answer c s q = some (r, s') ∧
        ThreadSteps AStore.look (job c P) cl i y y' ∧ Returned y y' i r (.of s') :=
  (faithfulU hc hP).linear h0 hd hy

/-- **C94**, united store: no deadlock, as C85. -/
theorem C94_no_deadlock (hc : CfgOK₀ c) (hP : P.ImplementsOn Apart c.trees) {s0 : Store} (h0 : ReachU c s0)
    {cl : Clients Reply (Req (Nat → Nat → Option Nat))} (hd : Disciplined (answer c) (AllowedU c) cl s0)
    {y : Sys AStore Loc Reply} (hy : Runs AStore.look (job c P) cl (.of s0) y) :
    (∃ i y' r m, y.phase i ≠ .idle ∧ ThreadSteps AStore.look (job c P) cl i y y' ∧ Returned y y' i r m) ∨
    ∀ i q, cl i (mine y.log i) q → ∃ y', ThreadStep AStore.look (job c P) cl i y y' ∧ y'.phase i ≠ .idle := by
  by_cases hi : ∀ i, y.phase i = .idle
  · exact .inr fun i q hq => (faithfulU hc hP).enters h0 hd hy hi hq
  · simp only [Classical.not_forall] at hi
    obtain ⟨i, hi⟩ := hi
    obtain ⟨s, -, -, -, h1⟩ := (faithfulU hc hP).linear h0 hd hy
    obtain ⟨q, r, s', y', -, -, h2, h3⟩ := h1 i hi
    exact .inl ⟨i, y', r, _, hi, h2, h3⟩

/-- Reads and duplicate-free writes answer as over the mended crate. -/
theorem answer_mend (hc : CfgOK₀ c) {s : Store} (h : ReachU c s) {q : Req (Nat → Nat → Option Nat)} (hq : Always c q) :
    answer c s q = answer c.mend s q := by
  obtain ⟨hm, hu⟩ := reachU_mend hc h
  cases q with
  | get i => rfl
  | each q hd =>
    have e : (links c.mend).eachLinks s q (showing hd) [] = (links c).eachLinks s q (showing hd) [] := eachLinks_mend ..
    simp only [answer, e]
  | count q => rfl
  | write k a hd =>
    obtain ⟨free, ts, tt, hi⟩ := reach_good hc.mend hm
    have hI : Inv (c.withAlloc a).mend s free ts tt := hi.withAlloc a
    have e : callExec (c.withAlloc a) s (showing2 hd) [] k = callExec (c.mend.withAlloc a) s (showing2 hd) [] k :=
      callExec_mend (hc.withAlloc hq.1) (k := k) ⟨free, ts, tt, hI⟩ hu (by
        cases k with
        | update i x y => obtain ⟨rfl, rfl⟩ := hq.2.2 i x y rfl; exact fun _ => uniq_set_null hu i
        | _ => trivial) _ _
    simp only [answer, e]

/-- **C94**: threads that only look links up, traverse, count, create, delete and nullify make no duplicates, whatever they do with
the results. -/
theorem C94_always_disciplined (hc : CfgOK₀ c) {s0 : Store} (h0 : ReachU c s0)
    {cl : Clients Reply (Req (Nat → Nat → Option Nat))} (hcl : ∀ i rs q, cl i rs q → Always c q) :
    Disciplined (answer c) (AllowedU c) cl s0 := by
  obtain ⟨hm, hu⟩ := reachU_mend hc h0
  have hd := C85_always_disciplined hc.mend hm hu (cl := cl) hcl
  have allowed : ∀ {s q}, ReachU c s → Always c q → Allowed c.mend s q → AllowedU c s q := by
    intro s q h hq ha
    refine ⟨by rw [answer_mend hc h hq]; exact ha.1, ?_⟩
    cases q with
    | write k a hd =>
      refine ⟨hq.1, ?_⟩
      cases k with
      | update i x y => obtain ⟨rfl, rfl⟩ := hq.2.2 i x y rfl; exact fun _ => uniq_set_null (reachU_mend hc h).2 i
      | _ => trivial
    | _ => trivial
  intro log s hs i q hq
  have inv : ReachU c s ∧ Serial (answer c.mend) cl s0 log s := by
    clear hq
    induction hs with
    | start => exact ⟨h0, .start⟩
    | @call log s s' i q r _ h1 h2 ih =>
      have hq := hcl _ _ _ h1
      have ha := allowed ih.1 hq (hd log s ih.2 i q h1)
      refine ⟨?_, ih.2.call h1 (by rw [← answer_mend hc ih.1 hq]; exact h2)⟩
      cases q with
      | write k a hd' =>
        simp only [answer, Option.map_eq_some_iff, Prod.mk.injEq] at h2
        obtain ⟨o, ho, rfl, rfl⟩ := h2
        exact (step_keepsU hc ih.1 ha.2.1 ha.2.2 ho).1
      | get i => simp only [answer, Option.map_eq_some_iff, Prod.mk.injEq] at h2; obtain ⟨-, -, -, rfl⟩ := h2; exact ih.1
      | each q hd' => simp only [answer, Option.map_eq_some_iff, Prod.mk.injEq] at h2; obtain ⟨-, -, -, rfl⟩ := h2; exact ih.1
      | count q => simp only [answer, Option.map_eq_some_iff, Prod.mk.injEq] at h2; obtain ⟨-, -, -, rfl⟩ := h2; exact ih.1
  exact allowed inv.1 (hcl _ _ _ hq) (hd log s inv.2 i q hq)

theorem threadsS_disciplined : Disciplined (answer cfgS) (AllowedU cfgS) threads sActsS := by
  have hg : GoodAlloc upTo255 := by
    intro len req n h
    simp only [upTo255] at h
    split at h
    · cases h; exact Nat.le_refl _
    · cases h
  have hm : ∀ len req n, upTo255 len req = some n → n ≤ cfg0.maxT := by
    intro len req n h
    simp only [upTo255] at h
    split at h
    · next h' => cases h; exact h'
    · cases h
  refine C94_always_disciplined cfgS_ok sActsS_reachU ?_
  rintro i rs q (⟨-, -, rfl⟩ | ⟨-, -, rfl⟩ | ⟨-, -, rfl⟩ | ⟨-, f, L, l, -, -, rfl⟩ | ⟨-, rfl⟩)
  · trivial
  · exact ⟨by decide, by decide⟩
  · show 0 ≤ 3; omega
  · exact ⟨hg, hm, fun _ _ _ h => nomatch h⟩
  · exact ⟨hg, hm, fun _ _ _ h => nomatch h⟩

/-- The threads of the example beside C85, over size-balanced trees. -/
example {y} := C94_every_schedule (y := y) cfgS_ok Sbt.programs_implement sActsS_reachU threadsS_disciplined

example {y} := C94_no_deadlock (y := y) cfgS_ok Sbt.programs_implement sActsS_reachU threadsS_disciplined

end Verif.Unit.Props

namespace Verif.Split.Props
open Verif Verif.Split
open Verif.Unit (KeepsUniq)
variable {c : Cfg} {P : Programs}

/-- **C94**, split store, as C76. -/
theorem C94_split_calls_through_accessors (hc : CfgOK₀ c) (hP : P.ImplementsOn Apart c.trees) {s : Store} (h : ReachU c s) (k : Call)
    (hk : ∀ i a b, k = .update i a b → CanUpdate ((links c).view s) i a b ∧
      ((links c).view s i ≠ none → (((links c).view s).set i (a, b)).Uniq))
    {d i : Nat → Nat → Option Nat} (hd : ExactAlloc d) (hi : ExactAlloc i) {σ : Type} (hh : WH σ) (st : σ) :
    ∃ f0, ∀ f, f0 ≤ f → (callA (c.withAllocs d i) P f hh st k (.of s)).2 =
      (callExec (c.withAllocs d i) s hh st k).map fun o => ((o.res, o.hs), AStore.of o.st) := by
  obtain ⟨free, hI⟩ := reach_good hc.mend (reachU_mend hc h).1
  obtain ⟨f0, hf⟩ := step_accessU hc hP h hI hd hi (k := k) (by cases k <;> first | trivial | exact (hk _ _ _ rfl).1)
    (by cases k <;> first | trivial | exact (hk _ _ _ rfl).2) hh st
  exact ⟨f0, fun f h => (hf f h).1⟩

theorem sActsS_reachU : ReachU cfgS sActsS := (weak_client cfgS_ok sActsS_client).1

theorem sActsS_update : (((links cfgS).view sActsS).set 5 (4, 1)).Uniq :=
  (weak_client cfgS_ok sActsS_client).2.uniq.add fun j hj => by
    have := forall_of_collect (weakLawful cfgS_ok) sActsS_reachU (p := fun l => l.source != 4) (by decide +kernel) hj
    simp at this

theorem sActsS_can : CanUpdate ((links cfgS).view sActsS) 5 4 1 :=
  ⟨fun _ => by decide, fun h => by rcases h with h | h <;> cases h⟩

/-- Link 5 of `sActsS` is updated to (4, 1) and then link 3 is deleted, through the programs of size-balanced trees. -/
example : CfgOK₀ cfgS ∧ Sbt.programs.ImplementsOn Apart cfgS.trees ∧ ReachU cfgS sActsS ∧
    (((links cfgS).view sActsS).set 5 (4, 1)).Uniq ∧ CanUpdate ((links cfgS).view sActsS) 5 4 1 ∧
    ((callA cfgS Sbt.programs 40 (σ := Nat) (fun n _ _ => (.cont, n + 1)) 0 (.update 5 4 1) (.of sActsS)).2.bind fun r =>
      (callA cfgS Sbt.programs 40 (σ := Nat) (fun n _ _ => (.cont, n + 1)) r.1.2 (.delete 3) r.2).2.map fun r =>
        (r.1.2, (List.range 6).map fun i => getLinkA cfgS i r.2)) =
      some (2, [some none, some (some ⟨1, 1, 1⟩), some (some ⟨2, 2, 2⟩), some none, some (some ⟨4, 3, 5⟩), some (some ⟨5, 4, 1⟩)]) :=
  ⟨cfgS_ok, Sbt.programs_implement, sActsS_reachU, sActsS_update, sActsS_can, by decide +kernel⟩

/-- **C94**, split store, as C77. -/
theorem C94_split_single_writes_keep_the_ends (hc : CfgOK₀ c) (hP : P.ImplementsOn Apart c.trees) {s : Store} (h : ReachU c s)
    (k : Call) (hk : ∀ i a b, k = .update i a b → CanUpdate ((links c).view s) i a b ∧
      ((links c).view s i ≠ none → (((links c).view s).set i (a, b)).Uniq))
    {d i : Nat → Nat → Option Nat} (hd : ExactAlloc d) (hi : ExactAlloc i) {σ : Type} (hh : WH σ) (st : σ) :
    ∃ f0, ∀ f, f0 ≤ f → ∀ m ∈ (callA (c.withAllocs d i) P f hh st k (.of s)).1,
      ∀ (d' i' : Nat → Nat → Option Nat), ExactAlloc d' → ExactAlloc i' → ∀ (n1 n2 : Nat) (s' : Store),
      init (c.withAllocs d' i') { m.s with dlen := n1, ilen := n2 } = some (.ok s') → m.s.hdr.allocated < s'.ilen →
      (∀ l, ((links c).view s).Has l → ¬ callAbout l.index k →
        s'.data l.index = (l.source, l.target) ∧
        ((links c).getLink s' l.index = some (some l) ∨ (links c).getLink s' l.index = some none)) ∧
      ∃ L, (links c).Visits s' [] L ∧
        ∀ l, ((links c).view s).Has l → ¬ callAbout l.index k → ∀ l' ∈ L, l'.index = l.index → l' = l := by
  obtain ⟨free, hI⟩ := reach_good hc.mend (reachU_mend hc h).1
  obtain ⟨f0, hf⟩ := step_accessU hc hP h hI hd hi (k := k) (by cases k <;> first | trivial | exact (hk _ _ _ rfl).1)
    (by cases k <;> first | trivial | exact (hk _ _ _ rfl).2) hh st
  refine ⟨f0, fun f hff m hm d' i' hd' hi' n1 n2 s' ho hlt => ?_⟩
  have ho' : init (c.mend.withAllocs d' i') { m.s with dlen := n1, ilen := n2 } = some (.ok s') := ho
  obtain ⟨g1, L, g2, g3⟩ := image_ends (c := c.mend) hc.mend (s := s) (k := k) (m := m.s) (fun l hl hca => by
    obtain ⟨h1, h2⟩ := (has_iff hc.mend hI.toInv0 l).1 hl
    rw [(hf f hff).2 m hm l.index hca h1, h2]
    rfl) hd' hi' ho' hlt
  rw [view_mend] at g1 g3
  rw [visits_mend] at g2
  exact ⟨fun l hl hca => by rw [← getLink_mend]; exact g1 l hl hca, L, g2, g3⟩

/-- What reopening finds at `i` after each single assignment of a call made through the programs of size-balanced trees. -/
def afterWriteS (s : Store) (k : Call) (i : Nat) : List (Option (Option Link)) :=
  (callA cfgS Sbt.programs 40 (σ := _root_.Unit) (fun _ _ _ => (.cont, ())) () k (.of s)).1.map fun m =>
    match init cfgS m.s with
    | some (.ok s') => if m.s.hdr.allocated < s'.ilen then (links cfgS).getLink s' i else none
    | _ => none

/-- An update in `sActsS` makes 16 assignments; the ends of link 3 are found after each of them. -/
example : (((links cfgS).view sActsS).set 5 (4, 1)).Uniq ∧ ¬ callAbout 3 (.update 5 4 1) ∧
    (links cfgS).getLink sActsS 3 = some (some ⟨3, 1, 2⟩) ∧
    afterWriteS sActsS (.update 5 4 1) 3 = List.replicate 16 (some (some ⟨3, 1, 2⟩)) :=
  ⟨sActsS_update, fun h => by simp [callAbout] at h, by decide +kernel, by decide +kernel⟩

/-- **C94**, split store, as C83. -/
theorem C94_split_power_loss_keeps_the_ends (hc : CfgOK₀ c) (hP : P.ImplementsOn Apart c.trees) {s : Store} (h : ReachU c s)
    {xs : List Step} (hs : SessionU c s xs) :
    ∃ f0, ∀ f, f0 ≤ f → ∀ t, Torn (s :: written c P f xs (.of s)) t →
      ∀ (d' i' : Nat → Nat → Option Nat), ExactAlloc d' → ExactAlloc i' → ∀ (n1 n2 : Nat) (s' : Store),
      init (c.withAllocs d' i') { t with dlen := n1, ilen := n2 } = some (.ok s') → t.hdr.allocated < s'.ilen →
      (∀ l, ((links c).view s).Has l → (∀ x ∈ xs, ¬ callAbout l.index x.call) →
        s'.data l.index = (l.source, l.target) ∧
        ((links c).getLink s' l.index = some (some l) ∨ (links c).getLink s' l.index = some none)) ∧
      ∃ L, (links c).Visits s' [] L ∧
        ∀ l, ((links c).view s).Has l → (∀ x ∈ xs, ¬ callAbout l.index x.call) → ∀ l' ∈ L, l'.index = l.index → l' = l := by
  obtain ⟨free, hI⟩ := reach_good hc.mend (reachU_mend hc h).1
  obtain ⟨f0, hf⟩ := written_keepsU hc hP hs h
  refine ⟨f0, fun f hff t ht d' i' hd' hi' n1 n2 s' ho hlt => ?_⟩
  have ho' : init (c.mend.withAllocs d' i') { t with dlen := n1, ilen := n2 } = some (.ok s') := ho
  obtain ⟨g1, L, g2, g3⟩ := torn_ends (c := c.mend) hc.mend hI (Q := fun i => ∀ x ∈ xs, ¬ callAbout i x.call)
    (by rw [view_mend]; exact hf f hff) ht hd' hi' ho' hlt
  rw [view_mend] at g1 g3
  rw [visits_mend] at g2
  exact ⟨fun l hl hca => by rw [← getLink_mend]; exact g1 l hl hca, L, g2, g3⟩

/-- The update of link 5 and the deletion of link 3 are such a session. -/
theorem sActsS_session : SessionU cfgS sActsS ([.update 5 4 1, .delete 3].map quiet) := by
  have h : ((callExec (cfgS.withAllocs cfg0.dalloc cfg0.ialloc) sActsS (σ := _root_.Unit) (fun _ _ _ => (.cont, ())) ()
      (.update 5 4 1)).bind fun o => callExec (cfgS.withAllocs cfg0.dalloc cfg0.ialloc) o.st (σ := _root_.Unit)
        (fun _ _ _ => (.cont, ())) () (.delete 3)).isSome = true := by
    decide +kernel
  cases h1 : callExec (cfgS.withAllocs cfg0.dalloc cfg0.ialloc) sActsS (σ := _root_.Unit) (fun _ _ _ => (.cont, ())) ()
      (.update 5 4 1) with
  | none => rw [h1] at h; cases h
  | some o =>
    rw [h1] at h
    obtain ⟨o2, h2⟩ := Option.isSome_iff_exists.1 h
    exact .step (x := quiet (.update 5 4 1)) cfg0_ok.dalloc_eq cfg0_ok.ialloc_eq
      ⟨fun _ => sActsS_update, sActsS_can, fun e => nomatch e⟩ h1
      (.step (x := quiet (.delete 3)) cfg0_ok.dalloc_eq cfg0_ok.ialloc_eq ⟨trivial, trivial, fun e => nomatch e⟩ h2 (.done _))

example : ∃ t, Torn (sActsS :: written cfgS Sbt.programs 40 ([.update 5 4 1, .delete 3].map quiet) (.of sActsS)) t ∧
    ((links cfgS).view sActsS).Has ⟨4, 3, 5⟩ ∧ ∀ x ∈ [Call.update 5 4 1, .delete 3].map quiet, ¬ callAbout 4 x.call :=
  ⟨sActsS, fun i f => ⟨⟨_, List.mem_cons_self, rfl⟩, _, List.mem_cons_self, rfl⟩,
    by show (links cfgS).view sActsS 4 = some (3, 5); decide +kernel, by
    intro x hx
    simp only [List.map_cons, List.map_nil, List.mem_cons, List.not_mem_nil, or_false] at hx
    rcases hx with rfl | rfl <;> simp [quiet, callAbout]⟩

/-- **C94**, split store, as C85. -/
theorem C94_split_every_schedule (hc : CfgOK₀ c) (hP : P.ImplementsOn Apart c.trees) {s0 : Store} (h0 : ReachU c s0)
    {cl : Clients Reply (Req Allocs)} (hd : Disciplined (answer c) (AllowedU c) cl s0)
    {y : Sys AStore Loc Reply} (hy : Runs AStore.look (job c P) cl (.of s0) y) :
    ∃ s, Serial (answer c) cl s0 y.log s ∧ ReachU c s ∧ (y.NoWriter → y.mem = .of s) ∧
      ∀ i, y.phase i ≠ .idle → ∃ q r s' y', cl i (mine y.log i) q ∧ answer c s q = some (r, s') ∧
        ThreadSteps AStore.look (job c P) cl i y y' ∧ Returned y y' i r (.of s') :=
  (faithfulU hc hP).linear h0 hd hy

/-- **C94**, split store: no deadlock, as C85. -/
theorem C94_split_no_deadlock (hc : CfgOK₀ c) (hP : P.ImplementsOn Apart c.trees) {s0 : Store} (h0 : ReachU c s0)
    {cl : Clients Reply (Req Allocs)} (hd : Disciplined (answer c) (AllowedU c) cl s0)
    {y : Sys AStore Loc Reply} (hy : Runs AStore.look (job c P) cl (.of s0) y) :
    (∃ i y' r m, y.phase i ≠ .idle ∧ ThreadSteps AStore.look (job c P) cl i y y' ∧ Returned y y' i r m) ∨
    ∀ i q, cl i (mine y.log i) q → ∃ y', ThreadStep AStore.look (job c P) cl i y y' ∧ y'.phase i ≠ .idle := by
  by_cases hi : ∀ i, y.phase i = .idle
  · exact .inr fun i q hq => (faithfulU hc hP).enters h0 hd hy hi hq
  · simp only [Classical.not_forall] at hi
    obtain ⟨i, hi⟩ := hi
    obtain ⟨s, -, -, -, h1⟩ := (faithfulU hc hP).linear h0 hd hy
    obtain ⟨q, r, s', y', -, -, h2, h3⟩ := h1 i hi
    exact .inl ⟨i, y', r, _, hi, h2, h3⟩

/-- Reads, creations and updates to null answer as over the mended crate. -/
theorem answer_mend (hc : CfgOK₀ c) {s : Store} (h : ReachU c s) {q : Req Allocs} (hq : Always c q) :
    answer c s q = answer c.mend s q := by
  obtain ⟨hm, hu⟩ := reachU_mend hc h
  cases q with
  | get i =>
    have e : (links c.mend).getLink s i = (links c).getLink s i := getLink_mend ..
    simp only [answer, e]
  | each q hd =>
    have e : (links c.mend).eachLinks s q (showing hd) [] = (links c).eachLinks s q (showing hd) [] := eachLinks_mend ..
    simp only [answer, e]
  | count q =>
    have e : (links c.mend).countLinks s q = (links c).countLinks s q := countLinks_mend ..
    simp only [answer, e]
  | write k a hd =>
    obtain ⟨free, hi⟩ := reach_good hc.mend hm
    have hI : Inv (c.withAllocs a.d a.i).mend s free := hi.withAllocs a.d a.i
    obtain ⟨ha, hai, -, hk⟩ := hq
    have e : callExec (c.withAllocs a.d a.i) s (showing2 hd) [] k = callExec (c.mend.withAllocs a.d a.i) s (showing2 hd) [] k :=
      callExec_mend (hc.withAllocs ha (hai ▸ ha)) (k := k) hI (by rw [view_withAllocs]; exact hu) (by
        rw [view_withAllocs]
        rcases hk with rfl | ⟨i, rfl⟩
        · trivial
        · exact fun _ => hu.set_null i) _ _
    simp only [answer, e]

theorem newUnused_of_mend (hc : CfgOK₀ c) {d i : Nat → Nat → Option Nat} (hd : ExactAlloc d) (hi : ExactAlloc i) {s : Store}
    {free : List Nat} (h : Inv c.mend s free) (hn : NewUnused (c.mend.withAllocs d i) s) : NewUnused (c.withAllocs d i) s := by
  intro j s' hcr
  rw [view_withAllocs, ← view_mend]
  have e : ∀ σ (h' : WH σ) st, (links (c.withAllocs d i)).createLinks s [] h' st = (links (c.mend.withAllocs d i)).createLinks s [] h' st :=
    fun σ h' st => createLinks_allocs hc hd hi h [] h' st
  have := hn j s' (Eq.trans (by simp only [Links.create, Links.createBy, Links.createByWith, e]) hcr)
  rwa [view_withAllocs] at this

/-- **C94**: threads that only look links up, traverse, count, create and nullify make no duplicates, whatever they do with the
results, if every end names a link in the beginning. -/
theorem C94_split_always_disciplined (hc : CfgOK₀ c) {s0 : Store} (h0 : ReachU c s0) (hn : NamesLinks ((links c).view s0))
    {cl : Clients Reply (Req Allocs)} (hcl : ∀ i rs q, cl i rs q → Always c q) :
    Disciplined (answer c) (AllowedU c) cl s0 := by
  obtain ⟨hm, hu⟩ := reachU_mend hc h0
  have hd := C85_split_always_disciplined hc.mend hm (by rw [view_mend]; exact hu) (by rw [view_mend]; exact hn) (cl := cl) hcl
  have allowed : ∀ {s q}, ReachU c s → Always c q → Allowed c.mend s q → AllowedU c s q := by
    intro s q h hq ha
    refine ⟨by rw [answer_mend hc h hq]; exact ha.1, ?_⟩
    cases q with
    | write k a hd =>
      obtain ⟨hm, hu⟩ := reachU_mend hc h
      obtain ⟨free, hI⟩ := reach_good hc.mend hm
      obtain ⟨-, h1, h2, h3, h4⟩ := ha
      rw [view_mend] at h3
      obtain ⟨-, -, -, hk⟩ := hq
      refine ⟨h1, h2, ?_, ?_, fun e => ⟨(h4 e).1, newUnused_of_mend hc h1 h2 hI (h4 e).2⟩⟩
      · rcases hk with rfl | ⟨i, rfl⟩
        · trivial
        · exact fun _ => hu.set_null i
      · rcases hk with rfl | ⟨i, rfl⟩
        · trivial
        · exact h3.2
    | _ => trivial
  intro log s hs i q hq
  have inv : ReachU c s ∧ Serial (answer c.mend) cl s0 log s := by
    clear hq
    induction hs with
    | start => exact ⟨h0, .start⟩
    | @call log s s' i q r _ h1 h2 ih =>
      have hq := hcl _ _ _ h1
      have ha := allowed ih.1 hq (hd log s ih.2 i q h1)
      refine ⟨?_, ih.2.call h1 (by rw [← answer_mend hc ih.1 hq]; exact h2)⟩
      cases q with
      | write k a hd' =>
        simp only [answer, Option.map_eq_some_iff, Prod.mk.injEq] at h2
        obtain ⟨o, ho, rfl, rfl⟩ := h2
        exact (step_keepsU hc ih.1 ha.2.1 ha.2.2.1 ha.2.2.2 ho).1
      | get i => simp only [answer, Option.map_eq_some_iff, Prod.mk.injEq] at h2; obtain ⟨-, -, -, rfl⟩ := h2; exact ih.1
      | each q hd' => simp only [answer, Option.map_eq_some_iff, Prod.mk.injEq] at h2; obtain ⟨-, -, -, rfl⟩ := h2; exact ih.1
      | count q => simp only [answer, Option.map_eq_some_iff, Prod.mk.injEq] at h2; obtain ⟨-, -, -, rfl⟩ := h2; exact ih.1
  exact allowed inv.1 (hcl _ _ _ hq) (hd log s inv.2 i q hq)

theorem sActsS_names : NamesLinks ((links cfgS).view sActsS) := by
  intro j a b hj
  have := forall_of_collect (weakLawful cfgS_ok) sActsS_reachU (p := fun l =>
    (l.source == 0 || ((links cfgS).view sActsS l.source).isSome) &&
    (l.target == 0 || ((links cfgS).view sActsS l.target).isSome)) (by decide +kernel) hj
  simp only [Bool.and_eq_true, Bool.or_eq_true, beq_iff_eq, Option.isSome_iff_ne_none] at this
  exact ⟨fun h => this.1.resolve_left h, fun h => this.2.resolve_left h⟩

theorem threadsS_disciplined : Disciplined (answer cfgS) (AllowedU cfgS) threads sActsS := by
  have hg : ExactAlloc upTo255 := by
    intro len req n h
    simp only [upTo255] at h
    split at h
    · cases h; rfl
    · cases h
  have hm : ∀ len req n, upTo255 len req = some n → n ≤ cfg0.maxT := by
    intro len req n h
    simp only [upTo255] at h
    split at h
    · next h' => cases h; exact h'
    · cases h
  refine C94_split_always_disciplined cfgS_ok sActsS_reachU sActsS_names ?_
  rintro i rs q (⟨-, -, rfl⟩ | ⟨-, -, rfl⟩ | ⟨-, -, rfl⟩ | ⟨-, f, L, l, -, -, rfl⟩ | ⟨-, rfl⟩)
  · trivial
  · exact Nat.zero_le 1
  · exact ⟨by decide, fun h => nomatch h⟩
  · exact ⟨hg, rfl, hm, .inr ⟨_, rfl⟩⟩
  · exact ⟨hg, rfl, hm, .inl rfl⟩

/-- The threads of the example beside C85, over size-balanced trees. -/
example {y} := C94_split_every_schedule (y := y) cfgS_ok Sbt.programs_implement sActsS_reachU threadsS_disciplined

example {y} := C94_split_no_deadlock (y := y) cfgS_ok Sbt.programs_implement sActsS_reachU threadsS_disciplined

end Verif.Split.Props
