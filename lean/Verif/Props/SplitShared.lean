import Verif.Split.Shared
import Verif.Split.Query
import Verif.DecoratorLaws
import Verif.Split.Example
import Verif.Props.SplitAccess
import Verif.Props.SplitDerived
import Verif.Props.Careful

/-!
# C85 for the split store

See `Props/Shared.lean`. Calls touch two memories here.
-/

namespace Verif.Split.Props
open Verif Verif.Split
variable {c : Cfg} {P : Programs}

/-- **C85**. Reading calls do not write: a call of `get`, `each` or `count` that does not panic is a program of loads. On
memory that holds the store it returns the answer of the store, with the bound on its loops anything above the length of
the memory, and the store stays the same. -/
theorem C85_split_reads_only_load (hc : CfgOK c) {s : Store} (h : Reach c s) {q : Req Allocs}
    (hq : ∀ k a hd, q ≠ .write k a hd) {r : Reply} {s' : Store} (hr : answer c s q = some (r, s')) :
    s' = s ∧ ∃ p, job c P q = .read p ∧ ∀ f, s.ilen < f → (p f).run (AStore.of s).look = some r :=
  read_alone hc h hq hr

/-- The links with source 1, with a handler that stops after the first of the two. -/
example := C85_split_reads_only_load (P := Ref.programs) cfg0_ok sNet_reach (q := .each [cfg0.consts.any, 1, cfg0.consts.any] fun _ => .brk ())
  (fun _ _ _ h => nomatch h) (r := .links (.brk ()) [⟨1, 1, 1⟩]) (s' := sNet)
  (by simp [answer, show (links cfg0).eachLinks sNet [cfg0.consts.any, 1, cfg0.consts.any] (showing fun _ => .brk ()) [] =
    some (.brk (), [⟨1, 1, 1⟩]) by decide +kernel])

/-- **C85**. Whatever the schedule, the results are those of the calls that have returned, made one at a time in the order in
which they returned. While nobody writes the memory is that of the store after these calls. A thread that is in the middle
of a call, with others perhaps in the middle of theirs, returns when it is scheduled often enough; its result is the answer
of a call made at that point. No thread panics or loads from outside of the memory. The threads make supported calls, if
they run one at a time: this is a condition on their programs and not on the schedule. -/
theorem C85_split_every_schedule (hc : CfgOK c) (hP : P.Implements c.trees) {s0 : Store} (h0 : Reach c s0)
    {cl : Clients Reply (Req Allocs)} (hd : Disciplined (answer c) (Allowed c) cl s0)
    {y : Sys AStore Loc Reply} (hy : Runs AStore.look (job c P) cl (.of s0) y) :
    ∃ s, Serial (answer c) cl s0 y.log s ∧ Reach c s ∧ (y.NoWriter → y.mem = .of s) ∧
      ∀ i, y.phase i ≠ .idle → ∃ q r s' y', cl i (mine y.log i) q ∧ answer c s q = some (r, s') ∧
        ThreadSteps AStore.look (job c P) cl i y y' ∧ Returned y y' i r (.of s') :=
  (faithful hc hP).linear h0 hd hy

/-- **C85**. Conversely the calls made one at a time are one of the schedules: the model of threads does not leave out what
threads that wait for each other do. -/
theorem C85_split_one_at_a_time_is_a_schedule (hc : CfgOK c) (hP : P.Implements c.trees) {s0 : Store} (h0 : Reach c s0)
    {cl : Clients Reply (Req Allocs)} (hd : Disciplined (answer c) (Allowed c) cl s0)
    {log : List (Nat × Reply)} {s : Store} (h : Serial (answer c) cl s0 log s) :
    Runs AStore.look (job c P) cl (.of s0) ⟨.of s, fun _ => .idle, log⟩ :=
  (faithful hc hP).next h0 hd h

/-- **C85**. No deadlock: from every state that a schedule leads to some thread can go on, if any thread is in a call or has a
call to make. Either somebody is in a call and returns when scheduled, or every next call can be entered. -/
theorem C85_split_no_deadlock (hc : CfgOK c) (hP : P.Implements c.trees) {s0 : Store} (h0 : Reach c s0)
    {cl : Clients Reply (Req Allocs)} (hd : Disciplined (answer c) (Allowed c) cl s0)
    {y : Sys AStore Loc Reply} (hy : Runs AStore.look (job c P) cl (.of s0) y) :
    (∃ i y' r m, y.phase i ≠ .idle ∧ ThreadSteps AStore.look (job c P) cl i y y' ∧ Returned y y' i r m) ∨
    ∀ i q, cl i (mine y.log i) q → ∃ y', ThreadStep AStore.look (job c P) cl i y y' ∧ y'.phase i ≠ .idle := by
  by_cases hi : ∀ i, y.phase i = .idle
  · exact .inr fun i q hq => (faithful hc hP).enters h0 hd hy hi hq
  · simp only [Classical.not_forall] at hi
    obtain ⟨i, hi⟩ := hi
    obtain ⟨s, -, -, -, h1⟩ := (faithful hc hP).linear h0 hd hy
    obtain ⟨q, r, s', y', -, -, h2, h3⟩ := h1 i hi
    exact .inl ⟨i, y', r, _, hi, h2, h3⟩

/-- **C85**. Threads that only read never disturb each other: every result is the answer that the store gives at the
beginning, and the memory never changes. -/
theorem C85_split_parallel_readers (hc : CfgOK c) (hP : P.Implements c.trees) {s0 : Store} (h0 : Reach c s0)
    {cl : Clients Reply (Req Allocs)}
    (hcl : ∀ i rs q, cl i rs q → (∀ k a hd, q ≠ .write k a hd) ∧ answer c s0 q ≠ none)
    {y : Sys AStore Loc Reply} (hy : Runs AStore.look (job c P) cl (.of s0) y) :
    y.mem = .of s0 ∧ ∀ e ∈ y.log, ∃ rs q, cl e.1 rs q ∧ answer c s0 q = some (e.2, s0) := by
  have same : ∀ {q r s'}, (∀ k a hd, q ≠ .write k a hd) → answer c s0 q = some (r, s') → s' = s0 :=
    fun hq hr => (read_alone (P := P) hc h0 hq hr).1
  have ser : ∀ {log s}, Serial (answer c) cl s0 log s → s = s0 ∧
      ∀ e ∈ log, ∃ rs q, cl e.1 rs q ∧ answer c s0 q = some (e.2, s0) := by
    intro log s h
    induction h with
    | start => exact ⟨rfl, fun e he => nomatch he⟩
    | @call log s s' i q r _ h1 h2 ih =>
      obtain ⟨rfl, ih⟩ := ih
      obtain rfl := same (hcl _ _ _ h1).1 h2
      refine ⟨rfl, fun e he => ?_⟩
      rcases List.mem_append.mp he with he | he
      · exact ih e he
      · rw [List.mem_singleton] at he; subst he
        exact ⟨_, q, h1, h2⟩
  have hd : Disciplined (answer c) (Allowed c) cl s0 := by
    intro log s hs i q hq
    obtain ⟨rfl, -⟩ := ser hs
    refine ⟨(hcl _ _ _ hq).2, ?_⟩
    cases q with
    | write k a h => exact absurd rfl ((hcl _ _ _ hq).1 k a h)
    | _ => trivial
  have hw : y.NoWriter := by
    clear hd ser
    induction hy with
    | start => exact fun k rest last h => nomatch h
    | @step y y' i _ hs ih =>
      intro k rest last hk
      cases hs with
      | enterRead h1 h2 hj h3 h4 =>
        simp only [Sys.at] at hk
        split at hk
        · cases hk
        · exact ih _ _ _ hk
      | load h1 h2 =>
        simp only [Sys.at] at hk
        split at hk
        · cases hk
        · exact ih _ _ _ hk
      | leaveRead h1 =>
        simp only [Sys.at] at hk
        split at hk
        · cases hk
        · exact ih _ _ _ hk
      | @enterWrite q t f h1 h2 h3 hj h4 =>
        cases q with
        | write kk a h => exact absurd rfl ((hcl _ _ _ h3).1 kk a h)
        | get i => cases hj
        | each q h => cases hj
        | count q => cases hj
      | assign h1 => exact absurd h1 (ih _ _ _)
      | leaveWrite h1 => exact absurd h1 (ih _ _ _)
  obtain ⟨s, h1, -, h2, -⟩ := (faithful hc hP).linear h0 hd hy
  obtain ⟨rfl, h3⟩ := ser h1
  exact ⟨h2 hw, h3⟩

/-- Calls that are always supported on a store without duplicates and without references to missing links: lookups,
traversals with up to three parts and no null end, counts of everything or of one index, creations, and updates to the null
pair. Both memories grow alike, to exactly what is asked for, and at most to what the index type can count. -/
def Always (c : Cfg) : Req Allocs → Prop
  | .get _ => True
  | .each q _ => q.length ≤ 3 ∧ NullFree c.consts.any q
  | .count q => q.length ≤ 1
  | .write k a _ => ExactAlloc a.d ∧ a.i = a.d ∧ (∀ len req n, a.d len req = some n → n ≤ c.maxT) ∧
      (k = .create ∨ ∃ i, k = .update i 0 0)

/-- Every non-null end of every link names a link. -/
def NamesLinks (v : View) : Prop := ∀ j a b, v j = some (a, b) → (a ≠ 0 → v a ≠ none) ∧ (b ≠ 0 → v b ≠ none)

theorem NamesLinks.set_null {v : View} (h : NamesLinks v) (i : Nat) : NamesLinks (v.set i (0, 0)) := by
  intro j a b hj
  simp only [View.set] at hj ⊢
  split at hj
  · cases hj; exact ⟨fun h => absurd rfl h, fun h => absurd rfl h⟩
  · obtain ⟨h1, h2⟩ := h j a b hj
    exact ⟨fun ha => by split; simp; exact h1 ha, fun hb => by split; simp; exact h2 hb⟩

/-- In such a store nothing refers to the index that a creation returns. -/
theorem NamesLinks.newUnused (hc : CfgOK c) {s : Store} {free : List Nat} (h : Inv c s free)
    (hv : NamesLinks ((links c).view s)) : NewUnused c s := by
  intro i s' hi j a b hj
  have hn : (links c).view s i = none ∧ i ≠ 0 := by
    rcases create_cases hc h [] with ⟨x, rest, s2, g1, g2, g3, -⟩ | ⟨-, -, g⟩ | ⟨-, -, -, g⟩ | ⟨-, -, -, -, g⟩ |
      ⟨-, -, -, -, -, g⟩ | ⟨-, -, s2, g2, g3, -⟩
    · rw [create_of_succeeds g2] at hi; cases hi
      exact ⟨(g3.view hc h.toInv0).1, by have := ((g3.live i).2 (.inr rfl)).1; omega⟩
    · rw [Links.create_err g] at hi; cases hi
    · rw [Links.create_err g] at hi; cases hi
    · rw [Links.create_err g] at hi; cases hi
    · rw [create_none g] at hi; cases hi
    · rw [create_of_succeeds g2] at hi; cases hi
      exact ⟨(g3.view hc h.toInv0).1, by omega⟩
  obtain ⟨h1, h2⟩ := hv j a b hj
  exact ⟨fun e => h1 (e ▸ hn.2) (e ▸ hn.1), fun e => h2 (e ▸ hn.2) (e ▸ hn.1)⟩

/-- **C85**. Threads that, from a store without duplicates and without references to missing links, only look links up,
traverse, count, create and nullify, are disciplined, whatever they do with the results. -/
theorem C85_split_always_disciplined (hc : CfgOK c) {s0 : Store} (h0 : Reach c s0) (hu : ((links c).view s0).Uniq)
    (hn : NamesLinks ((links c).view s0)) {cl : Clients Reply (Req Allocs)} (hcl : ∀ i rs q, cl i rs q → Always c q) :
    Disciplined (answer c) (Allowed c) cl s0 := by
  have one : ∀ {s q}, Reach c s → ((links c).view s).Uniq ∧ NamesLinks ((links c).view s) → Always c q → Allowed c s q ∧
      ∀ r s', answer c s q = some (r, s') → Reach c s' ∧ ((links c).view s').Uniq ∧ NamesLinks ((links c).view s') := by
    intro s q h hu hq
    have hg := reach_good hc h
    have rd : (∀ k a hd, q ≠ .write k a hd) → answer c s q ≠ none → Allowed c s q ∧
        ∀ r s', answer c s q = some (r, s') →
          Reach c s' ∧ ((links c).view s').Uniq ∧ NamesLinks ((links c).view s') := by
      intro hw hn
      refine ⟨⟨hn, ?_⟩, fun r s' hr => ?_⟩
      · cases q with
        | write k a h => exact absurd rfl (hw k a h)
        | _ => trivial
      · obtain ⟨rfl, -⟩ := read_alone (P := Ref.programs) hc h hw hr
        exact ⟨h, hu⟩
    cases q with
    | get i => exact rd (fun _ _ _ h => nomatch h) (by simp [answer, (lawful hc).get s hg i])
    | each q hd =>
      obtain ⟨L, h1, -⟩ := query_law hc hg q hq.1 hq.2
      exact rd (fun _ _ _ h => nomatch h) (by simp [answer, h1 _ (showing hd) []])
    | count q =>
      have hq : q.length ≤ 1 := hq
      have hnf : NullFree c.consts.any q := by
        rcases q with - | ⟨a, - | ⟨b, q⟩⟩
        · intro _ x hx; cases hx
        · intro _ x hx; cases hx
        · simp at hq
      have hco : CountOK c.consts.any ((links c).view s) q := by
        rcases q with - | ⟨a, - | ⟨b, q⟩⟩
        · trivial
        · trivial
        · simp at hq
      obtain ⟨L, -, h3, -, -, -, h6⟩ := query_law hc hg q (by omega) hnf
      have hend := hc.end_le
      have h3 : (links c).countLinks s q = _ := (h3 hco).trans (if_pos (by have := h6 (by omega); omega))
      exact rd (fun _ _ _ h => nomatch h) (by simp [answer, h3])
    | write k a hd =>
      obtain ⟨ha, hai, hmax, hk⟩ := hq
      have hai' : ExactAlloc a.i := hai ▸ ha
      have hca := hc.withAllocs ha hai'
      obtain ⟨free, hi⟩ := hg
      have hga : Good (c.withAllocs a.d a.i) s := ⟨_, hi.withAllocs a.d a.i⟩
      have hz : (links c).view s 0 = none := (lawful hc).null s ⟨_, hi⟩
      have hlen := hi.base.len_eq
      have hcg : CanGrow (c.withAllocs a.d a.i) s := by
        intro hd
        have hd : a.d s.dlen (s.dlen + c.step) ≠ none := hd
        show a.i s.ilen (s.ilen + c.step) ≠ none ∧ s.ilen + c.step ≤ c.maxT
        rw [hai, ← hlen]
        obtain ⟨n, hn⟩ := Option.ne_none_iff_exists'.mp hd
        have h1 := ha _ _ _ hn
        have h2 := hmax _ _ _ hn
        exact ⟨hd, by omega⟩
      have hnu : NewUnused (c.withAllocs a.d a.i) s :=
        NamesLinks.newUnused hca (hi.withAllocs a.d a.i) (by rw [view_withAllocs]; exact hu.2)
      have fin : ∀ {o : Out Store (List (Link × Link)) Flow},
          callExec (c.withAllocs a.d a.i) s (showing2 hd) [] k = some o → Supported ((links c).view s) k →
          ((links c).view o.st).Uniq ∧ NamesLinks ((links c).view o.st) → Allowed c s (.write k a hd) ∧
          ∀ r s', answer c s (.write k a hd) = some (r, s') →
            Reach c s' ∧ ((links c).view s').Uniq ∧ NamesLinks ((links c).view s') := by
        intro o ho hsup hu'
        refine ⟨⟨by simp [answer, ho], ha, hai', hsup, fun _ => ⟨fun h => (hcg h).1, hnu⟩⟩, fun r s' hr => ?_⟩
        simp only [answer, ho, Option.map_some, Option.some.injEq, Prod.mk.injEq] at hr
        obtain ⟨-, rfl⟩ := hr
        exact ⟨(step_keeps hc h ha hai' hsup (fun _ => ⟨fun h => (hcg h).1, hnu⟩) ho).1, hu'⟩
      rcases hk with rfl | ⟨i, rfl⟩
      · rcases create_law hca hga hcg hnu [] with ⟨e, he⟩ | ⟨i, s', -, -, hv, he⟩
        · have ho : callExec (c.withAllocs a.d a.i) s (showing2 hd) [] .create = some _ := he _ (showing2 hd) []
          exact fin ho trivial hu
        · have ho : callExec (c.withAllocs a.d a.i) s (showing2 hd) [] .create = some _ := he _ (showing2 hd) []
          rw [view_withAllocs, view_withAllocs] at hv
          exact fin ho trivial (by simp only [hv]; exact ⟨hu.1.set_null i, hu.2.set_null i⟩)
      · have hcu : CanUpdate ((links c).view s) i 0 0 := by
          refine ⟨fun h => absurd rfl h, fun h p hp => ?_⟩
          have : i = 0 := by omega
          rw [this, hz] at hp; cases hp
        cases hv : (links (c.withAllocs a.d a.i)).view s i with
        | none =>
          have ho : callExec (c.withAllocs a.d a.i) s (showing2 hd) [] (.update i 0 0) = some _ :=
            (lawful hca).update_missing s hga i hv i 0 0 _ (showing2 hd) []
          exact fin ho ⟨hu.1 i, hcu⟩ hu
        | some p =>
          obtain ⟨s', -, hv', he⟩ := update_law hca hga hv (by rw [view_withAllocs]; exact hu.1 i) i 0 0
            (by rw [view_withAllocs]; exact hcu)
          have ho : callExec (c.withAllocs a.d a.i) s (showing2 hd) [] (.update i 0 0) = some _ := he _ (showing2 hd) []
          rw [view_withAllocs, view_withAllocs] at hv'
          exact fin ho ⟨hu.1 i, hcu⟩ (by simp only [hv']; exact ⟨hu.1.set_null i, hu.2.set_null i⟩)
  intro log s hs i q hq
  have inv : Reach c s ∧ ((links c).view s).Uniq ∧ NamesLinks ((links c).view s) := by
    clear hq
    induction hs with
    | start => exact ⟨h0, hu, hn⟩
    | @call log s s' i q r _ h1 h2 ih => exact (one ih.1 ih.2 (hcl _ _ _ h1)).2 _ _ h2
  exact (one inv.1 inv.2 (hcl _ _ _ hq)).1

/-- Memory that grows to what is asked for, up to what the index type can count. -/
def upTo255 : Nat → Nat → Option Nat := fun _ req => if req ≤ 255 then some req else none

/-- Thread 0 looks up link 6 and then counts the links; thread 1 traverses the store, stops after three links,
and nullifies the last one it was shown; thread 2 creates links for ever. -/
def threads : Clients Reply (Req Allocs) := fun i rs q =>
  (i = 0 ∧ rs = [] ∧ q = .get 6) ∨ (i = 0 ∧ rs.length = 1 ∧ q = .count []) ∨
  (i = 1 ∧ rs = [] ∧ q = .each [] fun L => if L.length < 3 then .cont else .brk ()) ∨
  (i = 1 ∧ ∃ f L l, rs = [.links f L] ∧ L.getLast? = some l ∧ q = .write (.update l.index 0 0) ⟨upTo255, upTo255⟩ fun _ => .cont) ∨
  (i = 2 ∧ q = .write .create ⟨upTo255, upTo255⟩ fun _ => .cont)

theorem sNetU_names : NamesLinks ((links cfg0).view sNetU) := by
  intro j a b hj
  have := forall_of_collect (reachLawful cfg0_ok) sNetU_reach (p := fun l =>
    (l.source == 0 || ((links cfg0).view sNetU l.source).isSome) &&
    (l.target == 0 || ((links cfg0).view sNetU l.target).isSome)) (by decide +kernel) hj
  simp only [Bool.and_eq_true, Bool.or_eq_true, beq_iff_eq, Option.isSome_iff_ne_none] at this
  exact ⟨fun h => this.1.resolve_left h, fun h => this.2.resolve_left h⟩

theorem threads_disciplined : Disciplined (answer cfg0) (Allowed cfg0) threads sNetU := by
  have hg : ExactAlloc upTo255 := by
    intro len req n h
    simp only [upTo255] at h
    split at h
    · cases h; rfl
    · cases h
  have hm : ∀ len req n, upTo255 len req = some n → n ≤ cfg0.maxT := by
    intro len req n h
    simp only [upTo255] at h
    split at h
    · next h' => cases h; exact h'
    · cases h
  refine C85_split_always_disciplined cfg0_ok sNetU_reach sNetU_uniq sNetU_names ?_
  rintro i rs q (⟨-, -, rfl⟩ | ⟨-, -, rfl⟩ | ⟨-, -, rfl⟩ | ⟨-, f, L, l, -, -, rfl⟩ | ⟨-, rfl⟩)
  · trivial
  · exact Nat.zero_le 1
  · exact ⟨by decide, fun h => nomatch h⟩
  · exact ⟨hg, rfl, hm, .inr ⟨_, rfl⟩⟩
  · exact ⟨hg, rfl, hm, .inl rfl⟩

example {y} := C85_split_every_schedule (y := y) cfg0_ok Ref.programs_implement sNetU_reach threads_disciplined

example {y} := C85_split_no_deadlock (y := y) cfg0_ok Ref.programs_implement sNetU_reach threads_disciplined

example {log s} := C85_split_one_at_a_time_is_a_schedule (log := log) (s := s) cfg0_ok Ref.programs_implement sNetU_reach
  threads_disciplined

/-- Threads 0 and 1 in the middle of their reading calls at the same time: one word each has been loaded. -/
example : ∃ y p p', Runs AStore.look (job cfg0 Ref.programs) threads (.of sNetU) y ∧ y.phase 0 = .reading p ∧
    y.phase 1 = .reading p' ∧ p.run y.mem.look = some (.link (some ⟨6, 3, 2⟩)) ∧ (∃ l k, p' = .load l k) := by
  have e0 : Body.Enough AStore.look (job cfg0 Ref.programs (.get 6)) (.of sNetU) 0 := fun f' _ => rfl
  have e1 : Body.Enough AStore.look (job cfg0 Ref.programs (.each [] fun L => if L.length < 3 then .cont else .brk ()))
      (.of sNetU) 0 := fun f' _ => rfl
  have r0 := Runs.start (look := AStore.look) (job := job cfg0 Ref.programs) (cl := threads) (m0 := .of sNetU)
  have r1 := r0.step (.enterRead (i := 0) rfl (.inl ⟨rfl, rfl, rfl⟩) rfl e0 (fun _ _ _ h => nomatch h))
  have r2 := r1.step (.enterRead (i := 1) rfl (.inr (.inr (.inl ⟨rfl, rfl, rfl⟩))) rfl e1 (by
    intro k rest last h
    simp only [Sys.at] at h
    split at h <;> cases h))
  have r3 := r2.step (.load (i := 0) (l := .idx .main 0 0) (v := 6) rfl (by decide +kernel))
  have r4 := r3.step (.load (i := 1) (l := .idx .main 0 0) (v := 6) rfl (by decide +kernel))
  refine ⟨_, _, _, r4, rfl, rfl, ?_, ?_⟩
  · rfl
  · exact ⟨_, _, rfl⟩

/-- Readers only: any number of them look up any links. -/
example {y} := C85_split_parallel_readers (y := y) cfg0_ok Ref.programs_implement sNetU_reach
  (cl := fun _ _ q => ∃ j, q = .get j) (by
    rintro i rs q ⟨j, rfl⟩
    exact ⟨fun _ _ _ h => (nomatch h),
      by simp [answer, (lawful cfg0_ok).get sNetU (reach_good cfg0_ok sNetU_reach) j]⟩)

/-- **C85**. The lock is needed. While link 6 = (3, 2) is updated to (0, 5), a thread that does not wait may be told of a link
(0, 2), which is neither the old nor the new one; while it is updated to (2, 3) such a thread may be told that there is no
link 6. -/
theorem C85_split_torn_read_without_the_lock :
    (links cfg0).getLink sNetU 6 = some (some ⟨6, 3, 2⟩) ∧
    (∃ m ∈ (callA cfg0 Ref.programs 40 (showing2 fun _ => .cont) [] (.update 6 0 5) (.of sNetU)).1,
      (Loads.getLink cfg0 6).run m.look = some (some ⟨6, 0, 2⟩)) ∧
    (∃ m ∈ (callA cfg0 Ref.programs 40 (showing2 fun _ => .cont) [] (.update 6 2 3) (.of sNetU)).1,
      (Loads.getLink cfg0 6).run m.look = some none) := by
  have any : ∀ {l : List AStore} {x : Option (Option Link)},
      (l.any fun m => decide ((Loads.getLink cfg0 6).run m.look = x)) = true →
      ∃ m ∈ l, (Loads.getLink cfg0 6).run m.look = x := by
    intro l x h
    obtain ⟨m, h1, h2⟩ := List.any_eq_true.mp h
    exact ⟨m, h1, of_decide_eq_true h2⟩
  exact ⟨by decide +kernel, any (by decide +kernel), any (by decide +kernel)⟩

end Verif.Split.Props
