import Verif.SharedActs

/-!
# Memories on the way of a schedule

The memory that is there at some moment of a schedule is the memory of a store that requests made one at a time leave, or
one on the way of a single further request from there. So what is known of a crash inside one request holds of a crash
while threads run.
-/

namespace Verif

section
variable {S M L R Q A : Type} (look : M → L → Option Nat) (job : Q → Body M L R) (cl : Clients R Q)

/-- If this step enters a writing request, the bound on its loops is at least `B`. -/
def Roomy (B : M → Q → Nat) (i : Nat) (y y' : Sys M L R) : Prop :=
  ∀ rest last, y.phase i = .idle → y'.phase i = .writing rest last →
    ∃ q t f, B y.mem q ≤ f ∧ cl i (mine y.log i) q ∧ job q = .write t ∧ t f y.mem = (rest, last)

/-- A schedule that leads to `y`, and the memories that there have been, the present one last. -/
inductive Schedule (B : M → Q → Nat) (m0 : M) : List M → Sys M L R → Prop
  | start : Schedule B m0 [m0] ⟨m0, fun _ => .idle, []⟩
  | step {ms : List M} {y y' : Sys M L R} {i : Nat} : Schedule B m0 ms y → ThreadStep look job cl i y y' →
      Roomy job cl B i y y' → Schedule B m0 (ms ++ [y'.mem]) y'

variable {look job cl} {answer : S → Q → Option (R × S)} {sup : S → Q → Prop} {I : S → Prop} {of : S → M} {s0 : S}

theorem Schedule.runs {B : M → Q → Nat} {m0 : M} {ms : List M} {y : Sys M L R} (h : Schedule look job cl B m0 ms y) :
    Runs look job cl m0 y := by
  induction h with
  | start => exact .start
  | step _ h1 _ ih => exact ih.step h1

theorem Schedule.mem {B : M → Q → Nat} {m0 : M} {ms : List M} {y : Sys M L R} (h : Schedule look job cl B m0 ms y) :
    y.mem ∈ ms := by
  cases h <;> simp

/-- `m` is on the way of request `q` of thread `i`, made on the store `s`. -/
def OnTheWay (job : Q → Body M L R) (cl : Clients R Q) (of : S → M) (B : M → Q → Nat) (s : S) (log : List (Nat × R)) (i : Nat) (q : Q)
    (m : M) : Prop :=
  cl i (mine log i) q ∧ ∃ t f, job q = .write t ∧ B (of s) q ≤ f ∧ m ∈ (t f (of s)).1

/-- Where a memory can come from. -/
def Explains (job : Q → Body M L R) (cl : Clients R Q) (of : S → M) (B : M → Q → Nat) (s : S) (log : List (Nat × R)) (m : M) : Prop :=
  m = of s ∨ ∃ i q, OnTheWay job cl of B s log i q m

theorem Faithful.history (F : Faithful look job answer sup I of) (h0 : I s0) (hd : Disciplined answer sup cl s0)
    {B : M → Q → Nat} {ms : List M} {y : Sys M L R} (h : Schedule look job cl B (of s0) ms y) :
    (∃ s, Serial answer cl s0 y.log s ∧ I s ∧ (y.NoWriter → y.mem = of s) ∧
      ∀ i rest last, y.phase i = .writing rest last → ∃ q, cl i (mine y.log i) q ∧
        (y.mem = of s ∨ OnTheWay job cl of B s y.log i q y.mem) ∧ ∀ m ∈ rest, OnTheWay job cl of B s y.log i q m) ∧
    ∀ m ∈ ms, ∃ log s, Serial answer cl s0 log s ∧ I s ∧ Explains job cl of B s log m := by
  induction h with
  | start =>
    refine ⟨⟨s0, .start, h0, fun _ => rfl, fun i rest last e => by cases e⟩, fun m hm => ?_⟩
    rw [List.mem_singleton] at hm; subst hm
    exact ⟨[], s0, .start, h0, .inl rfl⟩
  | @step ms y y' i hh hs hr ih =>
    obtain ⟨⟨s, k1, k2, k3, k4⟩, k5⟩ := ih
    -- the first part for `y'` gives the second
    have fin : (∃ s, Serial answer cl s0 y'.log s ∧ I s ∧ (y'.NoWriter → y'.mem = of s) ∧
        ∀ i rest last, y'.phase i = .writing rest last → ∃ q, cl i (mine y'.log i) q ∧
          (y'.mem = of s ∨ OnTheWay job cl of B s y'.log i q y'.mem) ∧
          ∀ m ∈ rest, OnTheWay job cl of B s y'.log i q m) → _ := fun g => (⟨g, fun m hm => by
      rcases List.mem_append.1 hm with hm | hm
      · exact k5 m hm
      · rw [List.mem_singleton] at hm; subst hm
        obtain ⟨s, g1, g2, g3, g4⟩ := g
        refine ⟨_, s, g1, g2, ?_⟩
        by_cases hw : y'.NoWriter
        · exact .inl (g3 hw)
        · simp only [Sys.NoWriter, Classical.not_forall, Classical.not_not] at hw
          obtain ⟨j, rest, last, hw⟩ := hw
          obtain ⟨q, -, g5 | g5, -⟩ := g4 _ _ _ hw
          · exact .inl g5
          · exact .inr ⟨j, q, g5⟩⟩ :
      _ ∧ ∀ m ∈ ms ++ [y'.mem], ∃ log s, Serial answer cl s0 log s ∧ I s ∧ Explains job cl of B s log m)
    refine fin ?_
    obtain ⟨s', g1, g2, g3, -⟩ := F.linear h0 hd (hh.runs.step hs)
    cases hs with
    | enterRead h1 h2 hj hf h3 =>
      refine ⟨s, k1, k2, fun _ => k3 h3, fun j rest last e => ?_⟩
      simp only [Sys.at] at e
      split at e
      · cases e
      · exact absurd e (h3 _ _ _)
    | load h1 h2 =>
      refine ⟨s, k1, k2, fun hw => k3 fun j rest last e => hw j rest last ?_, fun j rest last e => ?_⟩
      · simp only [Sys.at]
        rw [if_neg fun ej => by subst ej; rw [h1] at e; cases e]; exact e
      · simp only [Sys.at] at e
        split at e
        · cases e
        · exact k4 _ _ _ e
    | @leaveRead r h1 =>
      refine ⟨s', g1, g2, g3, fun j rest last e => ?_⟩
      simp only [Sys.at] at e
      split at e
      · cases e
      · -- nobody writes while somebody reads
        exfalso
        obtain ⟨m, -, hx⟩ := hh.runs.explained
        rcases hx with ⟨-, hx⟩ | ⟨k, r1, l1, e1, e2, -⟩
        · rcases hx j with hx | ⟨p, hx, -⟩ <;> rw [hx] at e <;> cases e
        · by_cases hk : i = k
          · subst hk; rw [h1] at e1; cases e1
          · rw [e2 i hk] at h1; cases h1
    | @enterWrite q t f h1 h2 h3 h4 h5 =>
      have hw : y.NoWriter := fun j rest last e => by
        by_cases hj : j = i
        · subst hj; rw [h1] at e; cases e
        · rw [h2 j hj] at e; cases e
      refine ⟨s, k1, k2, fun _ => k3 hw, fun j rest last e => ?_⟩
      by_cases hj : j = i
      · subst hj
        obtain ⟨q', t', f', r1, r2, r3, r4⟩ := hr rest last h1 e
        refine ⟨q', r2, .inl (k3 hw), fun m hm => ⟨r2, t', f', r3, by rw [← k3 hw]; exact r1, ?_⟩⟩
        rw [← k3 hw, r4]; exact hm
      · simp only [Sys.at, if_neg hj, h2 j hj] at e
        cases e
    | @assign m rest last h1 =>
      have hnw : ∀ j r1 l1, y.phase j = .writing r1 l1 → j = i := by
        intro j r1 l1 e
        obtain ⟨m, -, hx⟩ := hh.runs.explained
        rcases hx with ⟨-, hx⟩ | ⟨k, r2, l2, e1, e2, -⟩
        · rcases hx j with hx | ⟨p, hx, -⟩ <;> rw [hx] at e <;> cases e
        · have a1 : i = k := Classical.byContradiction fun hk => by rw [e2 i hk] at h1; cases h1
          have a2 : j = k := Classical.byContradiction fun hk => by rw [e2 j hk] at e; cases e
          rw [a1, a2]
      obtain ⟨q, k6, -, k7⟩ := k4 _ _ _ h1
      refine ⟨s, k1, k2, fun hw => absurd (show Sys.at y i (.writing rest last) i = _ by simp [Sys.at]) (hw i rest last),
        fun j r1 l1 e => ?_⟩
      by_cases hj : j = i
      · subst hj
        simp only [Sys.at, if_true] at e
        cases e
        exact ⟨q, k6, .inr (k7 m (by simp)), fun m' hm' => k7 m' (by simp [hm'])⟩
      · simp only [Sys.at, if_neg hj] at e
        exact absurd (hnw _ _ _ e) hj
    | @leaveWrite r m h1 =>
      refine ⟨s', g1, g2, g3, fun j rest last e => ?_⟩
      simp only [Sys.at] at e
      split at e
      · cases e
      · exfalso
        rename_i hj
        obtain ⟨m, -, hx⟩ := hh.runs.explained
        rcases hx with ⟨-, hx⟩ | ⟨k, r2, l2, e1, e2, -⟩
        · rcases hx j with hx | ⟨p, hx, -⟩ <;> rw [hx] at e <;> cases e
        · have a1 : i = k := Classical.byContradiction fun hk => by rw [e2 i hk] at h1; cases h1
          have a2 : j = k := Classical.byContradiction fun hk => by rw [e2 j hk] at e; cases e
          exact hj (a2.trans a1.symm)

/-! ### Requests one at a time are a schedule with these memories -/

/-- The steps of a thread that is in a request. -/
theorem Schedule.goOn {B : M → Q → Nat} {m0 : M} {ms : List M} {y y' : Sys M L R} {i : Nat} (h : Schedule look job cl B m0 ms y)
    (hi : y.phase i ≠ .idle) (hs : ThreadStep look job cl i y y') : Schedule look job cl B m0 (ms ++ [y'.mem]) y' :=
  h.step hs fun _ _ h1 => absurd h1 hi

theorem Schedule.reads {B : M → Q → Nat} {m0 : M} {i : Nat} {r : R} : ∀ {p : Rd L R} {y : Sys M L R} {ms : List M},
    Schedule look job cl B m0 ms y → y.phase i = .reading p → p.run (look y.mem) = some r →
    ∃ ms' y', Schedule look job cl B m0 (ms ++ ms') y' ∧ Returned y y' i r y.mem := by
  intro p
  induction p with
  | ret a =>
    intro y ms h hp hr
    cases hr
    exact ⟨_, _, h.goOn (by rw [hp]; simp) (.leaveRead hp), rfl, rfl, by simp [Sys.at], fun k hk => by simp [Sys.at, hk]⟩
  | panic => intro y ms h hp hr; cases hr
  | load l k ih =>
    intro y ms h hp hr
    simp only [Rd.run, Option.bind_eq_some_iff] at hr
    obtain ⟨v, hv, hr⟩ := hr
    obtain ⟨ms', y', h1, h2, h3, h4, h5⟩ := ih v (h.goOn (by rw [hp]; simp) (.load hp hv)) (by simp [Sys.at]) hr
    exact ⟨_, y', by rw [List.append_assoc] at h1; exact h1, h2, h3, h4, fun j hj => (h5 j hj).trans (by simp [Sys.at, hj])⟩

theorem Schedule.writes {B : M → Q → Nat} {m0 : M} {i : Nat} {r : R} {m : M} : ∀ {rest : List M} {y : Sys M L R} {ms : List M},
    Schedule look job cl B m0 ms y → y.phase i = .writing rest (some (r, m)) →
    ∃ ms' y', Schedule look job cl B m0 (ms ++ ms') y' ∧ Returned y y' i r m := by
  intro rest
  induction rest with
  | nil =>
    intro y ms h hp
    exact ⟨_, _, h.goOn (by rw [hp]; simp) (.leaveWrite hp), rfl, rfl, by simp [Sys.at], fun k hk => by simp [Sys.at, hk]⟩
  | cons x rest ih =>
    intro y ms h hp
    obtain ⟨ms', y', h1, h2, h3, h4, h5⟩ := ih (h.goOn (by rw [hp]; simp) (.assign hp)) (by simp [Sys.at])
    exact ⟨_, y', by rw [List.append_assoc] at h1; exact h1, h2, h3, h4, fun j hj => (h5 j hj).trans (by simp [Sys.at, hj])⟩

/-- A writer that is left alone passes every memory on its way. -/
theorem Schedule.passes {B : M → Q → Nat} {m0 : M} {i : Nat} {last : Option (R × M)} {m : M} :
    ∀ {rest : List M} {y : Sys M L R} {ms : List M}, Schedule look job cl B m0 ms y → y.phase i = .writing rest last → m ∈ rest →
    ∃ ms' y' rest', Schedule look job cl B m0 (ms ++ ms') y' ∧ y'.mem = m ∧ y'.phase i = .writing rest' last ∧ y'.log = y.log := by
  intro rest
  induction rest with
  | nil => intro y ms h hp hm; cases hm
  | cons x rest ih =>
    intro y ms h hp hm
    have h1 := h.goOn (by rw [hp]; simp) (.assign hp)
    rcases List.mem_cons.1 hm with rfl | hm
    · exact ⟨_, _, rest, h1, rfl, by simp [Sys.at], rfl⟩
    · obtain ⟨ms', y', rest', k1, k2, k3, k4⟩ := ih h1 (by simp [Sys.at]) hm
      exact ⟨_, y', rest', by rw [List.append_assoc] at k1; exact k1, k2, k3, k4⟩

theorem Returned.idle {m1 : M} {log : List (Nat × R)} {i : Nat} {r : R} {x y' : Sys M L R} (hr : Returned x y' i r m1)
    (hl : x.log = log) (hi : ∀ k, k ≠ i → x.phase k = .idle) : y' = ⟨m1, fun _ => .idle, log ++ [(i, r)]⟩ := by
  obtain ⟨m', ph, lg⟩ := y'
  obtain ⟨k2, k3, k4, k5⟩ := hr
  simp only at k2 k3 k4 k5
  subst k2 k3 hl
  have e : ph = fun _ => .idle := by
    funext k
    by_cases hk : k = i
    · rw [hk, k4]
    · rw [k5 k hk, hi k hk]
  rw [e]

/-- Requests made one at a time are one of the schedules, whatever the bounds. -/
theorem Faithful.one_by_one (F : Faithful look job answer sup I of) (h0 : I s0) (hd : Disciplined answer sup cl s0)
    (B : M → Q → Nat) {log : List (Nat × R)} {s : S} (h : Serial answer cl s0 log s) :
    ∃ ms, Schedule look job cl B (of s0) ms ⟨of s, fun _ => .idle, log⟩ := by
  induction h with
  | start => exact ⟨_, .start⟩
  | @call log s s' i q r hs h1 h2 ih =>
    obtain ⟨ms, ih⟩ := ih
    obtain ⟨r', s1, k1, k2, f0, k3⟩ := F.works (F.inv h0 hd hs) (hd _ _ hs _ _ h1)
    rw [k1] at h2; cases h2
    have hf : f0 ≤ max f0 (B (of s) q) := by omega
    have he : Body.Enough look (job q) (of s) (max f0 (B (of s) q)) := fun f' hf' => by rw [k3 f' (by omega), k3 _ hf]
    have h3 := k3 _ hf
    cases hj : job q with
    | read p =>
      rw [hj, Body.alone, Option.map_eq_some_iff] at h3
      obtain ⟨r', h3, e⟩ := h3
      obtain ⟨rfl, e1⟩ := Prod.mk.inj e
      have hh := ih.step (.enterRead (i := i) rfl h1 hj he fun _ _ _ h => nomatch h) (by
        intro rest last _ e
        simp [Sys.at] at e)
      obtain ⟨ms', y', g1, g2⟩ := hh.reads (i := i) (r := r') (p := p (max f0 (B (of s) q))) (by simp [Sys.at]) h3
      have g3 := g2.idle (log := log) rfl fun k hk => by simp [Sys.at, hk]
      rw [g3] at g1
      rw [← e1]
      exact ⟨_, g1⟩
    | write t =>
      rw [hj, Body.alone] at h3
      have hh := ih.step (.enterWrite (i := i) rfl (fun _ _ => rfl) h1 hj he) (by
        intro rest last _ e
        simp only [Sys.at, if_true, Phase.writing.injEq] at e
        exact ⟨q, t, _, Nat.le_max_right f0 _, h1, hj, by rw [← e.1, ← e.2]⟩)
      obtain ⟨ms', y', g1, g2⟩ := hh.writes (i := i) (r := r) (m := of s') (rest := (t (max f0 (B (of s) q)) (of s)).1) (by simp [Sys.at, h3])
      have g3 := g2.idle (log := log) rfl fun k hk => by simp [Sys.at, hk]
      rw [g3] at g1
      exact ⟨_, g1⟩

/-! ### What requests spare -/

/-- Requests keep what they spare, also on the way. `K` names what can be kept: for each, when a store has it and when a
memory has it. -/
structure Sparing (job : Q → Body M L R) (answer : S → Q → Option (R × S)) (sup : S → Q → Prop) (I : S → Prop) (of : S → M)
    {K : Type} (spares : K → S → Q → Prop) (has : K → S → Prop) (keeps : K → M → Prop) : Prop where
  ok : ∀ {k s}, I s → has k s → keeps k (of s)
  step : ∀ {k s q r s'}, I s → sup s q → answer s q = some (r, s') → spares k s q → has k s → has k s'
  way : ∀ {s q}, I s → sup s q → ∃ f0, ∀ f, f0 ≤ f → ∀ t, job q = .write t → ∀ m ∈ (t f (of s)).1, ∀ k, spares k s q →
    has k s → keeps k m

variable {K : Type} {spares : K → S → Q → Prop} {has : K → S → Prop} {keeps : K → M → Prop}

/-- Whatever all requests spare is in every memory that there has been; and what is there after the requests that have
returned is in the present memory unless somebody is in a request that does not spare it. -/
theorem Faithful.spared (F : Faithful look job answer sup I of) (P : Sparing job answer sup I of spares has keeps) {back : M → S}
    (hb : ∀ s, back (of s) = s) :
    ∃ B : M → Q → Nat, ∀ {s0 : S} {cl : Clients R Q}, I s0 → Disciplined answer sup cl s0 →
      ∀ {ms : List M} {y : Sys M L R}, Schedule look job cl B (of s0) ms y →
      (∀ k, has k s0 → Disciplined answer (spares k) cl s0 → ∀ m ∈ ms, keeps k m) ∧
      ∃ s, Serial answer cl s0 y.log s ∧ I s ∧ (y.NoWriter → y.mem = of s) ∧ ∀ k, has k s →
        (∀ i rest last q, y.phase i = .writing rest last → cl i (mine y.log i) q → spares k s q) → keeps k y.mem := by
  classical
  let B : M → Q → Nat := fun m q => if h : I (back m) ∧ sup (back m) q then Classical.choose (P.way h.1 h.2) else 0
  have hB : ∀ {s : S} {log : List (Nat × R)} {cl : Clients R Q} {i : Nat} {q : Q} {m : M}, I s → sup s q →
      OnTheWay job cl of B s log i q m → ∀ k, spares k s q → has k s → keeps k m := by
    rintro s log cl i q m h1 h2 ⟨-, t, f, h3, h4, h5⟩ k h6 h7
    have h : I (back (of s)) ∧ sup (back (of s)) q := by rw [hb]; exact ⟨h1, h2⟩
    have e : B (of s) q = Classical.choose (P.way h.1 h.2) := dif_pos h
    have g := Classical.choose_spec (P.way h.1 h.2) f (e ▸ h4) t h3
    rw [hb] at g
    exact g m h5 k h6 h7
  refine ⟨B, fun {s0 cl} h0 hd {ms y} h => ?_⟩
  obtain ⟨⟨s, g1, g2, g3, g4⟩, g5⟩ := F.history h0 hd h
  have hser : ∀ {k log s}, has k s0 → Disciplined answer (spares k) cl s0 → Serial answer cl s0 log s → has k s := by
    intro k log s hk hs h
    induction h with
    | start => exact hk
    | call h h1 h2 ih => exact P.step (F.inv h0 hd h) (hd _ _ h _ _ h1) h2 (hs _ _ h _ _ h1) ih
  refine ⟨fun k hk hs m hm => ?_, s, g1, g2, g3, fun k hk hs => ?_⟩
  · obtain ⟨log, s', k1, k2, rfl | ⟨i, q, k3⟩⟩ := g5 m hm
    · exact P.ok k2 (hser hk hs k1)
    · exact hB k2 (hd _ _ k1 _ _ k3.1) k3 k (hs _ _ k1 _ _ k3.1) (hser hk hs k1)
  · by_cases hw : y.NoWriter
    · rw [g3 hw]; exact P.ok g2 hk
    · simp only [Sys.NoWriter, Classical.not_forall, Classical.not_not] at hw
      obtain ⟨j, rest, last, hw⟩ := hw
      obtain ⟨q, k1, k2 | k2, -⟩ := g4 _ _ _ hw
      · rw [k2]; exact P.ok g2 hk
      · exact hB g2 (hd _ _ g1 _ _ k1) k2 k (hs _ _ _ _ hw k1) hk

theorem Sparing.txn (F : Faithful look job answer sup I of) (P : Sparing job answer sup I of spares has keeps) :
    ∀ {t : Txn Q R A} {s : S}, I s → t.Sup answer sup s →
    (∀ {k a s'}, t.answer answer s = some (a, s') → t.Sup answer (spares k) s → has k s → has k s') ∧
    ∃ f0, ∀ f, f0 ≤ f → ∀ m ∈ (t.tr look job f (of s)).1, ∀ k, t.Sup answer (spares k) s → has k s → keeps k m := by
  intro t
  induction t with
  | ret a =>
    intro s _ _
    refine ⟨fun h _ hk => ?_, 0, fun f _ m hm => ?_⟩
    · simp only [Txn.answer, Option.some.injEq, Prod.mk.injEq] at h
      rw [← h.2]; exact hk
    · exact absurd hm (by simp [Txn.tr, pure, Tr.pure])
  | call q n ih =>
    intro s hI hs
    obtain ⟨r, s1, h1, h2, f0, h3⟩ := F.works hI hs.1
    obtain ⟨g1, f1, g2⟩ := ih r h2 (hs.2 _ _ h1)
    obtain ⟨f2, g3⟩ := P.way hI hs.1
    refine ⟨fun {k a s'} h hk hh => ?_, max f0 (max f1 f2), fun f hf m hm k hk hh => ?_⟩
    · simp only [Txn.answer, h1, Option.bind_some] at h
      exact g1 h (hk.2 _ _ h1) (P.step hI hs.1 h1 hk.1 hh)
    · have e := Body.tr_alone (look := look) (job q) (of s) f
      rw [h3 f (by omega)] at e
      have : (Txn.tr look job f (.call q n) (of s)).1 = ((job q).tr look f (of s)).1 ++ ((n r).tr look job f (of s1)).1 := by
        show (Tr.bind _ _ _).1 = _
        unfold Tr.bind
        split
        · next l h => rw [h] at e; cases e
        · next l a m' h => rw [h] at e ⊢; cases e; rfl
      rw [this, List.mem_append] at hm
      rcases hm with hm | hm
      · cases hj : job q with
        | read p => rw [hj] at hm; simp [Body.tr, Tr.ask] at hm
        | write t => rw [hj] at hm; exact g3 f (by omega) t hj m hm k hk.1 hh
      · exact g2 f (by omega) m hm k (hk.2 _ _ h1) (P.step hI hs.1 h1 hk.1 hh)

/-- Methods spare what all of their calls spare. -/
theorem Sparing.ask (F : Faithful look job answer sup I of) (P : Sparing job answer sup I of spares has keeps) :
    Sparing (Ask.job (A := A) look job) (Ask.answer answer) (Ask.Sup answer sup) I of
      (fun k s q => Ask.Sup answer (spares k) s q) has keeps where
  ok := P.ok
  step := by
    intro k s q r s' hI hs ha hk hh
    cases q with
    | one q =>
      simp only [Ask.answer, Option.map_eq_some_iff] at ha
      obtain ⟨⟨r', s''⟩, ha, e⟩ := ha
      cases e
      exact P.step hI hs ha hk hh
    | all t =>
      simp only [Ask.answer, Option.map_eq_some_iff] at ha
      obtain ⟨⟨r', s''⟩, ha, e⟩ := ha
      cases e
      exact (P.txn F hI hs).1 ha hk hh
  way := by
    intro s q hI hs
    cases q with
    | one q =>
      obtain ⟨f0, h⟩ := P.way hI hs
      refine ⟨f0, fun f hf t ht m hm k hk hh => ?_⟩
      cases hj : job q with
      | read p => simp [Ask.job, Body.map, hj] at ht
      | write t' =>
        simp only [Ask.job, Body.map, hj, Body.write.injEq] at ht
        subst ht
        refine h f hf t' hj m ?_ k hk hh
        have hm : m ∈ (Tr.bind (t' f) (fun r => Tr.pure (Got.one r)) (of s)).1 := hm
        unfold Tr.bind at hm
        split at hm
        · next l e => rw [e]; exact hm
        · next l a m' e => rw [e]; simpa [Tr.pure] using hm
    | all t =>
      obtain ⟨f0, h⟩ := (P.txn (A := A) F hI hs).2
      refine ⟨f0, fun f hf t' ht m hm k hk hh => ?_⟩
      simp only [Ask.job, Body.write.injEq] at ht
      subst ht
      refine h f hf m ?_ k hk hh
      have hm : m ∈ (Tr.bind (t.tr look job f) (fun r => Tr.pure (Got.all r)) (of s)).1 := hm
      unfold Tr.bind at hm
      split at hm
      · next l e => rw [e]; exact hm
      · next l a m' e => rw [e]; simpa [Tr.pure] using hm

end

end Verif
