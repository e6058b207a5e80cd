import Verif.Access
import Verif.Unit.History

/-!
# Threads that share a store

A call that reads is a program of single loads (`Rd`), a call that writes is a sequence of memory images, one after each
assignment (`Tr`). Threads interleave these steps in any way that a reader-writer lock admits: while a thread writes no
other thread is inside a call. This is what Rust's borrow rules leave to safe code, whatever lock is used: reads take
`&self`, writes `&mut self`, and the store is `Sync` (`unit/store.rs:570-580`, `split/store.rs:872-896`).
-/

namespace Verif

/-! ### Programs of loads -/

/-- A program that loads words from the locations `L`. -/
inductive Rd (L α : Type) where
  | ret (a : α)
  | panic
  | load (l : L) (k : Nat → Rd L α)

namespace Rd
variable {L α β : Type}

protected def bind : Rd L α → (α → Rd L β) → Rd L β
  | ret a, g => g a
  | panic, _ => panic
  | load l k, g => load l fun v => (k v).bind g

instance : Monad (Rd L) where
  pure := ret
  bind := Rd.bind

/-- Load one word. -/
def word (l : L) : Rd L Nat := load l ret

/-- A value that may be missing, such as the result of checked arithmetic. -/
def ofOption : Option α → Rd L α
  | none => panic
  | some a => ret a

/-- The result, if the memory never changes on the way; `none` is a panic or a load out of bounds. -/
def run (look : L → Option Nat) : Rd L α → Option α
  | ret a => some a
  | panic => none
  | load l k => (look l).bind fun v => (k v).run look

@[simp] theorem run_pure (look : L → Option Nat) (a : α) : (pure a : Rd L α).run look = some a := rfl

@[simp] theorem run_ret (look : L → Option Nat) (a : α) : (ret a : Rd L α).run look = some a := rfl

@[simp] theorem run_panic (look : L → Option Nat) : (panic : Rd L α).run look = none := rfl

@[simp] theorem run_bind (look : L → Option Nat) (p : Rd L α) (g : α → Rd L β) :
    (p >>= g).run look = (p.run look).bind fun a => (g a).run look := by
  show (Rd.bind p g).run look = _
  induction p with
  | ret a => rfl
  | panic => rfl
  | load l k ih =>
    simp only [Rd.bind, run]
    cases look l with
    | none => rfl
    | some v => exact ih v

@[simp] theorem run_word (look : L → Option Nat) (l : L) : (word l).run look = look l := by
  simp only [word, run]; cases look l <;> rfl

@[simp] theorem run_ofOption (look : L → Option Nat) (o : Option α) : (ofOption o : Rd L α).run look = o := by
  cases o <;> rfl

@[simp] theorem run_ite (look : L → Option Nat) (b : Prop) [Decidable b] (p q : Rd L α) :
    (if b then p else q).run look = if b then p.run look else q.run look := by split <;> rfl

end Rd

/-! ### Threads -/

/-- A call: its loads, or its assignments. The number bounds the steps of loops; see `Body.Enough`. -/
inductive Body (M L R : Type) where
  | read (p : Nat → Rd L R)
  | write (t : Nat → Tr M R)

/-- The result of a call made when the memory is `m` and nobody else touches it, and the memory it leaves. -/
def Body.alone {M L R : Type} (look : M → L → Option Nat) (m : M) (f : Nat) : Body M L R → Option (R × M)
  | .read p => ((p f).run (look m)).map fun r => (r, m)
  | .write t => (t f m).2

/-- The bound is large enough: the outcome no longer depends on it. -/
def Body.Enough {M L R : Type} (look : M → L → Option Nat) (j : Body M L R) (m : M) (f : Nat) : Prop :=
  ∀ f', f ≤ f' → j.alone look m f' = j.alone look m f

/-- What a thread is doing: nothing, reading (the rest of its program), writing (the images still to come, and the end). -/
inductive Phase (M L R : Type) where
  | idle
  | reading (p : Rd L R)
  | writing (rest : List M) (last : Option (R × M))

/-- A shared memory, what each thread is doing, and the calls that have returned, in the order in which they returned. -/
structure Sys (M L R : Type) where
  mem : M
  phase : Nat → Phase M L R
  log : List (Nat × R)

/-- The results that thread `i` has got. -/
def mine {R : Type} (log : List (Nat × R)) (i : Nat) : List R := (log.filter fun e => e.1 == i).map (·.2)

/-- The programs of the threads: the calls that a thread may make next, given the results it has got. -/
abbrev Clients (R Q : Type) := Nat → List R → Q → Prop

/-- Nobody is in a call, thread `i` aside. -/
def Sys.OthersIdle {M L R : Type} (y : Sys M L R) (i : Nat) : Prop := ∀ k, k ≠ i → y.phase k = .idle

/-- Nobody is writing. -/
def Sys.NoWriter {M L R : Type} (y : Sys M L R) : Prop := ∀ k rest last, y.phase k ≠ .writing rest last

section
variable {M L R Q : Type} (look : M → L → Option Nat) (job : Q → Body M L R) (cl : Clients R Q)

/-- Thread `i` is now in phase `p`. -/
def Sys.at (y : Sys M L R) (i : Nat) (p : Phase M L R) : Nat → Phase M L R := fun k => if k = i then p else y.phase k

/-- One step of thread `i`. -/
inductive ThreadStep (i : Nat) : Sys M L R → Sys M L R → Prop
  /-- enter a reading call: nobody is writing -/
  | enterRead {y : Sys M L R} {q : Q} {p : Nat → Rd L R} {f : Nat} : y.phase i = .idle → cl i (mine y.log i) q →
      job q = .read p → Body.Enough look (job q) y.mem f → y.NoWriter →
      ThreadStep i y { y with phase := y.at i (.reading (p f)) }
  /-- load one word -/
  | load {y : Sys M L R} {l : L} {k : Nat → Rd L R} {v : Nat} : y.phase i = .reading (.load l k) →
      look y.mem l = some v → ThreadStep i y { y with phase := y.at i (.reading (k v)) }
  /-- return from a reading call -/
  | leaveRead {y : Sys M L R} {r : R} : y.phase i = .reading (.ret r) →
      ThreadStep i y { y with phase := y.at i .idle, log := y.log ++ [(i, r)] }
  /-- enter a writing call: nobody is in a call -/
  | enterWrite {y : Sys M L R} {q : Q} {t : Nat → Tr M R} {f : Nat} : y.phase i = .idle → y.OthersIdle i →
      cl i (mine y.log i) q → job q = .write t → Body.Enough look (job q) y.mem f →
      ThreadStep i y { y with phase := y.at i (.writing (t f y.mem).1 (t f y.mem).2) }
  /-- one assignment -/
  | assign {y : Sys M L R} {m : M} {rest : List M} {last : Option (R × M)} :
      y.phase i = .writing (m :: rest) last → ThreadStep i y { y with mem := m, phase := y.at i (.writing rest last) }
  /-- return from a writing call -/
  | leaveWrite {y : Sys M L R} {r : R} {m : M} : y.phase i = .writing [] (some (r, m)) →
      ThreadStep i y { mem := m, phase := y.at i .idle, log := y.log ++ [(i, r)] }

/-- Any number of steps of thread `i`. -/
inductive ThreadSteps (i : Nat) : Sys M L R → Sys M L R → Prop
  | refl {y : Sys M L R} : ThreadSteps i y y
  | step {x y z : Sys M L R} : ThreadStep look job cl i x y → ThreadSteps i y z → ThreadSteps i x z

/-- The states that some schedule leads to. -/
inductive Runs (m0 : M) : Sys M L R → Prop
  | start : Runs m0 ⟨m0, fun _ => .idle, []⟩
  | step {y y' : Sys M L R} {i : Nat} : Runs m0 y → ThreadStep look job cl i y y' → Runs m0 y'

/-- One call at a time: the calls that have returned, and the memory they leave. -/
inductive OneByOne (m0 : M) : List (Nat × R) → M → Prop
  | start : OneByOne m0 [] m0
  | call {log : List (Nat × R)} {m m' : M} {i f : Nat} {q : Q} {r : R} : OneByOne m0 log m → cl i (mine log i) q →
      Body.Enough look (job q) m f → (job q).alone look m f = some (r, m') → OneByOne m0 (log ++ [(i, r)]) m'

variable {look job cl}

theorem mine_other {log : List (Nat × R)} {i k : Nat} {r : R} (h : k ≠ i) : mine (log ++ [(i, r)]) k = mine log k := by
  have : ¬ (i = k) := fun e => h e.symm
  simp [mine, List.filter_append, this]

theorem mine_self {log : List (Nat × R)} {i : Nat} {r : R} : mine (log ++ [(i, r)]) i = mine log i ++ [r] := by
  simp [mine, List.filter_append]

theorem Runs.steps {m0 : M} {i : Nat} {x y : Sys M L R} (h : ThreadSteps look job cl i x y) :
    Runs look job cl m0 x → Runs look job cl m0 y := by
  induction h with
  | refl => exact id
  | step h1 _ ih => exact fun h => ih (h.step h1)

/-- Thread `i` is in the middle of a call that the memory `m` explains: `m` is the memory when it entered the call. -/
def InCall (look : M → L → Option Nat) (job : Q → Body M L R) (cl : Clients R Q) (y : Sys M L R) (m : M) (i : Nat)
    (left : Option (R × M)) : Prop :=
  ∃ q f, cl i (mine y.log i) q ∧ Body.Enough look (job q) m f ∧ left = (job q).alone look m f

/-- What holds of every state: the calls that have returned are explained by `m`, and those under way will be. -/
def Explained (look : M → L → Option Nat) (job : Q → Body M L R) (cl : Clients R Q) (y : Sys M L R) (m : M) : Prop :=
  (y.mem = m ∧ ∀ i, y.phase i = .idle ∨ ∃ p, y.phase i = .reading p ∧
      InCall look job cl y m i ((p.run (look m)).map fun r => (r, m))) ∨
  ∃ i rest last, y.phase i = .writing rest last ∧ y.OthersIdle i ∧ InCall look job cl y m i last

theorem InCall.congr {y y' : Sys M L R} {m : M} {i : Nat} {l : Option (R × M)} (h : InCall look job cl y m i l)
    (e : mine y'.log i = mine y.log i) : InCall look job cl y' m i l := by
  obtain ⟨q, f, h1, h2, h3⟩ := h
  exact ⟨q, f, e ▸ h1, h2, h3⟩

theorem Runs.explained {m0 : M} {y : Sys M L R} (h : Runs look job cl m0 y) :
    ∃ m, OneByOne look job cl m0 y.log m ∧ Explained look job cl y m := by
  induction h with
  | start => exact ⟨m0, .start, .inl ⟨rfl, fun _ => .inl rfl⟩⟩
  | @step y y' i _ hs ih =>
    obtain ⟨m, hm, hx⟩ := ih
    cases hs with
    | @enterRead q p f h1 h2 hj hf h3 =>
      rcases hx with ⟨e, hx⟩ | ⟨j, rest, last, e1, -⟩
      · refine ⟨m, hm, .inl ⟨e, fun k => ?_⟩⟩
        simp only [Sys.at]
        by_cases hk : k = i
        · subst hk; right; exact ⟨p f, by simp, q, f, h2, e ▸ hf, by simp [hj, Body.alone]⟩
        · have := hx k
          simp only [hk, if_false]
          exact this
      · exact absurd e1 (h3 _ _ _)
    | @load l k v h1 h2 =>
      rcases hx with ⟨e, hx⟩ | ⟨j, rest, last, e1, e2, -⟩
      · refine ⟨m, hm, .inl ⟨e, fun j => ?_⟩⟩
        simp only [Sys.at]
        by_cases hj : j = i
        · subst hj
          right
          rcases hx j with h | ⟨p, h3, h4⟩
          · rw [h1] at h; cases h
          · rw [h1] at h3; cases h3
            refine ⟨k v, by simp, ?_⟩
            rw [Rd.run, ← e, h2] at h4
            exact e ▸ h4
        · simp only [hj, if_false]; exact hx j
      · by_cases hij : i = j
        · subst hij; rw [h1] at e1; cases e1
        · have := e2 i hij; rw [h1] at this; cases this
    | @leaveRead r h1 =>
      rcases hx with ⟨e, hx⟩ | ⟨j, rest, last, e1, e2, -⟩
      · rcases hx i with h | ⟨p, h3, q, f, h4, h5, h6⟩
        · rw [h1] at h; cases h
        · rw [h1] at h3; cases h3
          refine ⟨m, .call hm h4 h5 h6.symm, .inl ⟨e, fun j => ?_⟩⟩
          simp only [Sys.at]
          by_cases hj : j = i
          · left; simp [hj]
          · simp only [hj, if_false]
            rcases hx j with h | ⟨p, h7, h8⟩
            · exact .inl h
            · exact .inr ⟨p, h7, h8.congr (mine_other hj)⟩
      · by_cases hij : i = j
        · subst hij; rw [h1] at e1; cases e1
        · have := e2 i hij; rw [h1] at this; cases this
    | @enterWrite q t f h0 h1 h2 hj h3 =>
      rcases hx with ⟨e, hx⟩ | ⟨j, rest, last, e1, e2, -⟩
      · refine ⟨m, hm, .inr ⟨i, (t f m).1, (t f m).2, by simp [Sys.at, e], fun k hk => by simp [Sys.at, hk, h1 k hk], q, f,
          h2, e ▸ h3, by simp [hj, Body.alone]⟩⟩
      · by_cases hij : i = j
        · subst hij; rw [h0] at e1; cases e1
        · have := h1 j (Ne.symm hij); rw [e1] at this; cases this
    | @assign x rest last h1 =>
      rcases hx with ⟨e, hx⟩ | ⟨j, rest', last', e1, e2, e3⟩
      · rcases hx i with h | ⟨p, h3, -⟩
        · rw [h1] at h; cases h
        · rw [h1] at h3; cases h3
      · by_cases hij : i = j
        · subst hij
          rw [h1] at e1; cases e1
          exact ⟨m, hm, .inr ⟨i, rest, last, by simp [Sys.at], fun k hk => by simp [Sys.at, hk, e2 k hk], e3⟩⟩
        · have := e2 i hij; rw [h1] at this; cases this
    | @leaveWrite r m' h1 =>
      rcases hx with ⟨e, hx⟩ | ⟨j, rest', last, e1, e2, q, f, e3, e4, e5⟩
      · rcases hx i with h | ⟨p, h3, -⟩
        · rw [h1] at h; cases h
        · rw [h1] at h3; cases h3
      · by_cases hij : i = j
        · subst hij
          rw [h1] at e1; cases e1
          refine ⟨m', .call hm e3 e4 e5.symm, .inl ⟨rfl, fun k => .inl ?_⟩⟩
          simp only [Sys.at]
          split
          · rfl
          · next hk => exact e2 k hk
        · have := e2 i hij; rw [h1] at this; cases this

/-- The state after thread `i` has returned `r`. -/
def Returned (y y' : Sys M L R) (i : Nat) (r : R) (m : M) : Prop :=
  y'.mem = m ∧ y'.log = y.log ++ [(i, r)] ∧ y'.phase i = .idle ∧ ∀ k, k ≠ i → y'.phase k = y.phase k

/-- A reader, left alone, returns. -/
theorem ThreadSteps.reads {i : Nat} {r : R} : ∀ {p : Rd L R} {y : Sys M L R}, y.phase i = .reading p →
    p.run (look y.mem) = some r → ∃ y', ThreadSteps look job cl i y y' ∧ Returned y y' i r y.mem := by
  intro p
  induction p with
  | ret a =>
    intro y hp hr
    cases hr
    exact ⟨_, .step (.leaveRead hp) .refl, rfl, rfl, by simp [Sys.at], fun k hk => by simp [Sys.at, hk]⟩
  | panic => intro y hp hr; cases hr
  | load l k ih =>
    intro y hp hr
    simp only [Rd.run, Option.bind_eq_some_iff] at hr
    obtain ⟨v, hv, hr⟩ := hr
    obtain ⟨y', h1, h2, h3, h4, h5⟩ := ih v (y := { y with phase := y.at i (.reading (k v)) }) (by simp [Sys.at]) hr
    exact ⟨y', .step (.load hp hv) h1, h2, h3, h4, fun j hj => (h5 j hj).trans (by simp [Sys.at, hj])⟩

/-- A writer, left alone, returns. -/
theorem ThreadSteps.writes {i : Nat} {r : R} {m : M} : ∀ {rest : List M} {y : Sys M L R},
    y.phase i = .writing rest (some (r, m)) → ∃ y', ThreadSteps look job cl i y y' ∧ Returned y y' i r m := by
  intro rest
  induction rest with
  | nil =>
    intro y hp
    exact ⟨_, .step (.leaveWrite hp) .refl, rfl, rfl, by simp [Sys.at], fun k hk => by simp [Sys.at, hk]⟩
  | cons x rest ih =>
    intro y hp
    obtain ⟨y', h1, h2, h3, h4, h5⟩ := ih (y := { y with mem := x, phase := y.at i (.writing rest (some (r, m))) })
      (by simp [Sys.at])
    exact ⟨y', .step (.assign hp) h1, h2, h3, h4, fun j hj => (h5 j hj).trans (by simp [Sys.at, hj])⟩

/-- Calls made one at a time are one of the schedules. -/
theorem OneByOne.runs {m0 m : M} {log : List (Nat × R)} (h : OneByOne look job cl m0 log m) :
    Runs look job cl m0 ⟨m, fun _ => .idle, log⟩ := by
  induction h with
  | start => exact .start
  | @call log m m1 i f q r _ h1 h2 h3 ih =>
    have fin : ∀ {x y' : Sys M L R}, Runs look job cl m0 x → x.log = log → (∀ k, k ≠ i → x.phase k = .idle) →
        ThreadSteps look job cl i x y' → Returned x y' i r m1 →
        Runs look job cl m0 ⟨m1, fun _ => .idle, log ++ [(i, r)]⟩ := by
      rintro x ⟨m', ph, lg⟩ hx hl hi hs ⟨k2, k3, k4, k5⟩
      have := Runs.steps hs hx
      simp only at k2 k3 k4 k5
      subst k2 k3 hl
      have e : ph = fun _ => .idle := by
        funext k
        by_cases hk : k = i
        · rw [hk, k4]
        · rw [k5 k hk, hi k hk]
      rw [← e]; exact this
    cases hj : job q with
    | read p =>
      rw [hj, Body.alone, Option.map_eq_some_iff] at h3
      obtain ⟨r', h3, e⟩ := h3
      cases e
      have h0 := ih.step (.enterRead (i := i) (f := f) rfl h1 hj h2 fun _ _ _ h => nomatch h)
      obtain ⟨y', k1, k2⟩ := ThreadSteps.reads (look := look) (job := job) (cl := cl) (i := i) (r := r) (p := p f)
        (y := { mem := m, phase := Sys.at ⟨m, fun _ => .idle, log⟩ i (.reading (p f)), log := log }) (by simp [Sys.at]) h3
      exact fin h0 rfl (fun k hk => by simp [Sys.at, hk]) k1 k2
    | write t =>
      rw [hj, Body.alone] at h3
      have h0 := ih.step (.enterWrite (i := i) (f := f) rfl (fun _ _ => rfl) h1 hj h2)
      obtain ⟨y', k1, k2⟩ := ThreadSteps.writes (look := look) (job := job) (cl := cl) (i := i) (r := r) (m := m1)
        (rest := (t f m).1)
        (y := { mem := m, phase := Sys.at ⟨m, fun _ => .idle, log⟩ i (.writing (t f m).1 (t f m).2), log := log })
        (by simp [Sys.at, h3])
      exact fin h0 rfl (fun k hk => by simp [Sys.at, hk]) k1 k2

end

/-! ### Calls on a store -/

/-- A call on a store. `A` is what the environment decides for a call: how the memory grows. A handler is given by what it
answers, from the links that it has been shown. -/
inductive Req (A : Type) where
  | get (i : Nat)
  | each (q : List Nat) (h : List Link → Flow)
  | count (q : List Nat)
  | write (k : Call) (a : A) (h : List (Link × Link) → Flow)

/-- What a call returns, and what its handler has been shown. -/
inductive Reply where
  | link (l : Option Link)
  | links (f : Flow) (shown : List Link)
  | count (n : Nat)
  | wrote (res : Except Err Flow) (shown : List (Link × Link))

/-- A reading handler that keeps what it has been shown. -/
def showing (h : List Link → Flow) : RH (List Link) := fun acc l => (h (acc ++ [l]), acc ++ [l])

/-- A writing handler that keeps what it has been shown. -/
def showing2 (h : List (Link × Link) → Flow) : WH (List (Link × Link)) :=
  fun acc b a => (h (acc ++ [(b, a)]), acc ++ [(b, a)])

section
variable {S M L R Q : Type}

/-- The calls made one at a time, on a store whose calls answer as `answer` says. -/
inductive Serial (answer : S → Q → Option (R × S)) (cl : Clients R Q) (s0 : S) : List (Nat × R) → S → Prop
  | start : Serial answer cl s0 [] s0
  | call {log : List (Nat × R)} {s s' : S} {i : Nat} {q : Q} {r : R} : Serial answer cl s0 log s →
      cl i (mine log i) q → answer s q = some (r, s') → Serial answer cl s0 (log ++ [(i, r)]) s'

/-- The threads make supported calls only, as long as they run one at a time. -/
def Disciplined (answer : S → Q → Option (R × S)) (sup : S → Q → Prop) (cl : Clients R Q) (s0 : S) : Prop :=
  ∀ log s, Serial answer cl s0 log s → ∀ i q, cl i (mine log i) q → sup s q

/-- Supported calls, made alone, do what `answer` says. -/
structure Faithful (look : M → L → Option Nat) (job : Q → Body M L R) (answer : S → Q → Option (R × S))
    (sup : S → Q → Prop) (I : S → Prop) (of : S → M) : Prop where
  works : ∀ {s q}, I s → sup s q → ∃ r s', answer s q = some (r, s') ∧ I s' ∧
    ∃ f0, ∀ f, f0 ≤ f → (job q).alone look (of s) f = some (r, of s')

variable {look : M → L → Option Nat} {job : Q → Body M L R} {answer : S → Q → Option (R × S)} {sup : S → Q → Prop}
  {I : S → Prop} {of : S → M} {cl : Clients R Q} {s0 : S}

theorem Faithful.enough (F : Faithful look job answer sup I of) {s : S} {q : Q} (hI : I s) (hs : sup s q) {f : Nat}
    (hf : Body.Enough look (job q) (of s) f) :
    ∃ r s', answer s q = some (r, s') ∧ I s' ∧ (job q).alone look (of s) f = some (r, of s') := by
  obtain ⟨r, s', h1, h2, f0, h3⟩ := F.works hI hs
  exact ⟨r, s', h1, h2, by rw [← hf (max f f0) (by omega)]; exact h3 _ (by omega)⟩

theorem Faithful.serial (F : Faithful look job answer sup I of) (h0 : I s0) (hd : Disciplined answer sup cl s0)
    {log : List (Nat × R)} {m : M} (h : OneByOne look job cl (of s0) log m) :
    ∃ s, m = of s ∧ I s ∧ Serial answer cl s0 log s := by
  induction h with
  | start => exact ⟨s0, rfl, h0, .start⟩
  | @call log m m' i f q r _ h1 h2 h3 ih =>
    obtain ⟨s, rfl, hI, hs⟩ := ih
    obtain ⟨r', s', k1, k2, k3⟩ := F.enough hI (hd _ _ hs _ _ h1) h2
    rw [k3] at h3; cases h3
    exact ⟨s', rfl, k2, hs.call h1 k1⟩

theorem Faithful.inv (F : Faithful look job answer sup I of) (h0 : I s0) (hd : Disciplined answer sup cl s0)
    {log : List (Nat × R)} {s : S} (h : Serial answer cl s0 log s) : I s := by
  induction h with
  | start => exact h0
  | @call log s s' i q r hs h1 h2 ih =>
    obtain ⟨r', s1, k1, k2, -⟩ := F.works ih (hd _ _ hs _ _ h1)
    rw [k1] at h2; cases h2
    exact k2

/-- Every schedule is explained by the calls that have returned, made one at a time in the order in which they returned;
whoever is in a call returns when left alone, with the answer of the call made at that point. -/
theorem Faithful.linear (F : Faithful look job answer sup I of) (h0 : I s0) (hd : Disciplined answer sup cl s0)
    {y : Sys M L R} (h : Runs look job cl (of s0) y) :
    ∃ s, Serial answer cl s0 y.log s ∧ I s ∧ (y.NoWriter → y.mem = of s) ∧
      ∀ i, y.phase i ≠ .idle → ∃ q r s' y', cl i (mine y.log i) q ∧ answer s q = some (r, s') ∧
        ThreadSteps look job cl i y y' ∧ Returned y y' i r (of s') := by
  obtain ⟨m, h1, h2⟩ := h.explained
  obtain ⟨s, rfl, hI, hs⟩ := F.serial h0 hd h1
  refine ⟨s, hs, hI, ?_, ?_⟩
  · intro hw
    rcases h2 with ⟨e, -⟩ | ⟨i, rest, last, e, -⟩
    · exact e
    · exact absurd e (hw _ _ _)
  · intro i hi
    rcases h2 with ⟨e, hx⟩ | ⟨j, rest, last, e1, e2, q, f, e3, e4, e5⟩
    · rcases hx i with h | ⟨p, h3, q, f, h4, h5, h6⟩
      · exact absurd h hi
      · obtain ⟨r, s', k1, k2, k3⟩ := F.enough hI (hd _ _ hs _ _ h4) h5
        rw [k3, Option.map_eq_some_iff] at h6
        obtain ⟨r', h6, e6⟩ := h6
        obtain ⟨rfl, e7⟩ := Prod.mk.inj e6
        obtain ⟨y', h7, h8⟩ := ThreadSteps.reads (look := look) (job := job) (cl := cl) h3 (e ▸ h6)
        rw [e, e7] at h8
        exact ⟨q, _, s', y', h4, k1, h7, h8⟩
    · by_cases hij : i = j
      · subst hij
        obtain ⟨r, s', k1, k2, k3⟩ := F.enough hI (hd _ _ hs _ _ e3) e4
        rw [k3] at e5; subst e5
        obtain ⟨y', h7, h8⟩ := ThreadSteps.writes (look := look) (job := job) (cl := cl) e1
        exact ⟨q, r, s', y', e3, k1, h7, h8⟩
      · exact absurd (e2 i hij) hi

/-- When nobody is in a call, any next call can be entered. -/
theorem Faithful.enters (F : Faithful look job answer sup I of) (h0 : I s0) (hd : Disciplined answer sup cl s0)
    {y : Sys M L R} (h : Runs look job cl (of s0) y) (hy : ∀ i, y.phase i = .idle) {i : Nat} {q : Q}
    (hq : cl i (mine y.log i) q) : ∃ y', ThreadStep look job cl i y y' ∧ y'.phase i ≠ .idle := by
  obtain ⟨s, h1, hI, h2, -⟩ := F.linear h0 hd h
  have hw : y.NoWriter := fun k rest last e => by rw [hy k] at e; cases e
  obtain ⟨r, s', -, -, f0, k3⟩ := F.works hI (hd _ _ h1 _ _ hq)
  have he : Body.Enough look (job q) y.mem f0 := by
    rw [h2 hw]
    exact fun f' hf => by rw [k3 f' hf, k3 f0 (Nat.le_refl _)]
  cases hj : job q with
  | read p => exact ⟨_, .enterRead (hy i) hq hj he hw, by simp [Sys.at]⟩
  | write t => exact ⟨_, .enterWrite (hy i) (fun k _ => hy k) hq hj he, by simp [Sys.at]⟩

/-- Calls made one at a time are one of the schedules. -/
theorem Faithful.next (F : Faithful look job answer sup I of) (h0 : I s0) (hd : Disciplined answer sup cl s0)
    {log : List (Nat × R)} {s : S} (h : Serial answer cl s0 log s) :
    Runs look job cl (of s0) ⟨of s, fun _ => .idle, log⟩ := by
  have : OneByOne look job cl (of s0) log (of s) := by
    induction h with
    | start => exact .start
    | @call log s s' i q r hs h1 h2 ih =>
      obtain ⟨r', s1, k1, k2, f0, k3⟩ := F.works (F.inv h0 hd hs) (hd _ _ hs _ _ h1)
      rw [k1] at h2; cases h2
      exact .call ih h1 (fun f' hf => by rw [k3 f' hf, k3 f0 (Nat.le_refl _)]) (k3 f0 (Nat.le_refl _))
  exact this.runs

end
end Verif
