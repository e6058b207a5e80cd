import Verif.Props.Routine

/-!
# Clients that are restarted between calls

The process of a client may end between two of its calls, and a new one opens the store again and goes on. `Routine.Goes` is
`Routine.run` with restarts at any points.
-/

namespace Verif

/-- Following a routine on a store, with any number of restarts between the calls. `R s s'`: the store `s` was closed and opened
again as `s'`. -/
inductive Routine.Goes {S α : Type} (D : Links S) (any : Nat) (R : S → S → Prop) : Routine α → S → α → S → Prop
  | done {a s} : Goes D any R (.done a) s a s
  | restart {P s s1 a s'} : R s s1 → Goes D any R P s1 a s' → Goes D any R P s a s'
  | write {k next s o a s'} : D.write s k = some o → o.res ≠ .error .allocFailed → Goes D any R (next o.res) o.st a s' →
      Goes D any R (.write k next) s a s'
  | get {i next s r a s'} : D.getLink s i = some r → Goes D any R (next r) s a s' → Goes D any R (.get i next) s a s'
  | count {p next s n a s'} : D.countBy s (askWith any p) = some n → Goes D any R (next n) s a s' →
      Goes D any R (.count p next) s a s'
  | gather {p next s L a s'} : D.collect s (askWith any p) = some L → Goes D any R (next L) s a s' →
      Goes D any R (.gather p next) s a s'
  | search {x y next s r a s'} : D.search s x y = some r → Goes D any R (next r) s a s' → Goes D any R (.search x y next) s a s'
  | list {next s L a s'} : D.collect s [] = some L → Goes D any R (next L) s a s' → Goes D any R (.list next) s a s'

/-- Without restarts it is `Routine.run`. -/
theorem Routine.goes_iff_run {S α : Type} {D : Links S} {any : Nat} {P : Routine α} {s s' : S} {a : α} :
    P.Goes D any (fun _ _ => False) s a s' ↔ P.run D any s = some (.ok a, s') := by
  constructor
  · intro h
    induction h with
    | done => rfl
    | restart hr => exact hr.elim
    | write ho hne _ ih =>
      simp only [Routine.run, ho, Option.bind_some]
      exact ih
    | get ho _ ih => simp only [Routine.run, ho, Option.bind_some]; exact ih
    | count ho _ ih => simp only [Routine.run, ho, Option.bind_some]; exact ih
    | gather ho _ ih => simp only [Routine.run, ho, Option.bind_some]; exact ih
    | search ho _ ih => simp only [Routine.run, ho, Option.bind_some]; exact ih
    | list ho _ ih => simp only [Routine.run, ho, Option.bind_some]; exact ih
  · induction P generalizing s with
    | done b => intro h; cases h; exact .done
    | write k next ih =>
      intro h
      simp only [Routine.run, Option.bind_eq_some_iff] at h
      obtain ⟨o, ho, h⟩ := h
      split at h
      · cases h
      · next hne => exact .write ho (fun e => hne e) (ih _ h)
    | get i next ih =>
      intro h
      simp only [Routine.run, Option.bind_eq_some_iff] at h
      obtain ⟨o, ho, h⟩ := h
      exact .get ho (ih _ h)
    | count p next ih =>
      intro h
      simp only [Routine.run, Option.bind_eq_some_iff] at h
      obtain ⟨o, ho, h⟩ := h
      exact .count ho (ih _ h)
    | gather p next ih =>
      intro h
      simp only [Routine.run, Option.bind_eq_some_iff] at h
      obtain ⟨o, ho, h⟩ := h
      exact .gather ho (ih _ h)
    | search x y next ih =>
      intro h
      simp only [Routine.run, Option.bind_eq_some_iff] at h
      obtain ⟨o, ho, h⟩ := h
      exact .search ho (ih _ h)
    | list next ih =>
      intro h
      simp only [Routine.run, Option.bind_eq_some_iff] at h
      obtain ⟨o, ho, h⟩ := h
      exact .list ho (ih _ h)

theorem Routine.Goes.mono {S α : Type} {D : Links S} {any : Nat} {R R' : S → S → Prop} (hR : ∀ s s', R s s' → R' s s')
    {P : Routine α} {s s' : S} {a : α} (h : P.Goes D any R s a s') : P.Goes D any R' s a s' := by
  induction h with
  | done => exact .done
  | restart hr _ ih => exact .restart (hR _ _ hr) ih
  | write ho hne _ ih => exact .write ho hne ih
  | get ho _ ih => exact .get ho ih
  | count ho _ ih => exact .count ho ih
  | gather ho _ ih => exact .gather ho ih
  | search ho _ ih => exact .search ho ih
  | list ho _ ih => exact .list ho ih

/-- A client that is not restarted. -/
theorem Routine.Goes.of_run {S α : Type} {D : Links S} {any : Nat} {R : S → S → Prop} {P : Routine α} {s s' : S} {a : α}
    (h : P.run D any s = some (.ok a, s')) : P.Goes D any R s a s' :=
  (Routine.goes_iff_run.2 h).mono fun _ _ h => h.elim

/-- One routine after another. -/
theorem Routine.Goes.bind {S α β : Type} {D : Links S} {any : Nat} {R : S → S → Prop} {P : Routine α} {f : α → Routine β}
    {s s1 s' : S} {a : α} {b : β} (h : P.Goes D any R s a s1) (h' : (f a).Goes D any R s1 b s') : (P.bind f).Goes D any R s b s' := by
  induction h with
  | done => exact h'
  | restart hr _ ih => exact .restart hr (ih h')
  | write ho hne _ ih => exact .write ho hne (ih h')
  | get ho _ ih => exact .get ho (ih h')
  | count ho _ ih => exact .count ho (ih h')
  | gather ho _ ih => exact .gather ho (ih h')
  | search ho _ ih => exact .search ho (ih h')
  | list ho _ ih => exact .list ho (ih h')

/-- A store that serves routines, and that a restart leaves with the same history, computes what a map computes. -/
theorem Serves.goes {S α : Type} {D : Links S} {any limit' limit : Nat} {H : S → List (Call × Except Err Nat) → Prop}
    (W : Serves D any limit' H) (hl : limit ≤ limit') {reserved : Nat → Prop} (hr : reserved any) {R : S → S → Prop}
    (hR : ∀ {s s' tr}, H s tr → R s s' → H s' tr) {P : Routine α} {s s' : S} {a : α} (h : P.Goes D any R s a s') :
    ∀ {tr}, H s tr → P.Careful limit reserved (replay tr) (slots tr) →
      ∃ tr', H s' tr' ∧ P.Means limit (replay tr) (slots tr) a (replay tr') (slots tr') := by
  induction h with
  | done => intro tr h _; exact ⟨tr, h, .done⟩
  | restart hs _ ih => intro tr h hc; exact ih (hR h hs) hc
  | @write k next s o a s' ho hne _ ih =>
    intro tr h hc
    obtain ⟨c1, c2, c3⟩ := hc
    have hw := result_widen hl c2
    rcases W.write h (by rw [hw]; exact c1) ho with e | ⟨e, h'⟩
    · exact absurd e hne
    · rw [hw] at e
      rw [e] at h' ih
      obtain ⟨tr', k1, k2⟩ := ih h' (by rw [Unit.replay_snoc, Unit.slots_snoc]; exact c3)
      rw [Unit.replay_snoc, Unit.slots_snoc] at k2
      exact ⟨tr', k1, .write k2⟩
  | get ho _ ih =>
    intro tr h hc
    rw [W.get h] at ho
    cases ho
    obtain ⟨tr', k1, k2⟩ := ih h hc
    exact ⟨tr', k1, .get k2⟩
  | count ho _ ih =>
    intro tr h hc
    obtain ⟨c1, c2, c3, c4⟩ := hc
    obtain ⟨L, hL, rfl⟩ := W.count h c1 c2 (fun x hx e => c3 x hx (e ▸ hr)) ho
    obtain ⟨tr', k1, k2⟩ := ih h (c4 L hL)
    exact ⟨tr', k1, .count L hL k2⟩
  | gather ho _ ih =>
    intro tr h hc
    obtain ⟨c1, c2, c3, c4⟩ := hc
    obtain ⟨L, hv, hL⟩ := W.visits h c1 (fun x hx e => c2 x hx (e ▸ hr))
    rw [Links.collect_eq hv] at ho
    cases ho
    obtain ⟨tr', k1, k2⟩ := ih h (c4 _ hL)
    exact ⟨tr', k1, .gather _ hL k2⟩
  | search ho _ ih =>
    intro tr h hc
    obtain ⟨c1, c2, c3, c4, c5, c6⟩ := hc
    obtain ⟨r, hv, hL⟩ := W.search h c5 c1 c2 (fun e => c3 (e ▸ hr)) (fun e => c4 (e ▸ hr))
    rw [hv] at ho
    cases ho
    obtain ⟨tr', k1, k2⟩ := ih h (c6 _ hL)
    exact ⟨tr', k1, .search _ hL k2⟩
  | list ho _ ih =>
    intro tr h hc
    obtain ⟨L, hv, hL⟩ := W.list h
    rw [Links.collect_eq hv] at ho
    cases ho
    obtain ⟨tr', k1, k2⟩ := ih h (hc _ hL)
    exact ⟨tr', k1, .list _ hL k2⟩

/-- The united store was closed and opened again: its memory `s` is mapped to some extent, with some allocator, and more slots
are mapped than the largest index in use (C72: otherwise a link can be lost). -/
def Unit.Restarts (c : Unit.Cfg) (s s' : Unit.Store) : Prop :=
  ∃ a n, Unit.GoodAlloc a ∧ Unit.init (c.withAlloc a) { s with len := n } = some (.ok s') ∧ s.hdr.allocated < s'.len

/-- The split store was closed and opened again, likewise. -/
def Split.Restarts (c : Split.Cfg) (s s' : Split.Store) : Prop :=
  ∃ d i n m, Split.ExactAlloc d ∧ Split.ExactAlloc i ∧
    Split.init (c.withAllocs d i) { s with dlen := n, ilen := m } = some (.ok s') ∧ s.hdr.allocated < s'.ilen

end Verif
