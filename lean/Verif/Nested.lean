import Verif.Careful

/-!
# Nested pairs

Clients store structured data as pairs of pairs: items are points, and a pair is the link that `get_or_create` returns for its
two halves. Vocabulary of C81 and its proof for any store in the hands of a careful client.
-/

namespace Verif

/-- A nested pair of items. -/
inductive Nest where
  | item (i : Nat)
  | pair (l r : Nest)
deriving DecidableEq

/-- A client stores a nested pair: first the left half, then the right half, then the link between them (`get_or_create`,
`doublets/src/data/traits.rs:425-434`), each call with `?`. -/
def Nest.build {S : Type} (D : Links S) : Nest → S → Option (Out S Unit Nat)
  | .item i, s => some ⟨.ok i, s, ()⟩
  | .pair l r, s =>
    (l.build D s).bind fun o =>
    match o.res with
    | .error e => some ⟨.error e, o.st, ()⟩
    | .ok x =>
      (r.build D o.st).bind fun o' =>
      match o'.res with
      | .error e => some ⟨.error e, o'.st, ()⟩
      | .ok y => D.getOrCreate o'.st x y

/-- Link `k` is the nested pair: what following sources and targets from `k` shows. -/
def Nest.At (v : View) : Nest → Nat → Prop
  | .item i, k => k = i
  | .pair l r, k => ∃ x y, v k = some (x, y) ∧ l.At v x ∧ r.At v y

/-- All items are points: links to themselves. -/
def Nest.Points (v : View) : Nest → Prop
  | .item i => v i = some (i, i)
  | .pair l r => l.Points v ∧ r.Points v

/-- The part of a nested pair, itself included. -/
inductive Nest.Part : Nest → Nest → Prop
  | refl (t) : Part t t
  | left {u l} (r) : Part u l → Part u (.pair l r)
  | right {u r} (l) : Part u r → Part u (.pair l r)

/-- The pair of an item with itself is the item, everywhere inside. -/
def Nest.collapse : Nest → Nest
  | .item i => .item i
  | .pair l r =>
    match l.collapse, r.collapse with
    | .item i, .item j => if i = j then .item i else .pair (.item i) (.item j)
    | l', r' => .pair l' r'

/-- Every link of `v` is in `w`, unchanged. -/
def View.Sub (v w : View) : Prop := ∀ k p, v k = some p → w k = some p

theorem View.Sub.refl (v : View) : v.Sub v := fun _ _ h => h
theorem View.Sub.trans {u v w : View} (h1 : u.Sub v) (h2 : v.Sub w) : u.Sub w := fun k p h => h2 k p (h1 k p h)

theorem Nest.At.mono {v w : View} (h : v.Sub w) : ∀ {t : Nest} {k}, t.At v k → t.At w k
  | .item _, _, hk => hk
  | .pair _ _, _, ⟨x, y, h1, h2, h3⟩ => ⟨x, y, h _ _ h1, h2.mono h, h3.mono h⟩

theorem Nest.Points.mono {v w : View} (h : v.Sub w) : ∀ {t : Nest}, t.Points v → t.Points w
  | .item _, hk => h _ _ hk
  | .pair _ _, ⟨h1, h2⟩ => ⟨h1.mono h, h2.mono h⟩

theorem Nest.At.mem {v : View} : ∀ {t : Nest} {k}, t.Points v → t.At v k → v k ≠ none
  | .item _, _, hp, hk => by have hk : _ = _ := hk; rw [hk, show v _ = _ from hp]; simp
  | .pair _ _, _, _, ⟨x, y, h1, _⟩ => by rw [h1]; simp

/-- What a careful client may rely on, for any store: `J` are the states in its hands. -/
def Client.Law {S : Type} (D : Links S) (J : S → Prop) : Prop :=
  ∀ s, J s → (D.view s).Sound ∧ ∀ k : Act, k.Careful (D.view s) →
    ∃ o, k.run D s = some o ∧ J o.st ∧ k.Effect (D.view s) o.res (D.view o.st)

variable {S : Type} {D : Links S} {J : S → Prop}

theorem Nest.build_law (hJ : Client.Law D J) : ∀ (t : Nest) {s : S}, J s → t.Points (D.view s) →
    ∃ o, t.build D s = some o ∧ J o.st ∧ (D.view s).Sub (D.view o.st) ∧
      (∀ k, D.view o.st k ≠ none → D.view s k ≠ none ∨ ∃ u, Nest.Part u t ∧ u.At (D.view o.st) k) ∧
      ∀ i, o.res = .ok i → t.At (D.view o.st) i
  | .item i, s, hs, _ => ⟨_, rfl, hs, .refl _, fun _ h => .inl h, fun _ h => by cases h; rfl⟩
  | .pair l r, s, hs, ⟨h1, h2⟩ => by
    obtain ⟨o, g1, g2, g3, g4, g5⟩ := build_law hJ l hs h1
    unfold Nest.build
    rw [g1, Option.bind_some]
    cases he : o.res with
    | error e =>
      exact ⟨_, rfl, g2, g3, fun k hk => (g4 k hk).imp id fun ⟨u, a, b⟩ => ⟨u, .left _ a, b⟩, fun _ h => by cases h⟩
    | ok x =>
      simp only
      obtain ⟨o', k1, k2, k3, k4, k5⟩ := build_law hJ r g2 (h2.mono g3)
      have hnew : ∀ {w : View}, (D.view o'.st).Sub w → ∀ k, D.view o'.st k ≠ none →
          D.view s k ≠ none ∨ ∃ u, Nest.Part u (.pair l r) ∧ u.At w k := by
        intro w hw k hk
        rcases k4 k hk with a | ⟨u, a, b⟩
        · rcases g4 k a with a | ⟨u, a, b⟩
          · exact .inl a
          · exact .inr ⟨u, .left _ a, b.mono (k3.trans hw)⟩
        · exact .inr ⟨u, .right _ a, b.mono hw⟩
      rw [k1, Option.bind_some]
      cases he' : o'.res with
      | error e => exact ⟨_, rfl, k2, g3.trans k3, hnew (.refl _), fun _ h => by cases h⟩
      | ok y =>
        simp only
        have hx := (g5 x he).mono k3
        have hy := k5 y he'
        obtain ⟨o'', m1, m2, m3⟩ := (hJ o'.st k2).2 (.pair x y)
          ⟨hx.mem (h1.mono (g3.trans k3)), hy.mem (h2.mono (g3.trans k3))⟩
        refine ⟨o'', m1, m2, ?_⟩
        cases hr : o''.res with
        | error e =>
          rw [hr] at m3
          have m3 : D.view o''.st = D.view o'.st := m3
          rw [m3]
          exact ⟨g3.trans k3, hnew (.refl _), fun _ h => by cases h⟩
        | ok i =>
          rw [hr] at m3
          rcases m3 with ⟨a, b⟩ | ⟨-, a, b⟩
          · rw [b]
            exact ⟨g3.trans k3, hnew (.refl _), fun j hj => by cases hj; exact ⟨x, y, a, hx, hy⟩⟩
          · have hsub : (D.view o'.st).Sub (D.view o''.st) := by
              intro k p hk
              rw [b, View.set_other]
              · exact hk
              · rintro rfl; rw [a] at hk; cases hk
            have hat : (Nest.pair l r).At (D.view o''.st) i :=
              ⟨x, y, by rw [b, View.set_same], hx.mono hsub, hy.mono hsub⟩
            refine ⟨(g3.trans k3).trans hsub, fun k hk => ?_, fun j hj => by cases hj; exact hat⟩
            by_cases e : k = i
            · subst e; exact .inr ⟨_, .refl _, hat⟩
            · refine hnew hsub k ?_
              rw [b, View.set_other _ _ e] at hk; exact hk

/-- A nested pair that is there is found, and nothing changes. -/
theorem Nest.build_again (hJ : Client.Law D J) (hget : ∀ s, J s → ∀ x y i, D.view s i = some (x, y) →
      D.view s x ≠ none → D.view s y ≠ none → D.getOrCreate s x y = some ⟨.ok i, s, ()⟩) :
    ∀ (t : Nest) {s : S} {i}, J s → t.Points (D.view s) → t.At (D.view s) i →
      t.build D s = some ⟨.ok i, s, ()⟩
  | .item i, s, k, _, _, h => by cases (show k = i from h); rfl
  | .pair l r, s, i, hs, ⟨h1, h2⟩, ⟨x, y, a, b, d⟩ => by
    unfold Nest.build
    rw [build_again hJ hget l hs h1 b, Option.bind_some]
    simp only
    rw [build_again hJ hget r hs h2 d, Option.bind_some]
    simp only
    exact hget s hs x y i a (b.mem h1) (d.mem h2)

theorem Nest.Points.collapse {v : View} : ∀ {t : Nest}, t.Points v → t.collapse.Points v
  | .item _, h => h
  | .pair l r, ⟨h1, h2⟩ => by
    have g1 := h1.collapse
    have g2 := h2.collapse
    unfold Nest.collapse
    split
    · rename_i i j e1 e2
      rw [e1] at g1; rw [e2] at g2
      split
      · exact g1
      · exact ⟨g1, g2⟩
    · exact ⟨g1, g2⟩

theorem Nest.At.collapse {v : View} (hv : v.Sound) : ∀ {t : Nest} {k}, t.Points v → t.At v k → t.collapse.At v k
  | .item _, _, _, h => h
  | .pair l r, k, ⟨h1, h2⟩, ⟨x, y, a, b, d⟩ => by
    have hb := b.collapse hv h1
    have hd := d.collapse hv h2
    have g1 := h1.collapse
    unfold Nest.collapse
    split
    · rename_i i j e1 e2
      rw [e1] at hb g1; rw [e2] at hd
      split
      · rename_i e
        have hb' : x = i := hb
        have hd' : y = j := hd
        rw [hb', hd', ← e] at a
        exact hv.inj k i _ a g1
      · exact ⟨x, y, a, hb, hd⟩
    · exact ⟨x, y, a, hb, hd⟩

theorem Nest.At.index {v : View} (hv : v.Sound) : ∀ {t : Nest} {j k}, t.At v j → t.At v k → j = k
  | .item i, j, k, h1, h2 => (show j = i from h1).trans (show k = i from h2).symm
  | .pair l r, j, k, ⟨x, y, a, b, d⟩, ⟨x', y', a', b', d'⟩ => by
    cases b.index hv b'
    cases d.index hv d'
    exact hv.inj j k _ a a'

theorem Nest.At.item {v : View} {i : Nat} (hi : v i = some (i, i)) : ∀ {u : Nest}, u.At v i → u.collapse = .item i
  | .item j, h => by cases (show i = j from h); rfl
  | .pair l r, ⟨x, y, a, b, d⟩ => by
    rw [hi] at a; cases a
    unfold Nest.collapse
    rw [b.item hi, d.item hi]
    simp

theorem Nest.At.same {v : View} : ∀ {t u : Nest} {k}, t.Points v → u.Points v → t.At v k → u.At v k →
    t.collapse = u.collapse
  | .item i, u, k, h1, _, a, b => by
    cases (show k = i from a)
    rw [b.item h1]; rfl
  | t, .item i, k, _, h2, a, b => by
    cases (show k = i from b)
    rw [a.item h2]; rfl
  | .pair l r, .pair l' r', k, h1, h2, ⟨x, y, a, b, d⟩, ⟨x', y', a', b', d'⟩ => by
    rw [a] at a'; cases a'
    unfold Nest.collapse
    rw [b.same h1.1 h2.1 b', d.same h1.2 h2.2 d']

/-- Two nested pairs are the same link exactly if they are equal up to pairs of an item with itself. -/
theorem Nest.index_iff {v : View} (hv : v.Sound) {t u : Nest} {i j : Nat} (ht : t.Points v) (hu : u.Points v)
    (hi : t.At v i) (hj : u.At v j) : i = j ↔ t.collapse = u.collapse := by
  constructor
  · rintro rfl; exact hi.same ht hu hj
  · intro e
    exact (hi.collapse hv ht).index hv (e ▸ hj.collapse hv hu)

end Verif
