import Verif.DerivedLaws

/-!
# A client that keeps its network sound

The client creates points, asks for the link between two existing links, and removes links nobody uses.
-/

namespace Verif

/-- What such a client does: `create_point()`, `get_or_create(x, y)` and `delete(i)`. -/
inductive Act where
  | point
  | pair (x y : Nat)
  | remove (i : Nat)
deriving DecidableEq

/-- The calls (`doublets/src/data/traits.rs:245-250,336-342,425-434`). -/
def Act.run {S : Type} (D : Links S) (s : S) : Act → Option (Out S Unit Nat)
  | .point => D.createPoint s
  | .pair x y => D.getOrCreate s x y
  | .remove i => D.delete s i

/-- What the client takes care of: it links existing links only and removes only what no other link uses. -/
def Act.Careful (v : View) : Act → Prop
  | .point => True
  | .pair x y => v x ≠ none ∧ v y ≠ none
  | .remove i => ∀ j, ¬ v.Uses i j

/-- What the client sees: result `r` and new contents `v'`, from contents `v`. -/
def Act.Effect (v : View) : Act → Except Err Nat → View → Prop
  | .point, .ok i, v' => v i = none ∧ v' = v.set i (i, i)
  | .pair x y, .ok i, v' => (v i = some (x, y) ∧ v' = v) ∨
      ((∀ j, v j ≠ some (x, y)) ∧ v i = none ∧ v' = v.set i (x, y))
  | .remove i, .ok _, v' => v i ≠ none ∧ v' = v.del i
  | .remove i, .error e, v' => v i = none ∧ e = .notExists i ∧ v' = v
  | _, .error _, v' => v' = v

/-- Different links have different doublets, and their ends are links. -/
structure View.Sound (v : View) : Prop where
  inj : ∀ i j p, v i = some p → v j = some p → i = j
  closed : ∀ i a b, v i = some (a, b) → v a ≠ none ∧ v b ≠ none

theorem View.Sound.empty : View.empty.Sound := by
  constructor <;> intro _ _ _ h <;> cases h

theorem View.Sound.uniq {v : View} (h : v.Sound) : v.Uniq := fun i p hp _ j hj => h.inj j i p hj hp

theorem View.Sound.add {v : View} (h : v.Sound) {i x y : Nat} (hi : v i = none)
    (hx : x = i ∨ v x ≠ none) (hy : y = i ∨ v y ≠ none) (hn : ∀ j, v j ≠ some (x, y)) :
    (v.set i (x, y)).Sound := by
  have hs : ∀ k, k = i ∨ v k ≠ none → v.set i (x, y) k ≠ none := by
    intro k hk
    by_cases e : k = i
    · subst e; rw [View.set_same]; simp
    · rw [View.set_other _ _ e]; exact hk.resolve_left e
  refine ⟨fun k j p hk hj => ?_, fun k a b hk => ?_⟩
  · by_cases e1 : k = i
    · by_cases e2 : j = i
      · rw [e1, e2]
      · rw [e1, View.set_same] at hk; cases hk
        rw [View.set_other _ _ e2] at hj; exact absurd hj (hn j)
    · rw [View.set_other _ _ e1] at hk
      by_cases e2 : j = i
      · rw [e2, View.set_same] at hj; cases hj
        exact absurd hk (hn k)
      · rw [View.set_other _ _ e2] at hj; exact h.inj k j p hk hj
  · by_cases e1 : k = i
    · rw [e1, View.set_same] at hk; cases hk
      exact ⟨hs _ hx, hs _ hy⟩
    · rw [View.set_other _ _ e1] at hk
      obtain ⟨g1, g2⟩ := h.closed k a b hk
      exact ⟨hs _ (.inr g1), hs _ (.inr g2)⟩

theorem View.Sound.remove {v : View} (h : v.Sound) {i : Nat} (hi : ∀ j, ¬ v.Uses i j) : (v.del i).Sound := by
  refine ⟨fun k j p hk hj => ?_, fun k a b hk => ?_⟩
  · unfold View.del at hk hj
    split at hk
    · cases hk
    · split at hj
      · cases hj
      · exact h.inj k j p hk hj
  · unfold View.del at hk
    split at hk
    · cases hk
    · rename_i hki
      have ha : a ≠ i := fun e => hi k ⟨hki, a, b, hk, .inl e⟩
      have hb : b ≠ i := fun e => hi k ⟨hki, a, b, hk, .inr e⟩
      rw [View.del_other _ ha, View.del_other _ hb]
      exact h.closed k a b hk

/-- Careful actions keep the contents sound. -/
theorem Act.Effect.sound {v v' : View} {k : Act} {r : Except Err Nat} (h : k.Effect v r v')
    (hk : k.Careful v) (hv : v.Sound) : v'.Sound := by
  cases k with
  | point =>
    cases r with
    | error e => have : v' = v := h; rw [this]; exact hv
    | ok i =>
      rw [h.2]
      exact hv.add h.1 (.inl rfl) (.inl rfl) fun j hj => (hv.closed j i i hj).1 h.1
  | pair x y =>
    cases r with
    | error e => have : v' = v := h; rw [this]; exact hv
    | ok i =>
      rcases h with ⟨-, h⟩ | ⟨h1, h2, h3⟩
      · rw [h]; exact hv
      · rw [h3]; exact hv.add h2 (.inr hk.1) (.inr hk.2) h1
  | remove i =>
    cases r with
    | error e => rw [h.2.2]; exact hv
    | ok x => rw [h.2]; exact hv.remove hk

/-- On a lawful store with sound contents every careful action returns and has the effect it should. -/
theorem Links.act_law {S : Type} {D : Links S} (W : Lawful D) {s : S} (hs : W.Inv s) (hg : W.CanCreate s)
    (hu : ∀ v i x y, v.Sound → (∀ j, v j ≠ some (x, y)) → (x ≠ 0 → y ≠ 0) → W.CanUpdate (View.set v i (0, 0)) i x y)
    (hv : (D.view s).Sound) {k : Act}
    (hk : k.Careful (D.view s)) : ∃ o, k.run D s = some o ∧ W.Inv o.st ∧ k.Effect (D.view s) o.res (D.view o.st) := by
  cases k with
  | point =>
    rcases createPoint_law W hs hg (fun j hj => hu _ _ _ _ hv (fun l hl => (hv.closed l j j hl).1 hj) id) with ⟨e, h, h'⟩ | ⟨j, s', g1, g2, g3, g4⟩
    · exact ⟨_, h', hs, rfl⟩
    · exact ⟨_, g3, g2, g1, g4⟩
  | pair x y =>
    have hne : ∀ k, D.view s k ≠ none → k ≠ 0 ∧ k ≠ (D.consts s).any := by
      refine fun k hk => ⟨?_, ?_⟩
      · rintro rfl; exact hk (W.null s hs)
      · rintro rfl; exact hk (W.any_absent s hs)
    obtain ⟨hx, hxa⟩ := hne x hk.1
    obtain ⟨hy, hya⟩ := hne y hk.2
    rcases search_law W hs hx hxa hy hya with ⟨h1, h2⟩ | ⟨i, h1, h2⟩
    · rcases createLink_law W hs hg x y (fun j _ => hu _ _ _ _ hv h2 fun _ => hy) with ⟨e, -, h'⟩ | ⟨j, s', g1, g2, g3, g4⟩
      · exact ⟨⟨.error e, s, ()⟩, by simp only [Act.run, getOrCreate, h1, Option.bind_some, h'], hs, rfl⟩
      · exact ⟨⟨.ok j, s', ()⟩, by simp only [Act.run, getOrCreate, h1, Option.bind_some, g3], g2,
          .inr ⟨h2, g1, g4⟩⟩
    · exact ⟨⟨.ok i, s, ()⟩, by simp only [Act.run, getOrCreate, h1, Option.bind_some], hs, .inl ⟨h2, rfl⟩⟩
  | remove i =>
    cases hi : D.view s i with
    | none => exact ⟨_, delete_err (W.delete_missing s hs i hi), hs, hi, rfl, rfl⟩
    | some p =>
      obtain ⟨s', h1, -, h2, h3⟩ := W.delete s hs i p hi (hv.uniq i) (W.canDelete_uniq _ _ hv.uniq)
      exact ⟨_, delete_ok h3, h1, by rw [hi]; simp, h2⟩

end Verif
