import Verif.Copy

/-!
# Emptying a store with API calls

A program of a client, not of the repository: to empty a store whose links are `L` it updates all of them to the null pair and
then deletes them. Together with `rebuild` it takes a store from any contents to any other.
-/

namespace Verif

/-- The calls that empty a store whose links are `L`. -/
def clear (L : List Link) : List Call := (L.map fun l => .update l.index 0 0) ++ L.map fun l => .delete l.index

/-- The calls that take a store whose links are `L` to the links `L'`. -/
def replace (L L' : List Link) : List Call := clear L ++ rebuild L'

theorem View.Uniq.nulled {v : View} (h : v.Uniq) (i : Nat) : (v.set i (0, 0)).Uniq := by
  intro j p hp hne k hk
  simp only [View.set] at hp hk
  split at hp
  · cases hp; exact absurd rfl hne
  · split at hk
    · cases hk; exact absurd rfl hne
    · exact h j p hp hne k hk

section
variable {S : Type} {step : S → Call → Option (Out S _root_.Unit Nat)} {view : S → View} {t : Nat} {ok : Nat → Nat → Prop}
  {Q : Nat → S → Prop} {P : S → Prop}

theorem nulls (N : ∀ s i p, P s → (view s).NoTwin i → view s i = some p → ∃ r s', step s (.update i 0 0) = some ⟨.ok r, s', ()⟩ ∧
    P s' ∧ view s' = (view s).set i (0, 0)) : ∀ (L : List Link) (s : S), P s → (view s).Uniq → (∀ l ∈ L, view s l.index ≠ none) →
    ∃ s', runAll step (L.map fun l => .update l.index 0 0) s = some s' ∧ P s' ∧ (∀ l ∈ L, view s' l.index = some (0, 0)) ∧
      (∀ i, (∀ l ∈ L, l.index ≠ i) → view s' i = view s i) ∧ ∀ i, view s i = some (0, 0) → view s' i = some (0, 0) := by
  intro L
  induction L with
  | nil => intro s hp _ _; exact ⟨s, rfl, hp, by simp, fun i _ => rfl, fun i hi => hi⟩
  | cons x L ih =>
    intro s hp ht hL
    obtain ⟨p, hx⟩ := Option.ne_none_iff_exists'.1 (hL x (by simp))
    obtain ⟨r, s1, h1, h2, h3⟩ := N s x.index p hp (ht _) hx
    obtain ⟨s2, h4, h5, h6, h7, h8⟩ := ih s1 h2 (h3 ▸ ht.nulled _) (fun l hl => by
      rw [h3, View.set]
      split
      · simp
      · exact hL l (by simp [hl]))
    refine ⟨s2, ?_, h5, fun l hl => ?_, fun i hi => ?_, fun i hi => h8 i ?_⟩
    · rw [List.map_cons, runAll, h1]; exact h4
    · rcases List.mem_cons.1 hl with rfl | hl
      · exact h8 _ (by rw [h3, View.set, if_pos rfl])
      · exact h6 l hl
    · rw [h7 i fun l hl => hi l (by simp [hl]), h3, View.set, if_neg (fun e => hi x (by simp) e.symm)]
    · rw [h3, View.set]
      split
      · rfl
      · exact hi

/-- `clear` empties a store. -/
theorem Builds.clear (B : Builds step view t ok Q P)
    (N : ∀ s i p, P s → (view s).NoTwin i → view s i = some p → ∃ r s', step s (.update i 0 0) = some ⟨.ok r, s', ()⟩ ∧
      P s' ∧ view s' = (view s).set i (0, 0)) {s : S} (hs : P s) (ht : (view s).Uniq) {L : List Link}
    (hn : (L.map (·.index)).Nodup) (hL : ∀ l, l ∈ L ↔ (view s).Has l) (h0 : ∀ l ∈ L, l.index ≠ 0) :
    ∃ s', runAll step (clear L) s = some s' ∧ P s' ∧ view s' = View.empty := by
  obtain ⟨s1, h1, h2, h3, h4, -⟩ := nulls N L s hs ht fun l hl => by
    rw [show view s l.index = some (l.source, l.target) from (hL l).1 hl]; simp
  have hnone : ∀ i, (∀ l ∈ L, l.index ≠ i) → view s i = none := fun i hi => by
    cases hv : view s i with
    | none => rfl
    | some p => exact absurd rfl (hi ⟨i, p.1, p.2⟩ ((hL _).2 hv))
  have hz : ∀ i p, view s1 i = some p → p = (0, 0) := fun i p hp => by
    by_cases hi : ∀ l ∈ L, l.index ≠ i
    · rw [h4 i hi, hnone i hi] at hp; cases hp
    · simp only [Classical.not_forall, Classical.not_not] at hi
      obtain ⟨l, hl, rfl⟩ := hi
      rw [h3 l hl] at hp; cases hp; rfl
  obtain ⟨s2, h5, h6, h7⟩ := B.deletes (L.map (·.index)) s1 h2 hn (fun i hi => by
    obtain ⟨l, hl, rfl⟩ := List.mem_map.1 hi
    exact ⟨h0 l hl, h3 l hl⟩) hz
  refine ⟨s2, ?_, h6, ?_⟩
  · rw [Verif.clear, runAll_append h1, ← h5, List.map_map]; rfl
  · funext i
    rw [h7]
    split
    · rfl
    · next hi =>
      rw [h4 i fun l hl e => hi (e ▸ List.mem_map_of_mem hl), hnone i fun l hl e => hi (e ▸ List.mem_map_of_mem hl)]
      rfl
end

/-! ### One call undone by a few -/

section
variable {S : Type} {D : Links S}

theorem Lawful.create_undone (W : Lawful D) {s s1 : S} (h : W.Inv s) (hg : W.CanCreate s) {i : Nat}
    (ho : D.create s = some ⟨.ok i, s1, ()⟩) (hd : W.CanDelete ((D.view s).set i (0, 0)) i) :
    ∃ s2, D.delete s1 i = some ⟨.ok 0, s2, ()⟩ ∧ W.Inv s2 ∧ D.view s2 = D.view s := by
  rcases W.create s h hg [] with ⟨e, h1⟩ | ⟨j, s', h1, h2, -, h4, h5⟩
  · rw [Links.create_err h1] at ho; cases ho
  · rw [Links.create_ok h5] at ho
    obtain ⟨rfl, rfl⟩ : j = i ∧ s' = s1 := by cases ho; exact ⟨rfl, rfl⟩
    have hi : D.view s' j = some (0, 0) := by rw [h4, View.set, if_pos rfl]
    obtain ⟨s2, k1, -, k3, k4⟩ := W.delete s' h2 j _ hi (fun p hp hne => by rw [hi] at hp; cases hp; exact absurd rfl hne) (h4 ▸ hd)
    refine ⟨s2, Links.delete_ok k4, k1, ?_⟩
    rw [k3, h4]
    funext k
    simp only [View.del, View.set]
    split
    · next e => rw [e, h1]
    · rfl

theorem Lawful.update_undone (W : Lawful D) {s : S} (h : W.Inv s) {i a b x y : Nat} (hv : D.view s i = some (a, b))
    (ht : (D.view s).NoTwin i) (hu : W.CanUpdate (D.view s) i x y) (ht' : ((D.view s).set i (x, y)).NoTwin i)
    (hu' : W.CanUpdate ((D.view s).set i (x, y)) i a b) :
    ∃ s1 s2, D.update s i x y = some ⟨.ok i, s1, ()⟩ ∧ D.update s1 i a b = some ⟨.ok i, s2, ()⟩ ∧ W.Inv s2 ∧ D.view s2 = D.view s := by
  obtain ⟨s1, _, -, h2, -, h4, h5⟩ := W.update s h i _ hv ht i x y hu
  rw [← h4] at ht' hu'
  obtain ⟨s2, _, -, k2, -, k4, k5⟩ := W.update s1 h2 i (x, y) (by rw [h4, View.set, if_pos rfl]) ht' i a b hu'
  refine ⟨s1, s2, Links.update_ok h5, Links.update_ok k5, k2, ?_⟩
  rw [k4, h4]
  funext k
  simp only [View.set]
  split
  · next e => rw [e, hv]
  · rfl

theorem Lawful.delete_undone (W : Lawful D) {s : S} (h : W.Inv s) {i a b : Nat} (hv : D.view s i = some (a, b))
    (ht : (D.view s).NoTwin i) (hd : W.CanDelete (D.view s) i) :
    ∃ s1, D.delete s i = some ⟨.ok 0, s1, ()⟩ ∧ W.Inv s1 ∧ (W.CanCreate s1 → W.CanUpdate ((D.view s).set i (0, 0)) i a b →
      ∀ s2, D.create s1 = some ⟨.ok i, s2, ()⟩ →
      ∃ s3, D.update s2 i a b = some ⟨.ok i, s3, ()⟩ ∧ W.Inv s3 ∧ D.view s3 = D.view s) := by
  obtain ⟨s1, h1, -, h3, h4⟩ := W.delete s h i _ hv ht hd
  refine ⟨s1, Links.delete_ok h4, h1, fun hg hu s2 ho => ?_⟩
  rcases W.create s1 h1 hg [] with ⟨e, k1⟩ | ⟨j, s', k1, k2, -, k4, k5⟩
  · rw [Links.create_err k1] at ho; cases ho
  · rw [Links.create_ok k5] at ho
    obtain ⟨rfl, rfl⟩ : j = i ∧ s' = s2 := by cases ho; exact ⟨rfl, rfl⟩
    have e : D.view s' = (D.view s).set j (0, 0) := by
      rw [k4, h3]; funext k; simp only [View.set, View.del]; split <;> rfl
    have hi : D.view s' j = some (0, 0) := by rw [e, View.set, if_pos rfl]
    obtain ⟨s3, _, -, l2, -, l4, l5⟩ := W.update s' k2 j _ hi (fun p hp hne => by rw [hi] at hp; cases hp; exact absurd rfl hne)
      j a b (e ▸ hu)
    refine ⟨s3, Links.update_ok l5, l2, ?_⟩
    rw [l4, e]
    funext k
    simp only [View.set]
    split
    · next e => rw [e, hv]
    · rfl
end

end Verif
