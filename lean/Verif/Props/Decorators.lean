import Verif.DecoratorLaws
import Verif.Props.UnitDerived
import Verif.Split.Example

/-!
# Properties C41–C44: the decorators

The theorems hold over every lawful store `D` (`Lawful` in `Spec.lean`): the united store and the split store are lawful
on their reachable states (`Unit.reachLawful`, `Split.reachLawful`). `D.view` of a decorated store is that of the wrapped
store, because lookups are forwarded. A decorator may call the handler several times, so besides `Succeeds` (one call)
there is `SucceedsIn call s'`: whatever the handler, the call returns Ok and leaves the store in state `s'`.
-/

namespace Verif.Deco.Props
open Verif Verif.Links

variable {S : Type} {D : Links S} (W : Lawful D) {s : S}

/-! ## C41: unique doublets -/

/-- **C41**, `UniqueValidator` (partial: ends that are null or the wildcard are excluded). In a store with unique
doublets, `update(i, a, b)` either fails and changes nothing, or sets link `i` to (a, b), and then no link was
(a, b) before, and doublets are still unique. If some link is (a, b), the update fails with AlreadyExists. -/
theorem C41_unique_validator_partial (hs : W.Inv s) (hu : (D.view s).Uniq) {i a b : Nat} (ha : a ≠ 0)
    (ha' : a ≠ (D.consts s).any) (hb : b ≠ 0) (hb' : b ≠ (D.consts s).any) (hcan : W.CanUpdate (D.view s) i a b) :
    ((∃ e, Fails (fun _ h st => (uniqueValidator D).updateWith (ρ := Unit) s i a b h st) s e) ∨
      ∃ s' before, W.Inv s' ∧ before.index = i ∧
        Succeeds (fun _ h st => (uniqueValidator D).updateWith (ρ := Unit) s i a b h st) s' before ⟨i, a, b⟩ ∧
        (∀ j, D.view s j ≠ some (a, b)) ∧ D.view s' = (D.view s).set i (a, b) ∧ (D.view s').Uniq) ∧
    ((∃ j, D.view s j = some (a, b)) →
      Fails (fun _ h st => (uniqueValidator D).updateWith (ρ := Unit) s i a b h st) s (.alreadyExists a b)) := by
  obtain ⟨f, hf, hf'⟩ := found_pair W hs ha ha' hb hb'
  cases f with
  | true =>
    have hF := uniqueValidator_found (i := i) (x := i) hf
    exact ⟨.inl ⟨_, fun σ h st => updateByWith_err hF h st⟩, fun _ σ h st => updateByWith_err hF h st⟩
  | false =>
    have hno : ∀ j, D.view s j ≠ some (a, b) := fun j hj => by cases hf' ⟨j, hj⟩
    refine ⟨?_, fun ⟨j, hj⟩ => absurd hj (hno j)⟩
    cases hv : D.view s i with
    | none =>
      refine .inl ⟨.notExists i, fun σ h st => updateByWith_err (D := uniqueValidator D) ?_ h st⟩
      intro σ h st
      show (uniqueValidator D).updateLinks s [i] [i, a, b] h st = _
      rw [uniqueValidator_not_found hf]
      exact updateByWith_err (W.update_missing s hs i hv i a b) h st
    | some p =>
      obtain ⟨s', before, h1, h2, h3, h4, h5⟩ := W.update s hs i p hv (hu i) i a b hcan
      refine .inr ⟨s', before, h2, h1, fun σ h st => updateByWith_ok (D := uniqueValidator D) ?_ h st, hno, h4, ?_⟩
      · intro σ h st
        show (uniqueValidator D).updateLinks s [i] [i, a, b] h st = _
        rw [uniqueValidator_not_found hf]
        exact updateByWith_ok h5 h st
      · rw [h4]; exact hu.set fun j _ => hno j

/-- **C41**, `UniqueResolver` (partial: ends that are null or the wildcard, and the link's own current doublet, are
excluded). In a store with unique doublets, updating a live link `i` to a doublet it does not have succeeds and keeps
doublets unique: if no link is (a, b), link `i` becomes (a, b); if link `old` is (a, b), link `i` is deleted and `old`
is returned in its place. Nothing else changes. -/
theorem C41_unique_resolver_partial (hs : W.Inv s) (hu : (D.view s).Uniq) {i a b : Nat} {p : Nat × Nat}
    (hv : D.view s i = some p) (hne : p ≠ (a, b)) (ha : a ≠ 0) (ha' : a ≠ (D.consts s).any) (hb : b ≠ 0)
    (hb' : b ≠ (D.consts s).any) (hcan : W.CanUpdate (D.view s) i a b)
    (hcan' : ∀ old, D.view s old = some (a, b) → W.CanUpdate ((D.view s).del i) old a b) :
    ∃ s' r, W.Inv s' ∧ (D.view s').Uniq ∧ D.view s' r = some (a, b) ∧
      (uniqueResolver D).update s i a b = some ⟨.ok r, s', ()⟩ ∧
      SucceedsIn (fun _ h st => (uniqueResolver D).updateWith (ρ := Unit) s i a b h st) s' ∧
      ((∀ j, D.view s j ≠ some (a, b)) → r = i ∧ D.view s' = (D.view s).set i (a, b)) ∧
      (∀ old, D.view s old = some (a, b) → r = old ∧ D.view s' = (D.view s).del i) := by
  rcases search_law W hs ha ha' hb hb' with ⟨h1, h2⟩ | ⟨old, h1, h2⟩
  · obtain ⟨s', before, k1, k2, k3, k4, k5⟩ := W.update s hs i p hv (hu i) i a b hcan
    have hS : Succeeds (fun _ h st => (uniqueResolver D).updateLinks s [i] [i, a, b] h st) s' before ⟨i, a, b⟩ := by
      intro σ h st
      simp only [uniqueResolver, List.getElem?_cons_zero, List.getElem?_cons_succ, h1, Option.bind_some]
      exact updateByWith_ok k5 h st
    refine ⟨s', i, k2, ?_, by rw [k4, View.set_same], update_ok hS, ?_, fun _ => ⟨rfl, k4⟩,
      fun old ho => absurd ho (h2 old)⟩
    · rw [k4]; exact hu.set fun j _ => h2 j
    · intro σ h st
      exact ⟨_, _, updateByWith_ok hS h st⟩
  · have hoi : old ≠ i := by rintro rfl; rw [hv] at h2; cases h2; exact hne rfl
    obtain ⟨s1, k1, k2, k3, k4⟩ := W.delete s hs i p hv (hu i) (W.canDelete_uniq _ _ hu)
    have hv1 : D.view s1 old = some (a, b) := by rw [k3, View.del_other _ hoi, h2]
    obtain ⟨s', before, q1, q2, q3, q4, q5⟩ := W.update s1 k1 old (a, b) hv1 (by rw [k3]; exact hu.del i old) old a b
      (by rw [k3]; exact hcan' old h2)
    have hvs : D.view s' = (D.view s).del i := by
      rw [q4, k3]
      funext k
      by_cases hk : k = old
      · subst hk; rw [View.set_same, View.del_other _ hoi, h2]
      · rw [View.set_other _ _ hk]
    have hcall : ∀ {σ : Type} (h : WH σ) (st : σ),
        (uniqueResolver D).updateLinks s [i] [i, a, b] h st =
          let st1 := (h st ⟨i, p.1, p.2⟩ Link.nothing).2
          some ⟨.ok (h st1 before ⟨old, a, b⟩).1, s', (h st1 before ⟨old, a, b⟩).2⟩ := by
      intro σ h st
      simp only [uniqueResolver, List.getElem?_cons_zero, List.getElem?_cons_succ, h1, Option.bind_some,
        deleteWith, deleteByWith_ok k4, updateWith, updateByWith_ok q5]
    refine ⟨s', old, q2, by rw [hvs]; exact hu.del i, by rw [hvs, View.del_other _ hoi, h2], ?_, ?_,
      fun hno => absurd h2 (hno old), fun old' ho => ⟨hu old (a, b) h2 (by simp [ha]) old' ho ▸ rfl, hvs⟩⟩
    · simp [update, updateBy, updateByWith, hcall, unwrapW, wrapW, keepIndex, resultIndex, Except.map]
    · intro σ h st
      simp only [updateWith, updateByWith, hcall, Option.map_some, unwrapW]
      exact ⟨_, _, rfl⟩

/-- **C41** is false of `UniqueResolver` when a link is updated to the doublet it already has: over every lawful store
with unique doublets, the link is deleted and the call then fails with NotExists. -/
theorem C41_unique_resolver_deletes_an_unchanged_link (hs : W.Inv s) (hu : (D.view s).Uniq) {i a b : Nat}
    (hv : D.view s i = some (a, b)) (ha : a ≠ 0) (ha' : a ≠ (D.consts s).any) (hb : b ≠ 0)
    (hb' : b ≠ (D.consts s).any) :
    ∃ s', W.Inv s' ∧ (uniqueResolver D).update s i a b = some ⟨.error (.notExists i), s', ()⟩ ∧
      D.view s' = (D.view s).del i := by
  rcases search_law W hs ha ha' hb hb' with ⟨h1, h2⟩ | ⟨old, h1, h2⟩
  · exact absurd hv (h2 i)
  · have hoi : old = i := hu i (a, b) hv (by simp [ha]) old h2
    subst hoi
    obtain ⟨s1, k1, k2, k3, k4⟩ := W.delete s hs old (a, b) hv (hu old) (W.canDelete_uniq _ _ hu)
    refine ⟨s1, k1, ?_, k3⟩
    have hm := W.update_missing s1 k1 old (by rw [k3, View.del_same]) old a b
    simp only [update, updateBy, updateByWith, uniqueResolver, List.getElem?_cons_zero, List.getElem?_cons_succ, h1,
      Option.bind_some, deleteWith, deleteByWith_ok k4, updateWith]
    have he := fun (σ : Type) (h : WH σ) (st : σ) => updateByWith_err hm h st
    simp only [updateByWith] at he
    rw [he]
    simp [unwrapW, resultIndex, Except.map]

/-- **C41**, `UniqueResolver`: updating an index that names no link fails with NotExists
and changes nothing. -/
theorem C41_unique_resolver_missing (hs : W.Inv s) {i a b : Nat} (hv : D.view s i = none) (ha : a ≠ 0)
    (ha' : a ≠ (D.consts s).any) (hb : b ≠ 0) (hb' : b ≠ (D.consts s).any) :
    Fails (fun _ h st => (uniqueResolver D).updateWith (ρ := Unit) s i a b h st) s (.notExists i) := by
  intro σ h st
  refine updateByWith_err (D := uniqueResolver D) ?_ h st
  intro σ h st
  rcases search_law W hs ha ha' hb hb' with ⟨h1, h2⟩ | ⟨old, h1, h2⟩
  · simp only [uniqueResolver, List.getElem?_cons_zero, List.getElem?_cons_succ, h1, Option.bind_some]
    exact updateByWith_err (W.update_missing s hs i hv i a b) h st
  · simp only [uniqueResolver, List.getElem?_cons_zero, List.getElem?_cons_succ, h1, Option.bind_some,
      deleteWith, deleteByWith_err (W.delete_missing s hs i hv)]

/-- **C41**, `CascadeUniqueResolver`, new doublet (partial: ends that are null or the wildcard are excluded). If no link
is (a, b), the update sets link `i` to (a, b), as on the wrapped store, and keeps doublets unique. -/
theorem C41_cascade_unique_resolver_new_doublet_partial (hs : W.Inv s) (hu : (D.view s).Uniq) {i a b : Nat}
    {p : Nat × Nat} (hv : D.view s i = some p) (hno : ∀ j, D.view s j ≠ some (a, b)) (ha : a ≠ 0)
    (ha' : a ≠ (D.consts s).any) (hb : b ≠ 0) (hb' : b ≠ (D.consts s).any) (hcan : W.CanUpdate (D.view s) i a b) :
    ∃ s' before, W.Inv s' ∧ before.index = i ∧ (D.view s').Uniq ∧ D.view s' = (D.view s).set i (a, b) ∧
      Succeeds (fun _ h st => (cascadeUniqueResolver D).updateWith (ρ := Unit) s i a b h st) s' before ⟨i, a, b⟩ := by
  rcases search_law W hs ha ha' hb hb' with ⟨h1, h2⟩ | ⟨old, h1, h2⟩
  · obtain ⟨s', before, k1, k2, k3, k4, k5⟩ := W.update s hs i p hv (hu i) i a b hcan
    refine ⟨s', before, k2, k1, by rw [k4]; exact hu.set fun j _ => h2 j, k4, fun σ h st =>
      updateByWith_ok (D := cascadeUniqueResolver D) ?_ h st⟩
    intro σ h st
    simp only [cascadeUniqueResolver, List.getElem?_cons_zero, List.getElem?_cons_succ, h1, Option.bind_some]
    exact updateByWith_ok k5 h st
  · exact absurd h2 (hno old)

/-- **C41** is false of `CascadeUniqueResolver` in the same way: updating a link to its own doublet deletes it. -/
theorem C41_cascade_unique_resolver_deletes_an_unchanged_link (hs : W.Inv s) (hu : (D.view s).Uniq) {i a b : Nat}
    (hv : D.view s i = some (a, b)) (ha : a ≠ 0) (ha' : a ≠ (D.consts s).any) (hb : b ≠ 0)
    (hb' : b ≠ (D.consts s).any) :
    ∃ s', W.Inv s' ∧ (cascadeUniqueResolver D).update s i a b = some ⟨.error (.notExists i), s', ()⟩ ∧
      D.view s' = (D.view s).del i := by
  rcases search_law W hs ha ha' hb hb' with ⟨h1, h2⟩ | ⟨old, h1, h2⟩
  · exact absurd hv (h2 i)
  · have hoi : old = i := hu i (a, b) hv (by simp [ha]) old h2
    subst hoi
    obtain ⟨s1, k1, k2, k3, k4⟩ := W.delete s hs old (a, b) hv (hu old) (W.canDelete_uniq _ _ hu)
    refine ⟨s1, k1, ?_, k3⟩
    have hm := W.update_missing s1 k1 old (by rw [k3, View.del_same]) old a b
    have hr : ∀ {σ : Type} (h : WH σ) (st : σ), D.rebaseWith s old old h st = some ⟨.ok (), s, st⟩ := by
      intro σ h st
      simp [rebaseWith, tryGetLink, W.get s hs, hv]
    simp only [update, updateBy, updateByWith, cascadeUniqueResolver, List.getElem?_cons_zero,
      List.getElem?_cons_succ, h1, Option.bind_some, hr, deleteWith, deleteByWith_ok k4, updateWith]
    have he := fun (σ : Type) (h : WH σ) (st : σ) => updateByWith_err hm h st
    simp only [updateByWith] at he
    rw [he]
    simp [unwrapW, resultIndex, Except.map]

/-- **C41**, `CascadeUniqueResolver` (partial: besides the exclusions above, no link other than `i` may have `i` at both
ends, and replacing `i` by `old` in the links that use `i` may not make two links equal). Updating link `i` to the doublet of another link `old` succeeds,
replaces `i` by `old` in every other link, deletes `i`, and keeps doublets unique. -/
theorem C41_cascade_unique_resolver_partial (hs : W.Inv s) (hu : (D.view s).Uniq) {i old a b : Nat} {p : Nat × Nat}
    (hv : D.view s i = some p) (hold : D.view s old = some (a, b)) (hne : old ≠ i) (ha : a ≠ 0)
    (ha' : a ≠ (D.consts s).any) (hb : b ≠ 0) (hb' : b ≠ (D.consts s).any)
    (hd : ∀ j, D.view s j = some (i, i) → j = i)
    (hu' : View.Uniq fun k => if k = i then D.view s k else (D.view s k).map (substPair i old))
    (hcan : ∀ (w : View) j x y, D.view s j = some (x, y) → j ≠ i → (x = i ∨ y = i) → w j = D.view s j →
      W.CanUpdate w j (substPair i old (x, y)).1 (substPair i old (x, y)).2)
    (hcan' : ∀ w : View, w old = some (substPair i old (a, b)) → W.CanUpdate w old a b) :
    ∃ s', W.Inv s' ∧ (D.view s').Uniq ∧
      (cascadeUniqueResolver D).update s i a b = some ⟨.ok old, s', ()⟩ ∧
      SucceedsIn (fun _ h st => (cascadeUniqueResolver D).updateWith (ρ := Unit) s i a b h st) s' ∧
      ∀ k, D.view s' k = if k = i then none else if k = old then some (a, b)
        else (D.view s k).map (substPair i old) := by
  have h2 : D.search s a b = some (some old) := by
    rcases search_law W hs ha ha' hb hb' with ⟨h1, h2⟩ | ⟨old', h1, h2⟩
    · exact absurd hold (h2 old)
    · rw [h1, hu old (a, b) hold (by simp [ha]) old' h2]
  obtain ⟨s1, r1, r2, r3⟩ := rebaseWith_law W hs hv (fun e => hne e.symm) hd (fun j _ _ _ _ _ => hu j)
    hcan
  have hv1 : D.view s1 i = some p := by rw [r2]; simp [hv]
  have hu1 : (D.view s1).Uniq := by rw [r2]; exact hu'
  obtain ⟨s2, k1, k2, k3, k4⟩ := W.delete s1 r1 i p hv1 (hu1 i) (W.canDelete_uniq _ _ hu1)
  have hv2 : D.view s2 old = some (substPair i old (a, b)) := by
    rw [k3, View.del_other _ hne, r2]; simp [hne, hold]
  obtain ⟨s', before, q1, q2, q3, q4, q5⟩ := W.update s2 k1 old _ hv2 (by rw [k3]; exact hu1.del i old) old a b
    (hcan' _ hv2)
  have hvs : ∀ k, D.view s' k = if k = i then none else if k = old then some (a, b)
        else (D.view s k).map (substPair i old) := by
    intro k
    rw [q4, k3, r2]
    simp only [View.set, View.del]
    by_cases hk : k = i
    · subst hk; simp [Ne.symm hne]
    · simp [hk]
  refine ⟨s', q2, ?_, ?_, ?_, hvs⟩
  · rw [q4]
    refine (View.Uniq.del hu1 i |> fun h => by rw [k3]; exact h : (D.view s2).Uniq).set ?_
    intro j hj hjab
    rw [k3] at hjab
    by_cases hji : j = i
    · subst hji; rw [View.del_same] at hjab; cases hjab
    · rw [View.del_other _ hji] at hjab
      by_cases hi : a = i ∨ b = i
      · rw [r2] at hjab
        simp only [hji, if_false, Option.map_eq_some_iff] at hjab
        obtain ⟨q, -, hq⟩ := hjab
        simp only [substPair, Prod.mk.injEq] at hq
        rcases hi with rfl | rfl
        · have := hq.1
          split at this
          · exact hne this
          · next hh => exact hh this
        · have := hq.2
          split at this
          · exact hne this
          · next hh => exact hh this
      · have hai : a ≠ i := fun e => hi (.inl e)
        have hbi : b ≠ i := fun e => hi (.inr e)
        have : D.view s1 old = some (a, b) := by rw [r2]; simp [hne, hold, substPair, hai, hbi]
        exact hj (hu1 old (a, b) this (by simp [ha]) j hjab)
  · obtain ⟨st', e1⟩ := r3 (wrapW keepIndex) (0, (.cont : Ctl Unit))
    simp only [update, updateBy, updateByWith, cascadeUniqueResolver, List.getElem?_cons_zero,
      List.getElem?_cons_succ, h2, Option.bind_some, e1, deleteWith, deleteByWith_ok k4]
    have he := fun (σ : Type) (h : WH σ) (st : σ) => updateByWith_ok q5 h st
    simp only [updateWith, he]
    simp [unwrapW, wrapW, keepIndex, resultIndex, Except.map]
  · intro σ h st
    obtain ⟨st', e1⟩ := r3 (wrapW h) (st, (.cont : Ctl Unit))
    simp only [updateWith, updateByWith, cascadeUniqueResolver, List.getElem?_cons_zero,
      List.getElem?_cons_succ, h2, Option.bind_some, e1, deleteWith, deleteByWith_ok k4]
    have he := fun (σ : Type) (h : WH σ) (st : σ) => updateByWith_ok q5 h st
    simp only [updateByWith] at he
    simp only [he, Option.map_some, unwrapW]
    exact ⟨_, _, rfl⟩

/-! ## C42: used links are protected -/

/-- **C42**, deletion. Whenever `delete(i)` through `UsagesValidator` returns: if `i` names no link the answer is
NotExists; if other links refer to `i` the answer is HasUsages with exactly these links; in both cases nothing
changes and the handler is not called. Otherwise the call is the wrapped store's own `delete(i)`. -/
theorem C42_usages_validator_delete (hs : W.Inv s) (hix : (D.consts s).indexPart = 0) (i : Nat) {σ : Type} (h : WH σ)
    (st : σ) {o : Out S σ Flow} (ho : (usagesValidator D).deleteLinks s [i] h st = some o) :
    (D.view s i = none → o = ⟨.error (.notExists i), s, st⟩) ∧
    (D.view s i ≠ none → (∃ j, (D.view s).Uses i j) → ∃ ls, o = ⟨.error (.hasUsages ls), s, st⟩ ∧
      ∀ l, l ∈ ls ↔ (D.view s).Has l ∧ l.index ≠ i ∧ (l.source = i ∨ l.target = i)) ∧
    (D.view s i ≠ none → (∀ j, ¬ (D.view s).Uses i j) → D.deleteWith (ρ := Unit) s i h st = some o) := by
  rcases checkUsages_law W hs hix i st ho with ⟨h1, h2⟩ | ⟨h1, h2, h3⟩ | ⟨h1, ⟨j, hj⟩, h3⟩
  · exact ⟨fun _ => h2, fun h => absurd h1 h, fun h => absurd h1 h⟩
  · exact ⟨fun h => absurd h h1, fun _ ⟨j, hj⟩ => absurd hj (h2 j), fun _ _ => h3⟩
  · exact ⟨fun h => absurd h h1, fun _ _ => h3, fun _ h => absurd hj (h j)⟩

/-- **C42**, update: the same for `update(i, a, b)`. -/
theorem C42_usages_validator_update (hs : W.Inv s) (hix : (D.consts s).indexPart = 0) (i a b : Nat) {σ : Type}
    (h : WH σ) (st : σ) {o : Out S σ Flow} (ho : (usagesValidator D).updateLinks s [i] [i, a, b] h st = some o) :
    (D.view s i = none → o = ⟨.error (.notExists i), s, st⟩) ∧
    (D.view s i ≠ none → (∃ j, (D.view s).Uses i j) → ∃ ls, o = ⟨.error (.hasUsages ls), s, st⟩ ∧
      ∀ l, l ∈ ls ↔ (D.view s).Has l ∧ l.index ≠ i ∧ (l.source = i ∨ l.target = i)) ∧
    (D.view s i ≠ none → (∀ j, ¬ (D.view s).Uses i j) → D.updateWith (ρ := Unit) s i a b h st = some o) := by
  rcases checkUsages_law W hs hix i st ho with ⟨h1, h2⟩ | ⟨h1, h2, h3⟩ | ⟨h1, ⟨j, hj⟩, h3⟩
  · exact ⟨fun _ => h2, fun h => absurd h1 h, fun h => absurd h1 h⟩
  · exact ⟨fun h => absurd h h1, fun _ ⟨j, hj⟩ => absurd hj (h2 j), fun _ _ => h3⟩
  · exact ⟨fun h => absurd h h1, fun _ _ => h3, fun _ h => absurd hj (h j)⟩

/-- Every non-null end of every link names a link. -/
def Closed (v : View) : Prop := ∀ j a b, v j = some (a, b) → (a ≠ 0 → v a ≠ none) ∧ (b ≠ 0 → v b ≠ none)

/-- **C42**, consequence: deletion through `UsagesValidator` never makes a reference dangle. -/
theorem C42_no_dangling_references (hs : W.Inv s) (hix : (D.consts s).indexPart = 0) (hcl : Closed (D.view s)) (i : Nat)
    (ht : (D.view s).NoTwin i) (hcd : W.CanDelete (D.view s) i) {σ : Type} (h : WH σ)
    (st : σ) {o : Out S σ Flow} (ho : (usagesValidator D).deleteLinks s [i] h st = some o) :
    Closed (D.view o.st) ∧ ((∃ r, o.res = .ok r) → D.view o.st = (D.view s).del i) := by
  rcases checkUsages_law W hs hix i st ho with ⟨h1, rfl⟩ | ⟨h1, h2, h3⟩ | ⟨h1, -, ls, rfl, -⟩
  · exact ⟨hcl, fun ⟨r, hr⟩ => by cases hr⟩
  · cases hv : D.view s i with
    | none => exact absurd hv h1
    | some p =>
      obtain ⟨s', k1, k2, k3, k4⟩ := W.delete s hs i p hv ht hcd
      rw [deleteByWith_ok k4] at h3
      cases h3
      refine ⟨?_, fun _ => k3⟩
      intro j a b hj
      show (a ≠ 0 → D.view s' a ≠ none) ∧ (b ≠ 0 → D.view s' b ≠ none)
      have hj : D.view s' j = some (a, b) := hj
      rw [k3] at hj ⊢
      have hji : j ≠ i := by rintro rfl; rw [View.del_same] at hj; cases hj
      rw [View.del_other _ hji] at hj
      have hai : a ≠ i := fun e => h2 j ⟨hji, a, b, hj, .inl e⟩
      have hbi : b ≠ i := fun e => h2 j ⟨hji, a, b, hj, .inr e⟩
      rw [View.del_other _ hai, View.del_other _ hbi]
      exact hcl j a b hj
  · exact ⟨hcl, fun ⟨r, hr⟩ => by cases hr⟩

/-! ## C43: users are deleted with the link -/

/-- **C43** (partial: doublets must be unique and no link other than `i` may have `i` at both ends). Deleting a live
link `i` through `CascadeUsagesResolver` succeeds and removes `i` and the links that refer to it, nothing else; no
remaining link refers to `i`. The handler is called once for each removed link, with `i` last. -/
theorem C43_cascade_usages_resolver_partial (hs : W.Inv s) (hu : (D.view s).Uniq) {i : Nat} {p : Nat × Nat}
    (hv : D.view s i = some p) (hd : ∀ j, D.view s j = some (i, i) → j = i) :
    ∃ (s' : S) (L : List Link), W.Inv s' ∧ L.Nodup ∧
      (∀ l, l ∈ L ↔ (D.view s).Has l ∧ l.index ≠ i ∧ (l.source = i ∨ l.target = i)) ∧
      (∀ k, (k = i ∨ (D.view s).Uses i k) → D.view s' k = none) ∧
      (∀ k, ¬ (k = i ∨ (D.view s).Uses i k) → D.view s' k = D.view s k) ∧
      (∀ k a b, D.view s' k = some (a, b) → a ≠ i ∧ b ≠ i) ∧
      ∀ {σ : Type} (h : WH σ) (st : σ), ∃ r, (cascadeUsagesResolver D).deleteLinks s [i] h st =
        some ⟨.ok r, s', callAll h ((L ++ [(⟨i, p.1, p.2⟩ : Link)]).map fun l => (l, Link.nothing)) st⟩ := by
  obtain ⟨s1, L, h1, h2, h3, h4, h5⟩ := deleteUsagesWith_law W hs hv hd (fun j _ _ _ _ _ => hu j)
    fun j _ _ _ _ _ => W.canDelete_uniq _ _ hu
  have hmem : ∀ k, k ∈ L.map (·.index) ↔ (D.view s).Uses i k := by
    intro k
    rw [List.mem_map]
    constructor
    · rintro ⟨l, hl, rfl⟩
      obtain ⟨k1, k2, k3⟩ := (h3 l).1 hl
      exact ⟨k2, _, _, k1, k3⟩
    · rintro ⟨k1, a, b, k2, k3⟩
      exact ⟨⟨k, a, b⟩, (h3 _).2 ⟨k2, k1, k3⟩, rfl⟩
  have hi : i ∉ L.map (·.index) := fun h => ((hmem i).1 h).1 rfl
  have hv1 : D.view s1 i = some p := by rw [h4]; simp only [if_neg hi, hv]
  have hu1 : (D.view s1).Uniq := by
    intro k q hk hq j hj
    rw [h4] at hk hj
    simp only at hk hj
    split at hk
    · cases hk
    · split at hj
      · cases hj
      · exact hu k q hk hq j hj
  obtain ⟨s', k1, k2, k3, k4⟩ := W.delete s1 h1 i p hv1 (hu1 i) (W.canDelete_uniq _ _ hu1)
  have hin : ∀ k, ¬ (k = i ∨ (D.view s).Uses i k) → D.view s' k = D.view s k := by
    intro k hk
    rw [k3, View.del_other _ (fun e => hk (.inl e)), h4]
    exact if_neg fun h => hk (.inr ((hmem k).1 h))
  have hout : ∀ k, (k = i ∨ (D.view s).Uses i k) → D.view s' k = none := by
    intro k hk
    rcases hk with rfl | hk
    · rw [k3, View.del_same]
    · rw [k3, View.del_other _ hk.1, h4]
      exact if_pos ((hmem k).2 hk)
  refine ⟨s', L, k1, h2, h3, hout, hin, ?_, ?_⟩
  · intro k a b hk
    by_cases hku : k = i ∨ (D.view s).Uses i k
    · rw [hout k hku] at hk; cases hk
    · rw [hin k hku] at hk
      exact ⟨fun e => hku (.inr ⟨fun e => hku (.inl e), a, b, hk, .inl e⟩),
        fun e => hku (.inr ⟨fun e => hku (.inl e), a, b, hk, .inr e⟩)⟩
  · intro σ h st
    simp only [cascadeUsagesResolver, List.getElem?_cons_zero, h5 (ρ := Unit), Option.bind_some,
      deleteByWith_ok k4]
    exact ⟨_, by simp only [callAll, List.map_append, List.map_cons, List.map_nil, List.foldl_append,
      List.foldl_cons, List.foldl_nil]; rfl⟩

/-! ## C44: reset before deletion -/

/-- **C44**. Deleting a live link through `NonNullDeletionResolver` first reports the link as (null, null), then its
removal; the links afterwards are those after a plain delete. -/
theorem C44_non_null_deletion (hs : W.Inv s) {i : Nat} {p : Nat × Nat} (hnull : (D.consts s).null = 0)
    (hv : D.view s i = some p) (ht : (D.view s).NoTwin i) (hcan : W.CanUpdate (D.view s) i 0 0)
    (hcd : W.CanDelete ((D.view s).set i (0, 0)) i) :
    ∃ s' before, W.Inv s' ∧ before.index = i ∧ D.view s' = (D.view s).del i ∧
      ∀ {σ : Type} (h : WH σ) (st : σ),
        (nonNullDeletionResolver D).deleteLinks s [i] h st =
          let st1 := (h st before ⟨i, 0, 0⟩).2
          some ⟨.ok (h st1 ⟨i, 0, 0⟩ Link.nothing).1, s', (h st1 ⟨i, 0, 0⟩ Link.nothing).2⟩ := by
  obtain ⟨s1, before, k1, k2, k3, k4, k5⟩ := W.update s hs i p hv ht i 0 0 hcan
  have hv1 : D.view s1 i = some (0, 0) := by rw [k4, View.set_same]
  obtain ⟨s', q1, q2, q3, q4⟩ := W.delete s1 k2 i (0, 0) hv1 (by rw [k4]; exact noTwin_null)
    (by rw [k4]; exact hcd)
  refine ⟨s', before, q1, k1, ?_, fun h st => ?_⟩
  · rw [q3, k4]; funext k; simp only [View.del, View.set]; split <;> rfl
  · simp only [nonNullDeletionResolver, List.getElem?_cons_zero, hnull, updateByWith_ok k5, Option.bind_some,
      deleteByWith_ok q4]

/-- **C44**, missing links: the deletion fails with NotExists and changes nothing. -/
theorem C44_missing_link (hs : W.Inv s) {i : Nat} (hv : D.view s i = none) :
    Fails (fun _ h st => (nonNullDeletionResolver D).deleteLinks s [i] h st) s (.notExists i) := by
  intro σ h st
  simp only [nonNullDeletionResolver, List.getElem?_cons_zero,
    updateByWith_err (W.update_missing s hs i hv i _ _), Option.bind_some]

/-! ## The decorated united store -/

section United
open Verif.Unit Verif.Unit.Props

variable {c : Cfg}

/-- **C41**, `UniqueValidator` on the united store refuses an update only for the two documented reasons: the
doublet exists, or the link does not. -/
theorem C41_unique_validator_refusals (hc : CfgOK c) {s : Store} (h : Reach c s) {i a b : Nat} (ha : a ≠ 0)
    (ha' : a ≠ c.consts.any) (hb : b ≠ 0) (hb' : b ≠ c.consts.any) (e : Err)
    (hf : Fails (fun _ h st => (uniqueValidator (links c)).updateWith (ρ := _root_.Unit) s i a b h st) s e)
    (ht : ((links c).view s).NoTwin i) :
    (e = .alreadyExists a b ∧ ∃ j, (links c).view s j = some (a, b)) ∨
    (e = .notExists i ∧ (links c).view s i = none) := by
  have hq : NullFree c.consts.any [c.consts.any, a, b] := by
    intro _ x hx; simp at hx; rcases hx with rfl | rfl <;> assumption
  obtain ⟨f, h1, -⟩ := found_pair (reachLawful hc) h ha ha' hb hb'
  obtain ⟨r, -, -, -, h2⟩ := C25_find_and_found hc h (q := [c.consts.any, a, b]) (by simp) hq
  have h2 := h2 f h1
  have hf := hf (_root_.Unit) (fun u _ _ => (.cont, u)) ()
  cases f with
  | true =>
    have hF := updateByWith_err (uniqueValidator_found (i := i) (x := i) h1)
      (fun (u : _root_.Unit) _ _ => ((.cont : Flow), u)) ()
    simp only [updateWith] at hf
    rw [hF] at hf
    cases hf
    obtain ⟨l, hl, -, hm1, hm2⟩ := h2.1 rfl
    refine .inl ⟨rfl, l.index, ?_⟩
    simp only [ha', hb', false_or] at hm1 hm2
    unfold View.Has at hl
    rw [hl, hm1, hm2]
  | false =>
    cases hv : (links c).view s i with
    | none =>
      have hF : Fails (fun _ h st => (uniqueValidator (links c)).updateLinks s [i] [i, a, b] h st) s
          (.notExists i) := by
        intro σ h' st
        show (uniqueValidator (links c)).updateLinks s [i] [i, a, b] h' st = _
        rw [uniqueValidator_not_found h1]
        exact updateByWith_err ((reachLawful hc).update_missing s h i hv i a b) h' st
      have hF := updateByWith_err hF (fun (u : _root_.Unit) _ _ => ((.cont : Flow), u)) ()
      simp only [updateWith] at hf
      rw [hF] at hf
      cases hf
      exact .inr ⟨rfl, rfl⟩
    | some p =>
      obtain ⟨s', before, -, -, -, -, k5⟩ := (reachLawful hc).update s h i p hv ht i a b trivial
      have hS : Succeeds (fun _ h st => (uniqueValidator (links c)).updateLinks s [i] [i, a, b] h st) s' before
          ⟨i, a, b⟩ := by
        intro σ h' st
        show (uniqueValidator (links c)).updateLinks s [i] [i, a, b] h' st = _
        rw [uniqueValidator_not_found h1]
        exact updateByWith_ok k5 h' st
      have hS := updateByWith_ok hS (fun (u : _root_.Unit) _ _ => ((.cont : Flow), u)) ()
      simp only [updateWith] at hf
      rw [hS] at hf
      cases hf

/-- The states of a united store used only through `UniqueValidator`, from the opening on empty memory on, with any
handlers and allocators. Ends that are null or the wildcard are excluded. -/
inductive Validated (c : Cfg) : Store → Prop
  | fresh (a) {s : Store} : GoodAlloc a → init (c.withAlloc a) {} = some (.ok s) → Validated c s
  | create (a) {s : Store} {σ : Type} {h : WH σ} {st : σ} {o : Out Store σ Flow} : Validated c s → GoodAlloc a →
      (uniqueValidator (links (c.withAlloc a))).createWith s h st = some o → Validated c o.st
  | update {s : Store} {i x y : Nat} {σ : Type} {h : WH σ} {st : σ} {o : Out Store σ Flow} : Validated c s →
      x ≠ 0 → x ≠ c.consts.any → y ≠ 0 → y ≠ c.consts.any →
      (uniqueValidator (links c)).updateWith s i x y h st = some o → Validated c o.st
  | delete {s : Store} {i : Nat} {σ : Type} {h : WH σ} {st : σ} {o : Out Store σ Flow} : Validated c s →
      (uniqueValidator (links c)).deleteWith s i h st = some o → Validated c o.st

/-- **C41**, histories: a united store used only through `UniqueValidator` (null and wildcard ends excluded) always has
unique doublets, and is in a reachable state, so everything proved of those applies to it. -/
theorem C41_unique_through_every_history_partial (hc : CfgOK c) {s : Store} (h : Validated c s) :
    Reach c s ∧ ((links c).view s).Uniq := by
  induction h with
  | @fresh a s ha hi =>
    refine ⟨.fresh a ha hi, ?_⟩
    obtain ⟨h1, h2⟩ := init_fresh (hc.withAlloc ha) hi
    intro i p hp
    have hr := C04_highest_slot_is_live hc (.fresh a ha hi)
    have h0 : (links c).view s i = none := by
      by_cases h0 : i = 0
      · subst h0; exact (reachLawful hc).null _ (.fresh a ha hi)
      · exact hr.2 i (by omega)
    rw [h0] at hp; cases hp
  | @create a s σ hd st o hs ha ho ih =>
    obtain ⟨hr, hu⟩ := ih
    obtain ⟨free, ts, tt, hi⟩ := reach_good hc hr
    have ho' : (links (c.withAlloc a)).createByWith (ρ := _root_.Unit) s [] hd st = some o := ho
    rcases create_cases (hc.withAlloc ha) (hi.withAlloc a) [] with ⟨x, rest, s', -, -, -, -, -, hS, -, hv⟩ |
      ⟨-, -, hF⟩ | ⟨-, -, -, hF⟩ | ⟨-, -, -, hN⟩ | ⟨-, -, s', -, -, hS, -, hv⟩
    · rw [createByWith_ok (D := links (c.withAlloc a)) hS] at ho'; cases ho'
      refine ⟨.create (q := []) a hr ha (hS _ hd st), ?_⟩
      show ((links (c.withAlloc a)).view s').Uniq
      rw [hv]; exact View.Uniq.set_null (v := (links c).view s) hu _
    · rw [createByWith_err (D := links (c.withAlloc a)) hF] at ho'; cases ho'
      exact ⟨hr, hu⟩
    · rw [createByWith_err (D := links (c.withAlloc a)) hF] at ho'; cases ho'
      exact ⟨hr, hu⟩
    · have : (links (c.withAlloc a)).createByWith (ρ := _root_.Unit) s [] hd st = none := by
        show (createLinks (c.withAlloc a) s [] _ _).map _ = none
        rw [hN]; rfl
      rw [this] at ho'; cases ho'
    · rw [createByWith_ok (D := links (c.withAlloc a)) hS] at ho'; cases ho'
      refine ⟨.create (q := []) a hr ha (hS _ hd st), ?_⟩
      show ((links (c.withAlloc a)).view s').Uniq
      rw [hv]; exact View.Uniq.set_null (v := (links c).view s) hu _
  | @update s i x y σ hd st o hs hx hx' hy hy' ho ih =>
    obtain ⟨hr, hu⟩ := ih
    rcases (C41_unique_validator_partial (reachLawful hc) hr hu hx hx' hy hy' (i := i) trivial).1 with
      ⟨e, hF⟩ | ⟨s', before, h1, -, h2, -, -, h3⟩
    · cases ho.symm.trans (hF σ hd st); exact ⟨hr, hu⟩
    · cases ho.symm.trans (h2 σ hd st); exact ⟨h1, h3⟩
  | @delete s i σ hd st o hs ho ih =>
    obtain ⟨hr, hu⟩ := ih
    have ho' : (links c).deleteByWith (ρ := _root_.Unit) s [i] hd st = some o := ho
    cases hv : (links c).view s i with
    | none =>
      rw [deleteByWith_err ((reachLawful hc).delete_missing s hr i hv)] at ho'; cases ho'
      exact ⟨hr, hu⟩
    | some p =>
      obtain ⟨s', k1, -, k3, k4⟩ := (reachLawful hc).delete s hr i p hv (hu i) trivial
      rw [deleteByWith_ok k4] at ho'; cases ho'
      exact ⟨k1, by rw [k3]; exact hu.del i⟩

/-- Run calls through a decorated store; `none` if one panics or fails. -/
def execD (D : Links Store) : List Call → Store → Option Store
  | [], s => some s
  | k :: ks, s =>
    (match k with
      | .create => D.create s
      | .update i x y => D.update s i x y
      | .delete i => D.delete s i).bind fun o =>
    match o.res with
    | .error _ => none
    | .ok _ => execD D ks o.st

/-- No end of an update is null or the wildcard. -/
def endsOK (any : Nat) : Call → Bool
  | .update _ x y => x != 0 && x != any && y != 0 && y != any
  | _ => true

theorem validated_exec : ∀ (ks : List Call) {s s' : Store}, Validated cfg0 s →
    ks.all (endsOK cfg0.consts.any) = true → execD (uniqueValidator (links cfg0)) ks s = some s' →
    Validated cfg0 s' := by
  intro ks
  induction ks with
  | nil => intro s s' h _ he; cases he; exact h
  | cons k ks ih =>
    intro s s' h hok he
    rw [List.all_cons, Bool.and_eq_true] at hok
    simp only [execD, Option.bind_eq_some_iff] at he
    obtain ⟨o, ho, he⟩ := he
    have hv : Validated cfg0 o.st := by
      cases k with
      | create =>
        simp only [create, createBy, Option.map_eq_some_iff] at ho
        obtain ⟨o', ho', rfl⟩ := ho
        exact .create (h := keepIndex) (st := 0) cfg0.alloc h alloc0_good ho'
      | update i x y =>
        simp only [update, updateBy, Option.map_eq_some_iff] at ho
        obtain ⟨o', ho', rfl⟩ := ho
        have hok := hok.1
        simp only [endsOK, Bool.and_eq_true, bne_iff_ne] at hok
        exact .update (h := keepIndex) (st := 0) h hok.1.1.1 hok.1.1.2 hok.1.2 hok.2 ho'
      | delete i =>
        simp only [delete, deleteBy, Option.map_eq_some_iff] at ho
        obtain ⟨o', ho', rfl⟩ := ho
        exact .delete (h := keepIndex) (st := 0) h ho'
    split at he
    · cases he
    · exact ih hv hok.2 he

/-- 1 = (1,1), 2 = (1,3), 3 = (2,2), 4 = (0,0), made through `UniqueValidator`; then 4 was deleted and created again. -/
def valNet : List Call :=
  [.create, .create, .create, .create, .update 1 1 1, .update 2 1 3, .update 3 2 2, .delete 4, .create]

/-- Such histories exist. In this one, a further update of link 4 to the doublet of 2 is refused. -/
example : ∃ s, Validated cfg0 s ∧ (List.range 5).map ((links cfg0).view s) =
      [none, some (1, 1), some (1, 3), some (2, 2), some (0, 0)] ∧
    ((uniqueValidator (links cfg0)).update s 4 1 3).map (·.res) = some (.error (.alreadyExists 1 3)) := by
  have h : (execD (uniqueValidator (links cfg0)) valNet (store0 cfg0)).isSome = true := by decide +kernel
  obtain ⟨s, hs⟩ := Option.isSome_iff_exists.1 h
  refine ⟨s, validated_exec valNet (.fresh cfg0.alloc alloc0_good rfl) (by decide +kernel) hs, ?_⟩
  have : (execD (uniqueValidator (links cfg0)) valNet (store0 cfg0)).map (fun s => decide ((List.range 5).map ((links cfg0).view s) =
      [none, some (1, 1), some (1, 3), some (2, 2), some (0, 0)] ∧
    ((uniqueValidator (links cfg0)).update s 4 1 3).map (·.res) = some (.error (.alreadyExists 1 3)))) = some true := by
    decide +kernel
  rw [hs] at this
  simpa using this

/-- **C41** is false of null sources: the united store does not index them, so `UniqueValidator` does not see an
existing (0,3) and lets two links be (0,3). -/
theorem C41_null_sources_are_not_checked : ∃ s s' : Store, Validated cfg0 s ∧
    execD (uniqueValidator (links cfg0)) [.update 1 0 3, .update 2 0 3] s = some s' ∧
    (links cfg0).view s' 1 = some (0, 3) ∧ (links cfg0).view s' 2 = some (0, 3) := by
  have h : (execD (uniqueValidator (links cfg0)) [.create, .create, .create] (store0 cfg0)).isSome = true := by
    decide +kernel
  obtain ⟨s, hs⟩ := Option.isSome_iff_exists.1 h
  have h2 : ((execD (uniqueValidator (links cfg0)) [.create, .create, .create] (store0 cfg0)).bind
      (execD (uniqueValidator (links cfg0)) [.update 1 0 3, .update 2 0 3])).map
      (fun s' => decide ((links cfg0).view s' 1 = some (0, 3) ∧ (links cfg0).view s' 2 = some (0, 3))) = some true := by
    decide +kernel
  rw [hs] at h2
  simp only [Option.bind_some, Option.map_eq_some_iff, decide_eq_true_eq] at h2
  obtain ⟨s', h3, h4⟩ := h2
  exact ⟨s, s', validated_exec _ (.fresh cfg0.alloc alloc0_good rfl) (by decide +kernel) hs, h3, h4⟩

/-- `UniqueValidator` on `sNet`: (1,3) is refused for link 4, (3,1) is accepted. -/
example : ((uniqueValidator (links cfg0)).update sNet 4 1 3).map (·.res) = some (.error (.alreadyExists 1 3)) ∧
    ((uniqueValidator (links cfg0)).update sNet 4 3 1).map (fun o => (o.res.toOption, (links cfg0).view o.st 4)) =
      some (some 4, some (3, 1)) := by decide +kernel

example := C41_unique_validator_partial (reachLawful cfg0_ok) sNet_reach sNet_uniq (i := 4) (a := 3) (b := 1)
  (by decide) (by decide) (by decide) (by decide) trivial

/-- `UniqueResolver` on `sNet`: updating 4 to (1,3), the doublet of 2, deletes 4 and returns 2. -/
example : ((uniqueResolver (links cfg0)).update sNet 4 1 3).map
    (fun o => (o.res.toOption, (List.range 7).map ((links cfg0).view o.st))) =
      some (some 2, [none, some (1, 1), some (1, 3), some (2, 2), none, none, some (3, 2)]) := by decide +kernel

example := C41_unique_resolver_partial (reachLawful cfg0_ok) sNet_reach sNet_uniq (i := 4) (a := 1) (b := 3)
  (p := (0, 0)) (by decide +kernel) (by decide) (by decide) (by decide) (by decide) (by decide) trivial
  (fun _ _ => trivial)

/-- Updating 2 to its own doublet (1,3) loses it. -/
example : ((uniqueResolver (links cfg0)).update sNet 2 1 3).map
    (fun o => (o.res, (List.range 7).map ((links cfg0).view o.st))) =
      some (.error (.notExists 2), [none, some (1, 1), none, some (2, 2), some (0, 0), none, some (3, 2)]) := by
  decide +kernel

example := C41_unique_resolver_deletes_an_unchanged_link (reachLawful cfg0_ok) sNet_reach sNet_uniq (i := 2) (a := 1)
  (b := 3) (by decide +kernel) (by decide) (by decide) (by decide) (by decide)

example := C41_cascade_unique_resolver_deletes_an_unchanged_link (reachLawful cfg0_ok) sNet_reach sNet_uniq (i := 2)
  (a := 1) (b := 3) (by decide +kernel) (by decide) (by decide) (by decide) (by decide)

example := C41_unique_resolver_missing (reachLawful cfg0_ok) sNet_reach (i := 5) (a := 1) (b := 3)
  (by decide +kernel) (by decide) (by decide) (by decide) (by decide)

example := C41_cascade_unique_resolver_new_doublet_partial (reachLawful cfg0_ok) sNet_reach sNet_uniq (i := 4)
  (p := (0, 0)) (a := 3) (b := 1) (by decide +kernel)
  (fun j hj => by
    have := forall_of_collect (reachLawful cfg0_ok) sNet_reach (p := fun l => (l.source, l.target) != (3, 1))
      (by decide +kernel) hj
    simp at this)
  (by decide) (by decide) (by decide) (by decide) trivial

/-- `CascadeUniqueResolver` on `sNet`: updating 3 to (1,3), the doublet of 2, replaces 3 by 2 in link 6 = (3,2), deletes
3, and then sets 2 to (1,3): link 2 now refers to the deleted link 3. -/
example : ((cascadeUniqueResolver (links cfg0)).update sNet 3 1 3).map
    (fun o => (o.res.toOption, (List.range 7).map ((links cfg0).view o.st))) =
      some (some 2, [none, some (1, 1), some (1, 3), none, some (0, 0), none, some (2, 2)]) := by decide +kernel

/-- 1 = (1,1), 2 = (2,1), 3 = (1,5), 4 = (2,5), 5 = (0,0). -/
def sMerge : Store := runs cfg0 [.create, .create, .create, .create, .create, .update 1 1 1, .update 2 2 1,
  .update 3 1 5, .update 4 2 5]

theorem sMerge_reach : Reach cfg0 sMerge := runs_reach (by decide +kernel)

theorem sMerge_uniq : ((links cfg0).view sMerge).Uniq :=
  uniq_of_collect (reachLawful cfg0_ok) sMerge_reach (by decide +kernel)

/-- Updating 2 to (1,5), the doublet of 3, replaces 2 by 3 in link 4 = (2,5) and deletes 2. -/
example : ((cascadeUniqueResolver (links cfg0)).update sMerge 2 1 5).map
    (fun o => (o.res.toOption, (List.range 6).map ((links cfg0).view o.st))) =
      some (some 3, [none, some (1, 1), none, some (1, 5), some (3, 5), some (0, 0)]) := by decide +kernel

/-- `sMerge` with 2 replaced by 3 in the other links. -/
def merged : View := fun k =>
  if k = 2 then (links cfg0).view sMerge k else ((links cfg0).view sMerge k).map (substPair 2 3)

/-- The hypotheses of `C41_cascade_unique_resolver_partial` hold for it. -/
example := C41_cascade_unique_resolver_partial (reachLawful cfg0_ok) sMerge_reach sMerge_uniq (i := 2) (old := 3)
  (a := 1) (b := 5) (p := (2, 1)) (by decide +kernel) (by decide +kernel) (by decide) (by decide) (by decide)
  (by decide) (by decide)
  (fun j hj => by
    have := forall_of_collect (reachLawful cfg0_ok) sMerge_reach (p := fun l => (l.source, l.target) != (2, 2))
      (by decide +kernel) hj
    simp at this)
  (by
    have hlt : ∀ k, (links cfg0).view sMerge k ≠ none → k < 6 := by
      intro k hk
      cases hv : (links cfg0).view sMerge k with
      | none => exact absurd hv hk
      | some q =>
        simpa using forall_of_collect (reachLawful cfg0_ok) sMerge_reach (p := fun l => decide (l.index < 6))
          (by decide +kernel) hv
    have hchk : (List.range 6).all (fun k => (List.range 6).all fun j =>
        merged k != merged j || merged k == none || merged k == some (0, 0) || j == k) = true := by
      decide +kernel
    intro k p hk hp j hj
    have hk' : k < 6 := hlt k (by intro h; simp [h] at hk)
    have hj' : j < 6 := hlt j (by intro h; simp [h] at hj)
    have h := List.all_eq_true.1 (List.all_eq_true.1 hchk k (List.mem_range.2 hk')) j (List.mem_range.2 hj')
    have ek : merged k = some p := hk
    have ej : merged j = some p := hj
    simpa [ek, ej, hp] using h)
  (fun _ _ _ _ _ _ _ _ => trivial) (fun _ _ => trivial)

/-- **C41** is false of `CascadeUniqueResolver`: in a store with unique doublets, merging 2 into 1 by
`update(2, 1, 1)` succeeds and makes links 3 and 4 equal. -/
theorem C41_cascade_merge_makes_duplicates : Reach cfg0 sMerge ∧ ((links cfg0).view sMerge).Uniq ∧
    ((cascadeUniqueResolver (links cfg0)).update sMerge 2 1 1).map
      (fun o => (o.res.toOption, (links cfg0).view o.st 3, (links cfg0).view o.st 4)) =
        some (some 1, some (1, 5), some (1, 5)) :=
  ⟨sMerge_reach, sMerge_uniq, by decide +kernel⟩

/-! ### C42–C44 on concrete stores -/

/-- In `sNet` link 3 is used by 2 and 6: neither update nor deletion gets through. Link 6 is not used. -/
example : ((usagesValidator (links cfg0)).delete sNet 3).map (fun o => (o.res, (links cfg0).view o.st 3)) =
      some (.error (.hasUsages [⟨6, 3, 2⟩, ⟨2, 1, 3⟩]), some (2, 2)) ∧
    ((usagesValidator (links cfg0)).update sNet 3 1 1).map (fun o => (o.res, (links cfg0).view o.st 3)) =
      some (.error (.hasUsages [⟨6, 3, 2⟩, ⟨2, 1, 3⟩]), some (2, 2)) ∧
    ((usagesValidator (links cfg0)).delete sNet 6).map (fun o => (o.res.toOption, (links cfg0).view o.st 6)) =
      some (some 0, none) ∧
    ((usagesValidator (links cfg0)).delete sNet 5).map (·.res) = some (.error (.notExists 5)) := by decide +kernel

/-- All ends in `sNet` exist. -/
theorem sNet_closed : Closed ((links cfg0).view sNet) := by
  intro j a b hj
  have := forall_of_collect (reachLawful cfg0_ok) sNet_reach (p := fun l =>
    (l.source == 0 || ((links cfg0).view sNet l.source).isSome) &&
    (l.target == 0 || ((links cfg0).view sNet l.target).isSome)) (by decide +kernel) hj
  simp only [Bool.and_eq_true, Bool.or_eq_true, beq_iff_eq, Option.isSome_iff_ne_none] at this
  exact ⟨fun h => this.1.resolve_left h, fun h => this.2.resolve_left h⟩

example {o} (ho : (usagesValidator (links cfg0)).deleteLinks sNet [6] (fun (u : _root_.Unit) _ _ => (.cont, u)) () = some o) :=
  C42_no_dangling_references (reachLawful cfg0_ok) sNet_reach rfl sNet_closed 6 (sNet_uniq 6) trivial _ _ ho

example : ((usagesValidator (links cfg0)).deleteLinks sNet [6] (fun (u : _root_.Unit) _ _ => (.cont, u)) ()).isSome = true := by
  decide +kernel

/-- Deleting 3 in `sNet` through `CascadeUsagesResolver` also deletes 2 and 6. -/
example : ((cascadeUsagesResolver (links cfg0)).delete sNet 3).map
    (fun o => (o.res.toOption, (links cfg0).collect o.st [])) =
      some (some 0, some [⟨1, 1, 1⟩, ⟨4, 0, 0⟩]) := by decide +kernel

example := C43_cascade_usages_resolver_partial (reachLawful cfg0_ok) sNet_reach sNet_uniq (i := 3) (p := (2, 2))
  (by decide +kernel) sNet_no_double

/-- **C43** is false of a link with `i` at both ends: it is deleted twice, so the call fails and `i` is still there. -/
theorem C43_double_user_fails : Reach cfg0 sDouble ∧
    ((cascadeUsagesResolver (links cfg0)).delete sDouble 2).map (fun o => (o.res, (links cfg0).view o.st 2,
      (links cfg0).view o.st 3)) = some (.error (.notExists 4), some (0, 0), some (2, 1)) :=
  ⟨sDouble_reach, by decide +kernel⟩

/-- 1 = (1,1), 2 = (1,3), 3 = (3,3), 4 = (2,3). -/
def sChain : Store := runs cfg0 [.create, .create, .create, .create, .update 1 1 1, .update 2 1 3, .update 3 3 3,
  .update 4 2 3]

theorem sChain_reach : Reach cfg0 sChain := runs_reach (by decide +kernel)

/-- **C43**, title: the cascade is one level deep. Deleting 1 deletes its user 2, but not 4 = (2,3), which then refers to
a deleted link. -/
theorem C43_second_level_dangles : Reach cfg0 sChain ∧
    ((cascadeUsagesResolver (links cfg0)).delete sChain 1).map (fun o => (o.res.toOption,
      (links cfg0).view o.st 2, (links cfg0).view o.st 4)) = some (some 0, none, some (2, 3)) :=
  ⟨sChain_reach, by decide +kernel⟩

/-- On `sNet`, link 6 goes; the handler sees the null state. -/
example : ((nonNullDeletionResolver (links cfg0)).deleteWith (ρ := _root_.Unit) sNet 6
    (fun (acc : List Link) _ a => (.cont, acc ++ [a])) []).map
      (fun o => (o.hs, (links cfg0).collect o.st [])) =
      some ([⟨6, 0, 0⟩, Link.nothing], some [⟨1, 1, 1⟩, ⟨2, 1, 3⟩, ⟨3, 2, 2⟩, ⟨4, 0, 0⟩]) := by decide +kernel

example := C44_non_null_deletion (reachLawful cfg0_ok) sNet_reach (i := 6) (p := (3, 2)) rfl (by decide +kernel)
  (sNet_uniq 6) trivial trivial

example := C44_missing_link (reachLawful cfg0_ok) sNet_reach (i := 5) (by decide +kernel)

end United

end Verif.Deco.Props
