import Verif.DecoratorLaws
import Verif.DerivedLaws

/-!
# Updates through the decorators for unique doublets, when the store supports no duplicates

As C41, but the store below need only support the updates that the decorators let through.
-/

namespace Verif
open Links

/-- Whatever the handler, the call returns and leaves the store in state `s'`. -/
def EndsIn {S : Type} (call : (σ : Type) → WH σ → σ → Option (Out S σ Flow)) (s' : S) : Prop :=
  ∀ (σ : Type) (h : WH σ) (st : σ), ∃ r st', call σ h st = some ⟨r, s', st'⟩

theorem Links.Succeeds.endsIn {S : Type} {call : (σ : Type) → WH σ → σ → Option (Out S σ Flow)} {s' : S} {b a : Link}
    (h : Succeeds call s' b a) : EndsIn call s' := fun σ hd st => ⟨_, _, h σ hd st⟩

theorem Links.Fails.endsIn {S : Type} {call : (σ : Type) → WH σ → σ → Option (Out S σ Flow)} {s' : S} {e : Err}
    (h : Fails call s' e) : EndsIn call s' := fun σ hd st => ⟨_, _, h σ hd st⟩

variable {S : Type} {D : Links S} (W : Lawful D) {s : S}

theorem validator_refuses {i a b : Nat} (h : D.found s [(D.consts s).any, a, b] = some true) :
    Fails (fun _ h st => (uniqueValidator D).updateWith (ρ := Unit) s i a b h st) s (.alreadyExists a b) :=
  fun _ h' st => updateByWith_err (D := uniqueValidator D) (uniqueValidator_found h) h' st

theorem validator_missing (hs : W.Inv s) {i a b : Nat} (h : D.found s [(D.consts s).any, a, b] = some false) (hv : D.view s i = none) :
    Fails (fun _ h st => (uniqueValidator D).updateWith (ρ := Unit) s i a b h st) s (.notExists i) := by
  refine fun _ h' st => updateByWith_err (D := uniqueValidator D) (fun σ h' st => ?_) h' st
  show (uniqueValidator D).updateLinks s [i] [i, a, b] h' st = _
  rw [uniqueValidator_not_found h]
  exact updateByWith_err (W.update_missing s hs i hv i a b) h' st

theorem validator_passes (hs : W.Inv s) (hu : (D.view s).Uniq) {i a b : Nat} {p : Nat × Nat}
    (h : D.found s [(D.consts s).any, a, b] = some false) (hv : D.view s i = some p) (hcan : W.CanUpdate (D.view s) i a b) :
    ∃ s' before, before.index = i ∧ W.Inv s' ∧ D.view s' = (D.view s).set i (a, b) ∧
      Succeeds (fun _ h st => (uniqueValidator D).updateWith (ρ := Unit) s i a b h st) s' before ⟨i, a, b⟩ := by
  obtain ⟨s', before, h1, h2, -, h4, h5⟩ := W.update s hs i p hv (hu i) i a b hcan
  refine ⟨s', before, h1, h2, h4, fun _ h' st => updateByWith_ok (D := uniqueValidator D) (fun σ h' st => ?_) h' st⟩
  show (uniqueValidator D).updateLinks s [i] [i, a, b] h' st = _
  rw [uniqueValidator_not_found h]
  exact updateByWith_ok h5 h' st

/-- What an update through `UniqueResolver` leads to, in terms of the contents before and after: the result and the new contents. -/
structure Resolved (D : Links S) (s : S) (i a b : Nat) (r : Except Err Nat) (s' : S) : Prop where
  /-- An index that is no link is refused. -/
  missing : D.view s i = none → r = .error (.notExists i) ∧ s' = s
  /-- If no link has the ends, the link is given them. -/
  new : D.view s i ≠ none → (∀ j, D.view s j ≠ some (a, b)) → r = .ok i ∧ D.view s' = (D.view s).set i (a, b)
  /-- If another link has the ends, the link is deleted and the other one is returned. -/
  old : D.view s i ≠ none → ∀ j, D.view s j = some (a, b) → j ≠ i → r = .ok j ∧ D.view s' = (D.view s).del i
  /-- A link that has the ends itself is deleted, and the call then fails. -/
  self : D.view s i = some (a, b) → r = .error (.notExists i) ∧ D.view s' = (D.view s).del i

theorem resolver_update (hs : W.Inv s) (hu : (D.view s).Uniq) {i a b : Nat} (ha : a ≠ 0) (ha' : a ≠ (D.consts s).any) (hb : b ≠ 0)
    (hb' : b ≠ (D.consts s).any) (hcan : (∀ j, D.view s j ≠ some (a, b)) → D.view s i ≠ none → W.CanUpdate (D.view s) i a b)
    (hcan' : ∀ old, D.view s old = some (a, b) → old ≠ i → W.CanUpdate ((D.view s).del i) old a b) :
    ∃ r s', W.Inv s' ∧ (uniqueResolver D).update s i a b = some ⟨r, s', ()⟩ ∧
      EndsIn (fun _ h st => (uniqueResolver D).updateWith (ρ := Unit) s i a b h st) s' ∧ Resolved D s i a b r s' := by
  rcases search_law W hs ha ha' hb hb' with ⟨h1, h2⟩ | ⟨old, h1, h2⟩
  · cases hv : D.view s i with
    | none =>
      have hF : Fails (fun _ h st => (uniqueResolver D).updateLinks s [i] [i, a, b] h st) s (.notExists i) := by
        intro σ h st
        simp only [uniqueResolver, List.getElem?_cons_zero, List.getElem?_cons_succ, h1, Option.bind_some]
        exact updateByWith_err (W.update_missing s hs i hv i a b) h st
      exact ⟨_, s, hs, update_err hF, fun σ h st => ⟨_, _, updateByWith_err hF h st⟩,
        ⟨fun _ => ⟨rfl, rfl⟩, fun h => absurd hv h, fun h => absurd hv h, fun h => by rw [hv] at h; cases h⟩⟩
    | some p =>
      obtain ⟨s', before, k1, k2, k3, k4, k5⟩ := W.update s hs i p hv (hu i) i a b (hcan h2 (by rw [hv]; simp))
      have hS : Succeeds (fun _ h st => (uniqueResolver D).updateLinks s [i] [i, a, b] h st) s' before ⟨i, a, b⟩ := by
        intro σ h st
        simp only [uniqueResolver, List.getElem?_cons_zero, List.getElem?_cons_succ, h1, Option.bind_some]
        exact updateByWith_ok k5 h st
      exact ⟨_, s', k2, update_ok hS, fun σ h st => ⟨_, _, updateByWith_ok hS h st⟩,
        ⟨fun h => by (rw [hv] at h; cases h), fun _ _ => ⟨rfl, k4⟩, fun _ j hj => absurd hj (h2 j), fun h => absurd h (h2 i)⟩⟩
  · have hone : ∀ j, D.view s j = some (a, b) → j = old := fun j hj => hu old (a, b) h2 (by simp [ha]) j hj
    cases hv : D.view s i with
    | none =>
      have hF : Fails (fun _ h st => (uniqueResolver D).updateLinks s [i] [i, a, b] h st) s (.notExists i) := by
        intro σ h st
        simp only [uniqueResolver, List.getElem?_cons_zero, List.getElem?_cons_succ, h1, Option.bind_some, deleteWith,
          deleteByWith_err (W.delete_missing s hs i hv)]
      exact ⟨_, s, hs, update_err hF, fun σ h st => ⟨_, _, updateByWith_err hF h st⟩,
        ⟨fun _ => ⟨rfl, rfl⟩, fun h => absurd hv h, fun h => absurd hv h, fun h => by rw [hv] at h; cases h⟩⟩
    | some p =>
      obtain ⟨s1, k1, k2, k3, k4⟩ := W.delete s hs i p hv (hu i) (W.canDelete_uniq _ _ hu)
      by_cases hoi : old = i
      · subst hoi
        have hm := W.update_missing s1 k1 old (by rw [k3, View.del_same]) old a b
        have hcall : ∀ {σ : Type} (h : WH σ) (st : σ), (uniqueResolver D).updateLinks s [old] [old, a, b] h st =
            some ⟨.error (.notExists old), s1, (h st ⟨old, p.1, p.2⟩ Link.nothing).2⟩ := by
          intro σ h st
          simp only [uniqueResolver, List.getElem?_cons_zero, List.getElem?_cons_succ, h1, Option.bind_some, deleteWith,
            deleteByWith_ok k4, updateWith, updateByWith_err hm]
        refine ⟨.error (.notExists old), s1, k1, ?_, fun σ h st => ?_, fun h => ?_, fun _ h => absurd h2 (h old),
          fun _ j hj hn => absurd (hone j hj) hn, fun _ => ⟨rfl, k3⟩⟩
        · simp [update, updateBy, updateByWith, hcall, unwrapW, resultIndex, Except.map]
        · simp only [updateWith, updateByWith, hcall, Option.map_some, unwrapW]; exact ⟨_, _, rfl⟩
        · rw [hv] at h; cases h
      · have hv1 : D.view s1 old = some (a, b) := by rw [k3, View.del_other _ hoi, h2]
        obtain ⟨s', before, q1, q2, q3, q4, q5⟩ := W.update s1 k1 old (a, b) hv1 (by rw [k3]; exact hu.del i old) old a b
          (by rw [k3]; exact hcan' old h2 hoi)
        have hvs : D.view s' = (D.view s).del i := by
          rw [q4, k3]
          funext k
          by_cases hk : k = old
          · subst hk; rw [View.set_same, View.del_other _ hoi, h2]
          · rw [View.set_other _ _ hk]
        have hcall : ∀ {σ : Type} (h : WH σ) (st : σ),
            (uniqueResolver D).updateLinks s [i] [i, a, b] h st =
              let st1 := (h st ⟨i, p.1, p.2⟩ Link.nothing).2
              some ⟨.ok (h st1 before ⟨old, a, b⟩).1, s', (h st1 before ⟨old, a, b⟩).2⟩ := by
          intro σ h st
          simp only [uniqueResolver, List.getElem?_cons_zero, List.getElem?_cons_succ, h1, Option.bind_some,
            deleteWith, deleteByWith_ok k4, updateWith, updateByWith_ok q5]
        refine ⟨.ok old, s', q2, ?_, fun σ h st => ?_, fun h => ?_, fun _ h => absurd h2 (h old),
          fun _ j hj _ => ⟨by rw [hone j hj], hvs⟩, fun h => absurd (hone i h).symm hoi⟩
        · simp [update, updateBy, updateByWith, hcall, unwrapW, wrapW, keepIndex, resultIndex, Except.map]
        · simp only [updateWith, updateByWith, hcall, Option.map_some, unwrapW]; exact ⟨_, _, rfl⟩
        · rw [hv] at h; cases h

end Verif
