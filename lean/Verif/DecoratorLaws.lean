import Verif.Decorators
import Verif.DerivedLaws

/-! # Laws of the decorators over any lawful store (helper lemmas) -/

namespace Verif
open Verif Links

theorem View.Uniq.set {v : View} (h : v.Uniq) {i : Nat} {p : Nat × Nat} (hn : ∀ j, j ≠ i → v j ≠ some p) :
    (v.set i p).Uniq := by
  intro k q hk hq j hj
  simp only [View.set] at hk hj
  split at hk
  · next e =>
    cases hk
    split at hj
    · next e' => rw [e, e']
    · next e' => exact absurd hj (hn j e')
  · next e =>
    split at hj
    · cases hj; exact absurd hk (hn k e)
    · exact h k q hk hq j hj

theorem View.Uniq.set_null {v : View} (h : v.Uniq) (i : Nat) : (v.set i (0, 0)).Uniq := by
  intro k q hk hq j hj
  simp only [View.set] at hk hj
  split at hk
  · cases hk; exact absurd rfl hq
  · split at hj
    · cases hj; exact absurd rfl hq
    · exact h k q hk hq j hj

variable {S : Type} {D : Links S} (W : Lawful D) {s : S}

theorem found_pair (hs : W.Inv s) {a b : Nat} (ha : a ≠ 0) (ha' : a ≠ (D.consts s).any) (hb : b ≠ 0)
    (hb' : b ≠ (D.consts s).any) :
    ∃ f, D.found s [(D.consts s).any, a, b] = some f ∧ ((∃ j, D.view s j = some (a, b)) → f = true) := by
  obtain ⟨n, h1, h2⟩ := W.count_pair s hs a b ha ha' hb hb'
  refine ⟨n != 0, by simp [found, countBy, h1], fun h => ?_⟩
  simpa using h2 h

theorem uniqueValidator_found {a b i x : Nat} (h : D.found s [(D.consts s).any, a, b] = some true) :
    Fails (fun _ hd st => (uniqueValidator D).updateLinks s [i] [x, a, b] hd st) s (.alreadyExists a b) := by
  intro σ hd st
  simp [uniqueValidator, h]

theorem uniqueValidator_not_found {a b i x : Nat} (h : D.found s [(D.consts s).any, a, b] = some false)
    {σ : Type} (hd : WH σ) (st : σ) :
    (uniqueValidator D).updateLinks s [i] [x, a, b] hd st = D.updateByWith s [i] [x, a, b] hd st := by
  simp [uniqueValidator, h]

/-- A call on a decorated store that ends with success and state `s'`, whatever the handler. -/
def SucceedsIn {S : Type} (call : (σ : Type) → WH σ → σ → Option (Out S σ Flow)) (s' : S) : Prop :=
  ∀ (σ : Type) (h : WH σ) (st : σ), ∃ r st', call σ h st = some ⟨.ok r, s', st'⟩

theorem Links.Succeeds.succeedsIn {S : Type} {call : (σ : Type) → WH σ → σ → Option (Out S σ Flow)} {s' : S}
    {b a : Link} (h : Succeeds call s' b a) : SucceedsIn call s' := fun σ hd st => ⟨_, _, h σ hd st⟩

/-- `usages(i)` when it returns. -/
theorem usages_law (hs : W.Inv s) (i : Nat) {r : Except Err (List Nat)} (hr : D.usages s i = some r) :
    (D.view s i = none ∧ r = .error (.notExists i)) ∨
    ∃ us, r = .ok us ∧ D.view s i ≠ none ∧ ∀ j, j ∈ us ↔ (D.view s).Uses i j := by
  cases hv : D.view s i with
  | none =>
    left
    simp [usages, countUsagesOf, tryGetLink, W.get s hs, hv] at hr
    exact ⟨rfl, hr.symm⟩
  | some p =>
    right
    obtain ⟨h0, ha, L1, L2, v1, n1, m1, v2, n2, m2, c1, c2⟩ := usage_lists W hs hv
    unfold usages at hr
    rw [usageList_eq v1 v2] at hr
    simp only [Option.map_some] at hr
    cases hc : D.countUsagesOf s i with
    | none => rw [hc] at hr; cases hr
    | some x =>
      rw [hc] at hr
      cases x with
      | error e =>
        simp [countUsagesOf, tryGetLink, W.get s hs, hv, Option.bind_eq_some_iff] at hc
      | ok n =>
        simp only [Option.bind_some, Option.some.injEq] at hr
        refine ⟨_, hr.symm, by simp, fun j => ?_⟩
        simp only [List.mem_filter, List.map_append, List.mem_append, List.mem_map, decide_eq_true_eq]
        constructor
        · rintro ⟨⟨l, hl, rfl⟩ | ⟨l, hl, rfl⟩, hj⟩
          · obtain ⟨hl, he⟩ := (m1 l).1 hl
            exact ⟨hj, _, _, hl, .inl he⟩
          · obtain ⟨hl, he⟩ := (m2 l).1 hl
            exact ⟨hj, _, _, hl, .inr he⟩
        · rintro ⟨hj, a, b, hj', he⟩
          refine ⟨?_, hj⟩
          rcases he with rfl | rfl
          · exact .inl ⟨⟨j, a, b⟩, (m1 _).2 ⟨hj', rfl⟩, rfl⟩
          · exact .inr ⟨⟨j, a, b⟩, (m2 _).2 ⟨hj', rfl⟩, rfl⟩

theorem tryGetLinks_law (hs : W.Inv s) : ∀ us : List Nat, (∀ j ∈ us, D.view s j ≠ none) →
    ∃ ls, tryGetLinks D s us = some (.ok ls) ∧ ls.map (·.index) = us ∧ ∀ l ∈ ls, (D.view s).Has l := by
  intro us
  induction us with
  | nil => intro _; exact ⟨[], rfl, rfl, by simp⟩
  | cons i us ih =>
    intro h
    obtain ⟨ls, h1, h2, h3⟩ := ih fun j hj => h j (List.mem_cons_of_mem _ hj)
    have hi := h i (by simp)
    cases hv : D.view s i with
    | none => exact absurd hv hi
    | some p =>
      refine ⟨⟨i, p.1, p.2⟩ :: ls, ?_, by simp [h2], ?_⟩
      · simp [tryGetLinks, tryGetLink, W.get s hs, hv, h1, Except.map]
      · intro l hl
        rcases List.mem_cons.1 hl with rfl | hl
        · exact hv
        · exact h3 l hl

/-- What the check of `UsagesValidator` lets through and what it answers. -/
theorem checkUsages_law (hs : W.Inv s) (hix : (D.consts s).indexPart = 0) (i : Nat) {σ : Type} (st : σ)
    {go : Option (Out S σ Flow)} {o : Out S σ Flow} (ho : checkUsages D s [i] st go = some o) :
    (D.view s i = none ∧ o = ⟨.error (.notExists i), s, st⟩) ∨
    (D.view s i ≠ none ∧ (∀ j, ¬ (D.view s).Uses i j) ∧ go = some o) ∨
    (D.view s i ≠ none ∧ (∃ j, (D.view s).Uses i j) ∧ ∃ ls, o = ⟨.error (.hasUsages ls), s, st⟩ ∧
      ∀ l, l ∈ ls ↔ (D.view s).Has l ∧ l.index ≠ i ∧ (l.source = i ∨ l.target = i)) := by
  unfold checkUsages at ho
  rw [hix] at ho
  simp only [List.getElem?_cons_zero] at ho
  cases hu : D.usages s i with
  | none => rw [hu] at ho; cases ho
  | some r =>
    rw [hu] at ho
    rcases usages_law W hs i hu with ⟨hv, rfl⟩ | ⟨us, rfl, hv, hus⟩
    · left
      simp at ho
      exact ⟨hv, ho.symm⟩
    · right
      simp only [Option.bind_some] at ho
      cases us with
      | nil => exact .inl ⟨hv, fun j hj => by simpa using (hus j).2 hj, by simpa using ho⟩
      | cons u us =>
        right
        obtain ⟨ls, h1, h2, h3⟩ := tryGetLinks_law W hs (u :: us) fun j hj => by
          obtain ⟨-, a, b, hj, -⟩ := (hus j).1 hj
          rw [hj]; simp
        rw [h1] at ho
        simp at ho
        refine ⟨hv, ⟨u, (hus u).1 (by simp)⟩, ls, ho.symm, fun l => ?_⟩
        have hmem : ∀ j, j ∈ ls.map (·.index) ↔ (D.view s).Uses i j := by rw [h2]; exact hus
        constructor
        · intro hl
          have hh := h3 l hl
          obtain ⟨hj, a, b, hab, he⟩ := (hmem l.index).1 (List.mem_map.2 ⟨l, hl, rfl⟩)
          refine ⟨hh, hj, ?_⟩
          unfold View.Has at hh
          rw [hh] at hab; cases hab
          exact he
        · rintro ⟨hh, hj, he⟩
          obtain ⟨l', hl', e⟩ := List.mem_map.1 ((hmem l.index).2 ⟨hj, _, _, hh, he⟩)
          have hh' := h3 l' hl'
          unfold View.Has at hh hh'
          rw [e, hh] at hh'
          rcases l with ⟨a, b, d⟩
          rcases l' with ⟨a', b', d'⟩
          cases e; cases hh'; exact hl'

/-- Checking all links of a concrete store. -/
theorem forall_of_collect (hs : W.Inv s) {p : Link → Bool} (hp : (D.collect s []).map (·.all p) = some true)
    {j x y : Nat} (hj : D.view s j = some (x, y)) : p ⟨j, x, y⟩ = true := by
  obtain ⟨L, h1, -, h3⟩ := W.each_all s hs
  rw [collect_eq h1] at hp
  simp only [Option.map_some, Option.some.injEq, List.all_eq_true] at hp
  exact hp _ ((h3 ⟨j, x, y⟩).2 hj)

/-- Unique doublets of a concrete store. -/
theorem uniq_of_collect (hs : W.Inv s) (hp : (D.collect s []).map (fun L => L.all fun l => L.all fun l' =>
      l.index == l'.index || (l.source, l.target) == (0, 0) || (l.source, l.target) != (l'.source, l'.target)) =
        some true) : (D.view s).Uniq := by
  obtain ⟨L, h1, -, h3⟩ := W.each_all s hs
  rw [collect_eq h1] at hp
  simp only [Option.map_some, Option.some.injEq, List.all_eq_true] at hp
  intro i ⟨x, y⟩ hi h0 j hj
  have := hp _ ((h3 ⟨i, x, y⟩).2 hi) _ ((h3 ⟨j, x, y⟩).2 hj)
  simp only [Bool.or_eq_true, beq_iff_eq, bne_self_eq_false, Bool.false_eq_true, or_false] at this
  rcases this with h | h
  · exact h.symm
  · exact absurd h h0

end Verif
