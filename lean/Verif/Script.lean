import Verif.Nested

/-!
# Import scripts

A client that loads data into a store runs a list of `get_or_create` calls, whose operands are links that are already there or
results of earlier calls. Vocabulary of C110 and its proof for any store.
-/

namespace Verif.Script
open Verif

/-- An operand of a call: a link that is known beforehand, or the result of the `k`-th call (from 0). -/
inductive Operand where
  | link (n : Nat)
  | result (k : Nat)

/-- The index an operand stands for, given the results so far. -/
def Operand.eval (rs : List Nat) : Operand → Option Nat
  | .link n => some n
  | .result k => rs[k]?

/-- The operands of one call. -/
structure Call where
  source : Operand
  target : Operand

/-- A client runs a script: `get_or_create` (`doublets/src/data/traits.rs:425-434`) for each pair in turn, each call with `?`. The
results are those so far followed by the new ones. -/
def run {S : Type} (D : Links S) : List Call → List Nat → S → Option (Out S Unit (List Nat))
  | [], rs, s => some ⟨.ok rs, s, ()⟩
  | k :: ks, rs, s =>
    (k.source.eval rs).bind fun a =>
    (k.target.eval rs).bind fun b =>
    (D.getOrCreate s a b).bind fun o =>
    match o.res with
    | .error e => some ⟨.error e, o.st, ()⟩
    | .ok i => run D ks (rs ++ [i]) o.st

/-- The script makes sense on contents `v` after `n` calls: its operands are links or results of earlier calls. -/
def Fits (v : View) : Nat → List Call → Prop
  | _, [] => True
  | n, k :: ks => (∀ o, o = k.source ∨ o = k.target →
      match o with
      | .link i => v i ≠ none
      | .result j => j < n) ∧ Fits v (n + 1) ks

/-- The script is carried out in contents `v`: the results `rs` continue to `rs'`, and each result is the link whose source and
target are the operands of its call. -/
def CarriedOut (v : View) : List Call → List Nat → List Nat → Prop
  | [], rs, rs' => rs' = rs
  | k :: ks, rs, rs' => ∃ a b i, k.source.eval rs = some a ∧ k.target.eval rs = some b ∧ v i = some (a, b) ∧
      CarriedOut v ks (rs ++ [i]) rs'

/-- What a script relies on: for two links `get_or_create` returns the only link between them, which is new if there was none, or
fails and changes nothing. -/
def Law {S : Type} (D : Links S) (J : S → Prop) : Prop :=
  ∀ s, J s → ∀ x y, D.view s x ≠ none → D.view s y ≠ none →
    (∃ i, D.view s i = some (x, y) ∧ (∀ j, D.view s j = some (x, y) → j = i) ∧ D.getOrCreate s x y = some ⟨.ok i, s, ()⟩) ∨
    ((∀ j, D.view s j ≠ some (x, y)) ∧
      ((∃ e, D.getOrCreate s x y = some ⟨.error e, s, ()⟩) ∨
        ∃ i s', D.view s i = none ∧ J s' ∧ D.view s' = (D.view s).set i (x, y) ∧
          D.getOrCreate s x y = some ⟨.ok i, s', ()⟩))

theorem Fits.mono {v w : View} (h : v.Sub w) : ∀ {ks : List Call} {n : Nat}, Fits v n ks → Fits w n ks
  | [], _, _ => trivial
  | _ :: _, _, ⟨h1, h2⟩ => by
    refine ⟨fun o ho => ?_, h2.mono h⟩
    have := h1 o ho
    cases o with
    | result j => exact this
    | link i =>
      have this : v i ≠ none := this
      show w i ≠ none
      cases e : v i with
      | none => exact absurd e this
      | some p => rw [h i p e]; simp

theorem Fits.append {v : View} : ∀ {ks ls : List Call} {n : Nat}, Fits v n (ks ++ ls) ↔ Fits v n ks ∧ Fits v (n + ks.length) ls
  | [], _, _ => by simp [Fits]
  | _ :: ks, ls, n => by
    show _ ∧ Fits v (n + 1) (ks ++ ls) ↔ (_ ∧ Fits v (n + 1) ks) ∧ _
    rw [Fits.append, List.length_cons, and_assoc, show n + 1 + ks.length = n + (ks.length + 1) by omega]

theorem CarriedOut.mono {v w : View} (h : v.Sub w) : ∀ {ks : List Call} {rs rs' : List Nat}, CarriedOut v ks rs rs' →
    CarriedOut w ks rs rs'
  | [], _, _, e => e
  | _ :: _, _, _, ⟨a, b, i, h1, h2, h3, h4⟩ => ⟨a, b, i, h1, h2, h i _ h3, h4.mono h⟩

/-- Results so far are kept. -/
theorem CarriedOut.prefix {v : View} : ∀ {ks : List Call} {rs rs' : List Nat}, CarriedOut v ks rs rs' → ∀ i ∈ rs, i ∈ rs'
  | [], _, _, e, i, hi => by rw [show _ = _ from e]; exact hi
  | _ :: _, _, _, ⟨_, _, _, _, _, _, h4⟩, i, hi => h4.prefix i (List.mem_append_left _ hi)

theorem CarriedOut.congr {v w : View} : ∀ {ks : List Call} {rs rs' : List Nat}, CarriedOut v ks rs rs' →
    (∀ i ∈ rs', w i = v i) → CarriedOut w ks rs rs'
  | [], _, _, e, _ => e
  | _ :: _, _, _, ⟨a, b, i, h1, h2, h3, h4⟩, h =>
    ⟨a, b, i, h1, h2, by rw [h i (h4.prefix i (by simp))]; exact h3, h4.congr h⟩

variable {S : Type} {D : Links S} {J : S → Prop}

/-- Each operand stands for a link. -/
theorem operand {v : View} {rs : List Nat} (hrs : ∀ i ∈ rs, v i ≠ none) {o : Operand}
    (h : match o with | .link i => v i ≠ none | .result j => j < rs.length) : ∃ a, o.eval rs = some a ∧ v a ≠ none := by
  cases o with
  | link i => exact ⟨i, rfl, h⟩
  | result j =>
    have h : j < rs.length := h
    exact ⟨rs[j], by simp [Operand.eval, h], hrs _ (List.getElem_mem h)⟩

theorem sub_set {v : View} {i : Nat} (h : v i = none) (p : Nat × Nat) : v.Sub (v.set i p) := by
  intro k q hk
  rw [View.set_other]
  · exact hk
  · rintro rfl; rw [h] at hk; cases hk

/-- A script runs through: it returns, no link changes, and if no call failed then it is carried out, its results being the only
links that can be new. -/
theorem run_law (hJ : Law D J) : ∀ (ks : List Call) {s : S} {rs : List Nat}, J s → (∀ i ∈ rs, D.view s i ≠ none) →
    Fits (D.view s) rs.length ks → ∃ o, run D ks rs s = some o ∧ J o.st ∧ (D.view s).Sub (D.view o.st) ∧
      ∀ rs', o.res = .ok rs' → CarriedOut (D.view o.st) ks rs rs' ∧
        ∀ k, D.view o.st k ≠ none → D.view s k ≠ none ∨ k ∈ rs'
  | [], s, rs, hs, _, _ => ⟨_, rfl, hs, .refl _, fun rs' e => by cases e; exact ⟨rfl, fun _ h => .inl h⟩⟩
  | k :: ks, s, rs, hs, hrs, ⟨h1, h2⟩ => by
    obtain ⟨a, ea, ha⟩ := operand hrs (h1 k.source (.inl rfl))
    obtain ⟨b, eb, hb⟩ := operand hrs (h1 k.target (.inr rfl))
    have step : ∀ {i : Nat} {s' : S}, J s' → (D.view s).Sub (D.view s') → D.view s' i = some (a, b) →
        (∀ k, D.view s' k ≠ none → D.view s k ≠ none ∨ k = i) →
        ∃ o, run D ks (rs ++ [i]) s' = some o ∧ J o.st ∧ (D.view s).Sub (D.view o.st) ∧
          ∀ rs', o.res = .ok rs' → CarriedOut (D.view o.st) (k :: ks) rs rs' ∧
            ∀ k, D.view o.st k ≠ none → D.view s k ≠ none ∨ k ∈ rs' := by
      intro i s' hj hsub hi hnew
      obtain ⟨o, g1, g2, g3, g4⟩ := run_law hJ ks (s := s') (rs := rs ++ [i]) hj (by
        intro m hm
        rcases List.mem_append.mp hm with hm | hm
        · cases e : D.view s m with
          | none => exact absurd e (hrs m hm)
          | some p => rw [hsub m p e]; simp
        · rw [List.mem_singleton.mp hm, hi]; simp) (by
        rw [List.length_append]; exact h2.mono hsub)
      refine ⟨o, g1, g2, hsub.trans g3, fun rs' e => ?_⟩
      obtain ⟨k1, k2⟩ := g4 rs' e
      refine ⟨⟨a, b, i, ea, eb, g3 i _ hi, k1⟩, fun m hm => ?_⟩
      rcases k2 m hm with hm | hm
      · rcases hnew m hm with hm | rfl
        · exact .inl hm
        · exact .inr (k1.prefix m (by simp))
      · exact .inr hm
    unfold run
    rw [ea, Option.bind_some, eb, Option.bind_some]
    rcases hJ s hs a b ha hb with ⟨i, g1, -, g3⟩ | ⟨-, ⟨e, g⟩ | ⟨i, s', g1, g2, g3, g4⟩⟩
    · rw [g3, Option.bind_some]
      exact step hs (.refl _) g1 fun _ h => .inl h
    · rw [g, Option.bind_some]
      exact ⟨_, rfl, hs, .refl _, fun _ h => by cases h⟩
    · rw [g4, Option.bind_some]
      refine step g2 (by rw [g3]; exact sub_set g1 _) (by rw [g3, View.set_same]) fun m hm => ?_
      by_cases e : m = i
      · exact .inr e
      · rw [g3, View.set_other _ _ e] at hm; exact .inl hm

/-- A script that is carried out is found: the calls return the same links, change nothing, and the rest follows. -/
theorem run_again (hJ : Law D J) : ∀ (ks ls : List Call) {s : S} {rs rs' : List Nat}, J s → (∀ i ∈ rs, D.view s i ≠ none) →
    Fits (D.view s) rs.length ks → CarriedOut (D.view s) ks rs rs' → run D (ks ++ ls) rs s = run D ls rs' s
  | [], _, _, _, _, _, _, _, e => by rw [show _ = _ from e]; rfl
  | k :: ks, ls, s, rs, rs', hs, hrs, ⟨h1, h2⟩, ⟨a, b, i, ea, eb, hi, h4⟩ => by
    obtain ⟨a', ea', ha⟩ := operand hrs (h1 k.source (.inl rfl))
    obtain ⟨b', eb', hb⟩ := operand hrs (h1 k.target (.inr rfl))
    rw [ea] at ea'; cases ea'
    rw [eb] at eb'; cases eb'
    have ih := run_again hJ ks ls (s := s) (rs := rs ++ [i]) hs (by
      intro m hm
      rcases List.mem_append.mp hm with hm | hm
      · exact hrs m hm
      · rw [List.mem_singleton.mp hm, hi]; simp) (by rw [List.length_append]; exact h2) h4
    rw [List.cons_append]
    conv => lhs; unfold run
    rw [ea, Option.bind_some, eb, Option.bind_some]
    rcases hJ s hs a b ha hb with ⟨j, -, g2, g3⟩ | ⟨g, -⟩
    · rw [g3, Option.bind_some, ← g2 i hi]
      exact ih
    · exact absurd hi (g i)

end Verif.Script
