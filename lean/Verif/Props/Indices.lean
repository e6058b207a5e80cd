import Verif.Unit.History
import Verif.Split.History
import Verif.Unit.Example
import Verif.Split.Example
import Verif.SpecLemmas

/-!
# C50: indices stay dense

No link ever gets an index above the largest number of links that existed at the same time.
-/

namespace Verif

/-- At some moment of the history `tr` the store held at least `n` links. -/
def HeldAtOnce (tr : List (Call × Except Err Nat)) (n : Nat) : Prop :=
  ∃ pre suf m, tr = pre ++ suf ∧ (replay pre).Size m ∧ n ≤ m

theorem lastUsed_le (free : List Nat) : ∀ n, lastUsed free n ≤ n
  | 0 => by simp [lastUsed]
  | n + 1 => by
    unfold lastUsed
    split
    · exact Nat.le_succ_of_le (lastUsed_le free n)
    · exact Nat.le_refl _

theorem HeldAtOnce.snoc {tr : List (Call × Except Err Nat)} {n : Nat} (h : HeldAtOnce tr n)
    (e : Call × Except Err Nat) : HeldAtOnce (tr ++ [e]) n := by
  obtain ⟨pre, suf, m, rfl, h2, h3⟩ := h
  exact ⟨pre, suf ++ [e], m, by simp, h2, h3⟩

/-- A call raises the top only if nothing is free, and then every index up to the new top is in use. -/
theorem held_step {tr : List (Call × Except Err Nat)} {k : Call} {r : Except Err Nat}
    (hl : ∀ i, replay (tr ++ [(k, r)]) i ≠ none ↔ 1 ≤ i ∧ i ≤ (slots (tr ++ [(k, r)])).top ∧
      i ∉ (slots (tr ++ [(k, r)])).free)
    (hd : ∀ i, replay tr i ≠ none → i ≤ (slots tr).top)
    (hk : k.Legit (replay tr) r) (h : HeldAtOnce tr (slots tr).top) :
    HeldAtOnce (tr ++ [(k, r)]) (slots (tr ++ [(k, r)])).top := by
  have hle : (slots (tr ++ [(k, r)])).top ≤ (slots tr).top →
      HeldAtOnce (tr ++ [(k, r)]) (slots (tr ++ [(k, r)])).top := by
    intro hle
    obtain ⟨pre, suf, m, h1, h2, h3⟩ := h.snoc (k, r)
    exact ⟨pre, suf, m, h1, h2, Nat.le_trans hle h3⟩
  cases k with
  | update i a b => exact hle (by rw [Unit.slots_snoc]; cases r <;> exact Nat.le_refl _)
  | create =>
    cases r with
    | error e => exact hle (by rw [Unit.slots_snoc]; exact Nat.le_refl _)
    | ok i =>
      cases hf : (slots tr).free with
      | cons x rest => exact hle (by rw [Unit.slots_snoc]; simp [Slots.apply, hf])
      | nil =>
        refine ⟨_, [], _, (List.append_nil _).symm,
          ⟨List.range' 1 (slots (tr ++ [(.create, .ok i)])).top, List.nodup_range', by simp, fun j => ?_⟩,
          Nat.le_refl _⟩
        have e : (slots (tr ++ [(.create, .ok i)])).free = [] := by
          rw [Unit.slots_snoc]; simp [Slots.apply, hf]
        rw [hl, e, List.mem_range'_1]
        simp only [List.not_mem_nil, not_false_eq_true, and_true]
        omega
  | delete i =>
    cases r with
    | error e => exact hle (by rw [Unit.slots_snoc]; exact Nat.le_refl _)
    | ok x =>
      refine hle ?_
      rw [Unit.slots_snoc]
      simp only [Slots.apply]
      split
      · exact Nat.le_refl _
      · have h1 := hd i hk.1
        have h2 := lastUsed_le (slots tr).free (i - 1)
        show lastUsed (slots tr).free (i - 1) ≤ _
        omega

end Verif

namespace Verif.Unit
open Verif
variable {c : Cfg}

theorem HInv.live (hc : CfgOK c) {s : Store} {tr} (h : HInv c s tr) (i : Nat) :
    replay tr i ≠ none ↔ 1 ≤ i ∧ i ≤ (slots tr).top ∧ i ∉ (slots tr).free := by
  obtain ⟨⟨ts, tt, hi⟩, htop, hv, -⟩ := h
  rw [← hv, view_eq hc hi.toInv0, ← htop]
  by_cases hl : LiveIn s (slots tr).free i
  · rw [if_pos hl]; simp only [ne_eq, reduceCtorEq, not_false_eq_true, true_iff]; exact hl
  · rw [if_neg hl]; simp only [ne_eq, not_true_eq_false, false_iff]; exact hl

theorem held_top (hc : CfgOK c) {s : Store} {tr} (h : History c s tr) : HeldAtOnce tr (slots tr).top := by
  induction h with
  | fresh a ha h => exact ⟨[], [], 0, rfl, ⟨[], .nil, rfl, by simp [replay, View.empty]⟩, Nat.le_refl _⟩
  | @call a k s tr o h ha ht ho ih =>
    have h0 := history_inv hc h
    have h1 := history_inv hc (.call a k h ha ht ho)
    exact held_step (h1.1.live hc) (fun j hj => ((h0.1.live hc j).1 hj).2.1) (h1.2 tr k o.res [] rfl) ih
  | reopen a n h ha hin hlt ih => exact ih

/-- **C50**, united store: after every history, an index that names a link is at most the number of links that
existed at once at some moment of the history. -/
theorem C50_dense_indices (hc : CfgOK c) {s : Store} {tr} (h : History c s tr) {i : Nat}
    (hi : (links c).view s i ≠ none) : HeldAtOnce tr i := by
  obtain ⟨h1, -⟩ := history_inv hc h
  rw [h1.view] at hi
  obtain ⟨pre, suf, m, g1, g2, g3⟩ := held_top hc h
  exact ⟨pre, suf, m, g1, g2, Nat.le_trans ((h1.live hc i).1 hi).2.1 g3⟩

/-- Five creations and two deletions, never more than three links at once. -/
def churn : List Call :=
  [.create, .create, .create, .delete 1, .delete 2, .create, .create, .update 1 2 3, .delete 3, .create]

example : History cfg0 (runs cfg0 churn) (trace cfg0 churn) ∧
    (List.range 6).map ((links cfg0).view (runs cfg0 churn)) =
      [none, some (2, 3), some (0, 0), some (0, 0), none, none] :=
  ⟨runs_history (by decide +kernel), by decide +kernel⟩

end Verif.Unit

namespace Verif.Split
open Verif
variable {c : Cfg}

theorem HInv.live (hc : CfgOK c) {s : Store} {tr} (h : HInv c s tr) (i : Nat) :
    replay tr i ≠ none ↔ 1 ≤ i ∧ i ≤ (slots tr).top ∧ i ∉ (slots tr).free := by
  obtain ⟨hi, htop, hv, -⟩ := h
  rw [← hv, view_eq hc hi.toInv0, ← htop]
  by_cases hl : LiveIn s (slots tr).free i
  · rw [if_pos hl]; simp only [ne_eq, reduceCtorEq, not_false_eq_true, true_iff]; exact hl
  · rw [if_neg hl]; simp only [ne_eq, not_true_eq_false, false_iff]; exact hl

theorem held_top (hc : CfgOK c) {s : Store} {tr} (h : History c s tr) : HeldAtOnce tr (slots tr).top := by
  induction h with
  | fresh d i hd hi h => exact ⟨[], [], 0, rfl, ⟨[], .nil, rfl, by simp [replay, View.empty]⟩, Nat.le_refl _⟩
  | @call d i k s tr o h hd hi hg ho hok ih =>
    have h0 := history_inv hc h
    have h1 := history_inv hc (.call d i k h hd hi hg ho hok)
    exact held_step (h1.1.live hc) (fun j hj => ((h0.1.live hc j).1 hj).2.1) (h1.2 tr k o.res [] rfl) ih
  | reopen d i n m h hd hi hin hlt ih => exact ih

/-- **C50**, split store. -/
theorem C50_dense_indices (hc : CfgOK c) {s : Store} {tr} (h : History c s tr) {i : Nat}
    (hi : (links c).view s i ≠ none) : HeldAtOnce tr i := by
  obtain ⟨h1, -⟩ := history_inv hc h
  rw [h1.view] at hi
  obtain ⟨pre, suf, m, g1, g2, g3⟩ := held_top hc h
  exact ⟨pre, suf, m, g1, g2, Nat.le_trans ((h1.live hc i).1 hi).2.1 g3⟩

/-- As `Unit.churn`, without leaving a link that refers to a deleted one. -/
def churn : List Call :=
  [.create, .create, .create, .delete 1, .delete 2, .create, .create, .update 1 2 2, .delete 3, .create]

example : History cfg0 (runs cfg0 churn) (trace cfg0 churn) ∧
    (List.range 6).map ((links cfg0).view (runs cfg0 churn)) =
      [none, some (2, 2), some (0, 0), some (0, 0), none, none] :=
  ⟨runs_history (by decide +kernel), by decide +kernel⟩

end Verif.Split
