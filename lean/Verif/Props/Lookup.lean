import Verif.Unit.ReachLawful
import Verif.Unit.Example
import Verif.Split.Reach
import Verif.Split.Example
import Verif.DerivedLaws

/-!
# C71: `exist`, `try_get_link` and `search_or`
-/

namespace Verif

/-- The constants of the store declare `i` a reference to something outside of it. -/
def Consts.External (k : Consts) (i : Nat) : Prop := ∃ r, k.external = some r ∧ r.1 ≤ i ∧ i ≤ r.2

namespace Links
variable {S : Type} {D : Links S} (W : Lawful D) {s : S}

theorem exist_law (hs : W.Inv s) (hb : ∀ i, D.view s i ≠ none → (D.consts s).internalStart ≤ i ∧ i ≤ (D.consts s).internalEnd)
    (hany : (D.consts s).internalEnd < (D.consts s).any) (i : Nat) :
    ∃ b, D.exist s i = some b ∧ (b = true ↔ (D.consts s).External i ∨ D.view s i ≠ none) := by
  unfold exist
  simp only
  by_cases he : (D.consts s).External i
  · refine ⟨true, ?_, by simp [he]⟩
    obtain ⟨r, h1, h2, h3⟩ := he
    rw [h1]
    simp [h2, h3]
  · have key : ∃ b, (if (D.consts s).internalStart ≤ i ∧ i ≤ (D.consts s).internalEnd then
        (D.countBy s [i]).map (· != 0) else some false) = some b ∧
        (b = true ↔ (D.consts s).External i ∨ D.view s i ≠ none) := by
      by_cases hi : (D.consts s).internalStart ≤ i ∧ i ≤ (D.consts s).internalEnd
      · rw [if_pos hi]
        show ∃ b, (D.countLinks s [i]).map (· != 0) = some b ∧ _
        rw [W.count_index s hs i (by omega)]
        refine ⟨_, rfl, ?_⟩
        cases hv : D.view s i <;> simp [he]
      · rw [if_neg hi]
        refine ⟨false, rfl, ?_⟩
        simp only [Bool.false_eq_true, he, false_or, false_iff]
        exact fun h => hi (hb i h)
    split
    · exact key
    · next r hr =>
      rw [if_neg]
      · exact key
      · intro h
        simp only [Bool.and_eq_true, decide_eq_true_eq] at h
        exact he ⟨r, hr, h⟩

theorem tryGetLink_law (hs : W.Inv s) (i : Nat) :
    (D.getLink s i = some none → D.tryGetLink s i = some (.error (.notExists i))) ∧
    (∀ l, D.getLink s i = some (some l) → D.tryGetLink s i = some (.ok l)) := by
  unfold tryGetLink
  exact ⟨fun h => by rw [h]; rfl, fun l h => by rw [h]; rfl⟩

theorem searchOr_law (hs : W.Inv s) {x y : Nat} (hx : x ≠ 0) (hxa : x ≠ (D.consts s).any) (hy : y ≠ 0)
    (hya : y ≠ (D.consts s).any) (d : Nat) :
    ((∀ i, D.view s i ≠ some (x, y)) ∧ D.searchOr s x y d = some d) ∨
    ∃ i, D.searchOr s x y d = some i ∧ D.view s i = some (x, y) := by
  unfold searchOr
  rcases search_law W hs hx hxa hy hya with ⟨h1, h2⟩ | ⟨i, h1, h2⟩
  · exact .inl ⟨h2, by rw [h1]; rfl⟩
  · exact .inr ⟨i, by rw [h1]; rfl, h2⟩

theorem view_none_iff (hs : W.Inv s) (i : Nat) : D.view s i = none ↔ D.getLink s i = some none := by
  rw [W.get s hs]
  cases D.view s i <;> simp

theorem view_some_iff (hs : W.Inv s) (i a b : Nat) : D.view s i = some (a, b) ↔ D.getLink s i = some (some ⟨i, a, b⟩) := by
  rw [W.get s hs]
  cases h : D.view s i with
  | none => simp
  | some p => obtain ⟨p1, p2⟩ := p; simp

end Links

namespace Unit.Props
open Links

/-- **C71**, united store. `exist(i)` is true exactly if the constants declare `i` external or there is a link `i`; it never panics. -/
theorem C71_exist {c : Cfg} (hc : CfgOK c) {s : Store} (h : Reach c s) (i : Nat) :
    ∃ b, (links c).exist s i = some b ∧ (b = true ↔ c.consts.External i ∨ ∃ l, (links c).getLink s i = some (some l)) := by
  obtain ⟨free, ts, tt, hi⟩ := reach_good hc h
  obtain ⟨b, h1, h2⟩ := exist_law (reachLawful hc) h (fun j hj => by
    rw [view_eq hc hi.toInv0] at hj
    by_cases hl : LiveIn s free j
    · exact ⟨Nat.le_trans (Nat.le_of_eq hc.start_eq) hl.1, Nat.le_trans hl.2.1 hi.base.alloc_le⟩
    · simp [hl] at hj) hc.end_lt_any i
  refine ⟨b, h1, h2.trans (or_congr_right ?_)⟩
  rw [(reachLawful hc).get s h]
  cases (links c).view s i <;> simp

/-- **C71**, united store. `try_get_link(i)` is the link, or NotExists(i) if there is none. -/
theorem C71_try_get_link {c : Cfg} (hc : CfgOK c) {s : Store} (h : Reach c s) (i : Nat) :
    (∃ l, l.index = i ∧ (links c).getLink s i = some (some l) ∧ (links c).tryGetLink s i = some (.ok l)) ∨
    ((links c).getLink s i = some none ∧ (links c).tryGetLink s i = some (.error (.notExists i))) := by
  cases hv : (links c).view s i with
  | none =>
    have := (view_none_iff (reachLawful hc) h i).1 hv
    exact .inr ⟨this, (tryGetLink_law (reachLawful hc) h i).1 this⟩
  | some p =>
    have := (view_some_iff (reachLawful hc) h i p.1 p.2).1 hv
    exact .inl ⟨_, rfl, this, (tryGetLink_law (reachLawful hc) h i).2 _ this⟩

/-- **C71**, united store. For ends that are neither null nor the wildcard, `search_or(x, y, d)` is the index of a link
(x, y), or `d` if there is no such link. -/
theorem C71_search_or {c : Cfg} (hc : CfgOK c) {s : Store} (h : Reach c s) {x y : Nat} (hx : x ≠ 0) (hxa : x ≠ c.consts.any)
    (hy : y ≠ 0) (hya : y ≠ c.consts.any) (d : Nat) :
    (∃ i, (links c).searchOr s x y d = some i ∧ (links c).getLink s i = some (some ⟨i, x, y⟩)) ∨
    ((links c).searchOr s x y d = some d ∧ ∀ i, (links c).getLink s i ≠ some (some ⟨i, x, y⟩)) := by
  rcases searchOr_law (reachLawful hc) h hx hxa hy hya d with ⟨h1, h2⟩ | ⟨i, h1, h2⟩
  · exact .inr ⟨h2, fun i hi => h1 i ((view_some_iff (reachLawful hc) h i x y).2 hi)⟩
  · exact .inl ⟨i, h1, (view_some_iff (reachLawful hc) h i x y).1 h2⟩

/-- On `sNet` 6 is (3,2), 9 is no link, and with an external range the indices in it exist. -/
example : Reach cfg0 sNet ∧ (links cfg0).exist sNet 6 = some true ∧ (links cfg0).exist sNet 9 = some false ∧
    (links cfg0).searchOr sNet 3 2 77 = some 6 ∧ (links cfg0).searchOr sNet 2 6 77 = some 77 ∧
    (links cfg0).tryGetLink sNet 9 = some (.error (.notExists 9)) ∧
    (links { cfg0 with consts := { consts0 with external := some (120, 240) } }).exist sNet 130 = some true :=
  ⟨sNet_reach, by decide +kernel, by decide +kernel, by decide +kernel, by decide +kernel, by decide +kernel,
   by decide +kernel⟩

end Unit.Props

namespace Split.Props
open Links

/-- **C71**, split store: `exist`. -/
theorem C71_split_exist {c : Cfg} (hc : CfgOK c) {s : Store} (h : Reach c s) (i : Nat) :
    ∃ b, (links c).exist s i = some b ∧ (b = true ↔ c.consts.External i ∨ ∃ l, (links c).getLink s i = some (some l)) := by
  obtain ⟨free, hi⟩ := reach_good hc h
  obtain ⟨b, h1, h2⟩ := exist_law (reachLawful hc) h (fun j hj => by
    rw [view_eq hc hi.toInv0] at hj
    by_cases hl : LiveIn s free j
    · exact ⟨Nat.le_trans (Nat.le_of_eq hc.start_eq) hl.1, Nat.le_trans hl.2.1 hi.base.alloc_le⟩
    · simp [hl] at hj) hc.end_lt_any i
  refine ⟨b, h1, h2.trans (or_congr_right ?_)⟩
  rw [(reachLawful hc).get s h]
  cases (links c).view s i <;> simp

/-- **C71**, split store: `try_get_link`. -/
theorem C71_split_try_get_link {c : Cfg} (hc : CfgOK c) {s : Store} (h : Reach c s) (i : Nat) :
    (∃ l, l.index = i ∧ (links c).getLink s i = some (some l) ∧ (links c).tryGetLink s i = some (.ok l)) ∨
    ((links c).getLink s i = some none ∧ (links c).tryGetLink s i = some (.error (.notExists i))) := by
  cases hv : (links c).view s i with
  | none =>
    have := (view_none_iff (reachLawful hc) h i).1 hv
    exact .inr ⟨this, (tryGetLink_law (reachLawful hc) h i).1 this⟩
  | some p =>
    have := (view_some_iff (reachLawful hc) h i p.1 p.2).1 hv
    exact .inl ⟨_, rfl, this, (tryGetLink_law (reachLawful hc) h i).2 _ this⟩

/-- **C71**, split store: `search_or`. -/
theorem C71_split_search_or {c : Cfg} (hc : CfgOK c) {s : Store} (h : Reach c s) {x y : Nat} (hx : x ≠ 0)
    (hxa : x ≠ c.consts.any) (hy : y ≠ 0) (hya : y ≠ c.consts.any) (d : Nat) :
    (∃ i, (links c).searchOr s x y d = some i ∧ (links c).getLink s i = some (some ⟨i, x, y⟩)) ∨
    ((links c).searchOr s x y d = some d ∧ ∀ i, (links c).getLink s i ≠ some (some ⟨i, x, y⟩)) := by
  rcases searchOr_law (reachLawful hc) h hx hxa hy hya d with ⟨h1, h2⟩ | ⟨i, h1, h2⟩
  · exact .inr ⟨h2, fun i hi => h1 i ((view_some_iff (reachLawful hc) h i x y).2 hi)⟩
  · exact .inl ⟨i, h1, (view_some_iff (reachLawful hc) h i x y).1 h2⟩

example : Reach cfg0 sNet ∧ (links cfg0).exist sNet 6 = some true ∧ (links cfg0).exist sNet 9 = some false ∧
    (links cfg0).searchOr sNet 5 3 77 = some 6 ∧ (links cfg0).searchOr sNet 3 5 77 = some 77 ∧
    (links cfg0).tryGetLink sNet 9 = some (.error (.notExists 9)) :=
  ⟨sNet_reach, by decide +kernel, by decide +kernel, by decide +kernel, by decide +kernel, by decide +kernel⟩

end Split.Props

end Verif
