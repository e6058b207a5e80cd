import Verif.Split.NullQuery
import Verif.Props.SplitNull

/-!
# C95: the methods of the split store that tell which indices are in use

`exists`, `is_unused`, `is_virtual` and `get_data_part` are public methods of `split::Store` beside the `Doublets` interface.
-/

namespace Verif.Split.Props
open Verif Verif.Split
variable {c : Cfg}

/-- `is_virtual` (`store.rs:329-331`). -/
def isVirtual (s : Store) (i : Nat) : Option Bool := isUnused s i

/-- **C95**: after every history `exists` says of every number whether there is a link with that index. -/
theorem C95_exists (hc : CfgOK c) {s : Store} (h : Reach c s) (i : Nat) :
    exists? c s i = some ((links c).view s i).isSome := by
  obtain ⟨free, hi⟩ := reach_good hc h
  have e : (links c).view s i = _ := view_eq hc hi.toInv0 i
  rw [exists_eq hc hi.net hi.exact i, e]
  by_cases hl : LiveIn s free i <;> simp [hl]

/-- `sGap` has the links 2, 3 and 4. -/
example : Reach cfg0 sGap ∧ (List.range 7).map (exists? cfg0 sGap) =
    [some false, some false, some true, some true, some true, some false, some false] :=
  ⟨sGap_reach, by decide +kernel⟩

/-- **C95**: `is_unused` and `is_virtual` say of every number but 0 whether there is no link with that index. Missing because false:
0 (`C95_null_may_seem_used`). -/
theorem C95_is_unused_partial (hc : CfgOK c) {s : Store} (h : Reach c s) {i : Nat} (h0 : i ≠ 0) :
    isUnused s i = some ((links c).view s i).isNone ∧ isVirtual s i = some ((links c).view s i).isNone := by
  obtain ⟨free, hi⟩ := reach_good hc h
  have e : (links c).view s i = _ := view_eq hc hi.toInv0 i
  have : isUnused s i = some ((links c).view s i).isNone := by
    rw [isUnused_any hi.toInv0, e]
    by_cases hl : LiveIn s free i <;> simp [hl, h0]
  exact ⟨this, this⟩

example : Reach cfg0 sGap ∧ (List.range 6).map (fun i => isVirtual sGap (i + 1)) =
    [some true, some false, some false, some false, some true, some true] :=
  ⟨sGap_reach, by decide +kernel⟩

/-- **C95**: 0 is never the index of a link, and `is_unused` says that it is not unused exactly when there is an index below the
highest one in use that is free. -/
theorem C95_null_may_seem_used (hc : CfgOK c) {s : Store} (h : Reach c s) :
    (links c).view s 0 = none ∧ (isUnused s 0 = some true ∨ isUnused s 0 = some false) ∧
    (isUnused s 0 = some false ↔ ∃ i j, 0 < i ∧ i < j ∧ (links c).view s i = none ∧ (links c).view s j ≠ none) := by
  obtain ⟨free, hi⟩ := reach_good hc h
  have e : ∀ i, (links c).view s i = _ := view_eq hc hi.toInv0
  refine ⟨by rw [e, if_neg fun hl => by have := hl.1; omega], ?_, ?_⟩
  · rw [isUnused_null hi.base]
    by_cases hf : free = [] <;> simp [hf]
  rw [isUnused_null hi.base, Option.some.injEq, decide_eq_false_iff_not]
  constructor
  · intro hf
    obtain ⟨x, rest, rfl⟩ := List.exists_cons_of_ne_nil hf
    have hx : x ∈ x :: rest := List.mem_cons_self
    have h1 := hi.base.list.nonzero x hx
    have h2 := hi.free_lt x hx
    refine ⟨x, s.hdr.allocated, by omega, h2, by rw [e, if_neg fun hl => hl.2.2 hx], ?_⟩
    rw [e, if_pos ⟨by omega, Nat.le_refl _, fun hm => by have := hi.free_lt _ hm; omega⟩]
    exact nofun
  · rintro ⟨i, j, h1, h2, h3, h4⟩ rfl
    rw [e] at h3 h4
    have hj : LiveIn s [] j := Decidable.byContradiction fun hh => h4 (if_neg hh)
    rw [if_pos ⟨h1, by have := hj.2.1; omega, List.not_mem_nil⟩] at h3
    cases h3

/-- Of the two stores the first has no gap. -/
example : Reach cfg0 sFull ∧ isUnused sFull 0 = some true ∧ Reach cfg0 sGap ∧ isUnused sGap 0 = some false :=
  ⟨sFull_reach, by decide +kernel, sGap_reach, by decide +kernel⟩

/-- **C95**: `get_data_part` returns the ends of every link. -/
theorem C95_get_data_part (hc : CfgOK c) {s : Store} (h : Reach c s) {l : Link} (hl : ((links c).view s).Has l) :
    s.getD l.index = some (l.source, l.target) := by
  obtain ⟨free, hi⟩ := reach_good hc h
  obtain ⟨h1, h2⟩ := (has_iff hc hi.toInv0 l).1 hl
  have := live_lt hi.base h1
  rw [show s.getD l.index = some (s.data l.index) by simp [Store.getD, hi.base.fresh, hi.base.len_eq, this], h2]
  rfl

example : ((links cfg0).view sGap).Has ⟨3, 1, 2⟩ ∧ sGap.getD 3 = some (1, 2) :=
  ⟨by show (links cfg0).view sGap 3 = some (1, 2); decide +kernel, by decide +kernel⟩

/-- **C95**: `get_data_part` also returns something for every index that has no link, up to the size of the memory: it does not tell
whether there is a link. Beyond the memory it panics. -/
theorem C95_get_data_part_of_no_link (hc : CfgOK c) {s : Store} (h : Reach c s) (i : Nat) :
    (i < s.dlen → ∃ p, s.getD i = some p) ∧ (s.dlen ≤ i → s.getD i = none) := by
  obtain ⟨free, hi⟩ := reach_good hc h
  exact ⟨fun hl => ⟨s.data i, by simp [Store.getD, hi.base.fresh, hl]⟩, fun hl => by simp [Store.getD, Nat.not_lt.2 hl]⟩

/-- The slot of the deleted link 1 holds a link of the list of free indices. -/
example : (links cfg0).view sGap 1 = none ∧ sGap.getD 1 = some (1, 1) ∧ sGap.getD 100 = none := by decide +kernel

end Verif.Split.Props
