import Verif.Props.Reopen

/-!
# C78: opening a memory with arbitrary contents

The files a store is opened on are not checked. Whatever they contain, lookups, the traversal of everything and the total read
inside the mapped memory, with one exception that is stated exactly. Searches and traversals by an end follow the
trees in the file and can run out of the memory or never end.
-/

namespace Verif.Unit.Props
open Verif

variable {c : Cfg}

/-- **C78**, united store: open any memory `m`. Looking up an index returns, unless the index is the number of mapped slots,
the header claims just as many links and the index is not the first unused one. A link that is found has the index asked for, which
is not beyond what the header claims, and the ends in its slot. -/
theorem C78_lookup_in_any_memory (hc : CfgOK c) {m s : Store} (ho : init c m = some (.ok s)) (i : Nat) :
    ((links c).getLink s i = none ↔ i = s.len ∧ i = m.hdr.allocated ∧ i ≠ m.hdr.firstFree) ∧
    ∀ l, (links c).getLink s i = some (some l) →
      l = ⟨i, (m.cell i).source, (m.cell i).target⟩ ∧ 1 ≤ i ∧ i ≤ m.hdr.allocated := by
  obtain ⟨n1, n2, -, -, h2, -, rfl⟩ := (C72_open_iff hc _ _).1 ho
  have hge := hc.alloc_ge _ _ _ h2
  have hst := hc.step_pos
  have h3 := Nat.le_trans (Nat.le_max_right c.step m.hdr.allocated) hge
  have h4 := Nat.le_trans (Nat.le_max_left c.step m.hdr.allocated) hge
  show (getLink c _ i = none ↔ i = n2 ∧ _) ∧ ∀ l, getLink c _ i = some (some l) → _
  by_cases hb : 1 ≤ i ∧ i ≤ m.hdr.allocated
  · by_cases hf : m.hdr.firstFree = i
    · simp [getLink, exists?, hc.start_eq, isUnused, hb, hf]
    · by_cases hl : i < n2
      · have hi0 : i ≠ 0 := by omega
        have hne : ¬ i = n2 := by omega
        simp only [getLink, exists?, hc.start_eq, hb, and_self, if_true, isUnused, hf, not_false_eq_true, ne_eq, Store.get, hl,
          hi0, if_false, Option.map_some, Option.bind_some, getLinkUnchecked, hne, false_and, iff_false]
        split <;> simp [eq_comm]
      · have e1 : i = n2 := by omega
        have e2 : i = m.hdr.allocated := by omega
        have : getLink c { m with len := n2, hdr := { m.hdr with reserved := n2 - 1 } } i = none := by
          simp [getLink, exists?, hc.start_eq, hb, isUnused, hf, Store.get, hl]
        rw [this]
        exact ⟨⟨fun _ => ⟨e1, e2, fun h => hf h.symm⟩, fun _ => rfl⟩, fun l h => nomatch h⟩
  · have : ¬ (i = n2 ∧ i = m.hdr.allocated ∧ i ≠ m.hdr.firstFree) := by
      intro h; omega
    simp [getLink, exists?, hc.start_eq, hb, this]

theorem eachIdx_run {s : Store} {σ : Type} (h : RH σ) : ∀ (ks : List Nat) (st : σ), (∀ k ∈ ks, getLink c s k ≠ none) →
    eachIdx c s h ks st = some (runH h (ks.filterMap fun k => (getLink c s k).join) st) := by
  intro ks
  induction ks with
  | nil => intro st _; rfl
  | cons k ks ih =>
    intro st hk
    have ih := fun st => ih st fun j hj => hk j (by simp [hj])
    have h1 := hk k (by simp)
    simp only [eachIdx]
    cases hg : getLink c s k with
    | none => exact absurd hg h1
    | some o =>
      cases o with
      | none => simp [hg, ih]
      | some l =>
        simp only [List.filterMap_cons, hg, Option.join, Option.bind_some, id, runH, ih]
        rcases h st l with ⟨_ | _, st'⟩ <;> simp [andThen]

theorem eachIdx_stuck {s : Store} {σ : Type} (h : RH σ) (hh : ∀ st l, (h st l).1 = .cont) : ∀ (ks : List Nat) (st : σ),
    (∃ k ∈ ks, getLink c s k = none) → eachIdx c s h ks st = none := by
  intro ks
  induction ks with
  | nil => rintro st ⟨k, hk, -⟩; cases hk
  | cons k ks ih =>
    rintro st ⟨j, hj, hg⟩
    simp only [eachIdx]
    cases hk : getLink c s k with
    | none => rfl
    | some o =>
      have : ∃ k ∈ ks, getLink c s k = none := by
        rcases List.mem_cons.1 hj with rfl | hj
        · rw [hk] at hg; cases hg
        · exact ⟨j, hj, hg⟩
      cases o with
      | none => exact ih st this
      | some l =>
        have hcont := hh st l
        rcases hl : h st l with ⟨f, st'⟩
        rw [hl] at hcont
        simp only at hcont
        subst hcont
        simp [hl, andThen, ih st' this]

/-- **C78**, united store: open any memory. If every lookup returns, the traversal of everything visits exactly the links that lookups
find, in increasing order of their indices. If not, it runs out of the memory unless its handler breaks before. -/
theorem C78_traversal_of_any_memory (hc : CfgOK c) {m s : Store} (ho : init c m = some (.ok s)) :
    ((∀ i, (links c).getLink s i ≠ none) → ∃ L, (links c).Visits s [] L ∧ L.Pairwise (fun a b => a.index < b.index) ∧
      ∀ l, l ∈ L ↔ (links c).getLink s l.index = some (some l)) ∧
    ((∃ i, (links c).getLink s i = none) → ∀ (σ : Type) (h : RH σ), (∀ st l, (h st l).1 = .cont) →
      ∀ st, (links c).eachLinks s [] h st = none) := by
  have hs : s.hdr.allocated = m.hdr.allocated := by
    obtain ⟨n1, n2, -, -, -, -, rfl⟩ := (C72_open_iff hc _ _).1 ho
    rfl
  have hidx : ∀ i l, getLink c s i = some (some l) → l.index = i ∧ 1 ≤ i ∧ i ≤ m.hdr.allocated := by
    intro i l h
    obtain ⟨rfl, h1⟩ := (C78_lookup_in_any_memory hc ho i).2 l h
    exact ⟨rfl, h1⟩
  refine ⟨fun hall => ⟨(List.range' 1 s.hdr.allocated).filterMap fun k => (getLink c s k).join, fun σ h st => ?_, ?_, fun l => ?_⟩,
    ?_⟩
  · exact eachIdx_run h _ st fun k _ => hall k
  · rw [List.pairwise_filterMap]
    refine List.Pairwise.imp ?_ (List.pairwise_lt_range' (s := 1) (n := s.hdr.allocated))
    intro a b hab x hx y hy
    have e1 : getLink c s a = some (some x) := by
      cases hg : getLink c s a with
      | none => rw [hg] at hx; cases hx
      | some o => rw [hg] at hx; simpa [Option.join] using hx
    have e2 : getLink c s b = some (some y) := by
      cases hg : getLink c s b with
      | none => rw [hg] at hy; cases hy
      | some o => rw [hg] at hy; simpa [Option.join] using hy
    rw [(hidx _ _ e1).1, (hidx _ _ e2).1]
    exact hab
  · rw [List.mem_filterMap]
    constructor
    · rintro ⟨k, -, hk⟩
      have e1 : getLink c s k = some (some l) := by
        cases hg : getLink c s k with
        | none => rw [hg] at hk; cases hk
        | some o => rw [hg] at hk; simpa [Option.join] using hk
      show getLink c s l.index = _
      rw [(hidx _ _ e1).1]
      exact e1
    · intro h
      have h : getLink c s l.index = some (some l) := h
      refine ⟨l.index, ?_, by rw [h]; rfl⟩
      have := hidx _ _ h
      rw [List.mem_range'_1, hs]
      omega
  · rintro ⟨i, hi⟩ σ h hh st
    refine eachIdx_stuck h hh _ st ⟨i, ?_, hi⟩
    obtain ⟨h1, h2, h3⟩ := ((C78_lookup_in_any_memory hc ho i).1).1 hi
    obtain ⟨n1, n2, -, -, g2, -, rfl⟩ := (C72_open_iff hc _ _).1 ho
    have hge := hc.alloc_ge _ _ _ g2
    have hst := hc.step_pos
    have h4 := Nat.le_trans (Nat.le_max_left c.step m.hdr.allocated) hge
    have h1 : i = n2 := h1
    rw [List.mem_range'_1, hs]
    omega

/-- **C78**, united store: the total of any memory is what the header claims; it panics exactly if more slots are said to be unused
than used. -/
theorem C78_total_of_any_memory (hc : CfgOK c) {m s : Store} (ho : init c m = some (.ok s)) :
    ((links c).countLinks s [] = none ↔ m.hdr.allocated < m.hdr.free) ∧
    ∀ n, (links c).countLinks s [] = some n → n + m.hdr.free = m.hdr.allocated := by
  obtain ⟨n1, n2, -, -, -, -, rfl⟩ := (C72_open_iff hc _ _).1 ho
  show (csub m.hdr.allocated m.hdr.free = none ↔ _) ∧ ∀ n, csub m.hdr.allocated m.hdr.free = some n → _
  unfold csub
  split <;> simp <;> omega

/-- A damaged memory: the header claims six links of which nine are unused, the left child of node 1 is node 1. -/
def damaged : Store where
  hdr := { allocated := 6, free := 9, firstFree := 40, rootS := 1, rootT := 77 }
  cell := fun i => if i = 1 then { source := 5, target := 5, leftS := 1, sizeS := 3 } else { source := i, target := 200 }
  len := 3

/-- The damaged memory can be opened; a lookup works. -/
example : CfgOK cfg0 ∧ ∃ s, init cfg0 damaged = some (.ok s) ∧ (links cfg0).getLink s 1 = some (some ⟨1, 5, 5⟩) ∧
    (links cfg0).getLink s 2 = some none ∧ ∀ i, (links cfg0).getLink s i ≠ none := by
  have ho : init cfg0 damaged = some (.ok { damaged with len := 8, hdr := { damaged.hdr with reserved := 7 } }) := by rfl
  refine ⟨cfg0_ok, _, ho, by decide +kernel, by decide +kernel, fun i hi => ?_⟩
  obtain ⟨h1, h2, -⟩ := ((C78_lookup_in_any_memory cfg0_ok ho i).1).1 hi
  have h1 : i = 8 := h1
  have h2 : i = 6 := h2
  omega

/-- **C78**, counter-theorem: searching, traversing by an end and the total can fail to return on a damaged memory that opens well. -/
theorem C78_search_in_a_damaged_memory : ∃ s, init cfg0 damaged = some (.ok s) ∧
    (∀ {σ : Type} (h : RH σ) (st : σ), (links cfg0).eachLinks s [cfg0.consts.any, 1, 2] h st = none) ∧
    (∀ {σ : Type} (h : RH σ) (st : σ), (links cfg0).eachLinks s [cfg0.consts.any, cfg0.consts.any, 5] h st = none) ∧
    (links cfg0).countLinks s [] = none := by
  refine ⟨_, rfl, fun h st => ?_, fun h st => ?_, by decide +kernel⟩
  · have : srcSearch { damaged with len := 8, hdr := { damaged.hdr with reserved := 7 } } 1 2 = none := by decide +kernel
    show each3 cfg0 { damaged with len := 8, hdr := { damaged.hdr with reserved := 7 } } cfg0.consts.any 1 2 h st = none
    unfold each3
    rw [this]
    rfl
  · rfl

end Verif.Unit.Props

namespace Verif.Split.Props
open Verif

variable {c : Cfg}

/-- **C78**, split store: open any memory `m`. Looking up an index returns, unless the index is the number of mapped slots,
the header claims just as many links and the index is not the first unused one. A link that is found has the index asked for, which
is not beyond what the header claims, and the ends in its slot. -/
theorem C78_split_lookup_in_any_memory (hc : CfgOK c) {m s : Store} (ho : init c m = some (.ok s)) (i : Nat) :
    ((links c).getLink s i = none ↔ i = s.ilen ∧ i = m.hdr.allocated ∧ i ≠ m.hdr.firstFree) ∧
    ∀ l, (links c).getLink s i = some (some l) →
      l = ⟨i, (m.data i).1, (m.data i).2⟩ ∧ 1 ≤ i ∧ i ≤ m.hdr.allocated := by
  obtain ⟨-, n2, hS, -, -, -, -, -, rfl⟩ := (C72_split_open_iff hc _ _).1 ho
  have hst := hc.step_pos
  have h3 := hS.2.1
  have h4 := hS.2.2.2.1
  show (getLink c _ i = none ↔ i = n2 ∧ _) ∧ ∀ l, getLink c _ i = some (some l) → _
  by_cases hb : 1 ≤ i ∧ i ≤ m.hdr.allocated
  · by_cases hf : m.hdr.firstFree = i
    · simp [getLink, exists?, hc.start_eq, isUnused, hb, hf]
    · by_cases hl : i < n2
      · have hi0 : i ≠ 0 := by omega
        have hne : ¬ i = n2 := by omega
        simp only [getLink, exists?, hc.start_eq, hb, and_self, if_true, isUnused, hf, not_false_eq_true, ne_eq, Store.getI, Store.getD, hl,
          hi0, if_false, Option.map_some, Option.bind_some, getLinkUnchecked, hne, false_and, iff_false]
        split <;> simp [eq_comm]
      · have e1 : i = n2 := by omega
        have e2 : i = m.hdr.allocated := by omega
        have : getLink c { m with dlen := n2, ilen := n2, stale := false, hdr := { m.hdr with reserved := n2 - 1 } } i = none := by
          simp [getLink, exists?, hc.start_eq, hb, isUnused, hf, Store.getI, Store.getD, hl]
        rw [this]
        exact ⟨⟨fun _ => ⟨e1, e2, fun h => hf h.symm⟩, fun _ => rfl⟩, fun l h => nomatch h⟩
  · have : ¬ (i = n2 ∧ i = m.hdr.allocated ∧ i ≠ m.hdr.firstFree) := by
      intro h; omega
    simp [getLink, exists?, hc.start_eq, hb, this]

theorem eachIdx_run {s : Store} {σ : Type} (h : RH σ) : ∀ (ks : List Nat) (st : σ), (∀ k ∈ ks, getLink c s k ≠ none) →
    eachIdx c s h ks st = some (runH h (ks.filterMap fun k => (getLink c s k).join) st) := by
  intro ks
  induction ks with
  | nil => intro st _; rfl
  | cons k ks ih =>
    intro st hk
    have ih := fun st => ih st fun j hj => hk j (by simp [hj])
    have h1 := hk k (by simp)
    simp only [eachIdx]
    cases hg : getLink c s k with
    | none => exact absurd hg h1
    | some o =>
      cases o with
      | none => simp [hg, ih]
      | some l =>
        simp only [List.filterMap_cons, hg, Option.join, Option.bind_some, id, runH, ih]
        rcases h st l with ⟨_ | _, st'⟩ <;> simp [andThen]

theorem eachIdx_stuck {s : Store} {σ : Type} (h : RH σ) (hh : ∀ st l, (h st l).1 = .cont) : ∀ (ks : List Nat) (st : σ),
    (∃ k ∈ ks, getLink c s k = none) → eachIdx c s h ks st = none := by
  intro ks
  induction ks with
  | nil => rintro st ⟨k, hk, -⟩; cases hk
  | cons k ks ih =>
    rintro st ⟨j, hj, hg⟩
    simp only [eachIdx]
    cases hk : getLink c s k with
    | none => rfl
    | some o =>
      have : ∃ k ∈ ks, getLink c s k = none := by
        rcases List.mem_cons.1 hj with rfl | hj
        · rw [hk] at hg; cases hg
        · exact ⟨j, hj, hg⟩
      cases o with
      | none => exact ih st this
      | some l =>
        have hcont := hh st l
        rcases hl : h st l with ⟨f, st'⟩
        rw [hl] at hcont
        simp only at hcont
        subst hcont
        simp [hl, andThen, ih st' this]

/-- **C78**, split store: open any memory. If every lookup returns, the traversal of everything visits exactly the links that lookups
find, in increasing order of their indices. If not, it runs out of the memory unless its handler breaks before. -/
theorem C78_split_traversal_of_any_memory (hc : CfgOK c) {m s : Store} (ho : init c m = some (.ok s)) :
    ((∀ i, (links c).getLink s i ≠ none) → ∃ L, (links c).Visits s [] L ∧ L.Pairwise (fun a b => a.index < b.index) ∧
      ∀ l, l ∈ L ↔ (links c).getLink s l.index = some (some l)) ∧
    ((∃ i, (links c).getLink s i = none) → ∀ (σ : Type) (h : RH σ), (∀ st l, (h st l).1 = .cont) →
      ∀ st, (links c).eachLinks s [] h st = none) := by
  have hs : s.hdr.allocated = m.hdr.allocated := by
    obtain ⟨-, n2, hS, -, -, -, -, -, rfl⟩ := (C72_split_open_iff hc _ _).1 ho
    rfl
  have hidx : ∀ i l, getLink c s i = some (some l) → l.index = i ∧ 1 ≤ i ∧ i ≤ m.hdr.allocated := by
    intro i l h
    obtain ⟨rfl, h1⟩ := (C78_split_lookup_in_any_memory hc ho i).2 l h
    exact ⟨rfl, h1⟩
  refine ⟨fun hall => ⟨(List.range' 1 s.hdr.allocated).filterMap fun k => (getLink c s k).join, fun σ h st => ?_, ?_, fun l => ?_⟩,
    ?_⟩
  · exact eachIdx_run h _ st fun k _ => hall k
  · rw [List.pairwise_filterMap]
    refine List.Pairwise.imp ?_ (List.pairwise_lt_range' (s := 1) (n := s.hdr.allocated))
    intro a b hab x hx y hy
    have e1 : getLink c s a = some (some x) := by
      cases hg : getLink c s a with
      | none => rw [hg] at hx; cases hx
      | some o => rw [hg] at hx; simpa [Option.join] using hx
    have e2 : getLink c s b = some (some y) := by
      cases hg : getLink c s b with
      | none => rw [hg] at hy; cases hy
      | some o => rw [hg] at hy; simpa [Option.join] using hy
    rw [(hidx _ _ e1).1, (hidx _ _ e2).1]
    exact hab
  · rw [List.mem_filterMap]
    constructor
    · rintro ⟨k, -, hk⟩
      have e1 : getLink c s k = some (some l) := by
        cases hg : getLink c s k with
        | none => rw [hg] at hk; cases hk
        | some o => rw [hg] at hk; simpa [Option.join] using hk
      show getLink c s l.index = _
      rw [(hidx _ _ e1).1]
      exact e1
    · intro h
      have h : getLink c s l.index = some (some l) := h
      refine ⟨l.index, ?_, by rw [h]; rfl⟩
      have := hidx _ _ h
      rw [List.mem_range'_1, hs]
      omega
  · rintro ⟨i, hi⟩ σ h hh st
    refine eachIdx_stuck h hh _ st ⟨i, ?_, hi⟩
    obtain ⟨h1, h2, h3⟩ := ((C78_split_lookup_in_any_memory hc ho i).1).1 hi
    obtain ⟨-, n2, hS, -, -, -, -, -, rfl⟩ := (C72_split_open_iff hc _ _).1 ho
    have hst := hc.step_pos
    have h4 := hS.2.2.2.1
    have h1 : i = n2 := h1
    rw [List.mem_range'_1, hs]
    omega

/-- **C78**, split store: the total of any memory is what the header claims; it panics exactly if more slots are said to be unused
than used. -/
theorem C78_split_total_of_any_memory (hc : CfgOK c) {m s : Store} (ho : init c m = some (.ok s)) :
    ((links c).countLinks s [] = none ↔ m.hdr.allocated < m.hdr.free) ∧
    ∀ n, (links c).countLinks s [] = some n → n + m.hdr.free = m.hdr.allocated := by
  obtain ⟨-, n2, hS, -, -, -, -, -, rfl⟩ := (C72_split_open_iff hc _ _).1 ho
  show (csub m.hdr.allocated m.hdr.free = none ↔ _) ∧ ∀ n, csub m.hdr.allocated m.hdr.free = some n → _
  unfold csub
  split <;> simp <;> omega

/-- A damaged memory: the header claims six links of which nine are unused, the left child of node 1 is node 1. -/
def damaged : Store where
  hdr := { allocated := 6, free := 9, firstFree := 40, rootS := 1, rootT := 77 }
  idx := fun i => if i = 1 then { rootS := 1, rootT := 99, leftS := 1, sizeT := 3 } else {}
  data := fun i => if i = 1 then (5, 5) else (i, 200)
  dlen := 3
  ilen := 5
  stale := true

/-- The damaged memory after opening. -/
def damagedOpen : Store := { damaged with dlen := 8, ilen := 8, stale := false, hdr := { damaged.hdr with reserved := 7 } }

/-- The damaged memory can be opened; a lookup works. -/
example : CfgOK cfg0 ∧ init cfg0 damaged = some (.ok damagedOpen) ∧ (links cfg0).getLink damagedOpen 1 = some (some ⟨1, 5, 5⟩) ∧
    (links cfg0).getLink damagedOpen 2 = some none ∧ ∀ i, (links cfg0).getLink damagedOpen i ≠ none := by
  have ho : init cfg0 damaged = some (.ok damagedOpen) := by rfl
  refine ⟨cfg0_ok, ho, by decide +kernel, by decide +kernel, fun i hi => ?_⟩
  obtain ⟨h1, h2, -⟩ := ((C78_split_lookup_in_any_memory cfg0_ok ho i).1).1 hi
  have h1 : i = 8 := h1
  have h2 : i = 6 := h2
  omega

/-- **C78**, counter-theorem: searching, traversing by an end and the total can fail to return on a damaged memory that opens well. -/
theorem C78_split_search_in_a_damaged_memory : ∃ s, init cfg0 damaged = some (.ok s) ∧
    (∀ {σ : Type} (h : RH σ) (st : σ), (links cfg0).eachLinks s [cfg0.consts.any, 1, 2] h st = none) ∧
    (∀ {σ : Type} (h : RH σ) (st : σ), (links cfg0).eachLinks s [cfg0.consts.any, cfg0.consts.any, 1] h st = none) ∧
    (links cfg0).countLinks s [] = none := by
  refine ⟨damagedOpen, rfl, fun h st => ?_, fun h st => ?_, by decide +kernel⟩
  · have e1 : isUnused damagedOpen 1 = some false := by decide +kernel
    have e2 : isUnused damagedOpen 2 = some true := by decide +kernel
    have e3 : pairSearch damagedOpen false true 1 2 = none := by decide +kernel
    show each3 cfg0 damagedOpen cfg0.consts.any 1 2 h st = none
    unfold each3
    rw [e1, e2]
    simp only [Option.bind_some, e3]
    rfl
  · rfl

end Verif.Split.Props
