import Verif.Props.UnitWrites
import Verif.Props.SplitFindings
import Verif.Unit.ReachLawful

/-!
# C72: when a store can be opened, and what is lost

C16, C39 and C47 are false in general. This file says exactly when a memory can be opened and exactly when reopening keeps all links.
-/

namespace Verif.Unit.Props
open Verif

variable {c : Cfg}

/-- **C72**, united store: opening a memory succeeds exactly if both allocations succeed and the second grants no more slots
than the index type has values; the store then has these slots and the contents of the memory. -/
theorem C72_open_iff (hc : CfgOK c) (s s' : Store) :
    init c s = some (.ok s') ↔ ∃ n1 n2, c.alloc s.len c.page = some n1 ∧ n1 ≠ 0 ∧
      c.alloc n1 (max c.step s.hdr.allocated) = some n2 ∧ n2 ≤ c.maxT + 1 ∧
      s' = { s with len := n2, hdr := { s.hdr with reserved := n2 - 1 } } := by
  unfold init
  cases h1 : c.alloc s.len c.page with
  | none => simp
  | some n1 =>
    by_cases h0 : n1 = 0
    · simp [h0]
    · cases h2 : c.alloc n1 (max c.step s.hdr.allocated) with
      | none => simp [h0, h2]
      | some n2 =>
        have hge := hc.alloc_ge _ _ _ h2
        have hst := hc.step_pos
        simp only [h0, if_false, h2, csub_eq (show 1 ≤ n2 by omega), Option.bind_some]
        by_cases hle : n2 - 1 ≤ c.maxT
        · rw [if_pos hle]
          simp only [Option.some.injEq, Except.ok.injEq]
          constructor
          · rintro rfl
            exact ⟨_, _, rfl, h0, h2, by omega, rfl⟩
          · rintro ⟨m1, m2, e1, -, e2, -, rfl⟩
            cases e1
            rw [h2] at e2
            cases e2
            rfl
        · rw [if_neg hle]
          refine ⟨fun h => (nomatch h), ?_⟩
          rintro ⟨m1, m2, e1, -, e2, e3, -⟩
          cases Option.some.inj e1
          rw [h2] at e2
          cases e2
          omega

/-- **C72**, united store: opening fails with an allocation error exactly if one of the two allocations fails. -/
theorem C72_open_fails_iff (s : Store) :
    init c s = some (.error .allocFailed) ↔ c.alloc s.len c.page = none ∨ ∃ n1, c.alloc s.len c.page = some n1 ∧ n1 ≠ 0 ∧
      c.alloc n1 (max c.step s.hdr.allocated) = none := by
  unfold init
  cases h1 : c.alloc s.len c.page with
  | none => simp
  | some n1 =>
    by_cases h0 : n1 = 0
    · simp [h0]
    · cases h2 : c.alloc n1 (max c.step s.hdr.allocated) with
      | none => simp [h0, h2]
      | some n2 =>
        simp only [h0, if_false, h2]
        refine ⟨fun h => ?_, ?_⟩
        · cases h3 : csub n2 1 with
          | none => rw [h3] at h; cases h
          | some r => rw [h3, Option.bind_some] at h; split at h <;> cases h
        · rintro (h | ⟨m1, e1, -, e2⟩)
          · cases h
          · cases Option.some.inj e1
            rw [h2] at e2
            cases e2

/-- **C72**, united store: after reopening, every link is found as before except the one, if any, whose index is the number
of slots that were mapped; looking that one up is out of bounds. -/
theorem C72_reopen_lookup (hc : CfgOK c) {s s' : Store} (h : Reach c s) {n : Nat}
    (ho : init c { s with len := n } = some (.ok s')) :
    (∀ i, i ≠ s'.len → (links c).getLink s' i = (links c).getLink s i) ∧
    (∀ l, (links c).getLink s s'.len = some (some l) → (links c).getLink s' s'.len = none) := by
  obtain ⟨free, ts, tt, hi⟩ := reach_good hc h
  obtain ⟨n1, n2, -, -, h2, -, rfl⟩ := (C72_open_iff hc _ _).1 ho
  have hge : s.hdr.allocated ≤ n2 := Nat.le_trans (Nat.le_max_right _ _) (hc.alloc_ge _ _ _ h2)
  have hlt := hi.base.alloc_lt
  refine ⟨fun i hne => ?_, fun l hl => ?_⟩
  · show getLink c _ i = getLink c s i
    have hne : i ≠ n2 := hne
    by_cases hb : 1 ≤ i ∧ i ≤ s.hdr.allocated
    · simp only [getLink, exists?, isUnused, getLinkUnchecked, Store.get, show i ≠ 0 by omega, if_false,
        show i < n2 by omega, show i < s.len by omega, if_true]
    · simp only [getLink, exists?, hc.start_eq]
      rw [if_neg hb, if_neg hb]
      rfl
  · have hlive : LiveIn s free n2 := by
      have hl : getLink c s n2 = some (some l) := hl
      rw [getLink_eq hc hi.toInv0] at hl
      apply Classical.byContradiction
      intro hx
      simp [hx] at hl
    have e : n2 = s.hdr.allocated := Nat.le_antisymm hlive.2.1 hge
    subst e
    have hff : s.hdr.firstFree ≠ s.hdr.allocated := by
      intro hx
      have h0 : s.hdr.firstFree ≠ 0 := by have := hlive.1; omega
      have hfirst := hi.base.list.first_eq
      have : s.hdr.firstFree ∈ free := by
        have hfirst : s.hdr.firstFree = free.headD 0 := hfirst
        cases free with
        | nil => exact absurd hfirst h0
        | cons a t => rw [hfirst]; simp
      exact hlive.2.2 (hx ▸ this)
    show getLink c _ _ = none
    simp [getLink, exists?, hc.start_eq, isUnused, Store.get, hff, show 1 ≤ s.hdr.allocated from hlive.1]

/-- **C72**, united store: reopening keeps every link exactly if the number of mapped slots is not the index of a link. -/
theorem C72_reopen_keeps_iff (hc : CfgOK c) {s s' : Store} (h : Reach c s) {n : Nat}
    (ho : init c { s with len := n } = some (.ok s')) :
    (∀ i, (links c).getLink s' i = (links c).getLink s i) ↔ (links c).getLink s s'.len = some none := by
  obtain ⟨h1, h2⟩ := C72_reopen_lookup hc h ho
  have hget := (reachLawful hc).get s h s'.len
  cases hv : (links c).view s s'.len with
  | some p =>
    rw [hv] at hget
    refine ⟨fun hx => ?_, fun hx => by rw [hget] at hx; cases hx⟩
    have := h2 _ hget
    rw [hx, hget] at this
    cases this
  | none =>
    rw [hv] at hget
    refine ⟨fun _ => hget, fun _ i => ?_⟩
    by_cases hi : i = s'.len
    · obtain ⟨free, ts, tt, hinv⟩ := reach_good hc h
      obtain ⟨n1, n2, -, -, h3, -, rfl⟩ := (C72_open_iff hc _ _).1 ho
      have hge : s.hdr.allocated ≤ n2 := Nat.le_trans (Nat.le_max_right _ _) (hc.alloc_ge _ _ _ h3)
      have hge' : 2 ≤ n2 := Nat.le_trans hc.step_pos (Nat.le_trans (Nat.le_max_left _ _) (hc.alloc_ge _ _ _ h3))
      have hlt : s.hdr.allocated < n2 := by
        apply Classical.byContradiction
        intro hx
        have hv : (links c).view s n2 = none := hv
        rw [view_eq hc hinv.toInv0, if_pos ⟨by omega, by omega, fun hm => by have := hinv.free_lt _ hm; omega⟩] at hv
        cases hv
      rw [hi, hget]
      show getLink c _ n2 = _
      simp only [getLink, exists?]
      rw [if_neg (by omega)]
      rfl
    · exact h1 i hi

/-- On `sNet` with 8 slots nothing is lost, on `sTwelve` with 12 slots link 12 is. -/
example : (∃ s', init cfg0 { sNet with len := 0 } = some (.ok s') ∧ ∀ i, (links cfg0).getLink s' i = (links cfg0).getLink sNet i) ∧
    ∃ s', init cfg0 { sTwelve with len := 0 } = some (.ok s') ∧ (links cfg0).getLink s' 12 = none ∧
      (links cfg0).getLink s' 11 = some (some ⟨11, 0, 0⟩) := by
  constructor
  · refine ⟨_, (C72_open_iff cfg0_ok _ _).2 ⟨8, 8, rfl, by decide, by decide +kernel, by decide, rfl⟩, ?_⟩
    exact (C72_reopen_keeps_iff cfg0_ok sNet_reach (n := 0)
      ((C72_open_iff cfg0_ok _ _).2 ⟨8, 8, rfl, by decide, by decide +kernel, by decide, rfl⟩)).2 (by decide +kernel)
  · have ho := (C72_open_iff cfg0_ok { sTwelve with len := 0 } _).2 ⟨8, 12, rfl, by decide, by decide +kernel, by decide, rfl⟩
    obtain ⟨h1, h2⟩ := C72_reopen_lookup cfg0_ok (runs_reach (by decide +kernel) : Reach cfg0 sTwelve) ho
    exact ⟨_, ho, h2 ⟨12, 0, 0⟩ (by decide +kernel), (h1 11 (by decide)).trans (by decide +kernel)⟩

end Verif.Unit.Props

namespace Verif.Split.Props
open Verif

variable {c : Cfg}

/-- The slots that opening a memory with `a` slots in use asks for: the next multiple of the step that is at least `a`, a page
and a step. -/
def SlotsFor (c : Cfg) (a n : Nat) : Prop :=
  c.step ∣ n ∧ a ≤ n ∧ c.page ≤ n ∧ c.step ≤ n ∧ ∀ m, c.step ∣ m → a ≤ m → c.page ≤ m → c.step ≤ m → n ≤ m

theorem align_slots (hc : CfgOK c) (a : Nat) : SlotsFor c a (align (max (max a c.page) c.step) c.step) := by
  have hst := hc.step_pos
  generalize hx : max (max a c.page) c.step = x
  have h0 : a ≤ x ∧ c.page ≤ x ∧ c.step ≤ x := by omega
  have hmod := Nat.div_add_mod x c.step
  have hlt := Nat.mod_lt x (show 0 < c.step by omega)
  unfold align
  have hcomm : x / c.step * c.step = c.step * (x / c.step) := Nat.mul_comm _ _
  split
  · next hne =>
    refine ⟨⟨x / c.step + 1, by rw [hcomm, Nat.mul_add, Nat.mul_one]⟩, by omega, by omega, by omega, ?_⟩
    rintro m ⟨k, rfl⟩ h1 h2 h3
    have hxm : x ≤ c.step * k := by omega
    have : x / c.step < k := by
      apply Classical.byContradiction
      intro hk
      have : c.step * k ≤ c.step * (x / c.step) := Nat.mul_le_mul_left _ (by omega)
      omega
    have : c.step * (x / c.step + 1) ≤ c.step * k := Nat.mul_le_mul_left _ this
    rw [Nat.mul_add, Nat.mul_one] at this
    omega
  · next hne =>
    refine ⟨Nat.dvd_of_mod_eq_zero (by omega), by omega, by omega, by omega, fun m _ _ _ _ => by omega⟩

theorem slots_unique {a n m : Nat} (h : SlotsFor c a n) (h' : SlotsFor c a m) : n = m :=
  Nat.le_antisymm (h.2.2.2.2 m h'.1 h'.2.1 h'.2.2.1 h'.2.2.2.1) (h'.2.2.2.2 n h.1 h.2.1 h.2.2.1 h.2.2.2.1)

/-- **C72**, split store: opening two memories succeeds exactly if the four allocations succeed, a page is not empty, and the
index type has enough values for the slots; both memories then have these slots. -/
theorem C72_split_open_iff (hc : CfgOK c) (s s' : Store) :
    init c s = some (.ok s') ↔ c.page ≠ 0 ∧ ∃ n, SlotsFor c s.hdr.allocated n ∧ n ≤ c.maxT + 1 ∧
      c.dalloc s.dlen c.page ≠ none ∧ c.ialloc s.ilen c.page ≠ none ∧ c.dalloc c.page n ≠ none ∧ c.ialloc c.page n ≠ none ∧
      s' = { s with dlen := n, ilen := n, stale := false, hdr := { s.hdr with reserved := n - 1 } } := by
  have hS := align_slots hc s.hdr.allocated
  generalize hn : align (max (max s.hdr.allocated c.page) c.step) c.step = n at hS
  have hst := hc.step_pos
  have h2 : 2 ≤ n := Nat.le_trans hst hS.2.2.2.1
  unfold init
  cases h1 : c.dalloc s.dlen c.page with
  | none => simp [h1]
  | some d1 =>
    cases h3 : c.ialloc s.ilen c.page with
    | none => simp [h3]
    | some i1 =>
      have e1 := hc.dalloc_eq _ _ _ h1
      have e3 := hc.ialloc_eq _ _ _ h3
      rw [e1, e3]
      by_cases hp : c.page = 0
      · simp [hp]
      · simp only [hp, if_false, hn]
        cases h5 : c.dalloc c.page n with
        | none =>
          refine ⟨fun h => (nomatch h), ?_⟩
          rintro ⟨-, m, hm, -, -, -, hm', -⟩
          rw [slots_unique hm hS] at hm'
          exact absurd h5 hm'
        | some d2 =>
          cases h6 : c.ialloc c.page n with
          | none =>
            refine ⟨fun h => (nomatch h), ?_⟩
            rintro ⟨-, m, hm, -, -, -, -, hm', -⟩
            rw [slots_unique hm hS] at hm'
            exact absurd h6 hm'
          | some i2 =>
            rw [hc.dalloc_eq _ _ _ h5, hc.ialloc_eq _ _ _ h6]
            simp only [csub_eq (show 1 ≤ n by omega), Option.bind_some, show n ≠ 0 by omega, if_false]
            by_cases hle : n - 1 ≤ c.maxT
            · rw [if_pos hle]
              simp only [Option.some.injEq, Except.ok.injEq]
              constructor
              · rintro rfl
                exact ⟨hp, n, hS, by omega, by simp, by simp, by simp [h5], by simp [h6], rfl⟩
              · rintro ⟨-, m, hm, -, -, -, -, -, rfl⟩
                rw [slots_unique hm hS]
            · rw [if_neg hle]
              refine ⟨fun h => (nomatch h), ?_⟩
              rintro ⟨-, m, hm, hm', -⟩
              rw [slots_unique hm hS] at hm'
              omega

/-- **C72**, split store: with fewer than `SIZE_STEP` values no memory can be opened (`u8`, `u16`). -/
theorem C72_split_small_index_types_cannot_be_opened (hc : CfgOK c) (hsmall : c.maxT + 1 < c.step) (s : Store) :
    ∀ s', init c s ≠ some (.ok s') := by
  intro s' h
  obtain ⟨-, n, h1, h2, -⟩ := (C72_split_open_iff hc s s').1 h
  have := h1.2.2.2.1
  omega

/-- **C72**, split store: reopening keeps every link exactly if the number of mapped slots is not the index of a link. If it
is, looking up that link is out of bounds, and all other indices answer as before. -/
theorem C72_split_reopen_lookup (hc : CfgOK c) {s s' : Store} (h : Reach c s) {n m : Nat}
    (ho : init c { s with dlen := n, ilen := m } = some (.ok s')) :
    (∀ i, i ≠ s'.ilen → (links c).getLink s' i = (links c).getLink s i) ∧
    (∀ l, (links c).getLink s s'.ilen = some (some l) → (links c).getLink s' s'.ilen = none) := by
  obtain ⟨free, hi⟩ := reach_good hc h
  obtain ⟨-, n2, hS, -, -, -, -, -, rfl⟩ := (C72_split_open_iff hc _ _).1 ho
  have hge : s.hdr.allocated ≤ n2 := hS.2.1
  have hlt := hi.base.alloc_lt
  have hst := hi.base.fresh
  have hdl := hi.base.len_eq
  refine ⟨fun i hne => ?_, fun l hl => ?_⟩
  · show getLink c _ i = getLink c s i
    have hne : i ≠ n2 := hne
    by_cases hb : 1 ≤ i ∧ i ≤ s.hdr.allocated
    · have hi0 : i ≠ 0 := by omega
      simp only [getLink, exists?, isUnused, getLinkUnchecked, Store.getI, Store.getD, hst, hi0, if_false, true_and,
        show i < n2 by omega, show i < s.ilen by omega, show i < s.dlen by omega, if_true]
    · simp only [getLink, exists?, hc.start_eq]
      rw [if_neg hb, if_neg hb]
      rfl
  · have hlive : LiveIn s free n2 := by
      have hl : getLink c s n2 = some (some l) := hl
      rw [getLink_eq hc hi.net hi.exact] at hl
      apply Classical.byContradiction
      intro hx
      simp [hx] at hl
    have e : n2 = s.hdr.allocated := Nat.le_antisymm hlive.2.1 hge
    subst e
    have hff : s.hdr.firstFree ≠ s.hdr.allocated := by
      intro hx
      have h0 : s.hdr.firstFree ≠ 0 := by have := hlive.1; omega
      have hfirst := hi.base.list.first_eq
      have : s.hdr.firstFree ∈ free := by
        have hfirst : s.hdr.firstFree = free.headD 0 := hfirst
        cases free with
        | nil => exact absurd hfirst h0
        | cons a t => rw [hfirst]; simp
      exact hlive.2.2 (hx ▸ this)
    show getLink c _ _ = none
    simp [getLink, exists?, hc.start_eq, isUnused, Store.getI, hff, show 1 ≤ s.hdr.allocated from hlive.1]

/-- **C72**, split store: reopening keeps all links unless the largest index in
use is a multiple of the step that is at least a page and a step. -/
theorem C72_split_reopen_keeps_iff (hc : CfgOK c) {s s' : Store} (h : Reach c s) {n m : Nat}
    (ho : init c { s with dlen := n, ilen := m } = some (.ok s')) {t : Nat} (ht : (links c).getLink s t ≠ some none)
    (hmax : ∀ i, (links c).getLink s i ≠ some none → i ≤ t) :
    (∀ i, (links c).getLink s' i = (links c).getLink s i) ↔ ¬ (c.step ∣ t ∧ c.page ≤ t ∧ c.step ≤ t) := by
  obtain ⟨h1, h2⟩ := C72_split_reopen_lookup hc h ho
  obtain ⟨free, hinv⟩ := reach_good hc h
  have hgl : ∀ i, (links c).getLink s i ≠ some none ↔ LiveIn s free i := by
    intro i
    show getLink c s i ≠ some none ↔ _
    rw [getLink_eq hc hinv.net hinv.exact]
    by_cases hl : LiveIn s free i <;> simp [hl]
  have hl := (hgl t).1 ht
  have hta : t = s.hdr.allocated := by
    refine Nat.le_antisymm hl.2.1 (hmax _ ((hgl _).2 ⟨Nat.le_trans hl.1 hl.2.1, Nat.le_refl _, fun hm => ?_⟩))
    exact absurd (hinv.free_lt _ hm) (Nat.lt_irrefl _)
  obtain ⟨-, n2, hS, -, -, -, -, -, e⟩ := (C72_split_open_iff hc _ _).1 ho
  have hlen : s'.ilen = n2 := by rw [e]
  have hS : SlotsFor c t n2 := hta ▸ hS
  have hgt : (links c).getLink s t = some (some (s.linkAt t)) := by
    show getLink c s t = _
    rw [getLink_eq hc hinv.net hinv.exact, if_pos hl]
  constructor
  · rintro hall ⟨q1, q2, q3⟩
    have e : n2 = t := Nat.le_antisymm (hS.2.2.2.2 t q1 (Nat.le_refl _) q2 q3) hS.2.1
    have := h2 (s.linkAt t) (by rw [hlen, e]; exact hgt)
    rw [hlen, e, hall, hgt] at this
    cases this
  · intro hno i
    have hne : n2 ≠ t := fun e => hno ⟨e ▸ hS.1, e ▸ hS.2.2.1, e ▸ hS.2.2.2.1⟩
    have hlt : t < n2 := Nat.lt_of_le_of_ne hS.2.1 (Ne.symm hne)
    by_cases hi : i = s'.ilen
    · have hin : i = n2 := hi.trans hlen
      have e1 : (links c).getLink s i = some none := by
        apply Classical.byContradiction
        intro hx
        have := hmax i hx
        omega
      rw [e1]
      show getLink c s' i = _
      simp only [getLink, exists?]
      rw [if_neg (by rw [e]; simp only; omega)]
      rfl
    · exact h1 i hi

/-- `sNet` has 6 links, `sEight` 8, the step is 8. -/
example : (∃ s', init cfg0 { sNet with dlen := 0, ilen := 0 } = some (.ok s') ∧
      ∀ i, (links cfg0).getLink s' i = (links cfg0).getLink sNet i) ∧
    ∃ s', init cfg0 { sEight with dlen := 0, ilen := 0 } = some (.ok s') ∧
      ¬ ∀ i, (links cfg0).getLink s' i = (links cfg0).getLink sEight i := by
  have h8 : ∀ {a}, a ≤ 8 → SlotsFor cfg0 a 8 := fun ha =>
    ⟨⟨1, rfl⟩, ha, by decide, by decide, fun m _ _ _ h => h⟩
  constructor
  · have ho := (C72_split_open_iff cfg0_ok { sNet with dlen := 0, ilen := 0 } _).2
      ⟨by decide, 8, h8 (by decide +kernel), by decide, by decide, by decide, by decide, by decide, rfl⟩
    refine ⟨_, ho, (C72_split_reopen_keeps_iff cfg0_ok sNet_reach ho (t := 6) (by decide +kernel) fun i hi => ?_).2
      (by decide)⟩
    rcases Nat.lt_or_ge 6 i with h | h
    · refine absurd ?_ hi
      show getLink cfg0 sNet i = some none
      have ha : sNet.hdr.allocated = 6 := by decide +kernel
      simp only [getLink, exists?]
      rw [if_neg (by omega)]
      rfl
    · exact h
  · have ho := (C72_split_open_iff cfg0_ok { sEight with dlen := 0, ilen := 0 } _).2
      ⟨by decide, 8, h8 (by decide +kernel), by decide, by decide, by decide, by decide, by decide, rfl⟩
    refine ⟨_, ho, fun hx => ?_⟩
    refine (C72_split_reopen_keeps_iff cfg0_ok (runs_reach (by decide +kernel) : Reach cfg0 sEight) ho (t := 8)
      (by decide +kernel) fun i hi => ?_).1 hx (by decide)
    rcases Nat.lt_or_ge 8 i with h | h
    · refine absurd ?_ hi
      show getLink cfg0 sEight i = some none
      have ha : sEight.hdr.allocated = 8 := by decide +kernel
      simp only [getLink, exists?]
      rw [if_neg (by omega)]
      rfl
    · exact h

end Verif.Split.Props
