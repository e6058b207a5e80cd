import Verif.Split.Reads

/-!
# Split store: effect of the mutating operations on the representation (helper lemmas)
-/

namespace Verif.Split
open Verif
open Verif.Unit (erase_filter)

variable {c : Cfg}

/-! ### Free list operations -/

theorem forest_putList {s : Store} {m : LMem} {d : Side} {I E : Nat → Prop} (h : Forest c s d I E)
    (hk : ∀ k, I k ∨ E k → (m.prev k, m.next k) = s.data k) : Forest c (s.putList m) d I E := by
  refine h.congr hk (fun _ _ => rfl) (fun _ _ => rfl) ?_ (fun _ => Iff.rfl) (fun _ => Iff.rfl)
  cases d <;> rfl

theorem unusedDetach_ok (hc : CfgOK c) {s : Store} {free : List Nat} {I E : Side → Nat → Prop}
    (h : Net c s free I E) {i : Nat} (hi : i ∈ free) :
    ∃ s', unusedDetach c s i = some s' ∧ Net c s' (free.erase i) I E ∧ s'.ilen = s.ilen ∧
      s'.hdr.allocated = s.hdr.allocated ∧ s'.hdr.reserved = s.hdr.reserved ∧
      s'.data i = (0, 0) ∧ (∀ k, k ∉ free → s'.data k = s.data k) := by
  have hb := h.base
  obtain ⟨m, h1, h2, h3, h4, h5⟩ := hc.trees.listDetach _ _ i hb.list hi
  have hkeep : ∀ k, k ∉ free → (m.prev k, m.next k) = s.data k :=
    fun k hk => Prod.ext (h5 k hk).1 (h5 k hk).2
  refine ⟨s.putList m, by simp [unusedDetach, hb.fresh, h1], ⟨?_, ?_, ?_⟩, rfl, rfl, rfl,
    Prod.ext h3 h4, hkeep⟩
  · refine ⟨hb.fresh, hb.len_eq, hb.alloc_lt, hb.alloc_le, hb.res_pos, hb.res_le, hb.res8, ?_, h2, ?_, ?_⟩
    · refine ⟨?_, hb.data0.2⟩
      rw [← hb.data0.1]; exact hkeep 0 fun hm => hb.list.nonzero 0 hm rfl
    · intro x hx; exact hb.free_le x (List.mem_of_mem_erase hx)
    · intro k hk
      have hk' : s.hdr.allocated < k := hk
      rw [← hb.beyond k hk']
      exact hkeep k fun hf => by have := hb.free_le k hf; omega
  · intro d
    exact forest_putList (h.forest d) fun k hk => hkeep k (h.live d k hk).2.2
  · intro d k hk
    have := h.live d k hk
    exact ⟨this.1, this.2.1, fun hm => this.2.2 (List.mem_of_mem_erase hm)⟩

theorem unusedAttachFirst_ok (hc : CfgOK c) {s : Store} {free : List Nat} {I E : Side → Nat → Prop}
    (h : Net c s free I E) {i : Nat} (hi : LiveIn s free i) (hn : ∀ d, ¬ I d i ∧ ¬ E d i) :
    ∃ s', unusedAttachFirst c s i = some s' ∧ Net c s' (i :: free) I E ∧ s'.ilen = s.ilen ∧
      s'.hdr.allocated = s.hdr.allocated ∧ s'.hdr.reserved = s.hdr.reserved ∧
      (∀ k, k ∉ i :: free → s'.data k = s.data k) := by
  have hb := h.base
  obtain ⟨hi1, hi2, hi3⟩ := hi
  obtain ⟨m, h1, h2, h5⟩ := hc.trees.listAttachFirst _ _ i hb.list (by omega) hi3
  have hkeep : ∀ k, k ∉ i :: free → (m.prev k, m.next k) = s.data k :=
    fun k hk => Prod.ext (h5 k hk).1 (h5 k hk).2
  have hne : ∀ d k, I d k ∨ E d k → k ∉ i :: free := by
    intro d k hk hm
    rcases List.mem_cons.1 hm with rfl | hm
    · rcases hk with hk | hk
      · exact (hn d).1 hk
      · exact (hn d).2 hk
    · exact (h.live d k hk).2.2 hm
  refine ⟨s.putList m, by simp [unusedAttachFirst, hb.fresh, h1], ⟨?_, ?_, ?_⟩, rfl, rfl, rfl, hkeep⟩
  · refine ⟨hb.fresh, hb.len_eq, hb.alloc_lt, hb.alloc_le, hb.res_pos, hb.res_le, hb.res8, ?_, h2, ?_, ?_⟩
    · refine ⟨?_, hb.data0.2⟩
      rw [← hb.data0.1]
      refine hkeep 0 fun hm => ?_
      rcases List.mem_cons.1 hm with e | hm
      · omega
      · exact hb.list.nonzero 0 hm rfl
    · intro x hx
      rcases List.mem_cons.1 hx with rfl | hx
      · exact hi2
      · exact hb.free_le x hx
    · intro k hk
      have hk' : s.hdr.allocated < k := hk
      rw [← hb.beyond k hk']
      refine hkeep k fun hf => ?_
      rcases List.mem_cons.1 hf with rfl | hf
      · omega
      · have := hb.free_le k hf; omega
  · intro d
    exact forest_putList (h.forest d) fun k hk => hkeep k (hne d k hk)
  · intro d k hk
    have := h.live d k hk
    exact ⟨this.1, this.2.1, hne d k hk⟩

/-- Changing the number of allocated slots. -/
theorem setAllocated_ok {s : Store} {free : List Nat} {I E : Side → Nat → Prop} (h : Net c s free I E)
    {a : Nat} (h1 : a < s.ilen) (h2 : a ≤ c.consts.internalEnd) (h3 : ∀ x ∈ free, x ≤ a)
    (h4 : ∀ k, a < k → s.data k = (0, 0)) (h5 : ∀ d k, I d k ∨ E d k → k ≤ a) :
    Net c { s with hdr := { s.hdr with allocated := a } } free I E := by
  have hb := h.base
  refine ⟨⟨hb.fresh, hb.len_eq, h1, h2, hb.res_pos, hb.res_le, hb.res8, hb.data0, hb.list, h3, h4⟩, ?_,
    ?_⟩
  · intro d
    refine (h.forest d).congr (fun _ _ => rfl) (fun _ _ => rfl) (fun _ _ => rfl) ?_ (fun _ => Iff.rfl)
      (fun _ => Iff.rfl)
    cases d <;> rfl
  · intro d k hk
    exact ⟨(h.live d k hk).1, h5 d k hk, (h.live d k hk).2.2⟩

/-- Growing both memories. -/
theorem grow_ok {s : Store} {free : List Nat} {I E : Side → Nat → Prop} (h : Net c s free I E) {n : Nat}
    (hn : s.ilen ≤ n) :
    Net c { s with dlen := n, ilen := n, stale := false, hdr := { s.hdr with reserved := n } } free I E := by
  have hb := h.base
  have h1 := hb.alloc_lt
  refine ⟨⟨rfl, rfl, ?_, hb.alloc_le, ?_, Nat.le_refl n, hb.res8, hb.data0, hb.list, hb.free_le,
    hb.beyond⟩, ?_, h.live⟩
  · show s.hdr.allocated < n; omega
  · show 1 ≤ n; omega
  · intro d
    refine (h.forest d).congr (fun _ _ => rfl) (fun _ _ => rfl) (fun _ _ => rfl) ?_ (fun _ => Iff.rfl)
      (fun _ => Iff.rfl)
    cases d <;> rfl

/-! ### Create -/

/-- After the new index `i` has become a link, `resolve_danglind_external` finds nothing to do. -/
theorem resolveExternal_noop (hc : CfgOK c) {s : Store} {free : List Nat} {I E : Side → Nat → Prop}
    (h : Net c s free I E) (hx : Exact s free I E) {i : Nat} (hi : LiveIn s free i)
    (hI : ∀ d k, I d k → endOf d (s.data k) ≠ i) : resolveExternal c s i = some s := by
  obtain ⟨L1, e1, _, m1⟩ := eachIter_side hc h hx .src hi
  obtain ⟨L2, e2, _, m2⟩ := eachIter_side hc h hx .tgt hi
  have z1 : L1 = [] := List.eq_nil_iff_forall_not_mem.2 fun k hk => hI .src k ((m1 k).1 hk).1 ((m1 k).1 hk).2
  have z2 : L2 = [] := List.eq_nil_iff_forall_not_mem.2 fun k hk => hI .tgt k ((m2 k).1 hk).1 ((m2 k).1 hk).2
  subst z1 z2
  simp [resolveExternal, e1, e2, moveIn]

/-- The state after a creation: trees are as before, slot `i` is a link holding the null pair. -/
structure CreatedN (c : Cfg) (s : Store) (free : List Nat) (I E : Side → Nat → Prop) (s' : Store)
    (free' : List Nat) (i : Nat) : Prop where
  net : Net c s' free' I E
  live : ∀ k, LiveIn s' free' k ↔ LiveIn s free k ∨ k = i
  fresh : ¬ LiveIn s free i
  data_i : s'.data i = (0, 0)
  data : ∀ k, LiveIn s free k → s'.data k = s.data k

/-- The state after a creation on a store at rest. -/
abbrev Created (c : Cfg) (s : Store) (free : List Nat) (s' : Store) (free' : List Nat) (i : Nat) : Prop :=
  CreatedN c s free (IntRef s free) (ExtRef s free) s' free' i

theorem Created.inv0 {s s' : Store} {free free' : List Nat} {i : Nat} (h : Inv0 c s free)
    (hk : Created c s free s' free' i)
    (hg : ∀ d k, LiveIn s free k → endOf d (s.data k) ≠ i) : Inv0 c s' free' := by
  have hz : ∀ d, endOf d ((0, 0) : Nat × Nat) = 0 := by intro d; cases d <;> rfl
  refine hk.net.toInv0 ?_ ?_ ?_
  · intro d k
    simp only [IntRef, hk.live]
    constructor
    · rintro ⟨a1 | rfl, a2, a3⟩
      · rw [hk.data k a1] at a2 a3
        rcases a3 with a3 | a3
        · exact ⟨a1, a2, a3⟩
        · exact absurd a3 (hg d k a1)
      · rw [hk.data_i, hz] at a2; exact absurd rfl a2
    · rintro ⟨a1, a2, a3⟩
      rw [hk.data k a1]
      exact ⟨Or.inl a1, a2, Or.inl a3⟩
  · intro d k
    simp only [ExtRef, hk.live]
    constructor
    · rintro ⟨a1 | rfl, a2, a3⟩
      · rw [hk.data k a1] at a2 a3
        exact ⟨a1, a2, fun x => a3 (Or.inl x)⟩
      · rw [hk.data_i, hz] at a2; exact absurd rfl a2
    · rintro ⟨a1, a2, a3⟩
      rw [hk.data k a1]
      refine ⟨Or.inl a1, a2, ?_⟩
      rintro (x | x)
      · exact a3 x
      · exact hg d k a1 x
  · intro k hl
    rw [hk.live] at hl
    rcases hl with hl | rfl
    · rw [hk.data k hl]; exact h.half k hl
    · rw [hk.data_i]; intro x; exact absurd rfl x

theorem CreatedN.exact {s s' : Store} {free free' : List Nat} {I E : Side → Nat → Prop} {i : Nat}
    (hx : Exact s free I E) (hk : CreatedN c s free I E s' free' i) : Exact s' free' I E := by
  intro e he hs
  rw [hk.live] at he
  rcases he with he | rfl
  · rw [hk.data e he] at hs
    exact hx e he hs
  · rw [hk.data_i] at hs; exact absurd rfl hs

theorem Created.exact {s s' : Store} {free free' : List Nat} {i : Nat} (h : Inv0 c s free)
    (hk : Created c s free s' free' i) : Exact s' free' (IntRef s free) (ExtRef s free) :=
  CreatedN.exact h.exact hk

theorem createEnd_gen (hc : CfgOK c) {s s' : Store} {free free' : List Nat} {I E : Side → Nat → Prop} {i : Nat}
    (h : Net c s free I E) (hx : Exact s free I E) (hI : ∀ d k, I d k → LiveIn s free (endOf d (s.data k)))
    (hk : CreatedN c s free I E s' free' i) {σ : Type} (hd : WH σ) (st : σ) :
    createEnd c s' i hd st =
      some ⟨.ok (hd st Link.nothing ⟨i, 0, 0⟩).1, s', (hd st Link.nothing ⟨i, 0, 0⟩).2⟩ := by
  have := resolveExternal_noop hc hk.net (hk.exact hx) (i := i) ((hk.live i).2 (Or.inr rfl)) (by
    rintro d k hkI he
    rw [hk.data k (h.live d k (Or.inl hkI))] at he
    exact hk.fresh (he ▸ hI d k hkI))
  simp [createEnd, this]

/-- `createTop` after the capacity check. -/
theorem createTop_gen (hc : CfgOK c) {s : Store} {I E : Side → Nat → Prop} (h : Net c s [] I E)
    (hx : Exact s [] I E) (hI : ∀ d k, I d k → LiveIn s [] (endOf d (s.data k)))
    (hlt : s.hdr.allocated + 1 < s.ilen)
    (hend : s.hdr.allocated < c.consts.internalEnd) {σ : Type} (hd : WH σ) (st : σ) :
    let i := s.hdr.allocated + 1
    let s' : Store := { s with hdr := { s.hdr with allocated := i } }
    createTop c s hd st =
        some ⟨.ok (hd st Link.nothing ⟨i, 0, 0⟩).1, s', (hd st Link.nothing ⟨i, 0, 0⟩).2⟩ ∧
      CreatedN c s [] I E s' [] i := by
  have hle := hc.end_le
  intro i s'
  have hcr : CreatedN c s [] I E s' [] i := by
    refine ⟨setAllocated_ok h hlt hend (by simp) (fun k hk => h.base.beyond k (by omega)) ?_, ?_,
      ?_, h.base.beyond i (by simp [i]), fun _ _ => rfl⟩
    · intro d k hk
      have := (h.live d k hk).2.1; omega
    · intro k
      simp only [LiveIn, s', i, List.not_mem_nil, not_false_eq_true, and_true]; omega
    · intro hl; have := hl.2.1; simp only [i] at this; omega
  refine ⟨?_, hcr⟩
  have := createEnd_gen hc h hx hI hcr hd st
  simp only [createTop, cadd_eq (show s.hdr.allocated + 1 ≤ c.maxT by omega), Option.bind_some]
  exact this

/-- The ways in which `create_links` can end when the trees hold `I` and `E`. -/
theorem createLinks_gen (hc : CfgOK c) {s : Store} {free : List Nat} {I E : Side → Nat → Prop}
    (h : Net c s free I E) (hx : Exact s free I E) (hI : ∀ d k, I d k → LiveIn s free (endOf d (s.data k)))
    (q : List Nat)
    {σ : Type} (hd : WH σ) (st : σ) :
    (∃ x rest s', free = x :: rest ∧
      createLinks c s q hd st =
        some ⟨.ok (hd st Link.nothing ⟨x, 0, 0⟩).1, s', (hd st Link.nothing ⟨x, 0, 0⟩).2⟩ ∧
      CreatedN c s free I E s' rest x ∧ s'.hdr.allocated = s.hdr.allocated ∧ s'.ilen = s.ilen) ∨
    (free = [] ∧ c.consts.internalEnd ≤ s.hdr.allocated ∧
      createLinks c s q hd st = some ⟨.error (.limitReached c.consts.internalEnd), s, st⟩) ∨
    (free = [] ∧ s.hdr.allocated < c.consts.internalEnd ∧ s.hdr.reserved ≤ s.hdr.allocated + 1 ∧
      c.dalloc s.dlen (s.dlen + c.step) = none ∧
      createLinks c s q hd st = some ⟨.error .allocFailed, s, st⟩) ∨
    (free = [] ∧ s.hdr.allocated < c.consts.internalEnd ∧ s.hdr.reserved ≤ s.hdr.allocated + 1 ∧
      c.dalloc s.dlen (s.dlen + c.step) ≠ none ∧ c.ialloc s.ilen (s.ilen + c.step) = none ∧
      createLinks c s q hd st =
        some ⟨.error .allocFailed, { s with dlen := s.dlen + c.step, stale := true }, st⟩) ∨
    (free = [] ∧ s.hdr.allocated < c.consts.internalEnd ∧ s.hdr.reserved ≤ s.hdr.allocated + 1 ∧
      c.dalloc s.dlen (s.dlen + c.step) ≠ none ∧ c.ialloc s.ilen (s.ilen + c.step) ≠ none ∧
      c.maxT < s.ilen + c.step ∧ createLinks c s q hd st = none) ∨
    (free = [] ∧ s.hdr.allocated < c.consts.internalEnd ∧ ∃ s',
      createLinks c s q hd st =
        some ⟨.ok (hd st Link.nothing ⟨s.hdr.allocated + 1, 0, 0⟩).1, s',
          (hd st Link.nothing ⟨s.hdr.allocated + 1, 0, 0⟩).2⟩ ∧
      CreatedN c s free I E s' [] (s.hdr.allocated + 1) ∧ s'.hdr.allocated = s.hdr.allocated + 1) := by
  cases free with
  | cons x rest =>
    left
    have hxf : s.hdr.firstFree = x := by
      have := h.base.list.first_eq; simpa [Store.listMem] using this
    have hx0 : x ≠ 0 := h.base.list.nonzero x (by simp)
    have hn := h.base.list.nodup
    rw [List.nodup_cons] at hn
    have hxle := h.base.free_le x (by simp)
    obtain ⟨s', h1, h2, h3, h4, h5, h6, h7⟩ := unusedDetach_ok hc h (i := x) (by simp)
    simp only [List.erase_cons_head] at h2
    have hcr : CreatedN c s (x :: rest) I E s' rest x := by
      refine ⟨h2, ?_, fun hl => hl.2.2 (by simp), h6, fun k hk => h7 k hk.2.2⟩
      intro k
      simp only [LiveIn, h4, List.mem_cons, not_or]
      constructor
      · rintro ⟨a1, a2, a3⟩
        by_cases e : k = x
        · exact Or.inr e
        · exact Or.inl ⟨a1, a2, e, a3⟩
      · rintro (⟨a1, a2, a3, a4⟩ | rfl)
        · exact ⟨a1, a2, a4⟩
        · exact ⟨by omega, hxle, hn.1⟩
    refine ⟨x, rest, s', rfl, ?_, hcr, h4, h3⟩
    have := createEnd_gen hc h hx hI hcr hd st
    simp [createLinks, hxf, hc.null_eq, hx0, h1, this]
  | nil =>
    right
    have hxf : s.hdr.firstFree = 0 := by
      have := h.base.list.first_eq; simpa [Store.listMem] using this
    by_cases hend : c.consts.internalEnd ≤ s.hdr.allocated
    · left
      exact ⟨rfl, hend, by simp [createLinks, hxf, hc.null_eq, hend]⟩
    · right
      have hend' : s.hdr.allocated < c.consts.internalEnd := by omega
      have hrp := h.base.res_pos
      by_cases hr : s.hdr.reserved - 1 ≤ s.hdr.allocated
      · cases hda : c.dalloc s.dlen (s.dlen + c.step) with
        | none =>
          left
          exact ⟨rfl, hend', by omega, rfl, by
            simp [createLinks, hxf, hc.null_eq, hend, csub_eq hrp, hr, hda]⟩
        | some dn =>
          right
          have hdn := hc.dalloc_eq _ _ _ hda
          subst hdn
          cases hal : c.ialloc s.ilen (s.ilen + c.step) with
          | none =>
            left
            exact ⟨rfl, hend', by omega, by simp, rfl, by
              simp [createLinks, hxf, hc.null_eq, hend, csub_eq hrp, hr, hda, hal]⟩
          | some n =>
            right
            have hn := hc.ialloc_eq _ _ _ hal
            subst hn
            by_cases hm : s.ilen + c.step ≤ c.maxT
            · right
              have hsp := hc.step_pos
              have hlt := h.base.alloc_lt
              have hle := h.base.len_eq
              let s1 : Store := { s with dlen := s.ilen + c.step, ilen := s.ilen + c.step, stale := false,
                                         hdr := { s.hdr with reserved := s.ilen + c.step } }
              have hg : Net c s1 [] I E := grow_ok h (n := s.ilen + c.step) (by omega)
              obtain ⟨g1, g2⟩ := createTop_gen hc hg hx hI
                (by show s.hdr.allocated + 1 < s.ilen + c.step; omega) hend' hd st
              refine ⟨rfl, hend', { s1 with hdr := { s1.hdr with allocated := s.hdr.allocated + 1 } }, ?_,
                ⟨g2.net, g2.live, g2.fresh, g2.data_i, g2.data⟩, rfl⟩
              have : createLinks c s q hd st = createTop c s1 hd st := by
                have hda' := hda
                rw [hle] at hda'
                simp [createLinks, hxf, hc.null_eq, hend, csub_eq hrp, hr, hda', hal, hm, s1, hle]
              rw [this]; exact g1
            · left
              exact ⟨rfl, hend', by omega, by simp, by simp, by omega, by
                simp [createLinks, hxf, hc.null_eq, hend, csub_eq hrp, hr, hda, hal, hm]⟩
      · right; right; right
        have hrl := h.base.res_le
        obtain ⟨g1, g2⟩ := createTop_gen hc h hx hI (by omega) hend' hd st
        refine ⟨rfl, hend', _, ?_, g2, rfl⟩
        have : createLinks c s q hd st = createTop c s hd st := by
          simp [createLinks, hxf, hc.null_eq, hend, csub_eq hrp, hr]
        rw [this]; exact g1

/-- `createTop` after the capacity check. -/
theorem createTop_ok (hc : CfgOK c) {s : Store} (h : Inv c s []) (hlt : s.hdr.allocated + 1 < s.ilen)
    (hend : s.hdr.allocated < c.consts.internalEnd) {σ : Type} (hd : WH σ) (st : σ) :
    let i := s.hdr.allocated + 1
    let s' : Store := { s with hdr := { s.hdr with allocated := i } }
    createTop c s hd st =
        some ⟨.ok (hd st Link.nothing ⟨i, 0, 0⟩).1, s', (hd st Link.nothing ⟨i, 0, 0⟩).2⟩ ∧
      Created c s [] s' [] i :=
  createTop_gen hc h.net h.exact (fun _ _ hk => hk.2.2) hlt hend hd st

/-- The ways in which `create_links` can end on a good store. -/
theorem createLinks_ok (hc : CfgOK c) {s : Store} {free : List Nat} (h : Inv c s free) (q : List Nat)
    {σ : Type} (hd : WH σ) (st : σ) :
    (∃ x rest s', free = x :: rest ∧
      createLinks c s q hd st =
        some ⟨.ok (hd st Link.nothing ⟨x, 0, 0⟩).1, s', (hd st Link.nothing ⟨x, 0, 0⟩).2⟩ ∧
      Created c s free s' rest x ∧ s'.hdr.allocated = s.hdr.allocated ∧ s'.ilen = s.ilen) ∨
    (free = [] ∧ c.consts.internalEnd ≤ s.hdr.allocated ∧
      createLinks c s q hd st = some ⟨.error (.limitReached c.consts.internalEnd), s, st⟩) ∨
    (free = [] ∧ s.hdr.allocated < c.consts.internalEnd ∧ s.hdr.reserved ≤ s.hdr.allocated + 1 ∧
      c.dalloc s.dlen (s.dlen + c.step) = none ∧
      createLinks c s q hd st = some ⟨.error .allocFailed, s, st⟩) ∨
    (free = [] ∧ s.hdr.allocated < c.consts.internalEnd ∧ s.hdr.reserved ≤ s.hdr.allocated + 1 ∧
      c.dalloc s.dlen (s.dlen + c.step) ≠ none ∧ c.ialloc s.ilen (s.ilen + c.step) = none ∧
      createLinks c s q hd st =
        some ⟨.error .allocFailed, { s with dlen := s.dlen + c.step, stale := true }, st⟩) ∨
    (free = [] ∧ s.hdr.allocated < c.consts.internalEnd ∧ s.hdr.reserved ≤ s.hdr.allocated + 1 ∧
      c.dalloc s.dlen (s.dlen + c.step) ≠ none ∧ c.ialloc s.ilen (s.ilen + c.step) ≠ none ∧
      c.maxT < s.ilen + c.step ∧ createLinks c s q hd st = none) ∨
    (free = [] ∧ s.hdr.allocated < c.consts.internalEnd ∧ ∃ s',
      createLinks c s q hd st =
        some ⟨.ok (hd st Link.nothing ⟨s.hdr.allocated + 1, 0, 0⟩).1, s',
          (hd st Link.nothing ⟨s.hdr.allocated + 1, 0, 0⟩).2⟩ ∧
      Created c s free s' [] (s.hdr.allocated + 1) ∧ s'.hdr.allocated = s.hdr.allocated + 1) :=
  createLinks_gen hc h.net h.exact (fun _ _ hk => hk.2.2) q hd st

/-! ### Update -/

/-- Which updates the store supports: no half pair, and a link that already has a source cannot be made to
refer to itself. -/
def UpdOK (old : Nat × Nat) (i a b : Nat) : Prop :=
  (a ≠ 0 → b ≠ 0) ∧ (a = i ∨ b = i → old.1 = 0)

theorem updateLinks_missing (hc : CfgOK c) {s : Store} {free : List Nat} (h : Inv0 c s free) {i : Nat}
    (hi : ¬ LiveIn s free i) (q : List Nat) (x a b : Nat) (ch : List Nat) {σ : Type} (hd : WH σ) (st : σ) :
    updateLinks c s (i :: q) (x :: a :: b :: ch) hd st = some ⟨.error (.notExists i), s, st⟩ := by
  simp [updateLinks, getLink_eq hc h.net h.exact, hi]

/-- `update_links` on an arbitrary assignment of links to trees in which `i` is placed correctly. -/
theorem updateLinks_gen (hc : CfgOK c) {s : Store} {free : List Nat} {I E : Side → Nat → Prop} {i : Nat}
    (h : Net c s free I E) (hx : Exact s free I E) (hi : LiveIn s free i)
    (h0 : ∀ d, endOf d (s.data i) = 0 → ¬ I d i ∧ ¬ E d i)
    (h1 : ∀ d, endOf d (s.data i) ≠ 0 → LiveIn s free (endOf d (s.data i)) → I d i)
    (h2 : ∀ d, endOf d (s.data i) ≠ 0 → ¬ LiveIn s free (endOf d (s.data i)) → E d i)
    (hu : ∀ d, endOf d (s.data i) ≠ 0 → ∀ k, (LiveIn s free (endOf d (s.data i)) → I d k) →
      (¬ LiveIn s free (endOf d (s.data i)) → E d k) → k ≠ i → s.data k ≠ s.data i)
    (a b : Nat) (q : List Nat) (x : Nat) (ch : List Nat)
    {σ : Type} (hd : WH σ) (st : σ) :
    ∃ s', updateLinks c s (i :: q) (x :: a :: b :: ch) hd st =
        some ⟨.ok (hd st (s.linkAt i) ⟨i, a, b⟩).1, s', (hd st (s.linkAt i) ⟨i, a, b⟩).2⟩ ∧
      Net c s' free
        (fun d k => (k ≠ i ∧ I d k) ∨ (k = i ∧ endOf d (a, b) ≠ 0 ∧ Seen s free i (s.data i).1 (endOf d (a, b))))
        (fun d k => (k ≠ i ∧ E d k) ∨ (k = i ∧ endOf d (a, b) ≠ 0 ∧ ¬ Seen s free i (s.data i).1 (endOf d (a, b)))) ∧
      s'.ilen = s.ilen ∧ s'.hdr.allocated = s.hdr.allocated ∧
      (∀ k, s'.data k = if k = i then (a, b) else s.data k) := by
  obtain ⟨s', g1, g2, g3, g4, _, g6⟩ := relink_gen hc h hx hi h0 h1 h2 hu a b
  refine ⟨s', ?_, g2, g3, g4, g6⟩
  simp [updateLinks, getLink_eq hc h hx, hi, Store.linkAt, g1]

/-- `update_links` on an arbitrary assignment of links to trees in which `i` is placed correctly. -/
theorem updateLinks_net (hc : CfgOK c) {s : Store} {free : List Nat} {I E : Side → Nat → Prop} {i : Nat}
    (h : Net c s free I E) (hx : Exact s free I E) (hi : LiveIn s free i)
    (h0 : ∀ d, endOf d (s.data i) = 0 → ¬ I d i ∧ ¬ E d i)
    (h1 : ∀ d, endOf d (s.data i) ≠ 0 → LiveIn s free (endOf d (s.data i)) → I d i)
    (h2 : ∀ d, endOf d (s.data i) ≠ 0 → ¬ LiveIn s free (endOf d (s.data i)) → E d i)
    (hu : ∀ d, endOf d (s.data i) ≠ 0 → ∀ k, I d k ∨ E d k → k ≠ i → s.data k ≠ s.data i)
    (a b : Nat) (hg : a = i ∨ b = i → (s.data i).1 = 0) (q : List Nat) (x : Nat) (ch : List Nat)
    {σ : Type} (hd : WH σ) (st : σ) :
    ∃ s', updateLinks c s (i :: q) (x :: a :: b :: ch) hd st =
        some ⟨.ok (hd st (s.linkAt i) ⟨i, a, b⟩).1, s', (hd st (s.linkAt i) ⟨i, a, b⟩).2⟩ ∧
      Net c s' free
        (fun d k => (k ≠ i ∧ I d k) ∨ (k = i ∧ endOf d (a, b) ≠ 0 ∧ LiveIn s free (endOf d (a, b))))
        (fun d k => (k ≠ i ∧ E d k) ∨ (k = i ∧ endOf d (a, b) ≠ 0 ∧ ¬ LiveIn s free (endOf d (a, b)))) ∧
      s'.ilen = s.ilen ∧ s'.hdr.allocated = s.hdr.allocated ∧
      (∀ k, s'.data k = if k = i then (a, b) else s.data k) := by
  obtain ⟨s', g1, g2, g3, g4, _, g6⟩ := relink_ok hc h hx hi h0 h1 h2 hu a b hg
  refine ⟨s', ?_, g2, g3, g4, g6⟩
  simp [updateLinks, getLink_eq hc h hx, hi, Store.linkAt, g1]

/-- The links other than `i` in the trees do not store the pair of `i`. -/
theorem noTwin_tree {s : Store} {free : List Nat} (h : Inv0 c s free) {i : Nat} (hu : NoTwinIn s free i)
    (d : Side) (he : endOf d (s.data i) ≠ 0) (k : Nat) (hk : IntRef s free d k ∨ ExtRef s free d k)
    (hki : k ≠ i) : s.data k ≠ s.data i := by
  rcases hu with hu | hu
  · rw [hu] at he; cases d <;> exact absurd rfl he
  · exact hu k (h.net.live d k hk) hki

theorem updateLinks_ok (hc : CfgOK c) {s : Store} {free : List Nat} (h : Inv c s free) {i : Nat}
    (hi : LiveIn s free i) (hu : NoTwinIn s free i) (q : List Nat) (x a b : Nat) (ch : List Nat)
    (hg : UpdOK (s.data i) i a b) {σ : Type} (hd : WH σ) (st : σ) :
    ∃ s', updateLinks c s (i :: q) (x :: a :: b :: ch) hd st =
        some ⟨.ok (hd st (s.linkAt i) ⟨i, a, b⟩).1, s', (hd st (s.linkAt i) ⟨i, a, b⟩).2⟩ ∧
      Inv c s' free ∧ s'.ilen = s.ilen ∧ s'.hdr.allocated = s.hdr.allocated ∧
      (∀ k, s'.data k = if k = i then (a, b) else s.data k) := by
  obtain ⟨s', g1, g2, g3, g4, g5⟩ := updateLinks_net hc h.net h.exact hi
    (fun d he => ⟨fun x => x.2.1 he, fun x => x.2.1 he⟩)
    (fun d he hl => ⟨hi, he, hl⟩) (fun d he hl => ⟨hi, he, hl⟩)
    (noTwin_tree h.toInv0 hu) a b hg.2 q x ch hd st
  have hlv : ∀ k, LiveIn s' free k ↔ LiveIn s free k := by intro k; simp only [LiveIn, g4]
  refine ⟨s', g1, ⟨g2.toInv0 ?_ ?_ ?_, by rw [g4]; exact h.free_lt⟩, g3, g4, g5⟩
  · intro d k
    simp only [IntRef, hlv]
    rw [g5]
    by_cases hk : k = i
    · subst hk; simp [hi]
    · simp [hk]
  · intro d k
    simp only [ExtRef, hlv]
    rw [g5]
    by_cases hk : k = i
    · subst hk; simp [hi]
    · simp [hk]
  · intro k hk
    rw [hlv] at hk
    rw [g5]
    by_cases hki : k = i
    · subst hki; simpa using hg.1
    · simpa [hki] using h.half k hk

/-! ### Delete -/

theorem deleteLinks_missing (hc : CfgOK c) {s : Store} {free : List Nat} (h : Inv0 c s free) {i : Nat}
    (hi : ¬ LiveIn s free i) (q : List Nat) {σ : Type} (hd : WH σ) (st : σ) :
    deleteLinks c s (i :: q) hd st = some ⟨.error (.notExists i), s, st⟩ := by
  simp [deleteLinks, getLink_eq hc h.net h.exact, hi]

theorem releaseTop_ok (hc : CfgOK c) : ∀ (fuel : Nat) (s : Store) (free : List Nat)
    (I E : Side → Nat → Prop), Net c s free I E → Exact s free I E → s.hdr.allocated < fuel →
    ∃ s', releaseTop c fuel s = some s' ∧ Net c s' (free.filter fun x => x < s'.hdr.allocated) I E ∧
      s'.hdr.allocated ≤ s.hdr.allocated ∧ s'.ilen = s.ilen ∧
      (∀ k, s'.hdr.allocated < k → k ≤ s.hdr.allocated → k ∈ free) ∧ s'.hdr.allocated ∉ free ∧
      (∀ k, k ∉ free → s'.data k = s.data k) := by
  intro fuel
  induction fuel with
  | zero => intro s free I E _ _ hf; omega
  | succ fuel ih =>
    intro s free I E h hx hf
    by_cases ha : s.hdr.allocated = 0
    · refine ⟨s, by simp [releaseTop, ha], ?_, Nat.le_refl _, rfl, by omega, ?_, fun _ _ => rfl⟩
      · have : free = [] := by
          cases free with
          | nil => rfl
          | cons x xs =>
            have := h.base.free_le x (by simp)
            have := h.base.list.nonzero x (by simp)
            omega
        subst this; exact h
      · rw [ha]; exact fun hm => h.base.list.nonzero 0 hm rfl
    · have hu := h.unused ha (hx _)
      by_cases hm : s.hdr.allocated ∈ free
      · have hnl : ¬ LiveIn s free s.hdr.allocated := fun hl => hl.2.2 hm
        obtain ⟨s1, h1, h2, h3, h4, h5, h6, h7⟩ := unusedDetach_ok hc h hm
        have hn := h.base.list.nodup
        let s2 : Store := { s1 with hdr := { s1.hdr with allocated := s.hdr.allocated - 1 } }
        have hne : ∀ x ∈ free.erase s.hdr.allocated, x ≠ s.hdr.allocated ∧ x ∈ free :=
          fun x hx => (hn.mem_erase_iff).1 hx
        have hlt := h.base.alloc_lt
        have hle := h.base.alloc_le
        have h2' : Net c s2 (free.erase s.hdr.allocated) I E := by
          refine setAllocated_ok h2 (by omega) (by omega) ?_ ?_ ?_
          · intro x hx
            have h8 := hne x hx
            have h9 := h.base.free_le x h8.2
            omega
          · intro k hk
            by_cases hk2 : k = s.hdr.allocated
            · rw [hk2]; exact h6
            · exact h2.base.beyond k (by rw [h4]; omega)
          · intro d k hk
            have h8 := h.live d k hk
            have : k ≠ s.hdr.allocated := fun e => h8.2.2 (e ▸ hm)
            have := h8.2.1
            omega
        have hs2a : s2.hdr.allocated = s.hdr.allocated - 1 := rfl
        have hx2 : Exact s2 (free.erase s.hdr.allocated) I E := by
          intro e he hs
          have hef : e ∉ free := by
            intro hef
            by_cases hea : e = s.hdr.allocated
            · have := he.2.1; rw [hs2a] at this; omega
            · exact he.2.2 ((hn.mem_erase_iff).2 ⟨hea, hef⟩)
          refine hx e ⟨he.1, ?_, hef⟩ ?_
          · have := he.2.1; rw [hs2a] at this; omega
          · rw [← h7 e hef]; exact hs
        obtain ⟨s', g1, g2, g3, g4, g5, g7, g6⟩ := ih s2 _ I E h2' hx2 (by rw [hs2a]; omega)
        rw [hs2a] at g3 g5
        refine ⟨s', ?_, ?_, by omega, ?_, ?_, ?_, ?_⟩
        · simp only [releaseTop, ha, if_false, hu, hnl, not_false_eq_true, decide_true,
            Option.bind_some, if_true, h1]
          exact g1
        · rw [erase_filter hn] at g2
          · exact g2
          · simp; omega
        · rw [g4]; exact h3
        · intro k k1 k2
          by_cases hk2 : k = s.hdr.allocated
          · rw [hk2]; exact hm
          · exact List.mem_of_mem_erase (g5 k k1 (by omega))
        · exact fun hm' => g7 ((hn.mem_erase_iff).2 ⟨by omega, hm'⟩)
        · intro k hk
          rw [g6 k (fun hm' => hk (List.mem_of_mem_erase hm'))]
          exact h7 k hk
      · have hl : LiveIn s free s.hdr.allocated := ⟨by omega, Nat.le_refl _, hm⟩
        refine ⟨s, by simp [releaseTop, ha, hu, hl], ?_, Nat.le_refl _, rfl, by omega, hm,
          fun _ _ => rfl⟩
        have hfl : (free.filter fun x => x < s.hdr.allocated) = free := by
          rw [List.filter_eq_self]; intro x hx
          have := h.base.free_le x hx
          have : x ≠ s.hdr.allocated := fun e => hm (e ▸ hx)
          simp; omega
        rw [hfl]; exact h

/-- Links other than `i` that have `i` as their end on side `d`. -/
def UserOf (s : Store) (free : List Nat) (i : Nat) (d : Side) (k : Nat) : Prop :=
  LiveIn s free k ∧ k ≠ i ∧ endOf d (s.data k) = i

/-- Links other than `i` that are in the tree of `i` on side `d`. -/
def FiledAt (I : Side → Nat → Prop) (s : Store) (i : Nat) (d : Side) (k : Nat) : Prop :=
  I d k ∧ k ≠ i ∧ endOf d (s.data k) = i

/-- `resolve_danglind_internal` moves the links in the trees of `i` to the external trees. -/
theorem resolveInternal_gen (hc : CfgOK c) {s : Store} {free : List Nat} {I E : Side → Nat → Prop}
    (h : Net c s free I E) (hx : Exact s free I E) {i : Nat} (hi : LiveIn s free i)
    (hu : ∀ d k, FiledAt I s i d k → ∀ j, I d j → j ≠ k → s.data j ≠ s.data k) :
    ∃ s', resolveInternal c s i = some s' ∧
      Net c s' free (fun d k => I d k ∧ ¬ FiledAt I s i d k) (fun d k => E d k ∨ FiledAt I s i d k) ∧
      s'.data = s.data ∧ s'.ilen = s.ilen ∧ s'.hdr.allocated = s.hdr.allocated := by
  have hlt := live_lt h.base hi
  -- sources
  obtain ⟨L1, e1, n1, m1⟩ := eachIter_side hc h hx .src hi
  have hks1 : ((L1.map s.linkAt).map (·.index)).filter (· ≠ i) = L1.filter (· ≠ i) := by
    rw [List.map_map]; congr 1; exact List.map_id' L1
  have mk1 : ∀ k, k ∈ L1.filter (· ≠ i) ↔ FiledAt I s i .src k := by
    intro k
    simp only [List.mem_filter, m1, decide_eq_true_eq]
    constructor
    · rintro ⟨⟨a1, a2⟩, a3⟩; exact ⟨a1, a3, a2⟩
    · intro hk; exact ⟨⟨hk.1, hk.2.2⟩, hk.2.1⟩
  obtain ⟨s1, f1, o1, w1⟩ := moveOut_ok hc (d := .src) (a := i) (L1.filter (· ≠ i)) h hlt
    (n1.filter _) (fun k hk => ⟨((mk1 k).1 hk).1, ((mk1 k).1 hk).2.2⟩)
    (fun k hk => hu .src k ((mk1 k).1 hk))
  have l1 := fun k => liveIn_only (free := free) o1 k
  have hi1 : LiveIn s1 free i := (l1 i).2 hi
  have x1 : Exact s1 free (fun d' k => I d' k ∧ ¬(d' = Side.src ∧ k ∈ L1.filter (· ≠ i)))
      (fun d' k => E d' k ∨ (d' = Side.src ∧ k ∈ L1.filter (· ≠ i))) := by
    intro e he hs
    rw [o1.data] at hs
    rcases hx e ((l1 e).1 he) hs with x | x
    · exact Or.inl ⟨x, by simp⟩
    · exact Or.inr (Or.inl x)
  -- targets
  obtain ⟨L2, e2, n2, m2⟩ := eachIter_side hc w1 x1 .tgt hi1
  have m2' : ∀ k, k ∈ L2 ↔ I .tgt k ∧ (s.data k).2 = i := by
    intro k
    rw [m2, o1.data]
    simp [endOf]
  have hks2 : (((L2.map s1.linkAt).filter fun l => l.index ≠ i).filter fun l =>
      ¬ (l.index = l.source ∧ l.index = l.target)).map (·.index) = L2.filter (· ≠ i) := by
    rw [List.filter_filter, List.filter_map, List.map_map]
    have : L2.filter ((fun l : Link => decide (¬(l.index = l.source ∧ l.index = l.target)) &&
        decide (l.index ≠ i)) ∘ s1.linkAt) = L2.filter (· ≠ i) := by
      refine List.filter_congr ?_
      intro k hk
      have ht := ((m2' k).1 hk).2
      simp only [Function.comp, Store.linkAt, o1.data, ht]
      by_cases hki : k = i <;> simp [hki]
    rw [this]; exact List.map_id' _
  have mk2 : ∀ k, k ∈ L2.filter (· ≠ i) ↔ FiledAt I s i .tgt k := by
    intro k
    simp only [List.mem_filter, m2', decide_eq_true_eq]
    constructor
    · rintro ⟨⟨a1, a2⟩, a3⟩; exact ⟨a1, a3, a2⟩
    · intro hk; exact ⟨⟨hk.1, hk.2.2⟩, hk.2.1⟩
  obtain ⟨s2, f2, o2, w2⟩ := moveOut_ok hc (d := .tgt) (a := i) (L2.filter (· ≠ i)) w1
    (by rw [o1.ilen]; exact hlt) (n2.filter _)
    (fun k hk => ⟨⟨((mk2 k).1 hk).1, by simp⟩, by rw [o1.data]; exact ((mk2 k).1 hk).2.2⟩)
    (fun k hk j hj => by rw [o1.data]; exact hu .tgt k ((mk2 k).1 hk) j hj.1)
  refine ⟨s2, ?_, w2.iff ?_ ?_, o2.data.trans o1.data, o2.ilen.trans o1.ilen,
    o2.allocated.trans o1.allocated⟩
  · simp only [resolveInternal, e1, Option.bind_some, hks1, f1, e2, hks2, f2]
  · intro d k
    rw [mk1, mk2]
    cases d <;> simp
  · intro d k
    rw [mk1, mk2]
    cases d <;> simp

/-- `resolve_danglind_internal` moves the users of `i` to the external trees. -/
theorem resolveInternal_ok (hc : CfgOK c) {s : Store} {free : List Nat} (h : Inv0 c s free) {i : Nat}
    (hi : LiveIn s free i) (hu : ∀ d k, UserOf s free i d k → NoTwinIn s free k) :
    ∃ s', resolveInternal c s i = some s' ∧
      Net c s' free (fun d k => IntRef s free d k ∧ ¬ UserOf s free i d k)
        (fun d k => ExtRef s free d k ∨ UserOf s free i d k) ∧
      s'.data = s.data ∧ s'.ilen = s.ilen ∧ s'.hdr.allocated = s.hdr.allocated := by
  have hi0 : i ≠ 0 := by have := hi.1; omega
  have hf : ∀ d k, FiledAt (IntRef s free) s i d k ↔ UserOf s free i d k := by
    intro d k
    constructor
    · rintro ⟨h1, h2, h3⟩; exact ⟨h1.1, h2, h3⟩
    · rintro ⟨h1, h2, h3⟩
      exact ⟨⟨h1, by rw [h3]; exact hi0, by rw [h3]; exact hi⟩, h2, h3⟩
  obtain ⟨s', g1, g2, g3⟩ := resolveInternal_gen hc h.net h.exact hi (by
    intro d k hk j hj hjk
    rcases hu d k ((hf d k).1 hk) with x | x
    · have := hk.2.2
      rw [x] at this
      cases d <;> exact absurd this.symm hi0
    · exact x j hj.1 hjk)
  exact ⟨s', g1, g2.iff (fun d k => by rw [hf]) (fun d k => by rw [hf]), g3⟩

/-- Delete of an existing link that is where `delete_links` looks for it. -/
theorem deleteLinks_gen (hc : CfgOK c) {s : Store} {free : List Nat} {I E : Side → Nat → Prop}
    (h : Net c s free I E) (hx : Exact s free I E) (hfl : ∀ x ∈ free, x < s.hdr.allocated) {i : Nat}
    (hi : LiveIn s free i)
    (h0 : ∀ d, endOf d (s.data i) = 0 → ¬ I d i ∧ ¬ E d i)
    (h1 : ∀ d, endOf d (s.data i) ≠ 0 → LiveIn s free (endOf d (s.data i)) → I d i)
    (h2 : ∀ d, endOf d (s.data i) ≠ 0 → ¬ LiveIn s free (endOf d (s.data i)) → E d i)
    (hu : ∀ d, endOf d (s.data i) ≠ 0 → ∀ k, (LiveIn s free (endOf d (s.data i)) → I d k) →
      (¬ LiveIn s free (endOf d (s.data i)) → E d k) → k ≠ i → s.data k ≠ s.data i)
    (huu : ∀ d k, FiledAt I s i d k → ∀ j, I d j → j ≠ k → s.data j ≠ s.data k)
    (q : List Nat) {σ : Type} (hd : WH σ) (st : σ) :
    ∃ s' free', deleteLinks c s (i :: q) hd st =
        some ⟨.ok (hd st (s.linkAt i) Link.nothing).1, s', (hd st (s.linkAt i) Link.nothing).2⟩ ∧
      Net c s' free' (fun d k => k ≠ i ∧ I d k ∧ ¬ FiledAt I s i d k)
        (fun d k => k ≠ i ∧ (E d k ∨ FiledAt I s i d k)) ∧
      (∀ x ∈ free', x < s'.hdr.allocated) ∧
      (i < s.hdr.allocated → free' = i :: free ∧ s'.hdr.allocated = s.hdr.allocated) ∧
      (i = s.hdr.allocated → s'.hdr.allocated < i ∧
        free' = free.filter fun x => x < s'.hdr.allocated) ∧
      s'.ilen = s.ilen ∧
      (∀ k, LiveIn s' free' k ↔ LiveIn s free k ∧ k ≠ i) ∧
      (∀ k, LiveIn s free k → k ≠ i → s'.data k = s.data k) := by
  have hpos := hi.1
  obtain ⟨s0, r1, r2, r3, r4, r5⟩ := resolveInternal_gen hc h hx hi huu
  have hl0 : ∀ k, LiveIn s0 free k ↔ LiveIn s free k := by intro k; simp only [LiveIn, r5]
  have hx0 : Exact s0 free (fun d k => I d k ∧ ¬ FiledAt I s i d k) (fun d k => E d k ∨ FiledAt I s i d k) := by
    intro e he hs
    rw [r3] at hs
    rcases hx e ((hl0 e).1 he) hs with x | x
    · by_cases hus : FiledAt I s i .tgt e
      · exact Or.inr (Or.inr hus)
      · exact Or.inl ⟨x, hus⟩
    · exact Or.inr (Or.inl x)
  obtain ⟨s1, h1, h2, h3, h4, h5⟩ := updateLinks_gen hc r2 hx0 (i := i) ((hl0 i).2 hi)
    (by
      intro d he
      rw [r3] at he
      refine ⟨fun x => (h0 d he).1 x.1, ?_⟩
      rintro (x | x)
      · exact (h0 d he).2 x
      · exact x.2.1 rfl)
    (by
      intro d he hl
      rw [r3] at he hl
      exact ⟨h1 d he ((hl0 _).1 hl), fun x => x.2.1 rfl⟩)
    (by
      intro d he hl
      rw [r3] at he hl
      exact Or.inl (h2 d he fun x => hl ((hl0 _).2 x)))
    (by
      intro d he k ha hb hki
      rw [r3] at he ha hb ⊢
      by_cases hl : LiveIn s free (endOf d (s.data i))
      · exact hu d he k (fun _ => (ha ((hl0 _).2 hl)).1) (fun x => absurd hl x) hki
      · rcases hb (fun x => hl ((hl0 _).1 x)) with x | x
        · exact hu d he k (fun x => absurd x hl) (fun _ => x) hki
        · intro e
          rw [← e, x.2.2] at hl
          exact hl hi)
    0 0 [] i [] (fun (u : Unit) (_ _ : Link) => ((Ctl.cont : Flow), u)) ()
  rw [r3] at h5
  rw [r5] at h4
  rw [r4] at h3
  have hz : ∀ d, endOf d ((0, 0) : Nat × Nat) = 0 := by intro d; cases d <;> rfl
  let I1 : Side → Nat → Prop := fun d k => k ≠ i ∧ I d k ∧ ¬ FiledAt I s i d k
  let E1 : Side → Nat → Prop := fun d k => k ≠ i ∧ (E d k ∨ FiledAt I s i d k)
  have h2 : Net c s1 free I1 E1 := h2.iff (by intro d k; simp [hz, I1]) (by intro d k; simp [hz, E1])
  have hi1 : LiveIn s1 free i := by simpa [LiveIn, h4] using hi
  have hd1 : s1.data i = (0, 0) := by rw [h5]; simp
  have hx1 : Exact s1 free I1 E1 := by
    intro e he hs
    have hne : e ≠ i := by rintro rfl; rw [hd1] at hs; exact hs rfl
    rw [h5, if_neg hne] at hs
    have he' : LiveIn s0 free e := by simpa [LiveIn, h4, r5] using he
    rcases hx0 e he' (by rw [r3]; exact hs) with x | x
    · exact Or.inl ⟨hne, x⟩
    · exact Or.inr ⟨hne, x⟩
  have hget : getLink c s i = some (some (s.linkAt i)) := by
    rw [getLink_eq hc h hx, if_pos hi]
  by_cases hlt : i < s.hdr.allocated
  · obtain ⟨s2, g1, g2, g3, g4, g5, g6⟩ := unusedAttachFirst_ok hc h2 hi1
      (fun d => ⟨fun x => x.1 rfl, fun x => x.1 rfl⟩)
    have hl2 : ∀ k, LiveIn s2 (i :: free) k ↔ LiveIn s free k ∧ k ≠ i := by
      intro k
      simp only [LiveIn, g4, h4, List.mem_cons, not_or]
      constructor
      · rintro ⟨a1, a2, a3, a4⟩; exact ⟨⟨a1, a2, a4⟩, a3⟩
      · rintro ⟨⟨a1, a2, a4⟩, a3⟩; exact ⟨a1, a2, a3, a4⟩
    have hd2 : ∀ k, LiveIn s free k → k ≠ i → s2.data k = s.data k := by
      intro k hk hki
      rw [g6 k (by simp [hki, hk.2.2]), h5, if_neg hki]
    refine ⟨s2, i :: free, ?_, g2, ?_, ?_, ?_, ?_, hl2, hd2⟩
    · simp [deleteLinks, hget, r1, h1, h4, hlt, g1]
    · intro x hx
      rw [g4, h4]
      rcases List.mem_cons.1 hx with rfl | hx
      · exact hlt
      · exact hfl x hx
    · intro _; exact ⟨rfl, by rw [g4, h4]⟩
    · intro e; omega
    · rw [g3, h3]
  · have heq : i = s.hdr.allocated := by have := hi.2.1; omega
    let s2 : Store := { s1 with hdr := { s1.hdr with allocated := i - 1 } }
    have hlen := h2.base.alloc_lt
    rw [h4] at hlen
    have hale := h.base.alloc_le
    have hs2 : Net c s2 free I1 E1 := by
      refine setAllocated_ok h2 (by omega) (by omega) ?_ ?_ ?_
      · intro x hx
        have := hfl x hx
        omega
      · intro k hk
        by_cases hk2 : k = i
        · rw [hk2]; exact hd1
        · exact h2.base.beyond k (by rw [h4]; omega)
      · intro d k hk
        have h8 := (h2.live d k hk).2.1
        rw [h4] at h8
        have : k ≠ i := by rcases hk with hk | hk <;> exact hk.1
        omega
    have hs2a : s2.hdr.allocated = i - 1 := rfl
    have hx2 : Exact s2 free I1 E1 := by
      intro e he hs
      refine hx1 e ⟨he.1, ?_, he.2.2⟩ hs
      have := he.2.1; rw [hs2a] at this; rw [h4]; omega
    obtain ⟨s', g1, g2, g3, g4, g5, g7, g6⟩ :=
      releaseTop_ok hc (i + 1) s2 free I1 E1 hs2 hx2 (by rw [hs2a]; omega)
    rw [hs2a] at g3 g5
    have hl' : ∀ k, LiveIn s' (free.filter fun x => x < s'.hdr.allocated) k ↔ LiveIn s free k ∧ k ≠ i := by
      intro k
      simp only [LiveIn, List.mem_filter, decide_eq_true_eq, not_and]
      constructor
      · rintro ⟨a1, a2, a3⟩
        have hkf : k ∉ free := by
          intro hf
          have h8 := a3 hf
          have hkk : k = s'.hdr.allocated := by omega
          exact g7 (hkk ▸ hf)
        exact ⟨⟨a1, by omega, hkf⟩, by omega⟩
      · rintro ⟨⟨a1, a2, a3⟩, a4⟩
        refine ⟨a1, ?_, fun hf => absurd hf a3⟩
        by_cases hk3 : k ≤ s'.hdr.allocated
        · exact hk3
        · exact absurd (g5 k (by omega) (by omega)) a3
    have hd' : ∀ k, LiveIn s free k → k ≠ i → s'.data k = s.data k := by
      intro k hk hki
      rw [g6 k hk.2.2]
      show s1.data k = _
      rw [h5, if_neg hki]
    refine ⟨s', _, ?_, g2, ?_, ?_, ?_, ?_, hl', hd'⟩
    · have e1 : s1.hdr.allocated = i := by rw [h4, heq]
      have hd2 : deleteLinks c s (i :: q) hd st =
          (releaseTop c (i + 1) s2).map fun s2 =>
            ⟨.ok (hd st (s.linkAt i) Link.nothing).1, s2, (hd st (s.linkAt i) Link.nothing).2⟩ := by
        simp [deleteLinks, hget, r1, h1, e1, csub_eq hpos, s2]
      rw [hd2, g1]; rfl
    · intro x hx
      simp only [List.mem_filter, decide_eq_true_eq] at hx
      exact hx.2
    · intro hh; omega
    · intro _; exact ⟨by omega, rfl⟩
    · rw [g4]; exact h3

/-- Delete of an existing link. -/
theorem deleteLinks_ok (hc : CfgOK c) {s : Store} {free : List Nat} (h : Inv c s free) {i : Nat}
    (hi : LiveIn s free i) (hu : NoTwinIn s free i)
    (huu : ∀ d k, UserOf s free i d k → NoTwinIn s free k)
    (q : List Nat) {σ : Type} (hd : WH σ) (st : σ) :
    ∃ s' free', deleteLinks c s (i :: q) hd st =
        some ⟨.ok (hd st (s.linkAt i) Link.nothing).1, s', (hd st (s.linkAt i) Link.nothing).2⟩ ∧
      Inv c s' free' ∧
      (i < s.hdr.allocated → free' = i :: free ∧ s'.hdr.allocated = s.hdr.allocated) ∧
      (i = s.hdr.allocated → s'.hdr.allocated < i ∧
        free' = free.filter fun x => x < s'.hdr.allocated) ∧
      s'.ilen = s.ilen ∧
      (∀ k, LiveIn s' free' k ↔ LiveIn s free k ∧ k ≠ i) ∧
      (∀ k, LiveIn s free k → k ≠ i → s'.data k = s.data k) := by
  have hpos := hi.1
  have hf : ∀ d k, FiledAt (IntRef s free) s i d k ↔ UserOf s free i d k := by
    intro d k
    constructor
    · rintro ⟨h1, h2, h3⟩; exact ⟨h1.1, h2, h3⟩
    · rintro ⟨h1, h2, h3⟩
      exact ⟨⟨h1, by rw [h3]; omega, by rw [h3]; exact hi⟩, h2, h3⟩
  obtain ⟨s', free', g1, g2, g3, g4, g5, g6, hl, hdat⟩ := deleteLinks_gen hc h.net h.exact h.free_lt hi
    (fun d he => ⟨fun x => x.2.1 he, fun x => x.2.1 he⟩)
    (fun d he hl => ⟨hi, he, hl⟩) (fun d he hl => ⟨hi, he, hl⟩)
    (fun d he k ha hb hki => by
      refine noTwin_tree h.toInv0 hu d he k ?_ hki
      by_cases hl : LiveIn s free (endOf d (s.data i))
      · exact Or.inl (ha hl)
      · exact Or.inr (hb hl))
    (fun d k hk j hj hjk => by
      rcases huu d k ((hf d k).1 hk) with x | x
      · have := hk.2.2
        rw [x] at this
        have hi0 : i ≠ 0 := by omega
        cases d <;> exact absurd this.symm hi0
      · exact x j hj.1 hjk) q hd st
  refine ⟨s', free', g1, ⟨g2.toInv0 ?_ ?_ ?_, g3⟩, g4, g5, g6, hl, hdat⟩
  · intro d k
    rw [hf]
    simp only [IntRef, hl, UserOf]
    constructor
    · rintro ⟨⟨a1, a2⟩, a3, a4, a5⟩
      rw [hdat k a1 a2] at a3 a4 a5
      exact ⟨a2, ⟨a1, a3, a4⟩, fun x => a5 x.2.2⟩
    · rintro ⟨a2, ⟨a1, a3, a4⟩, a5⟩
      rw [hdat k a1 a2]
      exact ⟨⟨a1, a2⟩, a3, a4, fun x => a5 ⟨a1, a2, x⟩⟩
  · intro d k
    rw [hf]
    simp only [ExtRef, hl, UserOf]
    constructor
    · rintro ⟨⟨a1, a2⟩, a3, a4⟩
      rw [hdat k a1 a2] at a3 a4
      by_cases he : endOf d (s.data k) = i
      · exact ⟨a2, Or.inr ⟨a1, a2, he⟩⟩
      · exact ⟨a2, Or.inl ⟨a1, a3, fun x => a4 ⟨x, he⟩⟩⟩
    · rintro ⟨a2, ⟨a1, a3, a4⟩ | ⟨a1, _, a3⟩⟩
      · rw [hdat k a1 a2]
        exact ⟨⟨a1, a2⟩, a3, fun x => a4 x.1⟩
      · rw [hdat k a1 a2]
        exact ⟨⟨a1, a2⟩, by rw [a3]; omega, fun x => x.2 a3⟩
  · intro k hk
    rw [hl] at hk
    rw [hdat k hk.1 hk.2]
    exact h.half k hk.1

end Verif.Split
