import Verif.Unit.Inv

/-!
# Effect of the united store's operations on the representation (helper lemmas)
-/

namespace Verif.Unit
open Verif

variable {c : Cfg}

instance (s : Store) (free : List Nat) (i : Nat) : Decidable (LiveIn s free i) :=
  inferInstanceAs (Decidable (_ ∧ _ ∧ _))

/-- The link stored in slot `i`. -/
def Store.linkAt (s : Store) (i : Nat) : Link := ⟨i, (s.cell i).source, (s.cell i).target⟩

theorem get_eq {s : Store} {i : Nat} (h1 : i ≠ 0) (h2 : i < s.len) : s.get i = some (s.cell i) := by
  simp [Store.get, h1, h2]

theorem isUnused_eq {s : Store} {free : List Nat} {ts tt : Tree} (h : Inv0 c s free ts tt)
    {i : Nat} (h1 : 1 ≤ i) (h2 : i ≤ s.hdr.allocated) :
    isUnused s i = some (decide (i ∈ free)) := by
  unfold isUnused
  have hlt : i < s.len := by have := h.base.alloc_lt; omega
  by_cases hf : s.hdr.firstFree = i
  · have : i ∈ free := by
      have := h.base.list.first_mem (show s.listMem.first ≠ 0 by simp [Store.listMem]; omega)
      simpa [Store.listMem, hf] using this
    simp [hf, this]
  · rw [if_pos ⟨h2, hf⟩, get_eq (by omega) hlt]
    simp only [Option.map_some, Option.some.injEq]
    by_cases hm : i ∈ free
    · have hp : (s.cell i).source ≠ 0 := h.base.list.nonzero _ (h.base.list.prev_mem hm)
      have hts : i ∉ ts.toList := fun hk => ((h.src_mem i).1 hk).1.2.2 hm
      have := (h.src.clean i hts).2.2
      simp [hm, hp, this]
    · by_cases hp : (s.cell i).source = 0
      · simp [hm, hp]
      · have := h.src.tree.holds.size_pos i ((h.src_mem i).2 ⟨⟨h1, h2, hm⟩, hp⟩)
        have : (s.cell i).sizeS ≠ 0 := by simp only [Store.srcMem] at this; omega
        simp [hm, this]

theorem exists_eq (hc : CfgOK c) {s : Store} {free : List Nat} {ts tt : Tree}
    (h : Inv0 c s free ts tt) (i : Nat) :
    exists? c s i = some (decide (LiveIn s free i)) := by
  unfold exists?
  rw [hc.start_eq]
  by_cases hi : 1 ≤ i ∧ i ≤ s.hdr.allocated
  · rw [if_pos hi, isUnused_eq h hi.1 hi.2]
    simp [LiveIn, hi]
  · rw [if_neg hi]
    have : ¬ LiveIn s free i := fun hl => hi ⟨hl.1, hl.2.1⟩
    simp [this]

theorem getLinkUnchecked_eq {s : Store} {free : List Nat} {ts tt : Tree}
    (h : Inv0 c s free ts tt) {i : Nat} (hi : LiveIn s free i) :
    getLinkUnchecked s i = some (s.linkAt i) := by
  have hlt : i < s.len := by have := h.base.alloc_lt; have := hi.2.1; omega
  simp [getLinkUnchecked, get_eq (show i ≠ 0 by have := hi.1; omega) hlt, Store.linkAt]

theorem getLink_eq (hc : CfgOK c) {s : Store} {free : List Nat} {ts tt : Tree}
    (h : Inv0 c s free ts tt) (i : Nat) :
    getLink c s i = some (if LiveIn s free i then some (s.linkAt i) else none) := by
  unfold getLink
  rw [exists_eq hc h i, Option.bind_some]
  by_cases hi : LiveIn s free i
  · simp [hi, getLinkUnchecked_eq h hi]
  · simp [hi]

/-! ### Free list operations -/

/-- A list operation that only writes to slots which hold no link keeps the trees. -/
theorem srcOK_putList {s : Store} {m : LMem} {ts : Tree} (h : SrcOK c s ts)
    (hk : ∀ k ∈ ts.toList, m.prev k = (s.cell k).source ∧ m.next k = (s.cell k).target) :
    SrcOK c (s.putList m) ts := by
  refine ⟨h.tree.congr (fun k _ => ⟨rfl, rfl, rfl⟩) ?_, h.clean⟩
  intro a ha b hb
  simp [Store.cmp, Store.putList, hk a ha, hk b hb]

theorem tgtOK_putList {s : Store} {m : LMem} {tt : Tree} (h : TgtOK c s tt)
    (hk : ∀ k ∈ tt.toList, m.prev k = (s.cell k).source ∧ m.next k = (s.cell k).target) :
    TgtOK c (s.putList m) tt := by
  refine ⟨h.tree.congr (fun k _ => ⟨rfl, rfl, rfl⟩) ?_, h.clean⟩
  intro a ha b hb
  simp [Store.cmp, Store.putList, hk a ha, hk b hb]

theorem unusedDetach_ok (hc : CfgOK c) {s : Store} {free : List Nat} {ts tt : Tree}
    (h : Inv0 c s free ts tt) {i : Nat} (hi : i ∈ free) :
    ∃ s', unusedDetach c s i = some s' ∧ Inv0 c s' (free.erase i) ts tt ∧ s'.len = s.len ∧
      s'.hdr.allocated = s.hdr.allocated ∧ s'.hdr.reserved = s.hdr.reserved ∧
      s'.lk i = (0, 0) ∧ (∀ k, k ∉ free → s'.lk k = s.lk k) := by
  obtain ⟨m, h1, h2, h3, h4, h5⟩ := hc.trees.listDetach _ _ i h.base.list hi
  have hkeep : ∀ k, k ∉ free → m.prev k = (s.cell k).source ∧ m.next k = (s.cell k).target :=
    fun k hk => h5 k hk
  have hts : ∀ k ∈ ts.toList, k ∉ free := fun k hk => ((h.src_mem k).1 hk).1.2.2
  have htt : ∀ k ∈ tt.toList, k ∉ free := fun k hk => ((h.tgt_mem k).1 hk).1.2.2
  have hlki : (s.putList m).lk i = (0, 0) := by
    simp [Store.lk, Store.putList, h3, h4]
  have hn := h.base.list.nodup
  refine ⟨s.putList m, by simp [unusedDetach, h1], ?_, rfl, rfl, rfl, hlki, ?_⟩
  · refine ⟨⟨h.base.alloc_lt, h.base.alloc_le, h.base.res_pos, h.base.res_le, h.base.res8, h2, ?_,
      ?_⟩, srcOK_putList h.src fun k hk => hkeep k (hts k hk),
      tgtOK_putList h.tgt fun k hk => hkeep k (htt k hk), ?_, ?_⟩
    · intro x hx; exact h.base.free_le x (List.mem_of_mem_erase hx)
    · intro k hk
      have hkf : k ∉ free := fun hf => by
        have := h.base.free_le k hf
        have := h.base.list.nonzero k hf
        exact absurd hk (by simp [Store.putList]; omega)
      have := h.base.beyond k hk
      simpa [Store.lk, Store.putList, hkeep k hkf] using this
    · intro k
      rw [h.src_mem k]
      by_cases hki : k = i
      · subst hki
        have : ((s.putList m).cell k).source = 0 := congrArg Prod.fst hlki
        simp [this, LiveIn, hi]
      · by_cases hkf : k ∈ free
        · have : k ∈ free.erase i := (hn.mem_erase_iff).2 ⟨hki, hkf⟩
          simp [LiveIn, hkf, this]
        · have : k ∉ free.erase i := fun hm => hkf (List.mem_of_mem_erase hm)
          simp [LiveIn, hkf, this, Store.putList, hkeep k hkf]
    · intro k
      rw [h.tgt_mem k]
      by_cases hki : k = i
      · subst hki
        have : ((s.putList m).cell k).target = 0 := congrArg Prod.snd hlki
        simp [this, LiveIn, hi]
      · by_cases hkf : k ∈ free
        · have : k ∈ free.erase i := (hn.mem_erase_iff).2 ⟨hki, hkf⟩
          simp [LiveIn, hkf, this]
        · have : k ∉ free.erase i := fun hm => hkf (List.mem_of_mem_erase hm)
          simp [LiveIn, hkf, this, Store.putList, hkeep k hkf]
  · intro k hk
    simp [Store.lk, Store.putList, hkeep k hk]

theorem unusedAttachFirst_ok (hc : CfgOK c) {s : Store} {free : List Nat} {ts tt : Tree}
    (h : Inv0 c s free ts tt) {i : Nat} (hi : LiveIn s free i) (hl : s.lk i = (0, 0)) :
    ∃ s', unusedAttachFirst c s i = some s' ∧ Inv0 c s' (i :: free) ts tt ∧ s'.len = s.len ∧
      s'.hdr.allocated = s.hdr.allocated ∧ s'.hdr.reserved = s.hdr.reserved ∧
      (∀ k, k ∉ i :: free → s'.lk k = s.lk k) := by
  obtain ⟨hi1, hi2, hi3⟩ := hi
  obtain ⟨m, h1, h2, h5⟩ := hc.trees.listAttachFirst _ _ i h.base.list (by omega) hi3
  have hkeep : ∀ k, k ∉ i :: free → m.prev k = (s.cell k).source ∧ m.next k = (s.cell k).target :=
    fun k hk => h5 k hk
  have hts : ∀ k ∈ ts.toList, k ∉ i :: free := by
    intro k hk hm
    have := (h.src_mem k).1 hk
    rcases List.mem_cons.1 hm with rfl | hm
    · exact this.2 (congrArg Prod.fst hl)
    · exact this.1.2.2 hm
  have htt : ∀ k ∈ tt.toList, k ∉ i :: free := by
    intro k hk hm
    have := (h.tgt_mem k).1 hk
    rcases List.mem_cons.1 hm with rfl | hm
    · exact this.2 (congrArg Prod.snd hl)
    · exact this.1.2.2 hm
  refine ⟨s.putList m, by simp [unusedAttachFirst, h1], ?_, rfl, rfl, rfl, ?_⟩
  · refine ⟨⟨h.base.alloc_lt, h.base.alloc_le, h.base.res_pos, h.base.res_le, h.base.res8, h2, ?_,
      ?_⟩, srcOK_putList h.src fun k hk => hkeep k (hts k hk),
      tgtOK_putList h.tgt fun k hk => hkeep k (htt k hk), ?_, ?_⟩
    · intro x hx
      rcases List.mem_cons.1 hx with rfl | hx
      · exact hi2
      · exact h.base.free_le x hx
    · intro k hk
      have hk' : k = 0 ∨ s.hdr.allocated < k := hk
      have hkf : k ∉ i :: free := by
        intro hf
        rcases List.mem_cons.1 hf with rfl | hf
        · omega
        · have := h.base.free_le k hf
          have := h.base.list.nonzero k hf
          omega
      have := h.base.beyond k hk
      simpa [Store.lk, Store.putList, hkeep k hkf] using this
    · intro k
      by_cases hkf : k ∈ i :: free
      · have e : ¬ k ∈ ts.toList := fun hk => hts k hk hkf
        simp only [e, LiveIn, hkf, not_true_eq_false, and_false, false_and]
      · have e : k ∉ free := fun hm => hkf (List.mem_cons_of_mem _ hm)
        rw [h.src_mem k]
        simp only [LiveIn, Store.putList, hkeep k hkf, hkf, e]
    · intro k
      by_cases hkf : k ∈ i :: free
      · have e : ¬ k ∈ tt.toList := fun hk => htt k hk hkf
        simp only [e, LiveIn, hkf, not_true_eq_false, and_false, false_and]
      · have e : k ∉ free := fun hm => hkf (List.mem_cons_of_mem _ hm)
        rw [h.tgt_mem k]
        simp only [LiveIn, Store.putList, hkeep k hkf, hkf, e]
  · intro k hk
    simp [Store.lk, Store.putList, hkeep k hk]

/-! ### Create -/

/-- `createTop` after the capacity check. -/
theorem createTop_ok (hc : CfgOK c) {s : Store} {ts tt : Tree}
    (h : Inv c s [] ts tt) (hlt : s.hdr.allocated + 1 < s.len)
    (hend : s.hdr.allocated < c.consts.internalEnd) {σ : Type} (hd : WH σ) (st : σ) :
    let i := s.hdr.allocated + 1
    let r := hd st Link.nothing ⟨i, 0, 0⟩
    ∃ s', createTop c s hd st = some ⟨.ok r.1, s', r.2⟩ ∧ Inv c s' [] ts tt ∧
      s'.len = s.len ∧ s'.hdr.allocated = i ∧ s'.hdr.reserved = s.hdr.reserved ∧
      (∀ k, s'.lk k = s.lk k) ∧ s'.lk i = (0, 0) := by
  have hle := hc.end_le
  intro i r
  refine ⟨{ s with hdr := { s.hdr with allocated := i } }, ?_, ?_, rfl, rfl, rfl, fun _ => rfl, ?_⟩
  · simp [createTop, cadd_eq (show s.hdr.allocated + 1 ≤ c.maxT by omega), i, r]
  · refine ⟨⟨⟨hlt, hend, h.base.res_pos, h.base.res_le, h.base.res8, h.base.list, by simp, ?_⟩,
      ⟨h.src.tree, h.src.clean⟩, ⟨h.tgt.tree, h.tgt.clean⟩, ?_, ?_⟩, by simp⟩
    · intro k hk
      exact h.base.beyond k (by simp [i] at hk; omega)
    · intro k
      rw [h.src_mem k]
      by_cases hk : k = i
      · have : (s.cell k).source = 0 := congrArg Prod.fst (h.base.beyond k (by simp [i] at hk; omega))
        simp [this]
      · simp only [LiveIn, i] at hk ⊢
        constructor
        · rintro ⟨⟨h1, h2, h3⟩, h4⟩; exact ⟨⟨h1, by omega, h3⟩, h4⟩
        · rintro ⟨⟨h1, h2, h3⟩, h4⟩; exact ⟨⟨h1, by omega, h3⟩, h4⟩
    · intro k
      rw [h.tgt_mem k]
      by_cases hk : k = i
      · have : (s.cell k).target = 0 := congrArg Prod.snd (h.base.beyond k (by simp [i] at hk; omega))
        simp [this]
      · simp only [LiveIn, i] at hk ⊢
        constructor
        · rintro ⟨⟨h1, h2, h3⟩, h4⟩; exact ⟨⟨h1, by omega, h3⟩, h4⟩
        · rintro ⟨⟨h1, h2, h3⟩, h4⟩; exact ⟨⟨h1, by omega, h3⟩, h4⟩
  · exact h.base.beyond i (by simp [i])

/-- Growing the memory keeps the invariant. -/
theorem grow_ok {s : Store} {free : List Nat} {ts tt : Tree} (h : Inv c s free ts tt) {n : Nat}
    (hn : s.len ≤ n) :
    Inv c { s with len := n, hdr := { s.hdr with reserved := n } } free ts tt := by
  have h1 := h.base.alloc_lt
  refine ⟨⟨⟨?_, h.base.alloc_le, ?_, ?_, h.base.res8, h.base.list, h.base.free_le, h.base.beyond⟩,
    ⟨h.src.tree, h.src.clean⟩, ⟨h.tgt.tree, h.tgt.clean⟩, h.src_mem, h.tgt_mem⟩, h.free_lt⟩
  · show s.hdr.allocated < n; omega
  · show 1 ≤ n; omega
  · exact Nat.le_refl n

/-- The four ways in which `create_links` can end on a good store. -/
theorem createLinks_ok (hc : CfgOK c) {s : Store} {free : List Nat} {ts tt : Tree}
    (h : Inv c s free ts tt) (q : List Nat) {σ : Type} (hd : WH σ) (st : σ) :
    (∃ x rest s', free = x :: rest ∧
      createLinks c s q hd st =
        some ⟨.ok (hd st Link.nothing ⟨x, 0, 0⟩).1, s', (hd st Link.nothing ⟨x, 0, 0⟩).2⟩ ∧
      Inv c s' rest ts tt ∧ s'.hdr.allocated = s.hdr.allocated ∧ s'.len = s.len ∧
      s'.lk x = (0, 0) ∧ ∀ k, k ∉ free → s'.lk k = s.lk k) ∨
    (free = [] ∧ c.consts.internalEnd ≤ s.hdr.allocated ∧
      createLinks c s q hd st = some ⟨.error (.limitReached c.consts.internalEnd), s, st⟩) ∨
    (free = [] ∧ s.hdr.allocated < c.consts.internalEnd ∧ s.hdr.reserved ≤ s.hdr.allocated + 1 ∧
      c.alloc s.len (s.len + c.step) = none ∧
      createLinks c s q hd st = some ⟨.error .allocFailed, s, st⟩) ∨
    (free = [] ∧ s.hdr.allocated < c.consts.internalEnd ∧ s.hdr.reserved ≤ s.hdr.allocated + 1 ∧
      ∃ n, c.alloc s.len (s.len + c.step) = some n ∧ c.maxT < n ∧
      createLinks c s q hd st = none) ∨
    (free = [] ∧ s.hdr.allocated < c.consts.internalEnd ∧ ∃ s',
      createLinks c s q hd st =
        some ⟨.ok (hd st Link.nothing ⟨s.hdr.allocated + 1, 0, 0⟩).1, s',
          (hd st Link.nothing ⟨s.hdr.allocated + 1, 0, 0⟩).2⟩ ∧
      Inv c s' [] ts tt ∧ s'.hdr.allocated = s.hdr.allocated + 1 ∧
      s'.lk (s.hdr.allocated + 1) = (0, 0) ∧ ∀ k, s'.lk k = s.lk k) := by
  cases free with
  | cons x rest =>
    left
    have hx : s.hdr.firstFree = x := by
      have := h.base.list.first_eq; simpa [Store.listMem] using this
    have hx0 : x ≠ 0 := h.base.list.nonzero x (by simp)
    obtain ⟨s', h1, h2, h3, h4, h5, h6, h7⟩ := unusedDetach_ok hc h.toInv0 (i := x) (by simp)
    simp only [List.erase_cons_head] at h2
    refine ⟨x, rest, s', rfl, ?_, ⟨h2, ?_⟩, h4, h3, h6, h7⟩
    · simp [createLinks, hx, hc.null_eq, hx0, h1]
    · intro y hy; rw [h4]; exact h.free_lt y (by simp [hy])
  | nil =>
    right
    have hx : s.hdr.firstFree = 0 := by
      have := h.base.list.first_eq; simpa [Store.listMem] using this
    by_cases hend : c.consts.internalEnd ≤ s.hdr.allocated
    · left
      exact ⟨rfl, hend, by simp [createLinks, hx, hc.null_eq, hend]⟩
    · right
      have hend' : s.hdr.allocated < c.consts.internalEnd := by omega
      have hrp := h.base.res_pos
      by_cases hr : s.hdr.reserved - 1 ≤ s.hdr.allocated
      · cases hal : c.alloc s.len (s.len + c.step) with
        | none =>
          left
          exact ⟨rfl, hend', by omega, rfl, by
            simp [createLinks, hx, hc.null_eq, hend, csub_eq hrp, hr, hal]⟩
        | some n =>
          right
          have hn := hc.alloc_ge _ _ _ hal
          by_cases hm : n ≤ c.maxT
          · right
            have hg := grow_ok h (n := n) (by omega)
            have hsp := hc.step_pos
            have hlt := h.base.alloc_lt
            obtain ⟨s', h1, h2, h3, h4, h5, h6, h7⟩ :=
              createTop_ok hc hg (by show s.hdr.allocated + 1 < n; omega) hend' hd st
            refine ⟨rfl, hend', s', ?_, h2, h4, h7, h6⟩
            have : createLinks c s q hd st =
                createTop c { s with len := n, hdr := { s.hdr with reserved := n } } hd st := by
              simp [createLinks, hx, hc.null_eq, hend, csub_eq hrp, hr, hal, hm]
            rw [this]; exact h1
          · left
            exact ⟨rfl, hend', by omega, n, rfl, by omega, by
              simp [createLinks, hx, hc.null_eq, hend, csub_eq hrp, hr, hal, hm]⟩
      · right; right
        have hrl := h.base.res_le
        obtain ⟨s', h1, h2, h3, h4, h5, h6, h7⟩ := createTop_ok hc h (by omega) hend' hd st
        refine ⟨rfl, hend', s', ?_, h2, h4, h7, h6⟩
        have : createLinks c s q hd st = createTop c s hd st := by
          simp [createLinks, hx, hc.null_eq, hend, csub_eq hrp, hr]
        rw [this]; exact h1

/-! ### Update -/

theorem updateLinks_missing (hc : CfgOK c) {s : Store} {free : List Nat} {ts tt : Tree}
    (h : Inv0 c s free ts tt) {i : Nat} (hi : ¬ LiveIn s free i) (q : List Nat) (x a b : Nat)
    (ch : List Nat) {σ : Type} (hd : WH σ) (st : σ) :
    updateLinks c s (i :: q) (x :: a :: b :: ch) hd st = some ⟨.error (.notExists i), s, st⟩ := by
  simp [updateLinks, getLink_eq hc h, hi]

theorem updateLinks_ok (hc : CfgOK c) {s : Store} {free : List Nat} {ts tt : Tree}
    (h : Inv c s free ts tt) {i : Nat} (hi : LiveIn s free i) (hu : NoTwinIn s free i)
    (q : List Nat) (x a b : Nat) (ch : List Nat) {σ : Type} (hd : WH σ) (st : σ) :
    ∃ s' ts' tt', updateLinks c s (i :: q) (x :: a :: b :: ch) hd st =
        some ⟨.ok (hd st ⟨i, a, b⟩ ⟨i, a, b⟩).1, s', (hd st ⟨i, a, b⟩ ⟨i, a, b⟩).2⟩ ∧
      Inv c s' free ts' tt' ∧ s'.len = s.len ∧ s'.hdr.allocated = s.hdr.allocated ∧
      (∀ k, s'.lk k = if k = i then (a, b) else s.lk k) := by
  obtain ⟨s', ts', tt', h1, h2, h3, h4, h5, h6⟩ := relink_ok hc h hi hu a b
  refine ⟨s', ts', tt', ?_, h2, h3, h4, h6⟩
  simp [updateLinks, getLink_eq hc h.toInv0, hi, Store.linkAt, h1]

/-! ### Delete -/

theorem deleteLinks_missing (hc : CfgOK c) {s : Store} {free : List Nat} {ts tt : Tree}
    (h : Inv0 c s free ts tt) {i : Nat} (hi : ¬ LiveIn s free i) (q : List Nat)
    {σ : Type} (hd : WH σ) (st : σ) :
    deleteLinks c s (i :: q) hd st = some ⟨.error (.notExists i), s, st⟩ := by
  simp [deleteLinks, getLink_eq hc h, hi]

theorem erase_filter {l : List Nat} (hn : l.Nodup) (a : Nat) (p : Nat → Bool) (hp : p a = false) :
    (l.erase a).filter p = l.filter p := by
  rw [hn.erase_eq_filter, List.filter_filter]
  congr 1
  funext x
  by_cases hx : x = a
  · subst hx; simp [hp]
  · simp [hx]

theorem releaseTop_ok (hc : CfgOK c) : ∀ (fuel : Nat) (s : Store) (free : List Nat) (ts tt : Tree),
    Inv0 c s free ts tt → s.hdr.allocated < fuel →
    ∃ s', releaseTop c fuel s = some s' ∧
      Inv c s' (free.filter fun x => x < s'.hdr.allocated) ts tt ∧
      s'.hdr.allocated ≤ s.hdr.allocated ∧ s'.len = s.len ∧
      (∀ k, s'.hdr.allocated < k → k ≤ s.hdr.allocated → k ∈ free) ∧ s'.hdr.allocated ∉ free ∧
      (∀ k, k ∉ free → s'.lk k = s.lk k) := by
  intro fuel
  induction fuel with
  | zero => intro s free ts tt _ hf; omega
  | succ fuel ih =>
    intro s free ts tt h hf
    by_cases ha : s.hdr.allocated = 0
    · refine ⟨s, by simp [releaseTop, ha], ⟨?_, ?_⟩, Nat.le_refl _, rfl, by omega, ?_, fun _ _ => rfl⟩
      · have : free = [] := by
          cases free with
          | nil => rfl
          | cons x xs =>
            have := h.base.free_le x (by simp)
            have := h.base.list.nonzero x (by simp)
            omega
        subst this; exact h
      · intro x hx; simp at hx; omega
      · rw [ha]; exact fun hm => h.base.list.nonzero 0 hm rfl
    · have hu := isUnused_eq h (i := s.hdr.allocated) (by omega) (Nat.le_refl _)
      by_cases hm : s.hdr.allocated ∈ free
      · obtain ⟨s1, h1, h2, h3, h4, h5, h6, h7⟩ := unusedDetach_ok hc h hm
        have hn := h.base.list.nodup
        let s2 : Store := { s1 with hdr := { s1.hdr with allocated := s.hdr.allocated - 1 } }
        have hne : ∀ x ∈ free.erase s.hdr.allocated, x ≠ s.hdr.allocated ∧ x ∈ free :=
          fun x hx => (hn.mem_erase_iff).1 hx
        have hlk2 : ∀ k, s2.lk k = s1.lk k := fun _ => rfl
        have h2' : Inv0 c s2 (free.erase s.hdr.allocated) ts tt := by
          refine ⟨⟨?_, ?_, h2.base.res_pos, h2.base.res_le, h2.base.res8, h2.base.list, ?_, ?_⟩,
            ⟨h2.src.tree, h2.src.clean⟩, ⟨h2.tgt.tree, h2.tgt.clean⟩, ?_, ?_⟩
          · have := h2.base.alloc_lt; rw [h4] at this
            show s.hdr.allocated - 1 < s1.len; omega
          · have := h.base.alloc_le
            show s.hdr.allocated - 1 ≤ _; omega
          · intro x hx
            have h8 := hne x hx
            have h9 := h.base.free_le x h8.2
            show x ≤ s.hdr.allocated - 1; omega
          · intro k hk
            have hk' : k = 0 ∨ s.hdr.allocated - 1 < k := hk
            rw [hlk2]
            by_cases hk2 : k = s.hdr.allocated
            · rw [hk2]; exact h6
            · exact h2.base.beyond k (by rw [h4]; omega)
          · intro k
            rw [h2.src_mem k]
            by_cases hk2 : k = s.hdr.allocated
            · have e : (s1.cell k).source = 0 := by rw [hk2]; exact congrArg Prod.fst h6
              simp [s2, e]
            · simp only [LiveIn, s2, h4]
              constructor
              · rintro ⟨⟨a1, a2, a3⟩, a4⟩; exact ⟨⟨a1, by omega, a3⟩, a4⟩
              · rintro ⟨⟨a1, a2, a3⟩, a4⟩; exact ⟨⟨a1, by omega, a3⟩, a4⟩
          · intro k
            rw [h2.tgt_mem k]
            by_cases hk2 : k = s.hdr.allocated
            · have e : (s1.cell k).target = 0 := by rw [hk2]; exact congrArg Prod.snd h6
              simp [s2, e]
            · simp only [LiveIn, s2, h4]
              constructor
              · rintro ⟨⟨a1, a2, a3⟩, a4⟩; exact ⟨⟨a1, by omega, a3⟩, a4⟩
              · rintro ⟨⟨a1, a2, a3⟩, a4⟩; exact ⟨⟨a1, by omega, a3⟩, a4⟩
        have hs2a : s2.hdr.allocated = s.hdr.allocated - 1 := rfl
        obtain ⟨s', g1, g2, g3, g4, g5, g7, g6⟩ := ih s2 _ ts tt h2' (by rw [hs2a]; omega)
        rw [hs2a] at g3 g5
        refine ⟨s', ?_, ?_, by omega, ?_, ?_, ?_, ?_⟩
        · simp only [releaseTop, ha, if_false, hu, hm, decide_true, Option.bind_some, if_true, h1]
          exact g1
        · rw [erase_filter hn] at g2
          · exact g2
          · simp; omega
        · rw [g4]; exact h3
        · intro k k1 k2
          by_cases hk2 : k = s.hdr.allocated
          · rw [hk2]; exact hm
          · exact List.mem_of_mem_erase (g5 k k1 (by omega))
        · exact fun hm' => g7 ((hn.mem_erase_iff).2 ⟨by omega, hm'⟩)
        · intro k hk
          rw [g6 k (fun hm' => hk (List.mem_of_mem_erase hm')), hlk2]
          exact h7 k hk
      · refine ⟨s, by simp [releaseTop, ha, hu, hm], ?_, Nat.le_refl _, rfl, by omega, hm,
          fun _ _ => rfl⟩
        have hlt : ∀ x ∈ free, x < s.hdr.allocated := by
          intro x hx
          have := h.base.free_le x hx
          have : x ≠ s.hdr.allocated := fun e => hm (e ▸ hx)
          omega
        have hfl : (free.filter fun x => x < s.hdr.allocated) = free := by
          rw [List.filter_eq_self]; intro x hx; simpa using hlt x hx
        rw [hfl]; exact ⟨h, hlt⟩

/-- Delete of an existing link. The free list is determined: the index is pushed if it is not the
highest, otherwise the store shrinks and the released indices leave the free list. -/
theorem deleteLinks_ok (hc : CfgOK c) {s : Store} {free : List Nat} {ts tt : Tree}
    (h : Inv c s free ts tt) {i : Nat} (hi : LiveIn s free i) (hu : NoTwinIn s free i)
    (q : List Nat) {σ : Type} (hd : WH σ) (st : σ) :
    ∃ s' free' ts' tt', deleteLinks c s (i :: q) hd st =
        some ⟨.ok (hd st (s.linkAt i) Link.nothing).1, s', (hd st (s.linkAt i) Link.nothing).2⟩ ∧
      Inv c s' free' ts' tt' ∧
      (i < s.hdr.allocated → free' = i :: free ∧ s'.hdr.allocated = s.hdr.allocated) ∧
      (i = s.hdr.allocated → s'.hdr.allocated < i ∧
        free' = free.filter fun x => x < s'.hdr.allocated) ∧
      s'.len = s.len ∧
      (∀ k, LiveIn s' free' k ↔ LiveIn s free k ∧ k ≠ i) ∧
      (∀ k, LiveIn s free k → k ≠ i → s'.lk k = s.lk k) := by
  obtain ⟨s1, ts1, tt1, h1, h2, h3, h4, h5⟩ := updateLinks_ok hc h hi hu [] i 0 0 []
    (fun (u : _root_.Unit) (_ _ : Link) => ((Ctl.cont : Flow), u)) ()
  have hi1 : LiveIn s1 free i := by simpa [LiveIn, h4] using hi
  have hlk1 : s1.lk i = (0, 0) := by rw [h5]; simp
  have hpos := hi.1
  by_cases hlt : i < s.hdr.allocated
  · obtain ⟨s2, g1, g2, g3, g4, g5, g6⟩ := unusedAttachFirst_ok hc h2.toInv0 hi1 hlk1
    refine ⟨s2, i :: free, ts1, tt1, ?_, ⟨g2, ?_⟩, ?_, ?_, ?_, ?_, ?_⟩
    · simp [deleteLinks, getLink_eq hc h.toInv0, hi, h1, h4, hlt, g1]
    · intro x hx
      rw [g4, h4]
      rcases List.mem_cons.1 hx with rfl | hx
      · exact hlt
      · exact h.free_lt x hx
    · intro _; exact ⟨rfl, by rw [g4, h4]⟩
    · intro e; omega
    · rw [g3, h3]
    · intro k
      simp only [LiveIn, g4, h4, List.mem_cons, not_or]
      constructor
      · rintro ⟨a1, a2, a3, a4⟩; exact ⟨⟨a1, a2, a4⟩, a3⟩
      · rintro ⟨⟨a1, a2, a4⟩, a3⟩; exact ⟨a1, a2, a3, a4⟩
    · intro k hk hki
      rw [g6 k (by simp [hki, hk.2.2]), h5, if_neg hki]
  · have heq : i = s.hdr.allocated := by have := hi.2.1; omega
    let s2 : Store := { s1 with hdr := { s1.hdr with allocated := i - 1 } }
    have hs2 : Inv0 c s2 free ts1 tt1 := by
      refine ⟨⟨?_, ?_, h2.base.res_pos, h2.base.res_le, h2.base.res8, h2.base.list, ?_, ?_⟩,
        ⟨h2.src.tree, h2.src.clean⟩, ⟨h2.tgt.tree, h2.tgt.clean⟩, ?_, ?_⟩
      · have := h2.base.alloc_lt; rw [h4] at this
        show i - 1 < s1.len; omega
      · have := h.base.alloc_le
        show i - 1 ≤ _; omega
      · intro x hx
        have := h.free_lt x hx
        show x ≤ i - 1; omega
      · intro k hk
        have hk' : k = 0 ∨ i - 1 < k := hk
        show s1.lk k = _
        by_cases hk2 : k = i
        · rw [hk2]; exact hlk1
        · exact h2.base.beyond k (by rw [h4]; omega)
      · intro k
        rw [h2.src_mem k]
        by_cases hk2 : k = i
        · have e : (s1.cell k).source = 0 := by rw [hk2]; exact congrArg Prod.fst hlk1
          simp [s2, e]
        · simp only [LiveIn, s2, h4]
          constructor
          · rintro ⟨⟨a1, a2, a3⟩, a4⟩; exact ⟨⟨a1, by omega, a3⟩, a4⟩
          · rintro ⟨⟨a1, a2, a3⟩, a4⟩; exact ⟨⟨a1, by omega, a3⟩, a4⟩
      · intro k
        rw [h2.tgt_mem k]
        by_cases hk2 : k = i
        · have e : (s1.cell k).target = 0 := by rw [hk2]; exact congrArg Prod.snd hlk1
          simp [s2, e]
        · simp only [LiveIn, s2, h4]
          constructor
          · rintro ⟨⟨a1, a2, a3⟩, a4⟩; exact ⟨⟨a1, by omega, a3⟩, a4⟩
          · rintro ⟨⟨a1, a2, a3⟩, a4⟩; exact ⟨⟨a1, by omega, a3⟩, a4⟩
    have hs2a : s2.hdr.allocated = i - 1 := rfl
    obtain ⟨s', g1, g2, g3, g4, g5, g7, g6⟩ :=
      releaseTop_ok hc (i + 1) s2 free ts1 tt1 hs2 (by rw [hs2a]; omega)
    rw [hs2a] at g3 g5
    refine ⟨s', _, ts1, tt1, ?_, g2, ?_, ?_, ?_, ?_, ?_⟩
    · have e1 : s1.hdr.allocated = i := by rw [h4, heq]
      have hd2 : deleteLinks c s (i :: q) hd st =
          (releaseTop c (i + 1) s2).map fun s2 =>
            ⟨.ok (hd st (s.linkAt i) Link.nothing).1, s2, (hd st (s.linkAt i) Link.nothing).2⟩ := by
        simp [deleteLinks, getLink_eq hc h.toInv0, hi, h1, e1, csub_eq hpos, s2]
      rw [hd2, g1]; rfl
    · intro hh; omega
    · intro _; exact ⟨by omega, rfl⟩
    · rw [g4]; exact h3
    · intro k
      simp only [LiveIn, List.mem_filter, decide_eq_true_eq, not_and]
      constructor
      · rintro ⟨a1, a2, a3⟩
        have hkf : k ∉ free := by
          intro hf
          have h8 := a3 hf
          have hkk : k = s'.hdr.allocated := by omega
          exact g7 (hkk ▸ hf)
        exact ⟨⟨a1, by omega, hkf⟩, by omega⟩
      · rintro ⟨⟨a1, a2, a3⟩, a4⟩
        refine ⟨a1, ?_, fun hf => absurd hf a3⟩
        by_cases hk3 : k ≤ s'.hdr.allocated
        · exact hk3
        · exact absurd (g5 k (by omega) (by omega)) a3
    · intro k hk hki
      rw [g6 k hk.2.2]
      show s1.lk k = _
      rw [h5, if_neg hki]

end Verif.Unit
