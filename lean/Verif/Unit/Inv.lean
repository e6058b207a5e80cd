import Verif.Unit.Model
import Verif.TreeLemmas

/-!
# Representation invariant of the united store and its preservation (helper lemmas)
-/

namespace Verif.Unit
open Verif

/-- What the theorems assume about a configuration: the constants of `LinksConstants`, a lawful `trees` crate,
and an allocator that hands out at least what is asked for. -/
structure CfgOK (c : Cfg) : Prop where
  null_eq : c.consts.null = 0
  index_eq : c.consts.indexPart = 0
  source_eq : c.consts.sourcePart = 1
  target_eq : c.consts.targetPart = 2
  start_eq : c.consts.internalStart = 1
  end_lt_any : c.consts.internalEnd < c.consts.any
  end_le : c.consts.internalEnd ≤ c.maxT
  step_pos : 2 ≤ c.step
  trees : LawfulTrees c.trees
  alloc_ge : ∀ len req n, c.alloc len req = some n → req ≤ n

/-- Source and target stored in a slot. -/
def Store.lk (s : Store) (k : Nat) : Nat × Nat := ((s.cell k).source, (s.cell k).target)

/-- Header, free list and slots beyond the end. Slot 0 is the header: `cell 0` is not memory and stays zero. -/
structure Base (c : Cfg) (s : Store) (free : List Nat) : Prop where
  alloc_lt : s.hdr.allocated < s.len
  alloc_le : s.hdr.allocated ≤ c.consts.internalEnd
  res_pos : 1 ≤ s.hdr.reserved
  res_le : s.hdr.reserved ≤ s.len
  res8 : s.hdr.reserved8 = 0
  list : IsList s.listMem free
  free_le : ∀ x ∈ free, x ≤ s.hdr.allocated
  beyond : ∀ k, k = 0 ∨ s.hdr.allocated < k → s.lk k = (0, 0)

/-- The sources tree holds `ts`; slots outside of it have cleared tree fields. -/
structure SrcOK (c : Cfg) (s : Store) (ts : Tree) : Prop where
  tree : IsTree c.trees.shape (s.cmp srcLt4) s.srcMem ts s.hdr.rootS
  clean : ∀ k, k ∉ ts.toList →
    (s.cell k).leftS = 0 ∧ (s.cell k).rightS = 0 ∧ (s.cell k).sizeS = 0

/-- The targets tree holds `tt`. -/
structure TgtOK (c : Cfg) (s : Store) (tt : Tree) : Prop where
  tree : IsTree c.trees.shape (s.cmp tgtLt4) s.tgtMem tt s.hdr.rootT
  clean : ∀ k, k ∉ tt.toList →
    (s.cell k).leftT = 0 ∧ (s.cell k).rightT = 0 ∧ (s.cell k).sizeT = 0

/-- Slot `i` holds a link. -/
def LiveIn (s : Store) (free : List Nat) (i : Nat) : Prop :=
  1 ≤ i ∧ i ≤ s.hdr.allocated ∧ i ∉ free

/-- Representation invariant, except that the highest slot may be free (holds inside `delete_links`). -/
structure Inv0 (c : Cfg) (s : Store) (free : List Nat) (ts tt : Tree) : Prop where
  base : Base c s free
  src : SrcOK c s ts
  tgt : TgtOK c s tt
  src_mem : ∀ k, k ∈ ts.toList ↔ LiveIn s free k ∧ (s.cell k).source ≠ 0
  tgt_mem : ∀ k, k ∈ tt.toList ↔ LiveIn s free k ∧ (s.cell k).target ≠ 0

/-- Representation invariant. -/
structure Inv (c : Cfg) (s : Store) (free : List Nat) (ts tt : Tree) : Prop
    extends Inv0 c s free ts tt where
  free_lt : ∀ x ∈ free, x < s.hdr.allocated

/-- No other link stores the same pair as `i` (vacuous when `i` stores the null pair: such links are in no tree). -/
def NoTwinIn (s : Store) (free : List Nat) (i : Nat) : Prop :=
  s.lk i = (0, 0) ∨ ∀ k, LiveIn s free k → k ≠ i → s.lk k ≠ s.lk i

/-! ### Comparisons -/

theorem srcLt4_iff (a b c d : Nat) : srcLt4 a b c d = true ↔ a < c ∨ (a = c ∧ b < d) := by
  simp [srcLt4]

theorem tgtLt4_iff (a b c d : Nat) : tgtLt4 a b c d = true ↔ b < d ∨ (b = d ∧ a < c) := by
  simp [tgtLt4]

theorem srcGt4_eq (a b c d : Nat) : srcGt4 a b c d = srcLt4 c d a b := by
  rw [Bool.eq_iff_iff, srcLt4_iff]; simp [srcGt4]; omega

theorem tgtGt4_eq (a b c d : Nat) : tgtGt4 a b c d = tgtLt4 c d a b := by
  rw [Bool.eq_iff_iff, tgtLt4_iff]; simp [tgtGt4]; omega

theorem not_srcLt4 (a b c d : Nat) : srcLt4 a b c d = false ↔ c < a ∨ (c = a ∧ d ≤ b) := by
  rw [← Bool.not_eq_true, srcLt4_iff]; omega

theorem not_tgtLt4 (a b c d : Nat) : tgtLt4 a b c d = false ↔ d < b ∨ (d = b ∧ c ≤ a) := by
  rw [← Bool.not_eq_true, tgtLt4_iff]; omega

theorem srcOrd (s : Store) : WeakOrd (s.cmp srcLt4) (s.cmp srcGt4) where
  gt_eq a b := by simp [Store.cmp, srcGt4_eq]
  irrefl a := by simp [Store.cmp, not_srcLt4]
  trans a b c := by simp only [Store.cmp, srcLt4_iff]; omega
  ntrans a b c := by simp only [Store.cmp, not_srcLt4]; omega

theorem tgtOrd (s : Store) : WeakOrd (s.cmp tgtLt4) (s.cmp tgtGt4) where
  gt_eq a b := by simp [Store.cmp, tgtGt4_eq]
  irrefl a := by simp [Store.cmp, not_tgtLt4]
  trans a b c := by simp only [Store.cmp, tgtLt4_iff]; omega
  ntrans a b c := by simp only [Store.cmp, not_tgtLt4]; omega

/-! ### Tree operations -/

variable {c : Cfg}

theorem detachSource_ok (hc : CfgOK c) {s : Store} {ts : Tree} {i : Nat} (h : SrcOK c s ts)
    (hi : i ∈ ts.toList) (hu : ∀ k ∈ ts.toList, k ≠ i → s.lk k ≠ s.lk i) :
    ∃ m r ts', detachSource c s i = some (s.putSrc m r) ∧ SrcOK c (s.putSrc m r) ts' ∧
      (i :: ts'.toList).Perm ts.toList := by
  obtain ⟨m, r, t', h1, h2, h3, h4, h5, h6, h7⟩ :=
    hc.trees.detach _ (s.cmp srcGt4) _ _ _ i (srcOrd s) h.tree hi (by
      intro k hk hki
      have := hu k hk hki
      simp only [Store.lk, ne_eq, Prod.mk.injEq] at this
      simp only [Store.cmp, srcGt4_eq, srcLt4_iff]; omega)
  have hz : i ≠ 0 := h.tree.holds.nonzero i hi
  refine ⟨m, r, t', by simp [detachSource, h1], ⟨h2, ?_⟩, h3⟩
  intro k hkt
  by_cases hki : k = i
  · subst hki; exact ⟨h4, h5, h6⟩
  · have hkt2 : k ∉ ts.toList := by
      intro hm; have := (h3.mem_iff).2 hm; simp [hki, hkt] at this
    have e := h7 k hkt2
    have e2 := h.clean k hkt2
    exact ⟨e.1.trans e2.1, e.2.1.trans e2.2.1, e.2.2.trans e2.2.2⟩

theorem detachTarget_ok (hc : CfgOK c) {s : Store} {tt : Tree} {i : Nat} (h : TgtOK c s tt)
    (hi : i ∈ tt.toList) (hu : ∀ k ∈ tt.toList, k ≠ i → s.lk k ≠ s.lk i) :
    ∃ m r tt', detachTarget c s i = some (s.putTgt m r) ∧ TgtOK c (s.putTgt m r) tt' ∧
      (i :: tt'.toList).Perm tt.toList := by
  obtain ⟨m, r, t', h1, h2, h3, h4, h5, h6, h7⟩ :=
    hc.trees.detach _ (s.cmp tgtGt4) _ _ _ i (tgtOrd s) h.tree hi (by
      intro k hk hki
      have := hu k hk hki
      simp only [Store.lk, ne_eq, Prod.mk.injEq] at this
      simp only [Store.cmp, tgtGt4_eq, tgtLt4_iff]; omega)
  have hz : i ≠ 0 := h.tree.holds.nonzero i hi
  refine ⟨m, r, t', by simp [detachTarget, h1], ⟨h2, ?_⟩, h3⟩
  intro k hkt
  by_cases hki : k = i
  · subst hki; exact ⟨h4, h5, h6⟩
  · have hkt2 : k ∉ tt.toList := by
      intro hm; have := (h3.mem_iff).2 hm; simp [hki, hkt] at this
    have e := h7 k hkt2
    have e2 := h.clean k hkt2
    exact ⟨e.1.trans e2.1, e.2.1.trans e2.2.1, e.2.2.trans e2.2.2⟩

theorem attachSource_ok (hc : CfgOK c) {s : Store} {ts : Tree} {i : Nat} (h : SrcOK c s ts)
    (hz : i ≠ 0) (hi : i ∉ ts.toList) :
    ∃ m r ts', attachSource c s i = some (s.putSrc m r) ∧ SrcOK c (s.putSrc m r) ts' ∧
      ts'.toList.Perm (i :: ts.toList) := by
  have hcl := h.clean i hi
  obtain ⟨m, r, t', h1, h2, h3, h7⟩ :=
    hc.trees.attach _ (s.cmp srcGt4) _ _ _ i (srcOrd s) h.tree hz hi hcl.1 hcl.2.1
  refine ⟨m, r, t', by simp [attachSource, h1], ⟨h2, ?_⟩, h3⟩
  intro k hkt
  have hkt2 : k ∉ i :: ts.toList := by rw [← h3.mem_iff]; exact hkt
  have e := h7 k hkt2
  have e2 := h.clean k (by simp at hkt2; exact hkt2.2)
  exact ⟨e.1.trans e2.1, e.2.1.trans e2.2.1, e.2.2.trans e2.2.2⟩

theorem attachTarget_ok (hc : CfgOK c) {s : Store} {tt : Tree} {i : Nat} (h : TgtOK c s tt)
    (hz : i ≠ 0) (hi : i ∉ tt.toList) :
    ∃ m r tt', attachTarget c s i = some (s.putTgt m r) ∧ TgtOK c (s.putTgt m r) tt' ∧
      tt'.toList.Perm (i :: tt.toList) := by
  have hcl := h.clean i hi
  obtain ⟨m, r, t', h1, h2, h3, h7⟩ :=
    hc.trees.attach _ (s.cmp tgtGt4) _ _ _ i (tgtOrd s) h.tree hz hi hcl.1 hcl.2.1
  refine ⟨m, r, t', by simp [attachTarget, h1], ⟨h2, ?_⟩, h3⟩
  intro k hkt
  have hkt2 : k ∉ i :: tt.toList := by rw [← h3.mem_iff]; exact hkt
  have e := h7 k hkt2
  have e2 := h.clean k (by simp at hkt2; exact hkt2.2)
  exact ⟨e.1.trans e2.1, e.2.1.trans e2.2.1, e.2.2.trans e2.2.2⟩

/-- Everything but the two trees' fields and roots is the same. -/
structure SameData (s s' : Store) : Prop where
  lk : ∀ k, s'.lk k = s.lk k
  len : s'.len = s.len
  allocated : s'.hdr.allocated = s.hdr.allocated
  reserved : s'.hdr.reserved = s.hdr.reserved
  free : s'.hdr.free = s.hdr.free
  firstFree : s'.hdr.firstFree = s.hdr.firstFree
  lastFree : s'.hdr.lastFree = s.hdr.lastFree
  reserved8 : s'.hdr.reserved8 = s.hdr.reserved8

theorem SameData.refl (s : Store) : SameData s s := ⟨fun _ => rfl, rfl, rfl, rfl, rfl, rfl, rfl, rfl⟩

theorem SameData.trans {s s' s'' : Store} (h : SameData s s') (h' : SameData s' s'') :
    SameData s s'' :=
  ⟨fun k => (h'.lk k).trans (h.lk k), h'.len.trans h.len, h'.allocated.trans h.allocated,
    h'.reserved.trans h.reserved, h'.free.trans h.free, h'.firstFree.trans h.firstFree,
    h'.lastFree.trans h.lastFree, h'.reserved8.trans h.reserved8⟩

theorem sameData_putSrc (s : Store) (m : TMem) (r : Nat) : SameData s (s.putSrc m r) :=
  ⟨fun _ => rfl, rfl, rfl, rfl, rfl, rfl, rfl, rfl⟩

theorem sameData_putTgt (s : Store) (m : TMem) (r : Nat) : SameData s (s.putTgt m r) :=
  ⟨fun _ => rfl, rfl, rfl, rfl, rfl, rfl, rfl, rfl⟩

theorem tgtOK_putSrc {s : Store} {m : TMem} {r : Nat} {tt : Tree} (h : TgtOK c s tt) :
    TgtOK c (s.putSrc m r) tt := ⟨h.tree, h.clean⟩

theorem srcOK_putTgt {s : Store} {m : TMem} {r : Nat} {ts : Tree} (h : SrcOK c s ts) :
    SrcOK c (s.putTgt m r) ts := ⟨h.tree, h.clean⟩

theorem lk_src {s s' : Store} {k j : Nat} (h : s'.lk k = s.lk j) :
    (s'.cell k).source = (s.cell j).source := congrArg Prod.fst h

theorem lk_tgt {s s' : Store} {k j : Nat} (h : s'.lk k = s.lk j) :
    (s'.cell k).target = (s.cell j).target := congrArg Prod.snd h

theorem Base.sameData {s s' : Store} {free : List Nat} (h : Base c s free) (hs : SameData s s') :
    Base c s' free where
  alloc_lt := by rw [hs.allocated, hs.len]; exact h.alloc_lt
  alloc_le := by rw [hs.allocated]; exact h.alloc_le
  res_pos := by rw [hs.reserved]; exact h.res_pos
  res_le := by rw [hs.reserved, hs.len]; exact h.res_le
  res8 := by rw [hs.reserved8]; exact h.res8
  list := h.list.congr hs.firstFree hs.lastFree hs.free
    fun k _ => ⟨lk_src (hs.lk k), lk_tgt (hs.lk k)⟩
  free_le := by rw [hs.allocated]; exact h.free_le
  beyond := by intro k hk; rw [hs.allocated] at hk; rw [hs.lk]; exact h.beyond k hk

/-! ### Update -/

/-- Effect of `relink`: both trees lose or gain `i` as needed and the pair of `i` is replaced. -/
theorem relink_ok (hc : CfgOK c) {s : Store} {free : List Nat} {ts tt : Tree}
    (h : Inv c s free ts tt) {i : Nat} (hi : LiveIn s free i) (hu : NoTwinIn s free i)
    (a b : Nat) :
    ∃ s' ts' tt', relink c s ⟨i, (s.cell i).source, (s.cell i).target⟩ i a b = some s' ∧
      Inv c s' free ts' tt' ∧ s'.len = s.len ∧ s'.hdr.allocated = s.hdr.allocated ∧
      s'.hdr.reserved = s.hdr.reserved ∧
      (∀ k, s'.lk k = if k = i then (a, b) else s.lk k) := by
  obtain ⟨hi1, hi2, hi3⟩ := hi
  have hlive : LiveIn s free i := ⟨hi1, hi2, hi3⟩
  have hz : i ≠ 0 := by omega
  -- detach from the sources tree
  obtain ⟨s1, ts1, e1, hs1, ht1, hd1, hm1⟩ : ∃ s1 ts1,
      whenM (decide ((s.cell i).source ≠ 0)) (detachSource c · i) s = some s1 ∧
      SrcOK c s1 ts1 ∧ TgtOK c s1 tt ∧ SameData s s1 ∧
      (∀ k, k ∈ ts1.toList ↔ k ∈ ts.toList ∧ k ≠ i) := by
    by_cases hsrc : (s.cell i).source ≠ 0
    · obtain ⟨m, r, ts', h1, h2, h3⟩ := detachSource_ok hc h.src ((h.src_mem i).2 ⟨hlive, hsrc⟩)
        (by
          intro k hk hki
          rcases hu with hu | hu
          · simp [Store.lk] at hu; exact absurd hu.1 hsrc
          · exact hu k ((h.src_mem k).1 hk).1 hki)
      refine ⟨_, ts', by simp [whenM, hsrc, h1], h2, tgtOK_putSrc h.tgt, sameData_putSrc s m r, ?_⟩
      have hn := (h3.nodup_iff).2 h.src.tree.nodup
      simp only [List.nodup_cons] at hn
      intro k
      rw [← h3.mem_iff, List.mem_cons]
      constructor
      · intro hk; exact ⟨Or.inr hk, fun e => hn.1 (e ▸ hk)⟩
      · rintro ⟨hk | hk, hne⟩
        · exact absurd hk hne
        · exact hk
    · refine ⟨s, ts, by simp [whenM, hsrc], h.src, h.tgt, SameData.refl s, ?_⟩
      intro k
      refine ⟨fun hk => ⟨hk, ?_⟩, fun hk => hk.1⟩
      rintro rfl
      exact hsrc ((h.src_mem k).1 hk).2
  -- detach from the targets tree
  obtain ⟨s2, tt1, e2, hs2, ht2, hd2, hm2⟩ : ∃ s2 tt1,
      whenM (decide ((s.cell i).target ≠ 0)) (detachTarget c · i) s1 = some s2 ∧
      SrcOK c s2 ts1 ∧ TgtOK c s2 tt1 ∧ SameData s s2 ∧
      (∀ k, k ∈ tt1.toList ↔ k ∈ tt.toList ∧ k ≠ i) := by
    by_cases htgt : (s.cell i).target ≠ 0
    · obtain ⟨m, r, tt', h1, h2, h3⟩ := detachTarget_ok hc ht1 ((h.tgt_mem i).2 ⟨hlive, htgt⟩)
        (by
          intro k hk hki
          rw [hd1.lk, hd1.lk]
          rcases hu with hu | hu
          · simp [Store.lk] at hu; exact absurd hu.2 htgt
          · exact hu k ((h.tgt_mem k).1 hk).1 hki)
      refine ⟨_, tt', by simp [whenM, htgt, h1], srcOK_putTgt hs1, h2,
        hd1.trans (sameData_putTgt s1 m r), ?_⟩
      have hn := (h3.nodup_iff).2 h.tgt.tree.nodup
      simp only [List.nodup_cons] at hn
      intro k
      rw [← h3.mem_iff, List.mem_cons]
      constructor
      · intro hk; exact ⟨Or.inr hk, fun e => hn.1 (e ▸ hk)⟩
      · rintro ⟨hk | hk, hne⟩
        · exact absurd hk hne
        · exact hk
    · refine ⟨s1, tt, by simp [whenM, htgt], hs1, ht1, hd1, ?_⟩
      intro k
      refine ⟨fun hk => ⟨hk, ?_⟩, fun hk => hk.1⟩
      rintro rfl
      exact htgt ((h.tgt_mem k).1 hk).2
  have hB2 := h.base.sameData hd2
  -- write the pair
  let s3 : Store := { s2 with
    cell := fun k => if k = i then { s2.cell k with source := a, target := b } else s2.cell k }
  have e3 : setPair s2 i a b = some s3 := by
    have : i < s2.len := by rw [hd2.len]; have := h.base.alloc_lt; omega
    simp [setPair, this, s3]
  have hlk3 : ∀ k, s3.lk k = if k = i then (a, b) else s.lk k := by
    intro k
    by_cases hk : k = i
    · simp [Store.lk, s3, hk]
    · simp only [if_neg hk]; rw [← hd2.lk k]; simp [Store.lk, s3, hk]
  have hi_ts : i ∉ ts1.toList := fun hk => ((hm1 i).1 hk).2 rfl
  have hi_tt : i ∉ tt1.toList := fun hk => ((hm2 i).1 hk).2 rfl
  have hf3 : ∀ k, (s3.cell k).leftS = (s2.cell k).leftS ∧ (s3.cell k).rightS = (s2.cell k).rightS ∧
      (s3.cell k).sizeS = (s2.cell k).sizeS ∧ (s3.cell k).leftT = (s2.cell k).leftT ∧
      (s3.cell k).rightT = (s2.cell k).rightT ∧ (s3.cell k).sizeT = (s2.cell k).sizeT := by
    intro k
    by_cases hk : k = i <;> simp [s3, hk]
  have hs3 : SrcOK c s3 ts1 := by
    refine ⟨hs2.tree.congr (fun k _ => ⟨(hf3 k).1, (hf3 k).2.1, (hf3 k).2.2.1⟩) ?_, ?_⟩
    · intro x hx y hy
      have hxi : x ≠ i := fun e => hi_ts (e ▸ hx)
      have hyi : y ≠ i := fun e => hi_ts (e ▸ hy)
      simp [Store.cmp, s3, hxi, hyi]
    · intro k hkt
      have := hs2.clean k hkt
      rw [(hf3 k).1, (hf3 k).2.1, (hf3 k).2.2.1]; exact this
  have ht3 : TgtOK c s3 tt1 := by
    refine ⟨ht2.tree.congr
      (fun k _ => ⟨(hf3 k).2.2.2.1, (hf3 k).2.2.2.2.1, (hf3 k).2.2.2.2.2⟩) ?_, ?_⟩
    · intro x hx y hy
      have hxi : x ≠ i := fun e => hi_tt (e ▸ hx)
      have hyi : y ≠ i := fun e => hi_tt (e ▸ hy)
      simp [Store.cmp, s3, hxi, hyi]
    · intro k hkt
      have := ht2.clean k hkt
      rw [(hf3 k).2.2.2.1, (hf3 k).2.2.2.2.1, (hf3 k).2.2.2.2.2]; exact this
  have hB3 : Base c s3 free := by
    refine ⟨hB2.alloc_lt, hB2.alloc_le, hB2.res_pos, hB2.res_le, hB2.res8, ?_, hB2.free_le, ?_⟩
    · refine hB2.list.congr rfl rfl rfl ?_
      intro k hk
      have hki : k ≠ i := fun e => hi3 (e ▸ hk)
      simp [Store.listMem, s3, hki]
    · intro k hk
      have hk' : k = 0 ∨ s2.hdr.allocated < k := hk
      have hki : k ≠ i := by rw [hd2.allocated] at hk'; omega
      rw [hlk3, if_neg hki]
      exact h.base.beyond k (by rw [hd2.allocated] at hk'; exact hk')
  have hH3 : s3.hdr = s2.hdr := rfl
  have hL3 : s3.len = s2.len := rfl
  -- attach to the sources tree
  obtain ⟨s4, ts4, e4, hs4, ht4, hd4, hm4⟩ : ∃ s4 ts4,
      whenM (decide (a ≠ 0)) (attachSource c · i) s3 = some s4 ∧
      SrcOK c s4 ts4 ∧ TgtOK c s4 tt1 ∧ SameData s3 s4 ∧
      (∀ k, k ∈ ts4.toList ↔ k ∈ ts1.toList ∨ (k = i ∧ a ≠ 0)) := by
    by_cases ha : a ≠ 0
    · obtain ⟨m, r, ts', h1, h2, h3⟩ := attachSource_ok hc hs3 hz hi_ts
      refine ⟨_, ts', by simp [whenM, ha, h1], h2, tgtOK_putSrc ht3, sameData_putSrc s3 m r, ?_⟩
      intro k
      rw [h3.mem_iff, List.mem_cons]
      simp [ha, or_comm]
    · exact ⟨s3, ts1, by simp [whenM, ha], hs3, ht3, SameData.refl s3, by simp [ha]⟩
  obtain ⟨s5, tt5, e5, hs5, ht5, hd5, hm5⟩ : ∃ s5 tt5,
      whenM (decide (b ≠ 0)) (attachTarget c · i) s4 = some s5 ∧
      SrcOK c s5 ts4 ∧ TgtOK c s5 tt5 ∧ SameData s3 s5 ∧
      (∀ k, k ∈ tt5.toList ↔ k ∈ tt1.toList ∨ (k = i ∧ b ≠ 0)) := by
    by_cases hb : b ≠ 0
    · obtain ⟨m, r, tt', h1, h2, h3⟩ := attachTarget_ok hc ht4 hz hi_tt
      refine ⟨_, tt', by simp [whenM, hb, h1], srcOK_putTgt hs4, h2,
        hd4.trans (sameData_putTgt s4 m r), ?_⟩
      intro k
      rw [h3.mem_iff, List.mem_cons]
      simp [hb, or_comm]
    · exact ⟨s4, tt1, by simp [whenM, hb], hs4, ht4, hd4, by simp [hb]⟩
  have halloc : s5.hdr.allocated = s.hdr.allocated := by
    rw [hd5.allocated, hH3, hd2.allocated]
  have hlive5 : ∀ k, LiveIn s5 free k ↔ LiveIn s free k := by
    intro k; simp [LiveIn, halloc]
  have hlk5 : ∀ k, s5.lk k = if k = i then (a, b) else s.lk k := fun k => (hd5.lk k).trans (hlk3 k)
  refine ⟨s5, ts4, tt5, ?_, ⟨⟨hB3.sameData hd5, hs5, ht5, ?_, ?_⟩, ?_⟩, ?_, halloc, ?_, hlk5⟩
  · simp only [relink]
    rw [e1, Option.bind_some, e2, Option.bind_some, e3, Option.bind_some, e4, Option.bind_some, e5]
  · intro k
    rw [hm4, hm1, h.src_mem, hlive5]
    have := congrArg Prod.fst (hlk5 k)
    by_cases hk : k = i
    · subst hk
      simp only [if_pos] at this
      have e : (s5.cell k).source = a := this
      simp [e, hlive]
    · simp only [if_neg hk] at this
      have e : (s5.cell k).source = (s.cell k).source := this
      simp [e, hk]
  · intro k
    rw [hm5, hm2, h.tgt_mem, hlive5]
    have := congrArg Prod.snd (hlk5 k)
    by_cases hk : k = i
    · subst hk
      simp only [if_pos] at this
      have e : (s5.cell k).target = b := this
      simp [e, hlive]
    · simp only [if_neg hk] at this
      have e : (s5.cell k).target = (s.cell k).target := this
      simp [e, hk]
  · intro x hx; rw [halloc]; exact h.free_lt x hx
  · rw [hd5.len, hL3, hd2.len]
  · rw [hd5.reserved, hH3, hd2.reserved]

end Verif.Unit
