import Verif.Unit.Reach
import Verif.Mend

/-!
# The unit store over a crate that keeps the weaker contract only

As long as no two links store the same pair, the store over such a crate does what the store over the mended crate does.
(Helper for C93.)
-/

namespace Verif.Unit
open Verif

/-- The store with the mended crate. -/
noncomputable def Cfg.mend (c : Cfg) : Cfg := { c with trees := Verif.mend c.trees }

/-- `CfgOK` with the weaker contract of the crate. -/
structure CfgOK₀ (c : Cfg) : Prop where
  null_eq : c.consts.null = 0
  index_eq : c.consts.indexPart = 0
  source_eq : c.consts.sourcePart = 1
  target_eq : c.consts.targetPart = 2
  start_eq : c.consts.internalStart = 1
  end_lt_any : c.consts.internalEnd < c.consts.any
  end_le : c.consts.internalEnd ≤ c.maxT
  step_pos : 2 ≤ c.step
  trees : LawfulTrees₀ c.trees
  alloc_ge : ∀ len req n, c.alloc len req = some n → req ≤ n

variable {c : Cfg}

theorem CfgOK.weaken (h : CfgOK c) : CfgOK₀ c :=
  ⟨h.null_eq, h.index_eq, h.source_eq, h.target_eq, h.start_eq, h.end_lt_any, h.end_le, h.step_pos, h.trees.weaken, h.alloc_ge⟩

theorem CfgOK₀.mend (h : CfgOK₀ c) : CfgOK c.mend :=
  ⟨h.null_eq, h.index_eq, h.source_eq, h.target_eq, h.start_eq, h.end_lt_any, h.end_le, h.step_pos, mend_lawful h.trees, h.alloc_ge⟩

/-- The pairs of these links differ. -/
def Differ (s : Store) (l : List Nat) : Prop := ∀ x ∈ l, ∀ y ∈ l, x ≠ y → s.lk x ≠ s.lk y

theorem apart_src {s : Store} {l : List Nat} (h : Differ s l) : Apart (s.cmp srcLt4) (s.cmp srcGt4) l := by
  intro a ha b hb hab
  have := h a ha b hb hab
  simp only [Store.lk, ne_eq, Prod.mk.injEq] at this
  simp only [Store.cmp, srcGt4_eq, srcLt4_iff]; omega

theorem apart_tgt {s : Store} {l : List Nat} (h : Differ s l) : Apart (s.cmp tgtLt4) (s.cmp tgtGt4) l := by
  intro a ha b hb hab
  have := h a ha b hb hab
  simp only [Store.lk, ne_eq, Prod.mk.injEq] at this
  simp only [Store.cmp, tgtGt4_eq, tgtLt4_iff]; omega

theorem detachSource_mend {s : Store} {ts : Tree} {i : Nat} (h : SrcOK c.mend s ts) (hd : Differ s ts.toList) :
    detachSource c s i = detachSource c.mend s i := by
  simp only [detachSource]
  exact congrArg _ (mend_detach (X := c.trees) h.tree (apart_src hd)).symm

theorem detachTarget_mend {s : Store} {tt : Tree} {i : Nat} (h : TgtOK c.mend s tt) (hd : Differ s tt.toList) :
    detachTarget c s i = detachTarget c.mend s i := by
  simp only [detachTarget]
  exact congrArg _ (mend_detach (X := c.trees) h.tree (apart_tgt hd)).symm

theorem attachSource_mend {s : Store} {ts : Tree} {i : Nat} (h : SrcOK c.mend s ts) (hd : Differ s (i :: ts.toList)) :
    attachSource c s i = attachSource c.mend s i := by
  simp only [attachSource]
  exact congrArg _ (mend_attach (X := c.trees) h.tree (apart_src hd)).symm

theorem attachTarget_mend {s : Store} {tt : Tree} {i : Nat} (h : TgtOK c.mend s tt) (hd : Differ s (i :: tt.toList)) :
    attachTarget c s i = attachTarget c.mend s i := by
  simp only [attachTarget]
  exact congrArg _ (mend_attach (X := c.trees) h.tree (apart_tgt hd)).symm

theorem Differ.same {s s' : Store} {l : List Nat} (h : Differ s l) (hs : SameData s s') : Differ s' l := by
  intro x hx y hy hxy
  rw [hs.lk, hs.lk]; exact h x hx y hy hxy

theorem Differ.sub {s : Store} {l l' : List Nat} (h : Differ s l) (hl : ∀ k ∈ l', k ∈ l) : Differ s l' :=
  fun x hx y hy => h x (hl x hx) y (hl y hy)

/-- The pairs of the links, after `i` gets the pair `(a, b)`, differ unless both are null. -/
def UniqAfter (s : Store) (free : List Nat) (i a b : Nat) : Prop :=
  ∀ x y, LiveIn s free x → LiveIn s free y → x ≠ y → (if x = i then (a, b) else s.lk x) ≠ (0, 0) →
    (if x = i then (a, b) else s.lk x) ≠ (if y = i then (a, b) else s.lk y)

theorem relink_mend (hc : CfgOK₀ c) {s : Store} {free : List Nat} {ts tt : Tree} (h : Inv c.mend s free ts tt) {i : Nat}
    (hlive : LiveIn s free i) (hu : ∀ k, LiveIn s free k → NoTwinIn s free k) {a b : Nat} (hua : UniqAfter s free i a b) :
    relink c s ⟨i, (s.cell i).source, (s.cell i).target⟩ i a b =
      relink c.mend s ⟨i, (s.cell i).source, (s.cell i).target⟩ i a b := by
  have hc' := hc.mend
  have hz : i ≠ 0 := by have := hlive.1; omega
  have hdS : Differ s ts.toList := by
    intro x hx y hy hxy e
    obtain ⟨x1, x2⟩ := (h.src_mem x).1 hx
    rcases hu y ((h.src_mem y).1 hy).1 with hy0 | hy0
    · rw [← e] at hy0; exact x2 (congrArg Prod.fst hy0)
    · exact hy0 x x1 hxy e
  have hdT : Differ s tt.toList := by
    intro x hx y hy hxy e
    obtain ⟨x1, x2⟩ := (h.tgt_mem x).1 hx
    rcases hu y ((h.tgt_mem y).1 hy).1 with hy0 | hy0
    · rw [← e] at hy0; exact x2 (congrArg Prod.snd hy0)
    · exact hy0 x x1 hxy e
  -- detach from the sources tree
  obtain ⟨s1, ts1, e1, q1, hs1, ht1, hd1, hm1⟩ : ∃ s1 ts1,
      whenM (decide ((s.cell i).source ≠ 0)) (detachSource c.mend · i) s = some s1 ∧
      whenM (decide ((s.cell i).source ≠ 0)) (detachSource c · i) s = some s1 ∧
      SrcOK c.mend s1 ts1 ∧ TgtOK c.mend s1 tt ∧ SameData s s1 ∧
      (∀ k, k ∈ ts1.toList ↔ k ∈ ts.toList ∧ k ≠ i) := by
    by_cases hsrc : (s.cell i).source ≠ 0
    · have hits := (h.src_mem i).2 ⟨hlive, hsrc⟩
      obtain ⟨m, r, ts', h1, h2, h3⟩ := detachSource_ok hc' h.src hits fun k hk hki => hdS k hk i hits hki
      refine ⟨_, ts', by simp [whenM, hsrc, h1], by simp [whenM, hsrc, detachSource_mend h.src hdS, h1], h2, tgtOK_putSrc h.tgt,
        sameData_putSrc s m r, ?_⟩
      have hn := (h3.nodup_iff).2 h.src.tree.nodup
      simp only [List.nodup_cons] at hn
      intro k
      rw [← h3.mem_iff, List.mem_cons]
      constructor
      · intro hk; exact ⟨Or.inr hk, fun e => hn.1 (e ▸ hk)⟩
      · rintro ⟨hk | hk, hne⟩
        · exact absurd hk hne
        · exact hk
    · refine ⟨s, ts, by simp [whenM, hsrc], by simp [whenM, hsrc], h.src, h.tgt, SameData.refl s, ?_⟩
      intro k
      refine ⟨fun hk => ⟨hk, ?_⟩, fun hk => hk.1⟩
      rintro rfl
      exact hsrc ((h.src_mem k).1 hk).2
  -- detach from the targets tree
  obtain ⟨s2, tt1, e2, q2, hs2, ht2, hd2, hm2⟩ : ∃ s2 tt1,
      whenM (decide ((s.cell i).target ≠ 0)) (detachTarget c.mend · i) s1 = some s2 ∧
      whenM (decide ((s.cell i).target ≠ 0)) (detachTarget c · i) s1 = some s2 ∧
      SrcOK c.mend s2 ts1 ∧ TgtOK c.mend s2 tt1 ∧ SameData s s2 ∧
      (∀ k, k ∈ tt1.toList ↔ k ∈ tt.toList ∧ k ≠ i) := by
    by_cases htgt : (s.cell i).target ≠ 0
    · have hitt := (h.tgt_mem i).2 ⟨hlive, htgt⟩
      obtain ⟨m, r, tt', h1, h2, h3⟩ := detachTarget_ok hc' ht1 hitt fun k hk hki => hdT.same hd1 k hk i hitt hki
      refine ⟨_, tt', by simp [whenM, htgt, h1], by simp [whenM, htgt, detachTarget_mend ht1 (hdT.same hd1), h1], srcOK_putTgt hs1, h2,
        hd1.trans (sameData_putTgt s1 m r), ?_⟩
      have hn := (h3.nodup_iff).2 h.tgt.tree.nodup
      simp only [List.nodup_cons] at hn
      intro k
      rw [← h3.mem_iff, List.mem_cons]
      constructor
      · intro hk; exact ⟨Or.inr hk, fun e => hn.1 (e ▸ hk)⟩
      · rintro ⟨hk | hk, hne⟩
        · exact absurd hk hne
        · exact hk
    · refine ⟨s1, tt, by simp [whenM, htgt], by simp [whenM, htgt], hs1, ht1, hd1, ?_⟩
      intro k
      refine ⟨fun hk => ⟨hk, ?_⟩, fun hk => hk.1⟩
      rintro rfl
      exact htgt ((h.tgt_mem k).1 hk).2
  -- write the pair
  let s3 : Store := { s2 with
    cell := fun k => if k = i then { s2.cell k with source := a, target := b } else s2.cell k }
  have e3 : setPair s2 i a b = some s3 := by
    have : i < s2.len := by rw [hd2.len]; have := h.base.alloc_lt; have := hlive.2.1; omega
    simp [setPair, this, s3]
  have hlk3 : ∀ k, s3.lk k = if k = i then (a, b) else s.lk k := by
    intro k
    by_cases hk : k = i
    · simp [Store.lk, s3, hk]
    · simp only [if_neg hk]; rw [← hd2.lk k]; simp [Store.lk, s3, hk]
  have hi_ts : i ∉ ts1.toList := fun hk => ((hm1 i).1 hk).2 rfl
  have hi_tt : i ∉ tt1.toList := fun hk => ((hm2 i).1 hk).2 rfl
  have hf3 : ∀ k, (s3.cell k).leftS = (s2.cell k).leftS ∧ (s3.cell k).rightS = (s2.cell k).rightS ∧
      (s3.cell k).sizeS = (s2.cell k).sizeS ∧ (s3.cell k).leftT = (s2.cell k).leftT ∧
      (s3.cell k).rightT = (s2.cell k).rightT ∧ (s3.cell k).sizeT = (s2.cell k).sizeT := by
    intro k
    by_cases hk : k = i <;> simp [s3, hk]
  have hs3 : SrcOK c.mend s3 ts1 := by
    refine ⟨hs2.tree.congr (fun k _ => ⟨(hf3 k).1, (hf3 k).2.1, (hf3 k).2.2.1⟩) ?_, ?_⟩
    · intro x hx y hy
      have hxi : x ≠ i := fun e => hi_ts (e ▸ hx)
      have hyi : y ≠ i := fun e => hi_ts (e ▸ hy)
      simp [Store.cmp, s3, hxi, hyi]
    · intro k hkt
      have := hs2.clean k hkt
      rw [(hf3 k).1, (hf3 k).2.1, (hf3 k).2.2.1]; exact this
  have ht3 : TgtOK c.mend s3 tt1 := by
    refine ⟨ht2.tree.congr
      (fun k _ => ⟨(hf3 k).2.2.2.1, (hf3 k).2.2.2.2.1, (hf3 k).2.2.2.2.2⟩) ?_, ?_⟩
    · intro x hx y hy
      have hxi : x ≠ i := fun e => hi_tt (e ▸ hx)
      have hyi : y ≠ i := fun e => hi_tt (e ▸ hy)
      simp [Store.cmp, s3, hxi, hyi]
    · intro k hkt
      have := ht2.clean k hkt
      rw [(hf3 k).2.2.2.1, (hf3 k).2.2.2.2.1, (hf3 k).2.2.2.2.2]; exact this
  -- the pairs of the links in the trees still differ
  have hdS3 : a ≠ 0 → Differ s3 (i :: ts1.toList) := by
    intro ha x hx y hy hxy
    have hl : ∀ z ∈ i :: ts1.toList, LiveIn s free z ∧ (if z = i then (a, b) else s.lk z) ≠ (0, 0) := by
      intro z hz
      by_cases hzi : z = i
      · subst hzi; exact ⟨hlive, by simp [ha]⟩
      · have := (h.src_mem z).1 ((hm1 z).1 ((List.mem_cons.1 hz).resolve_left hzi)).1
        rw [if_neg hzi]
        exact ⟨this.1, fun e => this.2 (congrArg Prod.fst e)⟩
    rw [hlk3, hlk3]
    exact hua x y (hl x hx).1 (hl y hy).1 hxy (hl x hx).2
  have hdT3 : b ≠ 0 → Differ s3 (i :: tt1.toList) := by
    intro hb x hx y hy hxy
    have hl : ∀ z ∈ i :: tt1.toList, LiveIn s free z ∧ (if z = i then (a, b) else s.lk z) ≠ (0, 0) := by
      intro z hz
      by_cases hzi : z = i
      · subst hzi; exact ⟨hlive, by simp [hb]⟩
      · have := (h.tgt_mem z).1 ((hm2 z).1 ((List.mem_cons.1 hz).resolve_left hzi)).1
        rw [if_neg hzi]
        exact ⟨this.1, fun e => this.2 (congrArg Prod.snd e)⟩
    rw [hlk3, hlk3]
    exact hua x y (hl x hx).1 (hl y hy).1 hxy (hl x hx).2
  -- attach to the sources tree
  obtain ⟨s4, e4, q4, ht4, hd4⟩ : ∃ s4,
      whenM (decide (a ≠ 0)) (attachSource c.mend · i) s3 = some s4 ∧
      whenM (decide (a ≠ 0)) (attachSource c · i) s3 = some s4 ∧
      TgtOK c.mend s4 tt1 ∧ SameData s3 s4 := by
    by_cases ha : a ≠ 0
    · obtain ⟨m, r, ts', h1, h2, h3⟩ := attachSource_ok hc' hs3 hz hi_ts
      exact ⟨_, by simp [whenM, ha, h1], by simp [whenM, ha, attachSource_mend hs3 (hdS3 ha), h1], tgtOK_putSrc ht3,
        sameData_putSrc s3 m r⟩
    · exact ⟨s3, by simp [whenM, ha], by simp [whenM, ha], ht3, SameData.refl s3⟩
  simp only [relink]
  rw [e1, q1, Option.bind_some, Option.bind_some, e2, q2, Option.bind_some, Option.bind_some, e3, Option.bind_some, Option.bind_some,
    e4, q4, Option.bind_some, Option.bind_some]
  by_cases hb : b ≠ 0
  · simp only [whenM, decide_eq_true hb, if_true]
    exact attachTarget_mend ht4 ((hdT3 hb).same hd4)
  · simp only [whenM, decide_eq_false hb, Bool.false_eq_true, if_false]

end Verif.Unit
