import Verif.Unit.Crash
import Verif.Unit.Query

/-!
# What a crash image of the united store still holds (helper lemmas)
-/

namespace Verif.Unit
open Verif

variable {c : Cfg}

/-- The representation invariant with one exception: link `i` may be missing from the trees. -/
structure Mid (c : Cfg) (s : Store) (free : List Nat) (ts tt : Tree) (i : Nat) : Prop where
  base : Base c s free
  src : SrcOK c s ts
  tgt : TgtOK c s tt
  src_mem : ∀ k, k ≠ i → (k ∈ ts.toList ↔ LiveIn s free k ∧ (s.cell k).source ≠ 0)
  tgt_mem : ∀ k, k ≠ i → (k ∈ tt.toList ↔ LiveIn s free k ∧ (s.cell k).target ≠ 0)
  src_i : i ∈ ts.toList → LiveIn s free i
  tgt_i : i ∈ tt.toList → LiveIn s free i

theorem Inv0.mid {s : Store} {free : List Nat} {ts tt : Tree} (h : Inv0 c s free ts tt) (i : Nat) :
    Mid c s free ts tt i :=
  ⟨h.base, h.src, h.tgt, fun k _ => h.src_mem k, fun k _ => h.tgt_mem k, fun hi => ((h.src_mem i).1 hi).1,
    fun hi => ((h.tgt_mem i).1 hi).1⟩

theorem Mid.src_live {s : Store} {free : List Nat} {ts tt : Tree} {i : Nat} (h : Mid c s free ts tt i) {k : Nat}
    (hk : k ∈ ts.toList) : LiveIn s free k := by
  by_cases hki : k = i
  · subst hki; exact h.src_i hk
  · exact ((h.src_mem k hki).1 hk).1

theorem Mid.tgt_live {s : Store} {free : List Nat} {ts tt : Tree} {i : Nat} (h : Mid c s free ts tt i) {k : Nat}
    (hk : k ∈ tt.toList) : LiveIn s free k := by
  by_cases hki : k = i
  · subst hki; exact h.tgt_i hk
  · exact ((h.tgt_mem k hki).1 hk).1

/-! ### Reads -/

theorem isUnused_mid {s : Store} {free : List Nat} {ts tt : Tree} {i : Nat} (h : Mid c s free ts tt i) {k : Nat}
    (h1 : 1 ≤ k) (h2 : k ≤ s.hdr.allocated) :
    ∃ u, isUnused s k = some u ∧ (k ∈ free → u = true) ∧ (k ∉ free → k ≠ i → u = false) ∧
      (k ∈ ts.toList → u = false) := by
  unfold isUnused
  have hlt : k < s.len := by have := h.base.alloc_lt; omega
  by_cases hf : s.hdr.firstFree = k
  · have hm : k ∈ free := by
      have := h.base.list.first_mem (show s.listMem.first ≠ 0 by simp [Store.listMem]; omega)
      simpa [Store.listMem, hf] using this
    exact ⟨true, by simp [hf], fun _ => rfl, fun hk => absurd hm hk, fun hk => absurd hm (h.src_live hk).2.2⟩
  · rw [if_pos ⟨h2, hf⟩, get_eq (by omega) hlt]
    refine ⟨_, rfl, fun hm => ?_, fun hm hki => ?_, fun hk => ?_⟩
    · have hp : (s.cell k).source ≠ 0 := h.base.list.nonzero _ (h.base.list.prev_mem hm)
      have hts : k ∉ ts.toList := fun hk => (h.src_live hk).2.2 hm
      have := (h.src.clean k hts).2.2
      simp [hp, this]
    · by_cases hp : (s.cell k).source = 0
      · simp [hp]
      · have := h.src.tree.holds.size_pos k ((h.src_mem k hki).2 ⟨⟨h1, h2, hm⟩, hp⟩)
        have : (s.cell k).sizeS ≠ 0 := by simp only [Store.srcMem] at this; omega
        simp [this]
    · have := h.src.tree.holds.size_pos k hk
      have : (s.cell k).sizeS ≠ 0 := by simp only [Store.srcMem] at this; omega
      simp [this]

/-- Lookups: `P k` says whether `k` is found. Every link but `i` is. -/
theorem getLink_mid (hc : CfgOK c) {s : Store} {free : List Nat} {ts tt : Tree} {i : Nat}
    (h : Mid c s free ts tt i) : ∃ P : Nat → Bool, (∀ k, P k = true → LiveIn s free k) ∧
      (∀ k, LiveIn s free k → k ≠ i → P k = true) ∧ (∀ k ∈ ts.toList, P k = true) ∧
      ∀ k, getLink c s k = some (if P k = true then some (s.linkAt k) else none) := by
  have key : ∀ k, ∃ p : Bool, (p = true → LiveIn s free k) ∧ (LiveIn s free k → k ≠ i → p = true) ∧
      (k ∈ ts.toList → p = true) ∧ exists? c s k = some p := by
    intro k
    unfold exists?
    rw [hc.start_eq]
    by_cases hk : 1 ≤ k ∧ k ≤ s.hdr.allocated
    · rw [if_pos hk]
      obtain ⟨u, h1, h2, h3, h4⟩ := isUnused_mid h hk.1 hk.2
      rw [h1]
      refine ⟨!u, fun hu => ⟨hk.1, hk.2, fun hm => ?_⟩, fun hl hki => ?_, fun hm => ?_, rfl⟩
      · rw [h2 hm] at hu; cases hu
      · rw [h3 hl.2.2 hki]; rfl
      · rw [h4 hm]; rfl
    · rw [if_neg hk]
      exact ⟨false, fun hh => (by cases hh), fun hl => absurd ⟨hl.1, hl.2.1⟩ hk,
        fun hm => absurd ⟨(h.src_live hm).1, (h.src_live hm).2.1⟩ hk, rfl⟩
  refine ⟨fun k => (key k).choose, fun k => (key k).choose_spec.1, fun k => (key k).choose_spec.2.1,
    fun k => (key k).choose_spec.2.2.1, fun k => ?_⟩
  obtain ⟨h1, -, -, h4⟩ := (key k).choose_spec
  show _ = some (if (key k).choose = true then _ else _)
  generalize (key k).choose = p at h1 h4 ⊢
  unfold getLink
  rw [h4, Option.bind_some]
  cases p with
  | false => rfl
  | true =>
    have hl := h1 rfl
    have hlt : k < s.len := by have := h.base.alloc_lt; have := hl.2.1; omega
    simp [getLinkUnchecked, get_eq (show k ≠ 0 by have := hl.1; omega) hlt, Store.linkAt]

theorem eachAll_mid {s : Store} {P : Nat → Bool}
    (hg : ∀ k, getLink c s k = some (if P k = true then some (s.linkAt k) else none)) {σ : Type} (hd : RH σ) :
    ∀ (is : List Nat) (st : σ), eachIdx c s hd is st = some (runH hd ((is.filter P).map s.linkAt) st) := by
  intro is
  induction is with
  | nil => intro st; rfl
  | cons k is ih =>
    intro st
    simp only [eachIdx, hg]
    by_cases hm : P k = true
    · simp only [hm, if_true, List.filter_cons_of_pos, List.map_cons, runH, ih]
      rcases hd st (s.linkAt k) with ⟨_ | _, st'⟩ <;> simp [andThen]
    · simp [hm, ih]

theorem src_rep_mid {s : Store} {free : List Nat} {ts tt : Tree} {i : Nat} (h : Mid c s free ts tt i) :
    Rep s.srcNode s.lk ts s.hdr.rootS :=
  rep_src h.src.tree.holds fun k hk => by
    have := (h.src_live hk).2.1; have := h.base.alloc_lt; omega

theorem tgt_rep_mid {s : Store} {free : List Nat} {ts tt : Tree} {i : Nat} (h : Mid c s free ts tt i) :
    Rep s.tgtNode s.lk tt s.hdr.rootT :=
  rep_tgt h.tgt.tree.holds fun k hk => by
    have := (h.tgt_live hk).2.1; have := h.base.alloc_lt; omega

theorem src_each_mid {s : Store} {free : List Nat} {ts tt : Tree} {i : Nat} (h : Mid c s free ts tt i) (v : Nat) :
    ∃ L : List Nat, (∀ (σ : Type) (hd : RH σ) (st : σ), srcEach s v hd st = some (runH hd (L.map s.linkAt) st)) ∧
      L.Nodup ∧ ∀ k, k ∈ L ↔ k ∈ ts.toList ∧ (s.cell k).source = v := by
  have hsz : ts.size ≤ s.hdr.allocated := by
    rw [Tree.size_eq_length]
    exact length_le_of_nodup_le _ _ h.src.tree.nodup fun k hk => ⟨(h.src_live hk).1, (h.src_live hk).2.1⟩
  have hlt := h.base.alloc_lt
  have hord : ts.toList.Pairwise fun x y => (s.cell x).source ≤ (s.cell y).source :=
    h.src.tree.ordered.imp fun {a b} hab => by
      simp only [Store.cmp, not_srcLt4] at hab; omega
  have hp := walk_perm (fun k => (s.cell k).source) v ts hord
  refine ⟨walk (fun k => (s.cell k).source) v ts, ?_, ?_, ?_⟩
  · intro σ hd st
    exact eachUsages_eq (f := fun k => (s.cell k).source) (lk := s.lk)
      (fun nd k e => congrArg Prod.fst e) hd v ts _ _ st (src_rep_mid h) (by omega)
  · exact (hp.nodup_iff).2 (h.src.tree.nodup.filter _)
  · intro k
    rw [hp.mem_iff, List.mem_filter]
    simp only [decide_eq_true_eq]

theorem tgt_each_mid {s : Store} {free : List Nat} {ts tt : Tree} {i : Nat} (h : Mid c s free ts tt i) (v : Nat) :
    ∃ L : List Nat, (∀ (σ : Type) (hd : RH σ) (st : σ), tgtEach s v hd st = some (runH hd (L.map s.linkAt) st)) ∧
      L.Nodup ∧ ∀ k, k ∈ L ↔ k ∈ tt.toList ∧ (s.cell k).target = v := by
  have hsz : tt.size ≤ s.hdr.allocated := by
    rw [Tree.size_eq_length]
    exact length_le_of_nodup_le _ _ h.tgt.tree.nodup fun k hk => ⟨(h.tgt_live hk).1, (h.tgt_live hk).2.1⟩
  have hlt := h.base.alloc_lt
  have hord : tt.toList.Pairwise fun x y => (s.cell x).target ≤ (s.cell y).target :=
    h.tgt.tree.ordered.imp fun {a b} hab => by
      simp only [Store.cmp, not_tgtLt4] at hab; omega
  have hp := walk_perm (fun k => (s.cell k).target) v tt hord
  refine ⟨walk (fun k => (s.cell k).target) v tt, ?_, ?_, ?_⟩
  · intro σ hd st
    exact eachUsages_eq (f := fun k => (s.cell k).target) (lk := s.lk)
      (fun nd k e => congrArg Prod.snd e) hd v tt _ _ st (tgt_rep_mid h) (by omega)
  · exact (hp.nodup_iff).2 (h.tgt.tree.nodup.filter _)
  · intro k
    rw [hp.mem_iff, List.mem_filter]
    simp only [decide_eq_true_eq]

theorem srcSearch_mid {s : Store} {free : List Nat} {ts tt : Tree} {i : Nat} (h : Mid c s free ts tt i) (x y : Nat) :
    ∃ k, srcSearch s x y = some k ∧
      ((k = 0 ∧ ∀ j ∈ ts.toList, s.lk j ≠ (x, y)) ∨ (k ≠ 0 ∧ k ∈ ts.toList ∧ s.lk k = (x, y))) := by
  have hsz : ts.size ≤ s.hdr.allocated := by
    rw [Tree.size_eq_length]
    exact length_le_of_nodup_le _ _ h.src.tree.nodup fun k hk => ⟨(h.src_live hk).1, (h.src_live hk).2.1⟩
  have hlt := h.base.alloc_lt
  exact searchLoop_spec (get := s.srcNode) (lk := s.lk) (lt4 := srcLt4) (gt4 := srcGt4)
    srcGt4_eq
    (by intro a b c d e f; simp only [srcLt4_iff, not_srcLt4]; omega)
    (by intro a b c d e f; simp only [srcLt4_iff, not_srcLt4]; omega)
    (by intro a b c d; simp only [not_srcLt4]; omega)
    (by intro a b; simp [not_srcLt4])
    x y ts s.hdr.rootS (s.len + 1) (src_rep_mid h) (by omega)
    (h.src.tree.ordered.imp fun {a b} hab => hab)

/-- Traversals on an image: every visited link matches, and every matching link but `i` is visited as often as it should
be. -/
theorem mid_query (hc : CfgOK c) {s : Store} {free : List Nat} {ts tt : Tree} {i : Nat} (h : Mid c s free ts tt i)
    (q : List Nat) (hq : q.length ≤ 3) :
    ∃ L : List Link, (links c).Visits s q L ∧
      (∀ l ∈ L, LiveIn s free l.index ∧ l = s.linkAt l.index ∧ MatchQ c.consts.any q l) ∧
      (NullFree c.consts.any q → ¬ IsPair c.consts.any q → ∀ k, LiveIn s free k → k ≠ i →
        L.count (s.linkAt k) = visitsOf c.consts.any q (s.linkAt k)) ∧
      (NullFree c.consts.any q → IsPair c.consts.any q → ∀ k, LiveIn s free k → k ≠ i →
        MatchQ c.consts.any q (s.linkAt k) → L ≠ []) := by
  obtain ⟨P, hP1, hP2, hP3, hget⟩ := getLink_mid hc h
  have hal := h.base.alloc_le
  have hie := hc.index_eq
  have hse := hc.source_eq
  have hte := hc.target_eq
  have hnoany : ∀ {k}, LiveIn s free k → k ≠ c.consts.any := fun hl => by
    have := hl.2.1; have := hc.end_lt_any; omega
  -- everything
  let A := (List.range' 1 s.hdr.allocated).filter P
  have hA : ∀ k, k ∈ A ↔ P k = true := by
    intro k
    simp only [A, List.mem_filter, List.mem_range'_1, decide_eq_true_eq]
    exact ⟨fun hh => hh.2, fun hh => ⟨⟨(hP1 k hh).1, by have := (hP1 k hh).2.1; omega⟩, hh⟩⟩
  have hAn : A.Nodup := List.Pairwise.filter _ List.nodup_range'
  have hall : ∀ (σ : Type) (hd : RH σ) (st : σ), eachAll c s hd st = some (runH hd (A.map s.linkAt) st) :=
    fun σ hd st => eachAll_mid hget hd _ st
  have hallc : ∀ k, LiveIn s free k → k ≠ i → (A.map s.linkAt).count (s.linkAt k) = 1 := by
    intro k hk hki
    rw [count_linkAt s hAn, if_pos ⟨(hA _).2 (hP2 k hk hki), rfl⟩]
  have hallm : ∀ l ∈ A.map s.linkAt, LiveIn s free l.index ∧ l = s.linkAt l.index := by
    intro l hl
    obtain ⟨k, hk, rfl⟩ := List.mem_map.1 hl
    exact ⟨hP1 k ((hA k).1 hk), rfl⟩
  -- one index
  have hidx : ∀ (j : Nat) (u : Bool),
      let L := if P j = true ∧ u = true then [s.linkAt j] else []
      (∀ l ∈ L, LiveIn s free l.index ∧ l = s.linkAt l.index ∧ l = s.linkAt j ∧ u = true) ∧
      (∀ k, LiveIn s free k → k ≠ i → L.count (s.linkAt k) = if k = j ∧ u = true then 1 else 0) := by
    intro j u L
    by_cases hj : P j = true ∧ u = true
    · have hL : L = [s.linkAt j] := if_pos hj
      rw [hL]
      refine ⟨?_, ?_⟩
      · intro l hl
        rw [List.mem_singleton.1 hl]
        exact ⟨hP1 j hj.1, rfl, rfl, hj.2⟩
      · intro k hk hki
        rw [List.count_singleton]
        by_cases hkj : k = j
        · simp [hkj, hj.2]
        · have : (s.linkAt j == s.linkAt k) = false := by
            simp only [beq_eq_false_iff_ne]; intro e; exact hkj (congrArg Link.index e).symm
          simp [this, hkj]
    · have hL : L = [] := if_neg hj
      rw [hL]
      refine ⟨by simp, ?_⟩
      intro k hk hki
      rw [if_neg]
      · rfl
      · rintro ⟨rfl, hu⟩; exact hj ⟨hP2 k hk hki, hu⟩
  -- by source, by target
  have hcnt : ∀ {L : List Nat}, L.Nodup → ∀ k, (L.map s.linkAt).count (s.linkAt k) = if k ∈ L then 1 else 0 := by
    intro L hn k
    rw [count_linkAt s hn]
    simp [Store.linkAt]
  have hsrc := src_each_mid h
  have htgt := tgt_each_mid h
  have hsm : ∀ {L : List Nat} {v : Nat}, (∀ k, k ∈ L ↔ k ∈ ts.toList ∧ (s.cell k).source = v) →
      ∀ l ∈ L.map s.linkAt, LiveIn s free l.index ∧ l = s.linkAt l.index ∧ l.source = v := by
    intro L v hL l hl
    obtain ⟨k, hk, rfl⟩ := List.mem_map.1 hl
    exact ⟨h.src_live ((hL k).1 hk).1, rfl, ((hL k).1 hk).2⟩
  have htm : ∀ {L : List Nat} {v : Nat}, (∀ k, k ∈ L ↔ k ∈ tt.toList ∧ (s.cell k).target = v) →
      ∀ l ∈ L.map s.linkAt, LiveIn s free l.index ∧ l = s.linkAt l.index ∧ l.target = v := by
    intro L v hL l hl
    obtain ⟨k, hk, rfl⟩ := List.mem_map.1 hl
    exact ⟨h.tgt_live ((hL k).1 hk).1, rfl, ((hL k).1 hk).2⟩
  have hsk : ∀ {L : List Nat} {v : Nat}, v ≠ 0 → L.Nodup → (∀ k, k ∈ L ↔ k ∈ ts.toList ∧ (s.cell k).source = v) →
      ∀ k, LiveIn s free k → k ≠ i → (L.map s.linkAt).count (s.linkAt k) = if (s.cell k).source = v then 1 else 0 := by
    intro L v hv hn hL k hk hki
    rw [hcnt hn]
    have : k ∈ L ↔ (s.cell k).source = v := by
      rw [hL, h.src_mem k hki]
      exact ⟨fun hh => hh.2, fun hh => ⟨⟨hk, by rw [hh]; exact hv⟩, hh⟩⟩
    simp only [this]
  have htk : ∀ {L : List Nat} {v : Nat}, v ≠ 0 → L.Nodup → (∀ k, k ∈ L ↔ k ∈ tt.toList ∧ (s.cell k).target = v) →
      ∀ k, LiveIn s free k → k ≠ i → (L.map s.linkAt).count (s.linkAt k) = if (s.cell k).target = v then 1 else 0 := by
    intro L v hv hn hL k hk hki
    rw [hcnt hn]
    have : k ∈ L ↔ (s.cell k).target = v := by
      rw [hL, h.tgt_mem k hki]
      exact ⟨fun hh => hh.2, fun hh => ⟨⟨hk, by rw [hh]; exact hv⟩, hh⟩⟩
    simp only [this]
  have hrun1 : ∀ {σ : Type} (hd : RH σ) (st : σ) (j : Nat), runH hd [s.linkAt j] st = hd st (s.linkAt j) := by
    intro σ hd st j
    simp only [runH]
    rcases hd st (s.linkAt j) with ⟨_ | _, st'⟩ <;> rfl
  match q, hq with
  | [], _ =>
    refine ⟨A.map s.linkAt, ?_, fun l hl => ⟨(hallm l hl).1, (hallm l hl).2, trivial⟩, ?_, ?_⟩
    · intro σ hd st; exact hall σ hd st
    · intro _ _ k hk hki; rw [hallc k hk hki]; rfl
    · rintro _ ⟨x, y, he, _⟩; simp at he
  | [j], _ =>
    by_cases hi : j = c.consts.any
    · refine ⟨A.map s.linkAt, ?_, fun l hl => ⟨(hallm l hl).1, (hallm l hl).2, Or.inl hi⟩, ?_, ?_⟩
      · intro σ hd st
        rw [← hall σ hd st]
        simp [links, eachLinks, hie, hi]
      · intro _ _ k hk hki; rw [hallc k hk hki]; simp [visitsOf, hi]
      · rintro _ ⟨x, y, he, _⟩; simp at he
    · obtain ⟨k1, k2⟩ := hidx j true
      refine ⟨_, ?_, fun l hl => ⟨(k1 l hl).1, (k1 l hl).2.1, Or.inr (by rw [(k1 l hl).2.2.1]; rfl)⟩, ?_, ?_⟩
      · intro σ hd st
        simp only [links, eachLinks, List.length_singleton, hie, List.getElem?_cons_zero,
          Option.bind_some, hi, if_false, if_true, hget, Option.map_some, Nat.one_ne_zero, and_true]
        by_cases hl : P j = true
        · rw [if_pos hl, if_pos hl, hrun1]
        · rw [if_neg hl, if_neg hl]; rfl
      · intro _ _ k hk hki; rw [k2 k hk hki]; simp [visitsOf, hi, Store.linkAt]
      · rintro _ ⟨x, y, he, _⟩; simp at he
  | [j, x], _ =>
    by_cases hi : j = c.consts.any
    · by_cases hx : x = c.consts.any
      · refine ⟨A.map s.linkAt, ?_, fun l hl => ⟨(hallm l hl).1, (hallm l hl).2, Or.inl hi, Or.inl hx⟩, ?_, ?_⟩
        · intro σ hd st
          rw [← hall σ hd st]
          simp [links, eachLinks, hie, hi, hx]
        · intro _ _ k hk hki; rw [hallc k hk hki]; simp [visitsOf, hi, hx]
        · rintro _ ⟨x, y, he, _⟩; simp at he
      · obtain ⟨L1, a1, a3, a4⟩ := hsrc x
        obtain ⟨L2, b1, b3, b4⟩ := htgt x
        refine ⟨L1.map s.linkAt ++ L2.map s.linkAt, ?_, ?_, ?_, ?_⟩
        · intro σ hd st
          rw [runH_append, ← a1]
          simp only [← b1]
          simp [links, eachLinks, hie, hi, hx, each3]
        · intro l hl
          rcases List.mem_append.1 hl with hl | hl
          · have := hsm a4 l hl
            exact ⟨this.1, this.2.1, Or.inl hi, Or.inr (Or.inl this.2.2)⟩
          · have := htm b4 l hl
            exact ⟨this.1, this.2.1, Or.inl hi, Or.inr (Or.inr this.2.2)⟩
        · intro hnf _ k hk hki
          have hx0 : x ≠ 0 := hnf (by simp [hi]) x (by simp)
          rw [List.count_append, hsk hx0 a3 a4 k hk hki, htk hx0 b3 b4 k hk hki]
          by_cases e1 : (s.cell k).source = x <;> by_cases e2 : (s.cell k).target = x <;>
            simp [visitsOf, hi, hx, Store.linkAt, e1, e2]
        · rintro _ ⟨x, y, he, _⟩; simp at he
    · obtain ⟨k1, k2⟩ := hidx j
        (decide (x = c.consts.any ∨ (s.cell j).source = x ∨ (s.cell j).target = x))
      refine ⟨if P j = true ∧ decide (x = c.consts.any ∨ (s.cell j).source = x ∨
        (s.cell j).target = x) = true then [s.linkAt j] else [], ?_, ?_, ?_, ?_⟩
      · intro σ hd st
        have hcase : (links c).eachLinks s [j, x] hd st = some (if P j = true ∧
            (x = c.consts.any ∨ (s.cell j).source = x ∨ (s.cell j).target = x)
              then hd st (s.linkAt j) else (.cont, st)) := by
          by_cases hl : P j = true
          · simp [links, eachLinks, hie, hi, hget, hl, callIf, Store.linkAt]
          · simp [links, eachLinks, hie, hi, hget, hl]
        rw [hcase]
        simp only [decide_eq_true_eq]
        split
        · rw [hrun1]
        · rfl
      · intro l hl
        have := k1 l hl
        refine ⟨this.1, this.2.1, Or.inr (by rw [this.2.2.1]; rfl), ?_⟩
        rw [this.2.2.1]; exact of_decide_eq_true this.2.2.2
      · intro _ _ k hk hki
        rw [k2 k hk hki]
        by_cases hli : k = j
        · subst hli
          simp only [visitsOf, Store.linkAt, hi, true_and, false_or, if_false, decide_eq_true_eq]
          by_cases hx : x = c.consts.any <;> simp [hx]
        · simp [visitsOf, hli, hi, Store.linkAt]
      · rintro _ ⟨x, y, he, _⟩; simp at he
  | [j, x, y], _ =>
    have hE : ∀ (σ : Type) (hd : RH σ) (st : σ),
        (links c).eachLinks s [j, x, y] hd st = each3 c s j x y hd st := by
      intro σ hd st; simp [links, eachLinks, hie, hse, hte]
    by_cases hi : j = c.consts.any
    · by_cases hx : x = c.consts.any
      · by_cases hy : y = c.consts.any
        · refine ⟨A.map s.linkAt, ?_,
            fun l hl => ⟨(hallm l hl).1, (hallm l hl).2, Or.inl hi, Or.inl hx, Or.inl hy⟩, ?_, ?_⟩
          · intro σ hd st
            rw [hE, ← hall σ hd st]
            simp [each3, hi, hx, hy]
          · intro _ _ k hk hki; rw [hallc k hk hki]; simp [visitsOf, hi, hx, hy]
          · rintro _ ⟨x', y', he, h1, h2⟩; simp at he; omega
        · obtain ⟨L, a1, a3, a4⟩ := htgt y
          refine ⟨L.map s.linkAt, ?_, ?_, ?_, ?_⟩
          · intro σ hd st
            rw [hE, ← a1]
            simp [each3, hi, hx, hy]
          · intro l hl
            have := htm a4 l hl
            exact ⟨this.1, this.2.1, Or.inl hi, Or.inl hx, Or.inr this.2.2⟩
          · intro hnf _ k hk hki
            have hy0 : y ≠ 0 := hnf (by simp [hi]) y (by simp)
            rw [htk hy0 a3 a4 k hk hki]
            simp [visitsOf, hi, hx, hy, Store.linkAt]
          · rintro _ ⟨x', y', he, h1, h2⟩; simp at he; omega
      · by_cases hy : y = c.consts.any
        · obtain ⟨L, a1, a3, a4⟩ := hsrc x
          refine ⟨L.map s.linkAt, ?_, ?_, ?_, ?_⟩
          · intro σ hd st
            rw [hE, ← a1]
            simp [each3, hi, hx, hy]
          · intro l hl
            have := hsm a4 l hl
            exact ⟨this.1, this.2.1, Or.inl hi, Or.inr this.2.2, Or.inl hy⟩
          · intro hnf _ k hk hki
            have hx0 : x ≠ 0 := hnf (by simp [hi]) x (by simp)
            rw [hsk hx0 a3 a4 k hk hki]
            simp [visitsOf, hi, hx, hy, Store.linkAt]
          · rintro _ ⟨x', y', he, h1, h2⟩; simp at he; omega
        · obtain ⟨k, e1, e2⟩ := srcSearch_mid h x y
          rcases e2 with ⟨rfl, e3⟩ | ⟨e2, e3, e5⟩
          · refine ⟨[], ?_, by simp, ?_, ?_⟩
            · intro σ hd st
              have h00 : ¬ P 0 = true := fun hl => by have := (hP1 0 hl).1; omega
              rw [hE]; simp [each3, hi, hx, hy, e1, hget, h00, runH]
            · intro _ hp; exact absurd ⟨x, y, by rw [hi], hx, hy⟩ hp
            · rintro hnf _ k hk hki ⟨_, h2, h3⟩
              have hx0 : x ≠ 0 := hnf (by simp [hi]) x (by simp)
              have h2 : (s.cell k).source = x := h2.resolve_left hx
              have h3 : (s.cell k).target = y := h3.resolve_left hy
              exfalso
              refine e3 k ((h.src_mem k hki).2 ⟨hk, by rw [h2]; exact hx0⟩) ?_
              simp [Store.lk, h2, h3]
          · have hlk : P k = true := hP3 k e3
            refine ⟨[s.linkAt k], ?_, ?_, ?_, ?_⟩
            · intro σ hd st
              rw [hE, hrun1]
              simp only [each3, hi, hx, hy, e1, hget, if_true, and_self, if_false,
                Option.bind_some, Option.map_some, if_pos hlk]
            · intro l hl
              rw [List.mem_singleton.1 hl]
              refine ⟨hP1 k hlk, rfl, Or.inl hi, Or.inr ?_, Or.inr ?_⟩
              · exact congrArg Prod.fst e5
              · exact congrArg Prod.snd e5
            · intro _ hp; exact absurd ⟨x, y, by rw [hi], hx, hy⟩ hp
            · intros; simp
    · have hp : ¬ IsPair c.consts.any [j, x, y] := by
        rintro ⟨x', y', he, h1, h2⟩; simp at he; omega
      obtain ⟨k1, k2⟩ := hidx j
        (decide ((x = c.consts.any ∨ (s.cell j).source = x) ∧ (y = c.consts.any ∨ (s.cell j).target = y)))
      refine ⟨if P j = true ∧ decide ((x = c.consts.any ∨ (s.cell j).source = x) ∧
        (y = c.consts.any ∨ (s.cell j).target = y)) = true then [s.linkAt j] else [], ?_, ?_, ?_,
        fun _ hh => absurd hh hp⟩
      rotate_left 1
      · intro l hl
        have := k1 l hl
        have h2 := of_decide_eq_true this.2.2.2
        refine ⟨this.1, this.2.1, Or.inr (by rw [this.2.2.1]; rfl), ?_⟩
        rw [this.2.2.1]; exact h2
      · intro _ _ k hk hki
        rw [k2 k hk hki]
        by_cases hli : k = j
        · subst hli; simp [visitsOf, Store.linkAt]
        · simp [visitsOf, hli, hi, Store.linkAt]
      · intro σ hd st
        rw [hE]
        by_cases hl : P j = true
        · have hcase : each3 c s j x y hd st = some (if
            ((x = c.consts.any ∨ (s.cell j).source = x) ∧ (y = c.consts.any ∨ (s.cell j).target = y))
              then hd st (s.linkAt j) else (.cont, st)) := by
            simp only [each3, hi, if_false, hget, if_pos hl, Option.map_some, callIf, Store.linkAt]
            have ex : (x = (s.cell j).source) ↔ ((s.cell j).source = x) := ⟨Eq.symm, Eq.symm⟩
            have ey : (y = (s.cell j).target) ↔ ((s.cell j).target = y) := ⟨Eq.symm, Eq.symm⟩
            by_cases hx : x = c.consts.any <;> by_cases hy : y = c.consts.any <;>
              simp [hx, hy, ex, ey]
          rw [hcase]
          simp only [hl, true_and, decide_eq_true_eq]
          by_cases hm : ((x = c.consts.any ∨ (s.cell j).source = x) ∧ (y = c.consts.any ∨ (s.cell j).target = y))
          · simp only [hm, if_true, hrun1]; simp [hl, hrun1]
          · simp only [hm, if_false]; simp [runH]
        · simp only [each3, hi, hget, if_neg hl]; simp [hl, runH]

/-! ### Images of the calls -/

/-- `m` is an image of `s` in which every link of `s` but `i` is intact; any other slot that looks like a link is null. -/
def ImageOf (c : Cfg) (s : Store) (free : List Nat) (m : Store) (i : Nat) : Prop :=
  ∃ free' ts' tt', Mid c m free' ts' tt' i ∧
    (∀ k, k ≠ i → LiveIn s free k → LiveIn m free' k ∧ m.lk k = s.lk k) ∧
    (∀ k, k ≠ i → LiveIn m free' k → LiveIn s free k ∨ m.lk k = (0, 0))

theorem ImageOf.same {s m : Store} {free : List Nat} {ts tt : Tree} {i : Nat} (h : Mid c m free ts tt i)
    (ha : m.hdr.allocated = s.hdr.allocated) (hl : ∀ k, k ≠ i → m.lk k = s.lk k) : ImageOf c s free m i :=
  ⟨free, ts, tt, h, fun k hki hk => ⟨by simpa [LiveIn, ha] using hk, hl k hki⟩,
    fun k _ hk => .inl (by simpa [LiveIn, ha] using hk)⟩

theorem Mid.putSrc {s : Store} {free : List Nat} {ts tt ts' : Tree} {i : Nat} (h : Mid c s free ts tt i) {m : TMem}
    {r : Nat} (h' : SrcOK c (s.putSrc m r) ts') (hm : ∀ k, k ≠ i → (k ∈ ts'.toList ↔ k ∈ ts.toList))
    (hi : LiveIn s free i) : Mid c (s.putSrc m r) free ts' tt i :=
  ⟨h.base.sameData (sameData_putSrc s m r), h', tgtOK_putSrc h.tgt, fun k hk => (hm k hk).trans (h.src_mem k hk),
    h.tgt_mem, fun _ => hi, fun _ => hi⟩

theorem Mid.putTgt {s : Store} {free : List Nat} {ts tt tt' : Tree} {i : Nat} (h : Mid c s free ts tt i) {m : TMem}
    {r : Nat} (h' : TgtOK c (s.putTgt m r) tt') (hm : ∀ k, k ≠ i → (k ∈ tt'.toList ↔ k ∈ tt.toList))
    (hi : LiveIn s free i) : Mid c (s.putTgt m r) free ts tt' i :=
  ⟨h.base.sameData (sameData_putTgt s m r), srcOK_putTgt h.src, h', h.src_mem,
    fun k hk => (hm k hk).trans (h.tgt_mem k hk), fun _ => hi, fun _ => hi⟩

theorem LiveIn.same {s s' : Store} (hd : SameData s s') {free : List Nat} {k : Nat} :
    LiveIn s' free k ↔ LiveIn s free k := by simp only [LiveIn, hd.allocated]

theorem mid_detachSource (hc : CfgOK c) {s : Store} {free : List Nat} {ts tt : Tree} {i : Nat}
    (h : Mid c s free ts tt i) (hl : LiveIn s free i) (b : Bool) (hb : b = true ↔ i ∈ ts.toList)
    (hu : b = true → ∀ k ∈ ts.toList, k ≠ i → s.lk k ≠ s.lk i) :
    ∃ s1 ts1, whenM b (detachSource c · i) s = some s1 ∧ Mid c s1 free ts1 tt i ∧ i ∉ ts1.toList ∧ SameData s s1 := by
  cases b with
  | false => exact ⟨s, ts, rfl, h, fun hi => (by cases hb.2 hi), SameData.refl s⟩
  | true =>
    obtain ⟨m, r, ts', h1, h2, h3⟩ := detachSource_ok hc h.src (hb.1 rfl) (hu rfl)
    have hn := (h3.nodup_iff).2 h.src.tree.nodup
    simp only [List.nodup_cons] at hn
    refine ⟨_, ts', h1, h.putSrc h2 (fun k hk => ?_) hl, hn.1, sameData_putSrc s m r⟩
    rw [← h3.mem_iff]; simp [hk]

theorem mid_detachTarget (hc : CfgOK c) {s : Store} {free : List Nat} {ts tt : Tree} {i : Nat}
    (h : Mid c s free ts tt i) (hl : LiveIn s free i) (b : Bool) (hb : b = true ↔ i ∈ tt.toList)
    (hu : b = true → ∀ k ∈ tt.toList, k ≠ i → s.lk k ≠ s.lk i) :
    ∃ s1 tt1, whenM b (detachTarget c · i) s = some s1 ∧ Mid c s1 free ts tt1 i ∧ i ∉ tt1.toList ∧ SameData s s1 := by
  cases b with
  | false => exact ⟨s, tt, rfl, h, fun hi => (by cases hb.2 hi), SameData.refl s⟩
  | true =>
    obtain ⟨m, r, tt', h1, h2, h3⟩ := detachTarget_ok hc h.tgt (hb.1 rfl) (hu rfl)
    have hn := (h3.nodup_iff).2 h.tgt.tree.nodup
    simp only [List.nodup_cons] at hn
    refine ⟨_, tt', h1, h.putTgt h2 (fun k hk => ?_) hl, hn.1, sameData_putTgt s m r⟩
    rw [← h3.mem_iff]; simp [hk]

theorem mid_attachSource (hc : CfgOK c) {s : Store} {free : List Nat} {ts tt : Tree} {i : Nat}
    (h : Mid c s free ts tt i) (hl : LiveIn s free i) (hi : i ∉ ts.toList) (b : Bool) :
    ∃ s1 ts1, whenM b (attachSource c · i) s = some s1 ∧ Mid c s1 free ts1 tt i ∧ SameData s s1 := by
  cases b with
  | false => exact ⟨s, ts, rfl, h, SameData.refl s⟩
  | true =>
    obtain ⟨m, r, ts', h1, h2, h3⟩ := attachSource_ok hc h.src (by have := hl.1; omega) hi
    refine ⟨_, ts', h1, h.putSrc h2 (fun k hk => ?_) hl, sameData_putSrc s m r⟩
    rw [h3.mem_iff]; simp [hk]

theorem mid_attachTarget (hc : CfgOK c) {s : Store} {free : List Nat} {ts tt : Tree} {i : Nat}
    (h : Mid c s free ts tt i) (hl : LiveIn s free i) (hi : i ∉ tt.toList) (b : Bool) :
    ∃ s1 tt1, whenM b (attachTarget c · i) s = some s1 ∧ Mid c s1 free ts tt1 i ∧ SameData s s1 := by
  cases b with
  | false => exact ⟨s, tt, rfl, h, SameData.refl s⟩
  | true =>
    obtain ⟨m, r, tt', h1, h2, h3⟩ := attachTarget_ok hc h.tgt (by have := hl.1; omega) hi
    refine ⟨_, tt', h1, h.putTgt h2 (fun k hk => ?_) hl, sameData_putTgt s m r⟩
    rw [h3.mem_iff]; simp [hk]

/-- Writing into the cell of `i` while it is in no tree. -/
theorem mid_write {s s' : Store} {free : List Nat} {ts tt : Tree} {i : Nat}
    (h : Mid c s free ts tt i) (hl : LiveIn s free i) (h1 : i ∉ ts.toList) (h2 : i ∉ tt.toList)
    (hh : s'.hdr = s.hdr) (hlen : s'.len = s.len) (hk : ∀ k, k ≠ i → s'.cell k = s.cell k)
    (hf : (s'.cell i).leftS = (s.cell i).leftS ∧ (s'.cell i).rightS = (s.cell i).rightS ∧
      (s'.cell i).sizeS = (s.cell i).sizeS ∧ (s'.cell i).leftT = (s.cell i).leftT ∧
      (s'.cell i).rightT = (s.cell i).rightT ∧ (s'.cell i).sizeT = (s.cell i).sizeT) :
    Mid c s' free ts tt i := by
  have hlive : ∀ k, LiveIn s' free k ↔ LiveIn s free k := by intro k; simp only [LiveIn, hh]
  refine ⟨⟨?_, ?_, ?_, ?_, ?_, ?_, ?_, ?_⟩, ⟨?_, ?_⟩, ⟨?_, ?_⟩, ?_, ?_, fun hi => absurd hi h1, fun hi => absurd hi h2⟩
  · rw [hh, hlen]; exact h.base.alloc_lt
  · rw [hh]; exact h.base.alloc_le
  · rw [hh]; exact h.base.res_pos
  · rw [hh, hlen]; exact h.base.res_le
  · rw [hh]; exact h.base.res8
  · refine h.base.list.congr (by simp [Store.listMem, hh]) (by simp [Store.listMem, hh])
      (by simp [Store.listMem, hh]) ?_
    intro k hkf
    have hki : k ≠ i := fun e => hl.2.2 (e ▸ hkf)
    simp [Store.listMem, hk k hki]
  · rw [hh]; exact h.base.free_le
  · intro k hkb
    rw [hh] at hkb
    have hki : k ≠ i := by have := hl.1; have := hl.2.1; omega
    have := h.base.beyond k hkb
    simpa [Store.lk, hk k hki] using this
  · rw [show s'.hdr.rootS = s.hdr.rootS by rw [hh]]
    refine h.src.tree.congr (fun k hkt => ?_) ?_
    · have hki : k ≠ i := fun e => h1 (e ▸ hkt)
      simp [Store.srcMem, hk k hki]
    · intro x hx y hy
      have hxi : x ≠ i := fun e => h1 (e ▸ hx)
      have hyi : y ≠ i := fun e => h1 (e ▸ hy)
      simp [Store.cmp, hk x hxi, hk y hyi]
  · intro k hkt
    have := h.src.clean k hkt
    by_cases hki : k = i
    · subst hki; rw [hf.1, hf.2.1, hf.2.2.1]; exact this
    · rw [hk k hki]; exact this
  · rw [show s'.hdr.rootT = s.hdr.rootT by rw [hh]]
    refine h.tgt.tree.congr (fun k hkt => ?_) ?_
    · have hki : k ≠ i := fun e => h2 (e ▸ hkt)
      simp [Store.tgtMem, hk k hki]
    · intro x hx y hy
      have hxi : x ≠ i := fun e => h2 (e ▸ hx)
      have hyi : y ≠ i := fun e => h2 (e ▸ hy)
      simp [Store.cmp, hk x hxi, hk y hyi]
  · intro k hkt
    have := h.tgt.clean k hkt
    by_cases hki : k = i
    · subst hki; rw [hf.2.2.2.1, hf.2.2.2.2.1, hf.2.2.2.2.2]; exact this
    · rw [hk k hki]; exact this
  · intro k hki; rw [h.src_mem k hki, hlive, hk k hki]
  · intro k hki; rw [h.tgt_mem k hki, hlive, hk k hki]

/-- All images of an update are images of the store, and the update goes through. -/
theorem relink_images (hc : CfgOK c) {s : Store} {free : List Nat} {ts tt : Tree} (h : Inv c s free ts tt) {i : Nat}
    (hl : LiveIn s free i) (hu : NoTwinIn s free i) (a b : Nat) :
    ∀ m ∈ images (relinkSteps c (s.linkAt i) i a b) s, ImageOf c s free m i := by
  obtain ⟨s1, ts1, e1, m1, n1, d1⟩ := mid_detachSource hc (h.toInv0.mid i) hl (decide ((s.linkAt i).source ≠ 0))
    (by rw [h.src_mem, decide_eq_true_eq]; simp [hl, Store.linkAt])
    (by
      intro hb k hk hki
      rcases hu with hu | hu
      · rw [decide_eq_true_eq] at hb; exact absurd (congrArg Prod.fst hu) hb
      · exact hu k ((h.src_mem k).1 hk).1 hki)
  have l1 := (LiveIn.same d1).2 hl
  obtain ⟨s2, tt2, e2, m2, n2, d2'⟩ := mid_detachTarget hc m1 l1 (decide ((s.linkAt i).target ≠ 0))
    (by rw [h.tgt_mem, decide_eq_true_eq]; simp [hl, Store.linkAt])
    (by
      intro hb k hk hki
      rw [d1.lk, d1.lk]
      rcases hu with hu | hu
      · rw [decide_eq_true_eq] at hb; exact absurd (congrArg Prod.snd hu) hb
      · exact hu k ((h.tgt_mem k).1 hk).1 hki)
  have d2 := d1.trans d2'
  have l2 := (LiveIn.same d2).2 hl
  have hlt : i < s2.len := by rw [d2.len]; have := h.base.alloc_lt; have := hl.2.1; omega
  let s3 : Store := { s2 with cell := fun k => if k = i then { s2.cell k with source := a } else s2.cell k }
  have e3 : setSource i a s2 = some s3 := by simp [setSource, hlt, s3]
  have m3 : Mid c s3 free ts1 tt2 i := mid_write m2 l2 n1 n2 rfl rfl (fun k hk => by simp [s3, hk])
    (by simp [s3])
  let s4 : Store := { s3 with cell := fun k => if k = i then { s3.cell k with target := b } else s3.cell k }
  have e4 : setTarget i b s3 = some s4 := by
    have : i < s3.len := hlt
    simp [setTarget, this, s4]
  have m4 : Mid c s4 free ts1 tt2 i := mid_write m3 l2 n1 n2 rfl rfl (fun k hk => by simp [s4, hk])
    (by simp [s4])
  have l4 : LiveIn s4 free i := l2
  obtain ⟨s5, ts5, e5, m5, d5⟩ := mid_attachSource hc m4 l4 n1 (decide (a ≠ 0))
  obtain ⟨s6, tt6, e6, m6, d6'⟩ := mid_attachTarget hc m5 ((LiveIn.same d5).2 l4) n2 (decide (b ≠ 0))
  have d6 := d5.trans d6'
  have k3 : ∀ k, k ≠ i → s3.lk k = s.lk k := fun k hk => by
    rw [← d2.lk k]; simp [Store.lk, s3, hk]
  have k4 : ∀ k, k ≠ i → s4.lk k = s.lk k := fun k hk => by
    rw [← k3 k hk]; simp [Store.lk, s4, hk]
  have a4 : s4.hdr.allocated = s.hdr.allocated := d2.allocated
  have hI : images (relinkSteps c (s.linkAt i) i a b) s = [s, s1, s2, s3, s4, s5, s6] := by
    simp only [images, relinkSteps, e1, e2, e3, e4, e5, e6]
  rw [hI]
  intro m hm
  simp only [List.mem_cons, List.not_mem_nil, or_false] at hm
  rcases hm with rfl | rfl | rfl | rfl | rfl | rfl | rfl
  · exact .same (h.toInv0.mid i) rfl fun _ _ => rfl
  · exact .same m1 d1.allocated fun k _ => d1.lk k
  · exact .same m2 d2.allocated fun k _ => d2.lk k
  · exact .same m3 d2.allocated k3
  · exact .same m4 a4 k4
  · exact .same m5 (d5.allocated.trans a4) fun k hk => (d5.lk k).trans (k4 k hk)
  · exact .same m6 (d6.allocated.trans a4) fun k hk => (d6.lk k).trans (k4 k hk)

/-- Lowering `allocated` past a null link. -/
theorem shrink_ok {s : Store} {free : List Nat} {ts tt : Tree} (h : Inv0 c s free ts tt)
    (h0 : s.hdr.allocated ≠ 0) (hm : s.hdr.allocated ∉ free) (hlk : s.lk s.hdr.allocated = (0, 0)) :
    Inv0 c { s with hdr := { s.hdr with allocated := s.hdr.allocated - 1 } } free ts tt := by
  refine ⟨⟨?_, ?_, h.base.res_pos, h.base.res_le, h.base.res8, h.base.list, ?_, ?_⟩,
    ⟨h.src.tree, h.src.clean⟩, ⟨h.tgt.tree, h.tgt.clean⟩, ?_, ?_⟩
  · have := h.base.alloc_lt
    show s.hdr.allocated - 1 < s.len; omega
  · have := h.base.alloc_le
    show s.hdr.allocated - 1 ≤ _; omega
  · intro x hx
    have h9 := h.base.free_le x hx
    have : x ≠ s.hdr.allocated := fun e => hm (e ▸ hx)
    show x ≤ s.hdr.allocated - 1; omega
  · intro k hk
    have hk' : k = 0 ∨ s.hdr.allocated - 1 < k := hk
    show s.lk k = (0, 0)
    by_cases hk2 : k = s.hdr.allocated
    · rw [hk2]; exact hlk
    · exact h.base.beyond k (by omega)
  · intro k
    rw [h.src_mem k]
    by_cases hk2 : k = s.hdr.allocated
    · have e : (s.cell k).source = 0 := by rw [hk2]; exact congrArg Prod.fst hlk
      simp [e]
    · simp only [LiveIn]
      constructor
      · rintro ⟨⟨a1, a2, a3⟩, a4⟩; exact ⟨⟨a1, by omega, a3⟩, a4⟩
      · rintro ⟨⟨a1, a2, a3⟩, a4⟩; exact ⟨⟨a1, by omega, a3⟩, a4⟩
  · intro k
    rw [h.tgt_mem k]
    by_cases hk2 : k = s.hdr.allocated
    · have e : (s.cell k).target = 0 := by rw [hk2]; exact congrArg Prod.snd hlk
      simp [e]
    · simp only [LiveIn]
      constructor
      · rintro ⟨⟨a1, a2, a3⟩, a4⟩; exact ⟨⟨a1, by omega, a3⟩, a4⟩
      · rintro ⟨⟨a1, a2, a3⟩, a4⟩; exact ⟨⟨a1, by omega, a3⟩, a4⟩

theorem release_images (hc : CfgOK c) : ∀ (fuel : Nat) (s : Store) (free : List Nat) (ts tt : Tree),
    Inv0 c s free ts tt → ∀ m ∈ releaseImages c fuel s, ∃ free', Inv0 c m free' ts tt ∧
      (∀ k, LiveIn s free k → LiveIn m free' k ∧ m.lk k = s.lk k) ∧
      (∀ k, LiveIn m free' k → LiveIn s free k ∨ m.lk k = (0, 0)) := by
  intro fuel
  induction fuel with
  | zero => intro s free ts tt _ m hm; cases hm
  | succ fuel ih =>
    intro s free ts tt h m hm
    have hself : ∃ free', Inv0 c s free' ts tt ∧ (∀ k, LiveIn s free k → LiveIn s free' k ∧ s.lk k = s.lk k) ∧
        (∀ k, LiveIn s free' k → LiveIn s free k ∨ s.lk k = (0, 0)) :=
      ⟨free, h, fun _ hk => ⟨hk, rfl⟩, fun _ hk => .inl hk⟩
    simp only [releaseImages] at hm
    by_cases ha : s.hdr.allocated = 0
    · simp only [ha, if_true, List.mem_singleton] at hm; subst hm; exact hself
    · simp only [ha, if_false, isUnused_eq h (show 1 ≤ s.hdr.allocated by omega) (Nat.le_refl _)] at hm
      by_cases hf : s.hdr.allocated ∈ free
      · obtain ⟨s1, h1, h2, h3, h4, h5, h6, h7⟩ := unusedDetach_ok hc h hf
        simp only [hf, decide_true, h1, List.mem_cons] at hm
        have hn := h.base.list.nodup
        have hL1 : ∀ k, LiveIn s free k → LiveIn s1 (free.erase s.hdr.allocated) k ∧ s1.lk k = s.lk k := by
          intro k hk
          exact ⟨⟨hk.1, by rw [h4]; exact hk.2.1, fun hm => hk.2.2 (List.mem_of_mem_erase hm)⟩, h7 k hk.2.2⟩
        have hL2 : ∀ k, LiveIn s1 (free.erase s.hdr.allocated) k → k = s.hdr.allocated ∨ LiveIn s free k := by
          intro k hk
          by_cases hk2 : k = s.hdr.allocated
          · exact .inl hk2
          · exact .inr ⟨hk.1, by rw [← h4]; exact hk.2.1, fun hm => hk.2.2 ((hn.mem_erase_iff).2 ⟨hk2, hm⟩)⟩
        rcases hm with rfl | rfl | hm
        · exact hself
        · refine ⟨_, h2, hL1, fun k hk => ?_⟩
          rcases hL2 k hk with rfl | hk
          · exact .inr h6
          · exact .inl hk
        · have hs := shrink_ok h2 (by rw [h4]; exact ha)
            (by rw [h4]; exact fun hm => ((hn.mem_erase_iff).1 hm).1 rfl) (by rw [h4]; exact h6)
          rw [h4] at hs
          obtain ⟨free', g1, g2, g3⟩ := ih _ _ ts tt hs m hm
          refine ⟨free', g1, fun k hk => ?_, fun k hk => ?_⟩
          · have hk2 : k ≠ s.hdr.allocated := fun e => hk.2.2 (e ▸ hf)
            have hk3 := hL1 k hk
            obtain ⟨r1, r2⟩ := g2 k ⟨hk.1, by have := hk.2.1; show k ≤ s.hdr.allocated - 1; omega, hk3.1.2.2⟩
            exact ⟨r1, r2.trans hk3.2⟩
          · rcases g3 k hk with hk' | hk'
            · have hk2 : k ≤ s.hdr.allocated - 1 := hk'.2.1
              rcases hL2 k ⟨hk'.1, by rw [h4]; omega, hk'.2.2⟩ with e | e
              · have := hk'.1; omega
              · exact .inl e
            · exact .inr hk'
      · simp only [hf, decide_false, List.mem_singleton] at hm
        subst hm; exact hself

/-- All images of a call are images of the store. -/
theorem call_images (hc : CfgOK c) {s : Store} {free : List Nat} {ts tt : Tree} (h : Inv c s free ts tt) (k : Call)
    (hu : ∀ j, callAbout j k → LiveIn s free j → NoTwinIn s free j) :
    ∀ m ∈ callImages c s k, ∃ i, (∀ j, i = j → j ≠ 0 → callAbout j k) ∧ ImageOf c s free m i := by
  have hself : ∀ i, ImageOf c s free s i := fun i => .same (h.toInv0.mid i) rfl fun _ _ => rfl
  cases k with
  | create =>
    intro m hm
    refine ⟨0, fun j e hj => absurd e.symm hj, ?_⟩
    simp only [callImages, createSteps] at hm
    cases free with
    | cons x rest =>
      have hx : s.hdr.firstFree = x := by
        have := h.base.list.first_eq; simpa [Store.listMem] using this
      have hx0 : x ≠ 0 := h.base.list.nonzero x (by simp)
      obtain ⟨s', h1, h2, h3, h4, h5, h6, h7⟩ := unusedDetach_ok hc h.toInv0 (i := x) (by simp)
      simp only [List.erase_cons_head] at h2
      simp only [hx, hc.null_eq, hx0, if_false, images, h1, List.mem_cons, List.not_mem_nil, or_false] at hm
      rcases hm with rfl | rfl
      · exact hself 0
      · refine ⟨rest, ts, tt, h2.mid 0, fun k _ hk => ⟨⟨hk.1, by rw [h4]; exact hk.2.1,
          fun hm => hk.2.2 (by simp [hm])⟩, h7 k hk.2.2⟩, fun k _ hk => ?_⟩
        by_cases hkx : k = x
        · subst hkx; exact .inr h6
        · exact .inl ⟨hk.1, by rw [← h4]; exact hk.2.1, by simp [hkx, hk.2.2]⟩
    | nil =>
      have hx : s.hdr.firstFree = 0 := by
        have := h.base.list.first_eq; simpa [Store.listMem] using this
      -- growing and counting up
      have hbump : ∀ {s0 : Store}, Inv c s0 [] ts tt → s0.hdr.allocated = s.hdr.allocated →
          (∀ k, s0.lk k = s.lk k) → s0.hdr.allocated + 1 < s0.len → s0.hdr.allocated < c.consts.internalEnd →
          ∀ m ∈ images [bumpStep c] s0, ImageOf c s [] m 0 := by
        intro s0 h0 ha hlk hlt hend m hm
        obtain ⟨s', h1, h2, h3, h4, h5, h6, h7⟩ := createTop_ok hc h0 hlt hend
          (fun (u : _root_.Unit) (_ _ : Link) => ((Ctl.cont : Flow), u)) ()
        have hb : bumpStep c s0 = some s' := by
          unfold createTop at h1
          unfold bumpStep
          cases hcd : cadd c.maxT s0.hdr.allocated 1 with
          | none => rw [hcd] at h1; cases h1
          | some a =>
            rw [hcd] at h1
            simp only [Option.map_some, Option.some.injEq, Out.mk.injEq] at h1
            simp only [Option.map_some, Option.some.injEq]
            exact h1.2.1
        simp only [images, hb, List.mem_cons, List.not_mem_nil, or_false] at hm
        rcases hm with rfl | rfl
        · exact .same (h0.toInv0.mid 0) ha fun k _ => hlk k
        · refine ⟨[], ts, tt, h2.toInv0.mid 0, fun k _ hk => ⟨⟨hk.1, ?_, by simp⟩, (h6 k).trans (hlk k)⟩,
            fun k _ hk => ?_⟩
          · have := hk.2.1; omega
          · by_cases hka : k = s0.hdr.allocated + 1
            · subst hka; exact .inr h7
            · refine .inl ⟨hk.1, ?_, by simp⟩
              have := hk.2.1; omega
      simp only [hx, hc.null_eq, if_true] at hm
      by_cases hend : c.consts.internalEnd ≤ s.hdr.allocated
      · simp only [hend, if_true, images, List.mem_singleton] at hm; subst hm; exact hself 0
      · simp only [hend, if_false, csub_eq h.base.res_pos] at hm
        by_cases hr : s.hdr.reserved - 1 ≤ s.hdr.allocated
        · simp only [hr, if_true] at hm
          cases hal : c.alloc s.len (s.len + c.step) with
          | none => simp only [hal, images, List.mem_singleton] at hm; subst hm; exact hself 0
          | some n =>
            have hn := hc.alloc_ge _ _ _ hal
            have hsp := hc.step_pos
            have hlt := h.base.alloc_lt
            have hrl := h.base.res_le
            simp only [hal, images, List.mem_cons] at hm
            have hg1 : Mid c { s with len := n } [] ts tt 0 := by
              refine ⟨⟨?_, h.base.alloc_le, h.base.res_pos, ?_, h.base.res8, h.base.list, h.base.free_le,
                h.base.beyond⟩, ⟨h.src.tree, h.src.clean⟩, ⟨h.tgt.tree, h.tgt.clean⟩, fun k _ => h.src_mem k,
                fun k _ => h.tgt_mem k, fun hi => ((h.src_mem 0).1 hi).1, fun hi => ((h.tgt_mem 0).1 hi).1⟩
              · show s.hdr.allocated < n; omega
              · show s.hdr.reserved ≤ n; omega
            rcases hm with rfl | rfl | hm
            · exact hself 0
            · exact .same hg1 rfl fun _ _ => rfl
            · by_cases hmx : n ≤ c.maxT
              · simp only [hmx, if_true] at hm
                refine hbump (grow_ok h (n := n) (by omega)) rfl (fun _ => rfl) ?_ (by show s.hdr.allocated < _; omega) m ?_
                · show s.hdr.allocated + 1 < n; omega
                · simpa [images] using hm
              · simp [hmx] at hm
        · simp only [hr, if_false] at hm
          have hrl := h.base.res_le
          exact hbump h rfl (fun _ => rfl) (by omega) (by omega) m hm
  | update i a b =>
    intro m hm
    refine ⟨i, fun j e _ => e, ?_⟩
    simp only [callImages, getLink_eq hc h.toInv0] at hm
    by_cases hl : LiveIn s free i
    · simp only [hl, if_true] at hm
      exact relink_images hc h hl (hu i rfl hl) a b m hm
    · simp only [hl, if_false, List.mem_singleton] at hm
      subst hm; exact hself i
  | delete i =>
    intro m hm
    refine ⟨i, fun j e _ => e, ?_⟩
    simp only [callImages, getLink_eq hc h.toInv0] at hm
    by_cases hl : LiveIn s free i
    · simp only [hl, if_true, List.mem_append] at hm
      rcases hm with hm | hm
      · exact relink_images hc h hl (hu i rfl hl) 0 0 m hm
      · obtain ⟨s1, ts1, tt1, h1, h2, h3, h4, h5, h6⟩ := relink_ok hc h hl (hu i rfl hl) 0 0
        have hrs : runSteps (relinkSteps c (s.linkAt i) i 0 0) s = some s1 := by
          rw [← relink_eq_runSteps]; exact h1
        rw [hrs] at hm
        simp only [dropImages, h4] at hm
        have hl1 : LiveIn s1 free i := by simpa [LiveIn, h4] using hl
        have hlk1 : s1.lk i = (0, 0) := by rw [h6]; simp
        have hlo : ∀ k, k ≠ i → s1.lk k = s.lk k := fun k hk => by rw [h6, if_neg hk]
        by_cases hlt : i < s.hdr.allocated
        · obtain ⟨s2, g1, g2, g3, g4, g5, g6⟩ := unusedAttachFirst_ok hc h2.toInv0 hl1 hlk1
          simp only [hlt, if_true, g1, Option.toList_some, List.mem_singleton] at hm
          subst hm
          refine ⟨i :: free, ts1, tt1, g2.mid i, fun k hki hk => ⟨⟨hk.1, by rw [g4, h4]; exact hk.2.1,
            by simp [hki, hk.2.2]⟩, ?_⟩, fun k hki hk => .inl ⟨hk.1, by rw [← h4, ← g4]; exact hk.2.1,
              fun hm => hk.2.2 (by simp [hm])⟩⟩
          rw [g6 k (by simp [hki, hk.2.2])]; exact hlo k hki
        · have heq : i = s.hdr.allocated := by have := hl.2.1; omega
          have hpos := hl.1
          simp only [hlt, if_false, heq, if_true, csub_eq (show 1 ≤ s.hdr.allocated by omega)] at hm
          have hs := shrink_ok h2.toInv0 (by omega) (by rw [h4, ← heq]; exact hl.2.2) (by rw [h4, ← heq]; exact hlk1)
          rw [h4] at hs
          have hm' : m ∈ releaseImages c (s.hdr.allocated + 1)
              { s1 with hdr := { s1.hdr with allocated := s.hdr.allocated - 1 } } := by
            rw [if_neg (by omega)] at hm; exact hm
          obtain ⟨free', g1, g2, g3⟩ := release_images hc _ _ _ _ _ hs m hm'
          refine ⟨free', ts1, tt1, g1.mid i, fun k hki hk => ?_, fun k hki hk => ?_⟩
          · obtain ⟨r1, r2⟩ := g2 k ⟨hk.1, by have := hk.2.1; show k ≤ s.hdr.allocated - 1; omega, hk.2.2⟩
            exact ⟨r1, r2.trans (hlo k hki)⟩
          · rcases g3 k hk with hk' | hk'
            · have : k ≤ s.hdr.allocated - 1 := hk'.2.1
              exact .inl ⟨hk'.1, by omega, hk'.2.2⟩
            · exact .inr hk'
    · simp only [hl, if_false, List.mem_singleton] at hm
      subst hm; exact hself i

/-- Opening a store on an image. -/
theorem init_mid (hc : CfgOK c) {s s' : Store} {n : Nat} {free : List Nat} {ts tt : Tree} {i : Nat}
    (hi : Mid c s free ts tt i) (h : init c { s with len := n } = some (.ok s'))
    (hlt : s.hdr.allocated < s'.len) :
    Mid c s' free ts tt i ∧ s'.hdr.allocated = s.hdr.allocated ∧ (∀ k, s'.lk k = s.lk k) := by
  unfold init at h
  simp only at h
  split at h
  · simp at h
  · next n1 hn1 =>
    split at h
    · simp at h
    · split at h
      · simp at h
      · next n2 hn2 =>
        have h2 : 2 ≤ n2 := by
          have := hc.alloc_ge _ _ _ hn2; have := hc.step_pos; omega
        rw [csub_eq (by omega)] at h
        simp only [Option.bind_some] at h
        split at h
        · simp only [Option.some.injEq, Except.ok.injEq] at h
          subst h
          refine ⟨⟨⟨hlt, hi.base.alloc_le, ?_, ?_, hi.base.res8, hi.base.list, hi.base.free_le,
            hi.base.beyond⟩, ⟨hi.src.tree, hi.src.clean⟩, ⟨hi.tgt.tree, hi.tgt.clean⟩, hi.src_mem,
            hi.tgt_mem, hi.src_i, hi.tgt_i⟩, rfl, fun _ => rfl⟩
          · show 1 ≤ n2 - 1; omega
          · show n2 - 1 ≤ n2; omega
        · simp at h

theorem Mid.ofAlloc {a : Nat → Nat → Option Nat} {s : Store} {free : List Nat} {ts tt : Tree} {i : Nat}
    (h : Mid (c.withAlloc a) s free ts tt i) : Mid c s free ts tt i :=
  ⟨⟨h.base.alloc_lt, h.base.alloc_le, h.base.res_pos, h.base.res_le, h.base.res8, h.base.list,
    h.base.free_le, h.base.beyond⟩, ⟨h.src.tree, h.src.clean⟩, ⟨h.tgt.tree, h.tgt.clean⟩, h.src_mem, h.tgt_mem, h.src_i, h.tgt_i⟩

theorem Mid.withAlloc {s : Store} {free : List Nat} {ts tt : Tree} {i : Nat} (h : Mid c s free ts tt i)
    (a : Nat → Nat → Option Nat) : Mid (c.withAlloc a) s free ts tt i :=
  ⟨⟨h.base.alloc_lt, h.base.alloc_le, h.base.res_pos, h.base.res_le, h.base.res8, h.base.list,
    h.base.free_le, h.base.beyond⟩, ⟨h.src.tree, h.src.clean⟩, ⟨h.tgt.tree, h.tgt.clean⟩, h.src_mem, h.tgt_mem, h.src_i, h.tgt_i⟩

/-- A live link with a non-null source that is not in the tree of sources is not found. -/
theorem getLink_hidden (hc : CfgOK c) {s : Store} {free : List Nat} {ts tt : Tree} {i : Nat}
    (h : Mid c s free ts tt i) (hl : LiveIn s free i) (hi : i ∉ ts.toList) (h0 : (s.cell i).source ≠ 0) :
    getLink c s i = some none := by
  have hlt : i < s.len := by have := h.base.alloc_lt; have := hl.2.1; omega
  have hcl := (h.src.clean i hi).2.2
  have hu : isUnused s i = some true := by
    unfold isUnused
    by_cases hf : s.hdr.firstFree = i
    · simp [hf]
    · rw [if_pos ⟨hl.2.1, hf⟩, get_eq (by have := hl.1; omega) hlt]
      simp [hcl, h0]
  unfold getLink exists?
  rw [hc.start_eq, if_pos ⟨hl.1, hl.2.1⟩, hu]
  rfl

/-- Searching an image for the doublet of a link other than `i`. -/
theorem mid_pair (hc : CfgOK c) {s : Store} {free : List Nat} {ts tt : Tree} {i : Nat} (h : Mid c s free ts tt i)
    {x y k : Nat} (hx : x ≠ 0) (hxa : x ≠ c.consts.any) (hya : y ≠ c.consts.any) (hk : LiveIn s free k) (hki : k ≠ i)
    (hxy : s.lk k = (x, y)) :
    ∃ j, (links c).Visits s [c.consts.any, x, y] [⟨j, x, y⟩] ∧ getLink c s j = some (some ⟨j, x, y⟩) := by
  obtain ⟨P, hP1, hP2, hP3, hget⟩ := getLink_mid hc h
  obtain ⟨j, e1, e2⟩ := srcSearch_mid h x y
  rcases e2 with ⟨rfl, e3⟩ | ⟨e2, e3, e5⟩
  · refine absurd hxy (e3 k ((h.src_mem k hki).2 ⟨hk, ?_⟩))
    have := congrArg Prod.fst hxy
    simp only [Store.lk] at this
    rw [this]; exact hx
  · have hlk : P j = true := hP3 j e3
    have hj : s.linkAt j = ⟨j, x, y⟩ := by
      simp only [Store.lk, Prod.mk.injEq] at e5
      simp [Store.linkAt, e5.1, e5.2]
    refine ⟨j, fun σ hd st => ?_, by rw [hget, if_pos hlk, hj]⟩
    have hE : (links c).eachLinks s [c.consts.any, x, y] hd st = each3 c s c.consts.any x y hd st := by
      simp [links, eachLinks, hc.index_eq, hc.source_eq, hc.target_eq]
    rw [hE]
    simp only [each3, hxa, hya, e1, hget, if_true, and_self, if_false, Option.bind_some, Option.map_some, if_pos hlk, hj,
      runH]
    rcases hd st ⟨j, x, y⟩ with ⟨_ | _, st'⟩ <;> rfl

/-- A traversal of everything on an image visits what lookup finds. -/
theorem mid_all (hc : CfgOK c) {s : Store} {free : List Nat} {ts tt : Tree} {i : Nat} (h : Mid c s free ts tt i) :
    ∃ L, (links c).Visits s [] L ∧ ∀ l ∈ L, getLink c s l.index = some (some l) := by
  obtain ⟨P, hP1, hP2, hP3, hget⟩ := getLink_mid hc h
  refine ⟨_, fun σ hd st => eachAll_mid hget hd _ st, fun l hl => ?_⟩
  obtain ⟨k, hk, rfl⟩ := List.mem_map.1 hl
  show getLink c s k = _
  rw [hget, if_pos (List.mem_filter.1 hk).2]

end Verif.Unit
