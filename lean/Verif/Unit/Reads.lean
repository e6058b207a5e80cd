import Verif.Unit.Ops

/-!
# Effect of the united store's read operations (helper lemmas)
-/

namespace Verif.Unit
open Verif

variable {c : Cfg}

theorem rep_src {s : Store} : ∀ {t : Tree} {r : Nat}, Holds s.srcMem t r →
    (∀ k ∈ t.toList, k < s.len) → Rep s.srcNode s.lk t r := by
  intro t
  induction t with
  | leaf => intro r h _; exact h
  | node a k b iha ihb =>
    intro r h hl
    obtain ⟨h1, h2, h3, h4, h5⟩ := h
    refine ⟨h1, h2, ⟨(s.cell k).source, (s.cell k).target, (s.cell k).leftS, (s.cell k).rightS,
      (s.cell k).sizeS⟩, ?_, rfl, ?_, ?_, h5⟩
    · simp [Store.srcNode, get_eq h2 (hl k (by simp [Tree.toList]))]
    · exact iha h3 fun j hj => hl j (by simp [Tree.toList, hj])
    · exact ihb h4 fun j hj => hl j (by simp [Tree.toList, hj])

theorem rep_tgt {s : Store} : ∀ {t : Tree} {r : Nat}, Holds s.tgtMem t r →
    (∀ k ∈ t.toList, k < s.len) → Rep s.tgtNode s.lk t r := by
  intro t
  induction t with
  | leaf => intro r h _; exact h
  | node a k b iha ihb =>
    intro r h hl
    obtain ⟨h1, h2, h3, h4, h5⟩ := h
    refine ⟨h1, h2, ⟨(s.cell k).source, (s.cell k).target, (s.cell k).leftT, (s.cell k).rightT,
      (s.cell k).sizeT⟩, ?_, rfl, ?_, ?_, h5⟩
    · simp [Store.tgtNode, get_eq h2 (hl k (by simp [Tree.toList]))]
    · exact iha h3 fun j hj => hl j (by simp [Tree.toList, hj])
    · exact ihb h4 fun j hj => hl j (by simp [Tree.toList, hj])

theorem mkLink_lk (s : Store) : mkLink s.lk = s.linkAt := rfl

/-- Indices of the live links, ascending. -/
def liveList (s : Store) (free : List Nat) : List Nat :=
  (List.range' 1 s.hdr.allocated).filter fun i => i ∉ free

theorem mem_liveList {s : Store} {free : List Nat} {i : Nat} :
    i ∈ liveList s free ↔ LiveIn s free i := by
  simp only [liveList, LiveIn, List.mem_filter, List.mem_range'_1, decide_eq_true_eq]
  constructor
  · rintro ⟨⟨h1, h2⟩, h3⟩; exact ⟨h1, by omega, h3⟩
  · rintro ⟨h1, h2, h3⟩; exact ⟨⟨h1, by omega⟩, h3⟩

theorem nodup_liveList (s : Store) (free : List Nat) : (liveList s free).Nodup :=
  List.Pairwise.filter _ List.nodup_range'

theorem length_filter_notMem : ∀ (free l : List Nat), free.Nodup → l.Nodup → (∀ x ∈ free, x ∈ l) →
    (l.filter fun i => i ∉ free).length + free.length = l.length := by
  intro free
  induction free with
  | nil => intro l _ _ _; simp
  | cons x xs ih =>
    intro l hf hl hs
    rw [List.nodup_cons] at hf
    have hx : x ∈ l := hs x (by simp)
    have h1 := ih (l.erase x) hf.2 (hl.erase x) (fun y hy => (hl.mem_erase_iff).2
      ⟨fun e => hf.1 (e ▸ hy), hs y (by simp [hy])⟩)
    rw [List.length_erase_of_mem hx, hl.erase_eq_filter, List.filter_filter] at h1
    have h2 : (l.filter fun a => decide (a ∉ xs) && (a != x)) = l.filter fun i => decide (i ∉ x :: xs) := by
      congr 1; funext a
      by_cases h3 : a = x <;> simp [h3]
    rw [h2] at h1
    have : 1 ≤ l.length := List.length_pos_of_mem hx
    simp only [List.length_cons]; omega

theorem getTotal_eq {s : Store} {free : List Nat} {ts tt : Tree} (h : Inv0 c s free ts tt) :
    getTotal s = some (liveList s free).length := by
  have h1 : s.hdr.free = free.length := h.base.list.size_eq
  have h2 := length_filter_notMem free (List.range' 1 s.hdr.allocated) h.base.list.nodup
    List.nodup_range' (fun x hx => by
      have := h.base.free_le x hx
      have := h.base.list.nonzero x hx
      rw [List.mem_range'_1]; omega)
  rw [List.length_range'] at h2
  unfold getTotal liveList
  rw [h1, csub_eq (by omega)]
  congr 1; omega

theorem eachIdx_eq (hc : CfgOK c) {s : Store} {free : List Nat} {ts tt : Tree}
    (h : Inv0 c s free ts tt) {σ : Type} (hd : RH σ) : ∀ (is : List Nat) (st : σ),
    (∀ i ∈ is, 1 ≤ i ∧ i ≤ s.hdr.allocated) →
    eachIdx c s hd is st = some (runH hd ((is.filter fun i => i ∉ free).map s.linkAt) st) := by
  intro is
  induction is with
  | nil => intro st _; rfl
  | cons i is ih =>
    intro st hi
    have ih := fun st => ih st (fun j hj => hi j (by simp [hj]))
    have h1 := hi i (by simp)
    simp only [eachIdx, getLink_eq hc h]
    by_cases hm : i ∈ free
    · have : ¬ LiveIn s free i := fun hl => hl.2.2 hm
      simp [this, hm, ih]
    · have : LiveIn s free i := ⟨h1.1, h1.2, hm⟩
      simp only [this, if_true, hm, not_false_eq_true, decide_true, List.filter_cons_of_pos,
        List.map_cons, runH, ih]
      rcases hd st (s.linkAt i) with ⟨_ | _, st'⟩ <;> simp [andThen]

theorem eachAll_eq (hc : CfgOK c) {s : Store} {free : List Nat} {ts tt : Tree}
    (h : Inv0 c s free ts tt) {σ : Type} (hd : RH σ) (st : σ) :
    eachAll c s hd st = some (runH hd ((liveList s free).map s.linkAt) st) :=
  eachIdx_eq hc h hd _ st fun i hi => by rw [List.mem_range'_1] at hi; omega

theorem src_size_lt {s : Store} {free : List Nat} {ts tt : Tree} (h : Inv0 c s free ts tt) :
    ts.size ≤ s.hdr.allocated := by
  rw [Tree.size_eq_length]
  exact length_le_of_nodup_le _ _ h.src.tree.nodup fun k hk =>
    ⟨((h.src_mem k).1 hk).1.1, ((h.src_mem k).1 hk).1.2.1⟩

theorem tgt_size_lt {s : Store} {free : List Nat} {ts tt : Tree} (h : Inv0 c s free ts tt) :
    tt.size ≤ s.hdr.allocated := by
  rw [Tree.size_eq_length]
  exact length_le_of_nodup_le _ _ h.tgt.tree.nodup fun k hk =>
    ⟨((h.tgt_mem k).1 hk).1.1, ((h.tgt_mem k).1 hk).1.2.1⟩

theorem src_rep {s : Store} {free : List Nat} {ts tt : Tree} (h : Inv0 c s free ts tt) :
    Rep s.srcNode s.lk ts s.hdr.rootS :=
  rep_src h.src.tree.holds fun k hk => by
    have := ((h.src_mem k).1 hk).1.2.1; have := h.base.alloc_lt; omega

theorem tgt_rep {s : Store} {free : List Nat} {ts tt : Tree} (h : Inv0 c s free ts tt) :
    Rep s.tgtNode s.lk tt s.hdr.rootT :=
  rep_tgt h.tgt.tree.holds fun k hk => by
    have := ((h.tgt_mem k).1 hk).1.2.1; have := h.base.alloc_lt; omega

/-- Traversal and count by source: the same duplicate-free list of indices. -/
theorem src_usages (hc : CfgOK c) {s : Store} {free : List Nat} {ts tt : Tree}
    (h : Inv0 c s free ts tt) (v : Nat) :
    ∃ L : List Nat, (∀ (σ : Type) (hd : RH σ) (st : σ),
        srcEach s v hd st = some (runH hd (L.map s.linkAt) st)) ∧
      srcCount c s v = some L.length ∧ L.Nodup ∧
      ∀ k, k ∈ L ↔ LiveIn s free k ∧ v ≠ 0 ∧ (s.cell k).source = v := by
  have hrep := src_rep h
  have hsz := src_size_lt h
  have hlt := h.base.alloc_lt
  have hle := h.base.alloc_le
  have hord : ts.toList.Pairwise fun x y => (s.cell x).source ≤ (s.cell y).source :=
    h.src.tree.ordered.imp fun {a b} hab => by
      simp only [Store.cmp, not_srcLt4] at hab; omega
  have hp := walk_perm (fun k => (s.cell k).source) v ts hord
  refine ⟨walk (fun k => (s.cell k).source) v ts, ?_, ?_, ?_, ?_⟩
  · intro σ hd st
    exact eachUsages_eq (f := fun k => (s.cell k).source) (lk := s.lk)
      (fun nd k e => congrArg Prod.fst e) hd v ts _ _ st hrep (by omega)
  · unfold srcCount
    rw [countUsages_eq (f := fun k => (s.cell k).source) (lk := s.lk)
      (fun nd k e => congrArg Prod.fst e) c.maxT v ts _ _ hrep (by omega) hord
      (by have := hc.end_le; omega), hp.length_eq]
    intro h0
    exact ⟨_, by simp [Store.srcNode, Store.get, show 0 < s.len by omega]; rfl, h0⟩
  · exact (hp.nodup_iff).2 (h.src.tree.nodup.filter _)
  · intro k
    rw [hp.mem_iff, List.mem_filter, h.src_mem]
    simp only [decide_eq_true_eq]
    constructor
    · rintro ⟨⟨h1, h2⟩, h3⟩; exact ⟨h1, h3 ▸ h2, h3⟩
    · rintro ⟨h1, h2, h3⟩; exact ⟨⟨h1, h3 ▸ h2⟩, h3⟩

/-- Traversal and count by target. -/
theorem tgt_usages (hc : CfgOK c) {s : Store} {free : List Nat} {ts tt : Tree}
    (h : Inv0 c s free ts tt) (v : Nat) :
    ∃ L : List Nat, (∀ (σ : Type) (hd : RH σ) (st : σ),
        tgtEach s v hd st = some (runH hd (L.map s.linkAt) st)) ∧
      tgtCount c s v = some L.length ∧ L.Nodup ∧
      ∀ k, k ∈ L ↔ LiveIn s free k ∧ v ≠ 0 ∧ (s.cell k).target = v := by
  have hrep := tgt_rep h
  have hsz := tgt_size_lt h
  have hlt := h.base.alloc_lt
  have hle := h.base.alloc_le
  have hord : tt.toList.Pairwise fun x y => (s.cell x).target ≤ (s.cell y).target :=
    h.tgt.tree.ordered.imp fun {a b} hab => by
      simp only [Store.cmp, not_tgtLt4] at hab; omega
  have hp := walk_perm (fun k => (s.cell k).target) v tt hord
  refine ⟨walk (fun k => (s.cell k).target) v tt, ?_, ?_, ?_, ?_⟩
  · intro σ hd st
    exact eachUsages_eq (f := fun k => (s.cell k).target) (lk := s.lk)
      (fun nd k e => congrArg Prod.snd e) hd v tt _ _ st hrep (by omega)
  · unfold tgtCount
    rw [countUsages_eq (f := fun k => (s.cell k).target) (lk := s.lk)
      (fun nd k e => congrArg Prod.snd e) c.maxT v tt _ _ hrep (by omega) hord
      (by have := hc.end_le; omega), hp.length_eq]
    intro _
    exact ⟨_, by simp [Store.tgtNode, Store.get, show 0 < s.len by omega]; rfl, h.base.res8⟩
  · exact (hp.nodup_iff).2 (h.tgt.tree.nodup.filter _)
  · intro k
    rw [hp.mem_iff, List.mem_filter, h.tgt_mem]
    simp only [decide_eq_true_eq]
    constructor
    · rintro ⟨⟨h1, h2⟩, h3⟩; exact ⟨h1, h3 ▸ h2, h3⟩
    · rintro ⟨h1, h2, h3⟩; exact ⟨⟨h1, h3 ▸ h2⟩, h3⟩

theorem srcSearch_ok {s : Store} {free : List Nat} {ts tt : Tree}
    (h : Inv0 c s free ts tt) (x y : Nat) :
    ∃ k, srcSearch s x y = some k ∧
      ((k = 0 ∧ ∀ j, LiveIn s free j → x ≠ 0 → s.lk j ≠ (x, y)) ∨
       (k ≠ 0 ∧ LiveIn s free k ∧ x ≠ 0 ∧ s.lk k = (x, y))) := by
  have hsz := src_size_lt h
  have hlt := h.base.alloc_lt
  obtain ⟨k, h1, h2⟩ := searchLoop_spec (get := s.srcNode) (lk := s.lk) (lt4 := srcLt4) (gt4 := srcGt4)
    srcGt4_eq
    (by intro a b c d e f; simp only [srcLt4_iff, not_srcLt4]; omega)
    (by intro a b c d e f; simp only [srcLt4_iff, not_srcLt4]; omega)
    (by intro a b c d; simp only [not_srcLt4]; omega)
    (by intro a b; simp [not_srcLt4])
    x y ts s.hdr.rootS (s.len + 1) (src_rep h) (by omega)
    (h.src.tree.ordered.imp fun {a b} hab => hab)
  refine ⟨k, h1, ?_⟩
  rcases h2 with ⟨h2, h3⟩ | ⟨h2, h3, h4⟩
  · refine Or.inl ⟨h2, fun j hj hx he => h3 j ((h.src_mem j).2 ⟨hj, ?_⟩) he⟩
    have : (s.cell j).source = x := congrArg Prod.fst he
    rw [this]; exact hx
  · have h5 := (h.src_mem k).1 h3
    have : (s.cell k).source = x := congrArg Prod.fst h4
    exact Or.inr ⟨h2, h5.1, this ▸ h5.2, h4⟩

end Verif.Unit
