import Verif.Split.Net
import Verif.Unit.Reads

/-!
# Split store: effect of the read operations (helper lemmas)
-/

namespace Verif.Split
open Verif
open Verif.Unit (srcLt4 srcGt4 srcGt4_eq srcLt4_iff not_srcLt4 length_filter_notMem)

variable {c : Cfg}

/-- The link stored in slot `i`. -/
def Store.linkAt (s : Store) (i : Nat) : Link := ⟨i, (s.data i).1, (s.data i).2⟩

theorem mkLink_data (s : Store) : mkLink s.data = s.linkAt := rfl

theorem node_eq {s : Store} {free : List Nat} (hb : Base c s free) {d : Side} {i : Nat} (h0 : i ≠ 0)
    (h : i < s.ilen) :
    s.node d i = some ⟨(s.data i).1, (s.data i).2, (nodeOf d (s.idx i)).1, (nodeOf d (s.idx i)).2.1,
      (nodeOf d (s.idx i)).2.2⟩ := by
  simp [Store.node, Store.getD, Store.getI, hb.fresh, hb.len_eq, h, h0]

theorem rep_of_holds {s : Store} {free : List Nat} (hb : Base c s free) {d : Side} :
    ∀ {t : Tree} {r : Nat}, Holds (s.tmem d) t r → (∀ k ∈ t.toList, k < s.ilen) →
      Rep (s.node d) s.data t r := by
  intro t
  induction t with
  | leaf => intro r h _; exact h
  | node a k b iha ihb =>
    intro r h hl
    obtain ⟨h1, h2, h3, h4, h5⟩ := h
    exact ⟨h1, h2, _, node_eq hb h2 (hl k (by simp [Tree.toList])), rfl,
      iha h3 fun j hj => hl j (by simp [Tree.toList, hj]),
      ihb h4 fun j hj => hl j (by simp [Tree.toList, hj]), h5⟩

theorem eachInorder_eq {get : Nat → Option Node} {lk : Nat → Nat × Nat} {σ : Type} (h : RH σ) :
    ∀ (t : Tree) (r fuel : Nat) (s : σ), Rep get lk t r → t.size < fuel →
      eachInorder get h fuel r s = some (runH h (t.toList.map (mkLink lk)) s) := by
  intro t
  induction t with
  | leaf =>
    intro r fuel s hr hf
    cases fuel with
    | zero => omega
    | succ fuel => simp [Rep] at hr; simp [eachInorder, hr, Tree.toList, runH]
  | node l k r' ihl ihr =>
    intro r fuel s hr hf
    cases fuel with
    | zero => omega
    | succ fuel =>
      obtain ⟨rfl, hk, nd, hget, hlk, hl, hrr, hsz⟩ := hr
      simp only [Tree.size] at hf
      have e : (⟨r, nd.source, nd.target⟩ : Link) = mkLink lk r := by
        simp [mkLink, ← hlk]
      have ihl := ihl nd.left fuel s hl (by omega)
      simp only [eachInorder, hk, if_false, hget, ihl, Tree.toList, List.map_append,
        List.map_cons, runH_append, e]
      rcases hx : runH h (l.toList.map (mkLink lk)) s with ⟨_ | _, s1⟩
      · simp only [andThen, runH]
        rcases hy : h s1 (mkLink lk r) with ⟨_ | _, s2⟩
        · simp [ihr _ _ _ hrr (show r'.size < fuel by omega)]
        · simp
      · simp [andThen]

theorem searchKey_spec {get : Nat → Option Node} {lk : Nat → Nat × Nat} {key : Node → Nat}
    {f : Nat → Nat} (hf : ∀ nd k, (nd.source, nd.target) = lk k → key nd = f k) (x : Nat) :
    ∀ (t : Tree) (r fuel : Nat), Rep get lk t r → t.size < fuel →
      (t.toList.Pairwise fun p q => f p ≤ f q) →
      ∃ k, searchKey get key x fuel r = some k ∧
        ((k = 0 ∧ ∀ j ∈ t.toList, f j ≠ x) ∨ (k ≠ 0 ∧ k ∈ t.toList ∧ f k = x)) := by
  intro t
  induction t with
  | leaf =>
    intro r fuel hr hfu _
    cases fuel with
    | zero => omega
    | succ fuel =>
      simp [Rep] at hr
      exact ⟨0, by simp [searchKey, hr], Or.inl ⟨rfl, by simp [Tree.toList]⟩⟩
  | node l k r' ihl ihr =>
    intro r fuel hr hfu hs
    cases fuel with
    | zero => omega
    | succ fuel =>
      obtain ⟨rfl, hk, nd, hget, hlk, hl, hrr, hsz⟩ := hr
      simp only [Tree.size] at hfu
      have hb := hf nd r hlk
      simp only [Tree.toList, List.pairwise_append, List.pairwise_cons, List.mem_cons,
        forall_eq_or_imp] at hs
      obtain ⟨s1, ⟨s2, s3⟩, s4⟩ := hs
      simp only [searchKey, hk, if_false, hget, hb, Tree.toList, List.mem_append, List.mem_cons]
      by_cases c1 : x < f r
      · obtain ⟨j, e1, e2⟩ := ihl _ fuel hl (by omega) s1
        refine ⟨j, by simp [c1, e1], ?_⟩
        rcases e2 with ⟨e2, e3⟩ | ⟨e2, e3, e4⟩
        · refine Or.inl ⟨e2, ?_⟩
          rintro q (hq | rfl | hq)
          · exact e3 q hq
          · omega
          · have := s2 q hq; omega
        · exact Or.inr ⟨e2, Or.inl e3, e4⟩
      · by_cases c2 : f r < x
        · obtain ⟨j, e1, e2⟩ := ihr _ fuel hrr (by omega) s3
          refine ⟨j, by simp [c1, c2, e1], ?_⟩
          rcases e2 with ⟨e2, e3⟩ | ⟨e2, e3, e4⟩
          · refine Or.inl ⟨e2, ?_⟩
            rintro q (hq | rfl | hq)
            · have := (s4 q hq).1; omega
            · omega
            · exact e3 q hq
          · exact Or.inr ⟨e2, Or.inr (Or.inr e3), e4⟩
        · exact ⟨r, by simp [c1, c2], Or.inr ⟨hk, Or.inr (Or.inl rfl), by omega⟩⟩

/-! ### Usages of a link -/

theorem Net.tree_facts {s : Store} {free : List Nat} {I E : Side → Nat → Prop} (h : Net c s free I E)
    {t : Tree} {lt : Nat → Nat → Bool} {d : Side} {r : Nat} {P : Tree → Prop} (ht : IsTree P lt (s.tmem d) t r)
    (hm : ∀ k ∈ t.toList, I d k ∨ E d k) :
    Rep (s.node d) s.data t r ∧ t.size ≤ s.hdr.allocated := by
  refine ⟨rep_of_holds h.base ht.holds fun k hk => live_lt h.base (h.live d k (hm k hk)), ?_⟩
  rw [Tree.size_eq_length]
  exact length_le_of_nodup_le _ _ ht.nodup fun k hk =>
    ⟨(h.live d k (hm k hk)).1, (h.live d k (hm k hk)).2.1⟩

theorem iroot_eq {s : Store} {d : Side} {a : Nat} (h0 : a ≠ 0) (h : a < s.ilen) :
    s.iroot d a = some (rootOf d (s.idx a)) := by simp [Store.iroot, Store.getI, h, h0]

/-- Traversal and count in the internal tree of `a`: the same duplicate-free list. -/
theorem int_usages {s : Store} {free : List Nat} {I E : Side → Nat → Prop} (h : Net c s free I E)
    (d : Side) {a : Nat} (h0 : a ≠ 0) (hl : a < s.ilen) :
    ∃ L : List Nat, (∀ (σ : Type) (hd : RH σ) (st : σ),
        intEach s d a hd st = some (runH hd (L.map s.linkAt) st)) ∧
      intCount s d a = some L.length ∧ L.Nodup ∧
      ∀ k, k ∈ L ↔ I d k ∧ endOf d (s.data k) = a := by
  obtain ⟨ti, te, f1, f2, f3, f4, f5, f6, f7⟩ := h.forest d
  obtain ⟨hrep, hsz⟩ := h.tree_facts (f1 a h0) fun k hk => Or.inl ((f3 a k h0).1 hk).1
  have hlt := h.base.alloc_lt
  have hcnt : intCount s d a = some (ti a).toList.length := by
    rw [intCount, iroot_eq h0 hl, Option.bind_some, sizeOrZero_eq hrep, Tree.size_eq_length]
  cases d with
  | src =>
    refine ⟨(ti a).toList, ?_, hcnt, (f1 a h0).nodup, fun k => f3 a k h0⟩
    intro σ hd st
    simp only [intEach, iroot_eq h0 hl, Option.bind_some]
    exact eachInorder_eq hd _ _ _ st hrep (by omega)
  | tgt =>
    have hend : ∀ k ∈ (ti a).toList, (s.data k).2 = a := fun k hk => ((f3 a k h0).1 hk).2
    have hord : (ti a).toList.Pairwise fun x y => (s.data x).2 ≤ (s.data y).2 :=
      (f1 a h0).ordered.imp_of_mem fun {x y} hx hy _ => by rw [hend x hx, hend y hy]; exact Nat.le_refl _
    have hp := walk_perm (fun k => (s.data k).2) a (ti a) hord
    have hfil : ((ti a).toList.filter fun k => (s.data k).2 = a) = (ti a).toList := by
      rw [List.filter_eq_self]; intro k hk; simpa using hend k hk
    rw [hfil] at hp
    refine ⟨walk (fun k => (s.data k).2) a (ti a), ?_, ?_, (hp.nodup_iff).2 (f1 a h0).nodup, ?_⟩
    · intro σ hd st
      simp only [intEach, iroot_eq h0 hl, Option.bind_some]
      exact eachUsages_eq (f := fun k => (s.data k).2) (lk := s.data)
        (fun nd k e => congrArg Prod.snd e) hd a _ _ _ st hrep (by omega)
    · rw [hcnt, hp.length_eq]
    · intro k; rw [hp.mem_iff]; exact f3 a k h0

/-- The external tree of side `d` is empty. -/
def NoExt (E : Side → Nat → Prop) (d : Side) : Prop := ∀ k, ¬ E d k

/-- Traversal and count in the external tree of side `d`. The count is wrong if the sources tree is empty:
then it is the number of the first free slot. -/
theorem ext_usages (hc : CfgOK c) {s : Store} {free : List Nat} {I E : Side → Nat → Prop}
    (h : Net c s free I E) (d : Side) (v : Nat) :
    ∃ L : List Nat, (∀ (σ : Type) (hd : RH σ) (st : σ),
        extEach s d v hd st = some (runH hd (L.map s.linkAt) st)) ∧
      (d = .tgt ∨ ¬ NoExt E .src ∨ free = [] → extCount c s d v = some L.length) ∧
      (d = .src → NoExt E .src → extCount c s d v = some (free.headD 0)) ∧
      L.Nodup ∧ ∀ k, k ∈ L ↔ E d k ∧ endOf d (s.data k) = v := by
  obtain ⟨ti, te, f1, f2, f3, f4, f5, f6, f7⟩ := h.forest d
  obtain ⟨hrep, hsz⟩ := h.tree_facts f2 fun k hk => Or.inr ((f4 k).1 hk)
  have hlt := h.base.alloc_lt
  have hle := h.base.alloc_le
  have hfst : s.hdr.firstFree = free.headD 0 := h.base.list.first_eq
  have hord : te.toList.Pairwise fun x y => endOf d (s.data x) ≤ endOf d (s.data y) :=
    f2.ordered.imp fun {x y} hxy => by
      simp only [Store.cmpE, not_lt4] at hxy; omega
  have hf : ∀ (nd : Node) k, (nd.source, nd.target) = s.data k → endOf d nd.pair = endOf d (s.data k) :=
    fun nd k e => congrArg (endOf d) e
  have hp := walk_perm (fun k => endOf d (s.data k)) v te hord
  have hnode0 : ∃ nd, s.node d 0 = some nd ∧ nd.size = (nodeOf d (asPart s.hdr)).2.2 := by
    refine ⟨_, by simp [Store.node, Store.getD, Store.getI, h.base.fresh, h.base.len_eq,
      show 0 < s.ilen by omega]; rfl, rfl⟩
  refine ⟨walk (fun k => endOf d (s.data k)) v te, ?_, ?_, ?_, ?_, ?_⟩
  · intro σ hd st
    exact eachUsages_eq (f := fun k => endOf d (s.data k)) (lk := s.data) hf hd v te _ _ st hrep (by omega)
  · intro hcase
    unfold extCount
    rw [countUsages_eq (f := fun k => endOf d (s.data k)) (lk := s.data) hf c.maxT v te _ _ hrep
      (by omega) hord (by have := hc.end_le; omega), hp.length_eq]
    intro h0
    obtain ⟨nd, g1, g2⟩ := hnode0
    refine ⟨nd, g1, ?_⟩
    rw [g2]
    cases d with
    | tgt => exact h.base.res8
    | src =>
      show s.hdr.firstFree = 0
      rcases hcase with hcase | hcase | hcase
      · cases hcase
      · exfalso; apply hcase
        intro k hk
        have hkm := (f4 k).2 hk
        cases te with
        | leaf => simp [Tree.toList] at hkm
        | node a x b =>
          obtain ⟨r1, r2, _⟩ := hrep
          exact r2 (r1.symm.trans h0)
      · rw [hfst, hcase]; rfl
  · rintro rfl hE
    have hte : te = .leaf := by
      cases te with
      | leaf => rfl
      | node a x b => exact absurd ((f4 x).1 (by simp [Tree.toList])) (hE x)
    subst hte
    have hr : hrootOf .src s.hdr = 0 := hrep
    obtain ⟨nd, g1, g2⟩ := hnode0
    have g3 : nd.size = free.headD 0 := by rw [g2]; exact hfst
    simp [extCount, countUsages, hr, g1, countRight, countLeft, csub, g3]
  · exact (hp.nodup_iff).2 (f2.nodup.filter _)
  · intro k
    rw [hp.mem_iff, List.mem_filter, f4 k]
    simp

/-- Search in the internal tree of an end. -/
theorem intSearch_ok {s : Store} {free : List Nat} {I E : Side → Nat → Prop} (h : Net c s free I E)
    (d : Side) (x y : Nat) (h0 : endOf d (x, y) ≠ 0) (hl : endOf d (x, y) < s.ilen) :
    ∃ k, intSearch s d x y = some k ∧
      ((k = 0 ∧ ∀ j, I d j → s.data j ≠ (x, y)) ∨ (k ≠ 0 ∧ I d k ∧ s.data k = (x, y))) := by
  obtain ⟨ti, te, f1, f2, f3, f4, f5, f6, f7⟩ := h.forest d
  obtain ⟨hrep, hsz⟩ := h.tree_facts (f1 _ h0) fun k hk => Or.inl ((f3 _ k h0).1 hk).1
  have hlt := h.base.alloc_lt
  obtain ⟨k, e1, e2⟩ := searchKey_spec (key := fun nd => keyOf d nd.pair)
    (f := fun k => keyOf d (s.data k)) (fun nd k e => congrArg (keyOf d) e) (keyOf d (x, y))
    (ti (endOf d (x, y))) _ (s.ilen + 1) hrep (by omega)
    ((f1 _ h0).ordered.imp fun {p q} hpq => by
      simp only [Store.ltI, decide_eq_false_iff_not] at hpq; omega)
  refine ⟨k, by simp only [intSearch, iroot_eq h0 hl, Option.bind_some, e1], ?_⟩
  rcases e2 with ⟨e2, e3⟩ | ⟨e2, e3, e4⟩
  · refine Or.inl ⟨e2, fun j hj he => ?_⟩
    exact e3 j ((f3 _ j h0).2 ⟨hj, by rw [he]⟩) (by rw [he])
  · have e5 := (f3 _ k h0).1 e3
    exact Or.inr ⟨e2, e5.1, (pair_eq d _ _).2 ⟨e5.2, e4⟩⟩

theorem extSearch_ok {s : Store} {free : List Nat} {I E : Side → Nat → Prop} (h : Net c s free I E)
    (x y : Nat) :
    ∃ k, extSearch s x y = some k ∧
      ((k = 0 ∧ ∀ j, E .src j → s.data j ≠ (x, y)) ∨ (k ≠ 0 ∧ E .src k ∧ s.data k = (x, y))) := by
  obtain ⟨ti, te, f1, f2, f3, f4, f5, f6, f7⟩ := h.forest .src
  obtain ⟨hrep, hsz⟩ := h.tree_facts f2 fun k hk => Or.inr ((f4 k).1 hk)
  have hlt := h.base.alloc_lt
  obtain ⟨k, e1, e2⟩ := searchLoop_spec (get := s.node .src) (lk := s.data) (lt4 := srcLt4) (gt4 := srcGt4)
    srcGt4_eq
    (by intro a b c d e f; simp only [srcLt4_iff, not_srcLt4]; omega)
    (by intro a b c d e f; simp only [srcLt4_iff, not_srcLt4]; omega)
    (by intro a b c d; simp only [not_srcLt4]; omega)
    (by intro a b; simp [not_srcLt4])
    x y te s.hdr.rootS (s.ilen + 1) hrep (by omega)
    (f2.ordered.imp fun {a b} hab => hab)
  refine ⟨k, e1, ?_⟩
  rcases e2 with ⟨e2, e3⟩ | ⟨e2, e3, e4⟩
  · exact Or.inl ⟨e2, fun j hj he => e3 j ((f4 j).2 hj) he⟩
  · exact Or.inr ⟨e2, (f4 k).1 e3, e4⟩

/-! ### Lookup and full traversal -/

theorem exists_eq (hc : CfgOK c) {s : Store} {free : List Nat} {I E : Side → Nat → Prop}
    (h : Net c s free I E) (hx : Exact s free I E) (i : Nat) :
    exists? c s i = some (decide (LiveIn s free i)) := by
  unfold exists?
  rw [hc.start_eq]
  by_cases hi : 1 ≤ i ∧ i ≤ s.hdr.allocated
  · rw [if_pos hi, h.unused (by omega) (hx i)]
    simp
  · rw [if_neg hi]
    have : ¬ LiveIn s free i := fun hl => hi ⟨hl.1, hl.2.1⟩
    simp [this]

theorem getLinkUnchecked_eq {s : Store} {free : List Nat} (hb : Base c s free) {i : Nat}
    (hi : LiveIn s free i) : getLinkUnchecked s i = some (s.linkAt i) := by
  simp [getLinkUnchecked, Store.getD, hb.fresh, hb.len_eq, live_lt hb hi, Store.linkAt]

theorem getLink_eq (hc : CfgOK c) {s : Store} {free : List Nat} {I E : Side → Nat → Prop}
    (h : Net c s free I E) (hx : Exact s free I E) (i : Nat) :
    getLink c s i = some (if LiveIn s free i then some (s.linkAt i) else none) := by
  unfold getLink
  rw [exists_eq hc h hx i, Option.bind_some]
  by_cases hi : LiveIn s free i
  · simp [hi, getLinkUnchecked_eq h.base hi]
  · simp [hi]

/-- Indices of the live links, ascending. -/
def liveList (s : Store) (free : List Nat) : List Nat :=
  (List.range' 1 s.hdr.allocated).filter fun i => i ∉ free

theorem mem_liveList {s : Store} {free : List Nat} {i : Nat} :
    i ∈ liveList s free ↔ LiveIn s free i := by
  simp only [liveList, LiveIn, List.mem_filter, List.mem_range'_1, decide_eq_true_eq]
  constructor
  · rintro ⟨⟨h1, h2⟩, h3⟩; exact ⟨h1, by omega, h3⟩
  · rintro ⟨h1, h2, h3⟩; exact ⟨⟨h1, by omega⟩, h3⟩

theorem nodup_liveList (s : Store) (free : List Nat) : (liveList s free).Nodup :=
  List.Pairwise.filter _ List.nodup_range'

theorem total_eq {s : Store} {free : List Nat} (h : Base c s free) :
    total s = some (liveList s free).length := by
  have h1 : s.hdr.free = free.length := h.list.size_eq
  have h2 := length_filter_notMem free (List.range' 1 s.hdr.allocated) h.list.nodup
    List.nodup_range' (fun x hx => by
      have := h.free_le x hx
      have := h.list.nonzero x hx
      rw [List.mem_range'_1]; omega)
  rw [List.length_range'] at h2
  unfold total liveList
  rw [h1, csub_eq (by omega)]
  congr 1; omega

theorem eachIdx_eq (hc : CfgOK c) {s : Store} {free : List Nat} {I E : Side → Nat → Prop}
    (h : Net c s free I E) (hx : Exact s free I E) {σ : Type} (hd : RH σ) : ∀ (is : List Nat) (st : σ),
    (∀ i ∈ is, 1 ≤ i ∧ i ≤ s.hdr.allocated) →
    eachIdx c s hd is st = some (runH hd ((is.filter fun i => i ∉ free).map s.linkAt) st) := by
  intro is
  induction is with
  | nil => intro st _; rfl
  | cons i is ih =>
    intro st hi
    have ih := fun st => ih st (fun j hj => hi j (by simp [hj]))
    have h1 := hi i (by simp)
    simp only [eachIdx, getLink_eq hc h hx]
    by_cases hm : i ∈ free
    · have : ¬ LiveIn s free i := fun hl => hl.2.2 hm
      simp [this, hm, ih]
    · have : LiveIn s free i := ⟨h1.1, h1.2, hm⟩
      simp only [this, if_true, hm, not_false_eq_true, decide_true, List.filter_cons_of_pos,
        List.map_cons, runH, ih]
      rcases hd st (s.linkAt i) with ⟨_ | _, st'⟩ <;> simp [andThen]

theorem eachAll_eq (hc : CfgOK c) {s : Store} {free : List Nat} {I E : Side → Nat → Prop}
    (h : Net c s free I E) (hx : Exact s free I E) {σ : Type} (hd : RH σ) (st : σ) :
    eachAll c s hd st = some (runH hd ((liveList s free).map s.linkAt) st) :=
  eachIdx_eq hc h hx hd _ st fun i hi => by rw [List.mem_range'_1] at hi; omega

/-- Traversal by one end of an existing link, and the matching count. -/
theorem each_side_int (hc : CfgOK c) {s : Store} {free : List Nat} {I E : Side → Nat → Prop}
    (h : Net c s free I E) (hx : Exact s free I E) (d : Side) {v : Nat} (hv : LiveIn s free v) :
    ∃ L : List Nat, (∀ (σ : Type) (hd : RH σ) (st : σ),
        eachLinks c s (sideQuery c d v) hd st = some (runH hd (L.map s.linkAt) st)) ∧
      countLinks c s (sideQuery c d v) = some L.length ∧ L.Nodup ∧
      ∀ k, k ∈ L ↔ I d k ∧ endOf d (s.data k) = v := by
  have hv0 : v ≠ 0 := by have := hv.1; omega
  have hva : v ≠ c.consts.any := by
    have := hv.2.1; have := h.base.alloc_le; have := hc.end_lt_any; omega
  obtain ⟨L, g1, g2, g3, g4⟩ := int_usages h d hv0 (live_lt h.base hv)
  have hun := h.unused hv0 (hx v)
  obtain ⟨b, hany⟩ := isUnused_some h.base c.consts.any
  refine ⟨L, ?_, ?_, g3, g4⟩
  · intro σ hd st
    rw [← g1]
    cases d <;>
      simp [sideQuery, eachLinks, each3, hc.index_eq, hc.source_eq, hc.target_eq, hun, hany, hv, hva]
  · rw [← g2]
    cases d <;>
      simp [sideQuery, countLinks, count3, hc.index_eq, hc.source_eq, hc.target_eq, hun, hany, hv, hva]

/-- Traversal by one missing end, and the count. -/
theorem each_side_ext (hc : CfgOK c) {s : Store} {free : List Nat} {I E : Side → Nat → Prop}
    (h : Net c s free I E) (hx : Exact s free I E) (d : Side) {v : Nat} (hv : ¬ LiveIn s free v)
    (hv0 : v ≠ 0) (hva : v ≠ c.consts.any) :
    ∃ L : List Nat, (∀ (σ : Type) (hd : RH σ) (st : σ),
        eachLinks c s (sideQuery c d v) hd st = some (runH hd (L.map s.linkAt) st)) ∧
      (d = .tgt ∨ ¬ NoExt E .src ∨ free = [] →
        countLinks c s (sideQuery c d v) = some L.length) ∧
      (d = .src → NoExt E .src → countLinks c s (sideQuery c d v) = some (free.headD 0)) ∧ L.Nodup ∧
      ∀ k, k ∈ L ↔ E d k ∧ endOf d (s.data k) = v := by
  obtain ⟨L, g1, g2, g2', g3, g4⟩ := ext_usages hc h d v
  have hun := h.unused hv0 (hx v)
  obtain ⟨b, hany⟩ := isUnused_some h.base c.consts.any
  have hcnt : countLinks c s (sideQuery c d v) = extCount c s d v := by
    cases d <;>
      simp [sideQuery, countLinks, count3, hc.index_eq, hc.source_eq, hc.target_eq, hun, hany, hv, hva]
  refine ⟨L, ?_, ?_, ?_, g3, g4⟩
  · intro σ hd st
    rw [← g1]
    cases d <;>
      simp [sideQuery, eachLinks, each3, hc.index_eq, hc.source_eq, hc.target_eq, hun, hany, hv, hva]
  · rw [hcnt]; exact g2
  · rw [hcnt]; exact g2'

/-- The lookup of a pair in the tree the store chooses for it. -/
theorem pairSearch_ok (hc : CfgOK c) {s : Store} {free : List Nat} (h : Inv0 c s free) {x y : Nat}
    (hx0 : x ≠ 0) (hy0 : y ≠ 0) :
    ∃ k, pairSearch s (decide (¬ LiveIn s free x)) (decide (¬ LiveIn s free y)) x y = some k ∧
      ((k = 0 ∧ ∀ j, LiveIn s free j → s.data j ≠ (x, y)) ∨
       (k ≠ 0 ∧ LiveIn s free k ∧ s.data k = (x, y))) := by
  have hn := h.net
  by_cases hx : LiveIn s free x
  · have hS : ∃ k, intSearch s .src x y = some k ∧
        ((k = 0 ∧ ∀ j, LiveIn s free j → s.data j ≠ (x, y)) ∨
        (k ≠ 0 ∧ LiveIn s free k ∧ s.data k = (x, y))) := by
      obtain ⟨k, e1, e2⟩ := intSearch_ok hn .src x y hx0 (live_lt h.base hx)
      refine ⟨k, e1, ?_⟩
      rcases e2 with ⟨e2, e3⟩ | ⟨e2, e3, e4⟩
      · exact Or.inl ⟨e2, fun j hj he => e3 j ⟨hj, by rw [he]; exact hx0, by rw [he]; exact hx⟩ he⟩
      · exact Or.inr ⟨e2, e3.1, e4⟩
    by_cases hy : LiveIn s free y
    · have hT : ∃ k, intSearch s .tgt x y = some k ∧
          ((k = 0 ∧ ∀ j, LiveIn s free j → s.data j ≠ (x, y)) ∨
          (k ≠ 0 ∧ LiveIn s free k ∧ s.data k = (x, y))) := by
        obtain ⟨k, e1, e2⟩ := intSearch_ok hn .tgt x y hy0 (live_lt h.base hy)
        refine ⟨k, e1, ?_⟩
        rcases e2 with ⟨e2, e3⟩ | ⟨e2, e3, e4⟩
        · exact Or.inl ⟨e2, fun j hj he => e3 j ⟨hj, by rw [he]; exact hy0, by rw [he]; exact hy⟩ he⟩
        · exact Or.inr ⟨e2, e3.1, e4⟩
      obtain ⟨L1, _, c1, _⟩ := int_usages hn .src hx0 (live_lt h.base hx)
      obtain ⟨L2, _, c2, _⟩ := int_usages hn .tgt hy0 (live_lt h.base hy)
      simp only [pairSearch, hx, hy, not_true_eq_false, decide_false, Bool.and_self, c1,
        c2, Option.bind_some, Bool.false_eq_true, if_false]
      by_cases hgt : L1.length > L2.length
      · simp only [hgt, if_true]; exact hT
      · simp only [hgt, if_false]; exact hS
    · simp only [pairSearch, hx, hy, not_true_eq_false, decide_false, Bool.false_and,
        Bool.false_eq_true, if_false, not_false_eq_true, decide_true, if_true]
      exact hS
  · by_cases hy : LiveIn s free y
    · simp only [pairSearch, hx, hy, not_true_eq_false, decide_false, Bool.and_false,
        Bool.false_eq_true, if_false, not_false_eq_true, decide_true, if_true]
      obtain ⟨k, e1, e2⟩ := intSearch_ok hn .tgt x y hy0 (live_lt h.base hy)
      refine ⟨k, e1, ?_⟩
      rcases e2 with ⟨e2, e3⟩ | ⟨e2, e3, e4⟩
      · exact Or.inl ⟨e2, fun j hj he => e3 j ⟨hj, by rw [he]; exact hy0, by rw [he]; exact hy⟩ he⟩
      · exact Or.inr ⟨e2, e3.1, e4⟩
    · simp only [pairSearch, hx, hy, not_false_eq_true, decide_true, Bool.and_self, if_true]
      obtain ⟨k, e1, e2⟩ := extSearch_ok hn x y
      refine ⟨k, e1, ?_⟩
      rcases e2 with ⟨e2, e3⟩ | ⟨e2, e3, e4⟩
      · exact Or.inl ⟨e2, fun j hj he => e3 j ⟨hj, by rw [he]; exact hx0, by rw [he]; exact hx⟩ he⟩
      · exact Or.inr ⟨e2, e3.1, e4⟩

theorem runH_collect : ∀ (L acc : List Link),
    runH (fun (acc : List Link) l => ((.cont : Flow), acc ++ [l])) L acc = (.cont, acc ++ L) := by
  intro L
  induction L with
  | nil => intro acc; simp [runH]
  | cons x L ih => intro acc; simp [runH, ih]

/-- Collecting the users of an existing link. -/
theorem eachIter_side (hc : CfgOK c) {s : Store} {free : List Nat} {I E : Side → Nat → Prop}
    (h : Net c s free I E) (hx : Exact s free I E) (d : Side) {v : Nat} (hv : LiveIn s free v) :
    ∃ L : List Nat, eachIter c s (sideQuery c d v) = some (L.map s.linkAt) ∧ L.Nodup ∧
      ∀ k, k ∈ L ↔ I d k ∧ endOf d (s.data k) = v := by
  obtain ⟨L, g1, g2, g3, g4⟩ := each_side_int hc h hx d hv
  refine ⟨L, ?_, g3, g4⟩
  simp only [eachIter, g2, Option.bind_some, g1, Option.map_some, runH_collect, List.nil_append]

end Verif.Split
