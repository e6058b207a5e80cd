import Verif.Split.Model
import Verif.Unit.Inv

/-!
# Representation invariant of the split store and effect of the tree operations (helper lemmas)
-/

namespace Verif.Split
open Verif
open Verif.Unit (Hdr srcLt4 srcGt4 tgtLt4 tgtGt4 srcLt4_iff tgtLt4_iff srcGt4_eq tgtGt4_eq not_srcLt4
  not_tgtLt4)

/-- What the theorems assume about a configuration. The allocators hand out exactly what is asked for:
`reserved` is computed from the size of one memory and used for both. -/
structure CfgOK (c : Cfg) : Prop where
  null_eq : c.consts.null = 0
  index_eq : c.consts.indexPart = 0
  source_eq : c.consts.sourcePart = 1
  target_eq : c.consts.targetPart = 2
  start_eq : c.consts.internalStart = 1
  end_lt_any : c.consts.internalEnd < c.consts.any
  end_le : c.consts.internalEnd ≤ c.maxT
  step_pos : 2 ≤ c.step
  trees : LawfulTrees c.trees
  dalloc_eq : ∀ len req n, c.dalloc len req = some n → n = req
  ialloc_eq : ∀ len req n, c.ialloc len req = some n → n = req

/-- Header, free list and slots beyond the end. Index slot 0 is the header: `idx 0` is not memory and stays zero. -/
structure Base (c : Cfg) (s : Store) (free : List Nat) : Prop where
  fresh : s.stale = false
  len_eq : s.dlen = s.ilen
  alloc_lt : s.hdr.allocated < s.ilen
  alloc_le : s.hdr.allocated ≤ c.consts.internalEnd
  res_pos : 1 ≤ s.hdr.reserved
  res_le : s.hdr.reserved ≤ s.ilen
  res8 : s.hdr.reserved8 = 0
  data0 : s.data 0 = (0, 0) ∧ s.idx 0 = {}
  list : IsList s.listMem free
  free_le : ∀ x ∈ free, x ≤ s.hdr.allocated
  beyond : ∀ k, s.hdr.allocated < k → s.data k = (0, 0)

/-- Slot `i` holds a link. -/
def LiveIn (s : Store) (free : List Nat) (i : Nat) : Prop :=
  1 ≤ i ∧ i ≤ s.hdr.allocated ∧ i ∉ free

/-- The trees of side `d`: the links in `I` are each in the internal tree of their end on this side, the links
in `E` are in the external tree, all others have cleared tree fields. -/
def Forest (c : Cfg) (s : Store) (d : Side) (I E : Nat → Prop) : Prop :=
  ∃ (ti : Nat → Tree) (te : Tree),
    (∀ a, a ≠ 0 → IsTree c.trees.shape (s.ltI d) (s.tmem d) (ti a) (rootOf d (s.idx a))) ∧
    IsTree c.trees.shape (s.cmpE (lt4 d)) (s.tmem d) te (hrootOf d s.hdr) ∧
    (∀ a k, a ≠ 0 → (k ∈ (ti a).toList ↔ I k ∧ endOf d (s.data k) = a)) ∧
    (∀ k, k ∈ te.toList ↔ E k) ∧
    (∀ k, I k → ¬ E k) ∧ (∀ k, I k → endOf d (s.data k) ≠ 0) ∧
    (∀ k, k ≠ 0 → ¬ I k → ¬ E k → nodeOf d (s.idx k) = (0, 0, 0))

/-- Links attached to the tree of an existing link. -/
def IntRef (s : Store) (free : List Nat) (d : Side) (k : Nat) : Prop :=
  LiveIn s free k ∧ endOf d (s.data k) ≠ 0 ∧ LiveIn s free (endOf d (s.data k))

/-- Links attached to the external tree. -/
def ExtRef (s : Store) (free : List Nat) (d : Side) (k : Nat) : Prop :=
  LiveIn s free k ∧ endOf d (s.data k) ≠ 0 ∧ ¬ LiveIn s free (endOf d (s.data k))

/-- Representation invariant, except that the highest slot may be free. -/
structure Inv0 (c : Cfg) (s : Store) (free : List Nat) : Prop where
  base : Base c s free
  forest : ∀ d, Forest c s d (IntRef s free d) (ExtRef s free d)
  half : ∀ k, LiveIn s free k → (s.data k).1 ≠ 0 → (s.data k).2 ≠ 0

/-- Representation invariant. -/
structure Inv (c : Cfg) (s : Store) (free : List Nat) : Prop extends Inv0 c s free where
  free_lt : ∀ x ∈ free, x < s.hdr.allocated

/-- No other link stores the same pair as `i`, unless that pair is the null pair. -/
def NoTwinIn (s : Store) (free : List Nat) (i : Nat) : Prop :=
  s.data i = (0, 0) ∨ ∀ k, LiveIn s free k → k ≠ i → s.data k ≠ s.data i

/-! ### Sides -/

theorem pair_eq (d : Side) (p q : Nat × Nat) :
    p = q ↔ endOf d p = endOf d q ∧ keyOf d p = keyOf d q := by
  rcases p with ⟨p1, p2⟩; rcases q with ⟨q1, q2⟩
  cases d <;> simp [endOf, keyOf, and_comm]

theorem lt4_iff (d : Side) (p q : Nat × Nat) :
    lt4 d p.1 p.2 q.1 q.2 = true ↔
      endOf d p < endOf d q ∨ (endOf d p = endOf d q ∧ keyOf d p < keyOf d q) := by
  cases d <;> simp [lt4, srcLt4_iff, tgtLt4_iff, endOf, keyOf]

theorem not_lt4 (d : Side) (p q : Nat × Nat) :
    lt4 d p.1 p.2 q.1 q.2 = false ↔
      endOf d q < endOf d p ∨ (endOf d q = endOf d p ∧ keyOf d q ≤ keyOf d p) := by
  cases d <;> simp [lt4, not_srcLt4, not_tgtLt4, endOf, keyOf]

theorem gt4_eq (d : Side) (a b x y : Nat) : gt4 d a b x y = lt4 d x y a b := by
  cases d <;> simp [lt4, gt4, srcGt4_eq, tgtGt4_eq]

theorem extOrd (s : Store) (d : Side) : WeakOrd (s.cmpE (lt4 d)) (s.cmpE (gt4 d)) where
  gt_eq a b := by simp [Store.cmpE, gt4_eq]
  irrefl a := by simp [Store.cmpE, not_lt4]
  trans a b c := by simp only [Store.cmpE, lt4_iff]; omega
  ntrans a b c := by simp only [Store.cmpE, not_lt4]; omega

theorem intOrd (s : Store) (d : Side) : WeakOrd (s.ltI d) (s.gtI d) where
  gt_eq a b := by simp [Store.ltI, Store.gtI]
  irrefl a := by simp [Store.ltI]
  trans a b c := by simp only [Store.ltI, decide_eq_true_eq]; omega
  ntrans a b c := by simp only [Store.ltI, decide_eq_false_iff_not]; omega

@[simp] theorem nodeOf_setNode (d : Side) (p : IPart) (l r z : Nat) :
    nodeOf d (setNode d p l r z) = (l, r, z) := by cases d <;> rfl
@[simp] theorem nodeOf_setNode_flip (d : Side) (p : IPart) (l r z : Nat) :
    nodeOf d.flip (setNode d p l r z) = nodeOf d.flip p := by cases d <;> rfl
@[simp] theorem rootOf_setNode (d d' : Side) (p : IPart) (l r z : Nat) :
    rootOf d' (setNode d p l r z) = rootOf d' p := by cases d <;> cases d' <;> rfl
@[simp] theorem nodeOf_setRoot (d d' : Side) (p : IPart) (r : Nat) :
    nodeOf d' (setRoot d p r) = nodeOf d' p := by cases d <;> cases d' <;> rfl
@[simp] theorem rootOf_setRoot (d : Side) (p : IPart) (r : Nat) :
    rootOf d (setRoot d p r) = r := by cases d <;> rfl
@[simp] theorem rootOf_setRoot_flip (d : Side) (p : IPart) (r : Nat) :
    rootOf d.flip (setRoot d p r) = rootOf d.flip p := by cases d <;> rfl
@[simp] theorem hrootOf_setHroot (d : Side) (h : Hdr) (r : Nat) :
    hrootOf d (setHroot d h r) = r := by cases d <;> rfl
@[simp] theorem hrootOf_setHroot_flip (d : Side) (h : Hdr) (r : Nat) :
    hrootOf d.flip (setHroot d h r) = hrootOf d.flip h := by cases d <;> rfl

@[simp] theorem flip_flip (d : Side) : d.flip.flip = d := by cases d <;> rfl

/-- `s'` differs from `s` in the tree fields and roots of side `d` only. -/
structure Only (d : Side) (s s' : Store) : Prop where
  data : s'.data = s.data
  dlen : s'.dlen = s.dlen
  ilen : s'.ilen = s.ilen
  stale : s'.stale = s.stale
  allocated : s'.hdr.allocated = s.hdr.allocated
  reserved : s'.hdr.reserved = s.hdr.reserved
  free : s'.hdr.free = s.hdr.free
  firstFree : s'.hdr.firstFree = s.hdr.firstFree
  lastFree : s'.hdr.lastFree = s.hdr.lastFree
  reserved8 : s'.hdr.reserved8 = s.hdr.reserved8
  node : ∀ k, nodeOf d.flip (s'.idx k) = nodeOf d.flip (s.idx k)
  root : ∀ k, rootOf d.flip (s'.idx k) = rootOf d.flip (s.idx k)
  hroot : hrootOf d.flip s'.hdr = hrootOf d.flip s.hdr
  zero : s'.idx 0 = s.idx 0

theorem Only.refl (d : Side) (s : Store) : Only d s s :=
  ⟨rfl, rfl, rfl, rfl, rfl, rfl, rfl, rfl, rfl, rfl, fun _ => rfl, fun _ => rfl, rfl, rfl⟩

theorem Only.trans {d : Side} {s s' s'' : Store} (h : Only d s s') (h' : Only d s' s'') :
    Only d s s'' :=
  ⟨h'.data.trans h.data, h'.dlen.trans h.dlen, h'.ilen.trans h.ilen, h'.stale.trans h.stale,
    h'.allocated.trans h.allocated, h'.reserved.trans h.reserved, h'.free.trans h.free,
    h'.firstFree.trans h.firstFree, h'.lastFree.trans h.lastFree, h'.reserved8.trans h.reserved8,
    fun k => (h'.node k).trans (h.node k), fun k => (h'.root k).trans (h.root k),
    h'.hroot.trans h.hroot, h'.zero.trans h.zero⟩

theorem setNode_same (d : Side) (p : IPart) : setNode d p (nodeOf d p).1 (nodeOf d p).2.1 (nodeOf d p).2.2 = p := by
  cases d <;> rfl

/-- The fields that a tree operation leaves alone at 0. -/
def SameAt0 (m m' : TMem) : Prop := m'.left 0 = m.left 0 ∧ m'.right 0 = m.right 0 ∧ m'.size 0 = m.size 0

theorem only_putInt (s : Store) (d : Side) (a : Nat) (m : TMem) (r : Nat) (h0 : SameAt0 (s.tmem d) m) (ha : a ≠ 0) :
    Only d s (s.putInt d a m r) := by
  refine ⟨rfl, rfl, rfl, rfl, rfl, rfl, rfl, rfl, rfl, rfl, ?_, ?_, rfl, ?_⟩
  rotate_left 2
  · simp only [Store.putInt, Store.putNodes, if_neg (Ne.symm ha), h0.1, h0.2.1, h0.2.2]
    exact setNode_same d _
  · intro k
    simp only [Store.putInt, Store.putNodes]
    by_cases hk : k = a <;> simp [hk]
  · intro k
    simp only [Store.putInt, Store.putNodes]
    by_cases hk : k = a <;> simp [hk]

theorem only_putExt (s : Store) (d : Side) (m : TMem) (r : Nat) (h0 : SameAt0 (s.tmem d) m) : Only d s (s.putExt d m r) := by
  have hz : (s.putExt d m r).idx 0 = s.idx 0 := by
    simp only [Store.putExt, Store.putNodes, h0.1, h0.2.1, h0.2.2]
    exact setNode_same d _
  cases d <;> exact ⟨rfl, rfl, rfl, rfl, rfl, rfl, rfl, rfl, rfl, rfl, fun _ => rfl, fun _ => rfl, rfl, hz⟩

theorem tmem_putInt (s : Store) (d : Side) (a : Nat) (m : TMem) (r : Nat) :
    (s.putInt d a m r).tmem d = m := by
  rcases m with ⟨l, r', z⟩
  simp only [Store.tmem, Store.putInt, Store.putNodes, TMem.mk.injEq]
  refine ⟨?_, ?_, ?_⟩ <;> funext k <;> by_cases hk : k = a <;> simp [hk]

theorem rootOf_putInt (s : Store) (d : Side) (a b : Nat) (m : TMem) (r : Nat) :
    rootOf d ((s.putInt d a m r).idx b) = if b = a then r else rootOf d (s.idx b) := by
  simp only [Store.putInt, Store.putNodes]
  by_cases hk : b = a <;> simp [hk]

theorem tmem_putExt (s : Store) (d : Side) (m : TMem) (r : Nat) : (s.putExt d m r).tmem d = m := by
  rcases m with ⟨l, r', z⟩
  simp [Store.tmem, Store.putExt, Store.putNodes]

theorem Forest.congr {s s' : Store} {d : Side} {I E I' E' : Nat → Prop} (h : Forest c s d I E)
    (hd : ∀ k, I k ∨ E k → s'.data k = s.data k)
    (hn : ∀ k, k ≠ 0 → nodeOf d (s'.idx k) = nodeOf d (s.idx k))
    (hr : ∀ k, k ≠ 0 → rootOf d (s'.idx k) = rootOf d (s.idx k))
    (hh : hrootOf d s'.hdr = hrootOf d s.hdr)
    (hI : ∀ k, I' k ↔ I k) (hE : ∀ k, E' k ↔ E k) : Forest c s' d I' E' := by
  obtain rfl : I' = I := funext fun k => propext (hI k)
  obtain rfl : E' = E := funext fun k => propext (hE k)
  obtain ⟨ti, te, h1, h2, h3, h4, h5, h6, h7⟩ := h
  have hnode : ∀ k, k ≠ 0 → (s'.tmem d).left k = (s.tmem d).left k ∧
      (s'.tmem d).right k = (s.tmem d).right k ∧ (s'.tmem d).size k = (s.tmem d).size k := by
    intro k hk
    simp only [Store.tmem, hn k hk, and_self]
  refine ⟨ti, te, ?_, ?_, ?_, h4, h5, ?_, ?_⟩
  · intro a ha
    rw [hr a ha]
    refine (h1 a ha).congr (fun k hk => hnode k ((h1 a ha).holds.nonzero k hk)) ?_
    intro x hx y hy
    have hx := ((h3 a x ha).1 hx).1
    have hy := ((h3 a y ha).1 hy).1
    simp only [Store.ltI, hd x (Or.inl hx), hd y (Or.inl hy)]
  · rw [hh]
    refine h2.congr (fun k hk => hnode k (h2.holds.nonzero k hk)) ?_
    intro x hx y hy
    simp only [Store.cmpE, hd x (Or.inr ((h4 x).1 hx)), hd y (Or.inr ((h4 y).1 hy))]
  · intro a k ha
    rw [h3 a k ha]
    constructor
    · rintro ⟨x, y⟩; exact ⟨x, by rw [hd k (Or.inl x)]; exact y⟩
    · rintro ⟨x, y⟩; exact ⟨x, by rw [hd k (Or.inl x)] at y; exact y⟩
  · intro k hk; rw [hd k (Or.inl hk)]; exact h6 k hk
  · intro k hk hi he; rw [hn k hk]; exact h7 k hk hi he

/-- Operations on one side do not disturb the other. -/
theorem Forest.other {s s' : Store} {d : Side} {I E : Nat → Prop} (h : Forest c s d.flip I E)
    (ho : Only d s s') : Forest c s' d.flip I E :=
  h.congr (fun k _ => by rw [ho.data]) (fun k _ => ho.node k) (fun k _ => ho.root k) ho.hroot
    (fun _ => Iff.rfl) (fun _ => Iff.rfl)

variable {c : Cfg}

theorem nonzero_of_forest {s : Store} {d : Side} {I E : Nat → Prop} (h : Forest c s d I E) {k : Nat}
    (hk : I k ∨ E k) : k ≠ 0 := by
  obtain ⟨ti, te, h1, h2, h3, h4, h5, h6, h7⟩ := h
  rcases hk with hk | hk
  · have ha := h6 k hk
    exact (h1 _ ha).holds.nonzero k ((h3 _ k ha).2 ⟨hk, rfl⟩)
  · exact h2.holds.nonzero k ((h4 k).2 hk)

theorem size_pos_of_forest {s : Store} {d : Side} {I E : Nat → Prop} (h : Forest c s d I E) {k : Nat}
    (hk : I k ∨ E k) : (nodeOf d (s.idx k)).2.2 ≠ 0 := by
  obtain ⟨ti, te, h1, h2, h3, h4, h5, h6, h7⟩ := h
  rcases hk with hk | hk
  · have ha := h6 k hk
    have : 1 ≤ (nodeOf d (s.idx k)).2.2 :=
      (h1 _ ha).holds.size_pos k ((h3 _ k ha).2 ⟨hk, rfl⟩)
    omega
  · have : 1 ≤ (nodeOf d (s.idx k)).2.2 := h2.holds.size_pos k ((h4 k).2 hk)
    omega

theorem detachInt_ok (hc : CfgOK c) {s : Store} {d : Side} {I E : Nat → Prop} {i a : Nat}
    (h : Forest c s d I E) (hi : I i) (ha : endOf d (s.data i) = a) (hal : a < s.ilen)
    (hu : ∀ k, I k → k ≠ i → s.data k ≠ s.data i) :
    ∃ s', detachInt c d s a i = some s' ∧ Forest c s' d (fun k => I k ∧ k ≠ i) E ∧ Only d s s' := by
  obtain ⟨ti, te, h1, h2, h3, h4, h5, h6, h7⟩ := h
  have ha0 : a ≠ 0 := ha ▸ h6 i hi
  have him : i ∈ (ti a).toList := (h3 a i ha0).2 ⟨hi, ha⟩
  obtain ⟨m, r, t', e1, e2, e3, e4, e5, e6, e7⟩ :=
    hc.trees.detach _ (s.gtI d) _ _ _ i (intOrd s d) (h1 a ha0) him (by
      intro k hk hki
      have hk := (h3 a k ha0).1 hk
      have hne := hu k hk.1 hki
      rw [ne_eq, pair_eq d] at hne
      simp only [Store.ltI, Store.gtI, decide_eq_true_eq]
      rw [hk.2, ha] at hne
      omega)
  have hn := (e3.nodup_iff).2 (h1 a ha0).nodup
  rw [List.nodup_cons] at hn
  have hmem : ∀ k, k ∈ t'.toList ↔ (I k ∧ k ≠ i) ∧ endOf d (s.data k) = a := by
    intro k
    have h8 : k = i ∨ k ∈ t'.toList ↔ k ∈ (ti a).toList := by rw [← e3.mem_iff, List.mem_cons]
    rw [h3 a k ha0] at h8
    constructor
    · intro hk
      have := h8.1 (Or.inr hk)
      exact ⟨⟨this.1, fun e => hn.1 (e ▸ hk)⟩, this.2⟩
    · rintro ⟨⟨hk, hki⟩, hka⟩
      rcases h8.2 ⟨hk, hka⟩ with e | e
      · exact absurd e hki
      · exact e
  refine ⟨s.putInt d a m r, by simp [detachInt, hal, e1], ?_, only_putInt s d a m r
    (e7 0 fun x => (h1 a ha0).holds.nonzero 0 x rfl) ha0⟩
  have hfr : ∀ k, k ∉ (ti a).toList → m.left k = (s.tmem d).left k ∧ m.right k = (s.tmem d).right k ∧
      m.size k = (s.tmem d).size k := e7
  refine ⟨fun b => if b = a then t' else ti b, te, ?_, ?_, ?_, h4, fun k hk => h5 k hk.1,
    fun k hk => h6 k hk.1, ?_⟩
  · intro b hb
    rw [tmem_putInt, rootOf_putInt]
    by_cases hba : b = a
    · simp only [hba, if_true]; exact e2
    · simp only [hba, if_false]
      refine (h1 b hb).congr (fun k hk => hfr k ?_) (fun _ _ _ _ => rfl)
      intro hk'
      exact hba ((((h3 b k hb).1 hk).2).symm.trans ((h3 a k ha0).1 hk').2)
  · rw [tmem_putInt]
    refine h2.congr (fun k hk => hfr k ?_) (fun _ _ _ _ => rfl)
    intro hk'
    exact h5 k ((h3 a k ha0).1 hk').1 ((h4 k).1 hk)
  · intro b k hb
    show k ∈ (if b = a then t' else ti b).toList ↔ (I k ∧ k ≠ i) ∧ endOf d (s.data k) = b
    by_cases hba : b = a
    · simp only [hba, if_true]; exact hmem k
    · simp only [hba, if_false]
      rw [h3 b k hb]
      constructor
      · rintro ⟨x, y⟩; exact ⟨⟨x, fun e => hba (by rw [← y, e, ha])⟩, y⟩
      · rintro ⟨⟨x, _⟩, y⟩; exact ⟨x, y⟩
  · intro k hk hnI hnE
    have key : ((s.putInt d a m r).tmem d).left k = 0 ∧ ((s.putInt d a m r).tmem d).right k = 0 ∧
        ((s.putInt d a m r).tmem d).size k = 0 := by
      rw [tmem_putInt]
      by_cases hki : k = i
      · subst hki; exact ⟨e4, e5, e6⟩
      · have hnI' : ¬ I k := fun x => hnI ⟨x, hki⟩
        have h8 := hfr k (fun x => hnI' ((h3 a k ha0).1 x).1)
        have h9 := h7 k hk hnI' hnE
        rw [h8.1, h8.2.1, h8.2.2]
        simp [Store.tmem, h9]
    exact Prod.ext key.1 (Prod.ext key.2.1 key.2.2)

theorem attachInt_ok (hc : CfgOK c) {s : Store} {d : Side} {I E : Nat → Prop} {i a : Nat}
    (h : Forest c s d I E) (hz : i ≠ 0) (hI : ¬ I i) (hE : ¬ E i) (ha : endOf d (s.data i) = a)
    (ha0 : a ≠ 0) (hal : a < s.ilen) :
    ∃ s', attachInt c d s a i = some s' ∧ Forest c s' d (fun k => I k ∨ k = i) E ∧ Only d s s' := by
  obtain ⟨ti, te, h1, h2, h3, h4, h5, h6, h7⟩ := h
  have him : i ∉ (ti a).toList := fun x => hI ((h3 a i ha0).1 x).1
  have hcl := h7 i hz hI hE
  obtain ⟨m, r, t', e1, e2, e3, e7⟩ :=
    hc.trees.attach _ (s.gtI d) _ _ _ i (intOrd s d) (h1 a ha0) hz him
      (by simp [Store.tmem, hcl]) (by simp [Store.tmem, hcl])
  have hmem : ∀ k, k ∈ t'.toList ↔ (I k ∨ k = i) ∧ endOf d (s.data k) = a := by
    intro k
    rw [e3.mem_iff, List.mem_cons, h3 a k ha0]
    constructor
    · rintro (rfl | ⟨x, y⟩)
      · exact ⟨Or.inr rfl, ha⟩
      · exact ⟨Or.inl x, y⟩
    · rintro ⟨x | rfl, y⟩
      · exact Or.inr ⟨x, y⟩
      · exact Or.inl rfl
  refine ⟨s.putInt d a m r, by simp [attachInt, hal, e1], ?_, only_putInt s d a m r
    (e7 0 fun x => (List.mem_cons.1 x).elim (fun e => hz e.symm) fun x => (h1 a ha0).holds.nonzero 0 x rfl) ha0⟩
  have hfr : ∀ k, k ≠ i → k ∉ (ti a).toList → m.left k = (s.tmem d).left k ∧
      m.right k = (s.tmem d).right k ∧ m.size k = (s.tmem d).size k :=
    fun k hk hm => e7 k (by simp [hk, hm])
  refine ⟨fun b => if b = a then t' else ti b, te, ?_, ?_, ?_, h4, ?_, ?_, ?_⟩
  · intro b hb
    rw [tmem_putInt, rootOf_putInt]
    by_cases hba : b = a
    · simp only [hba, if_true]; exact e2
    · simp only [hba, if_false]
      refine (h1 b hb).congr (fun k hk => hfr k ?_ ?_) (fun _ _ _ _ => rfl)
      · intro e; exact hI (e ▸ ((h3 b k hb).1 hk).1)
      · intro hk'
        exact hba ((((h3 b k hb).1 hk).2).symm.trans ((h3 a k ha0).1 hk').2)
  · rw [tmem_putInt]
    refine h2.congr (fun k hk => hfr k ?_ ?_) (fun _ _ _ _ => rfl)
    · intro e; exact hE (e ▸ (h4 k).1 hk)
    · intro hk'
      exact h5 k ((h3 a k ha0).1 hk').1 ((h4 k).1 hk)
  · intro b k hb
    show k ∈ (if b = a then t' else ti b).toList ↔ (I k ∨ k = i) ∧ endOf d (s.data k) = b
    by_cases hba : b = a
    · simp only [hba, if_true]; exact hmem k
    · simp only [hba, if_false]
      rw [h3 b k hb]
      constructor
      · rintro ⟨x, y⟩; exact ⟨Or.inl x, y⟩
      · rintro ⟨x | rfl, y⟩
        · exact ⟨x, y⟩
        · exact absurd (y.symm.trans ha) hba
  · rintro k (hk | rfl)
    · exact h5 k hk
    · exact hE
  · rintro k (hk | rfl)
    · exact h6 k hk
    · show endOf d (s.data k) ≠ 0
      rw [ha]; exact ha0
  · intro k hk hnI hnE
    have hnI' : ¬ I k := fun x => hnI (Or.inl x)
    have h8 := hfr k (fun x => hnI (Or.inr x)) (fun x => hnI' ((h3 a k ha0).1 x).1)
    have h9 := h7 k hk hnI' hnE
    have key : ((s.putInt d a m r).tmem d).left k = 0 ∧ ((s.putInt d a m r).tmem d).right k = 0 ∧
        ((s.putInt d a m r).tmem d).size k = 0 := by
      rw [tmem_putInt, h8.1, h8.2.1, h8.2.2]
      simp [Store.tmem, h9]
    exact Prod.ext key.1 (Prod.ext key.2.1 key.2.2)

theorem detachExt_ok (hc : CfgOK c) {s : Store} {d : Side} {I E : Nat → Prop} {i : Nat}
    (h : Forest c s d I E) (hi : E i) (hu : ∀ k, E k → k ≠ i → s.data k ≠ s.data i) :
    ∃ s', detachExt c d s i = some s' ∧ Forest c s' d I (fun k => E k ∧ k ≠ i) ∧ Only d s s' := by
  obtain ⟨ti, te, h1, h2, h3, h4, h5, h6, h7⟩ := h
  have him : i ∈ te.toList := (h4 i).2 hi
  obtain ⟨m, r, t', e1, e2, e3, e4, e5, e6, e7⟩ :=
    hc.trees.detach _ (s.cmpE (gt4 d)) _ _ _ i (extOrd s d) h2 him (by
      intro k hk hki
      have hne := hu k ((h4 k).1 hk) hki
      rw [ne_eq, pair_eq d] at hne
      simp only [Store.cmpE, gt4_eq, lt4_iff]
      omega)
  have hn := (e3.nodup_iff).2 h2.nodup
  rw [List.nodup_cons] at hn
  refine ⟨s.putExt d m r, by simp [detachExt, e1], ?_, only_putExt s d m r
    (e7 0 fun x => h2.holds.nonzero 0 x rfl)⟩
  have hfr : ∀ k, k ∉ te.toList → m.left k = (s.tmem d).left k ∧ m.right k = (s.tmem d).right k ∧
      m.size k = (s.tmem d).size k := e7
  refine ⟨ti, t', ?_, ?_, h3, ?_, fun k hk hk' => h5 k hk hk'.1, h6, ?_⟩
  · intro b hb
    rw [tmem_putExt]
    show IsTree _ _ _ _ (rootOf d (setNode d (s.idx b) _ _ _))
    rw [rootOf_setNode]
    refine (h1 b hb).congr (fun k hk => hfr k ?_) (fun _ _ _ _ => rfl)
    intro hk'
    exact h5 k ((h3 b k hb).1 hk).1 ((h4 k).1 hk')
  · rw [tmem_putExt]
    show IsTree _ _ _ _ (hrootOf d (setHroot d s.hdr r))
    rw [hrootOf_setHroot]; exact e2
  · intro k
    have h8 : k = i ∨ k ∈ t'.toList ↔ k ∈ te.toList := by rw [← e3.mem_iff, List.mem_cons]
    rw [h4 k] at h8
    constructor
    · intro hk
      exact ⟨h8.1 (Or.inr hk), fun e => hn.1 (e ▸ hk)⟩
    · rintro ⟨hk, hki⟩
      rcases h8.2 hk with e | e
      · exact absurd e hki
      · exact e
  · intro k hk hnI hnE
    have key : ((s.putExt d m r).tmem d).left k = 0 ∧ ((s.putExt d m r).tmem d).right k = 0 ∧
        ((s.putExt d m r).tmem d).size k = 0 := by
      rw [tmem_putExt]
      by_cases hki : k = i
      · subst hki; exact ⟨e4, e5, e6⟩
      · have hnE' : ¬ E k := fun x => hnE ⟨x, hki⟩
        have h8 := hfr k (fun x => hnE' ((h4 k).1 x))
        have h9 := h7 k hk hnI hnE'
        rw [h8.1, h8.2.1, h8.2.2]
        simp [Store.tmem, h9]
    exact Prod.ext key.1 (Prod.ext key.2.1 key.2.2)

theorem attachExt_ok (hc : CfgOK c) {s : Store} {d : Side} {I E : Nat → Prop} {i : Nat}
    (h : Forest c s d I E) (hz : i ≠ 0) (hI : ¬ I i) (hE : ¬ E i) :
    ∃ s', attachExt c d s i = some s' ∧ Forest c s' d I (fun k => E k ∨ k = i) ∧ Only d s s' := by
  obtain ⟨ti, te, h1, h2, h3, h4, h5, h6, h7⟩ := h
  have him : i ∉ te.toList := fun x => hE ((h4 i).1 x)
  have hcl := h7 i hz hI hE
  obtain ⟨m, r, t', e1, e2, e3, e7⟩ :=
    hc.trees.attach _ (s.cmpE (gt4 d)) _ _ _ i (extOrd s d) h2 hz him
      (by simp [Store.tmem, hcl]) (by simp [Store.tmem, hcl])
  refine ⟨s.putExt d m r, by simp [attachExt, e1], ?_, only_putExt s d m r
    (e7 0 fun x => (List.mem_cons.1 x).elim (fun e => hz e.symm) fun x => h2.holds.nonzero 0 x rfl)⟩
  have hfr : ∀ k, k ≠ i → k ∉ te.toList → m.left k = (s.tmem d).left k ∧
      m.right k = (s.tmem d).right k ∧ m.size k = (s.tmem d).size k :=
    fun k hk hm => e7 k (by simp [hk, hm])
  refine ⟨ti, t', ?_, ?_, h3, ?_, ?_, h6, ?_⟩
  · intro b hb
    rw [tmem_putExt]
    show IsTree _ _ _ _ (rootOf d (setNode d (s.idx b) _ _ _))
    rw [rootOf_setNode]
    refine (h1 b hb).congr (fun k hk => hfr k ?_ ?_) (fun _ _ _ _ => rfl)
    · intro e; exact hI (e ▸ ((h3 b k hb).1 hk).1)
    · intro hk'
      exact h5 k ((h3 b k hb).1 hk).1 ((h4 k).1 hk')
  · rw [tmem_putExt]
    show IsTree _ _ _ _ (hrootOf d (setHroot d s.hdr r))
    rw [hrootOf_setHroot]; exact e2
  · intro k
    rw [e3.mem_iff, List.mem_cons, h4 k, or_comm]
  · rintro k hk (hk' | rfl)
    · exact h5 k hk hk'
    · exact hI hk
  · intro k hk hnI hnE
    have hnE' : ¬ E k := fun x => hnE (Or.inl x)
    have h8 := hfr k (fun x => hnE (Or.inr x)) (fun x => hnE' ((h4 k).1 x))
    have h9 := h7 k hk hnI hnE'
    have key : ((s.putExt d m r).tmem d).left k = 0 ∧ ((s.putExt d m r).tmem d).right k = 0 ∧
        ((s.putExt d m r).tmem d).size k = 0 := by
      rw [tmem_putExt, h8.1, h8.2.1, h8.2.2]
      simp [Store.tmem, h9]
    exact Prod.ext key.1 (Prod.ext key.2.1 key.2.2)

theorem Base.only {s s' : Store} {d : Side} {free : List Nat} (h : Base c s free) (ho : Only d s s') :
    Base c s' free where
  fresh := by rw [ho.stale]; exact h.fresh
  len_eq := by rw [ho.dlen, ho.ilen]; exact h.len_eq
  alloc_lt := by rw [ho.allocated, ho.ilen]; exact h.alloc_lt
  alloc_le := by rw [ho.allocated]; exact h.alloc_le
  res_pos := by rw [ho.reserved]; exact h.res_pos
  res_le := by rw [ho.reserved, ho.ilen]; exact h.res_le
  res8 := by rw [ho.reserved8]; exact h.res8
  data0 := by rw [ho.data, ho.zero]; exact h.data0
  list := h.list.congr ho.firstFree ho.lastFree ho.free
    fun k _ => by simp only [Store.listMem, ho.data, and_self]
  free_le := by rw [ho.allocated]; exact h.free_le
  beyond := by rw [ho.allocated, ho.data]; exact h.beyond

theorem liveIn_only {s s' : Store} {d : Side} {free : List Nat} (ho : Only d s s') (k : Nat) :
    LiveIn s' free k ↔ LiveIn s free k := by simp only [LiveIn, ho.allocated]

/-! ### `is_unused` -/

theorem sizeT_eq (p : IPart) : p.sizeT = (nodeOf .tgt p).2.2 := rfl

/-- `is_unused` on a slot that is or could be a link. -/
theorem isUnused_alloc {s : Store} {free : List Nat} (hb : Base c s free) {I E : Nat → Prop}
    (hf : Forest c s .tgt I E) (hfree : ∀ k, I k ∨ E k → LiveIn s free k) {e : Nat} (he : e ≠ 0) :
    ∃ b, isUnused s e = some b ∧
      (b = true ↔ ¬ LiveIn s free e ∨ (¬ (I e ∨ E e) ∧ (s.data e).1 ≠ 0)) := by
  unfold isUnused
  by_cases ha : e ≤ s.hdr.allocated
  · have h1 := hb.alloc_lt
    by_cases hfi : s.hdr.firstFree = e
    · have hm : e ∈ free := by
        have := hb.list.first_mem (by simp [Store.listMem, hfi, he])
        simpa [Store.listMem, hfi] using this
      have : ¬ LiveIn s free e := fun h => h.2.2 hm
      exact ⟨true, by simp [hfi], by simp [this]⟩
    · have e1 : s.getI e = some (s.idx e) := by
        simp [Store.getI, show e < s.ilen by omega, he]
      have e2 : s.getD e = some (s.data e) := by
        simp [Store.getD, hb.fresh, hb.len_eq, show e < s.ilen by omega]
      rw [if_pos ⟨ha, hfi⟩, e1, e2]
      simp only [Option.bind_some, Option.map_some, Option.some.injEq]
      refine ⟨_, rfl, ?_⟩
      rw [sizeT_eq]
      simp only [Bool.and_eq_true, beq_iff_eq, bne_iff_ne]
      by_cases hm : e ∈ free
      · have hl : ¬ LiveIn s free e := fun h => h.2.2 hm
        have hn : ¬ I e ∧ ¬ E e := ⟨fun h => hl (hfree e (Or.inl h)), fun h => hl (hfree e (Or.inr h))⟩
        have hp := hb.list.prev_mem hm
        have hp0 := hb.list.nonzero _ hp
        obtain ⟨ti, te, h1, h2, h3, h4, h5, h6, h7⟩ := hf
        have := h7 e he hn.1 hn.2
        simp only [this, hl, not_false_eq_true, true_or, iff_true, true_and]
        exact hp0
      · have hl : LiveIn s free e := ⟨by omega, ha, hm⟩
        by_cases hIE : I e ∨ E e
        · have := size_pos_of_forest hf hIE
          simp [this, hIE, hl]
        · obtain ⟨ti, te, h1, h2, h3, h4, h5, h6, h7⟩ := hf
          have := h7 e he (fun h => hIE (Or.inl h)) (fun h => hIE (Or.inr h))
          simp [this, hIE, hl]
  · have : ¬ LiveIn s free e := fun h => ha h.2.1
    exact ⟨true, by simp [ha], by simp [this]⟩

/-- `is_unused` where it is exact. -/
theorem isUnused_eq {s : Store} {free : List Nat} (hb : Base c s free) {I E : Nat → Prop}
    (hf : Forest c s .tgt I E) (hfree : ∀ k, I k ∨ E k → LiveIn s free k) {e : Nat} (he : e ≠ 0)
    (hh : LiveIn s free e → (s.data e).1 ≠ 0 → I e ∨ E e) [Decidable (LiveIn s free e)] :
    isUnused s e = some (decide (¬ LiveIn s free e)) := by
  obtain ⟨b, hb1, hb2⟩ := isUnused_alloc hb hf hfree he
  rw [hb1]
  congr 1
  rw [Bool.eq_iff_iff, hb2]
  simp only [decide_eq_true_eq]
  constructor
  · rintro (h | ⟨h1, h2⟩)
    · exact h
    · exact fun h => h1 (hh h h2)
  · exact Or.inl

/-- `is_unused` never fails. -/
theorem isUnused_some {s : Store} {free : List Nat} (hb : Base c s free) (e : Nat) :
    ∃ b, isUnused s e = some b := by
  unfold isUnused
  by_cases h : e ≤ s.hdr.allocated ∧ s.hdr.firstFree ≠ e
  · have := hb.alloc_lt
    rw [if_pos h]
    simp [Store.getI, Store.getD, hb.fresh, hb.len_eq, show e < s.ilen by omega]
  · rw [if_neg h]; exact ⟨_, rfl⟩

instance (s : Store) (free : List Nat) (i : Nat) : Decidable (LiveIn s free i) :=
  inferInstanceAs (Decidable (_ ∧ _ ∧ _))

end Verif.Split
