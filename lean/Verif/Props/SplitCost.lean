import Verif.Split.Example
import Verif.Props.Cost
import Verif.Props.SplitQueries

/-!
# C56: lookups look at few slots (split store)

A slot is a data part and an index part; slot 0 belongs to the header.
-/

namespace Verif

theorem searchKey_touch {get : Nat → Option Node} {lk : Nat → Nat × Nat} (key : Node → Nat) (x : Nat) :
    ∀ (t : Tree) (r fuel : Nat), Rep get lk t r →
      ∃ R, R.length ≤ t.height ∧ Touch R (fun g => Split.searchKey g key x fuel r) get ∧
        ∀ k, Split.searchKey get key x fuel r = some k → k = 0 ∨ k ∈ R := by
  intro t
  induction t with
  | leaf =>
    intro r fuel hr
    simp only [Rep] at hr
    subst hr
    refine ⟨[], Nat.le_refl _, fun g _ => by cases fuel <;> simp [Split.searchKey], fun k hk => ?_⟩
    cases fuel with
    | zero => simp [Split.searchKey] at hk
    | succ => simp [Split.searchKey] at hk; exact .inl hk.symm
  | node a k b iha ihb =>
    intro r fuel hr
    obtain ⟨rfl, hk, nd, hget, hlk, ha, hb, -⟩ := hr
    cases fuel with
    | zero => exact ⟨[], Nat.zero_le _, fun g _ => rfl, fun k hk => by simp [Split.searchKey] at hk⟩
    | succ fuel =>
      obtain ⟨Ra, la, ta, fa⟩ := iha nd.left fuel ha
      obtain ⟨Rb, lb, tb, fb⟩ := ihb nd.right fuel hb
      by_cases h1 : x < key nd
      · refine ⟨r :: Ra, by simp only [Tree.height, List.length_cons]; omega, fun g hg => ?_, fun k hk' => ?_⟩
        · simp only [Split.searchKey, hk, if_false, hg r (by simp), hget, h1, if_true]
          exact ta g fun k hk => hg k (by simp [hk])
        · simp only [Split.searchKey, hk, if_false, hget, h1, if_true] at hk'
          rcases fa k hk' with h | h
          · exact .inl h
          · exact .inr (by simp [h])
      · by_cases h2 : x > key nd
        · refine ⟨r :: Rb, by simp only [Tree.height, List.length_cons]; omega, fun g hg => ?_, fun k hk' => ?_⟩
          · simp only [Split.searchKey, hk, if_false, hg r (by simp), hget, h1, h2, if_true]
            exact tb g fun k hk => hg k (by simp [hk])
          · simp only [Split.searchKey, hk, if_false, hget, h1, h2, if_true] at hk'
            rcases fb k hk' with h | h
            · exact .inl h
            · exact .inr (by simp [h])
        · refine ⟨[r], by simp [Tree.height], fun g hg => ?_, fun k hk' => ?_⟩
          · simp only [Split.searchKey, hk, if_false, hg r (by simp), hget, h1, h2]
          · simp only [Split.searchKey, hk, if_false, hget, h1, h2, Option.some.injEq] at hk'
            exact .inr (by simp [hk'])

theorem eachInorder_touch {get : Nat → Option Node} {lk : Nat → Nat × Nat} {σ : Type} (h : RH σ) :
    ∀ (t : Tree) (r fuel : Nat) (st : σ), Rep get lk t r →
      Touch t.toList (fun g => Split.eachInorder g h fuel r st) get := by
  intro t
  induction t with
  | leaf =>
    intro r fuel st hr g hg
    simp only [Rep] at hr
    subst hr
    cases fuel <;> simp [Split.eachInorder]
  | node a k b iha ihb =>
    intro r fuel st hr g hg
    obtain ⟨rfl, hk, nd, hget, hlk, ha, hb, -⟩ := hr
    cases fuel with
    | zero => rfl
    | succ fuel =>
      simp only [Tree.toList, List.mem_append, List.mem_cons] at hg
      have e1 := fun st => iha nd.left fuel st ha g fun k hk => hg k (.inl hk)
      have e2 := fun st => ihb nd.right fuel st hb g fun k hk => hg k (.inr (.inr hk))
      simp only at e1 e2
      simp only [Split.eachInorder, hk, if_false, hg r (.inr (.inl rfl)), hget, e1, e2]

end Verif

namespace Verif.Split.Props
open Verif

variable {c : Cfg}

/-- The memories agree in the header, the lengths and the slots `R`. -/
def SameAt (R : List Nat) (s s' : Store) : Prop :=
  s'.hdr = s.hdr ∧ s'.dlen = s.dlen ∧ s'.ilen = s.ilen ∧ s'.stale = s.stale ∧ s'.data 0 = s.data 0 ∧
    ∀ k ∈ R, s'.data k = s.data k ∧ s'.idx k = s.idx k

/-- The answer of `f` in `s` depends on the header and the slots `R`. -/
def Dep {α : Type} (R : List Nat) (f : Store → α) (s : Store) : Prop := ∀ s', SameAt R s s' → f s' = f s

/-- The answer of `f` in `s` depends on the header and at most `n` slots. -/
def Looks {α : Type} (f : Store → α) (s : Store) (n : Nat) : Prop :=
  ∃ R : List Nat, R.length ≤ n ∧ Dep R f s

theorem SameAt.mono {R R' : List Nat} {s s' : Store} (h : SameAt R s s') (hs : ∀ k ∈ R', k ∈ R) : SameAt R' s s' :=
  ⟨h.1, h.2.1, h.2.2.1, h.2.2.2.1, h.2.2.2.2.1, fun k hk => h.2.2.2.2.2 k (hs k hk)⟩

theorem Dep.mono {α : Type} {R R' : List Nat} {f : Store → α} {s : Store} (h : Dep R f s) (hs : ∀ k ∈ R, k ∈ R') :
    Dep R' f s := fun s' h' => h s' (h'.mono hs)

theorem SameAt.getD {R : List Nat} {s s' : Store} (h : SameAt R s s') {k : Nat} (hk : k = 0 ∨ k ∈ R) :
    s'.getD k = s.getD k := by
  obtain ⟨h1, h2, h3, h4, h5, h6⟩ := h
  have e : s'.data k = s.data k := by
    rcases hk with rfl | hk
    · exact h5
    · exact (h6 k hk).1
  simp only [Store.getD, h2, h4, e]

theorem SameAt.getI {R : List Nat} {s s' : Store} (h : SameAt R s s') {k : Nat} (hk : k = 0 ∨ k ∈ R) :
    s'.getI k = s.getI k := by
  obtain ⟨h1, h2, h3, h4, h5, h6⟩ := h
  unfold Store.getI
  rw [h3, h1]
  rcases hk with rfl | hk
  · rfl
  · rw [(h6 k hk).2]

theorem SameAt.node {R : List Nat} {s s' : Store} (h : SameAt R s s') (d : Side) {k : Nat} (hk : k = 0 ∨ k ∈ R) :
    s'.node d k = s.node d k := by
  simp only [Store.node, h.getD hk, h.getI hk]

theorem SameAt.iroot {R : List Nat} {s s' : Store} (h : SameAt R s s') (d : Side) {k : Nat} (hk : k = 0 ∨ k ∈ R) :
    s'.iroot d k = s.iroot d k := by
  simp only [Store.iroot, h.getI hk]

theorem SameAt.isUnused {R : List Nat} {s s' : Store} (h : SameAt R s s') {k : Nat} (hk : k = 0 ∨ k ∈ R) :
    Split.isUnused s' k = Split.isUnused s k := by
  simp only [Split.isUnused, h.getD hk, h.getI hk, h.1]

/-- Nothing is read of a slot beyond the last one. -/
theorem SameAt.isUnused_beyond {R : List Nat} {s s' : Store} (h : SameAt R s s') {k : Nat} (hk : s.hdr.allocated < k) :
    Split.isUnused s' k = Split.isUnused s k := by
  have : ¬ k ≤ s.hdr.allocated := by omega
  simp only [Split.isUnused, h.1, this, false_and, if_false]

theorem SameAt.getLink {R : List Nat} {s s' : Store} (h : SameAt R s s') {k : Nat} (hk : k = 0 ∨ k ∈ R) :
    Split.getLink c s' k = Split.getLink c s k := by
  simp only [Split.getLink, exists?, h.isUnused hk, getLinkUnchecked, h.getD hk, h.1]

/-- **C56**: reading a link by its index looks at one slot. -/
theorem C56_split_lookup (s : Store) (i : Nat) : Looks ((links c).getLink · i) s 1 :=
  ⟨[i], Nat.le_refl _, fun _ h => h.getLink (.inr (by simp))⟩

/-- **C56**: the number of all links is in the header. -/
theorem C56_split_count_all (s : Store) : Looks (links c).count s 0 := by
  refine ⟨[], Nat.le_refl _, fun s' h => ?_⟩
  simp only [Links.count, Links.countBy, links, countLinks, List.length_nil, if_true, total, h.1]

theorem size_le_count {s : Store} {free : List Nat} (hi : Inv c s free) {n : Nat}
    (hn : (links c).count s = some n) {t : Tree} (hd : t.toList.Nodup) (ht : ∀ k ∈ t.toList, LiveIn s free k) :
    t.size ≤ n := by
  have h1 : (links c).count s = some (liveList s free).length := total_eq hi.base
  rw [h1] at hn
  cases hn
  rw [Tree.size_eq_length]
  exact Unit.Props.length_le_of_subset hd fun k hk => mem_liveList.2 (ht k hk)

section
variable (hc : CfgOK c) {H n : Nat} (hb : ∀ t, c.trees.shape t → t.size ≤ n → t.height ≤ H) {s : Store}
  {free : List Nat} (hi : Inv c s free) (hn : (links c).count s = some n)
include hc hb hi hn

/-- The tree of the links with end `a`. -/
theorem int_tree (d : Side) {a : Nat} (h0 : a ≠ 0) :
    ∃ t, t.height ≤ H ∧ Rep (s.node d) s.data t (rootOf d (s.idx a)) ∧
      t.size < s.ilen + 1 ∧ (∀ k, k ∈ t.toList ↔ IntRef s free d k ∧ endOf d (s.data k) = a) ∧ t.toList.Nodup := by
  obtain ⟨ti, te, f1, f2, f3, f4, f5, f6, f7⟩ := hi.net.forest d
  obtain ⟨hrep, hsz⟩ := hi.net.tree_facts (f1 a h0) fun k hk => Or.inl ((f3 a k h0).1 hk).1
  have hlt := hi.base.alloc_lt
  refine ⟨ti a, ?_, hrep, by omega, fun k => f3 a k h0, (f1 a h0).nodup⟩
  exact hb _ (f1 a h0).shape (size_le_count hi hn (f1 a h0).nodup fun k hk => ((f3 a k h0).1 hk).1.1)

/-- The tree of the links with ends that are no links. -/
theorem ext_tree (d : Side) :
    ∃ t, t.height ≤ H ∧ Rep (s.node d) s.data t (hrootOf d s.hdr) ∧
      t.size < s.ilen + 1 ∧ (t.toList.Pairwise fun x y => endOf d (s.data x) ≤ endOf d (s.data y)) := by
  obtain ⟨ti, te, f1, f2, f3, f4, f5, f6, f7⟩ := hi.net.forest d
  obtain ⟨hrep, hsz⟩ := hi.net.tree_facts f2 fun k hk => Or.inr ((f4 k).1 hk)
  have hlt := hi.base.alloc_lt
  refine ⟨te, ?_, hrep, by omega, f2.ordered.imp fun {x y} hxy => by
    simp only [Store.cmpE, not_lt4] at hxy; omega⟩
  exact hb _ f2.shape (size_le_count hi hn f2.nodup fun k hk => ((f4 k).1 hk).1)

theorem intSearch_dep (d : Side) (x y : Nat) (h0 : endOf d (x, y) ≠ 0) (hl : endOf d (x, y) < s.ilen) :
    ∃ R, R.length ≤ H ∧ Dep (endOf d (x, y) :: R) (intSearch · d x y) s ∧
      ∀ k, intSearch s d x y = some k → k = 0 ∨ k ∈ R := by
  obtain ⟨t, h1, h2, -⟩ := int_tree hc hb hi hn d h0
  obtain ⟨R, l1, l2, l3⟩ := searchKey_touch (fun nd => keyOf d nd.pair) (keyOf d (x, y)) t _ (s.ilen + 1) h2
  refine ⟨R, by omega, fun s' h' => ?_, fun k hk => ?_⟩
  · have e1 := h'.iroot d (k := endOf d (x, y)) (.inr (by simp))
    have e2 := l2 (s'.node d) fun k hk => h'.node d (.inr (by simp [hk]))
    simp only at e2
    simp only [intSearch, e1, iroot_eq h0 hl, Option.bind_some, h'.2.2.1, e2]
  · simp only [intSearch, iroot_eq h0 hl, Option.bind_some] at hk
    exact l3 k hk

theorem extSearch_dep (x y : Nat) :
    ∃ R, R.length ≤ H ∧ Dep R (extSearch · x y) s ∧
      ∀ k, extSearch s x y = some k → k = 0 ∨ k ∈ R := by
  obtain ⟨t, h1, h2, -⟩ := ext_tree hc hb hi hn .src
  obtain ⟨R, l1, l2, l3⟩ := searchLoop_touch Unit.srcLt4 Unit.srcGt4 x y t _ (s.ilen + 1) h2
  refine ⟨R, by omega, fun s' h' => ?_, l3⟩
  have e2 := l2 (s'.node .src) fun k hk => h'.node .src (.inr hk)
  simp only [extSearch, h'.1, h'.2.2.1]
  exact e2

/-- The choice of tree looks at the root of each of the two trees. -/
theorem pairSearch_dep {x y : Nat} (hx0 : x ≠ 0) (hy0 : y ≠ 0) :
    ∃ R, R.length ≤ H + 2 ∧
      Dep (x :: y :: R) (pairSearch · (decide (¬ LiveIn s free x)) (decide (¬ LiveIn s free y)) x y) s ∧
      ∀ k, pairSearch s (decide (¬ LiveIn s free x)) (decide (¬ LiveIn s free y)) x y = some k → k = 0 ∨ k ∈ R := by
  by_cases hx : LiveIn s free x
  · obtain ⟨RS, s1, s2, s3⟩ := intSearch_dep hc hb hi hn .src x y hx0 (live_lt hi.base hx)
    by_cases hy : LiveIn s free y
    · obtain ⟨RT, t1, t2, t3⟩ := intSearch_dep hc hb hi hn .tgt x y hy0 (live_lt hi.base hy)
      have hcnt : ∀ (R : List Nat) (d : Side) {a : Nat}, a ≠ 0 → a < s.ilen → a ∈ R → rootOf d (s.idx a) ∈ R →
          Dep R (intCount · d a) s := by
        intro R d a h0 hl ha hr s' h'
        simp only [intCount, h'.iroot d (.inr ha), iroot_eq h0 hl, Option.bind_some, sizeOrZero, h'.node d (.inr hr)]
      obtain ⟨L1, _, c1, _⟩ := int_usages hi.net .src hx0 (live_lt hi.base hx)
      obtain ⟨L2, _, c2, _⟩ := int_usages hi.net .tgt hy0 (live_lt hi.base hy)
      have go : ∀ (f : Store → Option Nat) (R : List Nat), R.length ≤ H → Dep (x :: y :: R) f s →
          (∀ k, f s = some k → k = 0 ∨ k ∈ R) →
          (∀ s', pairSearch s' false false x y = (intCount s' .src x).bind fun a => (intCount s' .tgt y).bind fun b =>
            if a > b then intSearch s' .tgt x y else intSearch s' .src x y) →
          (∀ s', (if L1.length > L2.length then intSearch s' .tgt x y else intSearch s' .src x y) = f s') →
          ∃ R, R.length ≤ H + 2 ∧ Dep (x :: y :: R) (pairSearch · false false x y) s ∧
            ∀ k, pairSearch s false false x y = some k → k = 0 ∨ k ∈ R := by
        intro f R h1 h2 h3 h4 h5
        refine ⟨rootOf .src (s.idx x) :: rootOf .tgt (s.idx y) :: R, by simp only [List.length_cons]; omega,
          fun s' h' => ?_, fun k hk => ?_⟩
        · have e1 := hcnt _ .src hx0 (live_lt hi.base hx) (by simp) (by simp) s' h'
          have e2 := hcnt _ .tgt hy0 (live_lt hi.base hy) (by simp) (by simp) s' h'
          simp only at e1 e2
          simp only [h4, e1, e2, c1, c2, Option.bind_some, h5]
          exact h2 s' (h'.mono fun k hk => by
            simp only [List.mem_cons] at hk ⊢
            rcases hk with h | h | h <;> simp [h])
        · rw [h4, c1, c2] at hk
          simp only [Option.bind_some] at hk
          rw [h5] at hk
          rcases h3 k hk with h | h
          · exact .inl h
          · exact .inr (by simp [h])
      have h4 : ∀ s', pairSearch s' false false x y = (intCount s' .src x).bind fun a =>
          (intCount s' .tgt y).bind fun b => if a > b then intSearch s' .tgt x y else intSearch s' .src x y := by
        intro s'; simp only [pairSearch, Bool.and_self, Bool.false_eq_true, if_false]
      simp only [hx, hy, not_true_eq_false, decide_false]
      by_cases hgt : L1.length > L2.length
      · exact go (intSearch · .tgt x y) RT t1 (t2.mono fun k hk => by
          rcases List.mem_cons.1 hk with h | h
          · have : k = y := h
            simp [this]
          · simp [h]) t3 h4 fun s' => by rw [if_pos hgt]
      · exact go (intSearch · .src x y) RS s1 (s2.mono fun k hk => by
          rcases List.mem_cons.1 hk with h | h
          · have : k = x := h
            simp [this]
          · simp [h]) s3 h4 fun s' => by rw [if_neg hgt]
    · simp only [pairSearch, hx, hy, not_true_eq_false, decide_false, Bool.false_and,
        Bool.false_eq_true, if_false, not_false_eq_true, decide_true, if_true]
      exact ⟨RS, by omega, s2.mono (fun k hk => by
          rcases List.mem_cons.1 hk with h | h
          · have : k = x := h
            simp [this]
          · simp [h]), s3⟩
  · by_cases hy : LiveIn s free y
    · obtain ⟨RT, t1, t2, t3⟩ := intSearch_dep hc hb hi hn .tgt x y hy0 (live_lt hi.base hy)
      simp only [pairSearch, hx, hy, not_true_eq_false, decide_false, Bool.and_false,
        Bool.false_eq_true, if_false, not_false_eq_true, decide_true, if_true]
      exact ⟨RT, by omega, t2.mono (fun k hk => by
          rcases List.mem_cons.1 hk with h | h
          · have : k = y := h
            simp [this]
          · simp [h]), t3⟩
    · obtain ⟨R, l1, l2, l3⟩ := extSearch_dep hc hb hi hn x y
      simp only [pairSearch, hx, hy, not_false_eq_true, decide_true, Bool.and_self, if_true]
      exact ⟨R, by omega, l2.mono (fun k hk => by simp [hk]), l3⟩

theorem extCount_dep (d : Side) (v : Nat) :
    ∃ R, R.length ≤ 4 * H + 1 ∧ Dep R (extCount c · d v) s := by
  obtain ⟨t, h1, h2, -⟩ := ext_tree hc hb hi hn d
  obtain ⟨R, l1, l2⟩ := countUsages_touch c.maxT (fun nd => endOf d nd.pair) v t _ (s.ilen + 1) h2
  refine ⟨R, by omega, fun s' h' => ?_⟩
  have e2 := l2 (s'.node d) fun k hk => h'.node d (.inr hk)
  simp only at e2
  simp only [extCount, h'.1, h'.2.2.1, e2]

theorem intCount_dep (d : Side) {a : Nat} (h0 : a ≠ 0) (hl : a < s.ilen) :
    ∃ R, R.length ≤ 1 ∧ Dep (a :: R) (intCount · d a) s := by
  refine ⟨[rootOf d (s.idx a)], Nat.le_refl _, fun s' h' => ?_⟩
  simp only [intCount, h'.iroot d (k := a) (.inr (by simp)), iroot_eq h0 hl, Option.bind_some, sizeOrZero,
    h'.node d (k := rootOf d (s.idx a)) (.inr (by simp))]

theorem intEach_dep (d : Side) {a : Nat} (h0 : a ≠ 0) (hl : a < s.ilen) :
    ∃ (R : List Nat) (L : List Nat), R.length ≤ L.length + 2 * H ∧
      (∀ (σ : Type) (hd : RH σ) (st : σ), intEach s d a hd st = some (runH hd (L.map s.linkAt) st)) ∧
      ∀ (σ : Type) (hd : RH σ) (st : σ), Dep (a :: R) (intEach · d a hd st) s := by
  obtain ⟨t, h1, h2, h3, h4, h5⟩ := int_tree hc hb hi hn d h0
  cases d with
  | src =>
    refine ⟨t.toList, t.toList, by omega, fun σ hd st => ?_, fun σ hd st s' h' => ?_⟩
    · simp only [intEach, iroot_eq h0 hl, Option.bind_some]
      exact eachInorder_eq hd _ _ _ st h2 (by omega)
    · have e2 := eachInorder_touch hd t _ (s.ilen + 1) st h2 (s'.node .src) fun k hk => h'.node .src (.inr (by simp [hk]))
      simp only at e2
      simp only [intEach, h'.iroot .src (k := a) (.inr (by simp)), iroot_eq h0 hl, Option.bind_some, h'.2.2.1, e2]
  | tgt =>
    have hend : ∀ k ∈ t.toList, (s.data k).2 = a := fun k hk => ((h4 k).1 hk).2
    have hord : t.toList.Pairwise fun x y => (s.data x).2 ≤ (s.data y).2 :=
      h5.imp_of_mem fun {x y} hx hy _ => by rw [hend x hx, hend y hy]; exact Nat.le_refl _
    refine ⟨touched (fun k => (s.data k).2) a t, walk (fun k => (s.data k).2) a t, ?_, fun σ hd st => ?_,
      fun σ hd st s' h' => ?_⟩
    · have := (touched_le (fun k => (s.data k).2) a t hord).1; omega
    · simp only [intEach, iroot_eq h0 hl, Option.bind_some]
      exact eachUsages_eq (f := fun k => (s.data k).2) (lk := s.data)
        (fun nd k e => congrArg Prod.snd e) hd a _ _ _ st h2 (by omega)
    · have e2 := eachUsages_touch (f := fun k => (s.data k).2) (lk := s.data) (base := Node.target)
        (fun nd k e => congrArg Prod.snd e) hd a t _ (s.ilen + 1) st h2 (s'.node .tgt)
        fun k hk => h'.node .tgt (.inr (by simp [hk]))
      simp only at e2
      simp only [intEach, h'.iroot .tgt (k := a) (.inr (by simp)), iroot_eq h0 hl, Option.bind_some, h'.2.2.1, e2]

theorem extEach_dep (d : Side) (v : Nat) :
    ∃ (R : List Nat) (L : List Nat), R.length ≤ L.length + 2 * H ∧
      (∀ (σ : Type) (hd : RH σ) (st : σ), extEach s d v hd st = some (runH hd (L.map s.linkAt) st)) ∧
      ∀ (σ : Type) (hd : RH σ) (st : σ), Dep R (extEach · d v hd st) s := by
  obtain ⟨t, h1, h2, h3, h4⟩ := ext_tree hc hb hi hn d
  have hf : ∀ (nd : Node) k, (nd.source, nd.target) = s.data k → endOf d nd.pair = endOf d (s.data k) :=
    fun nd k e => congrArg (endOf d) e
  refine ⟨touched (fun k => endOf d (s.data k)) v t, walk (fun k => endOf d (s.data k)) v t, ?_, fun σ hd st => ?_,
    fun σ hd st s' h' => ?_⟩
  · have := (touched_le (fun k => endOf d (s.data k)) v t h4).1; omega
  · exact eachUsages_eq (f := fun k => endOf d (s.data k)) (lk := s.data) hf hd v t _ _ st h2 (by omega)
  · have e2 := eachUsages_touch (f := fun k => endOf d (s.data k)) (lk := s.data) hf hd v t _ (s.ilen + 1) st h2
      (s'.node d) fun k hk => h'.node d (.inr hk)
    simp only at e2
    simp only [extEach, h'.1, h'.2.2.1, e2]

end

/-- **C56**: if no tree of `n` or fewer nodes has more than `H` levels, looking for the link with two given ends in a store of `n`
links looks at no more than `H + 4` slots, and counting such links at no more than `4 * H + 4`. -/
theorem C56_split_search_levels (hc : CfgOK c) {H n : Nat} (hb : ∀ t, c.trees.shape t → t.size ≤ n → t.height ≤ H)
    {s : Store} (h : Reach c s) (hn : (links c).count s = some n) {x y : Nat} (hx : x ≠ c.consts.any) (hy : y ≠ c.consts.any)
    (hx0 : x ≠ 0) (hy0 : y ≠ 0) :
    Looks (fun s => (links c).search s x y) s (H + 4) ∧
    Looks (fun s => (links c).countBy s [c.consts.any, x, y]) s (4 * H + 4) := by
  obtain ⟨free, hi⟩ := reach_good hc h
  obtain ⟨R, l1, l2, l3⟩ := pairSearch_dep hc hb hi hn hx0 hy0
  obtain ⟨R', m1, m2⟩ := extCount_dep hc hb hi hn .src x
  have ux := hi.net.unused hx0 (hi.exact x)
  have uy := hi.net.unused hy0 (hi.exact y)
  constructor
  · refine ⟨x :: y :: R, by simp only [List.length_cons]; omega, fun s' h' => ?_⟩
    have e2 : ∀ {σ : Type} (hd : RH σ) (st : σ), (links c).eachLinks s' [c.consts.any, x, y] hd st =
        (links c).eachLinks s [c.consts.any, x, y] hd st := by
      intro σ hd st
      have e := l2 s' h'
      simp only at e
      simp only [links, eachLinks, hc.index_eq, hc.source_eq, hc.target_eq, each3, List.length_cons,
        List.length_nil, List.getElem?_cons_zero, List.getElem?_cons_succ, Option.bind_some, if_true, hx, hy,
        false_and, if_false, h'.isUnused (k := x) (.inr (by simp)), h'.isUnused (k := y) (.inr (by simp)), ux, uy,
        Nat.reduceAdd, Nat.reduceEqDiff, e]
      cases hs : pairSearch s (decide (¬ LiveIn s free x)) (decide (¬ LiveIn s free y)) x y with
      | none => rfl
      | some k =>
        have hk : k = 0 ∨ k ∈ x :: y :: R := (l3 k hs).imp id fun h => by simp [h]
        simp only [Option.bind_some, h'.getLink hk]
    simp only [Links.search, Links.find, Links.eachBy]
    rw [show (links c).consts s' = c.consts from rfl, show (links c).consts s = c.consts from rfl, e2]
  · by_cases hl : LiveIn s free x
    · refine ⟨x :: y :: R, by simp only [List.length_cons]; omega, fun s' h' => ?_⟩
      have e := l2 s' h'
      simp only [hl, not_true_eq_false, decide_false] at e
      simp only [Links.countBy, links, countLinks, hc.index_eq, hc.source_eq, hc.target_eq, count3, List.length_cons,
        List.length_nil, List.getElem?_cons_zero, List.getElem?_cons_succ, Option.bind_some, if_true, hx, hy,
        false_and, if_false, h'.isUnused (k := x) (.inr (by simp)), h'.isUnused (k := y) (.inr (by simp)), ux, uy,
        Nat.reduceAdd, Nat.reduceEqDiff, hl, not_true_eq_false, decide_false, Bool.false_eq_true, e]
    · refine ⟨x :: y :: R', by simp only [List.length_cons]; omega, fun s' h' => ?_⟩
      have e := m2 s' (h'.mono fun k hk => by simp [hk])
      simp only at e
      simp only [Links.countBy, links, countLinks, hc.index_eq, hc.source_eq, hc.target_eq, count3, List.length_cons,
        List.length_nil, List.getElem?_cons_zero, List.getElem?_cons_succ, Option.bind_some, if_true, hx, hy,
        false_and, if_false, h'.isUnused (k := x) (.inr (by simp)), h'.isUnused (k := y) (.inr (by simp)), ux, uy,
        Nat.reduceAdd, Nat.reduceEqDiff, hl, not_false_eq_true, decide_true, e]

/-- **C56**: if the trees are size-balanced, looking for the link with two given ends looks at no more slots than twice
the logarithm of the number of links and four more, and so does counting such links, with four times as many. -/
theorem C56_split_search (hc : CfgOK c) (hb : ∀ t, c.trees.shape t → t.SizeBalanced) {s : Store} (h : Reach c s)
    {n : Nat} (hn : (links c).count s = some n) {x y : Nat} (hx : x ≠ c.consts.any) (hy : y ≠ c.consts.any)
    (hx0 : x ≠ 0) (hy0 : y ≠ 0) :
    Looks (fun s => (links c).search s x y) s (2 * Nat.log2 (n + 1) + 4) ∧
    Looks (fun s => (links c).countBy s [c.consts.any, x, y]) s (8 * Nat.log2 (n + 1) + 4) := by
  obtain ⟨h1, h2⟩ := C56_split_search_levels hc (fun t h1 h2 => (hb t h1).height_le h2) h hn hx hy hx0 hy0
  exact ⟨h1, by rwa [← Nat.mul_assoc] at h2⟩

/-- Both sides at once. -/
theorem side_looks (hc : CfgOK c) {H n : Nat} (hb : ∀ t, c.trees.shape t → t.size ≤ n → t.height ≤ H)
    {s : Store} (h : Reach c s) (hn : (links c).count s = some n) (d : Side) {x : Nat} (hx : x ≠ c.consts.any) (hx0 : x ≠ 0) :
    Looks (fun s => (links c).countBy s (sideQuery c d x)) s (4 * H + 2) ∧
    ∃ L, (links c).Visits s (sideQuery c d x) L ∧
      ∀ (σ ρ : Type) (hd : σ → Link → Ctl ρ × σ) (st : σ),
        Looks (fun s => (links c).eachBy s (sideQuery c d x) hd st) s (L.length + 2 * H + 1) := by
  obtain ⟨free, hi⟩ := reach_good hc h
  have ux := hi.net.unused hx0 (hi.exact x)
  have hany : s.hdr.allocated < c.consts.any := by
    have := hi.base.alloc_le; have := hc.end_lt_any; omega
  have ua : isUnused s c.consts.any = some true := by
    have : ¬ c.consts.any ≤ s.hdr.allocated := by omega
    simp only [isUnused, this, false_and, if_false]
  -- what the two kinds of query come to
  have hcnt : ∀ s' R, SameAt (x :: R) s s' → countLinks c s' (sideQuery c d x) =
      if LiveIn s free x then intCount s' d x else extCount c s' d x := by
    intro s' R h'
    have e1 := (h'.isUnused (k := x) (.inr (by simp))).trans ux
    have e2 := (h'.isUnused_beyond hany).trans ua
    by_cases hl : LiveIn s free x <;> cases d <;>
      simp [sideQuery, countLinks, count3, hc.index_eq, hc.source_eq, hc.target_eq, e1, e2, hl, hx]
  have heach : ∀ s' R, SameAt (x :: R) s s' → ∀ {σ : Type} (hd : RH σ) (st : σ),
      eachLinks c s' (sideQuery c d x) hd st =
      if LiveIn s free x then intEach s' d x hd st else extEach s' d x hd st := by
    intro s' R h' σ hd st
    have e1 := (h'.isUnused (k := x) (.inr (by simp))).trans ux
    have e2 := (h'.isUnused_beyond hany).trans ua
    by_cases hl : LiveIn s free x <;> cases d <;>
      simp [sideQuery, eachLinks, each3, hc.index_eq, hc.source_eq, hc.target_eq, e1, e2, hl, hx]
  have refl : ∀ R, SameAt R s s := fun R => ⟨rfl, rfl, rfl, rfl, rfl, fun _ _ => ⟨rfl, rfl⟩⟩
  constructor
  · by_cases hl : LiveIn s free x
    · obtain ⟨R, l1, l2⟩ := intCount_dep hc hb hi hn d hx0 (live_lt hi.base hl)
      refine ⟨x :: R, by simp only [List.length_cons]; omega, fun s' h' => ?_⟩
      simp only [Links.countBy, links]
      rw [hcnt s' R h', hcnt s R (refl _), if_pos hl, if_pos hl]
      exact l2 s' h'
    · obtain ⟨R, l1, l2⟩ := extCount_dep hc hb hi hn d x
      refine ⟨x :: R, by simp only [List.length_cons]; omega, fun s' h' => ?_⟩
      simp only [Links.countBy, links]
      rw [hcnt s' R h', hcnt s R (refl _), if_neg hl, if_neg hl]
      exact l2 s' (h'.mono fun k hk => by simp [hk])
  · by_cases hl : LiveIn s free x
    · obtain ⟨R, L, l1, l2, l3⟩ := intEach_dep hc hb hi hn d hx0 (live_lt hi.base hl)
      refine ⟨L.map s.linkAt, ?_, fun σ ρ hd st => ⟨x :: R, by simp only [List.length_cons, List.length_map]; omega,
        fun s' h' => ?_⟩⟩
      · intro σ hd st
        have e := heach s [] (refl _) hd st
        rw [if_pos hl, l2] at e
        exact e
      · simp only [Links.eachBy, links]
        rw [heach s' R h', heach s R (refl _), if_pos hl, if_pos hl]
        exact congrArg _ (l3 _ _ _ s' h')
    · obtain ⟨R, L, l1, l2, l3⟩ := extEach_dep hc hb hi hn d x
      refine ⟨L.map s.linkAt, ?_, fun σ ρ hd st => ⟨x :: R, by simp only [List.length_cons, List.length_map]; omega,
        fun s' h' => ?_⟩⟩
      · intro σ hd st
        have e := heach s [] (refl _) hd st
        rw [if_neg hl, l2] at e
        exact e
      · simp only [Links.eachBy, links]
        rw [heach s' R h', heach s R (refl _), if_neg hl, if_neg hl]
        exact congrArg _ (l3 _ _ _ s' (h'.mono fun k hk => by simp [hk]))

/-- **C56**: if no tree of `n` or fewer nodes has more than `H` levels, counting the links with a given source in a store of `n` links
looks at no more than `4 * H + 2` slots, and traversing them, with any handler, at no more than `2 * H + 1` besides the visited links. -/
theorem C56_split_by_source_levels (hc : CfgOK c) {H n : Nat} (hb : ∀ t, c.trees.shape t → t.size ≤ n → t.height ≤ H)
    {s : Store} (h : Reach c s) (hn : (links c).count s = some n) {x : Nat} (hx : x ≠ c.consts.any) (hx0 : x ≠ 0) :
    Looks (fun s => (links c).countBy s [c.consts.any, x, c.consts.any]) s (4 * H + 2) ∧
    ∃ L, (links c).Visits s [c.consts.any, x, c.consts.any] L ∧
      ∀ (σ ρ : Type) (hd : σ → Link → Ctl ρ × σ) (st : σ),
        Looks (fun s => (links c).eachBy s [c.consts.any, x, c.consts.any] hd st) s
          (L.length + 2 * H + 1) :=
  side_looks hc hb h hn .src hx hx0

/-- **C56**: if no tree of `n` or fewer nodes has more than `H` levels, counting the links with a given target in a store of `n` links
looks at no more than `4 * H + 2` slots, and traversing them, with any handler, at no more than `2 * H + 1` besides the visited links. -/
theorem C56_split_by_target_levels (hc : CfgOK c) {H n : Nat} (hb : ∀ t, c.trees.shape t → t.size ≤ n → t.height ≤ H)
    {s : Store} (h : Reach c s) (hn : (links c).count s = some n) {x : Nat} (hx : x ≠ c.consts.any) (hx0 : x ≠ 0) :
    Looks (fun s => (links c).countBy s [c.consts.any, c.consts.any, x]) s (4 * H + 2) ∧
    ∃ L, (links c).Visits s [c.consts.any, c.consts.any, x] L ∧
      ∀ (σ ρ : Type) (hd : σ → Link → Ctl ρ × σ) (st : σ),
        Looks (fun s => (links c).eachBy s [c.consts.any, c.consts.any, x] hd st) s
          (L.length + 2 * H + 1) :=
  side_looks hc hb h hn .tgt hx hx0

/-- **C56**: if the trees are size-balanced, counting the links with a given source looks at no more than a multiple of
the logarithm of the number of links, and traversing them, with any handler, at that many slots besides the visited
links. -/
theorem C56_split_by_source (hc : CfgOK c) (hb : ∀ t, c.trees.shape t → t.SizeBalanced) {s : Store} (h : Reach c s)
    {n : Nat} (hn : (links c).count s = some n) {x : Nat} (hx : x ≠ c.consts.any) (hx0 : x ≠ 0) :
    Looks (fun s => (links c).countBy s [c.consts.any, x, c.consts.any]) s (8 * Nat.log2 (n + 1) + 2) ∧
    ∃ L, (links c).Visits s [c.consts.any, x, c.consts.any] L ∧
      ∀ (σ ρ : Type) (hd : σ → Link → Ctl ρ × σ) (st : σ),
        Looks (fun s => (links c).eachBy s [c.consts.any, x, c.consts.any] hd st) s
          (L.length + 4 * Nat.log2 (n + 1) + 1) :=
  by
  have := C56_split_by_source_levels hc (fun t h1 h2 => (hb t h1).height_le h2) h hn hx hx0
  simpa only [← Nat.mul_assoc, Nat.reduceMul] using this

/-- **C56**: the same for the links with a given target. -/
theorem C56_split_by_target (hc : CfgOK c) (hb : ∀ t, c.trees.shape t → t.SizeBalanced) {s : Store} (h : Reach c s)
    {n : Nat} (hn : (links c).count s = some n) {x : Nat} (hx : x ≠ c.consts.any) (hx0 : x ≠ 0) :
    Looks (fun s => (links c).countBy s [c.consts.any, c.consts.any, x]) s (8 * Nat.log2 (n + 1) + 2) ∧
    ∃ L, (links c).Visits s [c.consts.any, c.consts.any, x] L ∧
      ∀ (σ ρ : Type) (hd : σ → Link → Ctl ρ × σ) (st : σ),
        Looks (fun s => (links c).eachBy s [c.consts.any, c.consts.any, x] hd st) s
          (L.length + 4 * Nat.log2 (n + 1) + 1) :=
  by
  have := C56_split_by_target_levels hc (fun t h1 h2 => (hb t h1).height_le h2) h hn hx hx0
  simpa only [← Nat.mul_assoc, Nat.reduceMul] using this

/-! ### A concrete case: size-balanced trees and more links than the bounds -/

/-- `cfg0` with the size-balanced reference trees. -/
def cfgBal : Cfg := { cfg0 with trees := Ref.balanced }

theorem cfgBal_ok : CfgOK cfgBal where
  null_eq := rfl
  index_eq := rfl
  source_eq := rfl
  target_eq := rfl
  start_eq := rfl
  end_lt_any := by decide
  end_le := by decide
  step_pos := by decide
  trees := Ref.balanced_lawful
  dalloc_eq := cfg0_ok.dalloc_eq
  ialloc_eq := cfg0_ok.ialloc_eq

theorem cfgBal_balanced : ∀ t, cfgBal.trees.shape t → t.SizeBalanced := fun _ h => h

/-- Links 1 to 20, where `i` goes from `i / 2 + 1` to `i % 2 + 1`. -/
def bigNet : List Call :=
  (List.range 20).map (fun _ => Call.create) ++
    (List.range 20).map fun i => Call.update (i + 1) ((i + 1) / 2 + 1) ((i + 1) % 2 + 1)

def sBig : Store := runs cfgBal bigNet

theorem sBig_reach : Reach cfgBal sBig := by
  have h : (exec cfgBal bigNet (store0 cfgBal)).isSome = true := by decide +kernel
  obtain ⟨r, hr⟩ := Option.isSome_iff_exists.1 h
  have h1 : sBig = r.1 := by simp [sBig, runs, hr]
  have h0 : History cfgBal (store0 cfgBal) [] :=
    .fresh (c := cfgBal) cfgBal.dalloc cfgBal.ialloc cfgBal_ok.dalloc_eq cfgBal_ok.ialloc_eq rfl
  rw [h1]
  exact (exec_history cfgBal_ok (fun s _ => by simp [cfgBal, cfg0]) bigNet h0 hr).reach cfgBal_ok

theorem sBig_count : (links cfgBal).count sBig = some 20 := by decide +kernel

/-- 20 links: looking for a pair looks at no more than 12 slots. -/
example : Looks (fun s => (links cfgBal).search s 4 1) sBig 12 ∧ (links cfgBal).search sBig 4 1 = some (some 6) :=
  ⟨(C56_split_search cfgBal_ok cfgBal_balanced sBig_reach sBig_count (by decide) (by decide) (by decide)
    (by decide)).1, by decide +kernel⟩

/-- Traversing the links with source 4 looks at no more than 17 slots besides the two visited links. -/
example : ∃ L, (links cfgBal).Visits sBig [252, 4, 252] L ∧
    ∀ (σ ρ : Type) (hd : σ → Link → Ctl ρ × σ) (st : σ),
      Looks (fun s => (links cfgBal).eachBy s [252, 4, 252] hd st) sBig (L.length + 17) :=
  (C56_split_by_source cfgBal_ok cfgBal_balanced sBig_reach sBig_count (x := 4) (by decide) (by decide)).2

example : (links cfgBal).countBy sBig [252, 4, 252] = some 2 := by decide +kernel

/-- The same for the ten links with target 2. -/
example : ∃ L, (links cfgBal).Visits sBig [252, 252, 2] L ∧
    ∀ (σ ρ : Type) (hd : σ → Link → Ctl ρ × σ) (st : σ),
      Looks (fun s => (links cfgBal).eachBy s [252, 252, 2] hd st) sBig (L.length + 17) :=
  (C56_split_by_target cfgBal_ok cfgBal_balanced sBig_reach sBig_count (x := 2) (by decide) (by decide)).2

example : (links cfgBal).countBy sBig [252, 252, 2] = some 10 := by decide +kernel

/-- The trees of this crate have at most 8 levels if they have at most 20 nodes: the bounds by levels apply. -/
example : Looks (fun s => (links cfgBal).search s 4 1) sBig 12 ∧
    Looks (fun s => (links cfgBal).countBy s [252, 4, 252]) sBig 34 ∧
    Looks (fun s => (links cfgBal).countBy s [252, 252, 2]) sBig 34 :=
  have hb : ∀ t, cfgBal.trees.shape t → t.size ≤ 20 → t.height ≤ 8 := fun t h hn => (cfgBal_balanced t h).height_le hn
  ⟨(C56_split_search_levels cfgBal_ok hb sBig_reach sBig_count (by decide) (by decide) (by decide) (by decide)).1,
   (C56_split_by_source_levels cfgBal_ok hb sBig_reach sBig_count (x := 4) (by decide) (by decide)).1,
   (C56_split_by_target_levels cfgBal_ok hb sBig_reach sBig_count (x := 2) (by decide) (by decide)).1⟩

end Verif.Split.Props
