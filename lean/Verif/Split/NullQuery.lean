import Verif.Split.Query

/-!
# Queries of the split store for the null link (helper lemmas)

With an unused index below a link, link 0 counts as existing and the header is read as its index part: the number of slots as
the root of its sources, the root of the dangling sources as the root of its targets.
-/

namespace Verif.Split
open Verif

variable {c : Cfg}

theorem Rep.sub {get : Nat → Option Node} {lk : Nat → Nat × Nat} {k : Nat} : ∀ (t : Tree) (r : Nat), Rep get lk t r →
    k ∈ t.toList → ∃ t', Rep get lk t' k ∧ t'.toList.Sublist t.toList ∧ k ∈ t'.toList ∧ t'.size ≤ t.size
  | .leaf, _, _, h => by simp [Tree.toList] at h
  | .node a x b, r, hr, h => by
    obtain ⟨e, h0, nd, h1, h2, h3, h4, h5⟩ := hr
    simp only [Tree.toList, List.mem_append, List.mem_cons] at h
    rcases h with h | rfl | h
    · obtain ⟨t', g1, g2, g3, g4⟩ := Rep.sub a _ h3 h
      exact ⟨t', g1, g2.trans (by simp [Tree.toList]), g3, by simp only [Tree.size]; omega⟩
    · exact ⟨.node a k b, ⟨rfl, h0, nd, h1, h2, h3, h4, h5⟩, List.Sublist.refl _, by simp [Tree.toList], Nat.le_refl _⟩
    · obtain ⟨t', g1, g2, g3, g4⟩ := Rep.sub b _ h4 h
      exact ⟨t', g1, g2.trans (by simp only [Tree.toList]; exact (List.sublist_cons_self ..).trans (List.sublist_append_right ..)),
        g3, by simp only [Tree.size]; omega⟩

/-- The part of a tree below a link that has an end. -/
theorem sub_facts {s : Store} {free : List Nat} (h : Inv0 c s free) (d : Side) {k : Nat} (hk : LiveIn s free k)
    (he : endOf d (s.data k) ≠ 0) :
    ∃ t, Rep (s.node d) s.data t k ∧ k ∈ t.toList ∧ t.toList.Nodup ∧ t.size ≤ s.hdr.allocated ∧
      ∀ j ∈ t.toList, LiveIn s free j ∧ endOf d (s.data j) ≠ 0 := by
  have hn := h.net
  obtain ⟨ti, te, f1, f2, f3, f4, f5, f6, f7⟩ := h.forest d
  by_cases hi : LiveIn s free (endOf d (s.data k))
  · obtain ⟨hrep, hsz⟩ := hn.tree_facts (f1 _ he) fun k hk => Or.inl ((f3 _ k he).1 hk).1
    obtain ⟨t, g1, g2, g3, g4⟩ := Rep.sub _ _ hrep ((f3 _ k he).2 ⟨⟨hk, he, hi⟩, rfl⟩)
    refine ⟨t, g1, g3, (f1 _ he).nodup.sublist g2, by omega, fun j hj => ?_⟩
    have := ((f3 _ j he).1 (g2.subset hj)).1
    exact ⟨this.1, this.2.1⟩
  · obtain ⟨hrep, hsz⟩ := hn.tree_facts f2 fun k hk => Or.inr ((f4 k).1 hk)
    obtain ⟨t, g1, g2, g3, g4⟩ := Rep.sub _ _ hrep ((f4 k).2 ⟨hk, he, hi⟩)
    refine ⟨t, g1, g3, f2.nodup.sublist g2, by omega, fun j hj => ?_⟩
    have := (f4 j).1 (g2.subset hj)
    exact ⟨this.1, this.2.1⟩

/-- The index part of a link without an end. -/
theorem cleared_node {s : Store} {free : List Nat} (h : Inv0 c s free) (d : Side) {k : Nat} (hk : LiveIn s free k)
    (he : endOf d (s.data k) = 0) : s.node d k = some ⟨(s.data k).1, (s.data k).2, 0, 0, 0⟩ := by
  obtain ⟨ti, te, f1, f2, f3, f4, f5, f6, f7⟩ := h.forest d
  have h0 : k ≠ 0 := by have := hk.1; omega
  have := f7 k h0 (fun x => x.2.1 he) (fun x => x.2.1 he)
  rw [node_eq h.base h0 (live_lt h.base hk), this]

/-- Search from any node of the store returns. -/
theorem searchKey_total {get : Nat → Option Node} {lk : Nat → Nat × Nat} {key : Node → Nat}
    {f : Nat → Nat} (hf : ∀ nd k, (nd.source, nd.target) = lk k → key nd = f k) (x : Nat) :
    ∀ (t : Tree) (r fuel : Nat), Rep get lk t r → t.size < fuel →
      ∃ k, searchKey get key x fuel r = some k ∧ (k = 0 ∨ (k ∈ t.toList ∧ f k = x))
  | .leaf, r, fuel, hr, hfu => by
    obtain ⟨fuel, rfl⟩ : ∃ n, fuel = n + 1 := ⟨fuel - 1, by omega⟩
    have : r = 0 := hr
    exact ⟨0, by simp [searchKey, this], .inl rfl⟩
  | .node a k b, r, fuel, hr, hfu => by
    obtain ⟨fuel, rfl⟩ : ∃ n, fuel = n + 1 := ⟨fuel - 1, by omega⟩
    obtain ⟨rfl, h0, nd, h1, h2, h3, h4, h5⟩ := hr
    simp only [Tree.size] at hfu
    simp only [searchKey, h0, if_false, h1, hf nd r h2]
    by_cases c1 : x < f r
    · obtain ⟨j, e1, e2⟩ := searchKey_total hf x a _ fuel h3 (by omega)
      refine ⟨j, by simp [c1, e1], e2.imp id fun y => ⟨?_, y.2⟩⟩
      simp [Tree.toList, y.1]
    · by_cases c2 : x > f r
      · obtain ⟨j, e1, e2⟩ := searchKey_total hf x b _ fuel h4 (by omega)
        refine ⟨j, by simp [c1, c2, e1], e2.imp id fun y => ⟨?_, y.2⟩⟩
        simp [Tree.toList, y.1]
      · exact ⟨r, by simp [c1, c2], .inr ⟨by simp [Tree.toList], by omega⟩⟩

theorem searchKey_live {s : Store} {free : List Nat} (h : Inv0 c s free) (d : Side) (x : Nat) {r : Nat}
    (hr : r = 0 ∨ LiveIn s free r) :
    ∃ k, searchKey (s.node d) (fun nd => keyOf d nd.pair) x (s.ilen + 1) r = some k ∧
      (k = 0 ∨ LiveIn s free k ∧ keyOf d (s.data k) = x) := by
  have hlt := h.base.alloc_lt
  rcases hr with rfl | hr
  · exact ⟨0, by simp [searchKey], .inl rfl⟩
  · by_cases he : endOf d (s.data r) = 0
    · have hn := cleared_node h d hr he
      have h0 : r ≠ 0 := by have := hr.1; omega
      obtain ⟨n, hn1⟩ : ∃ n, s.ilen = n + 1 := ⟨s.ilen - 1, by omega⟩
      have hp : (⟨(s.data r).1, (s.data r).2, 0, 0, 0⟩ : Node).pair = s.data r := rfl
      simp only [hn1, searchKey, h0, if_false, hn, hp, if_true]
      by_cases c1 : x < keyOf d (s.data r)
      · exact ⟨0, by simp [c1], .inl rfl⟩
      · by_cases c2 : x > keyOf d (s.data r)
        · exact ⟨0, by simp [c1, c2], .inl rfl⟩
        · exact ⟨r, by simp [c1, c2], .inr ⟨hr, by omega⟩⟩
    · obtain ⟨t, g1, -, -, g4, g5⟩ := sub_facts h d hr he
      obtain ⟨k, e1, e2⟩ := searchKey_total (key := fun nd => keyOf d nd.pair)
        (f := fun k => keyOf d (s.data k)) (fun nd k e => congrArg (keyOf d) e) x t r (s.ilen + 1) g1 (by omega)
      exact ⟨k, e1, e2.imp id fun y => ⟨(g5 k y.1).1, y.2⟩⟩

/-- Search from a link that is not the root of its tree. -/
theorem searchKey_from {s : Store} {free : List Nat} (h : Inv0 c s free) (d : Side) (x : Nat) {r : Nat}
    (hr : LiveIn s free r) :
    ∃ k, searchKey (s.node d) (fun nd => keyOf d nd.pair) x (s.ilen + 1) r = some k ∧
      (k = 0 ∨ LiveIn s free k ∧ keyOf d (s.data k) = x) ∧
      (endOf d (s.data r) = 0 → k = if keyOf d (s.data r) = x then r else 0) ∧
      (endOf d (s.data r) ≠ 0 → k ≠ 0 → endOf d (s.data k) ≠ 0) := by
  have hlt := h.base.alloc_lt
  by_cases he : endOf d (s.data r) = 0
  · have hn := cleared_node h d hr he
    have h0 : r ≠ 0 := by have := hr.1; omega
    obtain ⟨n, hn1⟩ : ∃ n, s.ilen = n + 1 := ⟨s.ilen - 1, by omega⟩
    have hp : (⟨(s.data r).1, (s.data r).2, 0, 0, 0⟩ : Node).pair = s.data r := rfl
    simp only [hn1, searchKey, h0, if_false, hn, hp, if_true]
    by_cases c1 : x < keyOf d (s.data r)
    · exact ⟨0, by simp [c1], .inl rfl, fun _ => by rw [if_neg (by omega)], fun hh => absurd he hh⟩
    · by_cases c2 : x > keyOf d (s.data r)
      · exact ⟨0, by simp [c1, c2], .inl rfl, fun _ => by rw [if_neg (by omega)], fun hh => absurd he hh⟩
      · exact ⟨r, by simp [c1, c2], .inr ⟨hr, by omega⟩, fun _ => by rw [if_pos (by omega)], fun hh => absurd he hh⟩
  · obtain ⟨t, g1, -, -, g4, g5⟩ := sub_facts h d hr he
    obtain ⟨k, e1, e2⟩ := searchKey_total (key := fun nd => keyOf d nd.pair)
      (f := fun k => keyOf d (s.data k)) (fun nd k e => congrArg (keyOf d) e) x t r (s.ilen + 1) g1 (by omega)
    exact ⟨k, e1, e2.imp id fun y => ⟨(g5 k y.1).1, y.2⟩, fun hh => absurd hh he,
      fun _ h0 => (g5 k (e2.resolve_left h0).1).2⟩

/-- Link 0 exists, for the code, exactly when some index is free. -/
theorem isUnused_null {s : Store} {free : List Nat} (h : Base c s free) : isUnused s 0 = some (decide (free = [])) := by
  have hf : s.hdr.firstFree = free.headD 0 := h.list.first_eq
  have hlt := h.alloc_lt
  unfold isUnused
  cases free with
  | nil => rw [if_neg (fun hh => hh.2 (by simpa using hf))]; rfl
  | cons x rest =>
    have hx := h.list.nonzero x (by simp)
    rw [if_pos ⟨by omega, by rw [hf]; simpa using hx⟩]
    simp [Store.getI, Store.getD, h.fresh, h.len_eq, show 0 < s.ilen by omega, h.data0.1]

theorem iroot_null {s : Store} {free : List Nat} (h : Base c s free) :
    s.iroot .src 0 = some s.hdr.allocated ∧ s.iroot .tgt 0 = some s.hdr.rootS := by
  have hlt := h.alloc_lt
  simp [Store.iroot, Store.getI, show 0 < s.ilen by omega, asPart, rootOf]

theorem top_live {s : Store} {free : List Nat} (h : Inv c s free) (hf : free ≠ []) : LiveIn s free s.hdr.allocated := by
  obtain ⟨x, hx⟩ := List.exists_mem_of_ne_nil _ hf
  have := h.free_lt x hx
  exact ⟨by omega, Nat.le_refl _, fun hm => by have := h.free_lt _ hm; omega⟩

theorem rootS_cases {s : Store} {free : List Nat} (h : Inv0 c s free) :
    s.hdr.rootS = 0 ∨ (LiveIn s free s.hdr.rootS ∧ (s.data s.hdr.rootS).2 ≠ 0) := by
  obtain ⟨ti, te, f1, f2, f3, f4, f5, f6, f7⟩ := h.forest .src
  have hh := f2.holds
  cases te with
  | leaf => exact .inl hh
  | node a k b =>
    have hr : s.hdr.rootS = k := hh.1
    have := (f4 k).1 (by simp [Tree.toList])
    rw [hr]
    exact .inr ⟨this.1, h.half k this.1 this.2.1⟩

theorem intEach_null_src {s : Store} {free : List Nat} (h : Inv c s free) (hf : free ≠ []) :
    ∃ L : List Nat, (∀ (σ : Type) (hd : RH σ) (st : σ), intEach s .src 0 hd st = some (runH hd (L.map s.linkAt) st)) ∧
      s.hdr.allocated ∈ L ∧ L.Nodup ∧ (∀ k ∈ L, LiveIn s free k) ∧
      ((s.data s.hdr.allocated).1 = 0 → L = [s.hdr.allocated]) ∧
      ((s.data s.hdr.allocated).1 ≠ 0 → ∀ k ∈ L, (s.data k).1 ≠ 0) := by
  have htop := top_live h hf
  have hlt := h.base.alloc_lt
  by_cases he : (s.data s.hdr.allocated).1 = 0
  · have hn := cleared_node h.toInv0 .src htop he
    have h0 : s.hdr.allocated ≠ 0 := by have := htop.1; omega
    refine ⟨[s.hdr.allocated], fun σ hd st => ?_, by simp, by simp, by simpa using htop, fun _ => rfl, fun hh => absurd he hh⟩
    obtain ⟨n, hn1⟩ : ∃ n, s.ilen = n + 1 := ⟨s.ilen - 1, by omega⟩
    simp only [intEach, (iroot_null h.base).1, Option.bind_some, hn1, eachInorder, h0, if_false, hn, if_true, andThen,
      List.map_cons, List.map_nil, runH, Store.linkAt]
    rcases hd st _ with ⟨_ | _, st'⟩ <;> rfl
  · obtain ⟨t, g1, g2, g3, g4, g5⟩ := sub_facts h.toInv0 .src htop he
    refine ⟨t.toList, fun σ hd st => ?_, g2, g3, fun k hk => (g5 k hk).1, fun hh => absurd hh he, fun _ k hk => (g5 k hk).2⟩
    simp only [intEach, (iroot_null h.base).1, Option.bind_some]
    exact eachInorder_eq hd _ _ _ st g1 (by omega)

theorem walk_null {f : Nat → Nat} : ∀ (t : Tree), (∀ k ∈ t.toList, f k ≠ 0) → walk f 0 t = []
  | .leaf, _ => rfl
  | .node a k b, h => by
    have hk := h k (by simp [Tree.toList])
    simp only [walk, show 0 < f k by omega, if_true]
    exact walk_null a fun j hj => h j (by simp [Tree.toList, hj])

theorem intEach_null_tgt {s : Store} {free : List Nat} (h : Inv0 c s free) {σ : Type} (hd : RH σ) (st : σ) :
    intEach s .tgt 0 hd st = some (.cont, st) := by
  have hlt := h.base.alloc_lt
  simp only [intEach, (iroot_null h.base).2, Option.bind_some]
  rcases rootS_cases h with e | ⟨e1, e2⟩
  · rw [e]; simp [eachUsages]
  · obtain ⟨t, g1, g2, g3, g4, g5⟩ := sub_facts h .tgt e1 e2
    rw [eachUsages_eq (f := fun k => (s.data k).2) (lk := s.data) (fun nd k e => congrArg Prod.snd e) hd 0 t _ _ st g1
      (by omega), walk_null (f := fun k => (s.data k).2) t fun k hk => (g5 k hk).2]
    rfl

theorem iroot_live {s : Store} {free : List Nat} (h : Inv0 c s free) (d : Side) {a : Nat} (ha : LiveIn s free a) :
    ∃ r, s.iroot d a = some r ∧ (r = 0 ∨ LiveIn s free r) := by
  obtain ⟨ti, te, f1, f2, f3, f4, f5, f6, f7⟩ := h.forest d
  have h0 : a ≠ 0 := by have := ha.1; omega
  refine ⟨_, iroot_eq h0 (live_lt h.base ha), ?_⟩
  have hh := (f1 a h0).holds
  cases ht : ti a with
  | leaf => rw [ht] at hh; exact .inl hh
  | node x k y =>
    rw [ht] at hh
    right
    rw [hh.1]
    exact ((f3 a k h0).1 (by rw [ht]; simp [Tree.toList])).1.1

/-- Search and size at any end, the null link included. -/
theorem iroot_any {s : Store} {free : List Nat} (h : Inv c s free) (hf : free ≠ []) (d : Side) {a : Nat}
    (ha : a = 0 ∨ LiveIn s free a) : ∃ r, s.iroot d a = some r ∧ (r = 0 ∨ LiveIn s free r) := by
  rcases ha with rfl | ha
  · cases d
    · exact ⟨_, (iroot_null h.base).1, .inr (top_live h hf)⟩
    · exact ⟨_, (iroot_null h.base).2, (rootS_cases h.toInv0).imp id And.left⟩
  · exact iroot_live h.toInv0 d ha

theorem intSearch_any {s : Store} {free : List Nat} (h : Inv c s free) (hf : free ≠ []) (d : Side) (x y : Nat)
    (ha : endOf d (x, y) = 0 ∨ LiveIn s free (endOf d (x, y))) :
    ∃ k, intSearch s d x y = some k ∧ (k = 0 ∨ LiveIn s free k) := by
  obtain ⟨r, e1, e2⟩ := iroot_any h hf d ha
  obtain ⟨k, e3, e4⟩ := searchKey_live h.toInv0 d (keyOf d (x, y)) e2
  exact ⟨k, by simp only [intSearch, e1, Option.bind_some, e3], e4.imp id And.left⟩

theorem intCount_any {s : Store} {free : List Nat} (h : Inv c s free) (hf : free ≠ []) (d : Side) {a : Nat}
    (ha : a = 0 ∨ LiveIn s free a) : ∃ n, intCount s d a = some n := by
  obtain ⟨r, e1, e2⟩ := iroot_any h hf d ha
  simp only [intCount, e1, Option.bind_some, sizeOrZero]
  rcases e2 with rfl | e2
  · exact ⟨0, by simp⟩
  · have h0 : r ≠ 0 := by have := e2.1; omega
    rw [node_eq h.base h0 (live_lt h.base e2)]
    simp [h0]

/-- Which of the two readings applies to an end. -/
theorem isUnused_any {s : Store} {free : List Nat} (h : Inv0 c s free) (v : Nat) :
    isUnused s v = some (decide (¬ ((v = 0 ∧ free ≠ []) ∨ LiveIn s free v))) := by
  by_cases h0 : v = 0
  · subst h0
    rw [isUnused_null h.base]
    have : ¬ LiveIn s free 0 := fun hh => by have := hh.1; omega
    simp [this]
  · rw [h.net.unused h0 (h.exact v)]
    simp [h0]

/-- Looking for a pair always returns, and returns a link. -/
theorem pairSearch_any (hc : CfgOK c) {s : Store} {free : List Nat} (h : Inv c s free) (x y : Nat) :
    ∃ vs vt k, isUnused s x = some vs ∧ isUnused s y = some vt ∧ pairSearch s vs vt x y = some k ∧
      (k = 0 ∨ LiveIn s free k) := by
  have hx := isUnused_any h.toInv0 x
  have hy := isUnused_any h.toInv0 y
  suffices ∃ k, pairSearch s (decide (¬ ((x = 0 ∧ free ≠ []) ∨ LiveIn s free x)))
      (decide (¬ ((y = 0 ∧ free ≠ []) ∨ LiveIn s free y))) x y = some k ∧ (k = 0 ∨ LiveIn s free k) by
    obtain ⟨k, hk⟩ := this
    exact ⟨_, _, k, hx, hy, hk⟩
  have hE : ∃ k, extSearch s x y = some k ∧ (k = 0 ∨ LiveIn s free k) := by
    obtain ⟨k, e1, e2⟩ := extSearch_ok h.net x y
    exact ⟨k, e1, e2.imp And.left fun e => e.2.1.1⟩
  by_cases hf : free = []
  · subst hf
    by_cases h1 : LiveIn s [] x
    · have hx0 : x ≠ 0 := by have := h1.1; omega
      have hS : ∃ k, intSearch s .src x y = some k ∧ (k = 0 ∨ LiveIn s [] k) := by
        obtain ⟨k, e1, e2⟩ := intSearch_ok h.net .src x y hx0 (live_lt h.base h1)
        exact ⟨k, e1, e2.imp And.left fun e => e.2.1.1⟩
      by_cases h2 : LiveIn s [] y
      · have hy0 : y ≠ 0 := by have := h2.1; omega
        have := pairSearch_ok hc h.toInv0 hx0 hy0
        obtain ⟨k, e1, e2⟩ := this
        refine ⟨k, ?_, e2.imp And.left fun e => e.2.1⟩
        simpa [hx0, hy0] using e1
      · simpa [pairSearch, h1, h2] using hS
    · by_cases h2 : LiveIn s [] y
      · have hy0 : y ≠ 0 := by have := h2.1; omega
        have hS : ∃ k, intSearch s .tgt x y = some k ∧ (k = 0 ∨ LiveIn s [] k) := by
          obtain ⟨k, e1, e2⟩ := intSearch_ok h.net .tgt x y hy0 (live_lt h.base h2)
          exact ⟨k, e1, e2.imp And.left fun e => e.2.1.1⟩
        simpa [pairSearch, h1, h2] using hS
      · simpa [pairSearch, h1, h2] using hE
  · by_cases h1 : x = 0 ∨ LiveIn s free x
    · have hS := intSearch_any h hf .src x y h1
      by_cases h2 : y = 0 ∨ LiveIn s free y
      · have hT := intSearch_any h hf .tgt x y h2
        obtain ⟨n, hn⟩ := intCount_any h hf .src h1
        obtain ⟨m, hm⟩ := intCount_any h hf .tgt h2
        simp only [pairSearch, hf, ne_eq, not_false_eq_true, and_true, h1, h2, not_true, decide_false, Bool.and_false,
          Bool.false_eq_true, if_false, hn, hm, Option.bind_some]
        split
        · exact hT
        · exact hS
      · simpa [pairSearch, h1, h2, hf] using hS
    · by_cases h2 : y = 0 ∨ LiveIn s free y
      · have hT := intSearch_any h hf .tgt x y h2
        simpa [pairSearch, h1, h2, hf] using hT
      · simpa [pairSearch, h1, h2, hf] using hE

/-- The search for a null source: from the highest link. -/
theorem intSearch_null_src {s : Store} {free : List Nat} (h : Inv c s free) (hf : free ≠ []) (y : Nat) :
    ∃ k, intSearch s .src 0 y = some k ∧ (k = 0 ∨ LiveIn s free k ∧ (s.data k).2 = y) ∧
      ((s.data s.hdr.allocated).1 = 0 → k = if (s.data s.hdr.allocated).2 = y then s.hdr.allocated else 0) ∧
      ((s.data s.hdr.allocated).1 ≠ 0 → k ≠ 0 → (s.data k).1 ≠ 0) := by
  obtain ⟨k, e1, e2, e3, e4⟩ := searchKey_from h.toInv0 .src y (top_live h hf)
  exact ⟨k, by simp only [intSearch, endOf, (iroot_null h.base).1, Option.bind_some]; exact e1, e2, e3, e4⟩

/-- The search for a null target: from the root of the dangling sources. -/
theorem intSearch_null_tgt {s : Store} {free : List Nat} (h : Inv c s free) (x : Nat) :
    ∃ k, intSearch s .tgt x 0 = some k ∧ (k = 0 ∨ LiveIn s free k ∧ (s.data k).1 = x ∧ (s.data k).2 ≠ 0) := by
  simp only [intSearch, endOf, (iroot_null h.base).2, Option.bind_some]
  rcases rootS_cases h.toInv0 with e | ⟨e1, e2⟩
  · exact ⟨0, by rw [e]; simp [searchKey], .inl rfl⟩
  · obtain ⟨k, g1, g2, -, g4⟩ := searchKey_from h.toInv0 .tgt x e1
    refine ⟨k, g1, ?_⟩
    by_cases h0 : k = 0
    · exact .inl h0
    · obtain ⟨a, b⟩ := g2.resolve_left h0
      exact .inr ⟨a, b, g4 e2 h0⟩

/-- The number of links that the code takes for those with a null source is 0 if the highest link has none. -/
theorem intCount_null_src {s : Store} {free : List Nat} (h : Inv c s free) (hf : free ≠ [])
    (he : (s.data s.hdr.allocated).1 = 0) : intCount s .src 0 = some 0 := by
  have htop := top_live h hf
  have h0 : s.hdr.allocated ≠ 0 := by have := htop.1; omega
  simp only [intCount, (iroot_null h.base).1, Option.bind_some, sizeOrZero, h0, if_false,
    cleared_node h.toInv0 .src htop he]
  rfl

end Verif.Split
