import Verif.ReadCost
import Verif.RefBalanced
import Verif.Props.UnitQueries

/-!
# C56: lookups look at few slots (united store)

`Looks f s n`: in the state `s` the answer of `f` is determined by the header and at most `n` slots: no change of any
other slot can change it. (An algorithm that reads at most `n` slots has this property.)
-/

namespace Verif.Unit.Props
open Verif

variable {c : Cfg}

/-- The memories agree in header, length and the slots `R`. -/
def SameAt (R : List Nat) (s s' : Store) : Prop :=
  s'.hdr = s.hdr ∧ s'.len = s.len ∧ ∀ k ∈ R, s'.cell k = s.cell k

/-- The answer of `f` in `s` depends on the header and at most `n` slots. -/
def Looks {α : Type} (f : Store → α) (s : Store) (n : Nat) : Prop :=
  ∃ R : List Nat, R.length ≤ n ∧ ∀ s', SameAt R s s' → f s' = f s

theorem Looks.mono {α : Type} {f : Store → α} {s : Store} {n m : Nat} (h : Looks f s n) (hm : n ≤ m) : Looks f s m :=
  let ⟨R, h1, h2⟩ := h
  ⟨R, Nat.le_trans h1 hm, h2⟩

theorem SameAt.get {R : List Nat} {s s' : Store} (h : SameAt R s s') {k : Nat} (hk : k = 0 ∨ k ∈ R) :
    s'.get k = s.get k := by
  obtain ⟨h1, h2, h3⟩ := h
  unfold Store.get
  rw [h1, h2]
  rcases hk with rfl | hk
  · rfl
  · rw [h3 k hk]

theorem SameAt.getLink {R : List Nat} {s s' : Store} (h : SameAt R s s') {k : Nat} (hk : k = 0 ∨ k ∈ R) :
    getLink c s' k = getLink c s k := by
  have e := h.get hk
  obtain ⟨h1, h2, h3⟩ := h
  simp only [Unit.getLink, exists?, isUnused, getLinkUnchecked, e, h1]

theorem SameAt.src {R : List Nat} {s s' : Store} (h : SameAt R s s') {k : Nat} (hk : k ∈ R) :
    s'.srcNode k = s.srcNode k := by
  unfold Store.srcNode; rw [h.get (.inr hk)]

theorem SameAt.tgt {R : List Nat} {s s' : Store} (h : SameAt R s s') {k : Nat} (hk : k ∈ R) :
    s'.tgtNode k = s.tgtNode k := by
  unfold Store.tgtNode; rw [h.get (.inr hk)]

/-- **C56**: reading a link by its index looks at one slot. -/
theorem C56_lookup (s : Store) (i : Nat) : Looks ((links c).getLink · i) s 1 :=
  ⟨[i], Nat.le_refl _, fun _ h => h.getLink (.inr (by simp))⟩

/-- **C56**: the number of all links is in the header. -/
theorem C56_count_all (s : Store) : Looks (links c).count s 0 := by
  refine ⟨[], Nat.le_refl _, fun s' h => ?_⟩
  simp only [Links.count, Links.countBy, links, countLinks, List.length_nil, if_true, getTotal, h.1]

/-- The number of nodes in a tree is at most the number of links. -/
theorem size_le_count {s : Store} {free : List Nat} {ts tt : Tree} (hi : Inv c s free ts tt) {n : Nat}
    (hn : (links c).count s = some n) {t : Tree} (hd : t.toList.Nodup) (ht : ∀ k ∈ t.toList, LiveIn s free k) :
    t.size ≤ n := by
  have h1 : (links c).count s = some (liveList s free).length := getTotal_eq hi.toInv0
  rw [h1] at hn
  cases hn
  rw [Tree.size_eq_length]
  exact length_le_of_subset hd fun k hk => mem_liveList.2 (ht k hk)

/-- Looking for the link with two given ends looks at no more slots than the index of sources is high. -/
theorem search_looks (hc : CfgOK c) {s : Store} (h : Reach c s) {n : Nat} (hn : (links c).count s = some n) :
    ∃ t, (c.trees.shape t ∧ t.size ≤ n) ∧ ∀ x y, x ≠ c.consts.any → y ≠ c.consts.any →
      Looks (fun s => (links c).search s x y) s t.height ∧
      Looks (fun s => (links c).countBy s [c.consts.any, x, y]) s t.height := by
  obtain ⟨free, ts, tt, hi⟩ := reach_good hc h
  refine ⟨ts, ⟨hi.src.tree.shape, size_le_count hi hn hi.src.tree.nodup fun k hk => ((hi.src_mem k).1 hk).1⟩,
    fun x y hx hy => ?_⟩
  · obtain ⟨R, hR, ht, hm⟩ := searchLoop_touch srcLt4 srcGt4 x y ts _ (s.len + 1) (src_rep hi.toInv0)
    have e : ∀ s', SameAt R s s' → srcSearch s' x y = srcSearch s x y := by
      intro s' h'
      have := ht s'.srcNode fun k hk => h'.src hk
      unfold srcSearch
      rw [h'.1, h'.2.1]
      exact this
    constructor <;> refine ⟨R, hR, fun s' h' => ?_⟩
    · have e2 : ∀ {σ : Type} (hd : RH σ) (st : σ), (links c).eachLinks s' [c.consts.any, x, y] hd st =
          (links c).eachLinks s [c.consts.any, x, y] hd st := by
        intro σ hd st
        simp only [links, eachLinks, hc.index_eq, hc.source_eq, hc.target_eq, each3, List.length_cons,
          List.length_nil, List.getElem?_cons_zero, List.getElem?_cons_succ, Option.bind_some, if_true, hx, hy,
          false_and, if_false, e s' h', Nat.reduceAdd, Nat.reduceEqDiff]
        cases hs : srcSearch s x y with
        | none => rfl
        | some k => simp only [Option.bind_some, h'.getLink (hm k hs)]
      simp only [Links.search, Links.find, Links.eachBy]
      rw [show (links c).consts s' = c.consts from rfl, show (links c).consts s = c.consts from rfl, e2]
    · simp only [Links.countBy, links, countLinks, hc.index_eq, hc.source_eq, hc.target_eq, count3, List.length_cons,
        List.length_nil, List.getElem?_cons_zero, List.getElem?_cons_succ, Option.bind_some, if_true, hx, hy,
        false_and, if_false, e s' h', Nat.reduceAdd, Nat.reduceEqDiff]

/-- **C56**: if no tree of `n` or fewer nodes has more than `H` levels, looking for the link with two given ends in a store of `n`
links looks at no more than `H` slots. -/
theorem C56_search_levels (hc : CfgOK c) {H n : Nat} (hb : ∀ t, c.trees.shape t → t.size ≤ n → t.height ≤ H) {s : Store}
    (h : Reach c s) (hn : (links c).count s = some n) {x y : Nat} (hx : x ≠ c.consts.any) (hy : y ≠ c.consts.any) :
    Looks (fun s => (links c).search s x y) s (H) ∧
    Looks (fun s => (links c).countBy s [c.consts.any, x, y]) s (H) := by
  obtain ⟨t, ⟨h1, h2⟩, h3⟩ := search_looks hc h hn
  have := hb t h1 h2
  exact ⟨(h3 x y hx hy).1.mono this, (h3 x y hx hy).2.mono this⟩

/-- **C56**: if the trees of the `trees` crate are size-balanced, looking for the link with two given ends looks at no
more slots than twice the logarithm of the number of links. -/
theorem C56_search (hc : CfgOK c) (hb : ∀ t, c.trees.shape t → t.SizeBalanced) {s : Store} (h : Reach c s) {n : Nat}
    (hn : (links c).count s = some n) {x y : Nat} (hx : x ≠ c.consts.any) (hy : y ≠ c.consts.any) :
    Looks (fun s => (links c).search s x y) s (2 * Nat.log2 (n + 1)) ∧
    Looks (fun s => (links c).countBy s [c.consts.any, x, y]) s (2 * Nat.log2 (n + 1)) :=
  C56_search_levels hc (fun t h1 h2 => (hb t h1).height_le h2) h hn hx hy

/-- Counting the links with a given source looks at no more than four slots per level of the index of sources and
one more; traversing them at the visited links and two slots per level. -/
theorem by_source_looks (hc : CfgOK c) {s : Store} (h : Reach c s) {n : Nat} (hn : (links c).count s = some n) :
    ∃ t, (c.trees.shape t ∧ t.size ≤ n) ∧
      ∀ x, x ≠ c.consts.any →
        Looks (fun s => (links c).countBy s [c.consts.any, x, c.consts.any]) s (4 * t.height + 1) ∧
        ∃ L, (links c).Visits s [c.consts.any, x, c.consts.any] L ∧
          ∀ (σ ρ : Type) (hd : σ → Link → Ctl ρ × σ) (st : σ),
            Looks (fun s => (links c).eachBy s [c.consts.any, x, c.consts.any] hd st) s (L.length + 2 * t.height) := by
  obtain ⟨free, ts, tt, hi⟩ := reach_good hc h
  have hrep := src_rep hi.toInv0
  refine ⟨ts, ⟨hi.src.tree.shape, size_le_count hi hn hi.src.tree.nodup fun k hk => ((hi.src_mem k).1 hk).1⟩,
    fun x hx => ⟨?_, ?_⟩⟩
  · obtain ⟨R, hR, ht⟩ := countUsages_touch c.maxT Node.source x ts _ (s.len + 1) hrep
    refine ⟨R, hR, fun s' h' => ?_⟩
    have e : srcCount c s' x = srcCount c s x := by
      have := ht s'.srcNode fun k hk => h'.src hk
      unfold srcCount
      rw [h'.1, h'.2.1]
      exact this
    simp only [Links.countBy, links, countLinks, hc.index_eq, hc.source_eq, hc.target_eq, count3, List.length_cons,
      List.length_nil, List.getElem?_cons_zero, List.getElem?_cons_succ, Option.bind_some, if_true, hx,
      and_false, if_false, e, Nat.reduceAdd, Nat.reduceEqDiff]
  · have hord : ts.toList.Pairwise fun x y => (s.cell x).source ≤ (s.cell y).source :=
      hi.src.tree.ordered.imp fun {a b} hab => by
        simp only [Store.cmp, not_srcLt4] at hab; omega
    have hsz := src_size_lt hi.toInv0
    have hlt := hi.base.alloc_lt
    have eq3 : ∀ (s : Store) {σ : Type} (hd : RH σ) (st : σ),
        (links c).eachLinks s [c.consts.any, x, c.consts.any] hd st = srcEach s x hd st := by
      intro s σ hd st
      simp only [links, eachLinks, hc.index_eq, hc.source_eq, hc.target_eq, each3, List.length_cons,
        List.length_nil, List.getElem?_cons_zero, List.getElem?_cons_succ, Option.bind_some, if_true, hx,
        false_and, if_false, Nat.reduceAdd, Nat.reduceEqDiff]
    refine ⟨(walk (fun k => (s.cell k).source) x ts).map s.linkAt, ?_, ?_⟩
    · intro σ hd st
      rw [eq3]
      exact eachUsages_eq (f := fun k => (s.cell k).source) (lk := s.lk)
        (fun nd k e => congrArg Prod.fst e) hd x ts _ _ st hrep (by omega)
    · intro σ ρ hd st
      refine ⟨touched (fun k => (s.cell k).source) x ts, ?_, fun s' h' => ?_⟩
      · rw [List.length_map]; exact (touched_le _ _ ts hord).1
      · simp only [Links.eachBy, eq3]
        have := eachUsages_touch (f := fun k => (s.cell k).source) (lk := s.lk) (base := Node.source)
          (fun nd k e => congrArg Prod.fst e) (Links.wrapR hd) x ts _ (s.len + 1) (st, .cont) hrep s'.srcNode
          fun k hk => h'.src hk
        unfold srcEach
        rw [h'.1, h'.2.1]
        exact congrArg _ this

/-- The same for the links with a given target and the index of targets. -/
theorem by_target_looks (hc : CfgOK c) {s : Store} (h : Reach c s) {n : Nat} (hn : (links c).count s = some n) :
    ∃ t, (c.trees.shape t ∧ t.size ≤ n) ∧
      ∀ x, x ≠ c.consts.any →
        Looks (fun s => (links c).countBy s [c.consts.any, c.consts.any, x]) s (4 * t.height + 1) ∧
        ∃ L, (links c).Visits s [c.consts.any, c.consts.any, x] L ∧
          ∀ (σ ρ : Type) (hd : σ → Link → Ctl ρ × σ) (st : σ),
            Looks (fun s => (links c).eachBy s [c.consts.any, c.consts.any, x] hd st) s (L.length + 2 * t.height) := by
  obtain ⟨free, ts, tt, hi⟩ := reach_good hc h
  have hrep := tgt_rep hi.toInv0
  refine ⟨tt, ⟨hi.tgt.tree.shape, size_le_count hi hn hi.tgt.tree.nodup fun k hk => ((hi.tgt_mem k).1 hk).1⟩,
    fun x hx => ⟨?_, ?_⟩⟩
  · obtain ⟨R, hR, ht⟩ := countUsages_touch c.maxT Node.target x tt _ (s.len + 1) hrep
    refine ⟨R, hR, fun s' h' => ?_⟩
    have e : tgtCount c s' x = tgtCount c s x := by
      have := ht s'.tgtNode fun k hk => h'.tgt hk
      unfold tgtCount
      rw [h'.1, h'.2.1]
      exact this
    simp only [Links.countBy, links, countLinks, hc.index_eq, hc.source_eq, hc.target_eq, count3, List.length_cons,
      List.length_nil, List.getElem?_cons_zero, List.getElem?_cons_succ, Option.bind_some, if_true, hx,
      false_and, if_false, e, Nat.reduceAdd, Nat.reduceEqDiff]
  · have hord : tt.toList.Pairwise fun x y => (s.cell x).target ≤ (s.cell y).target :=
      hi.tgt.tree.ordered.imp fun {a b} hab => by
        simp only [Store.cmp, not_tgtLt4] at hab; omega
    have hsz := tgt_size_lt hi.toInv0
    have hlt := hi.base.alloc_lt
    have eq3 : ∀ (s : Store) {σ : Type} (hd : RH σ) (st : σ),
        (links c).eachLinks s [c.consts.any, c.consts.any, x] hd st = tgtEach s x hd st := by
      intro s σ hd st
      simp only [links, eachLinks, hc.index_eq, hc.source_eq, hc.target_eq, each3, List.length_cons,
        List.length_nil, List.getElem?_cons_zero, List.getElem?_cons_succ, Option.bind_some, if_true, hx,
        and_false, if_false, Nat.reduceAdd, Nat.reduceEqDiff]
    refine ⟨(walk (fun k => (s.cell k).target) x tt).map s.linkAt, ?_, ?_⟩
    · intro σ hd st
      rw [eq3]
      exact eachUsages_eq (f := fun k => (s.cell k).target) (lk := s.lk)
        (fun nd k e => congrArg Prod.snd e) hd x tt _ _ st hrep (by omega)
    · intro σ ρ hd st
      refine ⟨touched (fun k => (s.cell k).target) x tt, ?_, fun s' h' => ?_⟩
      · rw [List.length_map]; exact (touched_le _ _ tt hord).1
      · simp only [Links.eachBy, eq3]
        have := eachUsages_touch (f := fun k => (s.cell k).target) (lk := s.lk) (base := Node.target)
          (fun nd k e => congrArg Prod.snd e) (Links.wrapR hd) x tt _ (s.len + 1) (st, .cont) hrep s'.tgtNode
          fun k hk => h'.tgt hk
        unfold tgtEach
        rw [h'.1, h'.2.1]
        exact congrArg _ this

/-- **C56**: if no tree of `n` or fewer nodes has more than `H` levels, counting the links with a given source in a store of `n` links
looks at no more than `4 * H + 1` slots, and traversing them, with any handler, at no more than `2 * H` besides the visited links. -/
theorem C56_by_source_levels (hc : CfgOK c) {H n : Nat} (hb : ∀ t, c.trees.shape t → t.size ≤ n → t.height ≤ H) {s : Store}
    (h : Reach c s) (hn : (links c).count s = some n) {x : Nat} (hx : x ≠ c.consts.any) :
    Looks (fun s => (links c).countBy s [c.consts.any, x, c.consts.any]) s (4 * H + 1) ∧
    ∃ L, (links c).Visits s [c.consts.any, x, c.consts.any] L ∧
      ∀ (σ ρ : Type) (hd : σ → Link → Ctl ρ × σ) (st : σ),
        Looks (fun s => (links c).eachBy s [c.consts.any, x, c.consts.any] hd st) s
          (L.length + 2 * H) := by
  obtain ⟨t, ⟨h1, h2⟩, h3⟩ := by_source_looks hc h hn
  have := hb t h1 h2
  obtain ⟨h4, L, h5, h6⟩ := h3 x hx
  exact ⟨h4.mono (by omega), L, h5, fun σ ρ hd st => (h6 σ ρ hd st).mono (by omega)⟩

/-- **C56**: if no tree of `n` or fewer nodes has more than `H` levels, counting the links with a given target in a store of `n` links
looks at no more than `4 * H + 1` slots, and traversing them, with any handler, at no more than `2 * H` besides the visited links. -/
theorem C56_by_target_levels (hc : CfgOK c) {H n : Nat} (hb : ∀ t, c.trees.shape t → t.size ≤ n → t.height ≤ H) {s : Store}
    (h : Reach c s) (hn : (links c).count s = some n) {x : Nat} (hx : x ≠ c.consts.any) :
    Looks (fun s => (links c).countBy s [c.consts.any, c.consts.any, x]) s (4 * H + 1) ∧
    ∃ L, (links c).Visits s [c.consts.any, c.consts.any, x] L ∧
      ∀ (σ ρ : Type) (hd : σ → Link → Ctl ρ × σ) (st : σ),
        Looks (fun s => (links c).eachBy s [c.consts.any, c.consts.any, x] hd st) s
          (L.length + 2 * H) := by
  obtain ⟨t, ⟨h1, h2⟩, h3⟩ := by_target_looks hc h hn
  have := hb t h1 h2
  obtain ⟨h4, L, h5, h6⟩ := h3 x hx
  exact ⟨h4.mono (by omega), L, h5, fun σ ρ hd st => (h6 σ ρ hd st).mono (by omega)⟩

/-- **C56**: if the trees are size-balanced, counting the links with a given source looks at no more than a multiple of the
logarithm of the number of links, and traversing them, with any handler, at that many slots besides the visited links. -/
theorem C56_by_source (hc : CfgOK c) (hb : ∀ t, c.trees.shape t → t.SizeBalanced) {s : Store} (h : Reach c s) {n : Nat}
    (hn : (links c).count s = some n) {x : Nat} (hx : x ≠ c.consts.any) :
    Looks (fun s => (links c).countBy s [c.consts.any, x, c.consts.any]) s (8 * Nat.log2 (n + 1) + 1) ∧
    ∃ L, (links c).Visits s [c.consts.any, x, c.consts.any] L ∧
      ∀ (σ ρ : Type) (hd : σ → Link → Ctl ρ × σ) (st : σ),
        Looks (fun s => (links c).eachBy s [c.consts.any, x, c.consts.any] hd st) s
          (L.length + 4 * Nat.log2 (n + 1)) := by
  have := C56_by_source_levels hc (fun t h1 h2 => (hb t h1).height_le h2) h hn hx
  simpa only [← Nat.mul_assoc, Nat.reduceMul] using this

/-- **C56**: if the trees are size-balanced, counting the links with a given target looks at no more than a multiple of the
logarithm of the number of links, and traversing them, with any handler, at that many slots besides the visited links. -/
theorem C56_by_target (hc : CfgOK c) (hb : ∀ t, c.trees.shape t → t.SizeBalanced) {s : Store} (h : Reach c s) {n : Nat}
    (hn : (links c).count s = some n) {x : Nat} (hx : x ≠ c.consts.any) :
    Looks (fun s => (links c).countBy s [c.consts.any, c.consts.any, x]) s (8 * Nat.log2 (n + 1) + 1) ∧
    ∃ L, (links c).Visits s [c.consts.any, c.consts.any, x] L ∧
      ∀ (σ ρ : Type) (hd : σ → Link → Ctl ρ × σ) (st : σ),
        Looks (fun s => (links c).eachBy s [c.consts.any, c.consts.any, x] hd st) s
          (L.length + 4 * Nat.log2 (n + 1)) := by
  have := C56_by_target_levels hc (fun t h1 h2 => (hb t h1).height_le h2) h hn hx
  simpa only [← Nat.mul_assoc, Nat.reduceMul] using this

/-! ### A concrete case: size-balanced trees and more links than any of the bounds -/

/-- `cfg0` with the size-balanced reference trees. -/
def cfgBal : Cfg := { cfg0 with trees := Ref.balanced }

theorem cfgBal_ok : CfgOK cfgBal where
  null_eq := rfl
  index_eq := rfl
  source_eq := rfl
  target_eq := rfl
  start_eq := rfl
  end_lt_any := by decide
  end_le := by decide
  step_pos := by decide
  trees := Ref.balanced_lawful
  alloc_ge := alloc0_good

theorem cfgBal_balanced : ∀ t, cfgBal.trees.shape t → t.SizeBalanced := fun _ h => h

/-- Links 1 to 44, where `i` goes from `i / 2 + 1` to `i % 2 + 1`. -/
def bigNet : List Call :=
  (List.range 44).map (fun _ => Call.create) ++ (List.range 44).map fun i => Call.update (i + 1) ((i + 1) / 2 + 1) ((i + 1) % 2 + 1)

def sBig : Store := runs cfgBal bigNet

theorem sBig_reach : Reach cfgBal sBig := by
  have h : (exec cfgBal bigNet (store0 cfgBal)).isSome = true := by decide +kernel
  obtain ⟨r, hr⟩ := Option.isSome_iff_exists.1 h
  have : sBig = r.1 := by simp [sBig, runs, hr]
  rw [this]
  exact exec_reach cfgBal_ok cfgBal_ok.alloc_ge bigNet (store0_reach cfgBal_ok.alloc_ge rfl) hr

theorem sBig_count : (links cfgBal).count sBig = some 44 := by decide +kernel

/-- 44 links: looking for a pair looks at no more than 10 slots. -/
example : Looks (fun s => (links cfgBal).search s 4 1) sBig 10 ∧ (links cfgBal).search sBig 4 1 = some (some 6) :=
  ⟨(C56_search cfgBal_ok cfgBal_balanced sBig_reach sBig_count (by decide) (by decide)).1, by decide +kernel⟩

/-- Counting the links with source 4 looks at no more than 41 slots, traversing them at no more than 20 besides the
two visited links. -/
example : Looks (fun s => (links cfgBal).countBy s [252, 4, 252]) sBig 41 ∧
    (links cfgBal).countBy sBig [252, 4, 252] = some 2 :=
  ⟨(C56_by_source cfgBal_ok cfgBal_balanced sBig_reach sBig_count (x := 4) (by decide)).1, by decide +kernel⟩

/-- The same for the 22 links with target 2. -/
example : Looks (fun s => (links cfgBal).countBy s [252, 252, 2]) sBig 41 ∧
    (links cfgBal).countBy sBig [252, 252, 2] = some 22 :=
  ⟨(C56_by_target cfgBal_ok cfgBal_balanced sBig_reach sBig_count (x := 2) (by decide)).1, by decide +kernel⟩

/-- The trees of this crate have at most 10 levels if they have at most 44 nodes: the bounds by levels apply. -/
example : Looks (fun s => (links cfgBal).search s 4 1) sBig 10 ∧
    Looks (fun s => (links cfgBal).countBy s [252, 4, 252]) sBig 41 ∧
    Looks (fun s => (links cfgBal).countBy s [252, 252, 2]) sBig 41 :=
  have hb : ∀ t, cfgBal.trees.shape t → t.size ≤ 44 → t.height ≤ 10 := fun t h hn => (cfgBal_balanced t h).height_le hn
  ⟨(C56_search_levels cfgBal_ok hb sBig_reach sBig_count (by decide) (by decide)).1,
   (C56_by_source_levels cfgBal_ok hb sBig_reach sBig_count (x := 4) (by decide)).1,
   (C56_by_target_levels cfgBal_ok hb sBig_reach sBig_count (x := 2) (by decide)).1⟩

end Verif.Unit.Props
