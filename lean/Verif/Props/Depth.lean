import Verif.Depth
import Verif.Props.Cost
import Verif.Props.SplitCost
import Verif.Split.NullQuery
import Verif.Props.AnyFile

/-!
# C92: queries nest few calls
-/

namespace Verif.Unit.Props
open Verif Verif.Unit
variable {c : Cfg}

theorem eachLinksWithin_eq {s : Store} {m d d' : Nat} (hS : Within s.srcNode m s.hdr.rootS) (hT : Within s.tgtNode m s.hdr.rootT)
    (hd : m < d) (hd' : m < d') (q : List Nat) {σ : Type} (h : RH σ) (st : σ) :
    eachLinksWithin c d s q h st = eachLinksWithin c d' s q h st := by
  have e1 : ∀ v st, srcEachWithin d s v h st = srcEachWithin d' s v h st := fun v st => hS.eachUsages _ v h hd hd' st
  have e2 : ∀ v st, tgtEachWithin d s v h st = tgtEachWithin d' s v h st := fun v st => hT.eachUsages _ v h hd hd' st
  have e3 : ∀ i x y st, each3Within c d s i x y h st = each3Within c d' s i x y h st := fun i x y st => by
    simp only [each3Within, e1, e2]
  simp only [eachLinksWithin, e3]

theorem depth_enough (hc : CfgOK c) {s : Store} (h : Reach c s) {n m : Nat} (hn : (links c).count s = some n)
    (hm : ∀ t, c.trees.shape t → t.size ≤ n → t.height ≤ m) {d : Nat} (hd : m < d)
    (q : List Nat) {σ : Type} (hd' : RH σ) (st : σ) :
    eachLinksWithin c d s q hd' st = (links c).eachLinks s q hd' st := by
  obtain ⟨free, ts, tt, hi⟩ := reach_good hc h
  have hS := (src_rep hi.toInv0).within.1
  have hT := (tgt_rep hi.toInv0).within.1
  have h1 := hm ts hi.src.tree.shape (size_le_count hi hn hi.src.tree.nodup fun k hk => ((hi.src_mem k).1 hk).1)
  have h2 := hm tt hi.tgt.tree.shape (size_le_count hi hn hi.tgt.tree.nodup fun k hk => ((hi.tgt_mem k).1 hk).1)
  have h3 := src_size_lt hi.toInv0
  have h4 := tgt_size_lt hi.toInv0
  have h5 := ts.height_le_size
  have h6 := tt.height_le_size
  have h7 := hi.base.alloc_lt
  exact eachLinksWithin_eq (m := max ts.height tt.height) (d' := s.len + 1) (hS.mono (by omega)) (hT.mono (by omega)) (by omega)
    (by omega) q hd' st

/-- **C92**, united store: whatever the query, a traversal of a store with `n` links gets along with a stack of `n + 1` nested calls. -/
theorem C92_depth_is_bounded_by_the_count (hc : CfgOK c) {s : Store} (h : Reach c s) {n : Nat} (hn : (links c).count s = some n)
    {d : Nat} (hd : n < d) (q : List Nat) {σ : Type} (hd' : RH σ) (st : σ) :
    eachLinksWithin c d s q hd' st = (links c).eachLinks s q hd' st :=
  depth_enough hc h hn (fun t _ ht => Nat.le_trans t.height_le_size ht) hd q hd' st

/-- **C92**, united store: if no tree of `n` or fewer nodes has more than `H` levels, a traversal of a store with `n` links gets along
with a stack of `H + 1` nested calls. -/
theorem C92_depth_is_bounded_by_the_levels (hc : CfgOK c) {H n : Nat} (hb : ∀ t, c.trees.shape t → t.size ≤ n → t.height ≤ H) {s : Store}
    (h : Reach c s) (hn : (links c).count s = some n) {d : Nat} (hd : H < d) (q : List Nat) {σ : Type} (hd' : RH σ) (st : σ) :
    eachLinksWithin c d s q hd' st = (links c).eachLinks s q hd' st :=
  depth_enough hc h hn hb hd q hd' st

/-- **C92**, united store: if the trees of the `trees` crate are size-balanced, the depth is logarithmic. -/
theorem C92_depth_is_logarithmic (hc : CfgOK c) (hb : ∀ t, c.trees.shape t → t.SizeBalanced) {s : Store} (h : Reach c s) {n : Nat}
    (hn : (links c).count s = some n) {d : Nat} (hd : 2 * Nat.log2 (n + 1) < d) (q : List Nat) {σ : Type} (hd' : RH σ) (st : σ) :
    eachLinksWithin c d s q hd' st = (links c).eachLinks s q hd' st :=
  depth_enough hc h hn (fun t h1 h2 => (hb t h1).height_le h2) hd q hd' st

/-- 44 links: a stack of 11 nested calls is enough, one of 3 is not. -/
example : (∀ (q : List Nat) (σ : Type) (hd : RH σ) (st : σ), eachLinksWithin cfgBal 11 sBig q hd st = (links cfgBal).eachLinks sBig q hd st) ∧
    (eachLinksWithin cfgBal 3 sBig [252, 4, 252] (fun n _ => (.cont, n + 1)) 0).isNone = true ∧
    ((eachLinksWithin cfgBal 11 sBig [252, 4, 252] (fun n _ => (.cont, n + 1)) 0).map (·.2)) = some 2 :=
  ⟨fun q _ hd st => C92_depth_is_logarithmic cfgBal_ok cfgBal_balanced sBig_reach sBig_count (by decide +kernel) q hd st,
   by decide +kernel, by decide +kernel⟩

/-- **C92**, united store: this holds of stores that were left by calls. In a damaged file, which opens well, a traversal by source can
exceed any stack. -/
theorem C92_damaged_memory_exceeds_any_stack : ∃ s, init cfg0 damaged = some (.ok s) ∧
    ∀ (d : Nat) (σ : Type) (h : RH σ) (st : σ), eachLinksWithin cfg0 d s [cfg0.consts.any, 1, cfg0.consts.any] h st = none := by
  refine ⟨{ damaged with len := 8, hdr := { damaged.hdr with reserved := 7 } }, rfl, fun d σ h st => ?_⟩
  show eachUsages _ Node.source 1 h d 1 st = none
  induction d with
  | zero => rfl
  | succ d ih => exact ih

end Verif.Unit.Props

namespace Verif.Split.Props
open Verif Verif.Split
variable {c : Cfg}

/-- From every link and from both external roots every way down ends soon. -/
theorem within_live {s : Store} {free : List Nat} (h : Inv0 c s free) {m : Nat}
    (hm : ∀ t, c.trees.shape t → t.toList.Nodup → (∀ k ∈ t.toList, LiveIn s free k) → t.height ≤ m) (d : Side) :
    Within (s.node d) m (hrootOf d s.hdr) ∧ ∀ r, LiveIn s free r → 1 ≤ m → Within (s.node d) m r := by
  obtain ⟨ti, te, f1, f2, f3, f4, f5, f6, f7⟩ := h.forest d
  obtain ⟨er, -⟩ := h.net.tree_facts f2 fun k hk => Or.inr ((f4 k).1 hk)
  have he := hm te f2.shape f2.nodup fun k hk => ((f4 k).1 hk).1
  refine ⟨er.within.1.mono he, fun r hr h1 => ?_⟩
  by_cases hz : endOf d (s.data r) = 0
  · refine Within.mono (m := 1) (.inr fun nd hnd => ?_) h1
    rw [cleared_node h d hr hz] at hnd
    cases hnd
    exact ⟨rfl, rfl⟩
  · by_cases hl : LiveIn s free (endOf d (s.data r))
    · obtain ⟨ir, -⟩ := h.net.tree_facts (f1 _ hz) fun k hk => Or.inl ((f3 _ k hz).1 hk).1
      exact (ir.within.2 r ((f3 _ r hz).2 ⟨⟨hr, hz, hl⟩, rfl⟩)).mono
        (hm _ (f1 _ hz).shape (f1 _ hz).nodup fun k hk => ((f3 _ k hz).1 hk).1.1)
    · exact (er.within.2 r ((f4 r).2 ⟨hr, hz, hl⟩)).mono he

theorem eachLinksWithin_eq {s : Store} {free : List Nat} (h : Inv c s free) {m d d' : Nat}
    (hm : ∀ t, c.trees.shape t → t.toList.Nodup → (∀ k ∈ t.toList, LiveIn s free k) → t.height ≤ m)
    (h1 : ∀ k, LiveIn s free k → 1 ≤ m) (hd : m < d) (hd' : m < d') (q : List Nat) {σ : Type} (hh : RH σ) (st : σ) :
    eachLinksWithin c d s q hh st = eachLinksWithin c d' s q hh st := by
  have e1 : ∀ b v st, extEachWithin d s b v hh st = extEachWithin d' s b v hh st := fun b v st =>
    (within_live h.toInv0 hm b).1.eachUsages _ v hh hd hd' st
  have e2 : ∀ b v, isUnused s v = some false → ∀ st, intEachWithin d s b v hh st = intEachWithin d' s b v hh st := fun b v hv st => by
    rw [isUnused_any h.toInv0] at hv
    have hv : (v = 0 ∧ free ≠ []) ∨ LiveIn s free v := Classical.byContradiction fun hn => by
      rw [decide_eq_true hn] at hv; cases hv
    obtain ⟨r, g1, g2⟩ : ∃ r, s.iroot b v = some r ∧ (r = 0 ∨ LiveIn s free r) := by
      rcases hv with ⟨rfl, hf⟩ | hv
      · exact iroot_any h hf b (.inl rfl)
      · exact iroot_live h.toInv0 b hv
    have hw : Within (s.node b) m r := by
      rcases g2 with rfl | g2
      · cases m
        · exact rfl
        · exact .inl rfl
      · exact (within_live h.toInv0 hm b).2 r g2 (h1 r g2)
    simp only [intEachWithin, g1, Option.bind_some]
    cases b
    · exact hw.eachInorder hh hd hd' st
    · exact hw.eachUsages _ v hh hd hd' st
  have e3 : ∀ i x y st, each3Within c d s i x y hh st = each3Within c d' s i x y hh st := fun i x y st => by
    simp only [each3Within, e1]
    cases hx : isUnused s x with
    | none => rfl
    | some vs =>
      cases hy : isUnused s y with
      | none => rfl
      | some vt =>
        cases vs <;> cases vt <;> simp only [Option.bind_some, Bool.false_eq_true, if_false, if_true] <;>
          first | rfl | simp only [e2 _ _ hx, e2 _ _ hy] | simp only [e2 _ _ hx] | simp only [e2 _ _ hy]
  simp only [eachLinksWithin, e3]

theorem depth_enough (hc : CfgOK c) {s : Store} (h : Reach c s) {n m : Nat} (hn : (links c).count s = some n)
    (hm : ∀ t, c.trees.shape t → t.size ≤ n → t.height ≤ m) (h1 : 1 ≤ n → 1 ≤ m) {d : Nat} (hd : m < d)
    (q : List Nat) {σ : Type} (hd' : RH σ) (st : σ) :
    eachLinksWithin c d s q hd' st = (links c).eachLinks s q hd' st := by
  obtain ⟨free, hi⟩ := reach_good hc h
  have hcount : (links c).count s = some (liveList s free).length := total_eq hi.base
  have hle : (liveList s free).length ≤ s.hdr.allocated := by
    refine Nat.le_trans (List.length_filter_le _ _) ?_
    simp
  have hlt := hi.base.alloc_lt
  rw [hn] at hcount
  cases hcount
  have hm' : ∀ t, c.trees.shape t → t.toList.Nodup → (∀ k ∈ t.toList, LiveIn s free k) → t.height ≤ min m (liveList s free).length :=
    fun t h1 h2 h3 => by
      have h4 := size_le_count hi hn h2 h3
      have := hm t h1 h4
      have := t.height_le_size
      omega
  exact eachLinksWithin_eq hi (d' := s.ilen + 1) hm' (fun k hk => by
    have : 1 ≤ (liveList s free).length := List.length_pos_of_mem (mem_liveList.2 hk)
    have := h1 this
    omega) (by omega) (by omega) q hd' st

/-- **C92**, split store: whatever the query, a traversal of a store with `n` links gets along with a stack of `n + 1` nested calls. -/
theorem C92_split_depth_is_bounded_by_the_count (hc : CfgOK c) {s : Store} (h : Reach c s) {n : Nat}
    (hn : (links c).count s = some n) {d : Nat} (hd : n < d) (q : List Nat) {σ : Type} (hd' : RH σ) (st : σ) :
    eachLinksWithin c d s q hd' st = (links c).eachLinks s q hd' st :=
  depth_enough hc h hn (fun t _ ht => Nat.le_trans t.height_le_size ht) id hd q hd' st

/-- **C92**, split store: if no tree of `n` or fewer nodes has more than `H` levels, a traversal of a store with `n` links gets along
with a stack of `H + 2` nested calls. -/
theorem C92_split_depth_is_bounded_by_the_levels (hc : CfgOK c) {H n : Nat} (hb : ∀ t, c.trees.shape t → t.size ≤ n → t.height ≤ H)
    {s : Store} (h : Reach c s) (hn : (links c).count s = some n) {d : Nat} (hd : H + 1 < d) (q : List Nat) {σ : Type} (hd' : RH σ)
    (st : σ) : eachLinksWithin c d s q hd' st = (links c).eachLinks s q hd' st :=
  depth_enough hc h hn (fun t h1 h2 => Nat.le_succ_of_le (hb t h1 h2)) (fun _ => Nat.succ_pos _) hd q hd' st

/-- **C92**, split store: if the trees of the `trees` crate are size-balanced, the depth is logarithmic. -/
theorem C92_split_depth_is_logarithmic (hc : CfgOK c) (hb : ∀ t, c.trees.shape t → t.SizeBalanced) {s : Store} (h : Reach c s) {n : Nat}
    (hn : (links c).count s = some n) {d : Nat} (hd : 2 * Nat.log2 (n + 1) < d) (q : List Nat) {σ : Type} (hd' : RH σ) (st : σ) :
    eachLinksWithin c d s q hd' st = (links c).eachLinks s q hd' st :=
  depth_enough hc h hn (fun t h1 h2 => (hb t h1).height_le h2) (fun h1 => by
    have : 1 ≤ Nat.log2 (n + 1) := (Nat.le_log2 (by omega)).2 (by omega)
    omega) hd q hd' st

/-- 20 links: a stack of 9 nested calls is enough, one of 2 is not. -/
example : (∀ (q : List Nat) (σ : Type) (hd : RH σ) (st : σ), eachLinksWithin cfgBal 9 sBig q hd st = (links cfgBal).eachLinks sBig q hd st) ∧
    (eachLinksWithin cfgBal 2 sBig [252, 252, 2] (fun n _ => (.cont, n + 1)) 0).isNone = true ∧
    ((eachLinksWithin cfgBal 9 sBig [252, 252, 2] (fun n _ => (.cont, n + 1)) 0).map (·.2)) = some 10 :=
  ⟨fun q _ hd st => C92_split_depth_is_logarithmic cfgBal_ok cfgBal_balanced sBig_reach sBig_count (by decide +kernel) q hd st,
   by decide +kernel, by decide +kernel⟩

/-- **C92**, split store: in a damaged file, which opens well, a traversal by source can exceed any stack. -/
theorem C92_split_damaged_memory_exceeds_any_stack : init cfg0 damaged = some (.ok damagedOpen) ∧
    ∀ (d : Nat) (σ : Type) (h : RH σ) (st : σ),
      eachLinksWithin cfg0 d damagedOpen [cfg0.consts.any, 3, cfg0.consts.any] h st = none := by
  refine ⟨rfl, fun d σ h st => ?_⟩
  show eachUsages _ (fun nd => endOf .src nd.pair) 3 h d 1 st = none
  induction d with
  | zero => rfl
  | succ d ih => exact ih

end Verif.Split.Props
