import Verif.Unit.Reach

/-!
# Two stores with the same contents answer queries alike (helper lemmas)
-/

namespace Verif

/-- What the search loop finds in a tree. -/
def searchTree (lk : Nat → Nat × Nat) (lt4 gt4 : Nat → Nat → Nat → Nat → Bool) (x y : Nat) : Tree → Nat
  | .leaf => 0
  | .node l k r =>
    if lt4 x y (lk k).1 (lk k).2 then searchTree lk lt4 gt4 x y l
    else if gt4 x y (lk k).1 (lk k).2 then searchTree lk lt4 gt4 x y r
    else k

theorem searchLoop_eq {get : Nat → Option Node} {lk : Nat → Nat × Nat}
    {lt4 gt4 : Nat → Nat → Nat → Nat → Bool} (x y : Nat) :
    ∀ (t : Tree) (r fuel : Nat), Rep get lk t r → t.size < fuel →
      searchLoop get lt4 gt4 x y fuel r = some (searchTree lk lt4 gt4 x y t) := by
  intro t
  induction t with
  | leaf =>
    intro r fuel hr hfu
    cases fuel with
    | zero => omega
    | succ fuel => simp [Rep] at hr; simp [searchLoop, hr, searchTree]
  | node l k r' ihl ihr =>
    intro r fuel hr hfu
    cases fuel with
    | zero => omega
    | succ fuel =>
      obtain ⟨rfl, hk, nd, hget, hlk, hl, hrr, hsz⟩ := hr
      simp only [Tree.size] at hfu
      have e1 : nd.source = (lk r).1 := by rw [← hlk]
      have e2 : nd.target = (lk r).2 := by rw [← hlk]
      simp only [searchLoop, hk, if_false, hget, e1, e2, searchTree]
      rw [ihl _ _ hl (by omega), ihr _ _ hrr (by omega)]
      split <;> first | rfl | (split <;> rfl)

end Verif

namespace Verif.Unit
open Verif

variable {c : Cfg}

/-- The list visited by source, explicitly. -/
theorem srcEach_eq {s : Store} {free : List Nat} {ts tt : Tree}
    (h : Inv0 c s free ts tt) (v : Nat) {σ : Type} (hd : RH σ) (st : σ) :
    srcEach s v hd st = some (runH hd ((walk (fun k => (s.lk k).1) v ts).map s.linkAt) st) := by
  have := src_size_lt h
  have := h.base.alloc_lt
  exact eachUsages_eq (f := fun k => (s.lk k).1) (lk := s.lk)
      (fun nd k e => congrArg Prod.fst e) hd v ts _ _ st (src_rep h) (by omega)

theorem tgtEach_eq {s : Store} {free : List Nat} {ts tt : Tree}
    (h : Inv0 c s free ts tt) (v : Nat) {σ : Type} (hd : RH σ) (st : σ) :
    tgtEach s v hd st = some (runH hd ((walk (fun k => (s.lk k).2) v tt).map s.linkAt) st) := by
  have := tgt_size_lt h
  have := h.base.alloc_lt
  exact eachUsages_eq (f := fun k => (s.lk k).2) (lk := s.lk)
      (fun nd k e => congrArg Prod.snd e) hd v tt _ _ st (tgt_rep h) (by omega)

theorem srcSearch_eq {s : Store} {free : List Nat} {ts tt : Tree}
    (h : Inv0 c s free ts tt) (x y : Nat) :
    srcSearch s x y = some (searchTree s.lk srcLt4 srcGt4 x y ts) := by
  have := src_size_lt h
  have := h.base.alloc_lt
  exact searchLoop_eq x y ts _ _ (src_rep h) (by omega)

section
variable {s s' : Store} {free : List Nat} {ts tt : Tree} (hc : CfgOK c)
  (h : Inv0 c s free ts tt) (h' : Inv0 c s' free ts tt) (ha : s'.hdr.allocated = s.hdr.allocated)
  (hl : ∀ k, s'.lk k = s.lk k)
include hc h h' ha hl

omit hc h h' ha in
theorem linkAt_same : s'.linkAt = s.linkAt := by
  funext k
  have := hl k
  simp only [Store.lk, Prod.mk.injEq] at this
  simp only [Store.linkAt, this.1, this.2]

omit hc h h' hl in
theorem live_same (i : Nat) : LiveIn s' free i ↔ LiveIn s free i := by simp only [LiveIn, ha]

theorem getLink_same (i : Nat) : getLink c s' i = getLink c s i := by
  rw [getLink_eq hc h, getLink_eq hc h', linkAt_same hl]
  by_cases hi : LiveIn s free i
  · rw [if_pos hi, if_pos ((live_same ha i).2 hi)]
  · rw [if_neg hi, if_neg fun hh => hi ((live_same ha i).1 hh)]

theorem exists_same (i : Nat) : exists? c s' i = exists? c s i := by
  rw [exists_eq hc h, exists_eq hc h']
  simp only [live_same ha i]

theorem eachLinks_same (q : List Nat) {σ : Type} (hd : RH σ) (st : σ) :
    eachLinks c s' q hd st = eachLinks c s q hd st := by
  have hlk : s'.lk = s.lk := funext hl
  have e1 : getLink c s' = getLink c s := funext (getLink_same hc h h' ha hl)
  have e2 : ∀ hd : RH σ, eachAll c s' hd = eachAll c s hd := by
    intro hd; funext st
    rw [eachAll_eq hc h, eachAll_eq hc h', linkAt_same hl, liveList, liveList, ha]
  have e3 : ∀ v (hd : RH σ), srcEach s' v hd = srcEach s v hd := by
    intro v hd; funext st
    rw [srcEach_eq h, srcEach_eq h', linkAt_same hl, hlk]
  have e4 : ∀ v (hd : RH σ), tgtEach s' v hd = tgtEach s v hd := by
    intro v hd; funext st
    rw [tgtEach_eq h, tgtEach_eq h', linkAt_same hl, hlk]
  have e5 : srcSearch s' = srcSearch s := by
    funext x y; rw [srcSearch_eq h, srcSearch_eq h', hlk]
  have e6 : ∀ i x y (hd : RH σ), each3 c s' i x y hd = each3 c s i x y hd := by
    intro i x y hd; funext st
    simp only [each3, e1, e2, e3, e4, e5]
  simp only [eachLinks, e1, e2, e6]

theorem countLinks_same (q : List Nat) : countLinks c s' q = countLinks c s q := by
  have hlk : s'.lk = s.lk := funext hl
  have e1 : getLink c s' = getLink c s := funext (getLink_same hc h h' ha hl)
  have e2 : getTotal s' = getTotal s := by
    rw [getTotal_eq h, getTotal_eq h', liveList, liveList, ha]
  have ew : ∀ (s : Store) (v : Nat) (f : Nat → Nat) (L : List Nat) (t : Tree)
      (_ : ∀ (σ : Type) (hd : RH σ) (st : σ), some (runH hd ((walk f v t).map s.linkAt) st) =
        some (runH hd (L.map s.linkAt) st)), L.length = (walk f v t).length := by
    intro s v f L t hh
    have := hh (List Link) (fun acc l => (.cont, acc ++ [l])) []
    simp only [runH_collect, List.nil_append, Option.some.injEq, Prod.mk.injEq, true_and] at this
    have := congrArg List.length this
    simpa using this.symm
  have e3 : srcCount c s' = srcCount c s := by
    funext v
    obtain ⟨L, h1, h2, -⟩ := src_usages hc h v
    obtain ⟨L', h1', h2', -⟩ := src_usages hc h' v
    rw [h2, h2']
    have := ew s v (fun k => (s.lk k).1) L ts fun σ hd st => (srcEach_eq h v hd st).symm.trans (h1 σ hd st)
    have := ew s' v (fun k => (s'.lk k).1) L' ts fun σ hd st => (srcEach_eq h' v hd st).symm.trans (h1' σ hd st)
    simp only [hlk] at this
    congr 1; omega
  have e4 : tgtCount c s' = tgtCount c s := by
    funext v
    obtain ⟨L, h1, h2, -⟩ := tgt_usages hc h v
    obtain ⟨L', h1', h2', -⟩ := tgt_usages hc h' v
    rw [h2, h2']
    have := ew s v (fun k => (s.lk k).2) L tt fun σ hd st => (tgtEach_eq h v hd st).symm.trans (h1 σ hd st)
    have := ew s' v (fun k => (s'.lk k).2) L' tt fun σ hd st => (tgtEach_eq h' v hd st).symm.trans (h1' σ hd st)
    simp only [hlk] at this
    congr 1; omega
  have e5 : srcSearch s' = srcSearch s := by
    funext x y; rw [srcSearch_eq h, srcSearch_eq h', hlk]
  have e6 : exists? c s' = exists? c s := funext (exists_same hc h h' ha hl)
  have e7 : ∀ i, exists? c s i = some true → getLinkUnchecked s' i = getLinkUnchecked s i := by
    intro i hi
    rw [exists_eq hc h] at hi
    simp only [Option.some.injEq, decide_eq_true_eq] at hi
    rw [getLinkUnchecked_eq h hi, getLinkUnchecked_eq h' ((live_same ha i).2 hi), linkAt_same hl]
  have e8 : ∀ i x y, count3 c s' i x y = count3 c s i x y := by
    intro i x y
    simp only [count3, e2, e3, e4, e5, e6]
    cases he : exists? c s i with
    | none => rfl
    | some e => cases e with
      | false => rfl
      | true => simp only [e7 i he]
  simp only [countLinks, e1, e2, e3, e4, e6, e8]

end

end Verif.Unit
