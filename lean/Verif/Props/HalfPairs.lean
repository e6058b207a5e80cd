import Verif.Props.SplitFindings
import Verif.Split.NullQuery
import Verif.CircList

/-!
# Property C99: a link of the split store that is given a source and no target
-/

namespace Verif.Split.Props
open Verif Verif.Split

variable {c : Cfg}

/-- **C99** is false, in every case: in whatever state the store is, give an existing link `i` (whose doublet no other
link shares) a source and the null target. The call succeeds and tells the handler the change. Afterwards `i` is not
found, cannot be updated and cannot be deleted, so its index is lost; the number of links is
the same as before and every other index reads as before. The lost link is still visited when one asks for its source,
and if no index below the highest link is free, asking for its pair is undefined behaviour. -/
theorem C99_half_pairs_vanish (hc : CfgOK c) {s : Store} (h : Reach c s) {i : Nat} {l : Link}
    (hl : (links c).getLink s i = some (some l)) (ht : ((links c).view s).NoTwin i) {a : Nat} (ha : a ≠ 0)
    {σ ρ : Type} (hd : σ → Link → Link → Ctl ρ × σ) (st : σ) :
    ∃ s' : Store,
      (links c).updateWith s i a 0 hd st = some ⟨.ok (hd st l ⟨i, a, 0⟩).1, s', (hd st l ⟨i, a, 0⟩).2⟩ ∧
      (links c).getLink s' i = some none ∧
      (∀ k, k ≠ i → (links c).getLink s' k = (links c).getLink s k) ∧
      (links c).count s' = (links c).count s ∧
      (∀ x y, (links c).updateWith s' i x y hd st = some ⟨.error (.notExists i), s', st⟩) ∧
      (links c).deleteWith s' i hd st = some ⟨.error (.notExists i), s', st⟩ ∧
      (a ≠ i → a ≠ c.consts.any →
        (∃ L, (links c).Visits s' [c.consts.any, a, c.consts.any] L ∧ (⟨i, a, 0⟩ : Link) ∈ L) ∧
        ((∀ k, 0 < k → k < s.hdr.allocated → (links c).getLink s k ≠ some none) →
          ∀ (τ : Type) (v : RH τ) (t : τ), (links c).eachLinks s' [c.consts.any, a, 0] v t = none)) := by
  obtain ⟨free, hg⟩ := reach_good hc h
  have hi0 := hg.toInv0
  have hlg : getLink c s i = some (some l) := hl
  rw [getLink_eq hc hg.net hg.exact] at hlg
  have hi : LiveIn s free i := Classical.byContradiction fun hn => by rw [if_neg hn] at hlg; cases hlg
  rw [if_pos hi] at hlg
  have hll : s.linkAt i = l := by injection hlg with hlg; injection hlg
  have hu := noTwinIn hc hi0 hi ht
  obtain ⟨s', g1, g2, g3, g4, g5, g6⟩ := relink_gen hc hg.net hg.exact hi
    (fun d he => ⟨fun x => x.2.1 he, fun x => x.2.1 he⟩)
    (fun d he hl => ⟨hi, he, hl⟩) (fun d he hl => ⟨hi, he, hl⟩)
    (fun d he k h1 h2 => by
      by_cases hx : LiveIn s free (endOf d (s.data i))
      · exact noTwin_tree hi0 hu d he k (.inl (h1 hx))
      · exact noTwin_tree hi0 hu d he k (.inr (h2 hx))) a 0
  have hlv : ∀ k, LiveIn s' free k ↔ LiveIn s free k := by intro k; simp only [LiveIn, g4]
  have hin : i ≠ 0 := by have := hi.1; omega
  have hgi : getLink c s' i = some none := by
    obtain ⟨b, b1, b2⟩ := isUnused_alloc g2.base (g2.forest .tgt) (g2.live .tgt) hin
    have hb : b = true := b2.2 (.inr ⟨by simp [endOf], by rw [g6, if_pos rfl]; exact ha⟩)
    subst hb
    unfold getLink exists?
    split <;> simp [b1]
  have hex : ∀ k, k ≠ i → LiveIn s' free k → (s'.data k).1 ≠ 0 →
      ((k ≠ i ∧ IntRef s free .tgt k) ∨ (k = i ∧ endOf .tgt (a, 0) ≠ 0 ∧ Seen s free i (s.data i).1 (endOf .tgt (a, 0)))) ∨
      ((k ≠ i ∧ ExtRef s free .tgt k) ∨ (k = i ∧ endOf .tgt (a, 0) ≠ 0 ∧ ¬ Seen s free i (s.data i).1 (endOf .tgt (a, 0)))) := by
    intro k hk h1 h2
    rw [g6, if_neg hk] at h2
    rcases hg.exact k ((hlv k).1 h1) h2 with x | x
    · exact .inl (.inl ⟨hk, x⟩)
    · exact .inr (.inl ⟨hk, x⟩)
  have hgk : ∀ k, k ≠ i → getLink c s' k = getLink c s k := by
    intro k hk
    rw [getLink_eq hc hg.net hg.exact]
    unfold getLink exists?
    rw [hc.start_eq]
    by_cases hr : 1 ≤ k ∧ k ≤ s'.hdr.allocated
    · rw [if_pos hr, g2.unused (by omega) (hex k hk), Option.map_some, Option.bind_some]
      by_cases hlk : LiveIn s free k
      · have := (hlv k).2 hlk
        rw [if_pos hlk]
        simp only [this, not_true_eq_false, decide_false, Bool.not_false, if_true,
          getLinkUnchecked_eq g2.base this, Option.map_some, Store.linkAt]
        rw [g6, if_neg hk]
      · have := fun x => hlk ((hlv k).1 x)
        rw [if_neg hlk]
        simpa using this
    · rw [if_neg hr, if_neg]
      · rfl
      · intro hx; exact hr (by have := (hlv k).2 hx; exact ⟨this.1, this.2.1⟩)
  have hS : Links.Succeeds (fun _ hd st => updateLinks c s [i] [i, a, 0] hd st) s' l ⟨i, a, 0⟩ := by
    intro τ hh t
    have hgl := getLink_eq hc hg.net hg.exact i
    rw [if_pos hi, hll] at hgl
    have g1' : relink c s l i a 0 = some s' := by rw [← hll]; exact g1
    simp [updateLinks, hgl, g1']
  have hsrc : ∀ k, IntRef s free .src k ∨ ExtRef s free .src k → s.data k ≠ (a, 0) := by
    intro k hk e
    have := hi0.half k (hi0.net.live .src k hk) (by rw [e]; exact ha)
    rw [e] at this; exact this rfl
  refine ⟨s', Links.updateByWith_ok hS hd st, hgi, hgk, ?_, ?_, ?_, ?_⟩
  · show countLinks c s' [] = countLinks c s []
    have e : liveList s' free = liveList s free := by simp only [liveList, g4]
    simp only [countLinks, List.length_nil, if_true]
    rw [total_eq g2.base, total_eq hi0.base, e]
  · intro x y
    refine Links.updateByWith_err (D := links c) (s := s') (fun τ hh t => ?_) hd st
    show updateLinks c s' [i] [i, x, y] hh t = _
    simp [updateLinks, hgi]
  · refine Links.deleteByWith_err (D := links c) (s := s') (fun τ hh t => ?_) hd st
    show deleteLinks c s' [i] hh t = _
    simp [deleteLinks, hgi]
  · intro hai haa
    have hun := g2.unused ha (hex a hai)
    obtain ⟨b, hany⟩ := isUnused_some g2.base c.consts.any
    have hIs : LiveIn s free a → Seen s free i (s.data i).1 a := fun x => ⟨x, fun y => hai y.1⟩
    have hmk : s'.linkAt i = ⟨i, a, 0⟩ := by simp [Store.linkAt, g6]
    constructor
    · by_cases hla : LiveIn s free a
      · have hla' := (hlv a).2 hla
        obtain ⟨L, u1, -, -, u4⟩ := int_usages g2 .src ha (live_lt g2.base hla')
        refine ⟨L.map s'.linkAt, fun τ v t => ?_, ?_⟩
        · rw [← u1]
          show Split.eachLinks c s' [c.consts.any, a, _] v t = _
          simp [Split.eachLinks, each3, hc.index_eq, hc.source_eq, hc.target_eq, hun, hany, hla', haa]
        · rw [← hmk]
          exact List.mem_map_of_mem ((u4 i).2 ⟨.inr ⟨rfl, ha, hIs hla⟩, by rw [g6, if_pos rfl]; rfl⟩)
      · have hla' : ¬ LiveIn s' free a := fun x => hla ((hlv a).1 x)
        obtain ⟨L, u1, -, -, -, u4⟩ := ext_usages hc g2 .src a
        refine ⟨L.map s'.linkAt, fun τ v t => ?_, ?_⟩
        · rw [← u1]
          show Split.eachLinks c s' [c.consts.any, a, _] v t = _
          simp [Split.eachLinks, each3, hc.index_eq, hc.source_eq, hc.target_eq, hun, hany, hla', haa]
        · rw [← hmk]
          exact List.mem_map_of_mem ((u4 i).2 ⟨.inr ⟨rfl, ha, fun x => hla x.1⟩, by rw [g6, if_pos rfl]; rfl⟩)
    · intro hgap τ v t
      have hfr : free = [] := by
        cases free with
        | nil => rfl
        | cons x r =>
          refine absurd ?_ (hgap x (Nat.pos_of_ne_zero (hg.base.list.nonzero x (by simp))) (hg.free_lt x (by simp)))
          show getLink c s x = some none
          rw [getLink_eq hc hg.net hg.exact, if_neg fun hx => hx.2.2 (by simp)]
      have hz : isUnused s' 0 = some true := by rw [isUnused_null g2.base, hfr]; rfl
      have h0a : (0 : Nat) ≠ c.consts.any := by have := hc.end_lt_any; omega
      have key : ∃ k, pairSearch s' (decide (¬ LiveIn s' free a)) true a 0 = some k ∧ k = i := by
        by_cases hla : LiveIn s free a
        · have hla' := (hlv a).2 hla
          obtain ⟨k, e1, e2⟩ := intSearch_ok g2 .src a 0 ha (live_lt g2.base hla')
          refine ⟨k, by simpa [pairSearch, hla'] using e1, ?_⟩
          rcases e2 with ⟨-, e3⟩ | ⟨-, ⟨e3, e4⟩ | ⟨e3, -⟩, e5⟩
          · exact absurd (by rw [g6, if_pos rfl]) (e3 i (.inr ⟨rfl, ha, hIs hla⟩))
          · rw [g6, if_neg e3] at e5; exact absurd e5 (hsrc k (.inl e4))
          · exact e3
        · have hla' : ¬ LiveIn s' free a := fun x => hla ((hlv a).1 x)
          obtain ⟨k, e1, e2⟩ := extSearch_ok g2 a 0
          refine ⟨k, by simpa [pairSearch, hla'] using e1, ?_⟩
          rcases e2 with ⟨-, e3⟩ | ⟨-, ⟨e3, e4⟩ | ⟨e3, -⟩, e5⟩
          · exact absurd (by rw [g6, if_pos rfl]) (e3 i (.inr ⟨rfl, ha, fun x => hla x.1⟩))
          · rw [g6, if_neg e3] at e5; exact absurd e5 (hsrc k (.inr e4))
          · exact e3
      obtain ⟨k, e1, rfl⟩ := key
      generalize decide (¬ LiveIn s' free a) = vs at hun e1
      show Split.eachLinks c s' [c.consts.any, a, _] v t = _
      simp only [Split.eachLinks, List.length_cons, List.length_nil, hc.index_eq, hc.source_eq, hc.target_eq]
      simp [each3, hun, hz, haa, h0a, e1, hgi, hc.null_eq, hin]

/-- In the reachable store `sNet` link 2 = (1,3) shares its doublet with no other. -/
example : Reach cfg0 sNet ∧ (links cfg0).getLink sNet 2 = some (some ⟨2, 1, 3⟩) ∧
    ((links cfg0).view sNet).NoTwin 2 :=
  ⟨sNet_reach, by decide +kernel, sNet_uniq 2⟩

/-- In a store of three links without a free index 3 = (1,2) becomes (2, null). -/
example : Reach cfg0 (runs cfg0 [.create, .create, .create, .update 3 1 2]) ∧
    (runAny cfg0 [.create, .create, .create, .update 3 1 2, .update 3 2 0] (store0 cfg0)).map (fun r =>
      ((links cfg0).getLink r.1 3, (links cfg0).count r.1, (links cfg0).collect r.1 [])) =
      some (some none, some 3, some [⟨1, 0, 0⟩, ⟨2, 0, 0⟩]) ∧
    (runAny cfg0 [.create, .create, .create, .update 3 1 2, .update 3 2 0] (store0 cfg0)).map (fun r =>
      ((links cfg0).collect r.1 [252, 2, 252], (links cfg0).collect r.1 [252, 2, 0])) = some (some [⟨3, 2, 0⟩], none) :=
  ⟨runs_reach (by decide +kernel), by decide +kernel, by decide +kernel⟩

/-- The concrete configuration with the usual algorithm for circular lists, `Verif/CircList.lean`. -/
def cfgCirc : Cfg := { cfg0 with trees := Circ.trees }

theorem cfgCirc_ok : CfgOK cfgCirc := { cfg0_ok with trees := Circ.lawful }

/-- **C99**: a link that vanished this way can destroy another one. The lists of free indices are maintained by the usual
algorithm, which meets the contract. Link 4 becomes (1, null) and vanishes. Deleting link 5, to which nothing refers,
then releases 5 and takes 4 for a free index that can be released too: it removes 4 from the list of free indices, in
which it never was, and thereby overwrites the target of link 1, which changes from (3,3) to (3, null). -/
theorem C99_deleting_a_neighbour_overwrites_another_link :
    CfgOK cfgCirc ∧
    (runAny cfgCirc [.create, .create, .create, .create, .create, .update 1 3 3, .delete 2, .update 4 1 0]
      (store0 cfgCirc)).map (fun r => ((links cfgCirc).getLink r.1 1, (links cfgCirc).collect r.1 [5])) =
      some (some (some ⟨1, 3, 3⟩), some [⟨5, 0, 0⟩]) ∧
    (runAny cfgCirc [.create, .create, .create, .create, .create, .update 1 3 3, .delete 2, .update 4 1 0, .delete 5]
      (store0 cfgCirc)).map (fun r => (r.2.getLast?, (links cfgCirc).getLink r.1 1)) =
      some (some (.ok 0), some (some ⟨1, 3, 0⟩)) :=
  ⟨cfgCirc_ok, by decide +kernel, by decide +kernel⟩

/-- **C99**: without a free index the same deletion panics, because the number of free indices would fall below 0. -/
theorem C99_deleting_a_neighbour_panics :
    CfgOK cfgCirc ∧
    (runAny cfgCirc [.create, .create, .create, .create, .create, .update 1 3 3, .update 4 1 0]
      (store0 cfgCirc)).map (fun r => (links cfgCirc).collect r.1 [5]) = some (some [⟨5, 0, 0⟩]) ∧
    runAny cfgCirc [.create, .create, .create, .create, .create, .update 1 3 3, .update 4 1 0, .delete 5]
      (store0 cfgCirc) = none :=
  ⟨cfgCirc_ok, by decide +kernel, Option.isNone_iff_eq_none.1 (by decide +kernel)⟩

/-- **C99**, the part that holds: an update of an existing link, whose doublet no other link shares, to a pair that is
not half null in this way, and which does not make a link with a source refer to itself, is found afterwards, with the
new ends, and can be updated and deleted again; every other index reads as before. -/
theorem C99_other_pairs_stay_partial (hc : CfgOK c) {s : Store} (h : Reach c s) {i : Nat} {l : Link}
    (hl : (links c).getLink s i = some (some l)) (ht : ((links c).view s).NoTwin i) (a b : Nat)
    (hab : a = 0 ∨ b ≠ 0) (hself : a = i ∨ b = i → l.source = 0)
    {σ ρ : Type} (hd : σ → Link → Link → Ctl ρ × σ) (st : σ) :
    ∃ s' : Store, Reach c s' ∧
      (links c).updateWith s i a b hd st = some ⟨.ok (hd st l ⟨i, a, b⟩).1, s', (hd st l ⟨i, a, b⟩).2⟩ ∧
      (links c).getLink s' i = some (some ⟨i, a, b⟩) ∧
      ∀ k, k ≠ i → (links c).getLink s' k = (links c).getLink s k := by
  have hg := reach_good hc h
  have hgi := (lawful hc).get s hg i
  cases hv : (links c).view s i with
  | none => rw [hv] at hgi; rw [hgi] at hl; cases hl
  | some p =>
    rw [hv] at hgi
    rw [hgi] at hl
    cases hl
    have hu : CanUpdate ((links c).view s) i a b :=
      ⟨fun x => hab.resolve_left x, fun hh q hq => by rw [hv] at hq; cases hq; exact hself hh⟩
    obtain ⟨s', hg', hv', hS⟩ := update_law hc hg hv ht i a b hu
    refine ⟨s', ?_, Links.updateByWith_ok hS hd st, ?_, ?_⟩
    · exact Reach.update (q := [i]) (ch := [i, a, b]) (h := fun (u : Unit) _ _ => (.cont, u)) (st := ()) h
        (fun j x' a' b' hj hh => by cases hj; cases hh; exact ⟨ht, hu⟩)
        (hS _ (fun (u : Unit) _ _ => (.cont, u)) ())
    · rw [(lawful hc).get s' hg', hv', View.set_same]; rfl
    · intro k hk
      rw [(lawful hc).get s' hg', hv', View.set_other _ _ hk, (lawful hc).get s hg]

/-- Link 2 of `sNet` may become (null, 4) or (3, 3). -/
example : Reach cfg0 sNet ∧ (links cfg0).getLink sNet 2 = some (some ⟨2, 1, 3⟩) ∧ ((links cfg0).view sNet).NoTwin 2 ∧
    (runAny cfg0 (net ++ [.update 2 0 4]) (store0 cfg0)).map (fun r => (links cfg0).getLink r.1 2) =
      some (some (some ⟨2, 0, 4⟩)) :=
  ⟨sNet_reach, by decide +kernel, sNet_uniq 2, by decide +kernel⟩

end Verif.Split.Props
