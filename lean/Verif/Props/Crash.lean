import Verif.Unit.CrashLaws
import Verif.Props.UnitWrites

/-!
# Property C40: crashes

`callImages c s k` (`Unit/Crash.lean`): the memory images a crash inside call `k` on store `s` can leave, one before the
first memory update of the call and one after each. Reopening is `init` on the image, with any length of the memory area
and any allocator, as in C16.
-/

namespace Verif.Unit.Props
open Verif Verif.Unit

variable {c : Cfg}

/-! ## C40 -/

/-- The images start with the store before the call and end with the store the call returns. -/
theorem C40_images_bracket_the_call (s : Store) (k : Call) :
    (callImages c s k).head? = some s ∧
    ∀ {σ : Type} (h : WH σ) (st : σ) (o : Out Store σ Flow), callExec c s h st k = some o →
      (callImages c s k).getLast? = some o.st :=
  ⟨callImages_head c s k, fun h st _ ho => callImages_last c s k h st ho⟩

/-- The call whose images are meant really runs: deleting link 6 of `sNet` has ten images. -/
example : Reach cfg0 sNet ∧ (callImages cfg0 sNet (.delete 6)).length = 10 ∧
    ((callExec cfg0 sNet (σ := _root_.Unit) (fun _ _ _ => (.cont, ())) () (.delete 6)).isSome = true) :=
  ⟨sNet_reach, by decide +kernel, by decide +kernel⟩

/-- **C40** (partial). The process dies at any point inside a call, between two memory updates, and the image is
reopened. Every link `l` of the store that the call is not about is still returned by lookup, is visited by every
traversal as often as the query prescribes, and a search for its doublet finds a link with this doublet. Whatever else a
traversal visits was a link before, or is the link the call is about, or holds the null doublet.

Missing from the full property: crash points inside a call of the `trees` crate, whose code is not available; and the
memory mapped by reopening must cover all links, see `C16_reopen_can_lose_the_last_link`. The link that is being changed
can be lost: `C40_interrupted_update_hides_the_link`. -/
theorem C40_crash_partial (hc : CfgOK c) {s : Store} (h : Reach c s) {k : Call}
    (hk : ∀ j, callAbout j k → ((links c).view s).NoTwin j) {a a' : Nat → Nat → Option Nat} (ha : GoodAlloc a)
    (ha' : GoodAlloc a') {m : Store} (hm : m ∈ callImages (c.withAlloc a) s k) {n : Nat} {s' : Store}
    (ho : init (c.withAlloc a') { m with len := n } = some (.ok s')) (hlt : m.hdr.allocated < s'.len) :
    (∀ l, ((links c).view s).Has l → ¬ callAbout l.index k →
      (links c).getLink s' l.index = some (some l) ∧
      (l.source ≠ 0 → l.target ≠ 0 → l.source ≠ c.consts.any → l.target ≠ c.consts.any →
        ∃ j, (links c).search s' l.source l.target = some (some j) ∧
          (links c).getLink s' j = some (some ⟨j, l.source, l.target⟩))) ∧
    (∀ q, q.length ≤ 3 → ∃ L, (links c).Visits s' q L ∧
      (∀ l ∈ L, MatchQ c.consts.any q l ∧
        (((links c).view s).Has l ∨ callAbout l.index k ∨ (l.source = 0 ∧ l.target = 0))) ∧
      (NullFree c.consts.any q → ∀ l, ((links c).view s).Has l → ¬ callAbout l.index k →
        (¬ IsPair c.consts.any q → L.count l = visitsOf c.consts.any q l) ∧
        (IsPair c.consts.any q → MatchQ c.consts.any q l → L ≠ []))) := by
  obtain ⟨free, ts, tt, hi⟩ := reach_good hc h
  have hu : ∀ j, callAbout j k → LiveIn s free j → NoTwinIn s free j :=
    fun j hj hl => noTwinIn hc hi.toInv0 hl (hk j hj)
  obtain ⟨i, hia, free', ts', tt', hmid, hkeep, honly⟩ := call_images (hc.withAlloc ha) (hi.withAlloc a) k hu m hm
  obtain ⟨hmid', hal, hlk⟩ := init_mid (hc.withAlloc ha') (hmid.ofAlloc.withAlloc a') ho hlt
  have hM := hmid'.ofAlloc
  have hlive : ∀ j, LiveIn s' free' j ↔ LiveIn m free' j := fun j => by simp only [LiveIn, hal]
  have hkept : ∀ l, ((links c).view s).Has l → ¬ callAbout l.index k →
      LiveIn s' free' l.index ∧ l.index ≠ i ∧ s'.linkAt l.index = l := by
    intro l hl hca
    obtain ⟨h1, h2⟩ := (has_iff hc hi.toInv0 l).1 hl
    have hne : l.index ≠ i := fun e => hca (hia _ e.symm (by have := h1.1; omega))
    obtain ⟨h3, h4⟩ := hkeep _ hne h1
    refine ⟨(hlive _).2 h3, hne, ?_⟩
    have e1 := hlk l.index
    rw [h4] at e1
    simp only [Store.lk, Prod.mk.injEq] at e1
    rw [h2]; simp only [Store.linkAt, Link.mk.injEq, true_and]; exact e1
  refine ⟨fun l hl hca => ?_, fun q hq => ?_⟩
  · obtain ⟨h1, h2, h3⟩ := hkept l hl hca
    obtain ⟨P, hP1, hP2, hP3, hget⟩ := getLink_mid hc hM
    refine ⟨?_, fun hs ht hsa hta => ?_⟩
    · show getLink c s' l.index = _
      rw [hget, if_pos (hP2 _ h1 h2), h3]
    · obtain ⟨j, g1, g2⟩ := mid_pair hc hM (x := l.source) (y := l.target) hs hsa hta h1 h2
        (by rw [← h3]; rfl)
      refine ⟨j, ?_, g2⟩
      show ((links c).find s' [c.consts.any, l.source, l.target]).map _ = _
      simp only [Links.find, Links.eachBy_eq g1, Option.map_some]
      rfl
  · obtain ⟨L, hv, hmem, hcount, hpair⟩ := mid_query hc hM q hq
    refine ⟨L, hv, fun l hl => ?_, fun hn l hl hca => ?_⟩
    · obtain ⟨g1, g2, g3⟩ := hmem l hl
      refine ⟨g3, ?_⟩
      by_cases hca : callAbout l.index k
      · exact .inr (.inl hca)
      · by_cases hli : l.index = i
        · exact absurd (hia _ hli.symm (by have := g1.1; omega)) hca
        · rcases honly _ hli ((hlive _).1 g1) with g4 | g4
          · refine .inl ((has_iff hc hi.toInv0 l).2 ⟨g4, ?_⟩)
            have e1 := hlk l.index
            rw [(hkeep _ hli g4).2] at e1
            simp only [Store.lk, Prod.mk.injEq] at e1
            rw [g2]; simp only [Store.linkAt, Link.mk.injEq, true_and]; exact e1
          · refine .inr (.inr ?_)
            rw [← hlk l.index] at g4
            simp only [Store.lk, Prod.mk.injEq] at g4
            rw [g2]; exact g4
    · obtain ⟨h1, h2, h3⟩ := hkept l hl hca
      refine ⟨fun hp => ?_, fun hp hm => ?_⟩
      · have := hcount hn hp l.index h1 h2; rwa [h3] at this
      · exact hpair hn hp l.index h1 h2 (by rw [h3]; exact hm)

/-- What reopening finds at `i` in each image of a call. -/
def afterCrash (s : Store) (k : Call) (i : Nat) : List (Option (Option Link)) :=
  (callImages cfg0 s k).map fun m => match init cfg0 m with
    | some (.ok s') => if m.hdr.allocated < s'.len then (links cfg0).getLink s' i else none
    | _ => none

/-- Deleting link 6 of `sNet`, the last one: after every crash point link 2 = (1,3) is found again. -/
example : Reach cfg0 sNet ∧ (∀ j, callAbout j (.delete 6) → ((links cfg0).view sNet).NoTwin j) ∧
    ((links cfg0).view sNet).Has ⟨2, 1, 3⟩ ∧ ¬ callAbout 2 (.delete 6) ∧
    afterCrash sNet (.delete 6) 2 = List.replicate 10 (some (some ⟨2, 1, 3⟩)) :=
  ⟨sNet_reach, fun j hj => by
    cases hj
    exact twinFree_noTwin cfg0_ok (reach_good cfg0_ok sNet_reach) (by decide +kernel),
   show (links cfg0).view sNet 2 = some (1, 3) by decide +kernel, show ¬ (6 = 2) by decide, by decide +kernel⟩

/-- **C40** is false of the link being changed: for every store, every link with a non-null source and every update of
it there is a crash point after which reopening the memory no longer finds the link, neither with the old nor with the
new doublet, by lookup or by a traversal of the whole store. -/
theorem C40_interrupted_update_hides_the_link (hc : CfgOK c) {s : Store} (h : Reach c s) {i x y : Nat}
    (hv : (links c).view s i = some (x, y)) (hx : x ≠ 0) (ht : ((links c).view s).NoTwin i) (a b : Nat) :
    ∃ m ∈ callImages c s (.update i a b), ∀ (al : Nat → Nat → Option Nat) (n : Nat) (s' : Store), GoodAlloc al →
      init (c.withAlloc al) { m with len := n } = some (.ok s') → m.hdr.allocated < s'.len →
      (links c).getLink s' i = some none ∧ ∃ L, (links c).Visits s' [] L ∧ ∀ l ∈ L, l.index ≠ i := by
  obtain ⟨free, ts, tt, hi⟩ := reach_good hc h
  have hl : LiveIn s free i := by
    by_cases hl : LiveIn s free i
    · exact hl
    · rw [view_eq hc hi.toInv0, if_neg hl] at hv; cases hv
  have hsx : (s.cell i).source = x := by
    rw [view_eq hc hi.toInv0, if_pos hl, Option.some.injEq] at hv
    exact congrArg Prod.fst hv
  obtain ⟨s1, ts1, e1, m1, n1, d1⟩ := mid_detachSource hc (hi.toInv0.mid i) hl
    (decide ((s.linkAt i).source ≠ 0)) (by rw [hi.src_mem, decide_eq_true_eq]; simp [hl, Store.linkAt])
    (by
      intro _ k hk hki
      rcases noTwinIn hc hi.toInv0 hl ht with hu | hu
      · exact absurd (hsx.symm.trans (congrArg Prod.fst hu)) hx
      · exact hu k ((hi.src_mem k).1 hk).1 hki)
  refine ⟨s1, ?_, fun al n s' hal ho hlt => ?_⟩
  · simp only [callImages, getLink_eq hc hi.toInv0, if_pos hl, relinkSteps, images, e1, List.mem_cons]
    right
    split <;> simp
  · obtain ⟨hm', ha, hlk⟩ := init_mid (hc.withAlloc hal) (m1.withAlloc al) ho hlt
    have hM := hm'.ofAlloc
    have hnone : getLink c s' i = some none := by
      refine getLink_hidden hc hM ?_ n1 ?_
      · have := (LiveIn.same d1).2 hl
        simpa only [LiveIn, ha] using this
      · have := congrArg Prod.fst ((hlk i).trans (d1.lk i))
        simp only [Store.lk] at this
        rw [this, hsx]; exact hx
    obtain ⟨L, g1, g2⟩ := mid_all hc hM
    refine ⟨hnone, L, g1, fun l hl e => ?_⟩
    have := g2 l hl
    rw [e, hnone] at this
    cases this

/-- An update of link 2 = (1,3) of `sNet`, with the image and the reopening. -/
example : Reach cfg0 sNet ∧ (links cfg0).view sNet 2 = some (1, 3) ∧ ((links cfg0).view sNet).NoTwin 2 ∧
    ((callImages cfg0 sNet (.update 2 3 3)).map fun m => (match init cfg0 m with
      | some (.ok s') => ((links cfg0).getLink s' 2, decide (m.hdr.allocated < s'.len))
      | _ => (none, false))) =
      [(some (some ⟨2, 1, 3⟩), true), (some none, true), (some none, true), (some none, true), (some none, true),
       (some (some ⟨2, 3, 3⟩), true), (some (some ⟨2, 3, 3⟩), true)] :=
  ⟨sNet_reach, by decide +kernel, twinFree_noTwin cfg0_ok (reach_good cfg0_ok sNet_reach) (by decide +kernel),
   by decide +kernel⟩

/-- Three links, the second deleted. -/
def sGap : Store := runs cfg0 [.create, .create, .create, .update 1 1 1, .update 3 1 3, .delete 2]

theorem sGap_reach : Reach cfg0 sGap := runs_reach (by decide +kernel)

/-- **C40**, null links can appear: link 2 was deleted, and link 3 is being deleted. A crash in the loop that releases
the unused slots at the end leaves an image (the last but one) in which link 2 is back, holding the null doublet. -/
theorem C40_crash_can_revive_a_deleted_link : Reach cfg0 sGap ∧ (links cfg0).getLink sGap 2 = some none ∧
    afterCrash sGap (.delete 3) 2 =
      [some none, some none, some none, some none, some none, some none, some none, some none, some (some ⟨2, 0, 0⟩),
       some none] ∧
    afterCrash sGap (.delete 3) 1 = List.replicate 10 (some (some ⟨1, 1, 1⟩)) :=
  ⟨sGap_reach, by decide +kernel, by decide +kernel, by decide +kernel⟩

end Verif.Unit.Props
