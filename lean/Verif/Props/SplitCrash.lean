import Verif.Split.CrashLaws
import Verif.Split.Example

/-!
# Property C54: crashes of the split store

`callImages c s k` (`Split/Crash.lean`): the memory images a crash inside call `k` on store `s` can leave, one before the
first memory update of the call and one after each. Reopening is `init` on the image, with any lengths of the two memory
areas and any allocators.
-/

namespace Verif.Split.Props
open Verif Verif.Split

variable {c : Cfg}

/-! ## C54 -/

/-- The images start with the store before the call and end with the store the call returns. -/
theorem C54_images_bracket_the_call (s : Store) (k : Call) :
    (callImages c s k).head? = some s ∧
    ∀ {σ : Type} (h : WH σ) (st : σ) (o : Out Store σ Flow), callExec c s h st k = some o →
      (callImages c s k).getLast? = some o.st :=
  ⟨rfl, fun h st _ ho => callImages_last c s k h st ho⟩

/-- The call whose images are meant really runs: deleting link 3 of `sNet`, which two links refer to. -/
example : Reach cfg0 sNet ∧ (callImages cfg0 sNet (.delete 3)).length = 12 ∧
    ((callExec cfg0 sNet (σ := _root_.Unit) (fun _ _ _ => (.cont, ())) () (.delete 3)).isSome = true) :=
  ⟨sNet_reach, by decide +kernel, by decide +kernel⟩

/-- **C54** (partial). The process dies at any point inside a call the store supports, between two memory updates, and
the image is reopened.

1. Every link that the call is not about, and whose target is not being deleted, is still returned by lookup.
2. A traversal of everything visits each of these exactly once. Whatever else it visits was a link before, or is the link
   the call is about, or holds the null doublet.
3. A traversal by one end, for an end that is a link after the crash if and only if it was one before and that is not
   being deleted, visits every link with this end, except perhaps the one the call is about, exactly once, and nothing
   that was not a link before.
4. A search for a doublet of two such ends, other than the doublet an interrupted update writes, finds a link with this
   doublet if one was there that the call is not about.

Missing from the full property: crash points inside a call of the `trees` crate, whose code is not available. The
exceptions are real: `C54_interrupted_delete_hides_a_user`, `C54_interrupted_update_hides_the_link`,
`C54_search_after_crash_can_be_undefined`. -/
theorem C54_split_crash_partial (hc : CfgOK c) {s : Store} (h : Reach c s) {k : Call}
    (hk : Supported ((links c).view s) k) {d i d' i' : Nat → Nat → Option Nat} (hd : ExactAlloc d) (hi : ExactAlloc i)
    (hd' : ExactAlloc d') (hi' : ExactAlloc i') {m : Store} (hm : m ∈ callImages (c.withAllocs d i) s k)
    {n1 n2 : Nat} {s' : Store}
    (ho : init (c.withAllocs d' i') { m with dlen := n1, ilen := n2 } = some (.ok s'))
    (hlt : m.hdr.allocated < s'.ilen) :
    (∀ l, ((links c).view s).Has l → ¬ callAbout l.index k → k ≠ .delete l.target →
      (links c).getLink s' l.index = some (some l)) ∧
    (∃ L, (links c).Visits s' [] L ∧
      (∀ l ∈ L, ((links c).view s).Has l ∨ callAbout l.index k ∨ (l.source = 0 ∧ l.target = 0)) ∧
      ∀ l, ((links c).view s).Has l → ¬ callAbout l.index k → k ≠ .delete l.target → L.count l = 1) ∧
    (∀ v, v ≠ 0 → v ≠ c.consts.any → ((links c).view s v = none ↔ (links c).view s' v = none) → k ≠ .delete v →
      (∃ L, (links c).Visits s' [c.consts.any, v, c.consts.any] L ∧
        (∀ l ∈ L, l.source = v ∧ (((links c).view s).Has l ∨ callAbout l.index k)) ∧
        ∀ l, ((links c).view s).Has l → ¬ callAbout l.index k → l.source = v → L.count l = 1) ∧
      (∃ L, (links c).Visits s' [c.consts.any, c.consts.any, v] L ∧
        (∀ l ∈ L, l.target = v ∧ (((links c).view s).Has l ∨ callAbout l.index k)) ∧
        ∀ l, ((links c).view s).Has l → ¬ callAbout l.index k → l.target = v → L.count l = 1)) ∧
    (∀ x y, x ≠ 0 → x ≠ c.consts.any → ((links c).view s x = none ↔ (links c).view s' x = none) → k ≠ .delete x →
      y ≠ 0 → y ≠ c.consts.any → ((links c).view s y = none ↔ (links c).view s' y = none) → k ≠ .delete y →
      (∀ j, k ≠ .update j x y) →
      ∃ r, (links c).search s' x y = some r ∧
        (∀ j, r = some j → (links c).getLink s' j = some (some ⟨j, x, y⟩)) ∧
        ∀ l, ((links c).view s).Has l → ¬ callAbout l.index k → l.source = x → l.target = y → r ≠ none) := by
  obtain ⟨free, hI⟩ := reach_good hc h
  obtain ⟨j, m0, hsm, him, hj1, hj2⟩ := call_images (hc.withAllocs hd hi) (hI.withAllocs d i) (k := k)
    (by rw [view_withAllocs]; exact hk) hm
  obtain ⟨free', I, E, hM⟩ := (hsm.image (hc.withAllocs hd' hi') (him.ofAllocs.withAllocs d' i') ho hlt).ofAllocs
  have hn := hM.net
  have hview : ∀ v, (links c).view s' v = none ↔ ¬ Vis s' free' I E v := by
    intro v
    classical
    unfold Links.view
    simp only [links, getLink_vis hc hn]
    by_cases hv : Vis s' free' I E v <;> simp [hv]
  have hview0 : ∀ v, (links c).view s v = none ↔ ¬ LiveIn s free v := by
    intro v
    have := view_ne_none hc hI.toInv0 (i := v)
    rw [← this]; simp
  -- links kept
  have hkept : ∀ l, ((links c).view s).Has l → ¬ callAbout l.index k →
      l.index ≠ j ∧ LiveIn s free l.index ∧ LiveIn s' free' l.index ∧ s'.linkAt l.index = l ∧
      s.data l.index = (l.source, l.target) ∧ s'.data l.index = (l.source, l.target) := by
    intro l hl hca
    obtain ⟨h1, h2⟩ := (has_iff hc hI.toInv0 l).1 hl
    have hne : l.index ≠ j := fun e => hca (e ▸ hj1 (e ▸ h1))
    obtain ⟨h3, h4⟩ := hM.keep _ hne h1
    have h5 : s.data l.index = (l.source, l.target) := by rw [h2]; rfl
    exact ⟨hne, h1, h3, by rw [h2]; simp only [Store.linkAt, h4], h5, h4.trans h5⟩
  have hvis : ∀ l, ((links c).view s).Has l → ¬ callAbout l.index k → k ≠ .delete l.target →
      Vis s' free' I E l.index := by
    intro l hl hca hne
    obtain ⟨h1, h2, h3, h4, h5, h6⟩ := hkept l hl hca
    refine ⟨h3, fun hs => hM.seen _ h1 h2 ?_ (by rw [h5]; rw [h6] at hs; exact hs)⟩
    rintro ⟨e1, e2⟩
    rw [h5] at e2
    exact hne (by rw [e1]; congr 1; exact e2.symm)
  -- whatever is in the image
  have honly : ∀ a, LiveIn s' free' a → ((links c).view s).Has (s'.linkAt a) ∨ callAbout a k ∨ s'.data a = (0, 0) := by
    intro a ha
    rcases hM.only a ha with g | g
    · by_cases e : a = j
      · subst e; exact .inr (.inl (hj1 g))
      · refine .inl ((has_iff hc hI.toInv0 _).2 ⟨g, ?_⟩)
        simp only [Store.linkAt, (hM.keep a e g).2]
    · exact .inr (.inr g)
  have hstab : ∀ v, ((links c).view s v = none ↔ (links c).view s' v = none) →
      (Vis s' free' I E v ↔ LiveIn s free v) := by
    intro v hv
    rw [hview, hview0] at hv
    rw [← Classical.not_not (a := LiveIn s free v), ← Classical.not_not (a := Vis s' free' I E v), hv]
  have htree : ∀ (e : Side) (a : Nat), a ≠ j → LiveIn s free a → endOf e (s.data a) ≠ 0 →
      k ≠ .delete (endOf e (s.data a)) →
      ((links c).view s (endOf e (s.data a)) = none ↔ (links c).view s' (endOf e (s.data a)) = none) →
      (Vis s' free' I E (endOf e (s.data a)) ∧ I e a) ∨ (¬ Vis s' free' I E (endOf e (s.data a)) ∧ E e a) := by
    intro e a ha hl h0 hdel hst
    have hD : ¬ (k = .delete j ∧ endOf e (s.data a) = j) := fun x => hdel (by rw [x.2]; exact x.1)
    by_cases hv : LiveIn s free (endOf e (s.data a))
    · exact .inl ⟨(hstab _ hst).2 hv, hM.int e a ha hl h0 hD hv⟩
    · exact .inr ⟨fun x => hv ((hstab _ hst).1 x), hM.ext e a ha hl h0 hD hv⟩
  have hside : ∀ (e : Side) v, v ≠ 0 → v ≠ c.consts.any →
      ((links c).view s v = none ↔ (links c).view s' v = none) → k ≠ .delete v →
      ∃ L, (links c).Visits s' (sideQuery c e v) L ∧
        (∀ l ∈ L, endOf e (l.source, l.target) = v ∧ (((links c).view s).Has l ∨ callAbout l.index k)) ∧
        ∀ l, ((links c).view s).Has l → ¬ callAbout l.index k → endOf e (l.source, l.target) = v → L.count l = 1 := by
    intro e v h0 ha hst hdel
    obtain ⟨L, g1, g2, g3⟩ := each_side_vis hc hn e h0 ha
    refine ⟨_, g1, ?_, ?_⟩
    · intro l hl
      obtain ⟨a, ha, rfl⟩ := List.mem_map.1 hl
      obtain ⟨g4, g5⟩ := (g3 a).1 ha
      have hlive : LiveIn s' free' a := by
        rcases g5 with g5 | g5
        · exact hn.live e a (.inl g5.2)
        · exact hn.live e a (.inr g5.2)
      refine ⟨g4, ?_⟩
      rcases honly a hlive with g | g | g
      · exact .inl g
      · exact .inr g
      · exfalso; rw [g] at g4; apply h0; rw [← g4]; cases e <;> rfl
    · intro l hl hca hle
      obtain ⟨h1, h2, h3, h4, h5, h6⟩ := hkept l hl hca
      rw [count_linkAt s' g2, if_pos]
      refine ⟨(g3 _).2 ⟨by rw [h6]; exact hle, ?_⟩, h4.symm⟩
      rw [← h5] at hle
      have := htree e _ h1 h2 (by rw [hle]; exact h0) (by rw [hle]; exact hdel) (by rw [hle]; exact hst)
      rw [hle] at this; exact this
  refine ⟨fun l hl hca hne => ?_, ?_, fun v h0 ha hst hdel => ⟨hside .src v h0 ha hst hdel, hside .tgt v h0 ha hst hdel⟩,
    ?_⟩
  · obtain ⟨h1, h2, h3, h4, h5, h6⟩ := hkept l hl hca
    show getLink c s' l.index = _
    rw [getLink_vis hc hn, if_pos (hvis l hl hca hne), h4]
  · obtain ⟨L, g1, g2, g3⟩ := eachAll_vis hc hn
    refine ⟨_, g1, ?_, ?_⟩
    · intro l hl
      obtain ⟨a, ha, rfl⟩ := List.mem_map.1 hl
      rcases honly a ((g3 a).1 ha).1 with g | g | g
      · exact .inl g
      · exact .inr (.inl g)
      · exact .inr (.inr (by simp [Store.linkAt, g]))
    · intro l hl hca hne
      obtain ⟨h1, h2, h3, h4, h5, h6⟩ := hkept l hl hca
      rw [count_linkAt s' g2, if_pos ⟨(g3 _).2 (hvis l hl hca hne), h4.symm⟩]
  · intro x y hx0 hxa hxs hxd hy0 hya hys hyd hup
    obtain ⟨vx, ex⟩ := isUnused_some hn.base x
    obtain ⟨vy, ey⟩ := isUnused_some hn.base y
    obtain ⟨a, e, T, p1, p2, p3⟩ := pairSearch_vis hn hx0 hy0 ex ey
    have hvisit : ∀ (hv : a ≠ 0 → Vis s' free' I E a),
        (links c).Visits s' [c.consts.any, x, y] (if a = 0 then [] else [s'.linkAt a]) := by
      intro hv σ hd st
      simp only [links, eachLinks, List.length_cons, List.length_nil, Nat.reduceAdd, Nat.reduceEqDiff, if_false,
        hc.index_eq, hc.source_eq, hc.target_eq, List.getElem?_cons_zero, List.getElem?_cons_succ, Option.bind_some, if_true,
        each3, ex, ey, hxa, hya, false_and, p1, hc.null_eq]
      by_cases ha : a = 0
      · simp [ha, runH]
      · simp only [ha, if_false, getLink_vis hc hn, if_pos (hv ha), Option.bind_some, runH]
        rcases hd st (s'.linkAt a) with ⟨_ | _, st'⟩ <;> rfl
    have hT : ∀ b, T e b → I e b ∨ E e b := by
      intro b hb
      rcases p3 with ⟨rfl, _⟩ | ⟨rfl, _⟩
      · exact .inl hb
      · exact .inr hb
    have hva : a ≠ 0 → Vis s' free' I E a ∧ s'.data a = (x, y) := by
      intro ha
      rcases p2 with p2 | ⟨_, q1, q2⟩
      · exact absurd p2.1 ha
      refine ⟨⟨hn.live e a (hT a q1), fun hs => ?_⟩, q2⟩
      cases e with
      | tgt => exact hT a q1
      | src =>
        by_cases haj : a = j
        · subst haj
          rcases hM.self (hT a q1) hs with g | g
          · exact g
          · exfalso
            rw [q2] at g
            cases k with
            | create => exact hx0 (congrArg Prod.fst g)
            | update i1 a1 b1 =>
              refine hup i1 ?_
              have g1 := congrArg Prod.fst g
              have g2 := congrArg Prod.snd g
              simp only [newOf] at g1 g2
              rw [g1, g2]
            | delete i1 => exact hx0 (congrArg Prod.fst g)
        · rcases hM.only a (hn.live .src a (hT a q1)) with g | g
          · have hd := (hM.keep a haj g).2
            rw [q2] at hd
            refine hM.seen a haj g ?_ (by rw [← hd]; exact hx0)
            rintro ⟨e1, e2⟩
            rw [← hd] at e2
            exact hyd (by rw [e1]; congr 1; exact e2.symm)
          · rw [q2] at g; exact absurd (congrArg Prod.fst g) hx0
    have hvis' := hvisit fun ha => (hva ha).1
    refine ⟨if a = 0 then none else some a, ?_, ?_, ?_⟩
    · show ((links c).find s' [c.consts.any, x, y]).map _ = _
      simp only [Links.find, Links.eachBy_eq hvis', Option.map_some]
      by_cases ha : a = 0 <;> simp [ha, Store.linkAt, runH]
    · intro b hb
      by_cases ha : a = 0
      · rw [if_pos ha] at hb; cases hb
      · rw [if_neg ha] at hb
        cases hb
        obtain ⟨g1, g2⟩ := hva ha
        show getLink c s' a = _
        rw [getLink_vis hc hn, if_pos g1]
        simp [Store.linkAt, g2]
    · intro l hl hca hls hlt'
      obtain ⟨h1, h2, h3, h4, h5, h6⟩ := hkept l hl hca
      rw [hls, hlt'] at h5 h6
      have ha : a ≠ 0 := by
        intro ha
        rcases p2 with ⟨_, q⟩ | q
        · refine q l.index ?_ h6
          rcases p3 with ⟨rfl, hv⟩ | ⟨rfl, rfl, hv⟩
          · have := htree e _ h1 h2
            rw [h5] at this
            cases e
            · rcases this hx0 hxd hxs with g | g
              · exact g.2
              · exact absurd hv g.1
            · rcases this hy0 hyd hys with g | g
              · exact g.2
              · exact absurd hv g.1
          · have := htree .src _ h1 h2
            rw [h5] at this
            rcases this hx0 hxd hxs with g | g
            · exact absurd g.1 hv
            · exact g.2
        · exact q.1 ha
      rw [if_neg ha]; simp

/-- What reopening finds at `i` in each image of a call. -/
def afterCrash (s : Store) (k : Call) (i : Nat) : List (Option (Option Link)) :=
  (callImages cfg0 s k).map fun m => match init cfg0 m with
    | some (.ok s') => if m.hdr.allocated < s'.ilen then (links cfg0).getLink s' i else none
    | _ => none

/-- Deleting link 3 of `sNet`: after every crash point link 4 = (9,1) is found again. So it is after every crash point of
a creation, which takes the unused index 5. -/
example : Reach cfg0 sNet ∧ Supported ((links cfg0).view sNet) (.delete 3) ∧
    ((links cfg0).view sNet).Has ⟨4, 9, 1⟩ ∧ ¬ callAbout 4 (.delete 3) ∧ Call.delete 3 ≠ .delete 1 ∧
    afterCrash sNet (.delete 3) 4 = List.replicate 12 (some (some ⟨4, 9, 1⟩)) ∧
    Supported ((links cfg0).view sNet) .create ∧
    afterCrash sNet .create 4 = List.replicate 2 (some (some ⟨4, 9, 1⟩)) :=
  ⟨sNet_reach, ⟨twinFree_noTwin cfg0_ok (reach_good cfg0_ok sNet_reach) (by decide +kernel), fun j _ => by
      by_cases hj : j < 7
      · have : ∀ j, j < 7 → twinFree cfg0 sNet j = true := by decide +kernel
        exact twinFree_noTwin cfg0_ok (reach_good cfg0_ok sNet_reach) (this j hj)
      · intro p hp
        have := view_bound cfg0_ok (reach_good cfg0_ok sNet_reach) hp
        have : sNet.hdr.allocated = 6 := by decide +kernel
        omega⟩,
   show (links cfg0).view sNet 4 = some (9, 1) by decide +kernel, show ¬ (3 = 4) by decide, by decide, by decide +kernel,
   trivial, by decide +kernel⟩

/-- **C54** is false of the link being changed: for every store, every link with a non-null source and every update of
it there is a crash point after which reopening the memories no longer finds the link, by lookup or by a traversal of the
whole store. -/
theorem C54_interrupted_update_hides_the_link (hc : CfgOK c) {s : Store} (h : Reach c s) {i x y : Nat}
    (hv : (links c).view s i = some (x, y)) (hx : x ≠ 0) (ht : ((links c).view s).NoTwin i) (a b : Nat) :
    ∃ m ∈ callImages c s (.update i a b), ∀ (d e : Nat → Nat → Option Nat) (n1 n2 : Nat) (s' : Store), ExactAlloc d →
      ExactAlloc e → init (c.withAllocs d e) { m with dlen := n1, ilen := n2 } = some (.ok s') →
      m.hdr.allocated < s'.ilen →
      (links c).getLink s' i = some none ∧ ∃ L, (links c).Visits s' [] L ∧ ∀ l ∈ L, l.index ≠ i := by
  obtain ⟨free, hi⟩ := reach_good hc h
  obtain ⟨hl, hp⟩ := live_of_view hc hi.toInv0 hv
  obtain ⟨m, hm, q1, q2, I, E, q3, q4, q5⟩ := relink_hides hc hi.toInv0 hl (noTwinIn hc hi.toInv0 hl ht) a b
  refine ⟨m, ?_, fun d e n1 n2 s' hd he ho hlt => ?_⟩
  · simp only [callImages, callRun, Run.read, getLink_eq hc hi.net hi.exact, if_pos hl, List.mem_cons]
    exact .inr hm
  · exact q3.hidden hc q4 q5 (by rw [q2, hp]; exact hx) hd he ho hlt

/-- An update of link 2 = (1,3) of `sNet`, with the images and the reopening. -/
example : Reach cfg0 sNet ∧ (links cfg0).view sNet 2 = some (1, 3) ∧ ((links cfg0).view sNet).NoTwin 2 ∧
    afterCrash sNet (.update 2 3 3) 2 =
      [some (some ⟨2, 1, 3⟩), some (some ⟨2, 1, 3⟩), some none, some none, some none, some none,
       some (some ⟨2, 3, 3⟩)] :=
  ⟨sNet_reach, by decide +kernel, twinFree_noTwin cfg0_ok (reach_good cfg0_ok sNet_reach) (by decide +kernel),
   by decide +kernel⟩

/-- **C54** is also false of links the call is not about: for every store, when a link `i` is deleted, each link whose
target is `i` and whose source is not null is lost if the process dies while the store moves it to another tree. -/
theorem C54_interrupted_delete_hides_a_user (hc : CfgOK c) {s : Store} (h : Reach c s) {i j x : Nat}
    (hi : (links c).view s i ≠ none) (hd : CanDelete ((links c).view s) i) (hji : j ≠ i)
    (hj : (links c).view s j = some (x, i)) (hx : x ≠ 0) :
    ∃ m ∈ callImages c s (.delete i), ∀ (d e : Nat → Nat → Option Nat) (n1 n2 : Nat) (s' : Store), ExactAlloc d →
      ExactAlloc e → init (c.withAllocs d e) { m with dlen := n1, ilen := n2 } = some (.ok s') →
      m.hdr.allocated < s'.ilen →
      (links c).getLink s' j = some none ∧ ∃ L, (links c).Visits s' [] L ∧ ∀ l ∈ L, l.index ≠ j := by
  obtain ⟨free, hI⟩ := reach_good hc h
  have hl := (view_ne_none hc hI.toInv0).1 hi
  obtain ⟨hlj, hp⟩ := live_of_view hc hI.toInv0 hj
  obtain ⟨m, hm, q1, q2, I, E, q3, q4, q5⟩ := resolve_hides hc hI.toInv0 hl (by
    intro d k hk'
    refine noTwinIn hc hI.toInv0 hk'.1 (hd k ⟨hk'.2.1, (s.data k).1, (s.data k).2,
      by rw [view_eq hc hI.toInv0, if_pos hk'.1], ?_⟩)
    cases d
    · exact Or.inl hk'.2.2
    · exact Or.inr hk'.2.2) (x0 := j) ⟨hlj, hji, by rw [hp]; rfl⟩
  refine ⟨m, ?_, fun d e n1 n2 s' hd he ho hlt => ?_⟩
  · simp only [callImages, callRun, Run.read, getLink_eq hc hI.net hI.exact, if_pos hl, List.mem_cons]
    refine .inr ?_
    unfold Run.seq
    split
    · exact hm
    · exact List.mem_append_left _ hm
  · exact q3.hidden hc q4 q5 (by rw [q2, hp]; exact hx) hd he ho hlt

/-- Deleting link 3 of `sNet` while link 2 = (1,3) refers to it. -/
example : Reach cfg0 sNet ∧ (links cfg0).view sNet 3 ≠ none ∧ (links cfg0).view sNet 2 = some (1, 3) ∧
    afterCrash sNet (.delete 3) 2 = some (some ⟨2, 1, 3⟩) :: some none :: List.replicate 10 (some (some ⟨2, 1, 3⟩)) :=
  ⟨sNet_reach, by decide +kernel, by decide +kernel, by decide +kernel⟩

/-- What searching for a doublet returns after reopening each image of a call. -/
def searchAfterCrash (s : Store) (k : Call) (x y : Nat) : List (Option (Option Nat)) :=
  (callImages cfg0 s k).map fun m => match init cfg0 m with
    | some (.ok s') => if m.hdr.allocated < s'.ilen then (links cfg0).search s' x y else none
    | _ => none

/-- **C54**, undefined behaviour after a crash: link 2 of `sNet` is updated to (4,3) and the process dies after the link
is in the tree of its new source but not in that of its target. A search for (4,3) in the reopened store then finds the
index and unwraps a link that the store regards as unused (`unwrap_unchecked` of `None`). -/
theorem C54_search_after_crash_can_be_undefined : Reach cfg0 sNet ∧
    Supported ((links cfg0).view sNet) (.update 2 4 3) ∧
    searchAfterCrash sNet (.update 2 4 3) 4 3 =
      [some none, some none, some none, some none, some none, none, some (some 2)] :=
  ⟨sNet_reach, ⟨twinFree_noTwin cfg0_ok (reach_good cfg0_ok sNet_reach) (by decide +kernel), by decide, by decide⟩,
   by decide +kernel⟩

end Verif.Split.Props
