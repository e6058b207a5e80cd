import Verif.Props.Access
import Verif.Props.AnyFile
import Verif.Props.PowerLoss

/-!
# Property C105: a crash makes no link up (united store)

`image_ends` (`Props/Access.lean`) says that the links that were there keep their ends. Here is the converse: whatever a store
opened after a crash shows was there before the call, or is what the interrupted call was asked to make, or has no source.
-/

namespace Verif.Unit.Props
open Verif Verif.Unit

variable {c : Cfg} {P : Programs}

/-- Where a link may come from that is found after a crash inside the call `k` on a store with the links `v`: it was
there, or the call was asked to give it these ends, or it has no source. -/
def Accounted (v : View) (k : Call) (l : Link) : Prop :=
  v.Has l ∨ k = .update l.index l.source l.target ∨ l.source = 0

/-- **C105**. The process dies after any single assignment inside a call, also inside an algorithm of the `trees` crate,
and the memory is reopened. Every link that a lookup or a traversal of the whole store then shows was in the store before the
call with these very ends, or is the link the call was updating with the ends it was given, or has no source. -/
theorem C105_crash_makes_no_link_up (hc : CfgOK c) (hP : P.Implements c.trees) {s : Store} (h : Reach c s) (k : Call)
    (hk : ∀ j, callAbout j k → ((links c).view s).NoTwin j) {a : Nat → Nat → Option Nat} (ha : GoodAlloc a) {σ : Type}
    (hd : WH σ) (st : σ) :
    ∃ f0, ∀ f, f0 ≤ f → ∀ m ∈ (callA (c.withAlloc a) P f hd st k (.of s)).1,
      ∀ (a' : Nat → Nat → Option Nat) (n : Nat) (s' : Store),
      init (c.withAlloc a') { m.s with len := n } = some (.ok s') → m.s.hdr.allocated < s'.len →
      (∀ i l, (links c).getLink s' i = some (some l) → Accounted ((links c).view s) k l) ∧
      ∃ L, (links c).Visits s' [] L ∧ ∀ l ∈ L, Accounted ((links c).view s) k l := by
  obtain ⟨free, ts, tt, hi⟩ := reach_good hc h
  obtain ⟨f0, hf⟩ := callA_made (D := fun _ _ _ => True) (hc.withAlloc ha) (hP.on fun _ _ _ => True) (hi.withAlloc a) k
    (fun j hj hl => noTwinIn hc hi.toInv0 hl (hk j hj)) (by
      cases k with
      | create => trivial
      | update i a b => exact fun _ => ⟨fun _ _ _ _ => ⟨fun _ => trivial, fun _ => trivial⟩, fun _ _ _ _ => ⟨fun _ => trivial, fun _ => trivial⟩⟩
      | delete i => exact fun _ => ⟨fun _ _ _ _ => ⟨fun _ => trivial, fun _ => trivial⟩, fun _ _ _ _ => ⟨fun _ => trivial, fun _ => trivial⟩⟩) hd st
  refine ⟨f0, fun f hff m hm a' n s' ho hlt => ?_⟩
  obtain ⟨hcell, hal⟩ : s'.cell = m.s.cell ∧ s'.hdr.allocated = m.s.hdr.allocated := by
    unfold init at ho
    simp only at ho
    split at ho
    · simp at ho
    · split at ho
      · simp at ho
      · split at ho
        · simp at ho
        · next n2 _ =>
          cases hcs : csub n2 1 with
          | none => rw [hcs] at ho; simp at ho
          | some r =>
            rw [hcs] at ho
            simp only [Option.bind_some] at ho
            split at ho
            · simp only [Option.some.injEq, Except.ok.injEq] at ho
              subst ho; exact ⟨rfl, rfl⟩
            · simp at ho
  have hlt' : s'.hdr.allocated < s'.len := by rw [hal]; exact hlt
  have look : ∀ i l, (links c).getLink s' i = some (some l) → Accounted ((links c).view s) k l := by
    intro i l hl
    have hl : getLink c s' i = some (some l) := hl
    unfold getLink at hl
    cases he : exists? c s' i with
    | none => rw [he] at hl; cases hl
    | some e =>
      rw [he] at hl
      cases e with
      | false => cases hl
      | true =>
        unfold exists? at he
        split at he
        · next hin =>
          have h1 := hin.1
          rw [hc.start_eq] at h1
          have hi0 : i ≠ 0 := by omega
          have hget : s'.get i = some (s'.cell i) := by
            unfold Store.get
            rw [if_pos (by omega), if_neg hi0]
          simp only [Option.bind_some, if_true, getLinkUnchecked, hget, Option.map_some, Option.some.injEq] at hl
          have hused : ¬ ((s'.cell i).sizeS = 0 ∧ (s'.cell i).source ≠ 0) := by
            unfold isUnused at he
            split at he
            · rw [hget] at he
              simp only [Option.map_some, Option.some.injEq, Bool.not_eq_true', Bool.and_eq_false_iff, beq_eq_false_iff_ne,
                bne_eq_false_iff_eq] at he
              rcases he with he | he
              · exact fun g => he g.1
              · exact fun g => g.2 he
            · cases he
          rw [hcell] at hl hused
          subst hl
          rcases hf f hff m hm i with e | e | ⟨e1, e2⟩ | ⟨x, y, e1, e2⟩
          · exact .inr (.inr (Classical.byContradiction fun g => hused ⟨e, g⟩))
          · exact .inr (.inr e)
          · refine .inl ((has_iff hc hi.toInv0 _).2 ⟨e1, ?_⟩)
            simp only [Store.lk, Prod.mk.injEq] at e2
            simp only [Store.linkAt, e2.1, e2.2]
          · simp only [Store.lk, Prod.mk.injEq] at e2
            refine .inr (.inl ?_)
            rw [e1, e2.1, e2.2]
        · cases he
  obtain ⟨L, h1, h2⟩ := all_visits (c := c) hlt'
  exact ⟨look, L, h1, fun l hl => look l.index l (h2 l hl)⟩

/-- Five links, of which 2 and then 3 were deleted: the list of unused slots is 3, 2. -/
def sTwoGone : Store :=
  runs cfg0 [.create, .create, .create, .create, .create, .update 3 1 1, .update 4 1 4, .delete 2, .delete 3]

theorem sTwoGone_reach : Reach cfg0 sTwoGone := runs_reach (by decide +kernel)

/-- An update of link 4 of `sTwoGone` shows, after its assignments, the old ends, the new ones and in between no source. -/
example : CfgOK cfg0 ∧ Ref.programs.Implements cfg0.trees ∧ Reach cfg0 sTwoGone ∧
    (∀ j, callAbout j (.update 4 5 1) → ((links cfg0).view sTwoGone).NoTwin j) ∧
    (some (some ⟨4, 1, 4⟩) : Option (Option Link)) ∈ afterWrite sTwoGone (.update 4 5 1) 4 ∧
    (some (some ⟨4, 5, 1⟩) : Option (Option Link)) ∈ afterWrite sTwoGone (.update 4 5 1) 4 :=
  ⟨cfg0_ok, Ref.programs_implement, sTwoGone_reach, fun j hj => by
    cases hj
    exact twinFree_noTwin cfg0_ok (reach_good cfg0_ok sTwoGone_reach) (by decide +kernel), by decide +kernel, by decide +kernel⟩

/-- Reopening `m` maps all links and finds at 3 a link without source that leads to 2. -/
def madeUp (m : AStore) : Bool :=
  match init cfg0 m.s with
  | some (.ok s') => decide (m.s.hdr.allocated < s'.len) && decide ((links cfg0).getLink s' 3 = some (some ⟨3, 0, 2⟩))
  | _ => false

/-- **C105**: why links without source are excepted. In `sTwoGone` links 2 and 3 are deleted. A link is being created, in the
slot of link 3: after one of the assignments reopening finds a link 3 that leads from nothing to 2. It was not in the store,
and a creation makes a link that leads from nothing to nothing: the target is a pointer of the list of unused slots. -/
theorem C105_crash_while_creating_can_make_up_a_target : CfgOK cfg0 ∧ Ref.programs.Implements cfg0.trees ∧ Reach cfg0 sTwoGone ∧
    (links cfg0).getLink sTwoGone 3 = some none ∧
    (callA cfg0 Ref.programs 9 (σ := _root_.Unit) (fun _ _ _ => (.cont, ())) () .create (.of sTwoGone)).2.isSome ∧
    ∃ m ∈ (callA cfg0 Ref.programs 9 (σ := _root_.Unit) (fun _ _ _ => (.cont, ())) () .create (.of sTwoGone)).1,
      ∃ s', init cfg0 m.s = some (.ok s') ∧ m.s.hdr.allocated < s'.len ∧
        (links cfg0).getLink s' 3 = some (some ⟨3, 0, 2⟩) := by
  refine ⟨cfg0_ok, Ref.programs_implement, sTwoGone_reach, by decide +kernel, by decide +kernel, ?_⟩
  have h : ((callA cfg0 Ref.programs 9 (σ := _root_.Unit) (fun _ _ _ => (.cont, ())) () .create
      (.of sTwoGone)).1).any madeUp = true := by decide +kernel
  obtain ⟨m, hm, hh⟩ := List.any_eq_true.1 h
  refine ⟨m, hm, ?_⟩
  unfold madeUp at hh
  split at hh
  · next s' e =>
    simp only [Bool.and_eq_true, decide_eq_true_eq] at hh
    exact ⟨s', e, hh.1, hh.2⟩
  · cases hh

/-- As `sTwoGone` before link 3 is deleted. -/
def sOneGone : Store :=
  runs cfg0 [.create, .create, .create, .create, .create, .update 3 1 1, .update 4 1 4, .delete 2]

theorem sOneGone_reach : Reach cfg0 sOneGone := runs_reach (by decide +kernel)

/-- The memory at the end of a session on `sOneGone` that deletes links 3 and 4. -/
def sAllGone : Store :=
  ((written cfg0 Ref.programs 9 ([Call.delete 3, .delete 4].map quiet) (.of sOneGone)).getLast?).getD {}

/-- The same but for the size of the tree by sources at slot 3, which is as before the session. -/
def sTornGone : Store :=
  { sAllGone with cell := fun i => if i = 3 then { sAllGone.cell 3 with sizeS := (sOneGone.cell 3).sizeS } else sAllGone.cell i }

/-- **C105**: a power loss can make a link up. Links 3 and 4 are deleted, and of all that was assigned one word does not
reach the disk: the size of the tree below slot 3, which tells used slots from unused ones. A store opened on that file finds
a link 3 that leads from 4 to 2. Link 3 led from 1 to 1, and no call asked for anything else. -/
theorem C105_power_loss_can_make_a_link_up : ∃ (xs : List Step) (t : Store), CfgOK cfg0 ∧ Ref.programs.Implements cfg0.trees ∧
    Reach cfg0 sOneGone ∧ Session cfg0 sOneGone xs ∧ Torn (sOneGone :: written cfg0 Ref.programs 9 xs (.of sOneGone)) t ∧
    (links cfg0).getLink sOneGone 3 = some (some ⟨3, 1, 1⟩) ∧ (∀ x ∈ xs, ∀ i a b, x.call ≠ .update i a b) ∧
    opened t (fun s' => (links cfg0).getLink s' 3) = some (some ⟨3, 4, 2⟩) := by
  have hl : sAllGone ∈ written cfg0 Ref.programs 9 ([Call.delete 3, .delete 4].map quiet) (.of sOneGone) := by
    unfold sAllGone
    cases h : (written cfg0 Ref.programs 9 ([Call.delete 3, .delete 4].map quiet) (.of sOneGone)).getLast? with
    | none =>
      have : (written cfg0 Ref.programs 9 ([Call.delete 3, .delete 4].map quiet) (.of sOneGone)).getLast?.isSome = true := by
        decide +kernel
      rw [h] at this; cases this
    | some m => exact List.mem_of_getLast? h
  refine ⟨[Call.delete 3, .delete 4].map quiet, sTornGone, cfg0_ok, Ref.programs_implement, sOneGone_reach,
    sessionB_ok sOneGone_reach (by decide +kernel), fun i f => ?_, by decide +kernel, ?_, by decide +kernel⟩
  · by_cases h0 : i = 0
    · exact ⟨sAllGone, List.mem_cons_of_mem _ hl, by simp [Store.word, Store.slotWords, sTornGone, h0]⟩
    · by_cases h3 : i = 3
      · subst h3
        match f with
        | 4 => exact ⟨sOneGone, by simp, by simp [Store.word, Store.slotWords, sTornGone, Cell.words]⟩
        | 0 | 1 | 2 | 3 | 5 | 6 | 7 | n + 8 =>
          exact ⟨sAllGone, List.mem_cons_of_mem _ hl, by simp [Store.word, Store.slotWords, sTornGone, Cell.words]⟩
      · exact ⟨sAllGone, List.mem_cons_of_mem _ hl, by simp [Store.word, Store.slotWords, sTornGone, h0, h3]⟩
  · intro x hx i a b
    simp only [List.map_cons, List.map_nil, List.mem_cons, List.not_mem_nil, or_false] at hx
    rcases hx with rfl | rfl <;> simp [quiet]

end Verif.Unit.Props

/-! # Split store -/

namespace Verif.Split.Props
open Verif Verif.Split
open Verif.Unit.Props (Accounted)

variable {c : Cfg} {P : Programs}

/-- **C105**, split store. The process dies after any single assignment inside a supported call, also inside an algorithm of
the `trees` crate, and the memories are reopened. Every link that a lookup or a traversal of the whole store then shows was in
the store before the call with these very ends, or is the link the call was updating with the ends it was given, or has no
source. -/
theorem C105_split_crash_makes_no_link_up (hc : CfgOK c) (hP : P.Implements c.trees) {s : Store} (h : Reach c s)
    {k : Call} (hk : Supported ((links c).view s) k) {d i : Nat → Nat → Option Nat} (hd : ExactAlloc d)
    (hi : ExactAlloc i) {σ : Type} (hh : WH σ) (st : σ) :
    ∃ f0, ∀ f, f0 ≤ f → ∀ m ∈ (callA (c.withAllocs d i) P f hh st k (.of s)).1,
      ∀ (d' i' : Nat → Nat → Option Nat), ExactAlloc d' → ExactAlloc i' → ∀ (n1 n2 : Nat) (s' : Store),
      init (c.withAllocs d' i') { m.s with dlen := n1, ilen := n2 } = some (.ok s') → m.s.hdr.allocated < s'.ilen →
      (∀ i l, (links c).getLink s' i = some (some l) → Accounted ((links c).view s) k l) ∧
      ∃ L, (links c).Visits s' [] L ∧ ∀ l ∈ L, Accounted ((links c).view s) k l := by
  obtain ⟨free, hI⟩ := reach_good hc h
  have hc' := hc.withAllocs hd hi
  have hI' := hI.withAllocs d i
  have hk' : Supported ((links (c.withAllocs d i)).view s) k := by rw [view_withAllocs]; exact hk
  obtain ⟨f0, hf⟩ := callA_agree hc' (P := P) hP hI' hk' hh st
  refine ⟨f0, fun f hff x hx d' i' hd' hi' n1 n2 s' ho hlt => ?_⟩
  obtain ⟨m, hm, hnear⟩ := (hf f hff).2 x hx
  obtain ⟨n, hn2, -, e⟩ := init_ok (hc.withAllocs hd' hi') ho
  have hsd : s'.data = x.s.data := by rw [e]
  have hsx : s'.idx = x.s.idx := by rw [e]
  have hst : s'.stale = false := by rw [e]
  have hsi : s'.hdr.allocated < s'.ilen := by rw [e] at hlt ⊢; exact hlt
  have hsl : s'.hdr.allocated < s'.dlen := by rw [e] at hlt ⊢; exact hlt
  have look : ∀ i l, (links c).getLink s' i = some (some l) → Accounted ((links c).view s) k l := by
    intro i l hl
    have hl : getLink c s' i = some (some l) := hl
    have hat : s'.linkAt i = l := by
      rcases getLink_slot (c := c) hst hsi hsl i with e | e
      · rw [e] at hl; cases hl
      · rw [e] at hl; cases hl; rfl
    obtain ⟨hi1, hi2⟩ := getLink_le hl
    rw [hc.start_eq] at hi1
    have hi0 : i ≠ 0 := by omega
    have hused : ¬ ((s'.idx i).sizeT = 0 ∧ (s'.data i).1 ≠ 0) := by
      rintro ⟨g1, g2⟩
      have hu : isUnused s' i = some true := by
        unfold isUnused
        split
        · have e1 : s'.getI i = some (s'.idx i) := by
            unfold Store.getI
            rw [if_pos (by omega), if_neg hi0]
          have e2 : s'.getD i = some (s'.data i) := by
            unfold Store.getD
            rw [if_pos ⟨hst, by omega⟩]
          rw [e1, e2]
          simp [g1, g2]
        · rfl
      unfold getLink exists? at hl
      rw [if_pos ⟨by rw [hc.start_eq]; exact hi1, hi2⟩, hu] at hl
      cases hl
    rw [hsd, hsx] at hused
    subst hat
    rcases near_made hc' hI' hk' hm hnear hi0 with e | e | ⟨e1, e2⟩ | ⟨a, b, e1, e2⟩
    · exact .inr (.inr (Classical.byContradiction fun g => hused ⟨e, by rw [← hsd]; exact g⟩))
    · exact .inr (.inr (by simp only [Store.linkAt, hsd]; exact e))
    · exact .inl ((has_iff hc hI.toInv0 _).2 ⟨e1, by simp only [Store.linkAt, hsd, e2]⟩)
    · exact .inr (.inl (by simp only [Store.linkAt, hsd, e1, e2]))
  obtain ⟨L, h1, h2⟩ := all_visits (c := c) hst hsi hsl
  exact ⟨look, L, h1, fun l hl => look l.index l (h2 l hl)⟩

/-- Five links, of which 2 was deleted. -/
def sOneGone : Store :=
  runs cfg0 [.create, .create, .create, .create, .create, .update 3 1 1, .update 4 1 4, .delete 2]

theorem sOneGone_reach : Reach cfg0 sOneGone := runs_reach (by decide +kernel)

/-- Five links, of which 2 and then 3 were deleted: the list of unused slots is 3, 2. -/
def sTwoGone : Store :=
  runs cfg0 [.create, .create, .create, .create, .create, .update 3 1 1, .update 4 1 4, .delete 2, .delete 3]

theorem sTwoGone_reach : Reach cfg0 sTwoGone := runs_reach (by decide +kernel)

/-- An update of link 4 of `sTwoGone` shows, after its assignments, the old ends and the new ones. -/
example : CfgOK cfg0 ∧ Ref.programs.Implements cfg0.trees ∧ Reach cfg0 sTwoGone ∧
    Supported ((links cfg0).view sTwoGone) (.update 4 5 1) ∧
    (some (some ⟨4, 1, 4⟩) : Option (Option Link)) ∈ afterWrite sTwoGone (.update 4 5 1) 4 ∧
    (some (some ⟨4, 5, 1⟩) : Option (Option Link)) ∈ afterWrite sTwoGone (.update 4 5 1) 4 :=
  ⟨cfg0_ok, Ref.programs_implement, sTwoGone_reach,
    ⟨twinFree_noTwin cfg0_ok (reach_good cfg0_ok sTwoGone_reach) (by decide +kernel), by decide, fun h => by omega⟩,
    by decide +kernel, by decide +kernel⟩

/-- Reopening `m` maps all links and finds at 3 a link without source that leads to 2. -/
def madeUp (m : AStore) : Bool :=
  match init cfg0 m.s with
  | some (.ok s') => decide (m.s.hdr.allocated < s'.ilen) && decide ((links cfg0).getLink s' 3 = some (some ⟨3, 0, 2⟩))
  | _ => false

/-- **C105**, split store: why links without source are excepted. Links 2 and 3 of `sTwoGone` are deleted and a link is being
created, in the slot of link 3: after one of the assignments reopening finds a link 3 that leads from nothing to 2. -/
theorem C105_split_crash_while_creating_can_make_up_a_target : CfgOK cfg0 ∧ Ref.programs.Implements cfg0.trees ∧
    Reach cfg0 sTwoGone ∧ (links cfg0).getLink sTwoGone 3 = some none ∧
    (callA cfg0 Ref.programs 9 (σ := _root_.Unit) (fun _ _ _ => (.cont, ())) () .create (.of sTwoGone)).2.isSome ∧
    ∃ m ∈ (callA cfg0 Ref.programs 9 (σ := _root_.Unit) (fun _ _ _ => (.cont, ())) () .create (.of sTwoGone)).1,
      ∃ s', init cfg0 m.s = some (.ok s') ∧ m.s.hdr.allocated < s'.ilen ∧
        (links cfg0).getLink s' 3 = some (some ⟨3, 0, 2⟩) := by
  refine ⟨cfg0_ok, Ref.programs_implement, sTwoGone_reach, by decide +kernel, by decide +kernel, ?_⟩
  have h : ((callA cfg0 Ref.programs 9 (σ := _root_.Unit) (fun _ _ _ => (.cont, ())) () .create
      (.of sTwoGone)).1).any madeUp = true := by decide +kernel
  obtain ⟨m, hm, hh⟩ := List.any_eq_true.1 h
  refine ⟨m, hm, ?_⟩
  unfold madeUp at hh
  split at hh
  · next s' e =>
    simp only [Bool.and_eq_true, decide_eq_true_eq] at hh
    exact ⟨s', e, hh.1, hh.2⟩
  · cases hh

/-- The memories at the end of a session on `sOneGone` that deletes links 3 and 4. -/
def sAllGone : Store :=
  ((written cfg0 Ref.programs 9 ([Call.delete 3, .delete 4].map quiet) (.of sOneGone)).getLast?).getD {}

/-- The index file as before the session and the data file as after it. -/
def sTornGone : Store := { sOneGone with data := sAllGone.data }

theorem sTornGone_data (i f : Nat) : sTornGone.dataWord i f = sAllGone.dataWord i f := by
  simp only [Store.dataWord, sTornGone]

theorem sTornGone_idx (i f : Nat) : sTornGone.idxWord i f = sOneGone.idxWord i f := by
  simp only [Store.idxWord, Store.idxWords, sTornGone]

/-- **C105**, split store: a power loss can make a link up. Links 3 and 4 are deleted. The data file reaches the disk and
the index file does not, so each of them is as it was at a moment at which no call was running. A store opened on the two
files finds a link 3 that leads from 4 to 2. Link 3 led from 1 to 1, and no call asked for anything else. -/
theorem C105_split_power_loss_can_make_a_link_up : ∃ (xs : List Step) (t : Store), CfgOK cfg0 ∧
    Ref.programs.Implements cfg0.trees ∧ Reach cfg0 sOneGone ∧ Session cfg0 sOneGone xs ∧
    Torn (sOneGone :: written cfg0 Ref.programs 9 xs (.of sOneGone)) t ∧
    (links cfg0).getLink sOneGone 3 = some (some ⟨3, 1, 1⟩) ∧ (∀ x ∈ xs, ∀ i a b, x.call ≠ .update i a b) ∧
    opened t (fun s' => (links cfg0).getLink s' 3) = some (some ⟨3, 4, 2⟩) := by
  have hl : sAllGone ∈ written cfg0 Ref.programs 9 ([Call.delete 3, .delete 4].map quiet) (.of sOneGone) := by
    unfold sAllGone
    cases h : (written cfg0 Ref.programs 9 ([Call.delete 3, .delete 4].map quiet) (.of sOneGone)).getLast? with
    | none =>
      have : (written cfg0 Ref.programs 9 ([Call.delete 3, .delete 4].map quiet) (.of sOneGone)).getLast?.isSome = true := by
        decide +kernel
      rw [h] at this; cases this
    | some m => exact List.mem_of_getLast? h
  refine ⟨[Call.delete 3, .delete 4].map quiet, sTornGone, cfg0_ok, Ref.programs_implement, sOneGone_reach,
    sessionB_ok sOneGone_reach (by decide +kernel), fun i f => ⟨⟨sAllGone, List.mem_cons_of_mem _ hl, sTornGone_data i f⟩,
      ⟨sOneGone, List.mem_cons_self, sTornGone_idx i f⟩⟩, by decide +kernel, ?_, by decide +kernel⟩
  intro x hx i a b
  simp only [List.map_cons, List.map_nil, List.mem_cons, List.not_mem_nil, or_false] at hx
  rcases hx with rfl | rfl <;> simp [quiet]

end Verif.Split.Props
