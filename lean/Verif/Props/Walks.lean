import Verif.Walks
import Verif.Grounded
import Verif.Props.Stacks

/-!
# C123: behind both validators no walk along references comes back
-/

namespace Verif

theorem Walk.live {v : View} (hw : Whole v) (h0 : v 0 = none) : ∀ {L : List Nat}, Walk v L → ∀ i ∈ L, v i ≠ none := by
  intro L h
  induction h with
  | stop hi => intro j hj; simp at hj; rw [hj]; exact hi
  | @go i a b k L hi hk _ _ ih =>
    intro j hj
    rcases List.mem_cons.1 hj with rfl | hj
    · rw [hi]; simp
    · exact ih j hj

/-- A walk that does not come back is no longer than there are links. -/
theorem NoReturn.short {v : View} (h : NoReturn v) (hw : Whole v) (h0 : v 0 = none) {n : Nat} (hn : v.Size n) {L : List Nat} (hL : Walk v L) :
    L.length ≤ n := by
  obtain ⟨M, -, m2, m3⟩ := hn
  have := nodup_length_le (h L hL) (M := M) fun k hk => (m3 k).2 (hL.live hw h0 k hk)
  omega

end Verif

namespace Verif.Stacks.Props
open Verif Verif.Links

section United
open Verif.Unit Verif.Unit.Props

variable {c : Cfg}

/-- **C123**, united store. Both validators are directly on the store, in either order, with any number of `UniqueValidator`,
`UsagesValidator`, `CascadeUsagesResolver` and `NonNullDeletionResolver` on top, and updates give two null ends or two ends that name links.
If no walk along references came back to a link it had been at, then none ever does, whatever is called through the stack; and no walk
is longer than there are links. -/
theorem C123_no_walk_comes_back (hc : CfgOK c) {D' : Links Store} (hD : BothValidators (links c) D')
    {ds : List Deco} (hds : NoUniqueResolver ds) {s0 s : Store} (h0 : Reach c s0)
    (hu : ((links c).view s0).Uniq) (hw : Whole ((links c).view s0)) (hn : NoReturn ((links c).view s0))
    (h : Used (stack ds D') (fun _ => True) (fun s _ a b => EndsExist ((links c).view s) a b) s0 s) :
    NoReturn ((links c).view s) ∧
    ∀ n, (links c).count s = some n → ∀ L, Walk ((links c).view s) L → L.length ≤ n := by
  obtain ⟨k1, k2⟩ := validators_treeIn (reachLawful hc) (k := c.consts) hc.index_eq (fun _ _ _ => trivial) hD
  have hz : ∀ s, (D'.consts s).null = 0 := by
    intro s; rcases hD with rfl | rfl <;> exact hc.null_eq
  obtain ⟨k3, k4⟩ := stack_plain k1 k2 (fun _ _ h => h) (fun s i _ => .inl ⟨hz s, hz s⟩) ds hds.plain
  have k4 : UpdateKeeps (stack ds D') (TreeIn (reachLawful hc) c.consts) (fun s _ a b => EndsExist ((links c).view s) a b)
      (Stays (links c)) := fun _ _ _ _ _ _ _ _ _ hs hU ho => k4 hs (hU.imp id fun e => ⟨e.1, e.2, trivial⟩) ho
  have hP : TreeIn (reachLawful hc) c.consts s0 := ⟨⟨h0, rfl, hu, hw⟩, hn⟩
  have hT := h.keeps (T := Stays (links c)) hP (fun {σ s q hd st o} hs _ ho => by
    rw [(hD.forwards ds).create] at ho
    exact treeIn_create _ hs (united_created (q := q) hc hs.1.1 ho)) k3 k4
  refine ⟨hT.2, fun n hc' L hL => ?_⟩
  obtain ⟨m, g1, g2⟩ := count_size (reachLawful hc) hT.1.1
  rw [hc'] at g1; cases g1
  exact hT.2.short hT.1.2.2.2 ((reachLawful hc).null s hT.1.1) g2 hL

end United

section Split
open Verif.Split Verif.Split.Props

variable {c : Split.Cfg}

/-- **C123**, split store: as for the united store, under the conditions of C84 on the split store. -/
theorem C123_split_no_walk_comes_back (hc : Split.CfgOK c) {D' : Links Split.Store} (hD : BothValidators (Split.links c) D')
    {ds : List Deco} (hds : NoUniqueResolver ds) {s0 s : Split.Store} (h0 : Split.Reach c s0)
    (hu : ((Split.links c).view s0).Uniq) (hw : Whole ((Split.links c).view s0)) (hn : NoReturn ((Split.links c).view s0))
    (h : Used (stack ds D') (GrowTogether c) (fun s i a b => EndsExistIn ((Split.links c).view s) i a b) s0 s) :
    NoReturn ((Split.links c).view s) ∧
    ∀ n, (Split.links c).count s = some n → ∀ L, Walk ((Split.links c).view s) L → L.length ≤ n := by
  have hv0 : ∀ s, Split.Reach c s → (Split.links c).view s 0 = none := fun s hs => (Split.reachLawful hc).null s hs
  obtain ⟨k1, k2⟩ := validators_treeIn (Split.reachLawful hc) (k := c.consts) hc.index_eq (fun s i hs => by
    refine ⟨fun h => absurd rfl h, fun h p hp => ?_⟩
    have : i = 0 := by omega
    rw [this, hv0 s hs] at hp; cases hp) hD
  have hz : ∀ s, (D'.consts s).null = 0 := by
    intro s; rcases hD with rfl | rfl <;> exact hc.null_eq
  obtain ⟨k3, k4⟩ := stack_plain k1 k2 (fun _ _ h => h) (fun s i _ => .inl ⟨hz s, hz s⟩) ds hds.plain
  have k4 : UpdateKeeps (stack ds D') (TreeIn (Split.reachLawful hc) c.consts)
      (fun s i a b => EndsExistIn ((Split.links c).view s) i a b) (Stays (Split.links c)) :=
    fun _ _ _ _ _ _ _ _ _ hs hU ho => k4 hs (hU.1.imp id fun e => ⟨e.1, e.2, fun _ h => e.2 (h ▸ hv0 _ hs.1.1), hU.2⟩) ho
  have hP : TreeIn (Split.reachLawful hc) c.consts s0 := ⟨⟨h0, rfl, hu, hw⟩, hn⟩
  have hT := h.keeps (T := Stays (Split.links c)) hP (fun {σ s q hd st o} hs hg ho => by
    rw [(hD.forwards ds).create] at ho
    exact treeIn_create _ hs (split_created (q := q) hc hs.1.1 hs.1.2.2.2 hg ho)) k3 k4
  refine ⟨hT.2, fun n hc' L hL => ?_⟩
  obtain ⟨m, g1, g2⟩ := count_size (Split.reachLawful hc) hT.1.1
  rw [hc'] at g1; cases g1
  exact hT.2.short hT.1.2.2.2 (hv0 s hT.1.1) g2 hL

end Split

section UnitedExamples
open Verif.Unit Verif.Unit.Props Verif.Deco.Props

theorem empty_reach : Reach cfg0 (store0 cfg0) := .fresh (c := cfg0) cfg0.alloc alloc0_good rfl

theorem empty_view : (links cfg0).view (store0 cfg0) = View.empty := by
  funext k
  cases h : (links cfg0).view (store0 cfg0) k with
  | none => rfl
  | some p =>
    have := forall_of_collect (reachLawful cfg0_ok) empty_reach (p := fun _ => false) (by decide +kernel) (x := p.1) (y := p.2) h
    cases this

/-- 1 = (1,1), 2 = (2,1) and 3 = (2,1) is refused, so 3 = (2,2), 4 = (3,2). The update of 2 to (4,4) would close a cycle; it is refused
because 3 uses 2. -/
def treeCalls : List Call := [.create, .update 1 1 1, .create, .update 2 2 1, .create, .update 3 2 1, .update 3 2 2, .create, .update 4 3 2,
  .update 2 4 4]

example : ∃ s, Used plain3 (fun _ => True) (fun s _ a b => EndsExist ((links cfg0).view s) a b) (store0 cfg0) s ∧
    (List.range 6).map ((links cfg0).view s) = [none, some (1, 1), some (2, 1), some (2, 2), some (3, 2), none] ∧
    Walk ((links cfg0).view s) [4, 3, 2, 1] ∧ NoReturn ((links cfg0).view s) := by
  have h : (runIn plain3 (fun s _ a b => existB ((links cfg0).view s) a b) treeCalls (store0 cfg0)).map (fun s =>
      (List.range 6).map ((links cfg0).view s)) = some [none, some (1, 1), some (2, 1), some (2, 2), some (3, 2), none] := by
    decide +kernel
  rw [Option.map_eq_some_iff] at h
  obtain ⟨s, h1, h2⟩ := h
  have hu := used_of_run (C := fun _ => True) (U := fun s _ a b => EndsExist ((links cfg0).view s) a b)
    (fun _ => trivial) (fun _ _ _ _ => existB_exist) treeCalls .start h1
  have := C123_no_walk_comes_back cfg0_ok plain3_both plain3_none empty_reach (by rw [empty_view]; intro i p h; cases h)
    (by rw [empty_view]; intro i a b h; cases h) (by rw [empty_view]; exact .empty) hu
  have h3 := h2
  simp [List.range, List.range.loop] at h3
  obtain ⟨-, e1, e2, e3, e4, -⟩ := h3
  exact ⟨s, hu, h2, .go e4 (.inl rfl) (by decide) (.go e3 (.inl rfl) (by decide) (.go e2 (.inr rfl) (by decide)
    (.stop (by rw [e1]; simp)))), this.1⟩

/-- **C123** needs `UsagesValidator`: behind `UniqueValidator` alone two links can be made to refer to each other. -/
theorem C123_unique_validator_alone_lets_walks_come_back : ∃ s,
    Used (uniqueValidator (links cfg0)) (fun _ => True) (fun s _ a b => EndsExist ((links cfg0).view s) a b) (store0 cfg0) s ∧
    Walk ((links cfg0).view s) [1, 2, 1] ∧ ¬ NoReturn ((links cfg0).view s) := by
  have h : (runIn (uniqueValidator (links cfg0)) (fun s _ a b => existB ((links cfg0).view s) a b)
      [.create, .create, .update 1 2 2, .update 2 1 1] (store0 cfg0)).map (fun s =>
      (List.range 3).map ((links cfg0).view s)) = some [none, some (2, 2), some (1, 1)] := by decide +kernel
  rw [Option.map_eq_some_iff] at h
  obtain ⟨s, h1, h2⟩ := h
  have hu := used_of_run (C := fun _ => True) (U := fun s _ a b => EndsExist ((links cfg0).view s) a b)
    (fun _ => trivial) (fun _ _ _ _ => existB_exist) _ .start h1
  simp [List.range, List.range.loop] at h2
  obtain ⟨-, e1, e2⟩ := h2
  have hw : Walk ((links cfg0).view s) [1, 2, 1] :=
    .go e1 (.inl rfl) (by decide) (.go e2 (.inl rfl) (by decide) (.stop (by rw [e1]; simp)))
  exact ⟨s, hu, hw, fun h => absurd (h _ hw) (by decide)⟩

end UnitedExamples

section SplitExamples
open Verif.Split Verif.Split.Props Verif.Deco.Props

theorem split_empty_reach : Split.Reach Split.cfg0 (Split.store0 Split.cfg0) :=
  .fresh (c := Split.cfg0) Split.cfg0.dalloc Split.cfg0.ialloc Split.cfg0_ok.dalloc_eq Split.cfg0_ok.ialloc_eq rfl

theorem split_empty_view : (Split.links Split.cfg0).view (Split.store0 Split.cfg0) = View.empty := by
  funext k
  cases h : (Split.links Split.cfg0).view (Split.store0 Split.cfg0) k with
  | none => rfl
  | some p =>
    have := forall_of_collect (Split.reachLawful Split.cfg0_ok) split_empty_reach (p := fun _ => false) (by decide +kernel)
      (x := p.1) (y := p.2) h
    cases this

example : ∃ s, Used splitPlain (GrowTogether Split.cfg0)
      (fun s i a b => EndsExistIn ((Split.links Split.cfg0).view s) i a b) (Split.store0 Split.cfg0) s ∧
    (List.range 6).map ((Split.links Split.cfg0).view s) = [none, some (1, 1), some (2, 1), some (2, 2), some (3, 2), none] ∧
    Walk ((Split.links Split.cfg0).view s) [4, 3, 2, 1] ∧ NoReturn ((Split.links Split.cfg0).view s) := by
  have h : (runIn splitPlain (fun s i a b => existInB ((Split.links Split.cfg0).view s) i a b) treeCalls (Split.store0 Split.cfg0)).map
      (fun s => (List.range 6).map ((Split.links Split.cfg0).view s)) =
        some [none, some (1, 1), some (2, 1), some (2, 2), some (3, 2), none] := by
    decide +kernel
  rw [Option.map_eq_some_iff] at h
  obtain ⟨s, h1, h2⟩ := h
  have hu := used_of_run (C := GrowTogether Split.cfg0)
    (U := fun s i a b => EndsExistIn ((Split.links Split.cfg0).view s) i a b)
    split_grow (fun _ _ _ _ => existInB_exist) treeCalls .start h1
  have := C123_split_no_walk_comes_back Split.cfg0_ok splitPlain_both splitPlain_none split_empty_reach
    (by rw [split_empty_view]; intro i p h; cases h) (by rw [split_empty_view]; intro i a b h; cases h)
    (by rw [split_empty_view]; exact .empty) hu
  have h3 := h2
  simp [List.range, List.range.loop] at h3
  obtain ⟨-, e1, e2, e3, e4, -⟩ := h3
  exact ⟨s, hu, h2, .go e4 (.inl rfl) (by decide) (.go e3 (.inl rfl) (by decide) (.go e2 (.inr rfl) (by decide)
    (.stop (by rw [e1]; simp)))), this.1⟩

end SplitExamples

end Verif.Stacks.Props
