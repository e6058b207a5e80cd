import Verif.Sweep
import Verif.Props.Batch

/-!
# C113: deleting everything that cannot be reached from the roots
-/

namespace Verif.Sweep.Props
open Verif Verif.Links Verif.Batch

variable {S : Type} {D : Links S} (W : Lawful D) {s : S}

/-- **C113**. On a store with unique doublets a client collects all links, marks those it gets to from the roots `R` by following sources
and targets, and deletes the others, in whatever order `K`. Every deletion succeeds. Afterwards exactly the links one gets to from the roots are
there, with the ends they had, and doublets are unique. If all ends were null or links, they still are. -/
theorem C113_sweep (hs : W.Inv s) (hu : (D.view s).Uniq) (R : List Nat) :
    ∃ L, D.eachIter s [] = some L ∧ ∀ K, K.Perm (garbage R L) →
      ∃ s', run D K s = some (K.map fun _ => .ok 0, s') ∧ W.Inv s' ∧
        (∀ k, Kept (D.view s) R k → D.view s' k = D.view s k) ∧ (∀ k, ¬ Kept (D.view s) R k → D.view s' k = none) ∧
        (D.view s').Uniq ∧ (Deco.Props.Closed (D.view s) → Deco.Props.Closed (D.view s')) := by
  obtain ⟨L, h1, h2, h3⟩ := W.each_all s hs
  refine ⟨L, by simp [eachIter, countBy, W.count_all s hs L h1, collect_eq h1], fun K hK => ?_⟩
  have hg : ∀ c, c ∈ K ↔ ∃ i, D.view s i ≠ none ∧ ¬ Kept (D.view s) R i ∧ c = .del i := fun c =>
    hK.mem_iff.trans (garbage_mem h3 c)
  have hI : Independent (D.view s) K := by
    refine ⟨hu, ?_, fun c hc => ?_, fun c hc p hp => ?_, fun c hc d hd p hp => ?_⟩
    · refine ((hK.map _).nodup_iff).2 ?_
      unfold garbage
      rw [List.map_map]
      exact (nodup_index h2 fun l hl => (h3 l).1 hl).sublist (List.filter_sublist.map _)
    · obtain ⟨i, hi, -, rfl⟩ := (hg c).1 hc; exact hi
    · obtain ⟨i, -, -, rfl⟩ := (hg c).1 hc; cases hp
    · obtain ⟨i, -, -, rfl⟩ := (hg c).1 hc; cases hp
  have hS : Supported W (D.view s) K := by
    intro i a b hm
    obtain ⟨_, -, -, e⟩ := (hg _).1 hm; cases e
  obtain ⟨s', g1, g2, g3, g4⟩ := run_law W K s hs hI hS
  have keep : ∀ k, Kept (D.view s) R k → D.view s' k = D.view s k := by
    intro k hk
    refine g3.2 k fun c hc e => ?_
    obtain ⟨i, -, hi, rfl⟩ := (hg c).1 hc
    exact hi (by rw [show i = k from e]; exact hk)
  have drop : ∀ k, ¬ Kept (D.view s) R k → D.view s' k = none := by
    intro k hk
    by_cases hv : D.view s k = none
    · rw [g3.2 k fun c hc e => ?_, hv]
      obtain ⟨i, hi, -, rfl⟩ := (hg c).1 hc
      exact hi (by rw [show i = k from e]; exact hv)
    · exact g3.1 (.del k) ((hg _).2 ⟨k, hv, hk, rfl⟩)
  refine ⟨s', ?_, g2, keep, drop, g4, fun hcl => ?_⟩
  · rw [g1]
    congr 2
    refine List.map_congr_left fun c hc => ?_
    obtain ⟨i, -, -, rfl⟩ := (hg c).1 hc; rfl
  · intro j a b hj
    have hk : Kept (D.view s) R j := Classical.byContradiction fun h => by rw [drop j h] at hj; cases hj
    rw [keep j hk] at hj
    obtain ⟨k1, k2⟩ := hcl j a b hj
    exact ⟨fun h => by rw [keep a (.source hk hj (k1 h))]; exact k1 h,
      fun h => by rw [keep b (.target hk hj (k2 h))]; exact k2 h⟩

end Verif.Sweep.Props

namespace Verif.Unit.Props
open Verif Verif.Links Verif.Batch Verif.Sweep Verif.Sweep.Props

/-- Keep what is reached from link 2 = (1, 3): links 1 = (1, 1) and 3 = (2, 2). Links 4 and 6 go. -/
example := C113_sweep (reachLawful cfg0_ok) sNet_reach sNet_uniq [2]

example : ((links cfg0).eachIter sNet []).map (garbage [2]) = some [.del 4, .del 6] ∧
    (((links cfg0).eachIter sNet []).bind fun L => run (links cfg0) (garbage [2] L) sNet).map
      (fun r => (r.1.map Except.toOption, (List.range 7).map ((links cfg0).view r.2))) =
      some ([some 0, some 0], [none, some (1, 1), some (1, 3), some (2, 2), none, none, none]) := by decide +kernel

end Verif.Unit.Props

namespace Verif.Split.Props
open Verif Verif.Links Verif.Batch Verif.Sweep Verif.Sweep.Props

example := C113_sweep (reachLawful cfg0_ok) sNetU_reach sNetU_uniq [2]

example : (((links cfg0).eachIter sNetU []).bind fun L => run (links cfg0) (garbage [2] L) sNetU).map
      (fun r => (r.1.map Except.toOption, (List.range 7).map ((links cfg0).view r.2))) =
      some ([some 0, some 0], [none, some (1, 1), some (1, 3), some (2, 2), none, none, none]) := by decide +kernel

end Verif.Split.Props
