import Verif.Batch
import Verif.Props.Decorators
import Verif.Props.SplitUniqueExact

/-!
# C109: a batch of changes to different links can be made in any order
-/

namespace Verif.Batch.Props
open Verif Verif.Links

variable {S : Type} {D : Links S} (W : Lawful D) {s : S}

/-- **C109**. Take updates and deletions of different links that make no duplicates. In whatever order they are made, every
call succeeds (an update returns the index, a deletion null), every link named is what its change makes of it, every other
link is as before, and doublets are unique. Two orders end with the same links. -/
theorem C109_any_order (hs : W.Inv s) {L L₁ L₂ : List Change} (h1 : L.Perm L₁) (h2 : L.Perm L₂)
    (hi : Independent (D.view s) L) (hsup : Supported W (D.view s) L) :
    ∃ s₁ s₂, W.Inv s₁ ∧ W.Inv s₂ ∧ run D L₁ s = some (L₁.map fun c => .ok c.returns, s₁) ∧
      run D L₂ s = some (L₂.map fun c => .ok c.returns, s₂) ∧
      After (D.view s) L (D.view s₁) ∧ D.view s₂ = D.view s₁ ∧ (D.view s₁).Uniq := by
  obtain ⟨s₁, a1, a2, a3, a4⟩ := run_law W L₁ s hs (hi.perm h1) fun i a b hm => hsup i a b (h1.mem_iff.2 hm)
  obtain ⟨s₂, b1, b2, b3, b4⟩ := run_law W L₂ s hs (hi.perm h2) fun i a b hm => hsup i a b (h2.mem_iff.2 hm)
  refine ⟨s₁, s₂, a2, b2, a1, b1, ⟨fun c hc => a3.1 c (h1.mem_iff.1 hc), fun k hk => a3.2 k fun c hc => hk c (h1.mem_iff.2 hc)⟩,
    After.unique (h2.symm.trans h1) b3 a3, a4⟩

/-- **C109**, rewriting a store. Collect all links with a traversal and update each to `f(link)`. If `f` gives different links
different doublets, none of which another link had before (null doublets excepted), then every call succeeds and every link is
what `f` makes of it; in whatever order the traversal yields the links. -/
theorem C109_rewrite_every_link (hs : W.Inv s) (hu : (D.view s).Uniq) (f : Link → Nat × Nat)
    (hdiff : ∀ l m, (D.view s).Has l → (D.view s).Has m → f l = f m → f l ≠ (0, 0) → l.index = m.index)
    (hnew : ∀ l m, (D.view s).Has l → (D.view s).Has m → f l = (m.source, m.target) → f l ≠ (0, 0) → l.index = m.index)
    (hsup : ∀ l, (D.view s).Has l → ∀ w : View, w l.index = some (l.source, l.target) →
      W.CanUpdate w l.index (f l).1 (f l).2) :
    ∃ L s', D.eachIter s [] = some L ∧ W.Inv s' ∧
      run D (rewriting f L) s = some (L.map fun l => .ok l.index, s') ∧ (D.view s').Uniq ∧
      ∀ k, D.view s' k = (D.view s k).map fun p => f ⟨k, p.1, p.2⟩ := by
  obtain ⟨L, h1, h2, h3⟩ := W.each_all s hs
  have hin : ∀ c ∈ rewriting f L, ∃ l, (D.view s).Has l ∧ c = .set l.index (f l).1 (f l).2 := by
    intro c hc
    obtain ⟨l, hl, rfl⟩ := List.mem_map.1 hc
    exact ⟨l, (h3 l).1 hl, rfl⟩
  have hmap : (rewriting f L).map Change.index = L.map (·.index) := by
    simp [rewriting, List.map_map, Function.comp_def, Change.index]
  have hI : Independent (D.view s) (rewriting f L) := by
    refine ⟨hu, ?_, ?_, ?_, ?_⟩
    · rw [hmap]
      exact nodup_index h2 fun l hl => (h3 l).1 hl
    · intro c hc
      obtain ⟨l, hl, rfl⟩ := hin c hc
      have hl : D.view s l.index = some (l.source, l.target) := hl
      simp [Change.index, hl]
    · intro c hc p hp h0 j hj
      obtain ⟨l, hl, rfl⟩ := hin c hc
      cases hp
      exact (hnew l ⟨j, (f l).1, (f l).2⟩ hl hj rfl h0).symm
    · intro c hc d hd p hp hq h0
      obtain ⟨l, hl, rfl⟩ := hin c hc
      obtain ⟨m, hm, rfl⟩ := hin d hd
      cases hp
      exact hdiff l m hl hm (Option.some.inj hq).symm h0
  have hS : Supported W (D.view s) (rewriting f L) := by
    intro i a b hm w hw
    obtain ⟨l, hl, e⟩ := hin _ hm
    cases e
    exact hsup l hl w (hw.trans hl)
  obtain ⟨s', g1, g2, g3, g4⟩ := run_law W (rewriting f L) s hs hI hS
  refine ⟨L, s', ?_, g2, ?_, g4, ?_⟩
  · simp [eachIter, countBy, W.count_all s hs L h1, collect_eq h1]
  · rw [g1]
    simp [rewriting, List.map_map, Function.comp_def, Change.returns]
  · intro k
    cases hv : D.view s k with
    | none =>
      rw [g3.2 k fun c hc e => ?_, hv]; rfl
      obtain ⟨l, hl, rfl⟩ := hin c hc
      have hl : D.view s l.index = some (l.source, l.target) := hl
      rw [show l.index = k from e, hv] at hl; cases hl
    | some p =>
      exact g3.1 (.set k (f ⟨k, p.1, p.2⟩).1 (f ⟨k, p.1, p.2⟩).2) (List.mem_map.2 ⟨⟨k, p.1, p.2⟩, (h3 _).2 hv, rfl⟩)

/-- Checking `Independent` on the links a traversal returns. -/
theorem independent_of_collect (hs : W.Inv s) (hu : (D.view s).Uniq) {L : List Change}
    (h1 : (L.map Change.index).Nodup) (h2 : ∀ c ∈ L, D.view s c.index ≠ none)
    (h3 : (D.collect s []).map (fun ls => ls.all fun l => L.all fun c =>
      c.result != some (l.source, l.target) || (l.source, l.target) == (0, 0) || l.index == c.index) = some true)
    (h4 : ∀ c ∈ L, ∀ d ∈ L, c.result = d.result → c.result ≠ none → c.result ≠ some (0, 0) → c.index = d.index) :
    Independent (D.view s) L := by
  refine ⟨hu, h1, h2, fun c hc p hp h0 j hj => ?_, fun c hc d hd p hp hq h0 =>
    h4 c hc d hd (hp.trans hq.symm) (by rw [hp]; simp) (by rw [hp]; simpa using h0)⟩
  have := forall_of_collect W hs h3 hj
  rw [List.all_eq_true] at this
  have := this c hc
  simp only [Bool.or_eq_true, bne_iff_ne, beq_iff_eq] at this
  rcases this with (h | h) | h
  · exact absurd hp h
  · exact absurd h h0
  · exact h

end Verif.Batch.Props

namespace Verif.Unit.Props
open Verif Links Batch Batch.Props

/-- `sNet` is 1 = (1,1), 2 = (1,3), 3 = (2,2), 4 = (0,0), 6 = (3,2). -/
def changes : List Change := [.set 4 3 1, .del 6, .set 2 3 4, .del 1]

theorem changes_independent : Independent ((links cfg0).view sNet) changes :=
  independent_of_collect (reachLawful cfg0_ok) sNet_reach sNet_uniq (by decide) (by decide +kernel) (by decide +kernel)
    (by decide)

example := C109_any_order (reachLawful cfg0_ok) sNet_reach (List.Perm.refl changes) (List.reverse_perm changes).symm
  changes_independent (fun _ _ _ _ _ _ => trivial)

example : (run (links cfg0) changes sNet).map (fun r => (r.1.map Except.toOption, (List.range 7).map ((links cfg0).view r.2))) =
      some ([some 4, some 0, some 2, some 0], [none, none, some (3, 4), some (2, 2), some (3, 1), none, none]) ∧
    (run (links cfg0) changes.reverse sNet).map (fun r => (List.range 7).map ((links cfg0).view r.2)) =
      some [none, none, some (3, 4), some (2, 2), some (3, 1), none, none] := by decide +kernel

/-- Every link of `sNet` but the null link is turned to (9, its index), the null link is left null. -/
def turned (l : Link) : Nat × Nat := if (l.source, l.target) = (0, 0) then (0, 0) else (9, l.index)

example := C109_rewrite_every_link (reachLawful cfg0_ok) sNet_reach sNet_uniq turned
  (fun l m hl hm e h0 => by
    unfold turned at e h0
    split at e
    · next h => rw [if_pos h] at h0; exact absurd rfl h0
    · split at e
      · cases e
      · exact (Prod.mk.inj e).2)
  (fun l m hl hm e h0 => by
    have := forall_of_collect (reachLawful cfg0_ok) sNet_reach (p := fun l => l.source != 9) (by decide +kernel) hm
    unfold turned at e h0
    split at e
    · next h => rw [if_pos h] at h0; exact absurd rfl h0
    · have e := (Prod.mk.inj e).1
      rw [← e] at this; simp at this)
  (fun _ _ _ _ => trivial)

/-- **C109**: the order shows only later, in the indices that creations return: after deleting 2 and then 3, the next link is 3; after
deleting 3 and then 2, it is 2. -/
theorem C109_order_shows_in_new_indices : ∃ s s₁ s₂, Reach cfg0 s ∧ Independent ((links cfg0).view s) [.del 2, .del 3] ∧
    run (links cfg0) [.del 2, .del 3] s = some ([.ok 0, .ok 0], s₁) ∧
    run (links cfg0) [.del 3, .del 2] s = some ([.ok 0, .ok 0], s₂) ∧ (links cfg0).view s₁ = (links cfg0).view s₂ ∧
    ((links cfg0).create s₁).map (·.res.toOption) = some (some 3) ∧
    ((links cfg0).create s₂).map (·.res.toOption) = some (some 2) := by
  have hi : Independent ((links cfg0).view sNet) [.del 2, .del 3] :=
    independent_of_collect (reachLawful cfg0_ok) sNet_reach sNet_uniq (by decide) (by decide +kernel) (by decide +kernel)
      (by decide)
  obtain ⟨s₁, s₂, -, -, h1, h2, -, h3, -⟩ := C109_any_order (reachLawful cfg0_ok) sNet_reach (L := [.del 2, .del 3])
    (L₁ := [.del 2, .del 3]) (L₂ := [.del 3, .del 2]) (.refl _) (.swap _ _ _) hi (fun _ _ _ _ _ _ => trivial)
  have e1 : ((run (links cfg0) [.del 2, .del 3] sNet).bind fun r => ((links cfg0).create r.2).map (·.res.toOption)) =
      some (some 3) := by decide +kernel
  have e2 : ((run (links cfg0) [.del 3, .del 2] sNet).bind fun r => ((links cfg0).create r.2).map (·.res.toOption)) =
      some (some 2) := by decide +kernel
  rw [h1] at e1
  rw [h2] at e2
  exact ⟨sNet, s₁, s₂, sNet_reach, hi, h1, h2, h3.symm, e1, e2⟩

end Verif.Unit.Props

namespace Verif.Split.Props
open Verif Links Batch Batch.Props

theorem changes_independent : Independent ((links cfg0).view sNetU) Unit.Props.changes :=
  independent_of_collect (reachLawful cfg0_ok) sNetU_reach sNetU_uniq (by decide) (by decide +kernel) (by decide +kernel)
    (by decide)

/-- The updates in the example give no link itself as an end, and none has a source without a target. -/
example := C109_any_order (reachLawful cfg0_ok) sNetU_reach (List.Perm.refl Unit.Props.changes)
  (List.reverse_perm Unit.Props.changes).symm changes_independent (by
    intro i a b hm w hw
    simp only [Unit.Props.changes, List.mem_cons, Change.set.injEq, List.not_mem_nil, or_false, reduceCtorEq, false_or] at hm
    rcases hm with ⟨rfl, rfl, rfl⟩ | ⟨rfl, rfl, rfl⟩
    · exact ⟨by decide, fun h => absurd h (by decide)⟩
    · exact ⟨by decide, fun h => absurd h (by decide)⟩)

example : (run (links cfg0) Unit.Props.changes sNetU).map
      (fun r => (r.1.map Except.toOption, (List.range 7).map ((links cfg0).view r.2))) =
      some ([some 4, some 0, some 2, some 0], [none, none, some (3, 4), some (2, 2), some (3, 1), none, none]) ∧
    (run (links cfg0) Unit.Props.changes.reverse sNetU).map (fun r => (List.range 7).map ((links cfg0).view r.2)) =
      some [none, none, some (3, 4), some (2, 2), some (3, 1), none, none] := by decide +kernel

end Verif.Split.Props
