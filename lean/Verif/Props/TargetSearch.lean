import Verif.Props.WeakTrees
import Verif.Props.SplitNull

/-!
# C96: every index of a store can search for a pair

The indices of a store are values of public types with the method `search` of the trait `LinksTree`. The stores themselves ask the
index of sources only (split: external sources, and both internal ones).
-/

namespace Verif.Unit.Props
open Verif Verif.Unit
variable {c : Cfg}

/-- `targets.search` (`targets_recursionless_size_balanced_tree.rs:159-181`). -/
def tgtSearch (s : Store) (source target : Nat) : Option Nat :=
  searchLoop s.tgtNode tgtLt4 tgtGt4 source target (s.len + 1) s.hdr.rootT

theorem tgtSearch_ok {s : Store} {free : List Nat} {ts tt : Tree} (h : Inv0 c s free ts tt) (x y : Nat) :
    ∃ k, tgtSearch s x y = some k ∧
      ((k = 0 ∧ ∀ j, LiveIn s free j → y ≠ 0 → s.lk j ≠ (x, y)) ∨
       (k ≠ 0 ∧ LiveIn s free k ∧ y ≠ 0 ∧ s.lk k = (x, y))) := by
  have hsz := tgt_size_lt h
  have hlt := h.base.alloc_lt
  obtain ⟨k, h1, h2⟩ := searchLoop_spec (get := s.tgtNode) (lk := s.lk) (lt4 := tgtLt4) (gt4 := tgtGt4)
    tgtGt4_eq
    (by intro a b c d e f; simp only [tgtLt4_iff, not_tgtLt4]; omega)
    (by intro a b c d e f; simp only [tgtLt4_iff, not_tgtLt4]; omega)
    (by intro a b c d; simp only [not_tgtLt4]; omega)
    (by intro a b; simp [not_tgtLt4])
    x y tt s.hdr.rootT (s.len + 1) (tgt_rep h) (by omega)
    (h.tgt.tree.ordered.imp fun {a b} hab => hab)
  refine ⟨k, h1, ?_⟩
  rcases h2 with ⟨h2, h3⟩ | ⟨h2, h3, h4⟩
  · refine Or.inl ⟨h2, fun j hj hy he => h3 j ((h.tgt_mem j).2 ⟨hj, ?_⟩) he⟩
    have : (s.cell j).target = y := congrArg Prod.snd he
    rw [this]; exact hy
  · have h5 := (h.tgt_mem k).1 h3
    have : (s.cell k).target = y := congrArg Prod.snd h4
    exact Or.inr ⟨h2, h5.1, this ▸ h5.2, h4⟩

/-- **C96**, united store: after every history each of the two indices, asked for a pair, returns the index of a link with that pair
if there is one, and 0 if there is none; the index of sources for pairs with a source, the index of targets for pairs with a target. -/
theorem C96_search (hc : CfgOK c) {s : Store} (h : Reach c s) (x y : Nat) :
    (x ≠ 0 → ∃ k, srcSearch s x y = some k ∧
      ((k ≠ 0 ∧ (links c).view s k = some (x, y)) ∨ (k = 0 ∧ ∀ j, (links c).view s j ≠ some (x, y)))) ∧
    (y ≠ 0 → ∃ k, tgtSearch s x y = some k ∧
      ((k ≠ 0 ∧ (links c).view s k = some (x, y)) ∨ (k = 0 ∧ ∀ j, (links c).view s j ≠ some (x, y)))) := by
  obtain ⟨free, ts, tt, hi⟩ := reach_good hc h
  have e := view_eq hc hi.toInv0
  have yes : ∀ {k}, LiveIn s free k → s.lk k = (x, y) → (links c).view s k = some (x, y) := fun hl hk => by
    rw [e, if_pos hl, ← hk]
  have no : (∀ j, LiveIn s free j → s.lk j ≠ (x, y)) → ∀ j, (links c).view s j ≠ some (x, y) := fun hn j hj => by
    rw [e] at hj
    split at hj
    · next hl => exact hn j hl (Option.some.inj hj)
    · cases hj
  constructor
  · intro hx
    obtain ⟨k, e1, e2⟩ := srcSearch_ok hi.toInv0 x y
    exact ⟨k, e1, e2.symm.imp (fun g => ⟨g.1, yes g.2.1 g.2.2.2⟩) fun g => ⟨g.1, no fun j hj => g.2 j hj hx⟩⟩
  · intro hy
    obtain ⟨k, e1, e2⟩ := tgtSearch_ok hi.toInv0 x y
    exact ⟨k, e1, e2.symm.imp (fun g => ⟨g.1, yes g.2.1 g.2.2.2⟩) fun g => ⟨g.1, no fun j hj => g.2 j hj hy⟩⟩

example : Reach cfg0 sNet ∧ srcSearch sNet 3 2 = some 6 ∧ tgtSearch sNet 3 2 = some 6 ∧ tgtSearch sNet 2 3 = some 0 :=
  ⟨sNet_reach, by decide +kernel⟩

end Verif.Unit.Props

namespace Verif.Split.Props
open Verif Verif.Split
open Verif.Unit (tgtLt4 tgtGt4 tgtGt4_eq tgtLt4_iff not_tgtLt4)
variable {c : Cfg}

/-- `external_targets.search` (`external_targets_…:163-185`). -/
def extTgtSearch (s : Store) (source target : Nat) : Option Nat :=
  searchLoop (s.node .tgt) tgtLt4 tgtGt4 source target (s.ilen + 1) s.hdr.rootT

theorem extTgtSearch_ok {s : Store} {free : List Nat} {I E : Side → Nat → Prop} (h : Net c s free I E) (x y : Nat) :
    ∃ k, extTgtSearch s x y = some k ∧
      ((k = 0 ∧ ∀ j, E .tgt j → s.data j ≠ (x, y)) ∨ (k ≠ 0 ∧ E .tgt k ∧ s.data k = (x, y))) := by
  obtain ⟨ti, te, f1, f2, f3, f4, f5, f6, f7⟩ := h.forest .tgt
  obtain ⟨hrep, hsz⟩ := h.tree_facts f2 fun k hk => Or.inr ((f4 k).1 hk)
  have hlt := h.base.alloc_lt
  obtain ⟨k, e1, e2⟩ := searchLoop_spec (get := s.node .tgt) (lk := s.data) (lt4 := tgtLt4) (gt4 := tgtGt4)
    tgtGt4_eq
    (by intro a b c d e f; simp only [tgtLt4_iff, not_tgtLt4]; omega)
    (by intro a b c d e f; simp only [tgtLt4_iff, not_tgtLt4]; omega)
    (by intro a b c d; simp only [not_tgtLt4]; omega)
    (by intro a b; simp [not_tgtLt4])
    x y te s.hdr.rootT (s.ilen + 1) hrep (by omega)
    (f2.ordered.imp fun {a b} hab => hab)
  refine ⟨k, e1, ?_⟩
  rcases e2 with ⟨e2, e3⟩ | ⟨e2, e3, e4⟩
  · exact Or.inl ⟨e2, fun j hj he => e3 j ((f4 j).2 hj) he⟩
  · exact Or.inr ⟨e2, (f4 k).1 e3, e4⟩

/-- **C96**, split store: after every history, for every pair (x, y). The index inside of link x, and the one inside of link y, find
the pair if x, or y, is a link. The two external indices find it if x, or y, is not a link. -/
theorem C96_split_search (hc : CfgOK c) {s : Store} (h : Reach c s) {x y : Nat} :
    let Right := fun k => (k ≠ 0 ∧ (links c).view s k = some (x, y)) ∨ (k = 0 ∧ ∀ j, (links c).view s j ≠ some (x, y))
    ((links c).view s x ≠ none → ∃ k, intSearch s .src x y = some k ∧ Right k) ∧
    ((links c).view s y ≠ none → ∃ k, intSearch s .tgt x y = some k ∧ Right k) ∧
    (x ≠ 0 → (links c).view s x = none → ∃ k, extSearch s x y = some k ∧ Right k) ∧
    (y ≠ 0 → (links c).view s y = none → ∃ k, extTgtSearch s x y = some k ∧ Right k) := by
  intro Right
  obtain ⟨free, hi⟩ := reach_good hc h
  have e := view_eq hc hi.toInv0
  have yes : ∀ {k}, LiveIn s free k → s.data k = (x, y) → (links c).view s k = some (x, y) := fun hl hk => by
    rw [e, if_pos hl, ← hk]
  have no : (∀ j, LiveIn s free j → s.data j ≠ (x, y)) → ∀ j, (links c).view s j ≠ some (x, y) := fun hn j hj => by
    rw [e] at hj
    split at hj
    · next hl => exact hn j hl (Option.some.inj hj)
    · cases hj
  have live : ∀ {v}, (links c).view s v ≠ none → LiveIn s free v := fun {v} hv => by
    rw [e] at hv
    exact Decidable.byContradiction fun hh => hv (if_neg hh)
  have dead : ∀ {v}, (links c).view s v = none → ¬ LiveIn s free v := fun {v} hv hl => by
    rw [e, if_pos hl] at hv; cases hv
  refine ⟨fun hx => ?_, fun hy => ?_, fun h0 hx => ?_, fun h0 hy => ?_⟩
  · have hl := live hx
    obtain ⟨k, e1, e2⟩ := intSearch_ok hi.net .src x y (show x ≠ 0 by have := hl.1; omega) (live_lt hi.base hl)
    exact ⟨k, e1, e2.symm.imp (fun g => ⟨g.1, yes g.2.1.1 g.2.2⟩) fun g => ⟨g.1, no fun j hj he => g.2 j ⟨hj,
      by rw [he]; show x ≠ 0; have := hl.1; omega, by rw [he]; exact hl⟩ he⟩⟩
  · have hl := live hy
    obtain ⟨k, e1, e2⟩ := intSearch_ok hi.net .tgt x y (show y ≠ 0 by have := hl.1; omega) (live_lt hi.base hl)
    exact ⟨k, e1, e2.symm.imp (fun g => ⟨g.1, yes g.2.1.1 g.2.2⟩) fun g => ⟨g.1, no fun j hj he => g.2 j ⟨hj,
      by rw [he]; show y ≠ 0; have := hl.1; omega, by rw [he]; exact hl⟩ he⟩⟩
  · obtain ⟨k, e1, e2⟩ := extSearch_ok hi.net x y
    exact ⟨k, e1, e2.symm.imp (fun g => ⟨g.1, yes g.2.1.1 g.2.2⟩) fun g => ⟨g.1, no fun j hj he => g.2 j ⟨hj,
      by rw [he]; exact h0, by rw [he]; exact dead hx⟩ he⟩⟩
  · obtain ⟨k, e1, e2⟩ := extTgtSearch_ok hi.net x y
    exact ⟨k, e1, e2.symm.imp (fun g => ⟨g.1, yes g.2.1.1 g.2.2⟩) fun g => ⟨g.1, no fun j hj he => g.2 j ⟨hj,
      by rw [he]; exact h0, by rw [he]; exact dead hy⟩ he⟩⟩

/-- In `sGap` link 1 does not exist; the links are 2 = (0, 1), 3 = (1, 2), 4 = (0, 9). -/
example : Reach cfg0 sGap ∧ intSearch sGap .tgt 1 2 = some 3 ∧ extSearch sGap 1 2 = some 3 ∧ extTgtSearch sGap 0 9 = some 4 ∧
    extTgtSearch sGap 1 9 = some 0 := ⟨sGap_reach, by decide +kernel⟩

end Verif.Split.Props
