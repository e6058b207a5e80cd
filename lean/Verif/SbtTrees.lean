import Verif.SbtLaws
import Verif.CircList
import Verif.Mend

/-!
# A size-balanced tree that finds nodes by key keeps the weaker contract

`Sbt.trees` is not `LawfulTrees`: see `trees_not_lawful`. (Helper for C93.)
-/

namespace Verif.Sbt
open Verif

/-- The trees of `Verif/Sbt.lean` and the lists of `Verif/CircList.lean`. Models no code of /repo. -/
def trees : TreesCrate := ⟨fun _ => True, attach, detach, Circ.attachFirst, Circ.detach⟩

theorem srt_of_apart {lt gt : Nat → Nat → Bool} (w : WeakOrd lt gt) {t : Tree} (hn : t.toList.Nodup) (ho : Ordered lt t.toList)
    (ha : Apart lt gt t.toList) : Srt lt t := by
  unfold Ordered at ho
  refine (ho.and (List.Pairwise.and_mem.1 hn)).imp fun {a b} hab => ?_
  rcases ha a hab.2.1 b hab.2.2.1 hab.2.2.2 with h | h
  · exact h
  · rw [w.gt_eq, hab.1] at h; cases h

theorem perm_of_iff {l l' : List Nat} (h : l.Nodup) (h' : l'.Nodup) (hm : ∀ k, k ∈ l ↔ k ∈ l') : l.Perm l' :=
  (List.perm_ext_iff_of_nodup h h').2 hm

theorem trees_weak : LawfulTrees₀ trees where
  leaf := trivial
  attach lt gt m t r n w ht hn0 hn hl hr ha := by
    have hnd : (n :: t.toList).Nodup := List.nodup_cons.2 ⟨hn, ht.nodup⟩
    cases t with
    | leaf =>
      obtain rfl : r = 0 := ht.holds
      refine ⟨setSize m n 1, n, by simp only [trees, attach, if_pos], .node .leaf n .leaf,
        ⟨trivial, ⟨rfl, hn0, hl, hr, by simp [setSize, Tree.size]⟩, by simp [Tree.toList], by simp [Tree.toList, Ordered]⟩, List.Perm.refl _, ?_⟩
      intro k hk
      simp only [List.mem_cons, not_or] at hk
      simp [setSize, hk.1]
    | node a x b =>
      have hs := srt_of_apart w ht.nodup ht.ordered fun y hy z hz => ha y (.tail _ hy) z (.tail _ hz)
      obtain ⟨e, hx0, h1, h2, h3⟩ := ht.holds
      have hr0 : r ≠ 0 := by rw [e]; exact hx0
      have hsz : m.size r = (Tree.node a x b).size := by rw [e]; exact h3
      obtain ⟨m', r', t', g1, g2, g3, g4, g5, g6⟩ := attachCore_ok w hn0 (m.size r * m.size r + m.size r + 1) m _ r ht.holds (by simp) hs hn
        (fun k hk => by
          rcases ha n (.head _) k (.tail _ hk) (fun e => hn (e ▸ hk)) with h | h
          · exact .inl h
          · rw [w.gt_eq] at h; exact .inr h)
        (fun d => by cases d; exact hl; exact hr)
        (by have := gm_le (lt := lt) n (Tree.node a x b); rw [hsz]; omega)
      refine ⟨m', r', by simp only [trees, attach, if_neg hr0]; exact g1, t', ⟨trivial, g2, Srt.nodup w g3, Srt.ordered w g3⟩,
        perm_of_iff (Srt.nodup w g3) hnd (by simpa using g5), ?_⟩
      intro k hk
      simp only [List.mem_cons, not_or] at hk
      exact (g6 k hk.1 hk.2).fields
  detach lt gt m t r n w ht hn ha := by
    cases t with
    | leaf => cases hn
    | node a x b =>
      have hs := srt_of_apart w ht.nodup ht.ordered ha
      obtain ⟨e, hx0, h1, h2, h3⟩ := ht.holds
      have hr0 : r ≠ 0 := by rw [e]; exact hx0
      have hsz : m.size r = (Tree.node a x b).size := by rw [e]; exact h3
      obtain ⟨m', r', g1, t', g2, g3, g4, g5, g6, g7, g8⟩ := detachCore_ok w (m.size r * m.size r + m.size r + 1) m _ r n ht.holds hs hn
        (by have := om_le (lt := lt) n (Tree.node a x b); rw [hsz]; omega)
      refine ⟨m', r', by simp only [trees, detach, if_neg hr0]; exact g1, t', ⟨trivial, g2, Srt.nodup w g3, Srt.ordered w g3⟩, ?_,
        g6 .L, g6 .R, g7, fun k hk => (g8 k hk).fields⟩
      have hnot : n ∉ t'.toList := fun e => ((g5 n).1 e).2 rfl
      refine perm_of_iff (List.nodup_cons.2 ⟨hnot, Srt.nodup w g3⟩) ht.nodup fun k => ?_
      rw [List.mem_cons, g5]
      by_cases hk : k = n
      · subst hk; simp [hn]
      · simp [hk]
  listAttachFirst := Circ.lawful.listAttachFirst
  listDetach := Circ.lawful.listDetach

/-! ### The contract of `Verif/Trees.lean` asks for more -/

/-- The node 2 has two children. The nodes 3 and 4 are equal, and 3 is the left child of 4. -/
def twins : TMem where
  left := fun k => if k = 2 then 1 else if k = 4 then 3 else 0
  right := fun k => if k = 2 then 4 else 0
  size := fun k => if k = 2 then 4 else if k = 4 then 2 else if k = 1 then 1 else if k = 3 then 1 else 0

def twinsTree : Tree := .node (.node .leaf 1 .leaf) 2 (.node (.node .leaf 3 .leaf) 4 .leaf)

/-- The order that does not tell 3 from 4. -/
def capLt (a b : Nat) : Bool := min a 3 < min b 3

theorem capOrd : WeakOrd capLt (fun a b => capLt b a) where
  gt_eq _ _ := rfl
  irrefl a := by simp [capLt]
  trans a b c := by simp only [capLt, decide_eq_true_eq]; omega
  ntrans a b c := by simp only [capLt, decide_eq_false_iff_not]; omega

theorem twins_tree : IsTree trees.shape capLt twins twinsTree 2 where
  shape := trivial
  holds := by
    refine ⟨rfl, by decide, ⟨rfl, by decide, rfl, rfl, rfl⟩, ⟨rfl, by decide, ⟨rfl, by decide, rfl, rfl, rfl⟩, rfl, rfl⟩, rfl⟩
  nodup := by decide
  ordered := by unfold Ordered; decide

/-- Removing the node 2, which has no equal, makes 3 its own right child. -/
theorem twins_detach : (trees.treeDetach capLt (fun a b => capLt b a) twins 2 2).map (fun p => (p.2, p.1.right 3)) = some (3, 3) := by
  decide +kernel

theorem trees_not_lawful : ¬ LawfulTrees trees := by
  intro h
  obtain ⟨m', r', t', h1, h2, -⟩ := h.detach capLt (fun a b => capLt b a) twins twinsTree 2 2 capOrd twins_tree (by decide) (by decide)
  have e := twins_detach
  rw [h1] at e
  simp only [Option.map_some, Option.some.injEq, Prod.mk.injEq] at e
  obtain ⟨rfl, e⟩ := e
  have hh := h2.holds
  cases t' with
  | leaf => exact absurd hh (by simp [Verif.Holds])
  | node a k b =>
    have hb := hh.2.2.2.1
    rw [← hh.1, e] at hb
    have := congrArg sizeOf (Verif.Holds.unique hh hb)
    simp at this

end Verif.Sbt
