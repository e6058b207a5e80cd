import Verif.RefPrograms
import Verif.CircList

/-!
# The usual algorithm for circular lists, assignment by assignment

Programs over the accessors that do what the functions of `Verif/CircList.lean` do. They model no code of /repo.
-/

namespace Verif.Circ
open Verif

/-- Attach before the first element, or as the only one. -/
def attachFirstP (_f n : Nat) : ListProg := do
  let f ← .get .first
  if f = 0 then
    .put (.first n)
    .put (.last n)
    .put (.prev n n)
    .put (.next n n)
    let z ← .get .size
    .put (.size (z + 1))
  else
    let p ← .get (.prev f)
    .put (.prev n p)
    .put (.next n f)
    .put (.first n)
    .put (.next p n)
    .put (.prev f n)
    let z ← .get .size
    .put (.size (z + 1))

/-- Detach. -/
def detachP (_f n : Nat) : ListProg := do
  let p ← .get (.prev n)
  let q ← .get (.next n)
  if q = n then
    .put (.first 0)
    .put (.last 0)
    .put (.prev n 0)
    .put (.next n 0)
    let z ← .get .size
    .put (.size (z - 1))
  else
    .put (.next p q)
    .put (.prev q p)
    let f ← .get .first
    .put (.first (if n = f then q else f))
    let l ← .get .last
    .put (.last (if n = l then p else l))
    .put (.prev n 0)
    .put (.next n 0)
    let z ← .get .size
    .put (.size (z - 1))

theorem next_mem {m : LMem} {l : List Nat} (h : IsList m l) {x : Nat} (hx : x ∈ l) : m.next x ∈ l := by
  obtain ⟨j, hj, e⟩ := List.getElem_of_mem hx
  have := h.next_eq j hj
  rw [Ref.getD_lt hj, e] at this
  rw [this]
  exact getD_mem (Nat.mod_lt _ (by omega))

theorem attachFirstP_ok {m : LMem} {l : List Nat} {n : Nat} (h : IsList m l) (f : Nat) :
    ∃ m', attachFirst m n = some m' ∧ Ref.LOk (· ∈ n :: l) (attachFirstP f n) m () m' := by
  have hn : n ∈ n :: l := by simp
  by_cases h0 : m.first = 0
  · refine ⟨_, by simp only [attachFirst, h0, if_true]; rfl, ?_⟩
    refine .bind (.get (q := ListQ.first) trivial) ?_
    rw [show ListQ.abs .first m = m.first from rfl, if_pos h0]
    exact .bind (.put (w := ListW.first n) trivial) (.bind (.put (w := ListW.last n) trivial)
      (.bind (.put (w := ListW.prev n n) hn) (.bind (.put (w := ListW.next n n) hn)
        (.bind (.get (q := ListQ.size) trivial) (.put (w := ListW.size _) trivial)))))
  · have hf : m.first ∈ l := by
      have := h.first_eq
      cases l with
      | nil => exact absurd this h0
      | cons a t => rw [this]; simp
    have hf' : m.first ∈ n :: l := by simp [hf]
    have hp' : m.prev m.first ∈ n :: l := by simp [h.prev_mem hf]
    refine ⟨_, by simp only [attachFirst, h0, if_false]; rfl, ?_⟩
    refine .bind (.get (q := ListQ.first) trivial) ?_
    rw [show ListQ.abs .first m = m.first from rfl, if_neg h0]
    exact .bind (.get (q := ListQ.prev m.first) hf') (.bind (.put (w := ListW.prev n _) hn)
      (.bind (.put (w := ListW.next n _) hn) (.bind (.put (w := ListW.first n) trivial)
        (.bind (.put (w := ListW.next _ n) hp') (.bind (.put (w := ListW.prev _ n) hf')
          (.bind (.get (q := ListQ.size) trivial) (.put (w := ListW.size _) trivial)))))))

theorem detachP_ok {m : LMem} {l : List Nat} {n : Nat} (h : IsList m l) (hn : n ∈ l) (f : Nat) :
    ∃ m', detach m n = some m' ∧ Ref.LOk (· ∈ l) (detachP f n) m () m' := by
  have hs : m.size ≠ 0 := by
    rw [h.size_eq]; intro e; rw [List.eq_nil_of_length_eq_zero e] at hn; cases hn
  have hp : m.prev n ∈ l := h.prev_mem hn
  have hq : m.next n ∈ l := next_mem h hn
  by_cases h0 : m.next n = n
  · refine ⟨_, by simp only [detach, hs, h0, if_true, if_false]; rfl, ?_⟩
    refine .bind (.get (q := ListQ.prev n) hn) (.bind (.get (q := ListQ.next n) hn) ?_)
    rw [show ListQ.abs (.next n) m = m.next n from rfl, if_pos h0]
    exact .bind (.put (w := ListW.first 0) trivial) (.bind (.put (w := ListW.last 0) trivial)
      (.bind (.put (w := ListW.prev n 0) hn) (.bind (.put (w := ListW.next n 0) hn)
        (.bind (.get (q := ListQ.size) trivial) (.put (w := ListW.size _) trivial)))))
  · refine ⟨_, by simp only [detach, hs, h0, if_false]; rfl, ?_⟩
    refine .bind (.get (q := ListQ.prev n) hn) (.bind (.get (q := ListQ.next n) hn) ?_)
    rw [show ListQ.abs (.next n) m = m.next n from rfl, if_neg h0]
    exact .bind (.put (w := ListW.next _ _) hp) (.bind (.put (w := ListW.prev _ _) hq)
      (.bind (.get (q := ListQ.first) trivial) (.bind (.put (w := ListW.first _) trivial)
        (.bind (.get (q := ListQ.last) trivial) (.bind (.put (w := ListW.last _) trivial)
          (.bind (.put (w := ListW.prev n 0) hn) (.bind (.put (w := ListW.next n 0) hn)
            (.bind (.get (q := ListQ.size) trivial) (.put (w := ListW.size _) trivial)))))))))

/-- The programs for trees of `Verif/RefPrograms.lean` with these for lists. -/
def programs : Programs := ⟨Ref.attachP, Ref.detachP, attachFirstP, detachP⟩

theorem programs_implement : programs.Implements trees where
  attach := Ref.programs_implement.attach
  detach := Ref.programs_implement.detach
  listAttachFirst := by
    intro m l n h hz hn
    refine ⟨0, fun f _ => ?_⟩
    obtain ⟨m', e, g⟩ := attachFirstP_ok (n := n) h f
    refine ⟨?_, g.obeys⟩
    rw [show programs.listAttachFirst f n = attachFirstP f n from rfl, g.eval,
      show trees.listAttachFirst m n = some m' from e]; rfl
  listDetach := by
    intro m l n h hn
    refine ⟨0, fun f _ => ?_⟩
    obtain ⟨m', e, g⟩ := detachP_ok h hn f
    refine ⟨?_, g.obeys⟩
    rw [show programs.listDetach f n = detachP f n from rfl, g.eval, show trees.listDetach m n = some m' from e]; rfl

end Verif.Circ
