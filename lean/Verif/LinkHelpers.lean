import Verif.Basic

/-!
# Helpers of `Link` (`doublets/src/data/link.rs`)
-/

namespace Verif
open Verif

/-- `Link::new` (`link.rs:20-28`). -/
def Link.new (index source target : Nat) : Link := ⟨index, source, target⟩

/-- `Link::point` (`link.rs:30-34`). -/
def Link.point (val : Nat) : Link := Link.new val val val

/-- What a function that may panic or run into undefined behaviour does. -/
inductive Outcome (α : Type) where
  | ret (a : α)
  | panic
  | ub
deriving DecidableEq

/-- `Link::from_slice_unchecked` (`link.rs:44-51`): any slice that has not exactly three elements reaches
`unreachable_unchecked`. -/
def Link.fromSliceUnchecked : List Nat → Outcome Link
  | [index, source, target] => .ret (Link.new index source target)
  | _ => .ub

/-- `Link::from_slice` (`link.rs:36-42`). -/
def Link.fromSlice (slice : List Nat) : Outcome Link :=
  if slice.length ≥ 3 then Link.fromSliceUnchecked slice else .panic

/-- `Link::is_null` (`link.rs:53-57`). -/
def Link.isNull (l : Link) : Bool := l = Link.point 0

/-- `Link::is_full` (`link.rs:59-63`). -/
def Link.isFull (l : Link) : Bool := l.index == l.source && l.index == l.target

/-- `Link::is_partial` (`link.rs:65-69`). -/
def Link.isPartial (l : Link) : Bool := l.index == l.source || l.index == l.target

/-- `Link::as_slice` (`link.rs:71-76`): the three fields in declaration order (`repr(C)`). -/
def Link.asSlice (l : Link) : List Nat := [l.index, l.source, l.target]

/-- `ToQuery for Link` (`link.rs:85-89`). -/
def Link.toQuery (l : Link) : List Nat := l.asSlice

end Verif
