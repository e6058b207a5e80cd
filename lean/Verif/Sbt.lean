import Verif.RefTrees
import Verif.ReadCost

/-!
# A size-balanced tree with rotations, as an instance of the `trees` interface

The tree algorithm of the external crate is not in `/repo` (`dev-deps/trees-rs` is empty). This module writes down the
top-down ("recursionless") size-balanced tree the crate is named after, as it is commonly published: it walks from the root to the
place of the node, rotates on the way when the subtree it is about to enter would become too large (too small), and updates sizes as it
goes. A reference to a pointer (`*mut T`) is modelled by returning the new value and writing it back. The two mirror images of each
case are one, with a direction as parameter. It models no code of `/repo`.
-/

namespace Verif.Sbt
open Verif

/-- Left or right. -/
inductive Dir where
  | L | R
deriving DecidableEq

/-- The other direction. -/
def Dir.flip : Dir → Dir
  | .L => .R
  | .R => .L

/-- The child of `x` in a direction. -/
def ch (m : TMem) : Dir → Nat → Nat
  | .L => m.left
  | .R => m.right

/-- Write a child. -/
def setCh (m : TMem) (d : Dir) (k v : Nat) : TMem :=
  match d with
  | .L => { m with left := fun x => if x = k then v else m.left x }
  | .R => { m with right := fun x => if x = k then v else m.right x }

/-- Write a size. -/
def setSize (m : TMem) (k v : Nat) : TMem := { m with size := fun x => if x = k then v else m.size x }

/-- `get_size_or_zero`. -/
def sz (m : TMem) (x : Nat) : Nat := if x = 0 then 0 else m.size x

/-- `fix_size`. -/
def fixSize (m : TMem) (x : Nat) : TMem := setSize m x (sz m (m.left x) + sz m (m.right x) + 1)

/-- `right_rotate` (`d = L`) and `left_rotate` (`d = R`): the child in direction `d` takes the place of `x`. -/
def rot (d : Dir) (m : TMem) (x : Nat) : TMem × Nat :=
  let y := ch m d x
  let m := setCh m d x (ch m d.flip y)
  let m := setCh m d.flip y x
  let m := setSize m y (m.size x)
  (fixSize m x, y)

/-- Does `n` belong between `c` and the parent of `c`, whose child `c` is in direction `d`? -/
def inner (gt : Nat → Nat → Bool) (d : Dir) (n c : Nat) : Bool :=
  match d with
  | .L => gt n c
  | .R => ! gt n c

/-- `attach_core`. -/
def attachCore (lt gt : Nat → Nat → Bool) (n : Nat) : Nat → TMem → Nat → Option (TMem × Nat)
  | 0, _, _ => none
  | f + 1, m, x =>
    let d := if lt n x then Dir.L else Dir.R
    let c := ch m d x
    let o := ch m d.flip x
    if c = 0 then some (setCh (setSize (setSize m x (m.size x + 1)) n 1) d x n, x)
    else
      let g := sz m (ch m (if inner gt d n c then d.flip else d) c)
      if g + 1 > sz m o then
        if inner gt d n c then
          if g = 0 ∧ sz m o = 0 then
            let m1 := setSize (setCh (setCh m d n c) d.flip n x) n (sz m c + 2)
            some (setSize (setCh m1 d x 0) x 1, n)
          else
            let r1 := rot d.flip m c
            let r2 := rot d (setCh r1.1 d x r1.2) x
            attachCore lt gt n f r2.1 r2.2
        else
          let r := rot d m x
          attachCore lt gt n f r.1 r.2
      else
        (attachCore lt gt n f (setSize m x (m.size x + 1)) c).map fun r => (setCh r.1 d x r.2, x)

/-- `attach`. -/
def attach (lt gt : Nat → Nat → Bool) (m : TMem) (r n : Nat) : Option (TMem × Nat) :=
  if r = 0 then some (setSize m n 1, n) else attachCore lt gt n (m.size r * m.size r + m.size r + 1) m r

/-- `get_leftest`, `get_rightest`. -/
def extreme (d : Dir) (m : TMem) : Nat → Nat → Nat
  | 0, x => x
  | f + 1, x => if ch m d x = 0 then x else extreme d m f (ch m d x)

/-- `clear_node`. -/
def clearNode (m : TMem) (n : Nat) : TMem := setSize (setCh (setCh m .L n 0) .R n 0) n 0

/-- `detach_core`. `none` also if it gets to a null node. -/
def detachCore (lt gt : Nat → Nat → Bool) : Nat → TMem → Nat → Nat → Option (TMem × Nat)
  | 0, _, _, _ => none
  | f + 1, m, x, n =>
    if x = 0 then none else
    if lt n x || gt n x then
      let d := if lt n x then Dir.L else Dir.R
      let c := ch m d x
      let o := ch m d.flip x
      let far := if o = 0 then 0 else ch m d.flip o
      let near := if o = 0 then 0 else ch m d o
      if sz m far > sz m c - 1 then
        let r := rot d.flip m x
        detachCore lt gt f r.1 r.2 n
      else if sz m near > sz m c - 1 then
        let r1 := rot d m o
        let r2 := rot d.flip (setCh r1.1 d.flip x r1.2) x
        detachCore lt gt f r2.1 r2.2 n
      else
        (detachCore lt gt f (setSize m x (m.size x - 1)) c n).map fun r => (setCh r.1 d x r.2, x)
    else
      let l := ch m .L x
      let r := ch m .R x
      if sz m l > 0 ∧ sz m r > 0 then
        let e := if sz m l > sz m r then Dir.L else Dir.R
        let c := ch m e x
        let rep := extreme e.flip m (m.size c) c
        (detachCore lt gt f m c rep).map fun q =>
          let m1 := setCh q.1 e x q.2
          let m2 := setCh (setCh m1 e rep (ch m1 e x)) e.flip rep (ch m1 e.flip x)
          (clearNode (fixSize m2 rep) n, rep)
      else
        some (clearNode m n, if sz m l > 0 then l else if sz m r > 0 then r else 0)

/-- `detach`. -/
def detach (lt gt : Nat → Nat → Bool) (m : TMem) (r n : Nat) : Option (TMem × Nat) :=
  if r = 0 then none else detachCore lt gt (m.size r * m.size r + m.size r + 1) m r n

end Verif.Sbt
