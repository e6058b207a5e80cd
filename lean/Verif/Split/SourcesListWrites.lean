import Verif.Split.SourcesList
import Verif.CircPrograms

/-!
# Writing the list of sources (`doublets/src/mem/split/generic/internal_sources_linked_list.rs`)

The setters of `InternalSourcesLinkedList`. The algorithms that use them are methods of `RelativeCircularLinkedList` in the
`trees` crate, whose text is not available; the usual ones (`Verif/CircPrograms.lean`, and `attachLastP` here) are run over
the setters and getters, assignment by assignment.
-/

namespace Verif.Circ
open Verif

/-- Attach after the last element, or as the only one. It models no code of /repo. -/
def attachLastP (f n : Nat) : ListProg := do
  let l ← .get .last
  if l = 0 then attachFirstP f n
  else
    let q ← .get (.next l)
    .put (.prev n l)
    .put (.next n q)
    let l' ← .get .last
    .put (.last (if l = l' then n else l'))
    .put (.prev q n)
    .put (.next l n)
    let z ← .get .size
    .put (.size (z + 1))

end Verif.Circ

namespace Verif.Split.SourcesList
open Verif

/-- `get_mut_index_part` with an assignment to one field (`internal_sources_linked_list.rs:57-59`): a slot outside the memory is
a panic. Simplification: so is slot 0, which holds the header. -/
def modI (s : Store) (x : Nat) (f : IPart → IPart) : Option Store :=
  if x ≠ 0 ∧ x < s.ilen then some { s with idx := fun k => if k = x then f (s.idx k) else s.idx k } else none

/-- `set_first` (`internal_sources_linked_list.rs:107-109`). -/
def setFirst (head v : Nat) (s : Store) : Option Store := modI s head ({ · with rootS := v })

/-- `set_size` (`internal_sources_linked_list.rs:121-123`). -/
def setSize (head v : Nat) (s : Store) : Option Store := modI s head ({ · with sizeS := v })

/-- `set_previous` (`internal_sources_linked_list.rs:135-137`). -/
def setPrevious (x v : Nat) (s : Store) : Option Store := modI s x ({ · with leftS := v })

/-- `set_next` (`internal_sources_linked_list.rs:139-141`). -/
def setNext (x v : Nat) (s : Store) : Option Store := modI s x ({ · with rightS := v })

/-- The accessors of the list of `head`. `set_last` does nothing (`internal_sources_linked_list.rs:111-119`). -/
def access (head : Nat) : Access Store ListQ ListW where
  ask
    | .first, s => getFirst s head
    | .last, s => getLast s head
    | .size, s => getSize s head
    | .prev n, s => getPrevious s n
    | .next n, s => getNext s n
  tell
    | .first v => [setFirst head v]
    | .last _ => []
    | .size v => [setSize head v]
    | .prev n v => [setPrevious n v]
    | .next n v => [setNext n v]

/-- A call of a list method on the list of `head`: the memory afterwards, `none` for a panic. -/
def call (head : Nat) (p : ListProg) (s : Store) : Option Store := (p.run (access head) s).2.map (·.2)

end Verif.Split.SourcesList
