import Verif.Split.Model

/-!
# Model of `InternalSourcesLinkedList` (`doublets/src/mem/split/generic/internal_sources_linked_list.rs`)

An exported alternative to the internal sources trees: the links with a given source in a circular doubly linked list.
`Store::USE_LIST` is `false`, so the split store builds it and never reads it (`store.rs:59`). Attaching and detaching are
methods of the `trees` crate and not modelled.
-/

namespace Verif.Split.SourcesList
open Verif

/-- `get_first`, `RelativeLinkedList` (`internal_sources_linked_list.rs:90-92`). -/
def getFirst (s : Store) (head : Nat) : Option Nat := (s.getI head).map (·.rootS)

/-- `get_size` (`internal_sources_linked_list.rs:103-105`). -/
def getSize (s : Store) (head : Nat) : Option Nat := (s.getI head).map (·.sizeS)

/-- `get_previous` (`internal_sources_linked_list.rs:127-129`). -/
def getPrevious (s : Store) (x : Nat) : Option Nat := (s.getI x).map (·.leftS)

/-- `get_next` (`internal_sources_linked_list.rs:131-133`). -/
def getNext (s : Store) (x : Nat) : Option Nat := (s.getI x).map (·.rightS)

/-- `get_last` (`internal_sources_linked_list.rs:94-101`). -/
def getLast (s : Store) (head : Nat) : Option Nat :=
  (getFirst s head).bind fun first => if first = 0 then some first else getPrevious s first

/-- `count_usages` (`internal_sources_linked_list.rs:66-68`). -/
def countUsages (s : Store) (head : Nat) : Option Nat := getSize s head

/-- `get_link_value` (`internal_sources_linked_list.rs:61-64`). -/
def getLinkValue (s : Store) (x : Nat) : Option Link := (s.getD x).map fun p => ⟨x, p.1, p.2⟩

/-- The loop of `each_usages` (`internal_sources_linked_list.rs:78-84`). Simplification: the number of rounds is bounded by `fuel`;
running out of it stands for a loop that does not end. -/
def eachLoop {σ : Type} (s : Store) (first : Nat) (h : RH σ) : Nat → Nat → σ → Option (Flow × σ)
  | 0, _, _ => none
  | fuel + 1, current, st =>
    if current = 0 then some (.cont, st)
    else (getLinkValue s current).bind fun l =>
      andThen (some (h st l)) fun st' =>
        (getNext s current).bind fun next =>
          if next = first then some (.cont, st') else eachLoop s first h fuel next st'

/-- `each_usages` (`internal_sources_linked_list.rs:70-86`): a list without repetitions has at most as many elements as there
are slots. -/
def eachUsages {σ : Type} (s : Store) (source : Nat) (h : RH σ) (st : σ) : Option (Flow × σ) :=
  (getFirst s source).bind fun first => eachLoop s first h (s.ilen + 1) first st

end Verif.Split.SourcesList
