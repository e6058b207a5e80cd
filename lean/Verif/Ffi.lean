import Verif.Doublets
import Verif.Unit.Model

/-!
# The C interface (`doublets-ffi/src/lib.rs`)

The functions are written over any store `D`, as `Box<dyn Doublets<T>>` forwards every required method
(`doublets/src/data/traits.rs:554-597`). Callbacks are foreign functions with foreign state `σ`. Logging is left out.
-/

namespace Verif.Ffi
open Verif

variable {S σ : Type}

/-- `Range` (`lib.rs:69-71`). -/
structure Range where
  first : Nat
  last : Nat
deriving DecidableEq

/-- `Constants` (`lib.rs:77-92`). -/
structure Constants where
  indexPart : Nat
  sourcePart : Nat
  targetPart : Nat
  null : Nat
  cont : Nat
  brk : Nat
  skip : Nat
  any : Nat
  itself : Nat
  error : Nat
  internalRange : Range
  externalRange : Range
  optMarker : Bool
deriving DecidableEq

/-- `From<LinksConstants> for Constants` (`lib.rs:94-118`). -/
def Constants.ofConsts (c : Consts) : Constants where
  indexPart := c.indexPart
  sourcePart := c.sourcePart
  targetPart := c.targetPart
  null := c.null
  cont := c.cont
  brk := c.brk
  skip := c.skip
  any := c.any
  itself := c.itself
  error := c.error
  internalRange := ⟨c.internalStart, c.internalEnd⟩
  externalRange := match c.external with | none => ⟨0, 0⟩ | some r => ⟨r.1, r.2⟩
  optMarker := c.external.isSome

/-- `Into<LinksConstants> for Constants` (`lib.rs:120-145`). -/
def Constants.toConsts (c : Constants) : Consts where
  indexPart := c.indexPart
  sourcePart := c.sourcePart
  targetPart := c.targetPart
  null := c.null
  cont := c.cont
  brk := c.brk
  skip := c.skip
  any := c.any
  itself := c.itself
  error := c.error
  internalStart := c.internalRange.first
  internalEnd := c.internalRange.last
  external := if c.optMarker then some (c.externalRange.first, c.externalRange.last) else none

/-- `result_into_log` (`lib.rs:33-38`). -/
def resultIntoLog {α : Type} (r : Except Err α) (dflt : α) : α :=
  match r with
  | .ok a => a
  | .error _ => dflt

/-- `query_from_raw` (`lib.rs:40-52`): a null pointer, or a pointer to readable memory. Reading past its end is
undefined. -/
def queryFromRaw (query : Option (List Nat)) (len : Nat) : Option (List Nat) :=
  match query with
  | none => some []
  | some mem => if len ≤ mem.length then some (mem.take len) else none

/-- `if flow.branch().is_continue() { continue_ } else { break_ }` (`lib.rs:244-248,360-364,400-404`). -/
def ofFlow (k : Consts) (f : Flow) : Nat :=
  match f with
  | .cont => k.cont
  | .brk _ => k.brk

/-- The closure of `create_united` (`lib.rs:233-239`). -/
def createHandler (k : Consts) (cb : σ → Link → Link → Nat × σ) : Links.Hd σ Unit := fun st b a =>
  (if (cb st b a).1 = k.cont then .brk () else .cont, (cb st b a).2)

/-- `create_united` (`lib.rs:222-252`): the value returned to C, the store and the callback's state. -/
def create (D : Links S) (s : S) (query : Option (List Nat)) (len : Nat) (cb : σ → Link → Link → Nat × σ)
    (st : σ) : Option (Nat × S × σ) :=
  (queryFromRaw query len).bind fun q =>
  (D.createByWith s q (createHandler (D.consts s) cb) st).map fun o =>
    (resultIntoLog (o.res.map (ofFlow (D.consts s))) (D.consts o.st).error, o.st, o.hs)

/-- `smart_create_united` (`lib.rs:262-266`). -/
def smartCreate (D : Links S) (s : S) : Option (Nat × S) :=
  (D.create s).map fun o => (resultIntoLog o.res (D.consts o.st).error, o.st)

/-- `smart_update_united` (`lib.rs:276-280`). -/
def smartUpdate (D : Links S) (s : S) (index source target : Nat) : Option (Nat × S) :=
  (D.update s index source target).map fun o => (resultIntoLog o.res (D.consts o.st).error, o.st)

/-- `each_united` (`lib.rs:290-311`). -/
def each (D : Links S) (s : S) (query : Option (List Nat)) (len : Nat) (cb : σ → Link → Nat × σ) (st : σ) :
    Option (Nat × σ) :=
  (queryFromRaw query len).bind fun q =>
  (D.eachBy (ρ := Unit) s q (fun st l =>
    (if (cb st l).1 = (D.consts s).cont then .cont else .brk (), (cb st l).2)) st).map fun r =>
      (ofFlow (D.consts s) r.1, r.2)

/-- `count_united` (`lib.rs:321-325`). -/
def count (D : Links S) (s : S) (query : Option (List Nat)) (len : Nat) : Option Nat :=
  (queryFromRaw query len).bind fun q => D.countBy s q

/-- The closure of `update_united` (`lib.rs:349-355`). -/
def updateHandler (k : Consts) (cb : σ → Link → Link → Nat × σ) : Links.Hd σ Unit := fun st b a =>
  (if (cb st b a).1 = k.cont then .cont else .brk (), (cb st b a).2)

/-- `update_united` (`lib.rs:335-368`). -/
def update (D : Links S) (s : S) (restrictions : Option (List Nat)) (lenR : Nat)
    (substitution : Option (List Nat)) (lenS : Nat) (cb : σ → Link → Link → Nat × σ) (st : σ) :
    Option (Nat × S × σ) :=
  (queryFromRaw restrictions lenR).bind fun q =>
  (queryFromRaw substitution lenS).bind fun ch =>
  (D.updateByWith s q ch (updateHandler (D.consts s) cb) st).map fun o =>
    (resultIntoLog (o.res.map (ofFlow (D.consts s))) (D.consts o.st).error, o.st, o.hs)

/-- The closure of `delete_united` (`lib.rs:389-395`). -/
def deleteHandler (k : Consts) (cb : σ → Link → Link → Nat × σ) : Links.Hd σ Unit := fun st b a =>
  (if (cb st b a).1 = k.brk then .brk () else .cont, (cb st b a).2)

/-- `delete_united` (`lib.rs:378-408`). -/
def delete (D : Links S) (s : S) (query : Option (List Nat)) (len : Nat) (cb : σ → Link → Link → Nat × σ)
    (st : σ) : Option (Nat × S × σ) :=
  (queryFromRaw query len).bind fun q =>
  (D.deleteByWith s q (deleteHandler (D.consts s) cb) st).map fun o =>
    (resultIntoLog (o.res.map (ofFlow (D.consts s))) (D.consts o.st).error, o.st, o.hs)

/-! ## Handles -/

/-- What a foreign pointer may point to: a store itself, or a `Box<dyn Doublets<T>>` (a fat pointer to a store). -/
inductive Obj (S : Type) where
  | store (s : S)
  | boxed (s : S)

/-- The objects the C side has pointers to. Address 0 is null. -/
abbrev Heap (S : Type) := Nat → Option (Obj S)

/-- `new_with_constants_united_links` (`lib.rs:167-186`) after the file was opened and mapped with contents `img`:
the pointer returned is `links.as_mut()`, that is the address of the store, not of the box (`lib.rs:181`). `p` is the
address the allocator chose. A failure is logged and gives null. -/
def newUnited (c : Unit.Cfg) (img : Unit.Store) (heap : Heap Unit.Store) (p : Nat) :
    Option (Nat × Heap Unit.Store) :=
  (Unit.init c img).map fun
    | .error _ => (0, heap)
    | .ok s => (p, fun a => if a = p then some (.store s) else heap a)

/-- `unnull_or_error::<_, WrappedLinks<T>>` (`lib.rs:54-62`), which every other function starts with: panics on null,
and is undefined unless a `Box<dyn Doublets<T>>` is there. -/
def unnullOrError (heap : Heap S) (this : Nat) : Option S :=
  if this = 0 then none
  else
    match heap this with
    | some (.boxed s) => some s
    | _ => none

/-- Any function of the interface called through a handle (`lib.rs:197,210,228,263,277,296,322,345,385`). -/
def through {α : Type} (heap : Heap S) (this : Nat) (f : S → Option α) : Option α :=
  (unnullOrError heap this).bind f

end Verif.Ffi
