/-!
# Basic vocabulary of the model

Values of the Rust index type `T: LinkType` are natural numbers. The bound `T::MAX` is a parameter
(`maxT`) of every operation that does arithmetic. The outer `Option` of every operation is
`none` exactly when the Rust code panics, overflows, reads out of bounds or does not terminate.
-/

namespace Verif

/-- `std::ops::ControlFlow<ρ, ()>`: what `R: Try<Output = ()>` branches into
(`doublets/src/data/traits.rs:52-76`). -/
inductive Ctl (ρ : Type) where
  | cont : Ctl ρ
  | brk (r : ρ) : Ctl ρ
deriving DecidableEq

/-- `data::Flow` (external crate): `Continue | Break` without payload, as used in
`doublets/src/data/traits.rs:12-14`. -/
abbrev Flow := Ctl Unit

/-- `Link` (`doublets/src/data/link.rs:7-11`). -/
structure Link where
  index : Nat
  source : Nat
  target : Nat
deriving DecidableEq, Inhabited

/-- `Link::nothing` (`doublets/src/data/link.rs:16-18`): the default link, all zero. -/
def Link.nothing : Link := ⟨0, 0, 0⟩

/-- `Error` (`doublets/src/data/error.rs`). `AllocFailed` and `Other` carry opaque payloads
(an `mem::Error`, a boxed `dyn Error`) which are dropped here. -/
inductive Err where
  | notExists (i : Nat)
  | hasUsages (ls : List Link)
  | alreadyExists (source target : Nat)
  | limitReached (n : Nat)
  | allocFailed
deriving DecidableEq

deriving instance DecidableEq for Except

/-- `LinksConstants` (external crate `data`), fields as enumerated by the FFI mirror structure
`doublets-ffi/src/lib.rs:73-145`. -/
structure Consts where
  indexPart : Nat
  sourcePart : Nat
  targetPart : Nat
  null : Nat
  cont : Nat
  brk : Nat
  skip : Nat
  any : Nat
  itself : Nat
  error : Nat
  internalStart : Nat
  internalEnd : Nat
  external : Option (Nat × Nat)
deriving DecidableEq

/-- `a + b` on `T`: `none` on overflow. -/
def cadd (maxT a b : Nat) : Option Nat := if a + b ≤ maxT then some (a + b) else none

/-- `a - b` on `T` (unsigned): `none` on underflow. -/
def csub (a b : Nat) : Option Nat := if b ≤ a then some (a - b) else none

/-- `ReadHandler` (`doublets/src/data/traits.rs:12`): a stateful callback with state `σ`. -/
abbrev RH (σ : Type) := σ → Link → Flow × σ

/-- `WriteHandler` (`doublets/src/data/traits.rs:14`). -/
abbrev WH (σ : Type) := σ → Link → Link → Flow × σ

/-- Outcome of a mutating call that returned: the Rust `Result`, the store and the handler state
after the call (both also after an `Err`). -/
structure Out (S σ α : Type) where
  res : Except Err α
  st : S
  hs : σ

/-- The `?` operator between two handler-driven traversals. -/
def andThen {σ ρ : Type} (x : Option (Ctl ρ × σ)) (g : σ → Option (Ctl ρ × σ)) :
    Option (Ctl ρ × σ) :=
  match x with
  | none => none
  | some (.brk r, s) => some (.brk r, s)
  | some (.cont, s) => g s

/-- Specification of a traversal: call the handler on each link of the list in order and stop at the
first `Break`. -/
def runH {σ ρ : Type} (h : σ → Link → Ctl ρ × σ) : List Link → σ → Ctl ρ × σ
  | [], s => (.cont, s)
  | l :: ls, s =>
    match h s l with
    | (.brk r, s') => (.brk r, s')
    | (.cont, s') => runH h ls s'

theorem runH_append {σ ρ : Type} (h : σ → Link → Ctl ρ × σ) (xs ys : List Link) (s : σ) :
    some (runH h (xs ++ ys) s) = andThen (some (runH h xs s)) (fun s' => some (runH h ys s')) := by
  induction xs generalizing s with
  | nil => simp [runH, andThen]
  | cons x xs ih =>
    simp only [List.cons_append, runH]
    rcases h s x with ⟨_ | r, s'⟩
    · exact ih s'
    · simp [andThen]

theorem cadd_eq {m a b : Nat} (h : a + b ≤ m) : cadd m a b = some (a + b) := by simp [cadd, h]

theorem csub_eq {a b : Nat} (h : b ≤ a) : csub a b = some (a - b) := by simp [csub, h]

end Verif
