import Verif.Ffi
import Verif.Replay
import Verif.Unit.Query

/-!
# Sessions of a C client

A client holds a handle to a boxed store (C48) and makes one call of the C interface after another. It sees the code each call
returns and what its callbacks are given. Vocabulary of C87: what the calls may answer, and the table of links that a client can keep.
-/

namespace Verif.Ffi
open Verif

variable {S : Type}

/-- A callback was called: with a change (`CUDCallback`, `lib.rs:73`) or with a link (`EachCallback`, `lib.rs:71`). -/
inductive Event where
  | changed (before after : Link)
  | visited (l : Link)
deriving DecidableEq

/-- A call of the C interface on an open store, with raw pointers to queries. -/
inductive CCall where
  | smartCreate
  | smartUpdate (index source target : Nat)
  | create (query : Option (List Nat)) (len : Nat)
  | update (restrictions : Option (List Nat)) (lenR : Nat) (substitution : Option (List Nat)) (lenS : Nat)
  | delete (query : Option (List Nat)) (len : Nat)
  | each (query : Option (List Nat)) (len : Nat)
  | count (query : Option (List Nat)) (len : Nat)
deriving DecidableEq

/-- The client's callback for changes. Its answer may depend on everything its callbacks were given in the session: `evs` in earlier calls
and `es` in this one. -/
def onChange (answer : List Event → Nat) (evs : List Event) : List Event → Link → Link → Nat × List Event := fun es b a =>
  (answer (evs ++ (es ++ [.changed b a])), es ++ [.changed b a])

/-- The client's callback for traversals. -/
def onVisit (answer : List Event → Nat) (evs : List Event) : List Event → Link → Nat × List Event := fun es l =>
  (answer (evs ++ (es ++ [.visited l])), es ++ [.visited l])

/-- One call (`lib.rs:222-408`): the code returned, the store afterwards and what the callback was given. -/
def CCall.run (D : Links S) (answer : List Event → Nat) (evs : List Event) (s : S) : CCall → Option (Nat × S × List Event)
  | .smartCreate => (Ffi.smartCreate D s).map fun r => (r.1, r.2, [])
  | .smartUpdate i a b => (Ffi.smartUpdate D s i a b).map fun r => (r.1, r.2, [])
  | .create q len => Ffi.create D s q len (onChange answer evs) []
  | .update r lr q lq => Ffi.update D s r lr q lq (onChange answer evs) []
  | .delete q len => Ffi.delete D s q len (onChange answer evs) []
  | .each q len => (Ffi.each D s q len (onVisit answer evs) []).map fun r => (r.1, s, r.2)
  | .count q len => (Ffi.count D s q len).map fun n => (n, s, [])

/-- A call that was made, its code, what the callback was given, and the store afterwards (which the client does not see). -/
structure Step (S : Type) where
  call : CCall
  code : Nat
  events : List Event
  st : S

/-- A session: the calls one after another. -/
def session (D : Links S) (answer : List Event → Nat) : S → List Event → List CCall → Option (List (Step S))
  | _, _, [] => some []
  | s, evs, call :: calls =>
    (call.run D answer evs s).bind fun r =>
    (session D answer r.2.1 (evs ++ r.2.2) calls).map fun xs => ⟨call, r.1, r.2.2, r.2.1⟩ :: xs

/-- Everything the callbacks were given. -/
def eventsOf (xs : List (Step S)) : List Event := xs.flatMap (·.events)

/-! ## What a client knows -/

/-- The table after a callback was called. -/
def tell (m : View) : Event → View
  | .changed b a => m.change (b, a)
  | .visited _ => m

/-- The table after a call, from its code and the arguments of the callback alone. -/
def learn (k : Consts) (m : View) (call : CCall) (code : Nat) (es : List Event) : View :=
  match call with
  | .smartCreate => if code = k.error then m else m.set code (0, 0)
  | .smartUpdate i a b => if code = k.error then m else m.set i (a, b)
  | _ => es.foldl tell m

/-- The table after some calls. -/
def learned (k : Consts) (m : View) (xs : List (Step S)) : View :=
  xs.foldl (fun m x => learn k m x.call x.code x.events) m

/-- The link that a call changes or deletes. -/
def CCall.writes : CCall → Option Nat
  | .smartUpdate i _ _ => some i
  | .update r lr _ _ => (queryFromRaw r lr).bind List.head?
  | .delete q len => (queryFromRaw q len).bind List.head?
  | _ => none

/-- The arguments are legal: pointers to at least `len` numbers, and as many parts as the call needs. (`Count` with the two parts
`[any, x]` may overflow, see C06.) -/
def CCall.Legal : CCall → Prop
  | .smartCreate => True
  | .smartUpdate _ _ _ => True
  | .create q len => queryFromRaw q len ≠ none
  | .update r lr q lq => (∃ i rest, queryFromRaw r lr = some (i :: rest)) ∧
      ∃ x a b rest, queryFromRaw q lq = some (x :: a :: b :: rest)
  | .delete q len => ∃ i rest, queryFromRaw q len = some (i :: rest)
  | .each q len => ∃ q', queryFromRaw q len = some q' ∧ q'.length ≤ 3
  | .count q len => ∃ q', queryFromRaw q len = some q' ∧ q'.length ≤ 3 ∧ q'.length ≠ 2

/-! ## The specification: a table and the answers of the calls -/

/-- `L` is what a traversal with query `q` shows of the table `m` (C09): only matching links, and each of them once, except that `[any, x]`
shows a link with `x` at both ends twice, that null ends are not found, and that of several links with the same doublet one is found. -/
def Shows (any : Nat) (m : View) (q : List Nat) (L : List Link) : Prop :=
  (∀ l ∈ L, m.Has l ∧ MatchQ any q l) ∧
  (NullFree any q → ∀ l, m.Has l → MatchQ any q l →
    (IsPair any q → L.length = 1) ∧
    (¬ IsPair any q → l.source ≠ l.target → L.count l = 1) ∧
    (¬ IsPair any q → (∀ x, q = [any, x] → x = any) → L.count l = 1) ∧
    ∀ x, q = [any, x] → x ≠ any → l.source = l.target → L.count l = 2)

/-- With the table `m`, the call may return `code` after giving `es` to the callback, and `m'` is the table afterwards. -/
def CCall.Says (k : Consts) (answer : List Event → Nat) (evs : List Event) (m : View) (call : CCall) (code : Nat)
    (es : List Event) (m' : View) : Prop :=
  match call with
  | .smartCreate => es = [] ∧
      ((∃ i, m i = none ∧ 1 ≤ i ∧ i ≤ k.internalEnd ∧ code = i ∧ m' = m.set i (0, 0)) ∨ (code = k.error ∧ m' = m))
  | .smartUpdate i a b => es = [] ∧
      if m i = none then code = k.error ∧ m' = m else code = i ∧ m' = m.set i (a, b)
  | .create _ _ =>
      (∃ i, m i = none ∧ 1 ≤ i ∧ i ≤ k.internalEnd ∧ es = [.changed Link.nothing ⟨i, 0, 0⟩] ∧
        code = (if answer (evs ++ es) = k.cont then k.brk else k.cont) ∧ m' = m.set i (0, 0)) ∨
      (es = [] ∧ code = k.error ∧ m' = m)
  | .update r lr q lq => ∃ i x a b r' q', queryFromRaw r lr = some (i :: r') ∧ queryFromRaw q lq = some (x :: a :: b :: q') ∧
      if m i = none then es = [] ∧ code = k.error ∧ m' = m
      else es = [.changed ⟨i, a, b⟩ ⟨i, a, b⟩] ∧ code = (if answer (evs ++ es) = k.cont then k.cont else k.brk) ∧
        m' = m.set i (a, b)
  | .delete q len => ∃ i q', queryFromRaw q len = some (i :: q') ∧
      match m i with
      | none => es = [] ∧ code = k.error ∧ m' = m
      | some p => es = [.changed ⟨i, p.1, p.2⟩ Link.nothing] ∧
          code = (if answer (evs ++ es) = k.brk then k.brk else k.cont) ∧ m' = m.del i
  | .each q len => m' = m ∧ ∃ q' L, queryFromRaw q len = some q' ∧ Shows k.any m q' L ∧
      ((code = k.cont ∧ es = L.map .visited ∧
          ∀ n, n < L.length → answer (evs ++ (L.take (n + 1)).map .visited) = k.cont) ∨
        ∃ n, n < L.length ∧ code = k.brk ∧ es = (L.take (n + 1)).map .visited ∧
          (∀ j, j < n → answer (evs ++ (L.take (j + 1)).map .visited) = k.cont) ∧ answer (evs ++ es) ≠ k.cont)
  | .count q len => m' = m ∧ es = [] ∧ ∃ q' L, queryFromRaw q len = some q' ∧ Shows k.any m q' L ∧ code = L.length

end Verif.Ffi
