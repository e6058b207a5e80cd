import Verif.Unit.Example
import Verif.Split.Example
import Verif.Ffi
import Verif.LinkHelpers
import Verif.Printing

/-!
# The repository's own tests, run on the model

The tests of `/repo/doublets/tests` are the authors' statement of what the code does. They cannot be run here, so
they are transcribed and run on the model: a model that disagrees with one of them would be wrong about the code.
These are checks of the model on concrete inputs, not proofs of properties.

Transcribed: every test of the stores that makes a definite assertion about a call and needs no more than a few dozen links
(loops over 50 to 10⁶ links are left out or shortened, as noted). Tests that only differ in the store are one definition
run on both stores. Left out: `Display`, `Debug`, `Hash`, `Clone` of values.
-/

namespace Verif.RepoTests
open Verif

/-- A test: runs on a store, may fail with an `Error` (`?`), `none` = panic or failed assertion. -/
abbrev Test (S : Type) := StateT S (ExceptT Err Option)

variable {S : Type}

/-- A mutating call followed by `?`. -/
def call {α} (f : S → Option (Out S Unit α)) : Test S α := fun s =>
  match f s with
  | none => (none : Option _)
  | some o => some (o.res.map fun a => (a, o.st))

/-- A mutating call whose `Result` is looked at. -/
def call' {α} (f : S → Option (Out S Unit α)) : Test S (Except Err α) := fun s =>
  match f s with
  | none => (none : Option _)
  | some o => some (.ok (o.res, o.st))

/-- A mutating call with a handler that keeps what it is given and answers `Continue`, followed by `?`. -/
def callW {α} (f : Links.Hd (List (Link × Link)) Unit → List (Link × Link) → S → Option (Out S (List (Link × Link)) α)) :
    Test S (List (Link × Link)) := fun s =>
  match f (fun l b a => (.cont, l ++ [(b, a)])) [] s with
  | none => (none : Option _)
  | some o => some (o.res.map fun _ => (o.hs, o.st))

/-- A read. -/
def read {α} (f : S → Option α) : Test S α := fun s =>
  match f s with
  | none => (none : Option _)
  | some a => some (.ok (a, s))

/-- A read followed by `?`. -/
def readE {α} (f : S → Option (Except Err α)) : Test S α := fun s =>
  match f s with
  | none => (none : Option _)
  | some (.ok a) => some (.ok (a, s))
  | some (.error e) => some (.error e)

/-- `assert!`. -/
def check (b : Bool) : Test S Unit := fun s => if b then some (.ok ((), s)) else (none : Option _)

/-- The test returns `Ok(())`. -/
def passes (t : Test S Unit) (s : S) : Bool :=
  match t s with
  | some (.ok _) => true
  | _ => false

section
variable (D : Links S) (any : Nat)
local notation "point" => call D.createPoint

/-! ### `tests/traits.rs` -/

/-- `unit_count_links`, `split_count_links`. -/
def tCount : Test S Unit := do
  check ((← read D.count) = 0)
  let _ ← point; let _ ← point; let _ ← point
  check ((← read D.count) = 3)

/-- `unit_found`, `split_found`, `unit_find`, `split_find`, `unit_exist`, `split_exist`, `*_try_get_link`, `*_single`. -/
def tFound : Test S Unit := do
  let a ← point
  check (← read (D.found · [a]))
  check (!(← read (D.found · [100])))
  check ((← read (D.find · [a])).map (·.index) = some a)
  check ((← read (D.find · [100])) = none)
  check (← read (D.exist · a))
  check (!(← read (D.exist · 100)))
  check ((← readE (D.tryGetLink · a)).index = a)
  check ((← read (D.tryGetLink · 100)).isOk = false)
  check ((← read (D.single · [a])).map (·.index) = some a)

/-- `unit_search`, `split_search`, `unit_search_or`. -/
def tSearch : Test S Unit := do
  let a ← point; let b ← point
  let c ← call (D.createLink · a b)
  check ((← read (D.search · a b)) = some c)
  check ((← read (D.search · b a)) = none)
  check ((← read (D.searchOr · a b 0)) = c)
  check ((← read (D.searchOr · b a 999)) = 999)

/-- `unit_get_or_create`, `split_get_or_create`. -/
def tGetOrCreate : Test S Unit := do
  let a ← point; let b ← point
  let l1 ← call (D.getOrCreate · a b)
  let l2 ← call (D.getOrCreate · a b)
  check (l1 = l2)

/-- `*_count_usages`, `*_usages`, `*_has_usages`, `*_delete_usages`. -/
def tUsages : Test S Unit := do
  let a ← point; let b ← point
  check ((← readE (D.countUsagesOf · a)) = 0)
  check ((← readE (D.usages · a)) = [])
  check (!(← read (D.hasUsages · a)))
  let c ← call (D.createLink · a b)
  check ((← readE (D.countUsagesOf · a)) = 1)
  check (c ∈ (← readE (D.usages · a)))
  check (← read (D.hasUsages · a))
  call (D.deleteUsages · a)
  check (!(← read (D.hasUsages · a)))

/-- `unit_delete_all`, `split_delete_all`, `unit_delete_all_and_recreate` (`store_internals.rs`). -/
def tDeleteAll : Test S Unit := do
  for _ in [0, 1, 2, 3, 4] do let _ ← point
  check ((← read D.count) = 5)
  call D.deleteAll
  check ((← read D.count) = 0)
  check ((← point) = 1)

/-- `unit_create_point`, `unit_create_link`. -/
def tCreate : Test S Unit := do
  let a ← point
  check ((← read (D.getLink · a)) = some ⟨a, a, a⟩)
  let b ← point
  let c ← call (D.createLink · a b)
  check ((← read (D.getLink · c)) = some ⟨c, a, b⟩)

/-- `*_rebase`, `unit_rebase_with`. -/
def tRebase : Test S Unit := do
  let a ← point; let b ← point
  let c ← call (D.createLink · a b)
  let _ ← call (D.rebase · a b)
  check ((← read (D.getLink · c)).map (·.source) = some b)

/-- `*_rebase_and_delete`. -/
def tRebaseAndDelete : Test S Unit := do
  let a ← point; let b ← point
  let _ ← call (D.createLink · a b)
  let n ← read D.count
  let _ ← call (D.rebaseAndDelete · a b)
  check ((← read (D.getLink · a)) = none)
  check ((← read D.count) < n)

/-- `unit_rebase_same`, `unit_rebase_and_delete_same`. -/
def tRebaseSame : Test S Unit := do
  let a ← point
  let _ ← call (D.rebase · a a)
  check ((← read (D.getLink · a)).isSome)
  check ((← call (D.rebaseAndDelete · a a)) = a)
  check ((← read (D.getLink · a)).isSome)

/-- `*_iter`, `*_each_iter` (also `tests/iter.rs`). -/
def tIter : Test S Unit := do
  let a ← point; let b ← point
  let _ ← call (D.createLink · a b)
  let ls ← read D.iter
  check (ls.length = 3 ∧ ⟨1, 1, 1⟩ ∈ ls ∧ ⟨2, 2, 2⟩ ∈ ls ∧ ⟨3, 1, 2⟩ ∈ ls)
  let ls ← read (D.eachIter · [any, a, any])
  check (ls ≠ [] ∧ ls.all (·.source = a))

/-- `boxed_doublets`, `tests/dyn.rs: basic`. -/
def tBoxed : Test S Unit := do
  let a ← point; let b ← point
  check ((← read D.count) = 2)
  let _ ← call (D.createLink · a b)
  check ((← read D.count) = 3)

/-- `unit_each_by_with_flow`, `unit_each_by_with_break`, `*_each_with_early_break` (`store_internals.rs`). -/
def tBreak : Test S Unit := do
  for _ in [0, 1, 2, 3, 4, 5, 6, 7, 8, 9] do let _ ← point
  let r ← read (D.each (ρ := Unit) · (fun n _ => (.cont, n + 1)) 0)
  check (r.2 = 10)
  let r ← read (D.each (ρ := Unit) · (fun n _ => if n + 1 ≥ 5 then (.brk (), n + 1) else (.cont, n + 1)) 0)
  check (r.2 = 5)

/-- `*_create_by_with`, `*_update_by_with`, `*_delete_by_with`, `unit_create_link_with`, `*_delete_with`,
`*_update_with`, `unit_create_with`. -/
def tHandlers : Test S Unit := do
  let l ← callW (fun h st s => D.createByWith s [] h st)
  check (l.length = 1)
  let a ← point; let b ← point
  let l ← callW (fun h st s => D.updateByWith s [a] [a, a, b] h st)
  check (l.map (·.2.target) = [b])
  let l ← callW (fun h st s => D.deleteByWith s [a] h st)
  check (l.map (·.1.index) = [a])
  check ((← read (D.getLink · a)) = none)
  let a ← point
  let l ← callW (fun h st s => D.createLinkWith s a b h st)
  check (l ≠ [])
  let l ← callW (fun h st s => D.createWith s h st)
  match l with
  | [x] => check ((← read (D.getLink · x.2.index)).isSome)
  | _ => check false

/-- `unit_delete_query_with`. -/
def tDeleteQuery : Test S Unit := do
  let a ← point; let b ← point; let c ← point
  let _ ← call (D.createLink · a b)
  let _ ← call (D.createLink · a c)
  let n ← read D.count
  let l ← callW (fun h st s => D.deleteQueryWith s [any, a, any] h st)
  check (l.length > 0)
  check ((← read D.count) < n)

/-- `unit_delete_usages_with`. -/
def tDeleteUsagesWith : Test S Unit := do
  let a ← point; let b ← point
  let _ ← call (D.createLink · a b)
  let l ← callW (fun h st s => D.deleteUsagesWith s a h st)
  check (l.length > 0)
  check (!(← read (D.hasUsages · a)))

/-! ### `tests/query_tests.rs` -/

/-- `unit_count_links_*` (the empty query up to three parts); the split store's tests use fewer of these queries. -/
def tCountQueries : Test S Unit := do
  let a ← point; let b ← point
  check ((← read (D.countBy · [])) = 2)
  check ((← read (D.countBy · [any])) = 2)
  check ((← read (D.countBy · [a])) = 1)
  check ((← read (D.countBy · [100])) = 0)
  check ((← read (D.countBy · [any, any])) = 2)
  check ((← read (D.countBy · [a, any])) = 1)
  check ((← read (D.countBy · [100, any])) = 0)
  check ((← read (D.countBy · [any, any, any])) = 2)
  let c ← call (D.createLink · a b)
  check ((← read (D.countBy · [any, a])) ≥ 1)
  check ((← read (D.countBy · [c, a])) = 1)
  check ((← read (D.countBy · [c, b])) = 1)
  check ((← read (D.countBy · [c, 100])) = 0)
  check ((← read (D.countBy · [any, a, any])) ≥ 1)
  check ((← read (D.countBy · [any, any, b])) ≥ 1)
  check ((← read (D.countBy · [any, a, b])) = 1)
  check ((← read (D.countBy · [any, b, a])) = 0)
  check ((← read (D.countBy · [a, any, any])) = 1)
  check ((← read (D.countBy · [100, any, any])) = 0)
  check ((← read (D.countBy · [c, a, b])) = 1)
  check ((← read (D.countBy · [c, b, a])) = 0)
  check ((← read (D.countBy · [c, any, b])) = 1)
  check ((← read (D.countBy · [c, any, a])) = 0)
  check ((← read (D.countBy · [c, a, any])) = 1)
  check ((← read (D.countBy · [c, b, any])) = 0)

/-- `split_count_links_*`: the queries the authors test on the split store. -/
def tCountQueriesSplit : Test S Unit := do
  let a ← point; let b ← point
  check ((← read (D.countBy · [])) = 2)
  check ((← read (D.countBy · [any])) = 2)
  let _ ← call (D.createLink · a b)
  check ((← read (D.countBy · [any, a, b])) = 1)
  check ((← read (D.countBy · [any, b, a])) = 0)

/-- `unit_each_*`, `split_each_empty_query`, `split_each_single_index`. -/
def tEachQueries : Test S Unit := do
  let ix (q : List Nat) : Test S (List Nat) := do return (← read (D.collect · q)).map (·.index)
  let a ← point; let b ← point
  let l ← ix []
  check (a ∈ l ∧ b ∈ l)
  check ((← ix [a]) = [a])
  check ((← ix [100]) = [])
  check ((← ix [a, any]) = [a])
  check ((← ix [100, any, any]) = [])
  let c ← call (D.createLink · a b)
  check (c ∈ (← ix [c, a]))
  check ((← ix [c, 100]) = [])
  check ((← ix [any, a]) ≠ [])
  check ((← ix [c, a, b]) = [c])
  check ((← ix [c, b, a]) = [])
  check ((← ix [c, any, b]) = [c])
  check ((← ix [c, any, a]) = [])
  check ((← ix [c, a, any]) = [c])
  check ((← ix [c, b, any]) = [])

/-- `*_tree_operations_multiple_links`, `*_search_through_source_tree`, `split_search_operations`,
`*_source_target_tree_consistency`. -/
def tTrees : Test S Unit := do
  let a ← point; let b ← point; let c ← point
  let ab ← call (D.createLink · a b)
  let ac ← call (D.createLink · a c)
  check ((← readE (D.countUsagesOf · a)) = 2)
  check ((← read (D.search · a b)) = some ab)
  check ((← read (D.search · a c)) = some ac)
  let bc ← call (D.createLink · b c)
  check ((← read (D.search · b c)) = some bc)
  check ((← read (D.search · c a)) = none)
  check ((← read (D.search · b a)) = none)
  check ((← call (D.getOrCreate · a c)) = ac)
  check ((← readE (D.usages · c)).length ≥ 2)
  check ((← read (D.collect · [any, a, any])).length ≥ 2)
  check ((← read (D.collect · [any, any, c])).length ≥ 2)

/-- `*_delete_and_recreate`, `unit_delete_first_link`. -/
def tRecreate : Test S Unit := do
  let a ← point
  check (a = 1)
  let _ ← call (D.delete · a)
  check (!(← read (D.exist · a)))
  check ((← read D.count) = 0)
  let b ← point
  check (b = 1)
  check (← read (D.exist · b))

/-- `*_delete_nonexistent`, `*_update_nonexistent`. -/
def tMissing : Test S Unit := do
  check ((← call' (D.delete · 100)).isOk = false)
  check ((← call' (D.update · 100 1 1)).isOk = false)

/-- `*_complex_structure`. -/
def tCycle : Test S Unit := do
  let a ← point; let b ← point; let c ← point
  let _ ← call (D.createLink · a b)
  let _ ← call (D.createLink · b c)
  let _ ← call (D.createLink · c a)
  for x in [a, b, c] do
    check ((← read (D.countBy · [any, x, any])) ≥ 1)
    check ((← read (D.countBy · [any, any, x])) ≥ 1)

/-- `*_update_source_and_target`. -/
def tUpdateBoth : Test S Unit := do
  let a ← point; let b ← point; let c ← point
  let d ← call (D.createLink · a b)
  let _ ← call (D.update · d c c)
  check ((← read (D.getLink · d)) = some ⟨d, c, c⟩)

/-- `*_each_usages_iteration`: here `create_link(a, a)` duplicates the point `a`. -/
def tEachUsages : Test S Unit := do
  let a ← point; let b ← point
  let l1 ← call (D.createLink · a b)
  let l2 ← call (D.createLink · a a)
  let us ← readE (D.usages · a)
  check (l1 ∈ us ∨ l2 ∈ us)

/-! ### `tests/store_internals.rs` -/

/-- `*_delete_middle_link_exercises_unused_list`, `unit_is_unused_detection`. -/
def tDeleteMiddle : Test S Unit := do
  let a ← point; let b ← point; let c ← point
  check ((← read D.count) = 3)
  let _ ← call (D.delete · b)
  check ((← read D.count) = 2)
  check (← read (D.exist · a))
  check (!(← read (D.exist · b)))
  check (← read (D.exist · c))
  let d ← point
  check ((← read D.count) = 3)
  check (d = b)

/-- `*_delete_last_with_preceding_unused`. -/
def tDeleteLast : Test S Unit := do
  let a ← point; let b ← point; let c ← point
  let _ ← call (D.delete · b)
  let _ ← call (D.delete · c)
  check ((← read D.count) = 1)
  check (← read (D.exist · a))
  check (!(← read (D.exist · b)))
  check (!(← read (D.exist · c)))

/-- `unit_multiple_non_sequential_deletes`. -/
def tNonSequential : Test S Unit := do
  let _ ← point; let b ← point; let _ ← point; let d ← point; let _ ← point
  let _ ← call (D.delete · b)
  let _ ← call (D.delete · d)
  check ((← read D.count) = 3)
  let f ← point; let g ← point
  check ((f = d ∨ f = b) ∧ (g = d ∨ g = b) ∧ f ≠ g)
  check ((← read D.count) = 5)

/-- `unit_delete_with_usages_first`. -/
def tUsagesFirst : Test S Unit := do
  let a ← point; let b ← point
  let _ ← call (D.createLink · a b)
  let _ ← call (D.createLink · b a)
  check (← read (D.hasUsages · a))
  call (D.deleteUsages · a)
  check (!(← read (D.hasUsages · a)))
  let _ ← call (D.delete · a)
  check (!(← read (D.exist · a)))

/-- `unit_alternating_create_delete` (three rounds instead of twenty). -/
def tAlternating : Test S Unit := do
  for _ in [0, 1, 2] do
    let a ← point; let b ← point
    let _ ← call (D.delete · a)
    let c ← point
    check (c = a)
    let _ ← call (D.delete · b)
    let _ ← call (D.delete · c)
  check ((← read D.count) = 0)

/-- `split_count_usages_many_links`, `split_same_target_multiple_sources` (five rounds instead of twenty). -/
def tMany : Test S Unit := do
  let base ← point
  for _ in [0, 1, 2, 3, 4] do
    let t ← point
    let _ ← call (D.createLink · base t)
    check ((← read (D.search · base t)).isSome)
  check ((← readE (D.countUsagesOf · base)) ≥ 5)
  check ((← readE (D.usages · base)).length ≥ 5)

/-- `split_each_usages_with_handler`. -/
def tUsagesBoth : Test S Unit := do
  let a ← point; let b ← point; let c ← point
  let _ ← call (D.createLink · a b)
  let _ ← call (D.createLink · a c)
  let _ ← call (D.createLink · b a)
  check ((← readE (D.usages · a)).length ≥ 2)

/-- `split_delete_updates_trees`, `split_count_usages_no_usages`. -/
def tDeleteTrees : Test S Unit := do
  let a ← point; let b ← point; let c ← point
  let ua ← readE (D.countUsagesOf · a)
  let ub ← readE (D.countUsagesOf · b)
  let ab ← call (D.createLink · a b)
  let ac ← call (D.createLink · a c)
  check ((← read (D.search · a b)).isSome)
  check ((← read (D.search · a c)).isSome)
  let n ← readE (D.countUsagesOf · a)
  let _ ← call (D.delete · ab)
  check ((← read (D.search · a b)) = none)
  check ((← read (D.search · a c)).isSome)
  check (← read (D.hasUsages · a))
  let _ ← call (D.delete · ac)
  let n' ← readE (D.countUsagesOf · a)
  check (n' < n ∨ n = 0)
  check (n' = ua)
  check ((← readE (D.countUsagesOf · b)) = ub)

/-- `split_mixed_crud_operations` (two rounds instead of ten). -/
def tMixed : Test S Unit := do
  let a ← point; let b ← point
  for _ in [0, 1] do
    let l ← call (D.createLink · a b)
    check ((← read (D.search · a b)).isSome)
    let _ ← call (D.delete · l)
    check ((← read D.count) ≥ 2)

/-- `split_update_operations`. -/
def tUpdate : Test S Unit := do
  let a ← point; let b ← point; let c ← point
  let l ← call (D.createLink · a b)
  let _ ← call (D.update · l a c)
  check ((← read (D.search · a b)) = none)
  check ((← read (D.search · a c)).isSome)

/-! ### `tests/iter.rs`, `tests/doublets.rs`, `tests/seq.rs`, `tests/mem.rs`, `tests/extensions.rs` -/

/-- `unit_iter_bug`, `split_iter_bug`: after `delete(b)` a link is updated to refer to `b` twice. -/
def tIterBug : Test S Unit := do
  let a ← point; let b ← point
  let c ← call (D.createLink · a b)
  let _ ← call (D.delete · b)
  let _ ← call (D.update · c b b)
  let ls ← read D.iter
  check (ls.length = 2 ∧ ⟨1, 1, 1⟩ ∈ ls ∧ ⟨3, 2, 2⟩ ∈ ls)

/-- `unit_each_iter`, `split_each_iter`: links that refer to themselves, made by `create_link`. -/
def tEachIter : Test S Unit := do
  let _ ← call (D.createLink · 1 1)
  let _ ← call (D.createLink · 2 1)
  let _ ← call (D.createLink · 3 1)
  let ls ← read (D.eachIter · [any, any, 1])
  check (ls.length = 3 ∧ ⟨1, 1, 1⟩ ∈ ls ∧ ⟨2, 2, 1⟩ ∈ ls ∧ ⟨3, 3, 1⟩ ∈ ls)

/-- `rebase` (`tests/doublets.rs`). -/
def tRebaseIter : Test S Unit := do
  let a ← point; let b ← point
  let c ← point
  let c ← call (D.update · c c a)
  let d ← point
  let d ← call (D.update · d a d)
  check ((← read D.iter) = [⟨a, a, a⟩, ⟨b, b, b⟩, ⟨c, c, a⟩, ⟨d, a, d⟩])
  let _ ← call (D.rebase · a b)
  check ((← read D.iter) = [⟨a, a, a⟩, ⟨b, b, b⟩, ⟨c, c, b⟩, ⟨d, b, d⟩])

/-- `bug` (`tests/seq.rs`): returns normally. -/
def tBug : Test S Unit := do
  let a ← point; let b ← point
  let _ ← call (D.createLink · a b)
  let _ ← call (D.createLink · 1 10)
  let _ ← call (D.createLink · 10 1)
  let _ ← call (D.delete · a)
  let _ ← read (D.eachIter · [any, any, 1])
  return ()

/-- `unit_store_crud`, `split_store_crud` (`tests/mem.rs`). -/
def tCrud : Test S Unit := do
  let a ← call D.create
  check (a > 0)
  check ((← read (D.getLink · a)).isSome)
  let b ← call D.create
  let _ ← call (D.update · a a b)
  check ((← read (D.getLink · a)).map (·.target) = some b)
  let _ ← call (D.delete · a)
  check ((← read (D.getLink · a)) = none)

/-- `write_seq` (`tests/seq.rs:12-26`). -/
def writeSeq (seq : List Nat) : Test S Nat := do
  let first ← call D.create
  let mut aliases := [first]
  for id in seq do
    let l ← call D.create
    aliases := aliases ++ [← call (D.update · l l id)]
  for p in aliases.zip aliases.tail do
    let _ ← call (D.createLink · p.1 p.2)
  return first

/-- `custom_single` (`tests/seq.rs:28-45`). -/
def customSingle (s : S) (q : List Nat) : Option (Option Link) :=
  (D.eachBy (ρ := Unit) s q (fun r l =>
    if r.isNone && l.index != l.source then (.cont, some l)
    else if l.index != l.source then (.brk (), none)
    else (.cont, r)) none).map (·.2)

/-- `read_seq` (`tests/seq.rs:47-57`), at most `fuel` elements. -/
def readSeq : Nat → Nat → Test S (List Nat)
  | 0, _ => return []
  | fuel + 1, cur => do
    match ← read (customSingle D · [any, cur, any]) with
    | none => return []
    | some l =>
      let a ← readE (D.tryGetLink · l.target)
      return a.target :: (← readSeq fuel l.target)

/-- `seq` (`tests/seq.rs:91-110`), two short texts instead of a hundred times the poem; the test only demands that reading
returns, here the text read is also compared with the text written. -/
def tSeq : Test S Unit := do
  let x ← writeSeq D [66, 60, 66]
  let y ← writeSeq D [70, 60]
  check ((← readSeq D any 9 x) = [66, 60, 66])
  check ((← readSeq D any 9 y) = [70, 60])

end

/-- One cycle of `test_random_creations_and_deletions` (`tests/extensions.rs:115-148`) with given choices: `none` is `create()`,
`some (source, target)` is `get_or_create`. -/
def tRandom (D : Links S) (cs : List (Option (Nat × Nat))) : Test S Unit := do
  let mut created := 0
  for c in cs do
    let count ← read D.count
    match c with
    | some (a, b) =>
      let r ← call (D.getOrCreate · a b)
      if r > count then created := created + 1
    | none =>
      let _ ← call D.create
      created := created + 1
    check (created = (← read D.count))
  call D.deleteAll
  check ((← read D.count) = 0)

/-! ## Running them -/

/-- Choices for one cycle of the random test. -/
def choices : List (Option (Nat × Nat)) :=
  [none, none, some (1, 2), some (2, 1), some (1, 2), some (4, 4), none, some (3, 5), some (2, 2)]

section
local notation "D" => Verif.Unit.links Verif.Unit.cfg0
local notation "fresh" => Verif.Unit.store0 Verif.Unit.cfg0

example : passes (tCount D) fresh = true := by decide +kernel
example : passes (tFound D) fresh = true := by decide +kernel
example : passes (tSearch D) fresh = true := by decide +kernel
example : passes (tGetOrCreate D) fresh = true := by decide +kernel
example : passes (tUsages D) fresh = true := by decide +kernel
example : passes (tDeleteAll D) fresh = true := by decide +kernel
example : passes (tCreate D) fresh = true := by decide +kernel
example : passes (tRebase D) fresh = true := by decide +kernel
example : passes (tRebaseAndDelete D) fresh = true := by decide +kernel
example : passes (tRebaseSame D) fresh = true := by decide +kernel
example : passes (tIter D 252) fresh = true := by decide +kernel
example : passes (tBoxed D) fresh = true := by decide +kernel
example : passes (tBreak D) fresh = true := by decide +kernel
example : passes (tHandlers D) fresh = true := by decide +kernel
example : passes (tDeleteQuery D 252) fresh = true := by decide +kernel
example : passes (tDeleteUsagesWith D) fresh = true := by decide +kernel
example : passes (tCountQueriesSplit D 252) fresh = true := by decide +kernel
example : passes (tEachQueries D 252) fresh = true := by decide +kernel
example : passes (tTrees D 252) fresh = true := by decide +kernel
example : passes (tRecreate D) fresh = true := by decide +kernel
example : passes (tMissing D) fresh = true := by decide +kernel
example : passes (tCycle D 252) fresh = true := by decide +kernel
example : passes (tUpdateBoth D) fresh = true := by decide +kernel
example : passes (tEachUsages D) fresh = true := by decide +kernel
example : passes (tDeleteMiddle D) fresh = true := by decide +kernel
example : passes (tDeleteLast D) fresh = true := by decide +kernel
example : passes (tNonSequential D) fresh = true := by decide +kernel
example : passes (tUsagesFirst D) fresh = true := by decide +kernel
example : passes (tAlternating D) fresh = true := by decide +kernel
example : passes (tMany D) fresh = true := by decide +kernel
example : passes (tUsagesBoth D) fresh = true := by decide +kernel
example : passes (tDeleteTrees D) fresh = true := by decide +kernel
example : passes (tMixed D) fresh = true := by decide +kernel
example : passes (tUpdate D) fresh = true := by decide +kernel
example : passes (tIterBug D) fresh = true := by decide +kernel
example : passes (tEachIter D 252) fresh = true := by decide +kernel
example : passes (tRebaseIter D) fresh = true := by decide +kernel
example : passes (tBug D 252) fresh = true := by decide +kernel
example : passes (tCrud D) fresh = true := by decide +kernel
example : passes (tSeq D 252) fresh = true := by decide +kernel
example : passes (tRandom D choices) fresh = true := by decide +kernel
example : passes (tCountQueries D 252) fresh = true := by decide +kernel
end

section
local notation "D" => Verif.Split.links Verif.Split.cfg0
local notation "fresh" => Verif.Split.store0 Verif.Split.cfg0

example : passes (tCount D) fresh = true := by decide +kernel
example : passes (tFound D) fresh = true := by decide +kernel
example : passes (tSearch D) fresh = true := by decide +kernel
example : passes (tGetOrCreate D) fresh = true := by decide +kernel
example : passes (tUsages D) fresh = true := by decide +kernel
example : passes (tDeleteAll D) fresh = true := by decide +kernel
example : passes (tCreate D) fresh = true := by decide +kernel
example : passes (tRebase D) fresh = true := by decide +kernel
example : passes (tRebaseAndDelete D) fresh = true := by decide +kernel
example : passes (tRebaseSame D) fresh = true := by decide +kernel
example : passes (tIter D 252) fresh = true := by decide +kernel
example : passes (tBoxed D) fresh = true := by decide +kernel
example : passes (tBreak D) fresh = true := by decide +kernel
example : passes (tHandlers D) fresh = true := by decide +kernel
example : passes (tDeleteQuery D 252) fresh = true := by decide +kernel
example : passes (tDeleteUsagesWith D) fresh = true := by decide +kernel
example : passes (tCountQueriesSplit D 252) fresh = true := by decide +kernel
example : passes (tEachQueries D 252) fresh = true := by decide +kernel
example : passes (tTrees D 252) fresh = true := by decide +kernel
example : passes (tRecreate D) fresh = true := by decide +kernel
example : passes (tMissing D) fresh = true := by decide +kernel
example : passes (tCycle D 252) fresh = true := by decide +kernel
example : passes (tUpdateBoth D) fresh = true := by decide +kernel
example : passes (tEachUsages D) fresh = true := by decide +kernel
example : passes (tDeleteMiddle D) fresh = true := by decide +kernel
example : passes (tDeleteLast D) fresh = true := by decide +kernel
example : passes (tNonSequential D) fresh = true := by decide +kernel
example : passes (tUsagesFirst D) fresh = true := by decide +kernel
example : passes (tAlternating D) fresh = true := by decide +kernel
example : passes (tMany D) fresh = true := by decide +kernel
example : passes (tUsagesBoth D) fresh = true := by decide +kernel
example : passes (tDeleteTrees D) fresh = true := by decide +kernel
example : passes (tMixed D) fresh = true := by decide +kernel
example : passes (tUpdate D) fresh = true := by decide +kernel
example : passes (tIterBug D) fresh = true := by decide +kernel
example : passes (tEachIter D 252) fresh = true := by decide +kernel
example : passes (tRebaseIter D) fresh = true := by decide +kernel
example : passes (tBug D 252) fresh = true := by decide +kernel
example : passes (tCrud D) fresh = true := by decide +kernel
example : passes (tSeq D 252) fresh = true := by decide +kernel
example : passes (tRandom D choices) fresh = true := by decide +kernel

/-- The authors run `unit_count_links_*` on the united store only; on the split store `[c, a]` is miscounted, which is the finding
of C34. -/
example : passes (tCountQueries D 252) fresh = false := by decide +kernel
end

/-! ### `tests/handler.rs` and `tests/link.rs` -/

/-- `fuse_call_continue`, `fuse_call_break`, `fuse_done_flag_behavior`. -/
example :
    let l1 : Link := ⟨1, 1, 1⟩
    let l2 : Link := ⟨2, 2, 2⟩
    let cont : Links.Hd Unit Unit := fun u _ _ => (.cont, u)
    let brk : Links.Hd Unit Unit := fun u _ _ => (.brk (), u)
    let once : Links.Hd Nat Unit := fun n _ _ => if n = 0 then (.brk (), n + 1) else (.cont, n + 1)
    let r := fuseCall once { inner := 0 } l1 l2
    (fuseCall cont { inner := () } l1 l2).1 = .cont ∧ (fuseCall cont (fuseCall cont { inner := () } l1 l2).2 l1 l2).1 = .cont ∧
    (fuseCall brk { inner := () } l1 l2).1 = .brk () ∧ (fuseCall brk (fuseCall brk { inner := () } l1 l2).2 l1 l2).1 = .brk () ∧
    r.1 = .brk () := by decide +kernel

/-- `link_to_query`, `link_point`, `link_from_slice`, `link_from_slice_too_small`, `link_is_null`, `link_is_full`,
`link_is_partial`, `link_as_slice`, `link_debug_format`. -/
example :
    Link.toQuery ⟨1, 2, 3⟩ = [1, 2, 3] ∧ Link.point 42 = ⟨42, 42, 42⟩ ∧ Link.nothing = ⟨0, 0, 0⟩ ∧
    Link.fromSlice [1, 2, 3] = .ret ⟨1, 2, 3⟩ ∧ Link.fromSlice [1, 2] = .panic ∧
    [Link.point 0, Link.point 1, ⟨0, 1, 0⟩].map Link.isNull = [true, false, false] ∧
    [Link.point 5, ⟨5, 3, 5⟩, ⟨5, 5, 3⟩, ⟨1, 2, 3⟩].map Link.isFull = [true, false, false, false] ∧
    [⟨5, 5, 3⟩, ⟨5, 3, 5⟩, Link.point 5, ⟨1, 2, 3⟩].map Link.isPartial = [true, true, true, false] ∧
    Link.asSlice ⟨1, 2, 3⟩ = [1, 2, 3] ∧ Printing.linkDebug ⟨1, 2, 3⟩ = "1: 2 3".toList := by decide +kernel

end Verif.RepoTests
