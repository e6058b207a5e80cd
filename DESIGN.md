# Formal model of linksplatform/doublets-rs in Lean 4

## Technique

`doublets` stores are single-threaded, sequential, deterministic data structures in raw memory.
Each Rust function is modelled as a total Lean function on an explicit memory state.

* Index values (`T: LinkType`) are natural numbers; the configuration carries `maxT = T::MAX`.
  All arithmetic of the Rust code is checked (`cadd`, `csub`): overflow/underflow gives `none`. The wrapping
  arithmetic of builds without overflow checks is modelled for C114 (`wadd`, `wsub`, `Release.lean`).
* `none` (the outer `Option`) stands for everything that is not a normal return of the Rust code:
  panic (`expect`, `unreachable!`, `todo!`, slice index), out-of-bounds raw access (UB), arithmetic
  overflow (debug panic / release wrap), and divergence of a loop.
* `Result<_, Error>` is `Except Err _`; the state is returned in both cases so that "an error
  changes nothing" can be stated.
* Handlers (`FnMut`) are state-passing functions `σ → Link → Flow × σ`, for an arbitrary state type.
* Memory: slot 0 is the header, reinterpreted as a link part exactly as the `transmute` does it, so
  reading slot 0 as a link gives the header's bits (this matters in the split store).
* Loops over trees use fuel = number of slots + 1. Running out of fuel is `none`. A loop that visits
  more nodes than there are slots has visited one twice without changing state, hence diverges, so
  the bound is exact and not an approximation. Theorems show it is never reached from good states.

The properties are proved with a representation invariant (memory ↔ abstract trees + free list),
preservation by every operation (induction over histories), and refinement to an abstract map.

Properties that are false of the code are kept as stated; the negation is proved with a concrete
witness (or for all states of a kind) and what does hold is proved as a `_partial` theorem.

## Trusted base

* Lean 4.33.0's kernel. Every theorem is accepted by it; concrete facts about example stores are closed with
  `decide +kernel`, which makes the kernel itself evaluate the decision procedure. `native_decide`, `bv_decide`,
  `sorry`, `implemented_by` and axioms of our own are not used.
* The axioms of Lean's library `propext`, `Quot.sound` and `Classical.choice`. The table at the end lists them per theorem.
* That the model says what the Rust code does. Every definition of the model cites the file and lines it follows, and
  names its simplifications. The repository's own tests, transcribed in `RepoTests.lean`, all pass on the model. The theorems were tried on deliberately wrong versions of the model
  (`seeded/LOG.jsonl`).
* That the specification says what the English says: `Spec.lean` (contents as a map, what a query matches, what it means
  that a traversal visits a list, that a call succeeds or fails), the first part of `Unit/History.lean` (replay of a
  history on a map, index allocation), `Careful.lean` (careful clients), `Call.SplitOK` in `Split/History.lean`.

### What is external

`dev-deps/{data-rs,mem-rs,trees-rs}` are empty submodules here, so the `data`, `mem` and `trees`
crates are not part of the code under study. They enter as parameters:

* `trees`: `NoRecurSzbTree::attach/detach`, `AbsoluteCircularLinkedList::attach_as_first/detach` are
  fields of a structure `TreesCrate`; `LawfulTrees` states their contract (`Verif/Trees.lean`). A ghost field `shape`
  stands for the shape of tree the crate maintains; only C56 assumes anything about it.
  Theorems about the stores hold for every lawful crate. A concrete lawful instance is constructed
  and proved (`Verif/RefTrees.lean`), so the hypothesis is satisfiable. C93 shows how far a weaker contract carries.
* `mem`: `RawMem::alloc(n)` either fails or yields a slice of at least `n` slots (exactly `n` for the split store), keeps
  existing contents, and hands out zeroed slots. It may behave differently at every call.
* `data`: `LinksConstants` is a record; hypotheses used: `null = 0`, the parts are 0/1/2, the internal range
  starts at 1 and ends below `T::MAX`, `any` lies outside of it.

### What is modelled

| code | model |
|---|---|
| `doublets/src/mem/unit/{store,raw_link}.rs`, `mem/header.rs` | `Unit/Model.lean` |
| `mem/unit/generic/*.rs` | `TreeRead.lean`, `Unit/Model.lean` |
| `doublets/src/mem/split/store.rs`, `mem/split/{data_part,index_part}.rs` | `Split/Model.lean` |
| `mem/split/generic/*.rs` | `TreeRead.lean`, `Split/Model.lean`; `internal_sources_linked_list.rs`, which `USE_LIST = false` makes dead code: `Split/SourcesList.lean` |
| `doublets/src/data/traits.rs` (all default methods of `Links`, `Doublets`, `DoubletsExt`; forwarding through `Box` and `&mut` is the identity), `data/handler.rs` (`Fuse`) | `Doublets.lean` |
| `doublets/src/data/link.rs`, `data/doublet.rs` | `LinkHelpers.lean`, `Basic.lean`, `Printing.lean` (`Display`/`Debug`) |
| `doublets/src/data/error.rs` | `Basic.lean` (variants), `Printing.lean` (messages) |
| `doublets-ffi/src/lib.rs` (functions, handles, callbacks, constants) | `Ffi.lean` |
| `doublets-ffi/ffi-attributes/src/lib.rs`, `doublets-ffi/env-decorators/src/lib.rs` (on syntax trees) | `Macros.lean` |
| `doublets-decorators/src/*.rs` (all but the commented-out `ilinks_decorator.rs`) | `Decorators.lean` |
| crash points of `create_links`, `update_links`, `delete_links` of both stores | `Unit/Crash.lean`, `Split/Crash.lean` |
| reads of both stores, one load at a time; threads that share a store (`unsafe impl Sync`) | `Loads.lean`, `Unit/Loads.lean`, `Split/Loads.lean`; `Shared.lean`, `Unit/Shared.lean`, `Split/Shared.lean` |
| `write_seq`, `custom_single`, `read_seq` of `tests/seq.rs` | `Sequences.lean` |
| sequences of calls of `doublets-ffi/src/lib.rs:222-408` | `Session.lean` |
| recursion depth of `each_usages_core` | `Depth` |
| clients that store given links and that empty a store (not code of the repository) | `Copy`, `Undo` |
| accessors that the stores give to the `trees` crate, and the pointers behind them, one assignment at a time | `Access.lean` (traits and programs over them), `Unit/Access.lean`, `Split/Access.lean` |

### What is not modelled

* the three external crates above (contracts instead);
* `Error` conversions, logging in `doublets-ffi`, parsing and printing of Rust tokens around the procedural macros,
  benchmarks (tests: see `RepoTests.lean`);
* rayon: `par_each_iter` collects first and hands the vector to rayon, which is modelled after its documentation (`Parallel.lean`); the aliasing rules of `&mut`
  (reads go through `mut_from_mem` and create short-lived `&mut` references, `mem/unit/store.rs:97-115`, `mem/split/store.rs:115-129`);
  weak memory: threads (C85) see assignments in one order, which is what a lock gives them;
* the operating system's file mapping, and crashes in the middle of a single assignment;
* performance, other than which slots an answer depends on (C56) and how many updates a call makes (C57).

## Plan per property

The table below has the state of each property.

* C01–C08, C13–C15 (united store, writes): memory model of `mem/unit`, invariant `Inv`, preservation per
  operation, simulation to `Nat → Option (Nat × Nat)`, induction over histories.
* C09–C12 (united store, reads): tree-walk lemmas on represented search trees (induction on the tree).
* C16, C40, C47, C54 (reopen, crash): `init` on a memory image; crash points as the list of intermediate images of an operation.
* C17–C25, C28, C29 (default methods of `Doublets`): written once over a record of the trait's required
  methods, proved for every record that satisfies a small contract (`Lawful`), both stores as instances.
* C56 (few slots): the set of slots an answer can depend on, bounded by the height of the index tree; size-balance is a
  ghost field `shape` of the crate model, part of the contract that attach and detach keep (`Trees.lean`), so that
  it holds in every reachable state; `RefBalanced.lean` is an instance with that shape.
* C26, C27, C36–C39, C48, C49, C55 (handlers, `Fuse`, `Link`, FFI, index widths): direct models.
* C30–C34, C45–C47 (split store): memory model of `mem/split`, same method; defects as negated statements.
* C35: both stores.
* C41–C44 (decorators): models over the trait record, proved for every lawful store.
* C57 (updates per call): the number of crash images of a call, summed over a history with the number of free slots as
  potential; on the split store the allocated slots and the references that are found at existing links.
* C58–C60: exact descriptions of traversals, `delete_usages` and `rebase` in the cases where C09, C20, C21 are false.
* C61–C63 (macros): model on syntax trees, structural induction. C64: read side of the linked list over a specification of a ring in
  memory. C65: injectivity of the printed forms.
* C66 (malformed calls): the same models, from C14.
* C67 (null ends on the split store): the trees below the slots named by the header fields that are read as roots of link 0.
* C68–C70: exact descriptions of `delete_query_with` (on the split store also for null ends, from the traversals of C67), `rebase_and_delete` and the cascading deletion where C23, C22, C43 are silent
  or false. C71: the remaining lookups, over every lawful store. C72: case analysis of `init`, the invariant for what it reads. C73: the counts
  from the sizes stored in the trees. C74: two states compared through C58, C73. C75: the invariant with, per side,
  an arbitrary set of references kept in the tree of dangling references.
* C76, C77 (accessors): the calls as state transitions of a memory with pointers that a growth makes stale, recording the memory after each
  assignment; the algorithms of the `trees` crate are programs that may ask and assign through the accessors only and that
  meet the crate's contract on every memory. Simulation with the store model. Split store: `Guard` replaces the trees of the
  configuration by ones that fail outside the contract, so that where the model returns every call of the crate is in it.
* C78 (arbitrary files): `init` on any memory, induction over the slots, no invariant. C79 (replay): a store that notes its states
  next to the store (`Replay.lean`); a relation between the two carried through every default method and decorator.
* C80 (growth): the amount of memory as a further invariant over histories, the peak from C50.
* C81 (nested pairs): structural induction over the nested pair, each step a careful call (C51). Lists of nested pairs (`Links.internAll`) and reading them back (`Links.readNest`): the same induction from the laws of `search`, `create` and `update` (`Lawful`), over the weaker tree contract.
* C82 (file layout): bounds on all fields from the representation invariant, `reserved` by induction over histories, then base 256 digits.
* C83 (power loss): induction over a session of calls run through the accessors (C76), every single assignment of which keeps the ends of the other links (C77); then each word of a mixture comes from one of these memories.
* C84 (stacks): predicates on states that the updates and deletions of a store keep are shown to be kept by each decorator over it (induction over the stack); the innermost validators are shown to keep "unique doublets" and "no dangling references".
* C85 (threads): reading calls as programs of single loads, shown to return what the functional model of the reads says; writing calls as
  the memory images of the accessor level (C76); a transition system of threads under a reader-writer lock; an invariant over all
  schedules that explains each state by the calls that have returned.
* C86 (texts): the client of `tests/seq.rs` as recursive functions over any store; invariants of its two loops by induction on the
  text; a frame lemma for texts that are there already; instances for the reachable states of the united store and for the histories
  of C75 of the split store.
* C87 (C sessions): a session is a list of C calls run one after another, with callbacks that may depend on everything told so far; a
  relation `Says` on tables specifies every call; refinement by induction on the list of calls.
* C88 (constants): the operations as functions of the constants; equality of all operations for constants that agree in seven fields,
  by induction on the loops; for each other field a theorem about every configuration that has it wrong.
* C89 (storing and copying): a client program that makes given contents; induction over its three phases, generic in the store, and
  one lemma for each of its calls on each store.
* C90 (recovery): the traversal of any memory (C78) gives links with distinct indices, which C89 stores; C40, C54 and C83 say which.
* C91 (undo): `clear` (`Verif/Undo.lean`) empties a store by induction on its links; an emptied store satisfies what C89 needs of a fresh one.
* C92 (stack depth): the queries once more with the depth of the stack as an argument (`Verif/Depth.lean`); by induction a depth above the height of the trees gives the same result as any other.
* C93 (weaker contract of the tree crate): `LawfulTrees₀` asks only for trees of pairwise distinguishable nodes. A crate that keeps it is mended on all other trees (`Mend.lean`), and by induction on duplicate-free histories the store does the same over the crate and over the mended one (`Unit/Mend*.lean`, `Split/Mend*.lean`). `Sbt.lean` is a crate that keeps the weaker contract and not the full one.
* C94 (the same below the level of calls): `Programs.ImplementsOn Apart` asks the programs of the crate to do what it says on trees of distinguishable nodes only. Such programs also implement the crate mended and then guarded (`Guard.lean`), for which the simulation behind C76 holds; on duplicate-free stores the guard never shows (`Unit/AccessMend.lean`, `Split/AccessMend.lean`, `Unit/SharedMend.lean`, `Split/SharedMend.lean`). `SbtPrograms.lean` gives the published algorithm as programs over the accessors and proves that they do what `Sbt.lean` says; `CircList.lean` and `CircPrograms.lean` do the same for the usual circular list.
* C95, C96 (public methods beside the `Doublets` interface): from the representation invariant, as for lookups and searches.
* C97 (unique-doublet decorators for all ends): from C58, which says what the search in each decorator visits, and the laws of the united store; on the split store from C100.
* C98 (memories that grant more): counter-theorems by evaluating a history, and for all states with a missing slot by unfolding the creation; for memories that grant alike, by reduction to exact memories with another page size and step (Split/Alike.lean).
* C99 (half pairs): counter-theorem for all reachable states from the effect of the two tree updates on the forest invariant; the damage to other links by evaluating a history over the usual list algorithm (Verif/CircList.lean), which is proved to meet the list contract.
* C100 (find, single, found): from the exact descriptions of traversals (C58, C45) and counts (C10, C73), by cases on the list a traversal visits.
* C101 (lists of sources under writes): the usual circular-list programs run over the setters of internal_sources_linked_list.rs; memory is related to a list state whose `last` is read off the pointers, each method is one step of `Verif/CircList.lean` on it, and histories over all heads are an induction with disjoint lists.
* C102 (threads and whole methods): a method is a tree of calls (`Txn`, `Verif/SharedActs.lean`) run under one lock; `Faithful` of C85 lifts from calls to methods by induction on the tree; the state of the network is an invariant of the serial histories (`Built`), carried to all schedules by linearizability; the twins are a concrete schedule.
* C103 (crashes while threads run): `Schedule` (`Verif/SharedCrash.lean`) records every memory of a schedule; by induction over it each is that of a store that finished requests leave, or lies on the way of one further request; what single calls spare (C77) lifts to methods by induction on their tree of calls (`Sparing`), and from there to schedules.
* C104 (handlers that panic): the methods that take a write handler are modelled again with handlers that may panic (`LinksP`, `linksP`): the call of the handler stands where the code has it, and a panic ends every method around it with the store as it is. `ShowsLast` is proved by cases for the three writes of each store; the default methods and the decorators are compared with the watched store of C79 (`EndsAs`), whose notes are the states at each report.
* C105 (no link is made up by a crash): the simulation of C77 between single assignments and whole steps is strengthened: a slot with tree size 0 in the state the image is near to has size 0 in the image (`Near`, `SameSizes`), and slots of the list of unused links have size 0 and a source, so they are not shown. What a power loss can show is decided on concrete files.
* C106 (power loss without deletions): the images after single assignments (C77, C83) are shown to keep, in every slot outside the list of unused links, a source and a target that the slot had or that the running call gives it (`Raw`); without deletions the list stays empty, so the fact goes through a session by induction and through any word-wise mixture of its images.
* C107 (ownership): C85 reduces every schedule to calls made one at a time; there each call answers like a map (C01, C05, C06), and calls of other owners do not change the links of a thread, so an induction over the log gives a private run per thread (`serial_owners`). Private runs of deterministic programs are functions of the start.
* C108 (storing through decorators): `createLink_step` reduces `create_link` of a decorated store to the update of the created link; the laws of C41, C42 and C97 apply to the state after the creation. Repeated failing calls: induction on their number.
* C109 (batches): `Independent` is kept by every change and invariant under permutation, so by induction every call is an ordinary update or deletion (`run_law`); `After` determines the contents without the order.
* C110 (imports): a relation `CarriedOut` between script, contents and results; `run` establishes it (contents only grow), and a script that is carried out runs through `search` alone because the link between two links is unique.
* C111 (order of imports): both runs carry out all scripts (`Progress`, by induction over the schedule); the relation between the results of equal calls is built script by script and stays a one-to-one correspondence because the link between two links is unique on both sides (`Corr.add`).
* C112 (parallel iteration): a job is a tree of splits of the vector, the order is any interleaving of its pieces; permutation by induction over the interleaving, `reduce` and `collect` by induction over the tree.
* C113 (sweeping): the marking reaches its fixed point in as many rounds as there are links, because the marked list only grows; the deletions are an independent batch (C109).
* C114 (release builds): the functions with arithmetic once more with wrapping arithmetic; whenever the checked version returns the other returns the same, by congruence through binds and branches; on reachable states the checks are shown not to fire except in the sum of two counts.
* C115 (index types): the specification of call results (C53) with a higher limit gives the same results as long as the lower one is not met; queries as lists of optional indices, whose meaning is shown not to depend on the reserved value that stands for any, then the exact characterisations of traversals and counts (C58, C73).
* C116 (clients): programs of a client as trees whose branches depend on results; their meaning on a map as an inductive relation; simulation by induction on the program from one law per call, and uniqueness of the meaning for clients that do not look at the order of visits.
* C117 (clients of the C interface): the same programs run with the functions of `Ffi.lean`, interpreting codes and callbacks; equality with the run through the Rust interface by induction on the program.
* C118 (restarts): the programs of C116 run by an inductive relation with a step for closing and opening; the simulation of C116 again, since opening leaves the history of a store as it is.
* C119 (README): its programs as clients of a store; induction over the number of points on any lawful store that numbers links in order, and the weaker contract of C93 for the tree crate.
* C120: histories without duplicates over a crate with the weaker contract are, call by call, histories over a crate with the full contract (C93); induction over the client shows that it does the same over both.
* C121: induction over histories of decorated calls; the updates that the decorators let through are those that the store supports over the weaker tree contract (C93), so the laws of the store (`Lawful`) apply to each of them.
* C122: invariant of careful clients (every link stands for a nested pair), by induction over their histories with the effects of C51; the depth is bounded by the number of links because the parts on a longest path are different links; the renumbering maps each link to the one that stands for the same nested pair. Threads: by C102 the state after any schedule is one of a careful client; that meanings stay is an induction over what a link stands for.
* C123: invariant added to those of C84: an update passes both validators only if no other link uses the updated link, so a new walk through it can only start there; induction over stacks and histories as for C84.
* C124: the client program is modelled over the interface of stores; reading is C122, storing is C81, numbering is that of an empty store (as for the README programs). The nested pairs of the target are shown to be those of the source with the points renamed, and C122 gives the correspondence. After a failed call the links of the target stand for different links of the source and one is missing, so there are fewer.
* C125: the link that stands for a deepest nested pair (C122) is not used by any other; deleting an unused link keeps the invariants of C122; induction over the number of deletions.
* C50, C51: invariants over histories and over the calls of a careful client.
* C52, C53: order of visits; two runs of the same calls compared through the recorded histories.

Not expressible in this model: data races, aliasing rules of `&mut`, the behaviour of the operating system's file
mapping, running time.

## Reading guide

`Basic` vocabulary of the code; `Spec` vocabulary of the properties; `Trees`/`RefTrees` contract of the tree crate and an
instance; `TreeRead` tree walks; `Access`/`RefPrograms` algorithms over accessors; `Unit/*` and `Split/*` one store each (Model: the code; Inv: invariant; Ops, Reads, Query:
what the operations do; Reach, History: reachable states and recorded histories; Lawful: the contract of `Spec`;
Example: concrete stores used to show that hypotheses can be met); `Derived*`, `Decorator*`, `Replay`, `Ffi`, `LinkHelpers`,
`Careful`; `Props/*` the theorems named after the properties, each followed by an example that meets its hypotheses.

## Findings about the code (each one a theorem)

* united store: the handler of an update sees the new link twice (C26); `[any, x]` visits a link (x, x) twice, null ends are not
  indexed, of several links with the same doublet only one is found by search (C09); updating or deleting a link
  that has a twin can panic, so the write theorems exclude it; a store with at least `SIZE_STEP` links can lose the last one on
  reopening with an exact allocator (C16); u8 and u16 stores cannot be opened (C39); a crash inside `update` can hide the link being
  updated, a crash inside `delete` can bring a deleted link back as a null link (C40).
* default methods: `delete_all` fails unless the links are numbered without gaps (C23); a link with `i` at both ends is listed
  and counted twice by `usages`, makes `delete_usages` fail and keeps its reference in `rebase` (C19–C21);
  `rebase_and_delete` returns 0 (C22); `Fuse` never fuses (C27).
* split store: creating a link at an index that is already referred to hides all references to it (C32); a link with
  a source and no target disappears (C30); counts are wrong for a virtual source, for an index with an end, and for an
  empty tree (C34); self references made by an update are not found (C45); links with null ends are
  not found, and the link of highest index is visited (C67) and deleted (C68) in their place; `get_or_create(0, y)` and `get_or_create(x, 0)` can return a link that is
  another pair (C67); if only the data memory can grow, a failed creation leaves
  every link behind a dangling pointer (C46); reopening as C16 (C47); a crash inside `delete` can lose links that have the deleted
  link as target, a crash inside `update` can make a later search undefined (C54).
* C interface: the create callback's answer is inverted (C38); the handle returned by `New` has another type than the other functions
  assume (C48); `Link::from_slice` of a longer slice is undefined (C36).
* decorators: the unique resolvers delete a link that is updated to its own doublet, the validator does not check null
  sources, the cascading merge makes duplicates (C41); `CascadeUsagesResolver` goes one level deep and fails on a link with both ends equal
  to the deleted one (C43); over both validators `CascadeUniqueResolver` can leave a dangling reference, `UniqueResolver` can delete
  a link and report a refusal, and on a split store `NonNullDeletionResolver` over `UniqueValidator` can refuse to delete null links (C84).
* both stores: update and delete ignore restrictions beyond the index in their query (C66).
* reopening loses at most one link, and exactly when the allocator grants as many slots as the largest index; on the split store that
  is decided by the number of links alone (C72).
* split store: counting the links of a source that does not exist returns the index of the next creation (C73), so counts can differ
  between stores with the same contents (C74). After an index was reused, `search` misses links that a query for their other end finds,
  and `get_or_create` makes a duplicate; deleting the link at the reused index repairs the store (C75).
* both stores open a damaged file without a check; lookups and traversals of everything are then safe, searches and traversals by an
  end can loop or leave the memory, and the total can panic (C78).
* both stores: a reader that does not wait for an update to end may be told of a link that never existed, or that the link is missing
  (C85); with a lock it is not.
* united store: a text written as a chain of links is read wrongly if some link refers, as its source, to an index that becomes one of
  the aliases (C86).
* split store: a text with a null symbol is written without an error and cannot be read (C86).
* constants are not checked (C88): `with_constants` accepts any, but with `null ≠ 0` nothing is ever created and index 0 is reported, with a
  start of the range above 1 the first link cannot be reached, and with `any` in the range the split store files unrelated links under
  the deleted one (`resolve_danglind_internal` asks `[any, index, any]`, which is then the query for all links).
* copies (C89): a store with the same contents as another can return other indices from later creations, since the order of the free
  indices is not part of the contents.
* trees crate: an implementation that finds the node to remove by comparing, as the published algorithm does, is damaged by links with
  the same ends: deleting another link, without duplicates, can leave a query that never returns (C93).
* crash inside an index update: with an implementation of the contract of the trees crate that clears a removed root before it moves the root, a crash between the two leaves every other link of that index unfindable by its ends, although lookups work (C77_crash_inside_an_index_can_hide_links and the split version). The contract alone cannot give more than C77 there.
* split store: `is_unused(0)` and `is_virtual(0)` say that 0 is in use whenever some index below the highest link is free (C95).
* decorators: with a wildcard as an end, `UniqueResolver` and `CascadeUniqueResolver` delete the link to be updated and overwrite the ends of some matching link with the wildcard (C97).
* decorators: over a split store, `UniqueValidator` refuses pairs that are in no link: if the source is not a link, some other link with that source, or an unused index, is enough (C97).
* split store: the capacity noted in the header comes from one memory only, from the data memory on opening and from the index memory on growth; if the memories grant different numbers of slots, a creation panics (C98).
* split store: an update to (a, null) with a not null reports success and the link vanishes, because `is_unused` takes a slot with a source that is in no targets tree for a free one; its index is lost, and when the links above it are deleted it is removed from the list of free indices although it was never in it, which overwrites the ends of another link (C99).
* macros: the export macro replaces an array type by its element type and renames further path segments (C61).

<!-- generated below by tools/design.py -->

## State of each property

| id | property | status | remarks |
|---|---|---|---|
| C01 | A united store is a map from index to (source, target) | proved | All histories with any allocator behaviour and reopenings, under the quantifier's side condition that a link is not changed while another link has the same doublet. |
| C02 | Create returns a fresh index | proved |  |
| C03 | Freed indices are reused, most recently freed first, before the store grows | proved |  |
| C04 | Deleting the highest links gives their slots back | proved |  |
| C05 | Update changes one link only | proved |  |
| C06 | Delete removes one link only | proved |  |
| C07 | Operations on missing links fail without effect | proved |  |
| C08 | A full store refuses to create and stays intact | proved |  |
| C09 | Traversal by any query visits exactly the matching links, each once | partial | False in full: three counterexamples are proved ([any,x] visits a link with x at both ends twice; null ends are not indexed; duplicate doublets are visited once). The partial theorem states exactly what is visited otherwise. |
| C10 | Count equals the number of links a traversal visits | proved | Whenever count returns; when it returns is C14. |
| C11 | A traversal stops at the first Break | proved |  |
| C12 | Search finds a link with the given source and target iff there is one | proved |  |
| C13 | count without a query is the number of live links | proved |  |
| C14 | Reads, writes and loops stay inside the allocated memory and never panic or diverge | proved | Two-part counts need unique doublets (the sum of two counts may exceed the type otherwise). |
| C15 | Deleting a link and creating one restores the same index | proved |  |
| C16 | Data survives closing and reopening | partial | Proved when the memory mapped on reopening covers all links. Otherwise false: with an exact allocator and at least SIZE_STEP links, the last link is out of bounds (counterexample proved). |
| C17 | create_link and create_point | proved | When the grown memory can be counted in the index type (C14). On the split store the index handed out must not be referred to already (C32) and a source needs a target (C30). |
| C18 | get_or_create never duplicates | proved | Split store under the conditions of C17. |
| C19 | count_usages, usages and has_usages agree with the links | partial | False of a link that has i at both ends (counterexample proved: listed and counted twice). Proved when there is no such link, and C19_usages_list says exactly what is listed otherwise. Both stores. |
| C20 | delete_usages removes exactly the links that use i | partial | False of a link that has i at both ends (counterexample proved: NotExists, other users left). Proved when there is no such link. On the split store doublets must also be unique (C45). |
| C21 | rebase replaces every reference | partial | False of a link that has old at both ends (counterexample proved: it keeps a reference to old). Proved when there is no such link. On the split store new must not be null and a user of old that has a source must not be, or refer to, itself after rebasing. |
| C22 | rebase_and_delete replaces and removes the old link | partial | Returns 0 instead of new (proved); the effect is proved under the condition of C21 and when old has no twin after rebasing. Split store: as C21. |
| C23 | delete_all empties the store | partial | False: proved that delete_all succeeds exactly when the links are numbered without gaps, and fails with NotExists otherwise. Both stores. |
| C24 | delete_query_with removes exactly the matching links | partial | Proved for every query whose traversal is exact (C09); for [any,x] and a link (x,x) a counterexample is proved. Split store: also when the count returns and doublets are unique. |
| C25 | single, find and found | partial | find and found proved for all queries that do not ask for null ends; single for exact queries, with a counterexample for [any,x]. Split store: found only when the count is exact (C34), with a counterexample. |
| C26 | The write handler sees the true state change | partial | False for the united store: proved that the update handler always sees the new link twice. Proved for the split store. |
| C27 | A fused handler is not called after it broke | partial | False: proved that the wrapped handler is called every time, over any sequence of calls. The partial theorem: a break is reported when it happens. |
| C28 | Handler results are passed through | proved | Both stores proved to meet the contract (split store under its write conditions). |
| C29 | Iterators yield the traversal | proved | each_iter, each_iter_small and par_each_iter are the same function in the model. Split store for queries without null ends, when the count returns (it can overflow, C34). |
| C30 | The split store is a map from index to (source, target) | proved | Under the side conditions of the quantifier; counterexamples show that they are needed. |
| C31 | Split and united stores behave the same | partial | Results, contents, totals, traversals and searches agree; counts agree except in the cases where C34 fails, and queries for null ends do not agree (C67). |
| C32 | Dangling references survive creation of their target | partial | False in every case: proved that after any creation queries for the new index visit nothing. The partial theorem: references to other indices survive. |
| C33 | Deleting a link keeps the links that refer to it findable in a split store | proved |  |
| C34 | Split store counts agree with its traversals | partial | False: three counterexamples are proved. The partial theorem covers all other queries without null ends. |
| C35 | Internal constants: null is never a link | proved | Both stores. |
| C36 | Link helpers | proved | Also proved: from_slice is undefined on longer slices. |
| C37 | FFI constants round trip | proved | Both directions. |
| C38 | FFI callbacks control the operation as documented | partial | False of create: proved that the callback's answer is inverted. Proved for update, delete and each. |
| C39 | Small index types work | partial | False for index types with fewer than SIZE_STEP values (u8, u16): proved that opening never succeeds. Partial theorem: opening succeeds when the granted slots can be counted in the type. |
| C40 | A store survives a crash between two operations, and a crash inside one loses nothing else | partial | United store, every reachable state, every create/update/delete, every crash point between two memory updates, every reopening that maps enough memory: all other links are found by lookup, search and traversal. Missing because false: the reopening gap of C16, and crash points inside a call of the trees crate, where a crate that keeps its contract can lose other links from searches (C77_crash_inside_an_index_can_hide_links) and only C77 and C90 hold. Counter-theorems: the link being updated is hidden for some crash point; a deleted link can come back as a null link. |
| C41 | Unique-doublet decorators keep doublets unique | partial | Proved over every lawful store for ends that are neither null nor the wildcard; for the cascading resolver only if the merge makes no two links equal. False otherwise, with proofs: null sources are not checked, the resolvers delete a link updated to its own doublet, a merge can create duplicates. |
| C42 | UsagesValidator protects used links | proved | Over every lawful store; for every call that returns. |
| C43 | CascadeUsagesResolver leaves no dangling references | partial | Proved for unique doublets and no link with i at both ends. False otherwise (proved); the cascade is one level deep (proved). |
| C44 | NonNullDeletionResolver reports the null state | proved | Over every lawful store, for a link without a twin. |
| C45 | Split store traversals and searches are exact | partial | Same exceptions as C09, and the side conditions of C30; counterexamples proved. |
| C46 | A failed creation leaves a split store unchanged and usable | partial | False when only the data memory can grow: proved that every existing link is then read through a dangling pointer. Proved when the memories grow together. |
| C47 | Reopening a split store keeps all links | partial | Proved when the memory mapped on reopening covers all links; otherwise a counterexample is proved. |
| C48 | A handle returned by the C interface can be used | partial | False: proved that every call through a handle returned by New is undefined. The partial theorem says which handles would work. |
| C49 | SmartCreate and SmartUpdate return the index or the error constant | proved | For updates of links without a twin. |
| C50 | Indices stay dense | proved | Both stores, for every history (updates and deletions of links without a twin; on the split store calls it supports). |
| C51 | A careful client never meets a failure case | proved | Both stores. The memory must not grow beyond the index type, and reopening must map all links (C16, C47). |
| C52 | Whole-store traversals are in index order | proved | Both stores. |
| C53 | Answers do not depend on the memory | proved | Both stores, under the side conditions of C01 and C30; reopening must map all links (C16, C47). |
| C54 | A split store survives a crash between two operations, and a crash inside one loses nothing else | partial | Split store, every reachable state, every supported create/update/delete, every crash point between two memory updates, every reopening that maps enough memory: links that neither are changed nor have the link being deleted as target are found by lookup and by a traversal of everything; traversal by an end and search work for ends whose existence the crash did not change. Missing because false: crash points inside a call of the trees crate, where a crate that keeps its contract can lose other links from searches (C77_split_crash_inside_an_index_can_hide_links) and only C77 and C90 hold. Counter-theorems: the link being updated, and any link whose target is being deleted, is lost for some crash point; a search after a crash can be undefined behaviour. |
| C55 | The C interface reads exactly the query it is given and reports failures | proved | United store, the one the C interface offers; called through a valid handle (see C48). |
| C56 | Lookups look at few slots | proved | Both stores; the trees crate (not in the repository) is assumed to keep its trees size-balanced, which the size-balanced reference implementation meets. Split store: for ends other than 0 (a null end makes it read the header as a tree, C45). Looking is meant extensionally: no change of any other slot can change the answer. The cost of attach and detach is inside the crate. |
| C57 | Writes cost a bounded number of index updates on average | proved | An update is one write to the memory or one attach or detach of a link in an index tree (the crash points of C40 and C54). United store: at most nine per call, and the unbounded single deletion is proved for every bound. Split store: at most ten per call over histories that may reuse indices links refer to (C75), and the exact number for one deletion. |
| C58 | When exactly a traversal visits every matching link once | proved | Queries of at most three parts (longer ones panic); split store: without null ends, which C67 describes. |
| C59 | What delete_usages does when a link uses the argument at both ends | proved | Both stores; users with a twin are excluded as in C20. |
| C60 | What rebase does when a link uses the argument at both ends | proved | Both stores; users with a twin are excluded, and (old,new), (new,old) must be free if a link (old,old) exists, as the intermediate updates would otherwise make twins. Split store: the updates must be supported (C30). |
| C61 | Every C function is exported for every index type with the right name and signature | partial | Exactly when the macro accepts a function and what it then exports, for signatures without array types and without paths a::T, among them all eleven functions of the C interface (C61_ffi_functions), whose 44 exported names are C61_ffi_names. Missing because false: an array type is replaced by its element type, and a further path segment named like the type parameter is renamed (counter-theorems). Parsing and printing of Rust tokens (syn, quote) is external. |
| C62 | Exported names do not clash | proved | All patterns of the C interface begin with a star. |
| C63 | Decorators named in the environment are applied in order | proved | For any notion of white space. |
| C64 | A list of sources is traversed completely | proved | The reading half; attaching and detaching are in C101. The split store is compiled with trees instead of this list. |
| C65 | Printed links, doublets and errors can be told apart | proved | Errors of the store whose text does not depend on the operating system: the memory error is compared up to its own text. |
| C66 | Which calls are malformed, and which parts of a call count | proved | United store: exactly; writes for links without a twin, counts with two parts up to the overflow of C14. Split store: malformed calls panic in every state; that others return is C30, C33, C34 (where it is true). Finding: further restrictions in the query of an update or delete are ignored, so 'delete 6 if its source is 9' deletes 6 = (3,2). |
| C67 | Queries of the split store for null ends | proved | The claim describes what the code does, which is a defect: links with null ends are not found and others are visited in their place (the header is read as the index part of link 0). With unused indices, a query for two ends one of which is null visits at most one link, which agrees with the query in the end that is not null but need not agree in the other; get_or_create then returns a link that is another pair (counter-theorem). Counts return, except [any,x] on overflow; they need not agree with the visits. |
| C68 | What delete_query_with does, for every query | proved | Split store: queries without null ends and, from C67, queries for null ends; the latter delete links that do not match. |
| C69 | What rebase_and_delete does in general | proved | Side conditions as for C60. That 0 is returned instead of new is a finding (C22). |
| C70 | What deletion through CascadeUsagesResolver does in general | proved | Complements C43, which is false in general. |
| C71 | exist, try_get_link and search_or agree with lookups | proved |  |
| C72 | When a store can be opened and when reopening keeps all links | proved | Complements C16, C39 and C47, which are false in general. The split allocators grant exactly what is asked for, as assumed throughout. |
| C73 | What count_by returns on the split store | proved | Complements C34, which is false in general. With unused indices and a source that is not a link, the query for a null target counts some positive number that is not described further. |
| C74 | What a read returns depends only on the contents | partial | False for counts on the split store: they can depend on the order in which links were deleted (counterexample), and the same otherwise. Visiting order is determined by the contents only where stated (C52 and by existing source on the split store). |
| C75 | Which links a split store finds after indices that links refer to were reused | proved | Describes the behaviour behind C32 for all histories. Updates and deletions of lost links are outside the model of the trees (the link is not in the tree it would be detached from). |
| C76 | Index updates stay inside the memory and use current pointers | proved | The algorithms of the trees crate are arbitrary programs over the accessors of the repository that do what the contract of the crate says (Access.lean); a reference family of programs is proved to do so (RefPrograms.lean). A write is one assignment to a field of a slot or of the header; a slot copied as a whole counts as one. Split store: under the side conditions of C30; growth moves both memories. |
| C77 | A crash at any single write never makes a link point elsewhere | proved | Writes as in C76: one assignment to a field. Lookups and traversals of everything; what queries by an end find after a crash inside an index update depends on code that is not in the repository: proved that with one implementation of its contract a link the call is not about is then not found by its ends (between index updates: C40). |
| C78 | What can be read from a file with arbitrary contents | proved | The exception is the off-by-one of C16 and C47: with it the lookup reads behind the mapped memory. Sequences of writes to a damaged store are not described. |
| C79 | The changes reported to a handler, replayed, are the contents | proved | Supported: updated and deleted links have no twin, and on the split store the conditions of C30. Deletions in a store without duplicates always are (second theorem). The united store reports the new link as the state before an update (C26), which replaying does not look at. |
| C80 | Memory is bounded by the links that existed at once, and grows rarely | proved | Histories as in C01 and C30; the split allocators grant exactly what is asked for, as assumed throughout. |
| C81 | Nested pairs are stored once and can be read back | proved | On memories that, when they grow, stay within the index type (otherwise C14 has the panic). The exception is real: get_or_create(p, p) for a point p returns p. C81_lists_of_nested_pairs_are_shared and its split version need only the weaker contract for the tree crate. |
| C82 | The file of a store has a fixed layout and determines the store | proved | The layout of repr(C) structures of equal words, without padding, is taken from the Rust reference. The model writes words, so the bytes of a word are those of its value. |
| C83 | A power loss never changes a link that no call was about | proved | Files are torn between words, not inside them: words are aligned and no word crosses a sector (proved). The calls of a session are those the stores support (no duplicates of the link written to; on the split store the conditions of C30). |
| C84 | Decorators on top of each other keep what the validators guarantee | proved | Updates with one null end are excluded: the united store does not index null sources (C41_null_sources_are_not_checked). The limits are theorems: CascadeUniqueResolver over both validators can leave a dangling reference, UniqueResolver over UsagesValidator can delete a link and report a refusal, and on the split store NonNullDeletionResolver over UniqueValidator cannot delete a null link in some states. |
| C85 | Threads that share a store see it one call at a time | proved | Threads step from load to load and from assignment to assignment on a memory that they all see in the same order; the lock is the rule that nobody else is in a call while a thread writes. The reads create short-lived mutable references (get_from_mem goes through mut_from_mem); the aliasing rules of the language for these are not modelled. |
| C86 | Texts written as chains of links are read back | proved | In the split store symbols are not null. The condition on sources is needed in the united store: C86_dangling_source_spoils_a_text. |
| C87 | A C client can know the store from what it is told | proved | The handle points to a boxed store (C48). The constant error is above the internal range, otherwise codes are ambiguous. The defects of C26 and C38 are part of the specification that is proved. |
| C88 | Which constants a store can be given | proved | The damage of an index equal to any on the split store is a concrete history; what the tree crate does when a link is detached from a tree that does not have it is not in its contract. |
| C89 | Every network can be stored, and a store can be copied link by link | proved | The copying program is a client of the store, not code of the repository. Copying to a split store needs that no link has a source without a target. |
| C90 | A crashed or damaged store can be recovered by copying what a traversal visits | proved | The copying program is a client of the store, not code of the repository (see C89). As in C40, C54 and C83 the reopened store must have more cells than there are allocated indices, else the lookup of the last one is out of bounds (see C72). |
| C91 | From any contents to any other; every change can be undone | proved | The emptying and the copying program are clients of the store, not code of the repository (see C89). Stores with duplicate doublets are excluded because detaching one of two links with the same ends is not covered by the contract of the trees crate. |
| C92 | Queries nest few calls | proved | The depth counts the nested calls of each_usages_core. each_core and try_each_by_core call themselves at most twice more. Balance of the trees is a hypothesis, as in C56: the trees crate is external. |
| C93 | Clients that make no duplicates need less of the tree crate | proved | Split store: under the side conditions of C30. The crate with which duplicates do damage is a transcription of the published size-balanced tree algorithm (Sbt.lean), not code of the repository, which the trees crate is not part of. |
| C94 | Tree algorithms that find nodes by comparing them are enough, assignment by assignment | proved | C76, C77, C83 and C85 over the weaker contract of C93, under their side conditions. The size-balanced tree programs (SbtPrograms.lean) are a transcription of the published algorithm, not code of the repository, which the trees crate is not part of. |
| C95 | The split store's own methods tell which indices are in use | partial | False of is_unused(0) and is_virtual(0): proved that they are false whenever there is a gap below the highest link. Proved for all other indices. Supported histories are those of C30. |
| C96 | Every index of a store can search for a pair | proved | Split store: under the side conditions of C30. |
| C97 | What the decorators for unique doublets do in general | proved | Conditions: no link is deleted or updated while another link has the same doublet (as for the plain calls). The merge of CascadeUniqueResolver has the exception of C60 for links with i at both ends. On the split store also: no user of i that has a source is the chosen link or refers to itself, and a link that has a source is not made to refer to itself (updates the store does not support). |
| C98 | A split store works on memories that grant more than is asked for | partial | False: proved that a creation panics whenever one of the two memories lacks the slot of the next link while the store sees no reason to grow, and that histories on an empty store get there, whichever of the memories is larger. Proved, with the contents and results of a map, for memories that both grant the same number of slots, more than asked for or not (C98_alike_memories_partial). |
| C99 | Whatever ends an update gives a link of the split store, the link is still there | partial | False for a source without a target: proved for every reachable state that the update reports success and the link is then not found, not updatable, not deletable, but still counted and still visited by its source, and that a query for its pair is undefined behaviour if no index is free (C99_half_pairs_vanish); with the usual circular list algorithm, proved to meet the contract (Verif/CircList.lean), deleting a neighbour then overwrites the target of another link or panics. Proved for all other ends (C99_other_pairs_stay_partial). |
| C100 | What find, single and found return, for every query | proved | Complements C25, which is false in general. found is described whenever it returns (the count by [any,x] can overflow, C14, C73). |
| C101 | Lists of sources keep their order under every history | proved | The methods attach_as_first, attach_as_last and detach are those of the trees crate, which is not in the sandbox: the usual algorithms for a circular list are run, assignment by assignment, over the getters and setters of the file. The store itself never calls them: store.rs leaves the branches for USE_LIST as todo!(). |
| C102 | Threads that build a network together never duplicate or lose a link | proved | Threads are those of C85. A method is the sequence of the calls it makes; C102_methods shows that it answers as the method of the model. That the lock must be held for the whole method is C102_separate_locks_make_twins. |
| C103 | A crash while threads share a store changes no finished link | proved | Threads are those of C85 and C102, crashes those of C77 and C83. Bounds on the loops of requests are large enough (B), as in C77. As there the reopened store must have more cells than there are allocated indices. C103_every_moment_occurs shows that no moment inside a request is left out. |
| C104 | A handler that panics leaves a sound store with exactly the changes it was told | proved | Supported as in C79: updated and deleted links have no twin, and on the split store the conditions of C30; deletions in a store without duplicates always are (third theorem). The methods are modelled a second time with handlers that may panic (Verif/Unwind.lean, Verif/Unit/Unwind.lean, Verif/Split/Unwind.lean). Panics of the store itself are not covered. |
| C105 | A crash makes no link up | proved | Supported as in C77. The reopened memory has to map every link. The two negative theorems per store are concrete witnesses of why links without source and power losses are excepted. |
| C106 | A power loss while a network only grows makes no link up | proved | The reopened memory has to map every link. The complement of C105, whose witnesses need deletions. |
| C107 | Threads that own different links do not notice each other | proved | As in C85, supported calls only: a link that is updated or deleted has no twin at that moment (C107_cells_are_disciplined gives programs for which this always holds). Creations are left out: which index they return depends on the schedule (C102). |
| C108 | What storing a pair through a decorator does | proved | The theorems are over every lawful store (Lawful in Spec.lean), which the united and the split store are on their reachable states; the exact conditions for UniqueValidator are per store. C108_cascade_unique_resolver_redirects and C108_split_refuses_a_new_pair are concrete faults. UsagesValidator: whenever the call returns. |
| C109 | A batch of changes to different links can be made in any order | proved | Over every lawful store, so over both stores; over the split store the updates must be supported ones (C31): no source without a target, and a link that has a source is not given itself as an end. |
| C110 | An import can be run again | proved | Memories that, when they grow, stay within the index type (otherwise C14 has the panic). Over the split store each end must also be null or a link. A program that stops inside get_or_create, between create and update, leaves one null link: the example shows it. |
| C111 | The network that imports build does not depend on their order, up to numbering | proved | get_or_create takes the store by exclusive reference, so each call is made under one lock. Memories that, when they grow, stay within the index type (otherwise C14 has the panic). Nothing is said about orders under which a call fails for lack of memory. |
| C112 | Parallel iteration handles each link once | proved | The collecting part is the code of the repository; what rayon does with the vector is modelled after its documentation (Verif/Parallel.lean), its source is not in the sandbox. |
| C113 | A client can delete everything it does not get to from its roots | proved | Over every lawful store, so over both stores. The marking is a client program, modelled with its termination (as many rounds as there are links). |
| C114 | Builds with and without overflow checks behave the same, except for one count | proved | Both stores, and all default methods that contain or depend on arithmetic. Split store: deletions of links that, like their users, have no duplicates. Proved also that the count does differ: four links with 1 at both ends and an index type of six values give a panic with the checks and 2 without. |
| C115 | The index type does not matter as long as its range is not exceeded | proved | Both stores. Split store: queries that do not ask for null ends over all links; the counts are compared for stores that served the same calls, which C74 shows to be needed. The tree crates, the memories and the number of times either store was reopened may differ too. |
| C116 | A careful client cannot tell which store it uses | proved | Both stores. Split store: if the data memory can grow then so can the index memory (C46). The conditions on queries and calls are those that C45, C34, C58 and C67 show to be needed. A client whose creation fails for lack of memory gives up. |
| C117 | A careful client does the same through the C interface | proved | United store, the only one that the C interface opens. The handle points to a boxed store (C48). The constant error is above the internal range, otherwise codes are ambiguous. The callbacks answer continue. |
| C118 | Restarts do not show to a careful client | proved | Both stores. More slots must be mapped than the largest index in use: otherwise a link can be lost (C16, C47, C72). Split store: if the data memory can grow then so can the index memory (C46). Restarts are between calls; for crashes inside calls see C40, C54, C77, C83. |
| C119 | The programs of the README | partial | The loops: proved for both stores. The first program: proved with a second point for the other end of the link. As it stands it is false: the link it makes has the ends of the point, and updating one of two links with the same ends is beyond a tree crate that finds nodes by comparing them; over the published size-balanced trees (a transcription, not code of the repository) the point is lost from the index and delete_all does not return (C119_tour_fails), over a crate that tells equal nodes apart it works. |
| C120 | Which trees keep the indexes does not show to clients that make no duplicates | proved | C116 with the weaker contract of C93 for the tree crate, for clients that make no duplicates (Routine.Tidy). For others it fails: C93, C119_tour_fails. |
| C121 | Behind the decorators for unique doublets a store needs less of the tree crate | proved | Split store: under the side conditions of C30; the validator may refuse more than it should, as C97 says. C121_null_sources_do_damage and C121_cascade_merges_do_damage have the failures with null sources and with CascadeUniqueResolver, over the published size-balanced trees. |
| C122 | In the hands of a careful client every link is a nested pair, and the pairs determine the contents | proved | Over the weaker contract for the tree crate. C122_updates_make_cycles shows the cycle. Reading is a client program with a depth limit; that it returns with the number of links as limit is part of the claim. |
| C123 | Behind both validators no walk along references comes back | proved | A link may have itself as source or target; such a step is not counted. The counterexample for UniqueValidator alone is C123_unique_validator_alone_lets_walks_come_back. |
| C124 | A careful client moves its links into a store of another kind, and its contents arrive up to numbers | proved | On target memories that, when they grow, stay within the index type, and for split targets grow together (see C14 for what happens otherwise). The client program is moveTo in Verif/Migrate.lean; it is not part of the repository, the calls it makes are. |
| C125 | A careful client can take its network apart without ever leaving a reference to a deleted link | proved | The client program is takeApart in Verif/Unbuild.lean; it is not part of the repository, the calls it makes are. delete_all (C23) does not do this. C125_cycles_cannot_be_taken_apart shows the cycle. |

## Theorems and the axioms they depend on

P = `propext`, Q = `Quot.sound`, C = `Classical.choice`; – = none. No other axiom occurs.

| property | theorem | axioms |
|---|---|---|
| C01 | `Unit.Props.C01_united_store_is_a_map` | C Q P |
| C01 | `Unit.Props.C01_effect_is_independent_of_the_handler` | C Q P |
| C02 | `Unit.Props.C02_create_returns_a_fresh_index` | C Q P |
| C03 | `Unit.Props.C03_most_recently_freed_first` | C Q P |
| C03 | `Unit.Props.C03_grows_by_one` | C Q P |
| C04 | `Unit.Props.C04_highest_slot_is_live` | C Q P |
| C04 | `Unit.Props.C04_empty_store_starts_over` | C Q P |
| C05 | `Unit.Props.C05_update_changes_one_link` | C Q P |
| C06 | `Unit.Props.C06_delete_removes_one_link` | C Q P |
| C07 | `Unit.Props.C07_missing_links_fail_without_effect` | C Q P |
| C08 | `Unit.Props.C08_full_store_refuses` | C Q P |
| C08 | `Unit.Props.C08_failed_create_has_no_effect` | C Q P |
| C09 | `Unit.Props.C09_traversal_partial` | C Q P |
| C09 | `Unit.Props.C09_double_visit` | C Q P |
| C09 | `Unit.Props.C09_null_source_not_found` | C Q P |
| C09 | `Unit.Props.C09_twins_visited_once` | C Q P |
| C10 | `Unit.Props.C10_count_equals_visits` | C Q P |
| C11 | `Unit.Props.C11_traversal_stops_at_first_break` | C Q P |
| C12 | `Unit.Props.C12_search` | C Q P |
| C13 | `Unit.Props.C13_count_is_number_of_links` | C Q P |
| C13 | `Unit.Props.C13_count_changes` | C Q P |
| C14 | `Unit.Props.C14_reads_never_panic` | C Q P |
| C14 | `Unit.Props.C14_writes_never_panic` | C Q P |
| C14 | `Unit.Props.C14_growth_beyond_the_index_type_panics` | C Q P |
| C15 | `Split.Props.C15_split_delete_then_create_restores_the_index` | C Q P |
| C15 | `Unit.Props.C15_delete_then_create_restores_the_index` | C Q P |
| C16 | `Unit.Props.C16_reopen_partial` | C Q P |
| C16 | `Unit.Props.C16_reopen_can_lose_the_last_link` | C Q P |
| C17 | `Split.Props.C17_split_create_point` | C Q P |
| C17 | `Split.Props.C17_split_create_link` | C Q P |
| C17 | `Unit.Props.C17_create_point` | C Q P |
| C17 | `Unit.Props.C17_create_link` | C Q P |
| C18 | `Split.Props.C18_split_get_or_create` | C Q P |
| C18 | `Unit.Props.C18_get_or_create` | C Q P |
| C19 | `Split.Props.C19_split_usages_list` | C Q P |
| C19 | `Split.Props.C19_split_usages_partial` | C Q P |
| C19 | `Split.Props.C19_split_missing` | C Q P |
| C19 | `Unit.Props.C19_usages_list` | C Q P |
| C19 | `Unit.Props.C19_usages_partial` | C Q P |
| C19 | `Unit.Props.C19_missing` | C Q P |
| C19 | `Unit.Props.C19_double_user_counted_twice` | C Q P |
| C20 | `Split.Props.C20_split_delete_usages_partial` | C Q P |
| C20 | `Unit.Props.C20_delete_usages_partial` | C Q P |
| C20 | `Unit.Props.C20_double_user_fails` | C Q P |
| C21 | `Split.Props.C21_split_rebase_partial` | C Q P |
| C21 | `Unit.Props.C21_rebase_partial` | C Q P |
| C21 | `Unit.Props.C21_double_user_keeps_a_reference` | C Q P |
| C22 | `Split.Props.C22_split_rebase_and_delete_partial` | C Q P |
| C22 | `Unit.Props.C22_rebase_and_delete_partial` | C Q P |
| C22 | `Unit.Props.C22_returns_null` | C Q P |
| C23 | `Split.Props.C23_split_delete_all_partial` | C Q P |
| C23 | `Unit.Props.C23_delete_all_partial` | C Q P |
| C23 | `Unit.Props.C23_delete_all_fails` | C Q P |
| C24 | `Split.Props.C24_split_delete_query_partial` | C Q P |
| C24 | `Unit.Props.C24_delete_query_partial` | C Q P |
| C24 | `Unit.Props.C24_double_end_fails` | C Q P |
| C25 | `Split.Props.C25_split_find_and_found_partial` | C Q P |
| C25 | `Split.Props.C25_split_single_partial` | C Q P |
| C25 | `Split.Props.C25_split_found_is_wrong` | C Q P |
| C25 | `Unit.Props.C25_find_and_found` | C Q P |
| C25 | `Unit.Props.C25_single_partial` | C Q P |
| C25 | `Unit.Props.C25_single_double_end` | C Q P |
| C26 | `Split.Props.C26_split_update_handler_sees_the_change` | C Q P |
| C26 | `Unit.Props.C26_update_handler_sees_the_new_link_twice` | C Q P |
| C26 | `Unit.Props.C26_update_handler_is_wrong` | Q P |
| C27 | `Unit.Props.C27_fused_handler_reports_break_partial` | Q P |
| C27 | `Unit.Props.C27_fuse_never_fuses` | – |
| C27 | `Unit.Props.C27_called_after_break` | C Q P |
| C28 | `Split.Props.C28_split_store_notifies` | C Q P |
| C28 | `Unit.Props.C28_handler_results_passed_through` | P |
| C28 | `Unit.Props.C28_united_store_notifies` | C Q P |
| C29 | `Split.Props.C29_split_iterators_yield_the_traversal` | C Q P |
| C29 | `Split.Props.C29_split_iter_yields_all_links` | C Q P |
| C29 | `Unit.Props.C29_iterators_yield_the_traversal` | C Q P |
| C29 | `Unit.Props.C29_iter_yields_all_links` | C Q P |
| C30 | `Split.Props.C30_source_without_target_disappears` | Q P |
| C30 | `Split.Props.C30_split_store_is_a_map` | C Q P |
| C30 | `Split.Props.C30_create_returns_a_fresh_index` | C Q P |
| C30 | `Split.Props.C30_most_recently_freed_first` | C Q P |
| C30 | `Split.Props.C30_update_changes_one_link` | C Q P |
| C30 | `Split.Props.C30_delete_removes_one_link` | C Q P |
| C30 | `Split.Props.C30_missing_links_fail_without_effect` | C Q P |
| C30 | `Split.Props.C30_count_is_number_of_links` | C Q P |
| C30 | `Split.Props.C30_calls_never_panic` | C Q P |
| C31 | `Split.Props.C31_split_and_united_agree_partial` | C Q P |
| C32 | `Split.Props.C32_creation_hides_dangling_references` | C Q P |
| C32 | `Split.Props.C32_lost_reference` | C Q P |
| C32 | `Split.Props.C32_references_to_other_indices_survive_partial` | C Q P |
| C33 | `Split.Props.C33_deletion_keeps_referrers_findable` | C Q P |
| C34 | `Split.Props.C34_index_and_end_miscounted` | C Q P |
| C34 | `Split.Props.C34_virtual_source_ignores_target` | C Q P |
| C34 | `Split.Props.C34_empty_tree_counts_first_free_index` | C Q P |
| C34 | `Split.Props.C34_count_equals_visits_partial` | C Q P |
| C35 | `Split.Props.C35_split_null_is_never_a_link` | C Q P |
| C35 | `Unit.Props.C35_null_is_never_a_link` | C Q P |
| C36 | `Ffi.Props.C36_nothing_is_the_only_null_link` | P |
| C36 | `Ffi.Props.C36_points` | Q P |
| C36 | `Ffi.Props.C36_slice_round_trip` | Q P |
| C36 | `Ffi.Props.C36_from_slice_of_longer_slices_is_undefined` | P |
| C37 | `Ffi.Props.C37_constants_round_trip` | – |
| C37 | `Ffi.Props.C37_c_structure_round_trip` | P |
| C38 | `Ffi.Props.C38_create_inverts_the_callback` | C Q P |
| C38 | `Ffi.Props.C38_update_partial` | C Q P |
| C38 | `Ffi.Props.C38_delete_partial` | C Q P |
| C38 | `Ffi.Props.C38_each_partial` | C Q P |
| C39 | `Unit.Props.C39_small_index_types_cannot_be_opened` | Q P |
| C39 | `Unit.Props.C39_open_partial` | C Q P |
| C40 | `Unit.Props.C40_images_bracket_the_call` | Q P |
| C40 | `Unit.Props.C40_crash_partial` | C Q P |
| C40 | `Unit.Props.C40_interrupted_update_hides_the_link` | C Q P |
| C40 | `Unit.Props.C40_crash_can_revive_a_deleted_link` | C Q P |
| C41 | `Deco.Props.C41_unique_validator_partial` | Q P |
| C41 | `Deco.Props.C41_unique_resolver_partial` | Q P |
| C41 | `Deco.Props.C41_unique_resolver_deletes_an_unchanged_link` | Q P |
| C41 | `Deco.Props.C41_unique_resolver_missing` | Q P |
| C41 | `Deco.Props.C41_cascade_unique_resolver_new_doublet_partial` | P |
| C41 | `Deco.Props.C41_cascade_unique_resolver_deletes_an_unchanged_link` | Q P |
| C41 | `Deco.Props.C41_cascade_unique_resolver_partial` | Q P |
| C41 | `Deco.Props.C41_unique_validator_refusals` | C Q P |
| C41 | `Deco.Props.C41_unique_through_every_history_partial` | C Q P |
| C41 | `Deco.Props.C41_null_sources_are_not_checked` | C Q P |
| C41 | `Deco.Props.C41_cascade_merge_makes_duplicates` | C Q P |
| C42 | `Deco.Props.C42_usages_validator_delete` | Q P |
| C42 | `Deco.Props.C42_usages_validator_update` | Q P |
| C42 | `Deco.Props.C42_no_dangling_references` | Q P |
| C43 | `Deco.Props.C43_cascade_usages_resolver_partial` | C Q P |
| C43 | `Deco.Props.C43_double_user_fails` | C Q P |
| C43 | `Deco.Props.C43_second_level_dangles` | C Q P |
| C44 | `Deco.Props.C44_non_null_deletion` | Q P |
| C44 | `Deco.Props.C44_missing_link` | P |
| C45 | `Split.Props.C45_self_reference_not_found` | Q P |
| C45 | `Split.Props.C45_null_source_query_visits_wrong_link` | C Q P |
| C45 | `Split.Props.C45_split_traversal_partial` | C Q P |
| C45 | `Split.Props.C45_split_traversal_stops_at_first_break` | C Q P |
| C45 | `Split.Props.C45_split_search` | C Q P |
| C46 | `Split.Props.C46_failed_growth_leaves_dangling_memory` | C Q P |
| C46 | `Split.Props.C46_failed_create_has_no_effect_partial` | C Q P |
| C47 | `Split.Props.C47_split_reopen_partial` | C Q P |
| C47 | `Split.Props.C47_reopen_can_lose_the_last_link` | C Q P |
| C48 | `Ffi.Props.C48_handles_returned_by_new_are_not_usable` | P |
| C48 | `Ffi.Props.C48_handles_to_boxes_are_usable_partial` | P |
| C49 | `Ffi.Props.C49_smart_create` | C Q P |
| C49 | `Ffi.Props.C49_smart_update` | C Q P |
| C50 | `Unit.C50_dense_indices` | C Q P |
| C50 | `Split.C50_dense_indices` | C Q P |
| C51 | `Unit.Props.C51_careful_client` | C Q P |
| C51 | `Split.Props.C51_split_careful_client` | C Q P |
| C52 | `Unit.Props.C52_ascending_order` | C Q P |
| C52 | `Split.Props.C52_split_ascending_order` | C Q P |
| C53 | `Unit.Props.C53_memory_does_not_matter` | C Q P |
| C53 | `Split.Props.C53_split_memory_does_not_matter` | C Q P |
| C54 | `Split.Props.C54_images_bracket_the_call` | Q P |
| C54 | `Split.Props.C54_split_crash_partial` | C Q P |
| C54 | `Split.Props.C54_interrupted_update_hides_the_link` | C Q P |
| C54 | `Split.Props.C54_interrupted_delete_hides_a_user` | C Q P |
| C54 | `Split.Props.C54_search_after_crash_can_be_undefined` | C Q P |
| C55 | `Ffi.Props.C55_count_and_each_agree` | C Q P |
| C55 | `Ffi.Props.C55_failures_return_error` | C Q P |
| C56 | `Unit.Props.C56_lookup` | Q P |
| C56 | `Unit.Props.C56_count_all` | Q P |
| C56 | `Unit.Props.C56_search_levels` | C Q P |
| C56 | `Unit.Props.C56_search` | C Q P |
| C56 | `Unit.Props.C56_by_source_levels` | C Q P |
| C56 | `Unit.Props.C56_by_target_levels` | C Q P |
| C56 | `Unit.Props.C56_by_source` | C Q P |
| C56 | `Unit.Props.C56_by_target` | C Q P |
| C56 | `Split.Props.C56_split_lookup` | Q P |
| C56 | `Split.Props.C56_split_count_all` | Q P |
| C56 | `Split.Props.C56_split_search_levels` | C Q P |
| C56 | `Split.Props.C56_split_search` | C Q P |
| C56 | `Split.Props.C56_split_by_source_levels` | C Q P |
| C56 | `Split.Props.C56_split_by_target_levels` | C Q P |
| C56 | `Split.Props.C56_split_by_source` | C Q P |
| C56 | `Split.Props.C56_split_by_target` | C Q P |
| C57 | `Split.Props.C57_split_amortised` | C Q P |
| C57 | `Split.Props.C57_split_delete_cost` | C Q P |
| C57 | `Unit.Props.C57_amortised` | C Q P |
| C57 | `Unit.Props.C57_single_delete_unbounded` | C Q P |
| C58 | `Unit.Props.C58_traversal_exact` | C Q P |
| C58 | `Unit.Props.C58_traversal_correct_iff` | C Q P |
| C58 | `Split.Props.C58_split_traversal_correct_iff` | C Q P |
| C59 | `Unit.Props.C59_succeeds_iff` | C Q P |
| C59 | `Unit.Props.C59_double_user` | C Q P |
| C59 | `Split.Props.C59_split_succeeds_iff` | C Q P |
| C59 | `Split.Props.C59_split_double_user` | C Q P |
| C60 | `Unit.Props.C60_rebase_exact` | C Q P |
| C60 | `Unit.Props.C60_still_used` | C Q P |
| C60 | `Split.Props.C60_split_rebase_exact` | C Q P |
| C60 | `Split.Props.C60_split_still_used` | C Q P |
| C61 | `Macros.Props.C61_exported_functions_partial` | C Q P |
| C61 | `Macros.Props.C61_ffi_functions` | C Q P |
| C61 | `Macros.Props.C61_needs_one_type_parameter` | C Q P |
| C61 | `Macros.Props.C61_ffi_names` | C Q P |
| C61 | `Macros.Props.C61_array_is_flattened` | – |
| C61 | `Macros.Props.C61_path_segment_is_renamed` | – |
| C62 | `Macros.Props.C62_names_differ` | C Q P |
| C63 | `Macros.Props.C63_decorators_from_environment` | Q P |
| C64 | `Split.SourcesList.Props.C64_list_traversal` | C Q P |
| C65 | `Printing.Props.C65_printed_forms_identify` | C Q P |
| C66 | `Unit.Props.C66_reads_panic_iff_too_long` | C Q P |
| C66 | `Unit.Props.C66_parts_used` | P |
| C66 | `Unit.Props.C66_writes_panic_iff_too_short` | C Q P |
| C66 | `Unit.Props.C66_restrictions_are_ignored` | Q P |
| C66 | `Split.Props.C66_malformed_calls_panic` | Q P |
| C66 | `Split.Props.C66_parts_used` | P |
| C67 | `Split.Props.C67_reads_return` | C Q P |
| C67 | `Split.Props.C67_counts_return` | C Q P |
| C67 | `Split.Props.C67_null_ends_without_gaps` | C Q P |
| C67 | `Split.Props.C67_null_ends_with_gaps` | C Q P |
| C67 | `Split.Props.C67_null_pairs_with_gaps` | C Q P |
| C67 | `Split.Props.C67_wrong_pair_is_found` | C Q P |
| C68 | `Unit.Props.C68_delete_query_exact` | C Q P |
| C68 | `Split.Props.C68_split_delete_query_exact` | C Q P |
| C68 | `Split.Props.C68_split_null_queries_without_gaps` | C Q P |
| C68 | `Split.Props.C68_split_null_queries_with_gaps` | C Q P |
| C68 | `Split.Props.C68_split_null_pairs_with_gaps` | C Q P |
| C69 | `Split.Props.C69_split_rebase_and_delete_exact` | C Q P |
| C69 | `Unit.Props.C69_rebase_and_delete_exact` | C Q P |
| C70 | `Deco.Props.C70_cascade_double_user` | C Q P |
| C70 | `Deco.Props.C70_cascade_succeeds_iff` | C Q P |
| C70 | `Deco.Props.C70_cascade_dangling` | C Q P |
| C71 | `Unit.Props.C71_exist` | C Q P |
| C71 | `Unit.Props.C71_try_get_link` | C Q P |
| C71 | `Unit.Props.C71_search_or` | C Q P |
| C71 | `Split.Props.C71_split_exist` | C Q P |
| C71 | `Split.Props.C71_split_try_get_link` | C Q P |
| C71 | `Split.Props.C71_split_search_or` | C Q P |
| C72 | `Unit.Props.C72_open_iff` | Q P |
| C72 | `Unit.Props.C72_open_fails_iff` | Q P |
| C72 | `Unit.Props.C72_reopen_lookup` | C Q P |
| C72 | `Unit.Props.C72_reopen_keeps_iff` | C Q P |
| C72 | `Split.Props.C72_split_open_iff` | C Q P |
| C72 | `Split.Props.C72_split_small_index_types_cannot_be_opened` | C Q P |
| C72 | `Split.Props.C72_split_reopen_lookup` | C Q P |
| C72 | `Split.Props.C72_split_reopen_keeps_iff` | C Q P |
| C73 | `Split.Props.C73_split_count_null_without_gaps` | C Q P |
| C73 | `Split.Props.C73_split_count_null_with_gaps` | C Q P |
| C73 | `Split.Props.C73_split_count` | C Q P |
| C73 | `Split.Props.C73_split_count_of_nothing` | C Q P |
| C74 | `Unit.Props.C74_same_contents_same_answers` | C Q P |
| C74 | `Unit.Props.C74_same_contents_same_search` | C Q P |
| C74 | `Unit.Props.C74_order_is_not_determined` | C Q P |
| C74 | `Split.Props.C74_split_same_contents_same_links` | C Q P |
| C74 | `Split.Props.C74_split_same_contents_same_counts_partial` | C Q P |
| C74 | `Split.Props.C74_split_count_depends_on_history` | C Q P |
| C74 | `Split.Props.C74_split_order_by_source` | C Q P |
| C75 | `Split.Props.C75_contents` | C Q P |
| C75 | `Split.Props.C75_calls` | C Q P |
| C75 | `Split.Props.C75_found_by_source` | C Q P |
| C75 | `Split.Props.C75_found_by_target` | C Q P |
| C75 | `Split.Props.C75_search` | C Q P |
| C75 | `Split.Props.C75_get_or_create_duplicates` | C Q P |
| C75 | `Split.Props.C75_everything` | C Q P |
| C75 | `Split.Props.C75_nothing_lost` | Q P |
| C75 | `Split.Props.C75_deletion_recovers` | C Q P |
| C76 | `Unit.Props.C76_calls_through_accessors` | C Q P |
| C76 | `Unit.Props.C76_opening_through_accessors` | Q P |
| C76 | `Split.Props.C76_split_calls_through_accessors` | C Q P |
| C76 | `Split.Props.C76_split_opening_through_accessors` | Q P |
| C77 | `Unit.Props.C77_single_writes_keep_the_ends` | C Q P |
| C77 | `Unit.Props.C77_crash_inside_an_index_can_hide_links` | C Q P |
| C77 | `Unit.Props.C77_crash_while_opening` | Q P |
| C77 | `Split.Props.C77_split_single_writes_keep_the_ends` | C Q P |
| C77 | `Split.Props.C77_split_crash_inside_an_index_can_hide_links` | C Q P |
| C77 | `Split.Props.C77_split_crash_while_opening` | Q P |
| C78 | `Unit.Props.C78_lookup_in_any_memory` | C Q P |
| C78 | `Unit.Props.C78_traversal_of_any_memory` | C Q P |
| C78 | `Unit.Props.C78_total_of_any_memory` | C Q P |
| C78 | `Unit.Props.C78_search_in_a_damaged_memory` | Q P |
| C78 | `Split.Props.C78_split_lookup_in_any_memory` | C Q P |
| C78 | `Split.Props.C78_split_traversal_of_any_memory` | C Q P |
| C78 | `Split.Props.C78_split_total_of_any_memory` | C Q P |
| C78 | `Split.Props.C78_split_search_in_a_damaged_memory` | Q P |
| C79 | `Unit.Props.C79_changes_replay` | C Q P |
| C79 | `Unit.Props.C79_deletions_are_supported` | C Q P |
| C79 | `Unit.Props.C79_deletions_replay` | C Q P |
| C79 | `Split.Props.C79_split_changes_replay` | C Q P |
| C79 | `Split.Props.C79_split_deletions_are_supported` | C Q P |
| C79 | `Split.Props.C79_split_deletions_replay` | C Q P |
| C80 | `Unit.Props.C80_memory_is_bounded` | C Q P |
| C80 | `Unit.Props.C80_growth_is_rare` | C Q P |
| C80 | `Unit.Props.C80_grows_when_full` | C Q P |
| C80 | `Split.Props.C80_split_memory_is_bounded` | C Q P |
| C80 | `Split.Props.C80_split_growth_is_rare` | C Q P |
| C80 | `Split.Props.C80_split_grows_when_full` | C Q P |
| C81 | `Unit.Props.C81_lists_of_nested_pairs_are_shared` | C Q P |
| C81 | `Split.Props.C81_split_lists_of_nested_pairs_are_shared` | C Q P |
| C81 | `Unit.Props.C81_nested_pair_is_stored` | C Q P |
| C81 | `Unit.Props.C81_nested_pair_is_stored_once` | C Q P |
| C81 | `Unit.Props.C81_nested_pairs_told_apart` | C Q P |
| C81 | `Split.Props.C81_split_nested_pair_is_stored` | C Q P |
| C81 | `Split.Props.C81_split_nested_pair_is_stored_once` | C Q P |
| C81 | `Split.Props.C81_split_nested_pairs_told_apart` | C Q P |
| C82 | `Unit.Props.C82_every_word_fits` | C Q P |
| C82 | `Unit.Props.C82_file_holds_the_links` | C Q P |
| C82 | `Unit.Props.C82_reading_the_file_back` | C Q P |
| C82 | `Split.Props.C82_split_every_word_fits` | C Q P |
| C82 | `Split.Props.C82_split_files_hold_the_links` | C Q P |
| C82 | `Split.Props.C82_split_reading_the_files_back` | C Q P |
| C83 | `Props.C83_words_lie_in_one_sector` | Q P |
| C83 | `Unit.Props.C83_power_loss_keeps_the_ends` | C Q P |
| C83 | `Unit.Props.C83_power_loss_can_lose_a_search` | C Q P |
| C83 | `Split.Props.C83_split_power_loss_keeps_the_ends` | C Q P |
| C83 | `Split.Props.C83_split_power_loss_can_lose_a_search` | C Q P |
| C84 | `Stacks.Props.C84_default_deletions` | Q P |
| C84 | `Stacks.Props.C84_order_of_validators` | Q P |
| C84 | `Stacks.Props.C84_unique_under_every_stack` | C Q P |
| C84 | `Stacks.Props.C84_default_writes` | C Q P |
| C84 | `Stacks.Props.C84_no_dangling_under_plain_stacks` | C Q P |
| C84 | `Stacks.Props.C84_default_writes_between_links` | C Q P |
| C84 | `Stacks.Props.C84_split_no_dangling_under_plain_stacks` | C Q P |
| C84 | `Stacks.Props.C84_split_default_writes_between_links` | C Q P |
| C84 | `Stacks.Props.C84_cascade_unique_resolver_dangles` | C Q P |
| C84 | `Stacks.Props.C84_unique_resolver_over_usages_validator_deletes_and_fails` | Q P |
| C84 | `Stacks.Props.C84_split_null_link_cannot_be_deleted` | C Q P |
| C85 | `Unit.Props.C85_reads_only_load` | C Q P |
| C85 | `Unit.Props.C85_every_schedule` | C Q P |
| C85 | `Unit.Props.C85_one_at_a_time_is_a_schedule` | C Q P |
| C85 | `Unit.Props.C85_no_deadlock` | C Q P |
| C85 | `Unit.Props.C85_parallel_readers` | C Q P |
| C85 | `Unit.Props.C85_always_disciplined` | C Q P |
| C85 | `Unit.Props.C85_torn_read_without_the_lock` | Q P |
| C85 | `Split.Props.C85_split_reads_only_load` | C Q P |
| C85 | `Split.Props.C85_split_every_schedule` | C Q P |
| C85 | `Split.Props.C85_split_one_at_a_time_is_a_schedule` | C Q P |
| C85 | `Split.Props.C85_split_no_deadlock` | C Q P |
| C85 | `Split.Props.C85_split_parallel_readers` | C Q P |
| C85 | `Split.Props.C85_split_always_disciplined` | C Q P |
| C85 | `Split.Props.C85_split_torn_read_without_the_lock` | Q P |
| C86 | `Unit.Props.C86_texts_are_read_back` | C Q P |
| C86 | `Unit.Props.C86_texts_stay` | C Q P |
| C86 | `Unit.Props.C86_dangling_source_spoils_a_text` | C Q P |
| C86 | `Split.Props.C86_split_texts_are_read_back` | C Q P |
| C86 | `Split.Props.C86_split_texts_stay` | C Q P |
| C86 | `Split.Props.C86_split_null_symbol_is_unreadable` | C Q P |
| C87 | `Ffi.Props.C87_the_client_knows_the_store` | C Q P |
| C87 | `Ffi.Props.C87_sessions_return` | C Q P |
| C88 | `Unit.Props.C88_other_constants_do_not_matter` | Q P |
| C88 | `Unit.Props.C88_null_must_be_zero` | Q P |
| C88 | `Unit.Props.C88_links_below_the_range` | Q P |
| C88 | `Unit.Props.C88_range_must_start_at_one` | Q P |
| C88 | `Unit.Props.C88_any_must_not_be_an_index` | Q P |
| C88 | `Unit.Props.C88_exchanged_positions` | Q P |
| C88 | `Unit.Props.C88_index_must_be_first` | Q P |
| C88 | `Unit.Props.C88_range_must_end_in_the_type` | Q P |
| C88 | `Split.Props.C88_split_other_constants_do_not_matter` | Q P |
| C88 | `Split.Props.C88_split_null_must_be_zero` | Q P |
| C88 | `Split.Props.C88_split_links_below_the_range` | Q P |
| C88 | `Split.Props.C88_split_range_must_start_at_one` | Q P |
| C88 | `Split.Props.C88_split_exchanged_positions` | Q P |
| C88 | `Split.Props.C88_split_index_must_be_first` | Q P |
| C88 | `Split.Props.C88_split_range_must_end_in_the_type` | Q P |
| C88 | `Split.Props.C88_split_any_must_not_be_an_index` | Q P |
| C89 | `C89_all_calls_succeed` | P |
| C89 | `Unit.Props.C89_any_links_can_be_stored` | C Q P |
| C89 | `Unit.Props.C89_possible_contents` | C Q P |
| C89 | `Unit.Props.C89_copies_have_the_same_contents` | C Q P |
| C89 | `Unit.Props.C89_copies_can_number_differently` | C Q P |
| C89 | `Split.Props.C89_split_any_links_can_be_stored` | C Q P |
| C89 | `Split.Props.C89_split_possible_contents` | C Q P |
| C89 | `Split.Props.C89_split_copies_have_the_same_contents` | C Q P |
| C89 | `Split.Props.C89_split_to_united` | C Q P |
| C89 | `Split.Props.C89_united_to_split` | C Q P |
| C90 | `Unit.Props.C90_any_memory_can_be_copied` | C Q P |
| C90 | `Unit.Props.C90_recovery_after_a_crash` | C Q P |
| C90 | `Unit.Props.C90_recovery_after_power_loss` | C Q P |
| C90 | `Split.Props.C90_split_any_memory_can_be_copied` | C Q P |
| C90 | `Split.Props.C90_split_any_memory_to_united` | C Q P |
| C90 | `Split.Props.C90_split_recovery_after_a_crash` | C Q P |
| C90 | `Split.Props.C90_split_recovery_after_power_loss` | C Q P |
| C90 | `Unit.Props.C90_recovery_with_threads` | C Q P |
| C90 | `Unit.Props.C90_recovery_with_builders` | C Q P |
| C90 | `Split.Props.C90_split_recovery_with_threads` | C Q P |
| C90 | `Split.Props.C90_split_recovery_with_builders` | C Q P |
| C91 | `Unit.Props.C91_from_any_contents_to_any_other` | C Q P |
| C91 | `Unit.Props.C91_every_change_can_be_undone` | C Q P |
| C91 | `Unit.Props.C91_creation_is_undone_by_deletion` | C Q P |
| C91 | `Unit.Props.C91_update_is_undone_by_update` | C Q P |
| C91 | `Unit.Props.C91_deletion_is_undone_by_creation` | C Q P |
| C91 | `Unit.Props.C91_deletion_of_the_highest_is_not` | C Q P |
| C91 | `Split.Props.C91_split_from_any_contents_to_any_other` | C Q P |
| C91 | `Split.Props.C91_split_every_change_can_be_undone` | C Q P |
| C91 | `Split.Props.C91_split_creation_is_undone_by_deletion` | C Q P |
| C91 | `Split.Props.C91_split_update_is_undone_by_update` | C Q P |
| C91 | `Split.Props.C91_split_deletion_is_undone_by_creation` | C Q P |
| C92 | `Unit.Props.C92_depth_is_bounded_by_the_count` | C Q P |
| C92 | `Unit.Props.C92_depth_is_bounded_by_the_levels` | C Q P |
| C92 | `Unit.Props.C92_depth_is_logarithmic` | C Q P |
| C92 | `Unit.Props.C92_damaged_memory_exceeds_any_stack` | Q P |
| C92 | `Split.Props.C92_split_depth_is_bounded_by_the_count` | C Q P |
| C92 | `Split.Props.C92_split_depth_is_bounded_by_the_levels` | C Q P |
| C92 | `Split.Props.C92_split_depth_is_logarithmic` | C Q P |
| C92 | `Split.Props.C92_split_damaged_memory_exceeds_any_stack` | Q P |
| C93 | `Unit.Props.C93_careful_client` | C Q P |
| C93 | `Unit.Props.C93_careful_makes_no_duplicates` | C Q P |
| C93 | `Unit.Props.C93_without_duplicates` | C Q P |
| C93 | `Unit.Props.C93_same_as_the_full_contract` | C Q P |
| C93 | `Unit.Props.C93_duplicates_damage_other_links` | C Q P |
| C93 | `Split.Props.C93_split_careful_client` | C Q P |
| C93 | `Split.Props.C93_split_careful_makes_no_duplicates` | C Q P |
| C93 | `Split.Props.C93_split_without_duplicates` | C Q P |
| C93 | `Split.Props.C93_split_same_as_the_full_contract` | C Q P |
| C93 | `Split.Props.C93_split_duplicates_damage_other_links` | C Q P |
| C94 | `Props.C94_size_balanced_trees` | C Q P |
| C94 | `Unit.Props.C94_calls_through_accessors` | C Q P |
| C94 | `Unit.Props.C94_single_writes_keep_the_ends` | C Q P |
| C94 | `Unit.Props.C94_power_loss_keeps_the_ends` | C Q P |
| C94 | `Unit.Props.C94_every_schedule` | C Q P |
| C94 | `Unit.Props.C94_no_deadlock` | C Q P |
| C94 | `Unit.Props.C94_always_disciplined` | C Q P |
| C94 | `Split.Props.C94_split_calls_through_accessors` | C Q P |
| C94 | `Split.Props.C94_split_single_writes_keep_the_ends` | C Q P |
| C94 | `Split.Props.C94_split_power_loss_keeps_the_ends` | C Q P |
| C94 | `Split.Props.C94_split_every_schedule` | C Q P |
| C94 | `Split.Props.C94_split_no_deadlock` | C Q P |
| C94 | `Split.Props.C94_split_always_disciplined` | C Q P |
| C95 | `Split.Props.C95_exists` | C Q P |
| C95 | `Split.Props.C95_is_unused_partial` | C Q P |
| C95 | `Split.Props.C95_null_may_seem_used` | C Q P |
| C95 | `Split.Props.C95_get_data_part` | C Q P |
| C95 | `Split.Props.C95_get_data_part_of_no_link` | C Q P |
| C96 | `Unit.Props.C96_search` | C Q P |
| C96 | `Split.Props.C96_split_search` | C Q P |
| C97 | `Split.Props.C97_split_unique_validator` | C Q P |
| C97 | `Split.Props.C97_split_unique_validator_keeps` | C Q P |
| C97 | `Split.Props.C97_split_unique_resolver` | C Q P |
| C97 | `Split.Props.C97_split_cascade_unique_resolver` | C Q P |
| C97 | `Split.Props.C97_split_cascade_merges` | C Q P |
| C97 | `Unit.Props.C97_unique_validator` | C Q P |
| C97 | `Unit.Props.C97_unique_validator_lets_in` | C Q P |
| C97 | `Unit.Props.C97_unique_resolver` | C Q P |
| C97 | `Unit.Props.C97_cascade_unique_resolver` | C Q P |
| C97 | `Unit.Props.C97_cascade_merges` | C Q P |
| C98 | `Split.Props.C98_create_outside_panics` | C Q P |
| C98 | `Split.Props.C98_larger_index_memory` | Q P |
| C98 | `Split.Props.C98_larger_data_memory` | Q P |
| C98 | `Split.Props.C98_alike_memories_partial` | C Q P |
| C99 | `Split.Props.C99_half_pairs_vanish` | C Q P |
| C99 | `Split.Props.C99_deleting_a_neighbour_overwrites_another_link` | C Q P |
| C99 | `Split.Props.C99_deleting_a_neighbour_panics` | C Q P |
| C99 | `Split.Props.C99_other_pairs_stay_partial` | C Q P |
| C100 | `Unit.Props.C100_find_single_found` | C Q P |
| C100 | `Split.Props.C100_split_find_single_found` | C Q P |
| C100 | `Split.Props.C100_split_answers_are_links` | C Q P |
| C101 | `Split.SourcesList.Props.C101_lists_keep_their_order` | C Q P |
| C101 | `Split.SourcesList.Props.C101_one_call` | C Q P |
| C102 | `Unit.Props.C102_methods` | C Q P |
| C102 | `Unit.Props.C102_careful_threads` | C Q P |
| C102 | `Unit.Props.C102_builders` | C Q P |
| C102 | `Unit.Props.C102_any_method` | C Q P |
| C102 | `Unit.Props.C102_one_at_a_time_is_a_schedule` | C Q P |
| C102 | `Unit.Props.C102_separate_locks_make_twins` | C Q P |
| C102 | `Split.Props.C102_split_methods` | C Q P |
| C102 | `Split.Props.C102_split_careful_threads` | C Q P |
| C102 | `Split.Props.C102_split_builders` | C Q P |
| C102 | `Split.Props.C102_split_any_method` | C Q P |
| C102 | `Split.Props.C102_split_one_at_a_time_is_a_schedule` | C Q P |
| C102 | `Split.Props.C102_split_separate_locks_make_twins` | C Q P |
| C103 | `Unit.Props.C103_any_moment` | C Q P |
| C103 | `Unit.Props.C103_builders` | C Q P |
| C103 | `Unit.Props.C103_every_moment_occurs` | C Q P |
| C103 | `Split.Props.C103_split_any_moment` | C Q P |
| C103 | `Split.Props.C103_split_builders` | C Q P |
| C103 | `Split.Props.C103_split_every_moment_occurs` | C Q P |
| C104 | `Unit.Props.C104_a_panic_leaves_the_finished_write` | Q P |
| C104 | `Unit.Props.C104_a_panic_leaves_the_changes_told` | C Q P |
| C104 | `Unit.Props.C104_a_panic_stops_deletions` | C Q P |
| C104 | `Split.Props.C104_split_a_panic_leaves_the_finished_write` | Q P |
| C104 | `Split.Props.C104_split_a_panic_leaves_the_changes_told` | C Q P |
| C104 | `Split.Props.C104_split_a_panic_stops_deletions` | C Q P |
| C105 | `Unit.Props.C105_crash_makes_no_link_up` | C Q P |
| C105 | `Unit.Props.C105_crash_while_creating_can_make_up_a_target` | C Q P |
| C105 | `Unit.Props.C105_power_loss_can_make_a_link_up` | C Q P |
| C105 | `Split.Props.C105_split_crash_makes_no_link_up` | C Q P |
| C105 | `Split.Props.C105_split_crash_while_creating_can_make_up_a_target` | C Q P |
| C105 | `Split.Props.C105_split_power_loss_can_make_a_link_up` | C Q P |
| C106 | `Unit.Props.C106_power_loss_while_growing` | C Q P |
| C106 | `Unit.Props.C106_power_loss_makes_no_link_up_while_growing` | C Q P |
| C106 | `Unit.Props.C106_recovery_while_growing` | C Q P |
| C106 | `Unit.Props.C106_power_loss_can_mix_the_ends_of_an_update` | C Q P |
| C106 | `Split.Props.C106_split_power_loss_while_growing` | C Q P |
| C106 | `Split.Props.C106_split_power_loss_makes_no_link_up_while_growing` | C Q P |
| C106 | `Split.Props.C106_split_recovery_while_growing` | C Q P |
| C106 | `Split.Props.C106_split_power_loss_can_mix_the_ends_of_an_update` | C Q P |
| C107 | `Unit.Props.C107_owners_do_not_notice_each_other` | C Q P |
| C107 | `Unit.Props.C107_schedules_end_alike` | C Q P |
| C107 | `Unit.Props.C107_cells_are_disciplined` | C Q P |
| C107 | `Split.Props.C107_split_owners_do_not_notice_each_other` | C Q P |
| C107 | `Split.Props.C107_split_schedules_end_alike` | C Q P |
| C107 | `Split.Props.C107_split_cells_are_disciplined` | C Q P |
| C108 | `Deco.Props.C108_unique_validator_create_link` | Q P |
| C108 | `Deco.Props.C108_unique_validator_fills_the_store` | Q P |
| C108 | `Deco.Props.C108_unique_validator_get_or_create` | P |
| C108 | `Deco.Props.C108_unique_resolver_create_link` | Q P |
| C108 | `Deco.Props.C108_cascade_unique_resolver_create_link` | C Q P |
| C108 | `Deco.Props.C108_usages_validator_create_link` | C Q P |
| C108 | `Unit.Props.C108_unique_validator_exact` | C Q P |
| C108 | `Unit.Props.C108_cascade_unique_resolver_redirects` | C Q P |
| C108 | `Split.Props.C108_split_unique_validator_exact` | C Q P |
| C108 | `Split.Props.C108_split_refuses_a_new_pair` | C Q P |
| C109 | `Batch.Props.C109_any_order` | Q P |
| C109 | `Batch.Props.C109_rewrite_every_link` | Q P |
| C109 | `Unit.Props.C109_order_shows_in_new_indices` | C Q P |
| C110 | `Unit.Props.C110_import` | C Q P |
| C110 | `Unit.Props.C110_import_again` | C Q P |
| C110 | `Unit.Props.C110_import_twice` | C Q P |
| C110 | `Split.Props.C110_split_import` | C Q P |
| C110 | `Split.Props.C110_split_import_again` | C Q P |
| C110 | `Split.Props.C110_split_import_twice` | C Q P |
| C111 | `Unit.Props.C111_any_schedule` | C Q P |
| C111 | `Unit.Props.C111_either_order` | C Q P |
| C111 | `Split.Props.C111_split_any_schedule` | C Q P |
| C111 | `Split.Props.C111_split_either_order` | C Q P |
| C111 | `Split.Props.C111_both_kinds` | C Q P |
| C112 | `Unit.Props.C112_par_each_iter` | C Q P |
| C112 | `Unit.Props.C112_par_iter` | C Q P |
| C112 | `Split.Props.C112_split_par_each_iter` | C Q P |
| C112 | `Split.Props.C112_split_par_iter` | C Q P |
| C113 | `Sweep.Props.C113_sweep` | C Q P |
| C114 | `Unit.Props.C114_same_states` | C Q P |
| C114 | `Unit.Props.C114_same_calls` | C Q P |
| C114 | `Unit.Props.C114_counts` | C Q P |
| C114 | `Unit.Props.C114_count_wraps` | C Q P |
| C114 | `Unit.Props.C114_same_results` | Q P |
| C114 | `Unit.Props.C114_default_methods` | Q P |
| C114 | `Split.Props.C114_split_same_states` | C Q P |
| C114 | `Split.Props.C114_split_same_calls` | C Q P |
| C114 | `Split.Props.C114_split_counts` | C Q P |
| C114 | `Split.Props.C114_split_count_wraps` | C Q P |
| C114 | `Split.Props.C114_split_same_results` | Q P |
| C115 | `Unit.Props.C115_same_calls_same_results` | C Q P |
| C115 | `Unit.Props.C115_same_answers` | C Q P |
| C115 | `Unit.Props.C115_same_search` | C Q P |
| C115 | `Split.Props.C115_split_same_calls_same_results` | C Q P |
| C115 | `Split.Props.C115_split_same_links` | C Q P |
| C115 | `Split.Props.C115_split_same_counts` | C Q P |
| C116 | `Unit.Props.C116_united_store_is_a_map_to_clients` | C Q P |
| C116 | `Unit.Props.C116_united_clients_finish` | C Q P |
| C116 | `Unit.Props.C116_united_composite_calls` | Q P |
| C116 | `Split.Props.C116_split_store_is_a_map_to_clients` | C Q P |
| C116 | `Split.Props.C116_split_clients_finish` | C Q P |
| C116 | `Split.Props.C116_split_composite_calls` | Q P |
| C116 | `Split.Props.C116_one_after_another` | Q P |
| C116 | `Split.Props.C116_one_meaning` | C Q P |
| C116 | `Split.Props.C116_united_or_split` | C Q P |
| C116 | `Split.Props.C116_threads_united_or_split` | C Q P |
| C116 | `Split.Props.C116_united_or_united` | C Q P |
| C116 | `Split.Props.C116_split_or_split` | C Q P |
| C117 | `Ffi.Props.C117_the_c_interface_is_as_good` | C Q P |
| C117 | `Ffi.Props.C117_a_map_to_c_clients` | C Q P |
| C117 | `Ffi.Props.C117_c_or_split` | C Q P |
| C118 | `Unit.Props.C118_united_restarted_clients` | C Q P |
| C118 | `Unit.Props.C118_united_restarts_do_not_show` | C Q P |
| C118 | `Unit.Props.C118_united_can_be_restarted` | C Q P |
| C118 | `Split.Props.C118_split_restarted_clients` | C Q P |
| C118 | `Split.Props.C118_split_restarts_do_not_show` | C Q P |
| C118 | `Split.Props.C118_united_or_split` | C Q P |
| C118 | `Split.Props.C118_split_can_be_restarted` | C Q P |
| C119 | `Unit.Props.C119_points` | C Q P |
| C119 | `Unit.Props.C119_tour_partial` | C Q P |
| C119 | `Unit.Props.C119_tour_fails` | C Q P |
| C119 | `Split.Props.C119_split_points` | C Q P |
| C120 | `Unit.Props.C120_united_store_is_a_map_to_tidy_clients` | C Q P |
| C120 | `Unit.Props.C120_united_tidy_clients_finish` | C Q P |
| C120 | `Unit.Props.C120_united_restarted_tidy_clients` | C Q P |
| C120 | `Unit.Props.C120_united_links` | C Q P |
| C120 | `Split.Props.C120_split_store_is_a_map_to_tidy_clients` | C Q P |
| C120 | `Split.Props.C120_split_tidy_clients_finish` | C Q P |
| C120 | `Split.Props.C120_split_restarted_tidy_clients` | C Q P |
| C120 | `Split.Props.C120_split_links` | C Q P |
| C120 | `Split.Props.C120_united_or_split` | C Q P |
| C120 | `Split.Props.C120_united_or_united` | C Q P |
| C120 | `Split.Props.C120_split_or_split` | C Q P |
| C121 | `Unit.Props.C121_no_duplicates` | C Q P |
| C121 | `Unit.Props.C121_validator` | C Q P |
| C121 | `Unit.Props.C121_resolver` | C Q P |
| C121 | `Unit.Props.C121_create_and_delete` | C Q P |
| C121 | `Unit.Props.C121_null_sources_do_damage` | Q P |
| C121 | `Unit.Props.C121_cascade_merges_do_damage` | Q P |
| C121 | `Split.Props.C121_split_no_duplicates` | C Q P |
| C121 | `Split.Props.C121_split_validator` | C Q P |
| C121 | `Split.Props.C121_split_resolver` | C Q P |
| C121 | `Split.Props.C121_split_create_and_delete` | C Q P |
| C122 | `Unit.Props.C122_every_link_is_a_nested_pair` | C Q P |
| C122 | `Unit.Props.C122_contents_up_to_numbers` | C Q P |
| C122 | `Unit.Props.C122_updates_make_cycles` | C Q P |
| C122 | `Split.Props.C122_split_every_link_is_a_nested_pair` | C Q P |
| C122 | `Split.Props.C122_split_contents_up_to_numbers` | C Q P |
| C122 | `Split.Props.C122_contents_up_to_numbers_across_stores` | C Q P |
| C122 | `Unit.Props.C122_threads_make_nested_pairs` | C Q P |
| C122 | `Unit.Props.C122_builders_keep_the_meaning` | C Q P |
| C122 | `Split.Props.C122_split_threads_make_nested_pairs` | C Q P |
| C122 | `Split.Props.C122_split_builders_keep_the_meaning` | C Q P |
| C123 | `Stacks.Props.C123_no_walk_comes_back` | C Q P |
| C123 | `Stacks.Props.C123_split_no_walk_comes_back` | C Q P |
| C123 | `Stacks.Props.C123_unique_validator_alone_lets_walks_come_back` | Q P |
| C124 | `Props.C124_united_to_split` | C Q P |
| C124 | `Props.C124_split_to_united` | C Q P |
| C124 | `Props.C124_united_to_united` | C Q P |
| C124 | `Props.C124_split_to_split` | C Q P |
| C124 | `Props.C124_there_and_back` | C Q P |
| C125 | `Unit.Props.C125_taken_apart` | C Q P |
| C125 | `Unit.Props.C125_cycles_cannot_be_taken_apart` | C Q P |
| C125 | `Split.Props.C125_split_taken_apart` | C Q P |
