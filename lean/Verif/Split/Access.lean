import Verif.Split.Crash
import Verif.Access

/-!
# Model of the split store at the level of accessors and single writes

As `Unit/Access.lean`: the tree and list algorithms are programs that reach memory only through the accessors the
repository implements, every assignment of the store's own code is a separate write, and each of the seven holders of
memory pointers (the store, its four trees, its two lists) may hold outdated ones, of the data memory or of the index
memory. Line numbers without a file name refer to `doublets/src/mem/split/store.rs`.
-/

namespace Verif.Split
open Verif
open Verif.Unit (Hdr srcLt4 srcGt4 tgtLt4 tgtGt4)

/-! ### Index parts as words -/

/-- Word `w` of an index part (`index_part.rs:5-15`, `#[repr(C)]`: fields in this order). -/
def IPart.word (p : IPart) : Nat → Nat
  | 0 => p.rootS
  | 1 => p.leftS
  | 2 => p.rightS
  | 3 => p.sizeS
  | 4 => p.rootT
  | 5 => p.leftT
  | 6 => p.rightT
  | _ => p.sizeT

/-- An index part with one word replaced. -/
def IPart.setWord (p : IPart) (w v : Nat) : IPart :=
  match w with
  | 0 => { p with rootS := v }
  | 1 => { p with leftS := v }
  | 2 => { p with rightS := v }
  | 3 => { p with sizeS := v }
  | 4 => { p with rootT := v }
  | 5 => { p with leftT := v }
  | 6 => { p with rightT := v }
  | _ => { p with sizeT := v }

/-- The bits of an index part read as the header (`header.rs:4-15`, `#[repr(C)]`): inverse of `asPart`. -/
def ofPart (p : IPart) : Hdr := ⟨p.rootS, p.leftS, p.rightS, p.sizeS, p.rootT, p.leftT, p.rightT, p.sizeT⟩

/-- Index slot `i`, slot 0 too. -/
def Store.slot (s : Store) (i : Nat) : IPart := if i = 0 then asPart s.hdr else s.idx i

/-- The memory with index slot `i` replaced, slot 0 too. -/
def Store.setSlot (s : Store) (i : Nat) (p : IPart) : Store :=
  if i = 0 then { s with hdr := ofPart p } else { s with idx := fun k => if k = i then p else s.idx k }

/-! ### Holders of memory pointers -/

/-- The holders of pointers to both memories: the store itself, `internal_sources`, `internal_targets`,
`external_sources`, `external_targets`, `sources_list`, `unused` (`store.rs:28-52`). -/
inductive Holder where
  | main
  | intSrc
  | intTgt
  | extSrc
  | extTgt
  | list
  | unused
deriving DecidableEq

/-- A store in the sense of the Rust structure: the memories, and for each holder whether its pointers to the data memory
(`d`) and to the index memory (`i`) are up to date. -/
structure AStore where
  s : Store := {}
  d : Holder → Bool := fun _ => false
  i : Holder → Bool := fun _ => false

/-- All pointers up to date, or all pointers to the data memory outdated if the model of the store says so. -/
def AStore.of (s : Store) : AStore := ⟨s, fun _ => !s.stale, fun _ => true⟩

/-- Indexing the index slice a holder has: `get_index_part`, `get_header` (`internal_sources_…:146-148`,
`internal_targets_…:153-155`, `external_sources_…:214-224`, `external_targets_…:212-222`, `unused_links.rs:21-23`,
`store.rs:115-138,163-166`). `none` = out of bounds, or through an outdated pointer. -/
def AStore.getI (a : AStore) (o : Holder) (n : Nat) : Option IPart :=
  if a.i o ∧ n < a.s.ilen then some (a.s.slot n) else none

/-- Indexing the data slice a holder has: `get_data_part`, `get_link` (`internal_sources_…:154-156`,
`internal_targets_…:161-163`, `external_sources_…:230-232`, `external_targets_…:228-230`, `unused_links.rs:29-31`,
`store.rs:149-156`). -/
def AStore.getD (a : AStore) (o : Holder) (n : Nat) : Option (Nat × Nat) :=
  if a.d o ∧ n < a.s.dlen then some (a.s.data n) else none

/-- Assignment to a field of an index part: `get_mut_index_part`, `get_mut_header`, `mut_index_part`, `mut_header`. -/
def AStore.modI (o : Holder) (n : Nat) (f : IPart → IPart) (a : AStore) : Option AStore :=
  if a.i o ∧ n < a.s.ilen then some { a with s := a.s.setSlot n (f (a.s.slot n)) } else none

/-- Assignment to a field of a data part: `get_mut_link` of the unused links, `mut_data_part`. -/
def AStore.modD (o : Holder) (n : Nat) (f : Nat × Nat → Nat × Nat) (a : AStore) : Option AStore :=
  if a.d o ∧ n < a.s.dlen then
    some { a with s := { a.s with data := fun k => if k = n then f (a.s.data n) else a.s.data k } }
  else none

/-- Reading the header: index slot 0, transmuted. -/
def AStore.header (a : AStore) (o : Holder) : Option Hdr := (a.getI o 0).map ofPart

/-- Assignment to a header field. -/
def AStore.modHeader (o : Holder) (f : Hdr → Hdr) (a : AStore) : Option AStore :=
  a.modI o 0 fun p => asPart (f (ofPart p))

/-- A pointer to a word of an index slot: slot and position. -/
abbrev Ptr := Nat × Nat

/-- Value behind a pointer. -/
def AStore.load (a : AStore) (p : Ptr) : Nat := (a.s.slot p.1).word p.2

/-- Assignment through a pointer. -/
def AStore.store (a : AStore) (p : Ptr) (v : Nat) : AStore :=
  { a with s := a.s.setSlot p.1 ((a.s.slot p.1).setWord p.2 v) }

/-! ### Accessors -/

/-- `impl SzbTree for InternalSourcesRecursionlessTree` (`internal_sources_recursion_less_tree.rs:36-91`). -/
def intSrcTree : SzbTree AStore Ptr where
  -- :37-39, 41-43, 45-47, 49-51
  getLeftReference a n := (a.getI .intSrc n).map fun _ => (n, 1)
  getRightReference a n := (a.getI .intSrc n).map fun _ => (n, 2)
  getMutLeftReference a n := (a.getI .intSrc n).map fun _ => (n, 1)
  getMutRightReference a n := (a.getI .intSrc n).map fun _ => (n, 2)
  -- :53-55, 57-59, 61-63
  getLeft a n := (a.getI .intSrc n).map (·.leftS)
  getRight a n := (a.getI .intSrc n).map (·.rightS)
  getSize a n := (a.getI .intSrc n).map (·.sizeS)
  -- :65-67, 69-71, 73-75
  setLeft n v := AStore.modI .intSrc n fun p => { p with leftS := v }
  setRight n v := AStore.modI .intSrc n fun p => { p with rightS := v }
  setSize n v := AStore.modI .intSrc n fun p => { p with sizeS := v }
  -- :77-79, 81-83; the key is the target (:170-172)
  firstIsToTheLeftOfSecond a m n := (a.getD .intSrc m).bind fun p => (a.getD .intSrc n).map fun q => p.2 < q.2
  firstIsToTheRightOfSecond a m n := (a.getD .intSrc m).bind fun p => (a.getD .intSrc n).map fun q => p.2 > q.2
  -- :85-90
  clearNode n := [AStore.modI .intSrc n fun p => { p with leftS := 0 },
    AStore.modI .intSrc n fun p => { p with rightS := 0 }, AStore.modI .intSrc n fun p => { p with sizeS := 0 }]
  load := AStore.load
  store := AStore.store

/-- `impl SzbTree for InternalTargetsRecursionlessTree` (`internal_targets_recursion_less_tree.rs:36-91`). -/
def intTgtTree : SzbTree AStore Ptr where
  -- :37-39, 41-43, 45-47, 49-51
  getLeftReference a n := (a.getI .intTgt n).map fun _ => (n, 5)
  getRightReference a n := (a.getI .intTgt n).map fun _ => (n, 6)
  getMutLeftReference a n := (a.getI .intTgt n).map fun _ => (n, 5)
  getMutRightReference a n := (a.getI .intTgt n).map fun _ => (n, 6)
  -- :53-55, 57-59, 61-63
  getLeft a n := (a.getI .intTgt n).map (·.leftT)
  getRight a n := (a.getI .intTgt n).map (·.rightT)
  getSize a n := (a.getI .intTgt n).map (·.sizeT)
  -- :65-67, 69-71, 73-75
  setLeft n v := AStore.modI .intTgt n fun p => { p with leftT := v }
  setRight n v := AStore.modI .intTgt n fun p => { p with rightT := v }
  setSize n v := AStore.modI .intTgt n fun p => { p with sizeT := v }
  -- :77-79, 81-83; the key is the source (:177-179)
  firstIsToTheLeftOfSecond a m n := (a.getD .intTgt m).bind fun p => (a.getD .intTgt n).map fun q => p.1 < q.1
  firstIsToTheRightOfSecond a m n := (a.getD .intTgt m).bind fun p => (a.getD .intTgt n).map fun q => p.1 > q.1
  -- :85-90
  clearNode n := [AStore.modI .intTgt n fun p => { p with leftT := 0 },
    AStore.modI .intTgt n fun p => { p with rightT := 0 }, AStore.modI .intTgt n fun p => { p with sizeT := 0 }]
  load := AStore.load
  store := AStore.store

/-- `impl SzbTree for ExternalSourcesRecursionlessTree` (`external_sources_recursion_less_tree.rs:38-107`). -/
def extSrcTree : SzbTree AStore Ptr where
  -- :39-41, 43-45, 47-49, 51-53
  getLeftReference a n := (a.getI .extSrc n).map fun _ => (n, 1)
  getRightReference a n := (a.getI .extSrc n).map fun _ => (n, 2)
  getMutLeftReference a n := (a.getI .extSrc n).map fun _ => (n, 1)
  getMutRightReference a n := (a.getI .extSrc n).map fun _ => (n, 2)
  -- :55-57, 59-61, 63-65
  getLeft a n := (a.getI .extSrc n).map (·.leftS)
  getRight a n := (a.getI .extSrc n).map (·.rightS)
  getSize a n := (a.getI .extSrc n).map (·.sizeS)
  -- :67-69, 71-73, 75-77
  setLeft n v := AStore.modI .extSrc n fun p => { p with leftS := v }
  setRight n v := AStore.modI .extSrc n fun p => { p with rightS := v }
  setSize n v := AStore.modI .extSrc n fun p => { p with sizeS := v }
  -- :79-88, 90-99 with :246-266
  firstIsToTheLeftOfSecond a m n := (a.getD .extSrc m).bind fun p => (a.getD .extSrc n).map fun q =>
    srcLt4 p.1 p.2 q.1 q.2
  firstIsToTheRightOfSecond a m n := (a.getD .extSrc m).bind fun p => (a.getD .extSrc n).map fun q =>
    srcGt4 p.1 p.2 q.1 q.2
  -- :101-106
  clearNode n := [AStore.modI .extSrc n fun p => { p with leftS := 0 },
    AStore.modI .extSrc n fun p => { p with rightS := 0 }, AStore.modI .extSrc n fun p => { p with sizeS := 0 }]
  load := AStore.load
  store := AStore.store

/-- `impl SzbTree for ExternalTargetsRecursionlessTree` (`external_targets_recursion_less_tree.rs:36-105`). -/
def extTgtTree : SzbTree AStore Ptr where
  -- :37-39, 41-43, 45-47, 49-51
  getLeftReference a n := (a.getI .extTgt n).map fun _ => (n, 5)
  getRightReference a n := (a.getI .extTgt n).map fun _ => (n, 6)
  getMutLeftReference a n := (a.getI .extTgt n).map fun _ => (n, 5)
  getMutRightReference a n := (a.getI .extTgt n).map fun _ => (n, 6)
  -- :53-55, 57-59, 61-63
  getLeft a n := (a.getI .extTgt n).map (·.leftT)
  getRight a n := (a.getI .extTgt n).map (·.rightT)
  getSize a n := (a.getI .extTgt n).map (·.sizeT)
  -- :65-67, 69-71, 73-75
  setLeft n v := AStore.modI .extTgt n fun p => { p with leftT := v }
  setRight n v := AStore.modI .extTgt n fun p => { p with rightT := v }
  setSize n v := AStore.modI .extTgt n fun p => { p with sizeT := v }
  -- :77-86, 88-97 with :244-264
  firstIsToTheLeftOfSecond a m n := (a.getD .extTgt m).bind fun p => (a.getD .extTgt n).map fun q =>
    tgtLt4 p.1 p.2 q.1 q.2
  firstIsToTheRightOfSecond a m n := (a.getD .extTgt m).bind fun p => (a.getD .extTgt n).map fun q =>
    tgtGt4 p.1 p.2 q.1 q.2
  -- :99-104
  clearNode n := [AStore.modI .extTgt n fun p => { p with leftT := 0 },
    AStore.modI .extTgt n fun p => { p with rightT := 0 }, AStore.modI .extTgt n fun p => { p with sizeT := 0 }]
  load := AStore.load
  store := AStore.store

/-- `impl AbsoluteLinkedList` and `impl LinkedList for UnusedLinks` (`split/generic/unused_links.rs:38-80`). -/
def unusedList : AbsList AStore where
  -- :39-41, 43-45, 47-49
  getFirst a := (a.header .unused).map (·.firstFree)
  getLast a := (a.header .unused).map (·.lastFree)
  getSize a := (a.header .unused).map (·.free)
  -- :51-53, 55-57, 59-61
  setFirst v := AStore.modHeader .unused fun h => { h with firstFree := v }
  setLast v := AStore.modHeader .unused fun h => { h with lastFree := v }
  setSize v := AStore.modHeader .unused fun h => { h with free := v }
  -- :65-67, 69-71
  getPrevious a n := (a.getD .unused n).map (·.1)
  getNext a n := (a.getD .unused n).map (·.2)
  -- :73-75, 77-79
  setPrevious n v := AStore.modD .unused n fun p => (v, p.2)
  setNext n v := AStore.modD .unused n fun p => (p.1, v)

/-! ### Tree and list operations -/

/-- `self.internal_sources`, `self.internal_targets`. -/
def intTree : Side → SzbTree AStore Ptr
  | .src => intSrcTree
  | .tgt => intTgtTree

/-- `self.external_sources`, `self.external_targets`. -/
def extTree : Side → SzbTree AStore Ptr
  | .src => extSrcTree
  | .tgt => extTgtTree

/-- `mut_source_root`, `mut_target_root` (`store.rs:181-187`): pointer to `root_as_source` (word 0) or `root_as_target`
(word 4) of an index part. -/
def rootPtr (d : Side) (n : Nat) (a : AStore) : Option Ptr :=
  (a.getI .main n).map fun _ => match d with
    | .src => (n, 0)
    | .tgt => (n, 4)

/-- `mut_source_header_root`, `mut_target_header_root` (`store.rs:173-179`): pointer to `root_as_source` (word 4) or
`root_as_target` (word 5) of the header. -/
def hrootPtr (d : Side) (a : AStore) : Option Ptr :=
  (a.getI .main 0).map fun _ => match d with
    | .src => (0, 4)
    | .tgt => (0, 5)

/-- `attach_internal_source`, `attach_internal_target` (`store.rs:197-203,231-239`). -/
def attachIntA (P : Programs) (f : Nat) (d : Side) (n i : Nat) : Tr AStore Unit := do
  let root ← Tr.ask (rootPtr d n)
  (P.attach f i).run ((intTree d).access root)

/-- `detach_internal_source`, `detach_internal_target` (`store.rs:189-195,221-229`). -/
def detachIntA (P : Programs) (f : Nat) (d : Side) (n i : Nat) : Tr AStore Unit := do
  let root ← Tr.ask (rootPtr d n)
  (P.detach f i).run ((intTree d).access root)

/-- `attach_external_source`, `attach_external_target` (`store.rs:213-219,251-259`). -/
def attachExtA (P : Programs) (f : Nat) (d : Side) (i : Nat) : Tr AStore Unit := do
  let root ← Tr.ask (hrootPtr d)
  (P.attach f i).run ((extTree d).access root)

/-- `detach_external_source`, `detach_external_target` (`store.rs:205-211,241-249`). -/
def detachExtA (P : Programs) (f : Nat) (d : Side) (i : Nat) : Tr AStore Unit := do
  let root ← Tr.ask (hrootPtr d)
  (P.detach f i).run ((extTree d).access root)

/-- `self.unused.detach` (`unused_links.rs:92-94`). -/
def unusedDetachA (P : Programs) (f i : Nat) : Tr AStore Unit := (P.listDetach f i).run unusedList.access

/-- `self.unused.attach_as_first` (`unused_links.rs:96-98`). -/
def unusedAttachFirstA (P : Programs) (f i : Nat) : Tr AStore Unit := (P.listAttachFirst f i).run unusedList.access

/-! ### Store -/

/-- `self.data_mem.alloc(n)`: `none` if it fails. A successful call makes all pointers to the data memory outdated. -/
def dallocA (c : Cfg) (n : AStore → Nat) : Tr AStore (Option Unit) := fun a =>
  match c.dalloc a.s.dlen (n a) with
  | none => ([], some (none, a))
  | some k =>
    let a' : AStore := ⟨{ a.s with dlen := k, stale := true }, fun _ => false, a.i⟩
    ([a'], some (some (), a'))

/-- `self.index_mem.alloc(n)`: `none` if it fails. A successful call makes all pointers to the index memory outdated. -/
def iallocA (c : Cfg) (n : AStore → Nat) : Tr AStore (Option Unit) := fun a =>
  match c.ialloc a.s.ilen (n a) with
  | none => ([], some (none, a))
  | some k =>
    let a' : AStore := ⟨{ a.s with ilen := k }, a.d, fun _ => false⟩
    ([a'], some (some (), a'))

/-- `update_mem` of one holder (e.g. `external_sources_…:203-206`): both of its pointers. -/
def AStore.refresh (a : AStore) (o : Holder) : AStore :=
  { a with d := fun x => if x = o then true else a.d x, i := fun x => if x = o then true else a.i x }

/-- `update_mem` (`store.rs:261-271`). The pointers are fields of the Rust structure, not of the memory: no image. -/
def updateMem : Tr AStore Unit := fun a =>
  -- :262-263
  let a := { a with s := { a.s with stale := false } }
  let a := a.refresh .main
  -- :265-270
  let a := a.refresh .intSrc
  let a := a.refresh .extSrc
  let a := a.refresh .intTgt
  let a := a.refresh .extTgt
  let a := a.refresh .list
  let a := a.refresh .unused
  ([], some ((), a))

/-- Assignment to a field of the store's header. -/
def setHeader (f : Hdr → Hdr) : Tr AStore Unit := Tr.tell (AStore.modHeader .main f)

/-- A read of the store through its own pointers and those of its trees (`count_links`, `each_links`). It is modelled on the
memories; a single outdated pointer makes it fail here, even if it would not be used. -/
def readA {α : Type} (f : Store → Option α) : Tr AStore α := Tr.ask fun a =>
  if [Holder.main, .intSrc, .intTgt, .extSrc, .extTgt].all (fun o => a.d o && a.i o) then f a.s else none

/-- `is_unused` (`store.rs:315-325`) and `is_virtual` (`store.rs:329-331`). -/
def isUnusedA (n : Nat) (a : AStore) : Option Bool :=
  (a.header .main).bind fun h =>
  if n ≤ h.allocated ∧ h.firstFree ≠ n then
    (a.getI .main n).bind fun p => (a.getD .main n).map fun x => p.sizeT == 0 && x.1 != 0
  else some true

/-- `exists` (`store.rs:333-342`). -/
def existsA (c : Cfg) (n : Nat) (a : AStore) : Option Bool :=
  (a.header .main).bind fun h =>
  if c.consts.internalStart ≤ n ∧ n ≤ h.allocated then (isUnusedA n a).map not else some false

/-- `get_link` (`store.rs:863-869`) with `get_link_unchecked` (`store.rs:345-350`). -/
def getLinkA (c : Cfg) (n : Nat) (a : AStore) : Option (Option Link) :=
  (existsA c n a).bind fun e =>
    if e then (a.getD .main n).map fun p => some ⟨n, p.1, p.2⟩ else some none

/-- `init` (`store.rs:283-308`), called by `with_constants` (`store.rs:66-108`) on a structure whose pointers are all
dangling. -/
def initA (c : Cfg) : Tr AStore (Except Err Unit) := do
  match ← dallocA c fun _ => c.page with
  | none => pure (.error .allocFailed)
  | some _ =>
  match ← iallocA c fun _ => c.page with
  | none => pure (.error .allocFailed)
  | some _ =>
  updateMem
  let header ← Tr.ask (AStore.header · .main)
  let dl ← Tr.ask fun a => some a.s.dlen
  let il ← Tr.ask fun a => some a.s.ilen
  match ← dallocA c fun _ => align (max (max header.allocated dl) c.step) c.step with
  | none => pure (.error .allocFailed)
  | some _ =>
  match ← iallocA c fun _ => align (max (max header.allocated il) c.step) c.step with
  | none => pure (.error .allocFailed)
  | some _ =>
  updateMem
  let dl ← Tr.ask fun a => some a.s.dlen
  let r ← Tr.ofOption (csub dl 1)
  if r ≤ c.maxT then do
    setHeader fun h => { h with reserved := r }
    pure (.ok ())
  else Tr.fail

/-- One loop of `resolve_danglind_internal` or `resolve_danglind_external` (`store.rs:489-508,513-532`): each link is
taken out of one tree and put into another. -/
def moveA (out into : Nat → Tr AStore Unit) : List Nat → Tr AStore Unit
  | [] => pure ()
  | k :: ks => do
    out k
    into k
    moveA out into ks

/-- `resolve_danglind_internal` (`store.rs:487-509`). -/
def resolveInternalA (c : Cfg) (P : Programs) (f i : Nat) : Tr AStore Unit := do
  let l1 ← readA (eachIter c · (sideQuery c .src i))
  moveA (fun k => detachIntA P f .src i k) (fun k => attachExtA P f .src k) ((l1.map (·.index)).filter (· ≠ i))
  let l2 ← readA (eachIter c · (sideQuery c .tgt i))
  moveA (fun k => detachIntA P f .tgt i k) (fun k => attachExtA P f .tgt k) (tgtUsers i l2)

/-- `resolve_danglind_external` (`store.rs:511-533`). -/
def resolveExternalA (c : Cfg) (P : Programs) (f i : Nat) : Tr AStore Unit := do
  let l1 ← readA (eachIter c · (sideQuery c .src i))
  moveA (fun k => detachExtA P f .src k) (fun k => attachIntA P f .src i k) ((l1.map (·.index)).filter (· ≠ i))
  let l2 ← readA (eachIter c · (sideQuery c .tgt i))
  moveA (fun k => detachExtA P f .tgt k) (fun k => attachIntA P f .tgt i k) (tgtUsers i l2)

/-- Growth of both memories in `create_links` (`store.rs:704-720`); `false` if one of them cannot grow. -/
def growA (c : Cfg) : Tr AStore Bool := do
  match ← dallocA c fun a => a.s.dlen + c.step with
  | none => pure false
  | some _ =>
  match ← iallocA c fun a => a.s.ilen + c.step with
  | none => pure false
  | some _ =>
    updateMem
    let n ← Tr.ask fun a => some a.s.ilen
    if n ≤ c.maxT then do
      setHeader fun h => { h with reserved := n }
      pure true
    else Tr.fail

/-- `header.allocated += 1` in `create_links` (`store.rs:721-723`) and what follows for the new slot. -/
def createTopA (c : Cfg) (P : Programs) (f : Nat) : Tr AStore (Except Err Nat) := do
  let header ← Tr.ask (AStore.header · .main)
  let free ← Tr.ofOption (cadd c.maxT header.allocated 1)
  setHeader fun h => { h with allocated := free }
  resolveExternalA c P f free
  pure (.ok free)

/-- `create_links` up to the handler (`store.rs:696-728`): the error, or the index of the new link. -/
def createA (c : Cfg) (P : Programs) (f : Nat) : Tr AStore (Except Err Nat) := do
  let header ← Tr.ask (AStore.header · .main)
  if header.firstFree = c.consts.null then
    if c.consts.internalEnd ≤ header.allocated then pure (.error (.limitReached c.consts.internalEnd))
    else do
      let r1 ← Tr.ofOption (csub header.reserved 1)
      if r1 ≤ header.allocated then do
        if ← growA c then createTopA c P f else pure (.error .allocFailed)
      else createTopA c P f
  else do
    unusedDetachA P f header.firstFree
    resolveExternalA c P f header.firstFree
    pure (.ok header.firstFree)

/-- Detach a link from the tree of its end on one side (`store.rs:752-764` for sources, `store.rs:766-775` for targets). -/
def detachEndA (P : Programs) (f : Nat) (d : Side) (e i : Nat) : Tr AStore Unit :=
  if e = 0 then pure ()
  else do
    let v ← Tr.ask (isUnusedA e)
    if v then detachExtA P f d i else detachIntA P f d e i

/-- Attach a link to the tree of its end on one side (`store.rs:784-796` for sources, `store.rs:798-807` for targets). -/
def attachEndA (P : Programs) (f : Nat) (d : Side) (v : Bool) (e i : Nat) : Tr AStore Unit :=
  if e = 0 then pure ()
  else if v then attachExtA P f d i else attachIntA P f d e i

/-- The memory updates of `update_links` on an existing link (`store.rs:752-807`). -/
def relinkA (P : Programs) (f : Nat) (l : Link) (i source target : Nat) : Tr AStore Unit := do
  detachEndA P f .src l.source i
  detachEndA P f .tgt l.target i
  let vs ← Tr.ask (isUnusedA source)
  let vt ← Tr.ask (isUnusedA target)
  Tr.tell (AStore.modD .main i fun p => (source, p.2))
  Tr.tell (AStore.modD .main i fun p => (p.1, target))
  attachEndA P f .src vs source i
  attachEndA P f .tgt vt target i

/-- The condition of the loop of `delete_links` (`store.rs:835`). -/
def topUnusedA (header : Hdr) : Tr AStore Bool :=
  if header.allocated = 0 then pure false else Tr.ask (isUnusedA header.allocated)

/-- Loop of `delete_links` (`store.rs:835-842`). -/
def releaseTopA (P : Programs) (f : Nat) : Nat → Tr AStore Unit
  | 0 => Tr.fail
  | fuel + 1 => do
    let header ← Tr.ask (AStore.header · .main)
    let u ← topUnusedA header
    if u then do
      unusedDetachA P f header.allocated
      setHeader fun h => { h with allocated := header.allocated - 1 }
      releaseTopA P f fuel
    else pure ()

/-- End of `delete_links` after the link was updated to the null pair (`store.rs:822-844`). -/
def dropA (P : Programs) (f i : Nat) : Tr AStore Unit := do
  let header ← Tr.ask (AStore.header · .main)
  if i < header.allocated then unusedAttachFirstA P f i
  else if i = header.allocated then do
    let n ← Tr.ofOption (csub header.allocated 1)
    setHeader fun h => { h with allocated := n }
    releaseTopA P f (header.allocated + 1)
  else Tr.fail

/-- A call at the accessor level: `create_links` (`store.rs:691-734`), `update_links` (`store.rs:740-810`) with the query
`[i]` and the change `[i, a, b]`, `delete_links` (`store.rs:812-849`) with the query `[i]`. -/
def callA {σ : Type} (c : Cfg) (P : Programs) (f : Nat) (h : WH σ) (st : σ) : Call → Tr AStore (Except Err Flow × σ)
  | .create => do
    match ← createA c P f with
    | .error e => pure (.error e, st)
    | .ok free =>
      let r := h st Link.nothing ⟨free, 0, 0⟩
      pure (.ok r.1, r.2)
  | .update i a b => do
    match ← Tr.ask (getLinkA c i) with
    | none => pure (.error (.notExists i), st)
    | some l =>
      relinkA P f l i a b
      let r := h st l ⟨i, a, b⟩
      pure (.ok r.1, r.2)
  | .delete i => do
    match ← Tr.ask (getLinkA c i) with
    | none => pure (.error (.notExists i), st)
    | some l =>
      resolveInternalA c P f i
      -- `self.update(index, 0, 0)?` looks the link up again
      match ← Tr.ask (getLinkA c i) with
      | none => pure (.error (.notExists i), st)
      | some l' =>
        relinkA P f l' i 0 0
        dropA P f i
        let r := h st l Link.nothing
        pure (.ok r.1, r.2)

end Verif.Split
