import Verif.Unit.Model
import Verif.Access

/-!
# Model of the united store at the level of accessors and single writes

`Unit/Model.lean` describes a tree operation as one function of the tree's fields. Here the tree and list algorithms are
programs (`Programs`) that reach memory only through the accessors the repository implements, function by function, and
every assignment of the store's own code is a separate write. The memory is the same; in addition each of the four
holders of a memory pointer (the store, its two trees, its list of unused links) may hold an outdated one.
Line numbers without a file name refer to `doublets/src/mem/unit/store.rs`.
-/

namespace Verif.Unit
open Verif

/-! ### Slots as words -/

/-- Word `w` of a slot, read as a `LinkPart` (`raw_link.rs:4-14`, `#[repr(C)]`: fields in this order). -/
def Cell.word (p : Cell) : Nat → Nat
  | 0 => p.source
  | 1 => p.target
  | 2 => p.leftS
  | 3 => p.rightS
  | 4 => p.sizeS
  | 5 => p.leftT
  | 6 => p.rightT
  | _ => p.sizeT

/-- A `LinkPart` with one word replaced. -/
def Cell.setWord (p : Cell) (w v : Nat) : Cell :=
  match w with
  | 0 => { p with source := v }
  | 1 => { p with target := v }
  | 2 => { p with leftS := v }
  | 3 => { p with rightS := v }
  | 4 => { p with sizeS := v }
  | 5 => { p with leftT := v }
  | 6 => { p with rightT := v }
  | _ => { p with sizeT := v }

/-- A slot's bits read as the header (`header.rs:4-15`, `#[repr(C)]`): inverse of `Hdr.asCell`. -/
def Hdr.ofCell (p : Cell) : Hdr :=
  ⟨p.source, p.target, p.leftS, p.rightS, p.sizeS, p.leftT, p.rightT, p.sizeT⟩

/-- Slot `i` as a `LinkPart`, slot 0 too. -/
def Store.slot (s : Store) (i : Nat) : Cell := if i = 0 then s.hdr.asCell else s.cell i

/-- The memory with slot `i` replaced, slot 0 too. -/
def Store.setSlot (s : Store) (i : Nat) (p : Cell) : Store :=
  if i = 0 then { s with hdr := .ofCell p } else { s with cell := fun k => if k = i then p else s.cell k }

/-! ### Holders of memory pointers -/

/-- A store in the sense of the Rust structure: memory, and for each holder of a memory pointer whether it is up to date:
the store's `mem_ptr`, `sources.base.mem`, `targets.base.mem`, `unused.mem` (`store.rs:19-35`). After the memory was
reallocated an outdated pointer may dangle. -/
structure AStore where
  s : Store := {}
  main : Bool := false
  src : Bool := false
  tgt : Bool := false
  unused : Bool := false

/-- All pointers up to date. -/
def AStore.of (s : Store) : AStore := ⟨s, true, true, true, true⟩

/-- Which holder's pointer is used. -/
inductive Holder where
  | main
  | src
  | tgt
  | unused

/-- Whether the holder's pointer is up to date. -/
def AStore.fresh (a : AStore) : Holder → Bool
  | .main => a.main
  | .src => a.src
  | .tgt => a.tgt
  | .unused => a.unused

/-- Indexing the slice a holder has: `get_link`, `get_header` of the trees and of the unused links
(`sources_…:205-219`, `targets_…:205-219`, `unused_links.rs:19-33`), `get_from_mem` with `expect` of the store
(`store.rs:97-143`). `none` = out of bounds, or through an outdated pointer. -/
def AStore.get (a : AStore) (o : Holder) (i : Nat) : Option Cell :=
  if a.fresh o ∧ i < a.s.len then some (a.s.slot i) else none

/-- Assignment to a field of slot `i` through a holder's pointer: `get_mut_link`, `get_mut_header`, `mut_link_part`,
`mut_header` (lines as for `get`). -/
def AStore.mod (o : Holder) (i : Nat) (f : Cell → Cell) (a : AStore) : Option AStore :=
  if a.fresh o ∧ i < a.s.len then some { a with s := a.s.setSlot i (f (a.s.slot i)) } else none

/-- Reading the header: slot 0, transmuted. -/
def AStore.header (a : AStore) (o : Holder) : Option Hdr := (a.get o 0).map Hdr.ofCell

/-- Assignment to a header field. -/
def AStore.modHeader (o : Holder) (f : Hdr → Hdr) (a : AStore) : Option AStore :=
  a.mod o 0 fun p => (f (.ofCell p)).asCell

/-- A pointer to a word of a slot: slot and position. -/
abbrev Ptr := Nat × Nat

/-- Value behind a pointer. -/
def AStore.load (a : AStore) (p : Ptr) : Nat := (a.s.slot p.1).word p.2

/-- Assignment through a pointer. -/
def AStore.store (a : AStore) (p : Ptr) (v : Nat) : AStore :=
  { a with s := a.s.setSlot p.1 ((a.s.slot p.1).setWord p.2 v) }

/-! ### Accessors -/

/-- `impl SzbTree for LinksSourcesRecursionlessSizeBalancedTree`
(`unit/generic/sources_recursionless_size_balanced_tree.rs:32-101`). -/
def srcTree : SzbTree AStore Ptr where
  -- :33-35, 37-39, 41-43, 45-47: `addr_of!(self.get_link(node).left_as_source)` and so on
  getLeftReference a n := (a.get .src n).map fun _ => (n, 2)
  getRightReference a n := (a.get .src n).map fun _ => (n, 3)
  getMutLeftReference a n := (a.get .src n).map fun _ => (n, 2)
  getMutRightReference a n := (a.get .src n).map fun _ => (n, 3)
  -- :49-51, 53-55, 57-59
  getLeft a n := (a.get .src n).map (·.leftS)
  getRight a n := (a.get .src n).map (·.rightS)
  getSize a n := (a.get .src n).map (·.sizeS)
  -- :61-63, 65-67, 69-71
  setLeft n v := AStore.mod .src n fun p => { p with leftS := v }
  setRight n v := AStore.mod .src n fun p => { p with rightS := v }
  setSize n v := AStore.mod .src n fun p => { p with sizeS := v }
  -- :73-82, 84-93
  firstIsToTheLeftOfSecond a m n := (a.get .src m).bind fun p => (a.get .src n).map fun q =>
    srcLt4 p.source p.target q.source q.target
  firstIsToTheRightOfSecond a m n := (a.get .src m).bind fun p => (a.get .src n).map fun q =>
    srcGt4 p.source p.target q.source q.target
  -- :95-100
  clearNode n := [AStore.mod .src n fun p => { p with leftS := 0 }, AStore.mod .src n fun p => { p with rightS := 0 },
    AStore.mod .src n fun p => { p with sizeS := 0 }]
  load := AStore.load
  store := AStore.store

/-- `impl SzbTree for LinksTargetsRecursionlessSizeBalancedTree`
(`unit/generic/targets_recursionless_size_balanced_tree.rs:32-101`). -/
def tgtTree : SzbTree AStore Ptr where
  -- :33-35, 37-39, 41-43, 45-47
  getLeftReference a n := (a.get .tgt n).map fun _ => (n, 5)
  getRightReference a n := (a.get .tgt n).map fun _ => (n, 6)
  getMutLeftReference a n := (a.get .tgt n).map fun _ => (n, 5)
  getMutRightReference a n := (a.get .tgt n).map fun _ => (n, 6)
  -- :49-51, 53-55, 57-59
  getLeft a n := (a.get .tgt n).map (·.leftT)
  getRight a n := (a.get .tgt n).map (·.rightT)
  getSize a n := (a.get .tgt n).map (·.sizeT)
  -- :61-63, 65-67, 69-71
  setLeft n v := AStore.mod .tgt n fun p => { p with leftT := v }
  setRight n v := AStore.mod .tgt n fun p => { p with rightT := v }
  setSize n v := AStore.mod .tgt n fun p => { p with sizeT := v }
  -- :73-82, 84-93
  firstIsToTheLeftOfSecond a m n := (a.get .tgt m).bind fun p => (a.get .tgt n).map fun q =>
    tgtLt4 p.source p.target q.source q.target
  firstIsToTheRightOfSecond a m n := (a.get .tgt m).bind fun p => (a.get .tgt n).map fun q =>
    tgtGt4 p.source p.target q.source q.target
  -- :95-100
  clearNode n := [AStore.mod .tgt n fun p => { p with leftT := 0 }, AStore.mod .tgt n fun p => { p with rightT := 0 },
    AStore.mod .tgt n fun p => { p with sizeT := 0 }]
  load := AStore.load
  store := AStore.store

/-- `impl AbsoluteLinkedList` and `impl LinkedList for UnusedLinks` (`unit/generic/unused_links.rs:36-78`). -/
def unusedList : AbsList AStore where
  -- :37-39, 41-43, 45-47
  getFirst a := (a.header .unused).map (·.firstFree)
  getLast a := (a.header .unused).map (·.lastFree)
  getSize a := (a.header .unused).map (·.free)
  -- :49-51, 53-55, 57-59
  setFirst v := AStore.modHeader .unused fun h => { h with firstFree := v }
  setLast v := AStore.modHeader .unused fun h => { h with lastFree := v }
  setSize v := AStore.modHeader .unused fun h => { h with free := v }
  -- :63-65, 67-69
  getPrevious a n := (a.get .unused n).map (·.source)
  getNext a n := (a.get .unused n).map (·.target)
  -- :71-73, 75-77
  setPrevious n v := AStore.mod .unused n fun p => { p with source := v }
  setNext n v := AStore.mod .unused n fun p => { p with target := v }

/-! ### Tree and list operations -/

/-- `mut_source_root` (`store.rs:145-147`): pointer to `root_as_source`, word 4 of the header. -/
def sourceRoot (a : AStore) : Option Ptr := (a.get .main 0).map fun _ => (0, 4)

/-- `mut_target_root` (`store.rs:149-151`): pointer to `root_as_target`, word 5 of the header. -/
def targetRoot (a : AStore) : Option Ptr := (a.get .main 0).map fun _ => (0, 5)

/-- `attach_source` (`store.rs:161-163,179-182`, `sources_…:191-193`). -/
def attachSourceA (P : Programs) (f i : Nat) : Tr AStore _root_.Unit := do
  let root ← Tr.ask sourceRoot
  (P.attach f i).run (srcTree.access root)

/-- `attach_target` (`store.rs:165-167,184-187`, `targets_…:191-193`). -/
def attachTargetA (P : Programs) (f i : Nat) : Tr AStore _root_.Unit := do
  let root ← Tr.ask targetRoot
  (P.attach f i).run (tgtTree.access root)

/-- `detach_source` (`store.rs:153-155,169-172`, `sources_…:187-189`). -/
def detachSourceA (P : Programs) (f i : Nat) : Tr AStore _root_.Unit := do
  let root ← Tr.ask sourceRoot
  (P.detach f i).run (srcTree.access root)

/-- `detach_target` (`store.rs:157-159,174-177`, `targets_…:187-189`). -/
def detachTargetA (P : Programs) (f i : Nat) : Tr AStore _root_.Unit := do
  let root ← Tr.ask targetRoot
  (P.detach f i).run (tgtTree.access root)

/-- `self.unused.detach` (`unused_links.rs:83-85`). -/
def unusedDetachA (P : Programs) (f i : Nat) : Tr AStore _root_.Unit := (P.listDetach f i).run unusedList.access

/-- `self.unused.attach_as_first` (`unused_links.rs:87-89`). -/
def unusedAttachFirstA (P : Programs) (f i : Nat) : Tr AStore _root_.Unit :=
  (P.listAttachFirst f i).run unusedList.access

/-! ### Store -/

/-- `self.mem.alloc(n)`: `none` if it fails. A successful call makes all pointers outdated: the memory may have moved. -/
def allocA (c : Cfg) (n : AStore → Nat) : Tr AStore (Option _root_.Unit) := fun a =>
  match c.alloc a.s.len (n a) with
  | none => ([], some (none, a))
  | some k =>
    let a' : AStore := ⟨{ a.s with len := k }, false, false, false, false⟩
    ([a'], some (some (), a'))

/-- `update_mem` (`store.rs:217-222`). The pointers are fields of the Rust structure, not of the memory: no image. -/
def updateMem : Tr AStore _root_.Unit := fun a =>
  let a := { a with main := true }
  let a := { a with tgt := true }
  let a := { a with src := true }
  let a := { a with unused := true }
  ([], some ((), a))

/-- Assignment to a field of the store's header. -/
def setHeader (f : Hdr → Hdr) : Tr AStore _root_.Unit := Tr.tell (AStore.modHeader .main f)

/-- `is_unused` (`store.rs:194-206`). -/
def isUnusedA (i : Nat) (a : AStore) : Option Bool :=
  (a.header .main).bind fun h =>
  if i ≤ h.allocated ∧ h.firstFree ≠ i then
    (a.get .main i).map fun p => p.sizeS == 0 && p.source != 0
  else some true

/-- `exists` (`store.rs:208-215`). -/
def existsA (c : Cfg) (i : Nat) (a : AStore) : Option Bool :=
  (a.header .main).bind fun h =>
  if c.consts.internalStart ≤ i ∧ i ≤ h.allocated then (isUnusedA i a).map not else some false

/-- `get_link` (`store.rs:560-567`) with `get_link_unchecked` (`store.rs:224-229`). -/
def getLinkA (c : Cfg) (i : Nat) (a : AStore) : Option (Option Link) :=
  (existsA c i a).bind fun e =>
    if e then (a.get .main i).map fun p => some ⟨i, p.source, p.target⟩ else some none

/-- `init` (`store.rs:81-95`), called by `with_constants` (`store.rs:48-79`) on a structure whose pointers are all
dangling. `none` = error of the allocator. -/
def initA (c : Cfg) : Tr AStore (Except Err _root_.Unit) := do
  match ← allocA c fun _ => c.page with
  | none => pure (.error .allocFailed)
  | some _ =>
    updateMem
    let header ← Tr.ask (AStore.header · .main)
    match ← allocA c fun _ => max c.step header.allocated with
    | none => pure (.error .allocFailed)
    | some _ =>
      updateMem
      let reserved ← Tr.ask fun a => some a.s.len
      let r ← Tr.ofOption (csub reserved 1)
      if r ≤ c.maxT then
        setHeader fun h => { h with reserved := r }
        pure (.ok ())
      else Tr.fail

/-- End of `create_links` when no free slot was available (`store.rs:453-455,459-462`). -/
def createTopA {σ : Type} (c : Cfg) (h : WH σ) (st : σ) : Tr AStore (Except Err Flow × σ) := do
  let header ← Tr.ask (AStore.header · .main)
  let free ← Tr.ofOption (cadd c.maxT header.allocated 1)
  setHeader fun h => { h with allocated := free }
  let r := h st Link.nothing ⟨free, 0, 0⟩
  pure (.ok r.1, r.2)

/-- `create_links` (`store.rs:429-463`). -/
def createLinksA {σ : Type} (c : Cfg) (P : Programs) (f : Nat) (h : WH σ) (st : σ) :
    Tr AStore (Except Err Flow × σ) := do
  let header ← Tr.ask (AStore.header · .main)
  if header.firstFree = c.consts.null then
    if c.consts.internalEnd ≤ header.allocated then pure (.error (.limitReached c.consts.internalEnd), st)
    else do
      let r1 ← Tr.ofOption (csub header.reserved 1)
      if r1 ≤ header.allocated then do
        match ← allocA c fun a => a.s.len + c.step with
        | none => pure (.error .allocFailed, st)
        | some _ =>
          updateMem
          let n ← Tr.ask fun a => some a.s.len
          if n ≤ c.maxT then
            setHeader fun h => { h with reserved := n }
            createTopA c h st
          else Tr.fail
      else createTopA c h st
  else do
    unusedDetachA P f header.firstFree
    let r := h st Link.nothing ⟨header.firstFree, 0, 0⟩
    pure (.ok r.1, r.2)

/-- The memory updates of `update_links` on an existing link (`store.rs:483-514`). -/
def relinkA (P : Programs) (f : Nat) (l : Link) (i source target : Nat) : Tr AStore _root_.Unit := do
  Tr.when (l.source ≠ 0) (detachSourceA P f i)
  Tr.when (l.target ≠ 0) (detachTargetA P f i)
  Tr.tell (AStore.mod .main i fun p => { p with source := source })
  Tr.tell (AStore.mod .main i fun p => { p with target := target })
  Tr.when (source ≠ 0) (attachSourceA P f i)
  Tr.when (target ≠ 0) (attachTargetA P f i)

/-- `update_links` (`store.rs:469-520`) with the query `[i]` and the change `[i, source, target]`. -/
def updateLinksA {σ : Type} (c : Cfg) (P : Programs) (f i source target : Nat) (h : WH σ) (st : σ) :
    Tr AStore (Except Err Flow × σ) := do
  match ← Tr.ask (getLinkA c i) with
  | none => pure (.error (.notExists i), st)
  | some l =>
    relinkA P f l i source target
    let r := h st ⟨i, source, target⟩ ⟨i, source, target⟩
    pure (.ok r.1, r.2)

/-- Loop of `delete_links` (`store.rs:540-547`). -/
def releaseTopA (P : Programs) (f : Nat) : Nat → Tr AStore _root_.Unit
  | 0 => Tr.fail
  | fuel + 1 => do
    let header ← Tr.ask (AStore.header · .main)
    if header.allocated = 0 then pure ()
    else do
      let u ← Tr.ask (isUnusedA header.allocated)
      if u then do
        unusedDetachA P f header.allocated
        setHeader fun h => { h with allocated := header.allocated - 1 }
        releaseTopA P f fuel
      else pure ()

/-- End of `delete_links` after the link was updated to the null pair (`store.rs:530-551`). -/
def dropA (P : Programs) (f i : Nat) : Tr AStore _root_.Unit := do
  let header ← Tr.ask (AStore.header · .main)
  if i < header.allocated then unusedAttachFirstA P f i
  else if i = header.allocated then do
    let a ← Tr.ofOption (csub header.allocated 1)
    setHeader fun h => { h with allocated := a }
    releaseTopA P f (header.allocated + 1)
  else Tr.fail

/-- `delete_links` (`store.rs:522-554`) with the query `[i]`. -/
def deleteLinksA {σ : Type} (c : Cfg) (P : Programs) (f i : Nat) (h : WH σ) (st : σ) :
    Tr AStore (Except Err Flow × σ) := do
  match ← Tr.ask (getLinkA c i) with
  | none => pure (.error (.notExists i), st)
  | some l =>
    let o ← updateLinksA c P f i 0 0 (fun (u : _root_.Unit) _ _ => (.cont, u)) ()
    match o.1 with
    | .error e => pure (.error e, st)
    | .ok _ => do
      dropA P f i
      let r := h st l Link.nothing
      pure (.ok r.1, r.2)

end Verif.Unit
