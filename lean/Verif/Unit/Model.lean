import Verif.TreeRead

/-!
# Model of the united store (`doublets/src/mem/unit`)
-/

namespace Verif.Unit
open Verif

/-- `LinkPart` (`doublets/src/mem/unit/raw_link.rs`), fields in memory order. -/
structure Cell where
  source : Nat := 0
  target : Nat := 0
  leftS : Nat := 0
  rightS : Nat := 0
  sizeS : Nat := 0
  leftT : Nat := 0
  rightT : Nat := 0
  sizeT : Nat := 0
deriving DecidableEq, Inhabited

/-- `LinksHeader` (`doublets/src/mem/header.rs`), fields in memory order. -/
structure Hdr where
  allocated : Nat := 0
  reserved : Nat := 0
  free : Nat := 0
  firstFree : Nat := 0
  rootS : Nat := 0
  rootT : Nat := 0
  lastFree : Nat := 0
  reserved8 : Nat := 0
deriving DecidableEq, Inhabited

/-- The header's bits read as a link part: the two structures have the same layout and slot 0 is
transmuted (`doublets/src/mem/unit/store.rs:113-129`). -/
def Hdr.asCell (h : Hdr) : Cell :=
  ⟨h.allocated, h.reserved, h.free, h.firstFree, h.rootS, h.rootT, h.lastFree, h.reserved8⟩

/-- Memory of a united store: `len` slots (`mem_ptr.len()`, equal to `mem.allocated()`), slot 0 is the
header, slot `i ≥ 1` is `cell i`. `cell` is total: it is the contents of the backing memory or file,
zero where nothing was ever written. Only slots below `len` may be accessed. -/
structure Store where
  hdr : Hdr := {}
  cell : Nat → Cell := fun _ => {}
  len : Nat := 0

/-- What a store is instantiated with: `LinksConstants`, `T::MAX`, `SIZE_STEP`
(`store.rs:39-42`), `DEFAULT_PAGE_SIZE`, the `RawMem` allocator (current length and requested length to
actual length, `none` = error) and the `trees` crate. -/
structure Cfg where
  consts : Consts
  maxT : Nat
  step : Nat
  page : Nat
  alloc : Nat → Nat → Option Nat
  trees : TreesCrate

/-- `mut_from_mem`/`get_from_mem` (`store.rs:97-111`) with the `expect`/`unwrap_unchecked` of
`get_link_part*` (`store.rs:131-143`) and the slice indexing of the trees: `none` = out of bounds. -/
def Store.get (s : Store) (i : Nat) : Option Cell :=
  if i < s.len then some (if i = 0 then s.hdr.asCell else s.cell i) else none

/-! ### Trees and free list -/

/-- What the sources tree reads of a slot (`sources_recursionless_size_balanced_tree.rs:32-93,225-227`). -/
def Store.srcNode (s : Store) (i : Nat) : Option Node :=
  (s.get i).map fun p => ⟨p.source, p.target, p.leftS, p.rightS, p.sizeS⟩

/-- What the targets tree reads of a slot (`targets_recursionless_size_balanced_tree.rs:32-93,225-227`). -/
def Store.tgtNode (s : Store) (i : Nat) : Option Node :=
  (s.get i).map fun p => ⟨p.source, p.target, p.leftT, p.rightT, p.sizeT⟩

/-- Sources tree `first_is_to_the_left_of_second_4` (`sources_recursionless_size_balanced_tree.rs:229-238`). -/
def srcLt4 (s1 t1 s2 t2 : Nat) : Bool := s1 < s2 || (s1 == s2 && t1 < t2)

/-- Sources tree `first_is_to_the_right_of_second_4` (`sources_recursionless_size_balanced_tree.rs:240-249`). -/
def srcGt4 (s1 t1 s2 t2 : Nat) : Bool := s1 > s2 || (s1 == s2 && t1 > t2)

/-- Targets tree `first_is_to_the_left_of_second_4` (`targets_recursionless_size_balanced_tree.rs:229-238`). -/
def tgtLt4 (s1 t1 s2 t2 : Nat) : Bool := t1 < t2 || (t1 == t2 && s1 < s2)

/-- Targets tree `first_is_to_the_right_of_second_4` (`targets_recursionless_size_balanced_tree.rs:240-249`). -/
def tgtGt4 (s1 t1 s2 t2 : Nat) : Bool := t1 > t2 || (t1 == t2 && s1 > s2)

/-- `first_is_to_the_left_of_second` and friends (`sources_recursionless_size_balanced_tree.rs:73-83`):
compare the links stored at two nodes. (Unchecked here; the invariant shows all nodes are in bounds.) -/
def Store.cmp (s : Store) (c4 : Nat → Nat → Nat → Nat → Bool) (a b : Nat) : Bool :=
  c4 (s.cell a).source (s.cell a).target (s.cell b).source (s.cell b).target

/-- Sources tree fields of all slots. -/
def Store.srcMem (s : Store) : TMem :=
  ⟨fun k => (s.cell k).leftS, fun k => (s.cell k).rightS, fun k => (s.cell k).sizeS⟩

/-- Targets tree fields of all slots. -/
def Store.tgtMem (s : Store) : TMem :=
  ⟨fun k => (s.cell k).leftT, fun k => (s.cell k).rightT, fun k => (s.cell k).sizeT⟩

/-- Memory after a sources tree operation: fields and root pointer replaced. -/
def Store.putSrc (s : Store) (m : TMem) (root : Nat) : Store :=
  { s with
    hdr := { s.hdr with rootS := root }
    cell := fun k => { s.cell k with leftS := m.left k, rightS := m.right k, sizeS := m.size k } }

/-- Memory after a targets tree operation. -/
def Store.putTgt (s : Store) (m : TMem) (root : Nat) : Store :=
  { s with
    hdr := { s.hdr with rootT := root }
    cell := fun k => { s.cell k with leftT := m.left k, rightT := m.right k, sizeT := m.size k } }

/-- `attach_source` (`store.rs:145-147,161-163,179-182`). -/
def attachSource (c : Cfg) (s : Store) (i : Nat) : Option Store :=
  (c.trees.treeAttach (s.cmp srcLt4) (s.cmp srcGt4) s.srcMem s.hdr.rootS i).map
    fun p => s.putSrc p.1 p.2

/-- `attach_target` (`store.rs:149-151,165-167,184-187`). -/
def attachTarget (c : Cfg) (s : Store) (i : Nat) : Option Store :=
  (c.trees.treeAttach (s.cmp tgtLt4) (s.cmp tgtGt4) s.tgtMem s.hdr.rootT i).map
    fun p => s.putTgt p.1 p.2

/-- `detach_source` (`store.rs:145-147,153-155,169-172`). -/
def detachSource (c : Cfg) (s : Store) (i : Nat) : Option Store :=
  (c.trees.treeDetach (s.cmp srcLt4) (s.cmp srcGt4) s.srcMem s.hdr.rootS i).map
    fun p => s.putSrc p.1 p.2

/-- `detach_target` (`store.rs:149-151,157-159,174-177`). -/
def detachTarget (c : Cfg) (s : Store) (i : Nat) : Option Store :=
  (c.trees.treeDetach (s.cmp tgtLt4) (s.cmp tgtGt4) s.tgtMem s.hdr.rootT i).map
    fun p => s.putTgt p.1 p.2

/-- What the list of unused links sees (`unit/generic/unused_links.rs:36-78`): previous and next are
stored in source and target, first/last/size in the header. -/
def Store.listMem (s : Store) : LMem :=
  ⟨fun k => (s.cell k).source, fun k => (s.cell k).target, s.hdr.firstFree, s.hdr.lastFree, s.hdr.free⟩

/-- Memory after a list operation. -/
def Store.putList (s : Store) (m : LMem) : Store :=
  { s with
    hdr := { s.hdr with firstFree := m.first, lastFree := m.last, free := m.size }
    cell := fun k => { s.cell k with source := m.prev k, target := m.next k } }

/-- `unused.detach` (`unused_links.rs:83-85`). -/
def unusedDetach (c : Cfg) (s : Store) (i : Nat) : Option Store :=
  (c.trees.listDetach s.listMem i).map s.putList

/-- `unused.attach_as_first` (`unused_links.rs:87-89`). -/
def unusedAttachFirst (c : Cfg) (s : Store) (i : Nat) : Option Store :=
  (c.trees.listAttachFirst s.listMem i).map s.putList

/-- `sources.search` (`sources_recursionless_size_balanced_tree.rs:159-181`). -/
def srcSearch (s : Store) (source target : Nat) : Option Nat :=
  searchLoop s.srcNode srcLt4 srcGt4 source target (s.len + 1) s.hdr.rootS

/-- `sources.count_usages` (`sources_recursionless_size_balanced_tree.rs:130-157`). -/
def srcCount (c : Cfg) (s : Store) (v : Nat) : Option Nat :=
  countUsages s.srcNode c.maxT Node.source (s.len + 1) s.hdr.rootS v

/-- `targets.count_usages` (`targets_recursionless_size_balanced_tree.rs:130-157`). -/
def tgtCount (c : Cfg) (s : Store) (v : Nat) : Option Nat :=
  countUsages s.tgtNode c.maxT Node.target (s.len + 1) s.hdr.rootT v

/-- `sources.each_usages` (`sources_recursionless_size_balanced_tree.rs:183-185`). -/
def srcEach {σ : Type} (s : Store) (v : Nat) (h : RH σ) (st : σ) : Option (Flow × σ) :=
  eachUsages s.srcNode Node.source v h (s.len + 1) s.hdr.rootS st

/-- `targets.each_usages` (`targets_recursionless_size_balanced_tree.rs:183-185`). -/
def tgtEach {σ : Type} (s : Store) (v : Nat) (h : RH σ) (st : σ) : Option (Flow × σ) :=
  eachUsages s.tgtNode Node.target v h (s.len + 1) s.hdr.rootT st

/-! ### Store -/

/-- `init` (`store.rs:81-95`). -/
def init (c : Cfg) (s : Store) : Option (Except Err Store) :=
  match c.alloc s.len c.page with
  | none => some (.error .allocFailed)
  | some n1 =>
    if n1 = 0 then none
    else
      let capacity := max c.step s.hdr.allocated
      match c.alloc n1 capacity with
      | none => some (.error .allocFailed)
      | some n2 =>
        (csub n2 1).bind fun r =>
          if r ≤ c.maxT then
            some (.ok { s with len := n2, hdr := { s.hdr with reserved := r } })
          else none

/-- `get_total` (`store.rs:189-192`). -/
def getTotal (s : Store) : Option Nat := csub s.hdr.allocated s.hdr.free

/-- `is_unused` (`store.rs:194-206`). -/
def isUnused (s : Store) (i : Nat) : Option Bool :=
  if i ≤ s.hdr.allocated ∧ s.hdr.firstFree ≠ i then
    (s.get i).map fun p => p.sizeS == 0 && p.source != 0
  else some true

/-- `exists` (`store.rs:208-215`). -/
def exists? (c : Cfg) (s : Store) (i : Nat) : Option Bool :=
  if c.consts.internalStart ≤ i ∧ i ≤ s.hdr.allocated then (isUnused s i).map not else some false

/-- `get_link_unchecked` (`store.rs:224-229`). -/
def getLinkUnchecked (s : Store) (i : Nat) : Option Link :=
  (s.get i).map fun p => ⟨i, p.source, p.target⟩

/-- `get_link` (`store.rs:560-567`). Outer `none`: memory error; inner: the Rust `Option`. -/
def getLink (c : Cfg) (s : Store) (i : Nat) : Option (Option Link) :=
  (exists? c s i).bind fun e => if e then (getLinkUnchecked s i).map some else some none

/-- Loop of `each_core` for the empty query (`store.rs:234-241`), over the remaining indices. -/
def eachIdx {σ : Type} (c : Cfg) (s : Store) (h : RH σ) : List Nat → σ → Option (Flow × σ)
  | [], st => some (.cont, st)
  | i :: is, st =>
    match getLink c s i with
    | none => none
    | some none => eachIdx c s h is st
    | some (some l) => andThen (some (h st l)) fun st' => eachIdx c s h is st'

/-- `each_core` with the empty query (`store.rs:234-241`): indices `1..=allocated`. -/
def eachAll {σ : Type} (c : Cfg) (s : Store) (h : RH σ) (st : σ) : Option (Flow × σ) :=
  eachIdx c s h (List.range' 1 s.hdr.allocated) st

/-- `handler(link)` if the condition holds, else `Flow::Continue`. -/
def callIf {σ : Type} (b : Bool) (h : RH σ) (l : Link) (st : σ) : Flow × σ :=
  if b then h st l else (.cont, st)

/-- `each_core`, query of length three (`store.rs:276-317`). -/
def each3 {σ : Type} (c : Cfg) (s : Store) (index source target : Nat) (h : RH σ) (st : σ) :
    Option (Flow × σ) :=
  let any := c.consts.any
  if index = any then
    if source = any ∧ target = any then eachAll c s h st
    else if source = any then tgtEach s target h st
    else if target = any then srcEach s source h st
    else
      (srcSearch s source target).bind fun link =>
      (getLink c s link).map fun
        | none => (.cont, st)
        | some l => h st l
  else
    (getLink c s index).map fun
      | none => (.cont, st)
      | some l =>
        if target = any ∧ source = any then h st l
        else if target ≠ any ∧ source ≠ any then
          callIf (source = l.source ∧ target = l.target) h l st
        else if source = any then callIf (l.target = target) h l st
        else if target = any then callIf (l.source = source) h l st
        else (.cont, st)

/-- `each_core` (`store.rs:231-320`) and `each_links` (`store.rs:465-467`). The recursive calls with
the literal queries of length 0 and 3 are calls to `eachAll` and `each3`; for length 3 this takes the positions
of index, source and target to be 0, 1, 2 (the code reads the literal through `index_part`, `source_part`, `target_part`). A query longer than three
reaches `todo!()`. `query[k]` is bounds checked. -/
def eachLinks {σ : Type} (c : Cfg) (s : Store) (q : List Nat) (h : RH σ) (st : σ) :
    Option (Flow × σ) :=
  let any := c.consts.any
  if q.length = 0 then eachAll c s h st
  else
    q[c.consts.indexPart]?.bind fun index =>
    if q.length = 1 then
      if index = any then eachAll c s h st
      else
        (getLink c s index).map fun
          | none => (.cont, st)
          | some l => h st l
    else if q.length = 2 then
      q[1]?.bind fun value =>
      if index = any then
        if value = any then eachAll c s h st
        else
          andThen (each3 c s index value any h st) fun st' => each3 c s index any value h st'
      else
        (getLink c s index).map fun
          | none => (.cont, st)
          | some l => callIf (value = any ∨ l.source = value ∨ l.target = value) h l st
    else if q.length = 3 then
      q[c.consts.sourcePart]?.bind fun source =>
      q[c.consts.targetPart]?.bind fun target =>
      each3 c s index source target h st
    else none

/-- `T::funty(1)` if the condition holds, else `T::funty(0)`. -/
def oneIf (b : Bool) : Nat := if b then 1 else 0

/-- `count_links`, query of length three (`store.rs:378-424`). -/
def count3 (c : Cfg) (s : Store) (index source target : Nat) : Option Nat :=
  let any := c.consts.any
  if index = any then
    if target = any ∧ source = any then getTotal s
    else if source = any then tgtCount c s target
    else if target = any then srcCount c s source
    else (srcSearch s source target).map fun link => if link = c.consts.null then 0 else 1
  else
    (exists? c s index).bind fun e =>
    if !e then some 0
    else if source = any ∧ target = any then some 1
    else
      (getLinkUnchecked s index).map fun l =>
        if source ≠ any ∧ target ≠ any then oneIf (l.source = source ∧ l.target = target)
        else if source = any then oneIf (l.target = target)
        else if target = any then oneIf (l.source = source)
        else 0

/-- `count_links` (`store.rs:330-427`). -/
def countLinks (c : Cfg) (s : Store) (q : List Nat) : Option Nat :=
  let any := c.consts.any
  if q.length = 0 then getTotal s
  else
    q[c.consts.indexPart]?.bind fun index =>
    if q.length = 1 then
      if index = any then getTotal s else (exists? c s index).map oneIf
    else if q.length = 2 then
      q[1]?.bind fun value =>
      if index = any then
        if value = any then getTotal s
        else
          (tgtCount c s value).bind fun a => (srcCount c s value).bind fun b => cadd c.maxT a b
      else
        (exists? c s index).bind fun e =>
        if !e then some 0
        else if value = any then some 1
        else
          (getLink c s index).map fun
            | none => 0
            | some l => oneIf (l.source = value ∨ l.target = value)
    else if q.length = 3 then
      q[c.consts.sourcePart]?.bind fun source =>
      q[c.consts.targetPart]?.bind fun target =>
      count3 c s index source target
    else none

/-- End of `create_links` when no free slot was available (`store.rs:453-455,459-462`). -/
def createTop {σ : Type} (c : Cfg) (s : Store) (h : WH σ) (st : σ) : Option (Out Store σ Flow) :=
  (cadd c.maxT s.hdr.allocated 1).map fun a =>
    let r := h st Link.nothing ⟨a, 0, 0⟩
    ⟨.ok r.1, { s with hdr := { s.hdr with allocated := a } }, r.2⟩

/-- `create_links` (`store.rs:429-463`). The query is ignored. -/
def createLinks {σ : Type} (c : Cfg) (s : Store) (_q : List Nat) (h : WH σ) (st : σ) :
    Option (Out Store σ Flow) :=
  let free := s.hdr.firstFree
  if free = c.consts.null then
    if c.consts.internalEnd ≤ s.hdr.allocated then
      some ⟨.error (.limitReached c.consts.internalEnd), s, st⟩
    else
      (csub s.hdr.reserved 1).bind fun r1 =>
      if r1 ≤ s.hdr.allocated then
        match c.alloc s.len (s.len + c.step) with
        | none => some ⟨.error .allocFailed, s, st⟩
        | some n =>
          if n ≤ c.maxT then
            createTop c { s with len := n, hdr := { s.hdr with reserved := n } } h st
          else none
      else createTop c s h st
  else
    (unusedDetach c s free).map fun s' =>
      let r := h st Link.nothing ⟨free, 0, 0⟩
      ⟨.ok r.1, s', r.2⟩

/-- Write of source and target (`store.rs:498-500`): `mut_link_part(index)` is bounds checked.
`index` is never 0 here because it exists. -/
def setPair (s : Store) (i source target : Nat) : Option Store :=
  if i < s.len then
    some { s with
      cell := fun k => if k = i then { s.cell k with source := source, target := target } else s.cell k }
  else none

/-- `if c { x = f(x) }` for a step that may fail. -/
def whenM {α : Type} (b : Bool) (f : α → Option α) (x : α) : Option α := if b then f x else some x

/-- The memory updates of `update_links` on an existing link (`store.rs:483-514`). -/
def relink (c : Cfg) (s : Store) (l : Link) (i source target : Nat) : Option Store :=
  (whenM (l.source ≠ 0) (detachSource c · i) s).bind fun s1 =>
  (whenM (l.target ≠ 0) (detachTarget c · i) s1).bind fun s2 =>
  (setPair s2 i source target).bind fun s3 =>
  (whenM (source ≠ 0) (attachSource c · i) s3).bind fun s4 =>
  whenM (target ≠ 0) (attachTarget c · i) s4

/-- `update_links` (`store.rs:469-520`). The "before" link passed to the handler is built from
`old_source = source`, `old_target = target` (`store.rs:478-479`), i.e. from the new values. -/
def updateLinks {σ : Type} (c : Cfg) (s : Store) (q change : List Nat) (h : WH σ) (st : σ) :
    Option (Out Store σ Flow) :=
  q[0]?.bind fun index =>
  change[1]?.bind fun source =>
  change[2]?.bind fun target =>
  let oldSource := source
  let oldTarget := target
  (getLink c s index).bind fun
    | none => some ⟨.error (.notExists index), s, st⟩
    | some l =>
      (relink c s l index source target).map fun s' =>
        let r := h st ⟨index, oldSource, oldTarget⟩ ⟨index, source, target⟩
        ⟨.ok r.1, s', r.2⟩

/-- Loop of `delete_links` (`store.rs:540-547`): release unused slots at the end. The fuel is exact:
each round lowers `allocated` by one. -/
def releaseTop (c : Cfg) : Nat → Store → Option Store
  | 0, _ => none
  | fuel + 1, s =>
    let a := s.hdr.allocated
    if a = 0 then some s
    else
      (isUnused s a).bind fun u =>
      if u then
        (unusedDetach c s a).bind fun s' =>
        releaseTop c fuel { s' with hdr := { s'.hdr with allocated := a - 1 } }
      else some s

/-- `delete_links` (`store.rs:522-554`). `self.update(index, 0, 0)?` is the default method
`update` (`data/traits.rs:191-196`), which calls `update_links` with a handler that continues. -/
def deleteLinks {σ : Type} (c : Cfg) (s : Store) (q : List Nat) (h : WH σ) (st : σ) :
    Option (Out Store σ Flow) :=
  q[0]?.bind fun index =>
  (getLink c s index).bind fun
    | none => some ⟨.error (.notExists index), s, st⟩
    | some l =>
      (updateLinks c s [index] [index, 0, 0] (fun (u : Unit) _ _ => (.cont, u)) ()).bind fun o =>
      match o.res with
      | .error e => some ⟨.error e, o.st, st⟩
      | .ok _ =>
        let s1 := o.st
        (if index < s1.hdr.allocated then unusedAttachFirst c s1 index
         else if index = s1.hdr.allocated then
          (csub s1.hdr.allocated 1).bind fun a =>
            releaseTop c (s1.hdr.allocated + 1) { s1 with hdr := { s1.hdr with allocated := a } }
         else none).map fun s2 =>
          let r := h st l Link.nothing
          ⟨.ok r.1, s2, r.2⟩

end Verif.Unit
