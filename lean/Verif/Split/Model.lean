import Verif.Unit.Model
import Verif.Doublets

/-!
# Model of the split store (`doublets/src/mem/split`)

Source/target data and the search indexes live in two memories. A link whose source is a link of the store is
in that link's own ("internal") sources tree; if the source does not exist it is in the one
"external" sources tree whose root is in the header. The same holds for targets. Line numbers without
a file name refer to `doublets/src/mem/split/store.rs`.
-/

namespace Verif.Split
open Verif
open Verif.Unit (Hdr oneIf callIf srcLt4 srcGt4 tgtLt4 tgtGt4)

/-- `IndexPart` (`doublets/src/mem/split/index_part.rs:5-15`), fields in memory order. -/
structure IPart where
  rootS : Nat := 0
  leftS : Nat := 0
  rightS : Nat := 0
  sizeS : Nat := 0
  rootT : Nat := 0
  leftT : Nat := 0
  rightT : Nat := 0
  sizeT : Nat := 0
deriving DecidableEq, Inhabited

/-- The header's bits read as an index part: index slot 0 is transmuted (`store.rs:131-147`). -/
def asPart (h : Hdr) : IPart :=
  ⟨h.allocated, h.reserved, h.free, h.firstFree, h.rootS, h.rootT, h.lastFree, h.reserved8⟩

/-- Memory of a split store. `data i` is data slot `i` (`DataPart`, `data_part.rs`: source, target);
index slot 0 is the header, index slot `i ≥ 1` is `idx i`. `dlen`/`ilen` are `data_mem.allocated()` and
`index_mem.allocated()`. `stale` records that `data_mem` was reallocated but `data_ptr` was not
refreshed (`store.rs:706-714`: the second `?` returns before `update_mem`): the pointer may dangle. -/
structure Store where
  hdr : Hdr := {}
  idx : Nat → IPart := fun _ => {}
  data : Nat → Nat × Nat := fun _ => (0, 0)
  dlen : Nat := 0
  ilen : Nat := 0
  stale : Bool := false

/-- What a store is instantiated with: `LinksConstants`, `T::MAX`, `SIZE_STEP` (`store.rs:60-63`, used for
both steps), `DEFAULT_PAGE_SIZE`, the two `RawMem` allocators and the `trees` crate. -/
structure Cfg where
  consts : Consts
  maxT : Nat
  step : Nat
  page : Nat
  dalloc : Nat → Nat → Option Nat
  ialloc : Nat → Nat → Option Nat
  trees : TreesCrate

/-- `get_data_part`, `get_data_unchecked`, `mut_data_part` (`store.rs:115-129,149-161`): `none` = out of
bounds, or access through a dangling pointer. -/
def Store.getD (s : Store) (i : Nat) : Option (Nat × Nat) :=
  if s.stale = false ∧ i < s.dlen then some (s.data i) else none

/-- `get_index_part`, `mut_index_part`, `get_header` (`store.rs:131-147,163-171`). -/
def Store.getI (s : Store) (i : Nat) : Option IPart :=
  if i < s.ilen then some (if i = 0 then asPart s.hdr else s.idx i) else none

/-! ### Trees and free list -/

/-- Selects between the sources and the targets instance of the mirrored code. -/
inductive Side where
  | src
  | tgt
deriving DecidableEq

/-- The other side. -/
def Side.flip : Side → Side
  | .src => .tgt
  | .tgt => .src

/-- The end of a pair on a side: `get_base_part` of the internal and external trees
(`internal_sources_recursion_less_tree.rs:166-168`, `internal_targets_…:173-175`,
`external_sources_…:242-244`, `external_targets_…:240-242`). -/
def endOf : Side → Nat × Nat → Nat
  | .src, p => p.1
  | .tgt, p => p.2

/-- `get_key_part` of the internal trees (`internal_sources_…:170-172`, `internal_targets_…:177-179`). -/
def keyOf : Side → Nat × Nat → Nat
  | .src, p => p.2
  | .tgt, p => p.1

/-- Node fields of one side in an index part (accessors of `SzbTree`, e.g.
`internal_sources_…:37-75`, `internal_targets_…:37-75`; the external trees use the same fields). -/
def nodeOf : Side → IPart → Nat × Nat × Nat
  | .src, p => (p.leftS, p.rightS, p.sizeS)
  | .tgt, p => (p.leftT, p.rightT, p.sizeT)

/-- `get_tree_root(link)` of the internal trees (`internal_sources_…:162-164`,
`internal_targets_…:169-171`): the field of the index part. -/
def rootOf : Side → IPart → Nat
  | .src, p => p.rootS
  | .tgt, p => p.rootT

/-- `get_tree_root()` of the external trees (`external_sources_…:238-240`,
`external_targets_…:236-238`): the field of the header. -/
def hrootOf : Side → Hdr → Nat
  | .src, h => h.rootS
  | .tgt, h => h.rootT

/-- `first_is_to_the_left_of_second_4` of the external trees (`external_sources_…:246-255`,
`external_targets_…:244-253`): the same text as in the united store. -/
def lt4 : Side → Nat → Nat → Nat → Nat → Bool
  | .src => srcLt4
  | .tgt => tgtLt4

/-- `first_is_to_the_right_of_second_4` (`external_sources_…:257-266`, `external_targets_…:255-264`). -/
def gt4 : Side → Nat → Nat → Nat → Nat → Bool
  | .src => srcGt4
  | .tgt => tgtGt4

/-- External trees: compare the links stored at two nodes (`external_sources_…:79-99`). -/
def Store.cmpE (s : Store) (c4 : Nat → Nat → Nat → Nat → Bool) (a b : Nat) : Bool :=
  c4 (s.data a).1 (s.data a).2 (s.data b).1 (s.data b).2

/-- Internal trees `first_is_to_the_left_of_second` (`internal_sources_…:77-79`). -/
def Store.ltI (s : Store) (d : Side) (a b : Nat) : Bool := keyOf d (s.data a) < keyOf d (s.data b)

/-- Internal trees `first_is_to_the_right_of_second` (`internal_sources_…:81-83`). -/
def Store.gtI (s : Store) (d : Side) (a b : Nat) : Bool := keyOf d (s.data a) > keyOf d (s.data b)

/-- Tree fields of one side of all slots. -/
def Store.tmem (s : Store) (d : Side) : TMem :=
  ⟨fun k => (nodeOf d (s.idx k)).1, fun k => (nodeOf d (s.idx k)).2.1, fun k => (nodeOf d (s.idx k)).2.2⟩

/-- An index part with the node fields of one side replaced. -/
def setNode : Side → IPart → Nat → Nat → Nat → IPart
  | .src, p, l, r, z => { p with leftS := l, rightS := r, sizeS := z }
  | .tgt, p, l, r, z => { p with leftT := l, rightT := r, sizeT := z }

/-- An index part with the root of one side replaced. -/
def setRoot : Side → IPart → Nat → IPart
  | .src, p, r => { p with rootS := r }
  | .tgt, p, r => { p with rootT := r }

/-- The header with the root of one side replaced. -/
def setHroot : Side → Hdr → Nat → Hdr
  | .src, h, r => { h with rootS := r }
  | .tgt, h, r => { h with rootT := r }

/-- Memory after a tree operation, node fields only. -/
def Store.putNodes (s : Store) (d : Side) (m : TMem) : Store :=
  { s with idx := fun k => setNode d (s.idx k) (m.left k) (m.right k) (m.size k) }

/-- Memory after an operation on the internal tree of link `a`. -/
def Store.putInt (s : Store) (d : Side) (a : Nat) (m : TMem) (r : Nat) : Store :=
  let s' := s.putNodes d m
  { s' with idx := fun k => if k = a then setRoot d (s'.idx k) r else s'.idx k }

/-- Memory after an operation on an external tree. -/
def Store.putExt (s : Store) (d : Side) (m : TMem) (r : Nat) : Store :=
  let s' := s.putNodes d m
  { s' with hdr := setHroot d s'.hdr r }

/-- `attach_internal_source`/`attach_internal_target` (`store.rs:181-203,231-239`). `mut_index_part` is bounds
checked. `a` is never 0: it is a link that is not virtual or, in `create_links`, a new link. -/
def attachInt (c : Cfg) (d : Side) (s : Store) (a i : Nat) : Option Store :=
  if a < s.ilen then
    (c.trees.treeAttach (s.ltI d) (s.gtI d) (s.tmem d) (rootOf d (s.idx a)) i).map
      fun p => s.putInt d a p.1 p.2
  else none

/-- `detach_internal_source`/`detach_internal_target` (`store.rs:181-195,221-229`). -/
def detachInt (c : Cfg) (d : Side) (s : Store) (a i : Nat) : Option Store :=
  if a < s.ilen then
    (c.trees.treeDetach (s.ltI d) (s.gtI d) (s.tmem d) (rootOf d (s.idx a)) i).map
      fun p => s.putInt d a p.1 p.2
  else none

/-- `attach_external_source`/`attach_external_target` (`store.rs:173-179,213-219,251-259`). -/
def attachExt (c : Cfg) (d : Side) (s : Store) (i : Nat) : Option Store :=
  (c.trees.treeAttach (s.cmpE (lt4 d)) (s.cmpE (gt4 d)) (s.tmem d) (hrootOf d s.hdr) i).map
    fun p => s.putExt d p.1 p.2

/-- `detach_external_source`/`detach_external_target` (`store.rs:173-179,205-211,241-249`). -/
def detachExt (c : Cfg) (d : Side) (s : Store) (i : Nat) : Option Store :=
  (c.trees.treeDetach (s.cmpE (lt4 d)) (s.cmpE (gt4 d)) (s.tmem d) (hrootOf d s.hdr) i).map
    fun p => s.putExt d p.1 p.2

/-- What the list of unused links sees (`split/generic/unused_links.rs:38-80`): previous and next are
the source and target of the data part. -/
def Store.listMem (s : Store) : LMem :=
  ⟨fun k => (s.data k).1, fun k => (s.data k).2, s.hdr.firstFree, s.hdr.lastFree, s.hdr.free⟩

/-- Memory after a list operation. -/
def Store.putList (s : Store) (m : LMem) : Store :=
  { s with
    hdr := { s.hdr with firstFree := m.first, lastFree := m.last, free := m.size }
    data := fun k => (m.prev k, m.next k) }

/-- `unused.detach` (`unused_links.rs:92-94`). -/
def unusedDetach (c : Cfg) (s : Store) (i : Nat) : Option Store :=
  if s.stale then none else (c.trees.listDetach s.listMem i).map s.putList

/-- `unused.attach_as_first` (`unused_links.rs:96-98`). -/
def unusedAttachFirst (c : Cfg) (s : Store) (i : Nat) : Option Store :=
  if s.stale then none else (c.trees.listAttachFirst s.listMem i).map s.putList

/-- What a tree reads of a slot. (The external `count_usages` reads only the index part of its first node;
reading the data part too makes the model fail on a dangling pointer where the code does not.) -/
def Store.node (s : Store) (d : Side) (i : Nat) : Option Node :=
  (s.getD i).bind fun p => (s.getI i).map fun x =>
    ⟨p.1, p.2, (nodeOf d x).1, (nodeOf d x).2.1, (nodeOf d x).2.2⟩

/-- The pair held by a node. -/
def _root_.Verif.Node.pair (nd : Node) : Nat × Nat := (nd.source, nd.target)

/-- Internal trees `search_core` (`internal_recursion_less_base.rs:57-71`). -/
def searchKey (get : Nat → Option Node) (key : Node → Nat) (x : Nat) : Nat → Nat → Option Nat
  | 0, _ => none
  | fuel + 1, root =>
    if root = 0 then some 0
    else
      match get root with
      | none => none
      | some nd =>
        if x < key nd then searchKey get key x fuel nd.left
        else if x > key nd then searchKey get key x fuel nd.right
        else some root

/-- Internal sources tree `each_usages_core` (`internal_sources_…:95-110`): the whole tree, in order. -/
def eachInorder {σ : Type} (get : Nat → Option Node) (h : RH σ) : Nat → Nat → σ → Option (Flow × σ)
  | 0, _, _ => none
  | fuel + 1, link, s =>
    if link = 0 then some (.cont, s)
    else
      match get link with
      | none => none
      | some nd =>
        andThen (eachInorder get h fuel nd.left s) fun s1 =>
        andThen (some (h s1 ⟨link, nd.source, nd.target⟩)) fun s2 =>
        eachInorder get h fuel nd.right s2

/-- `get_tree_root(link)` of the internal trees: a bounds-checked read of the index part. For link 0 this
reads the header: its `allocated` as a sources root, its external sources root as a targets root. -/
def Store.iroot (s : Store) (d : Side) (a : Nat) : Option Nat := (s.getI a).map (rootOf d)

/-- `internal_sources.search`, `internal_targets.search` (`internal_sources_…:117-119`,
`internal_targets_…:124-126`): in the tree of the end on side `d` look for the other end. -/
def intSearch (s : Store) (d : Side) (source target : Nat) : Option Nat :=
  (s.iroot d (endOf d (source, target))).bind
    (searchKey (s.node d) (fun nd => keyOf d nd.pair) (keyOf d (source, target)) (s.ilen + 1))

/-- `count_usages` of the internal trees (`internal_recursion_less_base.rs:73-75`). -/
def intCount (s : Store) (d : Side) (v : Nat) : Option Nat :=
  (s.iroot d v).bind (sizeOrZero (s.node d))

/-- `each_usages` of the internal trees (`internal_sources_…:121-123`: in order, no comparison;
`internal_targets_…:95-117,128-130`: node first, with comparisons). -/
def intEach {σ : Type} (s : Store) (d : Side) (v : Nat) (h : RH σ) (st : σ) : Option (Flow × σ) :=
  (s.iroot d v).bind fun r =>
  match d with
  | .src => eachInorder (s.node .src) h (s.ilen + 1) r st
  | .tgt => eachUsages (s.node .tgt) Node.target v h (s.ilen + 1) r st

/-- `external_sources.search` (`external_sources_…:165-187`). -/
def extSearch (s : Store) (source target : Nat) : Option Nat :=
  searchLoop (s.node .src) srcLt4 srcGt4 source target (s.ilen + 1) s.hdr.rootS

/-- `count_usages` of the external trees (`external_sources_…:136-163`, `external_targets_…:134-161`). For an
empty tree the total is read from slot 0, i.e. from the header. -/
def extCount (c : Cfg) (s : Store) (d : Side) (v : Nat) : Option Nat :=
  countUsages (s.node d) c.maxT (fun nd => endOf d nd.pair) (s.ilen + 1) (hrootOf d s.hdr) v

/-- `each_usages` of the external trees (`external_sources_…:111-133,189-191`,
`external_targets_…:109-131,187-189`). -/
def extEach {σ : Type} (s : Store) (d : Side) (v : Nat) (h : RH σ) (st : σ) : Option (Flow × σ) :=
  eachUsages (s.node d) (fun nd => endOf d nd.pair) v h (s.ilen + 1) (hrootOf d s.hdr) st

/-! ### Store -/

/-- `align` (`store.rs:273-281`). Division by zero does not occur: the step is a positive constant. -/
def align (n step : Nat) : Nat := if n % step ≠ 0 then n / step * step + step else n

/-- `init` (`store.rs:283-308`). `update_mem` is done after both allocations. -/
def init (c : Cfg) (s : Store) : Option (Except Err Store) :=
  match c.dalloc s.dlen c.page with
  | none => some (.error .allocFailed)
  | some d1 =>
    match c.ialloc s.ilen c.page with
    | none => some (.error .allocFailed)
    | some i1 =>
      if i1 = 0 then none
      else
        let dcap := align (max (max s.hdr.allocated d1) c.step) c.step
        let icap := align (max (max s.hdr.allocated i1) c.step) c.step
        match c.dalloc d1 dcap with
        | none => some (.error .allocFailed)
        | some d2 =>
          match c.ialloc i1 icap with
          | none => some (.error .allocFailed)
          | some i2 =>
            (csub d2 1).bind fun r =>
            if i2 = 0 then none
            else if r ≤ c.maxT then
              some (.ok { s with dlen := d2, ilen := i2, stale := false,
                                 hdr := { s.hdr with reserved := r } })
            else none

/-- `total` (`store.rs:310-313`). -/
def total (s : Store) : Option Nat := csub s.hdr.allocated s.hdr.free

/-- `is_unused` (`store.rs:315-325`) and `is_virtual` (`store.rs:329-331`). -/
def isUnused (s : Store) (i : Nat) : Option Bool :=
  if i ≤ s.hdr.allocated ∧ s.hdr.firstFree ≠ i then
    (s.getI i).bind fun p => (s.getD i).map fun x => p.sizeT == 0 && x.1 != 0
  else some true

/-- `exists` (`store.rs:333-342`). -/
def exists? (c : Cfg) (s : Store) (i : Nat) : Option Bool :=
  if c.consts.internalStart ≤ i ∧ i ≤ s.hdr.allocated then (isUnused s i).map not else some false

/-- `get_link_unchecked` (`store.rs:345-350`). -/
def getLinkUnchecked (s : Store) (i : Nat) : Option Link := (s.getD i).map fun p => ⟨i, p.1, p.2⟩

/-- `get_link` (`store.rs:863-869`). -/
def getLink (c : Cfg) (s : Store) (i : Nat) : Option (Option Link) :=
  (exists? c s i).bind fun e => if e then (getLinkUnchecked s i).map some else some none

/-- Loop of `try_each_by_core` for the empty query (`store.rs:355-362`). -/
def eachIdx {σ : Type} (c : Cfg) (s : Store) (h : RH σ) : List Nat → σ → Option (Flow × σ)
  | [], st => some (.cont, st)
  | i :: is, st =>
    match getLink c s i with
    | none => none
    | some none => eachIdx c s h is st
    | some (some l) => andThen (some (h st l)) fun st' => eachIdx c s h is st'

/-- `try_each_by_core` with the empty query (`store.rs:355-362`). -/
def eachAll {σ : Type} (c : Cfg) (s : Store) (h : RH σ) (st : σ) : Option (Flow × σ) :=
  eachIdx c s h (List.range' 1 s.hdr.allocated) st

/-- The choice of tree for a (source, target) lookup (`store.rs:421-447` and `store.rs:625-651`, the same
text; `USE_LIST` is `false`). -/
def pairSearch (s : Store) (vs vt : Bool) (source target : Nat) : Option Nat :=
  if vs && vt then extSearch s source target
  else if vs then intSearch s .tgt source target
  else if vt then intSearch s .src source target
  else
    (intCount s .src source).bind fun a =>
    (intCount s .tgt target).bind fun b =>
    if a > b then intSearch s .tgt source target else intSearch s .src source target

/-- `try_each_by_core`, query of length three (`store.rs:397-483`). A search result without a link is
undefined behaviour (`unwrap_unchecked`, `store.rs:452`). -/
def each3 {σ : Type} (c : Cfg) (s : Store) (index source target : Nat) (h : RH σ) (st : σ) :
    Option (Flow × σ) :=
  let any := c.consts.any
  (isUnused s source).bind fun vs =>
  (isUnused s target).bind fun vt =>
  if index = any then
    if source = any ∧ target = any then eachAll c s h st
    else if source = any then if vt then extEach s .tgt target h st else intEach s .tgt target h st
    else if target = any then if vs then extEach s .src source h st else intEach s .src source h st
    else
      (pairSearch s vs vt source target).bind fun link =>
      if link = c.consts.null then some (.cont, st)
      else
        (getLink c s link).bind fun
          | none => none
          | some l => some (h st l)
  else
    (getLink c s index).map fun
      | none => (.cont, st)
      | some l =>
        if source = any ∧ target = any then h st l
        else if source ≠ any ∧ target ≠ any then
          callIf (l.source = source ∧ l.target = target) h l st
        else if source = any then callIf (l.target = target) h l st
        else if target = any then callIf (l.source = source) h l st
        else (.cont, st)

/-- `try_each_by_core` (`store.rs:352-485`) and `each_links` (`store.rs:736-738`). The recursive calls with literal queries are as in
the united store. -/
def eachLinks {σ : Type} (c : Cfg) (s : Store) (q : List Nat) (h : RH σ) (st : σ) :
    Option (Flow × σ) :=
  let any := c.consts.any
  if q.length = 0 then eachAll c s h st
  else
    q[c.consts.indexPart]?.bind fun index =>
    if q.length = 1 then
      if index = any then eachAll c s h st
      else
        (getLink c s index).map fun
          | none => (.cont, st)
          | some l => h st l
    else if q.length = 2 then
      q[1]?.bind fun value =>
      if index = any then
        if value = any then eachAll c s h st
        else
          andThen (each3 c s index value any h st) fun st' => each3 c s index any value h st'
      else
        (getLink c s index).map fun
          | none => (.cont, st)
          | some l => callIf (value = any ∨ l.source = value ∨ l.target = value) h l st
    else if q.length = 3 then
      q[c.consts.sourcePart]?.bind fun source =>
      q[c.consts.targetPart]?.bind fun target =>
      each3 c s index source target h st
    else none

/-- `count_links`, query of length three (`store.rs:600-686`). The test for a virtual source comes before
the test `target == any` (`store.rs:616-618`). -/
def count3 (c : Cfg) (s : Store) (index source target : Nat) : Option Nat :=
  let any := c.consts.any
  (isUnused s source).bind fun vs =>
  (isUnused s target).bind fun vt =>
  if index = any then
    if source = any ∧ target = any then total s
    else if source = any then if vt then extCount c s .tgt target else intCount s .tgt target
    else if vs then extCount c s .src source
    else if target = any then intCount s .src source
    else
      (pairSearch s vs vt source target).map fun link => if link = c.consts.null then 0 else 1
  else
    (exists? c s index).bind fun e =>
    if !e then some 0
    else if source = any ∧ target = any then some 1
    else
      (getLinkUnchecked s index).map fun l =>
        if source ≠ any ∧ target ≠ any then oneIf (l.source = source ∧ l.target = target)
        else if source = any then oneIf (l.target = target)
        else if target = any then oneIf (l.source = source)
        else 0

/-- `count_links` (`store.rs:551-689`). With an index and a value both ends must equal the value
(`store.rs:590-597`). -/
def countLinks (c : Cfg) (s : Store) (q : List Nat) : Option Nat :=
  let any := c.consts.any
  if q.length = 0 then total s
  else
    q[c.consts.indexPart]?.bind fun index =>
    if q.length = 1 then
      if index = any then total s else (exists? c s index).map oneIf
    else if q.length = 2 then
      q[1]?.bind fun value =>
      (isUnused s value).bind fun vv =>
      if index = any then
        if value = any then total s
        else if vv then
          (extCount c s .src value).bind fun a => (extCount c s .tgt value).bind fun b => cadd c.maxT a b
        else
          (intCount s .src value).bind fun a => (intCount s .tgt value).bind fun b => cadd c.maxT a b
      else
        (exists? c s index).bind fun e =>
        if !e then some 0
        else if value = any then some 1
        else (s.getD index).map fun p => oneIf (p.1 = value ∧ p.2 = value)
    else if q.length = 3 then
      q[c.consts.sourcePart]?.bind fun source =>
      q[c.consts.targetPart]?.bind fun target =>
      count3 c s index source target
    else none

/-- `each_iter(query)` (`data/traits.rs:659-669`) on the split store: count for the capacity, collect. -/
def eachIter (c : Cfg) (s : Store) (q : List Nat) : Option (List Link) :=
  (countLinks c s q).bind fun _ =>
  (eachLinks c s q (fun (acc : List Link) l => (.cont, acc ++ [l])) []).map (·.2)

/-- The query `[any, v, any]` or `[any, any, v]`. -/
def sideQuery (c : Cfg) (d : Side) (v : Nat) : List Nat :=
  match d with
  | .src => [c.consts.any, v, c.consts.any]
  | .tgt => [c.consts.any, c.consts.any, v]

/-- One loop of `resolve_danglind_internal` (`store.rs:489-508`) over the collected links: move each from
the internal tree of `index` to the external tree. -/
def moveOut (c : Cfg) (d : Side) (index : Nat) : List Nat → Store → Option Store
  | [], s => some s
  | k :: ks, s =>
    (detachInt c d s index k).bind fun s1 => (attachExt c d s1 k).bind fun s2 => moveOut c d index ks s2

/-- `resolve_danglind_internal` (`store.rs:487-509`). The filter `!link.is_full()` (`store.rs:502`; full
means index = source = target) never drops a link here because its target is `index ≠ link.index`. -/
def resolveInternal (c : Cfg) (s : Store) (index : Nat) : Option Store :=
  (eachIter c s (sideQuery c .src index)).bind fun l1 =>
  (moveOut c .src index ((l1.map (·.index)).filter (· ≠ index)) s).bind fun s1 =>
  (eachIter c s1 (sideQuery c .tgt index)).bind fun l2 =>
  moveOut c .tgt index
    (((l2.filter fun l => l.index ≠ index).filter fun l =>
      ¬ (l.index = l.source ∧ l.index = l.target)).map (·.index)) s1

/-- One loop of `resolve_danglind_external` (`store.rs:513-532`). -/
def moveIn (c : Cfg) (d : Side) (free : Nat) : List Nat → Store → Option Store
  | [], s => some s
  | k :: ks, s =>
    (detachExt c d s k).bind fun s1 => (attachInt c d s1 free k).bind fun s2 => moveIn c d free ks s2

/-- `resolve_danglind_external` (`store.rs:511-533`). -/
def resolveExternal (c : Cfg) (s : Store) (free : Nat) : Option Store :=
  (eachIter c s (sideQuery c .src free)).bind fun l1 =>
  (moveIn c .src free ((l1.map (·.index)).filter (· ≠ free)) s).bind fun s1 =>
  (eachIter c s1 (sideQuery c .tgt free)).bind fun l2 =>
  moveIn c .tgt free
    (((l2.filter fun l => l.index ≠ free).filter fun l =>
      ¬ (l.index = l.source ∧ l.index = l.target)).map (·.index)) s1

/-- End of `create_links` (`store.rs:728-733`). -/
def createEnd {σ : Type} (c : Cfg) (s : Store) (free : Nat) (h : WH σ) (st : σ) :
    Option (Out Store σ Flow) :=
  (resolveExternal c s free).map fun s' =>
    let r := h st Link.nothing ⟨free, 0, 0⟩
    ⟨.ok r.1, s', r.2⟩

/-- `create_links` when no free slot was available, after the growth (`store.rs:721-723,728-733`). -/
def createTop {σ : Type} (c : Cfg) (s : Store) (h : WH σ) (st : σ) : Option (Out Store σ Flow) :=
  (cadd c.maxT s.hdr.allocated 1).bind fun a =>
    createEnd c { s with hdr := { s.hdr with allocated := a } } a h st

/-- `create_links` (`store.rs:691-734`). If `index_mem.alloc` fails after `data_mem.alloc` succeeded, the
method returns before `update_mem`. -/
def createLinks {σ : Type} (c : Cfg) (s : Store) (_q : List Nat) (h : WH σ) (st : σ) :
    Option (Out Store σ Flow) :=
  let free := s.hdr.firstFree
  if free = c.consts.null then
    if c.consts.internalEnd ≤ s.hdr.allocated then
      some ⟨.error (.limitReached c.consts.internalEnd), s, st⟩
    else
      (csub s.hdr.reserved 1).bind fun r1 =>
      if r1 ≤ s.hdr.allocated then
        match c.dalloc s.dlen (s.dlen + c.step) with
        | none => some ⟨.error .allocFailed, s, st⟩
        | some d =>
          match c.ialloc s.ilen (s.ilen + c.step) with
          | none => some ⟨.error .allocFailed, { s with dlen := d, stale := true }, st⟩
          | some n =>
            if n ≤ c.maxT then
              createTop c { s with dlen := d, ilen := n, stale := false,
                                   hdr := { s.hdr with reserved := n } } h st
            else none
      else createTop c s h st
  else
    (unusedDetach c s free).bind fun s' => createEnd c s' free h st

/-- Write of source and target (`store.rs:779-781`). -/
def setPair (s : Store) (i source target : Nat) : Option Store :=
  if s.stale = false ∧ i < s.dlen then
    some { s with data := fun k => if k = i then (source, target) else s.data k }
  else none

/-- Detach a link from the tree of its end on one side (`store.rs:752-764` for sources,
`store.rs:766-775` for targets). -/
def detachEnd (c : Cfg) (d : Side) (e i : Nat) (s : Store) : Option Store :=
  if e = 0 then some s
  else (isUnused s e).bind fun v => if v then detachExt c d s i else detachInt c d s e i

/-- Attach a link to the tree of its end on one side (`store.rs:784-796` for sources,
`store.rs:798-807` for targets); `v` was computed before the write. -/
def attachEnd (c : Cfg) (d : Side) (v : Bool) (e i : Nat) (s : Store) : Option Store :=
  if e = 0 then some s
  else if v then attachExt c d s i else attachInt c d s e i

/-- The memory updates of `update_links` on an existing link (`store.rs:752-807`). -/
def relink (c : Cfg) (s : Store) (l : Link) (i source target : Nat) : Option Store :=
  (detachEnd c .src l.source i s).bind fun s1 =>
  (detachEnd c .tgt l.target i s1).bind fun s2 =>
  (isUnused s2 source).bind fun vs =>
  (isUnused s2 target).bind fun vt =>
  (setPair s2 i source target).bind fun s3 =>
  (attachEnd c .src vs source i s3).bind fun s4 =>
  attachEnd c .tgt vt target i s4

/-- `update_links` (`store.rs:740-810`). -/
def updateLinks {σ : Type} (c : Cfg) (s : Store) (q change : List Nat) (h : WH σ) (st : σ) :
    Option (Out Store σ Flow) :=
  q[0]?.bind fun index =>
  change[1]?.bind fun source =>
  change[2]?.bind fun target =>
  (getLink c s index).bind fun
    | none => some ⟨.error (.notExists index), s, st⟩
    | some l =>
      (relink c s l index source target).map fun s' =>
        let r := h st l ⟨index, source, target⟩
        ⟨.ok r.1, s', r.2⟩

/-- Loop of `delete_links` (`store.rs:835-842`). -/
def releaseTop (c : Cfg) : Nat → Store → Option Store
  | 0, _ => none
  | fuel + 1, s =>
    let a := s.hdr.allocated
    if a = 0 then some s
    else
      (isUnused s a).bind fun u =>
      if u then
        (unusedDetach c s a).bind fun s' =>
        releaseTop c fuel { s' with hdr := { s'.hdr with allocated := a - 1 } }
      else some s

/-- `delete_links` (`store.rs:812-849`). -/
def deleteLinks {σ : Type} (c : Cfg) (s : Store) (q : List Nat) (h : WH σ) (st : σ) :
    Option (Out Store σ Flow) :=
  q[0]?.bind fun index =>
  (getLink c s index).bind fun
    | none => some ⟨.error (.notExists index), s, st⟩
    | some l =>
      (resolveInternal c s index).bind fun s0 =>
      (updateLinks c s0 [index] [index, 0, 0] (fun (u : Unit) _ _ => (.cont, u)) ()).bind fun o =>
      match o.res with
      | .error e => some ⟨.error e, o.st, st⟩
      | .ok _ =>
        let s1 := o.st
        (if index < s1.hdr.allocated then unusedAttachFirst c s1 index
         else if index = s1.hdr.allocated then
          (csub s1.hdr.allocated 1).bind fun a =>
            releaseTop c (s1.hdr.allocated + 1) { s1 with hdr := { s1.hdr with allocated := a } }
         else none).map fun s2 =>
          let r := h st l Link.nothing
          ⟨.ok r.1, s2, r.2⟩

/-- `impl Links for Store` and `impl Doublets for Store` (`store.rs:536-870`). -/
def links (c : Cfg) : Links Store where
  maxT := c.maxT
  consts _ := c.consts
  countLinks := countLinks c
  createLinks := createLinks c
  eachLinks := eachLinks c
  updateLinks := updateLinks c
  deleteLinks := deleteLinks c
  getLink := getLink c

end Verif.Split
