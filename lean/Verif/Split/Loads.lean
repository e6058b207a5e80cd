import Verif.Loads
import Verif.Split.AccessCalls

/-!
# The reading calls of the split store, load by load

Line numbers without a file name refer to `doublets/src/mem/split/store.rs`. Every word is loaded through the pointer of
the holder whose code loads it. `debug_assert!` is on. Handlers run between loads.
-/

namespace Verif

namespace Rd
section
variable {L : Type} (F : Fields L)

/-- Internal trees `search_core` (`internal_recursion_less_base.rs:57-71`); `key` is the location of the key part. -/
def searchKey (key : Nat → L) (x : Nat) : Nat → Nat → Rd L Nat
  | 0, _ => panic
  | fuel + 1, root =>
    if root = 0 then pure 0
    else do
      let rootKey ← word (key root)
      if x < rootKey then
        let left ← word (F.left root)
        searchKey key x fuel left
      else if x > rootKey then
        let right ← word (F.right root)
        searchKey key x fuel right
      else pure root

/-- Internal sources tree `each_usages_core` (`internal_sources_recursion_less_tree.rs:95-110`). -/
def eachInorder {σ : Type} (h : RH σ) : Nat → Nat → σ → Rd L (Flow × σ)
  | 0, _, _ => panic
  | fuel + 1, link, s =>
    if link = 0 then pure (.cont, s)
    else
      andThen (do
        let left ← word (F.left link)
        eachInorder h fuel left s) fun s1 =>
      andThen (do
        let source ← word (F.source link)
        let target ← word (F.target link)
        pure (h s1 ⟨link, source, target⟩)) fun s2 => do
      let right ← word (F.right link)
      eachInorder h fuel right s2

variable {F} {look : L → Option Nat} {get : Nat → Option Node}

theorem run_searchKey (hF : F.Holds look get) {key : Nat → L} {part : Node → Nat} (hK : HoldsBase look get key part)
    {x : Nat} : ∀ {fuel f root r : Nat}, Split.searchKey get part x fuel root = some r → fuel ≤ f →
      (searchKey F key x f root).run look = some r := by
  intro fuel
  induction fuel with
  | zero => intro f root r h; cases h
  | succ fuel ih =>
    intro f root r h hf
    obtain ⟨f, rfl⟩ : ∃ f', f = f' + 1 := ⟨f - 1, by omega⟩
    simp only [Split.searchKey] at h
    simp only [searchKey, run_ite, run_pure]
    split at h
    · next h0 => simpa [h0] using h
    · next h0 =>
      cases hg : get root with
      | none => rw [hg] at h; cases h
      | some nd =>
        obtain ⟨-, -, h3, h4, -⟩ := hF _ _ hg
        have h5 := hK _ _ hg
        simp only [hg] at h
        simp only [h0, if_false, run_bind, run_word, h3, h4, h5, Option.bind_some, run_ite, run_pure]
        split at h
        · next hl => simp only [hl, if_true]; exact ih h (by omega)
        · next hl =>
          simp only [hl, if_false]
          split at h
          · next hr => simp only [hr, if_true]; exact ih h (by omega)
          · next hr => simp only [hr, if_false]; exact h

theorem run_eachInorder {σ : Type} (hF : F.Holds look get) {h : RH σ} :
    ∀ {fuel f link : Nat} {s : σ} {r : Flow × σ}, Split.eachInorder get h fuel link s = some r → fuel ≤ f →
      (eachInorder F h f link s).run look = some r := by
  intro fuel
  induction fuel with
  | zero => intro f link s r h; cases h
  | succ fuel ih =>
    intro f link s r he hf
    obtain ⟨f, rfl⟩ : ∃ f', f = f' + 1 := ⟨f - 1, by omega⟩
    simp only [Split.eachInorder] at he
    simp only [eachInorder, run_ite, run_pure]
    split at he
    · next h0 => simpa [h0] using he
    · next h0 =>
      cases hg : get link with
      | none => rw [hg] at he; cases he
      | some nd =>
        obtain ⟨h1, h2, h3, h4, -⟩ := hF _ _ hg
        simp only [hg] at he
        simp only [h0, if_false, run_bind, run_word, h1, h2, h3, h4, Option.bind_some, run_andThen, run_pure]
        refine andThen_mono (fun y hy => ih hy (by omega)) (fun s1 x hx => ?_) he
        refine andThen_mono (fun y hy => hy) (fun s2 y hy => ih hy (by omega)) hx

end
end Rd

namespace Split
open Verif.Unit (Hdr srcLt4 srcGt4 tgtLt4 tgtGt4 callIf oneIf)

/-- A word of memory: of the index memory or of the data memory, whose pointer is used, slot, word (in a data part: source,
target, `data_part.rs:3-7`). -/
inductive Loc where
  | idx (o : Holder) (n w : Nat)
  | data (o : Holder) (n w : Nat)

/-- Load one word. -/
def AStore.look (a : AStore) : Loc → Option Nat
  | .idx o n w => (a.getI o n).map fun p => p.word w
  | .data o n w => (a.getD o n).map fun p => if w = 0 then p.1 else p.2

/-- Fields of the trees of a holder (`internal_sources_recursion_less_tree.rs:53-63,146-156` and the same in the other
three). -/
def fields (o : Holder) : Side → Fields Loc
  | .src => ⟨fun n => .data o n 0, fun n => .data o n 1, fun n => .idx o n 1, fun n => .idx o n 2, fun n => .idx o n 3⟩
  | .tgt => ⟨fun n => .data o n 0, fun n => .data o n 1, fun n => .idx o n 5, fun n => .idx o n 6, fun n => .idx o n 7⟩

/-- Where `get_base_part` looks (lines at `endOf`). -/
def baseAt (o : Holder) : Side → Nat → Loc
  | .src => fun n => .data o n 0
  | .tgt => fun n => .data o n 1

/-- Where `get_key_part` looks (lines at `keyOf`). -/
def keyAt (o : Holder) : Side → Nat → Loc
  | .src => fun n => .data o n 1
  | .tgt => fun n => .data o n 0

/-- Where `get_tree_root(link)` of the internal trees looks (lines at `rootOf`). -/
def rootAt (o : Holder) : Side → Nat → Loc
  | .src => fun n => .idx o n 0
  | .tgt => fun n => .idx o n 4

/-- Where `get_tree_root()` of the external trees looks (lines at `hrootOf`): a word of the header. -/
def hrootAt (o : Holder) : Side → Loc
  | .src => .idx o 0 4
  | .tgt => .idx o 0 5

namespace Loads

/-- `total` (`store.rs:310-313`). -/
def total : Rd Loc Nat := do
  let allocated ← Rd.word (.idx .main 0 0)
  let free ← Rd.word (.idx .main 0 2)
  .ofOption (csub allocated free)

/-- `is_unused` (`store.rs:315-325`), `is_virtual` (`store.rs:329-331`). The data part is indexed before the size is
looked at; the word itself is loaded only if the size is zero. -/
def isUnused (i : Nat) : Rd Loc Bool := do
  let allocated ← Rd.word (.idx .main 0 0)
  if i ≤ allocated then
    let firstFree ← Rd.word (.idx .main 0 3)
    if firstFree ≠ i then
      let size ← Rd.word (.idx .main i 7)
      if size = 0 then
        let source ← Rd.word (.data .main i 0)
        pure (source != 0)
      else pure false
    else pure true
  else pure true

/-- `exists` (`store.rs:333-342`). -/
def exists? (c : Cfg) (i : Nat) : Rd Loc Bool := do
  if c.consts.internalStart ≤ i then
    let allocated ← Rd.word (.idx .main 0 0)
    if i ≤ allocated then
      let u ← isUnused i
      pure (!u)
    else pure false
  else pure false

/-- `get_link_unchecked` (`store.rs:345-350`). -/
def getLinkUnchecked (c : Cfg) (i : Nat) : Rd Loc Link := do
  let e ← exists? c i
  if e then
    let source ← Rd.word (.data .main i 0)
    let target ← Rd.word (.data .main i 1)
    pure ⟨i, source, target⟩
  else .panic

/-- `get_link` (`store.rs:863-869`). -/
def getLink (c : Cfg) (i : Nat) : Rd Loc (Option Link) := do
  let e ← exists? c i
  if e then
    let l ← getLinkUnchecked c i
    pure (some l)
  else pure none

/-- `search` of the internal trees (`internal_sources_…:117-119`, `internal_targets_…:124-126`). -/
def intSearch (f : Nat) (d : Side) (source target : Nat) : Rd Loc Nat := do
  let root ← Rd.word (rootAt (intHolder d) d (endOf d (source, target)))
  Rd.searchKey (fields (intHolder d) d) (keyAt (intHolder d) d) (keyOf d (source, target)) f root

/-- `count_usages` of the internal trees (`internal_recursion_less_base.rs:73-75`). -/
def intCount (d : Side) (v : Nat) : Rd Loc Nat := do
  let root ← Rd.word (rootAt (intHolder d) d v)
  Rd.sizeOrZero (fields (intHolder d) d) root

/-- `each_usages` of the internal trees (`internal_sources_…:121-123`, `internal_targets_…:128-130`). -/
def intEach {σ : Type} (f : Nat) (d : Side) (v : Nat) (h : RH σ) (st : σ) : Rd Loc (Flow × σ) := do
  let root ← Rd.word (rootAt (intHolder d) d v)
  match d with
  | .src => Rd.eachInorder (fields .intSrc .src) h f root st
  | .tgt => Rd.eachUsages (fields .intTgt .tgt) (baseAt .intTgt .tgt) v h f root st

/-- `external_sources.search` (`external_sources_…:165-187`). -/
def extSearch (f source target : Nat) : Rd Loc Nat := do
  let root ← Rd.word (hrootAt .extSrc .src)
  Rd.searchLoop (fields .extSrc .src) srcLt4 srcGt4 source target f root

/-- `count_usages` of the external trees (`external_sources_…:136-163`, `external_targets_…:134-161`). -/
def extCount (c : Cfg) (f : Nat) (d : Side) (v : Nat) : Rd Loc Nat :=
  Rd.countUsages (fields (extHolder d) d) (baseAt (extHolder d) d) (hrootAt (extHolder d) d) c.maxT f v

/-- `each_usages` of the external trees (`external_sources_…:111-133,189-191`, `external_targets_…:109-131,187-189`). -/
def extEach {σ : Type} (f : Nat) (d : Side) (v : Nat) (h : RH σ) (st : σ) : Rd Loc (Flow × σ) := do
  let root ← Rd.word (hrootAt (extHolder d) d)
  Rd.eachUsages (fields (extHolder d) d) (baseAt (extHolder d) d) v h f root st

/-- Loop of `try_each_by_core` for the empty query (`store.rs:355-362`), over the remaining indices. -/
def eachIdx {σ : Type} (c : Cfg) (h : RH σ) : List Nat → σ → Rd Loc (Flow × σ)
  | [], st => pure (.cont, st)
  | i :: is, st => do
    match ← getLink c i with
    | none => eachIdx c h is st
    | some l => Rd.andThen (pure (h st l)) fun st' => eachIdx c h is st'

/-- `try_each_by_core` with the empty query (`store.rs:355-362`). The end of the range is loaded once. -/
def eachAll {σ : Type} (c : Cfg) (h : RH σ) (st : σ) : Rd Loc (Flow × σ) := do
  let allocated ← Rd.word (.idx .main 0 0)
  eachIdx c h (List.range' 1 allocated) st

/-- The choice of tree for a (source, target) lookup (`store.rs:421-447`, `store.rs:625-651`). -/
def pairSearch (f : Nat) (vs vt : Bool) (source target : Nat) : Rd Loc Nat :=
  if vs && vt then extSearch f source target
  else if vs then intSearch f .tgt source target
  else if vt then intSearch f .src source target
  else do
    let a ← intCount .src source
    let b ← intCount .tgt target
    if a > b then intSearch f .tgt source target else intSearch f .src source target

/-- `try_each_by_core`, query of length three (`store.rs:397-483`). -/
def each3 {σ : Type} (c : Cfg) (f index source target : Nat) (h : RH σ) (st : σ) : Rd Loc (Flow × σ) := do
  let any := c.consts.any
  let vs ← isUnused source
  let vt ← isUnused target
  if index = any then
    if source = any ∧ target = any then eachAll c h st
    else if source = any then if vt then extEach f .tgt target h st else intEach f .tgt target h st
    else if target = any then if vs then extEach f .src source h st else intEach f .src source h st
    else do
      let link ← pairSearch f vs vt source target
      if link = c.consts.null then pure (.cont, st)
      else do
        match ← getLink c link with
        | none => .panic
        | some l => pure (h st l)
  else do
    match ← getLink c index with
    | none => pure (.cont, st)
    | some l =>
      pure <|
        if source = any ∧ target = any then h st l
        else if source ≠ any ∧ target ≠ any then callIf (l.source = source ∧ l.target = target) h l st
        else if source = any then callIf (l.target = target) h l st
        else if target = any then callIf (l.source = source) h l st
        else (.cont, st)

/-- `try_each_by_core` (`store.rs:352-485`). -/
def eachLinks {σ : Type} (c : Cfg) (f : Nat) (q : List Nat) (h : RH σ) (st : σ) : Rd Loc (Flow × σ) :=
  let any := c.consts.any
  if q.length = 0 then eachAll c h st
  else do
    let index ← Rd.ofOption q[c.consts.indexPart]?
    if q.length = 1 then
      if index = any then eachAll c h st
      else do
        match ← getLink c index with
        | none => pure (.cont, st)
        | some l => pure (h st l)
    else if q.length = 2 then do
      let value ← Rd.ofOption q[1]?
      if index = any then
        if value = any then eachAll c h st
        else Rd.andThen (each3 c f index value any h st) fun st' => each3 c f index any value h st'
      else do
        match ← getLink c index with
        | none => pure (.cont, st)
        | some l => pure (callIf (value = any ∨ l.source = value ∨ l.target = value) h l st)
    else if q.length = 3 then do
      let source ← Rd.ofOption q[c.consts.sourcePart]?
      let target ← Rd.ofOption q[c.consts.targetPart]?
      each3 c f index source target h st
    else .panic

/-- `count_links`, query of length three (`store.rs:600-686`). -/
def count3 (c : Cfg) (f index source target : Nat) : Rd Loc Nat := do
  let any := c.consts.any
  let vs ← isUnused source
  let vt ← isUnused target
  if index = any then
    if source = any ∧ target = any then total
    else if source = any then if vt then extCount c f .tgt target else intCount .tgt target
    else if vs then extCount c f .src source
    else if target = any then intCount .src source
    else do
      let link ← pairSearch f vs vt source target
      pure (if link = c.consts.null then 0 else 1)
  else do
    let e ← exists? c index
    if !e then pure 0
    else if source = any ∧ target = any then pure 1
    else do
      let l ← getLinkUnchecked c index
      pure <|
        if source ≠ any ∧ target ≠ any then oneIf (l.source = source ∧ l.target = target)
        else if source = any then oneIf (l.target = target)
        else if target = any then oneIf (l.source = source)
        else 0

/-- `count_links` (`store.rs:551-689`). -/
def countLinks (c : Cfg) (f : Nat) (q : List Nat) : Rd Loc Nat :=
  let any := c.consts.any
  if q.length = 0 then total
  else do
    let index ← Rd.ofOption q[c.consts.indexPart]?
    if q.length = 1 then
      if index = any then total
      else do
        let e ← exists? c index
        pure (oneIf e)
    else if q.length = 2 then do
      let value ← Rd.ofOption q[1]?
      let vv ← isUnused value
      if index = any then
        if value = any then total
        else if vv then do
          let a ← extCount c f .src value
          let b ← extCount c f .tgt value
          .ofOption (cadd c.maxT a b)
        else do
          let a ← intCount .src value
          let b ← intCount .tgt value
          .ofOption (cadd c.maxT a b)
      else do
        let e ← exists? c index
        if !e then pure 0
        else if value = any then pure 1
        else do
          let source ← Rd.word (.data .main index 0)
          let target ← Rd.word (.data .main index 1)
          pure (oneIf (source = value ∧ target = value))
    else if q.length = 3 then do
      let source ← Rd.ofOption q[c.consts.sourcePart]?
      let target ← Rd.ofOption q[c.consts.targetPart]?
      count3 c f index source target
    else .panic

end Loads

/-! ### They return what the model returns -/

section
variable {c : Cfg} {s : Store}

theorem look_idx {o : Holder} {i w : Nat} : (AStore.of s).look (.idx o i w) = (s.getI i).map fun p => p.word w := by
  simp [AStore.look, AStore.getI, AStore.of, Store.getI, Store.slot]

theorem look_data {o : Holder} {i w : Nat} :
    (AStore.of s).look (.data o i w) = (s.getD i).map fun p => if w = 0 then p.1 else p.2 := by
  cases h : s.stale <;> simp [AStore.look, AStore.getD, AStore.of, Store.getD, h]

theorem look_hdr (hl : 0 < s.ilen) {o : Holder} {w : Nat} :
    (AStore.of s).look (.idx o 0 w) = some ((asPart s.hdr).word w) := by
  simp [look_idx, Store.getI, hl]

theorem node_some {d : Side} {i : Nat} {nd : Node} (h : s.node d i = some nd) : ∃ p x, s.getD i = some p ∧
    s.getI i = some x ∧ nd = ⟨p.1, p.2, (nodeOf d x).1, (nodeOf d x).2.1, (nodeOf d x).2.2⟩ := by
  simp only [Store.node, Option.bind_eq_some_iff, Option.map_eq_some_iff] at h
  obtain ⟨p, h1, x, h2, h3⟩ := h
  exact ⟨p, x, h1, h2, h3.symm⟩

theorem fields_holds (o : Holder) (d : Side) : (fields o d).Holds (AStore.of s).look (s.node d) := by
  intro i nd h
  obtain ⟨p, x, h1, h2, rfl⟩ := node_some h
  cases d <;> simp [fields, look_idx, look_data, h1, h2, IPart.word, nodeOf]

theorem base_holds (o : Holder) (d : Side) :
    Rd.HoldsBase (AStore.of s).look (s.node d) (baseAt o d) fun nd => endOf d nd.pair := by
  intro i nd h
  obtain ⟨p, x, h1, h2, rfl⟩ := node_some h
  cases d <;> simp [baseAt, look_data, h1, endOf, Node.pair]

theorem key_holds (o : Holder) (d : Side) :
    Rd.HoldsBase (AStore.of s).look (s.node d) (keyAt o d) fun nd => keyOf d nd.pair := by
  intro i nd h
  obtain ⟨p, x, h1, h2, rfl⟩ := node_some h
  cases d <;> simp [keyAt, look_data, h1, keyOf, Node.pair]

theorem look_root (o : Holder) (d : Side) (a : Nat) : (AStore.of s).look (rootAt o d a) = s.iroot d a := by
  cases d <;> (simp only [rootAt, look_idx, Store.iroot]; rfl)

theorem look_hroot (hl : 0 < s.ilen) (o : Holder) (d : Side) :
    (AStore.of s).look (hrootAt o d) = some (hrootOf d s.hdr) := by
  cases d <;> simp [hrootAt, look_hdr hl, hrootOf, IPart.word, asPart]

open _root_.Verif.Rd (Gives)

theorem gives_total (hl : 0 < s.ilen) : Gives (AStore.of s).look Loads.total (total s) :=
  .step (look_hdr hl) (.step (look_hdr hl) (.lift _))

theorem gives_isUnused (hl : 0 < s.ilen) (i : Nat) : Gives (AStore.of s).look (Loads.isUnused i) (isUnused s i) := by
  refine .step (look_hdr hl) ?_
  simp only [isUnused, IPart.word, asPart]
  by_cases h1 : i ≤ s.hdr.allocated
  · simp only [h1, if_true, true_and]
    refine .step (look_hdr hl) ?_
    simp only [IPart.word, asPart]
    refine .ite (fun _ => ?_) fun _ => .ret _
    intro x hx
    obtain ⟨p, hp, hx⟩ := Option.bind_eq_some_iff.mp hx
    obtain ⟨q, hq, rfl⟩ := Option.map_eq_some_iff.mp hx
    have h4 : (AStore.of s).look (.idx .main i 7) = some p.sizeT := by simp [look_idx, hp, IPart.word]
    have h0 : (AStore.of s).look (.data .main i 0) = some q.1 := by simp [look_data, hq]
    simp only [Rd.run_bind, Rd.run_word, h4, h0, Option.bind_some, Rd.run_ite, Rd.run_pure]
    by_cases hz : p.sizeT = 0 <;> simp [hz]
  · simp only [h1, if_false, false_and]
    exact .ret _

theorem gives_exists (hl : 0 < s.ilen) (i : Nat) : Gives (AStore.of s).look (Loads.exists? c i) (exists? c s i) := by
  simp only [exists?, Loads.exists?]
  by_cases h1 : c.consts.internalStart ≤ i
  · simp only [h1, if_true, true_and]
    refine .step (look_hdr hl) ?_
    simp only [IPart.word, asPart]
    exact .ite (fun _ => .map (gives_isUnused hl i) fun a _ => .ret _) fun _ => .ret _
  · simp only [h1, if_false, false_and]; exact .ret _

theorem gives_getLinkUnchecked (hl : 0 < s.ilen) {i : Nat} (he : exists? c s i = some true) :
    Gives (AStore.of s).look (Loads.getLinkUnchecked c i) (getLinkUnchecked s i) := by
  intro x hx
  obtain ⟨p, hp, rfl⟩ := Option.map_eq_some_iff.mp hx
  simp [Loads.getLinkUnchecked, gives_exists hl i _ he, look_data, hp]

theorem gives_getLink (hl : 0 < s.ilen) (i : Nat) : Gives (AStore.of s).look (Loads.getLink c i) (getLink c s i) :=
  .bind (gives_exists hl i) fun a ha =>
    .ite (fun h => .map (gives_getLinkUnchecked hl (h ▸ ha)) fun _ _ => .ret _) fun _ => .ret _

variable {f : Nat}

theorem gives_intSearch (hf : s.ilen < f) (d : Side) (x y : Nat) :
    Gives (AStore.of s).look (Loads.intSearch f d x y) (intSearch s d x y) :=
  .bind (.word (look_root _ _ _)) fun _ _ _ h => Rd.run_searchKey (fields_holds _ d) (key_holds _ d) h hf

theorem gives_intCount (d : Side) (v : Nat) : Gives (AStore.of s).look (Loads.intCount d v) (intCount s d v) :=
  .bind (.word (look_root _ _ _)) fun _ _ _ h => Rd.run_sizeOrZero (fields_holds _ d) h

theorem gives_intEach (hf : s.ilen < f) (d : Side) (v : Nat) {σ : Type} (h : RH σ) (st : σ) :
    Gives (AStore.of s).look (Loads.intEach f d v h st) (intEach s d v h st) :=
  .bind (.word (look_root _ _ _)) fun _ _ => by
    cases d with
    | src => exact fun _ h => Rd.run_eachInorder (fields_holds _ .src) h hf
    | tgt => exact fun _ h => Rd.run_eachUsages (fields_holds _ .tgt) (base_holds .intTgt .tgt) h hf

theorem gives_extSearch (hl : 0 < s.ilen) (hf : s.ilen < f) (x y : Nat) :
    Gives (AStore.of s).look (Loads.extSearch f x y) (extSearch s x y) :=
  .step (look_hroot hl _ _) fun _ h => Rd.run_searchLoop (fields_holds _ .src) h hf

theorem gives_extCount (hl : 0 < s.ilen) (hf : s.ilen < f) (d : Side) (v : Nat) :
    Gives (AStore.of s).look (Loads.extCount c f d v) (extCount c s d v) :=
  fun _ h => Rd.run_countUsages (fields_holds _ d) (base_holds _ d) (look_hroot hl _ _) h hf

theorem gives_extEach (hl : 0 < s.ilen) (hf : s.ilen < f) (d : Side) (v : Nat) {σ : Type} (h : RH σ) (st : σ) :
    Gives (AStore.of s).look (Loads.extEach f d v h st) (extEach s d v h st) :=
  .step (look_hroot hl _ _) fun _ h => Rd.run_eachUsages (fields_holds _ d) (base_holds _ d) h hf

theorem gives_eachIdx (hl : 0 < s.ilen) {σ : Type} (h : RH σ) : ∀ (is : List Nat) (st : σ),
    Gives (AStore.of s).look (Loads.eachIdx c h is st) (eachIdx c s h is st) := by
  intro is
  induction is with
  | nil => intro st; exact .ret _
  | cons i is ih =>
    intro st x hx
    simp only [eachIdx] at hx
    simp only [Loads.eachIdx, Rd.run_bind]
    split at hx
    · cases hx
    · next e => rw [gives_getLink hl i _ e]; exact ih st x hx
    · next l e => rw [gives_getLink hl i _ e]; exact Gives.andThen (.ret _) (fun st' => ih st') x hx

theorem gives_eachAll (hl : 0 < s.ilen) {σ : Type} (h : RH σ) (st : σ) :
    Gives (AStore.of s).look (Loads.eachAll c h st) (eachAll c s h st) :=
  .step (look_hdr hl) (gives_eachIdx hl h _ st)

theorem gives_pairSearch (hl : 0 < s.ilen) (hf : s.ilen < f) (vs vt : Bool) (x y : Nat) :
    Gives (AStore.of s).look (Loads.pairSearch f vs vt x y) (pairSearch s vs vt x y) :=
  .ite (fun _ => gives_extSearch hl hf x y) fun _ => .ite (fun _ => gives_intSearch hf _ x y) fun _ =>
    .ite (fun _ => gives_intSearch hf _ x y) fun _ => .bind (gives_intCount _ _) fun _ _ =>
    .bind (gives_intCount _ _) fun _ _ => .ite (fun _ => gives_intSearch hf _ x y) fun _ => gives_intSearch hf _ x y

theorem gives_each3 (hl : 0 < s.ilen) (hf : s.ilen < f) (i x y : Nat) {σ : Type} (h : RH σ) (st : σ) :
    Gives (AStore.of s).look (Loads.each3 c f i x y h st) (each3 c s i x y h st) :=
  .bind (gives_isUnused hl x) fun vs _ => .bind (gives_isUnused hl y) fun vt _ =>
  .ite (fun _ => .ite (fun _ => gives_eachAll hl h st) fun _ =>
      .ite (fun _ => .ite (fun _ => gives_extEach hl hf _ y h st) fun _ => gives_intEach hf _ y h st) fun _ =>
      .ite (fun _ => .ite (fun _ => gives_extEach hl hf _ x h st) fun _ => gives_intEach hf _ x h st) fun _ =>
      .bind (gives_pairSearch hl hf vs vt x y) fun l _ => .ite (fun _ => .ret _) fun _ =>
      .bind (gives_getLink hl l) fun o _ => by
        cases o with
        | none => exact fun _ h => nomatch h
        | some l => exact .ret _)
    fun _ => .map (gives_getLink hl i) fun o _ => by cases o <;> exact .ret _

theorem gives_eachLinks (hl : 0 < s.ilen) (hf : s.ilen < f) (q : List Nat) {σ : Type} (h : RH σ) (st : σ) :
    Gives (AStore.of s).look (Loads.eachLinks c f q h st) (eachLinks c s q h st) :=
  .ite (fun _ => gives_eachAll hl h st) fun _ => .bind (.lift _) fun i _ =>
    .ite (fun _ => .ite (fun _ => gives_eachAll hl h st) fun _ =>
      .map (gives_getLink hl i) fun o _ => by cases o <;> exact .ret _) fun _ =>
    .ite (fun _ => .bind (.lift _) fun v _ => .ite (fun _ => .ite (fun _ => gives_eachAll hl h st) fun _ =>
        .andThen (gives_each3 hl hf _ _ _ h st) fun st' => gives_each3 hl hf _ _ _ h st') fun _ =>
        .map (gives_getLink hl i) fun o _ => by cases o <;> exact .ret _) fun _ =>
    .ite (fun _ => .bind (.lift _) fun x _ => .bind (.lift _) fun y _ => gives_each3 hl hf i x y h st)
      fun _ _ h => nomatch h

theorem gives_count3 (hl : 0 < s.ilen) (hf : s.ilen < f) (i x y : Nat) :
    Gives (AStore.of s).look (Loads.count3 c f i x y) (count3 c s i x y) :=
  .bind (gives_isUnused hl x) fun vs _ => .bind (gives_isUnused hl y) fun vt _ =>
  .ite (fun _ => .ite (fun _ => gives_total hl) fun _ =>
      .ite (fun _ => .ite (fun _ => gives_extCount hl hf _ y) fun _ => gives_intCount _ y) fun _ =>
      .ite (fun _ => gives_extCount hl hf _ x) fun _ => .ite (fun _ => gives_intCount _ x) fun _ =>
      .map (gives_pairSearch hl hf vs vt x y) fun _ _ => .ret _)
    fun _ => .bind (gives_exists hl i) fun e he => by
      cases e with
      | false => exact .ret _
      | true =>
        exact .ite (fun h => nomatch h) fun _ => .ite (fun _ => .ret _) fun _ =>
          .map (gives_getLinkUnchecked hl he) fun _ _ => .ret _

theorem gives_countLinks (hl : 0 < s.ilen) (hf : s.ilen < f) (q : List Nat) :
    Gives (AStore.of s).look (Loads.countLinks c f q) (countLinks c s q) :=
  .ite (fun _ => gives_total hl) fun _ => .bind (.lift _) fun i _ =>
    .ite (fun _ => .ite (fun _ => gives_total hl) fun _ => .map (gives_exists hl i) fun _ _ => .ret _) fun _ =>
    .ite (fun _ => .bind (.lift _) fun v _ => .bind (gives_isUnused hl v) fun vv _ =>
        .ite (fun _ => .ite (fun _ => gives_total hl) fun _ =>
          .ite (fun _ => .bind (gives_extCount hl hf _ v) fun a _ => .bind (gives_extCount hl hf _ v) fun b _ => .lift _)
            fun _ => .bind (gives_intCount _ v) fun a _ => .bind (gives_intCount _ v) fun b _ => .lift _) fun _ =>
        .bind (gives_exists hl i) fun e _ => .ite (fun _ => .ret _) fun _ => .ite (fun _ => .ret _) fun _ => by
          intro x hx
          obtain ⟨p, hp, rfl⟩ := Option.map_eq_some_iff.mp hx
          simp [look_data, hp]) fun _ =>
    .ite (fun _ => .bind (.lift _) fun x _ => .bind (.lift _) fun y _ => gives_count3 hl hf i x y)
      fun _ _ h => nomatch h

end
end Split
end Verif
