import Verif.Loads
import Verif.Unit.AccessCalls

/-!
# The reading calls of the united store, load by load

Line numbers without a file name refer to `doublets/src/mem/unit/store.rs`. Every word is loaded through the pointer of
the holder whose code loads it. `debug_assert!` is on. Handlers run between loads.
-/

namespace Verif.Unit
open Verif

/-- A word of memory: whose pointer is used, slot, word. -/
abbrev Loc := Holder × Nat × Nat

/-- Load one word. -/
def AStore.look (a : AStore) (l : Loc) : Option Nat := (a.get l.1 l.2.1).map fun p => p.word l.2.2

/-- Fields of the sources tree (`sources_recursionless_size_balanced_tree.rs:49-59,213-215`). -/
def srcFields : Fields Loc where
  source n := (.src, n, 0)
  target n := (.src, n, 1)
  left n := (.src, n, 2)
  right n := (.src, n, 3)
  size n := (.src, n, 4)

/-- Fields of the targets tree (`targets_recursionless_size_balanced_tree.rs:49-59,213-215`). -/
def tgtFields : Fields Loc where
  source n := (.tgt, n, 0)
  target n := (.tgt, n, 1)
  left n := (.tgt, n, 5)
  right n := (.tgt, n, 6)
  size n := (.tgt, n, 7)

namespace Loads

/-- `get_total` (`store.rs:189-192`). -/
def getTotal : Rd Loc Nat := do
  let allocated ← Rd.word (.main, 0, 0)
  let free ← Rd.word (.main, 0, 2)
  .ofOption (csub allocated free)

/-- `is_unused` (`store.rs:194-206`). `&&` does not evaluate its right operand when the left one is false. -/
def isUnused (i : Nat) : Rd Loc Bool := do
  let allocated ← Rd.word (.main, 0, 0)
  if i ≤ allocated then
    let firstFree ← Rd.word (.main, 0, 3)
    if firstFree ≠ i then
      let size ← Rd.word (.main, i, 4)
      if size = 0 then
        let source ← Rd.word (.main, i, 0)
        pure (source != 0)
      else pure false
    else pure true
  else pure true

/-- `exists` (`store.rs:208-215`). -/
def exists? (c : Cfg) (i : Nat) : Rd Loc Bool := do
  if c.consts.internalStart ≤ i then
    let allocated ← Rd.word (.main, 0, 0)
    if i ≤ allocated then
      let u ← isUnused i
      pure (!u)
    else pure false
  else pure false

/-- `get_link_unchecked` (`store.rs:224-229`). -/
def getLinkUnchecked (c : Cfg) (i : Nat) : Rd Loc Link := do
  let e ← exists? c i
  if e then
    let source ← Rd.word (.main, i, 0)
    let target ← Rd.word (.main, i, 1)
    pure ⟨i, source, target⟩
  else .panic

/-- `get_link` (`store.rs:560-567`). -/
def getLink (c : Cfg) (i : Nat) : Rd Loc (Option Link) := do
  let e ← exists? c i
  if e then
    let l ← getLinkUnchecked c i
    pure (some l)
  else pure none

/-- `sources.search` (`sources_recursionless_size_balanced_tree.rs:159-181`). -/
def srcSearch (f source target : Nat) : Rd Loc Nat := do
  let root ← Rd.word (.src, 0, 4)
  Rd.searchLoop srcFields srcLt4 srcGt4 source target f root

/-- `sources.count_usages` (`sources_recursionless_size_balanced_tree.rs:130-157`). -/
def srcCount (c : Cfg) (f v : Nat) : Rd Loc Nat := Rd.countUsages srcFields srcFields.source (.src, 0, 4) c.maxT f v

/-- `targets.count_usages` (`targets_recursionless_size_balanced_tree.rs:130-157`). -/
def tgtCount (c : Cfg) (f v : Nat) : Rd Loc Nat := Rd.countUsages tgtFields tgtFields.target (.tgt, 0, 5) c.maxT f v

/-- `sources.each_usages` (`sources_recursionless_size_balanced_tree.rs:183-185`). -/
def srcEach {σ : Type} (f v : Nat) (h : RH σ) (st : σ) : Rd Loc (Flow × σ) := do
  let root ← Rd.word (.src, 0, 4)
  Rd.eachUsages srcFields srcFields.source v h f root st

/-- `targets.each_usages` (`targets_recursionless_size_balanced_tree.rs:183-185`). -/
def tgtEach {σ : Type} (f v : Nat) (h : RH σ) (st : σ) : Rd Loc (Flow × σ) := do
  let root ← Rd.word (.tgt, 0, 5)
  Rd.eachUsages tgtFields tgtFields.target v h f root st

/-- Loop of `each_core` for the empty query (`store.rs:234-241`), over the remaining indices. -/
def eachIdx {σ : Type} (c : Cfg) (h : RH σ) : List Nat → σ → Rd Loc (Flow × σ)
  | [], st => pure (.cont, st)
  | i :: is, st => do
    match ← getLink c i with
    | none => eachIdx c h is st
    | some l => Rd.andThen (pure (h st l)) fun st' => eachIdx c h is st'

/-- `each_core` with the empty query (`store.rs:234-241`). The end of the range is loaded once. -/
def eachAll {σ : Type} (c : Cfg) (h : RH σ) (st : σ) : Rd Loc (Flow × σ) := do
  let allocated ← Rd.word (.main, 0, 0)
  eachIdx c h (List.range' 1 allocated) st

/-- `each_core`, query of length three (`store.rs:276-317`). -/
def each3 {σ : Type} (c : Cfg) (f index source target : Nat) (h : RH σ) (st : σ) : Rd Loc (Flow × σ) :=
  let any := c.consts.any
  if index = any then
    if source = any ∧ target = any then eachAll c h st
    else if source = any then tgtEach f target h st
    else if target = any then srcEach f source h st
    else do
      let link ← srcSearch f source target
      match ← getLink c link with
      | none => pure (.cont, st)
      | some l => pure (h st l)
  else do
    match ← getLink c index with
    | none => pure (.cont, st)
    | some l =>
      pure <|
        if target = any ∧ source = any then h st l
        else if target ≠ any ∧ source ≠ any then callIf (source = l.source ∧ target = l.target) h l st
        else if source = any then callIf (l.target = target) h l st
        else if target = any then callIf (l.source = source) h l st
        else (.cont, st)

/-- `each_core` (`store.rs:231-320`). -/
def eachLinks {σ : Type} (c : Cfg) (f : Nat) (q : List Nat) (h : RH σ) (st : σ) : Rd Loc (Flow × σ) :=
  let any := c.consts.any
  if q.length = 0 then eachAll c h st
  else do
    let index ← Rd.ofOption q[c.consts.indexPart]?
    if q.length = 1 then
      if index = any then eachAll c h st
      else do
        match ← getLink c index with
        | none => pure (.cont, st)
        | some l => pure (h st l)
    else if q.length = 2 then do
      let value ← Rd.ofOption q[1]?
      if index = any then
        if value = any then eachAll c h st
        else Rd.andThen (each3 c f index value any h st) fun st' => each3 c f index any value h st'
      else do
        match ← getLink c index with
        | none => pure (.cont, st)
        | some l => pure (callIf (value = any ∨ l.source = value ∨ l.target = value) h l st)
    else if q.length = 3 then do
      let source ← Rd.ofOption q[c.consts.sourcePart]?
      let target ← Rd.ofOption q[c.consts.targetPart]?
      each3 c f index source target h st
    else .panic

/-- `count_links`, query of length three (`store.rs:378-424`). -/
def count3 (c : Cfg) (f index source target : Nat) : Rd Loc Nat :=
  let any := c.consts.any
  if index = any then
    if target = any ∧ source = any then getTotal
    else if source = any then tgtCount c f target
    else if target = any then srcCount c f source
    else do
      let link ← srcSearch f source target
      pure (if link = c.consts.null then 0 else 1)
  else do
    let e ← exists? c index
    if !e then pure 0
    else if source = any ∧ target = any then pure 1
    else do
      let l ← getLinkUnchecked c index
      pure <|
        if source ≠ any ∧ target ≠ any then oneIf (l.source = source ∧ l.target = target)
        else if source = any then oneIf (l.target = target)
        else if target = any then oneIf (l.source = source)
        else 0

/-- `count_links` (`store.rs:330-427`). -/
def countLinks (c : Cfg) (f : Nat) (q : List Nat) : Rd Loc Nat :=
  let any := c.consts.any
  if q.length = 0 then getTotal
  else do
    let index ← Rd.ofOption q[c.consts.indexPart]?
    if q.length = 1 then
      if index = any then getTotal
      else do
        let e ← exists? c index
        pure (oneIf e)
    else if q.length = 2 then do
      let value ← Rd.ofOption q[1]?
      if index = any then
        if value = any then getTotal
        else do
          let a ← tgtCount c f value
          let b ← srcCount c f value
          .ofOption (cadd c.maxT a b)
      else do
        let e ← exists? c index
        if !e then pure 0
        else if value = any then pure 1
        else do
          match ← getLink c index with
          | none => pure 0
          | some l => pure (oneIf (l.source = value ∨ l.target = value))
    else if q.length = 3 then do
      let source ← Rd.ofOption q[c.consts.sourcePart]?
      let target ← Rd.ofOption q[c.consts.targetPart]?
      count3 c f index source target
    else .panic

end Loads

/-! ### They return what the model returns -/

section
variable {c : Cfg} {s : Store}

theorem look_of {o : Holder} {i w : Nat} : (AStore.of s).look (o, i, w) = (s.get i).map fun p => p.word w := by
  have : (AStore.of s).s = s := rfl
  simp only [AStore.look, AStore.get, fresh_of, this, true_and, Store.get, Store.slot]

theorem look_hdr (hl : 0 < s.len) {o : Holder} {w : Nat} : (AStore.of s).look (o, 0, w) = some (s.hdr.asCell.word w) := by
  simp [look_of, Store.get, hl]

theorem srcFields_holds : srcFields.Holds (AStore.of s).look s.srcNode := by
  intro i nd h
  simp only [Store.srcNode, Option.map_eq_some_iff] at h
  obtain ⟨p, h, rfl⟩ := h
  simp [srcFields, look_of, h, Cell.word]

theorem tgtFields_holds : tgtFields.Holds (AStore.of s).look s.tgtNode := by
  intro i nd h
  simp only [Store.tgtNode, Option.map_eq_some_iff] at h
  obtain ⟨p, h, rfl⟩ := h
  simp [tgtFields, look_of, h, Cell.word]

open _root_.Verif.Rd (Gives)

theorem gives_getTotal (hl : 0 < s.len) : Gives (AStore.of s).look Loads.getTotal (getTotal s) :=
  .step (look_hdr hl) (.step (look_hdr hl) (.lift _))

theorem gives_isUnused (hl : 0 < s.len) (i : Nat) : Gives (AStore.of s).look (Loads.isUnused i) (isUnused s i) := by
  refine .step (look_hdr hl) ?_
  simp only [isUnused, Cell.word, Hdr.asCell]
  by_cases h1 : i ≤ s.hdr.allocated
  · simp only [h1, if_true, true_and]
    refine .step (look_hdr hl) ?_
    simp only [Cell.word, Hdr.asCell]
    refine .ite (fun _ => ?_) fun _ => .ret _
    intro x hx
    obtain ⟨p, hp, rfl⟩ := Option.map_eq_some_iff.mp hx
    have h4 : (AStore.of s).look (.main, i, 4) = some p.sizeS := by simp [look_of, hp, Cell.word]
    have h0 : (AStore.of s).look (.main, i, 0) = some p.source := by simp [look_of, hp, Cell.word]
    simp only [Rd.run_bind, Rd.run_word, h4, h0, Option.bind_some, Rd.run_ite, Rd.run_pure]
    by_cases hz : p.sizeS = 0 <;> simp [hz]
  · simp only [h1, if_false, false_and]
    exact .ret _

theorem gives_exists (hl : 0 < s.len) (i : Nat) : Gives (AStore.of s).look (Loads.exists? c i) (exists? c s i) := by
  simp only [exists?, Loads.exists?]
  by_cases h1 : c.consts.internalStart ≤ i
  · simp only [h1, if_true, true_and]
    refine .step (look_hdr hl) ?_
    simp only [Cell.word, Hdr.asCell]
    exact .ite (fun _ => .map (gives_isUnused hl i) fun a _ => .ret _) fun _ => .ret _
  · simp only [h1, if_false, false_and]; exact .ret _

theorem gives_getLinkUnchecked (hl : 0 < s.len) {i : Nat} (he : exists? c s i = some true) :
    Gives (AStore.of s).look (Loads.getLinkUnchecked c i) (getLinkUnchecked s i) := by
  intro x hx
  obtain ⟨p, hp, rfl⟩ := Option.map_eq_some_iff.mp hx
  simp [Loads.getLinkUnchecked, gives_exists hl i _ he, look_of, hp, Cell.word]

theorem gives_getLink (hl : 0 < s.len) (i : Nat) : Gives (AStore.of s).look (Loads.getLink c i) (getLink c s i) :=
  .bind (gives_exists hl i) fun a ha =>
    .ite (fun h => .map (gives_getLinkUnchecked hl (h ▸ ha)) fun _ _ => .ret _) fun _ => .ret _

variable {f : Nat}

theorem gives_srcSearch (hl : 0 < s.len) (hf : s.len < f) (x y : Nat) :
    Gives (AStore.of s).look (Loads.srcSearch f x y) (srcSearch s x y) :=
  .step (look_hdr hl) fun _ h => Rd.run_searchLoop srcFields_holds h hf

theorem gives_srcCount (hl : 0 < s.len) (hf : s.len < f) (v : Nat) :
    Gives (AStore.of s).look (Loads.srcCount c f v) (srcCount c s v) :=
  fun _ h => Rd.run_countUsages srcFields_holds (fun i nd h => (srcFields_holds i nd h).1) (look_hdr hl) h hf

theorem gives_tgtCount (hl : 0 < s.len) (hf : s.len < f) (v : Nat) :
    Gives (AStore.of s).look (Loads.tgtCount c f v) (tgtCount c s v) :=
  fun _ h => Rd.run_countUsages tgtFields_holds (fun i nd h => (tgtFields_holds i nd h).2.1) (look_hdr hl) h hf

theorem gives_srcEach (hl : 0 < s.len) (hf : s.len < f) (v : Nat) {σ : Type} (h : RH σ) (st : σ) :
    Gives (AStore.of s).look (Loads.srcEach f v h st) (srcEach s v h st) :=
  .step (look_hdr hl) fun _ h => Rd.run_eachUsages srcFields_holds (fun i nd h => (srcFields_holds i nd h).1) h hf

theorem gives_tgtEach (hl : 0 < s.len) (hf : s.len < f) (v : Nat) {σ : Type} (h : RH σ) (st : σ) :
    Gives (AStore.of s).look (Loads.tgtEach f v h st) (tgtEach s v h st) :=
  .step (look_hdr hl) fun _ h => Rd.run_eachUsages tgtFields_holds (fun i nd h => (tgtFields_holds i nd h).2.1) h hf

theorem gives_eachIdx (hl : 0 < s.len) {σ : Type} (h : RH σ) : ∀ (is : List Nat) (st : σ),
    Gives (AStore.of s).look (Loads.eachIdx c h is st) (eachIdx c s h is st) := by
  intro is
  induction is with
  | nil => intro st; exact .ret _
  | cons i is ih =>
    intro st x hx
    simp only [eachIdx] at hx
    simp only [Loads.eachIdx, Rd.run_bind]
    split at hx
    · cases hx
    · next e => rw [gives_getLink hl i _ e]; exact ih st x hx
    · next l e => rw [gives_getLink hl i _ e]; exact Gives.andThen (.ret _) (fun st' => ih st') x hx

theorem gives_eachAll (hl : 0 < s.len) {σ : Type} (h : RH σ) (st : σ) :
    Gives (AStore.of s).look (Loads.eachAll c h st) (eachAll c s h st) :=
  .step (look_hdr hl) (gives_eachIdx hl h _ st)

theorem gives_each3 (hl : 0 < s.len) (hf : s.len < f) (i x y : Nat) {σ : Type} (h : RH σ) (st : σ) :
    Gives (AStore.of s).look (Loads.each3 c f i x y h st) (each3 c s i x y h st) :=
  .ite (fun _ => .ite (fun _ => gives_eachAll hl h st) fun _ => .ite (fun _ => gives_tgtEach hl hf y h st) fun _ =>
      .ite (fun _ => gives_srcEach hl hf x h st) fun _ =>
      .bind (gives_srcSearch hl hf x y) fun l _ => .map (gives_getLink hl l) fun o _ => by cases o <;> exact .ret _)
    fun _ => .map (gives_getLink hl i) fun o _ => by cases o <;> exact .ret _

theorem gives_eachLinks (hl : 0 < s.len) (hf : s.len < f) (q : List Nat) {σ : Type} (h : RH σ) (st : σ) :
    Gives (AStore.of s).look (Loads.eachLinks c f q h st) (eachLinks c s q h st) :=
  .ite (fun _ => gives_eachAll hl h st) fun _ => .bind (.lift _) fun i _ =>
    .ite (fun _ => .ite (fun _ => gives_eachAll hl h st) fun _ =>
      .map (gives_getLink hl i) fun o _ => by cases o <;> exact .ret _) fun _ =>
    .ite (fun _ => .bind (.lift _) fun v _ => .ite (fun _ => .ite (fun _ => gives_eachAll hl h st) fun _ =>
        .andThen (gives_each3 hl hf _ _ _ h st) fun st' => gives_each3 hl hf _ _ _ h st') fun _ =>
        .map (gives_getLink hl i) fun o _ => by cases o <;> exact .ret _) fun _ =>
    .ite (fun _ => .bind (.lift _) fun x _ => .bind (.lift _) fun y _ => gives_each3 hl hf i x y h st)
      fun _ _ h => nomatch h

theorem gives_count3 (hl : 0 < s.len) (hf : s.len < f) (i x y : Nat) :
    Gives (AStore.of s).look (Loads.count3 c f i x y) (count3 c s i x y) :=
  .ite (fun _ => .ite (fun _ => gives_getTotal hl) fun _ => .ite (fun _ => gives_tgtCount hl hf y) fun _ =>
      .ite (fun _ => gives_srcCount hl hf x) fun _ => .map (gives_srcSearch hl hf x y) fun _ _ => .ret _)
    fun _ => .bind (gives_exists hl i) fun e he => by
      cases e with
      | false => exact .ret _
      | true =>
        exact .ite (fun h => nomatch h) fun _ => .ite (fun _ => .ret _) fun _ =>
          .map (gives_getLinkUnchecked hl he) fun _ _ => .ret _

theorem gives_countLinks (hl : 0 < s.len) (hf : s.len < f) (q : List Nat) :
    Gives (AStore.of s).look (Loads.countLinks c f q) (countLinks c s q) :=
  .ite (fun _ => gives_getTotal hl) fun _ => .bind (.lift _) fun i _ =>
    .ite (fun _ => .ite (fun _ => gives_getTotal hl) fun _ => .map (gives_exists hl i) fun _ _ => .ret _) fun _ =>
    .ite (fun _ => .bind (.lift _) fun v _ => .ite (fun _ => .ite (fun _ => gives_getTotal hl) fun _ =>
        .bind (gives_tgtCount hl hf v) fun a _ => .bind (gives_srcCount hl hf v) fun b _ => .lift _) fun _ =>
        .bind (gives_exists hl i) fun e _ => .ite (fun _ => .ret _) fun _ => .ite (fun _ => .ret _) fun _ =>
        .map (gives_getLink hl i) fun o _ => by cases o <;> exact .ret _) fun _ =>
    .ite (fun _ => .bind (.lift _) fun x _ => .bind (.lift _) fun y _ => gives_count3 hl hf i x y)
      fun _ _ h => nomatch h

end
end Verif.Unit
