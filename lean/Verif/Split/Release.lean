import Verif.Unit.Release
import Verif.Split.Model

/-!
# The split store in a build without overflow checks
-/

namespace Verif.Split
open Verif
open Verif.Unit (oneIf sum_agrees)

/-- `count_usages` of the external trees (`external_sources_…:136-163`, `external_targets_…:134-161`), wrapping. -/
def extCountR (c : Cfg) (s : Store) (d : Side) (v : Nat) : Option Nat :=
  countUsagesR (s.node d) c.maxT (fun nd => endOf d nd.pair) (s.ilen + 1) (hrootOf d s.hdr) v

/-- `init` (`store.rs:283-308`), wrapping: the number of slots is a `usize`, whose largest value is `maxU`. Without
`debug_assert!` (`store.rs:274`), whose condition always holds, as the capacity is at least the step. -/
def initR (c : Cfg) (maxU : Nat) (s : Store) : Option (Except Err Store) :=
  match c.dalloc s.dlen c.page with
  | none => some (.error .allocFailed)
  | some d1 =>
    match c.ialloc s.ilen c.page with
    | none => some (.error .allocFailed)
    | some i1 =>
      if i1 = 0 then none
      else
        let dcap := align (max (max s.hdr.allocated d1) c.step) c.step
        let icap := align (max (max s.hdr.allocated i1) c.step) c.step
        match c.dalloc d1 dcap with
        | none => some (.error .allocFailed)
        | some d2 =>
          match c.ialloc i1 icap with
          | none => some (.error .allocFailed)
          | some i2 =>
            let r := wsub maxU d2 1
            if i2 = 0 then none
            else if r ≤ c.maxT then
              some (.ok { s with dlen := d2, ilen := i2, stale := false,
                                 hdr := { s.hdr with reserved := r } })
            else none

/-- `total` (`store.rs:310-313`), wrapping. -/
def totalR (c : Cfg) (s : Store) : Nat := wsub c.maxT s.hdr.allocated s.hdr.free

/-- `count_links`, query of length three (`store.rs:600-686`), wrapping. -/
def count3R (c : Cfg) (s : Store) (index source target : Nat) : Option Nat :=
  let any := c.consts.any
  (isUnused s source).bind fun vs =>
  (isUnused s target).bind fun vt =>
  if index = any then
    if source = any ∧ target = any then some (totalR c s)
    else if source = any then if vt then extCountR c s .tgt target else intCount s .tgt target
    else if vs then extCountR c s .src source
    else if target = any then intCount s .src source
    else
      (pairSearch s vs vt source target).map fun link => if link = c.consts.null then 0 else 1
  else
    (exists? c s index).bind fun e =>
    if !e then some 0
    else if source = any ∧ target = any then some 1
    else
      (getLinkUnchecked s index).map fun l =>
        if source ≠ any ∧ target ≠ any then oneIf (l.source = source ∧ l.target = target)
        else if source = any then oneIf (l.target = target)
        else if target = any then oneIf (l.source = source)
        else 0

/-- `count_links` (`store.rs:551-689`), wrapping. -/
def countLinksR (c : Cfg) (s : Store) (q : List Nat) : Option Nat :=
  let any := c.consts.any
  if q.length = 0 then some (totalR c s)
  else
    q[c.consts.indexPart]?.bind fun index =>
    if q.length = 1 then
      if index = any then some (totalR c s) else (exists? c s index).map oneIf
    else if q.length = 2 then
      q[1]?.bind fun value =>
      (isUnused s value).bind fun vv =>
      if index = any then
        if value = any then some (totalR c s)
        else if vv then
          (extCountR c s .src value).bind fun a => (extCountR c s .tgt value).map fun b => wadd c.maxT a b
        else
          (intCount s .src value).bind fun a => (intCount s .tgt value).map fun b => wadd c.maxT a b
      else
        (exists? c s index).bind fun e =>
        if !e then some 0
        else if value = any then some 1
        else (s.getD index).map fun p => oneIf (p.1 = value ∧ p.2 = value)
    else if q.length = 3 then
      q[c.consts.sourcePart]?.bind fun source =>
      q[c.consts.targetPart]?.bind fun target =>
      count3R c s index source target
    else none

/-- `each_iter(query)` (`data/traits.rs:659-669`) on the split store: the count, a capacity hint, wraps. -/
def eachIterR (c : Cfg) (s : Store) (q : List Nat) : Option (List Link) :=
  (countLinksR c s q).bind fun _ =>
  (eachLinks c s q (fun (acc : List Link) l => (.cont, acc ++ [l])) []).map (·.2)

/-- `resolve_danglind_internal` (`store.rs:487-509`), wrapping. -/
def resolveInternalR (c : Cfg) (s : Store) (index : Nat) : Option Store :=
  (eachIterR c s (sideQuery c .src index)).bind fun l1 =>
  (moveOut c .src index ((l1.map (·.index)).filter (· ≠ index)) s).bind fun s1 =>
  (eachIterR c s1 (sideQuery c .tgt index)).bind fun l2 =>
  moveOut c .tgt index
    (((l2.filter fun l => l.index ≠ index).filter fun l =>
      ¬ (l.index = l.source ∧ l.index = l.target)).map (·.index)) s1

/-- `resolve_danglind_external` (`store.rs:511-533`), wrapping. -/
def resolveExternalR (c : Cfg) (s : Store) (free : Nat) : Option Store :=
  (eachIterR c s (sideQuery c .src free)).bind fun l1 =>
  (moveIn c .src free ((l1.map (·.index)).filter (· ≠ free)) s).bind fun s1 =>
  (eachIterR c s1 (sideQuery c .tgt free)).bind fun l2 =>
  moveIn c .tgt free
    (((l2.filter fun l => l.index ≠ free).filter fun l =>
      ¬ (l.index = l.source ∧ l.index = l.target)).map (·.index)) s1

/-- End of `create_links` (`store.rs:728-733`), wrapping. -/
def createEndR {σ : Type} (c : Cfg) (s : Store) (free : Nat) (h : WH σ) (st : σ) :
    Option (Out Store σ Flow) :=
  (resolveExternalR c s free).map fun s' =>
    let r := h st Link.nothing ⟨free, 0, 0⟩
    ⟨.ok r.1, s', r.2⟩

/-- `create_links` when no free slot was available, after the growth (`store.rs:721-723,728-733`), wrapping. -/
def createTopR {σ : Type} (c : Cfg) (s : Store) (h : WH σ) (st : σ) : Option (Out Store σ Flow) :=
  let a := wadd c.maxT s.hdr.allocated 1
  createEndR c { s with hdr := { s.hdr with allocated := a } } a h st

/-- `create_links` (`store.rs:691-734`), wrapping. -/
def createLinksR {σ : Type} (c : Cfg) (s : Store) (_q : List Nat) (h : WH σ) (st : σ) :
    Option (Out Store σ Flow) :=
  let free := s.hdr.firstFree
  if free = c.consts.null then
    if c.consts.internalEnd ≤ s.hdr.allocated then
      some ⟨.error (.limitReached c.consts.internalEnd), s, st⟩
    else if wsub c.maxT s.hdr.reserved 1 ≤ s.hdr.allocated then
      match c.dalloc s.dlen (s.dlen + c.step) with
      | none => some ⟨.error .allocFailed, s, st⟩
      | some d =>
        match c.ialloc s.ilen (s.ilen + c.step) with
        | none => some ⟨.error .allocFailed, { s with dlen := d, stale := true }, st⟩
        | some n =>
          if n ≤ c.maxT then
            createTopR c { s with dlen := d, ilen := n, stale := false,
                                  hdr := { s.hdr with reserved := n } } h st
          else none
    else createTopR c s h st
  else
    (unusedDetach c s free).bind fun s' => createEndR c s' free h st

/-- `delete_links` (`store.rs:812-849`), wrapping. -/
def deleteLinksR {σ : Type} (c : Cfg) (s : Store) (q : List Nat) (h : WH σ) (st : σ) :
    Option (Out Store σ Flow) :=
  q[0]?.bind fun index =>
  (getLink c s index).bind fun
    | none => some ⟨.error (.notExists index), s, st⟩
    | some l =>
      (resolveInternalR c s index).bind fun s0 =>
      (updateLinks c s0 [index] [index, 0, 0] (fun (u : _root_.Unit) _ _ => (.cont, u)) ()).bind fun o =>
      match o.res with
      | .error e => some ⟨.error e, o.st, st⟩
      | .ok _ =>
        let s1 := o.st
        (if index < s1.hdr.allocated then unusedAttachFirst c s1 index
         else if index = s1.hdr.allocated then
          releaseTop c (s1.hdr.allocated + 1)
            { s1 with hdr := { s1.hdr with allocated := wsub c.maxT s1.hdr.allocated 1 } }
         else none).map fun s2 =>
          let r := h st l Link.nothing
          ⟨.ok r.1, s2, r.2⟩

/-- The split store (`store.rs:536-870`) in a build without overflow checks: `each_links`, `update_links` and `get_link` contain
no arithmetic. -/
def linksR (c : Cfg) : Links Store where
  maxT := c.maxT
  consts _ := c.consts
  countLinks := countLinksR c
  createLinks := createLinksR c
  eachLinks := eachLinks c
  updateLinks := updateLinks c
  deleteLinks := deleteLinksR c
  getLink := getLink c

variable {c : Cfg}

theorem total_agrees (s : Store) : Agrees (total s) (some (totalR c s)) := csub_agrees ..

theorem extCount_agrees (s : Store) (d : Side) (v : Nat) : Agrees (extCount c s d v) (extCountR c s d v) :=
  countUsages_agrees ..

theorem count3_agrees (s : Store) (i a b : Nat) : Agrees (count3 c s i a b) (count3R c s i a b) :=
  .bind (.refl _) fun _ => .bind (.refl _) fun _ =>
  .ite (fun _ => .ite (fun _ => total_agrees s) fun _ => .ite (fun _ => .ite (fun _ => extCount_agrees ..) fun _ => .refl _) fun _ =>
    .ite (fun _ => extCount_agrees ..) fun _ => .refl _) fun _ => .refl _

theorem countLinks_agrees (s : Store) (q : List Nat) : Agrees (countLinks c s q) (countLinksR c s q) :=
  .ite (fun _ => total_agrees s) fun _ => .bind (.refl _) fun index =>
    .ite (fun _ => .ite (fun _ => total_agrees s) fun _ => .refl _) fun _ =>
    .ite (fun _ => .bind (.refl _) fun value => .bind (.refl _) fun _ =>
      .ite (fun _ => .ite (fun _ => total_agrees s) fun _ =>
        .ite (fun _ => sum_agrees _ (extCount_agrees ..) (extCount_agrees ..)) fun _ => sum_agrees _ (.refl _) (.refl _))
        fun _ => .refl _) fun _ =>
    .ite (fun _ => .bind (.refl _) fun _ => .bind (.refl _) fun _ => count3_agrees ..) fun _ => .refl _

theorem eachIter_agrees (s : Store) (q : List Nat) : Agrees (eachIter c s q) (eachIterR c s q) :=
  .bind (countLinks_agrees s q) fun _ => .refl _

theorem resolveInternal_agrees (s : Store) (i : Nat) : Agrees (resolveInternal c s i) (resolveInternalR c s i) :=
  .bind (eachIter_agrees ..) fun _ => .bind (.refl _) fun _ => .bind (eachIter_agrees ..) fun _ => .refl _

theorem resolveExternal_agrees (s : Store) (i : Nat) : Agrees (resolveExternal c s i) (resolveExternalR c s i) :=
  .bind (eachIter_agrees ..) fun _ => .bind (.refl _) fun _ => .bind (eachIter_agrees ..) fun _ => .refl _

theorem createEnd_agrees {σ : Type} (s : Store) (i : Nat) (h : WH σ) (st : σ) :
    Agrees (createEnd c s i h st) (createEndR c s i h st) := .map _ (resolveExternal_agrees ..)

theorem createTop_agrees {σ : Type} (s : Store) (h : WH σ) (st : σ) : Agrees (createTop c s h st) (createTopR c s h st) :=
  .step (cadd_agrees ..) (createEnd_agrees ..)

theorem createLinks_agrees {σ : Type} (s : Store) (q : List Nat) (h : WH σ) (st : σ) :
    Agrees (createLinks c s q h st) (createLinksR c s q h st) := by
  refine .ite (fun _ => .ite (fun _ => .refl _) fun _ => ?_) fun _ => .bind (.refl _) fun _ => createEnd_agrees ..
  refine .step (csub_agrees c.maxT ..) (.ite (fun _ => ?_) fun _ => createTop_agrees ..)
  cases c.dalloc s.dlen (s.dlen + c.step) with
  | none => exact .refl _
  | some d =>
    show Agrees (match c.ialloc s.ilen (s.ilen + c.step) with | none => _ | some n => _)
      (match c.ialloc s.ilen (s.ilen + c.step) with | none => _ | some n => _)
    cases c.ialloc s.ilen (s.ilen + c.step) with
    | none => exact .refl _
    | some n => exact .ite (fun _ => createTop_agrees ..) fun _ => .refl _

theorem deleteLinks_agrees {σ : Type} (s : Store) (q : List Nat) (h : WH σ) (st : σ) :
    Agrees (deleteLinks c s q h st) (deleteLinksR c s q h st) := by
  refine .bind (.refl _) fun index => .bind (.refl _) fun l => ?_
  cases l with
  | none => exact .refl _
  | some l =>
    refine .bind (resolveInternal_agrees ..) fun s0 => .bind (.refl _) fun o => ?_
    obtain ⟨res, s1, hs⟩ := o
    cases res with
    | error _ => exact .refl _
    | ok _ =>
      refine .map _ (.ite (fun _ => .refl _) fun _ => .ite (fun _ => ?_) fun _ => .refl _)
      exact .step (csub_agrees c.maxT ..) (.refl _)

theorem init_agrees (maxU : Nat) (s : Store) : Agrees (init c s) (initR c maxU s) := by
  unfold init initR
  cases c.dalloc s.dlen c.page with
  | none => exact .refl _
  | some d1 =>
    cases c.ialloc s.ilen c.page with
    | none => exact .refl _
    | some i1 =>
      refine .ite (fun _ => .refl _) fun _ => ?_
      show Agrees (match c.dalloc d1 (align (max (max s.hdr.allocated d1) c.step) c.step) with | none => _ | some d2 => _)
        (match c.dalloc d1 (align (max (max s.hdr.allocated d1) c.step) c.step) with | none => _ | some d2 => _)
      cases c.dalloc d1 (align (max (max s.hdr.allocated d1) c.step) c.step) with
      | none => exact .refl _
      | some d2 =>
        show Agrees (match c.ialloc i1 (align (max (max s.hdr.allocated i1) c.step) c.step) with | none => _ | some i2 => _)
          (match c.ialloc i1 (align (max (max s.hdr.allocated i1) c.step) c.step) with | none => _ | some i2 => _)
        cases c.ialloc i1 (align (max (max s.hdr.allocated i1) c.step) c.step) with
        | none => exact .refl _
        | some i2 => exact .step (csub_agrees maxU ..) (.refl _)

theorem links_agree : (links c).Agree (linksR c) where
  maxT := rfl
  consts _ := rfl
  count := countLinks_agrees
  create := createLinks_agrees
  each _ _ _ _ := .refl _
  update _ _ _ _ _ := .refl _
  delete := deleteLinks_agrees
  get _ _ := .refl _

end Verif.Split
