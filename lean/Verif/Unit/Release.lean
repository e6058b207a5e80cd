import Verif.Release
import Verif.Unit.Instance

/-!
# The united store in a build without overflow checks
-/

namespace Verif.Unit
open Verif

/-- `sources.count_usages` (`sources_recursionless_size_balanced_tree.rs:130-157`), wrapping. -/
def srcCountR (c : Cfg) (s : Store) (v : Nat) : Option Nat :=
  countUsagesR s.srcNode c.maxT Node.source (s.len + 1) s.hdr.rootS v

/-- `targets.count_usages` (`targets_recursionless_size_balanced_tree.rs:130-157`), wrapping. -/
def tgtCountR (c : Cfg) (s : Store) (v : Nat) : Option Nat :=
  countUsagesR s.tgtNode c.maxT Node.target (s.len + 1) s.hdr.rootT v

/-- `get_total` (`store.rs:189-192`), wrapping. -/
def getTotalR (c : Cfg) (s : Store) : Nat := wsub c.maxT s.hdr.allocated s.hdr.free

/-- `init` (`store.rs:81-95`), wrapping: the number of slots is a `usize`, whose largest value is `maxU`. -/
def initR (c : Cfg) (maxU : Nat) (s : Store) : Option (Except Err Store) :=
  match c.alloc s.len c.page with
  | none => some (.error .allocFailed)
  | some n1 =>
    if n1 = 0 then none
    else
      let capacity := max c.step s.hdr.allocated
      match c.alloc n1 capacity with
      | none => some (.error .allocFailed)
      | some n2 =>
        let r := wsub maxU n2 1
        if r ≤ c.maxT then
          some (.ok { s with len := n2, hdr := { s.hdr with reserved := r } })
        else none

/-- `count_links`, query of length three (`store.rs:378-424`), wrapping. -/
def count3R (c : Cfg) (s : Store) (index source target : Nat) : Option Nat :=
  let any := c.consts.any
  if index = any then
    if target = any ∧ source = any then some (getTotalR c s)
    else if source = any then tgtCountR c s target
    else if target = any then srcCountR c s source
    else (srcSearch s source target).map fun link => if link = c.consts.null then 0 else 1
  else
    (exists? c s index).bind fun e =>
    if !e then some 0
    else if source = any ∧ target = any then some 1
    else
      (getLinkUnchecked s index).map fun l =>
        if source ≠ any ∧ target ≠ any then oneIf (l.source = source ∧ l.target = target)
        else if source = any then oneIf (l.target = target)
        else if target = any then oneIf (l.source = source)
        else 0

/-- `count_links` (`store.rs:330-427`), wrapping. -/
def countLinksR (c : Cfg) (s : Store) (q : List Nat) : Option Nat :=
  let any := c.consts.any
  if q.length = 0 then some (getTotalR c s)
  else
    q[c.consts.indexPart]?.bind fun index =>
    if q.length = 1 then
      if index = any then some (getTotalR c s) else (exists? c s index).map oneIf
    else if q.length = 2 then
      q[1]?.bind fun value =>
      if index = any then
        if value = any then some (getTotalR c s)
        else
          (tgtCountR c s value).bind fun a => (srcCountR c s value).map fun b => wadd c.maxT a b
      else
        (exists? c s index).bind fun e =>
        if !e then some 0
        else if value = any then some 1
        else
          (getLink c s index).map fun
            | none => 0
            | some l => oneIf (l.source = value ∨ l.target = value)
    else if q.length = 3 then
      q[c.consts.sourcePart]?.bind fun source =>
      q[c.consts.targetPart]?.bind fun target =>
      count3R c s index source target
    else none

/-- End of `create_links` when no free slot was available (`store.rs:453-455,459-462`), wrapping. -/
def createTopR {σ : Type} (c : Cfg) (s : Store) (h : WH σ) (st : σ) : Option (Out Store σ Flow) :=
  let a := wadd c.maxT s.hdr.allocated 1
  let r := h st Link.nothing ⟨a, 0, 0⟩
  some ⟨.ok r.1, { s with hdr := { s.hdr with allocated := a } }, r.2⟩

/-- `create_links` (`store.rs:429-463`), wrapping. -/
def createLinksR {σ : Type} (c : Cfg) (s : Store) (_q : List Nat) (h : WH σ) (st : σ) :
    Option (Out Store σ Flow) :=
  let free := s.hdr.firstFree
  if free = c.consts.null then
    if c.consts.internalEnd ≤ s.hdr.allocated then
      some ⟨.error (.limitReached c.consts.internalEnd), s, st⟩
    else if wsub c.maxT s.hdr.reserved 1 ≤ s.hdr.allocated then
      match c.alloc s.len (s.len + c.step) with
      | none => some ⟨.error .allocFailed, s, st⟩
      | some n =>
        if n ≤ c.maxT then
          createTopR c { s with len := n, hdr := { s.hdr with reserved := n } } h st
        else none
    else createTopR c s h st
  else
    (unusedDetach c s free).map fun s' =>
      let r := h st Link.nothing ⟨free, 0, 0⟩
      ⟨.ok r.1, s', r.2⟩

/-- `delete_links` (`store.rs:522-554`), wrapping. -/
def deleteLinksR {σ : Type} (c : Cfg) (s : Store) (q : List Nat) (h : WH σ) (st : σ) :
    Option (Out Store σ Flow) :=
  q[0]?.bind fun index =>
  (getLink c s index).bind fun
    | none => some ⟨.error (.notExists index), s, st⟩
    | some l =>
      (updateLinks c s [index] [index, 0, 0] (fun (u : _root_.Unit) _ _ => (.cont, u)) ()).bind fun o =>
      match o.res with
      | .error e => some ⟨.error e, o.st, st⟩
      | .ok _ =>
        let s1 := o.st
        (if index < s1.hdr.allocated then unusedAttachFirst c s1 index
         else if index = s1.hdr.allocated then
          releaseTop c (s1.hdr.allocated + 1)
            { s1 with hdr := { s1.hdr with allocated := wsub c.maxT s1.hdr.allocated 1 } }
         else none).map fun s2 =>
          let r := h st l Link.nothing
          ⟨.ok r.1, s2, r.2⟩

/-- The united store (`store.rs:322-568`) in a build without overflow checks: `each_links`, `update_links` and `get_link` contain
no arithmetic. -/
def linksR (c : Cfg) : Links Store where
  maxT := c.maxT
  consts _ := c.consts
  countLinks := countLinksR c
  createLinks := createLinksR c
  eachLinks := eachLinks c
  updateLinks := updateLinks c
  deleteLinks := deleteLinksR c
  getLink := getLink c

variable {c : Cfg}

theorem getTotal_agrees (s : Store) : Agrees (getTotal s) (some (getTotalR c s)) := csub_agrees ..

theorem count3_agrees (s : Store) (i a b : Nat) : Agrees (count3 c s i a b) (count3R c s i a b) :=
  .ite (fun _ => .ite (fun _ => getTotal_agrees s) fun _ => .ite (fun _ => countUsages_agrees ..) fun _ =>
    .ite (fun _ => countUsages_agrees ..) fun _ => .refl _) fun _ => .refl _

/-- `a + b`, overflow checked and wrapping. -/
theorem sum_agrees {x y x' y' : Option Nat} (maxT : Nat) (hx : Agrees x x') (hy : Agrees y y') :
    Agrees (x.bind fun a => y.bind fun b => cadd maxT a b) (x'.bind fun a => y'.map fun b => wadd maxT a b) :=
  .bind hx fun a => by
    rw [show (y'.map fun b => wadd maxT a b) = y'.bind fun b => some (wadd maxT a b) by cases y' <;> rfl]
    exact .bind hy fun b => cadd_agrees ..

theorem countLinks_agrees (s : Store) (q : List Nat) : Agrees (countLinks c s q) (countLinksR c s q) :=
  .ite (fun _ => getTotal_agrees s) fun _ => .bind (.refl _) fun index =>
    .ite (fun _ => .ite (fun _ => getTotal_agrees s) fun _ => .refl _) fun _ =>
    .ite (fun _ => .bind (.refl _) fun value =>
      .ite (fun _ => .ite (fun _ => getTotal_agrees s) fun _ =>
        sum_agrees _ (countUsages_agrees ..) (countUsages_agrees ..)) fun _ => .refl _) fun _ =>
    .ite (fun _ => .bind (.refl _) fun _ => .bind (.refl _) fun _ => count3_agrees ..) fun _ => .refl _

theorem createTop_agrees {σ : Type} (s : Store) (h : WH σ) (st : σ) : Agrees (createTop c s h st) (createTopR c s h st) :=
  .map _ (cadd_agrees ..)

theorem createLinks_agrees {σ : Type} (s : Store) (q : List Nat) (h : WH σ) (st : σ) :
    Agrees (createLinks c s q h st) (createLinksR c s q h st) := by
  refine .ite (fun _ => .ite (fun _ => .refl _) fun _ => ?_) fun _ => .refl _
  refine .step (csub_agrees c.maxT ..) (.ite (fun _ => ?_) fun _ => createTop_agrees ..)
  cases c.alloc s.len (s.len + c.step) with
  | none => exact .refl _
  | some n => exact .ite (fun _ => createTop_agrees ..) fun _ => .refl _

theorem deleteLinks_agrees {σ : Type} (s : Store) (q : List Nat) (h : WH σ) (st : σ) :
    Agrees (deleteLinks c s q h st) (deleteLinksR c s q h st) := by
  refine .bind (.refl _) fun index => .bind (.refl _) fun l => ?_
  cases l with
  | none => exact .refl _
  | some l =>
    refine .bind (.refl _) fun o => ?_
    obtain ⟨res, s1, hs⟩ := o
    cases res with
    | error _ => exact .refl _
    | ok _ =>
      refine .map _ (.ite (fun _ => .refl _) fun _ => .ite (fun _ => ?_) fun _ => .refl _)
      exact .step (csub_agrees c.maxT ..) (.refl _)

theorem init_agrees (maxU : Nat) (s : Store) : Agrees (init c s) (initR c maxU s) := by
  unfold init initR
  cases c.alloc s.len c.page with
  | none => exact .refl _
  | some n1 =>
    refine .ite (fun _ => .refl _) fun _ => ?_
    show Agrees (match c.alloc n1 (max c.step s.hdr.allocated) with | none => _ | some n2 => _)
      (match c.alloc n1 (max c.step s.hdr.allocated) with | none => _ | some n2 => _)
    cases c.alloc n1 (max c.step s.hdr.allocated) with
    | none => exact .refl _
    | some n2 =>
      exact .step (csub_agrees maxU ..) (.refl _)

theorem links_agree : (links c).Agree (linksR c) where
  maxT := rfl
  consts _ := rfl
  count := countLinks_agrees
  create := createLinks_agrees
  each _ _ _ _ := .refl _
  update _ _ _ _ _ := .refl _
  delete := deleteLinks_agrees
  get _ _ := .refl _

end Verif.Unit
