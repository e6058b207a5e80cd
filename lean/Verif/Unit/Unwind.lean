import Verif.Unwind
import Verif.Unit.Reach

/-!
# The united store with write handlers that may panic

The three methods of `unit/store.rs` that take a write handler, with the call of the handler where the code has it. The update made by
`delete_links` has a handler of its own, which does not panic.
-/

namespace Verif.Unit
open Verif Links

/-- End of `create_links` when no free slot was available (`store.rs:453-455,459-462`). -/
def createTopP {σ : Type} (c : Cfg) (s : Store) (h : PH σ) (st : σ) : Option (Ran Store σ Flow) :=
  (cadd c.maxT s.hdr.allocated 1).map fun a =>
    lastly { s with hdr := { s.hdr with allocated := a } } h st Link.nothing ⟨a, 0, 0⟩

/-- `create_links` (`store.rs:429-463`). -/
def createLinksP {σ : Type} (c : Cfg) (s : Store) (_q : List Nat) (h : PH σ) (st : σ) : Option (Ran Store σ Flow) :=
  let free := s.hdr.firstFree
  if free = c.consts.null then
    if c.consts.internalEnd ≤ s.hdr.allocated then
      some (.back ⟨.error (.limitReached c.consts.internalEnd), s, st⟩)
    else
      (csub s.hdr.reserved 1).bind fun r1 =>
      if r1 ≤ s.hdr.allocated then
        match c.alloc s.len (s.len + c.step) with
        | none => some (.back ⟨.error .allocFailed, s, st⟩)
        | some n =>
          if n ≤ c.maxT then
            createTopP c { s with len := n, hdr := { s.hdr with reserved := n } } h st
          else none
      else createTopP c s h st
  else
    (unusedDetach c s free).map fun s' => lastly s' h st Link.nothing ⟨free, 0, 0⟩

/-- `update_links` (`store.rs:469-520`). -/
def updateLinksP {σ : Type} (c : Cfg) (s : Store) (q change : List Nat) (h : PH σ) (st : σ) : Option (Ran Store σ Flow) :=
  q[0]?.bind fun index =>
  change[1]?.bind fun source =>
  change[2]?.bind fun target =>
  let oldSource := source
  let oldTarget := target
  (getLink c s index).bind fun
    | none => some (.back ⟨.error (.notExists index), s, st⟩)
    | some l =>
      (relink c s l index source target).map fun s' =>
        lastly s' h st ⟨index, oldSource, oldTarget⟩ ⟨index, source, target⟩

/-- `delete_links` (`store.rs:522-554`). -/
def deleteLinksP {σ : Type} (c : Cfg) (s : Store) (q : List Nat) (h : PH σ) (st : σ) : Option (Ran Store σ Flow) :=
  q[0]?.bind fun index =>
  (getLink c s index).bind fun
    | none => some (.back ⟨.error (.notExists index), s, st⟩)
    | some l =>
      (updateLinks c s [index] [index, 0, 0] (fun (u : _root_.Unit) _ _ => (.cont, u)) ()).bind fun o =>
      match o.res with
      | .error e => some (.back ⟨.error e, o.st, st⟩)
      | .ok _ =>
        let s1 := o.st
        (if index < s1.hdr.allocated then unusedAttachFirst c s1 index
         else if index = s1.hdr.allocated then
          (csub s1.hdr.allocated 1).bind fun a =>
            releaseTop c (s1.hdr.allocated + 1) { s1 with hdr := { s1.hdr with allocated := a } }
         else none).map fun s2 => lastly s2 h st l Link.nothing

/-- The store with handlers that may panic. -/
def linksP (c : Cfg) : LinksP Store where
  reads := links c
  createLinks := createLinksP c
  updateLinks := updateLinksP c
  deleteLinks := deleteLinksP c

variable {c : Cfg}

theorem createTop_showsLast (s : Store) : ShowsLast (fun _ h st => createTop c s h st) (fun _ h st => createTopP c s h st) := by
  simp only [createTop, createTopP]
  cases cadd c.maxT s.hdr.allocated 1 with
  | none => exact .inl ⟨fun _ _ _ => rfl, fun _ _ _ => rfl⟩
  | some a => exact .inr (.inr ⟨_, _, _, fun _ _ _ => rfl, fun _ _ _ => rfl⟩)

theorem linksP_courteous (c : Cfg) : Courteous (links c) (linksP c) where
  reads := rfl
  create s q := by
    show ShowsLast (fun _ h st => createLinks c s q h st) (fun _ h st => createLinksP c s q h st)
    simp only [createLinks, createLinksP]
    split
    · split
      · exact .inr (.inl ⟨_, _, fun _ _ _ => rfl, fun _ _ _ => rfl⟩)
      · cases csub s.hdr.reserved 1 with
        | none => exact .inl ⟨fun _ _ _ => rfl, fun _ _ _ => rfl⟩
        | some r1 =>
          simp only [Option.bind_some]
          split
          · cases c.alloc s.len (s.len + c.step) with
            | none => exact .inr (.inl ⟨_, _, fun _ _ _ => rfl, fun _ _ _ => rfl⟩)
            | some n =>
              simp only
              split
              · exact createTop_showsLast _
              · exact .inl ⟨fun _ _ _ => rfl, fun _ _ _ => rfl⟩
          · exact createTop_showsLast _
    · cases unusedDetach c s s.hdr.firstFree with
      | none => exact .inl ⟨fun _ _ _ => rfl, fun _ _ _ => rfl⟩
      | some s' => exact .inr (.inr ⟨_, _, _, fun _ _ _ => rfl, fun _ _ _ => rfl⟩)
  update s q ch := by
    show ShowsLast (fun _ h st => updateLinks c s q ch h st) (fun _ h st => updateLinksP c s q ch h st)
    simp only [updateLinks, updateLinksP]
    cases q[0]? with
    | none => exact .inl ⟨fun _ _ _ => rfl, fun _ _ _ => rfl⟩
    | some i =>
      cases ch[1]? with
      | none => exact .inl ⟨fun _ _ _ => rfl, fun _ _ _ => rfl⟩
      | some a =>
        cases ch[2]? with
        | none => exact .inl ⟨fun _ _ _ => rfl, fun _ _ _ => rfl⟩
        | some b =>
          simp only [Option.bind_some]
          cases getLink c s i with
          | none => exact .inl ⟨fun _ _ _ => rfl, fun _ _ _ => rfl⟩
          | some l =>
            simp only [Option.bind_some]
            cases l with
            | none => exact .inr (.inl ⟨_, _, fun _ _ _ => rfl, fun _ _ _ => rfl⟩)
            | some l =>
              simp only
              cases relink c s l i a b with
              | none => exact .inl ⟨fun _ _ _ => rfl, fun _ _ _ => rfl⟩
              | some s' => exact .inr (.inr ⟨_, _, _, fun _ _ _ => rfl, fun _ _ _ => rfl⟩)
  delete s q := by
    show ShowsLast (fun _ h st => deleteLinks c s q h st) (fun _ h st => deleteLinksP c s q h st)
    simp only [deleteLinks, deleteLinksP]
    cases q[0]? with
    | none => exact .inl ⟨fun _ _ _ => rfl, fun _ _ _ => rfl⟩
    | some i =>
      simp only [Option.bind_some]
      cases getLink c s i with
      | none => exact .inl ⟨fun _ _ _ => rfl, fun _ _ _ => rfl⟩
      | some l =>
        simp only [Option.bind_some]
        cases l with
        | none => exact .inr (.inl ⟨_, _, fun _ _ _ => rfl, fun _ _ _ => rfl⟩)
        | some l =>
          simp only
          cases updateLinks c s [i] [i, 0, 0] (fun (u : _root_.Unit) _ _ => (.cont, u)) () with
          | none => exact .inl ⟨fun _ _ _ => rfl, fun _ _ _ => rfl⟩
          | some o =>
            simp only [Option.bind_some]
            cases o.res with
            | error e => exact .inr (.inl ⟨_, _, fun _ _ _ => rfl, fun _ _ _ => rfl⟩)
            | ok r =>
              simp only
              generalize (if i < o.st.hdr.allocated then unusedAttachFirst c o.st i else if i = o.st.hdr.allocated then
                  (csub o.st.hdr.allocated 1).bind fun a =>
                    releaseTop c (o.st.hdr.allocated + 1) { o.st with hdr := { o.st.hdr with allocated := a } }
                else none) = x
              cases x with
              | none => exact .inl ⟨fun _ _ _ => rfl, fun _ _ _ => rfl⟩
              | some s2 => exact .inr (.inr ⟨_, _, _, fun _ _ _ => rfl, fun _ _ _ => rfl⟩)

end Verif.Unit
