import Verif.Split.History

/-!
# Crash points of the split store

As in `Unit/Crash.lean`: `callImages` lists the states the two memories pass through during a call, oldest first, one
before the first update and one after each. One update is a field assignment of the store's own code or one whole call
of the `trees` crate. `callImages_last` ties the images to the model of the calls.
-/

namespace Verif.Split
open Verif

/-- A piece of code as a crash sees it: the states after each of its updates, and the state in which it ends (`none`:
it panics). -/
abbrev Run := Store → List Store × Option Store

/-- No update. -/
def Run.done : Run := fun s => ([], some s)

/-- One update. -/
def Run.upd (f : Store → Option Store) : Run := fun s =>
  match f s with
  | none => ([], none)
  | some s' => ([s'], some s')

/-- One piece of code after the other. -/
def Run.seq (a b : Run) : Run := fun s =>
  match (a s).2 with
  | none => ((a s).1, none)
  | some s1 => ((a s).1 ++ (b s1).1, (b s1).2)

/-- Code that depends on a value read from the memory. -/
def Run.read {α : Type} (f : Store → Option α) (g : α → Run) : Run := fun s =>
  match f s with
  | none => ([], none)
  | some x => g x s

/-- Moves of links between trees (`store.rs:489-508,513-532`), each link taken out of one tree and put into another. -/
def moveRun (out into : Nat → Store → Option Store) : List Nat → Run
  | [] => .done
  | k :: ks => .seq (.upd (out k)) (.seq (.upd (into k)) (moveRun out into ks))

/-- The indices collected by the second loop of `resolve_danglind_…` (`store.rs:499-503,523-527`). -/
def tgtUsers (i : Nat) (L : List Link) : List Nat :=
  ((L.filter fun l => l.index ≠ i).filter fun l => ¬ (l.index = l.source ∧ l.index = l.target)).map (·.index)

/-- `resolve_danglind_internal` (`store.rs:487-509`). -/
def resolveInternalRun (c : Cfg) (i : Nat) : Run :=
  .read (eachIter c · (sideQuery c .src i)) fun l1 =>
  .seq (moveRun (fun k s => detachInt c .src s i k) (fun k s => attachExt c .src s k)
    ((l1.map (·.index)).filter (· ≠ i))) <|
  .read (eachIter c · (sideQuery c .tgt i)) fun l2 =>
  moveRun (fun k s => detachInt c .tgt s i k) (fun k s => attachExt c .tgt s k) (tgtUsers i l2)

/-- `resolve_danglind_external` (`store.rs:511-533`). -/
def resolveExternalRun (c : Cfg) (i : Nat) : Run :=
  .read (eachIter c · (sideQuery c .src i)) fun l1 =>
  .seq (moveRun (fun k s => detachExt c .src s k) (fun k s => attachInt c .src s i k)
    ((l1.map (·.index)).filter (· ≠ i))) <|
  .read (eachIter c · (sideQuery c .tgt i)) fun l2 =>
  moveRun (fun k s => detachExt c .tgt s k) (fun k s => attachInt c .tgt s i k) (tgtUsers i l2)

/-- `place.source = new_source` (`store.rs:780`). -/
def setSource (i source : Nat) (s : Store) : Option Store := setPair s i source (s.data i).2

/-- `place.target = new_target` (`store.rs:781`). -/
def setTarget (i target : Nat) (s : Store) : Option Store := setPair s i (s.data i).1 target

/-- `update_links` on the existing link `l` (`store.rs:752-807`). -/
def relinkRun (c : Cfg) (l : Link) (i source target : Nat) : Run :=
  .seq (.upd (detachEnd c .src l.source i)) <|
  .seq (.upd (detachEnd c .tgt l.target i)) <|
  .read (isUnused · source) fun vs =>
  .read (isUnused · target) fun vt =>
  .seq (.upd (setSource i source)) <|
  .seq (.upd (setTarget i target)) <|
  .seq (.upd (attachEnd c .src vs source i)) <|
  .upd (attachEnd c .tgt vt target i)

/-- `header.allocated += 1` (`store.rs:722`). -/
def bumpRun (c : Cfg) : Run :=
  .upd fun s => (cadd c.maxT s.hdr.allocated 1).map fun a => { s with hdr := { s.hdr with allocated := a } }

/-- `create_links` (`store.rs:697-728`). If the second memory cannot grow, the first one has grown. -/
def createRun (c : Cfg) : Run := fun s =>
  if s.hdr.firstFree = c.consts.null then
    if c.consts.internalEnd ≤ s.hdr.allocated then Run.done s
    else
      match csub s.hdr.reserved 1 with
      | none => ([], none)
      | some r1 =>
        if r1 ≤ s.hdr.allocated then
          match c.dalloc s.dlen (s.dlen + c.step) with
          | none => Run.done s
          | some d =>
            match c.ialloc s.ilen (s.ilen + c.step) with
            | none => Run.upd (fun s => some { s with dlen := d, stale := true }) s
            | some n =>
              Run.seq (.upd fun s => some { s with dlen := d, stale := true })
                (.seq (.upd fun s => some { s with ilen := n, stale := false })
                (.seq (.upd fun s => if n ≤ c.maxT then some { s with hdr := { s.hdr with reserved := n } } else none)
                (.seq (bumpRun c) (.read (fun s => some s.hdr.allocated) (resolveExternalRun c))))) s
        else Run.seq (bumpRun c) (.read (fun s => some s.hdr.allocated) (resolveExternalRun c)) s
  else Run.seq (.upd (unusedDetach c · s.hdr.firstFree)) (resolveExternalRun c s.hdr.firstFree) s

/-- The loop that releases unused slots at the end (`store.rs:835-842`). -/
def releaseRun (c : Cfg) : Nat → Run
  | 0 => fun _ => ([], none)
  | fuel + 1 => .read (fun s => if s.hdr.allocated = 0 then some false else isUnused s s.hdr.allocated) fun u =>
    if u then
      .read (fun s => some s.hdr.allocated) fun a =>
      .seq (.upd (unusedDetach c · a)) <|
      .seq (.upd fun s => some { s with hdr := { s.hdr with allocated := a - 1 } }) (releaseRun c fuel)
    else .done

/-- End of `delete_links` (`store.rs:822-844`). -/
def dropRun (c : Cfg) (i : Nat) : Run := fun s =>
  if i < s.hdr.allocated then Run.upd (unusedAttachFirst c · i) s
  else if i = s.hdr.allocated then
    Run.seq (.upd fun s => (csub s.hdr.allocated 1).map fun a => { s with hdr := { s.hdr with allocated := a } })
      (releaseRun c (s.hdr.allocated + 1)) s
  else ([], none)

/-- A call: an error of `try_get_link` (`store.rs:750,818`) ends it before any update. -/
def callRun (c : Cfg) : Call → Run
  | .create => createRun c
  | .update i a b => .read (getLink c · i) fun
    | none => .done
    | some l => relinkRun c l i a b
  | .delete i => .read (getLink c · i) fun
    | none => .done
    | some _ => .seq (resolveInternalRun c i) <| .read (getLink c · i) fun
      | none => .done
      | some l => .seq (relinkRun c l i 0 0) (dropRun c i)

/-- States of the memories during a call, oldest first. -/
def callImages (c : Cfg) (s : Store) (k : Call) : List Store := s :: (callRun c k s).1

/-- The call on the store, as the trait's method. -/
def callExec (c : Cfg) (s : Store) {σ : Type} (h : WH σ) (st : σ) : Call → Option (Out Store σ Flow)
  | .create => (links c).createLinks s [] h st
  | .update i a b => (links c).updateLinks s [i] [i, a, b] h st
  | .delete i => (links c).deleteLinks s [i] h st

/-- The link a call changes or deletes. -/
def callAbout (j : Nat) : Call → Prop
  | .create => False
  | .update i _ _ => i = j
  | .delete i => i = j

/-! ### The images and the calls -/

/-- The end state is the last image. -/
def Run.Ends (r : Run) : Prop := ∀ s s', (r s).2 = some s' → (s :: (r s).1).getLast? = some s'

theorem Run.ends_done : Run.Ends .done := fun s s' h => by cases h; rfl

theorem Run.ends_upd (f : Store → Option Store) : Run.Ends (.upd f) := by
  intro s s' h
  unfold Run.upd at h ⊢
  cases hf : f s with
  | none => rw [hf] at h; cases h
  | some x => rw [hf] at h; cases h; rfl

theorem Run.ends_seq {a b : Run} (ha : a.Ends) (hb : b.Ends) : Run.Ends (.seq a b) := by
  intro s s' h
  unfold Run.seq at h ⊢
  cases h1 : (a s).2 with
  | none => rw [h1] at h; cases h
  | some s1 =>
    rw [h1] at h
    simp only at h ⊢
    have e1 := ha s s1 h1
    have e2 := hb s1 s' h
    cases hl : (b s1).1 with
    | nil => rw [hl] at e2; simp only [List.getLast?_singleton] at e2; rw [List.append_nil, e1, ← e2]
    | cons x xs =>
      rw [hl, List.getLast?_cons_cons] at e2
      rw [← List.cons_append, List.getLast?_append, e2]; rfl

theorem Run.ends_read {α : Type} {f : Store → Option α} {g : α → Run} (hg : ∀ x, (g x).Ends) :
    Run.Ends (.read f g) := by
  intro s s' h
  unfold Run.read at h ⊢
  cases hf : f s with
  | none => rw [hf] at h; cases h
  | some x => rw [hf] at h; exact hg x s s' h

theorem ends_moveRun (f g : Nat → Store → Option Store) : ∀ ks, (moveRun f g ks).Ends
  | [] => Run.ends_done
  | _ :: ks => Run.ends_seq (Run.ends_upd _) (Run.ends_seq (Run.ends_upd _) (ends_moveRun f g ks))

theorem ends_resolveInternal (c : Cfg) (i : Nat) : (resolveInternalRun c i).Ends :=
  Run.ends_read fun _ => Run.ends_seq (ends_moveRun _ _ _) (Run.ends_read fun _ => ends_moveRun _ _ _)

theorem ends_resolveExternal (c : Cfg) (i : Nat) : (resolveExternalRun c i).Ends :=
  Run.ends_read fun _ => Run.ends_seq (ends_moveRun _ _ _) (Run.ends_read fun _ => ends_moveRun _ _ _)

theorem ends_relink (c : Cfg) (l : Link) (i a b : Nat) : (relinkRun c l i a b).Ends :=
  Run.ends_seq (Run.ends_upd _) <| Run.ends_seq (Run.ends_upd _) <| Run.ends_read fun _ => Run.ends_read fun _ =>
    Run.ends_seq (Run.ends_upd _) <| Run.ends_seq (Run.ends_upd _) <| Run.ends_seq (Run.ends_upd _) (Run.ends_upd _)

theorem ends_release (c : Cfg) : ∀ fuel, (releaseRun c fuel).Ends
  | 0 => fun _ _ h => by cases h
  | fuel + 1 => Run.ends_read fun u => by
    cases u with
    | false => exact Run.ends_done
    | true =>
      exact Run.ends_read fun _ => Run.ends_seq (Run.ends_upd _) (Run.ends_seq (Run.ends_upd _) (ends_release c fuel))

theorem ends_drop (c : Cfg) (i : Nat) : (dropRun c i).Ends := by
  intro s s' h
  unfold dropRun at h ⊢
  by_cases h1 : i < s.hdr.allocated
  · simp only [h1, if_true] at h ⊢; exact Run.ends_upd _ s s' h
  · by_cases h2 : i = s.hdr.allocated
    · simp only [h1, if_false] at h ⊢
      rw [if_pos h2] at h ⊢
      exact Run.ends_seq (Run.ends_upd _) (ends_release c _) s s' h
    · simp only [h1, h2, if_false] at h; cases h

theorem ends_create (c : Cfg) : (createRun c).Ends := by
  intro s s' h
  have hb : Run.Ends (Run.seq (bumpRun c) (.read (fun s => some s.hdr.allocated) (resolveExternalRun c))) :=
    Run.ends_seq (Run.ends_upd _) (Run.ends_read fun _ => ends_resolveExternal c _)
  unfold createRun at h ⊢
  by_cases h1 : s.hdr.firstFree = c.consts.null
  · simp only [h1, if_true] at h ⊢
    by_cases h2 : c.consts.internalEnd ≤ s.hdr.allocated
    · simp only [h2, if_true] at h ⊢; exact Run.ends_done s s' h
    · simp only [h2, if_false] at h ⊢
      cases h3 : csub s.hdr.reserved 1 with
      | none => rw [h3] at h; cases h
      | some r1 =>
        rw [h3] at h
        simp only at h ⊢
        by_cases h4 : r1 ≤ s.hdr.allocated
        · simp only [h4, if_true] at h ⊢
          cases h5 : c.dalloc s.dlen (s.dlen + c.step) with
          | none => rw [h5] at h; exact Run.ends_done s s' h
          | some d =>
            rw [h5] at h
            simp only at h ⊢
            cases h6 : c.ialloc s.ilen (s.ilen + c.step) with
            | none => rw [h6] at h; exact Run.ends_upd _ s s' h
            | some n =>
              rw [h6] at h
              exact Run.ends_seq (Run.ends_upd _) (Run.ends_seq (Run.ends_upd _) (Run.ends_seq (Run.ends_upd _) hb)) s s' h
        · simp only [h4, if_false] at h ⊢; exact hb s s' h
  · simp only [h1, if_false] at h ⊢
    exact Run.ends_seq (Run.ends_upd _) (ends_resolveExternal c _) s s' h

theorem ends_call (c : Cfg) (k : Call) : (callRun c k).Ends := by
  cases k with
  | create => exact ends_create c
  | update i a b =>
    refine Run.ends_read fun x => ?_
    cases x with
    | none => exact Run.ends_done
    | some l => exact ends_relink c l i a b
  | delete i =>
    refine Run.ends_read fun x => ?_
    cases x with
    | none => exact Run.ends_done
    | some _ =>
      refine Run.ends_seq (ends_resolveInternal c i) (Run.ends_read fun x => ?_)
      cases x with
      | none => exact Run.ends_done
      | some l => exact Run.ends_seq (ends_relink c l i 0 0) (ends_drop c i)

/-! ### The end states are those of the model -/

theorem Run.upd_2 (f : Store → Option Store) (s : Store) : (Run.upd f s).2 = f s := by
  unfold Run.upd; cases f s <;> rfl

theorem Run.seq_2 (a b : Run) (s : Store) : (Run.seq a b s).2 = (a s).2.bind fun s1 => (b s1).2 := by
  unfold Run.seq; cases (a s).2 <;> rfl

theorem Run.read_2 {α : Type} (f : Store → Option α) (g : α → Run) (s : Store) :
    (Run.read f g s).2 = (f s).bind fun x => (g x s).2 := by
  unfold Run.read; cases f s <;> rfl

theorem moveOut_run (c : Cfg) (d : Side) (i : Nat) : ∀ (ks : List Nat) (s : Store),
    (moveRun (fun k s => detachInt c d s i k) (fun k s => attachExt c d s k) ks s).2 = moveOut c d i ks s
  | [], s => rfl
  | k :: ks, s => by
    simp only [moveRun, Run.seq_2, Run.upd_2, moveOut, moveOut_run c d i ks]

theorem moveIn_run (c : Cfg) (d : Side) (i : Nat) : ∀ (ks : List Nat) (s : Store),
    (moveRun (fun k s => detachExt c d s k) (fun k s => attachInt c d s i k) ks s).2 = moveIn c d i ks s
  | [], s => rfl
  | k :: ks, s => by
    simp only [moveRun, Run.seq_2, Run.upd_2, moveIn, moveIn_run c d i ks]

theorem resolveInternal_run (c : Cfg) (s : Store) (i : Nat) :
    (resolveInternalRun c i s).2 = resolveInternal c s i := by
  simp only [resolveInternalRun, Run.read_2, Run.seq_2, moveOut_run, resolveInternal, tgtUsers]

theorem resolveExternal_run (c : Cfg) (s : Store) (i : Nat) :
    (resolveExternalRun c i s).2 = resolveExternal c s i := by
  simp only [resolveExternalRun, Run.read_2, Run.seq_2, moveIn_run, resolveExternal, tgtUsers]

theorem setPair_eq (s : Store) (i a b : Nat) : setPair s i a b = (setSource i a s).bind (setTarget i b) := by
  unfold setSource setTarget setPair
  by_cases h : s.stale = false ∧ i < s.dlen
  · simp only [h, and_self, if_true, Option.bind_some, Option.some.injEq]
    congr 1
    funext k
    by_cases hk : k = i <;> simp [hk]
  · simp [h]

theorem relink_run (c : Cfg) (s : Store) (l : Link) (i a b : Nat) :
    (relinkRun c l i a b s).2 = relink c s l i a b := by
  simp only [relinkRun, Run.read_2, Run.seq_2, Run.upd_2, relink, setPair_eq, Option.bind_assoc]

theorem release_run (c : Cfg) : ∀ (fuel : Nat) (s : Store), (releaseRun c fuel s).2 = releaseTop c fuel s
  | 0, s => rfl
  | fuel + 1, s => by
    simp only [releaseRun, Run.read_2, releaseTop]
    by_cases h : s.hdr.allocated = 0
    · simp only [h, if_true, Option.bind_some, Bool.false_eq_true, if_false]; rfl
    · simp only [h, if_false]
      congr 1
      funext u
      cases u with
      | false => rfl
      | true => simp only [if_true, Run.read_2, Run.seq_2, Run.upd_2, Option.bind_some, release_run c fuel]

theorem createRun_run (c : Cfg) (s : Store) {σ : Type} (h : WH σ) (st : σ) :
    (createRun c s).2 = (createLinks c s [] h st).map (·.st) := by
  have hb : ∀ s, ((Run.seq (bumpRun c) (.read (fun s => some s.hdr.allocated) (resolveExternalRun c))) s).2 =
      (createTop c s h st).map (·.st) := by
    intro s
    simp only [Run.seq_2, Run.read_2, bumpRun, Run.upd_2, createTop, createEnd, resolveExternal_run]
    cases cadd c.maxT s.hdr.allocated 1 with
    | none => rfl
    | some a =>
      simp only [Option.map_some, Option.bind_some]
      cases resolveExternal c { s with hdr := { s.hdr with allocated := a } } a <;> rfl
  unfold createRun createLinks
  by_cases h1 : s.hdr.firstFree = c.consts.null
  · simp only [h1, if_true]
    by_cases h2 : c.consts.internalEnd ≤ s.hdr.allocated
    · simp only [h2, if_true]; rfl
    · simp only [h2, if_false]
      cases h3 : csub s.hdr.reserved 1 with
      | none => rfl
      | some r1 =>
        simp only [Option.bind_some]
        by_cases h4 : r1 ≤ s.hdr.allocated
        · simp only [h4, if_true]
          cases h5 : c.dalloc s.dlen (s.dlen + c.step) with
          | none => rfl
          | some d =>
            simp only
            cases h6 : c.ialloc s.ilen (s.ilen + c.step) with
            | none => rfl
            | some n =>
              simp only
              rw [Run.seq_2, Run.upd_2, Option.bind_some, Run.seq_2, Run.upd_2, Option.bind_some, Run.seq_2, Run.upd_2]
              by_cases h7 : n ≤ c.maxT
              · simp only [h7, if_true, Option.bind_some]; exact (hb _).trans (by rw [h1])
              · simp only [h7, if_false]; rfl
        · simp only [h4, if_false]; exact hb s
  · simp only [h1, if_false]
    rw [Run.seq_2, Run.upd_2]
    cases unusedDetach c s s.hdr.firstFree with
    | none => rfl
    | some s1 =>
      simp only [Option.bind_some, createEnd, resolveExternal_run]
      cases resolveExternal c s1 s.hdr.firstFree <;> rfl

theorem call_run (c : Cfg) (s : Store) (k : Call) {σ : Type} (h : WH σ) (st : σ) :
    (callRun c k s).2 = (callExec c s h st k).map (·.st) := by
  cases k with
  | create => exact createRun_run c s h st
  | update i a b =>
    simp only [callRun, Run.read_2, callExec, links, updateLinks, List.getElem?_cons_zero, List.getElem?_cons_succ,
      Option.bind_some]
    cases getLink c s i with
    | none => rfl
    | some r => cases r with
      | none => rfl
      | some l =>
        simp only [Option.bind_some, relink_run]
        cases relink c s l i a b <;> rfl
  | delete i =>
    simp only [callRun, Run.read_2, callExec, links, deleteLinks, List.getElem?_cons_zero,
      Option.bind_some]
    cases getLink c s i with
    | none => rfl
    | some r => cases r with
      | none => rfl
      | some l =>
        simp only [Option.bind_some, Run.seq_2, resolveInternal_run]
        cases resolveInternal c s i with
        | none => rfl
        | some s0 =>
          simp only [Option.bind_some, Run.read_2, updateLinks, List.getElem?_cons_zero, List.getElem?_cons_succ]
          cases getLink c s0 i with
          | none => rfl
          | some r => cases r with
            | none => rfl
            | some l0 =>
              simp only [Option.bind_some, Run.seq_2, relink_run]
              cases relink c s0 l0 i 0 0 with
              | none => rfl
              | some s1 =>
                simp only [Option.bind_some, Option.map_some, dropRun]
                by_cases h1 : i < s1.hdr.allocated
                · simp only [h1, if_true, Run.upd_2]
                  cases unusedAttachFirst c s1 i <;> rfl
                · simp only [h1, if_false]
                  by_cases h2 : i = s1.hdr.allocated
                  · rw [if_pos h2, if_pos h2]
                    simp only [Run.seq_2, Run.upd_2, release_run]
                    cases csub s1.hdr.allocated 1 with
                    | none => rfl
                    | some a =>
                      simp only [Option.map_some, Option.bind_some]
                      cases releaseTop c (s1.hdr.allocated + 1) { s1 with hdr := { s1.hdr with allocated := a } } <;> rfl
                  · rw [if_neg h2, if_neg h2]; rfl

/-- Whenever a call returns, successfully or not, the memories are its last image. -/
theorem callImages_last (c : Cfg) (s : Store) (k : Call) {σ : Type} (h : WH σ) (st : σ) {o : Out Store σ Flow}
    (ho : callExec c s h st k = some o) : (callImages c s k).getLast? = some o.st :=
  ends_call c k s o.st (by rw [call_run c s k h st, ho]; rfl)

end Verif.Split
