import Verif.Unit.History

/-!
# Crash points of the united store

The store lives in memory that may be a file. If the process dies inside a call, the file holds the memory as it was
after some prefix of the call's updates. `callImages` lists these memory images, oldest first, for the calls
`create_links`, `update_links` and `delete_links`: one image before the first update and one after each. One update is a
field assignment of the store's own code or one whole call of the `trees` crate, whose source is not available; images
inside such a call are not modelled. `callImages_last` ties the images to the model of the calls: the last image is the
state in which the call returns.
-/

namespace Verif.Unit
open Verif

/-- Memory images left by a sequence of updates: before the first and after each. A failing (panicking) update ends it. -/
def images : List (Store → Option Store) → Store → List Store
  | [], s => [s]
  | f :: fs, s => s :: (match f s with
    | none => []
    | some s' => images fs s')

/-- The state after all updates. -/
def runSteps : List (Store → Option Store) → Store → Option Store
  | [], s => some s
  | f :: fs, s => (f s).bind (runSteps fs)

/-- `place.source = source` (`store.rs:499`). -/
def setSource (i source : Nat) (s : Store) : Option Store :=
  if i < s.len then
    some { s with cell := fun k => if k = i then { s.cell k with source := source } else s.cell k }
  else none

/-- `place.target = target` (`store.rs:500`). -/
def setTarget (i target : Nat) (s : Store) : Option Store :=
  if i < s.len then
    some { s with cell := fun k => if k = i then { s.cell k with target := target } else s.cell k }
  else none

/-- Updates of `update_links` on the existing link `l` (`store.rs:483-514`). -/
def relinkSteps (c : Cfg) (l : Link) (i source target : Nat) : List (Store → Option Store) :=
  [whenM (l.source ≠ 0) (detachSource c · i), whenM (l.target ≠ 0) (detachTarget c · i), setSource i source,
   setTarget i target, whenM (source ≠ 0) (attachSource c · i), whenM (target ≠ 0) (attachTarget c · i)]

/-- `header.allocated += 1` (`store.rs:454`). -/
def bumpStep (c : Cfg) (s : Store) : Option Store :=
  (cadd c.maxT s.hdr.allocated 1).map fun a => { s with hdr := { s.hdr with allocated := a } }

/-- Updates of `create_links` (`store.rs:429-463`). -/
def createSteps (c : Cfg) (s : Store) : List (Store → Option Store) :=
  if s.hdr.firstFree = c.consts.null then
    if c.consts.internalEnd ≤ s.hdr.allocated then []
    else
      match csub s.hdr.reserved 1 with
      | none => [fun _ => none]
      | some r1 =>
        if r1 ≤ s.hdr.allocated then
          match c.alloc s.len (s.len + c.step) with
          | none => []
          | some n =>
            [fun s => some { s with len := n },
             fun s => if n ≤ c.maxT then some { s with hdr := { s.hdr with reserved := n } } else none, bumpStep c]
        else [bumpStep c]
  else [(unusedDetach c · s.hdr.firstFree)]

/-- Images of the loop that releases unused slots at the end (`store.rs:540-547`). -/
def releaseImages (c : Cfg) : Nat → Store → List Store
  | 0, _ => []
  | fuel + 1, s =>
    let a := s.hdr.allocated
    if a = 0 then [s]
    else
      match isUnused s a with
      | some true =>
        match unusedDetach c s a with
        | none => [s]
        | some s' => s :: s' :: releaseImages c fuel { s' with hdr := { s'.hdr with allocated := a - 1 } }
      | _ => [s]

/-- Images of `delete_links` after the link was updated to the null pair (`store.rs:530-551`), without the first. -/
def dropImages (c : Cfg) (s : Store) (i : Nat) : List Store :=
  if i < s.hdr.allocated then (unusedAttachFirst c s i).toList
  else if i = s.hdr.allocated then
    match csub s.hdr.allocated 1 with
    | none => []
    | some a => releaseImages c (s.hdr.allocated + 1) { s with hdr := { s.hdr with allocated := a } }
  else []

/-- Memory images of a call, oldest first. -/
def callImages (c : Cfg) (s : Store) : Call → List Store
  | .create => images (createSteps c s) s
  | .update i a b =>
    match getLink c s i with
    | some (some l) => images (relinkSteps c l i a b) s
    | _ => [s]
  | .delete i =>
    match getLink c s i with
    | some (some l) => images (relinkSteps c l i 0 0) s ++
      (match runSteps (relinkSteps c l i 0 0) s with
       | none => []
       | some s1 => dropImages c s1 i)
    | _ => [s]

/-- The call on the store, as the trait's method. -/
def callExec (c : Cfg) (s : Store) {σ : Type} (h : WH σ) (st : σ) : Call → Option (Out Store σ Flow)
  | .create => (links c).createLinks s [] h st
  | .update i a b => (links c).updateLinks s [i] [i, a, b] h st
  | .delete i => (links c).deleteLinks s [i] h st

/-- The call is about link `j`. -/
def callAbout (j : Nat) : Call → Prop
  | .create => False
  | .update i _ _ => i = j
  | .delete i => i = j

/-! ### The last image is the final state -/

theorem images_last : ∀ {fs : List (Store → Option Store)} {s s' : Store}, runSteps fs s = some s' →
    (images fs s).getLast? = some s' := by
  intro fs
  induction fs with
  | nil => intro s s' h; simp only [runSteps, Option.some.injEq] at h; subst h; rfl
  | cons f fs ih =>
    intro s s' h
    simp only [runSteps] at h
    cases hf : f s with
    | none => rw [hf] at h; cases h
    | some s1 =>
      rw [hf, Option.bind_some] at h
      have := ih h
      simp only [images, hf]
      cases hI : images fs s1 with
      | nil => rw [hI] at this; cases this
      | cons x xs => rw [hI] at this; rw [List.getLast?_cons_cons]; exact this

theorem setPair_eq (s : Store) (i a b : Nat) : setPair s i a b = (setSource i a s).bind (setTarget i b) := by
  unfold setPair setSource setTarget
  by_cases h : i < s.len
  · simp only [h, if_true, Option.bind_some, Option.some.injEq]
    congr 1
    funext k
    by_cases hk : k = i <;> simp [hk]
  · simp [h]

theorem relink_eq_runSteps (c : Cfg) (s : Store) (l : Link) (i a b : Nat) :
    relink c s l i a b = runSteps (relinkSteps c l i a b) s := by
  simp only [relink, relinkSteps, runSteps]
  congr 1; funext s1
  congr 1; funext s2
  rw [setPair_eq, Option.bind_assoc]
  congr 1; funext s3
  congr 1; funext s4
  congr 1; funext s5
  cases whenM (decide (b ≠ 0)) (attachTarget c · i) s5 <;> rfl

theorem createSteps_run (c : Cfg) (s : Store) {σ : Type} (h : WH σ) (st : σ) {o : Out Store σ Flow}
    (ho : createLinks c s [] h st = some o) : runSteps (createSteps c s) s = some o.st := by
  unfold createLinks createTop at ho
  unfold createSteps
  by_cases h1 : s.hdr.firstFree = c.consts.null
  · simp only [h1, if_true] at ho ⊢
    by_cases h2 : c.consts.internalEnd ≤ s.hdr.allocated
    · simp only [h2, if_true, Option.some.injEq] at ho ⊢; subst ho; rfl
    · simp only [h2, if_false] at ho ⊢
      cases h3 : csub s.hdr.reserved 1 with
      | none => rw [h3] at ho; cases ho
      | some r1 =>
        rw [h3] at ho
        simp only [Option.bind_some] at ho ⊢
        by_cases h4 : r1 ≤ s.hdr.allocated
        · simp only [h4, if_true] at ho ⊢
          cases h5 : c.alloc s.len (s.len + c.step) with
          | none => rw [h5] at ho; simp only [Option.some.injEq] at ho; subst ho; rfl
          | some n =>
            rw [h5] at ho
            simp only at ho ⊢
            by_cases h6 : n ≤ c.maxT
            · simp only [h6, if_true] at ho
              simp only [runSteps, Option.bind_some, h6, if_true, bumpStep]
              cases h7 : cadd c.maxT s.hdr.allocated 1 with
              | none => rw [h7] at ho; cases ho
              | some a => rw [h7] at ho; simp only [Option.map_some, Option.some.injEq] at ho; subst ho; simp [h1]
            · simp [h6] at ho
        · simp only [h4, if_false] at ho ⊢
          simp only [runSteps, bumpStep]
          cases h7 : cadd c.maxT s.hdr.allocated 1 with
          | none => rw [h7] at ho; cases ho
          | some a => rw [h7] at ho; simp only [Option.map_some, Option.some.injEq] at ho; subst ho; simp [h1]
  · simp only [h1, if_false] at ho ⊢
    simp only [runSteps]
    cases h7 : unusedDetach c s s.hdr.firstFree with
    | none => rw [h7] at ho; cases ho
    | some a => rw [h7] at ho; simp only [Option.map_some, Option.some.injEq] at ho; subst ho; rfl

theorem releaseImages_last (c : Cfg) : ∀ (fuel : Nat) (s s' : Store), releaseTop c fuel s = some s' →
    (releaseImages c fuel s).getLast? = some s' := by
  intro fuel
  induction fuel with
  | zero => intro s s' h; cases h
  | succ fuel ih =>
    intro s s' h
    simp only [releaseTop] at h
    simp only [releaseImages]
    by_cases ha : s.hdr.allocated = 0
    · simp only [ha, if_true, Option.some.injEq] at h ⊢; subst h; rfl
    · simp only [ha, if_false] at h ⊢
      cases hu : isUnused s s.hdr.allocated with
      | none => rw [hu] at h; cases h
      | some u =>
        rw [hu] at h
        simp only [Option.bind_some] at h
        cases u with
        | false => simp only [Bool.false_eq_true, if_false, Option.some.injEq] at h; subst h; rfl
        | true =>
          simp only [if_true] at h
          cases hd : unusedDetach c s s.hdr.allocated with
          | none => rw [hd] at h; cases h
          | some s1 =>
            rw [hd, Option.bind_some] at h
            have := ih _ _ h
            simp only
            cases hI : releaseImages c fuel { s1 with hdr := { s1.hdr with allocated := s.hdr.allocated - 1 } } with
            | nil => rw [hI] at this; cases this
            | cons x xs =>
              rw [hI] at this
              rw [List.getLast?_cons_cons, List.getLast?_cons_cons]; exact this

/-- Whenever a call returns, successfully or not, the memory is its last image. -/
theorem callImages_last (c : Cfg) (s : Store) (k : Call) {σ : Type} (h : WH σ) (st : σ) {o : Out Store σ Flow}
    (ho : callExec c s h st k = some o) : (callImages c s k).getLast? = some o.st := by
  cases k with
  | create => exact images_last (createSteps_run c s h st ho)
  | update i a b =>
    simp only [callExec, links, updateLinks, List.getElem?_cons_zero, List.getElem?_cons_succ,
      Option.bind_some] at ho
    simp only [callImages]
    cases hg : getLink c s i with
    | none => rw [hg] at ho; cases ho
    | some r => cases r with
      | none => rw [hg] at ho; simp only [Option.bind_some, Option.some.injEq] at ho; subst ho; rfl
      | some l =>
        rw [hg] at ho
        simp only [Option.bind_some, relink_eq_runSteps] at ho
        simp only
        cases hr : runSteps (relinkSteps c l i a b) s with
        | none => rw [hr] at ho; cases ho
        | some s1 =>
          rw [hr] at ho
          simp only [Option.map_some, Option.some.injEq] at ho
          subst ho
          exact images_last hr
  | delete i =>
    simp only [callExec, links, deleteLinks, updateLinks, List.getElem?_cons_zero, List.getElem?_cons_succ,
      Option.bind_some] at ho
    simp only [callImages]
    cases hg : getLink c s i with
    | none => rw [hg] at ho; cases ho
    | some r => cases r with
      | none => rw [hg] at ho; simp only [Option.bind_some, Option.some.injEq] at ho; subst ho; rfl
      | some l =>
        rw [hg] at ho
        simp only [Option.bind_some, relink_eq_runSteps] at ho
        simp only
        cases hr : runSteps (relinkSteps c l i 0 0) s with
        | none => rw [hr] at ho; cases ho
        | some s1 =>
          rw [hr] at ho
          simp only [Option.map_some, Option.bind_some] at ho
          rw [List.getLast?_append]
          have key : ∀ s2, o.st = s2 → (dropImages c s1 i).getLast? = some s2 →
              ((dropImages c s1 i).getLast?.or ((images (relinkSteps c l i 0 0) s).getLast?)) = some o.st := by
            intro s2 h1 h2; rw [h2, h1]; rfl
          by_cases hlt : i < s1.hdr.allocated
          · simp only [hlt, if_true] at ho
            cases hu : unusedAttachFirst c s1 i with
            | none => rw [hu] at ho; cases ho
            | some s2 =>
              rw [hu] at ho
              simp only [Option.map_some, Option.some.injEq] at ho
              refine key s2 (by rw [← ho]) ?_
              simp [dropImages, hlt, hu]
          · simp only [hlt, if_false] at ho
            by_cases he : i = s1.hdr.allocated
            · simp only [he, if_true] at ho
              cases hs : csub s1.hdr.allocated 1 with
              | none => rw [hs] at ho; cases ho
              | some a =>
                rw [hs, Option.bind_some] at ho
                cases hu : releaseTop c (s1.hdr.allocated + 1) { s1 with hdr := { s1.hdr with allocated := a } } with
                | none => rw [hu] at ho; cases ho
                | some s2 =>
                  rw [hu] at ho
                  simp only [Option.map_some, Option.some.injEq] at ho
                  refine key s2 (by rw [← ho]) ?_
                  have := releaseImages_last c _ _ _ hu
                  simp only [dropImages, hlt, if_false, he, if_true, hs]
                  rw [if_neg (by omega)]
                  exact this
            · simp [he] at ho

/-- The first image is the memory before the call. -/
theorem callImages_head (c : Cfg) (s : Store) (k : Call) : (callImages c s k).head? = some s := by
  have h1 : ∀ fs, (images fs s).head? = some s := by intro fs; cases fs <;> rfl
  cases k with
  | create => exact h1 _
  | update i a b =>
    simp only [callImages]
    split
    · exact h1 _
    · rfl
  | delete i =>
    simp only [callImages]
    split
    · rw [List.head?_append, h1]; rfl
    · rfl

end Verif.Unit
