import Verif.Unit.History
import Verif.Derived
import Verif.RefTrees

/-!
# A concrete configuration and concrete reachable stores, for the non-vacuity examples

Models no code: small sizes, an allocator that hands out what is asked for, the reference trees.
-/

namespace Verif.Unit
open Verif

/-- Constants in the style of `LinksConstants::new()`. -/
def consts0 : Consts where
  indexPart := 0
  sourcePart := 1
  targetPart := 2
  null := 0
  cont := 255
  brk := 254
  skip := 253
  any := 252
  itself := 251
  error := 250
  internalStart := 1
  internalEnd := 100
  external := none

def cfg0 : Cfg where
  consts := consts0
  maxT := 255
  step := 8
  page := 8
  alloc := fun _ req => some req
  trees := Ref.trees

theorem cfg0_ok : CfgOK cfg0 where
  null_eq := rfl
  index_eq := rfl
  source_eq := rfl
  target_eq := rfl
  start_eq := rfl
  end_lt_any := by decide
  end_le := by decide
  step_pos := by decide
  trees := Ref.lawful
  alloc_ge := by intro len req n h; cases h; exact Nat.le_refl _

theorem alloc0_good : GoodAlloc cfg0.alloc := cfg0_ok.alloc_ge

/-- Executable check of the side condition of `History`. -/
def twinFree (c : Cfg) (s : Store) (i : Nat) : Bool :=
  match (links c).view s i with
  | none => true
  | some p => p == (0, 0) || (List.range (s.hdr.allocated + 1)).all fun j =>
      j == i || (links c).view s j != some p

/-- The side condition of a call. -/
def guardB (c : Cfg) (s : Store) (k : Call) : Bool :=
  match k.subject with
  | none => true
  | some i => twinFree c s i

/-- Run calls on a fresh store; `none` if a call panics or does not meet the side condition. -/
def exec (c : Cfg) : List Call → Store → Option (Store × List (Except Err Nat))
  | [], s => some (s, [])
  | k :: ks, s =>
    if guardB c s k then
      (step c c.alloc s k).bind fun o => (exec c ks o.st).map fun r => (r.1, o.res :: r.2)
    else none

/-- A fresh store. -/
def store0 (c : Cfg) : Store :=
  match init c {} with
  | some (.ok s) => s
  | _ => {}

/-- Run calls on a fresh store. -/
def runs (c : Cfg) (ks : List Call) : Store := ((exec c ks (store0 c)).map (·.1)).getD {}

variable {c : Cfg}

theorem twinFree_noTwin (hc : CfgOK c) {s : Store} (h : Good c s) {i : Nat}
    (ht : twinFree c s i = true) : ((links c).view s).NoTwin i := by
  obtain ⟨free, ts, tt, h⟩ := h
  intro p hp hp0 j hj
  unfold twinFree at ht
  rw [hp] at ht
  simp only [Bool.or_eq_true, beq_iff_eq, hp0, false_or, List.all_eq_true, List.mem_range] at ht
  have hl : LiveIn s free j := by
    by_cases hl : LiveIn s free j
    · exact hl
    · rw [view_eq hc h.toInv0, if_neg hl] at hj; simp at hj
  have := ht j (by have := hl.2.1; omega)
  rcases this with e | e
  · exact e
  · simp [hj] at e

theorem step_reach {s : Store} {k : Call}
    (hr : Reach c s)
    (ht : ∀ i, k.subject = some i → ((links c).view s).NoTwin i) {o : Out Store _root_.Unit Nat}
    {a : Nat → Nat → Option Nat} (ha : GoodAlloc a) (ho : step c a s k = some o) : Reach c o.st := by
  have key : ∀ {call : Option (Out Store (Nat × Flow) Flow)},
      (call.map Links.unwrapW).map Links.resultIndex = some o → ∃ o', call = some o' ∧ o'.st = o.st := by
    intro call h
    cases call with
    | none => simp at h
    | some o' =>
      refine ⟨o', rfl, ?_⟩
      simp only [Option.map_some, Option.some.injEq] at h
      rw [← h]; rfl
  cases k with
  | create =>
    obtain ⟨o', h1, h2⟩ := key ho
    rw [← h2]; exact .create a hr ha h1
  | update i x y =>
    obtain ⟨o', h1, h2⟩ := key ho
    rw [← h2]; exact .update hr (fun j hj => by cases hj; exact ht i rfl) h1
  | delete i =>
    obtain ⟨o', h1, h2⟩ := key ho
    rw [← h2]; exact .delete hr (fun j hj => by cases hj; exact ht i rfl) h1

theorem exec_reach (hc : CfgOK c) (ha : GoodAlloc c.alloc) : ∀ (ks : List Call) {s s' : Store} {rs},
    Reach c s → exec c ks s = some (s', rs) → Reach c s' := by
  intro ks
  induction ks with
  | nil => intro s s' rs hr h; simp [exec] at h; rw [← h.1]; exact hr
  | cons k ks ih =>
    intro s s' rs hr h
    unfold exec at h
    split at h
    · next ht =>
      cases ho : step c c.alloc s k with
      | none => rw [ho] at h; simp at h
      | some o =>
        rw [ho] at h
        simp only [Option.bind_some] at h
        cases he : exec c ks o.st with
        | none => rw [he] at h; simp at h
        | some r =>
          rw [he] at h
          simp only [Option.map_some, Option.some.injEq, Prod.mk.injEq] at h
          rw [← h.1]
          refine ih (step_reach hr (fun i hi => ?_) ha ho) he
          unfold guardB at ht
          rw [hi] at ht
          exact twinFree_noTwin hc (reach_good hc hr) ht
    · simp at h

theorem store0_reach (ha : GoodAlloc c.alloc) {s : Store}
    (h : init c {} = some (.ok s)) : Reach c (store0 c) := by
  have : store0 c = s := by simp [store0, h]
  rw [this]
  exact .fresh c.alloc ha h

/-- Executing a history that passes the checks gives a reachable store. -/
theorem runs_reach {ks : List Call} (h : (exec cfg0 ks (store0 cfg0)).isSome = true) :
    Reach cfg0 (runs cfg0 ks) := by
  obtain ⟨r, hr⟩ := Option.isSome_iff_exists.1 h
  have : runs cfg0 ks = r.1 := by simp [runs, hr]
  rw [this]
  exact exec_reach cfg0_ok alloc0_good ks (store0_reach alloc0_good rfl) hr

theorem exec_history (hc : CfgOK c) (ha : GoodAlloc c.alloc) : ∀ (ks : List Call) {s s' : Store} {rs tr},
    History c s tr → exec c ks s = some (s', rs) → History c s' (tr ++ ks.zip rs) := by
  intro ks
  induction ks with
  | nil => intro s s' rs tr hr h; simp [exec] at h; rw [← h.1]; simpa using hr
  | cons k ks ih =>
    intro s s' rs tr hr h
    unfold exec at h
    split at h
    · next ht =>
      cases ho : step c c.alloc s k with
      | none => rw [ho] at h; simp at h
      | some o =>
        rw [ho] at h
        simp only [Option.bind_some] at h
        cases he : exec c ks o.st with
        | none => rw [he] at h; simp at h
        | some r =>
          rw [he] at h
          simp only [Option.map_some, Option.some.injEq, Prod.mk.injEq] at h
          rw [← h.1, ← h.2, List.zip_cons_cons]
          have hi := (history_inv hc hr).1
          have := ih (.call c.alloc k hr ha (fun i hi' => ?_) ho) he
          · simpa using this
          · unfold guardB at ht
            rw [hi'] at ht
            obtain ⟨ts, tt, hh⟩ := hi.inv
            rw [← hi.view]
            exact twinFree_noTwin hc ⟨_, ts, tt, hh⟩ ht
    · simp at h

/-- The recorded history of calls executed on a fresh store. -/
def trace (c : Cfg) (ks : List Call) : List (Call × Except Err Nat) :=
  ks.zip (((exec c ks (store0 c)).map (·.2)).getD [])

theorem runs_history {ks : List Call} (h : (exec cfg0 ks (store0 cfg0)).isSome = true) :
    History cfg0 (runs cfg0 ks) (trace cfg0 ks) := by
  obtain ⟨r, hr⟩ := Option.isSome_iff_exists.1 h
  have h1 : runs cfg0 ks = r.1 := by simp [runs, hr]
  have h2 : trace cfg0 ks = ks.zip r.2 := by simp [trace, hr]
  have h0 : History cfg0 (store0 cfg0) [] := .fresh (c := cfg0) cfg0.alloc alloc0_good rfl
  rw [h1, h2]
  simpa using exec_history cfg0_ok alloc0_good ks h0 hr

/-- A small network: 1 = (1,1), 2 = (1,3), 3 = (2,2), 4 = (0,0), 6 = (3,2); 5 was deleted. -/
def net : List Call :=
  [.create, .create, .create, .create, .create, .create, .update 1 1 1, .update 2 1 3, .update 3 2 2,
   .update 5 1 2, .update 6 3 2, .delete 5]

def sNet : Store := runs cfg0 net

theorem sNet_reach : Reach cfg0 sNet := runs_reach (by decide +kernel)

theorem sNet_history : History cfg0 sNet (trace cfg0 net) := runs_history (by decide +kernel)

end Verif.Unit
