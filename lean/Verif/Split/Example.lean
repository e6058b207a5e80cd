import Verif.Split.History
import Verif.Unit.Example

/-!
# A concrete configuration and concrete reachable split stores, for the non-vacuity examples

Models no code: small sizes, allocators that hand out what is asked for, the reference trees.
-/

namespace Verif.Split
open Verif

def cfg0 : Cfg where
  consts := Verif.Unit.consts0
  maxT := 255
  step := 8
  page := 8
  dalloc := fun _ req => some req
  ialloc := fun _ req => some req
  trees := Ref.trees

theorem cfg0_ok : CfgOK cfg0 where
  null_eq := rfl
  index_eq := rfl
  source_eq := rfl
  target_eq := rfl
  start_eq := rfl
  end_lt_any := by decide
  end_le := by decide
  step_pos := by decide
  trees := Ref.lawful
  dalloc_eq := by intro len req n h; cases h; rfl
  ialloc_eq := by intro len req n h; cases h; rfl

/-- Executable `NoTwin`. -/
def twinFree (c : Cfg) (s : Store) (i : Nat) : Bool :=
  match (links c).view s i with
  | none => true
  | some p => p == (0, 0) || (List.range (s.hdr.allocated + 1)).all fun j =>
      j == i || (links c).view s j != some p

/-- Executable `Call.SplitOK`. -/
def okB (c : Cfg) (s : Store) : Call → Except Err Nat → Bool
  | .create, .ok i => (List.range (s.hdr.allocated + 1)).all fun j =>
      match (links c).view s j with
      | none => true
      | some p => p.1 != i && p.2 != i
  | .create, .error _ => true
  | .update i a b, _ => twinFree c s i && (a == 0 || b != 0) &&
      ((a != i && b != i) || match (links c).view s i with
        | none => true
        | some p => p.1 == 0)
  | .delete i, _ => twinFree c s i && (List.range (s.hdr.allocated + 1)).all fun j =>
      match (links c).view s j with
      | none => true
      | some p => j == i || (p.1 != i && p.2 != i) || twinFree c s j

/-- Run calls; `none` if a call panics or does not meet the side conditions. -/
def exec (c : Cfg) : List Call → Store → Option (Store × List (Except Err Nat))
  | [], s => some (s, [])
  | k :: ks, s =>
    (step c c.dalloc c.ialloc s k).bind fun o =>
      if okB c s k o.res then (exec c ks o.st).map fun r => (r.1, o.res :: r.2) else none

/-- A fresh store. -/
def store0 (c : Cfg) : Store :=
  match init c {} with
  | some (.ok s) => s
  | _ => {}

/-- Run calls on a fresh store. -/
def runs (c : Cfg) (ks : List Call) : Store := ((exec c ks (store0 c)).map (·.1)).getD {}

/-- The recorded history of calls executed on a fresh store. -/
def trace (c : Cfg) (ks : List Call) : List (Call × Except Err Nat) :=
  ks.zip (((exec c ks (store0 c)).map (·.2)).getD [])

variable {c : Cfg}

theorem view_bound (hc : CfgOK c) {s : Store} (h : Good c s) {i : Nat} {p : Nat × Nat}
    (hv : (links c).view s i = some p) : i < s.hdr.allocated + 1 := by
  obtain ⟨free, h⟩ := h
  have := (live_of_view hc h.toInv0 hv).1.2.1
  omega

theorem twinFree_noTwin (hc : CfgOK c) {s : Store} (h : Good c s) {i : Nat}
    (ht : twinFree c s i = true) : ((links c).view s).NoTwin i := by
  intro p hp hp0 j hj
  unfold twinFree at ht
  rw [hp] at ht
  simp only [Bool.or_eq_true, beq_iff_eq, hp0, false_or, List.all_eq_true, List.mem_range] at ht
  rcases ht j (view_bound hc h hj) with e | e
  · exact e
  · simp [hj] at e

theorem okB_ok (hc : CfgOK c) {s : Store} (h : Good c s) {k : Call} {r : Except Err Nat}
    (ht : okB c s k r = true) : k.SplitOK ((links c).view s) r := by
  cases k with
  | create =>
    cases r with
    | error e => trivial
    | ok i =>
      intro j a b hj
      simp only [okB, List.all_eq_true, List.mem_range] at ht
      have := ht j (view_bound hc h hj)
      rw [hj] at this
      simpa using this
  | update i a b =>
    simp only [okB, Bool.and_eq_true, Bool.or_eq_true, beq_iff_eq, bne_iff_ne, ne_eq] at ht
    refine ⟨twinFree_noTwin hc h ht.1.1, ?_, ?_⟩
    · rcases ht.1.2 with e | e
      · intro h1; exact absurd e h1
      · intro _; exact e
    · intro hs p hp
      rcases ht.2 with e | e
      · rcases hs with hs | hs
        · exact absurd hs e.1
        · exact absurd hs e.2
      · rw [hp] at e; simpa using e
  | delete i =>
    simp only [okB, Bool.and_eq_true, List.all_eq_true, List.mem_range] at ht
    refine ⟨twinFree_noTwin hc h ht.1, ?_⟩
    rintro j ⟨h1, a, b, h2, h3⟩
    have := ht.2 j (view_bound hc h h2)
    rw [h2] at this
    simp only [Bool.or_eq_true, beq_iff_eq, h1, false_or, Bool.and_eq_true, bne_iff_ne, ne_eq] at this
    rcases this with e | e
    · rcases h3 with h3 | h3
      · exact absurd h3 e.1
      · exact absurd h3 e.2
    · exact twinFree_noTwin hc h e

/-- A supported call leads to a reachable state. -/
theorem step_reach {s : Store} {k : Call} (hr : Reach c s) {o : Out Store Unit Nat}
    {d i : Nat → Nat → Option Nat} (hd : ExactAlloc d) (hi : ExactAlloc i)
    (hg : GrowTogether (c.withAllocs d i) s) (ho : step c d i s k = some o)
    (hok : k.SplitOK ((links c).view s) o.res) : Reach c o.st := by
  have key : ∀ {call : Option (Out Store (Nat × Flow) Flow)},
      (call.map Links.unwrapW).map Links.resultIndex = some o → ∃ o', call = some o' ∧ o'.st = o.st := by
    intro call h
    cases call with
    | none => simp at h
    | some o' =>
      refine ⟨o', rfl, ?_⟩
      simp only [Option.map_some, Option.some.injEq] at h
      rw [← h]; rfl
  cases k with
  | create =>
    obtain ⟨o', h1, h2⟩ := key ho
    rw [← h2]
    refine .create d i hr hd hi hg ?_ h1
    intro x s' hx
    have e : (links (c.withAllocs d i)).create s = some o := ho
    rw [hx] at e
    cases e
    exact hok
  | update i x y =>
    obtain ⟨o', h1, h2⟩ := key ho
    rw [← h2]
    exact .update hr (fun j x' a b hj hh => by cases hj; cases hh; exact ⟨hok.1, hok.2⟩) h1
  | delete i =>
    obtain ⟨o', h1, h2⟩ := key ho
    rw [← h2]; exact .delete hr (fun j hj => by cases hj; exact hok) h1

/-- A history leads to a reachable state. -/
theorem History.reach (hc : CfgOK c) {s : Store} {tr} (h : History c s tr) : Reach c s := by
  induction h with
  | fresh d i hd hi h => exact .fresh d i hd hi h
  | call d i k h hd hi hg ho hok ih =>
    refine step_reach ih hd hi hg ho ?_
    rw [(history_inv hc h).1.view]; exact hok
  | reopen d i n m h hd hi hin hlt ih => exact .reopen d i n m ih hd hi hin hlt

theorem exec_history (hc : CfgOK c) (hg : ∀ s, GrowTogether c s) : ∀ (ks : List Call) {s s' : Store} {rs tr},
    History c s tr → exec c ks s = some (s', rs) → History c s' (tr ++ ks.zip rs) := by
  intro ks
  induction ks with
  | nil => intro s s' rs tr hr h; simp [exec] at h; rw [← h.1]; simpa using hr
  | cons k ks ih =>
    intro s s' rs tr hr h
    unfold exec at h
    cases ho : step c c.dalloc c.ialloc s k with
    | none => rw [ho] at h; simp at h
    | some o =>
      rw [ho] at h
      simp only [Option.bind_some] at h
      split at h
      · next hk =>
        cases he : exec c ks o.st with
        | none => rw [he] at h; simp at h
        | some r =>
          rw [he] at h
          simp only [Option.map_some, Option.some.injEq, Prod.mk.injEq] at h
          rw [← h.1, ← h.2, List.zip_cons_cons]
          have hi := (history_inv hc hr).1
          have := ih (.call c.dalloc c.ialloc k hr hc.dalloc_eq hc.ialloc_eq (hg s) ho ?_) he
          · simpa using this
          · rw [← hi.view]; exact okB_ok hc ⟨_, hi.inv⟩ hk
      · simp at h

theorem runs_history {ks : List Call} (h : (exec cfg0 ks (store0 cfg0)).isSome = true) :
    History cfg0 (runs cfg0 ks) (trace cfg0 ks) := by
  obtain ⟨r, hr⟩ := Option.isSome_iff_exists.1 h
  have h1 : runs cfg0 ks = r.1 := by simp [runs, hr]
  have h2 : trace cfg0 ks = ks.zip r.2 := by simp [trace, hr]
  have h0 : History cfg0 (store0 cfg0) [] :=
    .fresh (c := cfg0) cfg0.dalloc cfg0.ialloc cfg0_ok.dalloc_eq cfg0_ok.ialloc_eq rfl
  rw [h1, h2]
  simpa using exec_history cfg0_ok (fun s _ => by simp [cfg0]) ks h0 hr

theorem runs_reach {ks : List Call} (h : (exec cfg0 ks (store0 cfg0)).isSome = true) :
    Reach cfg0 (runs cfg0 ks) := (runs_history h).reach cfg0_ok

/-- A small network: 1 = (1,1), 2 = (1,3), 3 = (2,2), 4 = (9,1) with a source that is no link, 6 = (5,3), whose
source 5 was deleted. -/
def net : List Call :=
  [.create, .create, .create, .create, .create, .create, .update 1 1 1, .update 2 1 3, .update 3 2 2,
   .update 4 9 1, .update 5 1 2, .update 6 5 3, .delete 5]

def sNet : Store := runs cfg0 net

theorem sNet_history : History cfg0 sNet (trace cfg0 net) := runs_history (by decide +kernel)

theorem sNet_reach : Reach cfg0 sNet := runs_reach (by decide +kernel)

theorem sNet_view : (List.range 8).map ((links cfg0).view sNet) =
    [none, some (1, 1), some (1, 3), some (2, 2), some (9, 1), none, some (5, 3), none] := by decide +kernel

/-- The network of the united examples: 1 = (1,1), 2 = (1,3), 3 = (2,2), 4 = (0,0), 6 = (3,2); 5 was deleted. -/
def sNetU : Store := runs cfg0 Verif.Unit.net

theorem sNetU_history : History cfg0 sNetU (trace cfg0 Verif.Unit.net) := runs_history (by decide +kernel)

theorem sNetU_reach : Reach cfg0 sNetU := runs_reach (by decide +kernel)

end Verif.Split
