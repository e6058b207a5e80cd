import Verif.Unit.Bytes
import Verif.Unit.AccessCalls
import Verif.Props.Careful

/-!
# Power loss on the united store

A memory-mapped file reaches the disk page by page in an order of the system's choosing. When the power fails, each part
of the file may therefore hold what it held at another moment since the file was last known to be on disk. `written` lists
the memory after every single assignment of a whole session of calls, and `Torn` is a file of which every word holds what
it held at some moment.
-/

namespace Verif.Unit
open Verif
variable {c : Cfg} {P : Programs}

/-- A call of a session, with the behaviour of the allocator during it, the handler given and the state of that. -/
structure Step where
  call : Call
  alloc : Nat → Nat → Option Nat
  σ : Type
  handler : WH σ
  start : σ

/-- `Session c s xs`: the calls `xs`, made one after another from `s` on, return or fail, and none of them updates or
deletes a link that has a duplicate at that time. -/
inductive Session (c : Cfg) : Store → List Step → Prop
  | done (s : Store) : Session c s []
  | step {s : Store} {x : Step} {xs : List Step} {o : Out Store x.σ Flow} : GoodAlloc x.alloc →
      (∀ j, callAbout j x.call → ((links c).view s).NoTwin j) →
      callExec (c.withAlloc x.alloc) s x.handler x.start x.call = some o → Session c o.st xs → Session c s (x :: xs)

/-- The memory after every single assignment of the calls `xs`. -/
def written (c : Cfg) (P : Programs) (f : Nat) : List Step → AStore → List Store
  | [], _ => []
  | x :: xs, m =>
    let r := callA (c.withAlloc x.alloc) P f x.handler x.start x.call m
    r.1.map (·.s) ++ (match r.2 with
      | none => []
      | some (_, m') => written c P f xs m')

/-- Every word of `t` is what it was in one of the memories `ms`. -/
def Torn (ms : List Store) (t : Store) : Prop := ∀ i f, ∃ m ∈ ms, t.word i f = m.word i f

/-! ### Lemmas -/

/-- A call keeps the links it is not about. -/
theorem step_keeps (hc : CfgOK c) {s : Store} (h : Reach c s) {a : Nat → Nat → Option Nat} (ha : GoodAlloc a) {k : Call}
    (hk : ∀ j, callAbout j k → ((links c).view s).NoTwin j) {σ : Type} {hd : WH σ} {st : σ} {o : Out Store σ Flow}
    (ho : callExec (c.withAlloc a) s hd st k = some o) :
    Reach c o.st ∧ ∀ l, ((links c).view s).Has l → ¬ callAbout l.index k → ((links c).view o.st).Has l := by
  have hr : Reach c o.st := by
    cases k with
    | create => exact .create a h ha ho
    | update i x y => exact .update h (fun j hj => by cases hj; exact hk _ rfl) ho
    | delete i =>
      have ho : deleteLinks c s [i] hd st = some o := (Props.deleteLinks_withAlloc a _ _ _ _).symm.trans ho
      exact .delete (q := [i]) h (fun j hj => by cases hj; exact hk _ rfl) ho
  refine ⟨hr, fun l hl hca => ?_⟩
  obtain ⟨free, ts, tt, hi⟩ := reach_good hc h
  obtain ⟨h1, h2⟩ := (has_iff hc hi.toInv0 l).1 hl
  have fin : ∀ {free' ts' tt'}, Inv c o.st free' ts' tt' → LiveIn o.st free' l.index → o.st.lk l.index = s.lk l.index →
      ((links c).view o.st).Has l := by
    intro free' ts' tt' hi' hl' e
    refine (has_iff hc hi'.toInv0 l).2 ⟨hl', ?_⟩
    rw [h2]
    simp only [Store.lk, Prod.mk.injEq] at e
    simp only [Store.linkAt, Link.mk.injEq, true_and]
    exact ⟨e.1.symm, e.2.symm⟩
  cases k with
  | create =>
    have ho : createLinks (c.withAlloc a) s [] hd st = some o := ho
    rcases createLinks_ok (hc.withAlloc ha) (hi.withAlloc a) [] hd st with
      ⟨x, rest, s', hf, g1, g2, g3, g4, g5, g6⟩ | ⟨hf, g1, g2⟩ | ⟨hf, g1, g2, g3, g4⟩ |
      ⟨hf, g1, g2, n, g3, g4, g5⟩ | ⟨hf, g1, s', g2, g3, g4, g5, g6⟩
    · rw [g1] at ho; cases ho
      exact fin g2.ofAlloc ⟨h1.1, by rw [g3]; exact h1.2.1, fun hm => h1.2.2 (by rw [hf]; simp [hm])⟩ (g6 _ h1.2.2)
    · rw [g2] at ho; cases ho; exact hl
    · rw [g4] at ho; cases ho; exact hl
    · rw [g5] at ho; cases ho
    · rw [g2] at ho; cases ho
      exact fin g3.ofAlloc ⟨h1.1, by rw [g4]; exact Nat.le_succ_of_le h1.2.1, by simp⟩ (g6 _)
  | update i x y =>
    have ho : updateLinks c s [i] [i, x, y] hd st = some o := ho
    by_cases hv : LiveIn s free i
    · obtain ⟨s', ts', tt', g1, g2, g3, g4, g5⟩ := updateLinks_ok hc hi hv
        (noTwinIn hc hi.toInv0 hv (hk i rfl)) [] i x y [] hd st
      rw [g1] at ho; cases ho
      exact fin g2 ⟨h1.1, by rw [g4]; exact h1.2.1, h1.2.2⟩ (by rw [g5, if_neg fun e => hca e.symm])
    · rw [updateLinks_missing hc hi.toInv0 hv] at ho; cases ho; exact hl
  | delete i =>
    have ho : deleteLinks c s [i] hd st = some o := (Props.deleteLinks_withAlloc a _ _ _ _).symm.trans ho
    by_cases hv : LiveIn s free i
    · obtain ⟨s', free', ts', tt', g1, g2, -, -, -, g6, g7⟩ := deleteLinks_ok hc hi hv
        (noTwinIn hc hi.toInv0 hv (hk i rfl)) [] hd st
      rw [g1] at ho; cases ho
      have hne : l.index ≠ i := fun e => hca e.symm
      exact fin g2 ((g6 _).2 ⟨h1, hne⟩) (g7 _ h1 hne)
    · rw [deleteLinks_missing hc hi.toInv0 hv] at ho; cases ho; exact hl

/-- What every memory on the way of a session keeps. -/
theorem written_keeps (hc : CfgOK c) (hP : P.Implements c.trees) {s : Store} {xs : List Step} (hs : Session c s xs)
    (h : Reach c s) :
    Ev fun f => ∀ m ∈ written c P f xs (.of s), ∀ l, ((links c).view s).Has l →
      (∀ x ∈ xs, ¬ callAbout l.index x.call) → m.lk l.index = (l.source, l.target) ∧ l.index ≤ m.hdr.allocated := by
  induction hs with
  | done s => exact .of fun f m hm => by simp [written] at hm
  | @step s x xs o ha hk ho hs ih =>
    obtain ⟨hr, hkeep⟩ := step_keeps hc h ha hk ho
    obtain ⟨free, ts, tt, hi⟩ := reach_good hc h
    have hA := callA_agree (hc.withAlloc ha) (P := P) hP (hi.withAlloc x.alloc) x.call
      (fun j hj hl => noTwinIn hc hi.toInv0 hl (hk j hj)) x.handler x.start
    refine hA.and (ih hr) fun f ⟨w1, w2⟩ w m hm l hl hx => ?_
    rw [ho] at w1
    simp only [written, w1, Option.map_some, List.mem_append, List.mem_map] at hm
    rcases hm with ⟨y, hy, rfl⟩ | hm
    · obtain ⟨h1, h2⟩ := (has_iff hc hi.toInv0 l).1 hl
      obtain ⟨g1, g2⟩ := w2 y hy l.index (hx x (by simp)) h1
      refine ⟨?_, g2⟩
      rw [g1, h2]
      rfl
    · exact w m hm l (hkeep l hl (hx x (by simp))) fun y hy => hx y (by simp [hy])

/-- Calls that delete nothing, on a store without unused slots. -/
theorem step_raw (hc : CfgOK c) {s : Store} {ts tt : Tree} (h : Inv c s [] ts tt) {a : Nat → Nat → Option Nat}
    (ha : GoodAlloc a) {k : Call} (hd : ∀ i, k ≠ .delete i) (hk : ∀ j, callAbout j k → ((links c).view s).NoTwin j)
    {σ : Type} {g : WH σ} {st : σ} {o : Out Store σ Flow} (ho : callExec (c.withAlloc a) s g st k = some o) :
    (∃ ts' tt', Inv c o.st [] ts' tt') ∧ ∀ j, o.st.lk j = s.lk j ∨ ∃ x y, k = .update j x y ∧ o.st.lk j = (x, y) := by
  cases k with
  | create =>
    have ho : createLinks (c.withAlloc a) s [] g st = some o := ho
    rcases createLinks_ok (hc.withAlloc ha) (h.withAlloc a) [] g st with
      ⟨x, rest, s', hf, -⟩ | ⟨hf, g1, g2⟩ | ⟨hf, g1, g2, g3, g4⟩ | ⟨hf, g1, g2, n, g3, g4, g5⟩ | ⟨hf, g1, s', g2, g3, g4, g5, g6⟩
    · cases hf
    · rw [g2] at ho; cases ho; exact ⟨⟨_, _, h⟩, fun j => .inl rfl⟩
    · rw [g4] at ho; cases ho; exact ⟨⟨_, _, h⟩, fun j => .inl rfl⟩
    · rw [g5] at ho; cases ho
    · rw [g2] at ho; cases ho; exact ⟨⟨_, _, g3.ofAlloc⟩, fun j => .inl (g6 j)⟩
  | update i x y =>
    have ho : updateLinks c s [i] [i, x, y] g st = some o := ho
    by_cases hv : LiveIn s [] i
    · obtain ⟨s', ts', tt', g1, g2, g3, g4, g5⟩ := updateLinks_ok hc h hv
        (noTwinIn hc h.toInv0 hv (hk i rfl)) [] i x y [] g st
      rw [g1] at ho; cases ho
      refine ⟨⟨_, _, g2⟩, fun j => ?_⟩
      have g5 := g5 j
      by_cases hj : j = i
      · subst hj
        rw [if_pos rfl] at g5
        exact .inr ⟨x, y, rfl, g5⟩
      · rw [if_neg hj] at g5
        exact .inl g5
    · rw [updateLinks_missing hc h.toInv0 hv] at ho; cases ho; exact ⟨⟨_, _, h⟩, fun j => .inl rfl⟩
  | delete i => exact absurd rfl (hd i)

/-- What the slots hold on the way of a session that deletes nothing, on a store without unused slots. -/
theorem written_raw (hc : CfgOK c) (hP : P.Implements c.trees) {s : Store} {xs : List Step} (hs : Session c s xs)
    (hx : ∀ x ∈ xs, ∀ i, x.call ≠ .delete i) {ts tt : Tree} (h : Inv c s [] ts tt) :
    Ev fun f => ∀ m ∈ written c P f xs (.of s), ∀ j,
      ((m.lk j).1 = (s.lk j).1 ∨ ∃ x ∈ xs, ∃ a b, x.call = .update j a b ∧ (m.lk j).1 = a) ∧
      ((m.lk j).2 = (s.lk j).2 ∨ ∃ x ∈ xs, ∃ a b, x.call = .update j a b ∧ (m.lk j).2 = b) := by
  induction hs generalizing ts tt with
  | done s => exact .of fun f m hm => by simp [written] at hm
  | @step s x xs o ha hk ho hs ih =>
    have hu : ∀ j, callAbout j x.call → LiveIn s [] j → NoTwinIn s [] j := fun j hj hl => noTwinIn hc h.toInv0 hl (hk j hj)
    obtain ⟨⟨ts', tt', h'⟩, hstep⟩ := step_raw hc h ha (hx x (by simp)) hk ho
    have hA := callA_agree (hc.withAlloc ha) (P := P) hP (h.withAlloc x.alloc) x.call hu x.handler x.start
    have hR := callA_raw (hc.withAlloc ha) (P := P) (hP.on fun _ _ _ => True) (h.withAlloc x.alloc) x.call (hx x (by simp)) hu
      (fitsCall_any _ _ _) x.handler x.start
    refine (hA.and hR (r := fun f => _ ∧ _) fun f w1 w2 => ⟨w1, w2⟩).and
      (ih (fun y hy => hx y (by simp [hy])) h') fun f ⟨⟨w1, _⟩, w2⟩ w m hm j => ?_
    rw [ho] at w1
    simp only [written, w1, Option.map_some, List.mem_append, List.mem_map] at hm
    rcases hm with ⟨y, hy, rfl⟩ | hm
    · exact (w2 y hy j (by simp)).imp (Or.imp id fun ⟨a, b, e⟩ => ⟨x, by simp, a, b, e⟩)
        (Or.imp id fun ⟨a, b, e⟩ => ⟨x, by simp, a, b, e⟩)
    · have wj := w m hm j
      refine ⟨?_, ?_⟩
      · rcases wj.1 with e | ⟨y, hy, a, b, e⟩
        · rcases hstep j with e' | ⟨a, b, e1, e2⟩
          · rw [e'] at e; exact .inl e
          · rw [e2] at e; exact .inr ⟨x, by simp, a, b, e1, e⟩
        · exact .inr ⟨y, by simp [hy], a, b, e⟩
      · rcases wj.2 with e | ⟨y, hy, a, b, e⟩
        · rcases hstep j with e' | ⟨a, b, e1, e2⟩
          · rw [e'] at e; exact .inl e
          · rw [e2] at e; exact .inr ⟨x, by simp, a, b, e1, e⟩
        · exact .inr ⟨y, by simp [hy], a, b, e⟩

/-- Opening keeps everything but the number of reserved slots. -/
theorem init_mem {s s' : Store} (ho : init c s = some (.ok s')) :
    s'.cell = s.cell ∧ s'.hdr.allocated = s.hdr.allocated := by
  unfold init at ho
  simp only at ho
  split at ho
  · simp at ho
  · split at ho
    · simp at ho
    · split at ho
      · simp at ho
      · next n2 _ =>
        cases hcs : csub n2 1 with
        | none => rw [hcs] at ho; simp at ho
        | some r =>
          rw [hcs] at ho
          simp only [Option.bind_some] at ho
          split at ho
          · simp only [Option.some.injEq, Except.ok.injEq] at ho
            subst ho; exact ⟨rfl, rfl⟩
          · simp at ho

/-- What a torn file keeps. -/
theorem torn_keeps {ms : List Store} {t : Store} (ht : Torn ms t) {i x y : Nat} (h0 : i ≠ 0)
    (h : ∀ m ∈ ms, m.lk i = (x, y) ∧ i ≤ m.hdr.allocated) : t.lk i = (x, y) ∧ i ≤ t.hdr.allocated := by
  obtain ⟨m0, g0, e0⟩ := ht i 0
  obtain ⟨m1, g1, e1⟩ := ht i 1
  obtain ⟨m2, g2, e2⟩ := ht 0 0
  simp only [Store.word, Store.slotWords, if_neg h0, Cell.words, List.getD_cons_zero, List.getD_cons_succ] at e0 e1
  simp only [Store.word, Store.slotWords, if_true, Cell.words, Hdr.asCell, List.getD_cons_zero] at e2
  have := (h m0 g0).1
  have := (h m1 g1).1
  have := (h m2 g2).2
  simp only [Store.lk, Prod.mk.injEq] at *
  omega

end Verif.Unit
