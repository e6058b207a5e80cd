import Verif.Split.Bytes
import Verif.Split.AccessCalls
import Verif.Props.Careful

/-!
# Power loss on the split store

As in `Unit/PowerLoss.lean`, with two files: each word of either may hold what it held at another moment.
-/

namespace Verif.Split
open Verif
variable {c : Cfg} {P : Programs}

/-- A call of a session, with the behaviour of the two allocators during it, the handler given and the state of that. -/
structure Step where
  call : Call
  dalloc : Nat → Nat → Option Nat
  ialloc : Nat → Nat → Option Nat
  σ : Type
  handler : WH σ
  start : σ

/-- `Session c s xs`: the calls `xs`, made one after another from `s` on, return or fail, and each of them is one that the
store supports at that time. -/
inductive Session (c : Cfg) : Store → List Step → Prop
  | done (s : Store) : Session c s []
  | step {s : Store} {x : Step} {xs : List Step} {o : Out Store x.σ Flow} : ExactAlloc x.dalloc → ExactAlloc x.ialloc →
      Supported ((links c).view s) x.call →
      (x.call = .create → GrowTogether (c.withAllocs x.dalloc x.ialloc) s ∧ NewUnused (c.withAllocs x.dalloc x.ialloc) s) →
      callExec (c.withAllocs x.dalloc x.ialloc) s x.handler x.start x.call = some o → Session c o.st xs →
      Session c s (x :: xs)

/-- The memories after every single assignment of the calls `xs`. -/
def written (c : Cfg) (P : Programs) (f : Nat) : List Step → AStore → List Store
  | [], _ => []
  | x :: xs, m =>
    let r := callA (c.withAllocs x.dalloc x.ialloc) P f x.handler x.start x.call m
    r.1.map (·.s) ++ (match r.2 with
      | none => []
      | some (_, m') => written c P f xs m')

/-- Every word of the two files `t` is what it was in one of the memories `ms`. -/
def Torn (ms : List Store) (t : Store) : Prop :=
  ∀ i f, (∃ m ∈ ms, t.dataWord i f = m.dataWord i f) ∧ ∃ m ∈ ms, t.idxWord i f = m.idxWord i f

/-! ### Lemmas -/

/-- A call keeps the links it is not about. -/
theorem step_keeps (hc : CfgOK c) {s : Store} (h : Reach c s) {d i : Nat → Nat → Option Nat} (hd : ExactAlloc d)
    (hi : ExactAlloc i) {k : Call} (hk : Supported ((links c).view s) k)
    (hg : k = .create → GrowTogether (c.withAllocs d i) s ∧ NewUnused (c.withAllocs d i) s)
    {σ : Type} {hh : WH σ} {st : σ} {o : Out Store σ Flow} (ho : callExec (c.withAllocs d i) s hh st k = some o) :
    Reach c o.st ∧ ∀ l, ((links c).view s).Has l → ¬ callAbout l.index k → ((links c).view o.st).Has l := by
  have hr : Reach c o.st := by
    cases k with
    | create => exact .create d i h hd hi (hg rfl).1 (hg rfl).2 ho
    | update j x y =>
      exact .update (q := [j]) (ch := [j, x, y]) h (fun j' x' a' b' h1 h2 => by cases h1; cases h2; exact hk) ho
    | delete j =>
      have ho : deleteLinks c s [j] hh st = some o := (Props.deleteLinks_withAllocs d i _ _ _ _).symm.trans ho
      exact .delete (q := [j]) h (fun j' h1 => by cases h1; exact hk) ho
  refine ⟨hr, fun l hl hca => ?_⟩
  obtain ⟨free, hI⟩ := reach_good hc h
  obtain ⟨h1, h2⟩ := (has_iff hc hI.toInv0 l).1 hl
  have same : o.st = s → ((links c).view o.st).Has l := fun e => e ▸ hl
  have fin : ∀ {free'}, Inv c o.st free' → LiveIn o.st free' l.index → o.st.data l.index = s.data l.index →
      ((links c).view o.st).Has l := by
    intro free' hi' hl' e
    refine (has_iff hc hi'.toInv0 l).2 ⟨hl', ?_⟩
    rw [h2]
    simp only [Store.linkAt, e]
  cases k with
  | create =>
    have ho : createLinks (c.withAllocs d i) s [] hh st = some o := ho
    have hc' := hc.withAllocs hd hi
    have hw := hI.withAllocs d i
    obtain ⟨hgt, hn⟩ := hg rfl
    rcases create_cases hc' hw [] with ⟨x, rest, s', hf, g1, g2, g3, g4⟩ | ⟨hf, g1, g2⟩ |
      ⟨hf, g1, g2, g3⟩ | ⟨hf, g1, g2, g3, g4⟩ | ⟨hf, g1, g2, g3, g4, g5⟩ | ⟨hf, g1, s', g2, g3, g4⟩
    · cases ho.symm.trans (g1 _ hh st)
      have hi' := (g2.inv hc' hw (fun y hy => by rw [g3]; exact hI.free_lt y (by rw [hf]; simp [hy]))
        (hn x s' (create_of_succeeds g1))).ofAllocs
      exact fin hi' ((g2.live _).2 (.inl h1)) (g2.data _ h1)
    · cases ho.symm.trans (g2 _ hh st); exact hl
    · cases ho.symm.trans (g3 _ hh st); exact hl
    · exact absurd g3 (hgt g2)
    · cases ho.symm.trans (g5 _ hh st)
    · cases ho.symm.trans (g2 _ hh st)
      have hi' := (g3.inv hc' hw (by simp) (hn _ s' (create_of_succeeds g2))).ofAllocs
      exact fin hi' ((g3.live _).2 (.inl h1)) (g3.data _ h1)
  | update j x y =>
    have ho : updateLinks c s [j] [j, x, y] hh st = some o := ho
    by_cases hv : LiveIn s free j
    · obtain ⟨s', g1, g2, g3, g4, g5⟩ := updateLinks_ok hc hI hv (noTwinIn hc hI.toInv0 hv hk.1) [] j x y []
        ⟨hk.2.1, fun hx => hk.2.2 hx _ (by rw [view_eq hc hI.toInv0, if_pos hv])⟩ hh st
      rw [g1] at ho; cases ho
      exact fin g2 ⟨h1.1, by rw [g4]; exact h1.2.1, h1.2.2⟩ (by rw [g5, if_neg fun e => hca e.symm])
    · rw [updateLinks_missing hc hI.toInv0 hv] at ho; cases ho; exact hl
  | delete j =>
    have ho : deleteLinks c s [j] hh st = some o := (Props.deleteLinks_withAllocs d i _ _ _ _).symm.trans ho
    by_cases hv : LiveIn s free j
    · obtain ⟨s', free', g1, g2, -, -, -, g6, g7⟩ := deleteLinks_ok hc hI hv (noTwinIn hc hI.toInv0 hv hk.1) (by
        intro d k hk'
        refine noTwinIn hc hI.toInv0 hk'.1 (hk.2 k ⟨hk'.2.1, (s.data k).1, (s.data k).2,
          by rw [view_eq hc hI.toInv0, if_pos hk'.1], ?_⟩)
        cases d
        · exact Or.inl hk'.2.2
        · exact Or.inr hk'.2.2) [] hh st
      rw [g1] at ho; cases ho
      have hne : l.index ≠ j := fun e => hca e.symm
      exact fin g2 ((g6 _).2 ⟨h1, hne⟩) (g7 _ h1 hne)
    · rw [deleteLinks_missing hc hI.toInv0 hv] at ho; cases ho; exact hl

/-- What all memories on the way of a session keep. -/
theorem written_keeps (hc : CfgOK c) (hP : P.Implements c.trees) {s : Store} {xs : List Step} (hs : Session c s xs)
    (h : Reach c s) :
    Ev fun f => ∀ m ∈ written c P f xs (.of s), ∀ l, ((links c).view s).Has l →
      (∀ x ∈ xs, ¬ callAbout l.index x.call) → m.data l.index = (l.source, l.target) := by
  induction hs with
  | done s => exact .of fun f m hm => by simp [written] at hm
  | @step s x xs o hd hi hk hg ho hs ih =>
    obtain ⟨hr, hkeep⟩ := step_keeps hc h hd hi hk hg ho
    obtain ⟨free, hI⟩ := reach_good hc h
    have hc' := hc.withAllocs hd hi
    have hI' := hI.withAllocs x.dalloc x.ialloc
    have hk' : Supported ((links (c.withAllocs x.dalloc x.ialloc)).view s) x.call := by rw [view_withAllocs]; exact hk
    refine (callA_agree hc' (P := P) hP hI' hk' x.handler x.start).and (ih hr) fun f ⟨w1, w2⟩ w m hm l hl hx => ?_
    rw [ho] at w1
    simp only [written, w1, Option.map_some, List.mem_append, List.mem_map] at hm
    rcases hm with ⟨y, hy, rfl⟩ | hm
    · obtain ⟨h1, h2⟩ := (has_iff hc hI.toInv0 l).1 hl
      obtain ⟨m0, g1, g2⟩ := w2 y hy
      rw [near_keeps hc' hI' hk' g1 g2 h1 (hx x (by simp)), h2]
      rfl
    · exact w m hm l (hkeep l hl (hx x (by simp))) fun y hy => hx y (by simp [hy])

/-- Calls that delete nothing, on a store without unused slots. -/
theorem step_raw (hc : CfgOK c) {s : Store} (hI : Inv c s []) {d i : Nat → Nat → Option Nat} (hd : ExactAlloc d)
    (hi : ExactAlloc i) {k : Call} (hn : ∀ i, k ≠ .delete i) (hk : Supported ((links c).view s) k)
    (hg : k = .create → GrowTogether (c.withAllocs d i) s ∧ NewUnused (c.withAllocs d i) s)
    {σ : Type} {hh : WH σ} {st : σ} {o : Out Store σ Flow} (ho : callExec (c.withAllocs d i) s hh st k = some o) :
    Inv c o.st [] ∧ ∀ j, j ≠ 0 → o.st.data j = s.data j ∨ ∃ x y, k = .update j x y ∧ o.st.data j = (x, y) := by
  cases k with
  | create =>
    have ho : createLinks (c.withAllocs d i) s [] hh st = some o := ho
    have hc' := hc.withAllocs hd hi
    have hw := hI.withAllocs d i
    obtain ⟨hgt, hn⟩ := hg rfl
    rcases create_cases hc' hw [] with ⟨x, rest, s', hf, -⟩ | ⟨hf, g1, g2⟩ |
      ⟨hf, g1, g2, g3⟩ | ⟨hf, g1, g2, g3, g4⟩ | ⟨hf, g1, g2, g3, g4, g5⟩ | ⟨hf, g1, s', g2, g3, g4⟩
    · cases hf
    · cases ho.symm.trans (g2 _ hh st); exact ⟨hI, fun j _ => .inl rfl⟩
    · cases ho.symm.trans (g3 _ hh st); exact ⟨hI, fun j _ => .inl rfl⟩
    · exact absurd g3 (hgt g2)
    · cases ho.symm.trans (g5 _ hh st)
    · cases ho.symm.trans (g2 _ hh st)
      have hi' := (g3.inv hc' hw (by simp) (hn _ s' (create_of_succeeds g2))).ofAllocs
      refine ⟨hi', fun j hj => .inl ?_⟩
      show s'.data j = s.data j
      have hbey : ∀ {t : Store}, (∀ k, t.hdr.allocated < k → t.data k = (0, 0)) → ¬ LiveIn t [] j → t.data j = (0, 0) :=
        fun hb hn => hb j (Nat.lt_of_not_le fun hle => hn ⟨by omega, hle, by simp⟩)
      by_cases hl : LiveIn s [] j
      · exact g3.data j hl
      · rw [hbey hI.base.beyond hl]
        by_cases hl' : LiveIn s' [] j
        · rcases (g3.live j).1 hl' with h | h
          · exact absurd h hl
          · rw [h]; exact g3.data_i
        · exact hbey hi'.base.beyond hl'
  | update j x y =>
    have ho : updateLinks c s [j] [j, x, y] hh st = some o := ho
    by_cases hv : LiveIn s [] j
    · obtain ⟨s', g1, g2, g3, g4, g5⟩ := updateLinks_ok hc hI hv (noTwinIn hc hI.toInv0 hv hk.1) [] j x y []
        ⟨hk.2.1, fun hx => hk.2.2 hx _ (by rw [view_eq hc hI.toInv0, if_pos hv])⟩ hh st
      rw [g1] at ho; cases ho
      refine ⟨g2, fun j' _ => ?_⟩
      by_cases e : j' = j
      · subst e
        exact .inr ⟨x, y, rfl, by rw [g5, if_pos rfl]⟩
      · exact .inl (by rw [g5, if_neg e])
    · rw [updateLinks_missing hc hI.toInv0 hv] at ho; cases ho; exact ⟨hI, fun j _ => .inl rfl⟩
  | delete j => exact absurd rfl (hn j)

/-- What the slots hold on the way of a session that deletes nothing, on a store without unused slots. -/
theorem written_raw (hc : CfgOK c) (hP : P.Implements c.trees) {s : Store} {xs : List Step} (hs : Session c s xs)
    (hx : ∀ x ∈ xs, ∀ i, x.call ≠ .delete i) (h : Inv c s []) :
    Ev fun f => ∀ m ∈ written c P f xs (.of s), ∀ j, j ≠ 0 →
      ((m.data j).1 = (s.data j).1 ∨ ∃ x ∈ xs, ∃ a b, x.call = .update j a b ∧ (m.data j).1 = a) ∧
      ((m.data j).2 = (s.data j).2 ∨ ∃ x ∈ xs, ∃ a b, x.call = .update j a b ∧ (m.data j).2 = b) := by
  induction hs with
  | done s => exact .of fun f m hm => by simp [written] at hm
  | @step s x xs o hd hi hk hg ho hs ih =>
    obtain ⟨h', hstep⟩ := step_raw hc h hd hi (hx x (by simp)) hk hg ho
    have hc' := hc.withAllocs hd hi
    have hI' := h.withAllocs x.dalloc x.ialloc
    have hk' : Supported ((links (c.withAllocs x.dalloc x.ialloc)).view s) x.call := by rw [view_withAllocs]; exact hk
    refine (callA_agree hc' (P := P) hP hI' hk' x.handler x.start).and (ih (fun y hy => hx y (by simp [hy])) h')
      fun f ⟨w1, w2⟩ w m hm j hj => ?_
    rw [ho] at w1
    simp only [written, w1, Option.map_some, List.mem_append, List.mem_map] at hm
    rcases hm with ⟨y, hy, rfl⟩ | hm
    · obtain ⟨m0, g1, g2⟩ := w2 y hy
      exact (near_raw hc' hI' (hx x (by simp)) hk' g1 g2 hj).imp (Or.imp id fun ⟨a, b, e⟩ => ⟨x, by simp, a, b, e⟩)
        (Or.imp id fun ⟨a, b, e⟩ => ⟨x, by simp, a, b, e⟩)
    · have wj := w m hm j hj
      refine ⟨?_, ?_⟩
      · rcases wj.1 with e | ⟨y, hy, a, b, e⟩
        · rcases hstep j hj with e' | ⟨a, b, e1, e2⟩
          · rw [e'] at e; exact .inl e
          · rw [e2] at e; exact .inr ⟨x, by simp, a, b, e1, e⟩
        · exact .inr ⟨y, by simp [hy], a, b, e⟩
      · rcases wj.2 with e | ⟨y, hy, a, b, e⟩
        · rcases hstep j hj with e' | ⟨a, b, e1, e2⟩
          · rw [e'] at e; exact .inl e
          · rw [e2] at e; exact .inr ⟨x, by simp, a, b, e1, e⟩
        · exact .inr ⟨y, by simp [hy], a, b, e⟩

/-- What torn files keep. -/
theorem torn_keeps {ms : List Store} {t : Store} (ht : Torn ms t) {i x y : Nat} (h : ∀ m ∈ ms, m.data i = (x, y)) :
    t.data i = (x, y) := by
  obtain ⟨m0, g0, e0⟩ := (ht i 0).1
  obtain ⟨m1, g1, e1⟩ := (ht i 1).1
  simp only [Store.dataWord, List.getD_cons_zero, List.getD_cons_succ] at e0 e1
  have a0 := h m0 g0
  have a1 := h m1 g1
  rw [a0] at e0
  rw [a1] at e1
  exact Prod.ext e0 e1

end Verif.Split
