import Verif.Props.Indices

/-!
# C80: how much memory a store asks for

The memory (the file) is bounded by the number of links that existed at the same time, whatever was created and deleted, and
it grows rarely.
-/

namespace Verif.Unit
open Verif
variable {c : Cfg}

/-- Neither the mapped slots nor the recorded number of reserved slots changes. -/
structure SameRoom (s s' : Store) : Prop where
  len : s'.len = s.len
  reserved : s'.hdr.reserved = s.hdr.reserved

theorem SameRoom.refl (s : Store) : SameRoom s s := ⟨rfl, rfl⟩

theorem SameRoom.trans {s s' s'' : Store} (h : SameRoom s s') (g : SameRoom s' s'') : SameRoom s s'' :=
  ⟨g.len.trans h.len, g.reserved.trans h.reserved⟩

theorem attachSource_room {s s' : Store} {i : Nat} (h : attachSource c s i = some s') : SameRoom s s' := by
  obtain ⟨p, -, rfl⟩ := Option.map_eq_some_iff.1 h; exact ⟨rfl, rfl⟩

theorem attachTarget_room {s s' : Store} {i : Nat} (h : attachTarget c s i = some s') : SameRoom s s' := by
  obtain ⟨p, -, rfl⟩ := Option.map_eq_some_iff.1 h; exact ⟨rfl, rfl⟩

theorem detachSource_room {s s' : Store} {i : Nat} (h : detachSource c s i = some s') : SameRoom s s' := by
  obtain ⟨p, -, rfl⟩ := Option.map_eq_some_iff.1 h; exact ⟨rfl, rfl⟩

theorem detachTarget_room {s s' : Store} {i : Nat} (h : detachTarget c s i = some s') : SameRoom s s' := by
  obtain ⟨p, -, rfl⟩ := Option.map_eq_some_iff.1 h; exact ⟨rfl, rfl⟩

theorem unusedDetach_room {s s' : Store} {i : Nat} (h : unusedDetach c s i = some s') : SameRoom s s' := by
  obtain ⟨p, -, rfl⟩ := Option.map_eq_some_iff.1 h; exact ⟨rfl, rfl⟩

theorem unusedAttachFirst_room {s s' : Store} {i : Nat} (h : unusedAttachFirst c s i = some s') : SameRoom s s' := by
  obtain ⟨p, -, rfl⟩ := Option.map_eq_some_iff.1 h; exact ⟨rfl, rfl⟩

theorem setPair_room {s s' : Store} {i a b : Nat} (h : setPair s i a b = some s') : SameRoom s s' := by
  unfold setPair at h
  split at h
  · cases h; exact ⟨rfl, rfl⟩
  · cases h

theorem whenM_room {b : Bool} {f : Store → Option Store} {s s' : Store} (hf : ∀ s s', f s = some s' → SameRoom s s')
    (h : whenM b f s = some s') : SameRoom s s' := by
  cases b with
  | false => cases h; exact .refl _
  | true => exact hf _ _ h

theorem relink_room {s s' : Store} {l : Link} {i a b : Nat} (h : relink c s l i a b = some s') : SameRoom s s' := by
  simp only [relink, Option.bind_eq_some_iff] at h
  obtain ⟨s1, h1, s2, h2, s3, h3, s4, h4, h5⟩ := h
  exact (((whenM_room (fun _ _ => detachSource_room) h1).trans (whenM_room (fun _ _ => detachTarget_room) h2)).trans
    (setPair_room h3)).trans ((whenM_room (fun _ _ => attachSource_room) h4).trans
      (whenM_room (fun _ _ => attachTarget_room) h5))

theorem updateLinks_room {σ : Type} {s : Store} {q ch : List Nat} {h : WH σ} {st : σ} {o : Out Store σ Flow}
    (ho : updateLinks c s q ch h st = some o) : SameRoom s o.st := by
  simp only [updateLinks, Option.bind_eq_some_iff] at ho
  obtain ⟨i, -, a, -, b, -, l, -, ho⟩ := ho
  cases l with
  | none => cases ho; exact .refl _
  | some l =>
    obtain ⟨s', h1, rfl⟩ := Option.map_eq_some_iff.1 ho
    exact relink_room h1

theorem releaseTop_room : ∀ (f : Nat) {s s' : Store}, releaseTop c f s = some s' → SameRoom s s' := by
  intro f
  induction f with
  | zero => intro s s' h; cases h
  | succ f ih =>
    intro s s' h
    simp only [releaseTop] at h
    split at h
    · cases h; exact .refl _
    · obtain ⟨u, -, h⟩ := Option.bind_eq_some_iff.1 h
      split at h
      · obtain ⟨s1, h1, h2⟩ := Option.bind_eq_some_iff.1 h
        have := ih h2
        exact (unusedDetach_room h1).trans ⟨this.len, this.reserved⟩
      · cases h; exact .refl _

theorem deleteLinks_room {σ : Type} {s : Store} {q : List Nat} {h : WH σ} {st : σ} {o : Out Store σ Flow}
    (ho : deleteLinks c s q h st = some o) : SameRoom s o.st := by
  simp only [deleteLinks, Option.bind_eq_some_iff] at ho
  obtain ⟨i, -, l, -, ho⟩ := ho
  cases l with
  | none => cases ho; exact .refl _
  | some l =>
    obtain ⟨o1, h1, ho⟩ := Option.bind_eq_some_iff.1 ho
    have hk := updateLinks_room h1
    cases hr : o1.res with
    | error e => simp only [hr] at ho; cases ho; exact hk
    | ok r =>
      simp only [hr] at ho
      obtain ⟨s2, h2, rfl⟩ := Option.map_eq_some_iff.1 ho
      refine hk.trans ?_
      split at h2
      · exact unusedAttachFirst_room h2
      · split at h2
        · obtain ⟨a, -, h2⟩ := Option.bind_eq_some_iff.1 h2
          have := releaseTop_room _ h2
          exact ⟨this.len, this.reserved⟩
        · cases h2

/-- A creation asks for memory only if nothing is free and the highest index is next to the last reserved one; it then asks for one step
more than there is. -/
theorem createLinks_room {σ : Type} {s : Store} {q : List Nat} {h : WH σ} {st : σ} {o : Out Store σ Flow}
    (ho : createLinks c s q h st = some o) : SameRoom s o.st ∨
      (s.hdr.firstFree = c.consts.null ∧ s.hdr.reserved ≤ s.hdr.allocated + 1 ∧
        c.alloc s.len (s.len + c.step) = some o.st.len ∧ o.st.hdr.reserved = o.st.len) := by
  simp only [createLinks] at ho
  split at ho
  · next hf =>
    split at ho
    · cases ho; exact .inl (.refl _)
    · obtain ⟨r1, hr, ho⟩ := Option.bind_eq_some_iff.1 ho
      split at ho
      · next hle =>
        split at ho
        · cases ho; exact .inl (.refl _)
        · next n hn =>
          split at ho
          · obtain ⟨a, -, rfl⟩ := Option.map_eq_some_iff.1 ho
            refine .inr ⟨hf, ?_, hn, rfl⟩
            simp only [csub] at hr
            split at hr
            · cases hr; omega
            · cases hr
          · cases ho
      · obtain ⟨a, -, rfl⟩ := Option.map_eq_some_iff.1 ho
        exact .inl ⟨rfl, rfl⟩
  · obtain ⟨s', h1, rfl⟩ := Option.map_eq_some_iff.1 ho
    exact .inl (unusedDetach_room h1)

theorem create_unfold {s : Store} {o : Out Store _root_.Unit Nat} (ho : (links c).create s = some o) :
    ∃ o', createLinks c s [] (Links.wrapW Links.keepIndex) (0, .cont) = some o' ∧ o'.st = o.st := by
  obtain ⟨o1, h1, rfl⟩ := Option.map_eq_some_iff.1 ho
  obtain ⟨o2, h2, rfl⟩ := Option.map_eq_some_iff.1 h1
  exact ⟨o2, h2, rfl⟩

theorem update_unfold {s : Store} {i a b : Nat} {o : Out Store _root_.Unit Nat} (ho : (links c).update s i a b = some o) :
    ∃ o', updateLinks c s [i] [i, a, b] (Links.wrapW Links.keepIndex) (0, .cont) = some o' ∧ o'.st = o.st := by
  obtain ⟨o1, h1, rfl⟩ := Option.map_eq_some_iff.1 ho
  obtain ⟨o2, h2, rfl⟩ := Option.map_eq_some_iff.1 h1
  exact ⟨o2, h2, rfl⟩

theorem delete_unfold {s : Store} {i : Nat} {o : Out Store _root_.Unit Nat} (ho : (links c).delete s i = some o) :
    ∃ o', deleteLinks c s [i] (Links.wrapW Links.keepIndex) (0, .cont) = some o' ∧ o'.st = o.st := by
  obtain ⟨o1, h1, rfl⟩ := Option.map_eq_some_iff.1 ho
  obtain ⟨o2, h2, rfl⟩ := Option.map_eq_some_iff.1 h1
  exact ⟨o2, h2, rfl⟩

/-- The memory grants at most `g` slots more than it is asked for. -/
def GrantsAtMost (g : Nat) (a : Nat → Nat → Option Nat) : Prop := ∀ len req n, a len req = some n → n ≤ req + g

/-- Histories as in `History` with memories that grant at most `g` slots more than they are asked for. The number counts the calls since the store
was opened which changed the amount of memory. -/
inductive Grown (c : Cfg) (g : Nat) : Store → List (Call × Except Err Nat) → Nat → Prop
  | fresh (a) {s : Store} : GoodAlloc a → GrantsAtMost g a → init (c.withAlloc a) {} = some (.ok s) → Grown c g s [] 0
  | call (a) (k : Call) {s : Store} {tr n} {o : Out Store _root_.Unit Nat} : Grown c g s tr n → GoodAlloc a → GrantsAtMost g a →
      (∀ i, k.subject = some i → (replay tr).NoTwin i) → step c a s k = some o →
      Grown c g o.st (tr ++ [(k, o.res)]) (if o.st.len = s.len then n else n + 1)
  | reopen (a) (n : Nat) {s s' : Store} {tr m} : Grown c g s tr m → GoodAlloc a → GrantsAtMost g a →
      init (c.withAlloc a) { s with len := n } = some (.ok s') → s.hdr.allocated < s'.len → Grown c g s' tr 0

theorem Grown.history {g : Nat} {s : Store} {tr n} (h : Grown c g s tr n) : History c s tr := by
  induction h with
  | fresh a ha hg h => exact .fresh a ha h
  | call a k h ha hg ht ho ih => exact .call a k ih ha ht ho
  | reopen a n h ha hg hin hlt ih => exact .reopen a n ih ha hin hlt

theorem init_room {a : Nat → Nat → Option Nat} {s s' : Store} {g : Nat} (hg : GrantsAtMost g a)
    (h : init (c.withAlloc a) s = some (.ok s')) :
    s'.len = s'.hdr.reserved + 1 ∧ s'.len ≤ max c.step s.hdr.allocated + g := by
  unfold init at h
  split at h
  · cases h
  · split at h
    · cases h
    · simp only [] at h
      split at h
      · cases h
      · next n2 hn =>
        obtain ⟨r, hr, h⟩ := Option.bind_eq_some_iff.1 h
        split at h
        · cases h
          simp only [csub] at hr
          split at hr
          · cases hr
            exact ⟨by simp only []; omega, hg _ _ _ hn⟩
          · cases hr
        · cases h

/-- What a call does to the amount of memory. -/
theorem step_room {a : Nat → Nat → Option Nat} {k : Call} {s : Store} {o : Out Store _root_.Unit Nat}
    (ho : step c a s k = some o) : SameRoom s o.st ∨
      (k = .create ∧ s.hdr.firstFree = c.consts.null ∧ s.hdr.reserved ≤ s.hdr.allocated + 1 ∧
        a s.len (s.len + c.step) = some o.st.len ∧ o.st.hdr.reserved = o.st.len) := by
  cases k with
  | create =>
    obtain ⟨o', h1, h2⟩ := create_unfold ho
    rw [← h2]
    rcases createLinks_room h1 with h | ⟨h3, h4, h5, h6⟩
    · exact .inl h
    · exact .inr ⟨rfl, h3, h4, h5, h6⟩
  | update i x y =>
    obtain ⟨o', h1, h2⟩ := update_unfold ho
    exact .inl (h2 ▸ updateLinks_room h1)
  | delete i =>
    obtain ⟨o', h1, h2⟩ := delete_unfold ho
    exact .inl (h2 ▸ deleteLinks_room h1)

theorem Grown.room (hc : CfgOK c) {g : Nat} {s : Store} {tr n} (h : Grown c g s tr n) :
    s.len ≤ s.hdr.reserved + 1 ∧ (∃ m, HeldAtOnce tr m ∧ s.len ≤ m + c.step + 2 + g) ∧ n * c.step ≤ s.len := by
  induction h with
  | fresh a ha hg h =>
    obtain ⟨h1, h2⟩ := init_room hg h
    refine ⟨by omega, ⟨0, held_top hc (.fresh a ha h), ?_⟩, by omega⟩
    have : ({} : Store).hdr.allocated = 0 := rfl
    rw [this] at h2
    omega
  | @call a k s tr n o h ha hg ht ho ih =>
    obtain ⟨i1, ⟨m, i2, i3⟩, i4⟩ := ih
    rcases step_room ho with hk | ⟨rfl, h1, h2, h3, h4⟩
    · rw [if_pos hk.len, hk.len, hk.reserved]
      exact ⟨i1, ⟨m, i2.snoc _, i3⟩, i4⟩
    · have h5 := hg _ _ _ h3
      have h6 := ha _ _ _ h3
      have hst := hc.step_pos
      rw [if_neg (by omega), Nat.add_mul]
      refine ⟨by omega, ⟨s.hdr.allocated, ?_, by omega⟩, by omega⟩
      rw [(history_inv hc h.history).1.top]
      exact (held_top hc h.history).snoc _
  | @reopen a n s s' tr m h ha hg hin hlt ih =>
    obtain ⟨h1, h2⟩ := init_room hg hin
    refine ⟨by omega, ⟨s.hdr.allocated, ?_, ?_⟩, by omega⟩
    · rw [(history_inv hc h.history).1.top]
      exact held_top hc h.history
    · have : ({ s with len := n } : Store).hdr.allocated = s.hdr.allocated := rfl
      rw [this] at h2
      omega

end Verif.Unit

namespace Verif.Unit.Props
open Verif
variable {c : Cfg}

/-- **C80**, united store: the mapped slots are at most the largest number of links that existed at once, plus a step, plus two, plus what
the memory grants unasked. -/
theorem C80_memory_is_bounded (hc : CfgOK c) {g : Nat} {s : Store} {tr n} (h : Grown c g s tr n) :
    ∃ m, HeldAtOnce tr m ∧ s.len ≤ m + c.step + 2 + g := (h.room hc).2.1

/-- **C80**, united store: each growth since the store was opened accounts for a step of the memory. -/
theorem C80_growth_is_rare (hc : CfgOK c) {g : Nat} {s : Store} {tr n} (h : Grown c g s tr n) :
    ∃ m, HeldAtOnce tr m ∧ n * c.step ≤ m + c.step + 2 + g := by
  obtain ⟨-, ⟨m, h1, h2⟩, h3⟩ := h.room hc
  exact ⟨m, h1, Nat.le_trans h3 h2⟩

/-- **C80**, united store: a call that changes the amount of memory is a creation, finds the links numbered without gaps up to an index next to the end of
the memory, and asks for one step more. -/
theorem C80_grows_when_full (hc : CfgOK c) {g : Nat} {s : Store} {tr n} (h : Grown c g s tr n) {a : Nat → Nat → Option Nat}
    {k : Call} {o : Out Store _root_.Unit Nat} (ho : step c a s k = some o) (hl : o.st.len ≠ s.len) :
    k = .create ∧ a s.len (s.len + c.step) = some o.st.len ∧
      ∃ t, s.len ≤ t + 2 ∧ ∀ i, (links c).view s i ≠ none ↔ 1 ≤ i ∧ i ≤ t := by
  rcases step_room ho with hk | ⟨rfl, h1, h2, h3, h4⟩
  · exact absurd hk.len hl
  · have h5 := (h.room hc).1
    have hi := (history_inv hc h.history).1
    refine ⟨rfl, h3, s.hdr.allocated, by omega, fun i => ?_⟩
    obtain ⟨⟨ts, tt, hinv⟩, -⟩ := id hi
    have hfree : (slots tr).free = [] := by
      have hf := hinv.base.list.first_eq
      have hf : s.hdr.firstFree = (slots tr).free.headD 0 := hf
      rw [h1, hc.null_eq] at hf
      cases hx : (slots tr).free with
      | nil => rfl
      | cons x l =>
        rw [hx] at hf
        exact absurd hf.symm (hinv.base.list.nonzero x (by rw [hx]; exact .head _))
    rw [hi.view, hi.live hc i, hfree, ← hi.top]
    simp

/-! Examples. -/

/-- Number of calls that change the amount of memory. -/
def growths (c : Cfg) : List Call → Store → Nat → Nat
  | [], _, n => n
  | k :: ks, s, n =>
    match step c c.alloc s k with
    | none => n
    | some o => growths c ks o.st (if o.st.len = s.len then n else n + 1)

theorem exec_grown (hc : CfgOK c) {g : Nat} (ha : GoodAlloc c.alloc) (hg : GrantsAtMost g c.alloc) :
    ∀ (ks : List Call) {s s' : Store} {rs tr n},
    Grown c g s tr n → exec c ks s = some (s', rs) → Grown c g s' (tr ++ ks.zip rs) (growths c ks s n) := by
  intro ks
  induction ks with
  | nil => intro s s' rs tr n hr h; simp [exec] at h; rw [← h.1]; simpa [growths] using hr
  | cons k ks ih =>
    intro s s' rs tr n hr h
    unfold exec at h
    split at h
    · next ht =>
      cases ho : step c c.alloc s k with
      | none => rw [ho] at h; simp at h
      | some o =>
        rw [ho] at h
        simp only [Option.bind_some] at h
        cases he : exec c ks o.st with
        | none => rw [he] at h; simp at h
        | some r =>
          rw [he] at h
          simp only [Option.map_some, Option.some.injEq, Prod.mk.injEq] at h
          rw [← h.1, ← h.2, List.zip_cons_cons]
          have hi := (history_inv hc hr.history).1
          have := ih (.call c.alloc k hr ha hg (fun i hi' => ?_) ho) he
          · simpa [growths, ho] using this
          · unfold guardB at ht
            rw [hi'] at ht
            obtain ⟨ts, tt, hh⟩ := hi.inv
            rw [← hi.view]
            exact twinFree_noTwin hc ⟨_, ts, tt, hh⟩ ht
    · simp at h

theorem runs_grown {ks : List Call} (h : (exec cfg0 ks (store0 cfg0)).isSome = true) :
    Grown cfg0 0 (runs cfg0 ks) (trace cfg0 ks) (growths cfg0 ks (store0 cfg0) 0) := by
  obtain ⟨r, hr⟩ := Option.isSome_iff_exists.1 h
  have h1 : runs cfg0 ks = r.1 := by simp [runs, hr]
  have h2 : trace cfg0 ks = ks.zip r.2 := by simp [trace, hr]
  have hg : GrantsAtMost 0 cfg0.alloc := fun len req n h => by cases h; exact Nat.le_refl _
  have h0 : Grown cfg0 0 (store0 cfg0) [] 0 := .fresh (c := cfg0) cfg0.alloc alloc0_good hg rfl
  rw [h1, h2]
  simpa using exec_grown cfg0_ok alloc0_good hg ks h0 hr

/-- Twelve links at once, many more over time. -/
def busy : List Call :=
  List.replicate 12 .create ++ [.delete 3, .delete 12, .create, .delete 5, .create, .create, .delete 1, .create, .delete 7, .create]

/-- The memory of eight slots grew once, to sixteen. -/
example : Grown cfg0 0 (runs cfg0 busy) (trace cfg0 busy) 1 ∧ (runs cfg0 busy).len = 16 :=
  ⟨runs_grown (by decide +kernel), by decide +kernel⟩

/-- It was full when it grew: six links, the seventh creation. -/
example : (step cfg0 cfg0.alloc (runs cfg0 (List.replicate 6 .create)) .create).map (·.st.len) = some 16 ∧
    (runs cfg0 (List.replicate 6 .create)).len = 8 := ⟨by decide +kernel, by decide +kernel⟩

end Verif.Unit.Props

namespace Verif.Split
open Verif
variable {c : Cfg}

/-- Neither the mapped slots of the two memories nor the recorded number of reserved slots changes. -/
structure SameRoom (s s' : Store) : Prop where
  dlen : s'.dlen = s.dlen
  ilen : s'.ilen = s.ilen
  reserved : s'.hdr.reserved = s.hdr.reserved

theorem SameRoom.refl (s : Store) : SameRoom s s := ⟨rfl, rfl, rfl⟩

theorem SameRoom.trans {s s' s'' : Store} (h : SameRoom s s') (g : SameRoom s' s'') : SameRoom s s'' :=
  ⟨g.dlen.trans h.dlen, g.ilen.trans h.ilen, g.reserved.trans h.reserved⟩

theorem putExt_room (s : Store) (d : Side) (m : TMem) (r : Nat) : SameRoom s (s.putExt d m r) := by
  cases d <;> exact ⟨rfl, rfl, rfl⟩

theorem attachInt_room {d : Side} {s s' : Store} {a i : Nat} (h : attachInt c d s a i = some s') : SameRoom s s' := by
  unfold attachInt at h
  split at h
  · obtain ⟨p, -, rfl⟩ := Option.map_eq_some_iff.1 h; exact ⟨rfl, rfl, rfl⟩
  · cases h

theorem detachInt_room {d : Side} {s s' : Store} {a i : Nat} (h : detachInt c d s a i = some s') : SameRoom s s' := by
  unfold detachInt at h
  split at h
  · obtain ⟨p, -, rfl⟩ := Option.map_eq_some_iff.1 h; exact ⟨rfl, rfl, rfl⟩
  · cases h

theorem attachExt_room {d : Side} {s s' : Store} {i : Nat} (h : attachExt c d s i = some s') : SameRoom s s' := by
  obtain ⟨p, -, rfl⟩ := Option.map_eq_some_iff.1 h; exact putExt_room ..

theorem detachExt_room {d : Side} {s s' : Store} {i : Nat} (h : detachExt c d s i = some s') : SameRoom s s' := by
  obtain ⟨p, -, rfl⟩ := Option.map_eq_some_iff.1 h; exact putExt_room ..

theorem unusedDetach_room {s s' : Store} {i : Nat} (h : unusedDetach c s i = some s') : SameRoom s s' := by
  unfold unusedDetach at h
  split at h
  · cases h
  · obtain ⟨p, -, rfl⟩ := Option.map_eq_some_iff.1 h; exact ⟨rfl, rfl, rfl⟩

theorem unusedAttachFirst_room {s s' : Store} {i : Nat} (h : unusedAttachFirst c s i = some s') : SameRoom s s' := by
  unfold unusedAttachFirst at h
  split at h
  · cases h
  · obtain ⟨p, -, rfl⟩ := Option.map_eq_some_iff.1 h; exact ⟨rfl, rfl, rfl⟩

theorem setPair_room {s s' : Store} {i a b : Nat} (h : setPair s i a b = some s') : SameRoom s s' := by
  unfold setPair at h
  split at h
  · cases h; exact ⟨rfl, rfl, rfl⟩
  · cases h

theorem moveOut_room {d : Side} {x : Nat} : ∀ (ks : List Nat) {s s' : Store}, moveOut c d x ks s = some s' → SameRoom s s' := by
  intro ks
  induction ks with
  | nil => intro s s' h; cases h; exact .refl _
  | cons k ks ih =>
    intro s s' h
    simp only [moveOut, Option.bind_eq_some_iff] at h
    obtain ⟨s1, h1, s2, h2, h3⟩ := h
    exact ((detachInt_room h1).trans (attachExt_room h2)).trans (ih h3)

theorem moveIn_room {d : Side} {x : Nat} : ∀ (ks : List Nat) {s s' : Store}, moveIn c d x ks s = some s' → SameRoom s s' := by
  intro ks
  induction ks with
  | nil => intro s s' h; cases h; exact .refl _
  | cons k ks ih =>
    intro s s' h
    simp only [moveIn, Option.bind_eq_some_iff] at h
    obtain ⟨s1, h1, s2, h2, h3⟩ := h
    exact ((detachExt_room h1).trans (attachInt_room h2)).trans (ih h3)

theorem resolveInternal_room {s s' : Store} {i : Nat} (h : resolveInternal c s i = some s') : SameRoom s s' := by
  simp only [resolveInternal, Option.bind_eq_some_iff] at h
  obtain ⟨l1, -, s1, h1, l2, -, h2⟩ := h
  exact (moveOut_room _ h1).trans (moveOut_room _ h2)

theorem resolveExternal_room {s s' : Store} {i : Nat} (h : resolveExternal c s i = some s') : SameRoom s s' := by
  simp only [resolveExternal, Option.bind_eq_some_iff] at h
  obtain ⟨l1, -, s1, h1, l2, -, h2⟩ := h
  exact (moveIn_room _ h1).trans (moveIn_room _ h2)

theorem detachEnd_room {d : Side} {s s' : Store} {e i : Nat} (h : detachEnd c d e i s = some s') : SameRoom s s' := by
  unfold detachEnd at h
  split at h
  · cases h; exact .refl _
  · obtain ⟨v, -, h⟩ := Option.bind_eq_some_iff.1 h
    split at h
    · exact detachExt_room h
    · exact detachInt_room h

theorem attachEnd_room {d : Side} {v : Bool} {s s' : Store} {e i : Nat} (h : attachEnd c d v e i s = some s') :
    SameRoom s s' := by
  unfold attachEnd at h
  split at h
  · cases h; exact .refl _
  · split at h
    · exact attachExt_room h
    · exact attachInt_room h

theorem relink_room {s s' : Store} {l : Link} {i a b : Nat} (h : relink c s l i a b = some s') : SameRoom s s' := by
  simp only [relink, Option.bind_eq_some_iff] at h
  obtain ⟨s1, h1, s2, h2, vs, -, vt, -, s3, h3, s4, h4, h5⟩ := h
  exact (((detachEnd_room h1).trans (detachEnd_room h2)).trans (setPair_room h3)).trans
    ((attachEnd_room h4).trans (attachEnd_room h5))

theorem updateLinks_room {σ : Type} {s : Store} {q ch : List Nat} {h : WH σ} {st : σ} {o : Out Store σ Flow}
    (ho : updateLinks c s q ch h st = some o) : SameRoom s o.st := by
  simp only [updateLinks, Option.bind_eq_some_iff] at ho
  obtain ⟨i, -, a, -, b, -, l, -, ho⟩ := ho
  cases l with
  | none => cases ho; exact .refl _
  | some l =>
    obtain ⟨s', h1, rfl⟩ := Option.map_eq_some_iff.1 ho
    exact relink_room h1

theorem releaseTop_room : ∀ (f : Nat) {s s' : Store}, releaseTop c f s = some s' → SameRoom s s' := by
  intro f
  induction f with
  | zero => intro s s' h; cases h
  | succ f ih =>
    intro s s' h
    simp only [releaseTop] at h
    split at h
    · cases h; exact .refl _
    · obtain ⟨u, -, h⟩ := Option.bind_eq_some_iff.1 h
      split at h
      · obtain ⟨s1, h1, h2⟩ := Option.bind_eq_some_iff.1 h
        have := ih h2
        exact (unusedDetach_room h1).trans ⟨this.dlen, this.ilen, this.reserved⟩
      · cases h; exact .refl _

theorem deleteLinks_room {σ : Type} {s : Store} {q : List Nat} {h : WH σ} {st : σ} {o : Out Store σ Flow}
    (ho : deleteLinks c s q h st = some o) : SameRoom s o.st := by
  simp only [deleteLinks, Option.bind_eq_some_iff] at ho
  obtain ⟨i, -, l, -, ho⟩ := ho
  cases l with
  | none => cases ho; exact .refl _
  | some l =>
    obtain ⟨s0, h0, ho⟩ := Option.bind_eq_some_iff.1 ho
    obtain ⟨o1, h1, ho⟩ := Option.bind_eq_some_iff.1 ho
    have hk := (resolveInternal_room h0).trans (updateLinks_room h1)
    cases hr : o1.res with
    | error e => simp only [hr] at ho; cases ho; exact hk
    | ok r =>
      simp only [hr] at ho
      obtain ⟨s2, h2, rfl⟩ := Option.map_eq_some_iff.1 ho
      refine hk.trans ?_
      split at h2
      · exact unusedAttachFirst_room h2
      · split at h2
        · obtain ⟨a, -, h2⟩ := Option.bind_eq_some_iff.1 h2
          have := releaseTop_room _ h2
          exact ⟨this.dlen, this.ilen, this.reserved⟩
        · cases h2

theorem createTop_room {σ : Type} {s : Store} {h : WH σ} {st : σ} {o : Out Store σ Flow}
    (ho : createTop c s h st = some o) : SameRoom s o.st := by
  obtain ⟨a, -, ho⟩ := Option.bind_eq_some_iff.1 ho
  obtain ⟨s', h1, rfl⟩ := Option.map_eq_some_iff.1 ho
  have := resolveExternal_room h1
  exact ⟨this.dlen, this.ilen, this.reserved⟩

/-- As `Unit.createLinks_room`, for memories that grow together. -/
theorem createLinks_room {σ : Type} {s : Store} (hg : GrowTogether c s) {q : List Nat} {h : WH σ} {st : σ} {o : Out Store σ Flow}
    (ho : createLinks c s q h st = some o) : SameRoom s o.st ∨
      (s.hdr.firstFree = c.consts.null ∧ s.hdr.reserved ≤ s.hdr.allocated + 1 ∧
        c.dalloc s.dlen (s.dlen + c.step) = some o.st.dlen ∧ c.ialloc s.ilen (s.ilen + c.step) = some o.st.ilen ∧
        o.st.hdr.reserved = o.st.ilen) := by
  simp only [createLinks] at ho
  split at ho
  · next hf =>
    split at ho
    · cases ho; exact .inl (.refl _)
    · obtain ⟨r1, hr, ho⟩ := Option.bind_eq_some_iff.1 ho
      split at ho
      · next hle =>
        split at ho
        · cases ho; exact .inl (.refl _)
        · next d hd =>
          split at ho
          · next hn => exact absurd hn (hg (by rw [hd]; simp))
          · next n hn =>
            split at ho
            · have := createTop_room ho
              refine .inr ⟨hf, ?_, by rw [this.dlen]; exact hd, by rw [this.ilen]; exact hn, by rw [this.reserved, this.ilen]⟩
              simp only [csub] at hr
              split at hr
              · cases hr; omega
              · cases hr
            · cases ho
      · exact .inl (createTop_room ho)
  · obtain ⟨s', h1, ho⟩ := Option.bind_eq_some_iff.1 ho
    obtain ⟨s2, h2, rfl⟩ := Option.map_eq_some_iff.1 ho
    exact .inl ((unusedDetach_room h1).trans (resolveExternal_room h2))

theorem call_unfold {s : Store} {x : Option (Out Store (Nat × Flow) Flow)} {o : Out Store _root_.Unit Nat}
    (ho : (x.map Links.unwrapW).map Links.resultIndex = some o) : ∃ o', x = some o' ∧ o'.st = o.st := by
  obtain ⟨o1, h1, rfl⟩ := Option.map_eq_some_iff.1 ho
  obtain ⟨o2, h2, rfl⟩ := Option.map_eq_some_iff.1 h1
  exact ⟨o2, h2, rfl⟩

/-- What a call does to the amount of memory. -/
theorem step_room {d i : Nat → Nat → Option Nat} {k : Call} {s : Store} (hg : GrowTogether (c.withAllocs d i) s)
    {o : Out Store _root_.Unit Nat} (ho : step c d i s k = some o) : SameRoom s o.st ∨
      (k = .create ∧ s.hdr.firstFree = c.consts.null ∧ s.hdr.reserved ≤ s.hdr.allocated + 1 ∧
        d s.dlen (s.dlen + c.step) = some o.st.dlen ∧ i s.ilen (s.ilen + c.step) = some o.st.ilen ∧
        o.st.hdr.reserved = o.st.ilen) := by
  cases k with
  | create =>
    obtain ⟨o', h1, h2⟩ := call_unfold (s := s) ho
    rw [← h2]
    rcases createLinks_room (q := []) hg h1 with h | ⟨h3, h4, h5, h6, h7⟩
    · exact .inl h
    · exact .inr ⟨rfl, h3, h4, h5, h6, h7⟩
  | update i x y =>
    obtain ⟨o', h1, h2⟩ := call_unfold (s := s) ho
    have h1 : updateLinks c s [i] [i, x, y] _ _ = some o' := h1
    exact .inl (h2 ▸ updateLinks_room h1)
  | delete i =>
    obtain ⟨o', h1, h2⟩ := call_unfold (s := s) ho
    have h1 : deleteLinks c s [i] _ _ = some o' := h1
    exact .inl (h2 ▸ deleteLinks_room h1)

/-- Histories as in `History`. The number counts the calls since the store was opened which changed the amount of memory. -/
inductive Grown (c : Cfg) : Store → List (Call × Except Err Nat) → Nat → Prop
  | fresh (d i) {s : Store} : ExactAlloc d → ExactAlloc i → init (c.withAllocs d i) {} = some (.ok s) → Grown c s [] 0
  | call (d i) (k : Call) {s : Store} {tr n} {o : Out Store _root_.Unit Nat} : Grown c s tr n → ExactAlloc d →
      ExactAlloc i → GrowTogether (c.withAllocs d i) s → step c d i s k = some o → k.SplitOK (replay tr) o.res →
      Grown c o.st (tr ++ [(k, o.res)]) (if o.st.ilen = s.ilen then n else n + 1)
  | reopen (d i) (n m : Nat) {s s' : Store} {tr x} : Grown c s tr x → ExactAlloc d → ExactAlloc i →
      init (c.withAllocs d i) { s with dlen := n, ilen := m } = some (.ok s') → s.hdr.allocated < s'.ilen → Grown c s' tr 0

theorem Grown.history {s : Store} {tr n} (h : Grown c s tr n) : History c s tr := by
  induction h with
  | fresh d i hd hi h => exact .fresh d i hd hi h
  | call d i k h hd hi hg ho hok ih => exact .call d i k ih hd hi hg ho hok
  | reopen d i n m h hd hi hin hlt ih => exact .reopen d i n m ih hd hi hin hlt

theorem align_le (n step : Nat) : align n step ≤ n + step := by
  unfold align
  split
  · have := Nat.div_mul_le_self n step; omega
  · omega

theorem init_room {d i : Nat → Nat → Option Nat} {s s' : Store} (hd : ExactAlloc d) (hi : ExactAlloc i)
    (h : init (c.withAllocs d i) s = some (.ok s')) :
    s'.dlen = s'.hdr.reserved + 1 ∧ s'.ilen ≤ s.hdr.allocated + c.page + 2 * c.step := by
  unfold init at h
  split at h
  · cases h
  · split at h
    · cases h
    · next i1 hi1 =>
      split at h
      · cases h
      · simp only [] at h
        split at h
        · cases h
        · split at h
          · cases h
          · next i2 hi2 =>
            obtain ⟨r, hr, h⟩ := Option.bind_eq_some_iff.1 h
            split at h
            · cases h
            · split at h
              · cases h
                simp only [csub] at hr
                split at hr
                · cases hr
                  refine ⟨by simp only []; omega, ?_⟩
                  have e1 := hi _ _ _ hi1
                  have e2 := hi _ _ _ hi2
                  have e3 := align_le (max (max s.hdr.allocated i1) c.step) c.step
                  have e1 : i1 = c.page := e1
                  have e2 : i2 = align (max (max s.hdr.allocated i1) c.step) c.step := e2
                  show i2 ≤ _
                  omega
                · cases hr
              · cases h

theorem Grown.room (hc : CfgOK c) {s : Store} {tr n} (h : Grown c s tr n) :
    s.ilen ≤ s.hdr.reserved + 1 ∧ (∃ m, HeldAtOnce tr m ∧ s.ilen ≤ m + c.page + 2 * c.step + 2) ∧ n * c.step ≤ s.ilen := by
  induction h with
  | fresh d i hd hi h =>
    obtain ⟨h1, h2⟩ := init_room hd hi h
    have h3 := (history_inv hc (.fresh d i hd hi h)).1.inv.base.len_eq
    refine ⟨by omega, ⟨0, held_top hc (.fresh d i hd hi h), ?_⟩, by omega⟩
    have : ({} : Store).hdr.allocated = 0 := rfl
    rw [this] at h2
    omega
  | @call d i k s tr n o h hd hi hg ho hok ih =>
    obtain ⟨i1, ⟨m, i2, i3⟩, i4⟩ := ih
    rcases step_room hg ho with hk | ⟨rfl, h1, h2, h3, h4, h5⟩
    · rw [if_pos hk.ilen, hk.ilen, hk.reserved]
      exact ⟨i1, ⟨m, i2.snoc _, i3⟩, i4⟩
    · have h6 := hi _ _ _ h4
      have hst := hc.step_pos
      rw [if_neg (by omega), Nat.add_mul]
      refine ⟨by omega, ⟨s.hdr.allocated, ?_, by omega⟩, by omega⟩
      rw [(history_inv hc h.history).1.top]
      exact (held_top hc h.history).snoc _
  | @reopen d i n m s s' tr x h hd hi hin hlt ih =>
    obtain ⟨h1, h2⟩ := init_room hd hi hin
    have h3 := (history_inv hc (.reopen d i n m h.history hd hi hin hlt)).1.inv.base.len_eq
    refine ⟨by omega, ⟨s.hdr.allocated, ?_, ?_⟩, by omega⟩
    · rw [(history_inv hc h.history).1.top]
      exact held_top hc h.history
    · have : ({ s with dlen := n, ilen := m } : Store).hdr.allocated = s.hdr.allocated := rfl
      rw [this] at h2
      omega

end Verif.Split

namespace Verif.Split.Props
open Verif
variable {c : Cfg}

/-- **C80**, split store: the mapped slots of either memory are at most the largest number of links that existed at once, plus a page, two steps
and two. -/
theorem C80_split_memory_is_bounded (hc : CfgOK c) {s : Store} {tr n} (h : Grown c s tr n) :
    ∃ m, HeldAtOnce tr m ∧ s.ilen ≤ m + c.page + 2 * c.step + 2 ∧ s.dlen = s.ilen := by
  obtain ⟨m, h1, h2⟩ := (h.room hc).2.1
  exact ⟨m, h1, h2, (history_inv hc h.history).1.inv.base.len_eq⟩

/-- **C80**, split store: each growth since the store was opened accounts for a step of the memory. -/
theorem C80_split_growth_is_rare (hc : CfgOK c) {s : Store} {tr n} (h : Grown c s tr n) :
    ∃ m, HeldAtOnce tr m ∧ n * c.step ≤ m + c.page + 2 * c.step + 2 := by
  obtain ⟨-, ⟨m, h1, h2⟩, h3⟩ := h.room hc
  exact ⟨m, h1, Nat.le_trans h3 h2⟩

/-- **C80**, split store: a call that changes the amount of memory is a creation, finds the links numbered without gaps up to an index next to the end of
the memory, and asks for one step more of each memory. -/
theorem C80_split_grows_when_full (hc : CfgOK c) {s : Store} {tr n} (h : Grown c s tr n) {d i : Nat → Nat → Option Nat}
    (hg : GrowTogether (c.withAllocs d i) s) {k : Call} {o : Out Store _root_.Unit Nat} (ho : step c d i s k = some o)
    (hl : o.st.ilen ≠ s.ilen ∨ o.st.dlen ≠ s.dlen) :
    k = .create ∧ d s.dlen (s.dlen + c.step) = some o.st.dlen ∧ i s.ilen (s.ilen + c.step) = some o.st.ilen ∧
      ∃ t, s.ilen ≤ t + 2 ∧ ∀ i, (links c).view s i ≠ none ↔ 1 ≤ i ∧ i ≤ t := by
  rcases step_room hg ho with hk | ⟨rfl, h1, h2, h3, h4, h5⟩
  · rcases hl with hl | hl
    · exact absurd hk.ilen hl
    · exact absurd hk.dlen hl
  · have h5 := (h.room hc).1
    have hi := (history_inv hc h.history).1
    refine ⟨rfl, h3, h4, s.hdr.allocated, by omega, fun i => ?_⟩
    have hinv := hi.inv
    have hfree : (slots tr).free = [] := by
      have hf := hinv.base.list.first_eq
      have hf : s.hdr.firstFree = (slots tr).free.headD 0 := hf
      rw [h1, hc.null_eq] at hf
      cases hx : (slots tr).free with
      | nil => rfl
      | cons x l =>
        rw [hx] at hf
        exact absurd hf.symm (hinv.base.list.nonzero x (by rw [hx]; exact .head _))
    rw [hi.view, hi.live hc i, hfree, ← hi.top]
    simp

/-! Examples. -/

/-- Number of calls that change the amount of memory. -/
def growths (c : Cfg) : List Call → Store → Nat → Nat
  | [], _, n => n
  | k :: ks, s, n =>
    match step c c.dalloc c.ialloc s k with
    | none => n
    | some o => growths c ks o.st (if o.st.ilen = s.ilen then n else n + 1)

theorem exec_grown (hc : CfgOK c) (hg : ∀ s, GrowTogether c s) : ∀ (ks : List Call) {s s' : Store} {rs tr n},
    Grown c s tr n → exec c ks s = some (s', rs) → Grown c s' (tr ++ ks.zip rs) (growths c ks s n) := by
  intro ks
  induction ks with
  | nil => intro s s' rs tr n hr h; simp [exec] at h; rw [← h.1]; simpa [growths] using hr
  | cons k ks ih =>
    intro s s' rs tr n hr h
    unfold exec at h
    cases ho : step c c.dalloc c.ialloc s k with
    | none => rw [ho] at h; simp at h
    | some o =>
      rw [ho] at h
      simp only [Option.bind_some] at h
      split at h
      · next hk =>
        cases he : exec c ks o.st with
        | none => rw [he] at h; simp at h
        | some r =>
          rw [he] at h
          simp only [Option.map_some, Option.some.injEq, Prod.mk.injEq] at h
          rw [← h.1, ← h.2, List.zip_cons_cons]
          have hi := (history_inv hc hr.history).1
          have := ih (.call c.dalloc c.ialloc k hr hc.dalloc_eq hc.ialloc_eq (hg s) ho ?_) he
          · simpa [growths, ho] using this
          · rw [← hi.view]; exact okB_ok hc ⟨_, hi.inv⟩ hk
      · simp at h

theorem runs_grown {ks : List Call} (h : (exec cfg0 ks (store0 cfg0)).isSome = true) :
    Grown cfg0 (runs cfg0 ks) (trace cfg0 ks) (growths cfg0 ks (store0 cfg0) 0) := by
  obtain ⟨r, hr⟩ := Option.isSome_iff_exists.1 h
  have h1 : runs cfg0 ks = r.1 := by simp [runs, hr]
  have h2 : trace cfg0 ks = ks.zip r.2 := by simp [trace, hr]
  have h0 : Grown cfg0 (store0 cfg0) [] 0 :=
    .fresh (c := cfg0) cfg0.dalloc cfg0.ialloc cfg0_ok.dalloc_eq cfg0_ok.ialloc_eq rfl
  rw [h1, h2]
  simpa using exec_grown cfg0_ok (fun s _ => by simp [cfg0]) ks h0 hr

/-- The memory of eight slots grew once, to sixteen. -/
example : Grown cfg0 (runs cfg0 Verif.Unit.Props.busy) (trace cfg0 Verif.Unit.Props.busy) 1 ∧
    (runs cfg0 Verif.Unit.Props.busy).ilen = 16 :=
  ⟨runs_grown (by decide +kernel), by decide +kernel⟩

/-- It was full when it grew: six links, the seventh creation. -/
example : (step cfg0 cfg0.dalloc cfg0.ialloc (runs cfg0 (List.replicate 6 .create)) .create).map (·.st.ilen) = some 16 ∧
    (runs cfg0 (List.replicate 6 .create)).ilen = 8 := ⟨by decide +kernel, by decide +kernel⟩

end Verif.Split.Props
