import Verif.Split.Reach
import Verif.Unit.CreateCases

/-!
# Histories of API calls on the split store

`History c s tr`: a split store opened on two empty memories is in state `s` after the calls `tr`, each recorded
with what it returned. `replay tr` (see `Unit/History.lean`) is what a finite map holds after the successful
calls of `tr`. The side conditions of the calls are stated on that map.
-/

namespace Verif

/-- When the split store supports a call, in terms of the contents `v` and the result: a creation must not return
an index that some link refers to; an updated or deleted link must not share its doublet; an update must not give
a source without a target, and must not make a link that has a source refer to itself; the links that refer to a
deleted link must not share their doublets either. -/
def Call.SplitOK (v : View) : Call → Except Err Nat → Prop
  | .create, .ok i => ∀ j a b, v j = some (a, b) → a ≠ i ∧ b ≠ i
  | .create, .error _ => True
  | .update i a b, _ => v.NoTwin i ∧ (a ≠ 0 → b ≠ 0) ∧ (a = i ∨ b = i → ∀ p, v i = some p → p.1 = 0)
  | .delete i, _ => v.NoTwin i ∧ ∀ j, v.Uses i j → v.NoTwin j

end Verif

namespace Verif.Split
open Verif
open Verif.Unit (replay_snoc slots_snoc order_snoc lastUsed_eq)

/-- One call of `create`, `update` or `delete` (`doublets/src/data/traits.rs:99-104,191-196,245-250`) on the
split store whose memories behave like `d` and `i`. -/
def step (c : Cfg) (d i : Nat → Nat → Option Nat) (s : Store) : Call → Option (Out Store Unit Nat)
  | .create => (links (c.withAllocs d i)).create s
  | .update i x y => (links c).update s i x y
  | .delete i => (links c).delete s i

inductive History (c : Cfg) : Store → List (Call × Except Err Nat) → Prop
  | fresh (d i) {s : Store} : ExactAlloc d → ExactAlloc i → init (c.withAllocs d i) {} = some (.ok s) →
      History c s []
  | call (d i) (k : Call) {s : Store} {tr} {o : Out Store Unit Nat} : History c s tr → ExactAlloc d →
      ExactAlloc i → GrowTogether (c.withAllocs d i) s → step c d i s k = some o →
      k.SplitOK (replay tr) o.res → History c o.st (tr ++ [(k, o.res)])
  | reopen (d i) (n m : Nat) {s s' : Store} {tr} : History c s tr → ExactAlloc d → ExactAlloc i →
      init (c.withAllocs d i) { s with dlen := n, ilen := m } = some (.ok s') → s.hdr.allocated < s'.ilen →
      History c s' tr

variable {c : Cfg}

/-- Everything a history determines. -/
structure HInv (c : Cfg) (s : Store) (tr : List (Call × Except Err Nat)) : Prop where
  inv : Inv c s (slots tr).free
  top : s.hdr.allocated = (slots tr).top
  view : (links c).view s = replay tr
  order : (slots tr).free.Pairwise (FreedAfter tr)

theorem HInv.failed {s : Store} {tr} (h : HInv c s tr) {k : Call} {e : Err} : HInv c s (tr ++ [(k, .error e)]) :=
  ⟨by rw [slots_snoc]; cases k <;> exact h.inv, by rw [slots_snoc]; cases k <;> exact h.top,
   by rw [replay_snoc]; cases k <;> exact h.view,
   by rw [slots_snoc]; cases k <;> exact order_snoc h.order (by simp)⟩

theorem create_none {s : Store}
    (h : ∀ σ (hd : WH σ) st, createLinks c s [] hd st = none) : (links c).create s = none := by
  show ((createLinks c s [] _ _).map _).map _ = none
  rw [h]; rfl

theorem createWith_none {s : Store} {σ ρ : Type} {hd : σ → Link → Link → Ctl ρ × σ} {st : σ}
    (h : ∀ σ (hd : WH σ) st, createLinks c s [] hd st = none) : (links c).createWith s hd st = none := by
  show (createLinks c s [] _ _).map _ = none
  rw [h]; rfl

/-- What a creation returns, in terms of the free indices and the memories. -/
theorem create_h (hc : CfgOK c) {s : Store} {tr} (h : HInv c s tr) {d i : Nat → Nat → Option Nat}
    (hd : ExactAlloc d) (hi : ExactAlloc i) (hg : GrowTogether (c.withAllocs d i) s)
    {o : Out Store Unit Nat} (ho : step c d i s .create = some o) (hok : Call.SplitOK (replay tr) .create o.res) :
    HInv c o.st (tr ++ [(.create, o.res)]) ∧ Call.Legit (replay tr) .create o.res ∧
    (∀ x rest, (slots tr).free = x :: rest → o.res = .ok x) ∧
    ((slots tr).free = [] → ∀ i, o.res = .ok i → i = (slots tr).top + 1) ∧
    (∀ i, o.res = .ok i → i ≤ c.consts.internalEnd) ∧ (∀ e, o.res = .error e → o.st = s ∧
      (slots tr).free = [] ∧ (e = .allocFailed ∨
        (e = .limitReached c.consts.internalEnd ∧ c.consts.internalEnd ≤ (slots tr).top))) := by
  have hc' := hc.withAllocs hd hi
  have hw := h.inv.withAllocs d i
  have ho : (links (c.withAllocs d i)).create s = some o := ho
  have hal := h.inv.base.alloc_le
  rcases create_cases hc' hw [] with ⟨x, rest, s', hf, h1, h2, h3, h4⟩ | ⟨hf, h1, h2⟩ |
      ⟨hf, h1, h2, h3⟩ | ⟨hf, h1, h2, h3, h4⟩ | ⟨hf, h1, h2, h3, h4, h5⟩ | ⟨hf, h1, s', h2, h3, h4⟩
  · rw [create_of_succeeds h1] at ho
    cases ho
    obtain ⟨g1, g2⟩ := h2.view hc' hw.toInv0
    rw [view_withAllocs, h.view] at g1
    rw [view_withAllocs, view_withAllocs, h.view] at g2
    have hx := h.inv.base.list.nonzero x (by simp [hf])
    have hxle := h.inv.base.free_le x (by simp [hf])
    refine ⟨⟨?_, ?_, ?_, ?_⟩, ⟨g1, hx⟩, ?_, ?_, ?_, by simp⟩
    · rw [slots_snoc]; simp only [Slots.apply, hf]
      refine (h2.inv hc' hw ?_ ?_).ofAllocs
      · intro y hy; rw [h3]; exact h.inv.free_lt y (by simp [hf, hy])
      · intro j a b hj; rw [view_withAllocs, h.view] at hj; exact hok j a b hj
    · rw [slots_snoc]; simp only [Slots.apply, hf]; rw [h3, h.top]
    · rw [replay_snoc]; exact g2
    · rw [slots_snoc]; simp only [Slots.apply, hf]
      have := h.order
      rw [hf] at this
      exact order_snoc (List.pairwise_cons.1 this).2 (by simp)
    · intro y ys hy; rw [hf] at hy; cases hy; rfl
    · intro he; rw [hf] at he; cases he
    · intro i hi2; cases hi2; exact Nat.le_trans hxle hal
  · rw [Links.create_err h2] at ho
    cases ho
    refine ⟨h.failed, by intro i; simp, ?_, ?_, ?_, ?_⟩
    · intro x rest hx; rw [hf] at hx; cases hx
    · intro _ i hi2; cases hi2
    · intro i hi2; cases hi2
    · intro e he; cases he; exact ⟨rfl, hf, .inr ⟨rfl, by rw [← h.top]; exact h1⟩⟩
  · rw [Links.create_err h3] at ho
    cases ho
    refine ⟨h.failed, by intro i; simp, ?_, ?_, ?_, ?_⟩
    · intro x rest hx; rw [hf] at hx; cases hx
    · intro _ i hi2; cases hi2
    · intro i hi2; cases hi2
    · intro e he; cases he; exact ⟨rfl, hf, .inl rfl⟩
  · exact absurd h3 (hg h2)
  · rw [create_none h5] at ho; cases ho
  · rw [create_of_succeeds h2] at ho
    cases ho
    obtain ⟨g1, g2⟩ := h3.view hc' hw.toInv0
    rw [view_withAllocs, h.view] at g1
    rw [view_withAllocs, view_withAllocs, h.view] at g2
    refine ⟨⟨?_, ?_, ?_, ?_⟩, ⟨g1, by simp⟩, ?_, ?_, ?_, by simp⟩
    · rw [slots_snoc]; simp only [Slots.apply, hf]
      refine (h3.inv hc' hw (by simp) ?_).ofAllocs
      intro j a b hj; rw [view_withAllocs, h.view] at hj; exact hok j a b hj
    · rw [slots_snoc]; simp only [Slots.apply, hf]; rw [h4, h.top]
    · rw [replay_snoc]; exact g2
    · rw [slots_snoc]; simp [Slots.apply, hf]
    · intro x rest hx; rw [hf] at hx; cases hx
    · intro _ i hi2; cases hi2; rw [h.top]
    · intro i hi2; cases hi2; exact h1

theorem update_h (hc : CfgOK c) {s : Store} {tr} (h : HInv c s tr) {d e : Nat → Nat → Option Nat}
    {i x y : Nat} {o : Out Store Unit Nat} (ho : step c d e s (.update i x y) = some o)
    (hok : Call.SplitOK (replay tr) (.update i x y) o.res) :
    HInv c o.st (tr ++ [(.update i x y, o.res)]) ∧ Call.Legit (replay tr) (.update i x y) o.res ∧
      (∀ e, o.res = .error e → o.st = s) := by
  have ho : (links c).update s i x y = some o := ho
  have hi := h.inv
  by_cases hl : LiveIn s (slots tr).free i
  · obtain ⟨t1, t2, t3⟩ := hok
    rw [← h.view] at t1 t3
    obtain ⟨s', h1, h2, h3, h4, h5⟩ := updateLinks_ok hc hi hl (noTwinIn hc hi.toInv0 hl t1) [] i x y []
      ⟨t2, fun hh => t3 hh _ (by rw [view_eq hc hi.toInv0, if_pos hl])⟩ recH none
    have hS := (updateLinks_uniform c s [i] [i, x, y]).succeeds h1
    rw [Links.update_ok hS] at ho
    cases ho
    refine ⟨⟨by rw [slots_snoc]; exact h2, by rw [slots_snoc, h4]; exact h.top, ?_,
      by rw [slots_snoc]; exact order_snoc h.order (by simp)⟩, ?_, by simp⟩
    · rw [replay_snoc, ← h.view]
      simp only [Call.apply]
      funext k
      rw [View.set, view_eq hc hi.toInv0, view_eq hc h2.toInv0, h5]
      have : LiveIn s' (slots tr).free k ↔ LiveIn s (slots tr).free k := by simp only [LiveIn, h4]
      simp only [this]
      by_cases hk : k = i
      · subst hk; simp [hl]
      · simp [hk]
    · exact ⟨by rw [← h.view, view_eq hc hi.toInv0, if_pos hl]; simp, rfl⟩
  · have hf : Links.Fails (fun _ hd st => (links c).updateLinks s [i] [i, x, y] hd st) s (.notExists i) :=
      fun σ hd st => updateLinks_missing hc hi.toInv0 hl [] i x y [] hd st
    rw [Links.update_err hf] at ho
    cases ho
    exact ⟨h.failed, ⟨by rw [← h.view, view_eq hc hi.toInv0, if_neg hl], rfl⟩, by simp⟩

theorem delete_h (hc : CfgOK c) {s : Store} {tr} (h : HInv c s tr) {d e : Nat → Nat → Option Nat}
    {i : Nat} {o : Out Store Unit Nat} (ho : step c d e s (.delete i) = some o)
    (hok : Call.SplitOK (replay tr) (.delete i) o.res) :
    HInv c o.st (tr ++ [(.delete i, o.res)]) ∧ Call.Legit (replay tr) (.delete i) o.res ∧
      (∀ e, o.res = .error e → o.st = s) := by
  have ho : (links c).delete s i = some o := ho
  have hi := h.inv
  have htop := h.top
  by_cases hl : LiveIn s (slots tr).free i
  · obtain ⟨t1, t2⟩ := hok
    rw [← h.view] at t1
    obtain ⟨s', free', h1, h2, h3, h4, h5, h6, h7⟩ :=
      deleteLinks_ok hc hi hl (noTwinIn hc hi.toInv0 hl t1) (by
        intro d k hk
        refine noTwinIn hc hi.toInv0 hk.1 ?_
        rw [h.view]
        refine t2 k ⟨hk.2.1, (s.data k).1, (s.data k).2,
          by rw [← h.view, view_eq hc hi.toInv0, if_pos hk.1], ?_⟩
        cases d
        · exact Or.inl hk.2.2
        · exact Or.inr hk.2.2) [] recH none
    rw [Links.delete_ok ((deleteLinks_uniform c s [i]).succeeds h1)] at ho
    cases ho
    have hsl : slots (tr ++ [(.delete i, .ok 0)]) = ⟨s'.hdr.allocated, free'⟩ := by
      rw [slots_snoc]
      simp only [Slots.apply]
      have hile := hl.2.1
      by_cases hlt : i < s.hdr.allocated
      · have := h3 hlt
        rw [← htop, if_pos hlt, this.1, this.2]
      · have he : i = s.hdr.allocated := by omega
        have := h4 he
        rw [← htop, if_neg hlt]
        have hlast : lastUsed (slots tr).free (i - 1) = s'.hdr.allocated := by
          apply lastUsed_eq (by omega)
          · intro k hk1 hk2
            apply Classical.byContradiction
            intro hnf
            have hkl : LiveIn s (slots tr).free k := ⟨by omega, by omega, hnf⟩
            have := ((h6 k).2 ⟨hkl, by omega⟩).2.1
            omega
          · by_cases h0 : s'.hdr.allocated = 0
            · exact Or.inl h0
            · right
              have hll : LiveIn s' free' s'.hdr.allocated :=
                ⟨by omega, Nat.le_refl _, fun hm => by have := h2.free_lt _ hm; omega⟩
              exact ((h6 _).1 hll).1.2.2
        rw [hlast, this.2]
    refine ⟨⟨by rw [show (Link.nothing).index = 0 from rfl, hsl]; exact h2,
      by rw [show (Link.nothing).index = 0 from rfl, hsl], ?_, ?_⟩, ?_, by simp⟩
    · rw [replay_snoc, ← h.view]
      simp only [Call.apply]
      funext k
      rw [View.del, view_eq hc hi.toInv0, view_eq hc h2.toInv0]
      by_cases hk : k = i
      · subst hk
        rw [if_pos rfl, if_neg]
        intro hl2; exact ((h6 k).1 hl2).2 rfl
      · rw [if_neg hk]
        by_cases hlk : LiveIn s (slots tr).free k
        · rw [if_pos hlk, if_pos ((h6 k).2 ⟨hlk, hk⟩), h7 k hlk hk]
        · rw [if_neg hlk, if_neg fun hl' => hlk ((h6 k).1 hl').1]
    · rw [show (Link.nothing).index = 0 from rfl, hsl]
      have hne : ∀ k ∈ (slots tr).free, ∀ r,
          ((Call.delete i, Except.ok 0) : Call × Except Err Nat) ≠ (.delete k, .ok r) := by
        intro k hk r he
        simp only [Prod.mk.injEq, Call.delete.injEq] at he
        exact hl.2.2 (he.1 ▸ hk)
      have hold := order_snoc h.order hne
      show free'.Pairwise _
      by_cases hlt : i < s.hdr.allocated
      · rw [(h3 hlt).1, List.pairwise_cons]
        exact ⟨fun k _ => ⟨tr, 0, [], by simp, by simp⟩, hold⟩
      · have hile := hl.2.1
        rw [(h4 (by omega)).2]
        exact hold.filter _
    · exact ⟨by rw [← h.view, view_eq hc hi.toInv0, if_pos hl]; simp, rfl⟩
  · have hf : Links.Fails (fun _ hd st => (links c).deleteLinks s [i] hd st) s (.notExists i) :=
      fun σ hd st => deleteLinks_missing hc hi.toInv0 hl [] hd st
    rw [Links.delete_err hf] at ho
    cases ho
    exact ⟨h.failed, ⟨by rw [← h.view, view_eq hc hi.toInv0, if_neg hl], rfl⟩, by simp⟩

theorem snoc_split {α : Type} {tr pre suf : List α} {x y : α} (h : tr ++ [x] = pre ++ y :: suf) :
    (pre = tr ∧ y = x ∧ suf = []) ∨ ∃ suf', tr = pre ++ y :: suf' := by
  rcases List.eq_nil_or_concat suf with rfl | ⟨suf', z, rfl⟩
  · have := List.append_inj' h rfl
    simp only [List.cons.injEq, and_true] at this
    exact .inl ⟨this.1.symm, this.2.symm, rfl⟩
  · have he' : tr ++ [x] = (pre ++ y :: suf') ++ [z] := by simp [h]
    exact .inr ⟨suf', (List.append_inj' he' rfl).1⟩

theorem history_inv (hc : CfgOK c) {s : Store} {tr} (h : History c s tr) :
    HInv c s tr ∧ ∀ pre k r suf, tr = pre ++ (k, r) :: suf → Call.Legit (replay pre) k r := by
  induction h with
  | fresh d i hd hi h =>
    obtain ⟨h1, h2⟩ := init_fresh (hc.withAllocs hd hi) h
    refine ⟨⟨h1.ofAllocs, h2, ?_, .nil⟩, by simp⟩
    funext k
    rw [view_eq hc h1.ofAllocs.toInv0, if_neg]
    · rfl
    · intro hl; have := hl.1; have := hl.2.1; omega
  | @call d i k s tr o h hd hi hg ho hok ih =>
    have key : HInv c o.st (tr ++ [(k, o.res)]) ∧ Call.Legit (replay tr) k o.res := by
      cases k with
      | create => have := create_h hc ih.1 hd hi hg ho hok; exact ⟨this.1, this.2.1⟩
      | update i x y => have := update_h hc ih.1 ho hok; exact ⟨this.1, this.2.1⟩
      | delete i => have := delete_h hc ih.1 ho hok; exact ⟨this.1, this.2.1⟩
    refine ⟨key.1, ?_⟩
    intro pre k' r suf he
    rcases snoc_split he with ⟨rfl, e2, -⟩ | ⟨suf', e2⟩
    · cases e2; exact key.2
    · exact ih.2 pre k' r suf' e2
  | @reopen d i n m s s' tr h hd hi hin hlt ih =>
    obtain ⟨⟨hv, htop, hview, hord⟩, hl⟩ := ih
    obtain ⟨h1, h2, h3⟩ := init_reopen (hc.withAllocs hd hi) (hv.withAllocs d i) hin hlt
    refine ⟨⟨h1.ofAllocs, by rw [h2, htop], ?_, hord⟩, hl⟩
    rw [← hview]
    funext k
    rw [view_eq hc h1.ofAllocs.toInv0, view_eq hc hv.toInv0, h3]
    by_cases hk : LiveIn s (slots tr).free k
    · rw [if_pos hk, if_pos ⟨hk.1, by rw [h2]; exact hk.2.1, hk.2.2⟩]
    · rw [if_neg hk, if_neg fun hk' => hk ⟨hk'.1, by rw [← h2]; exact hk'.2.1, hk'.2.2⟩]

end Verif.Split
