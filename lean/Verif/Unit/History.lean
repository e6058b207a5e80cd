import Verif.Unit.Reach
import Verif.Derived

/-!
# Histories of API calls on the united store

`History c s tr`: a store opened on empty memory is in state `s` after the calls `tr`, each recorded with what it
returned. `replay tr` is what a finite map would hold after the successful calls of `tr`.
-/

namespace Verif

/-- The abstract effect of one call on a map from indices to pairs, given its result. -/
inductive Call where
  | create
  | update (i source target : Nat)
  | delete (i : Nat)
deriving DecidableEq

def Call.apply (v : View) : Call → Except Err Nat → View
  | .create, .ok i => v.set i (0, 0)
  | .update i a b, .ok _ => v.set i (a, b)
  | .delete i, .ok _ => v.del i
  | _, .error _ => v

/-- Replay of a recorded history on a map, oldest call first. -/
def replay (tr : List (Call × Except Err Nat)) : View :=
  tr.foldl (fun v x => x.1.apply v x.2) View.empty

/-- The link a call is about, if any. -/
def Call.subject : Call → Option Nat
  | .create => none
  | .update i _ _ => some i
  | .delete i => some i

/-- Which results a call may return when the map is `v`: a creation returns a new index or an error other than
`NotExists`; updates and deletions succeed exactly on present links and otherwise report `NotExists`. -/
def Call.Legit (v : View) : Call → Except Err Nat → Prop
  | .create, .ok i => v i = none ∧ i ≠ 0
  | .create, .error e => ∀ i, e ≠ .notExists i
  | .update i _ _, .ok r => v i ≠ none ∧ r = i
  | .delete i, .ok r => v i ≠ none ∧ r = 0
  | .update i _ _, .error e => v i = none ∧ e = .notExists i
  | .delete i, .error e => v i = none ∧ e = .notExists i

/-- Specification of index allocation: the highest index in use and the stack of free indices below it,
most recently freed first. -/
structure Slots where
  top : Nat := 0
  free : List Nat := []
deriving DecidableEq

/-- The greatest index up to `n` that is not free, or 0. -/
def lastUsed (free : List Nat) : Nat → Nat
  | 0 => 0
  | n + 1 => if n + 1 ∈ free then lastUsed free n else n + 1

/-- Creation takes the index freed last, or else the next one. Deletion below the top pushes the index;
deletion of the top also gives back the free indices directly below it. -/
def Slots.apply (z : Slots) : Call → Except Err Nat → Slots
  | .create, .ok _ =>
    match z.free with
    | _ :: rest => { z with free := rest }
    | [] => { z with top := z.top + 1 }
  | .delete i, .ok _ =>
    if i < z.top then { z with free := i :: z.free }
    else
      let t := lastUsed z.free (i - 1)
      { top := t, free := z.free.filter (· < t) }
  | _, _ => z

/-- Index allocation after a recorded history. -/
def slots (tr : List (Call × Except Err Nat)) : Slots :=
  tr.foldl (fun z x => z.apply x.1 x.2) {}

/-- Some deletion of `x` is more recent than every deletion of `k`. -/
def FreedAfter (tr : List (Call × Except Err Nat)) (x k : Nat) : Prop :=
  ∃ pre r suf, tr = pre ++ (Call.delete x, Except.ok r) :: suf ∧ ∀ r', (Call.delete k, Except.ok r') ∉ suf

/-- `t` is the highest index naming a link, or 0 if there are no links. -/
def View.Top (v : View) (t : Nat) : Prop :=
  (t = 0 ∨ v t ≠ none) ∧ ∀ i, t < i → v i = none

end Verif

namespace Verif.Unit
open Verif

/-- One call of `create`, `update` or `delete` (`doublets/src/data/traits.rs:99-104,191-196,245-250`) on the
united store whose memory behaves like `a`. -/
def step (c : Cfg) (a : Nat → Nat → Option Nat) (s : Store) : Call → Option (Out Store _root_.Unit Nat)
  | .create => (links (c.withAlloc a)).create s
  | .update i x y => (links c).update s i x y
  | .delete i => (links c).delete s i

inductive History (c : Cfg) : Store → List (Call × Except Err Nat) → Prop
  | fresh (a) {s : Store} : GoodAlloc a → init (c.withAlloc a) {} = some (.ok s) → History c s []
  | call (a) (k : Call) {s : Store} {tr} {o : Out Store _root_.Unit Nat} : History c s tr → GoodAlloc a →
      (∀ i, k.subject = some i → (replay tr).NoTwin i) → step c a s k = some o →
      History c o.st (tr ++ [(k, o.res)])
  | reopen (a) (n : Nat) {s s' : Store} {tr} : History c s tr → GoodAlloc a →
      init (c.withAlloc a) { s with len := n } = some (.ok s') → s.hdr.allocated < s'.len → History c s' tr

theorem replay_snoc (tr : List (Call × Except Err Nat)) (x : Call × Except Err Nat) :
    replay (tr ++ [x]) = x.1.apply (replay tr) x.2 := by simp [replay]

theorem slots_snoc (tr : List (Call × Except Err Nat)) (x : Call × Except Err Nat) :
    slots (tr ++ [x]) = (slots tr).apply x.1 x.2 := by simp [slots]

/-! ### Histories keep the store equal to the map and to the index allocation specification -/

variable {c : Cfg}

theorem lastUsed_eq {free : List Nat} {t : Nat} : ∀ {n : Nat}, t ≤ n →
    (∀ k, t < k → k ≤ n → k ∈ free) → (t = 0 ∨ t ∉ free) → lastUsed free n = t := by
  intro n
  induction n with
  | zero => intro h _ _; simp only [lastUsed]; omega
  | succ n ih =>
    intro h1 h2 h3
    unfold lastUsed
    by_cases ht : t = n + 1
    · subst ht
      rcases h3 with h3 | h3
      · omega
      · rw [if_neg h3]
    · rw [if_pos (h2 _ (by omega) (by omega))]
      exact ih (by omega) (fun k hk1 hk2 => h2 k hk1 (by omega)) h3

/-- Everything a history determines. -/
structure HInv (c : Cfg) (s : Store) (tr : List (Call × Except Err Nat)) : Prop where
  inv : ∃ ts tt, Inv c s (slots tr).free ts tt
  top : s.hdr.allocated = (slots tr).top
  view : (links c).view s = replay tr
  order : (slots tr).free.Pairwise (FreedAfter tr)

theorem FreedAfter.snoc {tr : List (Call × Except Err Nat)} {x k : Nat} (h : FreedAfter tr x k)
    {e : Call × Except Err Nat} (he : ∀ r, e ≠ (.delete k, .ok r)) : FreedAfter (tr ++ [e]) x k := by
  obtain ⟨pre, r, suf, rfl, h2⟩ := h
  refine ⟨pre, r, suf ++ [e], by simp, fun r' hm => ?_⟩
  rcases List.mem_append.1 hm with hm | hm
  · exact h2 r' hm
  · exact he r' (List.mem_singleton.1 hm).symm

theorem order_snoc {tr : List (Call × Except Err Nat)} {e : Call × Except Err Nat} {l : List Nat}
    (h : l.Pairwise (FreedAfter tr)) (he : ∀ k ∈ l, ∀ r, e ≠ (.delete k, .ok r)) :
    l.Pairwise (FreedAfter (tr ++ [e])) := by
  induction l with
  | nil => exact .nil
  | cons x l ih =>
    rw [List.pairwise_cons] at h ⊢
    exact ⟨fun k hk => FreedAfter.snoc (h.1 k hk) (he k (List.mem_cons_of_mem _ hk)),
      ih h.2 fun k hk => he k (List.mem_cons_of_mem _ hk)⟩

theorem create_h (hc : CfgOK c) {s : Store} {tr} (h : HInv c s tr) {a : Nat → Nat → Option Nat}
    (ha : GoodAlloc a) {o : Out Store _root_.Unit Nat} (ho : step c a s .create = some o) :
    HInv c o.st (tr ++ [(.create, o.res)]) ∧ Call.Legit (replay tr) .create o.res ∧
    (∀ x rest, (slots tr).free = x :: rest → o.res = .ok x) ∧
    ((slots tr).free = [] → ∀ i, o.res = .ok i → i = (slots tr).top + 1) ∧
    (∀ i, o.res = .ok i → i ≤ c.consts.internalEnd) ∧ (∀ e, o.res = .error e → o.st = s) := by
  obtain ⟨⟨ts, tt, hi⟩, htop, hv, hord⟩ := h
  have hi' := hi.withAlloc a
  have hc' := hc.withAlloc ha
  have hu := createLinks_uniform (c.withAlloc a) s []
  have ho : (links (c.withAlloc a)).create s = some o := ho
  have hvx : ∀ i, replay tr i = if LiveIn s (slots tr).free i then some (s.lk i) else none := by
    intro i; rw [← hv, view_eq hc hi.toInv0]
  rcases createLinks_ok hc' hi' [] recH none with ⟨x, rest, s', hf, h1, h2, h3, h4, h5, h6⟩ |
    ⟨hf, h1, h2⟩ | ⟨hf, h1, h2, h3, h4⟩ | ⟨hf, h1, h2, n, h3, h4, h5⟩ | ⟨hf, h1, s', h2, h3, h4, h5, h6⟩
  · rw [Links.create_ok (hu.succeeds h1)] at ho
    cases ho
    have hn := hi.base.list.nodup
    rw [hf, List.nodup_cons] at hn
    have hx0 := hi.base.list.nonzero x (by simp [hf])
    have hxle := hi.base.free_le x (by simp [hf])
    have hxn : replay tr x = none := by
      rw [hvx, if_neg]; intro hl; exact hl.2.2 (by simp [hf])
    refine ⟨⟨⟨ts, tt, ?_⟩, ?_, ?_, ?_⟩, ⟨hxn, hx0⟩, ?_, ?_, ?_, by simp⟩
    · rw [slots_snoc]; simp only [Slots.apply, hf]; exact h2.ofAlloc
    · rw [slots_snoc]; simp only [Slots.apply, hf]; rw [h3, htop]
    · rw [replay_snoc]
      simp only [Call.apply]
      funext k
      rw [View.set, hvx, view_eq hc h2.ofAlloc.toInv0]
      by_cases hk : k = x
      · subst hk
        rw [if_pos rfl, if_pos ⟨by omega, by omega, hn.1⟩, h5]
      · rw [if_neg hk]
        by_cases hl : LiveIn s (slots tr).free k
        · have hl' : LiveIn s' rest k :=
            ⟨hl.1, by rw [h3]; exact hl.2.1, fun hm => hl.2.2 (by simp [hf, hm])⟩
          rw [if_pos hl, if_pos hl', h6 k hl.2.2]
        · rw [if_neg hl, if_neg]
          intro hl'
          exact hl ⟨hl'.1, by rw [← h3]; exact hl'.2.1, by rw [hf]; simp [hk, hl'.2.2]⟩
    · rw [slots_snoc]; simp only [Slots.apply, hf]
      rw [hf] at hord
      exact order_snoc (List.pairwise_cons.1 hord).2 (by simp)
    · intro y ys hy; rw [hf] at hy; cases hy; rfl
    · intro he; rw [hf] at he; cases he
    · intro i hi2; cases hi2
      exact Nat.le_trans hxle hi.base.alloc_le
  · rw [Links.create_err (hu.fails h2)] at ho
    cases ho
    refine ⟨⟨⟨ts, tt, by rw [slots_snoc]; exact hi⟩, by rw [slots_snoc]; exact htop,
      by rw [replay_snoc]; exact hv, by rw [slots_snoc]; exact order_snoc hord (by simp)⟩, by intro i; simp, ?_, ?_, ?_, by simp⟩
    · intro x rest hx; rw [hf] at hx; cases hx
    · intro _ i hi2; cases hi2
    · intro i hi2; cases hi2
  · rw [Links.create_err (hu.fails h4)] at ho
    cases ho
    refine ⟨⟨⟨ts, tt, by rw [slots_snoc]; exact hi⟩, by rw [slots_snoc]; exact htop,
      by rw [replay_snoc]; exact hv, by rw [slots_snoc]; exact order_snoc hord (by simp)⟩, by intro i; simp, ?_, ?_, ?_, by simp⟩
    · intro x rest hx; rw [hf] at hx; cases hx
    · intro _ i hi2; cases hi2
    · intro i hi2; cases hi2
  · exfalso
    have e := h5
    obtain ⟨core, hcore⟩ := hu
    have e1 := hcore _ recH none
    simp only [h5] at e1
    have hnone : core = none := by
      cases core with
      | none => rfl
      | some p => simp at e1
    have e2 := hcore _ (Links.wrapW Links.keepIndex) (0, .cont)
    simp only [hnone, Option.map_none] at e2
    have : (links (c.withAlloc a)).create s = none := by
      simp only [Links.create, Links.createBy, Links.createByWith]
      show ((createLinks (c.withAlloc a) s [] _ _).map _).map _ = none
      rw [e2]; rfl
    rw [this] at ho; cases ho
  · rw [Links.create_ok (hu.succeeds h2)] at ho
    cases ho
    have hxn : replay tr (s.hdr.allocated + 1) = none := by
      rw [hvx, if_neg]; intro hl; have := hl.2.1; omega
    refine ⟨⟨⟨ts, tt, ?_⟩, ?_, ?_, by rw [slots_snoc]; simp [Slots.apply, hf]⟩, ⟨hxn, by simp⟩, ?_, ?_, ?_, by simp⟩
    · rw [slots_snoc]; simp only [Slots.apply, hf]; exact h3.ofAlloc
    · rw [slots_snoc]; simp only [Slots.apply, hf]; rw [h4, htop]
    · rw [replay_snoc]
      simp only [Call.apply]
      funext k
      rw [View.set, hvx, view_eq hc h3.ofAlloc.toInv0]
      by_cases hk : k = s.hdr.allocated + 1
      · subst hk
        rw [if_pos rfl, if_pos ⟨by omega, by omega, by simp⟩, h5]
      · rw [if_neg hk, h6, hf]
        have : LiveIn s' [] k ↔ LiveIn s [] k := by
          simp only [LiveIn, h4, List.not_mem_nil, not_false_eq_true, and_true]
          omega
        simp only [this]
    · intro x rest hx; rw [hf] at hx; cases hx
    · intro _ i hi2; cases hi2; rw [htop]
    · intro i hi2; cases hi2; exact h1

theorem update_h (hc : CfgOK c) {s : Store} {tr} (h : HInv c s tr) {a : Nat → Nat → Option Nat}
    {i x y : Nat} (ht : (replay tr).NoTwin i)
    {o : Out Store _root_.Unit Nat} (ho : step c a s (.update i x y) = some o) :
    HInv c o.st (tr ++ [(.update i x y, o.res)]) ∧ Call.Legit (replay tr) (.update i x y) o.res ∧
      (∀ e, o.res = .error e → o.st = s) := by
  obtain ⟨⟨ts, tt, hi⟩, htop, hv, hord⟩ := h
  have ho : (links c).update s i x y = some o := ho
  have hvx : ∀ i, replay tr i = if LiveIn s (slots tr).free i then some (s.lk i) else none := by
    intro i; rw [← hv, view_eq hc hi.toInv0]
  by_cases hl : LiveIn s (slots tr).free i
  · rw [← hv] at ht
    obtain ⟨s', ts', tt', h1, h2, h3, h4, h5⟩ :=
      updateLinks_ok hc hi hl (noTwinIn hc hi.toInv0 hl ht) [] i x y [] recH none
    rw [Links.update_ok ((updateLinks_uniform c s [i] [i, x, y]).succeeds h1)] at ho
    cases ho
    refine ⟨⟨⟨ts', tt', by rw [slots_snoc]; exact h2⟩, by rw [slots_snoc, h4]; exact htop, ?_,
      by rw [slots_snoc]; exact order_snoc hord (by simp)⟩, ?_, by simp⟩
    · rw [replay_snoc]
      simp only [Call.apply]
      funext k
      rw [View.set, hvx, view_eq hc h2.toInv0, h5]
      have : LiveIn s' (slots tr).free k ↔ LiveIn s (slots tr).free k := by simp only [LiveIn, h4]
      simp only [this]
      by_cases hk : k = i
      · subst hk; simp [hl]
      · simp [hk]
    · exact ⟨by rw [hvx, if_pos hl]; simp, rfl⟩
  · have hf : Links.Fails (fun _ hd st => (links c).updateLinks s [i] [i, x, y] hd st) s (.notExists i) :=
      fun σ hd st => updateLinks_missing hc hi.toInv0 hl [] i x y [] hd st
    rw [Links.update_err hf] at ho
    cases ho
    exact ⟨⟨⟨ts, tt, by rw [slots_snoc]; exact hi⟩, by rw [slots_snoc]; exact htop,
      by rw [replay_snoc]; exact hv, by rw [slots_snoc]; exact order_snoc hord (by simp)⟩,
      ⟨by rw [hvx, if_neg hl], rfl⟩, by simp⟩

theorem delete_h (hc : CfgOK c) {s : Store} {tr} (h : HInv c s tr) {a : Nat → Nat → Option Nat}
    {i : Nat} (ht : (replay tr).NoTwin i)
    {o : Out Store _root_.Unit Nat} (ho : step c a s (.delete i) = some o) :
    HInv c o.st (tr ++ [(.delete i, o.res)]) ∧ Call.Legit (replay tr) (.delete i) o.res ∧
      (∀ e, o.res = .error e → o.st = s) := by
  obtain ⟨⟨ts, tt, hi⟩, htop, hv, hord⟩ := h
  have ho : (links c).delete s i = some o := ho
  have hvx : ∀ i, replay tr i = if LiveIn s (slots tr).free i then some (s.lk i) else none := by
    intro i; rw [← hv, view_eq hc hi.toInv0]
  by_cases hl : LiveIn s (slots tr).free i
  · rw [← hv] at ht
    obtain ⟨s', free', ts', tt', h1, h2, h3, h4, h5, h6, h7⟩ :=
      deleteLinks_ok hc hi hl (noTwinIn hc hi.toInv0 hl ht) [] recH none
    rw [Links.delete_ok ((deleteLinks_uniform c s [i]).succeeds h1)] at ho
    cases ho
    have hsl : slots (tr ++ [(.delete i, .ok 0)]) = ⟨s'.hdr.allocated, free'⟩ := by
      rw [slots_snoc]
      simp only [Slots.apply]
      have hile := hl.2.1
      by_cases hlt : i < s.hdr.allocated
      · have := h3 hlt
        rw [← htop, if_pos hlt, this.1, this.2]
      · have he : i = s.hdr.allocated := by omega
        have := h4 he
        rw [← htop, if_neg hlt]
        have hlast : lastUsed (slots tr).free (i - 1) = s'.hdr.allocated := by
          apply lastUsed_eq (by omega)
          · intro k hk1 hk2
            apply Classical.byContradiction
            intro hnf
            have hkl : LiveIn s (slots tr).free k := ⟨by omega, by omega, hnf⟩
            have := ((h6 k).2 ⟨hkl, by omega⟩).2.1
            omega
          · by_cases h0 : s'.hdr.allocated = 0
            · exact Or.inl h0
            · right
              have hll : LiveIn s' free' s'.hdr.allocated :=
                ⟨by omega, Nat.le_refl _, fun hm => by have := h2.free_lt _ hm; omega⟩
              exact ((h6 _).1 hll).1.2.2
        rw [hlast, this.2]
    refine ⟨⟨⟨ts', tt', by rw [show (Link.nothing).index = 0 from rfl, hsl]; exact h2⟩,
      by rw [show (Link.nothing).index = 0 from rfl, hsl], ?_, ?_⟩, ?_, by simp⟩
    · rw [replay_snoc]
      simp only [Call.apply]
      funext k
      rw [View.del, hvx, view_eq hc h2.toInv0]
      by_cases hk : k = i
      · subst hk
        rw [if_pos rfl, if_neg]
        intro hl2; exact ((h6 k).1 hl2).2 rfl
      · rw [if_neg hk]
        by_cases hlk : LiveIn s (slots tr).free k
        · rw [if_pos hlk, if_pos ((h6 k).2 ⟨hlk, hk⟩), h7 k hlk hk]
        · rw [if_neg hlk, if_neg fun hl' => hlk ((h6 k).1 hl').1]
    · rw [show (Link.nothing).index = 0 from rfl, hsl]
      have hne : ∀ k ∈ (slots tr).free, ∀ r,
          ((Call.delete i, Except.ok 0) : Call × Except Err Nat) ≠ (.delete k, .ok r) := by
        intro k hk r he
        simp only [Prod.mk.injEq, Call.delete.injEq] at he
        exact hl.2.2 (he.1 ▸ hk)
      have hold := order_snoc hord hne
      show free'.Pairwise _
      by_cases hlt : i < s.hdr.allocated
      · rw [(h3 hlt).1, List.pairwise_cons]
        exact ⟨fun k _ => ⟨tr, 0, [], by simp, by simp⟩, hold⟩
      · have hile := hl.2.1
        rw [(h4 (by omega)).2]
        exact hold.filter _
    · exact ⟨by rw [hvx, if_pos hl]; simp, rfl⟩
  · have hf : Links.Fails (fun _ hd st => (links c).deleteLinks s [i] hd st) s (.notExists i) :=
      fun σ hd st => deleteLinks_missing hc hi.toInv0 hl [] hd st
    rw [Links.delete_err hf] at ho
    cases ho
    exact ⟨⟨⟨ts, tt, by rw [slots_snoc]; exact hi⟩, by rw [slots_snoc]; exact htop,
      by rw [replay_snoc]; exact hv, by rw [slots_snoc]; exact order_snoc hord (by simp)⟩,
      ⟨by rw [hvx, if_neg hl], rfl⟩, by simp⟩

theorem history_inv (hc : CfgOK c) {s : Store} {tr} (h : History c s tr) :
    HInv c s tr ∧ ∀ pre k r suf, tr = pre ++ (k, r) :: suf → Call.Legit (replay pre) k r := by
  induction h with
  | fresh a ha h =>
    obtain ⟨h1, h2⟩ := init_fresh (hc.withAlloc ha) h
    refine ⟨⟨⟨_, _, h1.ofAlloc⟩, h2, ?_, .nil⟩, by simp⟩
    funext k
    rw [view_eq hc h1.ofAlloc.toInv0, if_neg]
    · rfl
    · intro hl; have := hl.1; have := hl.2.1; omega
  | @call a k s tr o h ha ht ho ih =>
    have key : HInv c o.st (tr ++ [(k, o.res)]) ∧ Call.Legit (replay tr) k o.res := by
      cases k with
      | create => have := create_h hc ih.1 ha ho; exact ⟨this.1, this.2.1⟩
      | update i x y => have := update_h hc ih.1 (ht i rfl) ho; exact ⟨this.1, this.2.1⟩
      | delete i => have := delete_h hc ih.1 (ht i rfl) ho; exact ⟨this.1, this.2.1⟩
    refine ⟨key.1, ?_⟩
    intro pre k' r suf he
    rcases List.eq_nil_or_concat suf with rfl | ⟨suf', x, rfl⟩
    · have := List.append_inj' he rfl
      simp only [List.cons.injEq, and_true] at this
      have e2 := this.2
      cases e2
      rw [← this.1]; exact key.2
    · have he' : tr ++ [(k, o.res)] = (pre ++ (k', r) :: suf') ++ [x] := by simp [he]
      have := List.append_inj' he' rfl
      exact ih.2 pre k' r suf' this.1
  | @reopen a n s s' tr h ha hin hlt ih =>
    obtain ⟨⟨⟨ts, tt, hi⟩, htop, hv, hord⟩, hl⟩ := ih
    obtain ⟨h1, h2, h3⟩ := init_reopen (hc.withAlloc ha) (hi.withAlloc a) hin hlt
    refine ⟨⟨⟨ts, tt, h1.ofAlloc⟩, by rw [h2, htop], ?_, hord⟩, hl⟩
    rw [← hv]
    funext k
    rw [view_eq hc h1.ofAlloc.toInv0, view_eq hc hi.toInv0, h3]
    by_cases hk : LiveIn s (slots tr).free k
    · rw [if_pos hk, if_pos ⟨hk.1, by rw [h2]; exact hk.2.1, hk.2.2⟩]
    · rw [if_neg hk, if_neg fun hk' => hk ⟨hk'.1, by rw [← h2]; exact hk'.2.1, hk'.2.2⟩]

end Verif.Unit
