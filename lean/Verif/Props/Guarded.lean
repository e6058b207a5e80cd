import Verif.Guarded
import Verif.Props.Decorators
import Verif.Props.WeakTrees
import Verif.Props.Readme

/-!
# C121: behind a decorator for unique doublets a store needs less of the tree crate
-/

namespace Verif.Unit.Props
open Verif Verif.Unit Verif.Links

variable {c : Cfg}

/-- The states of a united store that a client changes through `UniqueValidator` and `UniqueResolver` only, from the opening on empty
memory on, with any handlers and allocators, and with restarts. The client is free to ask for any update to ends that are neither null
nor the wildcard, duplicates included. -/
inductive Guarded (c : Cfg) : Store → Prop
  | fresh (a) {s : Store} : GoodAlloc a → init (c.withAlloc a) {} = some (.ok s) → Guarded c s
  | create (a) {s : Store} {σ : Type} {h : WH σ} {st : σ} {o : Out Store σ Flow} : Guarded c s → GoodAlloc a →
      (uniqueValidator (links (c.withAlloc a))).createWith s h st = some o → Guarded c o.st
  | validated {s : Store} {i x y : Nat} {σ : Type} {h : WH σ} {st : σ} {o : Out Store σ Flow} : Guarded c s →
      x ≠ 0 → x ≠ c.consts.any → y ≠ 0 → y ≠ c.consts.any →
      (uniqueValidator (links c)).updateWith s i x y h st = some o → Guarded c o.st
  | resolved {s : Store} {i x y : Nat} {σ : Type} {h : WH σ} {st : σ} {o : Out Store σ Flow} : Guarded c s →
      x ≠ 0 → x ≠ c.consts.any → y ≠ 0 → y ≠ c.consts.any →
      (uniqueResolver (links c)).updateWith s i x y h st = some o → Guarded c o.st
  | delete {s : Store} {i : Nat} {σ : Type} {h : WH σ} {st : σ} {o : Out Store σ Flow} : Guarded c s →
      (uniqueValidator (links c)).deleteWith s i h st = some o → Guarded c o.st
  | reopen (a) (n : Nat) {s s' : Store} : Guarded c s → GoodAlloc a →
      init (c.withAlloc a) { s with len := n } = some (.ok s') → s.hdr.allocated < s'.len → Guarded c s'

theorem found_exact (hc : CfgOK₀ c) {s : Store} (h : ReachU c s) {a b : Nat} (ha : a ≠ 0) (ha' : a ≠ c.consts.any) (hb : b ≠ 0)
    (hb' : b ≠ c.consts.any) :
    (links c).found s [c.consts.any, a, b] = some true ∧ (∃ j, (links c).view s j = some (a, b)) ∨
    (links c).found s [c.consts.any, a, b] = some false ∧ ∀ j, (links c).view s j ≠ some (a, b) := by
  have hq : NullFree c.mend.consts.any [c.mend.consts.any, a, b] := by
    intro _ x hx; simp at hx; rcases hx with rfl | rfl <;> assumption
  obtain ⟨f, h1, h2⟩ := found_pair (weakLawful hc) h ha ha' hb hb'
  obtain ⟨r, -, -, -, h3⟩ := C25_find_and_found hc.mend (reachU_mend hc h).1 (q := [c.mend.consts.any, a, b]) (by simp) hq
  have h3 := h3 f h1
  cases f with
  | true =>
    obtain ⟨l, hl, -, hm1, hm2⟩ := h3.1 rfl
    refine .inl ⟨h1, l.index, ?_⟩
    have e1 : a ≠ c.mend.consts.any := ha'
    have e2 : b ≠ c.mend.consts.any := hb'
    simp only [e1, e2, false_or] at hm1 hm2
    unfold View.Has at hl
    rw [hm1, hm2] at hl
    exact hl
  | false => exact .inr ⟨h1, fun j hj => by cases h2 ⟨j, hj⟩⟩

theorem guarded_resolver (hc : CfgOK₀ c) {s : Store} (h : ReachU c s) (i : Nat) {a b : Nat} (ha : a ≠ 0) (ha' : a ≠ c.consts.any)
    (hb : b ≠ 0) (hb' : b ≠ c.consts.any) :
    ∃ r s', ReachU c s' ∧ (uniqueResolver (links c)).update s i a b = some ⟨r, s', ()⟩ ∧
      EndsIn (fun _ h st => (uniqueResolver (links c)).updateWith (ρ := _root_.Unit) s i a b h st) s' ∧ Resolved (links c) s i a b r s' := by
  have hu := (reachU_mend hc h).2
  refine resolver_update (weakLawful hc) h hu ha ha' hb hb' (fun hn _ => hu.set fun j _ => hn j) fun old ho hne => ?_
  refine (hu.del i).set fun j hj hv => hj ?_
  by_cases e : j = i
  · rw [e, View.del_same] at hv; cases hv
  · rw [View.del_other _ e] at hv; exact hu old (a, b) ho (by simp [ha]) j hv

/-- **C121**, united store. Whatever the client asks for, no two links have the same ends, and the state is that of a history without
duplicates. -/
theorem C121_no_duplicates (hc : CfgOK₀ c) {s : Store} (h : Guarded c s) : ReachU c s ∧ ((links c).view s).Uniq := by
  suffices h : ReachU c s from ⟨h, (reachU_mend hc h).2⟩
  induction h with
  | fresh a ha hi => exact .fresh a ha hi
  | @create a s σ hd st o hs ha ho ih =>
    obtain ⟨o', h1, rfl⟩ := Option.map_eq_some_iff.1 (show ((links (c.withAlloc a)).createLinks s [] (wrapW hd) (st, .cont)).map unwrapW = some o from ho)
    exact .create (q := []) (o := o') a ih ha h1
  | @validated s i x y σ hd st o hs hx hx' hy hy' ho ih =>
    rcases found_exact hc ih hx hx' hy hy' with ⟨h1, -⟩ | ⟨h1, h2⟩
    · cases ho.symm.trans (validator_refuses (D := links c) (i := i) h1 σ hd st); exact ih
    · cases hv : (links c).view s i with
      | none => cases ho.symm.trans (validator_missing (weakLawful hc) ih (i := i) h1 hv σ hd st); exact ih
      | some p =>
        have hu := (reachU_mend hc ih).2
        obtain ⟨s', before, -, k2, -, k4⟩ := validator_passes (weakLawful hc) ih hu h1 hv (hu.set fun j _ => h2 j)
        cases ho.symm.trans (k4 σ hd st); exact k2
  | @resolved s i x y σ hd st o hs hx hx' hy hy' ho ih =>
    obtain ⟨r, s', k1, -, k3, -⟩ := guarded_resolver hc ih i hx hx' hy hy'
    obtain ⟨r', st', e⟩ := k3 σ hd st
    cases ho.symm.trans e; exact k1
  | @delete s i σ hd st o hs ho ih =>
    obtain ⟨o', h1, rfl⟩ := Option.map_eq_some_iff.1 (show ((links c).deleteLinks s [i] (wrapW hd) (st, .cont)).map unwrapW = some o from ho)
    exact .delete (q := [i]) (o := o') ih h1
  | reopen a n _ ha hi hl ih => exact .reopen a n ih ha hi hl

/-- **C121**, united store: every update through `UniqueValidator` to ends that are neither null nor the wildcard returns. It is refused
with AlreadyExists if some link has these ends, with NotExists if the index is no link, and otherwise done. -/
theorem C121_validator (hc : CfgOK₀ c) {s : Store} (h : Guarded c s) (i : Nat) {a b : Nat} (ha : a ≠ 0) (ha' : a ≠ c.consts.any)
    (hb : b ≠ 0) (hb' : b ≠ c.consts.any) :
    ((∃ j, (links c).view s j = some (a, b)) →
      Fails (fun _ h st => (uniqueValidator (links c)).updateWith (ρ := _root_.Unit) s i a b h st) s (.alreadyExists a b)) ∧
    ((∀ j, (links c).view s j ≠ some (a, b)) →
      ((links c).view s i = none →
        Fails (fun _ h st => (uniqueValidator (links c)).updateWith (ρ := _root_.Unit) s i a b h st) s (.notExists i)) ∧
      ((links c).view s i ≠ none → ∃ s' before, before.index = i ∧ Guarded c s' ∧
        (links c).view s' = ((links c).view s).set i (a, b) ∧
        Succeeds (fun _ h st => (uniqueValidator (links c)).updateWith (ρ := _root_.Unit) s i a b h st) s' before ⟨i, a, b⟩)) := by
  obtain ⟨hr, hu⟩ := C121_no_duplicates hc h
  rcases found_exact hc hr ha ha' hb hb' with ⟨h1, j, h2⟩ | ⟨h1, h2⟩
  · exact ⟨fun _ => validator_refuses h1, fun hn => absurd h2 (hn j)⟩
  · refine ⟨fun ⟨j, hj⟩ => absurd hj (h2 j), fun _ => ⟨fun hv => validator_missing (weakLawful hc) hr h1 hv, fun hv => ?_⟩⟩
    obtain ⟨p, hv⟩ := Option.ne_none_iff_exists'.1 hv
    obtain ⟨s', before, k1, -, k3, k4⟩ := validator_passes (weakLawful hc) hr hu h1 hv (hu.set fun j _ => h2 j)
    exact ⟨s', before, k1, .validated h ha ha' hb hb' (k4 _ (fun (u : _root_.Unit) _ _ => (.cont, u)) ()), k3, k4⟩

/-- **C121**, united store: every update through `UniqueResolver` to ends that are neither null nor the wildcard returns, with what
`Resolved` says. -/
theorem C121_resolver (hc : CfgOK₀ c) {s : Store} (h : Guarded c s) (i : Nat) {a b : Nat} (ha : a ≠ 0) (ha' : a ≠ c.consts.any)
    (hb : b ≠ 0) (hb' : b ≠ c.consts.any) :
    ∃ r s', Guarded c s' ∧ (uniqueResolver (links c)).update s i a b = some ⟨r, s', ()⟩ ∧
      EndsIn (fun _ h st => (uniqueResolver (links c)).updateWith (ρ := _root_.Unit) s i a b h st) s' ∧ Resolved (links c) s i a b r s' := by
  obtain ⟨r, s', -, k2, k3, k4⟩ := guarded_resolver hc (C121_no_duplicates hc h).1 i ha ha' hb hb'
  obtain ⟨r', st', e⟩ := k3 _ (fun (u : _root_.Unit) _ _ => (.cont, u)) ()
  exact ⟨r, s', .resolved h ha ha' hb hb' e, k2, k3, k4⟩

/-- **C121**, united store: creations and deletions return and have their effect. -/
theorem C121_create_and_delete (hc : CfgOK₀ c) {s : Store} (h : Guarded c s) :
    (CanGrow c s →
      (∃ e, Fails (fun _ h st => (uniqueValidator (links c)).createWith (ρ := _root_.Unit) s h st) s e) ∨
      ∃ i s', (links c).view s i = none ∧ Guarded c s' ∧ (links c).view s' = ((links c).view s).set i (0, 0) ∧
        Succeeds (fun _ h st => (uniqueValidator (links c)).createWith (ρ := _root_.Unit) s h st) s' Link.nothing ⟨i, 0, 0⟩) ∧
    ∀ i, ((links c).view s i = none →
        Fails (fun _ h st => (uniqueValidator (links c)).deleteWith (ρ := _root_.Unit) s i h st) s (.notExists i)) ∧
      ∀ p, (links c).view s i = some p → ∃ s', Guarded c s' ∧ (links c).view s' = ((links c).view s).del i ∧
        Succeeds (fun _ h st => (uniqueValidator (links c)).deleteWith (ρ := _root_.Unit) s i h st) s' ⟨i, p.1, p.2⟩ Link.nothing := by
  obtain ⟨hr, hu⟩ := C121_no_duplicates hc h
  refine ⟨fun hg => ?_, fun i => ⟨fun hv σ hd st => deleteByWith_err (D := links c) ((weakLawful hc).delete_missing s hr i hv) hd st, fun p hv => ?_⟩⟩
  · rcases (weakLawful hc).create s hr hg [] with ⟨e, hF⟩ | ⟨i, s', k1, -, -, k4, k5⟩
    · exact .inl ⟨e, fun σ hd st => createByWith_err (D := links c) hF hd st⟩
    · have hS : Succeeds (fun _ h st => (uniqueValidator (links c)).createWith (ρ := _root_.Unit) s h st) s' Link.nothing ⟨i, 0, 0⟩ :=
        fun σ hd st => createByWith_ok (D := links c) k5 hd st
      exact .inr ⟨i, s', k1, .create (c := c) c.alloc h hc.alloc_ge (hS _ (fun (u : _root_.Unit) _ _ => (.cont, u)) ()), k4, hS⟩
  · obtain ⟨s', -, -, k3, k4⟩ := (weakLawful hc).delete s hr i p hv (hu i) trivial
    have hS : Succeeds (fun _ h st => (uniqueValidator (links c)).deleteWith (ρ := _root_.Unit) s i h st) s' ⟨i, p.1, p.2⟩ Link.nothing :=
      fun σ hd st => deleteByWith_ok (D := links c) k4 hd st
    exact ⟨s', .delete h (hS _ (fun (u : _root_.Unit) _ _ => (.cont, u)) ()), k3, hS⟩

/-- Four links of which two, without sources, have the same target: 1 = (3,1), 2 = (2,1), 3 = (0,1), 4 = (0,1). -/
def nullTwins : List Call := [.create, .create, .create, .create, .update 1 3 1, .update 2 2 1, .update 3 0 1, .update 4 0 1]

open Verif.Deco.Props in
/-- **C121** is false with null sources. Through `UniqueValidator` two links are given null and 1 as ends, over the published trees. After
link 2 was deleted, the query for the links with target 1 does not return, although three links have it. -/
theorem C121_null_sources_do_damage :
    ((execD (uniqueValidator (links cfgS)) nullTwins (store0 cfgS)).bind fun s =>
      (links cfgS).collect s [cfgS.consts.any, cfgS.consts.any, 1]).map (·.map (·.index)) = some [2, 3, 4, 1] ∧
    ((execD (uniqueValidator (links cfgS)) (nullTwins ++ [.delete 2]) (store0 cfgS)).bind fun s =>
      (links cfgS).collect s [cfgS.consts.any, cfgS.consts.any, 1]) = none ∧
    (execD (uniqueValidator (links cfgS)) (nullTwins ++ [.delete 2]) (store0 cfgS)).map
      (fun s => (List.range 5).map ((links cfgS).view s)) = some [none, some (3, 1), none, some (0, 1), some (0, 1)] :=
  ⟨by decide +kernel, by decide +kernel, by decide +kernel⟩

/-- Seven links with different ends; then link 5 is given the ends of link 1, and is merged into it. -/
def mergeCalls : List Call := [.create, .create, .create, .create, .create, .create, .create, .update 1 2 2, .update 6 1 3, .update 2 1 2,
  .update 3 1 1, .update 7 1 4, .update 4 5 4, .update 5 2 2]

open Verif.Deco.Props in
/-- **C121** is false of `CascadeUniqueResolver`, which is why it is not among the decorators of `Guarded`. The merge turns link 4, which
was (5,4), into a second (1,4), past the decorator. Over the published trees, after link 6 was deleted, the query for the links with source
1 does not return, although four links have it. -/
theorem C121_cascade_merges_do_damage :
    (execD (cascadeUniqueResolver (links cfgS)) mergeCalls (store0 cfgS)).map (fun s => (List.range 8).map ((links cfgS).view s)) =
      some [none, some (2, 2), some (1, 2), some (1, 1), some (1, 4), none, some (1, 3), some (1, 4)] ∧
    ((execD (cascadeUniqueResolver (links cfgS)) (mergeCalls ++ [.delete 6]) (store0 cfgS)).bind fun s =>
      (links cfgS).collect s [cfgS.consts.any, 1, cfgS.consts.any]) = none ∧
    (execD (cascadeUniqueResolver (links cfgS)) (mergeCalls ++ [.delete 6]) (store0 cfgS)).map
      (fun s => (List.range 8).map ((links cfgS).view s)) =
        some [none, some (2, 2), some (1, 2), some (1, 1), some (1, 4), none, none, some (1, 4)] :=
  ⟨by decide +kernel, by decide +kernel, by decide +kernel⟩

/-- A client that asks for a duplicate: over the published trees, through `UniqueValidator` and then through `UniqueResolver`. -/
example : CfgOK₀ cfgSFew ∧ Guarded cfgSFew (store0 cfgSFew) ∧
    (((((uniqueValidator (links cfgSFew)).create (store0 cfgSFew)).bind fun o => (uniqueValidator (links cfgSFew)).create o.st).bind fun o =>
      (uniqueValidator (links cfgSFew)).update o.st 1 1 2).bind fun o =>
        ((uniqueValidator (links cfgSFew)).update o.st 2 1 2).bind fun r => ((uniqueResolver (links cfgSFew)).update r.st 2 1 2).map fun q =>
          (r.res, q.res, (links cfgSFew).view q.st 1, (links cfgSFew).view q.st 2)) =
      some (.error (.alreadyExists 1 2), .ok 1, some (1, 2), none) :=
  ⟨cfgSFew_ok, .fresh (c := cfgSFew) cfgSFew.alloc cfgSFew_ok.alloc_ge rfl, by decide +kernel⟩

end Verif.Unit.Props

namespace Verif.Split.Props
open Verif Verif.Split Verif.Links

variable {c : Cfg}

/-- The states of a split store that a client changes through `UniqueValidator` and `UniqueResolver` only. Ends are neither null nor the
wildcard. The conditions of C30 apply: no link refers to an index that is created, and a link that has a source is not made to refer to
itself, which goes for the link that `UniqueResolver` finds as well. -/
inductive Guarded (c : Cfg) : Store → Prop
  | fresh (d i) {s : Store} : ExactAlloc d → ExactAlloc i → init (c.withAllocs d i) {} = some (.ok s) → Guarded c s
  | create (d i) {s : Store} {σ : Type} {h : WH σ} {st : σ} {o : Out Store σ Flow} :
      Guarded c s → ExactAlloc d → ExactAlloc i → GrowTogether (c.withAllocs d i) s → NewUnused (c.withAllocs d i) s →
      (uniqueValidator (links (c.withAllocs d i))).createWith s h st = some o → Guarded c o.st
  | validated {s : Store} {i x y : Nat} {σ : Type} {h : WH σ} {st : σ} {o : Out Store σ Flow} : Guarded c s →
      x ≠ 0 → x ≠ c.consts.any → y ≠ 0 → y ≠ c.consts.any → (x = i ∨ y = i → ∀ p, (links c).view s i = some p → p.1 = 0) →
      (uniqueValidator (links c)).updateWith s i x y h st = some o → Guarded c o.st
  | resolved {s : Store} {i x y : Nat} {σ : Type} {h : WH σ} {st : σ} {o : Out Store σ Flow} : Guarded c s →
      x ≠ 0 → x ≠ c.consts.any → y ≠ 0 → y ≠ c.consts.any → (x = i ∨ y = i → ∀ p, (links c).view s i = some p → p.1 = 0) →
      (∀ j, (links c).view s j = some (x, y) → j ≠ i → x ≠ j ∧ y ≠ j) →
      (uniqueResolver (links c)).updateWith s i x y h st = some o → Guarded c o.st
  | delete {s : Store} {i : Nat} {σ : Type} {h : WH σ} {st : σ} {o : Out Store σ Flow} : Guarded c s →
      (uniqueValidator (links c)).deleteWith s i h st = some o → Guarded c o.st
  | reopen (d i) (n m : Nat) {s s' : Store} : Guarded c s → ExactAlloc d → ExactAlloc i →
      init (c.withAllocs d i) { s with dlen := n, ilen := m } = some (.ok s') → s.hdr.allocated < s'.ilen → Guarded c s'

theorem guarded_resolver (hc : CfgOK₀ c) {s : Store} (h : ReachU c s) {i a b : Nat} (ha : a ≠ 0) (ha' : a ≠ c.consts.any)
    (hb : b ≠ 0) (hb' : b ≠ c.consts.any) (hself : a = i ∨ b = i → ∀ p, (links c).view s i = some p → p.1 = 0)
    (hold : ∀ j, (links c).view s j = some (a, b) → j ≠ i → a ≠ j ∧ b ≠ j) :
    ∃ r s', ReachU c s' ∧ (uniqueResolver (links c)).update s i a b = some ⟨r, s', ()⟩ ∧
      EndsIn (fun _ h st => (uniqueResolver (links c)).updateWith (ρ := Unit) s i a b h st) s' ∧ Resolved (links c) s i a b r s' := by
  have hu := (reachU_mend hc h).2
  refine resolver_update (weakLawful hc) h hu ha ha' hb hb' (fun hn _ => ⟨hu.set fun j _ => hn j, fun _ => hb, hself⟩)
    fun old ho hne => ⟨?_, fun _ => hb, fun e => absurd e (by have := hold old ho hne; simp [this])⟩
  refine (hu.del i).set fun j hj hv => hj ?_
  by_cases e : j = i
  · rw [e, View.del_same] at hv; cases hv
  · rw [View.del_other _ e] at hv; exact hu old (a, b) ho (by simp [ha]) j hv

/-- **C121**, split store. Whatever the client asks for, no two links have the same ends, and the state is that of a history without
duplicates. -/
theorem C121_split_no_duplicates (hc : CfgOK₀ c) {s : Store} (h : Guarded c s) : ReachU c s ∧ ((links c).view s).Uniq := by
  suffices h : ReachU c s from ⟨h, (reachU_mend hc h).2⟩
  induction h with
  | fresh d i hd hi h => exact .fresh d i hd hi h
  | @create d i s σ hd st o hs h1 h2 h3 h4 ho ih =>
    obtain ⟨o', k1, rfl⟩ := Option.map_eq_some_iff.1
      (show ((links (c.withAllocs d i)).createLinks s [] (wrapW hd) (st, .cont)).map unwrapW = some o from ho)
    exact .create (q := []) (o := o') d i ih h1 h2 h3 h4 k1
  | @validated s i x y σ hd st o hs hx hx' hy hy' hself ho ih =>
    obtain ⟨f, h1, h2⟩ := found_pair (weakLawful hc) ih hx hx' hy hy'
    cases f with
    | true => cases ho.symm.trans (validator_refuses (D := links c) (i := i) h1 σ hd st); exact ih
    | false =>
      cases hv : (links c).view s i with
      | none => cases ho.symm.trans (validator_missing (weakLawful hc) ih (i := i) h1 hv σ hd st); exact ih
      | some p =>
        have hu := (reachU_mend hc ih).2
        obtain ⟨s', before, -, k2, -, k4⟩ := validator_passes (weakLawful hc) ih hu h1 hv
          ⟨hu.set fun j _ hj => by (cases h2 ⟨j, hj⟩), fun _ => hy, hself⟩
        cases ho.symm.trans (k4 σ hd st); exact k2
  | @resolved s i x y σ hd st o hs hx hx' hy hy' h1 h2 ho ih =>
    obtain ⟨r, s', k1, -, k3, -⟩ := guarded_resolver hc ih hx hx' hy hy' h1 h2
    obtain ⟨r', st', e⟩ := k3 σ hd st
    cases ho.symm.trans e; exact k1
  | @delete s i σ hd st o hs ho ih =>
    obtain ⟨o', h1, rfl⟩ := Option.map_eq_some_iff.1 (show ((links c).deleteLinks s [i] (wrapW hd) (st, .cont)).map unwrapW = some o from ho)
    exact .delete (q := [i]) (o := o') ih h1
  | reopen d i n m _ hd hi h hl ih => exact .reopen d i n m ih hd hi h hl

/-- **C121**, split store: every update through `UniqueValidator` to ends that are neither null nor the wildcard returns. It is refused
with AlreadyExists if some link has these ends. Otherwise it is refused without effect, with AlreadyExists (C97 says when) or with
NotExists if the index is no link, or it is done. -/
theorem C121_split_validator (hc : CfgOK₀ c) {s : Store} (h : Guarded c s) {i a b : Nat} (ha : a ≠ 0) (ha' : a ≠ c.consts.any)
    (hb : b ≠ 0) (hb' : b ≠ c.consts.any) (hself : a = i ∨ b = i → ∀ p, (links c).view s i = some p → p.1 = 0) :
    ((∃ j, (links c).view s j = some (a, b)) →
      Fails (fun _ h st => (uniqueValidator (links c)).updateWith (ρ := Unit) s i a b h st) s (.alreadyExists a b)) ∧
    ((∀ j, (links c).view s j ≠ some (a, b)) →
      Fails (fun _ h st => (uniqueValidator (links c)).updateWith (ρ := Unit) s i a b h st) s (.alreadyExists a b) ∨
      ((links c).view s i = none ∧
        Fails (fun _ h st => (uniqueValidator (links c)).updateWith (ρ := Unit) s i a b h st) s (.notExists i)) ∨
      ((links c).view s i ≠ none ∧ ∃ s' before, before.index = i ∧ Guarded c s' ∧
        (links c).view s' = ((links c).view s).set i (a, b) ∧
        Succeeds (fun _ h st => (uniqueValidator (links c)).updateWith (ρ := Unit) s i a b h st) s' before ⟨i, a, b⟩)) := by
  obtain ⟨hr, hu⟩ := C121_split_no_duplicates hc h
  obtain ⟨f, h1, h2⟩ := found_pair (weakLawful hc) hr ha ha' hb hb'
  cases f with
  | true => exact ⟨fun _ => validator_refuses h1, fun _ => .inl (validator_refuses h1)⟩
  | false =>
    refine ⟨fun hj => by (cases h2 hj), fun hn => .inr ?_⟩
    cases hv : (links c).view s i with
    | none => exact .inl ⟨rfl, validator_missing (weakLawful hc) hr h1 hv⟩
    | some p =>
      obtain ⟨s', before, k1, -, k3, k4⟩ := validator_passes (weakLawful hc) hr hu h1 hv ⟨hu.set fun j _ => hn j, fun _ => hb, hself⟩
      exact .inr ⟨by simp, s', before, k1, .validated h ha ha' hb hb' hself (k4 _ (fun (u : Unit) _ _ => (.cont, u)) ()), k3, k4⟩

/-- **C121**, split store: every update through `UniqueResolver` to ends that are neither null nor the wildcard returns, with what
`Resolved` says. -/
theorem C121_split_resolver (hc : CfgOK₀ c) {s : Store} (h : Guarded c s) {i a b : Nat} (ha : a ≠ 0) (ha' : a ≠ c.consts.any)
    (hb : b ≠ 0) (hb' : b ≠ c.consts.any) (hself : a = i ∨ b = i → ∀ p, (links c).view s i = some p → p.1 = 0)
    (hold : ∀ j, (links c).view s j = some (a, b) → j ≠ i → a ≠ j ∧ b ≠ j) :
    ∃ r s', Guarded c s' ∧ (uniqueResolver (links c)).update s i a b = some ⟨r, s', ()⟩ ∧
      EndsIn (fun _ h st => (uniqueResolver (links c)).updateWith (ρ := Unit) s i a b h st) s' ∧ Resolved (links c) s i a b r s' := by
  obtain ⟨r, s', -, k2, k3, k4⟩ := guarded_resolver hc (C121_split_no_duplicates hc h).1 ha ha' hb hb' hself hold
  obtain ⟨r', st', e⟩ := k3 _ (fun (u : Unit) _ _ => (.cont, u)) ()
  exact ⟨r, s', .resolved h ha ha' hb hb' hself hold e, k2, k3, k4⟩

/-- **C121**, split store: creations and deletions return and have their effect. -/
theorem C121_split_create_and_delete (hc : CfgOK₀ c) {s : Store} (h : Guarded c s) :
    (CanGrow c s → NewUnused c s →
      (∃ e, Fails (fun _ h st => (uniqueValidator (links c)).createWith (ρ := Unit) s h st) s e) ∨
      ∃ i s', (links c).view s i = none ∧ Guarded c s' ∧ (links c).view s' = ((links c).view s).set i (0, 0) ∧
        Succeeds (fun _ h st => (uniqueValidator (links c)).createWith (ρ := Unit) s h st) s' Link.nothing ⟨i, 0, 0⟩) ∧
    ∀ i, ((links c).view s i = none →
        Fails (fun _ h st => (uniqueValidator (links c)).deleteWith (ρ := Unit) s i h st) s (.notExists i)) ∧
      ∀ p, (links c).view s i = some p → ∃ s', Guarded c s' ∧ (links c).view s' = ((links c).view s).del i ∧
        Succeeds (fun _ h st => (uniqueValidator (links c)).deleteWith (ρ := Unit) s i h st) s' ⟨i, p.1, p.2⟩ Link.nothing := by
  obtain ⟨hr, hu⟩ := C121_split_no_duplicates hc h
  refine ⟨fun hg hn => ?_, fun i => ⟨fun hv σ hd st => deleteByWith_err (D := links c) ((weakLawful hc).delete_missing s hr i hv) hd st, fun p hv => ?_⟩⟩
  · rcases (weakLawful hc).create s hr ⟨hg, hn⟩ [] with ⟨e, hF⟩ | ⟨i, s', k1, -, -, k4, k5⟩
    · exact .inl ⟨e, fun σ hd st => createByWith_err (D := links c) hF hd st⟩
    · have hS : Succeeds (fun _ h st => (uniqueValidator (links c)).createWith (ρ := Unit) s h st) s' Link.nothing ⟨i, 0, 0⟩ :=
        fun σ hd st => createByWith_ok (D := links c) k5 hd st
      exact .inr ⟨i, s', k1, .create (c := c) c.dalloc c.ialloc h hc.dalloc_eq hc.ialloc_eq (fun e => (hg e).1) hn
        (hS _ (fun (u : Unit) _ _ => (.cont, u)) ()), k4, hS⟩
  · obtain ⟨s', -, -, k3, k4⟩ := (weakLawful hc).delete s hr i p hv (hu i) trivial
    have hS : Succeeds (fun _ h st => (uniqueValidator (links c)).deleteWith (ρ := Unit) s i h st) s' ⟨i, p.1, p.2⟩ Link.nothing :=
      fun σ hd st => deleteByWith_ok (D := links c) k4 hd st
    exact ⟨s', .delete h (hS _ (fun (u : Unit) _ _ => (.cont, u)) ()), k3, hS⟩

/-- A client that asks for a duplicate: over the published trees, through `UniqueValidator` and then through `UniqueResolver`. -/
example : CfgOK₀ cfgSFew ∧ Guarded cfgSFew (store0 cfgSFew) ∧
    ((((((uniqueValidator (links cfgSFew)).create (store0 cfgSFew)).bind fun o => (uniqueValidator (links cfgSFew)).create o.st).bind fun o =>
      (uniqueValidator (links cfgSFew)).create o.st).bind fun o =>
      (uniqueValidator (links cfgSFew)).update o.st 1 3 2).bind fun o =>
        ((uniqueValidator (links cfgSFew)).update o.st 2 3 2).bind fun r => ((uniqueResolver (links cfgSFew)).update r.st 2 3 2).map fun q =>
          (r.res, q.res, (links cfgSFew).view q.st 1, (links cfgSFew).view q.st 2)) =
      some (.error (.alreadyExists 3 2), .ok 1, some (3, 2), none) :=
  ⟨cfgSFew_ok, .fresh (c := cfgSFew) cfgSFew.dalloc cfgSFew.ialloc cfgSFew_ok.dalloc_eq cfgSFew_ok.ialloc_eq rfl, by decide +kernel⟩

end Verif.Split.Props
