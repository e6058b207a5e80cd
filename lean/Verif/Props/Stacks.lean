import Verif.Stacks
import Verif.Props.Decorators
import Verif.Props.SplitDerived

/-!
# Property C84: decorators on top of each other

A user wraps a store in several decorators. What the innermost validators guarantee, no decorator on top can break,
with the exceptions proved below. `stack ds D` is the store `D` wrapped in the decorators `ds`, the outermost first. -/

namespace Verif.Stacks.Props
open Verif Verif.Links

variable {S : Type}

/-- The states of a store that starts as `s0` and is then used only through `D'`, with any handlers: creations in
states that meet `C`, updates that meet `U`, any deletions. (`create`, `update_with` and so on call these methods with a
handler of their own.) -/
inductive Used (D' : Links S) (C : S → Prop) (U : S → Nat → Nat → Nat → Prop) (s0 : S) : S → Prop
  | start : Used D' C U s0 s0
  | create {s : S} {q : List Nat} {σ : Type} {h : WH σ} {st : σ} {o : Out S σ Flow} : Used D' C U s0 s → C s →
      D'.createLinks s q h st = some o → Used D' C U s0 o.st
  | update {s : S} {i x a b : Nat} {σ : Type} {h : WH σ} {st : σ} {o : Out S σ Flow} : Used D' C U s0 s →
      U s i a b → D'.updateLinks s [i] [x, a, b] h st = some o → Used D' C U s0 o.st
  | delete {s : S} {i : Nat} {σ : Type} {h : WH σ} {st : σ} {o : Out S σ Flow} : Used D' C U s0 s →
      D'.deleteLinks s [i] h st = some o → Used D' C U s0 o.st

variable {D' : Links S} {C : S → Prop} {U : S → Nat → Nat → Nat → Prop} {s0 : S}

theorem Used.keeps {P : S → Prop} {T : S → S → Prop} (h0 : P s0)
    (hc : ∀ {σ : Type} {s : S} {q : List Nat} {h : WH σ} {st : σ} {o : Out S σ Flow}, P s → C s →
      D'.createLinks s q h st = some o → P o.st)
    (hd : DeleteKeeps D' P) (hu : UpdateKeeps D' P U T) {s : S} (h : Used D' C U s0 s) : P s := by
  induction h with
  | start => exact h0
  | create _ hC ho ih => exact hc ih hC ho
  | update _ hU ho ih => exact (hu ih hU ho).1
  | delete _ ho ih => exact hd ih ho

theorem Used.deletes : DeleteKeeps D' (Used D' C U s0) := fun _ _ _ _ _ _ h ho => .delete h ho

theorem Used.updates : UpdateKeeps D' (Used D' C U s0) U fun _ _ => True :=
  fun _ _ _ _ _ _ _ _ _ h hU ho => ⟨.update h hU ho, trivial⟩

theorem Used.createLinkWith {s : S} (h : Used D' C U s0 s) (hC : C s) {x y : Nat} {σ ρ : Type} {hd : Hd σ ρ} {st : σ}
    {o : Out S σ Flow} (hU : ∀ {o r}, D'.createWith s (createLinkH hd) (0, { inner := st }) = some o → o.res = .ok r →
      U o.st o.hs.1 x y) (ho : D'.createLinkWith s x y hd st = some o) : Used D' C U s0 o.st := by
  simp only [Links.createLinkWith, Option.bind_eq_some_iff] at ho
  obtain ⟨o1, h1, ho⟩ := ho
  have k1 : Used D' C U s0 o1.st := by
    simp only [createWith, createByWith, Option.map_eq_some_iff] at h1
    obtain ⟨o2, h1, rfl⟩ := h1
    show Used D' C U s0 o2.st
    exact h.create hC h1
  split at ho
  · cases ho; exact k1
  · next r e =>
    rw [Option.map_eq_some_iff] at ho
    obtain ⟨o2, h2, rfl⟩ := ho
    exact (Used.updates.byWith k1 (hU h1 e) h2).1

/-- **C84**, the default methods that delete: they change the store by deletions through the same stack, so the states
they lead to are among those of the history. -/
theorem C84_default_deletions {s : S} (h : Used D' C U s0 s) :
    (∀ {o}, D'.deleteAll s = some o → Used D' C U s0 o.st) ∧
    (∀ {σ ρ : Type} {q : List Nat} {hd : Hd σ ρ} {st : σ} {o}, D'.deleteQueryWith s q hd st = some o →
      Used D' C U s0 o.st) ∧
    (∀ {σ ρ : Type} {i : Nat} {hd : Hd σ ρ} {st : σ} {o}, D'.deleteUsagesWith s i hd st = some o →
      Used D' C U s0 o.st) :=
  ⟨fun ho => Used.deletes.deleteAll h ho, fun ho => Used.deletes.query h ho, fun ho => Used.deletes.usages h ho⟩

/-! ## Two validators -/

section Order
variable {D : Links S} {s : S}

/-- The check of `UsagesValidator` refuses, lets through, or panics, whatever the call is. -/
theorem checkUsages_uniform (D : Links S) (s : S) (q : List Nat) :
    (∃ e, ∀ {σ : Type} (st : σ) (go : Option (Out S σ Flow)), checkUsages D s q st go = some ⟨.error e, s, st⟩) ∨
    (∀ {σ : Type} (st : σ) (go : Option (Out S σ Flow)), checkUsages D s q st go = go) ∨
    (∀ {σ : Type} (st : σ) (go : Option (Out S σ Flow)), checkUsages D s q st go = none) := by
  unfold checkUsages
  cases q[(D.consts s).indexPart]? with
  | none => exact .inr (.inr fun _ _ => rfl)
  | some i =>
    cases hu : D.usages s i with
    | none => right; right; intro σ st go; simp [hu]
    | some r =>
      cases r with
      | error e => left; exact ⟨e, fun st go => by simp [hu]⟩
      | ok us =>
        cases he : us.isEmpty with
        | true => right; left; intro σ st go; simp only [hu, he, Option.bind_some, if_true]
        | false =>
          cases ht : tryGetLinks D s us with
          | none => right; right; intro σ st go; simp only [hu, he, ht, Option.bind_some, Option.map_none, Bool.false_eq_true, if_false]
          | some r =>
            cases r with
            | error e => left; exact ⟨e, fun st go => by simp only [hu, he, ht, Option.bind_some, Option.map_some, Bool.false_eq_true, if_false]⟩
            | ok ls => left; exact ⟨.hasUsages ls, fun st go => by simp only [hu, he, ht, Option.bind_some, Option.map_some, Bool.false_eq_true, if_false]⟩

/-- **C84**, the order of the validators does not matter: whenever both return, an update has the same outcome through
`UsagesValidator` over `UniqueValidator` as through `UniqueValidator` over `UsagesValidator`, or both refuse it, change
nothing and do not call the handler (then the two may name different reasons). A deletion has the same outcome. -/
theorem C84_order_of_validators {σ : Type} (h : WH σ) (st : σ) (i a b : Nat) :
    (∀ o1 o2, (usagesValidator (uniqueValidator D)).updateLinks s [i] [i, a, b] h st = some o1 →
      (uniqueValidator (usagesValidator D)).updateLinks s [i] [i, a, b] h st = some o2 →
      o1 = o2 ∨ ∃ e1 e2, o1 = ⟨.error e1, s, st⟩ ∧ o2 = ⟨.error e2, s, st⟩) ∧
    ∀ o1 o2, (usagesValidator (uniqueValidator D)).deleteLinks s [i] h st = some o1 →
      (uniqueValidator (usagesValidator D)).deleteLinks s [i] h st = some o2 → o1 = o2 := by
  refine ⟨fun o1 o2 h1 h2 => ?_, fun o1 o2 h1 h2 => ?_⟩
  · have f : Forwards D (uniqueValidator D) := ⟨rfl, rfl, rfl, rfl, rfl, rfl⟩
    have h1 : checkUsages D s [i] st ((uniqueValidator D).updateByWith s [i] [i, a, b] h st) = some o1 :=
      (f.checkUsages s [i] st _).symm.trans h1
    have h2 : ((D.found s [(D.consts s).any, a, b]).bind fun f =>
        if f then some ⟨.error (.alreadyExists a b), s, st⟩
        else (usagesValidator D).updateByWith s [i] [i, a, b] h st) = some o2 := h2
    have hU : (uniqueValidator D).updateByWith s [i] [i, a, b] h st =
        ((D.found s [(D.consts s).any, a, b]).bind fun f =>
          if f then some ⟨.error (.alreadyExists a b), s, (st, .cont)⟩
          else D.updateByWith s [i] [i, a, b] (wrapW h) (st, .cont)).map unwrapW := rfl
    have hV : (usagesValidator D).updateByWith s [i] [i, a, b] h st =
        (checkUsages D s [i] (st, .cont) (D.updateByWith s [i] [i, a, b] (wrapW h) (st, .cont))).map unwrapW := rfl
    rw [hU] at h1
    rw [hV] at h2
    cases hf : D.found s [(D.consts s).any, a, b] with
    | none => rw [hf] at h2; cases h2
    | some f =>
      rw [hf] at h1 h2
      rcases checkUsages_uniform D s [i] with ⟨e, k⟩ | k | k
      · rw [k] at h1 h2
        right
        cases f <;> cases h1 <;> cases h2 <;> exact ⟨_, _, rfl, rfl⟩
      · rw [k] at h1 h2
        cases f
        · left; exact Option.some.inj (h1.symm.trans h2)
        · right; cases h1; cases h2; exact ⟨_, _, rfl, rfl⟩
      · rw [k] at h1; cases h1
  · have f : Forwards D (uniqueValidator D) := ⟨rfl, rfl, rfl, rfl, rfl, rfl⟩
    exact Option.some.inj (((f.checkUsages s [i] st _).symm.trans h1).symm.trans h2)

end Order

/-! ## The united store -/

section United
open Verif.Unit Verif.Unit.Props

variable {c : Cfg}

theorem united_created (hc : CfgOK c) {s : Store} (h : Reach c s) {σ : Type} {q : List Nat} {hd : WH σ} {st : σ}
    {o : Out Store σ Flow} (ho : (links c).createLinks s q hd st = some o) : CreatedIn (reachLawful hc) s o.st := by
  have ho : createLinks c s q hd st = some o := ho
  obtain ⟨free, ts, tt, hi⟩ := reach_good hc h
  rcases create_cases hc hi q with ⟨x, rest, s', -, -, -, -, -, hS, hn, hv⟩ |
      ⟨-, -, hF⟩ | ⟨-, -, -, hF⟩ | ⟨-, -, -, hN⟩ | ⟨-, -, s', -, -, hS, hn, hv⟩
  · cases ho.symm.trans (hS σ hd st)
    exact .inr ⟨_, hn, .create (q := q) c.alloc h hc.alloc_ge (hS _ hd st), rfl, hv⟩
  · cases ho.symm.trans (hF σ hd st); exact .inl rfl
  · cases ho.symm.trans (hF σ hd st); exact .inl rfl
  · cases ho.symm.trans (hN σ hd st)
  · cases ho.symm.trans (hS σ hd st)
    exact .inr ⟨_, hn, .create (q := q) c.alloc h hc.alloc_ge (hS _ hd st), rfl, hv⟩

theorem united_search_null (hc : CfgOK c) {s : Store} {j : Nat} (h : Reach c s)
    (hj : (links c).search s 0 0 = some (some j)) : (links c).view s j ≠ none := by
  obtain ⟨L, h1, -, h3, -⟩ := query_law hc (reach_good hc h) [c.consts.any, 0, 0] (by simp)
  have h1 : (links c).Visits s [((links c).consts s).any, 0, 0] L := h1
  simp only [Links.search, Links.find] at hj
  rw [eachBy_eq h1] at hj
  cases L with
  | nil => cases hj
  | cons l L =>
    have := (h3 l (by simp)).1
    cases hj
    unfold View.Has at this
    rw [this]; simp

theorem stack_keeps_uniqIn (hc : CfgOK c) (ds : List Deco) {s0 s : Store} (h0 : Reach c s0)
    (hu : ((links c).view s0).Uniq) (he : ∀ j a b, (links c).view s0 j = some (a, b) → Ends c.consts.any a b)
    (h : Used (stack ds (uniqueValidator (links c))) (fun _ => True) (fun _ _ a b => Ends c.consts.any a b) s0 s) :
    UniqIn (reachLawful hc) c.consts s := by
  obtain ⟨k1, k2⟩ := stack_uniqIn (reachLawful hc) (k := c.consts) hc.null_eq (fun _ _ _ _ _ => trivial)
    (fun s j hs hj => united_search_null hc hs hj) ds
  have hP : UniqIn (reachLawful hc) c.consts s0 := ⟨h0, rfl, hu, he⟩
  refine h.keeps hP (fun {σ s q hd st o} hs _ ho => ?_) k1 k2
  rw [(Forwards.stack (uniqueValidator (links c)) ds).create] at ho
  exact uniqIn_create _ hs (united_created (q := q) hc hs.1 ho)

/-- **C84**, unique doublets: on the united store, whatever decorators are put on top of `UniqueValidator`, in whatever
order and number, doublets stay unique in every history of calls through the stack. Updates must give two null ends, or
two ends that are neither null nor the wildcard. -/
theorem C84_unique_under_every_stack (hc : CfgOK c) (ds : List Deco) {s0 s : Store} (h0 : Reach c s0)
    (hu : ((links c).view s0).Uniq) (he : ∀ j a b, (links c).view s0 j = some (a, b) → Ends c.consts.any a b)
    (h : Used (stack ds (uniqueValidator (links c))) (fun _ => True) (fun _ _ a b => Ends c.consts.any a b) s0 s) :
    Reach c s ∧ ((links c).view s).Uniq ∧ ∀ j a b, (links c).view s j = some (a, b) → Ends c.consts.any a b := by
  have := stack_keeps_uniqIn hc ds h0 hu he h
  exact ⟨this.1, this.2.2⟩

/-- **C84**, the default methods that create and update: through such a stack, `create_link`, `get_or_create` and
`rebase` with ends that are neither null nor the wildcard lead to states of the history. -/
theorem C84_default_writes (hc : CfgOK c) (ds : List Deco) {s0 s : Store} (h0 : Reach c s0)
    (hu : ((links c).view s0).Uniq) (he : ∀ j a b, (links c).view s0 j = some (a, b) → Ends c.consts.any a b)
    (h : Used (stack ds (uniqueValidator (links c))) (fun _ => True) (fun _ _ a b => Ends c.consts.any a b) s0 s)
    {x y : Nat} (hx : x ≠ 0 ∧ x ≠ c.consts.any) (hy : y ≠ 0 ∧ y ≠ c.consts.any) :
    let D' := stack ds (uniqueValidator (links c))
    let Here := Used D' (fun _ => True) (fun _ _ a b => Ends c.consts.any a b) s0
    (∀ {σ ρ : Type} {hd : Hd σ ρ} {st : σ} {o}, D'.createLinkWith s x y hd st = some o → Here o.st) ∧
    (∀ {o}, D'.getOrCreate s x y = some o → Here o.st) ∧
    (∀ {σ ρ : Type} {old : Nat} {hd : Hd σ ρ} {st : σ} {o}, D'.rebaseWith s old x hd st = some o → Here o.st) ∧
    (∀ {old : Nat} {o}, D'.rebaseAndDelete s old x = some o → Here o.st) := by
  intro D' Here
  have hxy : Ends c.consts.any x y := .inr ⟨hx.1, hx.2, hy⟩
  have h1 : ∀ {σ ρ : Type} {hd : Hd σ ρ} {st : σ} {o}, D'.createLinkWith s x y hd st = some o → Here o.st :=
    fun ho => h.createLinkWith trivial (fun _ _ => hxy) ho
  have f : Forwards (links c) D' :=
    let g := Forwards.stack (uniqueValidator (links c)) ds
    ⟨g.maxT, g.consts, g.count, g.each, g.get, g.create⟩
  have hP := stack_keeps_uniqIn hc ds h0 hu he h
  have h3 : ∀ {σ ρ : Type} {old : Nat} {hd : Hd σ ρ} {st : σ} {o}, D'.rebaseWith s old x hd st = some o →
      Here o.st := by
    intro σ ρ old hd st o ho
    refine (Used.updates.rebaseWith (fun _ => trivial) (fun _ _ => trivial) ?_ h ho).1
    intro L1 L2 e1 e2 ⟨l, e3⟩ s' _ _ u hm
    rw [f.eachIter, f.consts] at e1 e2
    rw [f.tryGetLink] at e3
    obtain ⟨hi0, hall⟩ := pair_ends (reachLawful hc) hP e3 e1 e2
    have hue := hP.2.2.2 _ _ _ (hall u hm)
    constructor
    · intro e
      rcases hue with k | k
      · exact absurd (e ▸ k.1) hi0
      · exact .inr ⟨hx.1, hx.2, k.2.2⟩
    · intro e
      rcases hue with k | k
      · exact absurd (e ▸ k.2) hi0
      · exact .inr ⟨k.1, k.2.1, hx⟩
  refine ⟨h1, fun ho => ?_, h3, fun ho => ?_⟩
  · simp only [getOrCreate, Option.bind_eq_some_iff] at ho
    obtain ⟨r, -, ho⟩ := ho
    split at ho
    · cases ho; exact h
    · simp only [createLink, Option.map_eq_some_iff] at ho
      obtain ⟨o', ho, rfl⟩ := ho
      exact h1 ho
  · simp only [rebaseAndDelete] at ho
    split at ho
    · cases ho; exact h
    · simp only [rebase, Option.bind_eq_some_iff, Option.map_eq_some_iff] at ho
      obtain ⟨o1, ⟨o2, e1, rfl⟩, ho⟩ := ho
      have k := h3 e1
      split at ho
      · cases ho; exact k
      · exact Used.deletes.delete k ho

/-- Both validators directly on the store, in either order. -/
def BothValidators {S : Type} (D D' : Links S) : Prop :=
  D' = usagesValidator (uniqueValidator D) ∨ D' = uniqueValidator (usagesValidator D)

theorem BothValidators.forwards {S : Type} {D D' : Links S} (h : BothValidators D D') (ds : List Deco) :
    Forwards D (stack ds D') := by
  have g := Forwards.stack D' ds
  rcases h with rfl | rfl <;> exact ⟨g.maxT, g.consts, g.count, g.each, g.get, g.create⟩

/-- No resolver of doublets among the decorators. -/
def NoUniqueResolver (ds : List Deco) : Prop := ∀ d ∈ ds, d ≠ .uniqueResolver ∧ d ≠ .cascadeUniqueResolver

theorem NoUniqueResolver.plain {ds : List Deco} (h : NoUniqueResolver ds) : ∀ d ∈ ds, d.plain = true := by
  intro d hd
  have := h d hd
  cases d <;> simp_all [Deco.plain]

/-- The ends of an update are both null, or both name links. -/
def EndsExist (v : View) (a b : Nat) : Prop := (a = 0 ∧ b = 0) ∨ (v a ≠ none ∧ v b ≠ none)

theorem stack_wholeIn (hc : CfgOK c) {D' : Links Store} (hD : BothValidators (links c) D') {ds : List Deco}
    (hds : NoUniqueResolver ds) :
    DeleteKeeps (stack ds D') (WholeIn (reachLawful hc) c.consts) ∧
    UpdateKeeps (stack ds D') (WholeIn (reachLawful hc) c.consts) (fun s _ a b => EndsExist ((links c).view s) a b)
      (Stays (links c)) := by
  obtain ⟨k1, k2⟩ := validators_wholeIn (reachLawful hc) (k := c.consts) hc.index_eq (fun _ _ _ => trivial) hD
  have hn : ∀ s, (D'.consts s).null = 0 := by
    intro s; rcases hD with rfl | rfl <;> exact hc.null_eq
  obtain ⟨k3, k4⟩ := stack_plain k1 k2 (fun _ _ h => h)
    (fun s i _ => .inl ⟨hn s, hn s⟩) ds hds.plain
  exact ⟨k3, fun _ _ _ _ _ _ _ _ _ hs hU ho => k4 hs (hU.imp id fun e => ⟨e.1, e.2, trivial⟩) ho⟩

theorem stack_keeps_wholeIn (hc : CfgOK c) {D' : Links Store} (hD : BothValidators (links c) D') {ds : List Deco}
    (hds : NoUniqueResolver ds) {s0 s : Store} (h0 : Reach c s0)
    (hu : ((links c).view s0).Uniq) (hw : Whole ((links c).view s0))
    (h : Used (stack ds D') (fun _ => True) (fun s _ a b => EndsExist ((links c).view s) a b) s0 s) :
    WholeIn (reachLawful hc) c.consts s := by
  obtain ⟨k3, k4⟩ := stack_wholeIn hc hD hds
  have hP : WholeIn (reachLawful hc) c.consts s0 := ⟨h0, rfl, hu, hw⟩
  refine h.keeps (T := Stays (links c)) hP (fun {σ s q hd st o} hs _ ho => ?_) k3 k4
  rw [(hD.forwards ds).create] at ho
  exact (wholeIn_create _ hs (united_created (q := q) hc hs.1 ho)).1

/-- **C84**, references: on the united store with both validators directly on it, in either order, and any number of
`UniqueValidator`, `UsagesValidator`, `CascadeUsagesResolver` and `NonNullDeletionResolver` on top, no reference ever
dangles: in every history of calls through the stack, if updates give two null ends or two ends that name links, the
ends of every link are both null or both name links, and doublets are unique. -/
theorem C84_no_dangling_under_plain_stacks (hc : CfgOK c) {D' : Links Store} (hD : BothValidators (links c) D')
    {ds : List Deco} (hds : NoUniqueResolver ds) {s0 s : Store} (h0 : Reach c s0)
    (hu : ((links c).view s0).Uniq) (hw : Whole ((links c).view s0))
    (h : Used (stack ds D') (fun _ => True) (fun s _ a b => EndsExist ((links c).view s) a b) s0 s) :
    Reach c s ∧ ((links c).view s).Uniq ∧ Whole ((links c).view s) := by
  have := stack_keeps_wholeIn hc hD hds h0 hu hw h
  exact ⟨this.1, this.2.2⟩

/-- **C84**, the default methods that create and update: through such a stack, `create_link`, `get_or_create` and
`rebase` with ends that name links lead to states of the history. -/
theorem C84_default_writes_between_links (hc : CfgOK c) {D' : Links Store} (hD : BothValidators (links c) D')
    {ds : List Deco} (hds : NoUniqueResolver ds) {s0 s : Store} (h0 : Reach c s0)
    (hu : ((links c).view s0).Uniq) (hw : Whole ((links c).view s0))
    (h : Used (stack ds D') (fun _ => True) (fun s _ a b => EndsExist ((links c).view s) a b) s0 s)
    {x y : Nat} (hx : (links c).view s x ≠ none) (hy : (links c).view s y ≠ none) :
    let Here := Used (stack ds D') (fun _ => True) (fun s _ a b => EndsExist ((links c).view s) a b) s0
    (∀ {σ ρ : Type} {hd : Hd σ ρ} {st : σ} {o}, (stack ds D').createLinkWith s x y hd st = some o → Here o.st) ∧
    (∀ {o}, (stack ds D').getOrCreate s x y = some o → Here o.st) ∧
    (∀ {σ ρ : Type} {old : Nat} {hd : Hd σ ρ} {st : σ} {o}, (stack ds D').rebaseWith s old x hd st = some o →
      Here o.st) ∧
    (∀ {old : Nat} {o}, (stack ds D').rebaseAndDelete s old x = some o → Here o.st) := by
  intro Here
  have f := hD.forwards ds
  have hP := stack_keeps_wholeIn hc hD hds h0 hu hw h
  obtain ⟨k3, k4⟩ := stack_wholeIn hc hD hds
  have h1 : ∀ {σ ρ : Type} {hd : Hd σ ρ} {st : σ} {o}, (stack ds D').createLinkWith s x y hd st = some o →
      Here o.st := by
    intro σ ρ hd st o ho
    refine h.createLinkWith trivial (fun {o r} e _ => ?_) ho
    simp only [createWith, createByWith, Option.map_eq_some_iff] at e
    obtain ⟨o1, e, rfl⟩ := e
    rw [f.create] at e
    have hst := (wholeIn_create _ hP (united_created (q := []) hc hP.1 e)).2
    exact .inr ⟨hst x hx, hst y hy⟩
  have h3 : ∀ {σ ρ : Type} {old : Nat} {hd : Hd σ ρ} {st : σ} {o}, (stack ds D').rebaseWith s old x hd st = some o →
      Here o.st := by
    intro σ ρ old hd st o ho
    have k5 : UpdateKeeps (stack ds D') (fun s => WholeIn (reachLawful hc) c.consts s ∧ Here s)
        (fun s _ a b => EndsExist ((links c).view s) a b) (Stays (links c)) :=
      fun _ _ _ _ _ _ _ _ _ hs hU ho => ⟨⟨(k4 hs.1 hU ho).1, .update hs.2 hU ho⟩, (k4 hs.1 hU ho).2⟩
    refine (k5.rebaseWith (fun _ _ h => h) (fun h1 h2 j hj => h2 j (h1 j hj)) ?_ ⟨hP, h⟩ ho).1.2
    intro L1 L2 e1 e2 ⟨l, e3⟩ s' hst _ u hm
    rw [f.eachIter, f.consts] at e1 e2
    rw [f.tryGetLink] at e3
    obtain ⟨hi0, hall⟩ := pair_ends (reachLawful hc) hP.uniqIn e3 e1 e2
    have hue := hP.2.2.2 _ _ _ (hall u hm)
    constructor
    · intro e
      rcases hue with k | k
      · exact absurd (e ▸ k.1) hi0
      · exact .inr ⟨hst x hx, hst _ k.2⟩
    · intro e
      rcases hue with k | k
      · exact absurd (e ▸ k.2) hi0
      · exact .inr ⟨hst _ k.1, hst x hx⟩
  refine ⟨h1, fun ho => ?_, h3, fun ho => ?_⟩
  · simp only [getOrCreate, Option.bind_eq_some_iff] at ho
    obtain ⟨r, -, ho⟩ := ho
    split at ho
    · cases ho; exact h
    · simp only [createLink, Option.map_eq_some_iff] at ho
      obtain ⟨o', ho, rfl⟩ := ho
      exact h1 ho
  · simp only [rebaseAndDelete] at ho
    split at ho
    · cases ho; exact h
    · simp only [rebase, Option.bind_eq_some_iff, Option.map_eq_some_iff] at ho
      obtain ⟨o1, ⟨o2, e1, rfl⟩, ho⟩ := ho
      have k := h3 e1
      split at ho
      · cases ho; exact k
      · exact Used.deletes.delete k ho

end United

/-! ## The split store -/

section Split
open Verif.Split Verif.Split.Props

variable {c : Split.Cfg}

/-- Without dangling references no link refers to an index that names no link. -/
theorem split_created (hc : Split.CfgOK c) {s : Split.Store} (h : Split.Reach c s) (hw : Whole ((Split.links c).view s))
    (hg : GrowTogether c s) {σ : Type} {q : List Nat} {hd : WH σ} {st : σ}
    {o : Out Split.Store σ Flow} (ho : (Split.links c).createLinks s q hd st = some o) :
    CreatedIn (Split.reachLawful hc) s o.st := by
  have ho : Split.createLinks c s q hd st = some o := ho
  obtain ⟨free, hi⟩ := Split.reach_good hc h
  have fin : ∀ {i s' free'}, i ≠ 0 → Created c s free s' free' i →
      Succeeds (fun _ hd st => Split.createLinks c s [] hd st) s' Link.nothing ⟨i, 0, 0⟩ →
      CreatedIn (Split.reachLawful hc) s s' := by
    intro i s' free' h0 hcr hS
    obtain ⟨hn, hv⟩ := hcr.view hc hi.toInv0
    refine .inr ⟨i, hn, ?_, rfl, hv⟩
    refine .create (q := []) (h := fun (u : _root_.Unit) _ _ => (.cont, u)) (st := ()) c.dalloc c.ialloc h hc.dalloc_eq
      hc.ialloc_eq hg ?_ (hS _ _ _)
    intro i' s'' hcre j a b hj
    have := (create_of_succeeds hS).symm.trans hcre
    cases this
    rcases hw j a b hj with ⟨rfl, rfl⟩ | ⟨e1, e2⟩
    · exact ⟨Ne.symm h0, Ne.symm h0⟩
    · exact ⟨fun e => e1 (e ▸ hn), fun e => e2 (e ▸ hn)⟩
  rcases Split.create_cases hc hi q with ⟨x, rest, s', hf, h1, h2, h3, h4⟩ | ⟨hf, h1, h2⟩ |
      ⟨hf, h1, h2, h3⟩ | ⟨hf, h1, h2, h3, h4⟩ | ⟨hf, h1, h2, h3, h4, h5⟩ | ⟨hf, h1, s', h2, h3, h4⟩
  · cases ho.symm.trans (h1 _ hd st)
    exact fin (hi.base.list.nonzero x (by simp [hf])) h2 h1
  · cases ho.symm.trans (h2 _ hd st); exact .inl rfl
  · cases ho.symm.trans (h3 _ hd st); exact .inl rfl
  · exact absurd h3 (hg h2)
  · cases ho.symm.trans (h5 _ hd st)
  · cases ho.symm.trans (h2 _ hd st)
    exact fin (by omega) h3 h2

/-- Which updates the split store supports, between links: a link with a source cannot be made to refer to itself. -/
def EndsExistIn (v : View) (i a b : Nat) : Prop :=
  EndsExist v a b ∧ (a = i ∨ b = i → ∀ p, v i = some p → p.1 = 0)

theorem split_stack_wholeIn (hc : Split.CfgOK c) {D' : Links Split.Store} (hD : BothValidators (Split.links c) D')
    {ds : List Deco} (hds : NoUniqueResolver ds) :
    DeleteKeeps (stack ds D') (WholeIn (Split.reachLawful hc) c.consts) ∧
    UpdateKeeps (stack ds D') (WholeIn (Split.reachLawful hc) c.consts)
      (fun s i a b => EndsExistIn ((Split.links c).view s) i a b) (Stays (Split.links c)) := by
  have hz : ∀ s, Split.Reach c s → (Split.links c).view s 0 = none := fun s hs => (Split.reachLawful hc).null s hs
  obtain ⟨k1, k2⟩ := validators_wholeIn (Split.reachLawful hc) (k := c.consts) hc.index_eq (fun s i hs => by
    refine ⟨fun h => absurd rfl h, fun h p hp => ?_⟩
    have : i = 0 := by omega
    rw [this, hz s hs] at hp; cases hp) hD
  have hn : ∀ s, (D'.consts s).null = 0 := by
    intro s; rcases hD with rfl | rfl <;> exact hc.null_eq
  obtain ⟨k3, k4⟩ := stack_plain k1 k2 (fun _ _ h => h) (fun s i _ => .inl ⟨hn s, hn s⟩) ds hds.plain
  refine ⟨k3, fun _ _ _ _ _ _ _ _ _ hs hU ho => k4 hs (hU.1.imp id fun e => ⟨e.1, e.2, fun _ h => ?_, hU.2⟩) ho⟩
  exact e.2 (h ▸ hz _ hs.1)

/-- **C84**, references, on the split store: with both validators directly on it and any number of the same decorators
on top, a history of calls through the stack keeps every reference alive and doublets unique. The store remains a
supported one: no creation can meet a dangling reference to the index it returns. Updates must give two null ends or two
ends that name links, and not make a link that has a source refer to itself; the two memories grow together. -/
theorem C84_split_no_dangling_under_plain_stacks (hc : Split.CfgOK c) {D' : Links Split.Store}
    (hD : BothValidators (Split.links c) D') {ds : List Deco} (hds : NoUniqueResolver ds) {s0 s : Split.Store}
    (h0 : Split.Reach c s0) (hu : ((Split.links c).view s0).Uniq) (hw : Whole ((Split.links c).view s0))
    (h : Used (stack ds D') (GrowTogether c) (fun s i a b => EndsExistIn ((Split.links c).view s) i a b) s0 s) :
    Split.Reach c s ∧ ((Split.links c).view s).Uniq ∧ Whole ((Split.links c).view s) := by
  obtain ⟨k3, k4⟩ := split_stack_wholeIn hc hD hds
  have hP : WholeIn (Split.reachLawful hc) c.consts s0 := ⟨h0, rfl, hu, hw⟩
  have := h.keeps (T := Stays (Split.links c)) hP (fun {σ s q hd st o} hs hg ho => ?_) k3 k4
  · exact ⟨this.1, this.2.2⟩
  · rw [(hD.forwards ds).create] at ho
    exact (wholeIn_create _ hs (split_created (q := q) hc hs.1 hs.2.2.2 hg ho)).1

/-- The index that `create_link` remembers names no link before the creation. -/
theorem split_fresh (hc : Split.CfgOK c) {s : Split.Store} (h : Split.Reach c s) (hg : GrowTogether c s) {σ ρ : Type}
    {hd : Hd σ ρ} {st : Nat × FuseSt σ} {o : Out Split.Store (Nat × FuseSt σ) Flow} {r : Flow}
    (ho : (Split.links c).createWith s (createLinkH hd) st = some o) (hr : o.res = .ok r) :
    (Split.links c).view s o.hs.1 = none ∧
      (Split.links c).view o.st = ((Split.links c).view s).set o.hs.1 (0, 0) := by
  obtain ⟨free, hi⟩ := Split.reach_good hc h
  simp only [createWith, createByWith, Option.map_eq_some_iff] at ho
  obtain ⟨o1, ho, rfl⟩ := ho
  have ho : Split.createLinks c s [] (wrapW (createLinkH hd)) (st, .cont) = some o1 := ho
  rcases Split.create_cases hc hi [] with ⟨x, rest, s', hf, h1, h2, h3, h4⟩ | ⟨hf, h1, h2⟩ |
      ⟨hf, h1, h2, h3⟩ | ⟨hf, h1, h2, h3, h4⟩ | ⟨hf, h1, h2, h3, h4, h5⟩ | ⟨hf, h1, s', h2, h3, h4⟩
  · cases ho.symm.trans (h1 _ _ _); exact h2.view hc hi.toInv0
  · cases ho.symm.trans (h2 _ _ _); cases hr
  · cases ho.symm.trans (h3 _ _ _); cases hr
  · exact absurd h3 (hg h2)
  · cases ho.symm.trans (h5 _ _ _)
  · cases ho.symm.trans (h2 _ _ _); exact h3.view hc hi.toInv0

/-- **C84**, `create_link` and `get_or_create` on the split store: through such a stack, with ends that name links, they
lead to states of the history. -/
theorem C84_split_default_writes_between_links (hc : Split.CfgOK c) {D' : Links Split.Store}
    (hD : BothValidators (Split.links c) D') {ds : List Deco} (hds : NoUniqueResolver ds) {s0 s : Split.Store}
    (h0 : Split.Reach c s0) (hu : ((Split.links c).view s0).Uniq) (hw : Whole ((Split.links c).view s0))
    (h : Used (stack ds D') (GrowTogether c) (fun s i a b => EndsExistIn ((Split.links c).view s) i a b) s0 s)
    (hg : GrowTogether c s) {x y : Nat} (hx : (Split.links c).view s x ≠ none) (hy : (Split.links c).view s y ≠ none) :
    let Here := Used (stack ds D') (GrowTogether c) (fun s i a b => EndsExistIn ((Split.links c).view s) i a b) s0
    (∀ {σ ρ : Type} {hd : Hd σ ρ} {st : σ} {o}, (stack ds D').createLinkWith s x y hd st = some o → Here o.st) ∧
    (∀ {o}, (stack ds D').getOrCreate s x y = some o → Here o.st) := by
  intro Here
  have hs := C84_split_no_dangling_under_plain_stacks hc hD hds h0 hu hw h
  have h1 : ∀ {σ ρ : Type} {hd : Hd σ ρ} {st : σ} {o}, (stack ds D').createLinkWith s x y hd st = some o →
      Here o.st := by
    intro σ ρ hd st o ho
    refine h.createLinkWith hg (fun {o r} e hr => ?_) ho
    have e : (Split.links c).createWith s (createLinkH hd) (0, { inner := st }) = some o := by
      rw [← e]; simp only [createWith, createByWith, (hD.forwards ds).create]
    obtain ⟨e1, e2⟩ := split_fresh hc hs.1 hg e hr
    rw [e2]
    have n1 : x ≠ o.hs.1 := fun e => hx (e ▸ e1)
    have n2 : y ≠ o.hs.1 := fun e => hy (e ▸ e1)
    refine ⟨.inr ⟨?_, ?_⟩, fun e => ?_⟩
    · simpa [View.set, n1] using hx
    · simpa [View.set, n2] using hy
    · exact absurd e (by simp [n1, n2])
  refine ⟨h1, fun ho => ?_⟩
  simp only [getOrCreate, Option.bind_eq_some_iff] at ho
  obtain ⟨r, -, ho⟩ := ho
  split at ho
  · cases ho; exact h
  · simp only [createLink, Option.map_eq_some_iff] at ho
    obtain ⟨o', ho, rfl⟩ := ho
    exact h1 ho

end Split

/-! ## The hypotheses can be met -/

/-- Perform calls, whether they succeed or not; stop at an update that is not allowed. -/
def runIn (D' : Links S) (u : S → Nat → Nat → Nat → Bool) : List Call → S → Option S
  | [], s => some s
  | .create :: ks, s => (D'.create s).bind fun o => runIn D' u ks o.st
  | .update i a b :: ks, s => if u s i a b then (D'.update s i a b).bind fun o => runIn D' u ks o.st else none
  | .delete i :: ks, s => (D'.delete s i).bind fun o => runIn D' u ks o.st

theorem used_of_run {u : S → Nat → Nat → Nat → Bool} (hC : ∀ s, C s) (hu : ∀ s i a b, u s i a b = true → U s i a b)
    (ks : List Call) {s s' : S} (h : Used D' C U s0 s) (ho : runIn D' u ks s = some s') : Used D' C U s0 s' := by
  induction ks generalizing s with
  | nil => cases ho; exact h
  | cons k ks ih =>
    cases k with
    | create =>
      simp only [runIn, Option.bind_eq_some_iff] at ho
      obtain ⟨o, h1, ho⟩ := ho
      refine ih ?_ ho
      simp only [Links.create, createBy, createByWith, Option.map_eq_some_iff] at h1
      obtain ⟨o1, ⟨o2, h1, rfl⟩, rfl⟩ := h1
      have : Used D' C U s0 o2.st := h.create (hC _) h1
      exact this
    | update i a b =>
      simp only [runIn] at ho
      split at ho
      · next hk =>
        simp only [Option.bind_eq_some_iff] at ho
        obtain ⟨o, h1, ho⟩ := ho
        exact ih (Used.updates.update h (hu _ _ _ _ hk) h1).1 ho
      · cases ho
    | delete i =>
      simp only [runIn, Option.bind_eq_some_iff] at ho
      obtain ⟨o, h1, ho⟩ := ho
      exact ih (Used.deletes.delete h h1) ho

section UnitedExamples
open Verif.Unit Verif.Unit.Props Verif.Deco.Props

def endsB (any : Nat) (a b : Nat) : Bool := (a == 0 && b == 0) || (a != 0 && a != any && b != 0 && b != any)

theorem endsB_ends {any a b : Nat} (h : endsB any a b = true) : Ends any a b := by
  simp only [endsB, Bool.or_eq_true, Bool.and_eq_true, beq_iff_eq, bne_iff_ne] at h
  rcases h with h | ⟨⟨⟨h1, h2⟩, h3⟩, h4⟩
  · exact .inl h
  · exact .inr ⟨h1, h2, h3, h4⟩

def existB (v : View) (a b : Nat) : Bool := (a == 0 && b == 0) || ((v a).isSome && (v b).isSome)

theorem existB_exist {v : View} {a b : Nat} (h : existB v a b = true) : EndsExist v a b := by
  simpa [existB, EndsExist, Option.isSome_iff_ne_none] using h

theorem sNet_ends : ∀ j a b, (links cfg0).view sNet j = some (a, b) → Ends cfg0.consts.any a b := fun _ _ _ hj =>
  endsB_ends (forall_of_collect (reachLawful cfg0_ok) sNet_reach
    (p := fun l => endsB cfg0.consts.any l.source l.target) (by decide +kernel) hj)

theorem sNet_whole : Whole ((links cfg0).view sNet) := fun _ _ _ hj =>
  existB_exist (forall_of_collect (reachLawful cfg0_ok) sNet_reach
    (p := fun l => existB ((links cfg0).view sNet) l.source l.target) (by decide +kernel) hj)

/-- Three decorators over `UniqueValidator`. -/
def stack3 : Links Store :=
  stack [.cascadeUniqueResolver, .nonNullDeletionResolver, .cascadeUsagesResolver] (uniqueValidator (links cfg0))

/-- A history through them: create 5 and make it (4,1); update 4 to (1,3), which is the doublet of 2, so that 4 is
merged into 2 and 5 becomes (2,1); delete 3, and with it its users 2 and 6. -/
def calls3 : List Call := [.create, .update 5 4 1, .update 4 1 3, .delete 3]

example : ∃ s, Used stack3 (fun _ => True) (fun _ _ a b => Ends cfg0.consts.any a b) sNet s ∧
    (List.range 7).map ((links cfg0).view s) = [none, some (1, 1), none, none, none, some (2, 1), none] ∧
    Reach cfg0 s ∧ ((links cfg0).view s).Uniq := by
  have h : (runIn stack3 (fun _ _ a b => endsB cfg0.consts.any a b) calls3 sNet).map (fun s =>
      (List.range 7).map ((links cfg0).view s)) = some [none, some (1, 1), none, none, none, some (2, 1), none] := by
    decide +kernel
  rw [Option.map_eq_some_iff] at h
  obtain ⟨s, h1, h2⟩ := h
  have hu := used_of_run (C := fun _ => True) (fun _ => trivial) (fun _ _ _ _ => endsB_ends) calls3 .start h1
  have := C84_unique_under_every_stack cfg0_ok _ sNet_reach sNet_uniq sNet_ends hu
  exact ⟨s, hu, h2, this.1, this.2.1⟩

/-- Three decorators over both validators. -/
def plain3 : Links Store :=
  stack [.uniqueValidator, .cascadeUsagesResolver, .nonNullDeletionResolver]
    (usagesValidator (uniqueValidator (links cfg0)))

/-- A history through them: create 5 and make it (4,1); the update of 4 and the deletion of 3 are refused; the deletion
of 4 deletes its user 5 first. -/
def callsPlain : List Call := [.create, .update 5 4 1, .update 4 1 3, .delete 3, .delete 4]

theorem plain3_both : BothValidators (links cfg0) (usagesValidator (uniqueValidator (links cfg0))) := .inl rfl

theorem plain3_none :
    NoUniqueResolver [.uniqueValidator, .cascadeUsagesResolver, .nonNullDeletionResolver] := by
  intro d hd; simp at hd; rcases hd with rfl | rfl | rfl <;> decide

example : ∃ s, Used plain3 (fun _ => True) (fun s _ a b => EndsExist ((links cfg0).view s) a b) sNet s ∧
    (List.range 7).map ((links cfg0).view s) =
      [none, some (1, 1), some (1, 3), some (2, 2), none, none, some (3, 2)] ∧
    Reach cfg0 s ∧ Whole ((links cfg0).view s) := by
  have h : (runIn plain3 (fun s _ a b => existB ((links cfg0).view s) a b) callsPlain sNet).map (fun s =>
      (List.range 7).map ((links cfg0).view s)) =
      some [none, some (1, 1), some (1, 3), some (2, 2), none, none, some (3, 2)] := by decide +kernel
  rw [Option.map_eq_some_iff] at h
  obtain ⟨s, h1, h2⟩ := h
  have hu := used_of_run (C := fun _ => True) (U := fun s _ a b => EndsExist ((links cfg0).view s) a b)
    (fun _ => trivial) (fun _ _ _ _ => existB_exist) callsPlain .start h1
  have := C84_no_dangling_under_plain_stacks cfg0_ok plain3_both plain3_none sNet_reach sNet_uniq sNet_whole hu
  exact ⟨s, hu, h2, this.1, this.2.2⟩

example := C84_default_writes cfg0_ok [.cascadeUniqueResolver, .nonNullDeletionResolver, .cascadeUsagesResolver]
  sNet_reach sNet_uniq sNet_ends .start (x := 3) (y := 1) (by decide) (by decide)

example := C84_default_writes_between_links cfg0_ok plain3_both plain3_none sNet_reach sNet_uniq sNet_whole .start
  (x := 3) (y := 1) (by decide +kernel) (by decide +kernel)

/-- These methods do return: `get_or_create(3, 1)` makes link 5, `rebase(6, 4)` finds no user of 6. -/
example : (plain3.getOrCreate sNet 3 1).map (fun o => (o.res.toOption, (links cfg0).view o.st 5)) =
      some (some 5, some (3, 1)) ∧
    (stack3.rebaseAndDelete sNet 6 4).map (fun o => (o.res.toOption.isSome, (links cfg0).view o.st 6)) =
      some (true, none) ∧
    (plain3.deleteAll sNet).isSome = true := by decide +kernel

example := C84_default_deletions (D' := plain3) (C := fun _ => True)
  (U := fun s _ a b => EndsExist ((links cfg0).view s) a b) (s0 := sNet) .start

/-- Both orders of the validators return, refuse and accept: an update to a doublet that exists of a link with users is
refused for different reasons. -/
example : ((usagesValidator (uniqueValidator (links cfg0))).update sNet 3 1 3).map (·.res.toOption) = some none ∧
    ((uniqueValidator (usagesValidator (links cfg0))).update sNet 3 1 3).map (·.res) =
      some (.error (.alreadyExists 1 3)) ∧
    ((usagesValidator (uniqueValidator (links cfg0))).update sNet 6 1 4).map (fun o => (links cfg0).view o.st 6) =
      some (some (1, 4)) ∧
    ((uniqueValidator (usagesValidator (links cfg0))).update sNet 6 1 4).map (fun o => (links cfg0).view o.st 6) =
      some (some (1, 4)) := by decide +kernel

/-! ## Where the guarantee ends -/

/-- **C84** does not extend to `CascadeUniqueResolver` for references: over both validators, an update of 2 to the
doublet (2,1) of its only user 3 merges 2 into 3, moves the user aside, deletes 2, and then gives 3 the ends (2,1) again.
All ends named a link, and no reference dangled before; after it 3 refers to 2, which names no link. -/
theorem C84_cascade_unique_resolver_dangles : ∃ s s' : Store, Reach cfg0 s ∧ ((links cfg0).view s).Uniq ∧
    Whole ((links cfg0).view s) ∧ EndsExist ((links cfg0).view s) 2 1 ∧
    ((cascadeUniqueResolver (usagesValidator (uniqueValidator (links cfg0)))).update s 2 2 1).map
      (fun o => (o.res.toOption.isSome, o.st)) = some (true, s') ∧
    (links cfg0).view s' 3 = some (2, 1) ∧ (links cfg0).view s' 2 = none := by
  have hr : Reach cfg0 (runs cfg0 [.create, .create, .create, .update 1 1 1, .update 3 2 1]) :=
    runs_reach (by decide +kernel)
  have h : ((cascadeUniqueResolver (usagesValidator (uniqueValidator (links cfg0)))).update
      (runs cfg0 [.create, .create, .create, .update 1 1 1, .update 3 2 1]) 2 2 1).map
      (fun o => (o.res.toOption.isSome, (links cfg0).view o.st 3, (links cfg0).view o.st 2)) =
      some (true, some (2, 1), none) := by decide +kernel
  rw [Option.map_eq_some_iff] at h
  obtain ⟨o, h1, h2⟩ := h
  simp only [Prod.mk.injEq] at h2
  refine ⟨_, o.st, hr, uniq_of_collect (reachLawful cfg0_ok) hr (by decide +kernel), fun _ _ _ hj =>
    existB_exist (forall_of_collect (reachLawful cfg0_ok) hr (p := fun l => existB
      ((links cfg0).view (runs cfg0 [.create, .create, .create, .update 1 1 1, .update 3 2 1])) l.source l.target)
      (by decide +kernel) hj), existB_exist (by decide +kernel), ?_, h2.2⟩
  rw [h1, Option.map_some, h2.1]

/-- **C84**, a refused update that changes the store: `UniqueResolver` over `UsagesValidator` deletes the link that is
updated before the validator refuses to touch the link it was to be replaced by. Here 4 is updated to (1,3), the doublet
of 2, which has users. -/
theorem C84_unique_resolver_over_usages_validator_deletes_and_fails :
    ((uniqueResolver (usagesValidator (links cfg0))).update sNet 4 1 3).map
      (fun o => (o.res, (links cfg0).view o.st 4)) =
        some (.error (.hasUsages [⟨3, 2, 2⟩, ⟨3, 2, 2⟩, ⟨6, 3, 2⟩]), none) ∧
    (links cfg0).view sNet 4 = some (0, 0) := by decide +kernel

end UnitedExamples

section SplitExamples
open Verif.Split Verif.Split.Props Verif.Deco.Props

def existInB (v : View) (i a b : Nat) : Bool :=
  existB v a b && ((a != i && b != i) || match v i with | none => true | some p => p.1 == 0)

theorem existInB_exist {v : View} {i a b : Nat} (h : existInB v i a b = true) : EndsExistIn v i a b := by
  simp only [existInB, Bool.and_eq_true, Bool.or_eq_true, bne_iff_ne] at h
  refine ⟨existB_exist h.1, fun e p hp => ?_⟩
  rcases h.2 with k | k
  · rcases e with e | e
    · exact absurd e k.1
    · exact absurd e k.2
  · rw [hp] at k; simpa using k

theorem sNetU_whole : Whole ((Split.links Split.cfg0).view sNetU) := fun _ _ _ hj =>
  existB_exist (forall_of_collect (Split.reachLawful Split.cfg0_ok) sNetU_reach
    (p := fun l => existB ((Split.links Split.cfg0).view sNetU) l.source l.target) (by decide +kernel) hj)

theorem splitPlain_both : BothValidators (Split.links Split.cfg0)
    (usagesValidator (uniqueValidator (Split.links Split.cfg0))) := .inl rfl

theorem splitPlain_none : NoUniqueResolver [.uniqueValidator, .cascadeUsagesResolver] := by
  intro d hd; simp at hd; rcases hd with rfl | rfl <;> decide

/-- Two decorators over both validators, on the split store. -/
def splitPlain : Links Split.Store :=
  stack [.uniqueValidator, .cascadeUsagesResolver] (usagesValidator (uniqueValidator (Split.links Split.cfg0)))

theorem split_grow (s : Split.Store) : GrowTogether Split.cfg0 s := fun _ => by simp [Split.cfg0]

example : ∃ s, Used splitPlain (GrowTogether Split.cfg0)
      (fun s i a b => EndsExistIn ((Split.links Split.cfg0).view s) i a b) sNetU s ∧
    (List.range 7).map ((Split.links Split.cfg0).view s) =
      [none, some (1, 1), some (1, 3), some (2, 2), none, none, some (3, 2)] ∧
    Split.Reach Split.cfg0 s ∧ Whole ((Split.links Split.cfg0).view s) := by
  have h : (runIn splitPlain (fun s i a b => existInB ((Split.links Split.cfg0).view s) i a b)
      [.create, .update 5 4 1, .update 4 1 3, .delete 3, .update 4 4 4, .delete 4] sNetU).map (fun s =>
      (List.range 7).map ((Split.links Split.cfg0).view s)) =
      some [none, some (1, 1), some (1, 3), some (2, 2), none, none, some (3, 2)] := by decide +kernel
  rw [Option.map_eq_some_iff] at h
  obtain ⟨s, h1, h2⟩ := h
  have hu := used_of_run (C := GrowTogether Split.cfg0)
    (U := fun s i a b => EndsExistIn ((Split.links Split.cfg0).view s) i a b)
    split_grow (fun _ _ _ _ => existInB_exist) _ .start h1
  have := C84_split_no_dangling_under_plain_stacks Split.cfg0_ok splitPlain_both splitPlain_none sNetU_reach sNetU_uniq
    sNetU_whole hu
  exact ⟨s, hu, h2, this.1, this.2.2⟩

example := C84_split_default_writes_between_links Split.cfg0_ok splitPlain_both splitPlain_none sNetU_reach sNetU_uniq
  sNetU_whole .start (split_grow _) (x := 3) (y := 1) (by decide +kernel) (by decide +kernel)

/-- **C84**, the split store: `NonNullDeletionResolver` over `UniqueValidator` cannot delete a null link when the
highest link is null and a lower one has been deleted: the resolver first updates the link to (0,0), and the search of
the validator for that doublet finds the highest link. On the united store the search never finds it (see
`united_search_null`). -/
theorem C84_split_null_link_cannot_be_deleted : ∃ s, Split.Reach Split.cfg0 s ∧
    (List.range 4).map ((Split.links Split.cfg0).view s) = [none, some (0, 0), none, some (0, 0)] ∧
    ((nonNullDeletionResolver (uniqueValidator (Split.links Split.cfg0))).delete s 3).map
      (fun o => (o.res, (Split.links Split.cfg0).view o.st 3)) = some (.error (.alreadyExists 0 0), some (0, 0)) ∧
    ((nonNullDeletionResolver (uniqueValidator (Split.links Split.cfg0))).delete s 1).map
      (fun o => (o.res, (Split.links Split.cfg0).view o.st 1)) = some (.error (.alreadyExists 0 0), some (0, 0)) :=
  ⟨Split.runs Split.cfg0 [.create, .create, .create, .delete 2], Split.runs_reach (by decide +kernel),
    by decide +kernel, by decide +kernel, by decide +kernel⟩

end SplitExamples

end Verif.Stacks.Props
