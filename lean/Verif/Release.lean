import Verif.Doublets
import Verif.TreeRead

/-!
# Builds without overflow checks

The models use the arithmetic of a build with overflow checks (`cadd`, `csub`): an overflow is a panic. Without the checks
(`cargo build --release`) the results wrap around. The definitions below repeat, with wrapping arithmetic, the functions of
`/repo` in which the index type is added or subtracted.
-/

namespace Verif

/-- `a + b` on the index type without overflow checks. -/
def wadd (maxT a b : Nat) : Nat := (a + b) % (maxT + 1)

/-- `a - b` on the index type without overflow checks. -/
def wsub (maxT a b : Nat) : Nat := if b ≤ a then a - b else a + (maxT + 1) - b

/-- If the first returns, so does the second, with the same result. -/
structure Agrees {α : Type} (x y : Option α) : Prop where
  same : ∀ r, x = some r → y = some r

namespace Agrees
variable {α β : Type}

theorem refl (x : Option α) : Agrees x x := ⟨fun _ h => h⟩

theorem of_eq {x y : Option α} (h : x = y) : Agrees x y := ⟨fun _ hr => h ▸ hr⟩

theorem eq {x y : Option α} (h : Agrees x y) (hx : x ≠ none) : y = x := by
  cases x with
  | none => exact absurd rfl hx
  | some r => exact h.same r rfl

theorem bind {x y : Option α} {f g : α → Option β} (h : Agrees x y) (hf : ∀ a, Agrees (f a) (g a)) :
    Agrees (x.bind f) (y.bind g) := by
  refine ⟨fun r hr => ?_⟩
  cases x with
  | none => cases hr
  | some a => rw [h.same a rfl]; exact (hf a).same r hr

theorem map {x y : Option α} (f : α → β) (h : Agrees x y) : Agrees (x.map f) (y.map f) := by
  refine ⟨fun r hr => ?_⟩
  cases x with
  | none => cases hr
  | some a => rw [h.same a rfl]; exact hr

theorem ite {p : Prop} [Decidable p] {x y x' y' : Option α} (h : p → Agrees x x') (h' : ¬ p → Agrees y y') :
    Agrees (if p then x else y) (if p then x' else y') := by
  by_cases hp : p
  · simpa only [if_pos hp] using h hp
  · simpa only [if_neg hp] using h' hp

theorem step {x : Option α} {a : α} {f : α → Option β} {y : Option β} (h : Agrees x (some a)) (hf : Agrees (f a) y) :
    Agrees (x.bind f) y := by
  refine ⟨fun r hr => ?_⟩
  cases x with
  | none => cases hr
  | some b => cases h.same b rfl; exact hf.same r hr

theorem none (y : Option α) : Agrees Option.none y := ⟨fun _ h => by cases h⟩

end Agrees

theorem cadd_agrees (maxT a b : Nat) : Agrees (cadd maxT a b) (some (wadd maxT a b)) := by
  refine ⟨fun r hr => ?_⟩
  unfold cadd at hr
  split at hr
  · cases hr; rw [wadd, Nat.mod_eq_of_lt (by omega)]
  · cases hr

theorem csub_agrees (maxT a b : Nat) : Agrees (csub a b) (some (wsub maxT a b)) := by
  refine ⟨fun r hr => ?_⟩
  unfold csub at hr
  split at hr
  · next h => cases hr; rw [wsub, if_pos h]
  · cases hr

/-! ## `count_usages` of the size balanced trees -/

section
variable (get : Nat → Option Node)

/-- First loop of `count_usages` (`sources_recursionless_size_balanced_tree.rs:134-143`), wrapping. -/
def countRightR (maxT : Nat) (base : Node → Nat) (link : Nat) : Nat → Nat → Nat → Option Nat
  | 0, _, _ => none
  | fuel + 1, root, acc =>
    if root = 0 then some acc
    else
      match get root with
      | none => none
      | some nd =>
        if base nd ≤ link then countRightR maxT base link fuel nd.right acc
        else
          match sizeOrZero get nd.right with
          | none => none
          | some rs => countRightR maxT base link fuel nd.left (wadd maxT acc (wadd maxT rs 1))

/-- Second loop of `count_usages` (`sources_recursionless_size_balanced_tree.rs:144-154`), wrapping. -/
def countLeftR (maxT : Nat) (base : Node → Nat) (link : Nat) : Nat → Nat → Nat → Option Nat
  | 0, _, _ => none
  | fuel + 1, root, acc =>
    if root = 0 then some acc
    else
      match get root with
      | none => none
      | some nd =>
        if link ≤ base nd then countLeftR maxT base link fuel nd.left acc
        else
          match sizeOrZero get nd.left with
          | none => none
          | some rs => countLeftR maxT base link fuel nd.right (wadd maxT acc (wadd maxT rs 1))

/-- `count_usages` (`sources_recursionless_size_balanced_tree.rs:130-157`), wrapping. -/
def countUsagesR (maxT : Nat) (base : Node → Nat) (fuel root link : Nat) : Option Nat :=
  (get root).bind fun nd =>
  (countRightR get maxT base link fuel root 0).bind fun right =>
  (countLeftR get maxT base link fuel root 0).map fun left =>
  wsub maxT (wsub maxT nd.size right) left

theorem countRight_agrees (maxT : Nat) (base : Node → Nat) (link : Nat) : ∀ fuel root acc,
    Agrees (countRight get maxT base link fuel root acc) (countRightR get maxT base link fuel root acc)
  | 0, _, _ => .none _
  | fuel + 1, root, acc => by
    unfold countRight countRightR
    refine .ite (fun _ => .refl _) fun _ => ?_
    cases get root with
    | none => exact .none _
    | some nd =>
      refine .ite (fun _ => countRight_agrees maxT base link fuel _ _) fun _ => ?_
      cases sizeOrZero get nd.right with
      | none => exact .none _
      | some rs =>
        show Agrees (match (cadd maxT rs 1).bind (cadd maxT acc) with | none => none | some acc' => _) _
        cases e : cadd maxT rs 1 with
        | none => exact .none _
        | some x =>
          rw [Option.bind_some]
          cases e' : cadd maxT acc x with
          | none => exact .none _
          | some y =>
            have h1 := (cadd_agrees maxT rs 1).same x e
            have h2 := (cadd_agrees maxT acc x).same y e'
            cases h1; cases h2
            exact countRight_agrees maxT base link fuel _ _

theorem countLeft_agrees (maxT : Nat) (base : Node → Nat) (link : Nat) : ∀ fuel root acc,
    Agrees (countLeft get maxT base link fuel root acc) (countLeftR get maxT base link fuel root acc)
  | 0, _, _ => .none _
  | fuel + 1, root, acc => by
    unfold countLeft countLeftR
    refine .ite (fun _ => .refl _) fun _ => ?_
    cases get root with
    | none => exact .none _
    | some nd =>
      refine .ite (fun _ => countLeft_agrees maxT base link fuel _ _) fun _ => ?_
      cases sizeOrZero get nd.left with
      | none => exact .none _
      | some rs =>
        show Agrees (match (cadd maxT rs 1).bind (cadd maxT acc) with | none => none | some acc' => _) _
        cases e : cadd maxT rs 1 with
        | none => exact .none _
        | some x =>
          rw [Option.bind_some]
          cases e' : cadd maxT acc x with
          | none => exact .none _
          | some y =>
            have h1 := (cadd_agrees maxT rs 1).same x e
            have h2 := (cadd_agrees maxT acc x).same y e'
            cases h1; cases h2
            exact countLeft_agrees maxT base link fuel _ _

theorem countUsages_agrees (maxT : Nat) (base : Node → Nat) (fuel root link : Nat) :
    Agrees (countUsages get maxT base fuel root link) (countUsagesR get maxT base fuel root link) := by
  unfold countUsages countUsagesR
  refine .bind (.refl _) fun nd => .bind (countRight_agrees ..) fun right => ⟨fun r hr => ?_⟩
  cases e : countLeft get maxT base link fuel root 0 with
  | none => rw [e] at hr; cases hr
  | some left =>
    rw [e] at hr
    rw [(countLeft_agrees get _ _ _ _ _ _).same _ e]
    simp only [Option.bind_some, Option.map_some] at hr ⊢
    cases e1 : csub nd.size right with
    | none => rw [e1] at hr; cases hr
    | some x =>
      rw [e1] at hr
      have h1 := (csub_agrees maxT _ _).same x e1
      have h2 := (csub_agrees maxT _ _).same r hr
      cases h1
      exact h2
end

/-! ## Stores -/

namespace Links
variable {S : Type}

/-- Whenever a required method of the first returns, the same method of the second returns the same: result, store and state of
the handler. -/
structure Agree (D E : Links S) : Prop where
  maxT : E.maxT = D.maxT
  consts : ∀ s, E.consts s = D.consts s
  count : ∀ s q, Agrees (D.countLinks s q) (E.countLinks s q)
  create : ∀ {σ : Type} s q (h : WH σ) st, Agrees (D.createLinks s q h st) (E.createLinks s q h st)
  each : ∀ {σ : Type} s q (h : RH σ) st, Agrees (D.eachLinks s q h st) (E.eachLinks s q h st)
  update : ∀ {σ : Type} s q ch (h : WH σ) st, Agrees (D.updateLinks s q ch h st) (E.updateLinks s q ch h st)
  delete : ∀ {σ : Type} s q (h : WH σ) st, Agrees (D.deleteLinks s q h st) (E.deleteLinks s q h st)
  get : ∀ s i, Agrees (D.getLink s i) (E.getLink s i)

/-- `count_usages` (`traits.rs:436-455`), wrapping. -/
def countUsagesOfR (D : Links S) (s : S) (i : Nat) : Option (Except Err Nat) :=
  let any := (D.consts s).any
  (D.tryGetLink s i).bind fun
    | .error e => some (.error e)
    | .ok l =>
      (D.countBy s [any, i, any]).bind fun us =>
      (D.countBy s [any, any, i]).map fun ut =>
      .ok (wadd D.maxT (if i = l.source then wsub D.maxT us 1 else us) (if i = l.target then wsub D.maxT ut 1 else ut))

/-- `usages` (`traits.rs:457-478`), wrapping: the count is a capacity hint. -/
def usagesR (D : Links S) (s : S) (i : Nat) : Option (Except Err (List Nat)) :=
  (D.countUsagesOfR s i).bind fun
    | .error e => some (.error e)
    | .ok _ => (D.usageList s i).map .ok

/-- `has_usages` (`traits.rs:492-498`), wrapping. -/
def hasUsagesR (D : Links S) (s : S) (i : Nat) : Option Bool :=
  (D.countUsagesOfR s i).map fun
    | .error _ => false
    | .ok n => n != 0

namespace Agree
variable {D E : Links S} {σ ρ : Type}

theorem createByWith (H : Agree D E) (s q) (h : Hd σ ρ) (st) : Agrees (D.createByWith s q h st) (E.createByWith s q h st) :=
  .map _ (H.create ..)

theorem createBy (H : Agree D E) (s q) : Agrees (D.createBy s q) (E.createBy s q) := .map _ (H.createByWith ..)

theorem eachBy (H : Agree D E) (s q) (h : σ → Link → Ctl ρ × σ) (st) : Agrees (D.eachBy s q h st) (E.eachBy s q h st) :=
  .map _ (H.each ..)

theorem updateByWith (H : Agree D E) (s q ch) (h : Hd σ ρ) (st) :
    Agrees (D.updateByWith s q ch h st) (E.updateByWith s q ch h st) := .map _ (H.update ..)

theorem updateBy (H : Agree D E) (s q ch) : Agrees (D.updateBy s q ch) (E.updateBy s q ch) := .map _ (H.updateByWith ..)

theorem deleteByWith (H : Agree D E) (s q) (h : Hd σ ρ) (st) : Agrees (D.deleteByWith s q h st) (E.deleteByWith s q h st) :=
  .map _ (H.delete ..)

theorem deleteBy (H : Agree D E) (s q) : Agrees (D.deleteBy s q) (E.deleteBy s q) := .map _ (H.deleteByWith ..)

theorem tryGetLink (H : Agree D E) (s i) : Agrees (D.tryGetLink s i) (E.tryGetLink s i) := .map _ (H.get ..)

theorem collect (H : Agree D E) (s q) : Agrees (D.collect s q) (E.collect s q) := .map _ (H.eachBy ..)

theorem eachIter (H : Agree D E) (s q) : Agrees (D.eachIter s q) (E.eachIter s q) :=
  .bind (H.count ..) fun _ => H.collect ..

theorem iter (H : Agree D E) (s) : Agrees (D.iter s) (E.iter s) := by
  unfold Links.iter; rw [H.consts]; exact H.eachIter ..

theorem deleteAllLoop (H : Agree D E) : ∀ fuel s n, Agrees (D.deleteAllLoop fuel s n) (E.deleteAllLoop fuel s n)
  | 0, _, _ => .none _
  | fuel + 1, s, n => by
    unfold Links.deleteAllLoop
    refine .ite (fun _ => .refl _) fun _ => ?_
    cases e : D.delete s n with
    | none => exact .none _
    | some o =>
      rw [show E.delete s n = some o from (H.deleteBy _ _).same _ e]
      obtain ⟨res, st, hs⟩ := o
      cases res with
      | error _ => exact .refl _
      | ok _ => exact .bind (H.count ..) fun _ => H.deleteAllLoop ..

theorem deleteAll (H : Agree D E) (s) : Agrees (D.deleteAll s) (E.deleteAll s) :=
  .bind (H.count ..) fun _ => H.deleteAllLoop ..

theorem deleteLoop (H : Agree D E) (h : Hd σ ρ) : ∀ l s f, Agrees (D.deleteLoop h l s f) (E.deleteLoop h l s f)
  | [], _, _ => .refl _
  | i :: l, s, f => by
    unfold Links.deleteLoop
    cases e : D.deleteWith s i (fuseCall h) f with
    | none => exact .none _
    | some o =>
      rw [show E.deleteWith s i (fuseCall h) f = some o from (H.deleteByWith _ _ _ _).same _ e]
      obtain ⟨res, st, hs⟩ := o
      cases res with
      | error _ => exact .refl _
      | ok _ => exact H.deleteLoop h l _ _

theorem deleteQueryWith (H : Agree D E) (s q) (h : Hd σ ρ) (st) :
    Agrees (D.deleteQueryWith s q h st) (E.deleteQueryWith s q h st) :=
  .bind (H.count ..) fun _ => .bind (H.collect ..) fun _ => .map _ (H.deleteLoop ..)

theorem usageList (H : Agree D E) (s i) : Agrees (D.usageList s i) (E.usageList s i) := by
  unfold Links.usageList; rw [H.consts]
  exact .bind (H.collect ..) fun _ => .map _ (H.collect ..)

theorem deleteUsagesWith (H : Agree D E) (s i) (h : Hd σ ρ) (st) :
    Agrees (D.deleteUsagesWith s i h st) (E.deleteUsagesWith s i h st) := by
  unfold Links.deleteUsagesWith; rw [H.consts]
  exact .bind (H.count ..) fun _ => .bind (H.count ..) fun _ => .bind (H.usageList ..) fun _ => .map _ (H.deleteLoop ..)

theorem createPoint (H : Agree D E) (s) : Agrees (D.createPoint s) (E.createPoint s) := by
  refine .bind (H.createBy ..) fun o => ?_
  obtain ⟨res, st, hs⟩ := o
  cases res with
  | error _ => exact .refl _
  | ok _ => exact H.updateBy ..

theorem createLinkWith (H : Agree D E) (s a b) (h : Hd σ ρ) (st) :
    Agrees (D.createLinkWith s a b h st) (E.createLinkWith s a b h st) := by
  refine .bind (H.createByWith ..) fun o => ?_
  obtain ⟨res, st, hs⟩ := o
  cases res with
  | error _ => exact .refl _
  | ok _ => exact .map _ (H.updateByWith ..)

theorem createLink (H : Agree D E) (s a b) : Agrees (D.createLink s a b) (E.createLink s a b) := .map _ (H.createLinkWith ..)

theorem found (H : Agree D E) (s q) : Agrees (D.found s q) (E.found s q) := .map _ (H.count ..)

theorem find (H : Agree D E) (s q) : Agrees (D.find s q) (E.find s q) := .map _ (H.eachBy ..)

theorem search (H : Agree D E) (s a b) : Agrees (D.search s a b) (E.search s a b) := by
  unfold Links.search; rw [H.consts]; exact .map _ (H.find ..)

theorem searchOr (H : Agree D E) (s a b d) : Agrees (D.searchOr s a b d) (E.searchOr s a b d) := .map _ (H.search ..)

theorem single (H : Agree D E) (s q) : Agrees (D.single s q) (E.single s q) := .map _ (H.eachBy ..)

theorem getOrCreate (H : Agree D E) (s a b) : Agrees (D.getOrCreate s a b) (E.getOrCreate s a b) := by
  refine .bind (H.search ..) fun r => ?_
  cases r with
  | some _ => exact .refl _
  | none => exact H.createLink ..

theorem countUsagesOf (H : Agree D E) (s i) : Agrees (D.countUsagesOf s i) (E.countUsagesOfR s i) := by
  unfold Links.countUsagesOf Links.countUsagesOfR; rw [H.consts]
  refine .bind (H.tryGetLink ..) fun r => ?_
  cases r with
  | error _ => exact .refl _
  | ok l =>
    refine .bind (H.count ..) fun us => ?_
    have sub : ∀ (p : Prop) [Decidable p] (n x : Nat), (if p then csub n 1 else some n) = some x →
        (if p then wsub E.maxT n 1 else n) = x := by
      intro p _ n x hx
      split at hx
      · next hp => rw [if_pos hp]; exact Option.some.inj ((csub_agrees E.maxT _ _).same _ hx)
      · next hp => rw [if_neg hp]; exact Option.some.inj hx
    refine ⟨fun r hr => ?_⟩
    cases e1 : (if i = l.source then csub us 1 else some us) with
    | none => rw [e1] at hr; cases hr
    | some x =>
      rw [e1, Option.bind_some] at hr
      cases e2 : D.countBy s [(D.consts s).any, (D.consts s).any, i] with
      | none => rw [e2] at hr; cases hr
      | some ut =>
        rw [e2, Option.bind_some] at hr
        rw [show E.countBy s [(D.consts s).any, (D.consts s).any, i] = some ut from (H.count _ _).same _ e2]
        cases e3 : (if i = l.target then csub ut 1 else some ut) with
        | none => rw [e3] at hr; cases hr
        | some y =>
          rw [e3, Option.bind_some] at hr
          cases e4 : cadd D.maxT x y with
          | none => rw [e4] at hr; cases hr
          | some z =>
            rw [e4] at hr
            have := Option.some.inj ((cadd_agrees D.maxT x y).same z e4)
            rw [Option.map_some, sub _ _ _ e1, sub _ _ _ e3, H.maxT, this]
            exact hr

theorem usages (H : Agree D E) (s i) : Agrees (D.usages s i) (E.usagesR s i) := by
  refine .bind (H.countUsagesOf ..) fun r => ?_
  cases r with
  | error _ => exact .refl _
  | ok _ => exact .map _ (H.usageList ..)

theorem hasUsages (H : Agree D E) (s i) : Agrees (D.hasUsages s i) (E.hasUsagesR s i) := .map _ (H.countUsagesOf ..)

theorem exist (H : Agree D E) (s i) : Agrees (D.exist s i) (E.exist s i) := by
  unfold Links.exist; rw [H.consts]
  exact .ite (fun _ => .refl _) fun _ => .ite (fun _ => .map _ (H.count ..)) fun _ => .refl _

theorem rebaseOne (H : Agree D E) (h : Hd σ ρ) (old new u s f) :
    Agrees (D.rebaseOne h old new u s f) (E.rebaseOne h old new u s f) := by
  refine .bind (.ite (fun _ => .map _ (H.updateByWith ..)) fun _ => .refl _) fun o => ?_
  obtain ⟨res, st, hs⟩ := o
  cases res with
  | error _ => exact .refl _
  | ok _ => exact .ite (fun _ => .map _ (H.updateByWith ..)) fun _ => .refl _

theorem rebaseLoop (H : Agree D E) (h : Hd σ ρ) (old new) : ∀ l s f,
    Agrees (D.rebaseLoop h old new l s f) (E.rebaseLoop h old new l s f)
  | [], _, _ => .refl _
  | u :: l, s, f => by
    unfold Links.rebaseLoop
    cases e : D.rebaseOne h old new u s f with
    | none => exact .none _
    | some o =>
      rw [(H.rebaseOne _ _ _ _ _ _).same _ e]
      obtain ⟨res, st, hs⟩ := o
      cases res with
      | error _ => exact .refl _
      | ok _ => exact H.rebaseLoop h old new l _ _

theorem rebaseWith (H : Agree D E) (s old new) (h : Hd σ ρ) (st) :
    Agrees (D.rebaseWith s old new h st) (E.rebaseWith s old new h st) := by
  unfold Links.rebaseWith; rw [H.consts]
  refine .bind (H.tryGetLink ..) fun r => ?_
  cases r with
  | error _ => exact .refl _
  | ok _ =>
    exact .ite (fun _ => .refl _) fun _ => .bind (H.eachIter ..) fun _ => .bind (H.eachIter ..) fun _ => .map _ (H.rebaseLoop ..)

theorem rebase (H : Agree D E) (s old new) : Agrees (D.rebase s old new) (E.rebase s old new) := .map _ (H.rebaseWith ..)

theorem rebaseAndDelete (H : Agree D E) (s old new) : Agrees (D.rebaseAndDelete s old new) (E.rebaseAndDelete s old new) := by
  refine .ite (fun _ => .refl _) fun _ => .bind (H.rebase ..) fun o => ?_
  obtain ⟨res, st, hs⟩ := o
  cases res with
  | error _ => exact .refl _
  | ok _ => exact H.deleteBy ..

end Agree
end Links

/-- A program of a client: what it calls next may depend on everything the calls before returned. -/
inductive Program (α : Type) : Type 1 where
  | done (a : α)
  | get (i : Nat) (next : Option Link → Program α)
  | count (q : List Nat) (next : Nat → Program α)
  | each {σ : Type} (q : List Nat) (h : RH σ) (st : σ) (next : Flow × σ → Program α)
  | create {σ : Type} (q : List Nat) (h : WH σ) (st : σ) (next : Except Err Flow × σ → Program α)
  | update {σ : Type} (q ch : List Nat) (h : WH σ) (st : σ) (next : Except Err Flow × σ → Program α)
  | delete {σ : Type} (q : List Nat) (h : WH σ) (st : σ) (next : Except Err Flow × σ → Program α)

/-- Running a client: what it computes and the store it leaves behind, if no call panics. -/
def Program.run {S α : Type} (D : Links S) : Program α → S → Option (α × S)
  | .done a, s => some (a, s)
  | .get i k, s => (D.getLink s i).bind fun r => (k r).run D s
  | .count q k, s => (D.countLinks s q).bind fun r => (k r).run D s
  | .each q h st k, s => (D.eachLinks s q h st).bind fun r => (k r).run D s
  | .create q h st k, s => (D.createLinks s q h st).bind fun o => (k (o.res, o.hs)).run D o.st
  | .update q ch h st k, s => (D.updateLinks s q ch h st).bind fun o => (k (o.res, o.hs)).run D o.st
  | .delete q h st k, s => (D.deleteLinks s q h st).bind fun o => (k (o.res, o.hs)).run D o.st

theorem Program.agrees {S α : Type} {D E : Links S} (H : D.Agree E) : ∀ (p : Program α) (s : S), Agrees (p.run D s) (p.run E s)
  | .done _, _ => .refl _
  | .get _ k, _ => .bind (H.get ..) fun r => Program.agrees H (k r) _
  | .count _ k, _ => .bind (H.count ..) fun r => Program.agrees H (k r) _
  | .each _ _ _ k, _ => .bind (H.each ..) fun r => Program.agrees H (k r) _
  | .create _ _ _ k, _ => .bind (H.create ..) fun o => Program.agrees H (k (o.res, o.hs)) _
  | .update _ _ _ _ k, _ => .bind (H.update ..) fun o => Program.agrees H (k (o.res, o.hs)) _
  | .delete _ _ _ k, _ => .bind (H.delete ..) fun o => Program.agrees H (k (o.res, o.hs)) _

end Verif
