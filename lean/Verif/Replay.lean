import Verif.DerivedLaws
import Verif.Decorators

/-!
# The changes a write reports, as a log

Vocabulary of C79 and the rules that carry it through the default methods and the decorators.
-/

namespace Verif
open Verif Links

/-- A change as reported to a write handler: the link before and after. -/
abbrev Change := Link × Link

/-- The contents after a reported change: nothing afterwards is a deletion, anything else replaces the pair of the link. -/
def View.change (v : View) (e : Change) : View :=
  if e.2 = Link.nothing then v.del e.1.index else v.set e.2.index (e.2.source, e.2.target)

/-- The contents after a list of reported changes. -/
def View.replay (v : View) (es : List Change) : View := es.foldl View.change v

/-- A handler that writes down the changes it is told. Its answer may depend on all of them. -/
def recorder {ρ : Type} (answer : List Change → Ctl ρ) : Hd (List Change) ρ := fun es b a =>
  (answer (es ++ [(b, a)]), es ++ [(b, a)])

open Classical in
/-- The store `D`, with two additions: a list of its states after each write so far; and writes that the contract `W` does not
support (on a link with a twin, or not supported by the store) fail as if they panicked. -/
noncomputable def watched {S : Type} {D : Links S} (W : Lawful D) : Links (S × List S) where
  maxT := D.maxT
  consts p := D.consts p.1
  countLinks p q := D.countLinks p.1 q
  eachLinks p q h st := D.eachLinks p.1 q h st
  getLink p i := D.getLink p.1 i
  createLinks p q h st :=
    if W.CanCreate p.1 then
      (D.createLinks p.1 q h st).map fun o => ⟨o.res, (o.st, match o.res with | .ok _ => p.2 ++ [o.st] | .error _ => p.2), o.hs⟩
    else none
  updateLinks p q ch h st :=
    if ∃ i x a b, q = [i] ∧ ch = [x, a, b] ∧
        (D.view p.1 i ≠ none → (D.view p.1).NoTwin i ∧ W.CanUpdate (D.view p.1) i a b) then
      (D.updateLinks p.1 q ch h st).map fun o => ⟨o.res, (o.st, match o.res with | .ok _ => p.2 ++ [o.st] | .error _ => p.2), o.hs⟩
    else none
  deleteLinks p q h st :=
    if ∃ i, q = [i] ∧ (D.view p.1 i ≠ none → (D.view p.1).NoTwin i ∧ W.CanDelete (D.view p.1) i) then
      (D.deleteLinks p.1 q h st).map fun o => ⟨o.res, (o.st, match o.res with | .ok _ => p.2 ++ [o.st] | .error _ => p.2), o.hs⟩
    else none

/-- The decorators of `doublets-decorators` (`doublets-decorators/src/lib.rs:4-9`). -/
inductive Deco where
  | uniqueValidator
  | uniqueResolver
  | cascadeUniqueResolver
  | usagesValidator
  | cascadeUsagesResolver
  | nonNullDeletionResolver
deriving DecidableEq

/-- A store wrapped in a decorator. -/
def Deco.wrap {S : Type} : Deco → Links S → Links S
  | .uniqueValidator => Verif.uniqueValidator
  | .uniqueResolver => Verif.uniqueResolver
  | .cascadeUniqueResolver => Verif.cascadeUniqueResolver
  | .usagesValidator => Verif.usagesValidator
  | .cascadeUsagesResolver => Verif.cascadeUsagesResolver
  | .nonNullDeletionResolver => Verif.nonNullDeletionResolver

/-- A store wrapped in several decorators, the first one outermost. -/
def stack {S : Type} (ds : List Deco) (D : Links S) : Links S := ds.foldr Deco.wrap D

/-- The methods that take a write handler. -/
inductive Job where
  | create
  | update (i a b : Nat)
  | delete (i : Nat)
  | createLink (a b : Nat)
  | deleteQuery (q : List Nat)
  | deleteUsages (i : Nat)
  | rebase (old new : Nat)

/-- The outcome without its value. -/
def Out.unit {S σ α : Type} (o : Out S σ α) : Out S σ _root_.Unit := ⟨o.res.map fun _ => (), o.st, o.hs⟩

/-- `create_with`, `update_with`, `delete_with`, `create_link_with`, `delete_query_with`, `delete_usages_with`, `rebase_with`
(`traits.rs:90-97,176-189,236-243,344-359,271-295,297-327,500-531`). -/
def Links.perform {S σ ρ : Type} (D : Links S) (s : S) (h : Hd σ ρ) (st : σ) : Job → Option (Out S σ _root_.Unit)
  | .create => (D.createWith s h st).map Out.unit
  | .update i a b => (D.updateWith s i a b h st).map Out.unit
  | .delete i => (D.deleteWith s i h st).map Out.unit
  | .createLink a b => (D.createLinkWith s a b h st).map Out.unit
  | .deleteQuery q => D.deleteQueryWith s q h st
  | .deleteUsages i => D.deleteUsagesWith s i h st
  | .rebase old new => D.rebaseWith s old new h st

/-! ## Rules -/

/-- Steps, one per reported change. -/
inductive Run {S : Type} (step : S → Change → S → Prop) : S → List Change → S → Prop
  | nil (s : S) : Run step s [] s
  | cons {s s' s'' : S} {e : Change} {es : List Change} : step s e s' → Run step s' es s'' → Run step s (e :: es) s''

theorem Run.append {S : Type} {step : S → Change → S → Prop} {s s' s'' : S} {es fs : List Change} (h : Run step s es s')
    (g : Run step s' fs s'') : Run step s (es ++ fs) s'' := by
  induction h with
  | nil => exact g
  | cons h1 _ ih => exact .cons h1 (ih g)

theorem callAll_append {σ ρ : Type} (h : Hd σ ρ) (es fs : List Change) (st : σ) :
    callAll h (es ++ fs) st = callAll h fs (callAll h es st) := by
  simp [callAll]

theorem callAll_fuse {σ ρ : Type} (h : Hd σ ρ) : ∀ (es : List Change) (st : σ),
    callAll (fuseCall h) es ⟨st, false⟩ = ⟨callAll h es st, false⟩ := by
  intro es
  induction es with
  | nil => intro st; rfl
  | cons e es ih =>
    intro st
    show callAll (fuseCall h) es (fuseCall h ⟨st, false⟩ e.1 e.2).2 = _
    rw [fuseCall_eq]
    exact ih _

theorem callAll_wrap {σ ρ : Type} (h : Hd σ ρ) : ∀ (es : List Change) (p : σ × Ctl ρ),
    (callAll (wrapW h) es p).1 = callAll h es p.1 := by
  intro es
  induction es with
  | nil => intro p; rfl
  | cons e es ih =>
    intro p
    show (callAll (wrapW h) es (wrapW h p e.1 e.2).2).1 = callAll h es (h p.1 e.1 e.2).2
    rw [ih]
    unfold wrapW
    rcases h p.1 e.1 e.2 with ⟨_ | _, _⟩ <;> rfl

theorem callAll_link {σ ρ : Type} (h : Hd σ ρ) : ∀ (es : List Change) (n : Nat) (st : σ),
    (callAll (createLinkH h) es (n, ⟨st, false⟩)).2 = ⟨callAll h es st, false⟩ := by
  intro es
  induction es with
  | nil => intro n st; rfl
  | cons e es ih =>
    intro n st
    show (callAll (createLinkH h) es (e.2.index, (fuseCall h ⟨st, false⟩ e.1 e.2).2)).2 = _
    rw [fuseCall_eq]
    exact ih _ _

theorem callAll_recorder {ρ : Type} (answer : List Change → Ctl ρ) : ∀ (es fs : List Change),
    callAll (recorder answer) es fs = fs ++ es := by
  intro es
  induction es with
  | nil => intro fs; simp [callAll]
  | cons e es ih =>
    intro fs
    show callAll (recorder answer) es (fs ++ [(e.1, e.2)]) = _
    rw [ih]; simp

section
variable {S S' : Type} {step : S' → Change → S' → Prop} {J : S' → Prop} {π : S' → S}

/-- If the state is legal and the call on the watched store returns then the call on the store returns the same, and the handler was called with the changes
of a run from the first to the last state, which is legal. -/
def Tells (step : S' → Change → S' → Prop) (J : S' → Prop) (π : S' → S) {σ ρ α : Type} (s : S') (h : Hd σ ρ) (st : σ)
    (x' : Option (Out S' σ α)) (x : Option (Out S σ α)) : Prop :=
  J s → ∀ o, x' = some o →
    x = some ⟨o.res, π o.st, o.hs⟩ ∧ J o.st ∧ ∃ es, o.hs = callAll h es st ∧ Run step s es o.st

/-- Two stores that answer alike, one of which is watched. -/
structure Watch (step : S' → Change → S' → Prop) (J : S' → Prop) (π : S' → S) (D' : Links S') (D : Links S) : Prop where
  maxT : D'.maxT = D.maxT
  consts : ∀ s, D'.consts s = D.consts (π s)
  count : ∀ s q, D'.countLinks s q = D.countLinks (π s) q
  each : ∀ {σ : Type} s q (h : RH σ) st, D'.eachLinks s q h st = D.eachLinks (π s) q h st
  get : ∀ s i, D'.getLink s i = D.getLink (π s) i
  create : ∀ {σ : Type} s q (h : WH σ) st, Tells step J π s h st (D'.createLinks s q h st) (D.createLinks (π s) q h st)
  update : ∀ {σ : Type} s q ch (h : WH σ) st,
    Tells step J π s h st (D'.updateLinks s q ch h st) (D.updateLinks (π s) q ch h st)
  delete : ∀ {σ : Type} s q (h : WH σ) st, Tells step J π s h st (D'.deleteLinks s q h st) (D.deleteLinks (π s) q h st)

variable {σ ρ α : Type} {s : S'} {h : Hd σ ρ} {st : σ}

theorem Tells.none {x : Option (Out S σ α)} : Tells step J π s h st none x := fun _ _ h => nomatch h

theorem Tells.done {r : Except Err α} {t : S} (ht : t = π s) :
    Tells step J π s h st (some ⟨r, s, st⟩) (some ⟨r, t, st⟩) := by
  intro hJ o ho
  cases ho
  exact ⟨by rw [ht], hJ, [], rfl, .nil _⟩

theorem Tells.map {x' : Option (Out S' σ α)} {x : Option (Out S σ α)} (hx : Tells step J π s h st x' x)
    {σ2 ρ2 β : Type} {h2 : Hd σ2 ρ2} {st2 : σ2} {f' : Out S' σ α → Out S' σ2 β} {f : Out S σ α → Out S σ2 β}
    (hf : ∀ o, f ⟨o.res, π o.st, o.hs⟩ = ⟨(f' o).res, π (f' o).st, (f' o).hs⟩)
    (hst : ∀ o, (f' o).st = o.st) (hhs : ∀ o es, o.hs = callAll h es st → (f' o).hs = callAll h2 es st2) :
    Tells step J π s h2 st2 (x'.map f') (x.map f) := by
  intro hJ o ho
  cases hx' : x' with
  | none => rw [hx'] at ho; cases ho
  | some o1 =>
    rw [hx'] at ho
    cases ho
    obtain ⟨h1, hJ1, es, h2, h3⟩ := hx hJ o1 hx'
    rw [h1]
    exact ⟨by simp [hf], by rw [hst]; exact hJ1, es, hhs _ _ h2, by rw [hst]; exact h3⟩

theorem Tells.bind {x' : Option (Out S' σ α)} {x : Option (Out S σ α)} (hx : Tells step J π s h st x' x) {β : Type}
    {k' : Out S' σ α → Option (Out S' σ β)} {k : Out S σ α → Option (Out S σ β)}
    (hk : ∀ o, (∃ es, o.hs = callAll h es st) → Tells step J π o.st h o.hs (k' o) (k ⟨o.res, π o.st, o.hs⟩)) :
    Tells step J π s h st (x'.bind k') (x.bind k) := by
  intro hJ o ho
  cases hx' : x' with
  | none => rw [hx'] at ho; cases ho
  | some o1 =>
    rw [hx', Option.bind_some] at ho
    obtain ⟨h1, hJ1, es, h2, h3⟩ := hx hJ o1 hx'
    obtain ⟨g1, hJ2, fs, g2, g3⟩ := hk o1 ⟨es, h2⟩ hJ1 o ho
    refine ⟨by rw [h1, Option.bind_some, g1], hJ2, es ++ fs, by rw [callAll_append, ← h2, g2], h3.append g3⟩

/-- A read before. -/
theorem Tells.read {β : Type} {r' r : Option β} (hr : r' = r) {k' : β → Option (Out S' σ α)} {k : β → Option (Out S σ α)}
    (hk : ∀ b, Tells step J π s h st (k' b) (k b)) : Tells step J π s h st (r'.bind k') (r.bind k) := by
  subst hr
  cases r' with
  | none => exact .none
  | some b => exact hk b

theorem Tells.ite {p : Prop} [Decidable p] {x' y' : Option (Out S' σ α)} {x y : Option (Out S σ α)}
    (h1 : Tells step J π s h st x' x) (h2 : Tells step J π s h st y' y) :
    Tells step J π s h st (if p then x' else y') (if p then x else y) := by
  split
  · exact h1
  · exact h2

end

namespace Watch
variable {S S' : Type} {step : S' → Change → S' → Prop} {J : S' → Prop} {π : S' → S} {D' : Links S'} {D : Links S}

variable (w : Watch step J π D' D) {σ ρ : Type} (s : S')
include w

theorem wrap {s : S'} {h : Hd σ ρ} {st : σ} {x' : Option (Out S' (σ × Ctl ρ) Flow)} {x : Option (Out S (σ × Ctl ρ) Flow)}
    (hx : Tells step J π s (wrapW h) (st, .cont) x' x) : Tells step J π s h st (x'.map unwrapW) (x.map unwrapW) :=
  hx.map (fun _ => rfl) (fun _ => rfl) fun o es he => by
    show o.hs.1 = _
    rw [he, callAll_wrap]

theorem createByWith (q : List Nat) (h : Hd σ ρ) (st : σ) :
    Tells step J π s h st (D'.createByWith s q h st) (D.createByWith (π s) q h st) := w.wrap (w.create s q _ _)

theorem updateByWith (q ch : List Nat) (h : Hd σ ρ) (st : σ) :
    Tells step J π s h st (D'.updateByWith s q ch h st) (D.updateByWith (π s) q ch h st) := w.wrap (w.update s q ch _ _)

theorem deleteByWith (q : List Nat) (h : Hd σ ρ) (st : σ) :
    Tells step J π s h st (D'.deleteByWith s q h st) (D.deleteByWith (π s) q h st) := w.wrap (w.delete s q _ _)

theorem updateWith (i a b : Nat) (h : Hd σ ρ) (st : σ) :
    Tells step J π s h st (D'.updateWith s i a b h st) (D.updateWith (π s) i a b h st) := w.updateByWith s _ _ h st

theorem deleteWith (i : Nat) (h : Hd σ ρ) (st : σ) :
    Tells step J π s h st (D'.deleteWith s i h st) (D.deleteWith (π s) i h st) := w.deleteByWith s _ h st

theorem eachBy (q : List Nat) (h : σ → Link → Ctl ρ × σ) (st : σ) : D'.eachBy s q h st = D.eachBy (π s) q h st := by
  simp only [Links.eachBy, w.each]

theorem collect (q : List Nat) : D'.collect s q = D.collect (π s) q := by
  simp only [Links.collect, w.eachBy]

theorem countBy (q : List Nat) : D'.countBy s q = D.countBy (π s) q := w.count s q

theorem eachIter (q : List Nat) : D'.eachIter s q = D.eachIter (π s) q := by
  simp only [Links.eachIter, w.countBy, w.collect]

theorem tryGetLink (i : Nat) : D'.tryGetLink s i = D.tryGetLink (π s) i := by
  simp only [Links.tryGetLink, w.get]

theorem search (a b : Nat) : D'.search s a b = D.search (π s) a b := by
  simp only [Links.search, Links.find, w.eachBy, w.consts]

theorem found (q : List Nat) : D'.found s q = D.found (π s) q := by
  simp only [Links.found, w.countBy]

theorem usageList (i : Nat) : D'.usageList s i = D.usageList (π s) i := by
  simp only [Links.usageList, w.collect, w.consts]

theorem countUsagesOf (i : Nat) : D'.countUsagesOf s i = D.countUsagesOf (π s) i := by
  simp only [Links.countUsagesOf, w.countBy, w.consts, w.tryGetLink, w.maxT]

theorem usages (i : Nat) : D'.usages s i = D.usages (π s) i := by
  simp only [Links.usages, w.countUsagesOf, w.usageList]

theorem deleteLoop (h : Hd σ ρ) : ∀ (is : List Nat) (s : S') (st : σ),
    Tells step J π s (fuseCall h) ⟨st, false⟩ (D'.deleteLoop h is s ⟨st, false⟩) (D.deleteLoop h is (π s) ⟨st, false⟩) := by
  intro is
  induction is with
  | nil => intro s st; exact .done rfl
  | cons i is ih =>
    intro s st
    have e : ∀ {T : Type} (D : Links T) (s : T) (f : FuseSt σ), D.deleteLoop h (i :: is) s f =
        (D.deleteWith s i (fuseCall h) f).bind fun o => match o.res with
          | .error e => some ⟨.error e, o.st, o.hs⟩
          | .ok _ => D.deleteLoop h is o.st o.hs := by
      intro T D s f
      simp only [Links.deleteLoop]
      cases D.deleteWith s i (fuseCall h) f <;> rfl
    rw [e, e]
    have hd := w.deleteWith s i (fuseCall h) ⟨st, false⟩
    refine hd.bind fun o ho => ?_
    obtain ⟨es, he⟩ := ho
    rw [callAll_fuse] at he
    rcases o with ⟨r, t, f⟩
    simp only at he
    subst he
    cases r with
    | error e => exact .done rfl
    | ok _ => exact ih t _

theorem createWith (h : Hd σ ρ) (st : σ) : Tells step J π s h st (D'.createWith s h st) (D.createWith (π s) h st) :=
  w.createByWith s _ h st

/-- Undo the fuse. -/
theorem unfuse {s : S'} {h : Hd σ ρ} {st : σ} {α β : Type} {g : Except Err α → Except Err β} {x' : Option (Out S' (FuseSt σ) α)}
    {x : Option (Out S (FuseSt σ) α)} (hx : Tells step J π s (fuseCall h) ⟨st, false⟩ x' x) :
    Tells step J π s h st (x'.map fun o => ⟨g o.res, o.st, o.hs.inner⟩) (x.map fun o => ⟨g o.res, o.st, o.hs.inner⟩) :=
  hx.map (fun _ => rfl) (fun _ => rfl) fun o es he => by
    show o.hs.inner = _
    rw [he, callAll_fuse]

theorem deleteQueryWith (q : List Nat) (h : Hd σ ρ) (st : σ) :
    Tells step J π s h st (D'.deleteQueryWith s q h st) (D.deleteQueryWith (π s) q h st) :=
  .read (w.countBy s q) fun _ => .read (w.collect s q) fun _ => w.unfuse (g := fun r => r) (w.deleteLoop h _ s st)

theorem deleteUsagesWith (i : Nat) (h : Hd σ ρ) (st : σ) :
    Tells step J π s h st (D'.deleteUsagesWith s i h st) (D.deleteUsagesWith (π s) i h st) := by
  simp only [Links.deleteUsagesWith]
  rw [w.consts]
  exact .read (w.countBy s _) fun _ => .read (w.countBy s _) fun _ => .read (w.usageList s i) fun _ =>
    w.unfuse (g := fun r => r) (w.deleteLoop h _ s st)

theorem createLinkWith (a b : Nat) (h : Hd σ ρ) (st : σ) :
    Tells step J π s h st (D'.createLinkWith s a b h st) (D.createLinkWith (π s) a b h st) := by
  have hc := w.createWith s (createLinkH h) (0, ⟨st, false⟩)
  intro hJ o ho
  simp only [Links.createLinkWith] at ho ⊢
  cases hx : D'.createWith s (createLinkH h) (0, ⟨st, false⟩) with
  | none => rw [hx] at ho; cases ho
  | some o1 =>
    rw [hx, Option.bind_some] at ho
    obtain ⟨h1, hJ1, es, h2, h3⟩ := hc hJ o1 hx
    rw [h1, Option.bind_some]
    have hf : o1.hs.2 = ⟨callAll h es st, false⟩ := by rw [h2, callAll_link]
    rcases o1 with ⟨r, t, n, f⟩
    simp only at hf ho h3 hJ1 ⊢
    subst hf
    cases r with
    | error e =>
      cases ho
      exact ⟨rfl, hJ1, es, rfl, h3⟩
    | ok _ =>
      obtain ⟨g1, hJ2, fs, g2, g3⟩ :=
        w.unfuse (g := fun r => r) (w.updateWith t n a b (fuseCall h) ⟨callAll h es st, false⟩) hJ1 o ho
      exact ⟨g1, hJ2, es ++ fs, by rw [callAll_append, g2], h3.append g3⟩

theorem rebaseOne (h : Hd σ ρ) (old new : Nat) (u : Link) (st : σ) :
    Tells step J π s (fuseCall h) ⟨st, false⟩ (D'.rebaseOne h old new u s ⟨st, false⟩)
      (D.rebaseOne h old new u (π s) ⟨st, false⟩) := by
  have hup : ∀ (t : S') (f : FuseSt σ) (a b : Nat), Tells step J π t (fuseCall h) f
      ((D'.updateWith t u.index a b (fuseCall h) f).map fun o =>
        (⟨o.res.map fun _ => (), o.st, o.hs⟩ : Out S' (FuseSt σ) _root_.Unit))
      ((D.updateWith (π t) u.index a b (fuseCall h) f).map fun o =>
        (⟨o.res.map fun _ => (), o.st, o.hs⟩ : Out S (FuseSt σ) _root_.Unit)) := fun t f a b =>
    (w.updateWith t u.index a b (fuseCall h) f).map (fun _ => rfl) (fun _ => rfl) fun _ _ he => he
  unfold Links.rebaseOne
  refine Tells.bind (.ite (hup _ _ _ _) (.done rfl)) fun o ho => ?_
  rcases o with ⟨r, t, f⟩
  cases r with
  | error e => exact .done rfl
  | ok _ =>
    simp only
    exact .ite (hup _ _ _ _) (.done rfl)

theorem rebaseLoop (h : Hd σ ρ) (old new : Nat) : ∀ (us : List Link) (s : S') (st : σ),
    Tells step J π s (fuseCall h) ⟨st, false⟩ (D'.rebaseLoop h old new us s ⟨st, false⟩)
      (D.rebaseLoop h old new us (π s) ⟨st, false⟩) := by
  intro us
  induction us with
  | nil => intro s st; exact .done rfl
  | cons u us ih =>
    intro s st
    have e : ∀ {T : Type} (D : Links T) (s : T) (f : FuseSt σ), D.rebaseLoop h old new (u :: us) s f =
        (D.rebaseOne h old new u s f).bind fun o => match o.res with
          | .error e => some ⟨.error e, o.st, o.hs⟩
          | .ok _ => D.rebaseLoop h old new us o.st o.hs := by
      intro T D s f
      simp only [Links.rebaseLoop]
      cases D.rebaseOne h old new u s f <;> rfl
    rw [e, e]
    have hd := w.rebaseOne s h old new u st
    refine hd.bind fun o ho => ?_
    obtain ⟨es, he⟩ := ho
    rw [callAll_fuse] at he
    rcases o with ⟨r, t, f⟩
    simp only at he
    subst he
    cases r with
    | error e => exact .done rfl
    | ok _ => exact ih t _

theorem rebaseWith (old new : Nat) (h : Hd σ ρ) (st : σ) :
    Tells step J π s h st (D'.rebaseWith s old new h st) (D.rebaseWith (π s) old new h st) := by
  simp only [Links.rebaseWith]
  rw [w.consts]
  refine .read (w.tryGetLink s old) fun r => ?_
  cases r with
  | error e => exact .done rfl
  | ok _ =>
    exact .ite (.done rfl) (.read (w.eachIter s _) fun _ => .read (w.eachIter s _) fun _ =>
      w.unfuse (g := fun r => r) (w.rebaseLoop h old new _ s st))

/-- Every method that takes a write handler. -/
theorem perform (h : Hd σ ρ) (st : σ) (j : Job) :
    Tells step J π s h st (D'.perform s h st j) (D.perform (π s) h st j) := by
  have hun : ∀ {α : Type} {x' : Option (Out S' σ α)} {x : Option (Out S σ α)}, Tells step J π s h st x' x →
      Tells step J π s h st (x'.map Out.unit) (x.map Out.unit) := fun hx =>
    hx.map (fun _ => rfl) (fun _ => rfl) fun _ _ he => he
  cases j with
  | create => exact hun (w.createWith s h st)
  | update i a b => exact hun (w.updateWith s i a b h st)
  | delete i => exact hun (w.deleteWith s i h st)
  | createLink a b => exact hun (w.createLinkWith s a b h st)
  | deleteQuery q => exact w.deleteQueryWith s q h st
  | deleteUsages i => exact w.deleteUsagesWith s i h st
  | rebase old new => exact w.rebaseWith s old new h st

/-! ### Decorators -/

theorem uniqueValidator : Watch step J π (uniqueValidator D') (uniqueValidator D) :=
  { w with
    update := fun s q ch h st => by
      simp only [Verif.uniqueValidator]
      cases ch[1]? with
      | none => exact .none
      | some a =>
        cases ch[2]? with
        | none => exact .none
        | some b =>
          simp only
          rw [w.consts]
          exact .read (w.found s _) fun f => .ite (.done rfl) (w.updateByWith s q ch h st) }

theorem uniqueResolver : Watch step J π (uniqueResolver D') (uniqueResolver D) :=
  { w with
    update := fun s q ch h st => by
      simp only [Verif.uniqueResolver]
      cases q[0]? with
      | none => exact .none
      | some i =>
        cases ch[1]? with
        | none => exact .none
        | some a =>
          cases ch[2]? with
          | none => exact .none
          | some b =>
            refine .read (w.search s a b) fun r => ?_
            cases r with
            | none => exact w.updateWith s i a b h st
            | some old =>
              refine (w.deleteWith s i h st).bind fun o _ => ?_
              rcases o with ⟨r, t, f⟩
              cases r with
              | error e => exact .done rfl
              | ok _ => exact w.updateWith t old a b h f }

theorem cascadeUniqueResolver : Watch step J π (cascadeUniqueResolver D') (cascadeUniqueResolver D) :=
  { w with
    update := fun s q ch h st => by
      simp only [Verif.cascadeUniqueResolver]
      cases q[0]? with
      | none => exact .none
      | some i =>
        cases ch[1]? with
        | none => exact .none
        | some a =>
          cases ch[2]? with
          | none => exact .none
          | some b =>
            refine .read (w.search s a b) fun r => ?_
            cases r with
            | none => exact w.updateWith s i a b h st
            | some old =>
              refine (w.rebaseWith s i old h st).bind fun o _ => ?_
              rcases o with ⟨r, t, f⟩
              cases r with
              | error e => exact .done rfl
              | ok _ =>
                refine (w.deleteWith t i h f).bind fun o _ => ?_
                rcases o with ⟨r, t, f⟩
                cases r with
                | error e => exact .done rfl
                | ok _ => exact w.updateWith t old a b h f }

theorem tryGetLinks : ∀ is, tryGetLinks D' s is = tryGetLinks D (π s) is := by
  intro is
  induction is with
  | nil => rfl
  | cons i is ih => simp only [Verif.tryGetLinks, w.tryGetLink, ih]

theorem checkUsages {σ : Type} (q : List Nat) (h : WH σ) (st : σ) {x' : Option (Out S' σ Flow)} {x : Option (Out S σ Flow)}
    (hx : Tells step J π s h st x' x) : Tells step J π s h st (checkUsages D' s q st x') (checkUsages D (π s) q st x) := by
  unfold Verif.checkUsages
  rw [w.consts]
  cases q[(D.consts (π s)).indexPart]? with
  | none => exact .none
  | some i =>
    refine .read (w.usages s i) fun r => ?_
    cases r with
    | error e => exact .done rfl
    | ok us =>
      refine .ite hx ?_
      rw [w.tryGetLinks s us]
      cases Verif.tryGetLinks D (π s) us with
      | none => exact .none
      | some r => cases r <;> exact .done rfl

theorem usagesValidator : Watch step J π (usagesValidator D') (usagesValidator D) :=
  { w with
    update := fun s q ch h st => w.checkUsages s q h st (w.updateByWith s q ch h st)
    delete := fun s q h st => w.checkUsages s q h st (w.deleteByWith s q h st) }

theorem cascadeUsagesResolver : Watch step J π (cascadeUsagesResolver D') (cascadeUsagesResolver D) :=
  { w with
    delete := fun s q h st => by
      simp only [Verif.cascadeUsagesResolver]
      cases q[0]? with
      | none => exact .none
      | some i =>
        refine (w.deleteUsagesWith s i h st).bind fun o _ => ?_
        rcases o with ⟨r, t, f⟩
        cases r with
        | error e => exact .done rfl
        | ok _ => exact w.deleteByWith t q h f }

theorem nonNullDeletionResolver : Watch step J π (nonNullDeletionResolver D') (nonNullDeletionResolver D) :=
  { w with
    delete := fun s q h st => by
      simp only [Verif.nonNullDeletionResolver]
      rw [w.consts]
      cases q[0]? with
      | none => exact .none
      | some i =>
        refine (w.updateByWith s q _ h st).bind fun o _ => ?_
        rcases o with ⟨r, t, f⟩
        cases r with
        | error e => exact .done rfl
        | ok _ => exact w.deleteByWith t q h f }

theorem deco (d : Deco) : Watch step J π (d.wrap D') (d.wrap D) := by
  cases d with
  | uniqueValidator => exact w.uniqueValidator
  | uniqueResolver => exact w.uniqueResolver
  | cascadeUniqueResolver => exact w.cascadeUniqueResolver
  | usagesValidator => exact w.usagesValidator
  | cascadeUsagesResolver => exact w.cascadeUsagesResolver
  | nonNullDeletionResolver => exact w.nonNullDeletionResolver

theorem stack (ds : List Deco) : Watch step J π (stack ds D') (stack ds D) := by
  induction ds with
  | nil => exact w
  | cons d ds ih => exact ih.deco d

end Watch

/-! ## The watched store -/

section
variable {S : Type} {D : Links S} (W : Lawful D)

/-- One write of the watched store: the new state is noted, is legal and has the contents after the change. -/
def Noted (p : S × List S) (e : Change) (p' : S × List S) : Prop :=
  p'.2 = p.2 ++ [p'.1] ∧ W.Inv p'.1 ∧ D.view p'.1 = (D.view p.1).change e

theorem watched_call {p : S × List S} {call : (σ : Type) → WH σ → σ → Option (Out S σ Flow)}
    (hc : W.Inv p.1 → (∃ e, Links.Fails call p.1 e) ∨ ∃ s' b a, W.Inv s' ∧ D.view s' = (D.view p.1).change (b, a) ∧
      Links.Succeeds call s' b a) {σ : Type} (h : WH σ) (st : σ) :
    Tells (Noted W) (fun p => W.Inv p.1) Prod.fst p h st ((call σ h st).map fun o =>
      ⟨o.res, (o.st, match o.res with | .ok _ => p.2 ++ [o.st] | .error _ => p.2), o.hs⟩) (call σ h st) := by
  intro hJ o ho
  rcases hc hJ with ⟨e, hf⟩ | ⟨s', b, a, h1, h2, hs⟩
  · rw [hf σ h st] at ho ⊢
    cases ho
    exact ⟨rfl, hJ, [], rfl, .nil _⟩
  · rw [hs σ h st] at ho ⊢
    cases ho
    exact ⟨rfl, h1, [(b, a)], rfl, .cons ⟨rfl, h1, h2⟩ (.nil _)⟩

theorem watched_watch : Watch (Noted W) (fun p => W.Inv p.1) Prod.fst (watched W) D where
  maxT := rfl
  consts _ := rfl
  count _ _ := rfl
  each _ _ _ _ := rfl
  get _ _ := rfl
  create p q h st := by
    simp only [watched]
    split
    · next hg =>
      refine watched_call W (call := fun _ h st => D.createLinks p.1 q h st) (fun hJ => ?_) h st
      rcases W.create p.1 hJ hg q with h | ⟨i, s', h1, h2, -, h4, h5⟩
      · exact .inl h
      · refine .inr ⟨s', _, _, h2, ?_, h5⟩
        rw [h4]
        have : i ≠ 0 := fun h0 => by
          have h6 := W.null s' h2
          rw [h4, h0, View.set_same] at h6
          cases h6
        simp [View.change, Link.nothing, this]
    · exact .none
  update p q ch h st := by
    simp only [watched]
    split
    · next hg =>
      obtain ⟨i, x, a, b, rfl, rfl, hg⟩ := hg
      refine watched_call W (call := fun _ h st => D.updateLinks p.1 [i] [x, a, b] h st) (fun hJ => ?_) h st
      cases hv : D.view p.1 i with
      | none => exact .inl ⟨_, W.update_missing p.1 hJ i hv x a b⟩
      | some q =>
        obtain ⟨g1, g2⟩ := hg (by rw [hv]; simp)
        obtain ⟨s', before, -, h2, -, h4, h5⟩ := W.update p.1 hJ i q hv g1 x a b g2
        refine .inr ⟨s', _, _, h2, ?_, h5⟩
        rw [h4]
        have : i ≠ 0 := fun h0 => by
          have h6 := W.null s' h2
          rw [h4, h0, View.set_same] at h6
          cases h6
        simp [View.change, Link.nothing, this]
    · exact .none
  delete p q h st := by
    simp only [watched]
    split
    · next hg =>
      obtain ⟨i, rfl, hg⟩ := hg
      refine watched_call W (call := fun _ h st => D.deleteLinks p.1 [i] h st) (fun hJ => ?_) h st
      cases hv : D.view p.1 i with
      | none => exact .inl ⟨_, W.delete_missing p.1 hJ i hv⟩
      | some q =>
        obtain ⟨g1, g2⟩ := hg (by rw [hv]; simp)
        obtain ⟨s', h2, -, h4, h5⟩ := W.delete p.1 hJ i q hv g1 g2
        exact .inr ⟨s', _, _, h2, by rw [h4]; simp [View.change], h5⟩
    · exact .none

/-- What a run of noted writes means: the states are those after each change. -/
theorem Run.noted {p p' : S × List S} {es : List Change} (h : Run (Noted W) p es p') :
    D.view p'.1 = (D.view p.1).replay es ∧ ∃ l, p'.2 = p.2 ++ l ∧ l.length = es.length ∧
      ∀ k s, l[k]? = some s → W.Inv s ∧ D.view s = (D.view p.1).replay (es.take (k + 1)) := by
  induction h with
  | nil p => exact ⟨rfl, [], by simp, rfl, fun k s h => by simp at h⟩
  | @cons p p1 p2 e es h1 _ ih =>
    obtain ⟨g1, l, g2, g3, g4⟩ := ih
    obtain ⟨f1, f2, f3⟩ := h1
    refine ⟨by rw [g1, f3]; rfl, p1.1 :: l, by rw [g2, f1]; simp, by simp [g3], fun k s hk => ?_⟩
    cases k with
    | zero =>
      simp at hk
      subst hk
      exact ⟨f2, by rw [f3]; rfl⟩
    | succ k =>
      obtain ⟨x1, x2⟩ := g4 k s (by simpa using hk)
      exact ⟨x1, by rw [x2, f3]; rfl⟩

theorem watched_view (p : S × List S) : (watched W).view p = D.view p.1 := rfl

end

end Verif
