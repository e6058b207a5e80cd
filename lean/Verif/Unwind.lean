import Verif.Replay

/-!
# Write handlers that panic

The model elsewhere takes handlers that return. Here a handler may panic: the panic unwinds through the method it was passed to, and what
has been written to the store by then stays (nothing in the crate catches panics or undoes writes when it is dropped). The methods that
take a write handler are written once more with such handlers, the default methods over any store, and the decorators.
-/

namespace Verif
open Verif Links

/-- A handler over an arbitrary `R: Try` that may panic (`none`). -/
abbrev PHd (σ ρ : Type) := σ → Link → Link → Option (Ctl ρ × σ)

/-- A `WriteHandler` that may panic (`data/traits.rs:12`). -/
abbrev PH (σ : Type) := PHd σ _root_.Unit

/-- How a call with such a handler ends: it returns, or the panic of the handler leaves it, with the store as it is then. -/
inductive Ran (S σ α : Type) where
  | back (o : Out S σ α)
  | unwound (s : S)

/-- What is done after a call that returned; a panic passes through. -/
def Ran.bind {S σ α σ' β : Type} (k : Out S σ α → Option (Ran S σ' β)) : Ran S σ α → Option (Ran S σ' β)
  | .back o => k o
  | .unwound s => some (.unwound s)

/-- A change of what is returned. -/
def Ran.map {S σ α σ' β : Type} (f : Out S σ α → Out S σ' β) : Ran S σ α → Ran S σ' β
  | .back o => .back (f o)
  | .unwound s => .unwound s

/-- `handler(before, after)` as the last thing a method does, in a store that is `s` by then, and `Ok` of its answer. -/
def lastly {S σ : Type} (s : S) (h : PH σ) (st : σ) (before after : Link) : Ran S σ Flow :=
  match h st before after with
  | none => .unwound s
  | some r => .back ⟨.ok r.1, s, r.2⟩

/-- `Fuse::call_mut` (`data/handler.rs:82-94`) around a handler that may panic. -/
def fuseP {σ ρ : Type} (h : PHd σ ρ) (f : FuseSt σ) (b a : Link) : Option (Flow × FuseSt σ) :=
  if f.done then some (.brk (), f)
  else
    (h f.inner b a).map fun
      | (.brk _, st) => (.brk (), { inner := st, done := false })
      | (.cont, st) => (.cont, { f with inner := st })

/-- The required methods of a store: those that take no write handler (`reads`), and the three that do, with handlers that may panic. -/
structure LinksP (S : Type) where
  reads : Links S
  createLinks : {σ : Type} → S → List Nat → PH σ → σ → Option (Ran S σ Flow)
  updateLinks : {σ : Type} → S → List Nat → List Nat → PH σ → σ → Option (Ran S σ Flow)
  deleteLinks : {σ : Type} → S → List Nat → PH σ → σ → Option (Ran S σ Flow)

namespace LinksP
variable {S σ ρ : Type} (P : LinksP S)

/-- The closure built by the `*_by_with` methods (`traits.rs:65-73,148-157,211-219`). -/
def wrapP (h : PHd σ ρ) : PH (σ × Ctl ρ) := fun p b a =>
  (h p.1 b a).map fun
    | (.cont, st) => (.cont, (st, p.2))
    | (.brk r, st) => (.brk (), (st, .brk r))

/-- `create_by_with` (`traits.rs:52-76`). -/
def createByWith (s : S) (q : List Nat) (h : PHd σ ρ) (st : σ) : Option (Ran S σ (Ctl ρ)) :=
  (P.createLinks s q (wrapP h) (st, .cont)).map (Ran.map unwrapW)

/-- `create_with` (`traits.rs:90-97`). -/
def createWith (s : S) (h : PHd σ ρ) (st : σ) : Option (Ran S σ (Ctl ρ)) := P.createByWith s [] h st

/-- `update_by_with` (`traits.rs:133-160`). -/
def updateByWith (s : S) (q ch : List Nat) (h : PHd σ ρ) (st : σ) : Option (Ran S σ (Ctl ρ)) :=
  (P.updateLinks s q ch (wrapP h) (st, .cont)).map (Ran.map unwrapW)

/-- `update_with` (`traits.rs:176-189`). -/
def updateWith (s : S) (i a b : Nat) (h : PHd σ ρ) (st : σ) : Option (Ran S σ (Ctl ρ)) :=
  P.updateByWith s [i] [i, a, b] h st

/-- `delete_by_with` (`traits.rs:198-222`). -/
def deleteByWith (s : S) (q : List Nat) (h : PHd σ ρ) (st : σ) : Option (Ran S σ (Ctl ρ)) :=
  (P.deleteLinks s q (wrapP h) (st, .cont)).map (Ran.map unwrapW)

/-- `delete_with` (`traits.rs:236-243`). -/
def deleteWith (s : S) (i : Nat) (h : PHd σ ρ) (st : σ) : Option (Ran S σ (Ctl ρ)) :=
  P.deleteByWith s [i] h st

/-- `for index in list { self.delete_with(index, &mut handler)?; }` (`traits.rs:291-293,323-325`). -/
def deleteLoop (h : PHd σ ρ) : List Nat → S → FuseSt σ → Option (Ran S (FuseSt σ) _root_.Unit)
  | [], s, f => some (.back ⟨.ok (), s, f⟩)
  | i :: is, s, f =>
    (P.deleteWith s i (fuseP h) f).bind (Ran.bind fun o =>
      match o.res with
      | .error e => some (.back ⟨.error e, o.st, o.hs⟩)
      | .ok _ => deleteLoop h is o.st o.hs)

/-- `delete_query_with` (`traits.rs:271-295`). -/
def deleteQueryWith (s : S) (q : List Nat) (h : PHd σ ρ) (st : σ) : Option (Ran S σ _root_.Unit) :=
  (P.reads.countBy s q).bind fun _ =>
  (P.reads.collect s q).bind fun ls =>
  (P.deleteLoop h (ls.map (·.index)).reverse s { inner := st }).map (Ran.map fun o => ⟨o.res, o.st, o.hs.inner⟩)

/-- `delete_usages_with` (`traits.rs:297-327`). -/
def deleteUsagesWith (s : S) (i : Nat) (h : PHd σ ρ) (st : σ) : Option (Ran S σ _root_.Unit) :=
  let any := (P.reads.consts s).any
  (P.reads.countBy s [any, i, any]).bind fun _ =>
  (P.reads.countBy s [any, any, i]).bind fun _ =>
  (P.reads.usageList s i).bind fun us =>
  (P.deleteLoop h us.reverse s { inner := st }).map (Ran.map fun o => ⟨o.res, o.st, o.hs.inner⟩)

/-- The closure of `create_link_with` (`traits.rs:352-356`). -/
def createLinkP (h : PHd σ ρ) : PHd (Nat × FuseSt σ) _root_.Unit := fun p b a =>
  (fuseP h p.2 b a).map fun r => (.cont, (a.index, r.2))

/-- `create_link_with` (`traits.rs:344-359`). -/
def createLinkWith (s : S) (source target : Nat) (h : PHd σ ρ) (st : σ) : Option (Ran S σ Flow) :=
  (P.createWith s (createLinkP h) (0, { inner := st })).bind (Ran.bind fun o =>
    match o.res with
    | .error e => some (.back ⟨.error e, o.st, o.hs.2.inner⟩)
    | .ok _ =>
      (P.updateWith o.st o.hs.1 source target (fuseP h) o.hs.2).map (Ran.map fun o' => ⟨o'.res, o'.st, o'.hs.inner⟩))

/-- One step of the `try_for_each` in `rebase_with` (`traits.rs:521-529`). -/
def rebaseOne (h : PHd σ ρ) (old new : Nat) (u : Link) (s : S) (f : FuseSt σ) :
    Option (Ran S (FuseSt σ) _root_.Unit) :=
  (if u.source = old then
    (P.updateWith s u.index new u.target (fuseP h) f).map (Ran.map fun o => ⟨o.res.map fun _ => (), o.st, o.hs⟩)
   else some (.back ⟨.ok (), s, f⟩)).bind (Ran.bind fun o =>
    match o.res with
    | .error e => some (.back ⟨.error e, o.st, o.hs⟩)
    | .ok _ =>
      if u.target = old then
        (P.updateWith o.st u.index u.source new (fuseP h) o.hs).map (Ran.map fun o' => ⟨o'.res.map fun _ => (), o'.st, o'.hs⟩)
      else some (.back o))

/-- The `try_for_each` of `rebase_with`. -/
def rebaseLoop (h : PHd σ ρ) (old new : Nat) : List Link → S → FuseSt σ → Option (Ran S (FuseSt σ) _root_.Unit)
  | [], s, f => some (.back ⟨.ok (), s, f⟩)
  | u :: us, s, f =>
    (P.rebaseOne h old new u s f).bind (Ran.bind fun o =>
      match o.res with
      | .error e => some (.back ⟨.error e, o.st, o.hs⟩)
      | .ok _ => rebaseLoop h old new us o.st o.hs)

/-- `rebase_with` (`traits.rs:500-531`). -/
def rebaseWith (s : S) (old new : Nat) (h : PHd σ ρ) (st : σ) : Option (Ran S σ _root_.Unit) :=
  let any := (P.reads.consts s).any
  (P.reads.tryGetLink s old).bind fun
    | .error e => some (.back ⟨.error e, s, st⟩)
    | .ok _ =>
      if old = new then some (.back ⟨.ok (), s, st⟩)
      else
        (P.reads.eachIter s [any, old, any]).bind fun l1 =>
        (P.reads.eachIter s [any, any, old]).bind fun l2 =>
        (P.rebaseLoop h old new ((l1 ++ l2).filter (·.index ≠ old)) s { inner := st }).map
          (Ran.map fun o => ⟨o.res, o.st, o.hs.inner⟩)

/-- `create_with`, `update_with`, `delete_with`, `create_link_with`, `delete_query_with`, `delete_usages_with`, `rebase_with`
(`traits.rs:90-97,176-189,236-243,344-359,271-295,297-327,500-531`). -/
def perform (s : S) (h : PHd σ ρ) (st : σ) : Job → Option (Ran S σ _root_.Unit)
  | .create => (P.createWith s h st).map (Ran.map Out.unit)
  | .update i a b => (P.updateWith s i a b h st).map (Ran.map Out.unit)
  | .delete i => (P.deleteWith s i h st).map (Ran.map Out.unit)
  | .createLink a b => (P.createLinkWith s a b h st).map (Ran.map Out.unit)
  | .deleteQuery q => P.deleteQueryWith s q h st
  | .deleteUsages i => P.deleteUsagesWith s i h st
  | .rebase old new => P.rebaseWith s old new h st

/-! ### Decorators -/

/-- `UniqueValidator` (`unique_validator.rs:25-77`). -/
def uniqueValidator : LinksP S :=
  { P with
    reads := Verif.uniqueValidator P.reads
    updateLinks := fun s query change handler st =>
      match change[1]?, change[2]? with
      | some source, some target =>
        (P.reads.found s [(P.reads.consts s).any, source, target]).bind fun f =>
        if f then some (.back ⟨.error (.alreadyExists source target), s, st⟩)
        else P.updateByWith s query change handler st
      | _, _ => none }

/-- `UniqueResolver` (`unique_resolver.rs:25-83`). -/
def uniqueResolver : LinksP S :=
  { P with
    reads := Verif.uniqueResolver P.reads
    updateLinks := fun s query change handler st =>
      match query[0]?, change[1]?, change[2]? with
      | some new, some source, some target =>
        (P.reads.search s source target).bind fun
          | some old =>
            (P.deleteWith s new handler st).bind (Ran.bind fun o =>
              match o.res with
              | .error e => some (.back ⟨.error e, o.st, o.hs⟩)
              | .ok _ => P.updateWith o.st old source target handler o.hs)
          | none => P.updateWith s new source target handler st
      | _, _, _ => none }

/-- `CascadeUniqueResolver` (`cascade_unique_resolver.rs:29-88`). -/
def cascadeUniqueResolver : LinksP S :=
  { P with
    reads := Verif.cascadeUniqueResolver P.reads
    updateLinks := fun s query change handler st =>
      match query[0]?, change[1]?, change[2]? with
      | some new, some source, some target =>
        (P.reads.search s source target).bind fun
          | some old =>
            (P.rebaseWith s new old handler st).bind (Ran.bind fun o =>
              match o.res with
              | .error e => some (.back ⟨.error e, o.st, o.hs⟩)
              | .ok _ =>
                (P.deleteWith o.st new handler o.hs).bind (Ran.bind fun o =>
                  match o.res with
                  | .error e => some (.back ⟨.error e, o.st, o.hs⟩)
                  | .ok _ => P.updateWith o.st old source target handler o.hs))
          | none => P.updateWith s new source target handler st
      | _, _, _ => none }

/-- The check common to both methods of `UsagesValidator` (`usages_validator.rs:60-73,80-93`). -/
def checkUsages (s : S) (query : List Nat) (st : σ) (go : Option (Ran S σ Flow)) : Option (Ran S σ Flow) :=
  match query[(P.reads.consts s).indexPart]? with
  | none => none
  | some index =>
    (P.reads.usages s index).bind fun
      | .error e => some (.back ⟨.error e, s, st⟩)
      | .ok us =>
        if us.isEmpty then go
        else
          (tryGetLinks P.reads s us).map fun
            | .error e => .back ⟨.error e, s, st⟩
            | .ok ls => .back ⟨.error (.hasUsages ls), s, st⟩

/-- `UsagesValidator` (`usages_validator.rs:25-94`). -/
def usagesValidator : LinksP S :=
  { P with
    reads := Verif.usagesValidator P.reads
    updateLinks := fun s query change handler st =>
      P.checkUsages s query st (P.updateByWith s query change handler st)
    deleteLinks := fun s query handler st =>
      P.checkUsages s query st (P.deleteByWith s query handler st) }

/-- `CascadeUsagesResolver` (`cascade_usages_resolver.rs:25-76`). -/
def cascadeUsagesResolver : LinksP S :=
  { P with
    reads := Verif.cascadeUsagesResolver P.reads
    deleteLinks := fun s query handler st =>
      match query[0]? with
      | none => none
      | some index =>
        (P.deleteUsagesWith s index handler st).bind (Ran.bind fun o =>
          match o.res with
          | .error e => some (.back ⟨.error e, o.st, o.hs⟩)
          | .ok _ => P.deleteByWith o.st query handler o.hs) }

/-- `NonNullDeletionResolver` (`non_null_deletion_resolver.rs:25-78`). -/
def nonNullDeletionResolver : LinksP S :=
  { P with
    reads := Verif.nonNullDeletionResolver P.reads
    deleteLinks := fun s query handler st =>
      let null := (P.reads.consts s).null
      match query[0]? with
      | none => none
      | some index =>
        (P.updateByWith s query [index, null, null] handler st).bind (Ran.bind fun o =>
          match o.res with
          | .error e => some (.back ⟨.error e, o.st, o.hs⟩)
          | .ok _ => P.deleteByWith o.st query handler o.hs) }

/-- A store wrapped in a decorator. -/
def deco : Deco → LinksP S → LinksP S
  | .uniqueValidator => uniqueValidator
  | .uniqueResolver => uniqueResolver
  | .cascadeUniqueResolver => cascadeUniqueResolver
  | .usagesValidator => usagesValidator
  | .cascadeUsagesResolver => cascadeUsagesResolver
  | .nonNullDeletionResolver => nonNullDeletionResolver

/-- A store wrapped in several decorators, the first one outermost. -/
def stack (ds : List Deco) (P : LinksP S) : LinksP S := ds.foldr deco P

end LinksP

/-! ## Specification -/

/-- A single write does not look at the handler before its end: it diverges, fails without calling it, or calls it once with the change
made, after everything has been written. -/
def ShowsLast {S : Type} (call : (σ : Type) → WH σ → σ → Option (Out S σ Flow))
    (callP : (σ : Type) → PH σ → σ → Option (Ran S σ Flow)) : Prop :=
  ((∀ σ h st, call σ h st = none) ∧ ∀ σ h st, callP σ h st = none) ∨
  (∃ e s', (∀ σ h st, call σ h st = some ⟨.error e, s', st⟩) ∧ ∀ σ h st, callP σ h st = some (.back ⟨.error e, s', st⟩)) ∨
  ∃ s' b a, Succeeds call s' b a ∧ ∀ σ (h : PH σ) st, callP σ h st = some (lastly s' h st b a)

/-- At which of the changes, told one after the other, the handler panics. -/
def panicsAt {σ ρ : Type} (h : PHd σ ρ) : List Change → σ → Option Nat
  | [], _ => none
  | e :: es, st =>
    match h st e.1 e.2 with
    | none => some 0
    | some r => (panicsAt h es r.2).map (· + 1)

/-- `h` answers as `hp` wherever `hp` does not panic. -/
def AnswersAs {σ ρ : Type} (hp : PHd σ ρ) (h : Hd σ ρ) : Prop := ∀ st b a r, hp st b a = some r → h st b a = r

/-! ## Rules -/

theorem panicsAt_append {σ ρ : Type} {hp : PHd σ ρ} {h : Hd σ ρ} (ha : AnswersAs hp h) (fs : List Change) :
    ∀ (es : List Change) (st : σ), panicsAt hp (es ++ fs) st =
      match panicsAt hp es st with
      | some k => some k
      | none => (panicsAt hp fs (callAll h es st)).map (· + es.length) := by
  intro es
  induction es with
  | nil => intro st; simp [panicsAt, callAll]
  | cons e es ih =>
    intro st
    simp only [List.cons_append, panicsAt]
    cases hx : hp st e.1 e.2 with
    | none => rfl
    | some r =>
      have hr := ha _ _ _ _ hx
      simp only [ih]
      have hc : callAll h (e :: es) st = callAll h es r.2 := by
        show callAll h es (h st e.1 e.2).2 = _
        rw [hr]
      rw [hc]
      cases panicsAt hp es r.2 with
      | some k => rfl
      | none =>
        simp only [Option.map_none, Option.map_map]
        congr 1

theorem panicsAt_lt {σ ρ : Type} {hp : PHd σ ρ} : ∀ {es : List Change} {st : σ} {k : Nat}, panicsAt hp es st = some k → k < es.length := by
  intro es
  induction es with
  | nil => intro st k h; cases h
  | cons e es ih =>
    intro st k h
    simp only [panicsAt] at h
    split at h
    · cases h; simp
    · cases hx : panicsAt hp es _ with
      | none => rw [hx] at h; cases h
      | some n => rw [hx] at h; cases h; have := ih hx; simp; omega

/-- The call on the watched store says how the call with a handler that may panic ends: it returns the same if the handler does not panic
at any of the changes told; otherwise it ends in the state noted at that change. -/
def EndsAs {S σ ρ α : Type} (hp : PHd σ ρ) (h : Hd σ ρ) (p : S × List S) (st : σ) (x' : Option (Out (S × List S) σ α))
    (x : Option (Ran S σ α)) : Prop :=
  ∀ o, x' = some o → ∃ es ts, o.hs = callAll h es st ∧ o.st.2 = p.2 ++ ts ∧ ts.length = es.length ∧
    match panicsAt hp es st with
    | none => x = some (.back ⟨o.res, o.st.1, o.hs⟩)
    | some k => ∃ t, ts[k]? = some t ∧ x = some (.unwound t)

section
variable {S σ ρ α : Type} {hp : PHd σ ρ} {h : Hd σ ρ} {p : S × List S} {st : σ}

theorem EndsAs.none {x : Option (Ran S σ α)} : EndsAs hp h p st none x := fun _ h => nomatch h

theorem EndsAs.done {r : Except Err α} {t : S} (ht : t = p.1) : EndsAs hp h p st (some ⟨r, p, st⟩) (some (.back ⟨r, t, st⟩)) := by
  intro o ho
  cases ho
  exact ⟨[], [], rfl, by simp, rfl, by rw [ht]; rfl⟩

theorem EndsAs.map {x' : Option (Out (S × List S) σ α)} {x : Option (Ran S σ α)} (hx : EndsAs hp h p st x' x)
    {σ2 ρ2 β : Type} {hp2 : PHd σ2 ρ2} {h2 : Hd σ2 ρ2} {st2 : σ2} {f' : Out (S × List S) σ α → Out (S × List S) σ2 β}
    {f : Out S σ α → Out S σ2 β}
    (hf : ∀ o, f ⟨o.res, o.st.1, o.hs⟩ = ⟨(f' o).res, (f' o).st.1, (f' o).hs⟩)
    (hst : ∀ o, (f' o).st = o.st) (hhs : ∀ o es, o.hs = callAll h es st → (f' o).hs = callAll h2 es st2)
    (hpp : ∀ es, panicsAt hp2 es st2 = panicsAt hp es st) :
    EndsAs hp2 h2 p st2 (x'.map f') (x.map (Ran.map f)) := by
  intro o ho
  cases hx' : x' with
  | none => rw [hx'] at ho; cases ho
  | some o1 =>
    rw [hx'] at ho
    cases ho
    obtain ⟨es, ts, h1, h2, h3, h4⟩ := hx o1 hx'
    refine ⟨es, ts, hhs _ _ h1, by rw [hst]; exact h2, h3, ?_⟩
    rw [hpp]
    cases hk : panicsAt hp es st with
    | none =>
      rw [hk] at h4
      simp only at h4 ⊢
      rw [h4]
      simp [Ran.map, hf]
    | some k =>
      rw [hk] at h4
      obtain ⟨t, g1, g2⟩ := h4
      exact ⟨t, g1, by rw [g2]; rfl⟩

theorem EndsAs.bind (ha : AnswersAs hp h) {x' : Option (Out (S × List S) σ α)} {x : Option (Ran S σ α)} (hx : EndsAs hp h p st x' x) {β : Type}
    {k' : Out (S × List S) σ α → Option (Out (S × List S) σ β)} {k : Out S σ α → Option (Ran S σ β)}
    (hk : ∀ o, (∃ es, o.hs = callAll h es st) → EndsAs hp h o.st o.hs (k' o) (k ⟨o.res, o.st.1, o.hs⟩)) :
    EndsAs hp h p st (x'.bind k') (x.bind (Ran.bind k)) := by
  intro o ho
  cases hx' : x' with
  | none => rw [hx'] at ho; cases ho
  | some o1 =>
    rw [hx', Option.bind_some] at ho
    obtain ⟨es, ts, h1, h2, h3, h4⟩ := hx o1 hx'
    obtain ⟨fs, us, g1, g2, g3, g4⟩ := hk o1 ⟨es, h1⟩ o ho
    refine ⟨es ++ fs, ts ++ us, by rw [callAll_append, ← h1, g1], by rw [g2, h2, List.append_assoc], by simp [h3, g3], ?_⟩
    rw [panicsAt_append ha]
    cases hk : panicsAt hp es st with
    | some n =>
      rw [hk] at h4
      obtain ⟨t, e1, e2⟩ := h4
      have hn := panicsAt_lt hk
      exact ⟨t, by rw [List.getElem?_append_left (by omega)]; exact e1, by rw [e2]; rfl⟩
    | none =>
      rw [hk] at h4
      simp only at h4
      rw [h4]
      simp only [Option.bind_some, Ran.bind]
      rw [← h1]
      cases hn : panicsAt hp fs o1.hs with
      | none => rw [hn] at g4; exact g4
      | some n =>
        rw [hn] at g4
        obtain ⟨t, e1, e2⟩ := g4
        exact ⟨t, by rw [← h3, List.getElem?_append_right (by simp)]; simpa using e1, e2⟩

theorem EndsAs.read {β : Type} {r' r : Option β} (hr : r' = r) {k' : β → Option (Out (S × List S) σ α)} {k : β → Option (Ran S σ α)}
    (hk : ∀ b, EndsAs hp h p st (k' b) (k b)) : EndsAs hp h p st (r'.bind k') (r.bind k) := by
  subst hr
  cases r' with
  | none => exact .none
  | some b => exact hk b

theorem EndsAs.ite {c : Prop} [Decidable c] {x' y' : Option (Out (S × List S) σ α)} {x y : Option (Ran S σ α)}
    (h1 : EndsAs hp h p st x' x) (h2 : EndsAs hp h p st y' y) :
    EndsAs hp h p st (if c then x' else y') (if c then x else y) := by
  split
  · exact h1
  · exact h2

end

/-! ### The closures put around handlers -/

theorem panicsAt_wrap {σ ρ : Type} (hp : PHd σ ρ) : ∀ (es : List Change) (st : σ) (c : Ctl ρ),
    panicsAt (LinksP.wrapP hp) es (st, c) = panicsAt hp es st := by
  intro es
  induction es with
  | nil => intros; rfl
  | cons e es ih =>
    intro st c
    simp only [panicsAt, LinksP.wrapP]
    cases hp st e.1 e.2 with
    | none => rfl
    | some r => rcases r with ⟨_ | _, st'⟩ <;> simp only [Option.map_some, ih]

theorem answers_wrap {σ ρ : Type} {hp : PHd σ ρ} {h : Hd σ ρ} (ha : AnswersAs hp h) : AnswersAs (LinksP.wrapP hp) (wrapW h) := by
  intro p b a r hr
  simp only [LinksP.wrapP, Option.map_eq_some_iff] at hr
  obtain ⟨q, hq, rfl⟩ := hr
  simp only [wrapW, ha _ _ _ _ hq]
  rcases q with ⟨_ | _, _⟩ <;> rfl

theorem panicsAt_fuse {σ ρ : Type} (hp : PHd σ ρ) : ∀ (es : List Change) (st : σ),
    panicsAt (fuseP hp) es ⟨st, false⟩ = panicsAt hp es st := by
  intro es
  induction es with
  | nil => intros; rfl
  | cons e es ih =>
    intro st
    simp only [panicsAt, fuseP]
    cases hp st e.1 e.2 with
    | none => rfl
    | some r => rcases r with ⟨_ | _, st'⟩ <;> simp [ih]

theorem answers_fuse {σ ρ : Type} {hp : PHd σ ρ} {h : Hd σ ρ} (ha : AnswersAs hp h) : AnswersAs (fuseP hp) (fuseCall h) := by
  intro f b a r hr
  simp only [fuseP] at hr
  simp only [fuseCall]
  split
  · next hd => rw [if_pos hd] at hr; cases hr; rfl
  · next hd =>
    rw [if_neg hd, Option.map_eq_some_iff] at hr
    obtain ⟨q, hq, rfl⟩ := hr
    rw [ha _ _ _ _ hq]
    rcases q with ⟨_ | _, _⟩ <;> rfl

theorem panicsAt_link {σ ρ : Type} (hp : PHd σ ρ) : ∀ (es : List Change) (n : Nat) (st : σ),
    panicsAt (LinksP.createLinkP hp) es (n, ⟨st, false⟩) = panicsAt hp es st := by
  intro es
  induction es with
  | nil => intros; rfl
  | cons e es ih =>
    intro n st
    simp only [panicsAt, LinksP.createLinkP, fuseP]
    cases hp st e.1 e.2 with
    | none => rfl
    | some r => rcases r with ⟨_ | _, st'⟩ <;> simp [ih]

theorem answers_link {σ ρ : Type} {hp : PHd σ ρ} {h : Hd σ ρ} (ha : AnswersAs hp h) :
    AnswersAs (LinksP.createLinkP hp) (createLinkH h) := by
  intro p b a r hr
  simp only [LinksP.createLinkP, Option.map_eq_some_iff] at hr
  obtain ⟨q, hq, rfl⟩ := hr
  simp only [createLinkH, answers_fuse ha _ _ _ _ hq]

/-! ### Methods -/

/-- A watched store and a store with handlers that may panic: reads answer alike, and the outcome of writes is as noted. -/
structure Alarmed {S : Type} (step : S × List S → Change → S × List S → Prop) (J : S × List S → Prop) (D' : Links (S × List S))
    (P : LinksP S) : Prop where
  watch : Watch step J Prod.fst D' P.reads
  create : ∀ {σ : Type} p q (hp : PH σ) (h : WH σ) st, AnswersAs hp h →
    EndsAs hp h p st (D'.createLinks p q h st) (P.createLinks p.1 q hp st)
  update : ∀ {σ : Type} p q ch (hp : PH σ) (h : WH σ) st, AnswersAs hp h →
    EndsAs hp h p st (D'.updateLinks p q ch h st) (P.updateLinks p.1 q ch hp st)
  delete : ∀ {σ : Type} p q (hp : PH σ) (h : WH σ) st, AnswersAs hp h →
    EndsAs hp h p st (D'.deleteLinks p q h st) (P.deleteLinks p.1 q hp st)

namespace Alarmed
variable {S : Type} {step : S × List S → Change → S × List S → Prop} {J : S × List S → Prop} {D' : Links (S × List S)} {P : LinksP S}
variable (w : Alarmed step J D' P) {σ ρ : Type} (s : S × List S) {hp : PHd σ ρ} {h : Hd σ ρ}

theorem wrap {s : S × List S} {st : σ} {x' : Option (Out (S × List S) (σ × Ctl ρ) Flow)} {x : Option (Ran S (σ × Ctl ρ) Flow)}
    (hx : EndsAs (LinksP.wrapP hp) (wrapW h) s (st, .cont) x' x) :
    EndsAs hp h s st (x'.map unwrapW) (x.map (Ran.map unwrapW)) :=
  hx.map (fun _ => rfl) (fun _ => rfl) (fun o es he => by
    show o.hs.1 = _
    rw [he, callAll_wrap]) fun es => (panicsAt_wrap hp es st .cont).symm

/-- Undo the fuse. -/
theorem unfuse {s : S × List S} {st : σ} {α β : Type} {g : Except Err α → Except Err β}
    {x' : Option (Out (S × List S) (FuseSt σ) α)} {x : Option (Ran S (FuseSt σ) α)}
    (hx : EndsAs (fuseP hp) (fuseCall h) s ⟨st, false⟩ x' x) :
    EndsAs hp h s st (x'.map fun o => ⟨g o.res, o.st, o.hs.inner⟩) (x.map (Ran.map fun o => ⟨g o.res, o.st, o.hs.inner⟩)) :=
  hx.map (fun _ => rfl) (fun _ => rfl) (fun o es he => by
    show o.hs.inner = _
    rw [he, callAll_fuse]) fun es => (panicsAt_fuse hp es st).symm

include w

theorem createByWith (ha : AnswersAs hp h) (q : List Nat) (st : σ) :
    EndsAs hp h s st (D'.createByWith s q h st) (P.createByWith s.1 q hp st) := wrap (w.create s q _ _ _ (answers_wrap ha))

theorem updateByWith (ha : AnswersAs hp h) (q ch : List Nat) (st : σ) :
    EndsAs hp h s st (D'.updateByWith s q ch h st) (P.updateByWith s.1 q ch hp st) := wrap (w.update s q ch _ _ _ (answers_wrap ha))

theorem deleteByWith (ha : AnswersAs hp h) (q : List Nat) (st : σ) :
    EndsAs hp h s st (D'.deleteByWith s q h st) (P.deleteByWith s.1 q hp st) := wrap (w.delete s q _ _ _ (answers_wrap ha))

theorem createWith (ha : AnswersAs hp h) (st : σ) : EndsAs hp h s st (D'.createWith s h st) (P.createWith s.1 hp st) :=
  w.createByWith s ha _ st

theorem updateWith (ha : AnswersAs hp h) (i a b : Nat) (st : σ) :
    EndsAs hp h s st (D'.updateWith s i a b h st) (P.updateWith s.1 i a b hp st) := w.updateByWith s ha _ _ st

theorem deleteWith (ha : AnswersAs hp h) (i : Nat) (st : σ) :
    EndsAs hp h s st (D'.deleteWith s i h st) (P.deleteWith s.1 i hp st) := w.deleteByWith s ha _ st

theorem deleteLoop (ha : AnswersAs hp h) : ∀ (is : List Nat) (s : S × List S) (st : σ),
    EndsAs (fuseP hp) (fuseCall h) s ⟨st, false⟩ (D'.deleteLoop h is s ⟨st, false⟩) (P.deleteLoop hp is s.1 ⟨st, false⟩) := by
  intro is
  induction is with
  | nil => intro s st; exact .done rfl
  | cons i is ih =>
    intro s st
    have e : D'.deleteLoop h (i :: is) s ⟨st, false⟩ =
        (D'.deleteWith s i (fuseCall h) ⟨st, false⟩).bind fun o => match o.res with
          | .error e => some ⟨.error e, o.st, o.hs⟩
          | .ok _ => D'.deleteLoop h is o.st o.hs := by
      simp only [Links.deleteLoop]
      cases D'.deleteWith s i (fuseCall h) ⟨st, false⟩ <;> rfl
    rw [e]
    refine (w.deleteWith s (answers_fuse ha) i ⟨st, false⟩).bind (answers_fuse ha) fun o ho => ?_
    obtain ⟨es, he⟩ := ho
    rw [callAll_fuse] at he
    rcases o with ⟨r, t, f⟩
    simp only at he
    subst he
    cases r with
    | error e => exact .done rfl
    | ok _ => exact ih t _

theorem deleteQueryWith (ha : AnswersAs hp h) (q : List Nat) (st : σ) :
    EndsAs hp h s st (D'.deleteQueryWith s q h st) (P.deleteQueryWith s.1 q hp st) :=
  .read (w.watch.countBy s q) fun _ => .read (w.watch.collect s q) fun _ => unfuse (g := fun r => r) (w.deleteLoop ha _ s st)

theorem deleteUsagesWith (ha : AnswersAs hp h) (i : Nat) (st : σ) :
    EndsAs hp h s st (D'.deleteUsagesWith s i h st) (P.deleteUsagesWith s.1 i hp st) := by
  simp only [Links.deleteUsagesWith, LinksP.deleteUsagesWith]
  rw [w.watch.consts]
  exact .read (w.watch.countBy s _) fun _ => .read (w.watch.countBy s _) fun _ => .read (w.watch.usageList s i) fun _ =>
    unfuse (g := fun r => r) (w.deleteLoop ha _ s st)

theorem createLinkWith (ha : AnswersAs hp h) (a b : Nat) (st : σ) :
    EndsAs hp h s st (D'.createLinkWith s a b h st) (P.createLinkWith s.1 a b hp st) := by
  have hc := w.createWith s (answers_link ha) (0, ⟨st, false⟩)
  intro o ho
  simp only [Links.createLinkWith, LinksP.createLinkWith] at ho ⊢
  cases hx : D'.createWith s (createLinkH h) (0, ⟨st, false⟩) with
  | none => rw [hx] at ho; cases ho
  | some o1 =>
    rw [hx, Option.bind_some] at ho
    obtain ⟨es, ts, h1, h2, h3, h4⟩ := hc o1 hx
    have hf : o1.hs.2 = ⟨callAll h es st, false⟩ := by rw [h1, callAll_link]
    rw [panicsAt_link] at h4
    rcases o1 with ⟨r, t, n, f⟩
    simp only at hf ho h2 h4 ⊢
    subst hf
    cases r with
    | error e =>
      cases ho
      refine ⟨es, ts, rfl, h2, h3, ?_⟩
      cases hk : panicsAt hp es st with
      | none => rw [hk] at h4; simp only at h4 ⊢; rw [h4]; rfl
      | some k =>
        rw [hk] at h4
        obtain ⟨t, g1, g2⟩ := h4
        exact ⟨t, g1, by rw [g2]; rfl⟩
    | ok _ =>
      obtain ⟨fs, us, g1, g2, g3, g4⟩ :=
        unfuse (g := fun r => r) (w.updateWith t (answers_fuse ha) n a b ⟨callAll h es st, false⟩) o ho
      refine ⟨es ++ fs, ts ++ us, by rw [callAll_append, g1], by rw [g2, h2, List.append_assoc], by simp [h3, g3], ?_⟩
      rw [panicsAt_append ha]
      cases hk : panicsAt hp es st with
      | some k =>
        rw [hk] at h4
        obtain ⟨t, e1, e2⟩ := h4
        have hn := panicsAt_lt hk
        exact ⟨t, by rw [List.getElem?_append_left (by omega)]; exact e1, by rw [e2]; rfl⟩
      | none =>
        rw [hk] at h4
        simp only at h4
        rw [h4]
        simp only [Option.bind_some, Ran.bind]
        cases hn : panicsAt hp fs (callAll h es st) with
        | none => rw [hn] at g4; exact g4
        | some k =>
          rw [hn] at g4
          obtain ⟨t, e1, e2⟩ := g4
          exact ⟨t, by rw [← h3, List.getElem?_append_right (by simp)]; simpa using e1, e2⟩

theorem rebaseOne (ha : AnswersAs hp h) (old new : Nat) (u : Link) (st : σ) :
    EndsAs (fuseP hp) (fuseCall h) s ⟨st, false⟩ (D'.rebaseOne h old new u s ⟨st, false⟩)
      (P.rebaseOne hp old new u s.1 ⟨st, false⟩) := by
  have hup : ∀ (t : S × List S) (f : FuseSt σ) (a b : Nat), EndsAs (fuseP hp) (fuseCall h) t f
      ((D'.updateWith t u.index a b (fuseCall h) f).map fun o =>
        (⟨o.res.map fun _ => (), o.st, o.hs⟩ : Out (S × List S) (FuseSt σ) _root_.Unit))
      ((P.updateWith t.1 u.index a b (fuseP hp) f).map (Ran.map fun o =>
        (⟨o.res.map fun _ => (), o.st, o.hs⟩ : Out S (FuseSt σ) _root_.Unit))) := fun t f a b =>
    (w.updateWith t (answers_fuse ha) u.index a b f).map (fun _ => rfl) (fun _ => rfl) (fun _ _ he => he) fun _ => rfl
  unfold Links.rebaseOne LinksP.rebaseOne
  refine EndsAs.bind (answers_fuse ha) (.ite (hup _ _ _ _) (.done rfl)) fun o ho => ?_
  rcases o with ⟨r, t, f⟩
  cases r with
  | error e => exact .done rfl
  | ok _ =>
    simp only
    exact .ite (hup _ _ _ _) (.done rfl)

theorem rebaseLoop (ha : AnswersAs hp h) (old new : Nat) : ∀ (us : List Link) (s : S × List S) (st : σ),
    EndsAs (fuseP hp) (fuseCall h) s ⟨st, false⟩ (D'.rebaseLoop h old new us s ⟨st, false⟩)
      (P.rebaseLoop hp old new us s.1 ⟨st, false⟩) := by
  intro us
  induction us with
  | nil => intro s st; exact .done rfl
  | cons u us ih =>
    intro s st
    have e : D'.rebaseLoop h old new (u :: us) s ⟨st, false⟩ =
        (D'.rebaseOne h old new u s ⟨st, false⟩).bind fun o => match o.res with
          | .error e => some ⟨.error e, o.st, o.hs⟩
          | .ok _ => D'.rebaseLoop h old new us o.st o.hs := by
      simp only [Links.rebaseLoop]
      cases D'.rebaseOne h old new u s ⟨st, false⟩ <;> rfl
    rw [e]
    refine (w.rebaseOne s ha old new u st).bind (answers_fuse ha) fun o ho => ?_
    obtain ⟨es, he⟩ := ho
    rw [callAll_fuse] at he
    rcases o with ⟨r, t, f⟩
    simp only at he
    subst he
    cases r with
    | error e => exact .done rfl
    | ok _ => exact ih t _

theorem rebaseWith (ha : AnswersAs hp h) (old new : Nat) (st : σ) :
    EndsAs hp h s st (D'.rebaseWith s old new h st) (P.rebaseWith s.1 old new hp st) := by
  simp only [Links.rebaseWith, LinksP.rebaseWith]
  rw [w.watch.consts]
  refine .read (w.watch.tryGetLink s old) fun r => ?_
  cases r with
  | error e => exact .done rfl
  | ok _ =>
    exact .ite (.done rfl) (.read (w.watch.eachIter s _) fun _ => .read (w.watch.eachIter s _) fun _ =>
      unfuse (g := fun r => r) (w.rebaseLoop ha old new _ s st))

/-- Every method that takes a write handler. -/
theorem perform (ha : AnswersAs hp h) (st : σ) (j : Job) :
    EndsAs hp h s st (D'.perform s h st j) (P.perform s.1 hp st j) := by
  have hun : ∀ {α : Type} {x' : Option (Out (S × List S) σ α)} {x : Option (Ran S σ α)}, EndsAs hp h s st x' x →
      EndsAs hp h s st (x'.map Out.unit) (x.map (Ran.map Out.unit)) := fun hx =>
    hx.map (fun _ => rfl) (fun _ => rfl) (fun _ _ he => he) fun _ => rfl
  cases j with
  | create => exact hun (w.createWith s ha st)
  | update i a b => exact hun (w.updateWith s ha i a b st)
  | delete i => exact hun (w.deleteWith s ha i st)
  | createLink a b => exact hun (w.createLinkWith s ha a b st)
  | deleteQuery q => exact w.deleteQueryWith s ha q st
  | deleteUsages i => exact w.deleteUsagesWith s ha i st
  | rebase old new => exact w.rebaseWith s ha old new st

/-! ### Decorators -/

theorem uniqueValidator : Alarmed step J (uniqueValidator D') P.uniqueValidator where
  watch := w.watch.uniqueValidator
  create := w.create
  delete := w.delete
  update s q ch hp h st ha := by
    simp only [Verif.uniqueValidator, LinksP.uniqueValidator]
    cases ch[1]? with
    | none => exact .none
    | some a =>
      cases ch[2]? with
      | none => exact .none
      | some b =>
        simp only
        rw [w.watch.consts]
        exact .read (w.watch.found s _) fun f => .ite (.done rfl) (w.updateByWith s ha q ch st)

theorem uniqueResolver : Alarmed step J (uniqueResolver D') P.uniqueResolver where
  watch := w.watch.uniqueResolver
  create := w.create
  delete := w.delete
  update s q ch hp h st ha := by
    simp only [Verif.uniqueResolver, LinksP.uniqueResolver]
    cases q[0]? with
    | none => exact .none
    | some i =>
      cases ch[1]? with
      | none => exact .none
      | some a =>
        cases ch[2]? with
        | none => exact .none
        | some b =>
          refine .read (w.watch.search s a b) fun r => ?_
          cases r with
          | none => exact w.updateWith s ha i a b st
          | some old =>
            refine (w.deleteWith s ha i st).bind ha fun o _ => ?_
            rcases o with ⟨r, t, f⟩
            cases r with
            | error e => exact .done rfl
            | ok _ => exact w.updateWith t ha old a b f

theorem cascadeUniqueResolver : Alarmed step J (cascadeUniqueResolver D') P.cascadeUniqueResolver where
  watch := w.watch.cascadeUniqueResolver
  create := w.create
  delete := w.delete
  update s q ch hp h st ha := by
    simp only [Verif.cascadeUniqueResolver, LinksP.cascadeUniqueResolver]
    cases q[0]? with
    | none => exact .none
    | some i =>
      cases ch[1]? with
      | none => exact .none
      | some a =>
        cases ch[2]? with
        | none => exact .none
        | some b =>
          refine .read (w.watch.search s a b) fun r => ?_
          cases r with
          | none => exact w.updateWith s ha i a b st
          | some old =>
            refine (w.rebaseWith s ha i old st).bind ha fun o _ => ?_
            rcases o with ⟨r, t, f⟩
            cases r with
            | error e => exact .done rfl
            | ok _ =>
              refine (w.deleteWith t ha i f).bind ha fun o _ => ?_
              rcases o with ⟨r, t, f⟩
              cases r with
              | error e => exact .done rfl
              | ok _ => exact w.updateWith t ha old a b f

theorem checkUsages {σ : Type} {hp : PH σ} {h : WH σ} (q : List Nat) (st : σ)
    {x' : Option (Out (S × List S) σ Flow)} {x : Option (Ran S σ Flow)} (hx : EndsAs hp h s st x' x) :
    EndsAs hp h s st (checkUsages D' s q st x') (P.checkUsages s.1 q st x) := by
  unfold Verif.checkUsages LinksP.checkUsages
  rw [w.watch.consts]
  cases q[(P.reads.consts s.1).indexPart]? with
  | none => exact .none
  | some i =>
    refine .read (w.watch.usages s i) fun r => ?_
    cases r with
    | error e => exact .done rfl
    | ok us =>
      refine .ite hx ?_
      rw [w.watch.tryGetLinks s us]
      cases Verif.tryGetLinks P.reads s.1 us with
      | none => exact .none
      | some r => cases r <;> exact .done rfl

theorem usagesValidator : Alarmed step J (usagesValidator D') P.usagesValidator where
  watch := w.watch.usagesValidator
  create := w.create
  update s q ch hp h st ha := w.checkUsages s q st (w.updateByWith s ha q ch st)
  delete s q hp h st ha := w.checkUsages s q st (w.deleteByWith s ha q st)

theorem cascadeUsagesResolver : Alarmed step J (cascadeUsagesResolver D') P.cascadeUsagesResolver where
  watch := w.watch.cascadeUsagesResolver
  create := w.create
  update := w.update
  delete s q hp h st ha := by
    simp only [Verif.cascadeUsagesResolver, LinksP.cascadeUsagesResolver]
    cases q[0]? with
    | none => exact .none
    | some i =>
      refine (w.deleteUsagesWith s ha i st).bind ha fun o _ => ?_
      rcases o with ⟨r, t, f⟩
      cases r with
      | error e => exact .done rfl
      | ok _ => exact w.deleteByWith t ha q f

theorem nonNullDeletionResolver : Alarmed step J (nonNullDeletionResolver D') P.nonNullDeletionResolver where
  watch := w.watch.nonNullDeletionResolver
  create := w.create
  update := w.update
  delete s q hp h st ha := by
    simp only [Verif.nonNullDeletionResolver, LinksP.nonNullDeletionResolver]
    rw [w.watch.consts]
    cases q[0]? with
    | none => exact .none
    | some i =>
      refine (w.updateByWith s ha q _ st).bind ha fun o _ => ?_
      rcases o with ⟨r, t, f⟩
      cases r with
      | error e => exact .done rfl
      | ok _ => exact w.deleteByWith t ha q f

theorem deco (d : Deco) : Alarmed step J (d.wrap D') (P.deco d) := by
  cases d with
  | uniqueValidator => exact w.uniqueValidator
  | uniqueResolver => exact w.uniqueResolver
  | cascadeUniqueResolver => exact w.cascadeUniqueResolver
  | usagesValidator => exact w.usagesValidator
  | cascadeUsagesResolver => exact w.cascadeUsagesResolver
  | nonNullDeletionResolver => exact w.nonNullDeletionResolver

theorem stack (ds : List Deco) : Alarmed step J (stack ds D') (P.stack ds) := by
  induction ds with
  | nil => exact w
  | cons d ds ih => exact ih.deco d

end Alarmed

/-! ## The watched store -/

/-- The three writes of a store call the handler last. -/
structure Courteous {S : Type} (D : Links S) (P : LinksP S) : Prop where
  reads : P.reads = D
  create : ∀ s q, ShowsLast (fun _ h st => D.createLinks s q h st) (fun _ h st => P.createLinks s q h st)
  update : ∀ s q ch, ShowsLast (fun _ h st => D.updateLinks s q ch h st) (fun _ h st => P.updateLinks s q ch h st)
  delete : ∀ s q, ShowsLast (fun _ h st => D.deleteLinks s q h st) (fun _ h st => P.deleteLinks s q h st)

section
variable {S : Type} {D : Links S} {P : LinksP S} (W : Lawful D)

theorem ends_of_showsLast {call : (σ : Type) → WH σ → σ → Option (Out S σ Flow)}
    {callP : (σ : Type) → PH σ → σ → Option (Ran S σ Flow)} (hl : ShowsLast call callP) {σ : Type} {hp : PH σ} {h : WH σ}
    (ha : AnswersAs hp h) (p : S × List S) (st : σ) :
    EndsAs hp h p st ((call σ h st).map fun o =>
      ⟨o.res, (o.st, match o.res with | .ok _ => p.2 ++ [o.st] | .error _ => p.2), o.hs⟩) (callP σ hp st) := by
  intro o ho
  rcases hl with ⟨h1, -⟩ | ⟨e, s', h1, h2⟩ | ⟨s', b, a, h1, h2⟩
  · rw [h1] at ho; cases ho
  · rw [h1] at ho
    cases ho
    exact ⟨[], [], rfl, by simp, rfl, by rw [h2]; rfl⟩
  · rw [h1 σ h st] at ho
    cases ho
    refine ⟨[(b, a)], [s'], rfl, rfl, rfl, ?_⟩
    simp only [panicsAt, h2, lastly]
    cases hx : hp st b a with
    | none => exact ⟨s', rfl, rfl⟩
    | some r => simp only [Option.map_none]; rw [ha _ _ _ _ hx]

theorem watched_alarmed (hP : Courteous D P) : Alarmed (Noted W) (fun p => W.Inv p.1) (watched W) P where
  watch := by rw [hP.reads]; exact watched_watch W
  create p q hp h st ha := by
    simp only [watched]
    split
    · exact ends_of_showsLast (hP.create p.1 q) ha p st
    · exact .none
  update p q ch hp h st ha := by
    simp only [watched]
    split
    · exact ends_of_showsLast (hP.update p.1 q ch) ha p st
    · exact .none
  delete p q hp h st ha := by
    simp only [watched]
    split
    · exact ends_of_showsLast (hP.delete p.1 q) ha p st
    · exact .none

end

end Verif
