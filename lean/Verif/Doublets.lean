import Verif.Basic

/-!
# The `Links`/`Doublets` traits and their default methods (`doublets/src/data/traits.rs`)

`Links S` is the record of required methods; the default methods are functions of that record, so
they are written and reasoned about once for every store.
-/

namespace Verif

/-! ## `Fuse` (`doublets/src/data/handler.rs`) -/

/-- `Fuse` (`handler.rs:26-35`): the wrapped handler's state and the `done` flag. -/
structure FuseSt (σ : Type) where
  inner : σ
  done : Bool := false

/-- `Fuse::call_mut` (`handler.rs:82-94`). On a break the flag is set to `false` (`handler.rs:88`). -/
def fuseCall {σ ρ : Type} (h : σ → Link → Link → Ctl ρ × σ) (f : FuseSt σ) (b a : Link) :
    Flow × FuseSt σ :=
  if f.done then (.brk (), f)
  else
    match h f.inner b a with
    | (.brk _, st) => (.brk (), { inner := st, done := false })
    | (.cont, st) => (.cont, { f with inner := st })

/-! ## Traits -/

/-- Required methods of `Links` (`traits.rs:16-36`) and `Doublets` (`traits.rs:256`), together with
`T::MAX`. Reads do not return a store: they take `&self`. -/
structure Links (S : Type) where
  maxT : Nat
  consts : S → Consts
  countLinks : S → List Nat → Option Nat
  createLinks : {σ : Type} → S → List Nat → WH σ → σ → Option (Out S σ Flow)
  eachLinks : {σ : Type} → S → List Nat → RH σ → σ → Option (Flow × σ)
  updateLinks : {σ : Type} → S → List Nat → List Nat → WH σ → σ → Option (Out S σ Flow)
  deleteLinks : {σ : Type} → S → List Nat → WH σ → σ → Option (Out S σ Flow)
  getLink : S → Nat → Option (Option Link)

namespace Links
variable {S σ ρ : Type} (D : Links S)

/-- A handler over an arbitrary `R: Try`. -/
abbrev Hd (σ ρ : Type) := σ → Link → Link → Ctl ρ × σ

/-- The closure built by the `*_by_with` methods (`traits.rs:65-73,148-157,211-219`): run the
handler, remember the residual in `output`, answer with a `Flow`. -/
def wrapW (h : Hd σ ρ) : WH (σ × Ctl ρ) := fun p b a =>
  match h p.1 b a with
  | (.cont, st) => (.cont, (st, p.2))
  | (.brk r, st) => (.brk (), (st, .brk r))

/-- `.map(|_| output)` (`traits.rs:75`). -/
def unwrapW (o : Out S (σ × Ctl ρ) Flow) : Out S σ (Ctl ρ) :=
  ⟨o.res.map fun _ => o.hs.2, o.st, o.hs.1⟩

/-- `count_by` (`traits.rs:38-43`). -/
def countBy (s : S) (q : List Nat) : Option Nat := D.countLinks s q

/-- `count` (`traits.rs:45-50`). -/
def count (s : S) : Option Nat := D.countBy s []

/-- `create_by_with` (`traits.rs:52-76`). -/
def createByWith (s : S) (q : List Nat) (h : Hd σ ρ) (st : σ) : Option (Out S σ (Ctl ρ)) :=
  (D.createLinks s q (wrapW h) (st, .cont)).map unwrapW

/-- The handler of `create_by`, `update_by` and `delete_by`: store `after.index`, continue. -/
def keepIndex : Hd Nat Unit := fun _ _ a => (.cont, a.index)

/-- `.map(|_| index)`. -/
def resultIndex (o : Out S Nat Flow) : Out S Unit Nat := ⟨o.res.map fun _ => o.hs, o.st, ()⟩

/-- `create_by` (`traits.rs:78-88`). -/
def createBy (s : S) (q : List Nat) : Option (Out S Unit Nat) :=
  (D.createByWith s q keepIndex 0).map resultIndex

/-- `create_with` (`traits.rs:90-97`). -/
def createWith (s : S) (h : Hd σ ρ) (st : σ) : Option (Out S σ (Ctl ρ)) := D.createByWith s [] h st

/-- `create` (`traits.rs:99-104`). -/
def create (s : S) : Option (Out S Unit Nat) := D.createBy s []

/-- The closure built by `each_by` (`traits.rs:115-121`). -/
def wrapR (h : σ → Link → Ctl ρ × σ) : RH (σ × Ctl ρ) := fun p l =>
  match h p.1 l with
  | (.cont, st) => (.cont, (st, p.2))
  | (.brk r, st) => (.brk (), (st, .brk r))

/-- `each_by` (`traits.rs:106-124`). -/
def eachBy (s : S) (q : List Nat) (h : σ → Link → Ctl ρ × σ) (st : σ) : Option (Ctl ρ × σ) :=
  (D.eachLinks s q (wrapR h) (st, .cont)).map fun r => (r.2.2, r.2.1)

/-- `each` (`traits.rs:126-133`). -/
def each (s : S) (h : σ → Link → Ctl ρ × σ) (st : σ) : Option (Ctl ρ × σ) := D.eachBy s [] h st

/-- `update_by_with` (`traits.rs:135-162`). -/
def updateByWith (s : S) (q ch : List Nat) (h : Hd σ ρ) (st : σ) : Option (Out S σ (Ctl ρ)) :=
  (D.updateLinks s q ch (wrapW h) (st, .cont)).map unwrapW

/-- `update_by` (`traits.rs:164-174`). -/
def updateBy (s : S) (q ch : List Nat) : Option (Out S Unit Nat) :=
  (D.updateByWith s q ch keepIndex 0).map resultIndex

/-- `update_with` (`traits.rs:176-189`). -/
def updateWith (s : S) (i a b : Nat) (h : Hd σ ρ) (st : σ) : Option (Out S σ (Ctl ρ)) :=
  D.updateByWith s [i] [i, a, b] h st

/-- `update` (`traits.rs:191-196`). -/
def update (s : S) (i a b : Nat) : Option (Out S Unit Nat) := D.updateBy s [i] [i, a, b]

/-- `delete_by_with` (`traits.rs:198-222`). -/
def deleteByWith (s : S) (q : List Nat) (h : Hd σ ρ) (st : σ) : Option (Out S σ (Ctl ρ)) :=
  (D.deleteLinks s q (wrapW h) (st, .cont)).map unwrapW

/-- `delete_by` (`traits.rs:224-234`). -/
def deleteBy (s : S) (q : List Nat) : Option (Out S Unit Nat) :=
  (D.deleteByWith s q keepIndex 0).map resultIndex

/-- `delete_with` (`traits.rs:236-243`). -/
def deleteWith (s : S) (i : Nat) (h : Hd σ ρ) (st : σ) : Option (Out S σ (Ctl ρ)) :=
  D.deleteByWith s [i] h st

/-- `delete` (`traits.rs:245-250`). -/
def delete (s : S) (i : Nat) : Option (Out S Unit Nat) := D.deleteBy s [i]

/-- `try_get_link` (`traits.rs:252-254`). -/
def tryGetLink (s : S) (i : Nat) : Option (Except Err Link) :=
  (D.getLink s i).map fun
    | none => .error (.notExists i)
    | some l => .ok l

/-- Loop of `delete_all` (`traits.rs:262-267`); out of fuel = the loop does not terminate. -/
def deleteAllLoop : Nat → S → Nat → Option (Out S Unit Unit)
  | 0, _, _ => none
  | fuel + 1, s, count =>
    if count = 0 then some ⟨.ok (), s, ()⟩
    else
      match D.delete s count with
      | none => none
      | some o =>
        match o.res with
        | .error e => some ⟨.error e, o.st, ()⟩
        | .ok _ => (D.count o.st).bind fun n => deleteAllLoop fuel o.st n

/-- `delete_all` (`traits.rs:258-269`). For stores in which a successful delete lowers the count the
fuel is exact. -/
def deleteAll (s : S) : Option (Out S Unit Unit) :=
  (D.count s).bind fun n => D.deleteAllLoop (n + 1) s n

/-- `for index in list { self.delete_with(index, &mut handler)?; }` (`traits.rs:291-293,323-325`). -/
def deleteLoop (h : Hd σ ρ) : List Nat → S → FuseSt σ → Option (Out S (FuseSt σ) Unit)
  | [], s, f => some ⟨.ok (), s, f⟩
  | i :: is, s, f =>
    match D.deleteWith s i (fuseCall h) f with
    | none => none
    | some o =>
      match o.res with
      | .error e => some ⟨.error e, o.st, o.hs⟩
      | .ok _ => deleteLoop h is o.st o.hs

/-- Collect the links a traversal visits, e.g. `traits.rs:285-288`, `663-666`. -/
def collect (s : S) (q : List Nat) : Option (List Link) :=
  (D.eachBy (ρ := Unit) s q (fun acc l => (.cont, acc ++ [l])) []).map (·.2)

/-- `each_iter` (`traits.rs:659-669`), `par_each_iter` and `each_iter_small` alike: the count is used as
a capacity hint only. -/
def eachIter (s : S) (q : List Nat) : Option (List Link) :=
  (D.countBy s q).bind fun _ => D.collect s q

/-- `iter` (`traits.rs:652-654`). -/
def iter (s : S) : Option (List Link) :=
  let any := (D.consts s).any
  D.eachIter s [any, any, any]

/-- `delete_query_with` (`traits.rs:271-295`). -/
def deleteQueryWith (s : S) (q : List Nat) (h : Hd σ ρ) (st : σ) : Option (Out S σ Unit) :=
  (D.countBy s q).bind fun _ =>
  (D.collect s q).bind fun ls =>
  (D.deleteLoop h (ls.map (·.index)).reverse s { inner := st }).map fun o =>
    ⟨o.res, o.st, o.hs.inner⟩

/-- The indices other than `i` pushed by the two traversals of `delete_usages_with` and `usages`
(`traits.rs:308-320,464-476`). -/
def usageList (s : S) (i : Nat) : Option (List Nat) :=
  let any := (D.consts s).any
  (D.collect s [any, i, any]).bind fun l1 =>
  (D.collect s [any, any, i]).map fun l2 =>
    ((l1 ++ l2).map (·.index)).filter (· ≠ i)

/-- `delete_usages_with` (`traits.rs:297-327`). -/
def deleteUsagesWith (s : S) (i : Nat) (h : Hd σ ρ) (st : σ) : Option (Out S σ Unit) :=
  let any := (D.consts s).any
  (D.countBy s [any, i, any]).bind fun _ =>
  (D.countBy s [any, any, i]).bind fun _ =>
  (D.usageList s i).bind fun us =>
  (D.deleteLoop h us.reverse s { inner := st }).map fun o => ⟨o.res, o.st, o.hs.inner⟩

/-- A handler that always continues. -/
def contH : Hd Unit Unit := fun u _ _ => (.cont, u)

/-- `delete_usages` (`traits.rs:329-334`). -/
def deleteUsages (s : S) (i : Nat) : Option (Out S Unit Unit) := D.deleteUsagesWith s i contH ()

/-- `create_point` (`traits.rs:336-342`). -/
def createPoint (s : S) : Option (Out S Unit Nat) :=
  (D.create s).bind fun o =>
  match o.res with
  | .error e => some ⟨.error e, o.st, ()⟩
  | .ok new => D.update o.st new new new

/-- The closure of `create_link_with` (`traits.rs:352-356`): remember the index, call the fused
handler, ignore its answer. -/
def createLinkH (h : Hd σ ρ) : Hd (Nat × FuseSt σ) Unit := fun p b a =>
  (.cont, (a.index, (fuseCall h p.2 b a).2))

/-- `create_link_with` (`traits.rs:344-359`). -/
def createLinkWith (s : S) (source target : Nat) (h : Hd σ ρ) (st : σ) : Option (Out S σ Flow) :=
  (D.createWith s (createLinkH h) (0, { inner := st })).bind fun o =>
  match o.res with
  | .error e => some ⟨.error e, o.st, o.hs.2.inner⟩
  | .ok _ =>
    (D.updateWith o.st o.hs.1 source target (fuseCall h) o.hs.2).map fun o' =>
      ⟨o'.res, o'.st, o'.hs.inner⟩

/-- `create_link` (`traits.rs:361-371`). -/
def createLink (s : S) (source target : Nat) : Option (Out S Unit Nat) :=
  (D.createLinkWith s source target keepIndex 0).map resultIndex

/-- `found` (`traits.rs:373-378`). -/
def found (s : S) (q : List Nat) : Option Bool := (D.countBy s q).map (· != 0)

/-- `find` (`traits.rs:380-390`). -/
def find (s : S) (q : List Nat) : Option (Option Link) :=
  (D.eachBy (ρ := Unit) s q (fun _ l => (.brk (), some l)) none).map (·.2)

/-- `search` (`traits.rs:392-398`). -/
def search (s : S) (source target : Nat) : Option (Option Nat) :=
  (D.find s [(D.consts s).any, source, target]).map fun r => r.map (·.index)

/-- `search_or` (`traits.rs:400-406`). -/
def searchOr (s : S) (source target dflt : Nat) : Option Nat :=
  (D.search s source target).map fun r => r.getD dflt

/-- `single` (`traits.rs:408-423`). -/
def single (s : S) (q : List Nat) : Option (Option Link) :=
  (D.eachBy (ρ := Unit) s q (fun r l => match r with
    | none => (.cont, some l)
    | some _ => (.brk (), none)) none).map (·.2)

/-- `get_or_create` (`traits.rs:425-434`). -/
def getOrCreate (s : S) (source target : Nat) : Option (Out S Unit Nat) :=
  (D.search s source target).bind fun
    | some i => some ⟨.ok i, s, ()⟩
    | none => D.createLink s source target

/-- `count_usages` (`traits.rs:436-455`). -/
def countUsagesOf (s : S) (i : Nat) : Option (Except Err Nat) :=
  let any := (D.consts s).any
  (D.tryGetLink s i).bind fun
    | .error e => some (.error e)
    | .ok l =>
      (D.countBy s [any, i, any]).bind fun us =>
      (if i = l.source then csub us 1 else some us).bind fun us =>
      (D.countBy s [any, any, i]).bind fun ut =>
      (if i = l.target then csub ut 1 else some ut).bind fun ut =>
      (cadd D.maxT us ut).map .ok

/-- `usages` (`traits.rs:457-478`). -/
def usages (s : S) (i : Nat) : Option (Except Err (List Nat)) :=
  (D.countUsagesOf s i).bind fun
    | .error e => some (.error e)
    | .ok _ => (D.usageList s i).map .ok

/-- `exist` (`traits.rs:480-490`); `is_external`/`is_internal` of the external crate are range checks. -/
def exist (s : S) (i : Nat) : Option Bool :=
  let k := D.consts s
  if (match k.external with | none => false | some r => r.1 ≤ i && i ≤ r.2) then some true
  else if k.internalStart ≤ i ∧ i ≤ k.internalEnd then (D.countBy s [i]).map (· != 0)
  else some false

/-- `has_usages` (`traits.rs:492-498`). -/
def hasUsages (s : S) (i : Nat) : Option Bool :=
  (D.countUsagesOf s i).map fun
    | .error _ => false
    | .ok n => n != 0

/-- One step of the `try_for_each` in `rebase_with` (`traits.rs:521-529`). -/
def rebaseOne (h : Hd σ ρ) (old new : Nat) (u : Link) (s : S) (f : FuseSt σ) :
    Option (Out S (FuseSt σ) Unit) :=
  (if u.source = old then
    (D.updateWith s u.index new u.target (fuseCall h) f).map fun o =>
      (⟨o.res.map fun _ => (), o.st, o.hs⟩ : Out S (FuseSt σ) Unit)
   else some ⟨.ok (), s, f⟩).bind fun o =>
  match o.res with
  | .error e => some ⟨.error e, o.st, o.hs⟩
  | .ok _ =>
    if u.target = old then
      (D.updateWith o.st u.index u.source new (fuseCall h) o.hs).map fun o' =>
        ⟨o'.res.map fun _ => (), o'.st, o'.hs⟩
    else some o

/-- The `try_for_each` of `rebase_with`. -/
def rebaseLoop (h : Hd σ ρ) (old new : Nat) : List Link → S → FuseSt σ →
    Option (Out S (FuseSt σ) Unit)
  | [], s, f => some ⟨.ok (), s, f⟩
  | u :: us, s, f =>
    match D.rebaseOne h old new u s f with
    | none => none
    | some o =>
      match o.res with
      | .error e => some ⟨.error e, o.st, o.hs⟩
      | .ok _ => rebaseLoop h old new us o.st o.hs

/-- `rebase_with` (`traits.rs:500-531`). Both `each_iter` snapshots are taken before the first update. -/
def rebaseWith (s : S) (old new : Nat) (h : Hd σ ρ) (st : σ) : Option (Out S σ Unit) :=
  let any := (D.consts s).any
  (D.tryGetLink s old).bind fun
    | .error e => some ⟨.error e, s, st⟩
    | .ok _ =>
      if old = new then some ⟨.ok (), s, st⟩
      else
        (D.eachIter s [any, old, any]).bind fun l1 =>
        (D.eachIter s [any, any, old]).bind fun l2 =>
        (D.rebaseLoop h old new ((l1 ++ l2).filter (·.index ≠ old)) s { inner := st }).map fun o =>
          ⟨o.res, o.st, o.hs.inner⟩

/-- `rebase` (`traits.rs:533-539`). -/
def rebase (s : S) (old new : Nat) : Option (Out S Unit Nat) :=
  (D.rebaseWith s old new contH ()).map fun o => ⟨o.res.map fun _ => new, o.st, ()⟩

/-- `rebase_and_delete` (`traits.rs:541-551`). -/
def rebaseAndDelete (s : S) (old new : Nat) : Option (Out S Unit Nat) :=
  if old = new then some ⟨.ok new, s, ()⟩
  else
    (D.rebase s old new).bind fun o =>
    match o.res with
    | .error e => some ⟨.error e, o.st, ()⟩
    | .ok _ => D.delete o.st old

end Links
end Verif
