import Verif.Doublets

/-!
# The decorators (`doublets-decorators/src`)

The crate is written against an older version of `doublets` (it is excluded from the workspace), whose `Doublets` trait
had the generic `*_by_with` methods as required methods. The model expresses each decorator as a store over the current
required methods: the overridden method is written with the `*_by_with` and default methods of the current
`traits.rs`, everything else is forwarded to the wrapped store as in the code (`constants`, `count_by`, `create_by_with`,
`each_by`, and `update_by_with` or `delete_by_with` where not overridden; lookups by index as well).
-/

namespace Verif
open Verif

variable {S : Type}

/-- `UniqueValidator` (`unique_validator.rs:25-77`); the update is `unique_validator.rs:50-68`. -/
def uniqueValidator (D : Links S) : Links S :=
  { D with
    updateLinks := fun s query change handler st =>
      match change[1]?, change[2]? with
      | some source, some target =>
        (D.found s [(D.consts s).any, source, target]).bind fun f =>
        if f then some ⟨.error (.alreadyExists source target), s, st⟩
        else D.updateByWith s query change handler st
      | _, _ => none }

/-- `UniqueResolver` (`unique_resolver.rs:25-83`); the update is `unique_resolver.rs:50-74`. -/
def uniqueResolver (D : Links S) : Links S :=
  { D with
    updateLinks := fun s query change handler st =>
      match query[0]?, change[1]?, change[2]? with
      | some new, some source, some target =>
        (D.search s source target).bind fun
          | some old =>
            (D.deleteWith s new handler st).bind fun o =>
            match o.res with
            | .error e => some ⟨.error e, o.st, o.hs⟩
            | .ok _ => D.updateWith o.st old source target handler o.hs
          | none => D.updateWith s new source target handler st
      | _, _, _ => none }

/-- `CascadeUniqueResolver` (`cascade_unique_resolver.rs:29-88`); the update is `cascade_unique_resolver.rs:54-79`. -/
def cascadeUniqueResolver (D : Links S) : Links S :=
  { D with
    updateLinks := fun s query change handler st =>
      match query[0]?, change[1]?, change[2]? with
      | some new, some source, some target =>
        (D.search s source target).bind fun
          | some old =>
            (D.rebaseWith s new old handler st).bind fun o =>
            match o.res with
            | .error e => some ⟨.error e, o.st, o.hs⟩
            | .ok _ =>
              (D.deleteWith o.st new handler o.hs).bind fun o =>
              match o.res with
              | .error e => some ⟨.error e, o.st, o.hs⟩
              | .ok _ => D.updateWith o.st old source target handler o.hs
          | none => D.updateWith s new source target handler st
      | _, _, _ => none }

/-- `usages.into_iter().map(|index| links.try_get_link(index)).collect::<Result<_, _>>()`
(`usages_validator.rs:67-71,87-91`). -/
def tryGetLinks (D : Links S) (s : S) : List Nat → Option (Except Err (List Link))
  | [] => some (.ok [])
  | i :: is =>
    (D.tryGetLink s i).bind fun
      | .error e => some (.error e)
      | .ok l => (tryGetLinks D s is).map fun r => r.map (l :: ·)

/-- The check common to both methods of `UsagesValidator` (`usages_validator.rs:60-73,80-93`). -/
def checkUsages {σ : Type} (D : Links S) (s : S) (query : List Nat) (st : σ)
    (go : Option (Out S σ Flow)) : Option (Out S σ Flow) :=
  match query[(D.consts s).indexPart]? with
  | none => none
  | some index =>
    (D.usages s index).bind fun
      | .error e => some ⟨.error e, s, st⟩
      | .ok us =>
        if us.isEmpty then go
        else
          (tryGetLinks D s us).map fun
            | .error e => ⟨.error e, s, st⟩
            | .ok ls => ⟨.error (.hasUsages ls), s, st⟩

/-- `UsagesValidator` (`usages_validator.rs:25-94`); update and delete are `usages_validator.rs:50-93`. -/
def usagesValidator (D : Links S) : Links S :=
  { D with
    updateLinks := fun s query change handler st =>
      checkUsages D s query st (D.updateByWith s query change handler st)
    deleteLinks := fun s query handler st =>
      checkUsages D s query st (D.deleteByWith s query handler st) }

/-- `CascadeUsagesResolver` (`cascade_usages_resolver.rs:25-76`); the deletion is
`cascade_usages_resolver.rs:63-75`. -/
def cascadeUsagesResolver (D : Links S) : Links S :=
  { D with
    deleteLinks := fun s query handler st =>
      match query[0]? with
      | none => none
      | some index =>
        (D.deleteUsagesWith s index handler st).bind fun o =>
        match o.res with
        | .error e => some ⟨.error e, o.st, o.hs⟩
        | .ok _ => D.deleteByWith o.st query handler o.hs }

/-- `NonNullDeletionResolver` (`non_null_deletion_resolver.rs:25-78`); the deletion is
`non_null_deletion_resolver.rs:63-77`. -/
def nonNullDeletionResolver (D : Links S) : Links S :=
  { D with
    deleteLinks := fun s query handler st =>
      let null := (D.consts s).null
      match query[0]? with
      | none => none
      | some index =>
        (D.updateByWith s query [index, null, null] handler st).bind fun o =>
        match o.res with
        | .error e => some ⟨.error e, o.st, o.hs⟩
        | .ok _ => D.deleteByWith o.st query handler o.hs }

end Verif
