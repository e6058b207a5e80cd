import Verif.Props.UnitDerived
import Verif.Props.UnitQueries
import Verif.Split.Example

/-!
# C66: calls with queries and changes of an unexpected length
-/

namespace Verif.Unit.Props
open Verif.Unit

variable {c : Cfg}

/-- **C66**, reads of the united store: a traversal panics exactly if its query has more than three parts; so does a count, up
to the overflow described in C14 for two parts. -/
theorem C66_reads_panic_iff_too_long (hc : CfgOK c) {s : Store} (h : Reach c s) (q : List Nat) :
    (∀ {σ ρ : Type} (hd : σ → Link → Ctl ρ × σ) (st : σ), (links c).eachBy s q hd st = none ↔ 3 < q.length) ∧
    (q.length ≠ 2 → ((links c).countBy s q = none ↔ 3 < q.length)) := by
  obtain ⟨-, h1, h2, -, -⟩ := C14_reads_never_panic hc h
  refine ⟨fun hd st => ⟨fun e => ?_, fun e => ?_⟩, fun hne => ⟨fun e => ?_, fun e => ?_⟩⟩
  · rcases Nat.lt_or_ge 3 q.length with hl | hl
    · exact hl
    · obtain ⟨r, hr⟩ := h1 q hl hd st
      rw [hr] at e; cases e
  · have : (links c).eachLinks s q (Links.wrapR hd) (st, .cont) = none := by
      simp only [links, eachLinks]
      rw [if_neg (by omega)]
      cases q[c.consts.indexPart]? with
      | none => rfl
      | some i =>
        simp only [Option.bind_some]
        rw [if_neg (by omega), if_neg (by omega), if_neg (by omega)]
    simp only [Links.eachBy, this, Option.map_none]
  · rcases Nat.lt_or_ge 3 q.length with hl | hl
    · exact hl
    · obtain ⟨r, hr⟩ := h2 q hl hne
      rw [hr] at e; cases e
  · simp only [Links.countBy, links, countLinks]
    rw [if_neg (by omega)]
    cases q[c.consts.indexPart]? with
    | none => rfl
    | some i =>
      simp only [Option.bind_some]
      rw [if_neg (by omega), if_neg (by omega), if_neg (by omega)]

example : Reach cfg0 sNet ∧ (links cfg0).countBy sNet [1, 2, 3, 4] = none ∧ (links cfg0).countBy sNet [3, 1, 2] ≠ none :=
  ⟨sNet_reach, by decide +kernel⟩

/-- **C66**, writes of the united store: creation ignores its query; update uses the first part of the query and the second and third of
the change, delete the first part of the query, and nothing else. -/
theorem C66_parts_used (s : Store) {σ ρ : Type} (hd : σ → Link → Link → Ctl ρ × σ) (st : σ) :
    (∀ q, (links c).createByWith s q hd st = (links c).createWith s hd st) ∧
    (∀ i q x a b ch, (links c).updateByWith s (i :: q) (x :: a :: b :: ch) hd st = (links c).updateWith s i a b hd st) ∧
    ∀ i q, (links c).deleteByWith s (i :: q) hd st = (links c).deleteWith s i hd st :=
  ⟨fun _ => rfl, fun _ _ _ _ _ _ => rfl, fun _ _ => rfl⟩

/-- **C66**, writes of the united store: an update panics exactly if its query is empty or its change has fewer than three parts, and a
delete exactly if its query is empty (for links without a twin, C14). -/
theorem C66_writes_panic_iff_too_short (hc : CfgOK c) {s : Store} (h : Reach c s) (q ch : List Nat)
    (ht : ∀ i q', q = i :: q' → ((links c).view s).NoTwin i)
    {σ ρ : Type} (hd : σ → Link → Link → Ctl ρ × σ) (st : σ) :
    ((links c).updateByWith s q ch hd st = none ↔ q = [] ∨ ch.length < 3) ∧
    ((links c).deleteByWith s q hd st = none ↔ q = []) := by
  have hw := (C14_writes_never_panic hc h hd st).2
  cases q with
  | nil => exact ⟨⟨fun _ => .inl rfl, fun _ => rfl⟩, ⟨fun _ => rfl, fun _ => rfl⟩⟩
  | cons i q =>
    obtain ⟨hu, o, ho⟩ := hw i (ht i q rfl)
    refine ⟨⟨fun e => ?_, fun e => ?_⟩, ⟨fun e => ?_, fun e => (nomatch e)⟩⟩
    · match ch with
      | [] | [_] | [_, _] => exact .inr (by simp)
      | x :: a :: b :: ch =>
        obtain ⟨o, ho⟩ := hu a b
        rw [(C66_parts_used s hd st).2.1, ho] at e; cases e
    · match ch with
      | [] | [_] | [_, _] => rfl
      | x :: a :: b :: ch => simp at e; omega
    · rw [(C66_parts_used s hd st).2.2, ho] at e; cases e

example : Reach cfg0 sNet ∧ ∀ i q', [3, 7] = i :: q' → ((links cfg0).view sNet).NoTwin i :=
  ⟨sNet_reach, fun i q' e => by
    obtain ⟨rfl, -⟩ := List.cons.inj e
    exact twinFree_noTwin cfg0_ok (reach_good cfg0_ok sNet_reach) (by decide +kernel)⟩

/-- A query that names more than the index does not protect: deleting "link 6 if its source is 9" deletes 6 = (3,2). -/
theorem C66_restrictions_are_ignored :
    (links cfg0).view sNet 6 = some (3, 2) ∧
    ∃ o, (links cfg0).deleteBy sNet [6, 9, 9] = some o ∧ (links cfg0).view o.st 6 = none := by
  refine ⟨by decide +kernel, ?_⟩
  have h : ((links cfg0).deleteBy sNet [6, 9, 9]).map (fun o => (links cfg0).view o.st 6) = some none := by decide +kernel
  cases ho : (links cfg0).deleteBy sNet [6, 9, 9] with
  | none => rw [ho] at h; cases h
  | some o => rw [ho] at h; exact ⟨o, rfl, by simpa using h⟩

end Verif.Unit.Props

namespace Verif.Split.Props
open Verif.Split

variable {c : Cfg}

/-- **C66**, split store: queries of more than three parts make traversal and count panic, empty queries and changes of fewer than
three parts make update and delete panic, whatever the store holds. -/
theorem C66_malformed_calls_panic (s : Store) (q ch : List Nat) :
    (3 < q.length → (links c).countBy s q = none ∧
      ∀ {σ ρ : Type} (hd : σ → Link → Ctl ρ × σ) (st : σ), (links c).eachBy s q hd st = none) ∧
    ∀ {σ ρ : Type} (hd : σ → Link → Link → Ctl ρ × σ) (st : σ),
      (q = [] ∨ ch.length < 3 → (links c).updateByWith s q ch hd st = none) ∧
      (q = [] → (links c).deleteByWith s q hd st = none) := by
  refine ⟨fun e => ⟨?_, fun hd st => ?_⟩, fun hd st => ⟨fun e => ?_, fun e => by subst e; rfl⟩⟩
  · simp only [Links.countBy, links, countLinks]
    rw [if_neg (by omega)]
    cases q[c.consts.indexPart]? with
    | none => rfl
    | some i =>
      simp only [Option.bind_some]
      rw [if_neg (by omega), if_neg (by omega), if_neg (by omega)]
  · have : (links c).eachLinks s q (Links.wrapR hd) (st, .cont) = none := by
      simp only [links, eachLinks]
      rw [if_neg (by omega)]
      cases q[c.consts.indexPart]? with
      | none => rfl
      | some i =>
        simp only [Option.bind_some]
        rw [if_neg (by omega), if_neg (by omega), if_neg (by omega)]
    simp only [Links.eachBy, this, Option.map_none]
  · rcases e with rfl | e
    · rfl
    · cases q with
      | nil => rfl
      | cons i q =>
        match ch with
        | [] | [_] | [_, _] => rfl
        | x :: a :: b :: ch => simp at e; omega

/-- **C66**, split store: the parts of queries and changes that calls use. -/
theorem C66_parts_used (s : Store) {σ ρ : Type} (hd : σ → Link → Link → Ctl ρ × σ) (st : σ) :
    (∀ q, (links c).createByWith s q hd st = (links c).createWith s hd st) ∧
    (∀ i q x a b ch, (links c).updateByWith s (i :: q) (x :: a :: b :: ch) hd st = (links c).updateWith s i a b hd st) ∧
    ∀ i q, (links c).deleteByWith s (i :: q) hd st = (links c).deleteWith s i hd st :=
  ⟨fun _ => rfl, fun _ _ _ _ _ _ => rfl, fun _ _ => rfl⟩

end Verif.Split.Props
