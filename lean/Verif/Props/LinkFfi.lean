import Verif.LinkHelpers
import Verif.Ffi
import Verif.Unit.Example
import Verif.Unit.CreateCases
import Verif.Props.UnitQueries

/-!
# Properties C36, C37, C38, C48, C49: `Link` helpers and the C interface
-/

namespace Verif.Ffi.Props
open Verif Verif.Ffi

/-! ## C36 -/

/-- **C36** `Link::nothing` is the only null link. -/
theorem C36_nothing_is_the_only_null_link (l : Link) :
    (l.isNull = true ↔ l = Link.nothing) ∧
    (l.isNull = true ↔ l.index = 0 ∧ l.source = 0 ∧ l.target = 0) := by
  rcases l with ⟨i, a, b⟩
  simp [Link.isNull, Link.point, Link.new, Link.nothing]

/-- **C36** points and partial points: `is_full` holds exactly of the links `point(i)`, `is_partial` of the links with
their index at one end at least, so every full point is partial. -/
theorem C36_points (l : Link) :
    (∀ i, (Link.point i).isFull = true ∧ Link.point i = ⟨i, i, i⟩) ∧
    (l.isFull = true ↔ l = Link.point l.index) ∧
    (l.isPartial = true ↔ l.source = l.index ∨ l.target = l.index) ∧
    (l.isFull = true → l.isPartial = true) := by
  rcases l with ⟨i, a, b⟩
  simp only [Link.isFull, Link.isPartial, Link.point, Link.new, Bool.and_eq_true, Bool.or_eq_true, beq_iff_eq,
    Link.mk.injEq, true_and, and_self, implies_true, eq_comm (a := a), eq_comm (a := b)]
  exact fun h => .inl h.1

/-- A partial point that is not full. -/
example : (Link.new 3 3 1).isPartial = true ∧ (Link.new 3 3 1).isFull = false := by decide

/-- **C36** a link survives the conversion to a slice and back, different links give different slices, and shorter
slices are rejected by a panic. -/
theorem C36_slice_round_trip (l : Link) (xs : List Nat) :
    Link.fromSlice l.asSlice = .ret l ∧ l.toQuery = [l.index, l.source, l.target] ∧
    (Link.fromSlice xs = .panic ↔ xs.length < 3) ∧ (Link.fromSlice xs = .ret l ↔ xs = l.asSlice) := by
  refine ⟨rfl, rfl, ?_, ?_⟩
  · unfold Link.fromSlice
    split
    · next h =>
      unfold Link.fromSliceUnchecked
      split
      · simp
      · simp; omega
    · next h => simp; omega
  · unfold Link.fromSlice Link.fromSliceUnchecked Link.asSlice Link.new
    rcases l with ⟨i, a, b⟩
    match xs with
    | [] => simp
    | [_] => simp
    | [_, _] => simp
    | [x, y, z] => simp
    | _ :: _ :: _ :: _ :: _ => simp

/-- Beside **C36**: the safe function `from_slice` has undefined behaviour on every slice of more than three elements,
which pass its assertion. -/
theorem C36_from_slice_of_longer_slices_is_undefined (xs : List Nat) (h : 3 < xs.length) :
    Link.fromSlice xs = .ub := by
  match xs, h with
  | _ :: _ :: _ :: _ :: _, _ => simp [Link.fromSlice, Link.fromSliceUnchecked]

example : Link.fromSlice [1, 2] = .panic ∧ Link.fromSlice [1, 2, 3] = .ret ⟨1, 2, 3⟩ ∧
    Link.fromSlice [1, 2, 3, 4] = .ub := by decide

/-! ## C37 -/

/-- **C37** converting constants to the C structure and back gives the same constants, whether or not they have an
external range. -/
theorem C37_constants_round_trip (k : Consts) : (Constants.ofConsts k).toConsts = k := by
  rcases k with ⟨a, b, c, d, e, f, g, h, i, j, l, m, x⟩
  cases x <;> rfl

/-- **C37**, the other direction: a C structure survives if its external range is (0, 0) whenever it is marked absent. -/
theorem C37_c_structure_round_trip (k : Constants) (h : k.optMarker = false → k.externalRange = ⟨0, 0⟩) :
    Constants.ofConsts k.toConsts = k := by
  rcases k with ⟨_, _, _, _, _, _, _, _, _, _, _, r, x⟩
  cases x
  · simp at h; subst h; rfl
  · rfl

/-- With and without an external range. -/
example : (Constants.ofConsts { Unit.consts0 with external := some (120, 200) }).optMarker = true ∧
    (Constants.ofConsts { Unit.consts0 with external := none }).optMarker = false := by decide

/-! ## C38 -/

open Verif.Unit (Cfg CfgOK Reach Store links cfg0 cfg0_ok)
open Verif.Unit.Props (stAfter runH_spec)
variable {c : Cfg}

/-- The query a C caller passes as a pointer and a length: the first `len` numbers at the pointer, whatever follows
them, or nothing if the pointer is null. -/
def Passes (ptr : Option (List Nat)) (len : Nat) (q : List Nat) : Prop :=
  (ptr = none ∧ q = []) ∨ ∃ rest, ptr = some (q ++ rest) ∧ len = q.length

theorem Passes.raw {ptr : Option (List Nat)} {len : Nat} {q : List Nat} (h : Passes ptr len q) :
    queryFromRaw ptr len = some q := by
  rcases h with ⟨rfl, rfl⟩ | ⟨rest, rfl, rfl⟩ <;> simp [queryFromRaw]

/-- **C38** is false of creation: the two answers are exchanged. A callback that answers `continue` makes the call
return `break`, and one that answers `break` (or anything else) makes it return `continue`. (The link is created in
both cases.) -/
theorem C38_create_inverts_the_callback (hc : CfgOK c) {s : Store} (h : Reach c s) {i : Nat} {s' : Store}
    (ho : (links c).create s = some ⟨.ok i, s', ()⟩) {qp : Option (List Nat)} {len : Nat} {q : List Nat}
    (hq : Passes qp len q) {σ : Type} (cb : σ → Link → Link → Nat × σ) (st : σ) :
    ((cb st Link.nothing ⟨i, 0, 0⟩).1 = c.consts.cont →
      Ffi.create (links c) s qp len cb st = some (c.consts.brk, s', (cb st Link.nothing ⟨i, 0, 0⟩).2)) ∧
    ((cb st Link.nothing ⟨i, 0, 0⟩).1 ≠ c.consts.cont →
      Ffi.create (links c) s qp len cb st = some (c.consts.cont, s', (cb st Link.nothing ⟨i, 0, 0⟩).2)) := by
  obtain ⟨free, ts, tt, hi⟩ := Unit.reach_good hc h
  have fin : ∀ {x s1}, Links.Succeeds (fun _ hd st => Unit.createLinks c s [] hd st) s1 Link.nothing ⟨x, 0, 0⟩ →
      x = i ∧ s1 = s' := by
    intro x s1 hS
    have e := ho.symm.trans (Links.create_ok hS)
    cases e; exact ⟨rfl, rfl⟩
  have fin2 : Links.Succeeds (fun _ hd st => Unit.createLinks c s [] hd st) s' Link.nothing ⟨i, 0, 0⟩ →
      ∀ v, ofFlow c.consts (createHandler c.consts cb st Link.nothing ⟨i, 0, 0⟩).1 = v →
      Ffi.create (links c) s qp len cb st = some (v, s', (cb st Link.nothing ⟨i, 0, 0⟩).2) := by
    intro hS v hv
    have hS' : Links.Succeeds (fun _ hd st => Unit.createLinks c s q hd st) s' Link.nothing ⟨i, 0, 0⟩ := hS
    simp only [Ffi.create, hq.raw, Option.bind_some]
    rw [Links.createByWith_ok hS']
    simp only [Option.map_some, Except.map, resultIntoLog]
    rw [← hv]; rfl
  have hS : Links.Succeeds (fun _ hd st => Unit.createLinks c s [] hd st) s' Link.nothing ⟨i, 0, 0⟩ := by
    rcases Unit.create_cases hc hi [] with ⟨x, rest, s1, -, -, -, -, -, hS, -⟩ |
        ⟨-, -, e⟩ | ⟨-, -, -, e⟩ | ⟨-, -, -, e⟩ | ⟨-, -, s1, -, -, hS, -⟩
    · obtain ⟨rfl, rfl⟩ := fin hS; exact hS
    · have e := ho.symm.trans (Links.create_err e); cases e
    · have e := ho.symm.trans (Links.create_err e); cases e
    · rw [Unit.create_none e] at ho; cases ho
    · obtain ⟨e1, rfl⟩ := fin hS; rw [e1] at hS; exact hS
  refine ⟨fun hcb => fin2 hS _ ?_, fun hcb => fin2 hS _ ?_⟩
  · simp [createHandler, hcb, ofFlow]
  · simp [createHandler, hcb, ofFlow]

/-- A callback that logs its calls and answers `v`. -/
def logCb (v : Nat) : List (Link × Link) → Link → Link → Nat × List (Link × Link) :=
  fun log b a => (v, log ++ [(b, a)])

/-- On `sNet`: the callback answers `continue` (255), the call returns `break` (254), and the other way round. -/
example : Reach cfg0 Unit.sNet ∧
    (Ffi.create (links cfg0) Unit.sNet none 0 (logCb 255) []).map (fun r => (r.1, r.2.2)) =
      some (254, [(⟨0, 0, 0⟩, ⟨5, 0, 0⟩)]) ∧
    (Ffi.create (links cfg0) Unit.sNet none 0 (logCb 254) []).map (fun r => (r.1, r.2.2)) =
      some (255, [(⟨0, 0, 0⟩, ⟨5, 0, 0⟩)]) := ⟨Unit.sNet_reach, by decide +kernel, by decide +kernel⟩

/-- **C38** for updates (partial because C38 is false of creation): updating an existing link through the C interface
calls the callback once and returns `continue` if it answered `continue`, and `break` if it answered anything else. The
link is updated in both cases. -/
theorem C38_update_partial (hc : CfgOK c) {s : Store} (h : Reach c s) {i x a b : Nat} {p : Nat × Nat}
    (hv : (links c).view s i = some p) (ht : ((links c).view s).NoTwin i)
    {rp sp : Option (List Nat)} {lr ls : Nat} (hr : Passes rp lr [i])
    (hs : Passes sp ls [x, a, b]) :
    ∃ s' before, (links c).view s' = ((links c).view s).set i (a, b) ∧
      ∀ {σ : Type} (cb : σ → Link → Link → Nat × σ) (st : σ),
        ((cb st before ⟨i, a, b⟩).1 = c.consts.cont →
          Ffi.update (links c) s rp lr sp ls cb st = some (c.consts.cont, s', (cb st before ⟨i, a, b⟩).2)) ∧
        ((cb st before ⟨i, a, b⟩).1 ≠ c.consts.cont →
          Ffi.update (links c) s rp lr sp ls cb st = some (c.consts.brk, s', (cb st before ⟨i, a, b⟩).2)) := by
  obtain ⟨s', before, -, -, -, h4, h5⟩ := (Unit.lawful hc).update s (Unit.reach_good hc h) i p hv ht x a b trivial
  refine ⟨s', before, h4, fun cb st => ?_⟩
  have key : Ffi.update (links c) s rp lr sp ls cb st =
      some (ofFlow c.consts (updateHandler c.consts cb st before ⟨i, a, b⟩).1, s', (cb st before ⟨i, a, b⟩).2) := by
    simp only [Ffi.update, hr.raw, hs.raw, Option.bind_some]
    rw [Links.updateByWith_ok h5]
    simp only [Option.map_some, Except.map, resultIntoLog]
    rfl
  rw [key]
  constructor <;> intro hcb <;> simp [updateHandler, hcb, ofFlow]

example : Reach cfg0 Unit.sNet ∧ Passes (some [2, 77]) 1 [2] ∧ Passes (some [2, 3, 3]) 3 [2, 3, 3] ∧
    (Ffi.update (links cfg0) Unit.sNet (some [2, 77]) 1 (some [2, 3, 3]) 3 (logCb 255) []).map
      (fun r => (r.1, (links cfg0).getLink r.2.1 2)) = some (255, some (some ⟨2, 3, 3⟩)) ∧
    (Ffi.update (links cfg0) Unit.sNet (some [2]) 1 (some [2, 3, 3]) 3 (logCb 7) []).map
      (fun r => (r.1, (links cfg0).getLink r.2.1 2)) = some (254, some (some ⟨2, 3, 3⟩)) :=
  ⟨Unit.sNet_reach, .inr ⟨[77], rfl, rfl⟩, .inr ⟨[], rfl, rfl⟩, by decide +kernel, by decide +kernel⟩

/-- **C38** for deletions (partial, see above): deleting an existing link through the C interface calls the callback
once with the link and the null link, returns `break` if it answered `break`, and `continue` if it answered anything
else (updates and traversals treat other answers as `break`). The link is deleted in both cases. -/
theorem C38_delete_partial (hc : CfgOK c) {s : Store} (h : Reach c s) {i : Nat} {p : Nat × Nat}
    (hv : (links c).view s i = some p) (ht : ((links c).view s).NoTwin i)
    {qp : Option (List Nat)} {len : Nat} (hq : Passes qp len [i]) :
    ∃ s', (links c).view s' = ((links c).view s).del i ∧
      ∀ {σ : Type} (cb : σ → Link → Link → Nat × σ) (st : σ),
        ((cb st ⟨i, p.1, p.2⟩ Link.nothing).1 = c.consts.brk →
          Ffi.delete (links c) s qp len cb st =
            some (c.consts.brk, s', (cb st ⟨i, p.1, p.2⟩ Link.nothing).2)) ∧
        ((cb st ⟨i, p.1, p.2⟩ Link.nothing).1 ≠ c.consts.brk →
          Ffi.delete (links c) s qp len cb st =
            some (c.consts.cont, s', (cb st ⟨i, p.1, p.2⟩ Link.nothing).2)) := by
  obtain ⟨s', -, -, h4, h5⟩ := (Unit.lawful hc).delete s (Unit.reach_good hc h) i p hv ht trivial
  refine ⟨s', h4, fun cb st => ?_⟩
  have key : Ffi.delete (links c) s qp len cb st =
      some (ofFlow c.consts (deleteHandler c.consts cb st ⟨i, p.1, p.2⟩ Link.nothing).1, s',
        (cb st ⟨i, p.1, p.2⟩ Link.nothing).2) := by
    simp only [Ffi.delete, hq.raw, Option.bind_some]
    rw [Links.deleteByWith_ok h5]
    simp only [Option.map_some, Except.map, resultIntoLog]
    rfl
  rw [key]
  constructor <;> intro hcb <;> simp [deleteHandler, hcb, ofFlow]

example : Reach cfg0 Unit.sNet ∧
    (Ffi.delete (links cfg0) Unit.sNet (some [2]) 1 (logCb 254) []).map
      (fun r => (r.1, (links cfg0).getLink r.2.1 2, r.2.2)) = some (254, some none, [(⟨2, 1, 3⟩, ⟨0, 0, 0⟩)]) ∧
    (Ffi.delete (links cfg0) Unit.sNet (some [2]) 1 (logCb 7) []).map
      (fun r => (r.1, (links cfg0).getLink r.2.1 2)) = some (255, some none) :=
  ⟨Unit.sNet_reach, by decide +kernel, by decide +kernel⟩

/-- The callback's state after it was called with the links of a list in turn. -/
def cbAfter {σ : Type} (cb : σ → Link → Nat × σ) (st : σ) : List Link → σ
  | [] => st
  | l :: ls => cbAfter cb (cb st l).2 ls

/-- **C38** for traversals (partial, see above): there is a list of links (the one C09 describes) such that for every
callback either the callback answered `continue` to all of them and the call returns `continue`, or it is called up to
the first link to which it answers anything else, not again, and the call returns `break`. -/
theorem C38_each_partial (hc : CfgOK c) {s : Store} (h : Reach c s) {q : List Nat} (hq3 : q.length ≤ 3)
    {qp : Option (List Nat)} {len : Nat} (hq : Passes qp len q) :
    ∃ L : List Link, (links c).Visits s q L ∧ ∀ {σ : Type} (cb : σ → Link → Nat × σ) (st : σ),
      ((∀ k (hk : k < L.length), (cb (cbAfter cb st (L.take k)) L[k]).1 = c.consts.cont) ∧
        Ffi.each (links c) s qp len cb st = some (c.consts.cont, cbAfter cb st L)) ∨
      ∃ (k : Nat) (hk : k < L.length),
        (∀ j (hj : j < k), (cb (cbAfter cb st (L.take j)) L[j]).1 = c.consts.cont) ∧
        (cb (cbAfter cb st (L.take k)) L[k]).1 ≠ c.consts.cont ∧
        Ffi.each (links c) s qp len cb st = some (c.consts.brk, cbAfter cb st (L.take (k + 1))) := by
  obtain ⟨L, h1, -⟩ := Unit.query_law hc (Unit.reach_good hc h) q hq3
  refine ⟨L, h1, fun {σ} cb st => ?_⟩
  let hd : σ → Link → Flow × σ := fun st l =>
    (if (cb st l).1 = c.consts.cont then .cont else .brk (), (cb st l).2)
  have e1 : ∀ L st, stAfter hd st L = cbAfter cb st L := by
    intro L
    induction L with
    | nil => intro st; rfl
    | cons l L ih => intro st; exact ih _
  have e2 : Ffi.each (links c) s qp len cb st = some (ofFlow c.consts (runH hd L st).1, (runH hd L st).2) := by
    simp only [Ffi.each, hq.raw, Option.bind_some]
    rw [Links.eachBy_eq h1]; rfl
  have e3 : ∀ st l, (hd st l).1 = .cont ↔ (cb st l).1 = c.consts.cont := by
    intro st l
    simp only [hd]
    split <;> simp_all
  rw [e2]
  rcases runH_spec hd L st with ⟨h2, h3⟩ | ⟨k, hk, x, h2, h3, h4⟩
  · left
    refine ⟨fun k hk => by rw [← e1, ← e3]; exact h2 k hk, ?_⟩
    rw [h3, e1]; rfl
  · right
    refine ⟨k, hk, fun j hj => by rw [← e1, ← e3]; exact h2 j hj, ?_, ?_⟩
    · rw [← e1]
      intro e
      rw [(e3 _ _).2 e] at h3
      cases h3
    · rw [h4, e1]; rfl

/-- The callback stops at the second link. -/
example : Reach cfg0 Unit.sNet ∧ Passes none 0 [] ∧
    Ffi.each (links cfg0) Unit.sNet none 0 (fun (n : Nat) _ => (if n = 1 then 254 else 255, n + 1)) 0 =
      some (254, 2) ∧
    Ffi.each (links cfg0) Unit.sNet none 0 (fun (n : Nat) _ => (255, n + 1)) 0 = some (255, 5) :=
  ⟨Unit.sNet_reach, .inl ⟨rfl, rfl⟩, by decide +kernel, by decide +kernel⟩

/-! ## C48 -/

/-- **C48** is false: no handle returned by `New` can be used. It points to the store, and every other function of the
interface takes it for a pointer to a `Box<dyn Doublets<T>>`: all of them have undefined behaviour (or panic, if opening
failed), whatever they would do next. -/
theorem C48_handles_returned_by_new_are_not_usable {img : Store} {heap heap' : Heap Store} {p this : Nat}
    (ho : newUnited c img heap p = some (this, heap')) {α : Type} (f : Store → Option α) :
    through heap' this f = none := by
  unfold newUnited at ho
  cases hi : Unit.init c img with
  | none => rw [hi] at ho; cases ho
  | some r =>
    rw [hi] at ho
    cases r with
    | error e => cases ho; simp [through, unnullOrError]
    | ok s =>
      cases ho
      simp only [through, unnullOrError]
      split
      · rfl
      · simp

/-- A handle to a boxed store would do. -/
theorem C48_handles_to_boxes_are_usable_partial {S α : Type} {heap : Heap S} {this : Nat} {s : S} (h0 : this ≠ 0)
    (hb : heap this = some (.boxed s)) (f : S → Option α) : through heap this f = f s := by
  simp [through, unnullOrError, h0, hb]

/-- Opening a store succeeds, and then counting its links is undefined. -/
example : (newUnited cfg0 {} (fun _ => none) 4096).map (fun r =>
    (r.1, through r.2 r.1 fun s => Ffi.count (links cfg0) s none 0)) = some (4096, none) := by decide +kernel

/-! ## C49 -/

/-- **C49** `SmartCreate` returns a fresh index of the internal range, which then names the link (0, 0), or the
`error` constant, in which case the store did not change. -/
theorem C49_smart_create (hc : CfgOK c) {s : Store} (h : Reach c s) {r : Nat} {s' : Store}
    (ho : smartCreate (links c) s = some (r, s')) :
    (c.consts.internalStart ≤ r ∧ r ≤ c.consts.internalEnd ∧ (links c).getLink s r = some none ∧
      (links c).view s' = ((links c).view s).set r (0, 0)) ∨ (r = c.consts.error ∧ s' = s) := by
  obtain ⟨free, ts, tt, hi⟩ := Unit.reach_good hc h
  have hget := (Unit.lawful hc).get s ⟨free, ts, tt, hi⟩
  have hle := hi.base.alloc_le
  have herr : ∀ {e : Err}, Links.Fails (fun _ hd st => Unit.createLinks c s [] hd st) s e →
      r = c.consts.error ∧ s' = s := by
    intro e hF
    simp only [smartCreate] at ho
    rw [Links.create_err hF] at ho
    simp only [Option.map_some, Option.some.injEq, Prod.mk.injEq, resultIntoLog] at ho
    exact ⟨ho.1.symm, ho.2.symm⟩
  have hok : ∀ {x s1}, Links.Succeeds (fun _ hd st => Unit.createLinks c s [] hd st) s1 Link.nothing ⟨x, 0, 0⟩ →
      r = x ∧ s' = s1 := by
    intro x s1 hS
    simp only [smartCreate] at ho
    rw [Links.create_ok hS] at ho
    simp only [Option.map_some, Option.some.injEq, Prod.mk.injEq, resultIntoLog] at ho
    exact ⟨ho.1.symm, ho.2.symm⟩
  rcases Unit.create_cases hc hi [] with ⟨x, rest, s1, -, h0, hlt, -, -, hS, h1, h2⟩ |
      ⟨-, -, e⟩ | ⟨-, -, -, e⟩ | ⟨-, -, -, e⟩ | ⟨-, hlt, s1, -, -, hS, h1, h2⟩
  · obtain ⟨rfl, rfl⟩ := hok hS
    exact .inl ⟨by rw [hc.start_eq]; omega, by omega, by rw [hget, h1]; rfl, h2⟩
  · exact .inr (herr e)
  · exact .inr (herr e)
  · simp only [smartCreate] at ho
    rw [Unit.create_none e] at ho; cases ho
  · obtain ⟨rfl, rfl⟩ := hok hS
    exact .inl ⟨by rw [hc.start_eq]; omega, by omega, by rw [hget, h1]; rfl, h2⟩

/-- **C49** `SmartUpdate` of an existing link updates it and returns its index; of an index that names no link it
returns the `error` constant and changes nothing. -/
theorem C49_smart_update (hc : CfgOK c) {s : Store} (h : Reach c s) (i a b : Nat)
    (ht : ((links c).view s).NoTwin i) :
    (∃ p s', (links c).view s i = some p ∧ smartUpdate (links c) s i a b = some (i, s') ∧
      (links c).view s' = ((links c).view s).set i (a, b)) ∨
    ((links c).getLink s i = some none ∧ smartUpdate (links c) s i a b = some (c.consts.error, s)) := by
  have hg := Unit.reach_good hc h
  cases hv : (links c).view s i with
  | none =>
    refine .inr ⟨by rw [(Unit.lawful hc).get s hg, hv]; rfl, ?_⟩
    simp only [smartUpdate]
    rw [Links.update_err ((Unit.lawful hc).update_missing s hg i hv i a b)]; rfl
  | some p =>
    obtain ⟨s', before, -, -, -, h4, h5⟩ := (Unit.lawful hc).update s hg i p hv ht i a b trivial
    refine .inl ⟨p, s', rfl, ?_, h4⟩
    simp only [smartUpdate]
    rw [Links.update_ok h5]; rfl

/-- Both functions on `sNet`, where 5 is free. -/
example : Reach cfg0 Unit.sNet ∧ (smartCreate (links cfg0) Unit.sNet).map (·.1) = some 5 ∧
    (smartUpdate (links cfg0) Unit.sNet 2 3 3).map (·.1) = some 2 ∧
    (smartUpdate (links cfg0) Unit.sNet 5 3 3).map (·.1) = some 250 :=
  ⟨Unit.sNet_reach, by decide +kernel, by decide +kernel, by decide +kernel⟩

/-! ## C55 -/

/-- **C55** Reading functions: for every query of at most three parts, `Count` returns the number of links `Each` calls
its callback with if the callback always answers `continue` (here: a callback that collects them), and these are the
links the native traversal yields. Neither depends on what is stored behind the query. -/
theorem C55_count_and_each_agree (hc : CfgOK c) {s : Store} (h : Reach c s) {q : List Nat} (hq3 : q.length ≤ 3)
    {qp : Option (List Nat)} {len : Nat} (hq : Passes qp len q) {n : Nat}
    (hn : Ffi.count (links c) s qp len = some n) :
    ∃ L, (links c).eachIter s q = some L ∧ n = L.length ∧
      Ffi.each (links c) s qp len (fun acc l => (c.consts.cont, acc ++ [l])) [] = some (c.consts.cont, L) := by
  simp only [Ffi.count, hq.raw, Option.bind_some] at hn
  obtain ⟨L, h1, h2, -⟩ := Unit.query_law hc (Unit.reach_good hc h) q hq3
  refine ⟨L, ?_, ?_, ?_⟩
  · simp only [Links.eachIter, Links.collect_eq h1, hn]; rfl
  · have := h2.symm.trans hn
    split at this
    · cases this; rfl
    · cases this
  · simp only [Ffi.each, hq.raw, Option.bind_some]
    rw [Links.eachBy_eq h1]
    have : ∀ (L acc : List Link), runH (fun (acc : List Link) l =>
        ((if c.consts.cont = c.consts.cont then .cont else .brk () : Flow), acc ++ [l])) L acc = (.cont, acc ++ L) := by
      intro L
      induction L with
      | nil => intro acc; simp [runH]
      | cons l L ih => intro acc; simp only [if_true, runH] at ih ⊢; rw [ih]; simp
    have h3 := this L []
    show some (ofFlow c.consts (runH (fun (acc : List Link) l =>
        ((if c.consts.cont = c.consts.cont then .cont else .brk () : Flow), acc ++ [l])) L []).1, _) = _
    rw [h3]; simp [ofFlow]; exact congrArg Prod.snd h3

/-- Three links have 2 at an end (one of them at both); the array goes on behind the query. -/
example : Reach cfg0 Unit.sNet ∧ Passes (some [252, 2, 9, 9]) 2 [252, 2] ∧
    Ffi.count (links cfg0) Unit.sNet (some [252, 2, 9, 9]) 2 = some 3 :=
  ⟨Unit.sNet_reach, .inr ⟨[9, 9], rfl, rfl⟩, by decide +kernel⟩

/-- **C55** Failures: updating or deleting an index that names no link returns the `error` constant, does not call the
callback and changes nothing; so does a creation that fails. -/
theorem C55_failures_return_error (hc : CfgOK c) {s : Store} (h : Reach c s) {σ : Type}
    (cb : σ → Link → Link → Nat × σ) (st : σ) :
    (∀ i, (links c).getLink s i = some none →
      (∀ {rp sp : Option (List Nat)} {lr ls x a b : Nat}, Passes rp lr [i] → Passes sp ls [x, a, b] →
        Ffi.update (links c) s rp lr sp ls cb st = some (c.consts.error, s, st)) ∧
      (∀ {qp : Option (List Nat)} {len : Nat}, Passes qp len [i] →
        Ffi.delete (links c) s qp len cb st = some (c.consts.error, s, st))) ∧
    (∀ e s', (links c).create s = some ⟨.error e, s', ()⟩ →
      ∀ {qp : Option (List Nat)} {len : Nat} {q : List Nat}, Passes qp len q →
        Ffi.create (links c) s qp len cb st = some (c.consts.error, s, st)) := by
  have hg := Unit.reach_good hc h
  refine ⟨fun i hi => ?_, fun e s' ho qp len q hq => ?_⟩
  · have hgi := (Unit.lawful hc).get s hg i
    have hv : (links c).view s i = none := by
      cases hv : (links c).view s i with
      | none => rfl
      | some p => rw [hv, hi] at hgi; cases hgi
    refine ⟨fun {rp sp lr ls x a b} hr hs => ?_, fun hq => ?_⟩
    · simp only [Ffi.update, hr.raw, hs.raw, Option.bind_some]
      rw [Links.updateByWith_err ((Unit.lawful hc).update_missing s hg i hv x a b)]
      rfl
    · simp only [Ffi.delete, hq.raw, Option.bind_some]
      rw [Links.deleteByWith_err ((Unit.lawful hc).delete_missing s hg i hv)]
      rfl
  · obtain ⟨free, ts, tt, hi⟩ := hg
    have fin : ∀ {e : Err}, Links.Fails (fun _ hd st => Unit.createLinks c s q hd st) s e →
        Ffi.create (links c) s qp len cb st = some (c.consts.error, s, st) := by
      intro e hF
      simp only [Ffi.create, hq.raw, Option.bind_some]
      rw [Links.createByWith_err hF]
      rfl
    rcases Unit.create_cases hc hi [] with ⟨x, rest, s1, -, -, -, -, -, hS, -⟩ |
        ⟨-, -, e⟩ | ⟨-, -, -, e⟩ | ⟨-, -, -, e⟩ | ⟨-, -, s1, -, -, hS, -⟩
    · have e := ho.symm.trans (Links.create_ok hS); cases e
    · exact fin e
    · exact fin e
    · rw [Unit.create_none e] at ho; cases ho
    · have e := ho.symm.trans (Links.create_ok hS); cases e

/-- Index 5 of `sNet` was deleted. -/
example : Reach cfg0 Unit.sNet ∧ (links cfg0).getLink Unit.sNet 5 = some none ∧
    (Ffi.delete (links cfg0) Unit.sNet (some [5]) 1 (logCb 255) []).map (fun r => (r.1, r.2.2)) = some (250, []) ∧
    (Ffi.update (links cfg0) Unit.sNet (some [5]) 1 (some [5, 1, 1]) 3 (logCb 255) []).map (fun r => (r.1, r.2.2)) =
      some (250, []) :=
  ⟨Unit.sNet_reach, by decide +kernel, by decide +kernel, by decide +kernel⟩

end Verif.Ffi.Props
