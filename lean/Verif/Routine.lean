import Verif.Props.Width

/-!
# Client routines and what they mean on a map

A routine is what a client does: what it calls next may depend on everything the calls before returned. `Routine.run` runs
it on a store; `Routine.Means` says what it does on a map from indices to pairs with an allocator of indices.
-/

namespace Verif

/-- What a client does. In queries `none` stands for the constant `any` of the store. -/
inductive Routine (α : Type) : Type where
  | done (a : α)
  | write (k : Call) (next : Except Err Nat → Routine α)
  | get (i : Nat) (next : Option Link → Routine α)
  | count (p : List (Option Nat)) (next : Nat → Routine α)
  | gather (p : List (Option Nat)) (next : List Link → Routine α)
  | search (x y : Nat) (next : Option Nat → Routine α)
  | list (next : List Link → Routine α)

/-- `create`, `update` or `delete` (`doublets/src/data/traits.rs:99-104,191-196,245-250`). -/
def Links.write {S : Type} (D : Links S) (s : S) : Call → Option (Out S Unit Nat)
  | .create => D.create s
  | .update i x y => D.update s i x y
  | .delete i => D.delete s i

/-- Running a routine on a store. A client whose call fails because memory ran out gives up. Outer `none`: a call panicked. -/
def Routine.run {S α : Type} (D : Links S) (any : Nat) : Routine α → S → Option (Except Err α × S)
  | .done a, s => some (.ok a, s)
  | .write k next, s => (D.write s k).bind fun o =>
    match o.res with
    | .error .allocFailed => some (.error .allocFailed, o.st)
    | r => (next r).run D any o.st
  | .get i next, s => (D.getLink s i).bind fun r => (next r).run D any s
  | .count p next, s => (D.countBy s (askWith any p)).bind fun n => (next n).run D any s
  | .gather p next, s => (D.collect s (askWith any p)).bind fun L => (next L).run D any s
  | .search x y next, s => (D.search s x y).bind fun r => (next r).run D any s
  | .list next, s => (D.collect s []).bind fun L => (next L).run D any s

/-- One routine after another. -/
def Routine.bind {α β : Type} : Routine α → (α → Routine β) → Routine β
  | .done a, f => f a
  | .write k next, f => .write k fun r => (next r).bind f
  | .get i next, f => .get i fun r => (next r).bind f
  | .count p next, f => .count p fun r => (next r).bind f
  | .gather p next, f => .gather p fun r => (next r).bind f
  | .search x y next, f => .search x y fun r => (next r).bind f
  | .list next, f => .list fun r => (next r).bind f

/-- What `create_point` does (`doublets/src/data/traits.rs:336-342`), as a routine. -/
def Routine.createPoint : Routine (Except Err Nat) :=
  .write .create fun
    | .error e => .done (.error e)
    | .ok i => .write (.update i i i) .done

/-- What `create_link` does (`doublets/src/data/traits.rs:344-371`), as a routine. -/
def Routine.createLink (x y : Nat) : Routine (Except Err Nat) :=
  .write .create fun
    | .error e => .done (.error e)
    | .ok i => .write (.update i x y) .done

/-- What `get_or_create` does (`doublets/src/data/traits.rs:425-434`), as a routine. -/
def Routine.getOrCreate (x y : Nat) : Routine (Except Err Nat) :=
  .search x y fun
    | some i => .done (.ok i)
    | none => .createLink x y

/-- A routine for a call, as a call: it fails if the routine gave up. -/
def asCall {S : Type} (r : Except Err (Except Err Nat) × S) : Out S Unit Nat := ⟨r.1.bind id, r.2, ()⟩

/-- A part of a query and what it is compared with. -/
def Part (o : Option Nat) (n : Nat) : Prop := o = none ∨ o = some n

/-- The links a query asks for. -/
def Wants : List (Option Nat) → Link → Prop
  | [], _ => True
  | [i], l => Part i l.index
  | [i, x], l => Part i l.index ∧ (Part x l.source ∨ Part x l.target)
  | [i, x, y], l => Part i l.index ∧ Part x l.source ∧ Part y l.target
  | _, _ => False

/-- `L` lists the links of the map that the query asks for, each once. -/
def Answer (v : View) (p : List (Option Nat)) (L : List Link) : Prop :=
  L.Nodup ∧ ∀ l, l ∈ L ↔ v.Has l ∧ Wants p l

/-- `r` is a link with source `x` and target `y`, if there is one. -/
def Found (v : View) (x y : Nat) (r : Option Nat) : Prop :=
  (∀ i, r = some i → v i = some (x, y)) ∧ (r = none → ∀ i, v i ≠ some (x, y))

/-- `L` lists the links of the map in the order of their indices. -/
def Listing (v : View) (L : List Link) : Prop :=
  L.Pairwise (fun l l' => l.index < l'.index) ∧ ∀ l, l ∈ L ↔ v.Has l

/-- What a routine computes on a map `v` with index allocation `z`, and the map and allocation it leaves behind. -/
inductive Routine.Means {α : Type} (limit : Nat) : Routine α → View → Slots → α → View → Slots → Prop
  | done {a v z} : Means limit (.done a) v z a v z
  | write {k next v z a v' z'} :
      Means limit (next (k.result limit v z)) (k.apply v (k.result limit v z)) (z.apply k (k.result limit v z)) a v' z' →
      Means limit (.write k next) v z a v' z'
  | get {i next v z a v' z'} : Means limit (next ((v i).map fun p => ⟨i, p.1, p.2⟩)) v z a v' z' →
      Means limit (.get i next) v z a v' z'
  | count {p next v z a v' z'} (L : List Link) : Answer v p L → Means limit (next L.length) v z a v' z' →
      Means limit (.count p next) v z a v' z'
  | gather {p next v z a v' z'} (L : List Link) : Answer v p L → Means limit (next L) v z a v' z' →
      Means limit (.gather p next) v z a v' z'
  | search {x y next v z a v' z'} (r : Option Nat) : Found v x y r → Means limit (next r) v z a v' z' →
      Means limit (.search x y next) v z a v' z'
  | list {next v z a v' z'} (L : List Link) : Listing v L → Means limit (next L) v z a v' z' →
      Means limit (.list next) v z a v' z'

/-- The queries whose traversals visit every link asked for once (C58, C45): not for an end, whichever it is, over all links;
not for null ends over all links; for a source and a target over all links only if doublets are unique. -/
structure Askable (v : View) (p : List (Option Nat)) : Prop where
  short : p.length ≤ 3
  nonnull : p.head? = some none → some 0 ∉ p
  side : ∀ x, p ≠ [none, some x]
  uniq : ∀ x y, p = [none, some x, some y] → v.Uniq

/-- The queries that the split store counts right (C34). -/
def Countable (v : View) : List (Option Nat) → Prop
  | [some i, some x] => ∀ a b, v i = some (a, b) → (a = x ↔ b = x)
  | [none, some x, _] => v x ≠ none
  | _ => True

/-- A client that takes care: it makes only calls that the split store supports, asks only queries that are answered exactly,
does not name reserved values, does not depend on the order of visits except when it lists all links, and stays below the limit. -/
def Routine.Careful {α : Type} (limit : Nat) (reserved : Nat → Prop) : Routine α → View → Slots → Prop
  | .done _, _, _ => True
  | .write k next, v, z => k.SplitOK v (k.result limit v z) ∧ (∀ m, k.result limit v z ≠ .error (.limitReached m)) ∧
      (next (k.result limit v z)).Careful limit reserved (k.apply v (k.result limit v z)) (z.apply k (k.result limit v z))
  | .get i next, v, z => (next ((v i).map fun p => ⟨i, p.1, p.2⟩)).Careful limit reserved v z
  | .count p next, v, z => Askable v p ∧ Countable v p ∧ (∀ x, some x ∈ p → ¬ reserved x) ∧
      ∀ L, Answer v p L → (next L.length).Careful limit reserved v z
  | .gather p next, v, z => Askable v p ∧ (∀ x, some x ∈ p → ¬ reserved x) ∧ (∀ L L', L.Perm L' → next L = next L') ∧
      ∀ L, Answer v p L → (next L).Careful limit reserved v z
  | .search x y next, v, z => x ≠ 0 ∧ y ≠ 0 ∧ ¬ reserved x ∧ ¬ reserved y ∧ v.Uniq ∧
      ∀ r, Found v x y r → (next r).Careful limit reserved v z
  | .list next, v, z => ∀ L, Listing v L → (next L).Careful limit reserved v z

theorem Answer.perm {v : View} {p : List (Option Nat)} {L L' : List Link} (h : Answer v p L) (h' : Answer v p L') : L.Perm L' :=
  (List.perm_ext_iff_of_nodup h.1 h'.1).2 fun l => (h.2 l).trans (h'.2 l).symm

theorem Found.unique {v : View} (hu : v.Uniq) {x y : Nat} (hx : x ≠ 0) {r r' : Option Nat} (h : Found v x y r)
    (h' : Found v x y r') : r = r' := by
  cases r with
  | none =>
    cases r' with
    | none => rfl
    | some i => exact absurd (h'.1 i rfl) (h.2 rfl i)
  | some i =>
    cases r' with
    | none => exact absurd (h.1 i rfl) (h'.2 rfl i)
    | some j => rw [hu i _ (h.1 i rfl) (by simp [hx]) j (h'.1 j rfl)]

theorem Listing.unique {v : View} {L L' : List Link} (h : Listing v L) (h' : Listing v L') : L = L' := by
  obtain ⟨p, m⟩ := h
  obtain ⟨p', m'⟩ := h'
  replace m : ∀ l, l ∈ L ↔ l ∈ L' := fun l => (m l).trans (m' l).symm
  clear m'
  induction L generalizing L' with
  | nil =>
    cases L' with
    | nil => rfl
    | cons b L' => exact absurd ((m b).2 (by simp)) (by simp)
  | cons a L ih =>
    cases L' with
    | nil => exact absurd ((m a).1 (by simp)) (by simp)
    | cons b L' =>
      rw [List.pairwise_cons] at p p'
      have e : a = b := by
        rcases List.mem_cons.1 ((m a).1 (by simp)) with e | e
        · exact e
        · rcases List.mem_cons.1 ((m b).2 (by simp)) with e' | e'
          · exact e'.symm
          · have := p.1 b e'; have := p'.1 a e; omega
      subst e
      rw [ih p.2 p'.2 fun l => ⟨fun hl => ?_, fun hl => ?_⟩]
      · rcases List.mem_cons.1 ((m l).1 (by simp [hl])) with e | e
        · have := p.1 l hl; rw [e] at this; omega
        · exact e
      · rcases List.mem_cons.1 ((m l).2 (by simp [hl])) with e | e
        · have := p'.1 l hl; rw [e] at this; omega
        · exact e

/-- On a map a careful client computes one thing only. -/
theorem Routine.Means.unique {α : Type} {limit : Nat} {reserved : Nat → Prop} {P : Routine α} {v : View} {z : Slots}
    {a a' : α} {v1 v1' : View} {z1 z1' : Slots} (h : P.Means limit v z a v1 z1) (hc : P.Careful limit reserved v z)
    (h' : P.Means limit v z a' v1' z1') : a = a' ∧ v1 = v1' ∧ z1 = z1' := by
  induction h with
  | done => cases h'; exact ⟨rfl, rfl, rfl⟩
  | write _ ih => cases h' with | write h' => exact ih hc.2.2 h'
  | get _ ih => cases h' with | get h' => exact ih hc h'
  | count L hL _ ih =>
    cases h' with
    | count L' hL' h' => exact ih (hc.2.2.2 L hL) (by rw [(hL.perm hL').length_eq]; exact h')
  | gather L hL _ ih =>
    cases h' with
    | gather L' hL' h' => exact ih (hc.2.2.2 L hL) (by rw [hc.2.2.1 _ _ (hL.perm hL')]; exact h')
  | search r hr _ ih =>
    cases h' with
    | search r' hr' h' => exact ih (hc.2.2.2.2.2 r hr) (by rw [hr.unique hc.2.2.2.2.1 hc.1 hr']; exact h')
  | list L hL _ ih =>
    cases h' with
    | list L' hL' h' => exact ih (hc L hL) (by rw [hL.unique hL']; exact h')

/-! ### Routines one after another -/

theorem Routine.run_bind {S α β : Type} (D : Links S) (any : Nat) (P : Routine α) (f : α → Routine β) : ∀ s,
    (P.bind f).run D any s = (P.run D any s).bind fun
      | (.ok a, s') => (f a).run D any s'
      | (.error e, s') => some (.error e, s') := by
  induction P with
  | done a => intro s; rfl
  | write k next ih =>
    intro s
    simp only [Routine.bind, Routine.run, Option.bind_assoc]
    congr 1; funext o
    split
    · rfl
    · exact ih _ _
  | get i next ih => intro s; simp only [Routine.bind, Routine.run, Option.bind_assoc, ih]
  | count p next ih => intro s; simp only [Routine.bind, Routine.run, Option.bind_assoc, ih]
  | gather p next ih => intro s; simp only [Routine.bind, Routine.run, Option.bind_assoc, ih]
  | search x y next ih => intro s; simp only [Routine.bind, Routine.run, Option.bind_assoc, ih]
  | list next ih => intro s; simp only [Routine.bind, Routine.run, Option.bind_assoc, ih]

section
variable {S : Type} {D : Links S} (any : Nat)

theorem update_result {s : S} {i x y : Nat} :
    D.update s i x y = ((Routine.write (.update i x y) Routine.done).run D any s).map asCall := by
  simp only [Routine.run, Links.write]
  cases D.update s i x y with
  | none => rfl
  | some o =>
    obtain ⟨r, s', u⟩ := o
    rw [Option.bind_some]
    split
    · next e => simp only at e; subst e; rfl
    · simp [asCall, Except.bind]

theorem createPoint_run (s : S) : D.createPoint s = (Routine.createPoint.run D any s).map asCall := by
  simp only [Routine.createPoint, Links.createPoint]
  rw [Routine.run]
  simp only [Links.write]
  cases D.create s with
  | none => rfl
  | some o =>
    obtain ⟨r, s', u⟩ := o
    simp only [Option.bind_some]
    cases r with
    | ok i => exact update_result any
    | error e => cases e <;> rfl

theorem createLink_run (hc : ∀ s, Uniform fun _ h st => D.createLinks s [] h st)
    (hu : ∀ s i x y, Uniform fun _ h st => D.updateLinks s [i] [i, x, y] h st) (s : S) (x y : Nat) :
    D.createLink s x y = ((Routine.createLink x y).run D any s).map asCall := by
  obtain ⟨core, h⟩ := hc s
  simp only [Routine.createLink]
  rw [Routine.run]
  simp only [Links.write]
  rcases core with _ | ⟨s1, e | ⟨b, l⟩⟩
  · have h1 : ∀ {σ ρ : Type} (hd : Links.Hd σ ρ) st, D.createByWith s [] hd st = none := fun hd st => by
      simp only [Links.createByWith, h, Option.map_none]
    simp [Links.createLink, Links.createLinkWith, Links.createWith, Links.create, Links.createBy, h1]
  · have hf : Links.Fails (fun _ h st => D.createLinks s [] h st) s1 e := fun σ hd st => h σ hd st
    rw [Links.create_err hf]
    simp only [Links.createLink, Links.createLinkWith, Links.createWith, Links.createByWith_err hf, Option.bind_some, Option.map_some]
    cases e <;> rfl
  · have hs : Links.Succeeds (fun _ h st => D.createLinks s [] h st) s1 b l := fun σ hd st => h σ hd st
    rw [Links.create_ok hs, Option.bind_some, ← update_result any]
    simp only [Links.createLink, Links.createLinkWith, Links.createWith, Links.createByWith_ok hs, Option.bind_some, Links.createLinkH,
      fuseCall_eq]
    obtain ⟨core, h'⟩ := hu s1 l.index x y
    rcases core with _ | ⟨s2, e | ⟨b', l'⟩⟩
    · have h1 : ∀ {σ ρ : Type} (hd : Links.Hd σ ρ) st, D.updateByWith s1 [l.index] [l.index, x, y] hd st = none := fun hd st => by
        simp only [Links.updateByWith, h', Option.map_none]
      simp [Links.updateWith, Links.update, Links.updateBy, h1]
    · have hf : Links.Fails (fun _ h st => D.updateLinks s1 [l.index] [l.index, x, y] h st) s2 e := fun σ hd st => h' σ hd st
      rw [Links.update_err hf]
      simp [Links.updateWith, Links.updateByWith_err hf, Links.resultIndex, Except.map]
    · have hs : Links.Succeeds (fun _ h st => D.updateLinks s1 [l.index] [l.index, x, y] h st) s2 b' l' := fun σ hd st => h' σ hd st
      rw [Links.update_ok hs]
      simp [Links.updateWith, Links.updateByWith_ok hs, Links.resultIndex, Except.map, Links.keepIndex, fuseCall_eq]

theorem getOrCreate_run (hc : ∀ s, Uniform fun _ h st => D.createLinks s [] h st)
    (hu : ∀ s i x y, Uniform fun _ h st => D.updateLinks s [i] [i, x, y] h st) (s : S) (x y : Nat) :
    D.getOrCreate s x y = ((Routine.getOrCreate x y).run D any s).map asCall := by
  simp only [Routine.getOrCreate, Links.getOrCreate]
  rw [Routine.run]
  cases D.search s x y with
  | none => rfl
  | some r =>
    cases r with
    | none => exact createLink_run any hc hu s x y
    | some i => rfl

end

/-! ### Queries -/

theorem matchQ_wants {any : Nat} {p : List (Option Nat)} (hp : ∀ x, some x ∈ p → x ≠ any) (l : Link) :
    MatchQ any (askWith any p) l ↔ Wants p l := by
  have key : ∀ o ∈ p, ∀ n, (o.getD any = any ∨ n = o.getD any) ↔ Part o n := by
    intro o ho n
    cases o with
    | none => simp [Part]
    | some x => simp [Part, hp x ho, eq_comm]
  match p, key with
  | [], _ => rfl
  | [i], key => exact key i (by simp) _
  | [i, x], key =>
    refine and_congr (key i (by simp) _) ?_
    rw [← key x (by simp), ← key x (by simp)]
    show x.getD any = any ∨ l.source = x.getD any ∨ l.target = x.getD any ↔ _
    constructor
    · rintro (h | h | h)
      · exact .inl (.inl h)
      · exact .inl (.inr h)
      · exact .inr (.inr h)
    · rintro ((h | h) | (h | h))
      · exact .inl h
      · exact .inr (.inl h)
      · exact .inl h
      · exact .inr (.inr h)
  | [i, x, y], key => exact and_congr (key i (by simp) _) (and_congr (key x (by simp) _) (key y (by simp) _))
  | _ :: _ :: _ :: _ :: _, _ => rfl

theorem nullFree_of_askable {any : Nat} (h0 : any ≠ 0) {v : View} {p : List (Option Nat)} (ha : Askable v p)
    (hp : ∀ x, some x ∈ p → x ≠ any) : NullFree any (askWith any p) := by
  match p, ha, hp with
  | [], _, _ => intro e; cases e
  | o :: p, ha, hp =>
    intro e x hx
    have e : o.getD any = any := by simpa [askWith] using e
    have ho : o = none := by
      cases o with
      | none => rfl
      | some y => exact absurd e (hp y (by simp))
    have hx : ∃ a ∈ p, a.getD any = x := by simpa [askWith] using hx
    obtain ⟨a, hm, rfl⟩ := hx
    cases a with
    | none => exact h0
    | some y =>
      intro ey
      have ey : y = 0 := ey
      subst ey
      exact ha.nonnull (by simp [ho]) (by simp [hm])

theorem visitsOf_wants {any : Nat} {v : View} {p : List (Option Nat)} (ha : Askable v p) (hp : ∀ x, some x ∈ p → x ≠ any)
    {l : Link} (hm : MatchQ any (askWith any p) l) : visitsOf any (askWith any p) l = 1 := by
  rcases Unit.Props.visitsOf_match hm with ⟨h1, -⟩ | ⟨-, x, h2, hx, -, -⟩
  · exact h1
  · exfalso
    match p, ha, hp, h2 with
    | [], _, _, h2 => cases h2
    | [_], _, _, h2 => simp [askWith] at h2
    | [i, y], ha, hp, h2 =>
      simp only [askWith, List.map_cons, List.map_nil, List.cons.injEq, and_true] at h2
      cases i with
      | some j => exact hp j (by simp) h2.1
      | none =>
        cases y with
        | none => exact hx h2.2.symm
        | some y => exact ha.side y rfl
    | _ :: _ :: _ :: _, _, _, h2 => simp [askWith] at h2

theorem isPair_wants {any : Nat} {p : List (Option Nat)} (hp : ∀ x, some x ∈ p → x ≠ any) (h : IsPair any (askWith any p)) :
    ∃ x y, p = [none, some x, some y] := by
  obtain ⟨x, y, he, hx, hy⟩ := h
  match p, hp, he with
  | [], _, he => cases he
  | [_], _, he => simp [askWith] at he
  | [_, _], _, he => simp [askWith] at he
  | _ :: _ :: _ :: _ :: _, _, he => simp [askWith] at he
  | [i, a, b], hp, he =>
    simp only [askWith, List.map_cons, List.map_nil, List.cons.injEq, and_true] at he
    cases i with
    | some j => exact absurd he.1 (hp j (by simp))
    | none =>
      cases a with
      | none => exact absurd he.2.1.symm hx
      | some a =>
        cases b with
        | none => exact absurd he.2.2.symm hy
        | some b => exact ⟨a, b, rfl⟩

/-- What the laws of traversals say about an askable query. -/
theorem answer_of_visits {any : Nat} {v : View} {p : List (Option Nat)} (ha : Askable v p)
    (hp : ∀ x, some x ∈ p → x ≠ any) {L : List Link}
    (h3 : ∀ l ∈ L, v.Has l ∧ MatchQ any (askWith any p) l)
    (h4 : ¬ IsPair any (askWith any p) → ∀ l, v.Has l → L.count l = visitsOf any (askWith any p) l)
    (h5 : IsPair any (askWith any p) → L.length ≤ 1 ∧ ((∃ l, v.Has l ∧ MatchQ any (askWith any p) l) → L ≠ [])) :
    Answer v p L := by
  by_cases hpair : IsPair any (askWith any p)
  · obtain ⟨h6, h7⟩ := h5 hpair
    obtain ⟨x, y, rfl⟩ := isPair_wants hp hpair
    have hu := ha.uniq x y rfl
    have hx : x ≠ 0 := fun e => ha.nonnull rfl (by simp [e])
    match L, h3, h6, h7 with
    | [], _, _, h7 =>
      refine ⟨.nil, fun l => ⟨fun h => by simp at h, fun h => absurd rfl (h7 ⟨l, h.1, (matchQ_wants hp l).2 h.2⟩)⟩⟩
    | [m], h3, _, _ =>
      obtain ⟨m1, m2⟩ := h3 m (by simp)
      rw [matchQ_wants hp] at m2
      refine ⟨by simp, fun l => ⟨fun h => by simp at h; subst h; exact ⟨m1, m2⟩, fun ⟨l1, l2⟩ => ?_⟩⟩
      obtain ⟨i, a, b⟩ := l
      obtain ⟨j, a', b'⟩ := m
      simp only [Wants, Part, Option.some.injEq, reduceCtorEq, false_or, true_or, true_and] at m2 l2
      obtain ⟨rfl, rfl⟩ := m2
      obtain ⟨rfl, rfl⟩ := l2
      have : i = j := hu j _ m1 (by simp [hx]) i l1
      simp [this]
    | _ :: _ :: _, _, h6, _ => simp at h6
  · have h4 := h4 hpair
    refine ⟨?_, fun l => ⟨fun h => ⟨(h3 l h).1, (matchQ_wants hp l).1 (h3 l h).2⟩, fun ⟨l1, l2⟩ => ?_⟩⟩
    · rw [List.nodup_iff_count]
      intro l
      by_cases hl : l ∈ L
      · rw [h4 l (h3 l hl).1, visitsOf_wants ha hp (h3 l hl).2]; omega
      · rw [List.count_eq_zero_of_not_mem hl]; omega
    · apply List.count_pos_iff.1
      rw [h4 l l1, visitsOf_wants ha hp ((matchQ_wants hp l).2 l2)]; omega

/-! ### Stores that serve routines -/

/-- What is needed of a store whose states are related to recorded histories by `H`. -/
structure Serves {S : Type} (D : Links S) (any limit : Nat) (H : S → List (Call × Except Err Nat) → Prop) : Prop where
  write : ∀ {s tr k o}, H s tr → k.SplitOK (replay tr) (k.result limit (replay tr) (slots tr)) → D.write s k = some o →
    o.res = .error .allocFailed ∨ o.res = k.result limit (replay tr) (slots tr) ∧ H o.st (tr ++ [(k, o.res)])
  get : ∀ {s tr}, H s tr → ∀ i, D.getLink s i = some ((replay tr i).map fun p => ⟨i, p.1, p.2⟩)
  visits : ∀ {s tr p}, H s tr → Askable (replay tr) p → (∀ x, some x ∈ p → x ≠ any) →
    ∃ L, D.Visits s (askWith any p) L ∧ Answer (replay tr) p L
  count : ∀ {s tr p n}, H s tr → Askable (replay tr) p → Countable (replay tr) p → (∀ x, some x ∈ p → x ≠ any) →
    D.countBy s (askWith any p) = some n → ∃ L, Answer (replay tr) p L ∧ n = L.length
  search : ∀ {s tr x y}, H s tr → (replay tr).Uniq → x ≠ 0 → y ≠ 0 → x ≠ any → y ≠ any →
    ∃ r, D.search s x y = some r ∧ Found (replay tr) x y r
  list : ∀ {s tr}, H s tr → ∃ L, D.Visits s [] L ∧ Listing (replay tr) L

theorem result_widen {limit limit' : Nat} (hl : limit ≤ limit') {k : Call} {v : View} {z : Slots}
    (h : ∀ m, k.result limit v z ≠ .error (.limitReached m)) : k.result limit' v z = k.result limit v z := by
  cases k with
  | create =>
    simp only [Call.result] at h ⊢
    cases hz : z.free with
    | cons x rest => rfl
    | nil =>
      simp only [hz] at h ⊢
      by_cases ht : z.top < limit
      · rw [if_pos ht, if_pos (by omega)]
      · rw [if_neg ht] at h; exact absurd rfl (h limit)
  | update i a b => rfl
  | delete i => rfl

/-- A store that serves routines computes what a map computes. -/
theorem Serves.run {S α : Type} {D : Links S} {any limit' limit : Nat} {H : S → List (Call × Except Err Nat) → Prop}
    (W : Serves D any limit' H) (hl : limit ≤ limit') {reserved : Nat → Prop} (hr : reserved any) (P : Routine α) :
    ∀ {s s' : S} {tr} {a : α}, H s tr → P.Careful limit reserved (replay tr) (slots tr) →
      P.run D any s = some (.ok a, s') →
      ∃ tr', H s' tr' ∧ P.Means limit (replay tr) (slots tr) a (replay tr') (slots tr') := by
  induction P with
  | done b =>
    intro s s' tr a h hc he
    cases he
    exact ⟨tr, h, .done⟩
  | write k next ih =>
    intro s s' tr a h hc he
    obtain ⟨c1, c2, c3⟩ := hc
    simp only [Routine.run] at he
    cases ho : D.write s k with
    | none => rw [ho] at he; cases he
    | some o =>
      rw [ho] at he
      simp only [Option.bind_some] at he
      have hw := result_widen hl c2
      rcases W.write h (by rw [hw]; exact c1) ho with e | ⟨e, h'⟩
      · rw [e] at he; cases he
      · rw [hw] at e
        rw [e] at he h'
        have hne : k.result limit (replay tr) (slots tr) ≠ .error .allocFailed := by
          cases k <;> simp only [Call.result] <;> repeat' split
          all_goals simp
        have he : (next (k.result limit (replay tr) (slots tr))).run D any o.st = some (.ok a, s') := by
          split at he
          · next e' => exact absurd e' hne
          · exact he
        have er : replay (tr ++ [(k, k.result limit (replay tr) (slots tr))]) = k.apply (replay tr) (k.result limit (replay tr) (slots tr)) :=
          Unit.replay_snoc _ _
        have es : slots (tr ++ [(k, k.result limit (replay tr) (slots tr))]) = (slots tr).apply k (k.result limit (replay tr) (slots tr)) :=
          Unit.slots_snoc _ _
        obtain ⟨tr', k1, k2⟩ := ih _ h' (by rw [er, es]; exact c3) he
        rw [er, es] at k2
        exact ⟨tr', k1, .write k2⟩
  | get i next ih =>
    intro s s' tr a h hc he
    simp only [Routine.run, W.get h, Option.bind_some] at he
    obtain ⟨tr', k1, k2⟩ := ih _ h hc he
    exact ⟨tr', k1, .get k2⟩
  | count p next ih =>
    intro s s' tr a h hc he
    obtain ⟨c1, c2, c3, c4⟩ := hc
    simp only [Routine.run, Option.bind_eq_some_iff] at he
    obtain ⟨n, hn, he⟩ := he
    obtain ⟨L, hL, rfl⟩ := W.count h c1 c2 (fun x hx e => c3 x hx (e ▸ hr)) hn
    obtain ⟨tr', k1, k2⟩ := ih _ h (c4 L hL) he
    exact ⟨tr', k1, .count L hL k2⟩
  | gather p next ih =>
    intro s s' tr a h hc he
    obtain ⟨c1, c2, c3, c4⟩ := hc
    obtain ⟨L, hv, hL⟩ := W.visits h c1 (fun x hx e => c2 x hx (e ▸ hr))
    simp only [Routine.run, Links.collect_eq hv, Option.bind_some] at he
    obtain ⟨tr', k1, k2⟩ := ih _ h (c4 L hL) he
    exact ⟨tr', k1, .gather L hL k2⟩
  | search x y next ih =>
    intro s s' tr a h hc he
    obtain ⟨c1, c2, c3, c4, c5, c6⟩ := hc
    obtain ⟨r, hv, hL⟩ := W.search h c5 c1 c2 (fun e => c3 (e ▸ hr)) (fun e => c4 (e ▸ hr))
    simp only [Routine.run, hv, Option.bind_some] at he
    obtain ⟨tr', k1, k2⟩ := ih _ h (c6 r hL) he
    exact ⟨tr', k1, .search r hL k2⟩
  | list next ih =>
    intro s s' tr a h hc he
    obtain ⟨L, hv, hL⟩ := W.list h
    simp only [Routine.run, Links.collect_eq hv, Option.bind_some] at he
    obtain ⟨tr', k1, k2⟩ := ih _ h (hc L hL) he
    exact ⟨tr', k1, .list L hL k2⟩

/-- Routines of careful clients run to their end, or until memory runs out, if no single call panics. -/
theorem Serves.completes {S α : Type} {D : Links S} {any limit' limit : Nat} {H : S → List (Call × Except Err Nat) → Prop}
    (W : Serves D any limit' H) (hl : limit ≤ limit') {reserved : Nat → Prop} (hr : reserved any)
    (hw : ∀ {s tr k}, H s tr → k.SplitOK (replay tr) (k.result limit' (replay tr) (slots tr)) → ∃ o, D.write s k = some o)
    (hn : ∀ {s tr p}, H s tr → Askable (replay tr) p → Countable (replay tr) p → (∀ x, some x ∈ p → x ≠ any) →
      ∃ n, D.countBy s (askWith any p) = some n) (P : Routine α) :
    ∀ {s : S} {tr}, H s tr → P.Careful limit reserved (replay tr) (slots tr) → ∃ r s', P.run D any s = some (r, s') := by
  induction P with
  | done b => intro s tr _ _; exact ⟨_, _, rfl⟩
  | write k next ih =>
    intro s tr h hc
    obtain ⟨c1, c2, c3⟩ := hc
    have hres := result_widen hl c2
    rw [← hres] at c1 c3
    obtain ⟨o, ho⟩ := hw h c1
    simp only [Routine.run, ho, Option.bind_some]
    split
    · exact ⟨_, _, rfl⟩
    · next hne =>
      rcases W.write h c1 ho with e | ⟨e, h'⟩
      · exact absurd e hne
      · rw [e] at h' ⊢
        refine ih _ h' ?_
        have er : replay (tr ++ [(k, k.result limit' (replay tr) (slots tr))]) = k.apply (replay tr) (k.result limit' (replay tr) (slots tr)) :=
          Unit.replay_snoc _ _
        have es : slots (tr ++ [(k, k.result limit' (replay tr) (slots tr))]) = (slots tr).apply k (k.result limit' (replay tr) (slots tr)) :=
          Unit.slots_snoc _ _
        rw [er, es]
        exact c3
  | get i next ih =>
    intro s tr h hc
    simp only [Routine.run, W.get h, Option.bind_some]
    exact ih _ h hc
  | count p next ih =>
    intro s tr h hc
    obtain ⟨c1, c2, c3, c4⟩ := hc
    have hp : ∀ x, some x ∈ p → x ≠ any := fun x hx e => c3 x hx (e ▸ hr)
    obtain ⟨n, e⟩ := hn h c1 c2 hp
    obtain ⟨L, hL, rfl⟩ := W.count h c1 c2 hp e
    simp only [Routine.run, e, Option.bind_some]
    exact ih _ h (c4 L hL)
  | gather p next ih =>
    intro s tr h hc
    obtain ⟨c1, c2, c3, c4⟩ := hc
    obtain ⟨L, hv, hL⟩ := W.visits h c1 (fun x hx e => c2 x hx (e ▸ hr))
    simp only [Routine.run, Links.collect_eq hv, Option.bind_some]
    exact ih _ h (c4 L hL)
  | search x y next ih =>
    intro s tr h hc
    obtain ⟨c1, c2, c3, c4, c5, c6⟩ := hc
    obtain ⟨r, hv, hL⟩ := W.search h c5 c1 c2 (fun e => c3 (e ▸ hr)) (fun e => c4 (e ▸ hr))
    simp only [Routine.run, hv, Option.bind_some]
    exact ih _ h (c6 r hL)
  | list next ih =>
    intro s tr h hc
    obtain ⟨L, hv, hL⟩ := W.list h
    simp only [Routine.run, Links.collect_eq hv, Option.bind_some]
    exact ih _ h (hc L hL)

/-- The answer to a query has no more links than the store. -/
theorem answer_bounded {S : Type} {D : Links S} (W : Lawful D) {s : S} (hs : W.Inv s) {p : List (Option Nat)} {L : List Link}
    (h : Answer (D.view s) p L) : L.length ≤ D.maxT := by
  obtain ⟨A, h1, h2, h3⟩ := W.each_all s hs
  exact Nat.le_trans (Unit.Props.length_le_of_subset h.1 fun l hl => (h3 l).2 ((h.2 l).1 hl).1) (W.bounded s hs A h1)

theorem update_returns {S : Type} {D : Links S} (W : Lawful D) {s : S} (hs : W.Inv s) {i a b : Nat} (ht : (D.view s).NoTwin i)
    (hu : W.CanUpdate (D.view s) i a b) : ∃ o, D.update s i a b = some o := by
  cases hv : D.view s i with
  | none => exact ⟨_, Links.update_err (W.update_missing s hs i hv i a b)⟩
  | some p =>
    obtain ⟨s', before, -, -, -, -, h⟩ := W.update s hs i p hv ht i a b hu
    exact ⟨_, Links.update_ok h⟩

theorem delete_returns {S : Type} {D : Links S} (W : Lawful D) {s : S} (hs : W.Inv s) {i : Nat} (ht : (D.view s).NoTwin i)
    (hu : W.CanDelete (D.view s) i) : ∃ o, D.delete s i = some o := by
  cases hv : D.view s i with
  | none => exact ⟨_, Links.delete_err (W.delete_missing s hs i hv)⟩
  | some p =>
    obtain ⟨s', -, -, -, h⟩ := W.delete s hs i p hv ht hu
    exact ⟨_, Links.delete_ok h⟩

/-- Searches find what there is, on every store that follows the laws. -/
theorem found_of_lawful {S : Type} {D : Links S} (W : Lawful D) {s : S} (hs : W.Inv s) {x y : Nat} (hx : x ≠ 0) (hy : y ≠ 0)
    (hx' : x ≠ (D.consts s).any) (hy' : y ≠ (D.consts s).any) : ∃ r, D.search s x y = some r ∧ Found (D.view s) x y r := by
  obtain ⟨L, h1, h2, h3, h4⟩ := W.each_pair s hs x y hx hx' hy hy'
  have e : D.search s x y = some (L.head?.map (·.index)) := by
    simp only [Links.search, Links.find]
    rw [Links.eachBy_eq h1]
    cases L <;> rfl
  refine ⟨_, e, fun i hi => ?_, fun hn i hi => ?_⟩
  · cases L with
    | nil => cases hi
    | cons l L =>
      cases hi
      obtain ⟨k1, k2, k3⟩ := h3 l (by simp)
      obtain ⟨j, a, b⟩ := l
      simp only at k2 k3
      subst k2 k3
      exact k1
  · cases L with
    | nil => exact h4 ⟨i, hi⟩ rfl
    | cons l L => cases hn

/-! ### Threads -/

/-- The next call of a routine: what is left of the routine afterwards. -/
def Routine.turn {S α : Type} (D : Links S) (any : Nat) : Routine α → S → Option (Except Err (Routine α) × S)
  | .done a, s => some (.ok (.done a), s)
  | .write k next, s => (D.write s k).map fun o =>
    match o.res with
    | .error .allocFailed => (.error .allocFailed, o.st)
    | r => (.ok (next r), o.st)
  | .get i next, s => (D.getLink s i).map fun r => (.ok (next r), s)
  | .count p next, s => (D.countBy s (askWith any p)).map fun n => (.ok (next n), s)
  | .gather p next, s => (D.collect s (askWith any p)).map fun L => (.ok (next L), s)
  | .search x y next, s => (D.search s x y).map fun r => (.ok (next r), s)
  | .list next, s => (D.collect s []).map fun L => (.ok (next L), s)

/-- Threads that share a store take turns, one call at a time, in the order of a schedule: what is left of each of them
afterwards. All give up as soon as memory runs out. -/
def turns {S α : Type} (D : Links S) (any : Nat) : List Nat → (Nat → Routine α) → S → Option (Except Err (Nat → Routine α) × S)
  | [], Ps, s => some (.ok Ps, s)
  | t :: ts, Ps, s => ((Ps t).turn D any s).bind fun
    | (.error e, s') => some (.error e, s')
    | (.ok P, s') => turns D any ts (fun u => if u = t then P else Ps u) s'

/-- The threads as one client that makes their calls in the order of the schedule. -/
def weave {α : Type} : List Nat → (Nat → Routine α) → Routine (Nat → Routine α)
  | [], Ps => .done Ps
  | t :: ts, Ps =>
    let go := fun P => weave ts fun u => if u = t then P else Ps u
    match Ps t with
    | .done a => go (.done a)
    | .write k next => .write k fun r => go (next r)
    | .get i next => .get i fun r => go (next r)
    | .count p next => .count p fun n => go (next n)
    | .gather p next => .gather p fun L => go (next L)
    | .search x y next => .search x y fun r => go (next r)
    | .list next => .list fun L => go (next L)

theorem turns_weave {S α : Type} (D : Links S) (any : Nat) : ∀ (ts : List Nat) (Ps : Nat → Routine α) (s : S),
    turns D any ts Ps s = (weave ts Ps).run D any s := by
  intro ts
  induction ts with
  | nil => intro Ps s; rfl
  | cons t ts ih =>
    intro Ps s
    simp only [turns, weave]
    cases Ps t with
    | done a => simp only [Routine.turn, Option.bind_some]; exact ih _ s
    | write k next =>
      simp only [Routine.turn, Routine.run, Option.bind_map]
      congr 1; funext o
      obtain ⟨r, s', u⟩ := o
      rcases r with (_ | _) | _ <;> first | rfl | exact ih _ _
    | get i next => simp only [Routine.turn, Routine.run, Option.bind_map, Function.comp_def, ih]
    | count p next => simp only [Routine.turn, Routine.run, Option.bind_map, Function.comp_def, ih]
    | gather p next => simp only [Routine.turn, Routine.run, Option.bind_map, Function.comp_def, ih]
    | search x y next => simp only [Routine.turn, Routine.run, Option.bind_map, Function.comp_def, ih]
    | list next => simp only [Routine.turn, Routine.run, Option.bind_map, Function.comp_def, ih]

end Verif
