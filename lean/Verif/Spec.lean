import Verif.Doublets

/-!
# Specification vocabulary

Small, implementation-independent notions in which the properties are stated.
-/

namespace Verif

/-- The abstract contents of a store: which indices name links, and their (source, target). -/
abbrev View := Nat → Option (Nat × Nat)

/-- The view with the pair of `i` set to `p`. -/
def View.set (v : View) (i : Nat) (p : Nat × Nat) : View := fun k => if k = i then some p else v k

/-- The view without `i`. -/
def View.del (v : View) (i : Nat) : View := fun k => if k = i then none else v k

/-- The empty store. -/
def View.empty : View := fun _ => none

/-- `l` is a link of the store. -/
def View.Has (v : View) (l : Link) : Prop := v l.index = some (l.source, l.target)

/-- No link other than `i` has the same source and target as `i` (void if `i` is absent or holds the null pair). -/
def View.NoTwin (v : View) (i : Nat) : Prop :=
  ∀ p, v i = some p → p ≠ (0, 0) → ∀ j, v j = some p → j = i

/-- `j` is a link other than `i` with `i` as source or target. -/
def View.Uses (v : View) (i j : Nat) : Prop :=
  j ≠ i ∧ ∃ a b, v j = some (a, b) ∧ (a = i ∨ b = i)

/-- No two links have the same source and target, the null pair excepted. -/
def View.Uniq (v : View) : Prop := ∀ i, v.NoTwin i

/-- The number of links: the length of any duplicate-free list of exactly the indices that name links. -/
def View.Size (v : View) (n : Nat) : Prop :=
  ∃ l : List Nat, l.Nodup ∧ l.length = n ∧ ∀ i, i ∈ l ↔ v i ≠ none

/-- Meaning of a query of at most three parts. -/
def MatchQ (any : Nat) : List Nat → Link → Prop
  | [], _ => True
  | [i], l => i = any ∨ l.index = i
  | [i, x], l => (i = any ∨ l.index = i) ∧ (x = any ∨ l.source = x ∨ l.target = x)
  | [i, x, y], l => (i = any ∨ l.index = i) ∧ (x = any ∨ l.source = x) ∧ (y = any ∨ l.target = y)
  | _, _ => False

namespace Links
variable {S : Type} (D : Links S)

/-- What lookups by index return. -/
def view (s : S) : View := fun i =>
  match D.getLink s i with
  | some (some l) => some (l.source, l.target)
  | _ => none

/-- A traversal with query `q` calls the handler on the links `L`, in this order, until it breaks,
whatever the handler. -/
def Visits (s : S) (q : List Nat) (L : List Link) : Prop :=
  ∀ (σ : Type) (h : RH σ) (st : σ), D.eachLinks s q h st = some (runH h L st)

/-- A mutating call ended well: new state `s'`, handler called exactly once, with `before` and `after`. -/
def Succeeds {S : Type} (call : (σ : Type) → WH σ → σ → Option (Out S σ Flow)) (s' : S)
    (before after : Link) : Prop :=
  ∀ (σ : Type) (h : WH σ) (st : σ),
    call σ h st = some ⟨.ok (h st before after).1, s', (h st before after).2⟩

/-- A mutating call failed with error `e`: the store is unchanged, the handler was not called. -/
def Fails {S : Type} (call : (σ : Type) → WH σ → σ → Option (Out S σ Flow)) (s : S) (e : Err) : Prop :=
  ∀ (σ : Type) (h : WH σ) (st : σ), call σ h st = some ⟨.error e, s, st⟩

end Links

/-- Contract of a store: what the default methods rely on. `Inv` is any invariant; the guards say which
updates, deletions and creations are supported beyond the general condition on duplicates. -/
structure Lawful {S : Type} (D : Links S) where
  Inv : S → Prop
  CanCreate : S → Prop
  CanUpdate : View → Nat → Nat → Nat → Prop
  CanDelete : View → Nat → Prop
  canDelete_del : ∀ v i k, CanDelete v i → CanDelete (v.del k) i
  canDelete_uniq : ∀ v i, v.Uniq → CanDelete v i
  get : ∀ s, Inv s → ∀ i, D.getLink s i = some ((D.view s i).map fun p => ⟨i, p.1, p.2⟩)
  null : ∀ s, Inv s → D.view s 0 = none
  any_pos : ∀ s, Inv s → (D.consts s).any ≠ 0
  any_absent : ∀ s, Inv s → D.view s (D.consts s).any = none
  create : ∀ s, Inv s → CanCreate s → ∀ q,
    (∃ e, Links.Fails (fun _ h st => D.createLinks s q h st) s e) ∨
    (∃ i s', D.view s i = none ∧ Inv s' ∧ D.consts s' = D.consts s ∧
      D.view s' = (D.view s).set i (0, 0) ∧
      Links.Succeeds (fun _ h st => D.createLinks s q h st) s' Link.nothing ⟨i, 0, 0⟩)
  update_missing : ∀ s, Inv s → ∀ i, D.view s i = none → ∀ x a b,
    Links.Fails (fun _ h st => D.updateLinks s [i] [x, a, b] h st) s (.notExists i)
  update : ∀ s, Inv s → ∀ i p, D.view s i = some p → (D.view s).NoTwin i → ∀ x a b,
    CanUpdate (D.view s) i a b →
    ∃ s' before, before.index = i ∧ Inv s' ∧ D.consts s' = D.consts s ∧
      D.view s' = (D.view s).set i (a, b) ∧
      Links.Succeeds (fun _ h st => D.updateLinks s [i] [x, a, b] h st) s' before ⟨i, a, b⟩
  delete_missing : ∀ s, Inv s → ∀ i, D.view s i = none →
    Links.Fails (fun _ h st => D.deleteLinks s [i] h st) s (.notExists i)
  delete : ∀ s, Inv s → ∀ i p, D.view s i = some p → (D.view s).NoTwin i →
    CanDelete (D.view s) i →
    ∃ s', Inv s' ∧ D.consts s' = D.consts s ∧ D.view s' = (D.view s).del i ∧
      Links.Succeeds (fun _ h st => D.deleteLinks s [i] h st) s' ⟨i, p.1, p.2⟩ Link.nothing
  each_all : ∀ s, Inv s → ∃ L, D.Visits s [] L ∧ L.Nodup ∧ ∀ l, l ∈ L ↔ (D.view s).Has l
  count_all : ∀ s, Inv s → ∀ L, D.Visits s [] L → D.countLinks s [] = some L.length
  bounded : ∀ s, Inv s → ∀ L, D.Visits s [] L → L.length ≤ D.maxT
  each_index : ∀ s, Inv s → ∀ i, i ≠ (D.consts s).any →
    D.Visits s [i] ((D.view s i).map fun p => (⟨i, p.1, p.2⟩ : Link)).toList
  count_index : ∀ s, Inv s → ∀ i, i ≠ (D.consts s).any →
    D.countLinks s [i] = some (if (D.view s i).isSome then 1 else 0)
  each_source : ∀ s, Inv s → ∀ v, v ≠ 0 → v ≠ (D.consts s).any →
    ∃ L, D.Visits s [(D.consts s).any, v, (D.consts s).any] L ∧ L.Nodup ∧
      ∀ l, l ∈ L ↔ (D.view s).Has l ∧ l.source = v
  each_target : ∀ s, Inv s → ∀ v, v ≠ 0 → v ≠ (D.consts s).any →
    ∃ L, D.Visits s [(D.consts s).any, (D.consts s).any, v] L ∧ L.Nodup ∧
      ∀ l, l ∈ L ↔ (D.view s).Has l ∧ l.target = v
  each_pair : ∀ s, Inv s → ∀ x y, x ≠ 0 → x ≠ (D.consts s).any → y ≠ 0 → y ≠ (D.consts s).any →
    ∃ L, D.Visits s [(D.consts s).any, x, y] L ∧ L.length ≤ 1 ∧
      (∀ l ∈ L, (D.view s).Has l ∧ l.source = x ∧ l.target = y) ∧
      ((∃ i, D.view s i = some (x, y)) → L ≠ [])
  count_pair : ∀ s, Inv s → ∀ x y, x ≠ 0 → x ≠ (D.consts s).any → y ≠ 0 → y ≠ (D.consts s).any →
    ∃ n, D.countLinks s [(D.consts s).any, x, y] = some n ∧ ((∃ i, D.view s i = some (x, y)) → n ≠ 0)
  count_usages : ∀ s, Inv s → ∀ v, v ≠ 0 → v ≠ (D.consts s).any →
    (∃ n, D.countLinks s [(D.consts s).any, v, (D.consts s).any] = some n) ∧
    (∃ n, D.countLinks s [(D.consts s).any, (D.consts s).any, v] = some n)
  count_source : ∀ s, Inv s → ∀ v, (D.view s v).isSome → ∀ L,
    D.Visits s [(D.consts s).any, v, (D.consts s).any] L →
    D.countLinks s [(D.consts s).any, v, (D.consts s).any] = some L.length
  count_target : ∀ s, Inv s → ∀ v, (D.view s v).isSome → ∀ L,
    D.Visits s [(D.consts s).any, (D.consts s).any, v] L →
    D.countLinks s [(D.consts s).any, (D.consts s).any, v] = some L.length

end Verif
