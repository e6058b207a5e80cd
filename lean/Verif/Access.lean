import Verif.Trees

/-!
# Algorithms that reach memory through accessors

The algorithms of the `trees` crate do not touch memory themselves. They are default methods of the traits `SzbTree`,
`NoRecurSzbTree`, `LinkedList`, `AbsoluteLinkedList` and `AbsoluteCircularLinkedList` and call the accessors that the
repository implements: `get_left`, `set_size`, `clear_node`, `first_is_to_the_left_of_second`, … An algorithm is
therefore a program that asks questions and gives orders (`Prog`), and an implementation of the trait says what each
of them does to memory (`Access`). `Prog.run` runs one over the other and records the memory after every single write.

`Programs.Implements` relates the programs to the functions of `TreesCrate`, in terms of which the stores are modelled:
on a well-formed tree or list they compute the same, and they name no node but those of the tree or list and the one
to insert or remove.
-/

namespace Verif

/-! ### Computations that leave memory images -/

/-- A computation on memory `M`: the images it leaves, one after each write, and its result with the final memory, or
`none` if it panics. -/
def Tr (M α : Type) := M → List M × Option (α × M)

namespace Tr
variable {M α β : Type}

protected def pure (a : α) : Tr M α := fun m => ([], some (a, m))

protected def bind (f : Tr M α) (g : α → Tr M β) : Tr M β := fun m =>
  match f m with
  | (l, none) => (l, none)
  | (l, some (a, m')) => (l ++ (g a m').1, (g a m').2)

instance : Monad (Tr M) where
  pure := Tr.pure
  bind := Tr.bind

/-- Panic. -/
def fail : Tr M α := fun _ => ([], none)

/-- Read memory; `none` is a panic. -/
def ask (f : M → Option α) : Tr M α := fun m => ([], (f m).map fun a => (a, m))

/-- One write to memory; `none` is a panic. -/
def tell (f : M → Option M) : Tr M Unit := fun m => ((f m).toList, (f m).map fun m' => ((), m'))

/-- A value that may be missing, such as the result of checked arithmetic. -/
def ofOption (o : Option α) : Tr M α := ask fun _ => o

/-- Several writes one after another. -/
def tells : List (M → Option M) → Tr M Unit
  | [] => pure ()
  | f :: fs => do tell f; tells fs

/-- Do it if the condition holds. -/
def «when» (b : Bool) (f : Tr M Unit) : Tr M Unit := if b then f else pure ()

theorem run_pure (a : α) (m : M) : (pure a : Tr M α) m = ([], some (a, m)) := rfl

theorem bind_res (f : Tr M α) (g : α → Tr M β) (m : M) :
    ((f >>= g) m).2 = (f m).2.bind fun x => (g x.1 x.2).2 := by
  show (Tr.bind f g m).2 = _
  unfold Tr.bind
  rcases h : f m with ⟨l, _ | ⟨a, m'⟩⟩ <;> rfl

theorem bind_some {f : Tr M α} {g : α → Tr M β} {m m' : M} {a : α} (h : (f m).2 = some (a, m')) :
    ((f >>= g) m).2 = (g a m').2 := by rw [bind_res, h]; rfl

theorem bind_none {f : Tr M α} {g : α → Tr M β} {m : M} (h : (f m).2 = none) : ((f >>= g) m).2 = none := by
  rw [bind_res, h]; rfl

theorem mem_bind {f : Tr M α} {g : α → Tr M β} {m x : M} :
    x ∈ ((f >>= g) m).1 ↔ x ∈ (f m).1 ∨ ∃ a m', (f m).2 = some (a, m') ∧ x ∈ (g a m').1 := by
  show x ∈ (Tr.bind f g m).1 ↔ _
  unfold Tr.bind
  rcases h : f m with ⟨l, _ | ⟨a, m'⟩⟩
  · simp
  · simp only [List.mem_append, Option.some.injEq, Prod.mk.injEq]
    constructor
    · rintro (h | h)
      · exact .inl h
      · exact .inr ⟨a, m', ⟨rfl, rfl⟩, h⟩
    · rintro (h | ⟨_, _, ⟨rfl, rfl⟩, h⟩)
      · exact .inl h
      · exact .inr h

theorem ask_res (f : M → Option α) (m : M) : (ask f m).2 = (f m).map fun a => (a, m) := rfl
theorem ask_img (f : M → Option α) (m : M) : (ask f m).1 = [] := rfl
theorem tell_res (f : M → Option M) (m : M) : (tell f m).2 = (f m).map fun m' => ((), m') := rfl
theorem tell_img (f : M → Option M) (m : M) : (tell f m).1 = (f m).toList := rfl

end Tr

/-! ### Programs over accessors -/

/-- An algorithm that asks questions `Q`, answered by numbers, and gives orders `W`. -/
inductive Prog (Q W α : Type) where
  | ret (a : α)
  | panic
  | read (q : Q) (k : Nat → Prog Q W α)
  | write (w : W) (k : Prog Q W α)

/-- An implementation of a trait's accessors on memory `M`: the answer to a question, and the assignments that carry
out an order. `none` is an access out of bounds. -/
structure Access (M Q W : Type) where
  ask : Q → M → Option Nat
  tell : W → List (M → Option M)

namespace Prog
variable {Q W α β M V : Type}

protected def bind : Prog Q W α → (α → Prog Q W β) → Prog Q W β
  | ret a, g => g a
  | panic, _ => panic
  | read q k, g => read q fun v => (k v).bind g
  | write w k, g => write w (k.bind g)

instance : Monad (Prog Q W) where
  pure := ret
  bind := Prog.bind

/-- Run a program through an implementation of the accessors. -/
def run (A : Access M Q W) : Prog Q W α → Tr M α
  | ret a => pure a
  | panic => Tr.fail
  | read q k => do
    let v ← Tr.ask (A.ask q)
    (k v).run A
  | write w k => do
    Tr.tells (A.tell w)
    k.run A

/-- Run a program on an abstract state, where every question has an answer and every order can be carried out. -/
def eval (ask : Q → V → Nat) (tell : W → V → V) : Prog Q W α → V → Option (α × V)
  | ret a, v => some (a, v)
  | panic, _ => none
  | read q k, v => (k (ask q v)).eval ask tell v
  | write w k, v => k.eval ask tell (tell w v)

/-- All questions and orders of a run satisfy the given conditions. -/
def Obeys (ask : Q → V → Nat) (tell : W → V → V) (okQ : Q → Prop) (okW : W → Prop) : Prog Q W α → V → Prop
  | ret _, _ => True
  | panic, _ => True
  | read q k, v => okQ q ∧ (k (ask q v)).Obeys ask tell okQ okW v
  | write w k, v => okW w ∧ k.Obeys ask tell okQ okW (tell w v)

theorem eval_bind (ask : Q → V → Nat) (tell : W → V → V) (p : Prog Q W α) (g : α → Prog Q W β) (v : V) :
    (p >>= g).eval ask tell v = (p.eval ask tell v).bind fun x => (g x.1).eval ask tell x.2 := by
  show (Prog.bind p g).eval ask tell v = _
  induction p generalizing v with
  | ret a => rfl
  | panic => rfl
  | read q k ih => exact ih _ _
  | write w k ih => exact ih _

theorem obeys_bind {ask : Q → V → Nat} {tell : W → V → V} {okQ : Q → Prop} {okW : W → Prop} {p : Prog Q W α}
    {g : α → Prog Q W β} {v : V} (hp : p.Obeys ask tell okQ okW v)
    (hg : ∀ a v', p.eval ask tell v = some (a, v') → (g a).Obeys ask tell okQ okW v') :
    (p >>= g).Obeys ask tell okQ okW v := by
  show (Prog.bind p g).Obeys ask tell okQ okW v
  induction p generalizing v with
  | ret a => exact hg a v rfl
  | panic => trivial
  | read q k ih => exact ⟨hp.1, ih _ hp.2 hg⟩
  | write w k ih => exact ⟨hp.1, ih hp.2 hg⟩

theorem obeys_mono {ask : Q → V → Nat} {tell : W → V → V} {okQ okQ' : Q → Prop} {okW okW' : W → Prop}
    (hQ : ∀ q, okQ q → okQ' q) (hW : ∀ w, okW w → okW' w) {p : Prog Q W α} {v : V}
    (h : p.Obeys ask tell okQ okW v) : p.Obeys ask tell okQ' okW' v := by
  induction p generalizing v with
  | ret a => trivial
  | panic => trivial
  | read q k ih => exact ⟨hQ _ h.1, ih _ h.2⟩
  | write w k ih => exact ⟨hW _ h.1, ih h.2⟩

/-- `put` lays an abstract state out in memory, and the accessors do to memory what the abstract ones do to the state. -/
structure Sim (A : Access M Q W) (ask : Q → V → Nat) (tell : W → V → V) (put : V → M) (okQ : Q → Prop)
    (okW : W → Prop) : Prop where
  ask : ∀ q v, okQ q → A.ask q (put v) = some (ask q v)
  tell : ∀ w v, okW w → (Tr.tells (A.tell w) (put v)).2 = some ((), put (tell w v))

/-- Running a program through faithful accessors is running it on the abstract state. -/
theorem run_eq {A : Access M Q W} {ask : Q → V → Nat} {tell : W → V → V} {put : V → M} {okQ : Q → Prop}
    {okW : W → Prop} (h : Sim A ask tell put okQ okW) (p : Prog Q W α) (v : V)
    (ho : p.Obeys ask tell okQ okW v) :
    (p.run A (put v)).2 = (p.eval ask tell v).map fun x => (x.1, put x.2) := by
  induction p generalizing v with
  | ret a => rfl
  | panic => rfl
  | read q k ih =>
    show ((Tr.ask (A.ask q) >>= fun v => (k v).run A) (put v)).2 = _
    rw [Tr.bind_some (a := ask q v) (m' := put v) (by rw [Tr.ask_res, h.ask q v ho.1]; rfl)]
    exact ih _ _ ho.2
  | write w k ih =>
    show ((Tr.tells (A.tell w) >>= fun _ => k.run A) (put v)).2 = _
    rw [Tr.bind_some (h.tell w v ho.1)]
    exact ih _ ho.2

theorem mem_tells {I : M → Prop} : ∀ {fs : List (M → Option M)}, (∀ f ∈ fs, ∀ m m', I m → f m = some m' → I m') →
    ∀ {m : M}, I m → (∀ x ∈ (Tr.tells fs m).1, I x) ∧ ∀ m', (Tr.tells fs m).2 = some ((), m') → I m' := by
  intro fs
  induction fs with
  | nil =>
    intro _ m hm
    refine ⟨fun x hx => (by cases hx), fun m' h => ?_⟩
    simp only [Tr.tells, Tr.run_pure, Option.some.injEq, Prod.mk.injEq, true_and] at h
    exact h ▸ hm
  | cons f fs ih =>
    intro hf m hm
    have step : ∀ m', f m = some m' → I m' := fun m' h => hf f (by simp) m m' hm h
    have ih' := @ih (fun g hg => hf g (List.mem_cons_of_mem _ hg))
    constructor
    · intro x hx
      simp only [Tr.tells, Tr.mem_bind, Tr.tell_img, Tr.tell_res] at hx
      rcases hx with hx | ⟨_, m', h1, h2⟩
      · exact step x (by simpa using hx)
      · cases hfm : f m with
        | none => rw [hfm] at h1; cases h1
        | some m1 =>
          rw [hfm] at h1
          simp only [Option.map_some, Option.some.injEq, Prod.mk.injEq, true_and] at h1
          subst h1
          exact (@ih' _ (step _ hfm)).1 x h2
    · intro m' h
      simp only [Tr.tells, Tr.bind_res, Tr.tell_res] at h
      cases hfm : f m with
      | none => rw [hfm] at h; cases h
      | some m1 =>
        rw [hfm] at h
        exact (@ih' _ (step _ hfm)).2 m' h

/-- What every single assignment of the orders given keeps, holds in every image of the run. -/
theorem run_keeps {A : Access M Q W} {ask : Q → V → Nat} {tell : W → V → V} {put : V → M} {okQ : Q → Prop}
    {okW : W → Prop} (h : Sim A ask tell put okQ okW) {I : M → Prop}
    (hI : ∀ w, okW w → ∀ f ∈ A.tell w, ∀ m m', I m → f m = some m' → I m') (p : Prog Q W α) (v : V)
    (ho : p.Obeys ask tell okQ okW v) (hm : I (put v)) : ∀ x ∈ (p.run A (put v)).1, I x := by
  induction p generalizing v with
  | ret a => intro x hx; cases hx
  | panic => intro x hx; cases hx
  | read q k ih =>
    intro x hx
    have hx : x ∈ ((Tr.ask (A.ask q) >>= fun v => (k v).run A) (put v)).1 := hx
    rw [Tr.mem_bind, Tr.ask_img, Tr.ask_res, h.ask q v ho.1] at hx
    rcases hx with hx | ⟨a, m', h1, h2⟩
    · cases hx
    · simp only [Option.map_some, Option.some.injEq, Prod.mk.injEq] at h1
      obtain ⟨rfl, rfl⟩ := h1
      exact ih _ _ ho.2 hm x h2
  | write w k ih =>
    intro x hx
    have hx : x ∈ ((Tr.tells (A.tell w) >>= fun _ => k.run A) (put v)).1 := hx
    have hk := mem_tells (hI w ho.1) hm
    rw [Tr.mem_bind, h.tell w v ho.1] at hx
    rcases hx with hx | ⟨a, m', h1, h2⟩
    · exact hk.1 x hx
    · simp only [Option.some.injEq, Prod.mk.injEq, true_and] at h1
      subst h1
      exact ih _ ho.2 (hk.2 _ (h.tell w v ho.1)) x h2

end Prog

/-! ### The traits of the `trees` crate -/

/-- Questions a tree algorithm asks: `get_left`, `get_right`, `get_size`; the value behind the pointers
`get_left_reference`, `get_right_reference`, `get_mut_left_reference`, `get_mut_right_reference` and behind the root
pointer it was given; `first_is_to_the_left_of_second`, `first_is_to_the_right_of_second` (1 for true). -/
inductive TreeQ where
  | left (n : Nat)
  | right (n : Nat)
  | size (n : Nat)
  | leftRef (n : Nat)
  | rightRef (n : Nat)
  | leftMut (n : Nat)
  | rightMut (n : Nat)
  | root
  | toLeft (a b : Nat)
  | toRight (a b : Nat)

/-- Orders a tree algorithm gives: `set_left`, `set_right`, `set_size`; assignments through the pointers
`get_mut_left_reference`, `get_mut_right_reference` and the root pointer; `clear_node`. -/
inductive TreeW where
  | left (n v : Nat)
  | right (n v : Nat)
  | size (n v : Nat)
  | leftMut (n v : Nat)
  | rightMut (n v : Nat)
  | root (v : Nat)
  | clear (n : Nat)

/-- The accessors of `SzbTree` as the repository implements them for one tree in memory `M`, with pointers `P`. -/
structure SzbTree (M P : Type) where
  getLeftReference : M → Nat → Option P
  getRightReference : M → Nat → Option P
  getMutLeftReference : M → Nat → Option P
  getMutRightReference : M → Nat → Option P
  getLeft : M → Nat → Option Nat
  getRight : M → Nat → Option Nat
  getSize : M → Nat → Option Nat
  setLeft : Nat → Nat → M → Option M
  setRight : Nat → Nat → M → Option M
  setSize : Nat → Nat → M → Option M
  firstIsToTheLeftOfSecond : M → Nat → Nat → Option Bool
  firstIsToTheRightOfSecond : M → Nat → Nat → Option Bool
  clearNode : Nat → List (M → Option M)
  /-- Value behind a pointer, and assignment through it. -/
  load : M → P → Nat
  store : M → P → Nat → M

/-- The accessors with the root pointer the algorithm is given. -/
def SzbTree.access {M P : Type} (T : SzbTree M P) (root : P) : Access M TreeQ TreeW where
  ask
    | .left n, m => T.getLeft m n
    | .right n, m => T.getRight m n
    | .size n, m => T.getSize m n
    | .leftRef n, m => (T.getLeftReference m n).map (T.load m)
    | .rightRef n, m => (T.getRightReference m n).map (T.load m)
    | .leftMut n, m => (T.getMutLeftReference m n).map (T.load m)
    | .rightMut n, m => (T.getMutRightReference m n).map (T.load m)
    | .root, m => some (T.load m root)
    | .toLeft a b, m => (T.firstIsToTheLeftOfSecond m a b).map Bool.toNat
    | .toRight a b, m => (T.firstIsToTheRightOfSecond m a b).map Bool.toNat
  tell
    | .left n v => [T.setLeft n v]
    | .right n v => [T.setRight n v]
    | .size n v => [T.setSize n v]
    | .leftMut n v => [fun m => (T.getMutLeftReference m n).map fun p => T.store m p v]
    | .rightMut n v => [fun m => (T.getMutRightReference m n).map fun p => T.store m p v]
    | .root v => [fun m => some (T.store m root v)]
    | .clear n => T.clearNode n

/-- The same questions about an abstract tree memory and root. -/
def TreeQ.abs (lt gt : Nat → Nat → Bool) : TreeQ → TMem × Nat → Nat
  | .left n, m => m.1.left n
  | .right n, m => m.1.right n
  | .size n, m => m.1.size n
  | .leftRef n, m => m.1.left n
  | .rightRef n, m => m.1.right n
  | .leftMut n, m => m.1.left n
  | .rightMut n, m => m.1.right n
  | .root, m => m.2
  | .toLeft a b, _ => (lt a b).toNat
  | .toRight a b, _ => (gt a b).toNat

/-- `f` with the value at `n` replaced. -/
def upd (f : Nat → Nat) (n v : Nat) : Nat → Nat := fun k => if k = n then v else f k

/-- The same orders on an abstract tree memory and root. -/
def TreeW.abs : TreeW → TMem × Nat → TMem × Nat
  | .left n v, m => ({ m.1 with left := upd m.1.left n v }, m.2)
  | .right n v, m => ({ m.1 with right := upd m.1.right n v }, m.2)
  | .size n v, m => ({ m.1 with size := upd m.1.size n v }, m.2)
  | .leftMut n v, m => ({ m.1 with left := upd m.1.left n v }, m.2)
  | .rightMut n v, m => ({ m.1 with right := upd m.1.right n v }, m.2)
  | .root v, m => (m.1, v)
  | .clear n, m => (⟨upd m.1.left n 0, upd m.1.right n 0, upd m.1.size n 0⟩, m.2)

/-- The nodes a question names are among those allowed. -/
def TreeQ.Names (ok : Nat → Prop) : TreeQ → Prop
  | .left n | .right n | .size n | .leftRef n | .rightRef n | .leftMut n | .rightMut n => ok n
  | .root => True
  | .toLeft a b | .toRight a b => ok a ∧ ok b

/-- The nodes an order names are among those allowed. -/
def TreeW.Names (ok : Nat → Prop) : TreeW → Prop
  | .left n _ | .right n _ | .size n _ | .leftMut n _ | .rightMut n _ | .clear n => ok n
  | .root _ => True

/-- Questions a list algorithm asks: `get_first`, `get_last`, `get_size`, `get_previous`, `get_next`. -/
inductive ListQ where
  | first
  | last
  | size
  | prev (n : Nat)
  | next (n : Nat)

/-- Orders a list algorithm gives: `set_first`, `set_last`, `set_size`, `set_previous`, `set_next`. -/
inductive ListW where
  | first (v : Nat)
  | last (v : Nat)
  | size (v : Nat)
  | prev (n v : Nat)
  | next (n v : Nat)

/-- The accessors of `AbsoluteLinkedList` and `LinkedList` as the repository implements them in memory `M`. -/
structure AbsList (M : Type) where
  getFirst : M → Option Nat
  getLast : M → Option Nat
  getSize : M → Option Nat
  setFirst : Nat → M → Option M
  setLast : Nat → M → Option M
  setSize : Nat → M → Option M
  getPrevious : M → Nat → Option Nat
  getNext : M → Nat → Option Nat
  setPrevious : Nat → Nat → M → Option M
  setNext : Nat → Nat → M → Option M

/-- The accessors of a list. -/
def AbsList.access {M : Type} (L : AbsList M) : Access M ListQ ListW where
  ask
    | .first, m => L.getFirst m
    | .last, m => L.getLast m
    | .size, m => L.getSize m
    | .prev n, m => L.getPrevious m n
    | .next n, m => L.getNext m n
  tell
    | .first v => [L.setFirst v]
    | .last v => [L.setLast v]
    | .size v => [L.setSize v]
    | .prev n v => [L.setPrevious n v]
    | .next n v => [L.setNext n v]

/-- The same questions about an abstract list memory. -/
def ListQ.abs : ListQ → LMem → Nat
  | .first, m => m.first
  | .last, m => m.last
  | .size, m => m.size
  | .prev n, m => m.prev n
  | .next n, m => m.next n

/-- The same orders on an abstract list memory. -/
def ListW.abs : ListW → LMem → LMem
  | .first v, m => { m with first := v }
  | .last v, m => { m with last := v }
  | .size v, m => { m with size := v }
  | .prev n v, m => { m with prev := upd m.prev n v }
  | .next n v, m => { m with next := upd m.next n v }

/-- The elements a question names are among those allowed. -/
def ListQ.Names (ok : Nat → Prop) : ListQ → Prop
  | .prev n | .next n => ok n
  | _ => True

/-- The elements an order names are among those allowed. -/
def ListW.Names (ok : Nat → Prop) : ListW → Prop
  | .prev n _ | .next n _ => ok n
  | _ => True

/-! ### The four algorithms as programs -/

abbrev TreeProg := Prog TreeQ TreeW Unit
abbrev ListProg := Prog ListQ ListW Unit

/-- The four algorithms of the crate that the stores call. The first argument bounds the number of rounds of loops: a
program that ends for every large enough bound ends. The second is the node. -/
structure Programs where
  attach : Nat → Nat → TreeProg
  detach : Nat → Nat → TreeProg
  listAttachFirst : Nat → Nat → ListProg
  listDetach : Nat → Nat → ListProg

/-- Whenever the contract of the crate applies, the program does what the function does, and asks about and orders
changes to no node but those of the structure and the one given. -/
structure Programs.Implements (P : Programs) (X : TreesCrate) : Prop where
  attach : ∀ lt gt m t r n, WeakOrd lt gt → IsTree X.shape lt m t r → n ≠ 0 → n ∉ t.toList →
    m.left n = 0 → m.right n = 0 → ∃ f0, ∀ f, f0 ≤ f →
      (P.attach f n).eval (TreeQ.abs lt gt) TreeW.abs (m, r) = (X.treeAttach lt gt m r n).map (((), ·)) ∧
      (P.attach f n).Obeys (TreeQ.abs lt gt) TreeW.abs (TreeQ.Names (· ∈ n :: t.toList))
        (TreeW.Names (· ∈ n :: t.toList)) (m, r)
  detach : ∀ lt gt m t r n, WeakOrd lt gt → IsTree X.shape lt m t r → n ∈ t.toList →
    (∀ k ∈ t.toList, k ≠ n → lt n k = true ∨ gt n k = true) → ∃ f0, ∀ f, f0 ≤ f →
      (P.detach f n).eval (TreeQ.abs lt gt) TreeW.abs (m, r) = (X.treeDetach lt gt m r n).map (((), ·)) ∧
      (P.detach f n).Obeys (TreeQ.abs lt gt) TreeW.abs (TreeQ.Names (· ∈ t.toList))
        (TreeW.Names (· ∈ t.toList)) (m, r)
  listAttachFirst : ∀ m l n, IsList m l → n ≠ 0 → n ∉ l → ∃ f0, ∀ f, f0 ≤ f →
      (P.listAttachFirst f n).eval ListQ.abs ListW.abs m = (X.listAttachFirst m n).map (((), ·)) ∧
      (P.listAttachFirst f n).Obeys ListQ.abs ListW.abs (ListQ.Names (· ∈ n :: l)) (ListW.Names (· ∈ n :: l)) m
  listDetach : ∀ m l n, IsList m l → n ∈ l → ∃ f0, ∀ f, f0 ≤ f →
      (P.listDetach f n).eval ListQ.abs ListW.abs m = (X.listDetach m n).map (((), ·)) ∧
      (P.listDetach f n).Obeys ListQ.abs ListW.abs (ListQ.Names (· ∈ l)) (ListW.Names (· ∈ l)) m

/-- The same, where the contract of the crate applies and the comparisons and the nodes are in the domain `D`. -/
structure Programs.ImplementsOn (P : Programs) (D : (Nat → Nat → Bool) → (Nat → Nat → Bool) → List Nat → Prop)
    (X : TreesCrate) : Prop where
  attach : ∀ lt gt m t r n, WeakOrd lt gt → IsTree X.shape lt m t r → n ≠ 0 → n ∉ t.toList →
    m.left n = 0 → m.right n = 0 → D lt gt (n :: t.toList) → ∃ f0, ∀ f, f0 ≤ f →
      (P.attach f n).eval (TreeQ.abs lt gt) TreeW.abs (m, r) = (X.treeAttach lt gt m r n).map (((), ·)) ∧
      (P.attach f n).Obeys (TreeQ.abs lt gt) TreeW.abs (TreeQ.Names (· ∈ n :: t.toList))
        (TreeW.Names (· ∈ n :: t.toList)) (m, r)
  detach : ∀ lt gt m t r n, WeakOrd lt gt → IsTree X.shape lt m t r → n ∈ t.toList →
    (∀ k ∈ t.toList, k ≠ n → lt n k = true ∨ gt n k = true) → D lt gt t.toList → ∃ f0, ∀ f, f0 ≤ f →
      (P.detach f n).eval (TreeQ.abs lt gt) TreeW.abs (m, r) = (X.treeDetach lt gt m r n).map (((), ·)) ∧
      (P.detach f n).Obeys (TreeQ.abs lt gt) TreeW.abs (TreeQ.Names (· ∈ t.toList))
        (TreeW.Names (· ∈ t.toList)) (m, r)
  listAttachFirst : ∀ m l n, IsList m l → n ≠ 0 → n ∉ l → ∃ f0, ∀ f, f0 ≤ f →
      (P.listAttachFirst f n).eval ListQ.abs ListW.abs m = (X.listAttachFirst m n).map (((), ·)) ∧
      (P.listAttachFirst f n).Obeys ListQ.abs ListW.abs (ListQ.Names (· ∈ n :: l)) (ListW.Names (· ∈ n :: l)) m
  listDetach : ∀ m l n, IsList m l → n ∈ l → ∃ f0, ∀ f, f0 ≤ f →
      (P.listDetach f n).eval ListQ.abs ListW.abs m = (X.listDetach m n).map (((), ·)) ∧
      (P.listDetach f n).Obeys ListQ.abs ListW.abs (ListQ.Names (· ∈ l)) (ListW.Names (· ∈ l)) m

theorem Programs.Implements.on {P : Programs} {X : TreesCrate} (h : P.Implements X)
    (D : (Nat → Nat → Bool) → (Nat → Nat → Bool) → List Nat → Prop) : P.ImplementsOn D X where
  attach lt gt m t r n h1 h2 h3 h4 h5 h6 _ := h.attach lt gt m t r n h1 h2 h3 h4 h5 h6
  detach lt gt m t r n h1 h2 h3 h4 _ := h.detach lt gt m t r n h1 h2 h3 h4
  listAttachFirst := h.listAttachFirst
  listDetach := h.listDetach

end Verif
