import Verif.Basic

/-!
# The external `trees` crate: interface and contract

`dev-deps/trees-rs` is an empty submodule, so its algorithms are not available here. The code under study
uses four of them; they are the fields of `TreesCrate`. `LawfulTrees` is the contract the rest of
the development relies on.
-/

namespace Verif

/-- Finite binary trees of slot indices: the abstract value of a tree laid out in memory. -/
inductive Tree where
  | leaf : Tree
  | node (l : Tree) (k : Nat) (r : Tree) : Tree
deriving DecidableEq

namespace Tree

/-- In-order sequence of nodes. -/
def toList : Tree → List Nat
  | leaf => []
  | node l k r => l.toList ++ k :: r.toList

/-- Number of nodes. -/
def size : Tree → Nat
  | leaf => 0
  | node l _ r => l.size + 1 + r.size

/-- Index of the root, 0 for the empty tree. -/
def root : Tree → Nat
  | leaf => 0
  | node _ k _ => k

theorem size_eq_length (t : Tree) : t.size = t.toList.length := by
  induction t with
  | leaf => rfl
  | node l k r ihl ihr => simp [size, toList, ihl, ihr]; omega

end Tree

/-- What a size-balanced tree sees of memory: for each node its left child, right child and size
(`SzbTree` accessors, e.g. `sources_recursionless_size_balanced_tree.rs:32-101`). -/
structure TMem where
  left : Nat → Nat
  right : Nat → Nat
  size : Nat → Nat

/-- `m` holds the tree `t` with root pointer `r`; 0 is the null pointer; sizes are exact. -/
def Holds (m : TMem) : Tree → Nat → Prop
  | .leaf, r => r = 0
  | .node a k b, r =>
    r = k ∧ k ≠ 0 ∧ Holds m a (m.left k) ∧ Holds m b (m.right k) ∧ m.size k = (Tree.node a k b).size

/-- `lt`/`gt` are the strict comparisons of one total preorder on nodes
(`first_is_to_the_left_of_second` / `first_is_to_the_right_of_second`). -/
structure WeakOrd (lt gt : Nat → Nat → Bool) : Prop where
  gt_eq : ∀ a b, gt a b = lt b a
  irrefl : ∀ a, lt a a = false
  trans : ∀ a b c, lt a b = true → lt b c = true → lt a c = true
  ntrans : ∀ a b c, lt a b = false → lt b c = false → lt a c = false

/-- A list of nodes in non-descending order. Equal keys are allowed. -/
def Ordered (lt : Nat → Nat → Bool) (l : List Nat) : Prop := l.Pairwise fun a b => lt b a = false

/-- `m` holds the search tree `t` at root pointer `r`, and the tree has the shape `P`. -/
structure IsTree (P : Tree → Prop) (lt : Nat → Nat → Bool) (m : TMem) (t : Tree) (r : Nat) : Prop where
  shape : P t
  holds : Holds m t r
  nodup : t.toList.Nodup
  ordered : Ordered lt t.toList

/-- What an absolute circular doubly linked list sees of memory (`AbsoluteLinkedList`, `LinkedList`
accessors, `doublets/src/mem/unit/generic/unused_links.rs:36-78`). -/
structure LMem where
  prev : Nat → Nat
  next : Nat → Nat
  first : Nat
  last : Nat
  size : Nat

/-- `m` holds the circular list `l`, first element first. -/
structure IsList (m : LMem) (l : List Nat) : Prop where
  nodup : l.Nodup
  nonzero : ∀ x ∈ l, x ≠ 0
  size_eq : m.size = l.length
  first_eq : m.first = l.headD 0
  last_eq : m.last = l.getLastD 0
  next_eq : ∀ i (_ : i < l.length), m.next (l.getD i 0) = l.getD ((i + 1) % l.length) 0
  prev_eq : ∀ i (_ : i < l.length), m.prev (l.getD ((i + 1) % l.length) 0) = l.getD i 0

/-- The four algorithms of the external crate, called at
`sources_recursionless_size_balanced_tree.rs:187-193` and `unused_links.rs:84-92`.
`none` = panic or divergence. Tree functions take the comparisons, the memory, the root pointer and the node.

`shape` is not computed by anything: it is the shape of tree which the crate maintains and relies on, such as
being size-balanced. Nothing about it is assumed except where a theorem says so. -/
structure TreesCrate where
  shape : Tree → Prop
  treeAttach : (lt gt : Nat → Nat → Bool) → TMem → Nat → Nat → Option (TMem × Nat)
  treeDetach : (lt gt : Nat → Nat → Bool) → TMem → Nat → Nat → Option (TMem × Nat)
  listAttachFirst : LMem → Nat → Option LMem
  listDetach : LMem → Nat → Option LMem

/-- Contract of the external crate.

* the empty tree has the crate's shape, and both tree operations expect a tree of that shape and leave one;
* `attach` inserts a fresh node at a position allowed by the order and writes to nodes of the new tree only;
* `detach` removes a node which the comparisons can tell from all others, clears its three fields and
  writes to nodes of the old tree only;
* the list operations maintain a circular list, `detach` clears the element's two fields, and both
  write to elements of the lists involved only.

`detach` promises nothing when another node compares equal: the algorithm finds the node by key. -/
structure LawfulTrees (X : TreesCrate) : Prop where
  leaf : X.shape .leaf
  attach : ∀ lt gt m t r n, WeakOrd lt gt → IsTree X.shape lt m t r → n ≠ 0 → n ∉ t.toList →
    m.left n = 0 → m.right n = 0 →
    ∃ m' r' t', X.treeAttach lt gt m r n = some (m', r') ∧ IsTree X.shape lt m' t' r' ∧
      t'.toList.Perm (n :: t.toList) ∧
      ∀ k, k ∉ n :: t.toList → m'.left k = m.left k ∧ m'.right k = m.right k ∧ m'.size k = m.size k
  detach : ∀ lt gt m t r n, WeakOrd lt gt → IsTree X.shape lt m t r → n ∈ t.toList →
    (∀ k ∈ t.toList, k ≠ n → lt n k = true ∨ gt n k = true) →
    ∃ m' r' t', X.treeDetach lt gt m r n = some (m', r') ∧ IsTree X.shape lt m' t' r' ∧
      (n :: t'.toList).Perm t.toList ∧ m'.left n = 0 ∧ m'.right n = 0 ∧ m'.size n = 0 ∧
      ∀ k, k ∉ t.toList → m'.left k = m.left k ∧ m'.right k = m.right k ∧ m'.size k = m.size k
  listAttachFirst : ∀ m l n, IsList m l → n ≠ 0 → n ∉ l →
    ∃ m', X.listAttachFirst m n = some m' ∧ IsList m' (n :: l) ∧
      ∀ k, k ∉ n :: l → m'.prev k = m.prev k ∧ m'.next k = m.next k
  listDetach : ∀ m l n, IsList m l → n ∈ l →
    ∃ m', X.listDetach m n = some m' ∧ IsList m' (l.erase n) ∧ m'.prev n = 0 ∧ m'.next n = 0 ∧
      ∀ k, k ∉ l → m'.prev k = m.prev k ∧ m'.next k = m.next k

end Verif
