import Verif.Doublets

/-!
# Parallel iteration

`par_each_iter` (`doublets/src/data/traits.rs:640-647`) collects what a traversal visits in a vector, like `each_iter`, and hands the
vector to rayon. rayon divides it into pieces, as it sees fit, and several workers handle the pieces. This file models what rayon
documents of that: every way of dividing the vector, and every order in which the workers come to handle the items.
-/

namespace Verif.Parallel
open Verif

/-- How rayon divides a vector: not at all, or at position `n` and then each part in its own way. -/
inductive Job where
  | whole
  | split (n : Nat) (l r : Job)

variable {α β : Type}

/-- The pieces that are handled one item after the other. -/
def Job.pieces : Job → List α → List (List α)
  | .whole, xs => [xs]
  | .split n l r, xs => l.pieces (xs.take n) ++ r.pieces (xs.drop n)

/-- The items are handled in this order: at each moment some worker handles the first item that is left of its piece. -/
inductive Order : List (List α) → List α → Prop
  | done {ps} : (∀ p ∈ ps, p = []) → Order ps []
  | step {ps} (t : Nat) {x p xs} : ps[t]? = some (x :: p) → Order (ps.set t p) xs → Order ps (x :: xs)

/-- `map(f).reduce(|| e, op)`: within a piece from left to right, then piece with piece. -/
def Job.reduce (op : β → β → β) (e : β) (f : α → β) : Job → List α → β
  | .whole, xs => xs.foldl (fun a x => op a (f x)) e
  | .split n l r, xs => op (l.reduce op e f (xs.take n)) (r.reduce op e f (xs.drop n))

/-- `map(f).collect()` of an indexed parallel iterator: the results of the pieces, put together in the order of the pieces. -/
def Job.collect (f : α → β) : Job → List α → List β
  | .whole, xs => xs.map f
  | .split n l r, xs => l.collect f (xs.take n) ++ r.collect f (xs.drop n)

theorem Job.pieces_flatten : ∀ (j : Job) (xs : List α), (j.pieces xs).flatten = xs
  | .whole, xs => by simp [pieces]
  | .split n l r, xs => by rw [pieces, List.flatten_append, l.pieces_flatten, r.pieces_flatten, List.take_append_drop]

theorem flatten_set : ∀ {ps : List (List α)} {t : Nat} {x : α} {p : List α}, ps[t]? = some (x :: p) →
    (x :: (ps.set t p).flatten).Perm ps.flatten
  | [], _, _, _, h => by simp at h
  | _ :: _, 0, _, _, h => by
    simp only [List.getElem?_cons_zero, Option.some.injEq] at h
    subst h
    simp
  | q :: ps, t + 1, x, p, h => by
    simp only [List.getElem?_cons_succ] at h
    rw [List.set_cons_succ, List.flatten_cons, List.flatten_cons]
    exact List.perm_middle.symm.trans ((flatten_set h).append_left q)

theorem Order.perm {ps : List (List α)} {xs : List α} (h : Order ps xs) : xs.Perm ps.flatten := by
  induction h with
  | done h => rw [List.flatten_eq_nil_iff.mpr h]
  | step t hx _ ih => exact (ih.cons _).trans (flatten_set hx)

/-- Whatever the pieces and the order, each item is handled once. -/
theorem Job.order_perm {j : Job} {xs ys : List α} (h : Order (j.pieces xs) ys) : ys.Perm xs := by
  rw [← j.pieces_flatten xs]; exact h.perm

theorem foldl_op {op : β → β → β} {e : β} (hassoc : ∀ a b c, op (op a b) c = op a (op b c)) (hl : ∀ a, op e a = a)
    (hr : ∀ a, op a e = a) (f : α → β) : ∀ (xs : List α) (b : β),
      op b (xs.foldl (fun a x => op a (f x)) e) = xs.foldl (fun a x => op a (f x)) b
  | [], b => hr b
  | x :: xs, b => by
    rw [List.foldl_cons, List.foldl_cons, hl, ← foldl_op hassoc hl hr f xs (f x), ← foldl_op hassoc hl hr f xs (op b (f x)), hassoc]

/-- Whatever the pieces, reducing with an associative operation gives what going through the vector gives. -/
theorem Job.reduce_eq {op : β → β → β} {e : β} (hassoc : ∀ a b c, op (op a b) c = op a (op b c)) (hl : ∀ a, op e a = a)
    (hr : ∀ a, op a e = a) (f : α → β) : ∀ (j : Job) (xs : List α),
      j.reduce op e f xs = xs.foldl (fun a x => op a (f x)) e
  | .whole, _ => rfl
  | .split n l r, xs => by
    rw [reduce, l.reduce_eq hassoc hl hr, r.reduce_eq hassoc hl hr, foldl_op hassoc hl hr, ← List.foldl_append,
      List.take_append_drop]

theorem Job.collect_eq (f : α → β) : ∀ (j : Job) (xs : List α), j.collect f xs = xs.map f
  | .whole, _ => rfl
  | .split n l r, xs => by rw [collect, l.collect_eq, r.collect_eq, ← List.map_append, List.take_append_drop]

/-- What a client may rely on when it goes through the vector `L` in parallel. -/
structure Faithful (L : List α) : Prop where
  /-- Each item is handled once, whatever the pieces and the order. -/
  once : ∀ (j : Job) (ys : List α), Order (j.pieces L) ys → ys.Perm L
  /-- Updates of a shared state that commute have the effect of going through the vector. -/
  shared : ∀ {β : Type} (f : β → α → β), (∀ b x y, f (f b x) y = f (f b y) x) → ∀ (j : Job) (ys : List α) (b : β),
    Order (j.pieces L) ys → ys.foldl f b = L.foldl f b
  /-- Reducing with an associative operation gives what going through the vector gives. -/
  reduce : ∀ {β : Type} (op : β → β → β) (e : β) (f : α → β), (∀ a b c, op (op a b) c = op a (op b c)) → (∀ a, op e a = a) →
    (∀ a, op a e = a) → ∀ j : Job, j.reduce op e f L = L.foldl (fun a x => op a (f x)) e
  /-- Results are collected in the order of the vector. -/
  collect : ∀ {β : Type} (f : α → β) (j : Job), j.collect f L = L.map f

theorem faithful (L : List α) : Faithful L where
  once _ _ h := Job.order_perm h
  shared f hf _ _ b h := (Job.order_perm h).foldl_eq' (fun x _ y _ z => hf z x y) b
  reduce _ _ f ha hl hr j := j.reduce_eq ha hl hr f L
  collect f j := j.collect_eq f L

end Verif.Parallel
