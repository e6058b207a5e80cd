import Verif.Access
import Verif.RefTrees

/-!
# Reference programs for the `trees` interface

Programs over accessors that implement the reference functions of `RefTrees.lean`. They show that `Programs.Implements`
can be met and supply something executable for the concrete examples. They model no code.
-/

namespace Verif

/-- The program ends with a result and a state, and its questions and orders satisfy the conditions. -/
structure Prog.Ok {Q W V α : Type} (ask : Q → V → Nat) (tell : W → V → V) (okQ : Q → Prop) (okW : W → Prop)
    (p : Prog Q W α) (v : V) (a : α) (v' : V) : Prop where
  eval : p.eval ask tell v = some (a, v')
  obeys : p.Obeys ask tell okQ okW v

namespace Prog.Ok
variable {Q W V α β : Type} {ask : Q → V → Nat} {tell : W → V → V} {okQ : Q → Prop} {okW : W → Prop}

theorem bind {p : Prog Q W α} {g : α → Prog Q W β} {v v' v'' : V} {a : α} {b : β}
    (h1 : p.Ok ask tell okQ okW v a v') (h2 : (g a).Ok ask tell okQ okW v' b v'') :
    (p >>= g).Ok ask tell okQ okW v b v'' := by
  refine ⟨by rw [eval_bind, h1.eval]; exact h2.eval, obeys_bind h1.obeys fun a' v1 e => ?_⟩
  rw [h1.eval] at e
  simp only [Option.some.injEq, Prod.mk.injEq] at e
  obtain ⟨rfl, rfl⟩ := e
  exact h2.obeys

theorem pure (a : α) (v : V) : Prog.Ok ask tell okQ okW (Pure.pure a : Prog Q W α) v a v := ⟨rfl, trivial⟩

end Prog.Ok

/-- Ask one question. -/
def Prog.get {Q W : Type} (q : Q) : Prog Q W Nat := .read q .ret

/-- Give one order. -/
def Prog.put {Q W : Type} (w : W) : Prog Q W Unit := .write w (.ret ())

theorem Prog.Ok.get {Q W V : Type} {ask : Q → V → Nat} {tell : W → V → V} {okQ : Q → Prop} {okW : W → Prop} {q : Q}
    {v : V} (h : okQ q) : (Prog.get q : Prog Q W Nat).Ok ask tell okQ okW v (ask q v) v := ⟨rfl, h, trivial⟩

theorem Prog.Ok.put {Q W V : Type} {ask : Q → V → Nat} {tell : W → V → V} {okQ : Q → Prop} {okW : W → Prop} {w : W}
    {v : V} (h : okW w) : (Prog.put w : Prog Q W Unit).Ok ask tell okQ okW v () (tell w v) := ⟨rfl, h, trivial⟩

end Verif

namespace Verif.Ref
open Verif

/-! ### Trees -/

/-- In-order reading, through the pointers to the children. -/
def readTreeP : Nat → Nat → Prog TreeQ TreeW (List Nat)
  | 0, _ => pure []
  | f + 1, r => if r = 0 then pure [] else do
    let x ← .get (.leftRef r)
    let a ← readTreeP f x
    let y ← .get (.right r)
    let b ← readTreeP f y
    pure (a ++ r :: b)

/-- Insertion before the first greater element. -/
def insertByP (n : Nat) : List Nat → Prog TreeQ TreeW (List Nat)
  | [] => pure [n]
  | k :: ks => do
    let b ← .get (.toLeft n k)
    if b = 1 then pure (n :: k :: ks) else do
      let l ← insertByP n ks
      pure (k :: l)

/-- Writing a right spine, the last node first. -/
def writeSpineP : List Nat → TreeProg
  | [] => pure ()
  | k :: ks => do
    writeSpineP ks
    .put (.left k 0)
    .put (.rightMut k (ks.headD 0))
    .put (.size k (ks.length + 1))

/-- Attach: read, insert, write. -/
def attachP (f n : Nat) : TreeProg := do
  let r ← .get .root
  let l ← readTreeP f r
  let l' ← insertByP n l
  writeSpineP l'
  .put (.root (l'.headD 0))

/-- Detach: read, remove, write, clear. -/
def detachP (f n : Nat) : TreeProg := do
  let r ← .get .root
  let l ← readTreeP f r
  writeSpineP (l.erase n)
  .put (.clear n)
  .put (.root ((l.erase n).headD 0))

section
variable {lt gt : Nat → Nat → Bool} {ok : Nat → Prop}

/-- Runs of tree programs. -/
abbrev TOk {α : Type} (lt gt : Nat → Nat → Bool) (ok : Nat → Prop) (p : Prog TreeQ TreeW α) (v : TMem × Nat) (a : α)
    (v' : TMem × Nat) : Prop :=
  p.Ok (TreeQ.abs lt gt) TreeW.abs (TreeQ.Names ok) (TreeW.Names ok) v a v'

theorem readTreeP_ok {m : TMem} {r0 : Nat} : ∀ (t : Tree) (r f : Nat), Holds m t r → t.size < f →
    (∀ k ∈ t.toList, ok k) → TOk lt gt ok (readTreeP f r) (m, r0) t.toList (m, r0) := by
  intro t
  induction t with
  | leaf =>
    intro r f h hf _
    cases f with
    | zero => omega
    | succ f =>
      rw [readTreeP, if_pos (show r = 0 from h)]
      exact .pure _ _
  | node a k b iha ihb =>
    intro r f h hf hok
    obtain ⟨h1, h2, h3, h4, h5⟩ := h
    subst h1
    cases f with
    | zero => omega
    | succ f =>
      simp only [Tree.size] at hf
      rw [readTreeP, if_neg h2]
      have hr : ok r := hok r (by simp [Tree.toList])
      refine .bind (.get hr) (.bind (iha _ f h3 (by omega) fun k hk => hok k (by simp [Tree.toList, hk])) ?_)
      refine .bind (.get hr) (.bind (ihb _ f h4 (by omega) fun k hk => hok k (by simp [Tree.toList, hk])) ?_)
      exact .pure _ _

theorem insertByP_ok {v : TMem × Nat} {n : Nat} (hn : ok n) : ∀ (l : List Nat), (∀ k ∈ l, ok k) →
    TOk lt gt ok (insertByP n l) v (insertBy lt n l) v := by
  intro l
  induction l with
  | nil => intro _; exact .pure _ _
  | cons k ks ih =>
    intro hok
    rw [insertByP, insertBy]
    refine .bind (.get (show TreeQ.Names ok (.toLeft n k) from ⟨hn, hok k (by simp)⟩)) ?_
    simp only [TreeQ.abs]
    by_cases hl : lt n k = true
    · simp only [hl, Bool.toNat_true, if_true]
      exact .pure _ _
    · rw [Bool.not_eq_true] at hl
      simp only [hl, Bool.toNat_false, Nat.zero_ne_one, if_false, Bool.false_eq_true]
      exact .bind (ih fun x hx => hok x (by simp [hx])) (.pure _ _)

theorem writeSpineP_ok {m : TMem} {r : Nat} : ∀ (l : List Nat), (∀ k ∈ l, ok k) →
    TOk lt gt ok (writeSpineP l) (m, r) () (writeSpine m l, r) := by
  intro l
  induction l with
  | nil => intro _; exact .pure _ _
  | cons k ks ih =>
    intro hok
    have hk : ok k := hok k (by simp)
    rw [writeSpineP, writeSpine]
    exact .bind (ih fun x hx => hok x (by simp [hx])) (.bind (.put (w := TreeW.left k 0) hk)
      (.bind (.put (w := TreeW.rightMut k _) hk) (.put (w := TreeW.size k _) hk)))

end

/-! ### Lists -/

/-- Follow the `next` pointers. -/
def readListP : Nat → Nat → Prog ListQ ListW (List Nat)
  | 0, _ => pure []
  | f + 1, x => do
    let y ← .get (.next x)
    let l ← readListP f y
    pure (x :: l)

/-- Write the pointers of the elements `xs` of the circular list `l`. -/
def linkListP (l : List Nat) : List Nat → ListProg
  | [] => pure ()
  | x :: xs => do
    linkListP l xs
    .put (.prev x (l.getD ((l.idxOf x + (l.length - 1)) % l.length) 0))
    .put (.next x (l.getD ((l.idxOf x + 1) % l.length) 0))

/-- Write a circular list. -/
def writeListP (l : List Nat) : ListProg := do
  linkListP l l
  .put (.first (l.headD 0))
  .put (.last (l.getLastD 0))
  .put (.size l.length)

/-- Attach at the front. -/
def listAttachFirstP (_f n : Nat) : ListProg := do
  let z ← .get .size
  let x ← .get .first
  let l ← readListP z x
  writeListP (n :: l)

/-- Detach. -/
def listDetachP (_f n : Nat) : ListProg := do
  let z ← .get .size
  let x ← .get .first
  let l ← readListP z x
  writeListP (l.erase n)
  .put (.prev n 0)
  .put (.next n 0)

/-- Runs of list programs. -/
abbrev LOk {α : Type} (ok : Nat → Prop) (p : Prog ListQ ListW α) (v : LMem) (a : α) (v' : LMem) : Prop :=
  p.Ok ListQ.abs ListW.abs (ListQ.Names ok) (ListW.Names ok) v a v'

section
variable {ok : Nat → Prop}

theorem readListP_ok {m : LMem} : ∀ (f x : Nat), (∀ k ∈ readList m f x, ok k) →
    LOk ok (readListP f x) m (readList m f x) m := by
  intro f
  induction f with
  | zero => intro x _; exact .pure _ _
  | succ f ih =>
    intro x hok
    rw [readListP, readList]
    exact .bind (.get (q := ListQ.next x) (hok x (by simp [readList]))) (.bind (ih _ fun k hk => hok k (by rw [readList]; exact List.mem_cons_of_mem _ hk))
      (.pure _ _))

/-- The memory after `linkListP`. -/
def linkList (m : LMem) (l xs : List Nat) : LMem :=
  { m with
    prev := fun x => if x ∈ xs then l.getD ((l.idxOf x + (l.length - 1)) % l.length) 0 else m.prev x
    next := fun x => if x ∈ xs then l.getD ((l.idxOf x + 1) % l.length) 0 else m.next x }

theorem linkListP_ok {m : LMem} {l : List Nat} : ∀ (xs : List Nat), (∀ k ∈ xs, ok k) →
    LOk ok (linkListP l xs) m () (linkList m l xs) := by
  intro xs
  induction xs with
  | nil =>
    intro _
    have : linkList m l [] = m := by simp [linkList]
    rw [this]; exact .pure _ _
  | cons x xs ih =>
    intro hok
    have hx : ok x := hok x (by simp)
    have hm : linkList m l (x :: xs) = ListW.abs (.next x (l.getD ((l.idxOf x + 1) % l.length) 0))
        (ListW.abs (.prev x (l.getD ((l.idxOf x + (l.length - 1)) % l.length) 0)) (linkList m l xs)) := by
      simp only [ListW.abs, linkList, LMem.mk.injEq, and_self, and_true]
      constructor <;> funext k <;> by_cases hk : k = x <;> simp [upd, hk]
    rw [linkListP, hm]
    exact .bind (ih fun k hk => hok k (by simp [hk])) (.bind (.put hx) (.put hx))

theorem writeListP_ok {m : LMem} {l : List Nat} (hok : ∀ k ∈ l, ok k) : LOk ok (writeListP l) m () (writeList m l) :=
  .bind (linkListP_ok l hok) (.bind (.put (w := ListW.first _) trivial) (.bind (.put (w := ListW.last _) trivial)
    (.put (w := ListW.size _) trivial)))

end

/-! ### The instance -/

/-- The reference programs. -/
def programs : Programs := ⟨attachP, detachP, listAttachFirstP, listDetachP⟩

theorem programs_implement : programs.Implements trees where
  attach := by
    intro lt gt m t r n w h hz hn _ _
    refine ⟨t.size + 1, fun f hf => ?_⟩
    have hp := insertBy_perm lt n t.toList
    have hok : ∀ k ∈ insertBy lt n t.toList, k ∈ n :: t.toList := fun k hk => hp.mem_iff.1 hk
    have hin : ∀ k ∈ t.toList, k ∈ n :: t.toList := fun k hk => by simp [hk]
    have : TOk lt gt (· ∈ n :: t.toList) (attachP f n) (m, r) ()
        (writeSpine m (insertBy lt n t.toList), (insertBy lt n t.toList).headD 0) :=
      .bind (.get (q := TreeQ.root) trivial) (.bind (readTreeP_ok t r f h.holds (by omega) hin) (.bind
        (insertByP_ok (by simp) _ hin) (.bind (writeSpineP_ok _ hok) (.put (w := TreeW.root _) trivial))))
    refine ⟨?_, this.obeys⟩
    rw [show programs.attach f n = attachP f n from rfl, this.eval]
    simp only [trees, attach, readRoot h.holds, forceNat_eq, forceList_eq, Option.map_some]
  detach := by
    intro lt gt m t r n w h hn _
    refine ⟨t.size + 1, fun f hf => ?_⟩
    have hok : ∀ k ∈ t.toList.erase n, k ∈ t.toList := fun k hk => List.mem_of_mem_erase hk
    have : TOk lt gt (· ∈ t.toList) (detachP f n) (m, r) ()
        (putNode (writeSpine m (t.toList.erase n)) n 0 0 0, (t.toList.erase n).headD 0) :=
      .bind (.get (q := TreeQ.root) trivial) (.bind (readTreeP_ok t r f h.holds (by omega) fun _ h => h) (.bind
        (writeSpineP_ok _ hok) (.bind (.put (w := TreeW.clear n) hn) (.put (w := TreeW.root _) trivial))))
    refine ⟨?_, this.obeys⟩
    rw [show programs.detach f n = detachP f n from rfl, this.eval]
    simp only [trees, detach, readRoot h.holds, forceNat_eq, forceList_eq, Option.map_some]
  listAttachFirst := by
    intro m l n h hz hn
    refine ⟨0, fun f _ => ?_⟩
    have hl := readList_eq h
    have : LOk (· ∈ n :: l) (listAttachFirstP f n) m () (writeList m (n :: readList m m.size m.first)) :=
      .bind (.get (q := ListQ.size) trivial) (.bind (.get (q := ListQ.first) trivial) (.bind (readListP_ok _ _ fun k hk => by
        rw [show ListQ.first.abs m = m.first from rfl, show ListQ.size.abs m = m.size from rfl, hl] at hk; simp [hk])
        (writeListP_ok fun k hk => by
          rw [show ListQ.first.abs m = m.first from rfl, show ListQ.size.abs m = m.size from rfl, hl] at hk; exact hk)))
    refine ⟨?_, this.obeys⟩
    rw [show programs.listAttachFirst f n = listAttachFirstP f n from rfl, this.eval]
    simp only [trees, listAttachFirst, forceList_eq, Option.map_some]
  listDetach := by
    intro m l n h hn
    refine ⟨0, fun f _ => ?_⟩
    have hl := readList_eq h
    have : LOk (· ∈ l) (listDetachP f n) m () (ListW.abs (.next n 0) (ListW.abs (.prev n 0)
        (writeList m ((readList m m.size m.first).erase n)))) :=
      .bind (.get (q := ListQ.size) trivial) (.bind (.get (q := ListQ.first) trivial) (.bind (readListP_ok _ _ fun k hk => by
        rw [show ListQ.first.abs m = m.first from rfl, show ListQ.size.abs m = m.size from rfl, hl] at hk; exact hk)
        (.bind (writeListP_ok fun k hk => by
          rw [show ListQ.first.abs m = m.first from rfl, show ListQ.size.abs m = m.size from rfl, hl] at hk
          exact List.mem_of_mem_erase hk) (.bind (.put (w := ListW.prev n 0) hn) (.put (w := ListW.next n 0) hn)))))
    refine ⟨?_, this.obeys⟩
    rw [show programs.listDetach f n = listDetachP f n from rfl, this.eval]
    simp only [trees, listDetach, forceNat_eq, forceList_eq, Option.map_some]
    rfl

end Verif.Ref
