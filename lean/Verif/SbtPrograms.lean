import Verif.SbtTrees
import Verif.CircPrograms

/-!
# The size-balanced tree as programs over accessors

The functions of `Verif/Sbt.lean`, written with the accessors of the traits. They model no code of `/repo`. A pointer to a child that an
operation changes is written back when the operation returns. (Instance for C94.)
-/

namespace Verif.Sbt
open Verif

/-! ### The programs -/

/-- `get_left`, `get_right`. -/
def chP (d : Dir) (x : Nat) : Prog TreeQ TreeW Nat :=
  match d with
  | .L => .get (.left x)
  | .R => .get (.right x)

/-- `set_left`, `set_right`. -/
def setChP (d : Dir) (k v : Nat) : TreeProg :=
  match d with
  | .L => .put (.left k v)
  | .R => .put (.right k v)

/-- `get_size_or_zero`. -/
def szP (x : Nat) : Prog TreeQ TreeW Nat := if x = 0 then pure 0 else .get (.size x)

/-- `fix_size`. -/
def fixSizeP (x : Nat) : TreeProg := do
  let l ← .get (.left x)
  let r ← .get (.right x)
  let a ← szP l
  let b ← szP r
  .put (.size x (a + b + 1))

/-- `right_rotate`, `left_rotate`. -/
def rotP (d : Dir) (x : Nat) : Prog TreeQ TreeW Nat := do
  let y ← chP d x
  let z ← chP d.flip y
  setChP d x z
  setChP d.flip y x
  let s ← .get (.size x)
  .put (.size y s)
  fixSizeP x
  pure y

/-- Does `n` belong between `c` and its parent? (1 for true.) -/
def innerP (d : Dir) (n c : Nat) : Prog TreeQ TreeW Bool := do
  let b ← .get (.toRight n c)
  pure (match d with
    | .L => b == 1
    | .R => ! (b == 1))

/-- `attach_core`, after the choice of the side, where `go` is the next round. -/
def attachSideP (n : Nat) (go : Nat → Prog TreeQ TreeW Nat) (x : Nat) (d : Dir) (c o : Nat) : Prog TreeQ TreeW Nat :=
  if c = 0 then do
    let s ← .get (.size x)
    .put (.size x (s + 1))
    .put (.size n 1)
    setChP d x n
    pure x
  else do
    let i ← innerP d n c
    let y ← chP (if i then d.flip else d) c
    let g ← szP y
    let so ← szP o
    if g + 1 > so then
      if i then
        if g = 0 ∧ so = 0 then do
          setChP d n c
          setChP d.flip n x
          let sc ← szP c
          .put (.size n (sc + 2))
          setChP d x 0
          .put (.size x 1)
          pure n
        else do
          let r1 ← rotP d.flip c
          setChP d x r1
          let r2 ← rotP d x
          go r2
      else do
        let r ← rotP d x
        go r
    else do
      let s ← .get (.size x)
      .put (.size x (s + 1))
      let r ← go c
      setChP d x r
      pure x

/-- `attach_core`. -/
def attachCoreP (n : Nat) : Nat → Nat → Prog TreeQ TreeW Nat
  | 0, _ => .panic
  | f + 1, x => do
    let b ← .get (.toLeft n x)
    let d := if b = 1 then Dir.L else Dir.R
    let c ← chP d x
    let o ← chP d.flip x
    attachSideP n (fun y => attachCoreP n f y) x d c o

/-- `attach`. -/
def attachP (f n : Nat) : TreeProg := do
  let r ← .get .root
  if r = 0 then do
    .put (.size n 1)
    .put (.root n)
  else do
    let x ← attachCoreP n f r
    .put (.root x)

/-- `get_leftest`, `get_rightest`. -/
def extremeP (d : Dir) : Nat → Nat → Prog TreeQ TreeW Nat
  | 0, x => pure x
  | f + 1, x => do
    let y ← chP d x
    if y = 0 then pure x else extremeP d f y

/-- The child of a node that may be null. -/
def grandP (d : Dir) (o : Nat) : Prog TreeQ TreeW Nat := if o = 0 then pure 0 else chP d o

/-- `detach_core`, after the choice of the side. -/
def detachSideP (n : Nat) (go : Nat → Prog TreeQ TreeW Nat) (x : Nat) (d : Dir) (c o : Nat) : Prog TreeQ TreeW Nat := do
  let far ← grandP d.flip o
  let near ← grandP d o
  let sc ← szP c
  let sf ← szP far
  if sf > sc - 1 then do
    let r ← rotP d.flip x
    go r
  else do
    let sn ← szP near
    if sn > sc - 1 then do
      let r1 ← rotP d o
      setChP d.flip x r1
      let r2 ← rotP d.flip x
      go r2
    else do
      let s ← .get (.size x)
      .put (.size x (s - 1))
      let r ← go c
      setChP d x r
      pure x

/-- `detach_core`, at the node to remove. -/
def detachHereP (n : Nat) (go : Nat → Nat → Prog TreeQ TreeW Nat) (x : Nat) : Prog TreeQ TreeW Nat := do
  let l ← chP .L x
  let r ← chP .R x
  let sl ← szP l
  let sr ← szP r
  if sl > 0 ∧ sr > 0 then do
    let e := if sl > sr then Dir.L else Dir.R
    let c ← chP e x
    let s ← .get (.size c)
    let rep ← extremeP e.flip s c
    let q ← go c rep
    setChP e x q
    let u ← chP e x
    setChP e rep u
    let v ← chP e.flip x
    setChP e.flip rep v
    fixSizeP rep
    .put (.clear n)
    pure rep
  else do
    .put (.clear n)
    pure (if sl > 0 then l else if sr > 0 then r else 0)

/-- `detach_core`. -/
def detachCoreP : Nat → Nat → Nat → Prog TreeQ TreeW Nat
  | 0, _, _ => .panic
  | f + 1, x, n =>
    if x = 0 then .panic else do
    let bl ← .get (.toLeft n x)
    let br ← .get (.toRight n x)
    if bl = 1 ∨ br = 1 then do
      let d := if bl = 1 then Dir.L else Dir.R
      let c ← chP d x
      let o ← chP d.flip x
      detachSideP n (fun y => detachCoreP f y n) x d c o
    else detachHereP n (fun y k => detachCoreP f y k) x

/-- `detach`. -/
def detachP (f n : Nat) : TreeProg := do
  let r ← .get .root
  let x ← detachCoreP f r n
  .put (.root x)

/-- The programs, with the lists of `Verif/CircPrograms.lean`. -/
def programs : Programs := ⟨attachP, detachP, Circ.attachFirstP, Circ.detachP⟩

/-! ### Runs -/

section
variable {lt gt : Nat → Nat → Bool} {ok : Nat → Prop} {m : TMem} {r : Nat}

/-- Null or allowed. -/
def Ok0 (ok : Nat → Prop) (x : Nat) : Prop := x = 0 ∨ ok x

/-- The children of allowed nodes are allowed. -/
def Closed (ok : Nat → Prop) (m : TMem) : Prop := ∀ d x, ok x → Ok0 ok (ch m d x)

theorem Closed.setCh (h : Closed ok m) {d : Dir} {k v : Nat} (hv : Ok0 ok v) : Closed ok (setCh m d k v) := by
  intro e x hx
  have := h e x hx
  cases d <;> cases e <;> simp only [Sbt.setCh, ch] at this ⊢
  · split
    · exact hv
    · exact this
  · exact this
  · exact this
  · split
    · exact hv
    · exact this

theorem Closed.setSize (h : Closed ok m) {k v : Nat} : Closed ok (setSize m k v) := by
  intro e x hx
  have := h e x hx
  cases e <;> exact this

theorem Closed.clear (h : Closed ok m) {n : Nat} : Closed ok (clearNode m n) := ((h.setCh (.inl rfl)).setCh (.inl rfl)).setSize

theorem chP_ok {d : Dir} {x : Nat} (hx : ok x) : Ref.TOk lt gt ok (chP d x) (m, r) (ch m d x) (m, r) := by
  cases d <;> exact .get hx

theorem setChP_ok {d : Dir} {k v : Nat} (hk : ok k) : Ref.TOk lt gt ok (setChP d k v) (m, r) () (setCh m d k v, r) := by
  cases d <;> exact .put hk

theorem sizeP_ok {k : Nat} (hk : ok k) : Ref.TOk lt gt ok (.get (.size k)) (m, r) (m.size k) (m, r) := .get hk

theorem setSizeP_ok {k v : Nat} (hk : ok k) : Ref.TOk lt gt ok (.put (.size k v)) (m, r) () (setSize m k v, r) := .put hk

theorem szP_ok {x : Nat} (hx : Ok0 ok x) : Ref.TOk lt gt ok (szP x) (m, r) (sz m x) (m, r) := by
  unfold szP sz
  by_cases h0 : x = 0
  · simp only [h0, if_true]; exact .pure _ _
  · simp only [h0, if_false]; exact .get (hx.resolve_left h0)

theorem clearP_ok {n : Nat} (hn : ok n) : Ref.TOk lt gt ok (.put (.clear n)) (m, r) () (clearNode m n, r) := .put hn

theorem fixSizeP_ok (h : Closed ok m) {x : Nat} (hx : ok x) : Ref.TOk lt gt ok (fixSizeP x) (m, r) () (fixSize m x, r) :=
  .bind (chP_ok (d := .L) hx) (.bind (chP_ok (d := .R) hx) (.bind (szP_ok (h .L x hx)) (.bind (szP_ok (h .R x hx)) (setSizeP_ok hx))))

theorem rot_closed (h : Closed ok m) {d : Dir} {x : Nat} (hx : ok x) (hy : ok (ch m d x)) : Closed ok (rot d m x).1 :=
  ((((h.setCh (h _ _ hy)).setCh (.inr hx)).setSize).setSize : Closed ok (fixSize _ _))

theorem rotP_ok (h : Closed ok m) {d : Dir} {x : Nat} (hx : ok x) (hy : ok (ch m d x)) :
    Ref.TOk lt gt ok (rotP d x) (m, r) (ch m d x) ((rot d m x).1, r) :=
  .bind (chP_ok hx) (.bind (chP_ok hy) (.bind (setChP_ok hx) (.bind (setChP_ok hy) (.bind (sizeP_ok hx) (.bind (setSizeP_ok hy)
    (.bind (fixSizeP_ok (((h.setCh (h _ _ hy)).setCh (.inr hx)).setSize) hx) (.pure _ _)))))))

theorem toLeftP_ok {a b : Nat} (ha : ok a) (hb : ok b) : Ref.TOk lt gt ok (.get (.toLeft a b)) (m, r) (lt a b).toNat (m, r) :=
  .get (show TreeQ.Names ok (.toLeft a b) from ⟨ha, hb⟩)

theorem toRightP_ok {a b : Nat} (ha : ok a) (hb : ok b) : Ref.TOk lt gt ok (.get (.toRight a b)) (m, r) (gt a b).toNat (m, r) :=
  .get (show TreeQ.Names ok (.toRight a b) from ⟨ha, hb⟩)

theorem innerP_ok {d : Dir} {n c : Nat} (hn : ok n) (hc : ok c) : Ref.TOk lt gt ok (innerP d n c) (m, r) (inner gt d n c) (m, r) := by
  refine .bind (toRightP_ok hn hc) ?_
  have : (match d with
    | .L => (gt n c).toNat == 1
    | .R => ! ((gt n c).toNat == 1)) = inner gt d n c := by
    unfold inner
    cases d <;> cases gt n c <;> rfl
  rw [this]
  exact .pure _ _

theorem toNat_one (b : Bool) : (b.toNat = 1) = (b = true) := by cases b <;> simp

theorem ch_setCh_self (m : TMem) (d : Dir) (k v : Nat) : ch (setCh m d k v) d k = v := by
  cases d <;> simp [ch, setCh]

theorem attachSideP_ok {n : Nat} (hn : ok n) {go : Nat → Prog TreeQ TreeW Nat} {fn : TMem → Nat → Option (TMem × Nat)}
    (hgo : ∀ m x m' x', Closed ok m → ok x → fn m x = some (m', x') →
      Ref.TOk lt gt ok (go x) (m, r) x' (m', r) ∧ Closed ok m' ∧ ok x')
    {m : TMem} {x : Nat} {m' : TMem} {x' : Nat} (hC : Closed ok m) (hx : ok x) (d : Dir)
    (h : (if ch m d x = 0 then some (setCh (setSize (setSize m x (m.size x + 1)) n 1) d x n, x)
      else
        if sz m (ch m (if inner gt d n (ch m d x) then d.flip else d) (ch m d x)) + 1 > sz m (ch m d.flip x) then
          if inner gt d n (ch m d x) then
            if sz m (ch m (if inner gt d n (ch m d x) then d.flip else d) (ch m d x)) = 0 ∧ sz m (ch m d.flip x) = 0 then
              some (setSize (setCh (setSize (setCh (setCh m d n (ch m d x)) d.flip n x) n (sz m (ch m d x) + 2)) d x 0) x 1, n)
            else
              fn (rot d (setCh (rot d.flip m (ch m d x)).1 d x (rot d.flip m (ch m d x)).2) x).1
                (rot d (setCh (rot d.flip m (ch m d x)).1 d x (rot d.flip m (ch m d x)).2) x).2
          else fn (rot d m x).1 (rot d m x).2
        else (fn (setSize m x (m.size x + 1)) (ch m d x)).map fun r => (setCh r.1 d x r.2, x)) = some (m', x')) :
    Ref.TOk lt gt ok (attachSideP n go x d (ch m d x) (ch m d.flip x)) (m, r) x' (m', r) ∧ Closed ok m' ∧ ok x' := by
  unfold attachSideP
  by_cases h0 : ch m d x = 0
  · rw [if_pos h0] at h ⊢
    simp only [Option.some.injEq, Prod.mk.injEq] at h
    obtain ⟨rfl, rfl⟩ := h
    exact ⟨.bind (sizeP_ok hx) (.bind (setSizeP_ok hx) (.bind (setSizeP_ok hn) (.bind (setChP_ok hx) (.pure _ _)))),
      hC.setSize.setSize.setCh (.inr hn), hx⟩
  · rw [if_neg h0] at h ⊢
    have hc : ok (ch m d x) := (hC d x hx).resolve_left h0
    generalize hi : inner gt d n (ch m d x) = i at h
    have hy : Ok0 ok (ch m (if i = true then d.flip else d) (ch m d x)) := hC _ _ hc
    have pre : ∀ {p : Nat → Nat → Prog TreeQ TreeW Nat} {a v}, Ref.TOk lt gt ok
        (p (sz m (ch m (if i = true then d.flip else d) (ch m d x))) (sz m (ch m d.flip x))) (m, r) a v →
        Ref.TOk lt gt ok (do
          let y ← chP (if i then d.flip else d) (ch m d x)
          let g ← szP y
          let so ← szP (ch m d.flip x)
          p g so) (m, r) a v := fun w => .bind (chP_ok hc) (.bind (szP_ok hy) (.bind (szP_ok (hC _ _ hx)) w))
    suffices Ref.TOk lt gt ok _ (m, r) x' (m', r) ∧ Closed ok m' ∧ ok x' from
      ⟨.bind (innerP_ok hn hc) (hi ▸ pre this.1), this.2⟩
    by_cases hg : sz m (ch m (if i = true then d.flip else d) (ch m d x)) + 1 > sz m (ch m d.flip x)
    · rw [if_pos hg] at h ⊢
      cases i with
      | true =>
        simp only [if_true] at h hg hy ⊢
        by_cases hz : sz m (ch m d.flip (ch m d x)) = 0 ∧ sz m (ch m d.flip x) = 0
        · rw [if_pos hz] at h ⊢
          simp only [Option.some.injEq, Prod.mk.injEq] at h
          obtain ⟨rfl, rfl⟩ := h
          have hs : sz (setCh (setCh m d n (ch m d x)) d.flip n x) (ch m d x) = sz m (ch m d x) := by cases d <;> rfl
          refine ⟨.bind (setChP_ok hn) (.bind (setChP_ok hn) (.bind (szP_ok (.inr hc)) ?_)),
            (((hC.setCh (.inr hc)).setCh (.inr hx)).setSize.setCh (.inl rfl)).setSize, hn⟩
          rw [hs]
          exact .bind (setSizeP_ok hn) (.bind (setChP_ok hx) (.bind (setSizeP_ok hx) (.pure _ _)))
        · rw [if_neg hz] at h ⊢
          have hne : ch m d.flip (ch m d x) ≠ 0 := fun e => hz (by
            have : sz m (ch m d.flip (ch m d x)) = 0 := by rw [e]; rfl
            omega)
          have hy := hy.resolve_left hne
          have c1 := rot_closed hC hc hy
          have c2 : Closed ok (setCh (rot d.flip m (ch m d x)).1 d x (ch m d.flip (ch m d x))) := c1.setCh (.inr hy)
          have hy2 : ok (ch (setCh (rot d.flip m (ch m d x)).1 d x (ch m d.flip (ch m d x))) d x) := by
            rw [ch_setCh_self]; exact hy
          obtain ⟨g1, g2, g3⟩ := hgo _ _ m' x' (rot_closed c2 hx hy2) hy2 h
          exact ⟨.bind (rotP_ok hC hc hy) (.bind (setChP_ok hx) (.bind (rotP_ok c2 hx hy2) g1)), g2, g3⟩
      | false =>
        simp only [Bool.false_eq_true, if_false] at h ⊢
        obtain ⟨g1, g2, g3⟩ := hgo _ _ m' x' (rot_closed hC hx hc) hc h
        exact ⟨.bind (rotP_ok hC hx hc) g1, g2, g3⟩
    · rw [if_neg hg] at h ⊢
      cases hf : fn (setSize m x (m.size x + 1)) (ch m d x) with
      | none => rw [hf] at h; cases h
      | some q =>
        rw [hf] at h
        simp only [Option.map_some, Option.some.injEq, Prod.mk.injEq] at h
        obtain ⟨rfl, rfl⟩ := h
        obtain ⟨g1, g2, g3⟩ := hgo _ _ q.1 q.2 hC.setSize hc hf
        exact ⟨.bind (sizeP_ok hx) (.bind (setSizeP_ok hx) (.bind g1 (.bind (setChP_ok hx) (.pure _ _)))), g2.setCh (.inr g3), hx⟩

theorem attachCoreP_ok {n : Nat} (hn : ok n) : ∀ (f : Nat) (m : TMem) (x : Nat) (m' : TMem) (x' : Nat), Closed ok m → ok x →
    attachCore lt gt n f m x = some (m', x') → Ref.TOk lt gt ok (attachCoreP n f x) (m, r) x' (m', r) ∧ Closed ok m' ∧ ok x'
  | 0, _, _, _, _, _, _, h => by cases h
  | f + 1, m, x, m', x', hC, hx, h => by
    have := attachSideP_ok (lt := lt) (r := r) hn (go := fun y => attachCoreP n f y) (fn := attachCore lt gt n f)
      (fun m x m' x' => attachCoreP_ok hn f m x m' x') hC hx (if lt n x = true then Dir.L else Dir.R) h
    refine ⟨.bind (toLeftP_ok hn hx) ?_, this.2⟩
    simp only [toNat_one]
    exact .bind (chP_ok hx) (.bind (chP_ok hx) this.1)

theorem extremeP_ok {d : Dir} (hC : Closed ok m) : ∀ (f x : Nat), ok x →
    Ref.TOk lt gt ok (extremeP d f x) (m, r) (extreme d m f x) (m, r) ∧ ok (extreme d m f x)
  | 0, x, hx => ⟨.pure _ _, hx⟩
  | f + 1, x, hx => by
    rw [extremeP, extreme]
    by_cases h0 : ch m d x = 0
    · rw [if_pos h0]
      refine ⟨.bind (chP_ok hx) ?_, hx⟩
      rw [if_pos h0]; exact .pure _ _
    · rw [if_neg h0]
      obtain ⟨g1, g2⟩ := extremeP_ok hC f _ ((hC d x hx).resolve_left h0)
      refine ⟨.bind (chP_ok hx) ?_, g2⟩
      rw [if_neg h0]; exact g1

theorem detachSideP_ok {n : Nat} {go : Nat → Prog TreeQ TreeW Nat} {fn : TMem → Nat → Option (TMem × Nat)}
    (hgo : ∀ m x m' x', Closed ok m → Ok0 ok x → fn m x = some (m', x') →
      Ref.TOk lt gt ok (go x) (m, r) x' (m', r) ∧ Closed ok m' ∧ Ok0 ok x')
    {m : TMem} {x : Nat} {m' : TMem} {x' : Nat} (hC : Closed ok m) (hx : ok x) (d : Dir)
    (h : (if sz m (if ch m d.flip x = 0 then 0 else ch m d.flip (ch m d.flip x)) > sz m (ch m d x) - 1 then
          fn (rot d.flip m x).1 (rot d.flip m x).2
        else if sz m (if ch m d.flip x = 0 then 0 else ch m d (ch m d.flip x)) > sz m (ch m d x) - 1 then
          fn (rot d.flip (setCh (rot d m (ch m d.flip x)).1 d.flip x (rot d m (ch m d.flip x)).2) x).1
            (rot d.flip (setCh (rot d m (ch m d.flip x)).1 d.flip x (rot d m (ch m d.flip x)).2) x).2
        else (fn (setSize m x (m.size x - 1)) (ch m d x)).map fun r => (setCh r.1 d x r.2, x)) = some (m', x')) :
    Ref.TOk lt gt ok (detachSideP n go x d (ch m d x) (ch m d.flip x)) (m, r) x' (m', r) ∧ Closed ok m' ∧ Ok0 ok x' := by
  unfold detachSideP
  have hoOk := hC d.flip x hx
  have side : ∀ e : Dir, Ref.TOk lt gt ok (grandP e (ch m d.flip x)) (m, r)
      (if ch m d.flip x = 0 then 0 else ch m e (ch m d.flip x)) (m, r) ∧
      Ok0 ok (if ch m d.flip x = 0 then 0 else ch m e (ch m d.flip x)) := by
    intro e
    unfold grandP
    by_cases h0 : ch m d.flip x = 0
    · simp only [h0, if_true]; exact ⟨.pure _ _, .inl rfl⟩
    · simp only [h0, if_false]; exact ⟨chP_ok (hoOk.resolve_left h0), hC _ _ (hoOk.resolve_left h0)⟩
  obtain ⟨f1, f2⟩ := side d.flip
  obtain ⟨n1, n2⟩ := side d
  suffices Ref.TOk lt gt ok _ (m, r) x' (m', r) ∧ Closed ok m' ∧ Ok0 ok x' from
    ⟨.bind f1 (.bind n1 (.bind (szP_ok (hC d x hx)) (.bind (szP_ok f2) this.1))), this.2⟩
  by_cases hf : sz m (if ch m d.flip x = 0 then 0 else ch m d.flip (ch m d.flip x)) > sz m (ch m d x) - 1
  · rw [if_pos hf] at h ⊢
    have hne : ch m d.flip x ≠ 0 := fun e => by simp only [e, if_true, sz] at hf; omega
    have ho := hoOk.resolve_left hne
    obtain ⟨g1, g2, g3⟩ := hgo _ _ m' x' (rot_closed hC hx ho) (.inr ho) h
    exact ⟨.bind (rotP_ok hC hx ho) g1, g2, g3⟩
  · rw [if_neg hf] at h ⊢
    suffices Ref.TOk lt gt ok _ (m, r) x' (m', r) ∧ Closed ok m' ∧ Ok0 ok x' from ⟨.bind (szP_ok n2) this.1, this.2⟩
    by_cases hn : sz m (if ch m d.flip x = 0 then 0 else ch m d (ch m d.flip x)) > sz m (ch m d x) - 1
    · rw [if_pos hn] at h ⊢
      have hne : ch m d.flip x ≠ 0 := fun e => by simp only [e, if_true, sz] at hn; omega
      have ho := hoOk.resolve_left hne
      simp only [if_neg hne] at hn n2
      have hy : ok (ch m d (ch m d.flip x)) := n2.resolve_left fun e => by simp only [e, sz, if_true] at hn; omega
      have c2 : Closed ok (setCh (rot d m (ch m d.flip x)).1 d.flip x (ch m d (ch m d.flip x))) := (rot_closed hC ho hy).setCh (.inr hy)
      have hy2 : ok (ch (setCh (rot d m (ch m d.flip x)).1 d.flip x (ch m d (ch m d.flip x))) d.flip x) := by
        rw [ch_setCh_self]; exact hy
      obtain ⟨g1, g2, g3⟩ := hgo _ _ m' x' (rot_closed c2 hx hy2) (.inr hy2) h
      exact ⟨.bind (rotP_ok hC ho hy) (.bind (setChP_ok hx) (.bind (rotP_ok c2 hx hy2) g1)), g2, g3⟩
    · rw [if_neg hn] at h ⊢
      cases hq : fn (setSize m x (m.size x - 1)) (ch m d x) with
      | none => rw [hq] at h; cases h
      | some q =>
        rw [hq] at h
        simp only [Option.map_some, Option.some.injEq, Prod.mk.injEq] at h
        obtain ⟨rfl, rfl⟩ := h
        obtain ⟨g1, g2, g3⟩ := hgo _ _ q.1 q.2 hC.setSize (hC d x hx) hq
        exact ⟨.bind (sizeP_ok hx) (.bind (setSizeP_ok hx) (.bind g1 (.bind (setChP_ok hx) (.pure _ _)))), g2.setCh g3, .inr hx⟩

theorem detachHereP_ok {n : Nat} (hn : ok n) {go : Nat → Nat → Prog TreeQ TreeW Nat} {fn : TMem → Nat → Nat → Option (TMem × Nat)}
    (hgo : ∀ m x k m' x', Closed ok m → Ok0 ok x → ok k → fn m x k = some (m', x') →
      Ref.TOk lt gt ok (go x k) (m, r) x' (m', r) ∧ Closed ok m' ∧ Ok0 ok x')
    {m : TMem} {x : Nat} {m' : TMem} {x' : Nat} (hC : Closed ok m) (hx : ok x)
    (h : (let l := ch m .L x
      let r := ch m .R x
      if sz m l > 0 ∧ sz m r > 0 then
        let e := if sz m l > sz m r then Dir.L else Dir.R
        let c := ch m e x
        let rep := extreme e.flip m (m.size c) c
        (fn m c rep).map fun q =>
          let m1 := setCh q.1 e x q.2
          let m2 := setCh (setCh m1 e rep (ch m1 e x)) e.flip rep (ch m1 e.flip x)
          (clearNode (fixSize m2 rep) n, rep)
      else
        some (clearNode m n, if sz m l > 0 then l else if sz m r > 0 then r else 0)) = some (m', x')) :
    Ref.TOk lt gt ok (detachHereP n go x) (m, r) x' (m', r) ∧ Closed ok m' ∧ Ok0 ok x' := by
  unfold detachHereP
  have hl := hC .L x hx
  have hr := hC .R x hx
  dsimp only at h
  suffices Ref.TOk lt gt ok _ (m, r) x' (m', r) ∧ Closed ok m' ∧ Ok0 ok x' from
    ⟨.bind (chP_ok (d := .L) hx) (.bind (chP_ok (d := .R) hx) (.bind (szP_ok hl) (.bind (szP_ok hr) this.1))), this.2⟩
  by_cases hb : sz m (ch m .L x) > 0 ∧ sz m (ch m .R x) > 0
  · rw [if_pos hb] at h ⊢
    generalize (if sz m (ch m .L x) > sz m (ch m .R x) then Dir.L else Dir.R) = e at h ⊢
    have hc : ok (ch m e x) := by
      refine (hC e x hx).resolve_left fun e0 => ?_
      cases e
      · simp only [e0, sz, if_true] at hb; omega
      · simp only [e0, sz, if_true] at hb; omega
    obtain ⟨x1, x2⟩ := extremeP_ok (lt := lt) (gt := gt) (r := r) (d := e.flip) hC (m.size (ch m e x)) (ch m e x) hc
    cases hq : fn m (ch m e x) (extreme e.flip m (m.size (ch m e x)) (ch m e x)) with
    | none => rw [hq] at h; cases h
    | some q =>
      rw [hq] at h
      simp only [Option.map_some, Option.some.injEq, Prod.mk.injEq] at h
      obtain ⟨rfl, rfl⟩ := h
      obtain ⟨g1, g2, g3⟩ := hgo _ _ _ q.1 q.2 hC (.inr hc) x2 hq
      have c1 : Closed ok (setCh q.1 e x q.2) := g2.setCh g3
      have c2 := c1.setCh (d := e) (k := extreme e.flip m (m.size (ch m e x)) (ch m e x)) (c1 e x hx)
      have hfl : ch (setCh (setCh q.1 e x q.2) e (extreme e.flip m (m.size (ch m e x)) (ch m e x)) (ch (setCh q.1 e x q.2) e x))
          e.flip x = ch (setCh q.1 e x q.2) e.flip x := by cases e <;> rfl
      have c3 := c2.setCh (d := e.flip) (k := extreme e.flip m (m.size (ch m e x)) (ch m e x)) (c1 e.flip x hx)
      refine ⟨.bind (chP_ok hx) (.bind (sizeP_ok hc) (.bind x1 (.bind g1 (.bind (setChP_ok hx) (.bind (chP_ok hx)
        (.bind (setChP_ok x2) (.bind (chP_ok hx) ?_))))))), (c3.setSize : Closed ok (fixSize _ _)).clear, .inr x2⟩
      rw [hfl]
      exact .bind (setChP_ok x2) (.bind (fixSizeP_ok c3 x2) (.bind (clearP_ok hn) (.pure _ _)))
  · rw [if_neg hb] at h ⊢
    simp only [Option.some.injEq, Prod.mk.injEq] at h
    obtain ⟨rfl, rfl⟩ := h
    refine ⟨.bind (clearP_ok hn) (.pure _ _), hC.clear, ?_⟩
    split
    · exact hl
    · split
      · exact hr
      · exact .inl rfl

theorem detachCoreP_ok : ∀ (f : Nat) (m : TMem) (x n : Nat) (m' : TMem) (x' : Nat), Closed ok m → Ok0 ok x → ok n →
    detachCore lt gt f m x n = some (m', x') → Ref.TOk lt gt ok (detachCoreP f x n) (m, r) x' (m', r) ∧ Closed ok m' ∧ Ok0 ok x'
  | 0, _, _, _, _, _, _, _, _, h => by cases h
  | f + 1, m, x, n, m', x', hC, hx, hn, h => by
    rw [detachCore] at h
    rw [detachCoreP]
    by_cases h0 : x = 0
    · rw [if_pos h0] at h; cases h
    · rw [if_neg h0] at h ⊢
      have hx := hx.resolve_left h0
      suffices Ref.TOk lt gt ok _ (m, r) x' (m', r) ∧ Closed ok m' ∧ Ok0 ok x' from
        ⟨.bind (toLeftP_ok hn hx) (.bind (toRightP_ok hn hx) this.1), this.2⟩
      simp only [toNat_one]
      by_cases hc : (lt n x || gt n x) = true
      · rw [if_pos hc] at h
        rw [if_pos (by simpa using hc)]
        have := detachSideP_ok (lt := lt) (gt := gt) (r := r) (n := n) (go := fun y => detachCoreP f y n)
          (fn := fun m y => detachCore lt gt f m y n)
          (fun m x m' x' c o e => detachCoreP_ok f m x n m' x' c o hn e) hC hx (if lt n x = true then Dir.L else Dir.R) h
        exact ⟨.bind (chP_ok hx) (.bind (chP_ok hx) this.1), this.2⟩
      · rw [if_neg hc] at h
        rw [if_neg (by simpa using hc)]
        exact detachHereP_ok (lt := lt) (gt := gt) (r := r) hn (go := fun y k => detachCoreP f y k)
          (fn := fun m y k => detachCore lt gt f m y k) (fun m x k m' x' c o hk e => detachCoreP_ok f m x k m' x' c o hk e) hC hx h

/-! ### More rounds than needed -/

theorem map_le {α β : Type} {x y : Option α} {g : α → β} {v : β} (h : ∀ a, x = some a → y = some a) (hx : x.map g = some v) :
    y.map g = some v := by
  cases x with
  | none => cases hx
  | some a => rw [h a rfl]; exact hx

theorem ite_le {α : Type} {c : Prop} [Decidable c] {a b a' b' : Option α} (h1 : ∀ v, a = some v → a' = some v)
    (h2 : ∀ v, b = some v → b' = some v) : ∀ v, (if c then a else b) = some v → (if c then a' else b') = some v := by
  by_cases hc : c
  · simp only [hc, if_true]; exact h1
  · simp only [hc, if_false]; exact h2

theorem attachCore_succ {n : Nat} : ∀ (f : Nat) (m : TMem) (x : Nat) (v : TMem × Nat), attachCore lt gt n f m x = some v →
    attachCore lt gt n (f + 1) m x = some v
  | 0, _, _, _, h => by cases h
  | f + 1, m, x, v, h => by
    rw [attachCore] at h ⊢
    exact ite_le (fun _ h => h) (ite_le (ite_le (ite_le (fun _ h => h) (attachCore_succ f _ _)) (attachCore_succ f _ _))
      fun _ => map_le (attachCore_succ f _ _)) v h

theorem detachCore_succ : ∀ (f : Nat) (m : TMem) (x n : Nat) (v : TMem × Nat), detachCore lt gt f m x n = some v →
    detachCore lt gt (f + 1) m x n = some v
  | 0, _, _, _, _, h => by cases h
  | f + 1, m, x, n, v, h => by
    rw [detachCore] at h ⊢
    exact ite_le (fun _ h => h) (ite_le (ite_le (detachCore_succ f _ _ _) (ite_le (detachCore_succ f _ _ _)
      fun _ => map_le (detachCore_succ f _ _ _))) (ite_le (fun _ => map_le (detachCore_succ f _ _ _)) fun _ h => h)) v h

theorem le_of_succ {α : Type} {g : Nat → Option α} {v : α} (h : ∀ f, g f = some v → g (f + 1) = some v) {f0 : Nat} (h0 : g f0 = some v) :
    ∀ f, f0 ≤ f → g f = some v := by
  intro f hf
  induction hf with
  | refl => exact h0
  | step _ ih => exact h _ ih

end

/-! ### The instance -/

theorem closed_of_holds {ok : Nat → Prop} {m : TMem} : ∀ {t : Tree} {r : Nat}, Holds m t r → (∀ k ∈ t.toList, ok k) →
    ∀ k ∈ t.toList, ∀ d, Ok0 ok (ch m d k)
  | .leaf, _, _, _, _, hk => by cases hk
  | .node a x b, r, h, hok, k, hk => by
    obtain ⟨-, -, h1, h2, -⟩ := h
    simp only [Tree.toList, List.mem_append, List.mem_cons] at hk hok
    have root : ∀ (t : Tree) (y : Nat), Holds m t y → (∀ k ∈ t.toList, ok k) → Ok0 ok y := by
      intro t y ht hk
      cases t with
      | leaf => exact .inl ht
      | node a z b => exact .inr (hk y (by rw [ht.1]; simp [Tree.toList]))
    rcases hk with hk | rfl | hk
    · exact closed_of_holds h1 (fun k hk => hok k (.inl hk)) k hk
    · intro d
      cases d
      · exact root a _ h1 fun k hk => hok k (.inl hk)
      · exact root b _ h2 fun k hk => hok k (.inr (.inr hk))
    · exact closed_of_holds h2 (fun k hk => hok k (.inr (.inr hk))) k hk

/-- On trees without equal nodes the programs do what the functions of `Verif/Sbt.lean` do, and touch no other node. -/
theorem programs_implement : programs.ImplementsOn Apart trees where
  attach := by
    intro lt gt m t r n w h hz hn hl hr ha
    obtain ⟨m', r', e, -⟩ := trees_weak.attach lt gt m t r n w h hz hn hl hr ha
    refine ⟨m.size r * m.size r + m.size r + 1, fun f hf => ?_⟩
    have hroot : Ref.TOk lt gt (· ∈ n :: t.toList) (.get .root) (m, r) r (m, r) := .get trivial
    rw [e]
    have e' : attach lt gt m r n = some (m', r') := e
    unfold attach at e'
    have : Ref.TOk lt gt (· ∈ n :: t.toList) (attachP f n) (m, r) () (m', r') := by
      refine .bind hroot ?_
      by_cases h0 : r = 0
      · rw [if_pos h0] at e' ⊢
        simp only [Option.some.injEq, Prod.mk.injEq] at e'
        obtain ⟨rfl, rfl⟩ := e'
        exact .bind (setSizeP_ok (by simp)) (.put trivial)
      · rw [if_neg h0] at e' ⊢
        have hC : Closed (· ∈ n :: t.toList) m := by
          intro d x hx
          rcases List.mem_cons.1 hx with rfl | hx
          · cases d
            · exact .inl hl
            · exact .inl hr
          · exact closed_of_holds h.holds (fun k hk => List.mem_cons_of_mem _ hk) x hx d
        have hrt : r ∈ n :: t.toList := by
          have := h.holds
          cases t with
          | leaf => exact absurd this h0
          | node a x b => rw [this.1]; simp [Tree.toList]
        obtain ⟨g1, -, -⟩ := attachCoreP_ok (r := r) (List.mem_cons_self : n ∈ n :: t.toList) f m r m' r' hC hrt
          (le_of_succ (fun f => attachCore_succ f m r _) e' f hf)
        exact .bind g1 (.put trivial)
    exact ⟨this.eval, this.obeys⟩
  detach := by
    intro lt gt m t r n w h hn _ ha
    obtain ⟨m', r', e, -⟩ := trees_weak.detach lt gt m t r n w h hn ha
    refine ⟨m.size r * m.size r + m.size r + 1, fun f hf => ?_⟩
    have hroot : Ref.TOk lt gt (· ∈ t.toList) (.get .root) (m, r) r (m, r) := .get trivial
    rw [e]
    have e' : detach lt gt m r n = some (m', r') := e
    unfold detach at e'
    have : Ref.TOk lt gt (· ∈ t.toList) (detachP f n) (m, r) () (m', r') := by
      refine .bind hroot ?_
      by_cases h0 : r = 0
      · rw [if_pos h0] at e'; cases e'
      · rw [if_neg h0] at e'
        have hC : Closed (· ∈ t.toList) m := fun d x hx => closed_of_holds h.holds (fun k hk => hk) x hx d
        have hrt : r ∈ t.toList := by
          have := h.holds
          cases t with
          | leaf => exact absurd this h0
          | node a x b => rw [this.1]; simp [Tree.toList]
        obtain ⟨g1, -, -⟩ := detachCoreP_ok (r := r) f m r n m' r' hC (.inr hrt) hn
          (le_of_succ (fun f => detachCore_succ f m r n _) e' f hf)
        exact .bind g1 (.put trivial)
    exact ⟨this.eval, this.obeys⟩
  listAttachFirst := Circ.programs_implement.listAttachFirst
  listDetach := Circ.programs_implement.listDetach

end Verif.Sbt
