import Verif.Sbt

/-!
# The rotating size-balanced tree keeps order, sizes and membership
-/

namespace Verif.Sbt
open Verif

@[simp] theorem Dir.flip_flip (d : Dir) : d.flip.flip = d := by cases d <;> rfl
@[simp] theorem Dir.flip_ne (d : Dir) : (d.flip = d) = False := by cases d <;> simp [Dir.flip]
@[simp] theorem Dir.ne_flip (d : Dir) : (d = d.flip) = False := by cases d <;> simp [Dir.flip]

theorem ch_setCh (m : TMem) (d d' : Dir) (k v x : Nat) :
    ch (setCh m d k v) d' x = if d' = d ∧ x = k then v else ch m d' x := by
  cases d <;> cases d' <;> simp [ch, setCh]

@[simp] theorem size_setCh (m : TMem) (d : Dir) (k v : Nat) : (setCh m d k v).size = m.size := by cases d <;> rfl
@[simp] theorem ch_setSize (m : TMem) (k v : Nat) (d : Dir) : ch (setSize m k v) d = ch m d := by cases d <;> rfl
theorem size_setSize (m : TMem) (k v x : Nat) : (setSize m k v).size x = if x = k then v else m.size x := rfl

/-- The three fields of `k` are the same in both memories. -/
def Agree (m m' : TMem) (k : Nat) : Prop := (∀ d, ch m' d k = ch m d k) ∧ m'.size k = m.size k

theorem Agree.refl (m : TMem) (k : Nat) : Agree m m k := ⟨fun _ => rfl, rfl⟩
theorem Agree.trans {m m' m'' : TMem} {k : Nat} (h : Agree m m' k) (h' : Agree m' m'' k) : Agree m m'' k :=
  ⟨fun d => (h'.1 d).trans (h.1 d), h'.2.trans h.2⟩
theorem Agree.fields {m m' : TMem} {k : Nat} (h : Agree m m' k) :
    m'.left k = m.left k ∧ m'.right k = m.right k ∧ m'.size k = m.size k := ⟨h.1 .L, h.1 .R, h.2⟩

theorem agree_setCh {m : TMem} {d : Dir} {k v x : Nat} (h : x ≠ k) : Agree m (setCh m d k v) x :=
  ⟨fun d' => by simp [ch_setCh, h], by simp⟩
theorem agree_setSize {m : TMem} {k v x : Nat} (h : x ≠ k) : Agree m (setSize m k v) x :=
  ⟨fun d' => by simp, by simp [size_setSize, h]⟩
theorem agree_fixSize {m : TMem} {k x : Nat} (h : x ≠ k) : Agree m (fixSize m k) x := agree_setSize h

/-- The node `k` with child `a` in direction `d` and `b` in the other. -/
def mk (d : Dir) (a : Tree) (k : Nat) (b : Tree) : Tree :=
  match d with
  | .L => .node a k b
  | .R => .node b k a

/-- `x` comes before `y` when looking from direction `d`. -/
def Bef (lt : Nat → Nat → Bool) (d : Dir) (x y : Nat) : Prop :=
  match d with
  | .L => lt x y = true
  | .R => lt y x = true

theorem mk_flip (d : Dir) (a : Tree) (k : Nat) (b : Tree) : mk d.flip a k b = mk d b k a := by cases d <;> rfl

theorem mk_cases (d : Dir) (t : Tree) : t = .leaf ∨ ∃ a k b, t = mk d a k b := by
  cases t with
  | leaf => exact .inl rfl
  | node l k r => cases d
                  · exact .inr ⟨l, k, r, rfl⟩
                  · exact .inr ⟨r, k, l, rfl⟩

@[simp] theorem size_mk (d : Dir) (a : Tree) (k : Nat) (b : Tree) : (mk d a k b).size = a.size + 1 + b.size := by
  cases d <;> simp [mk, Tree.size]; omega

@[simp] theorem mem_mk (d : Dir) (a : Tree) (k : Nat) (b : Tree) (x : Nat) :
    x ∈ (mk d a k b).toList ↔ x ∈ a.toList ∨ x = k ∨ x ∈ b.toList := by
  cases d <;> simp [mk, Tree.toList]
  constructor <;> rintro (h | h | h) <;> simp [h]

theorem holds_mk {m : TMem} {d : Dir} {a : Tree} {k : Nat} {b : Tree} {r : Nat} :
    Holds m (mk d a k b) r ↔ r = k ∧ k ≠ 0 ∧ Holds m a (ch m d k) ∧ Holds m b (ch m d.flip k) ∧
      m.size k = a.size + 1 + b.size := by
  cases d <;> simp only [mk, Holds, ch, Dir.flip, Tree.size]
  constructor
  · rintro ⟨h1, h2, h3, h4, h5⟩; exact ⟨h1, h2, h4, h3, by omega⟩
  · rintro ⟨h1, h2, h3, h4, h5⟩; exact ⟨h1, h2, h4, h3, by omega⟩

theorem Holds.agree {m m' : TMem} : ∀ {t : Tree} {r : Nat}, Holds m t r → (∀ k ∈ t.toList, Agree m m' k) → Holds m' t r
  | .leaf, _, h, _ => h
  | .node a k b, r, ⟨h1, h2, h3, h4, h5⟩, hk => by
    have hkk := (hk k (by simp [Tree.toList])).fields
    refine ⟨h1, h2, ?_, ?_, by rw [hkk.2.2]; exact h5⟩
    · rw [hkk.1]; exact Holds.agree h3 fun x hx => hk x (by simp [Tree.toList, hx])
    · rw [hkk.2.1]; exact Holds.agree h4 fun x hx => hk x (by simp [Tree.toList, hx])

theorem Holds.sz {m : TMem} {t : Tree} {r : Nat} (h : Holds m t r) : sz m r = t.size := by
  cases t with
  | leaf => simp only [Holds] at h; simp [Sbt.sz, h, Tree.size]
  | node a k b => obtain ⟨h1, h2, -, -, h5⟩ := h; subst h1; simp [Sbt.sz, h2, h5]

theorem Holds.nonzero {m : TMem} : ∀ {t : Tree} {r : Nat}, Holds m t r → 0 ∉ t.toList
  | .leaf, _, _ => by simp [Tree.toList]
  | .node a k b, _, ⟨_, h2, h3, h4, _⟩ => by
    have := Holds.nonzero h3; have := Holds.nonzero h4
    simp [Tree.toList, *, Ne.symm h2]

theorem Holds.root_zero {m : TMem} {t : Tree} {r : Nat} (h : Holds m t r) : r = 0 ↔ t = .leaf := by
  cases t with
  | leaf => simp only [Holds] at h; simp [h]
  | node a k b => obtain ⟨h1, h2, -⟩ := h; simp [h1, h2]

theorem Holds.root_mem {m : TMem} {t : Tree} {r : Nat} (h : Holds m t r) (hr : r ≠ 0) : r ∈ t.toList := by
  cases t with
  | leaf => exact absurd h hr
  | node a k b => simp [Tree.toList, h.1]

/-- The nodes are in strictly ascending order. -/
def Srt (lt : Nat → Nat → Bool) (t : Tree) : Prop := t.toList.Pairwise fun a b => lt a b = true

theorem srt_mk {lt : Nat → Nat → Bool} {d : Dir} {a : Tree} {k : Nat} {b : Tree} :
    Srt lt (mk d a k b) ↔ Srt lt a ∧ Srt lt b ∧ (∀ x ∈ a.toList, Bef lt d x k) ∧ (∀ y ∈ b.toList, Bef lt d k y) ∧
      ∀ x ∈ a.toList, ∀ y ∈ b.toList, Bef lt d x y := by
  cases d <;> simp only [Srt, mk, Tree.toList, List.pairwise_append, List.pairwise_cons, List.mem_cons, Bef]
  · constructor
    · rintro ⟨h1, ⟨h2, h3⟩, h4⟩
      exact ⟨h1, h3, fun x hx => h4 x hx k (.inl rfl), h2, fun x hx y hy => h4 x hx y (.inr hy)⟩
    · rintro ⟨h1, h2, h3, h4, h5⟩
      refine ⟨h1, ⟨h4, h2⟩, fun x hx y hy => ?_⟩
      rcases hy with rfl | hy
      · exact h3 x hx
      · exact h5 x hx y hy
  · constructor
    · rintro ⟨h1, ⟨h2, h3⟩, h4⟩
      exact ⟨h3, h1, h2, fun x hx => h4 x hx k (.inl rfl), fun x hx y hy => h4 y hy x (.inr hx)⟩
    · rintro ⟨h1, h2, h3, h4, h5⟩
      refine ⟨h2, ⟨h3, h1⟩, fun x hx y hy => ?_⟩
      rcases hy with rfl | hy
      · exact h4 x hx
      · exact h5 y hy x hx

theorem Bef.flip {lt : Nat → Nat → Bool} {d : Dir} {x y : Nat} : Bef lt d.flip x y ↔ Bef lt d y x := by cases d <;> rfl

section
variable {lt gt : Nat → Nat → Bool} (w : WeakOrd lt gt)
include w

theorem Bef.trans {d : Dir} {x y z : Nat} (h : Bef lt d x y) (h' : Bef lt d y z) : Bef lt d x z := by
  cases d
  · exact w.trans _ _ _ h h'
  · exact w.trans _ _ _ h' h

theorem Bef.ne {d : Dir} {x y : Nat} (h : Bef lt d x y) : x ≠ y := by
  rintro rfl
  cases d <;> simp [Bef, w.irrefl] at h

theorem Bef.asymm {d : Dir} {x y : Nat} (h : Bef lt d x y) (h' : Bef lt d y x) : False :=
  Bef.ne w (Bef.trans w h h') rfl

theorem Srt.nodup {t : Tree} (h : Srt lt t) : t.toList.Nodup :=
  List.Pairwise.imp (fun {a b} hab e => by subst e; rw [w.irrefl] at hab; cases hab) h

theorem Srt.ordered {t : Tree} (h : Srt lt t) : Ordered lt t.toList := by
  refine List.Pairwise.imp (fun {a b} hab => ?_) h
  cases hba : lt b a with
  | false => rfl
  | true => exact absurd (w.trans _ _ _ hab hba) (by simp [w.irrefl])

/-- The same nodes in the same order, turned at the root. -/
theorem srt_rot {d : Dir} {a b c : Tree} {x y : Nat} :
    Srt lt (mk d (mk d a y b) x c) ↔ Srt lt (mk d a y (mk d b x c)) := by
  have : (mk d (mk d a y b) x c).toList = (mk d a y (mk d b x c)).toList := by
    cases d <;> simp [mk, Tree.toList]
  simp only [Srt, this]

/-- Rotation. -/
theorem rot_ok {m : TMem} {d : Dir} {a b c : Tree} {x y r : Nat} (h : Holds m (mk d (mk d a y b) x c) r)
    (hs : Srt lt (mk d (mk d a y b) x c)) :
    (rot d m x).2 = y ∧ Holds (rot d m x).1 (mk d a y (mk d b x c)) y ∧
      ∀ k, k ≠ x → k ≠ y → Agree m (rot d m x).1 k := by
  obtain ⟨rfl, hx0, h1, h2, h3⟩ := holds_mk.1 h
  obtain ⟨hy, hy0, h4, h5, h6⟩ := holds_mk.1 h1
  obtain ⟨s1, s2, s3, s4, s5⟩ := srt_mk.1 hs
  obtain ⟨s6, s7, s8, s9, s10⟩ := srt_mk.1 s1
  simp only [mem_mk] at s3 s5
  have hyx : y ≠ r := Bef.ne w (s3 y (by simp))
  have hax : ∀ k ∈ a.toList, k ≠ r ∧ k ≠ y := fun k hk => ⟨Bef.ne w (s3 k (by simp [hk])), Bef.ne w (s8 k hk)⟩
  have hbx : ∀ k ∈ b.toList, k ≠ r ∧ k ≠ y := fun k hk => ⟨Bef.ne w (s3 k (by simp [hk])), (Bef.ne w (s9 k hk)).symm⟩
  have hcx : ∀ k ∈ c.toList, k ≠ r ∧ k ≠ y :=
    fun k hk => ⟨(Bef.ne w (s4 k hk)).symm, (Bef.ne w (s5 y (by simp) k hk)).symm⟩
  have hag : ∀ k, k ≠ r → k ≠ y → Agree m (rot d m r).1 k := by
    intro k hk1 hk2
    simp only [rot, hy]
    exact (((agree_setCh hk1).trans (agree_setCh hk2)).trans (agree_setSize hk2)).trans (agree_fixSize hk1)
  have e1 : ch (rot d m r).1 d y = ch m d y := by
    simp [rot, hy, fixSize, ch_setCh, hyx]
  have e2 : ch (rot d m r).1 d.flip y = r := by
    simp [rot, hy, fixSize, ch_setCh]
  have e3 : ch (rot d m r).1 d r = ch m d.flip y := by
    simp [rot, hy, fixSize, ch_setCh]
  have e4 : ch (rot d m r).1 d.flip r = ch m d.flip r := by
    simp [rot, hy, fixSize, ch_setCh, hyx.symm]
  have e5 : (rot d m r).1.size y = m.size r := by
    simp [rot, hy, fixSize, size_setSize, hyx]
  have hb' : sz m (ch m d.flip y) = b.size := Holds.sz h5
  have hc' : sz m (ch m d.flip r) = c.size := Holds.sz h2
  have hz : ∀ (q : Nat), q ≠ y → sz (setSize (setCh (setCh m d r (ch m d.flip y)) d.flip y r) y (m.size r)) q = sz m q := by
    intro q hq; simp [sz, size_setSize, hq]
  have e6 : (rot d m r).1.size r = b.size + 1 + c.size := by
    have hbne : ch m d.flip y ≠ y := fun e => by
      have := Holds.root_mem h5 (by rw [e]; exact hy0)
      rw [e] at this; exact (hbx _ this).2 rfl
    have hcne : ch m d.flip r ≠ y := fun e => by
      have := Holds.root_mem h2 (by rw [e]; exact hy0)
      rw [e] at this; exact (hcx _ this).2 rfl
    have := hz _ hbne; have := hz _ hcne
    have q1 := ch_setCh
    cases d
    · simp only [rot, hy, fixSize, size_setSize, if_true]
      simp only [Dir.flip] at *
      have l1 : (setSize (setCh (setCh m .L r (ch m .R y)) .R y r) y (m.size r)).left r = ch m .R y := by simp [setSize, setCh, ch]
      have l2 : (setSize (setCh (setCh m .L r (ch m .R y)) .R y r) y (m.size r)).right r = ch m .R r := by
        simp [setSize, setCh, ch, hyx.symm]
      simp only [size_setCh] at *
      rw [l1, l2]; omega
    · simp only [rot, hy, fixSize, size_setSize, if_true]
      simp only [Dir.flip] at *
      have l1 : (setSize (setCh (setCh m .R r (ch m .L y)) .L y r) y (m.size r)).right r = ch m .L y := by simp [setSize, setCh, ch]
      have l2 : (setSize (setCh (setCh m .R r (ch m .L y)) .L y r) y (m.size r)).left r = ch m .L r := by
        simp [setSize, setCh, ch, hyx.symm]
      simp only [size_setCh] at *
      rw [l1, l2]; omega
  refine ⟨by simp [rot, hy], holds_mk.2 ⟨rfl, hy0, ?_, ?_, ?_⟩, hag⟩
  · rw [e1]; exact Holds.agree h4 fun k hk => hag k (hax k hk).1 (hax k hk).2
  · rw [e2]
    refine holds_mk.2 ⟨rfl, hx0, ?_, ?_, e6⟩
    · rw [e3]; exact Holds.agree h5 fun k hk => hag k (hbx k hk).1 (hbx k hk).2
    · rw [e4]; exact Holds.agree h2 fun k hk => hag k (hcx k hk).1 (hcx k hk).2
  · rw [e5, h3]; simp; omega


/-- Double rotation. -/
theorem rot2_ok {m : TMem} {d : Dir} {a1 b1 b2 b : Tree} {c g x r : Nat} (h : Holds m (mk d (mk d a1 c (mk d b1 g b2)) x b) r)
    (hs : Srt lt (mk d (mk d a1 c (mk d b1 g b2)) x b)) :
    (rot d (setCh (rot d.flip m c).1 d x (rot d.flip m c).2) x).2 = g ∧
      Holds (rot d (setCh (rot d.flip m c).1 d x (rot d.flip m c).2) x).1 (mk d (mk d a1 c b1) g (mk d b2 x b)) g ∧
      ∀ k, k ∉ (mk d (mk d a1 c (mk d b1 g b2)) x b).toList →
        Agree m (rot d (setCh (rot d.flip m c).1 d x (rot d.flip m c).2) x).1 k := by
  obtain ⟨rfl, hx0, h1, h2, h3⟩ := holds_mk.1 h
  obtain ⟨s1, s2, s3, s4, s5⟩ := srt_mk.1 hs
  have hc : ch m d r = c := (holds_mk.1 h1).1
  rw [hc] at h1
  have h1' : Holds m (mk d.flip (mk d.flip b2 g b1) c a1) c := by rw [mk_flip, mk_flip]; exact h1
  have s1' : Srt lt (mk d.flip (mk d.flip b2 g b1) c a1) := by rw [mk_flip, mk_flip]; exact s1
  obtain ⟨q1, q2, q3⟩ := rot_ok w h1' s1'
  rw [mk_flip, mk_flip] at q2
  have hcm : c ∈ (mk d a1 c (mk d b1 g b2)).toList := by simp
  have hgm : g ∈ (mk d a1 c (mk d b1 g b2)).toList := by simp
  have hrc : r ≠ c := (Bef.ne w (s3 c hcm)).symm
  have hrg : r ≠ g := (Bef.ne w (s3 g hgm)).symm
  have hlist1 : ∀ k, k ∈ (mk d (mk d a1 c b1) g b2).toList → k ∈ (mk d a1 c (mk d b1 g b2)).toList := by
    intro k; simp only [mem_mk]; rintro ((h | h | h) | h | h) <;> simp [h]
  have h' : Holds (setCh (rot d.flip m c).1 d r g) (mk d (mk d (mk d a1 c b1) g b2) r b) r := by
    refine holds_mk.2 ⟨rfl, hx0, ?_, ?_, ?_⟩
    · simp only [ch_setCh, and_self, if_true]
      exact Holds.agree q2 fun k hk => agree_setCh (Bef.ne w (s3 k (hlist1 k hk)))
    · have : ch (setCh (rot d.flip m c).1 d r g) d.flip r = ch m d.flip r := by
        simp only [ch_setCh, Dir.flip_ne, false_and, if_false]
        exact (q3 r hrc hrg).1 _
      rw [this]
      exact Holds.agree h2 fun k hk => (q3 k (Bef.ne w (s5 c hcm k hk)).symm (Bef.ne w (s5 g hgm k hk)).symm).trans
        (agree_setCh (Bef.ne w (s4 k hk)).symm)
    · rw [size_setCh, (q3 r hrc hrg).2, h3]; simp only [size_mk]; omega
  have hlist : (mk d (mk d (mk d a1 c b1) g b2) r b).toList = (mk d (mk d a1 c (mk d b1 g b2)) r b).toList := by
    cases d <;> simp [mk, Tree.toList]
  have hs' : Srt lt (mk d (mk d (mk d a1 c b1) g b2) r b) := by rw [Srt, hlist]; exact hs
  obtain ⟨q4, q5, q6⟩ := rot_ok w h' hs'
  rw [q1]
  refine ⟨q4, q5, fun k hk => ?_⟩
  simp only [mem_mk, not_or] at hk
  exact ((q3 k hk.1.2.1 hk.1.2.2.2.1).trans (agree_setCh hk.2.1)).trans (q6 k hk.2.1 hk.1.2.2.2.1)

/-! ### `attach` -/

omit w in
theorem bef_dir {n x : Nat} (h : lt n x = true ∨ lt x n = true) : ∃ d, Bef lt d n x := by
  rcases h with h | h
  · exact ⟨.L, h⟩
  · exact ⟨.R, h⟩

theorem side_eq {d : Dir} {n x : Nat} (h : Bef lt d n x) : (if lt n x then Dir.L else Dir.R) = d := by
  cases d
  · simp only [Bef] at h; simp [h]
  · have : ¬ lt n x = true := fun h' => Bef.asymm w (d := .R) h h'
    simp [this]

theorem inner_eq {d e : Dir} {n c : Nat} (h : Bef lt e n c) : inner gt d n c = decide (e ≠ d) := by
  cases d <;> cases e <;> simp only [inner, w.gt_eq] <;> simp only [Bef] at h
  · have : ¬ lt c n = true := fun h' => Bef.asymm w (d := .L) h h'
    simpa using this
  · simp [h]
  · have : ¬ lt c n = true := fun h' => Bef.asymm w (d := .L) h h'
    simpa using this
  · simp [h]

/-- One more than the size of the subtree the path enters next, 0 if there is no path. -/
def pg (lt : Nat → Nat → Bool) (n : Nat) : Tree → Nat
  | .leaf => 0
  | .node l k r => (if lt n k then l else r).size + 1

/-- The same one level further. -/
def gm (lt : Nat → Nat → Bool) (n : Nat) : Tree → Nat
  | .leaf => 0
  | .node l k r => pg lt n (if lt n k then l else r)

theorem pg_mk {d : Dir} {n k : Nat} {a b : Tree} (h : Bef lt d n k) : pg lt n (mk d a k b) = a.size + 1 := by
  cases d
  · simp only [Bef] at h; simp [mk, pg, h]
  · have : ¬ lt n k = true := fun h' => Bef.asymm w (d := .R) h h'
    simp [mk, pg, this]

theorem gm_mk {d : Dir} {n k : Nat} {a b : Tree} (h : Bef lt d n k) : gm lt n (mk d a k b) = pg lt n a := by
  cases d
  · simp only [Bef] at h; simp [mk, gm, h]
  · have : ¬ lt n k = true := fun h' => Bef.asymm w (d := .R) h h'
    simp [mk, gm, this]

omit w in
theorem pg_le (n : Nat) (t : Tree) : pg lt n t ≤ t.size := by
  cases t with
  | leaf => exact Nat.le_refl _
  | node l k r => simp only [pg, Tree.size]; split <;> omega

omit w in
theorem gm_le (n : Nat) (t : Tree) : gm lt n t ≤ t.size := by
  cases t with
  | leaf => exact Nat.le_refl _
  | node l k r =>
    simp only [gm, Tree.size]
    have := pg_le (lt := lt) n l; have := pg_le (lt := lt) n r
    split <;> omega

omit w in
theorem fuel_down {a S g g' f : Nat} (h : a < S) (h1 : g ≤ a) (h2 : S * S + g' < f + 1) : a * a + g < f := by
  have := Nat.mul_le_mul (show a + 1 ≤ S from h) (show a + 1 ≤ S from h)
  have e : (a + 1) * (a + 1) = a * a + 2 * a + 1 := by rw [Nat.add_mul, Nat.mul_add]; omega
  omega

theorem attachCore_ok {n : Nat} (hn0 : n ≠ 0) : ∀ (f : Nat) (m : TMem) (t : Tree) (r : Nat), Holds m t r → t ≠ .leaf → Srt lt t →
    n ∉ t.toList → (∀ k ∈ t.toList, lt n k = true ∨ lt k n = true) → (∀ d, ch m d n = 0) → t.size * t.size + gm lt n t < f →
    ∃ m' r' t', attachCore lt gt n f m r = some (m', r') ∧ Holds m' t' r' ∧ Srt lt t' ∧ t'.size = t.size + 1 ∧
      (∀ k, k ∈ t'.toList ↔ k = n ∨ k ∈ t.toList) ∧ ∀ k, k ≠ n → k ∉ t.toList → Agree m m' k
  | 0, _, _, _, _, _, _, _, _, _, hf => by omega
  | f + 1, m, t, x, h, hl, hs, hnt, hap, hch, hf => by
    have hxm : x ∈ t.toList := Holds.root_mem h (fun e => hl ((Holds.root_zero h).1 e))
    obtain ⟨d, hd⟩ := bef_dir (hap x hxm)
    rcases mk_cases d t with rfl | ⟨a, k, b, rfl⟩
    · exact absurd rfl hl
    obtain ⟨rfl, hx0, h1, h2, h3⟩ := holds_mk.1 h
    obtain ⟨s1, s2, s3, s4, s5⟩ := srt_mk.1 hs
    rw [gm_mk w hd, size_mk] at hf
    simp only [mem_mk, not_or] at hnt hap
    obtain ⟨hna, hnx, hnb⟩ := hnt
    have hxa : x ∉ a.toList := fun e => Bef.ne w (s3 x e) rfl
    have hxb : x ∉ b.toList := fun e => Bef.ne w (s4 x e) rfl
    have hab : ∀ k ∈ b.toList, k ∉ a.toList := fun k hk e => Bef.ne w (s5 k e k hk) rfl
    have hnb' : ∀ y ∈ b.toList, Bef lt d n y := fun y hy => Bef.trans w hd (s4 y hy)
    simp only [attachCore, side_eq w hd]
    rcases mk_cases d a with rfl | ⟨a1, c, a2, rfl⟩
    · -- an empty place
      simp only [Holds] at h1
      rw [if_pos h1]
      have hag : ∀ k, k ≠ n → k ≠ x → Agree m (setCh (setSize (setSize m x (m.size x + 1)) n 1) d x n) k := fun k k1 k2 =>
        ((agree_setSize k2).trans (agree_setSize k1)).trans (agree_setCh k2)
      refine ⟨_, _, mk d (mk d .leaf n .leaf) x b, rfl, holds_mk.2 ⟨rfl, hx0, ?_, ?_, ?_⟩, ?_, ?_, ?_, ?_⟩
      · rw [ch_setCh, if_pos ⟨rfl, rfl⟩]
        refine holds_mk.2 ⟨rfl, hn0, ?_, ?_, ?_⟩
        · simp [Holds, ch_setCh, hnx, hch]
        · simp [Holds, ch_setCh, hch]
        · simp [size_setSize, Tree.size]
      · have : ch (setCh (setSize (setSize m x (m.size x + 1)) n 1) d x n) d.flip x = ch m d.flip x := by simp [ch_setCh]
        rw [this]
        exact Holds.agree h2 fun k hk => hag k (fun e => hnb (e ▸ hk)) (fun e => hxb (e ▸ hk))
      · simp [size_setSize, Ne.symm hnx, h3, Tree.size]; omega
      · refine srt_mk.2 ⟨srt_mk.2 (by simp [Srt, Tree.toList]), s2, ?_, s4, ?_⟩
        · simp [Tree.toList, hd]
        · simp [Tree.toList]; exact hnb'
      · simp [Tree.size]; omega
      · intro k; simp [Tree.toList]
      · intro k k1 k2
        simp only [mem_mk, not_or] at k2
        exact hag k k1 k2.2.1
    · obtain ⟨hc, hc0, h4, h5, h6⟩ := holds_mk.1 h1
      rw [hc, if_neg hc0]
      rw [hc] at h1
      obtain ⟨s6, s7, s8, s9, s10⟩ := srt_mk.1 s1
      simp only [mem_mk, not_or] at hna hxa hab s3 s5
      have ho : sz m (ch m d.flip x) = b.size := Holds.sz h2
      obtain ⟨e, he⟩ := bef_dir (hap c (by simp))
      rw [inner_eq w he]
      -- the two ways to go on
      have down : sz m (ch m (if decide (e ≠ d) then d.flip else d) c) + 1 ≤ sz m (ch m d.flip x) →
          ∃ m' r' t', (attachCore lt gt n f (setSize m x (m.size x + 1)) c).map (fun r => (setCh r.1 d x r.2, x)) = some (m', r') ∧
            Holds m' t' r' ∧ Srt lt t' ∧ t'.size = (mk d (mk d a1 c a2) x b).size + 1 ∧
            (∀ k, k ∈ t'.toList ↔ k = n ∨ k ∈ (mk d (mk d a1 c a2) x b).toList) ∧
            ∀ k, k ≠ n → k ∉ (mk d (mk d a1 c a2) x b).toList → Agree m m' k := by
        intro _
        obtain ⟨m', r', t', i1, i2, i3, i4, i5, i6⟩ := attachCore_ok hn0 f (setSize m x (m.size x + 1)) (mk d a1 c a2) c
          (Holds.agree h1 fun k hk => agree_setSize fun e => by subst e; exact absurd hk (by simp only [mem_mk, not_or]; exact hxa))
          (by cases d <;> simp [mk]) s1 (by simp only [mem_mk, not_or]; exact hna)
          (fun k hk => hap k (by simp only [mem_mk] at hk; simp [hk])) (by simpa using hch)
          (fuel_down (S := (mk d a1 c a2).size + 1 + b.size) (by omega) (gm_le _ _) hf)
        have hag : ∀ k, k ≠ n → k ≠ x → k ∉ (mk d a1 c a2).toList → Agree m (setCh m' d x r') k := fun k k1 k2 k3 =>
          ((agree_setSize k2).trans (i6 k k1 k3)).trans (agree_setCh k2)
        have hx' := i6 x (Ne.symm hnx) (by simp only [mem_mk, not_or]; exact hxa)
        refine ⟨_, _, mk d t' x b, by rw [i1]; rfl, holds_mk.2 ⟨rfl, hx0, ?_, ?_, ?_⟩, srt_mk.2 ⟨i3, s2, ?_, s4, ?_⟩, ?_, ?_, ?_⟩
        · simp only [ch_setCh, and_self, if_true]
          refine Holds.agree i2 fun k hk => agree_setCh fun e => ?_
          subst e
          rcases (i5 k).1 hk with e | e
          · exact hnx e.symm
          · simp only [mem_mk] at e; simp_all
        · have : ch (setCh m' d x r') d.flip x = ch m d.flip x := by
            simp only [ch_setCh, Dir.flip_ne, false_and, if_false]
            rw [hx'.1 d.flip, ch_setSize]
          rw [this]
          exact Holds.agree h2 fun k hk => hag k (fun e => hnb (e ▸ hk)) (fun e => hxb (e ▸ hk))
            (by simp only [mem_mk, not_or]; exact hab k hk)
        · rw [size_setCh, hx'.2, size_setSize, if_pos rfl, h3, i4]; omega
        · intro k hk
          rcases (i5 k).1 hk with e | e
          · exact e ▸ hd
          · exact s3 k (by simpa only [mem_mk] using e)
        · intro k hk y hy
          rcases (i5 k).1 hk with e | e
          · exact e ▸ hnb' y hy
          · exact s5 k (by simpa only [mem_mk] using e) y hy
        · simp only [size_mk] at i4 ⊢; omega
        · intro k
          simp only [mem_mk] at i5 ⊢
          rw [i5 k]
          constructor
          · rintro ((h | h) | h) <;> simp [h]
          · rintro (h | h | h) <;> simp [h]
        · intro k k1 k2
          simp only [mem_mk, not_or] at k2
          exact hag k k1 k2.2.1 (by simp only [mem_mk, not_or]; exact k2.1)
      -- go on at a tree with the same nodes
      have again : ∀ (m1 : TMem) (t1 : Tree) (r1 : Nat), Holds m1 t1 r1 → t1.toList = (mk d (mk d a1 c a2) x b).toList →
          gm lt n t1 < pg lt n (mk d a1 c a2) →
          (∀ k, k ∉ (mk d (mk d a1 c a2) x b).toList → Agree m m1 k) →
          ∃ m' r' t', attachCore lt gt n f m1 r1 = some (m', r') ∧
            Holds m' t' r' ∧ Srt lt t' ∧ t'.size = (mk d (mk d a1 c a2) x b).size + 1 ∧
            (∀ k, k ∈ t'.toList ↔ k = n ∨ k ∈ (mk d (mk d a1 c a2) x b).toList) ∧
            ∀ k, k ≠ n → k ∉ (mk d (mk d a1 c a2) x b).toList → Agree m m' k := by
        intro m1 t1 r1 g1 g2 g3 g4
        have hnt : n ∉ (mk d (mk d a1 c a2) x b).toList := by simp only [mem_mk, not_or]; exact ⟨hna, hnx, hnb⟩
        have hsz : t1.size = (mk d (mk d a1 c a2) x b).size := by rw [Tree.size_eq_length, g2, ← Tree.size_eq_length]
        obtain ⟨m', r', t', i1, i2, i3, i4, i5, i6⟩ := attachCore_ok hn0 f m1 t1 r1 g1
          (by rintro rfl; simp [Tree.size] at hsz; omega) (by rw [Srt, g2]; exact hs) (by rw [g2]; exact hnt)
          (by rw [g2]; intro k hk; exact hap k (by simpa only [mem_mk] using hk)) (fun d' => by rw [(g4 n hnt).1, hch])
          (by rw [hsz, size_mk]; omega)
        exact ⟨m', r', t', i1, i2, i3, by rw [i4, hsz], fun k => by rw [i5, g2],
          fun k k1 k2 => (g4 k k2).trans (i6 k k1 (by rw [g2]; exact k2))⟩
      by_cases hg : sz m (ch m (if decide (e ≠ d) then d.flip else d) c) + 1 > sz m (ch m d.flip x)
      · rw [if_pos hg]
        by_cases hed : e = d
        · -- outer
          subst hed
          simp only [ne_eq, not_true_eq_false, decide_false, Bool.false_eq_true, if_false]
          obtain ⟨q1, q2, q3⟩ := rot_ok w h hs
          rw [q1]
          refine again _ _ _ q2 (by cases e <;> simp [mk, Tree.toList]) ?_ fun k hk => ?_
          · rw [gm_mk w he, pg_mk w he]; exact Nat.lt_succ_of_le (pg_le _ _)
          · simp only [mem_mk, not_or] at hk
            exact q3 k hk.2.1 hk.1.2.1
        · have hed' : e = d.flip := by cases d <;> cases e <;> simp_all [Dir.flip]
          subst hed'
          have hg2 : sz m (ch m d.flip c) = a2.size := Holds.sz h5
          have hgg : a2.size + 1 > b.size := by
            simpa only [ne_eq, hed, not_false_eq_true, decide_true, if_true, hg2, ho] using hg
          simp only [ne_eq, hed, not_false_eq_true, decide_true, if_true, hg2, ho]
          split
          · -- both are empty
            rename_i hz
            obtain ⟨z1, z2⟩ := hz
            have e2 : a2 = .leaf := by cases a2 with | leaf => rfl | node => simp [Tree.size] at z1
            have e3 : b = .leaf := by cases b with | leaf => rfl | node => simp [Tree.size] at z2
            subst e2 e3
            have hcs : sz m c = a1.size + 1 := by rw [Holds.sz h1]; simp [Tree.size]
            simp only [hcs]
            have hag : ∀ k, k ≠ n → k ≠ x → Agree m (setSize (setCh (setSize (setCh (setCh m d n c) d.flip n x) n (a1.size + 1 + 2)) d x 0) x 1) k :=
              fun k k1 k2 => ((((agree_setCh k1).trans (agree_setCh k1)).trans (agree_setSize k1)).trans (agree_setCh k2)).trans (agree_setSize k2)
            simp only [Tree.toList, List.not_mem_nil, or_false, not_false_eq_true, and_true] at hna hxa
            refine ⟨_, _, mk d (mk d a1 c .leaf) n (mk d .leaf x .leaf), rfl, holds_mk.2 ⟨rfl, hn0, ?_, ?_, ?_⟩,
              srt_mk.2 ⟨s1, srt_mk.2 (by simp [Srt, Tree.toList]), ?_, ?_, ?_⟩, ?_, ?_, ?_⟩
            · have : ch (setSize (setCh (setSize (setCh (setCh m d n c) d.flip n x) n (a1.size + 1 + 2)) d x 0) x 1) d n = c := by
                simp [ch_setCh, hnx]
              rw [this]
              refine Holds.agree h1 fun k hk => ?_
              simp only [mem_mk, Tree.toList, List.not_mem_nil, or_false] at hk
              exact hag k (by rintro rfl; simp_all) (by rintro rfl; simp_all)
            · have : ch (setSize (setCh (setSize (setCh (setCh m d n c) d.flip n x) n (a1.size + 1 + 2)) d x 0) x 1) d.flip n = x := by
                simp [ch_setCh]
              rw [this]
              refine holds_mk.2 ⟨rfl, hx0, ?_, ?_, ?_⟩
              · simp [Holds, ch_setCh]
              · simp only [Holds] at h2; simp [Holds, ch_setCh, Ne.symm hnx, h2]
              · simp [size_setSize, Tree.size]
            · simp [size_setSize, hnx, Tree.size]
            · intro k hk
              simp only [mem_mk, Tree.toList, List.not_mem_nil, or_false] at hk
              rcases hk with hk | rfl
              · exact Bef.trans w (s8 k hk) (Bef.flip.1 he)
              · exact Bef.flip.1 he
            · simp [Tree.toList]; exact hd
            · intro k hk
              simp [Tree.toList]
              exact s3 k (by simpa only [mem_mk] using hk)
            · simp [Tree.size]
            · intro k; simp [Tree.toList]
              constructor
              · rintro ((h | h) | h | h) <;> simp [h]
              · rintro (h | (h | h) | h) <;> simp [h]
            · intro k k1 k2
              simp only [mem_mk, not_or] at k2
              exact hag k k1 k2.2.1
          · -- double rotation
            rename_i hz
            rcases mk_cases d a2 with rfl | ⟨b1, g, b2, rfl⟩
            · exact absurd ⟨rfl, by simp only [Tree.size] at hgg; omega⟩ hz
            obtain ⟨q4, q5, q6⟩ := rot2_ok w h hs
            rw [q4]
            refine again _ _ _ q5 (by cases d <;> simp [mk, Tree.toList]) ?_ q6
            · rw [show mk d a1 c (mk d b1 g b2) = mk d.flip (mk d b1 g b2) c a1 by rw [mk_flip], pg_mk w he, size_mk]
              obtain ⟨e', he'⟩ := bef_dir (hap g (by simp))
              by_cases h7 : e' = d
              · subst h7
                rw [gm_mk w he', show mk e' a1 c b1 = mk e'.flip b1 c a1 by rw [mk_flip], pg_mk w he]; omega
              · have h7 : e' = d.flip := by cases d <;> cases e' <;> simp_all [Dir.flip]
                subst h7
                rw [show mk d (mk d a1 c b1) g (mk d b2 x b) = mk d.flip (mk d b2 x b) g (mk d a1 c b1) by rw [mk_flip],
                  gm_mk w he', pg_mk w hd]; omega
      · rw [if_neg hg]; exact down (by omega)


/-! ### `detach` -/

omit w in
theorem clear_ch (m : TMem) (n x : Nat) (d : Dir) : ch (clearNode m n) d x = if x = n then 0 else ch m d x := by
  cases d <;> simp [clearNode, ch, setCh, setSize]

omit w in
theorem clear_size (m : TMem) (n x : Nat) : (clearNode m n).size x = if x = n then 0 else m.size x := by
  simp [clearNode, size_setSize]

omit w in
theorem agree_clear {m : TMem} {n x : Nat} (h : x ≠ n) : Agree m (clearNode m n) x :=
  ⟨fun d => by simp [clear_ch, h], by simp [clear_size, h]⟩

omit w in
theorem fixSize_size (m : TMem) (x : Nat) (d : Dir) :
    (fixSize m x).size x = sz m (ch m d x) + sz m (ch m d.flip x) + 1 := by
  cases d <;> simp [fixSize, size_setSize, ch, Dir.flip]; omega

/-- The leftmost (rightmost) node. -/
theorem extreme_ok {d : Dir} : ∀ (f : Nat) (m : TMem) (t : Tree) (r : Nat), Holds m t r → Srt lt t → t ≠ .leaf → t.size ≤ f →
    extreme d m f r ∈ t.toList ∧ ∀ k ∈ t.toList, k ≠ extreme d m f r → Bef lt d (extreme d m f r) k
  | 0, _, t, _, _, _, hl, hf => by cases t with
    | leaf => exact absurd rfl hl
    | node l k r => simp [Tree.size] at hf
  | f + 1, m, t, r, h, hs, hl, hf => by
    rcases mk_cases d t with rfl | ⟨a, k, b, rfl⟩
    · exact absurd rfl hl
    obtain ⟨rfl, hx0, h1, h2, h3⟩ := holds_mk.1 h
    obtain ⟨s1, s2, s3, s4, s5⟩ := srt_mk.1 hs
    rw [size_mk] at hf
    simp only [extreme]
    by_cases h0 : ch m d r = 0
    · have := (Holds.root_zero h1).1 h0
      subst this
      rw [if_pos h0]
      refine ⟨by simp, fun k hk hne => ?_⟩
      simp [Tree.toList, hne] at hk
      exact s4 k hk
    · rw [if_neg h0]
      obtain ⟨i1, i2⟩ := extreme_ok (d := d) f m a _ h1 s1 (fun e => h0 ((Holds.root_zero h1).2 e)) (by omega)
      refine ⟨by simp [i1], fun k hk hne => ?_⟩
      simp only [mem_mk] at hk
      rcases hk with hk | rfl | hk
      · exact i2 k hk hne
      · exact s3 _ i1
      · exact s5 _ i1 k hk

/-- The size of the subtree beside the path. -/
def om (lt : Nat → Nat → Bool) (n : Nat) : Tree → Nat
  | .leaf => 0
  | .node l k r => if lt n k then r.size else l.size

theorem om_mk {d : Dir} {n k : Nat} {a b : Tree} (h : Bef lt d n k) : om lt n (mk d a k b) = b.size := by
  cases d
  · simp only [Bef] at h; simp [mk, om, h]
  · have : ¬ lt n k = true := fun h' => Bef.asymm w (d := .R) h h'
    simp [mk, om, this]

omit w in
theorem om_le (n : Nat) (t : Tree) : om lt n t ≤ t.size := by
  cases t with
  | leaf => exact Nat.le_refl _
  | node l k r => simp only [om, Tree.size]; split <;> omega

/-- What a removal leaves. -/
def Removed (lt : Nat → Nat → Bool) (m : TMem) (t : Tree) (n : Nat) (m' : TMem) (r' : Nat) : Prop :=
  ∃ t', Holds m' t' r' ∧ Srt lt t' ∧ t'.size + 1 = t.size ∧ (∀ k, k ∈ t'.toList ↔ k ∈ t.toList ∧ k ≠ n) ∧
    (∀ d, ch m' d n = 0) ∧ m'.size n = 0 ∧ ∀ k, k ∉ t.toList → Agree m m' k

/-- The node is the root and has two children: its neighbour from the side `e` takes its place. -/
theorem replace_ok {m : TMem} {e : Dir} {a b : Tree} {x rep c' : Nat} {m1 : TMem} (h : Holds m (mk e a x b) x)
    (hs : Srt lt (mk e a x b)) (hrep : rep ∈ a.toList) (hlast : ∀ k ∈ a.toList, k ≠ rep → Bef lt e k rep)
    (hr : Removed lt m a rep m1 c') :
    Removed lt m (mk e a x b) x (clearNode (fixSize (setCh (setCh (setCh m1 e x c') e rep (ch (setCh m1 e x c') e x)) e.flip rep
      (ch (setCh m1 e x c') e.flip x)) rep) x) rep := by
  obtain ⟨-, hx0, h1, h2, h3⟩ := holds_mk.1 h
  obtain ⟨s1, s2, s3, s4, s5⟩ := srt_mk.1 hs
  obtain ⟨a', i1, i2, i3, i4, i5, i6, i7⟩ := hr
  have hxa : x ∉ a.toList := fun e => Bef.ne w (s3 x e) rfl
  have hxb : x ∉ b.toList := fun e => Bef.ne w (s4 x e) rfl
  have hrx : rep ≠ x := fun e => hxa (e ▸ hrep)
  have hx1 := i7 x hxa
  have hab : ∀ k ∈ b.toList, k ∉ a.toList := fun k hk e => Bef.ne w (s5 k e k hk) rfl
  have hb1 : Holds m1 b (ch m e.flip x) := Holds.agree h2 fun k hk => i7 k (hab k hk)
  have ex : ch (setCh m1 e x c') e x = c' := by simp [ch_setCh]
  have ey : ch (setCh m1 e x c') e.flip x = ch m e.flip x := by
    simp only [ch_setCh, Dir.flip_ne, false_and, if_false]; exact hx1.1 _
  rw [ex, ey]
  have hag : ∀ k, k ≠ x → k ≠ rep → Agree m1 (clearNode (fixSize (setCh (setCh (setCh m1 e x c') e rep c') e.flip rep
      (ch m e.flip x)) rep) x) k := fun k k1 k2 =>
    ((((agree_setCh k1).trans (agree_setCh k2)).trans (agree_setCh k2)).trans (agree_fixSize k2)).trans (agree_clear k1)
  refine ⟨mk e a' rep b, holds_mk.2 ⟨rfl, fun e0 => ?_, ?_, ?_, ?_⟩, srt_mk.2 ⟨i2, s2, ?_, ?_, ?_⟩, ?_, ?_, ?_, ?_, ?_⟩
  · exact Holds.nonzero h1 (e0 ▸ hrep)
  · have : ch (clearNode (fixSize (setCh (setCh (setCh m1 e x c') e rep c') e.flip rep (ch m e.flip x)) rep) x) e rep = c' := by
      simp [clear_ch, hrx, fixSize, ch_setCh]
    rw [this]
    exact Holds.agree i1 fun k hk => hag k (fun e => hxa (e ▸ ((i4 k).1 hk).1)) ((i4 k).1 hk).2
  · have : ch (clearNode (fixSize (setCh (setCh (setCh m1 e x c') e rep c') e.flip rep (ch m e.flip x)) rep) x) e.flip rep
        = ch m e.flip x := by
      simp [clear_ch, hrx, fixSize, ch_setCh]
    rw [this]
    exact Holds.agree hb1 fun k hk => hag k (fun e => hxb (e ▸ hk)) (fun e => hab k hk (e ▸ hrep))
  · rw [clear_size, if_neg hrx, fixSize_size _ _ e]
    have q1 : sz m1 c' = a'.size := Holds.sz i1
    have q2 : sz m1 (ch m e.flip x) = b.size := Holds.sz hb1
    have q3 : ∀ q, sz (setCh (setCh (setCh m1 e x c') e rep c') e.flip rep (ch m e.flip x)) q = sz m1 q := fun q => by simp [sz]
    rw [q3, q3]
    simp only [ch_setCh, Dir.flip_ne, Dir.ne_flip, false_and, if_false, and_self, if_true, q1, q2]; omega
  · exact fun k hk => hlast k ((i4 k).1 hk).1 ((i4 k).1 hk).2
  · exact fun y hy => s5 rep hrep y hy
  · exact fun k hk y hy => s5 k ((i4 k).1 hk).1 y hy
  · simp only [size_mk]; omega
  · intro k
    simp only [mem_mk, i4]
    constructor
    · rintro (⟨h, h'⟩ | rfl | h)
      · exact ⟨.inl h, fun e => hxa (e ▸ h)⟩
      · exact ⟨.inl hrep, hrx⟩
      · exact ⟨.inr (.inr h), fun e => hxb (e ▸ h)⟩
    · rintro ⟨h | h | h, h'⟩
      · by_cases hk : k = rep
        · exact .inr (.inl hk)
        · exact .inl ⟨h, hk⟩
      · exact absurd h h'
      · exact .inr (.inr h)
  · intro d; simp [clear_ch]
  · simp [clear_size]
  · intro k hk
    simp only [mem_mk, not_or] at hk
    exact (i7 k hk.1).trans (hag k hk.2.1 fun e => hk.1 (e ▸ hrep))

theorem detachCore_ok : ∀ (f : Nat) (m : TMem) (t : Tree) (r n : Nat), Holds m t r → Srt lt t → n ∈ t.toList →
    t.size * t.size + om lt n t < f → ∃ m' r', detachCore lt gt f m r n = some (m', r') ∧ Removed lt m t n m' r'
  | 0, _, _, _, _, _, _, _, hf => by omega
  | f + 1, m, t, x, n, h, hs, hn, hf => by
    have hcase : n = x ∨ ∃ d a b, t = mk d a x b ∧ n ∈ a.toList := by
      cases t with
      | leaf => simp [Tree.toList] at hn
      | node l k r =>
        have : x = k := h.1
        subst this
        simp only [Tree.toList, List.mem_append, List.mem_cons] at hn
        rcases hn with hn | hn | hn
        · exact .inr ⟨.L, l, r, rfl, hn⟩
        · exact .inl hn
        · exact .inr ⟨.R, r, l, rfl, hn⟩
    rcases hcase with rfl | ⟨d, a, b, rfl, hna⟩
    · -- found
      cases t with
      | leaf => simp [Tree.toList] at hn
      | node l k r =>
        have : n = k := h.1
        subst this
        have hL := h
        obtain ⟨-, hx0, h1, h2, h3⟩ := h
        have z1 : sz m (ch m .L n) = l.size := Holds.sz h1
        have z2 : sz m (ch m .R n) = r.size := Holds.sz h2
        have hsl := (srt_mk (d := .L)).1 hs
        have hxl : n ∉ l.toList := fun e => Bef.ne w (hsl.2.2.1 n e) rfl
        have hxr : n ∉ r.toList := fun e => Bef.ne w (hsl.2.2.2.1 n e) rfl
        simp only [detachCore, if_neg hx0, w.gt_eq, w.irrefl, Bool.or_self, Bool.false_eq_true, if_false, z1, z2]
        by_cases hb : l.size > 0 ∧ r.size > 0
        · rw [if_pos hb]
          have go : ∀ (e : Dir) (a b : Tree), Tree.node l n r = mk e a n b → a ≠ .leaf →
              ∃ m' r', (detachCore lt gt f m (ch m e n) (extreme e.flip m (m.size (ch m e n)) (ch m e n))).map (fun q =>
                (clearNode (fixSize (setCh (setCh (setCh q.1 e n q.2) e (extreme e.flip m (m.size (ch m e n)) (ch m e n))
                  (ch (setCh q.1 e n q.2) e n)) e.flip (extreme e.flip m (m.size (ch m e n)) (ch m e n))
                  (ch (setCh q.1 e n q.2) e.flip n)) (extreme e.flip m (m.size (ch m e n)) (ch m e n))) n,
                  extreme e.flip m (m.size (ch m e n)) (ch m e n))) = some (m', r') ∧ Removed lt m (.node l n r) n m' r' := by
            intro e a b hab ha
            rw [hab] at hL hs hf ⊢
            obtain ⟨-, -, g1, g2, g3⟩ := holds_mk.1 hL
            obtain ⟨s1, s2, s3, s4, s5⟩ := srt_mk.1 hs
            rw [size_mk] at hf
            have hcz : m.size (ch m e n) = a.size := by
              have := Holds.sz g1
              rwa [sz, if_neg fun e0 => ha ((Holds.root_zero g1).1 e0)] at this
            rw [hcz]
            obtain ⟨x1, x2⟩ := extreme_ok w (d := e.flip) a.size m a _ g1 s1 ha (Nat.le_refl _)
            obtain ⟨m', r', i1, i2⟩ := detachCore_ok f m a _ _ g1 s1 x1
              (fuel_down (S := a.size + 1 + b.size) (by omega) (om_le _ _) hf)
            rw [i1]
            exact ⟨_, _, rfl, replace_ok w hL hs x1 (fun k hk hne => Bef.flip.1 (x2 k hk hne)) i2⟩
          by_cases hz : l.size > r.size
          · simp only [hz, if_true]
            exact go .L l r rfl (by rintro rfl; simp [Tree.size] at hb)
          · simp only [hz, if_false]
            exact go .R r l rfl (by rintro rfl; simp [Tree.size] at hb)
        · rw [if_neg hb]
          refine ⟨_, _, rfl, ?_⟩
          by_cases hl : l.size > 0
          · rw [if_pos hl]
            have : r = .leaf := by cases r with | leaf => rfl | node => exact absurd ⟨hl, by simp [Tree.size]; omega⟩ hb
            subst this
            refine ⟨l, Holds.agree h1 fun k hk => agree_clear fun e => hxl (e ▸ hk), hsl.1, by simp [Tree.size], fun k => ?_,
              fun d => by simp [clear_ch], by simp [clear_size], fun k hk => agree_clear ?_⟩
            · simp only [Tree.toList, List.mem_append, List.mem_cons, List.not_mem_nil, or_false]
              exact ⟨fun hk => ⟨.inl hk, fun e => hxl (e ▸ hk)⟩, fun hk => hk.1.resolve_right hk.2⟩
            · rintro rfl; exact hk hn
          · rw [if_neg hl]
            have : l = .leaf := by cases l with | leaf => rfl | node => exact absurd (by simp [Tree.size]; omega) hl
            subst this
            have hroot : (if r.size > 0 then ch m .R n else 0) = ch m .R n := by
              split
              · rfl
              · cases r with
                | leaf => exact h2.symm
                | node => rename_i hr; exact absurd (by simp [Tree.size]; omega) hr
            rw [hroot]
            refine ⟨r, Holds.agree h2 fun k hk => agree_clear fun e => hxr (e ▸ hk), hsl.2.1, by simp [Tree.size]; omega, fun k => ?_,
              fun d => by simp [clear_ch], by simp [clear_size], fun k hk => agree_clear ?_⟩
            · simp only [Tree.toList, List.nil_append, List.mem_cons]
              exact ⟨fun hk => ⟨.inr hk, fun e => hxr (e ▸ hk)⟩, fun hk => hk.1.resolve_left hk.2⟩
            · rintro rfl; exact hk hn
    · -- on the way
      obtain ⟨-, hx0, h1, h2, h3⟩ := holds_mk.1 h
      obtain ⟨s1, s2, s3, s4, s5⟩ := srt_mk.1 hs
      have hd := s3 n hna
      rw [om_mk w hd, size_mk] at hf
      have hxa : x ∉ a.toList := fun e => Bef.ne w (s3 x e) rfl
      have hxb : x ∉ b.toList := fun e => Bef.ne w (s4 x e) rfl
      have hab : ∀ k ∈ b.toList, k ∉ a.toList := fun k hk e => Bef.ne w (s5 k e k hk) rfl
      have hnx : n ≠ x := fun e => hxa (e ▸ hna)
      have hcmp : (lt n x || gt n x) = true := by
        rw [w.gt_eq]; cases d <;> simp only [Bef] at hd <;> simp [hd]
      have hc : sz m (ch m d x) = a.size := Holds.sz h1
      have hx0 : x ≠ 0 := h.nonzero x (by simp [mem_mk])
      simp only [detachCore, if_neg hx0, hcmp, if_true, side_eq w hd, hc]
      have down : ∃ m' r', (detachCore lt gt f (setSize m x (m.size x - 1)) (ch m d x) n).map (fun r => (setCh r.1 d x r.2, x)) =
          some (m', r') ∧ Removed lt m (mk d a x b) n m' r' := by
        obtain ⟨m', r', i1, t', i2, i3, i4, i5, i6, i7, i8⟩ := detachCore_ok f (setSize m x (m.size x - 1)) a _ n
          (Holds.agree h1 fun k hk => agree_setSize fun e => hxa (e ▸ hk)) s1 hna
          (fuel_down (S := a.size + 1 + b.size) (by omega) (om_le _ _) hf)
        have hag : ∀ k, k ≠ x → k ∉ a.toList → Agree m (setCh m' d x r') k := fun k k2 k3 =>
          ((agree_setSize k2).trans (i8 k k3)).trans (agree_setCh k2)
        have hx' := i8 x hxa
        refine ⟨_, _, by rw [i1]; rfl, mk d t' x b, holds_mk.2 ⟨rfl, hx0, ?_, ?_, ?_⟩, srt_mk.2 ⟨i3, s2, ?_, s4, ?_⟩, ?_, ?_, ?_, ?_, ?_⟩
        · simp only [ch_setCh, and_self, if_true]
          exact Holds.agree i2 fun k hk => agree_setCh fun e => hxa (e ▸ ((i5 k).1 hk).1)
        · have : ch (setCh m' d x r') d.flip x = ch m d.flip x := by
            simp only [ch_setCh, Dir.flip_ne, false_and, if_false]
            rw [hx'.1 d.flip, ch_setSize]
          rw [this]
          exact Holds.agree h2 fun k hk => hag k (fun e => hxb (e ▸ hk)) (hab k hk)
        · rw [size_setCh, hx'.2, size_setSize, if_pos rfl, h3]; omega
        · exact fun k hk => s3 k ((i5 k).1 hk).1
        · exact fun k hk y hy => s5 k ((i5 k).1 hk).1 y hy
        · simp only [size_mk]; omega
        · intro k
          simp only [mem_mk, i5]
          constructor
          · rintro (⟨h, h'⟩ | rfl | h)
            · exact ⟨.inl h, h'⟩
            · exact ⟨.inr (.inl rfl), hnx.symm⟩
            · exact ⟨.inr (.inr h), fun e => hab k h (e ▸ hna)⟩
          · rintro ⟨h | h | h, h'⟩ <;> simp [h, h']
        · intro d'; simp [ch_setCh, hnx, i6]
        · simp [i7]
        · intro k hk
          simp only [mem_mk, not_or] at hk
          exact hag k hk.2.1 hk.1
      have again : ∀ (m1 : TMem) (t1 : Tree) (r1 : Nat), Holds m1 t1 r1 → t1.toList = (mk d a x b).toList →
          om lt n t1 < b.size → (∀ k, k ∉ (mk d a x b).toList → Agree m m1 k) →
          ∃ m' r', detachCore lt gt f m1 r1 n = some (m', r') ∧ Removed lt m (mk d a x b) n m' r' := by
        intro m1 t1 r1 g1 g2 g3 g4
        have hsz : t1.size = (mk d a x b).size := by rw [Tree.size_eq_length, g2, ← Tree.size_eq_length]
        obtain ⟨m', r', i1, t', i2, i3, i4, i5, i6, i7, i8⟩ := detachCore_ok f m1 t1 r1 n g1 (by rw [Srt, g2]; exact hs)
          (by rw [g2]; exact hn) (by rw [hsz, size_mk]; omega)
        exact ⟨m', r', i1, t', i2, i3, by rw [i4, hsz], fun k => by rw [i5, g2], i6, i7,
          fun k k2 => (g4 k k2).trans (i8 k (by rw [g2]; exact k2))⟩
      rcases mk_cases d b with rfl | ⟨b1, o, b2, rfl⟩
      · have h2' : ch m d.flip x = 0 := h2
        simp only [h2', if_true, show sz m 0 = 0 from rfl, Nat.not_lt_zero, gt_iff_lt, if_false]
        exact down
      · obtain ⟨ho, ho0, g1, g2, g3⟩ := holds_mk.1 h2
        have f1 : sz m (ch m d o) = b1.size := Holds.sz g1
        have f2 : sz m (ch m d.flip o) = b2.size := Holds.sz g2
        simp only [ho, ho0, if_false, f1, f2]
        have hno : Bef lt d n o := s5 n hna o (by simp)
        by_cases c1 : b2.size > a.size - 1
        · rw [if_pos c1]
          have h' : Holds m (mk d.flip (mk d.flip b2 o b1) x a) x := by rw [mk_flip, mk_flip]; exact h
          have hs' : Srt lt (mk d.flip (mk d.flip b2 o b1) x a) := by rw [mk_flip, mk_flip]; exact hs
          obtain ⟨q1, q2, q3⟩ := rot_ok w h' hs'
          rw [mk_flip, mk_flip] at q2
          rw [q1]
          refine again _ _ _ q2 (by cases d <;> simp [mk, Tree.toList]) ?_ fun k hk => ?_
          · rw [om_mk w hno, size_mk]; omega
          · simp only [mem_mk, not_or] at hk
            exact q3 k hk.2.1 hk.2.2.2.1
        · rw [if_neg c1]
          by_cases c2 : b1.size > a.size - 1
          · rw [if_pos c2]
            rcases mk_cases d b1 with rfl | ⟨u1, g, u2, rfl⟩
            · simp [Tree.size] at c2
            have e1 : mk d a x (mk d (mk d u1 g u2) o b2) = mk d.flip (mk d.flip b2 o (mk d.flip u2 g u1)) x a := by
              rw [mk_flip, mk_flip, mk_flip]
            obtain ⟨q1, q2, q3⟩ := rot2_ok w (e1 ▸ h) (e1 ▸ hs)
            rw [Dir.flip_flip] at q1 q2 q3
            rw [q1]
            rw [mk_flip, mk_flip, mk_flip] at q2
            refine again _ _ _ q2 (by cases d <;> simp [mk, Tree.toList]) ?_ (by rw [e1]; exact q3)
            rw [om_mk w (s5 n hna g (by simp))]
            simp only [size_mk]; omega
          · rw [if_neg c2]
            exact down

end

end Verif.Sbt
