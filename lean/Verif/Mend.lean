import Verif.TreeLemmas

/-!
# A weaker contract of the `trees` crate

`LawfulTrees₀` is `LawfulTrees` where the two tree operations need only work on trees whose nodes the comparisons can tell from each other.
An algorithm that finds nodes by key, and moves another node of the tree into the place of a removed one, meets it. `mend X` does what
`X` does there, and something right elsewhere. (Helper for C93.)
-/

namespace Verif

/-- The comparisons tell any two of these nodes from each other. -/
def Apart (lt gt : Nat → Nat → Bool) (l : List Nat) : Prop := ∀ a ∈ l, ∀ b ∈ l, a ≠ b → lt a b = true ∨ gt a b = true

/-- What an insertion leaves. -/
def Inserted (P : Tree → Prop) (lt : Nat → Nat → Bool) (m : TMem) (t : Tree) (n : Nat) (m' : TMem) (r' : Nat) : Prop :=
  ∃ t', IsTree P lt m' t' r' ∧ t'.toList.Perm (n :: t.toList) ∧
    ∀ k, k ∉ n :: t.toList → m'.left k = m.left k ∧ m'.right k = m.right k ∧ m'.size k = m.size k

/-- What a removal leaves. -/
def Removed (P : Tree → Prop) (lt : Nat → Nat → Bool) (m : TMem) (t : Tree) (n : Nat) (m' : TMem) (r' : Nat) : Prop :=
  ∃ t', IsTree P lt m' t' r' ∧ (n :: t'.toList).Perm t.toList ∧ m'.left n = 0 ∧ m'.right n = 0 ∧ m'.size n = 0 ∧
    ∀ k, k ∉ t.toList → m'.left k = m.left k ∧ m'.right k = m.right k ∧ m'.size k = m.size k

/-- The contract of the external crate, restricted to trees without equal nodes. -/
structure LawfulTrees₀ (X : TreesCrate) : Prop where
  leaf : X.shape .leaf
  attach : ∀ lt gt m t r n, WeakOrd lt gt → IsTree X.shape lt m t r → n ≠ 0 → n ∉ t.toList → m.left n = 0 → m.right n = 0 →
    Apart lt gt (n :: t.toList) →
    ∃ m' r', X.treeAttach lt gt m r n = some (m', r') ∧ Inserted X.shape lt m t n m' r'
  detach : ∀ lt gt m t r n, WeakOrd lt gt → IsTree X.shape lt m t r → n ∈ t.toList → Apart lt gt t.toList →
    ∃ m' r', X.treeDetach lt gt m r n = some (m', r') ∧ Removed X.shape lt m t n m' r'
  listAttachFirst : ∀ m l n, IsList m l → n ≠ 0 → n ∉ l →
    ∃ m', X.listAttachFirst m n = some m' ∧ IsList m' (n :: l) ∧
      ∀ k, k ∉ n :: l → m'.prev k = m.prev k ∧ m'.next k = m.next k
  listDetach : ∀ m l n, IsList m l → n ∈ l →
    ∃ m', X.listDetach m n = some m' ∧ IsList m' (l.erase n) ∧ m'.prev n = 0 ∧ m'.next n = 0 ∧
      ∀ k, k ∉ l → m'.prev k = m.prev k ∧ m'.next k = m.next k

/-- A crate that keeps the contract keeps the weaker one. -/
theorem LawfulTrees.weaken {X : TreesCrate} (h : LawfulTrees X) : LawfulTrees₀ X where
  leaf := h.leaf
  attach lt gt m t r n h1 h2 h3 h4 h5 h6 _ := by
    obtain ⟨m', r', t', g1, g2⟩ := h.attach lt gt m t r n h1 h2 h3 h4 h5 h6
    exact ⟨m', r', g1, t', g2⟩
  detach lt gt m t r n h1 h2 h3 h4 := by
    obtain ⟨m', r', t', g1, g2⟩ := h.detach lt gt m t r n h1 h2 h3 fun k hk hkn => h4 n h3 k hk (Ne.symm hkn)
    exact ⟨m', r', g1, t', g2⟩
  listAttachFirst := h.listAttachFirst
  listDetach := h.listDetach

/-! ### Trees of the crate's shape exist for every list of nodes -/

/-- The tree in a memory is determined by its root. -/
theorem Holds.unique {m : TMem} : ∀ {t t' : Tree} {r : Nat}, Holds m t r → Holds m t' r → t = t'
  | .leaf, .leaf, _, _, _ => rfl
  | .leaf, .node _ _ _, _, h, h' => by obtain ⟨e, h0, -⟩ := h'; exact absurd (e.symm.trans h) h0
  | .node _ _ _, .leaf, _, h, h' => by obtain ⟨e, h0, -⟩ := h; exact absurd (e.symm.trans h') h0
  | .node a k b, .node a' k' b', _, h, h' => by
    obtain ⟨e, -, h1, h2, -⟩ := h
    obtain ⟨e', -, h1', h2', -⟩ := h'
    obtain rfl : k = k' := e.symm.trans e'
    rw [Holds.unique h1 h1', Holds.unique h2 h2']

/-- The memory with a tree written into it. -/
def writeTree (m : TMem) : Tree → TMem
  | .leaf => m
  | .node a k b =>
    let m1 := writeTree (writeTree m a) b
    { left := fun x => if x = k then a.root else m1.left x
      right := fun x => if x = k then b.root else m1.right x
      size := fun x => if x = k then (Tree.node a k b).size else m1.size x }

theorem writeTree_off (m : TMem) : ∀ (t : Tree) (k : Nat), k ∉ t.toList →
    (writeTree m t).left k = m.left k ∧ (writeTree m t).right k = m.right k ∧ (writeTree m t).size k = m.size k
  | .leaf, _, _ => ⟨rfl, rfl, rfl⟩
  | .node a x b, k, hk => by
    simp only [Tree.toList, List.mem_append, List.mem_cons, not_or] at hk
    have h1 := writeTree_off m a k hk.1
    have h2 := writeTree_off (writeTree m a) b k hk.2.2
    simp only [writeTree, if_neg hk.2.1]
    exact ⟨h2.1.trans h1.1, h2.2.1.trans h1.2.1, h2.2.2.trans h1.2.2⟩

theorem writeTree_holds : ∀ (m : TMem) (t : Tree), t.toList.Nodup → (∀ k ∈ t.toList, k ≠ 0) → Holds (writeTree m t) t t.root
  | _, .leaf, _, _ => rfl
  | m, .node a x b, hn, h0 => by
    simp only [Tree.toList, List.nodup_append, List.nodup_cons, List.mem_cons] at hn
    obtain ⟨hna, ⟨hxb, hnb⟩, hab⟩ := hn
    have hxa : x ∉ a.toList := fun e => hab x e x (.inl rfl) rfl
    have ha := writeTree_holds m a hna fun k hk => h0 k (by simp [Tree.toList, hk])
    have hb := writeTree_holds (writeTree m a) b hnb fun k hk => h0 k (by simp [Tree.toList, hk])
    refine ⟨rfl, h0 x (by simp [Tree.toList]), ?_, ?_, by simp [writeTree]⟩
    · simp only [writeTree, if_true]
      refine ha.congr fun k hk => ?_
      have hkx : k ≠ x := fun e => hxa (e ▸ hk)
      simp only [hkx, if_false]
      exact writeTree_off _ b k fun hb => hab k hk k (.inr hb) rfl
    · simp only [writeTree, if_true]
      refine hb.congr fun k hk => ?_
      have hkx : k ≠ x := fun e => hxb (e ▸ hk)
      simp only [hkx, if_false, and_self]

/-- Two lists with the same elements in the same strict order are the same list. -/
theorem sorted_unique {R : Nat → Nat → Prop} (hasym : ∀ a b, R a b → R b a → False) : ∀ {l l' : List Nat}, l.Pairwise R →
    l'.Pairwise R → l.Perm l' → l = l'
  | [], l', _, _, hp => (List.perm_nil.1 hp.symm).symm
  | a :: l, [], _, _, hp => absurd (List.perm_nil.1 hp) (by simp)
  | a :: l, b :: l', h, h', hp => by
    rw [List.pairwise_cons] at h h'
    have hab : a = b := by
      rcases List.mem_cons.1 (hp.mem_iff.1 (List.mem_cons_self (a := a) (l := l))) with e | e
      · exact e
      rcases List.mem_cons.1 (hp.mem_iff.2 (List.mem_cons_self (a := b) (l := l'))) with e' | e'
      · exact e'.symm
      exact (hasym a b (h.1 b e') (h'.1 a e)).elim
    subst hab
    rw [sorted_unique hasym h.2 h'.2 ((List.perm_cons a).1 hp)]

/-- Order by position in a list. -/
def posLt (l : List Nat) (a b : Nat) : Bool := l.idxOf a < l.idxOf b

theorem posOrd (l : List Nat) : WeakOrd (posLt l) (fun a b => posLt l b a) where
  gt_eq _ _ := rfl
  irrefl a := by simp [posLt]
  trans a b c := by simp only [posLt, decide_eq_true_eq]; omega
  ntrans a b c := by simp only [posLt, decide_eq_false_iff_not]; omega

theorem idxOf_inj {l : List Nat} {a b : Nat} (ha : a ∈ l) (h : l.idxOf a = l.idxOf b) : a = b := by
  have h1 := List.idxOf_lt_length_of_mem ha
  have e1 : l[l.idxOf a] = a := List.getElem_idxOf h1
  have e2 : l[l.idxOf b]'(h ▸ h1) = b := List.getElem_idxOf (h ▸ h1)
  rw [← e1, ← e2]
  simp only [h]

theorem posLt_sorted {l : List Nat} (hn : l.Nodup) : l.Pairwise fun a b => posLt l a b = true := by
  rw [List.pairwise_iff_getElem]
  intro i j hi hj hij
  simp only [posLt, decide_eq_true_eq]
  rw [hn.idxOf_getElem, hn.idxOf_getElem]
  exact hij

theorem LawfulTrees₀.tree_of {X : TreesCrate} (h : LawfulTrees₀ X) (l : List Nat) (hn : l.Nodup) (h0 : ∀ k ∈ l, k ≠ 0) :
    ∃ t, X.shape t ∧ t.toList = l := by
  -- insert the nodes one after another, in the order of their positions in `l`
  have key : ∀ l', l'.Nodup → (∀ k ∈ l', k ∈ l) → ∃ m t r, IsTree X.shape (posLt l) m t r ∧ t.toList.Perm l' ∧
      ∀ k, k ∉ l' → m.left k = 0 ∧ m.right k = 0 := by
    intro l'
    induction l' with
    | nil =>
      intro _ _
      exact ⟨⟨fun _ => 0, fun _ => 0, fun _ => 0⟩, .leaf, 0, IsTree.leaf h.leaf _ _, List.Perm.refl _, fun _ _ => ⟨rfl, rfl⟩⟩
    | cons n l' ih =>
      intro hn' hsub
      rw [List.nodup_cons] at hn'
      obtain ⟨m, t, r, i1, i2, i3⟩ := ih hn'.2 fun k hk => hsub k (by simp [hk])
      obtain ⟨m', r', g1, t', g2, g3, g4⟩ := h.attach (posLt l) (fun a b => posLt l b a) m t r n (posOrd l) i1
        (h0 n (hsub n (by simp))) (fun e => hn'.1 (i2.mem_iff.1 e)) (i3 n hn'.1).1 (i3 n hn'.1).2 (by
          intro a ha b hb hab
          have hal : a ∈ l := by
            rcases List.mem_cons.1 ha with rfl | ha
            · exact hsub a (by simp)
            · exact hsub a (by simp [i2.mem_iff.1 ha])
          simp only [posLt, decide_eq_true_eq]
          have : l.idxOf a ≠ l.idxOf b := fun e => hab (idxOf_inj hal e)
          omega)
      refine ⟨m', t', r', g2, g3.trans ((List.perm_cons n).2 i2), fun k hk => ?_⟩
      simp only [List.mem_cons, not_or] at hk
      have := g4 k (by simp only [List.mem_cons, not_or]; exact ⟨hk.1, fun e => hk.2 (i2.mem_iff.1 e)⟩)
      rw [this.1, this.2.1]
      exact i3 k hk.2
  obtain ⟨m, t, r, h1, h2, -⟩ := key l hn fun _ hk => hk
  refine ⟨t, h1.shape, sorted_unique (R := fun a b => posLt l a b = true) ?_ ?_ (posLt_sorted hn) h2⟩
  · intro a b; simp only [posLt, decide_eq_true_eq]; omega
  · have hnd := h1.nodup
    have hord := h1.ordered
    unfold Ordered at hord
    refine (hord.and (List.Pairwise.and_mem.1 hnd)).imp fun {a b} hab => ?_
    have h1 := hab.1
    simp only [posLt, decide_eq_false_iff_not] at h1
    simp only [posLt, decide_eq_true_eq]
    have : l.idxOf a ≠ l.idxOf b := fun e => hab.2.2.2 (idxOf_inj (h2.mem_iff.1 hab.2.1) e)
    omega

/-! ### The mended crate -/

open Classical in
/-- `X` where the weaker contract covers the operation, and any right result elsewhere. -/
noncomputable def mend (X : TreesCrate) : TreesCrate where
  shape := X.shape
  treeAttach lt gt m r n :=
    if ∃ t, IsTree X.shape lt m t r ∧ Apart lt gt (n :: t.toList) then X.treeAttach lt gt m r n
    else if h : ∃ p : TMem × Nat, ∃ t, IsTree X.shape lt m t r ∧ Inserted X.shape lt m t n p.1 p.2 then some h.choose else none
  treeDetach lt gt m r n :=
    if ∃ t, IsTree X.shape lt m t r ∧ Apart lt gt t.toList then X.treeDetach lt gt m r n
    else if h : ∃ p : TMem × Nat, ∃ t, IsTree X.shape lt m t r ∧ Removed X.shape lt m t n p.1 p.2 then some h.choose else none
  listAttachFirst := X.listAttachFirst
  listDetach := X.listDetach

theorem mend_attach {X : TreesCrate} {lt gt : Nat → Nat → Bool} {m : TMem} {t : Tree} {r n : Nat} (h : IsTree X.shape lt m t r)
    (ha : Apart lt gt (n :: t.toList)) : (mend X).treeAttach lt gt m r n = X.treeAttach lt gt m r n := by
  simp only [mend]
  rw [if_pos ⟨t, h, ha⟩]

theorem mend_detach {X : TreesCrate} {lt gt : Nat → Nat → Bool} {m : TMem} {t : Tree} {r n : Nat} (h : IsTree X.shape lt m t r)
    (ha : Apart lt gt t.toList) : (mend X).treeDetach lt gt m r n = X.treeDetach lt gt m r n := by
  simp only [mend]
  rw [if_pos ⟨t, h, ha⟩]

/-- A stable insertion. -/
theorem insert_list {lt gt : Nat → Nat → Bool} (w : WeakOrd lt gt) (n : Nat) : ∀ (l : List Nat), Ordered lt l →
    ∃ l', Ordered lt l' ∧ l'.Perm (n :: l)
  | [], _ => ⟨[n], by simp [Ordered], List.Perm.refl _⟩
  | a :: l, h => by
    by_cases hna : lt a n = true
    · unfold Ordered at h
      rw [List.pairwise_cons] at h
      obtain ⟨l', h1, h2⟩ := insert_list w n l h.2
      refine ⟨a :: l', List.pairwise_cons.2 ⟨fun b hb => ?_, h1⟩, ((List.perm_cons a).2 h2).trans (List.Perm.swap n a l)⟩
      rcases List.mem_cons.1 (h2.mem_iff.1 hb) with rfl | hb
      · cases e : lt b a with
        | false => rfl
        | true => exact absurd (w.trans _ _ _ hna e) (by simp [w.irrefl])
      · exact h.1 b hb
    · refine ⟨n :: a :: l, List.pairwise_cons.2 ⟨fun b hb => ?_, h⟩, List.Perm.refl _⟩
      have hna : lt a n = false := by simpa using hna
      rcases List.mem_cons.1 hb with rfl | hb
      · exact hna
      · exact w.ntrans _ _ _ ((List.pairwise_cons.1 h).1 b hb) hna

theorem mend_lawful {X : TreesCrate} (h : LawfulTrees₀ X) : LawfulTrees (mend X) where
  leaf := h.leaf
  attach lt gt m t r n h1 h2 h3 h4 h5 h6 := by
    by_cases ha : ∃ t, IsTree X.shape lt m t r ∧ Apart lt gt (n :: t.toList)
    · obtain ⟨t0, g1, g2⟩ := ha
      rw [mend_attach g1 g2]
      obtain rfl := Holds.unique h2.holds g1.holds
      obtain ⟨m', r', q1, t', q2⟩ := h.attach lt gt m t r n h1 h2 h3 h4 h5 h6 g2
      exact ⟨m', r', t', q1, q2⟩
    · have hex : ∃ p : TMem × Nat, ∃ t, IsTree X.shape lt m t r ∧ Inserted X.shape lt m t n p.1 p.2 := by
        obtain ⟨l', o1, o2⟩ := insert_list h1 n t.toList h2.ordered
        have hn' : l'.Nodup := o2.nodup_iff.2 (List.nodup_cons.2 ⟨h4, h2.nodup⟩)
        have h0' : ∀ k ∈ l', k ≠ 0 := fun k hk => by
          rcases List.mem_cons.1 (o2.mem_iff.1 hk) with rfl | hk
          · exact h3
          · exact h2.holds.nonzero k hk
        obtain ⟨t', s1, s2⟩ := h.tree_of l' hn' h0'
        refine ⟨(writeTree m t', t'.root), t, h2, t', ⟨s1, writeTree_holds m t' (s2 ▸ hn') (s2 ▸ h0'), s2 ▸ hn', s2 ▸ o1⟩, s2 ▸ o2, ?_⟩
        exact fun k hk => writeTree_off m t' k fun e => hk (o2.mem_iff.1 (s2 ▸ e))
      obtain ⟨t0, g1, t', g2⟩ := hex.choose_spec
      obtain rfl := Holds.unique h2.holds g1.holds
      refine ⟨hex.choose.1, hex.choose.2, t', ?_, g2⟩
      simp only [mend]
      rw [if_neg ha, dif_pos hex]
  detach lt gt m t r n h1 h2 h3 h4 := by
    by_cases ha : ∃ t, IsTree X.shape lt m t r ∧ Apart lt gt t.toList
    · obtain ⟨t0, g1, g2⟩ := ha
      rw [mend_detach g1 g2]
      obtain rfl := Holds.unique h2.holds g1.holds
      obtain ⟨m', r', q1, t', q2⟩ := h.detach lt gt m t r n h1 h2 h3 g2
      exact ⟨m', r', t', q1, q2⟩
    · have hex : ∃ p : TMem × Nat, ∃ t, IsTree X.shape lt m t r ∧ Removed X.shape lt m t n p.1 p.2 := by
        have hsub : (t.toList.erase n).Sublist t.toList := List.erase_sublist
        have hn' : (t.toList.erase n).Nodup := h2.nodup.erase n
        have hnot : n ∉ t.toList.erase n := fun hm => ((h2.nodup.mem_erase_iff).1 hm).1 rfl
        have h0' : ∀ k ∈ t.toList.erase n, k ≠ 0 := fun k hk => h2.holds.nonzero k (hsub.subset hk)
        obtain ⟨t', s1, s2⟩ := h.tree_of _ hn' h0'
        let m' : TMem := ⟨fun k => if k = n then 0 else (writeTree m t').left k, fun k => if k = n then 0 else (writeTree m t').right k,
          fun k => if k = n then 0 else (writeTree m t').size k⟩
        have hne : ∀ k ∈ t'.toList, k ≠ n := fun k hk e => hnot (s2 ▸ e ▸ hk)
        refine ⟨(m', t'.root), t, h2, t', ⟨s1, ?_, s2 ▸ hn', s2 ▸ h2.ordered.sublist hsub⟩, ?_, by simp [m'], by simp [m'], by simp [m'], ?_⟩
        · exact (writeTree_holds m t' (s2 ▸ hn') (s2 ▸ h0')).congr fun k hk => by simp [m', hne k hk]
        · rw [s2]; exact (List.perm_cons_erase h3).symm
        · intro k hk
          have hkn : k ≠ n := fun e => hk (e ▸ h3)
          have := writeTree_off m t' k fun e => hk (hsub.subset (s2 ▸ e))
          simp [m', hkn, this]
      obtain ⟨t0, g1, t', g2⟩ := hex.choose_spec
      obtain rfl := Holds.unique h2.holds g1.holds
      refine ⟨hex.choose.1, hex.choose.2, t', ?_, g2⟩
      simp only [mend]
      rw [if_neg ha, dif_pos hex]
  listAttachFirst := h.listAttachFirst
  listDetach := h.listDetach

end Verif
