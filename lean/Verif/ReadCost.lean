import Verif.TreeRead

/-!
# How much of a tree the read algorithms look at

`Touch R F get`: what `F` computes through the accessor `get` is determined by the nodes in `R`. The lemmas bound the
length of `R` by the height of the tree.
-/

namespace Verif

namespace Tree

/-- Number of nodes on the longest way down. -/
def height : Tree → Nat
  | leaf => 0
  | node l _ r => max l.height r.height + 1

/-- Size of the larger child. -/
def larger : Tree → Nat
  | leaf => 0
  | node l _ r => max l.size r.size

/-- No node's grandchild is larger than the child on the other side: the balance condition of size-balanced trees. -/
def SizeBalanced : Tree → Prop
  | leaf => True
  | node l _ r => l.SizeBalanced ∧ r.SizeBalanced ∧ l.larger ≤ r.size ∧ r.larger ≤ l.size

instance decidableSizeBalanced : (t : Tree) → Decidable t.SizeBalanced
  | leaf => isTrue trivial
  | node l _ r =>
    have := decidableSizeBalanced l
    have := decidableSizeBalanced r
    inferInstanceAs (Decidable (_ ∧ _ ∧ _ ∧ _))

/-- A size-balanced tree of height `h` has at least `2 ^ (h / 2)` nodes, counting one more. -/
theorem SizeBalanced.height_bound : ∀ (n : Nat) (t : Tree), t.height ≤ n → t.SizeBalanced →
    2 ^ (t.height / 2) ≤ t.size + 1 ∧ (1 ≤ t.height → 2 ^ ((t.height + 1) / 2) ≤ t.size + 1) := by
  intro n
  induction n with
  | zero =>
    intro t h hb
    cases t with
    | leaf => simp [height, size]
    | node l k r => simp [height] at h
  | succ n ih =>
    intro t h hb
    cases t with
    | leaf => simp [height, size]
    | node l k r =>
      obtain ⟨hl, hr, h1, h2⟩ := hb
      simp only [height] at h
      -- the taller child `x` and the other child `y`
      have key : ∀ x y : Tree, x.SizeBalanced → x.height ≤ n →
          x.larger ≤ y.size →
          2 ^ ((x.height + 1) / 2) ≤ x.size + y.size + 2 ∧ 2 ^ ((x.height + 1 + 1) / 2) ≤ x.size + y.size + 2 := by
        intro x y hx hxn hxy
        cases x with
        | leaf => simp [height, size]
        | node a j b =>
          have ia := ih a (by simp only [height] at hxn; omega) hx.1
          have ib := ih b (by simp only [height] at hxn; omega) hx.2.1
          have ix := (ih (node a j b) hxn hx).2 (by simp [height])
          simp only [height, size, larger] at ix hxy ⊢
          -- the taller grandchild
          have hg : 2 ^ (max a.height b.height / 2) ≤ y.size + 1 := by
            rcases Nat.le_total a.height b.height with h | h
            · rw [Nat.max_eq_right h]; have := ib.1; omega
            · rw [Nat.max_eq_left h]; have := ia.1; omega
          have e2 : (max a.height b.height + 1 + 1) / 2 = max a.height b.height / 2 + 1 := by omega
          rw [e2] at ix ⊢
          rcases Nat.mod_two_eq_zero_or_one (max a.height b.height) with hm | hm
          · have e3 : (max a.height b.height + 1 + 1 + 1) / 2 = max a.height b.height / 2 + 1 := by omega
            rw [e3]
            omega
          · have e3 : (max a.height b.height + 1 + 1 + 1) / 2 = max a.height b.height / 2 + 1 + 1 := by omega
            rw [e3]
            have hg2 : 2 ^ (max a.height b.height / 2 + 1) ≤ y.size + 1 := by
              rcases Nat.le_total a.height b.height with h | h
              · rw [Nat.max_eq_right h] at hm ⊢
                have := ib.2 (by omega)
                rw [show (b.height + 1) / 2 = b.height / 2 + 1 by omega] at this; omega
              · rw [Nat.max_eq_left h] at hm ⊢
                have := ia.2 (by omega)
                rw [show (a.height + 1) / 2 = a.height / 2 + 1 by omega] at this; omega
            have := Nat.pow_succ (n := 2) (m := max a.height b.height / 2 + 1)
            omega
      simp only [height, size]
      rcases Nat.le_total l.height r.height with hh | hh
      · rw [Nat.max_eq_right hh]
        have := key r l hr (by omega) h2
        exact ⟨by omega, fun _ => by omega⟩
      · rw [Nat.max_eq_left hh]
        have := key l r hl (by omega) h1
        exact ⟨by omega, fun _ => by omega⟩

/-- The height of a size-balanced tree is at most twice the logarithm of its size. -/
theorem SizeBalanced.height_le {t : Tree} (h : t.SizeBalanced) {n : Nat} (hn : t.size ≤ n) :
    t.height ≤ 2 * Nat.log2 (n + 1) := by
  cases t with
  | leaf => simp [height]
  | node l k r =>
    have := (height_bound _ _ (Nat.le_refl _) h).2 (by simp [height])
    have h2 : 2 ^ (((node l k r).height + 1) / 2) ≤ n + 1 := by omega
    have := (Nat.le_log2 (by omega)).2 h2
    omega

end Tree

/-- `F` computed through `get` depends on the nodes in `R` only. -/
def Touch {α : Type} (R : List Nat) (F : (Nat → Option Node) → α) (get : Nat → Option Node) : Prop :=
  ∀ get', (∀ k ∈ R, get' k = get k) → F get' = F get

theorem searchLoop_touch {get : Nat → Option Node} {lk : Nat → Nat × Nat}
    (lt4 gt4 : Nat → Nat → Nat → Nat → Bool) (x y : Nat) :
    ∀ (t : Tree) (r fuel : Nat), Rep get lk t r →
      ∃ R, R.length ≤ t.height ∧ Touch R (fun g => searchLoop g lt4 gt4 x y fuel r) get ∧
        ∀ k, searchLoop get lt4 gt4 x y fuel r = some k → k = 0 ∨ k ∈ R := by
  intro t
  induction t with
  | leaf =>
    intro r fuel hr
    simp only [Rep] at hr
    subst hr
    refine ⟨[], Nat.le_refl _, fun g _ => by cases fuel <;> simp [searchLoop], fun k hk => ?_⟩
    cases fuel with
    | zero => simp [searchLoop] at hk
    | succ => simp [searchLoop] at hk; exact .inl hk.symm
  | node a k b iha ihb =>
    intro r fuel hr
    obtain ⟨rfl, hk, nd, hget, hlk, ha, hb, -⟩ := hr
    cases fuel with
    | zero => exact ⟨[], Nat.zero_le _, fun g _ => rfl, fun k hk => by simp [searchLoop] at hk⟩
    | succ fuel =>
      obtain ⟨Ra, la, ta, fa⟩ := iha nd.left fuel ha
      obtain ⟨Rb, lb, tb, fb⟩ := ihb nd.right fuel hb
      have go : ∀ (R : List Nat), R.length ≤ (Tree.node a r b).height → r ∈ R →
          (∀ g, (∀ k ∈ R, g k = get k) → searchLoop g lt4 gt4 x y (fuel + 1) r =
            searchLoop get lt4 gt4 x y (fuel + 1) r) →
          (∀ k, searchLoop get lt4 gt4 x y (fuel + 1) r = some k → k = 0 ∨ k ∈ R) →
          ∃ R : List Nat, R.length ≤ (Tree.node a r b).height ∧
            Touch R (fun g => searchLoop g lt4 gt4 x y (fuel + 1) r) get ∧
            ∀ k, searchLoop get lt4 gt4 x y (fuel + 1) r = some k → k = 0 ∨ k ∈ R :=
        fun R h1 _ h2 h3 => ⟨R, h1, h2, h3⟩
      by_cases h1 : lt4 x y nd.source nd.target = true
      · refine go (r :: Ra) (by simp only [Tree.height, List.length_cons]; omega) (by simp) ?_ ?_
        · intro g hg
          simp only [searchLoop, hk, if_false, hg r (by simp), hget, h1, if_true]
          exact ta g fun k hk => hg k (by simp [hk])
        · intro k hk'
          simp only [searchLoop, hk, if_false, hget, h1, if_true] at hk'
          rcases fa k hk' with h | h
          · exact .inl h
          · exact .inr (by simp [h])
      · by_cases h2 : gt4 x y nd.source nd.target = true
        · refine go (r :: Rb) (by simp only [Tree.height, List.length_cons]; omega) (by simp) ?_ ?_
          · intro g hg
            simp only [searchLoop, hk, if_false, hg r (by simp), hget, h1, h2, Bool.false_eq_true, if_false, if_true]
            exact tb g fun k hk => hg k (by simp [hk])
          · intro k hk'
            simp only [searchLoop, hk, if_false, hget, h1, h2, Bool.false_eq_true, if_false, if_true] at hk'
            rcases fb k hk' with h | h
            · exact .inl h
            · exact .inr (by simp [h])
        · refine go [r] (by simp [Tree.height]) (by simp) ?_ ?_
          · intro g hg
            simp only [searchLoop, hk, if_false, hg r (by simp), hget, h1, h2, Bool.false_eq_true, if_false]
          · intro k hk'
            simp only [searchLoop, hk, if_false, hget, h1, h2, Bool.false_eq_true, Option.some.injEq] at hk'
            exact .inr (by simp [hk'])

/-- `sizeOrZero` looks at one node. -/
theorem sizeOrZero_touch (get : Nat → Option Node) (n : Nat) : Touch [n] (fun g => sizeOrZero g n) get := by
  intro g hg
  simp only [sizeOrZero, hg n (by simp)]

theorem countRight_touch {get : Nat → Option Node} {lk : Nat → Nat × Nat} (maxT : Nat) (base : Node → Nat)
    (v : Nat) : ∀ (t : Tree) (r fuel acc : Nat), Rep get lk t r →
      ∃ R, R.length ≤ 2 * t.height ∧ Touch R (fun g => countRight g maxT base v fuel r acc) get := by
  intro t
  induction t with
  | leaf =>
    intro r fuel acc hr
    simp only [Rep] at hr
    subst hr
    exact ⟨[], Nat.le_refl _, fun g _ => by cases fuel <;> simp [countRight]⟩
  | node a k b iha ihb =>
    intro r fuel acc hr
    obtain ⟨rfl, hk, nd, hget, hlk, ha, hb, -⟩ := hr
    cases fuel with
    | zero => exact ⟨[], Nat.zero_le _, fun g _ => rfl⟩
    | succ fuel =>
      by_cases h1 : base nd ≤ v
      · obtain ⟨R, hl, ht⟩ := ihb nd.right fuel acc hb
        refine ⟨r :: R, by simp only [Tree.height, List.length_cons]; omega, fun g hg => ?_⟩
        simp only [countRight, hk, if_false, hg r (by simp), hget, h1, if_true]
        exact ht g fun k hk => hg k (by simp [hk])
      · cases hs : (sizeOrZero get nd.right).bind fun rs => (cadd maxT rs 1).bind (cadd maxT acc) with
        | none =>
          refine ⟨[r, nd.right], by simp only [Tree.height, List.length_cons, List.length_nil]; omega,
            fun g hg => ?_⟩
          simp only [countRight, hk, if_false, hg r (by simp), hget, h1,
            sizeOrZero_touch get nd.right g (fun k hk => hg k (by simp at hk; simp [hk])), hs]
        | some acc' =>
          obtain ⟨R, hl, ht⟩ := iha nd.left fuel acc' ha
          refine ⟨r :: nd.right :: R, by simp only [Tree.height, List.length_cons]; omega, fun g hg => ?_⟩
          simp only [countRight, hk, if_false, hg r (by simp), hget, h1,
            sizeOrZero_touch get nd.right g (fun k hk => hg k (by simp at hk; simp [hk])), hs]
          exact ht g fun k hk => hg k (by simp [hk])

theorem countLeft_touch {get : Nat → Option Node} {lk : Nat → Nat × Nat} (maxT : Nat) (base : Node → Nat)
    (v : Nat) : ∀ (t : Tree) (r fuel acc : Nat), Rep get lk t r →
      ∃ R, R.length ≤ 2 * t.height ∧ Touch R (fun g => countLeft g maxT base v fuel r acc) get := by
  intro t
  induction t with
  | leaf =>
    intro r fuel acc hr
    simp only [Rep] at hr
    subst hr
    exact ⟨[], Nat.le_refl _, fun g _ => by cases fuel <;> simp [countLeft]⟩
  | node a k b iha ihb =>
    intro r fuel acc hr
    obtain ⟨rfl, hk, nd, hget, hlk, ha, hb, -⟩ := hr
    cases fuel with
    | zero => exact ⟨[], Nat.zero_le _, fun g _ => rfl⟩
    | succ fuel =>
      by_cases h1 : v ≤ base nd
      · obtain ⟨R, hl, ht⟩ := iha nd.left fuel acc ha
        refine ⟨r :: R, by simp only [Tree.height, List.length_cons]; omega, fun g hg => ?_⟩
        simp only [countLeft, hk, if_false, hg r (by simp), hget, h1, if_true]
        exact ht g fun k hk => hg k (by simp [hk])
      · cases hs : (sizeOrZero get nd.left).bind fun rs => (cadd maxT rs 1).bind (cadd maxT acc) with
        | none =>
          refine ⟨[r, nd.left], by simp only [Tree.height, List.length_cons, List.length_nil]; omega,
            fun g hg => ?_⟩
          simp only [countLeft, hk, if_false, hg r (by simp), hget, h1,
            sizeOrZero_touch get nd.left g (fun k hk => hg k (by simp at hk; simp [hk])), hs]
        | some acc' =>
          obtain ⟨R, hl, ht⟩ := ihb nd.right fuel acc' hb
          refine ⟨r :: nd.left :: R, by simp only [Tree.height, List.length_cons]; omega, fun g hg => ?_⟩
          simp only [countLeft, hk, if_false, hg r (by simp), hget, h1,
            sizeOrZero_touch get nd.left g (fun k hk => hg k (by simp at hk; simp [hk])), hs]
          exact ht g fun k hk => hg k (by simp [hk])

theorem countUsages_touch {get : Nat → Option Node} {lk : Nat → Nat × Nat} (maxT : Nat) (base : Node → Nat)
    (v : Nat) (t : Tree) (r fuel : Nat) (hr : Rep get lk t r) :
    ∃ R, R.length ≤ 4 * t.height + 1 ∧ Touch R (fun g => countUsages g maxT base fuel r v) get := by
  obtain ⟨R1, l1, t1⟩ := countRight_touch maxT base v t r fuel 0 hr
  obtain ⟨R2, l2, t2⟩ := countLeft_touch maxT base v t r fuel 0 hr
  refine ⟨r :: (R1 ++ R2), by simp only [List.length_cons, List.length_append]; omega, fun g hg => ?_⟩
  have e1 := t1 g fun k hk => hg k (by simp [hk])
  have e2 := t2 g fun k hk => hg k (by simp [hk])
  simp only at e1 e2
  simp only [countUsages, hg r (by simp), e1, e2]

/-- Nodes `eachUsages` looks at if the handler never breaks. -/
def touched (f : Nat → Nat) (b : Nat) : Tree → List Nat
  | .leaf => []
  | .node l k r =>
    if b < f k then k :: touched f b l else if f k < b then k :: touched f b r
    else k :: (touched f b l ++ touched f b r)

theorem eachUsages_touch {get : Nat → Option Node} {lk : Nat → Nat × Nat} {base : Node → Nat} {f : Nat → Nat}
    (hf : ∀ nd k, (nd.source, nd.target) = lk k → base nd = f k) {σ : Type} (h : RH σ) (v : Nat) :
    ∀ (t : Tree) (r fuel : Nat) (st : σ), Rep get lk t r →
      Touch (touched f v t) (fun g => eachUsages g base v h fuel r st) get := by
  intro t
  induction t with
  | leaf =>
    intro r fuel st hr g hg
    simp only [Rep] at hr
    subst hr
    cases fuel <;> simp [eachUsages]
  | node a k b iha ihb =>
    intro r fuel st hr g hg
    obtain ⟨rfl, hk, nd, hget, hlk, ha, hb, -⟩ := hr
    cases fuel with
    | zero => rfl
    | succ fuel =>
      have hb' := hf nd r hlk
      have hr : r ∈ touched f v (.node a r b) := by
        simp only [touched]; split
        · simp
        · split <;> simp
      simp only [eachUsages, hk, if_false, hg r hr, hget, hb']
      simp only [touched] at hg
      by_cases h1 : v < f r
      · simp only [h1, if_true] at hg ⊢
        exact iha nd.left fuel st ha g fun k hk => hg k (by simp [hk])
      · by_cases h2 : f r < v
        · simp only [h1, h2, if_false, if_true] at hg ⊢
          exact ihb nd.right fuel st hb g fun k hk => hg k (by simp [hk])
        · simp only [h1, h2, if_false] at hg ⊢
          have e1 := fun st => iha nd.left fuel st ha g fun k hk => hg k (by simp [hk])
          have e2 := fun st => ihb nd.right fuel st hb g fun k hk => hg k (by simp [hk])
          simp only at e1 e2
          simp only [e1, e2]

theorem touched_le (f : Nat → Nat) (b : Nat) : ∀ (t : Tree), (t.toList.Pairwise fun x y => f x ≤ f y) →
    (touched f b t).length ≤ (walk f b t).length + 2 * t.height ∧
    ((∀ k ∈ t.toList, f k ≤ b) → (touched f b t).length ≤ (walk f b t).length + t.height) ∧
    ((∀ k ∈ t.toList, b ≤ f k) → (touched f b t).length ≤ (walk f b t).length + t.height) := by
  intro t
  induction t with
  | leaf => intro _; simp [touched]
  | node l k r ihl ihr =>
    intro hs
    simp only [Tree.toList, List.pairwise_append, List.pairwise_cons, List.mem_cons, forall_eq_or_imp] at hs
    obtain ⟨hl, ⟨hkr, hr⟩, hlk⟩ := hs
    obtain ⟨l1, l2, l3⟩ := ihl hl
    obtain ⟨r1, r2, r3⟩ := ihr hr
    simp only [touched, walk, Tree.height, Tree.toList, List.mem_append, List.mem_cons]
    by_cases h1 : b < f k
    · simp only [h1, if_true, List.length_cons]
      refine ⟨by omega, fun h => ?_, fun h => ?_⟩
      · have := h k (by simp); omega
      · have := l3 fun j hj => h j (by simp [hj]); omega
    · by_cases h2 : f k < b
      · simp only [h1, h2, if_false, if_true, List.length_cons]
        refine ⟨by omega, fun h => ?_, fun h => ?_⟩
        · have := r2 fun j hj => h j (by simp [hj]); omega
        · have := h k (by simp); omega
      · have hkb : f k = b := by omega
        have a2 := l2 fun j hj => by have := (hlk j hj).1; omega
        have a3 := r3 fun j hj => by have := hkr j hj; omega
        simp only [h1, h2, if_false, List.length_cons, List.length_append]
        refine ⟨by omega, fun h => ?_, fun h => ?_⟩
        · -- right part: all equal to `b`
          have b2 := r2 fun j hj => h j (by simp [hj])
          have hall : ∀ (t : Tree), (∀ j ∈ t.toList, f j = b) →
              (touched f b t).length = (walk f b t).length := by
            intro t
            induction t with
            | leaf => intro _; rfl
            | node x j y ihx ihy =>
              intro ht
              have hj : f j = b := ht j (by simp [Tree.toList])
              have i1 := ihx fun m hm => ht m (by simp [Tree.toList, hm])
              have i2 := ihy fun m hm => ht m (by simp [Tree.toList, hm])
              simp [touched, walk, hj, i1, i2]
          have := hall r fun j hj => by have := hkr j hj; have := h j (by simp [hj]); omega
          omega
        · have hall : ∀ (t : Tree), (∀ j ∈ t.toList, f j = b) →
              (touched f b t).length = (walk f b t).length := by
            intro t
            induction t with
            | leaf => intro _; rfl
            | node x j y ihx ihy =>
              intro ht
              have hj : f j = b := ht j (by simp [Tree.toList])
              have i1 := ihx fun m hm => ht m (by simp [Tree.toList, hm])
              have i2 := ihy fun m hm => ht m (by simp [Tree.toList, hm])
              simp [touched, walk, hj, i1, i2]
          have := hall l fun j hj => by have := (hlk j hj).1; have := h j (by simp [hj]); omega
          omega

end Verif
