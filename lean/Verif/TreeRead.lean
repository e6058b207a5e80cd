import Verif.Trees

/-!
# Read-only tree algorithms of the repository

The sources/targets trees of the united store and the external sources/targets trees of the split
store contain the same code up to the accessors used. The loops are written once, over an
accessor `get` (bounds-checked read of a node: `none` = out of bounds) and a base part selector.
-/

namespace Verif

/-- What the tree code reads of a slot. -/
structure Node where
  source : Nat
  target : Nat
  left : Nat
  right : Nat
  size : Nat
deriving DecidableEq, Inhabited

section Code
variable (get : Nat → Option Node)

/-- `search` (`unit/generic/sources_recursionless_size_balanced_tree.rs:159-181`), with
`first_is_to_the_left/right_of_second_4` as `lt4`/`gt4`. -/
def searchLoop (lt4 gt4 : Nat → Nat → Nat → Nat → Bool) (source target : Nat) :
    Nat → Nat → Option Nat
  | 0, _ => none
  | fuel + 1, root =>
    if root = 0 then some 0
    else
      match get root with
      | none => none
      | some nd =>
        if lt4 source target nd.source nd.target then searchLoop lt4 gt4 source target fuel nd.left
        else if gt4 source target nd.source nd.target then
          searchLoop lt4 gt4 source target fuel nd.right
        else some root

/-- `get_size_or_zero` of the external crate, as used through `get_left_size`/`get_right_size`. -/
def sizeOrZero (n : Nat) : Option Nat :=
  if n = 0 then some 0 else (get n).map (·.size)

/-- First loop of `count_usages` (`sources_recursionless_size_balanced_tree.rs:134-143`):
the number of nodes whose base part is greater than `link`. -/
def countRight (maxT : Nat) (base : Node → Nat) (link : Nat) : Nat → Nat → Nat → Option Nat
  | 0, _, _ => none
  | fuel + 1, root, acc =>
    if root = 0 then some acc
    else
      match get root with
      | none => none
      | some nd =>
        if base nd ≤ link then countRight maxT base link fuel nd.right acc
        else
          match (sizeOrZero get nd.right).bind fun rs => (cadd maxT rs 1).bind (cadd maxT acc) with
          | none => none
          | some acc' => countRight maxT base link fuel nd.left acc'

/-- Second loop of `count_usages` (`sources_recursionless_size_balanced_tree.rs:144-154`). -/
def countLeft (maxT : Nat) (base : Node → Nat) (link : Nat) : Nat → Nat → Nat → Option Nat
  | 0, _, _ => none
  | fuel + 1, root, acc =>
    if root = 0 then some acc
    else
      match get root with
      | none => none
      | some nd =>
        if link ≤ base nd then countLeft maxT base link fuel nd.left acc
        else
          match (sizeOrZero get nd.left).bind fun rs => (cadd maxT rs 1).bind (cadd maxT acc) with
          | none => none
          | some acc' => countLeft maxT base link fuel nd.right acc'

/-- `count_usages` (`sources_recursionless_size_balanced_tree.rs:130-157`). `get_size(root)` is read
without a null check, so for an empty tree it reads slot 0, i.e. a header field. -/
def countUsages (maxT : Nat) (base : Node → Nat) (fuel root link : Nat) : Option Nat :=
  (get root).bind fun nd =>
  (countRight get maxT base link fuel root 0).bind fun right =>
  (countLeft get maxT base link fuel root 0).bind fun left =>
  (csub nd.size right).bind fun x => csub x left

/-- `each_usages_core` (`sources_recursionless_size_balanced_tree.rs:105-127`). -/
def eachUsages {σ : Type} (base : Node → Nat) (b : Nat) (h : RH σ) :
    Nat → Nat → σ → Option (Flow × σ)
  | 0, _, _ => none
  | fuel + 1, link, s =>
    if link = 0 then some (.cont, s)
    else
      match get link with
      | none => none
      | some nd =>
        if b < base nd then eachUsages base b h fuel nd.left s
        else if base nd < b then eachUsages base b h fuel nd.right s
        else
          andThen (some (h s ⟨link, nd.source, nd.target⟩)) fun s1 =>
          andThen (eachUsages base b h fuel nd.left s1) fun s2 =>
          eachUsages base b h fuel nd.right s2

end Code

/-! ## Correctness on represented trees -/

/-- `get` exposes the tree `t` at root pointer `r`, and the links stored in its nodes are given by `lk`. -/
def Rep (get : Nat → Option Node) (lk : Nat → Nat × Nat) : Tree → Nat → Prop
  | .leaf, r => r = 0
  | .node a k b, r =>
    r = k ∧ k ≠ 0 ∧ ∃ nd, get k = some nd ∧ (nd.source, nd.target) = lk k ∧
      Rep get lk a nd.left ∧ Rep get lk b nd.right ∧ nd.size = (Tree.node a k b).size

/-- Order in which `eachUsages` visits the nodes. -/
def walk (f : Nat → Nat) (b : Nat) : Tree → List Nat
  | .leaf => []
  | .node l k r =>
    if b < f k then walk f b l else if f k < b then walk f b r else k :: (walk f b l ++ walk f b r)

/-- The link stored at `k`. -/
def mkLink (lk : Nat → Nat × Nat) (k : Nat) : Link := ⟨k, (lk k).1, (lk k).2⟩

theorem eachUsages_eq {get : Nat → Option Node} {lk : Nat → Nat × Nat} {base : Node → Nat}
    {f : Nat → Nat} (hf : ∀ nd k, (nd.source, nd.target) = lk k → base nd = f k)
    {σ : Type} (h : RH σ) (b : Nat) :
    ∀ (t : Tree) (r fuel : Nat) (s : σ), Rep get lk t r → t.size < fuel →
      eachUsages get base b h fuel r s = some (runH h ((walk f b t).map (mkLink lk)) s) := by
  intro t
  induction t with
  | leaf =>
    intro r fuel s hr hfu
    cases fuel with
    | zero => omega
    | succ fuel => simp [Rep] at hr; simp [eachUsages, hr, walk, runH]
  | node l k r' ihl ihr =>
    intro r fuel s hr hfu
    cases fuel with
    | zero => omega
    | succ fuel =>
      obtain ⟨rfl, hk, nd, hget, hlk, hl, hrr, hsz⟩ := hr
      simp only [Tree.size] at hfu
      have hb := hf nd r hlk
      have e1 := fun s => ihl nd.left fuel s hl (by omega)
      have e2 := fun s => ihr nd.right fuel s hrr (by omega)
      simp only [eachUsages, hk, if_false, hget, walk, hb, e1, e2]
      split
      · rfl
      · split
        · rfl
        · have hm : (⟨r, nd.source, nd.target⟩ : Link) = mkLink lk r := by
            simp [mkLink, ← hlk]
          simp only [List.map_cons, List.map_append, runH, hm]
          rcases h s (mkLink lk r) with ⟨_ | _, s'⟩
          · simp only [andThen]; rw [← andThen.eq_def, ← runH_append]
          · simp [andThen]

theorem walk_perm (f : Nat → Nat) (b : Nat) (t : Tree)
    (hs : t.toList.Pairwise fun x y => f x ≤ f y) :
    (walk f b t).Perm (t.toList.filter fun k => f k = b) := by
  induction t with
  | leaf => simp [walk, Tree.toList]
  | node l k r ihl ihr =>
    simp only [Tree.toList, List.pairwise_append, List.pairwise_cons, List.mem_cons,
      forall_eq_or_imp] at hs
    obtain ⟨hl, ⟨hkr, hr⟩, hlk⟩ := hs
    have ihl := ihl hl
    have ihr := ihr hr
    simp only [walk, Tree.toList, List.filter_append, List.filter_cons]
    split
    · have h1 : r.toList.filter (fun k => decide (f k = b)) = [] := by
        simp only [List.filter_eq_nil_iff, decide_eq_true_eq]
        intro a ha; have := hkr a ha; omega
      have h2 : ¬ f k = b := by omega
      simp [h1, h2, ihl]
    · split
      · have h1 : l.toList.filter (fun k => decide (f k = b)) = [] := by
          simp only [List.filter_eq_nil_iff, decide_eq_true_eq]
          intro a ha; have := (hlk a ha).1; omega
        have h2 : ¬ f k = b := by omega
        simp [h1, h2, ihr]
      · have h2 : f k = b := by omega
        simp only [h2, decide_true, if_true]
        exact ((List.Perm.append ihl ihr).cons k).trans List.perm_middle.symm

theorem sizeOrZero_eq {get : Nat → Option Node} {lk : Nat → Nat × Nat} {t : Tree} {r : Nat}
    (hr : Rep get lk t r) : sizeOrZero get r = some t.size := by
  cases t with
  | leaf => simp [Rep] at hr; simp [sizeOrZero, hr, Tree.size]
  | node l k r' =>
    obtain ⟨rfl, hk, nd, hget, hlk, hl, hrr, hsz⟩ := hr
    simp [sizeOrZero, hk, hget, hsz]

theorem countRight_eq {get : Nat → Option Node} {lk : Nat → Nat × Nat} {base : Node → Nat}
    {f : Nat → Nat} (hf : ∀ nd k, (nd.source, nd.target) = lk k → base nd = f k)
    (maxT link : Nat) :
    ∀ (t : Tree) (r fuel acc : Nat), Rep get lk t r → t.size < fuel →
      (t.toList.Pairwise fun x y => f x ≤ f y) → acc + t.size ≤ maxT →
      countRight get maxT base link fuel r acc =
        some (acc + (t.toList.filter fun k => link < f k).length) := by
  intro t
  induction t with
  | leaf =>
    intro r fuel acc hr hfu _ _
    cases fuel with
    | zero => omega
    | succ fuel => simp [Rep] at hr; simp [countRight, hr, Tree.toList]
  | node l k r' ihl ihr =>
    intro r fuel acc hr hfu hs hacc
    cases fuel with
    | zero => omega
    | succ fuel =>
      obtain ⟨rfl, hk, nd, hget, hlk, hl, hrr, hsz⟩ := hr
      simp only [Tree.size] at hfu hacc
      simp only [Tree.toList, List.pairwise_append, List.pairwise_cons, List.mem_cons,
        forall_eq_or_imp] at hs
      obtain ⟨hsl, ⟨hkr, hsr⟩, hlk'⟩ := hs
      have hb := hf nd r hlk
      simp only [countRight, hk, if_false, hget, hb, sizeOrZero_eq hrr, Option.bind_some,
        Tree.toList, List.filter_append, List.filter_cons]
      split
      · rw [ihr nd.right fuel acc hrr (by omega) hsr (by omega)]
        have h1 : l.toList.filter (fun k => decide (link < f k)) = [] := by
          simp only [List.filter_eq_nil_iff, decide_eq_true_eq]
          intro a ha; have := (hlk' a ha).1; omega
        have h2 : ¬ link < f r := by omega
        simp [h1, h2]
      · rw [cadd_eq (by omega), Option.bind_some, cadd_eq (by omega)]
        simp only []
        rw [ihl nd.left fuel _ hl (by omega) hsl (by omega)]
        have h1 : r'.toList.filter (fun k => decide (link < f k)) = r'.toList := by
          simp only [List.filter_eq_self, decide_eq_true_eq]
          intro a ha; have := hkr a ha; omega
        have h2 : link < f r := by omega
        simp [h1, h2, Tree.size_eq_length]; omega

theorem countLeft_eq {get : Nat → Option Node} {lk : Nat → Nat × Nat} {base : Node → Nat}
    {f : Nat → Nat} (hf : ∀ nd k, (nd.source, nd.target) = lk k → base nd = f k)
    (maxT link : Nat) :
    ∀ (t : Tree) (r fuel acc : Nat), Rep get lk t r → t.size < fuel →
      (t.toList.Pairwise fun x y => f x ≤ f y) → acc + t.size ≤ maxT →
      countLeft get maxT base link fuel r acc =
        some (acc + (t.toList.filter fun k => f k < link).length) := by
  intro t
  induction t with
  | leaf =>
    intro r fuel acc hr hfu _ _
    cases fuel with
    | zero => omega
    | succ fuel => simp [Rep] at hr; simp [countLeft, hr, Tree.toList]
  | node l k r' ihl ihr =>
    intro r fuel acc hr hfu hs hacc
    cases fuel with
    | zero => omega
    | succ fuel =>
      obtain ⟨rfl, hk, nd, hget, hlk, hl, hrr, hsz⟩ := hr
      simp only [Tree.size] at hfu hacc
      simp only [Tree.toList, List.pairwise_append, List.pairwise_cons, List.mem_cons,
        forall_eq_or_imp] at hs
      obtain ⟨hsl, ⟨hkr, hsr⟩, hlk'⟩ := hs
      have hb := hf nd r hlk
      simp only [countLeft, hk, if_false, hget, hb, sizeOrZero_eq hl, Option.bind_some,
        Tree.toList, List.filter_append, List.filter_cons]
      split
      · rw [ihl nd.left fuel acc hl (by omega) hsl (by omega)]
        have h1 : r'.toList.filter (fun k => decide (f k < link)) = [] := by
          simp only [List.filter_eq_nil_iff, decide_eq_true_eq]
          intro a ha; have := hkr a ha; omega
        have h2 : ¬ f r < link := by omega
        simp [h1, h2]
      · rw [cadd_eq (by omega), Option.bind_some, cadd_eq (by omega)]
        simp only []
        rw [ihr nd.right fuel _ hrr (by omega) hsr (by omega)]
        have h1 : l.toList.filter (fun k => decide (f k < link)) = l.toList := by
          simp only [List.filter_eq_self, decide_eq_true_eq]
          intro a ha; have := (hlk' a ha).1; omega
        have h2 : f r < link := by omega
        simp [h1, h2, Tree.size_eq_length]; omega

theorem length_split3 (f : Nat → Nat) (link : Nat) (l : List Nat) :
    l.length = (l.filter fun k => link < f k).length + (l.filter fun k => f k < link).length +
      (l.filter fun k => f k = link).length := by
  induction l with
  | nil => rfl
  | cons a l ih =>
    simp only [List.filter_cons, List.length_cons]
    rcases Nat.lt_trichotomy (f a) link with h | h | h
    · have h1 : ¬ link < f a := by omega
      have h2 : ¬ f a = link := by omega
      simp [h, h1, h2]; omega
    · have h1 : ¬ link < f a := by omega
      have h2 : ¬ f a < link := by omega
      simp [h, h1, h2]; omega
    · have h1 : ¬ f a < link := by omega
      have h2 : ¬ f a = link := by omega
      simp [h, h1, h2]; omega

theorem countUsages_eq {get : Nat → Option Node} {lk : Nat → Nat × Nat} {base : Node → Nat}
    {f : Nat → Nat} (hf : ∀ nd k, (nd.source, nd.target) = lk k → base nd = f k)
    (maxT link : Nat) (t : Tree) (r fuel : Nat) (hr : Rep get lk t r) (hfu : t.size < fuel)
    (hs : t.toList.Pairwise fun x y => f x ≤ f y) (hm : t.size ≤ maxT)
    (h0 : r = 0 → ∃ nd, get 0 = some nd ∧ nd.size = 0) :
    countUsages get maxT base fuel r link = some (t.toList.filter fun k => f k = link).length := by
  have hsz : ∃ nd, get r = some nd ∧ nd.size = t.size := by
    cases t with
    | leaf =>
      simp [Rep] at hr; subst hr
      obtain ⟨nd, h1, h2⟩ := h0 rfl
      exact ⟨nd, h1, by simp [h2, Tree.size]⟩
    | node l k r' =>
      obtain ⟨rfl, hk, nd, hget, hlk, hl, hrr, hsz⟩ := hr
      exact ⟨nd, hget, hsz⟩
  obtain ⟨nd, hget, hsz⟩ := hsz
  have := length_split3 f link t.toList
  rw [← Tree.size_eq_length] at this
  simp only [countUsages, hget, Option.bind_some,
    countRight_eq hf maxT link t r fuel 0 hr hfu hs (by omega),
    countLeft_eq hf maxT link t r fuel 0 hr hfu hs (by omega), hsz]
  rw [csub_eq (by omega), Option.bind_some, csub_eq (by omega)]
  congr 1; omega

/-- `search` on a represented search tree: finds a node holding the pair iff there is one. -/
theorem searchLoop_spec {get : Nat → Option Node} {lk : Nat → Nat × Nat}
    {lt4 gt4 : Nat → Nat → Nat → Nat → Bool}
    (hgt : ∀ a b c d, gt4 a b c d = lt4 c d a b)
    (htr : ∀ a b c d e f, lt4 a b c d = true → lt4 e f c d = false → lt4 a b e f = true)
    (htr' : ∀ a b c d e f, lt4 c d a b = true → lt4 c d e f = false → lt4 e f a b = true)
    (heq : ∀ a b c d, lt4 a b c d = false → lt4 c d a b = false → a = c ∧ b = d)
    (hirr : ∀ a b, lt4 a b a b = false)
    (x y : Nat) :
    ∀ (t : Tree) (r fuel : Nat), Rep get lk t r → t.size < fuel →
      (t.toList.Pairwise fun p q => lt4 (lk q).1 (lk q).2 (lk p).1 (lk p).2 = false) →
      ∃ k, searchLoop get lt4 gt4 x y fuel r = some k ∧
        ((k = 0 ∧ ∀ j ∈ t.toList, lk j ≠ (x, y)) ∨ (k ≠ 0 ∧ k ∈ t.toList ∧ lk k = (x, y))) := by
  intro t
  induction t with
  | leaf =>
    intro r fuel hr hfu _
    cases fuel with
    | zero => omega
    | succ fuel => simp [Rep] at hr; simp [searchLoop, hr, Tree.toList]
  | node l k r' ihl ihr =>
    intro r fuel hr hfu hs
    cases fuel with
    | zero => omega
    | succ fuel =>
      obtain ⟨rfl, hk, nd, hget, hlk, hl, hrr, hsz⟩ := hr
      simp only [Tree.size] at hfu
      simp only [Tree.toList, List.pairwise_append, List.pairwise_cons, List.mem_cons,
        forall_eq_or_imp] at hs
      obtain ⟨hsl, ⟨hkr, hsr⟩, hlk'⟩ := hs
      have e1 : nd.source = (lk r).1 := by rw [← hlk]
      have e2 : nd.target = (lk r).2 := by rw [← hlk]
      simp only [searchLoop, hk, if_false, hget, e1, e2, Tree.toList, List.mem_append,
        List.mem_cons]
      by_cases c1 : lt4 x y (lk r).1 (lk r).2 = true
      · simp only [c1, if_true]
        obtain ⟨j, hj, hj'⟩ := ihl nd.left fuel hl (by omega) hsl
        refine ⟨j, hj, ?_⟩
        rcases hj' with ⟨h0, hno⟩ | ⟨h0, hm, he⟩
        · refine Or.inl ⟨h0, ?_⟩
          rintro i (hi | rfl | hi)
          · exact hno i hi
          · intro he; rw [he, hirr] at c1; exact absurd c1 (by simp)
          · intro he
            have := htr _ _ _ _ _ _ c1 (hkr i hi)
            rw [he, hirr] at this; exact absurd this (by simp)
        · exact Or.inr ⟨h0, Or.inl hm, he⟩
      · simp only [c1, hgt]
        by_cases c2 : lt4 (lk r).1 (lk r).2 x y = true
        · simp only [c2, if_true]
          obtain ⟨j, hj, hj'⟩ := ihr nd.right fuel hrr (by omega) hsr
          refine ⟨j, by simpa using hj, ?_⟩
          rcases hj' with ⟨h0, hno⟩ | ⟨h0, hm, he⟩
          · refine Or.inl ⟨h0, ?_⟩
            rintro i (hi | rfl | hi)
            · intro he
              have := htr' _ _ _ _ _ _ c2 (hlk' i hi).1
              rw [he, hirr] at this; exact absurd this (by simp)
            · intro he; rw [he, hirr] at c2; exact absurd c2 (by simp)
            · exact hno i hi
          · exact Or.inr ⟨h0, Or.inr (Or.inr hm), he⟩
        · have := heq x y (lk r).1 (lk r).2 (by simpa using c1) (by simpa using c2)
          refine ⟨r, by simp [c2], Or.inr ⟨hk, Or.inr (Or.inl rfl), ?_⟩⟩
          exact Prod.ext this.1.symm this.2.symm

end Verif
