import Verif.Shared
import Verif.TreeRead

/-!
# The reading tree algorithms, load by load

The loops of `TreeRead.lean` as programs of single loads: each field of a node is a separate location.
-/

namespace Verif

/-- Where the fields of the nodes of a tree are. -/
structure Fields (L : Type) where
  source : Nat → L
  target : Nat → L
  left : Nat → L
  right : Nat → L
  size : Nat → L

/-- The memory holds, at the locations of the fields, the nodes that `get` gives. -/
def Fields.Holds {L : Type} (F : Fields L) (look : L → Option Nat) (get : Nat → Option Node) : Prop :=
  ∀ i nd, get i = some nd → look (F.source i) = some nd.source ∧ look (F.target i) = some nd.target ∧
    look (F.left i) = some nd.left ∧ look (F.right i) = some nd.right ∧ look (F.size i) = some nd.size

namespace Rd
section
variable {L : Type} (F : Fields L)

/-- `handler(...)?;` and what follows, in a program of loads. -/
def andThen {L σ : Type} (r : Rd L (Flow × σ)) (k : σ → Rd L (Flow × σ)) : Rd L (Flow × σ) := do
  match ← r with
  | (.cont, s) => k s
  | (.brk x, s) => pure (.brk x, s)

/-- `search` (`unit/generic/sources_recursionless_size_balanced_tree.rs:159-181`). -/
def searchLoop (lt4 gt4 : Nat → Nat → Nat → Nat → Bool) (source target : Nat) : Nat → Nat → Rd L Nat
  | 0, _ => panic
  | fuel + 1, root =>
    if root = 0 then pure 0
    else do
      let rootSource ← word (F.source root)
      let rootTarget ← word (F.target root)
      if lt4 source target rootSource rootTarget then
        let left ← word (F.left root)
        searchLoop lt4 gt4 source target fuel left
      else if gt4 source target rootSource rootTarget then
        let right ← word (F.right root)
        searchLoop lt4 gt4 source target fuel right
      else pure root

/-- `get_size_or_zero` of the trees crate. -/
def sizeOrZero (n : Nat) : Rd L Nat := if n = 0 then pure 0 else word (F.size n)

/-- First loop of `count_usages` (`sources_recursionless_size_balanced_tree.rs:134-143`). `base` is the location that
`get_base_part` reads. The size of the right subtree is that of the node loaded just before. -/
def countRight (base : Nat → L) (maxT link : Nat) : Nat → Nat → Nat → Rd L Nat
  | 0, _, _ => panic
  | fuel + 1, root, acc =>
    if root = 0 then pure acc
    else do
      let b ← word (base root)
      if b ≤ link then
        let right ← word (F.right root)
        countRight base maxT link fuel right acc
      else
        let right ← word (F.right root)
        let rs ← sizeOrZero F right
        let x ← ofOption (cadd maxT rs 1)
        let acc' ← ofOption (cadd maxT acc x)
        let left ← word (F.left root)
        countRight base maxT link fuel left acc'

/-- Second loop of `count_usages` (`sources_recursionless_size_balanced_tree.rs:144-154`). -/
def countLeft (base : Nat → L) (maxT link : Nat) : Nat → Nat → Nat → Rd L Nat
  | 0, _, _ => panic
  | fuel + 1, root, acc =>
    if root = 0 then pure acc
    else do
      let b ← word (base root)
      if link ≤ b then
        let left ← word (F.left root)
        countLeft base maxT link fuel left acc
      else
        let left ← word (F.left root)
        let ls ← sizeOrZero F left
        let x ← ofOption (cadd maxT ls 1)
        let acc' ← ofOption (cadd maxT acc x)
        let right ← word (F.right root)
        countLeft base maxT link fuel right acc'

/-- `count_usages` (`sources_recursionless_size_balanced_tree.rs:130-157`). The root is loaded twice. -/
def countUsages (base : Nat → L) (rootAt : L) (maxT fuel link : Nat) : Rd L Nat := do
  let root ← word rootAt
  let total ← word (F.size root)
  let right ← countRight F base maxT link fuel root 0
  let root' ← word rootAt
  let left ← countLeft F base maxT link fuel root' 0
  let x ← ofOption (csub total right)
  ofOption (csub x left)

/-- `each_usages_core` (`sources_recursionless_size_balanced_tree.rs:105-127`). -/
def eachUsages {σ : Type} (base : Nat → L) (b : Nat) (h : RH σ) : Nat → Nat → σ → Rd L (Flow × σ)
  | 0, _, _ => panic
  | fuel + 1, link, s =>
    if link = 0 then pure (.cont, s)
    else do
      let basePart ← word (base link)
      if b < basePart then
        let left ← word (F.left link)
        eachUsages base b h fuel left s
      else if basePart < b then
        let right ← word (F.right link)
        eachUsages base b h fuel right s
      else
        let source ← word (F.source link)
        let target ← word (F.target link)
        andThen (pure (h s ⟨link, source, target⟩)) fun s1 =>
        andThen (do
          let left ← word (F.left link)
          eachUsages base b h fuel left s1) fun s2 => do
        let right ← word (F.right link)
        eachUsages base b h fuel right s2

variable {F} {look : L → Option Nat} {get : Nat → Option Node}

theorem run_andThen {σ : Type} (r : Rd L (Flow × σ)) (k : σ → Rd L (Flow × σ)) :
    (andThen r k).run look = Verif.andThen (r.run look) fun s => (k s).run look := by
  simp only [andThen, run_bind]
  rcases r.run look with _ | ⟨_ | _, s⟩ <;> rfl

theorem andThen_mono {σ : Type} {r r' : Option (Flow × σ)} {k k' : σ → Option (Flow × σ)} {x : Flow × σ}
    (hr : ∀ x, r = some x → r' = some x) (hk : ∀ s x, k s = some x → k' s = some x)
    (h : Verif.andThen r k = some x) : Verif.andThen r' k' = some x := by
  rcases r with _ | ⟨_ | _, s⟩
  · cases h
  · rw [hr _ rfl]; exact hk _ _ h
  · rw [hr _ rfl]; exact h

theorem run_searchLoop (hF : F.Holds look get) {lt4 gt4 : Nat → Nat → Nat → Nat → Bool} {source target : Nat} :
    ∀ {fuel f root r : Nat}, Verif.searchLoop get lt4 gt4 source target fuel root = some r → fuel ≤ f →
      (searchLoop F lt4 gt4 source target f root).run look = some r := by
  intro fuel
  induction fuel with
  | zero => intro f root r h; cases h
  | succ fuel ih =>
    intro f root r h hf
    obtain ⟨f, rfl⟩ : ∃ f', f = f' + 1 := ⟨f - 1, by omega⟩
    simp only [Verif.searchLoop] at h
    simp only [searchLoop, run_ite, run_pure]
    split at h
    · next h0 => simpa [h0] using h
    · next h0 =>
      cases hg : get root with
      | none => rw [hg] at h; cases h
      | some nd =>
        obtain ⟨h1, h2, h3, h4, -⟩ := hF _ _ hg
        simp only [hg] at h
        simp only [h0, if_false, run_bind, run_word, h1, h2, h3, h4, Option.bind_some, run_ite, run_pure]
        split at h
        · next hl => simp only [hl, if_true]; exact ih h (by omega)
        · next hl =>
          split at h
          · next hr => simp only [hl, hr, if_true]; exact ih h (by omega)
          · next hr => simp only [hl, hr]; exact h

theorem run_sizeOrZero (hF : F.Holds look get) {n r : Nat} (h : Verif.sizeOrZero get n = some r) :
    (sizeOrZero F n).run look = some r := by
  simp only [Verif.sizeOrZero] at h
  simp only [sizeOrZero, run_ite, run_pure, run_word]
  split at h
  · next h0 => simpa [h0] using h
  · next h0 =>
    simp only [h0, if_false]
    cases hg : get n with
    | none => rw [hg] at h; cases h
    | some nd =>
      rw [hg] at h
      exact (hF _ _ hg).2.2.2.2.trans h

/-- The location `base` holds the part `part` of the nodes. -/
def HoldsBase (look : L → Option Nat) (get : Nat → Option Node) (base : Nat → L) (part : Node → Nat) : Prop :=
  ∀ i nd, get i = some nd → look (base i) = some (part nd)

theorem run_countRight (hF : F.Holds look get) {base : Nat → L} {part : Node → Nat} (hB : HoldsBase look get base part)
    {maxT link : Nat} : ∀ {fuel f root acc r : Nat}, Verif.countRight get maxT part link fuel root acc = some r →
      fuel ≤ f → (countRight F base maxT link f root acc).run look = some r := by
  intro fuel
  induction fuel with
  | zero => intro f root acc r h; cases h
  | succ fuel ih =>
    intro f root acc r h hf
    obtain ⟨f, rfl⟩ : ∃ f', f = f' + 1 := ⟨f - 1, by omega⟩
    simp only [Verif.countRight] at h
    simp only [countRight, run_ite, run_pure]
    split at h
    · next h0 => simpa [h0] using h
    · next h0 =>
      cases hg : get root with
      | none => rw [hg] at h; cases h
      | some nd =>
        obtain ⟨-, -, h3, h4, -⟩ := hF _ _ hg
        have h5 := hB _ _ hg
        simp only [hg] at h
        simp only [h0, if_false, run_bind, run_word, h3, h4, h5, Option.bind_some, run_ite, run_ofOption]
        split at h
        · next hl => simp only [hl, if_true]; exact ih h (by omega)
        · next hl =>
          simp only [hl, if_false]
          split at h
          · cases h
          · next x hx =>
            simp only [Option.bind_eq_some_iff] at hx
            obtain ⟨a, h6, b, h7, h8⟩ := hx
            simp only [run_sizeOrZero hF h6, Option.bind_some, h7, h8]
            exact ih h (by omega)

theorem run_countLeft (hF : F.Holds look get) {base : Nat → L} {part : Node → Nat} (hB : HoldsBase look get base part)
    {maxT link : Nat} : ∀ {fuel f root acc r : Nat}, Verif.countLeft get maxT part link fuel root acc = some r →
      fuel ≤ f → (countLeft F base maxT link f root acc).run look = some r := by
  intro fuel
  induction fuel with
  | zero => intro f root acc r h; cases h
  | succ fuel ih =>
    intro f root acc r h hf
    obtain ⟨f, rfl⟩ : ∃ f', f = f' + 1 := ⟨f - 1, by omega⟩
    simp only [Verif.countLeft] at h
    simp only [countLeft, run_ite, run_pure]
    split at h
    · next h0 => simpa [h0] using h
    · next h0 =>
      cases hg : get root with
      | none => rw [hg] at h; cases h
      | some nd =>
        obtain ⟨-, -, h3, h4, -⟩ := hF _ _ hg
        have h5 := hB _ _ hg
        simp only [hg] at h
        simp only [h0, if_false, run_bind, run_word, h3, h4, h5, Option.bind_some, run_ite, run_ofOption]
        split at h
        · next hl => simp only [hl, if_true]; exact ih h (by omega)
        · next hl =>
          simp only [hl, if_false]
          split at h
          · cases h
          · next x hx =>
            simp only [Option.bind_eq_some_iff] at hx
            obtain ⟨a, h6, b, h7, h8⟩ := hx
            simp only [run_sizeOrZero hF h6, Option.bind_some, h7, h8]
            exact ih h (by omega)

theorem run_countUsages (hF : F.Holds look get) {base : Nat → L} {part : Node → Nat}
    (hB : HoldsBase look get base part) {rootAt : L} {root : Nat} (hR : look rootAt = some root) {maxT link fuel f r : Nat}
    (h : Verif.countUsages get maxT part fuel root link = some r) (hf : fuel ≤ f) :
    (countUsages F base rootAt maxT f link).run look = some r := by
  simp only [Verif.countUsages, Option.bind_eq_some_iff] at h
  obtain ⟨nd, h1, a, h2, b, h3, x, h4, h5⟩ := h
  simp only [countUsages, run_bind, run_word, hR, Option.bind_some, (hF _ _ h1).2.2.2.2, run_countRight hF hB h2 hf,
    run_countLeft hF hB h3 hf, run_ofOption, h4, h5]

theorem run_eachUsages {σ : Type} (hF : F.Holds look get) {base : Nat → L} {part : Node → Nat}
    (hB : HoldsBase look get base part) {b : Nat} {h : RH σ} : ∀ {fuel f link : Nat} {s : σ} {r : Flow × σ},
      Verif.eachUsages get part b h fuel link s = some r → fuel ≤ f →
      (eachUsages F base b h f link s).run look = some r := by
  intro fuel
  induction fuel with
  | zero => intro f link s r h; cases h
  | succ fuel ih =>
    intro f link s r he hf
    obtain ⟨f, rfl⟩ : ∃ f', f = f' + 1 := ⟨f - 1, by omega⟩
    simp only [Verif.eachUsages] at he
    simp only [eachUsages, run_ite, run_pure]
    split at he
    · next h0 => simpa [h0] using he
    · next h0 =>
      cases hg : get link with
      | none => rw [hg] at he; cases he
      | some nd =>
        obtain ⟨h1, h2, h3, h4, -⟩ := hF _ _ hg
        have h5 := hB _ _ hg
        simp only [hg] at he
        simp only [h0, if_false, run_bind, run_word, h1, h2, h3, h4, h5, Option.bind_some, run_ite, run_andThen, run_pure]
        split at he
        · next hl => simp only [hl, if_true]; exact ih he (by omega)
        · next hl =>
          simp only [hl, if_false]
          split at he
          · next hr => simp only [hr, if_true]; exact ih he (by omega)
          · next hr =>
            simp only [hr, if_false]
            refine andThen_mono (fun _ h => h) (fun s1 x hx => ?_) he
            refine andThen_mono (fun y hy => ih hy (by omega)) (fun s2 y hy => ih hy (by omega)) hx

end

/-! ### Putting programs together -/

/-- Whenever `o` is a value, the program returns it. -/
def Gives {L α : Type} (look : L → Option Nat) (p : Rd L α) (o : Option α) : Prop := ∀ x, o = some x → p.run look = some x

namespace Gives
variable {L α β σ : Type} {look : L → Option Nat}

theorem ret (a : α) : Gives look (pure a : Rd L α) (some a) := fun _ h => h

theorem word {l : L} {o : Option Nat} (h : look l = o) : Gives look (Rd.word l) o :=
  fun x hx => by rw [run_word, h, hx]

theorem lift (o : Option α) : Gives look (ofOption o : Rd L α) o := fun x hx => by rw [run_ofOption, hx]

theorem bind {p : Rd L α} {o : Option α} {k : α → Rd L β} {g : α → Option β} (hp : Gives look p o)
    (hk : ∀ a, o = some a → Gives look (k a) (g a)) : Gives look (p >>= k) (o.bind g) := by
  intro x hx
  obtain ⟨a, ha, hx⟩ := Option.bind_eq_some_iff.mp hx
  rw [run_bind, hp a ha]
  exact hk a ha x hx

theorem map {p : Rd L α} {o : Option α} {k : α → Rd L β} {g : α → β} (hp : Gives look p o)
    (hk : ∀ a, o = some a → Gives look (k a) (some (g a))) : Gives look (p >>= k) (o.map g) := by
  intro x hx
  obtain ⟨a, ha, hx⟩ := Option.map_eq_some_iff.mp hx
  rw [run_bind, hp a ha]
  exact hk a ha x (congrArg some hx)

/-- A load whose value is known. -/
theorem step {l : L} {v : Nat} {k : Nat → Rd L β} {o : Option β} (h : look l = some v) (hk : Gives look (k v) o) :
    Gives look (Rd.word l >>= k) o := by
  intro x hx
  rw [run_bind, run_word, h]
  exact hk x hx

theorem ite {b : Prop} [Decidable b] {p q : Rd L α} {o u : Option α} (hp : b → Gives look p o) (hq : ¬ b → Gives look q u) :
    Gives look (if b then p else q) (if b then o else u) := by
  split
  · next h => exact hp h
  · next h => exact hq h

theorem andThen {r : Rd L (Flow × σ)} {o : Option (Flow × σ)} {k : σ → Rd L (Flow × σ)} {g : σ → Option (Flow × σ)}
    (hr : Gives look r o) (hk : ∀ s, Gives look (k s) (g s)) : Gives look (Rd.andThen r k) (Verif.andThen o g) := by
  intro x hx
  rw [run_andThen]
  exact andThen_mono hr hk hx

end Gives
end Rd
end Verif
