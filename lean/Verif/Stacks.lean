import Verif.DecoratorLaws
import Verif.Replay

/-! # Stacks of decorators (helper lemmas)

Every decorator forwards the reads and the creation to the store it wraps, and changes it only by calling its update
and its deletion. So what update and deletion of a store keep, every stack over it keeps. -/

namespace Verif
open Verif Links

variable {S : Type}

/-- `D'` answers lookups, counts and traversals, and creates, as `D` does. -/
structure Forwards (D D' : Links S) : Prop where
  maxT : D'.maxT = D.maxT
  consts : D'.consts = D.consts
  count : D'.countLinks = D.countLinks
  each : @Links.eachLinks S D' = @Links.eachLinks S D
  get : D'.getLink = D.getLink
  create : @Links.createLinks S D' = @Links.createLinks S D

theorem Forwards.refl (D : Links S) : Forwards D D := ⟨rfl, rfl, rfl, rfl, rfl, rfl⟩

theorem Forwards.wrap {D D' : Links S} (h : Forwards D D') (d : Deco) : Forwards D (d.wrap D') := by
  cases d <;> exact ⟨h.maxT, h.consts, h.count, h.each, h.get, h.create⟩

theorem Forwards.stack (D : Links S) : ∀ ds, Forwards D (stack ds D)
  | [] => .refl D
  | d :: ds => (Forwards.stack D ds).wrap d

namespace Forwards
variable {D D' : Links S} (f : Forwards D D')
include f

theorem view (s : S) : D'.view s = D.view s := by unfold Links.view; rw [f.get]

theorem search (s : S) (a b : Nat) : D'.search s a b = D.search s a b := by
  simp only [Links.search, Links.find, Links.eachBy, f.consts, f.each]

theorem found (s : S) (q : List Nat) : D'.found s q = D.found s q := by
  simp only [Links.found, Links.countBy, f.count]

theorem tryGetLink (s : S) (i : Nat) : D'.tryGetLink s i = D.tryGetLink s i := by
  simp only [Links.tryGetLink, f.get]

theorem eachIter (s : S) (q : List Nat) : D'.eachIter s q = D.eachIter s q := by
  simp only [Links.eachIter, Links.collect, Links.eachBy, Links.countBy, f.count, f.each]

theorem checkUsages {σ : Type} (s : S) (q : List Nat) (st : σ) (go : Option (Out S σ Flow)) :
    Verif.checkUsages D' s q st go = Verif.checkUsages D s q st go := by
  have hu : ∀ i, D'.usages s i = D.usages s i := by
    intro i
    simp only [Links.usages, Links.countUsagesOf, Links.tryGetLink, Links.usageList, Links.collect, Links.eachBy,
      Links.countBy, f.consts, f.count, f.each, f.get, f.maxT]
  have hg : ∀ us, tryGetLinks D' s us = tryGetLinks D s us := by
    intro us
    induction us with
    | nil => rfl
    | cons u us ih => simp only [tryGetLinks, Links.tryGetLink, f.get, ih]
  simp only [Verif.checkUsages, f.consts, hu, hg]

end Forwards

/-- Deletions on `D` keep `P`. -/
def DeleteKeeps (D : Links S) (P : S → Prop) : Prop :=
  ∀ ⦃σ : Type⦄ ⦃s : S⦄ ⦃i : Nat⦄ ⦃h : WH σ⦄ ⦃st : σ⦄ ⦃o : Out S σ Flow⦄, P s →
    D.deleteLinks s [i] h st = some o → P o.st

/-- Updates on `D` that meet `U` keep `P`, and take a state to one related to it by `T`. -/
def UpdateKeeps (D : Links S) (P : S → Prop) (U : S → Nat → Nat → Nat → Prop) (T : S → S → Prop) : Prop :=
  ∀ ⦃σ : Type⦄ ⦃s : S⦄ ⦃i x a b : Nat⦄ ⦃h : WH σ⦄ ⦃st : σ⦄ ⦃o : Out S σ Flow⦄, P s → U s i a b →
    D.updateLinks s [i] [x, a, b] h st = some o → P o.st ∧ T s o.st

section Keeps
variable {D : Links S} {P : S → Prop} {U : S → Nat → Nat → Nat → Prop} {T : S → S → Prop}

theorem DeleteKeeps.byWith (k : DeleteKeeps D P) {σ ρ : Type} {s : S} {i : Nat} {h : Hd σ ρ} {st : σ}
    {o : Out S σ (Ctl ρ)} (hs : P s) (ho : D.deleteByWith s [i] h st = some o) : P o.st := by
  simp only [deleteByWith, Option.map_eq_some_iff] at ho
  obtain ⟨o', h1, rfl⟩ := ho
  exact k hs h1

theorem UpdateKeeps.byWith (k : UpdateKeeps D P U T) {σ ρ : Type} {s : S} {i x a b : Nat} {h : Hd σ ρ} {st : σ}
    {o : Out S σ (Ctl ρ)} (hs : P s) (hu : U s i a b) (ho : D.updateByWith s [i] [x, a, b] h st = some o) :
    P o.st ∧ T s o.st := by
  simp only [updateByWith, Option.map_eq_some_iff] at ho
  obtain ⟨o', h1, rfl⟩ := ho
  exact k hs hu h1

theorem DeleteKeeps.loop (k : DeleteKeeps D P) {σ ρ : Type} {h : Hd σ ρ} : ∀ (is : List Nat) {s : S} {f : FuseSt σ}
    {o : Out S (FuseSt σ) Unit}, P s → D.deleteLoop h is s f = some o → P o.st := by
  intro is
  induction is with
  | nil => intro s f o hs ho; cases ho; exact hs
  | cons i is ih =>
    intro s f o hs ho
    simp only [deleteLoop] at ho
    split at ho
    · cases ho
    · next o' h1 =>
      have h2 := k.byWith hs h1
      split at ho
      · cases ho; exact h2
      · exact ih h2 ho

theorem DeleteKeeps.usages (k : DeleteKeeps D P) {σ ρ : Type} {s : S} {i : Nat} {h : Hd σ ρ} {st : σ}
    {o : Out S σ Unit} (hs : P s) (ho : D.deleteUsagesWith s i h st = some o) : P o.st := by
  simp only [deleteUsagesWith, Option.bind_eq_some_iff, Option.map_eq_some_iff] at ho
  obtain ⟨_, -, _, -, us, -, o', h1, rfl⟩ := ho
  exact k.loop _ hs h1

theorem DeleteKeeps.query (k : DeleteKeeps D P) {σ ρ : Type} {s : S} {q : List Nat} {h : Hd σ ρ} {st : σ}
    {o : Out S σ Unit} (hs : P s) (ho : D.deleteQueryWith s q h st = some o) : P o.st := by
  simp only [deleteQueryWith, Option.bind_eq_some_iff, Option.map_eq_some_iff] at ho
  obtain ⟨_, -, us, -, o', h1, rfl⟩ := ho
  exact k.loop _ hs h1

theorem DeleteKeeps.delete (k : DeleteKeeps D P) {s : S} {i : Nat} {o : Out S Unit Nat} (hs : P s)
    (ho : D.delete s i = some o) : P o.st := by
  simp only [Links.delete, deleteBy, Option.map_eq_some_iff] at ho
  obtain ⟨o', h1, rfl⟩ := ho
  exact k.byWith hs h1

theorem UpdateKeeps.update (k : UpdateKeeps D P U T) {s : S} {i a b : Nat} {o : Out S Unit Nat} (hs : P s)
    (hu : U s i a b) (ho : D.update s i a b = some o) : P o.st ∧ T s o.st := by
  simp only [Links.update, updateBy, Option.map_eq_some_iff] at ho
  obtain ⟨o', h1, rfl⟩ := ho
  exact k.byWith hs hu h1

theorem DeleteKeeps.all (k : DeleteKeeps D P) : ∀ (n : Nat) {s : S} {m : Nat} {o : Out S Unit Unit}, P s →
    D.deleteAllLoop n s m = some o → P o.st := by
  intro n
  induction n with
  | zero => intro s m o _ ho; cases ho
  | succ n ih =>
    intro s m o hs ho
    simp only [deleteAllLoop] at ho
    split at ho
    · cases ho; exact hs
    · split at ho
      · cases ho
      · next o' h1 =>
        have h2 := k.delete hs h1
        split at ho
        · cases ho; exact h2
        · rw [Option.bind_eq_some_iff] at ho
          obtain ⟨_, -, ho⟩ := ho
          exact ih h2 ho

theorem DeleteKeeps.deleteAll (k : DeleteKeeps D P) {s : S} {o : Out S Unit Unit} (hs : P s)
    (ho : D.deleteAll s = some o) : P o.st := by
  simp only [Links.deleteAll, Option.bind_eq_some_iff] at ho
  obtain ⟨_, -, ho⟩ := ho
  exact k.all _ hs ho

/-- The loop of `rebase_with`, if each of its updates may be made in every state the loop can be in. -/
theorem UpdateKeeps.rebaseLoop (k : UpdateKeeps D P U T) (hr : ∀ s, T s s) (ht : ∀ {a b c}, T a b → T b c → T a c)
    {σ ρ : Type} {h : Hd σ ρ} {old new : Nat} : ∀ (us : List Link) {s : S} {f : FuseSt σ} {o : Out S (FuseSt σ) Unit},
    (∀ s', T s s' → P s' → ∀ u ∈ us, (u.source = old → U s' u.index new u.target) ∧
      (u.target = old → U s' u.index u.source new)) → P s → D.rebaseLoop h old new us s f = some o →
    P o.st ∧ T s o.st := by
  intro us
  induction us with
  | nil => intro s f o _ hs ho; cases ho; exact ⟨hs, hr _⟩
  | cons u us ih =>
    intro s f o hu hs ho
    have hone : ∀ o', D.rebaseOne h old new u s f = some o' → P o'.st ∧ T s o'.st := by
      intro o' h1
      simp only [rebaseOne, Option.bind_eq_some_iff] at h1
      obtain ⟨o1, h1, h2⟩ := h1
      have k1 : P o1.st ∧ T s o1.st := by
        split at h1
        · next e =>
          rw [Option.map_eq_some_iff] at h1
          obtain ⟨o2, h1, rfl⟩ := h1
          exact k.byWith hs ((hu s (hr s) hs u (by simp)).1 e) h1
        · cases h1; exact ⟨hs, hr _⟩
      split at h2
      · cases h2; exact k1
      · split at h2
        · next e =>
          rw [Option.map_eq_some_iff] at h2
          obtain ⟨o2, h2, rfl⟩ := h2
          obtain ⟨k2, k3⟩ := k.byWith k1.1 ((hu _ k1.2 k1.1 u (by simp)).2 e) h2
          exact ⟨k2, ht k1.2 k3⟩
        · cases h2; exact k1
    simp only [Links.rebaseLoop] at ho
    split at ho
    · cases ho
    · next o' h1 =>
      obtain ⟨k1, k2⟩ := hone _ h1
      split at ho
      · cases ho; exact ⟨k1, k2⟩
      · obtain ⟨k3, k4⟩ := ih (fun s' t p u' hu' => hu s' (ht k2 t) p u' (by simp [hu'])) k1 ho
        exact ⟨k3, ht k2 k4⟩

theorem UpdateKeeps.rebaseWith (k : UpdateKeeps D P U T) (hr : ∀ s, T s s) (ht : ∀ {a b c}, T a b → T b c → T a c)
    {σ ρ : Type} {h : Hd σ ρ} {old new : Nat} {s : S} {st : σ} {o : Out S σ Unit}
    (hu : ∀ L1 L2, D.eachIter s [(D.consts s).any, old, (D.consts s).any] = some L1 →
      D.eachIter s [(D.consts s).any, (D.consts s).any, old] = some L2 → (∃ l, D.tryGetLink s old = some (.ok l)) →
      ∀ s', T s s' → P s' → ∀ u ∈ L1 ++ L2, (u.source = old → U s' u.index new u.target) ∧
        (u.target = old → U s' u.index u.source new)) (hs : P s) (ho : D.rebaseWith s old new h st = some o) :
    P o.st ∧ T s o.st := by
  simp only [Links.rebaseWith, Option.bind_eq_some_iff] at ho
  obtain ⟨r, h1, ho⟩ := ho
  split at ho
  · cases ho; exact ⟨hs, hr _⟩
  · next l =>
    split at ho
    · cases ho; exact ⟨hs, hr _⟩
    · simp only [Option.bind_eq_some_iff, Option.map_eq_some_iff] at ho
      obtain ⟨L1, h2, L2, h3, o', h4, rfl⟩ := ho
      exact k.rebaseLoop hr ht _ (fun s' t p u hm => hu L1 L2 h2 h3 ⟨_, h1⟩ s' t p u (List.mem_filter.1 hm).1) hs h4

/-! ### One more decorator -/

theorem checkUsages_cases {σ : Type} {s : S} {q : List Nat} {st : σ} {go : Option (Out S σ Flow)} {o : Out S σ Flow}
    (ho : checkUsages D s q st go = some o) : o.st = s ∨ go = some o := by
  unfold checkUsages at ho
  split at ho
  · cases ho
  · rw [Option.bind_eq_some_iff] at ho
    obtain ⟨r, -, ho⟩ := ho
    split at ho
    · cases ho; exact .inl rfl
    · split at ho
      · exact .inr ho
      · rw [Option.map_eq_some_iff] at ho
        obtain ⟨r, -, rfl⟩ := ho
        left
        split <;> rfl

/-- The decorators whose update calls the update of the wrapped store, or nothing. -/
def Deco.plain : Deco → Bool
  | .uniqueResolver => false
  | .cascadeUniqueResolver => false
  | _ => true

theorem DeleteKeeps.wrap (k : DeleteKeeps D P) (u : UpdateKeeps D P U T)
    (h0 : ∀ s i, P s → U s i (D.consts s).null (D.consts s).null) (d : Deco) : DeleteKeeps (d.wrap D) P := by
  intro σ s i h st o hs ho
  cases d with
  | uniqueValidator => exact k hs ho
  | uniqueResolver => exact k hs ho
  | cascadeUniqueResolver => exact k hs ho
  | usagesValidator =>
    rcases checkUsages_cases ho with e | e
    · rw [e]; exact hs
    · exact k.byWith hs e
  | cascadeUsagesResolver =>
    simp only [Deco.wrap, cascadeUsagesResolver, List.getElem?_cons_zero, Option.bind_eq_some_iff] at ho
    obtain ⟨o1, h1, ho⟩ := ho
    have k1 := k.usages hs h1
    split at ho
    · cases ho; exact k1
    · exact k.byWith k1 ho
  | nonNullDeletionResolver =>
    simp only [Deco.wrap, nonNullDeletionResolver, List.getElem?_cons_zero, Option.bind_eq_some_iff] at ho
    obtain ⟨o1, h1, ho⟩ := ho
    have k1 := u.byWith hs (h0 s i hs) h1
    split at ho
    · cases ho; exact k1.1
    · exact k.byWith k1.1 ho

theorem UpdateKeeps.wrap (u : UpdateKeeps D P U T) (hr : ∀ s, T s s) {d : Deco} (hd : d.plain = true) :
    UpdateKeeps (d.wrap D) P U T := by
  intro σ s i x a b h st o hs hu ho
  cases d with
  | uniqueValidator =>
    simp only [Deco.wrap, uniqueValidator, List.getElem?_cons_zero, List.getElem?_cons_succ,
      Option.bind_eq_some_iff] at ho
    obtain ⟨f, -, ho⟩ := ho
    split at ho
    · cases ho; exact ⟨hs, hr _⟩
    · exact u.byWith hs hu ho
  | uniqueResolver => cases hd
  | cascadeUniqueResolver => cases hd
  | usagesValidator =>
    rcases checkUsages_cases ho with e | e
    · rw [e]; exact ⟨hs, hr _⟩
    · exact u.byWith hs hu e
  | cascadeUsagesResolver => exact u hs hu ho
  | nonNullDeletionResolver => exact u hs hu ho

/-- The resolvers, if which updates may be made depends on the ends only. -/
theorem UpdateKeeps.uniqueResolver (k : DeleteKeeps D P) {V : Nat → Nat → Prop}
    (u : UpdateKeeps D P (fun _ _ a b => V a b) fun _ _ => True) :
    UpdateKeeps (uniqueResolver D) P (fun _ _ a b => V a b) fun _ _ => True := by
  intro σ s i x a b h st o hs hu ho
  simp only [Verif.uniqueResolver, List.getElem?_cons_zero, List.getElem?_cons_succ, Option.bind_eq_some_iff] at ho
  obtain ⟨r, -, ho⟩ := ho
  split at ho
  · rw [Option.bind_eq_some_iff] at ho
    obtain ⟨o1, h1, ho⟩ := ho
    have k1 := k.byWith hs h1
    split at ho
    · cases ho; exact ⟨k1, trivial⟩
    · exact u.byWith k1 hu ho
  · exact u.byWith hs hu ho

theorem UpdateKeeps.cascadeUniqueResolver (k : DeleteKeeps D P) {V : Nat → Nat → Prop}
    (u : UpdateKeeps D P (fun _ _ a b => V a b) fun _ _ => True)
    (hv : ∀ s i j a b L1 L2, P s → V a b → D.search s a b = some (some j) →
      D.eachIter s [(D.consts s).any, i, (D.consts s).any] = some L1 →
      D.eachIter s [(D.consts s).any, (D.consts s).any, i] = some L2 → (∃ l, D.tryGetLink s i = some (.ok l)) →
      ∀ u ∈ L1 ++ L2, (u.source = i → V j u.target) ∧ (u.target = i → V u.source j)) :
    UpdateKeeps (cascadeUniqueResolver D) P (fun _ _ a b => V a b) fun _ _ => True := by
  intro σ s i x a b h st o hs hu ho
  simp only [Verif.cascadeUniqueResolver, List.getElem?_cons_zero, List.getElem?_cons_succ,
    Option.bind_eq_some_iff] at ho
  obtain ⟨r, hr, ho⟩ := ho
  split at ho
  · next j =>
    rw [Option.bind_eq_some_iff] at ho
    obtain ⟨o1, h1, ho⟩ := ho
    have k1 := (u.rebaseWith (fun _ => trivial) (fun _ _ => trivial)
      (fun L1 L2 e1 e2 e3 _ _ _ => hv s i j a b L1 L2 hs hu hr e1 e2 e3) hs h1).1
    split at ho
    · cases ho; exact ⟨k1, trivial⟩
    · rw [Option.bind_eq_some_iff] at ho
      obtain ⟨o2, h2, ho⟩ := ho
      have k2 := k.byWith k1 h2
      split at ho
      · cases ho; exact ⟨k2, trivial⟩
      · exact u.byWith k2 hu ho
  · exact u.byWith hs hu ho

end Keeps

/-! ### Lawful stores -/

/-- Both ends null, or neither null nor the wildcard. -/
def Ends (any a b : Nat) : Prop := (a = 0 ∧ b = 0) ∨ (a ≠ 0 ∧ a ≠ any ∧ b ≠ 0 ∧ b ≠ any)

/-- Every link has two ends that name links, or two null ends. -/
def Whole (v : View) : Prop := ∀ j a b, v j = some (a, b) → (a = 0 ∧ b = 0) ∨ (v a ≠ none ∧ v b ≠ none)

section Stores
variable {D : Links S} (W : Lawful D) {s : S} {k : Consts}

/-- Unique doublets, no link with one null end. -/
def UniqIn (k : Consts) (s : S) : Prop :=
  W.Inv s ∧ D.consts s = k ∧ (D.view s).Uniq ∧ ∀ j a b, D.view s j = some (a, b) → Ends k.any a b

/-- Unique doublets, no dangling references. -/
def WholeIn (k : Consts) (s : S) : Prop :=
  W.Inv s ∧ D.consts s = k ∧ (D.view s).Uniq ∧ Whole (D.view s)

theorem live_ends (hs : W.Inv s) {a b : Nat} (ha : D.view s a ≠ none) (hb : D.view s b ≠ none) :
    a ≠ 0 ∧ a ≠ (D.consts s).any ∧ b ≠ 0 ∧ b ≠ (D.consts s).any := by
  refine ⟨?_, ?_, ?_, ?_⟩ <;> rintro rfl
  · exact ha (W.null s hs)
  · exact ha (W.any_absent s hs)
  · exact hb (W.null s hs)
  · exact hb (W.any_absent s hs)

theorem WholeIn.uniqIn (h : WholeIn W k s) : UniqIn W k s := by
  obtain ⟨h1, h2, h3, h4⟩ := h
  refine ⟨h1, h2, h3, fun j a b hj => ?_⟩
  rcases h4 j a b hj with e | ⟨e1, e2⟩
  · exact .inl e
  · exact .inr (h2 ▸ live_ends W h1 e1 e2)

/-- What an update through `UniqueValidator` can do. -/
theorem uniqueValidator_cases (h : UniqIn W k s) {σ : Type} {i x a b : Nat} {hd : WH σ} {st : σ} {o : Out S σ Flow}
    (he : Ends k.any a b) (hc : W.CanUpdate (D.view s) i a b)
    (ho : (uniqueValidator D).updateLinks s [i] [x, a, b] hd st = some o) :
    o.st = s ∨ (W.Inv o.st ∧ D.consts o.st = D.consts s ∧ D.view s i ≠ none ∧
      D.view o.st = (D.view s).set i (a, b) ∧ (D.view o.st).Uniq) := by
  obtain ⟨h1, h2, h3, h4⟩ := h
  simp only [uniqueValidator, List.getElem?_cons_zero, List.getElem?_cons_succ, Option.bind_eq_some_iff] at ho
  obtain ⟨f, hf, ho⟩ := ho
  cases f with
  | true => simp at ho; cases ho; exact .inl rfl
  | false =>
    simp only [Bool.false_eq_true, if_false] at ho
    cases hv : D.view s i with
    | none =>
      rw [updateByWith_err (W.update_missing s h1 i hv x a b)] at ho
      cases ho; exact .inl rfl
    | some p =>
      obtain ⟨s', before, -, k2, k3, k4, k5⟩ := W.update s h1 i p hv (h3 i) x a b hc
      rw [updateByWith_ok k5] at ho
      cases ho
      refine .inr ⟨k2, k3, by simp, k4, ?_⟩
      show (D.view s').Uniq
      rw [k4]
      rcases he with ⟨rfl, rfl⟩ | ⟨e1, e2, e3, e4⟩
      · exact h3.set_null i
      · obtain ⟨f, g1, g2⟩ := found_pair W h1 e1 (h2 ▸ e2) e3 (h2 ▸ e4)
        refine h3.set fun j _ hj => ?_
        rw [hf] at g1
        cases g1
        cases g2 ⟨j, hj⟩

theorem uniqIn_update (hcan : ∀ v i a b, Ends k.any a b → W.CanUpdate v i a b) :
    UpdateKeeps (uniqueValidator D) (UniqIn W k) (fun _ _ a b => Ends k.any a b) fun _ _ => True := by
  intro σ s i x a b hd st o hs he ho
  refine ⟨?_, trivial⟩
  rcases uniqueValidator_cases W hs he (hcan _ _ _ _ he) ho with e | ⟨e1, e2, e3, e4, e5⟩
  · rw [e]; exact hs
  · refine ⟨e1, e2.trans hs.2.1, e5, fun j x y hj => ?_⟩
    rw [e4] at hj
    simp only [View.set] at hj
    split at hj
    · cases hj; exact he
    · exact hs.2.2.2 j x y hj

/-- The same with the guard of the store. -/
theorem uniqIn_update' : UpdateKeeps (uniqueValidator D) (UniqIn W k)
    (fun s i a b => Ends k.any a b ∧ W.CanUpdate (D.view s) i a b) fun _ _ => True := by
  intro σ s i x a b hd st o hs he ho
  refine ⟨?_, trivial⟩
  rcases uniqueValidator_cases W hs he.1 he.2 ho with e | ⟨e1, e2, e3, e4, e5⟩
  · rw [e]; exact hs
  · refine ⟨e1, e2.trans hs.2.1, e5, fun j x y hj => ?_⟩
    rw [e4] at hj
    simp only [View.set] at hj
    split at hj
    · cases hj; exact he.1
    · exact hs.2.2.2 j x y hj

theorem uniqIn_delete : DeleteKeeps D (UniqIn W k) := by
  intro σ s i hd st o ⟨h1, h2, h3, h4⟩ ho
  cases hv : D.view s i with
  | none => rw [show D.deleteLinks s [i] hd st = _ from W.delete_missing s h1 i hv σ hd st] at ho; cases ho; exact ⟨h1, h2, h3, h4⟩
  | some p =>
    obtain ⟨s', k1, k2, k3, k4⟩ := W.delete s h1 i p hv (h3 i) (W.canDelete_uniq _ _ h3)
    rw [show D.deleteLinks s [i] hd st = _ from k4 σ hd st] at ho
    cases ho
    refine ⟨k1, k2.trans h2, by rw [k3]; exact h3.del i, fun j a b hj => ?_⟩
    have hj : D.view s' j = some (a, b) := hj
    rw [k3] at hj
    simp only [View.del] at hj
    split at hj
    · cases hj
    · exact h4 j a b hj

/-- A creation that leaves the store in state `s'`: a new link with null ends, or no change. -/
def CreatedIn (s s' : S) : Prop :=
  s' = s ∨ ∃ i, D.view s i = none ∧ W.Inv s' ∧ D.consts s' = D.consts s ∧ D.view s' = (D.view s).set i (0, 0)

theorem uniqIn_create (hs : UniqIn W k s) {s' : S} (hc : CreatedIn W s s') : UniqIn W k s' := by
  rcases hc with e | ⟨i, -, e2, e3, e4⟩
  · rw [e]; exact hs
  · refine ⟨e2, e3.trans hs.2.1, by rw [e4]; exact hs.2.2.1.set_null i, fun j a b hj => ?_⟩
    rw [e4] at hj
    simp only [View.set] at hj
    split at hj
    · cases hj; exact .inl ⟨rfl, rfl⟩
    · exact hs.2.2.2 j a b hj

/-! #### No dangling references -/

/-- Which updates keep all references: the ends are null, or name links. -/
def LiveEnds (s : S) (i a b : Nat) : Prop :=
  (a = 0 ∧ b = 0) ∨ (D.view s a ≠ none ∧ D.view s b ≠ none ∧ W.CanUpdate (D.view s) i a b)

/-- Every link of `s` is still a link in `s'`. -/
def Stays (D : Links S) (s s' : S) : Prop := ∀ j, D.view s j ≠ none → D.view s' j ≠ none

theorem Whole.set {v : View} (h : Whole v) {i a b : Nat} (hab : (a = 0 ∧ b = 0) ∨ (v a ≠ none ∧ v b ≠ none)) :
    Whole (v.set i (a, b)) := by
  have hl : ∀ j, v j ≠ none → v.set i (a, b) j ≠ none := by
    intro j hj; simp only [View.set]; split
    · simp
    · exact hj
  intro j x y hj
  simp only [View.set] at hj
  split at hj
  · cases hj
    exact hab.imp id fun e => ⟨hl _ e.1, hl _ e.2⟩
  · exact (h j x y hj).imp id fun e => ⟨hl _ e.1, hl _ e.2⟩

theorem Whole.del {v : View} (h : Whole v) (h0 : v 0 = none) {i : Nat} (hi : ∀ j, ¬ v.Uses i j) (hv : v i ≠ none) :
    Whole (v.del i) := by
  have hi0 : i ≠ 0 := by rintro rfl; exact hv h0
  intro j x y hj
  simp only [View.del] at hj
  split at hj
  · cases hj
  · next hji =>
    rcases h j x y hj with e | ⟨e1, e2⟩
    · exact .inl e
    · have h1 : x ≠ i := fun e => hi j ⟨hji, x, y, hj, .inl e⟩
      have h2 : y ≠ i := fun e => hi j ⟨hji, x, y, hj, .inr e⟩
      exact .inr ⟨by rw [View.del_other _ h1]; exact e1, by rw [View.del_other _ h2]; exact e2⟩

theorem wholeIn_update (h0 : ∀ s i, W.Inv s → W.CanUpdate (D.view s) i 0 0) :
    UpdateKeeps (uniqueValidator D) (WholeIn W k) (LiveEnds W) (Stays D) := by
  intro σ s i x a b hd st o hs he ho
  have hE : Ends k.any a b := he.imp id fun e => by
    have := live_ends W hs.1 e.1 e.2.1
    rwa [hs.2.1] at this
  have hC : W.CanUpdate (D.view s) i a b := by
    rcases he with ⟨rfl, rfl⟩ | e
    · exact h0 _ _ hs.1
    · exact e.2.2
  rcases uniqueValidator_cases W hs.uniqIn hE hC ho with e | ⟨e1, e2, e3, e4, e5⟩
  · rw [e]; exact ⟨hs, fun _ h => h⟩
  · refine ⟨⟨e1, e2.trans hs.2.1, e5, by rw [e4]; exact hs.2.2.2.set (he.imp id fun e => ⟨e.1, e.2.1⟩)⟩, fun j hj => ?_⟩
    rw [e4]; simp only [View.set]; split
    · simp
    · exact hj

theorem usagesValidator_delete_cases {D' : Links S} (f : Forwards D D') (hd' : @Links.deleteLinks S D' = @Links.deleteLinks S D)
    (hix : k.indexPart = 0) (hs : WholeIn W k s) {σ : Type} {i : Nat} {hd : WH σ} {st : σ} {o : Out S σ Flow}
    (ho : (usagesValidator D').deleteLinks s [i] hd st = some o) : WholeIn W k o.st := by
  obtain ⟨h1, h2, h3, h4⟩ := hs
  have ho : checkUsages D s [i] st (D.deleteByWith s [i] hd st) = some o := by
    rw [← ho]
    simp only [usagesValidator, f.checkUsages, Links.deleteByWith, hd']
  rcases checkUsages_law W h1 (h2 ▸ hix) i st ho with ⟨-, rfl⟩ | ⟨e1, e2, e3⟩ | ⟨-, -, ls, rfl, -⟩
  · exact ⟨h1, h2, h3, h4⟩
  · cases hv : D.view s i with
    | none => exact absurd hv e1
    | some p =>
      obtain ⟨s', k1, k2, k3, k4⟩ := W.delete s h1 i p hv (h3 i) (W.canDelete_uniq _ _ h3)
      rw [deleteByWith_ok k4] at e3
      cases e3
      exact ⟨k1, k2.trans h2, by rw [k3]; exact h3.del i, by rw [k3]; exact h4.del (W.null s h1) e2 e1⟩
  · exact ⟨h1, h2, h3, h4⟩

theorem wholeIn_create (hs : WholeIn W k s) {s' : S} (hc : CreatedIn W s s') : WholeIn W k s' ∧ Stays D s s' := by
  rcases hc with e | ⟨i, e1, e2, e3, e4⟩
  · rw [e]; exact ⟨hs, fun _ h => h⟩
  · refine ⟨⟨e2, e3.trans hs.2.1, by rw [e4]; exact hs.2.2.1.set_null i,
      by rw [e4]; exact hs.2.2.2.set (.inl ⟨rfl, rfl⟩)⟩, fun j hj => ?_⟩
    rw [e4]; simp only [View.set]; split
    · simp
    · exact hj

/-! #### The stacks -/

theorem pair_ends (hs : UniqIn W k s) {i : Nat} {l : Link} {L1 L2 : List Link} (hi : D.tryGetLink s i = some (.ok l))
    (h1 : D.eachIter s [(D.consts s).any, i, (D.consts s).any] = some L1)
    (h2 : D.eachIter s [(D.consts s).any, (D.consts s).any, i] = some L2) :
    i ≠ 0 ∧ ∀ u ∈ L1 ++ L2, (D.view s).Has u := by
  have hv : ∃ p, D.view s i = some p := by
    unfold Links.tryGetLink at hi
    rw [W.get s hs.1] at hi
    cases hv : D.view s i with
    | none => rw [hv] at hi; simp at hi
    | some p => exact ⟨p, rfl⟩
  obtain ⟨p, hv⟩ := hv
  obtain ⟨g0, -, M1, M2, g1, -, g3, g4, -, g6, -⟩ := usage_lists W hs.1 hv
  simp only [Links.eachIter, collect_eq g1, collect_eq g4, Option.bind_eq_some_iff] at h1 h2
  obtain ⟨_, -, h1⟩ := h1
  obtain ⟨_, -, h2⟩ := h2
  cases h1; cases h2
  refine ⟨g0, fun u hu => ?_⟩
  rcases List.mem_append.1 hu with hu | hu
  · exact ((g3 u).1 hu).1
  · exact ((g6 u).1 hu).1

/-- Every stack over `UniqueValidator`. -/
theorem stack_uniqIn (hnull : k.null = 0) (hcan : ∀ v i a b, Ends k.any a b → W.CanUpdate v i a b)
    (h00 : ∀ s j, W.Inv s → D.search s 0 0 = some (some j) → D.view s j ≠ none) : ∀ ds : List Deco,
    DeleteKeeps (stack ds (uniqueValidator D)) (UniqIn W k) ∧
    UpdateKeeps (stack ds (uniqueValidator D)) (UniqIn W k) (fun _ _ a b => Ends k.any a b) fun _ _ => True := by
  intro ds
  induction ds with
  | nil => exact ⟨uniqIn_delete W, uniqIn_update W hcan⟩
  | cons d ds ih =>
    have f : Forwards D (stack ds (uniqueValidator D)) :=
      let g := Forwards.stack (uniqueValidator D) ds
      ⟨g.maxT, g.consts, g.count, g.each, g.get, g.create⟩
    refine ⟨ih.1.wrap ih.2 (fun s i hs => ?_) d, ?_⟩
    · rw [f.consts, hs.2.1, hnull]; exact .inl ⟨rfl, rfl⟩
    · by_cases hd : d.plain = true
      · exact ih.2.wrap (fun _ => trivial) hd
      · cases d with
        | uniqueResolver => exact UpdateKeeps.uniqueResolver ih.1 ih.2
        | cascadeUniqueResolver =>
          refine UpdateKeeps.cascadeUniqueResolver ih.1 ih.2 ?_
          intro s i j a b L1 L2 hs hV hj e1 e2 ⟨l, e3⟩ u hu
          rw [f.search] at hj
          rw [f.eachIter, f.consts] at e1 e2
          rw [f.tryGetLink] at e3
          obtain ⟨hi0, hall⟩ := pair_ends W hs e3 e1 e2
          have hj : D.view s j ≠ none := by
            rcases hV with ⟨rfl, rfl⟩ | ⟨c1, c2, c3, c4⟩
            · exact h00 s j hs.1 hj
            · rcases search_law W hs.1 c1 (hs.2.1 ▸ c2) c3 (hs.2.1 ▸ c4) with ⟨g1, -⟩ | ⟨i', g1, g2⟩
              · rw [hj] at g1; cases g1
              · rw [hj] at g1; cases g1; rw [g2]; simp
          have hj' := live_ends W hs.1 hj hj
          rw [hs.2.1] at hj'
          have hue := hs.2.2.2 _ _ _ (hall u hu)
          constructor
          · intro e
            rcases hue with c | c
            · exact absurd (e ▸ c.1) hi0
            · exact .inr ⟨hj'.1, hj'.2.1, c.2.2⟩
          · intro e
            rcases hue with c | c
            · exact absurd (e ▸ c.2) hi0
            · exact .inr ⟨c.1, c.2.1, hj'.1, hj'.2.1⟩
        | _ => exact absurd rfl hd

/-- Every stack of plain decorators over a store. -/
theorem stack_plain {P : S → Prop} {U : S → Nat → Nat → Nat → Prop} {T : S → S → Prop} (k1 : DeleteKeeps D P)
    (k2 : UpdateKeeps D P U T) (hr : ∀ s, T s s) (h0 : ∀ s i, P s → U s i (D.consts s).null (D.consts s).null) :
    ∀ ds : List Deco, (∀ d ∈ ds, d.plain = true) →
    DeleteKeeps (stack ds D) P ∧ UpdateKeeps (stack ds D) P U T := by
  intro ds
  induction ds with
  | nil => intro _; exact ⟨k1, k2⟩
  | cons d ds ih =>
    intro hd
    obtain ⟨g1, g2⟩ := ih fun e he => hd e (by simp [he])
    refine ⟨g1.wrap g2 (fun s i hs => ?_) d, g2.wrap hr (hd d (by simp))⟩
    rw [(Forwards.stack D ds).consts]
    exact h0 s i hs

/-- Both validators on the store, in either order. -/
theorem validators_wholeIn (hix : k.indexPart = 0) (h0 : ∀ s i, W.Inv s → W.CanUpdate (D.view s) i 0 0) {D' : Links S}
    (hD : D' = usagesValidator (uniqueValidator D) ∨ D' = uniqueValidator (usagesValidator D)) :
    DeleteKeeps D' (WholeIn W k) ∧ UpdateKeeps D' (WholeIn W k) (LiveEnds W) (Stays D) := by
  have hr : ∀ s, Stays D s s := fun _ _ h => h
  rcases hD with rfl | rfl
  · refine ⟨?_, (wholeIn_update W h0).wrap hr (d := .usagesValidator) rfl⟩
    intro σ s i hd st o hs ho
    exact usagesValidator_delete_cases W (D' := uniqueValidator D) ⟨rfl, rfl, rfl, rfl, rfl, rfl⟩ rfl hix hs ho
  · refine ⟨?_, ?_⟩
    · intro σ s i hd st o hs ho
      exact usagesValidator_delete_cases W (.refl D) rfl hix hs ho
    · intro σ s i x a b hd st o hs he ho
      simp only [uniqueValidator, List.getElem?_cons_zero, List.getElem?_cons_succ, Option.bind_eq_some_iff] at ho
      obtain ⟨f, hf, ho⟩ := ho
      split at ho
      · cases ho; exact ⟨hs, hr _⟩
      · next hff =>
        have hf : D.found s [(D.consts s).any, a, b] = some false := by
          have : f = false := by simpa using hff
          rw [← this]; exact hf
        simp only [updateByWith, Option.map_eq_some_iff] at ho
        obtain ⟨o', h1, rfl⟩ := ho
        rcases checkUsages_cases h1 with e | e
        · show WholeIn W k o'.st ∧ Stays D s o'.st
          rw [e]; exact ⟨hs, hr _⟩
        · refine wholeIn_update W h0 (x := x) hs he (h := wrapW hd) (st := (st, .cont)) (o := o') ?_
          rw [uniqueValidator_not_found hf]; exact e

end Stores

end Verif
