import Verif.Props.Decorators
import Verif.Props.UniqueExact
import Verif.Props.SplitUniqueExact
import Verif.Props.SplitDerived

/-!
# C108: what storing a pair through a decorator does

`create_link(a, b)` is a creation followed by an update, and the decorators act on the update only. So a decorator that
refuses the update leaves the created link behind, and one that resolves it deletes the created link again. The theorems
hold over every lawful store; the views are those of the store below.
-/

namespace Verif.Deco.Props
open Verif Verif.Links

variable {S : Type} {D : Links S} (W : Lawful D) {s : S}

/-- `create_link` of a store whose creation ends well is the update of the created link. -/
theorem createLink_step {D' : Links S} {s1 : S} {i : Nat} (x y : Nat)
    (hS : Succeeds (fun _ h st => D'.createLinks s [] h st) s1 Link.nothing ⟨i, 0, 0⟩) :
    D'.createLink s x y =
      (D'.updateWith s1 i x y (fuseCall keepIndex) ⟨i, false⟩).map fun o =>
        resultIndex ⟨o.res, o.st, o.hs.inner⟩ := by
  simp only [createLink, createLinkWith, createWith, createByWith_ok hS, Option.bind_some, createLinkH, fuseCall_eq,
    keepIndex, Option.map_map]
  rfl

theorem createLink_refused {D' : Links S} {e : Err} (x y : Nat)
    (hf : Fails (fun _ h st => D'.createLinks s [] h st) s e) :
    D'.createLink s x y = some ⟨.error e, s, ()⟩ := by
  simp [createLink, createLinkWith, createWith, createByWith_err hf, resultIndex, Except.map]

theorem createLink_then_ok {D' : Links S} {s1 s2 : S} {i : Nat} {before : Link} (x y : Nat)
    (hS : Succeeds (fun _ h st => D'.createLinks s [] h st) s1 Link.nothing ⟨i, 0, 0⟩)
    (hU : Succeeds (fun _ h st => D'.updateLinks s1 [i] [i, x, y] h st) s2 before ⟨i, x, y⟩) :
    D'.createLink s x y = some ⟨.ok i, s2, ()⟩ := by
  rw [createLink_step x y hS]
  simp [updateWith, updateByWith_ok hU, fuseCall_eq, keepIndex, resultIndex, Except.map]

theorem createLink_then_err {D' : Links S} {s1 : S} {i : Nat} {e : Err} (x y : Nat)
    (hS : Succeeds (fun _ h st => D'.createLinks s [] h st) s1 Link.nothing ⟨i, 0, 0⟩)
    (hU : Fails (fun _ h st => D'.updateLinks s1 [i] [i, x, y] h st) s1 e) :
    D'.createLink s x y = some ⟨.error e, s1, ()⟩ := by
  rw [createLink_step x y hS]
  simp [updateWith, updateByWith_err hU, resultIndex, Except.map]

/-- A pair that is not null is stored after a creation where it was before. -/
theorem set_null_pair {v : View} {i a b : Nat} (ha : a ≠ 0) (hv : v i = none) (j : Nat) :
    (v.set i (0, 0)) j = some (a, b) ↔ v j = some (a, b) := by
  by_cases hj : j = i
  · subst hj; rw [View.set_same, hv]; simp [Ne.symm ha]
  · rw [View.set_other _ _ hj]

/-! ## `UniqueValidator` -/

/-- **C108**, `UniqueValidator`: `create_link(a, b)` (the ends neither null nor the wildcard) either is refused by the store
and changes nothing, or fails with AlreadyExists **and leaves a new link with null ends behind**, or stores the pair in a
new link, and then no link was (a, b). If some link is (a, b), it is one of the first two. -/
theorem C108_unique_validator_create_link (hs : W.Inv s) (hg : W.CanCreate s) {a b : Nat} (ha : a ≠ 0)
    (ha' : a ≠ (D.consts s).any) (hb : b ≠ 0) (hb' : b ≠ (D.consts s).any)
    (hcan : ∀ i, D.view s i = none → W.CanUpdate ((D.view s).set i (0, 0)) i a b) :
    (∃ e, D.create s = some ⟨.error e, s, ()⟩ ∧ (uniqueValidator D).createLink s a b = some ⟨.error e, s, ()⟩) ∨
    (∃ i s', D.view s i = none ∧ W.Inv s' ∧ D.consts s' = D.consts s ∧ D.view s' = (D.view s).set i (0, 0) ∧
      (uniqueValidator D).createLink s a b = some ⟨.error (.alreadyExists a b), s', ()⟩) ∨
    ((∀ j, D.view s j ≠ some (a, b)) ∧ ∃ i s', D.view s i = none ∧ W.Inv s' ∧ D.consts s' = D.consts s ∧
      D.view s' = (D.view s).set i (a, b) ∧ (uniqueValidator D).createLink s a b = some ⟨.ok i, s', ()⟩) := by
  rcases create_law W hs hg with ⟨e, hf, h⟩ | ⟨i, s1, h1, h2, h3, h4, h5, hS⟩
  · exact .inl ⟨e, h, createLink_refused (D' := uniqueValidator D) a b hf⟩
  · right
    obtain ⟨f, hf, hf'⟩ := found_pair W h2 ha (by rw [h3]; exact ha') hb (by rw [h3]; exact hb')
    cases f with
    | true =>
      exact .inl ⟨i, s1, h1, h2, h3, h4,
        createLink_then_err (D' := uniqueValidator D) a b hS (uniqueValidator_found (i := i) (x := i) hf)⟩
    | false =>
      have hno : ∀ j, D.view s j ≠ some (a, b) := fun j hj => by
        cases hf' ⟨j, by rw [h4]; exact (set_null_pair ha h1 j).2 hj⟩
      obtain ⟨s2, before, k1, k2, k3, k4, k5⟩ := W.update s1 h2 i (0, 0) (by rw [h4, View.set_same])
        (by rw [h4]; exact noTwin_null) i a b (by rw [h4]; exact hcan i h1)
      refine .inr ⟨hno, i, s2, h1, k2, k3.trans h3, by rw [k4, h4, set_set], ?_⟩
      refine createLink_then_ok (D' := uniqueValidator D) a b hS (before := before) ?_
      intro σ h st
      show (uniqueValidator D).updateLinks s1 [i] [i, a, b] h st = _
      rw [uniqueValidator_not_found hf]
      exact updateByWith_ok k5 h st

/-- `n` calls of `create_link(a, b)`, whatever they return. -/
def insist (D : Links S) (a b : Nat) : Nat → S → Option S
  | 0, s => some s
  | n + 1, s => (D.createLink s a b).bind fun o => insist D a b n o.st

/-- **C108**, `UniqueValidator`: failing calls fill the store. If some link is (a, b), then after `n` calls of
`create_link(a, b)`, none of which succeeds, there are `n` more links, all with null ends, unless the store is full before
that. -/
theorem C108_unique_validator_fills_the_store {a b : Nat} (ha : a ≠ 0) (hb : b ≠ 0)
    (hcan : ∀ v i, v i = some (0, 0) → W.CanUpdate v i a b) (n : Nat) :
    ∀ s, W.Inv s → (∀ m, m < n → ∀ s', insist (uniqueValidator D) a b m s = some s' → W.CanCreate s') →
    a ≠ (D.consts s).any → b ≠ (D.consts s).any → (∃ j, D.view s j = some (a, b)) →
    ∃ (s' : S) (ids : List Nat), insist (uniqueValidator D) a b n s = some s' ∧ W.Inv s' ∧ ids.Nodup ∧
      (∀ i ∈ ids, D.view s i = none) ∧ (∀ k, D.view s' k = if k ∈ ids then some (0, 0) else D.view s k) ∧
      (ids.length = n ∨ ids.length < n ∧ ∃ e, D.create s' = some ⟨.error e, s', ()⟩) := by
  induction n with
  | zero => exact fun s hs _ _ _ _ => ⟨s, [], rfl, hs, List.nodup_nil, by simp, by simp, .inl rfl⟩
  | succ n ih =>
    intro s hs hg ha' hb' ⟨j, hj⟩
    rcases C108_unique_validator_create_link W hs (hg 0 (by omega) s rfl) ha ha' hb hb'
      (fun i _ => hcan _ _ (View.set_same _ _ _)) with ⟨e, h1, h2⟩ | ⟨i, s1, h1, h2, h3, h4, h5⟩ | ⟨hno, -⟩
    · refine ⟨s, [], ?_, hs, List.nodup_nil, by simp, by simp, .inr ⟨by simp, e, h1⟩⟩
      have hfix : ∀ m, insist (uniqueValidator D) a b m s = some s := by
        intro m
        induction m with
        | zero => rfl
        | succ m ihm => rw [insist, h2]; exact ihm
      exact hfix _
    · obtain ⟨s', ids, g1, g2, g3, g4, g5, g6⟩ := ih s1 h2
        (fun m hm s' hs' => hg (m + 1) (by omega) s' (by rw [insist, h5]; exact hs'))
        (by rw [h3]; exact ha') (by rw [h3]; exact hb')
        ⟨j, by rw [h4]; exact (set_null_pair ha h1 j).2 hj⟩
      have hi : i ∉ ids := fun hi => by
        have := g4 i hi; rw [h4, View.set_same] at this; cases this
      refine ⟨s', i :: ids, by rw [insist, h5]; exact g1, g2, List.nodup_cons.2 ⟨hi, g3⟩, ?_, ?_, ?_⟩
      · intro k hk
        rcases List.mem_cons.1 hk with rfl | hk
        · exact h1
        · have := g4 k hk
          rw [h4] at this
          by_cases hki : k = i
          · subst hki; exact h1
          · rwa [View.set_other _ _ hki] at this
      · intro k
        rw [g5, h4]
        by_cases hki : k = i
        · subst hki; simp [View.set_same]
        · simp [View.set_other _ _ hki, hki]
      · rcases g6 with g6 | ⟨g6, g7⟩
        · exact .inl (by simp [g6])
        · exact .inr ⟨by simp only [List.length_cons]; omega, g7⟩
    · exact absurd hj (hno j)

/-- **C108**, `UniqueValidator`: `get_or_create` does not have that fault. If some link is (a, b), it returns one that is,
without any effect; otherwise it is `create_link`. -/
theorem C108_unique_validator_get_or_create (hs : W.Inv s) {a b : Nat} (ha : a ≠ 0) (ha' : a ≠ (D.consts s).any)
    (hb : b ≠ 0) (hb' : b ≠ (D.consts s).any) :
    ((∃ j, D.view s j = some (a, b)) → ∃ j, D.view s j = some (a, b) ∧
      (uniqueValidator D).getOrCreate s a b = some ⟨.ok j, s, ()⟩) ∧
    ((∀ j, D.view s j ≠ some (a, b)) →
      (uniqueValidator D).getOrCreate s a b = (uniqueValidator D).createLink s a b) := by
  have hsr : (uniqueValidator D).search s a b = D.search s a b := rfl
  rcases search_law W hs ha ha' hb hb' with ⟨h1, h2⟩ | ⟨j, h1, h2⟩
  · exact ⟨fun ⟨j, hj⟩ => absurd hj (h2 j), fun _ => by simp [getOrCreate, hsr, h1]⟩
  · exact ⟨fun _ => ⟨j, h2, by simp [getOrCreate, hsr, h1]⟩, fun hno => absurd h2 (hno j)⟩

/-! ## `UniqueResolver` -/

/-- The state in which a resolving decorator leaves the store if link `old` is (a, b): the created link is deleted, `old` is
given the doublet it has. -/
theorem resolve_steps {s1 : S} {i old a b : Nat} (h2 : W.Inv s1) (hu : (D.view s1).Uniq)
    (hi : D.view s1 i = some (0, 0)) (ho : D.view s1 old = some (a, b)) (ha : a ≠ 0)
    (hcan' : W.CanUpdate ((D.view s1).del i) old a b) :
    ∃ s2 s3 before, W.Inv s3 ∧ D.view s3 = (D.view s1).del i ∧
      Succeeds (fun _ h st => D.deleteLinks s1 [i] h st) s2 ⟨i, 0, 0⟩ Link.nothing ∧
      Succeeds (fun _ h st => D.updateLinks s2 [old] [old, a, b] h st) s3 before ⟨old, a, b⟩ := by
  have hoi : old ≠ i := by rintro rfl; rw [hi] at ho; cases ho; exact ha rfl
  obtain ⟨s2, k1, k2, k3, k4⟩ := W.delete s1 h2 i (0, 0) hi (hu i) (W.canDelete_uniq _ _ hu)
  have hv1 : D.view s2 old = some (a, b) := by rw [k3, View.del_other _ hoi, ho]
  obtain ⟨s3, before, q1, q2, q3, q4, q5⟩ := W.update s2 k1 old (a, b) hv1 (by rw [k3]; exact hu.del i old) old a b
    (by rw [k3]; exact hcan')
  refine ⟨s2, s3, before, q2, ?_, k4, q5⟩
  rw [q4, k3]
  funext k
  by_cases hk : k = old
  · subst hk; rw [View.set_same, View.del_other _ hoi, ho]
  · rw [View.set_other _ _ hk]

/-- Rebasing a link nobody refers to does nothing. -/
theorem rebase_unused {s1 : S} {i new : Nat} {p : Nat × Nat} (h2 : W.Inv s1) (hi : D.view s1 i = some p)
    (hne : i ≠ new) (hfree : ∀ j x y, D.view s1 j = some (x, y) → x ≠ i ∧ y ≠ i) {σ ρ : Type} (h : Hd σ ρ) (st : σ) :
    D.rebaseWith s1 i new h st = some ⟨.ok (), s1, st⟩ := by
  obtain ⟨h0, ha, L1, L2, v1, n1, m1, v2, n2, m2, c1, c2⟩ := usage_lists W h2 hi
  have e1 : L1 = [] := List.eq_nil_iff_forall_not_mem.2 fun l hl =>
    (hfree _ _ _ ((m1 l).1 hl).1).1 ((m1 l).1 hl).2
  have e2 : L2 = [] := List.eq_nil_iff_forall_not_mem.2 fun l hl =>
    (hfree _ _ _ ((m2 l).1 hl).1).2 ((m2 l).1 hl).2
  simp only [rebaseWith, tryGetLink, W.get s1 h2, hi, Option.map_some, Option.bind_some, if_neg hne,
    eachIter, countBy, c1, c2, collect_eq v1, collect_eq v2]
  rw [e1, e2]
  rfl

theorem del_set_null {v : View} {i : Nat} (hv : v i = none) : (v.set i (0, 0)).del i = v := by
  funext k
  by_cases hk : k = i
  · subst hk; rw [View.del_same, hv]
  · rw [View.del_other _ hk, View.set_other _ _ hk]

/-- **C108**, `UniqueResolver`: in a store with unique doublets `create_link(a, b)` (the ends neither null nor the wildcard)
either is refused by the store and changes nothing, or returns **the** link that is (a, b) afterwards: the old one, and the
store is as before, if there was one; a new one, and nothing else has changed, otherwise. Doublets stay unique. -/
theorem C108_unique_resolver_create_link (hs : W.Inv s) (hg : W.CanCreate s) (hu : (D.view s).Uniq) {a b : Nat}
    (ha : a ≠ 0) (ha' : a ≠ (D.consts s).any) (hb : b ≠ 0) (hb' : b ≠ (D.consts s).any)
    (hcan : ∀ i, D.view s i = none → W.CanUpdate ((D.view s).set i (0, 0)) i a b)
    (hcan' : ∀ old, D.view s old = some (a, b) → W.CanUpdate (D.view s) old a b) :
    (∃ e, D.create s = some ⟨.error e, s, ()⟩ ∧ (uniqueResolver D).createLink s a b = some ⟨.error e, s, ()⟩) ∨
    ∃ r s', W.Inv s' ∧ (uniqueResolver D).createLink s a b = some ⟨.ok r, s', ()⟩ ∧ (D.view s').Uniq ∧
      (∀ j, D.view s' j = some (a, b) ↔ j = r) ∧
      ((∃ j, D.view s j = some (a, b)) → D.view s r = some (a, b) ∧ D.view s' = D.view s) ∧
      ((∀ j, D.view s j ≠ some (a, b)) → D.view s r = none ∧ D.view s' = (D.view s).set r (a, b)) := by
  rcases create_law W hs hg with ⟨e, hf, h⟩ | ⟨i, s1, h1, h2, h3, h4, h5, hS⟩
  · exact .inl ⟨e, h, createLink_refused (D' := uniqueResolver D) a b hf⟩
  · right
    have hu1 : (D.view s1).Uniq := by rw [h4]; exact hu.set_null i
    have hi1 : D.view s1 i = some (0, 0) := by rw [h4, View.set_same]
    rcases search_law W h2 ha (by rw [h3]; exact ha') hb (by rw [h3]; exact hb') with ⟨g1, g2⟩ | ⟨old, g1, g2⟩
    · have hno : ∀ j, D.view s j ≠ some (a, b) := fun j hj => g2 j (by rw [h4]; exact (set_null_pair ha h1 j).2 hj)
      obtain ⟨s2, before, k1, k2, k3, k4, k5⟩ := W.update s1 h2 i (0, 0) hi1 (hu1 i) i a b
        (by rw [h4]; exact hcan i h1)
      have hv2 : D.view s2 = (D.view s).set i (a, b) := by rw [k4, h4, set_set]
      refine ⟨i, s2, k2, ?_, by rw [hv2]; exact hu.set fun j _ => hno j, ?_,
        fun ⟨j, hj⟩ => absurd hj (hno j), fun _ => ⟨h1, hv2⟩⟩
      · refine createLink_then_ok (D' := uniqueResolver D) a b hS (before := before) ?_
        intro σ h st
        simp only [uniqueResolver, List.getElem?_cons_zero, List.getElem?_cons_succ, g1, Option.bind_some]
        exact updateByWith_ok k5 h st
      · intro j
        rw [hv2]
        by_cases hj : j = i
        · subst hj; simp [View.set_same]
        · rw [View.set_other _ _ hj]; exact ⟨fun h => absurd h (hno j), fun h => absurd h hj⟩
    · have g2' : D.view s old = some (a, b) := by rw [h4] at g2; exact (set_null_pair ha h1 old).1 g2
      obtain ⟨s2, s3, before, k1, k2, k3, k4⟩ := resolve_steps W h2 hu1 hi1 g2 ha
        (by rw [h4, del_set_null h1]; exact hcan' old g2')
      have hv3 : D.view s3 = D.view s := by rw [k2, h4, del_set_null h1]
      refine ⟨old, s3, k1, ?_, by rw [hv3]; exact hu, ?_, fun _ => ⟨g2', hv3⟩, fun hno => absurd g2' (hno old)⟩
      · rw [createLink_step (D' := uniqueResolver D) a b hS]
        have hcall : ∀ {σ : Type} (h : WH σ) (st : σ), (uniqueResolver D).updateLinks s1 [i] [i, a, b] h st =
            let st1 := (h st ⟨i, 0, 0⟩ Link.nothing).2
            some ⟨.ok (h st1 before ⟨old, a, b⟩).1, s3, (h st1 before ⟨old, a, b⟩).2⟩ := by
          intro σ h st
          simp only [uniqueResolver, List.getElem?_cons_zero, List.getElem?_cons_succ, g1, Option.bind_some,
            deleteWith, deleteByWith_ok k3, updateWith, updateByWith_ok k4]
        simp only [updateWith, updateByWith, hcall]
        simp [unwrapW, wrapW, fuseCall_eq, keepIndex, resultIndex, Except.map]
      · intro j
        rw [hv3]
        exact ⟨fun hj => hu old (a, b) g2' (by simp [ha]) j hj, fun hj => by rw [hj]; exact g2'⟩

/-! ## `CascadeUniqueResolver` -/

/-- **C108**, `CascadeUniqueResolver`: the same in a store with unique doublets in which links refer to null or to existing links only.
(If a link refers to an index that names no link, creating a link with this index and resolving it redirects the
reference.) -/
theorem C108_cascade_unique_resolver_create_link (hs : W.Inv s) (hg : W.CanCreate s) (hu : (D.view s).Uniq)
    (hclosed : Closed (D.view s)) {a b : Nat}
    (ha : a ≠ 0) (ha' : a ≠ (D.consts s).any) (hb : b ≠ 0) (hb' : b ≠ (D.consts s).any)
    (hcan : ∀ i, D.view s i = none → W.CanUpdate ((D.view s).set i (0, 0)) i a b)
    (hcan' : ∀ old, D.view s old = some (a, b) → W.CanUpdate (D.view s) old a b) :
    (∃ e, D.create s = some ⟨.error e, s, ()⟩ ∧ (cascadeUniqueResolver D).createLink s a b = some ⟨.error e, s, ()⟩) ∨
    ∃ r s', W.Inv s' ∧ (cascadeUniqueResolver D).createLink s a b = some ⟨.ok r, s', ()⟩ ∧ (D.view s').Uniq ∧
      (∀ j, D.view s' j = some (a, b) ↔ j = r) ∧
      ((∃ j, D.view s j = some (a, b)) → D.view s r = some (a, b) ∧ D.view s' = D.view s) ∧
      ((∀ j, D.view s j ≠ some (a, b)) → D.view s r = none ∧ D.view s' = (D.view s).set r (a, b)) := by
  rcases create_law W hs hg with ⟨e, hf, h⟩ | ⟨i, s1, h1, h2, h3, h4, h5, hS⟩
  · exact .inl ⟨e, h, createLink_refused (D' := cascadeUniqueResolver D) a b hf⟩
  · right
    have hi0 : i ≠ 0 := by
      rintro rfl
      have := W.null s1 h2
      rw [h4, View.set_same] at this; cases this
    have hu1 : (D.view s1).Uniq := by rw [h4]; exact hu.set_null i
    have hi1 : D.view s1 i = some (0, 0) := by rw [h4, View.set_same]
    have hfree : ∀ j x y, D.view s1 j = some (x, y) → x ≠ i ∧ y ≠ i := by
      intro j x y hj
      rw [h4] at hj
      by_cases hji : j = i
      · subst hji; rw [View.set_same] at hj; cases hj; exact ⟨Ne.symm hi0, Ne.symm hi0⟩
      · rw [View.set_other _ _ hji] at hj
        obtain ⟨c1, c2⟩ := hclosed j x y hj
        exact ⟨fun h => c1 (h ▸ hi0) (h ▸ h1), fun h => c2 (h ▸ hi0) (h ▸ h1)⟩
    rcases search_law W h2 ha (by rw [h3]; exact ha') hb (by rw [h3]; exact hb') with ⟨g1, g2⟩ | ⟨old, g1, g2⟩
    · have hno : ∀ j, D.view s j ≠ some (a, b) := fun j hj => g2 j (by rw [h4]; exact (set_null_pair ha h1 j).2 hj)
      obtain ⟨s2, before, k1, k2, k3, k4, k5⟩ := W.update s1 h2 i (0, 0) hi1 (hu1 i) i a b
        (by rw [h4]; exact hcan i h1)
      have hv2 : D.view s2 = (D.view s).set i (a, b) := by rw [k4, h4, set_set]
      refine ⟨i, s2, k2, ?_, by rw [hv2]; exact hu.set fun j _ => hno j, ?_,
        fun ⟨j, hj⟩ => absurd hj (hno j), fun _ => ⟨h1, hv2⟩⟩
      · refine createLink_then_ok (D' := cascadeUniqueResolver D) a b hS (before := before) ?_
        intro σ h st
        simp only [cascadeUniqueResolver, List.getElem?_cons_zero, List.getElem?_cons_succ, g1, Option.bind_some]
        exact updateByWith_ok k5 h st
      · intro j
        rw [hv2]
        by_cases hj : j = i
        · subst hj; simp [View.set_same]
        · rw [View.set_other _ _ hj]; exact ⟨fun h => absurd h (hno j), fun h => absurd h hj⟩
    · have g2' : D.view s old = some (a, b) := by rw [h4] at g2; exact (set_null_pair ha h1 old).1 g2
      have hoi : old ≠ i := by rintro rfl; rw [h1] at g2'; cases g2'
      obtain ⟨s2, s3, before, k1, k2, k3, k4⟩ := resolve_steps W h2 hu1 hi1 g2 ha
        (by rw [h4, del_set_null h1]; exact hcan' old g2')
      have hv3 : D.view s3 = D.view s := by rw [k2, h4, del_set_null h1]
      refine ⟨old, s3, k1, ?_, by rw [hv3]; exact hu, ?_, fun _ => ⟨g2', hv3⟩, fun hno => absurd g2' (hno old)⟩
      · rw [createLink_step (D' := cascadeUniqueResolver D) a b hS]
        have hcall : ∀ {σ : Type} (h : WH σ) (st : σ),
            (cascadeUniqueResolver D).updateLinks s1 [i] [i, a, b] h st =
              let st1 := (h st ⟨i, 0, 0⟩ Link.nothing).2
              some ⟨.ok (h st1 before ⟨old, a, b⟩).1, s3, (h st1 before ⟨old, a, b⟩).2⟩ := by
          intro σ h st
          simp only [cascadeUniqueResolver, List.getElem?_cons_zero, List.getElem?_cons_succ, g1, Option.bind_some,
            rebase_unused W h2 hi1 (Ne.symm hoi) hfree, deleteWith, deleteByWith_ok k3, updateWith, updateByWith_ok k4]
        simp only [updateWith, updateByWith, hcall]
        simp [unwrapW, wrapW, fuseCall_eq, keepIndex, resultIndex, Except.map]
      · intro j
        rw [hv3]
        exact ⟨fun hj => hu old (a, b) g2' (by simp [ha]) j hj, fun hj => by rw [hj]; exact g2'⟩

/-! ## `UsagesValidator` -/

/-- **C108**, `UsagesValidator`: what `create_link(a, b)` does whenever it returns. It is refused by the store and changes
nothing; or a link is created, and if some link refers to its index already, the call fails with HasUsages, listing the
links that do, **and the new link stays, with null ends**; if none does, the new link is (a, b). -/
theorem C108_usages_validator_create_link (hs : W.Inv s) (hg : W.CanCreate s) (hix : (D.consts s).indexPart = 0)
    {a b : Nat} (hcan : ∀ i, D.view s i = none → W.CanUpdate ((D.view s).set i (0, 0)) i a b) {o : Out S _root_.Unit Nat}
    (ho : (usagesValidator D).createLink s a b = some o) :
    (∃ e, D.create s = some ⟨.error e, s, ()⟩ ∧ o = ⟨.error e, s, ()⟩) ∨
    ∃ i, D.view s i = none ∧ W.Inv o.st ∧
      ((∃ j, (D.view s).Uses i j) → D.view o.st = (D.view s).set i (0, 0) ∧ ∃ ls, o.res = .error (.hasUsages ls) ∧
        ∀ l, l ∈ ls ↔ (D.view s).Has l ∧ (l.source = i ∨ l.target = i)) ∧
      ((∀ j, ¬ (D.view s).Uses i j) → D.view o.st = (D.view s).set i (a, b) ∧ o.res = .ok i) := by
  rcases create_law W hs hg with ⟨e, hf, h⟩ | ⟨i, s1, h1, h2, h3, h4, h5, hS⟩
  · rw [createLink_refused (D' := usagesValidator D) a b hf] at ho
    exact .inl ⟨e, h, (Option.some.inj ho).symm⟩
  · refine .inr ⟨i, h1, ?_⟩
    have hi0 : i ≠ 0 := by
      rintro rfl
      have := W.null s1 h2
      rw [h4, View.set_same] at this; cases this
    have hi1 : D.view s1 i = some (0, 0) := by rw [h4, View.set_same]
    have huse : ∀ j, (D.view s1).Uses i j ↔ (D.view s).Uses i j := by
      intro j
      simp only [View.Uses, h4]
      constructor <;> rintro ⟨hj, x, y, h, h'⟩
      · exact ⟨hj, x, y, by rwa [View.set_other _ _ hj] at h, h'⟩
      · exact ⟨hj, x, y, by rwa [View.set_other _ _ hj], h'⟩
    rw [createLink_step (D' := usagesValidator D) a b hS] at ho
    obtain ⟨o1, ho1, rfl⟩ := Option.map_eq_some_iff.1 ho
    obtain ⟨o2, ho2, rfl⟩ := Option.map_eq_some_iff.1 ho1
    obtain ⟨-, k1, k2⟩ := C42_usages_validator_update W h2 (by rw [h3]; exact hix) i a b _ _ ho2
    by_cases hu : ∃ j, (D.view s).Uses i j
    · obtain ⟨j, hj⟩ := hu
      obtain ⟨ls, rfl, hls⟩ := k1 (by rw [hi1]; simp) ⟨j, (huse j).2 hj⟩
      refine ⟨h2, fun _ => ⟨h4, ls, rfl, fun l => ?_⟩, fun hno => absurd hj (hno j)⟩
      rw [hls]
      simp only [View.Has, h4]
      constructor
      · rintro ⟨g1, g2, g3⟩
        exact ⟨by rwa [View.set_other _ _ g2] at g1, g3⟩
      · rintro ⟨g1, g3⟩
        have g2 : l.index ≠ i := fun e => by rw [e, h1] at g1; cases g1
        exact ⟨by rwa [View.set_other _ _ g2], g2, g3⟩
    · have hno : ∀ j, ¬ (D.view s).Uses i j := fun j hj => hu ⟨j, hj⟩
      have k3 := k2 (by rw [hi1]; simp) fun j hj => hno j ((huse j).1 hj)
      obtain ⟨s2, before, q1, q2, q3, q4, q5⟩ := W.update s1 h2 i (0, 0) hi1 (by rw [h4]; exact noTwin_null) i a b
        (by rw [h4]; exact hcan i h1)
      rw [updateWith, updateByWith_ok q5] at k3
      cases k3
      refine ⟨q2, fun h => absurd h hu, fun _ => ⟨by simp only [unwrapW, resultIndex]; rw [q4, h4, set_set], ?_⟩⟩
      simp [unwrapW, wrapW, fuseCall_eq, keepIndex, resultIndex, Except.map]

end Verif.Deco.Props

namespace Verif.Unit.Props
open Verif Links Deco Deco.Props

variable {c : Cfg}

/-- **C108**, `UniqueValidator` over the united store, for every pair of ends: what `create_link(a, b)` does. It is refused by
the store and changes nothing; or a link is created, and if some link, the new one included, is taken for the pair, the
call fails with AlreadyExists and the new link stays, with null ends; otherwise the new link is (a, b). -/
theorem C108_unique_validator_exact (hc : CfgOK c) {s : Store} (h : Reach c s) (hg : CanGrow c s) (a b : Nat) :
    (∃ e, (links c).create s = some ⟨.error e, s, ()⟩ ∧
      (uniqueValidator (links c)).createLink s a b = some ⟨.error e, s, ()⟩) ∨
    ∃ i s', (links c).view s i = none ∧ Reach c s' ∧
      ((∃ j, TakenFor c.consts.any (((links c).view s).set i (0, 0)) a b j) →
        (links c).view s' = ((links c).view s).set i (0, 0) ∧
        (uniqueValidator (links c)).createLink s a b = some ⟨.error (.alreadyExists a b), s', ()⟩) ∧
      ((∀ j, ¬ TakenFor c.consts.any (((links c).view s).set i (0, 0)) a b j) →
        (links c).view s' = ((links c).view s).set i (a, b) ∧
        (uniqueValidator (links c)).createLink s a b = some ⟨.ok i, s', ()⟩) := by
  let W := reachLawful hc
  rcases Links.create_law W h hg with ⟨e, hf, h'⟩ | ⟨i, s1, h1, h2, h3, h4, h5, hS⟩
  · exact .inl ⟨e, h', createLink_refused (D' := uniqueValidator (links c)) a b hf⟩
  · right
    obtain ⟨v1, v2⟩ := C97_unique_validator hc h2 i a b
    rw [h4] at v1 v2
    by_cases ht : ∃ j, TakenFor c.consts.any (((links c).view s).set i (0, 0)) a b j
    · obtain ⟨j, hj⟩ := ht
      exact ⟨i, s1, h1, h2, fun _ => ⟨h4, createLink_then_err (D' := uniqueValidator (links c)) a b hS (v1 ⟨j, hj⟩)⟩,
        fun hno => absurd hj (hno j)⟩
    · obtain ⟨s2, before, k1, k2, k3, k4, k5⟩ := W.update s1 h2 i (0, 0) (by rw [h4, View.set_same])
        (by rw [h4]; exact noTwin_null) i a b trivial
      refine ⟨i, s2, h1, k2, fun hj => absurd hj ht, fun hno => ⟨by rw [k4, h4, set_set], ?_⟩⟩
      exact createLink_then_ok (D' := uniqueValidator (links c)) a b hS (before := before)
        fun σ hd st => (v2 hno hd st).trans (updateByWith_ok k5 hd st)

/-! ### Instances -/

/-- `sNet` is 1 = (1,1), 2 = (1,3), 3 = (2,2), 4 = (0,0), 6 = (3,2). Storing (1,3) twice through `UniqueValidator` fails twice
and leaves two new null links, 5 and 7. -/
example : ((uniqueValidator (links cfg0)).createLink sNet 1 3).map
      (fun o => (o.res, (List.range 8).map ((links cfg0).view o.st))) =
    some (.error (.alreadyExists 1 3),
      [none, some (1, 1), some (1, 3), some (2, 2), some (0, 0), some (0, 0), some (3, 2), none]) ∧
    (insist (uniqueValidator (links cfg0)) 1 3 2 sNet).map (fun s => (List.range 8).map ((links cfg0).view s)) =
      some [none, some (1, 1), some (1, 3), some (2, 2), some (0, 0), some (0, 0), some (3, 2), some (0, 0)] := by
  decide +kernel

theorem sNet_canCreate : (reachLawful cfg0_ok).CanCreate sNet := cfg0_canGrow (by decide +kernel)

example := C108_unique_validator_create_link (reachLawful cfg0_ok) sNet_reach sNet_canCreate (a := 1) (b := 3)
  (by decide) (by decide) (by decide) (by decide) (fun _ _ => trivial)

example := C108_unique_validator_exact cfg0_ok sNet_reach sNet_canCreate 3 1

example := C108_unique_validator_fills_the_store (reachLawful cfg0_ok) (a := 1) (b := 3) (by decide) (by decide)
  (fun _ _ _ => trivial) 2 sNet sNet_reach
  (fun m hm s' hs' => cfg0_canGrow (by
    have : ∀ m, m < 2 → (insist (uniqueValidator (links cfg0)) 1 3 m sNet).map (fun s => decide (s.len ≤ 200)) =
        some true := by decide +kernel
    have := this m hm
    rw [hs'] at this
    simpa using this))
  (by decide) (by decide) ⟨2, by decide +kernel⟩

example := (C108_unique_validator_get_or_create (reachLawful cfg0_ok) sNet_reach (a := 1) (b := 3)
  (by decide) (by decide) (by decide) (by decide)).1 ⟨2, by decide +kernel⟩

/-- Through the resolvers the old link 2 is returned and the contents are as before; a new pair gets the index 5. -/
example : ((uniqueResolver (links cfg0)).createLink sNet 1 3).map
      (fun o => (o.res.toOption, (List.range 8).map ((links cfg0).view o.st))) =
    some (some 2, [none, some (1, 1), some (1, 3), some (2, 2), some (0, 0), none, some (3, 2), none]) ∧
    ((cascadeUniqueResolver (links cfg0)).createLink sNet 1 3).map
      (fun o => (o.res.toOption, (List.range 8).map ((links cfg0).view o.st))) =
    some (some 2, [none, some (1, 1), some (1, 3), some (2, 2), some (0, 0), none, some (3, 2), none]) ∧
    ((uniqueResolver (links cfg0)).createLink sNet 3 1).map
      (fun o => (o.res.toOption, (links cfg0).view o.st 5)) = some (some 5, some (3, 1)) := by
  decide +kernel

example := C108_unique_resolver_create_link (reachLawful cfg0_ok) sNet_reach sNet_canCreate sNet_uniq (a := 1) (b := 3)
  (by decide) (by decide) (by decide) (by decide) (fun _ _ => trivial) (fun _ _ => trivial)

example := C108_cascade_unique_resolver_create_link (reachLawful cfg0_ok) sNet_reach sNet_canCreate sNet_uniq sNet_closed
  (a := 1) (b := 3) (by decide) (by decide) (by decide) (by decide) (fun _ _ => trivial) (fun _ _ => trivial)

/-- 1 = (1,1), 2 = (1,3): link 2 refers to the index 3, which names no link. -/
def sAhead : Store := runs cfg0 [.create, .create, .update 1 1 1, .update 2 1 3]

theorem sAhead_reach : Reach cfg0 sAhead := runs_reach (by decide +kernel)

/-- **C108**: without the condition that links refer to existing links only, storing a pair that is there through
`CascadeUniqueResolver` changes another link: storing (1,1) turns 2 = (1,3) into (1,1), a duplicate. -/
theorem C108_cascade_unique_resolver_redirects : ∃ s s', Reach cfg0 s ∧ ((links cfg0).view s).Uniq ∧
    (links cfg0).view s 1 = some (1, 1) ∧ (links cfg0).view s 2 = some (1, 3) ∧ (links cfg0).view s 3 = none ∧
    (cascadeUniqueResolver (links cfg0)).createLink s 1 1 = some ⟨.ok 1, s', ()⟩ ∧
    (links cfg0).view s' 2 = some (1, 1) := by
  have e : ((cascadeUniqueResolver (links cfg0)).createLink sAhead 1 1).map
      (fun o => (o.res.toOption, (links cfg0).view o.st 2)) = some (some 1, some (1, 1)) := by decide +kernel
  obtain ⟨⟨r, s', u⟩, h1, h2⟩ := Option.map_eq_some_iff.1 e
  cases r with
  | error _ => cases h2
  | ok r =>
    obtain ⟨h3, h4⟩ := Prod.mk.inj h2
    cases h3
    exact ⟨sAhead, s', sAhead_reach, uniq_of_collect (reachLawful cfg0_ok) sAhead_reach (by decide +kernel),
      by decide +kernel, by decide +kernel, by decide +kernel, h1, h4⟩

/-- Storing (1,2) in `sAhead` through `UsagesValidator` fails: link 2 refers to the new link 3, which stays. In `sNet` it
succeeds. -/
example : ((usagesValidator (links cfg0)).createLink sAhead 1 2).map
      (fun o => (o.res, (List.range 4).map ((links cfg0).view o.st))) =
    some (.error (.hasUsages [⟨2, 1, 3⟩]), [none, some (1, 1), some (1, 3), some (0, 0)]) ∧
    ((usagesValidator (links cfg0)).createLink sNet 1 2).map
      (fun o => (o.res.toOption, (links cfg0).view o.st 5)) = some (some 5, some (1, 2)) := by decide +kernel

example {o} (ho : (usagesValidator (links cfg0)).createLink sAhead 1 2 = some o) :=
  C108_usages_validator_create_link (reachLawful cfg0_ok) sAhead_reach (cfg0_canGrow (by decide +kernel)) rfl
    (fun _ _ => trivial) ho

end Verif.Unit.Props

namespace Verif.Split.Props
open Verif Links Deco Deco.Props

variable {c : Cfg}

/-- **C108**, `UniqueValidator` over a split store, for every pair of ends that are not null: as over the united store, with the
condition of `C97_split_unique_validator`, on the links after the creation, for the refusal. -/
theorem C108_split_unique_validator_exact (hc : CfgOK c) {s : Store} (h : Reach c s) (hg : CanGrow c s) (hn : NewUnused c s)
    {a b : Nat} (ha : a ≠ 0) (hb : b ≠ 0) :
    (∃ e, (links c).create s = some ⟨.error e, s, ()⟩ ∧
      (uniqueValidator (links c)).createLink s a b = some ⟨.error e, s, ()⟩) ∨
    ∃ i s', (links c).view s i = none ∧ Reach c s' ∧
      (Refused c.consts.any (((links c).view s).set i (0, 0)) a b →
        (links c).view s' = ((links c).view s).set i (0, 0) ∧
        (uniqueValidator (links c)).createLink s a b = some ⟨.error (.alreadyExists a b), s', ()⟩) ∧
      (¬ Refused c.consts.any (((links c).view s).set i (0, 0)) a b →
        (links c).view s' = ((links c).view s).set i (a, b) ∧
        (uniqueValidator (links c)).createLink s a b = some ⟨.ok i, s', ()⟩) := by
  let W := reachLawful hc
  rcases Links.create_law W h ⟨hg, hn⟩ with ⟨e, hf, h'⟩ | ⟨i, s1, h1, h2, h3, h4, h5, hS⟩
  · exact .inl ⟨e, h', createLink_refused (D' := uniqueValidator (links c)) a b hf⟩
  · right
    obtain ⟨v1, v2⟩ := C97_split_unique_validator hc h2 i ha hb
    rw [h4] at v1 v2
    by_cases ht : Refused c.consts.any (((links c).view s).set i (0, 0)) a b
    · exact ⟨i, s1, h1, h2, fun _ => ⟨h4, createLink_then_err (D' := uniqueValidator (links c)) a b hS (v1 ht)⟩,
        fun hno => absurd ht hno⟩
    · obtain ⟨s2, before, k1, k2, k3, k4, k5⟩ := W.update s1 h2 i (0, 0) (by rw [h4, View.set_same])
        (by rw [h4]; exact noTwin_null) i a b ⟨fun _ => hb, fun _ p hp => by rw [h4, View.set_same] at hp; cases hp; rfl⟩
      refine ⟨i, s2, h1, k2, fun hj => absurd hj ht, fun hno => ⟨by rw [k4, h4, set_set], ?_⟩⟩
      exact createLink_then_ok (D' := uniqueValidator (links c)) a b hS (before := before)
        fun σ hd st => (v2 hno hd st).trans (updateByWith_ok k5 hd st)

/-! ### Instances -/

example : ((uniqueValidator (links cfg0)).createLink sNetU 1 3).map
      (fun o => (o.res, (List.range 8).map ((links cfg0).view o.st))) =
    some (.error (.alreadyExists 1 3),
      [none, some (1, 1), some (1, 3), some (2, 2), some (0, 0), some (0, 0), some (3, 2), none]) ∧
    (insist (uniqueValidator (links cfg0)) 1 3 2 sNetU).map (fun s => (List.range 8).map ((links cfg0).view s)) =
      some [none, some (1, 1), some (1, 3), some (2, 2), some (0, 0), some (0, 0), some (3, 2), some (0, 0)] ∧
    ((uniqueResolver (links cfg0)).createLink sNetU 1 3).map
      (fun o => (o.res.toOption, (List.range 8).map ((links cfg0).view o.st))) =
    some (some 2, [none, some (1, 1), some (1, 3), some (2, 2), some (0, 0), none, some (3, 2), none]) ∧
    ((cascadeUniqueResolver (links cfg0)).createLink sNetU 1 3).map
      (fun o => (o.res.toOption, (List.range 8).map ((links cfg0).view o.st))) =
    some (some 2, [none, some (1, 1), some (1, 3), some (2, 2), some (0, 0), none, some (3, 2), none]) := by
  decide +kernel

theorem sNetU_canCreate : (reachLawful cfg0_ok).CanCreate sNetU := ⟨cfg0_canGrow (by decide +kernel), sNetU_newUnused⟩

theorem fresh_canUpdate {v : View} {i a b : Nat} (hb : b ≠ 0) (hv : v i = some (0, 0)) : CanUpdate v i a b :=
  ⟨fun _ => hb, fun _ p hp => by rw [hv] at hp; cases hp; rfl⟩

example := C108_unique_validator_create_link (reachLawful cfg0_ok) sNetU_reach sNetU_canCreate (a := 1) (b := 3)
  (by decide) (by decide) (by decide) (by decide) (fun _ _ => fresh_canUpdate (by decide) (View.set_same _ _ _))

example := C108_split_unique_validator_exact cfg0_ok sNetU_reach sNetU_canCreate.1 sNetU_canCreate.2 (a := 3) (b := 1)
  (by decide) (by decide)

example := C108_unique_validator_fills_the_store (reachLawful cfg0_ok) (a := 1) (b := 3) (by decide) (by decide)
  (fun _ _ => fresh_canUpdate (by decide)) 1 sNetU sNetU_reach
  (fun m hm s' hs' => by
    obtain rfl : m = 0 := by omega
    cases hs'
    exact sNetU_canCreate)
  (by decide) (by decide) ⟨2, by decide +kernel⟩

example := C108_unique_resolver_create_link (reachLawful cfg0_ok) sNetU_reach sNetU_canCreate sNetU_uniq (a := 1) (b := 3)
  (by decide) (by decide) (by decide) (by decide) (fun _ _ => fresh_canUpdate (by decide) (View.set_same _ _ _))
  (fun old ho => ⟨fun _ => by decide, fun h p hp => by
    have := sNetU_uniq old (1, 3) ho (by decide) 2 (by decide +kernel)
    subst this
    exact absurd h (by decide)⟩)

/-- **C108** over the split store: a pair that is not there can be refused as a duplicate too, and the created link stays. Link 1
is (9, 1), where 9 is not a link; storing (9, 2) fails with AlreadyExists and leaves 2 = (0, 0). -/
theorem C108_split_refuses_a_new_pair : ∃ s s', Reach cfg0 s ∧ (∀ j, (links cfg0).view s j ≠ some (9, 2)) ∧
    (uniqueValidator (links cfg0)).createLink s 9 2 = some ⟨.error (.alreadyExists 9 2), s', ()⟩ ∧
    (links cfg0).view s 2 = none ∧ (links cfg0).view s' 2 = some (0, 0) := by
  have hr : Reach cfg0 (runs cfg0 [.create, .update 1 9 1]) := runs_reach (by decide +kernel)
  have e : ((uniqueValidator (links cfg0)).createLink (runs cfg0 [.create, .update 1 9 1]) 9 2).map
      (fun o => (o.res, (links cfg0).view o.st 2)) = some (.error (.alreadyExists 9 2), some (0, 0)) := by decide +kernel
  obtain ⟨⟨r, s', u⟩, h1, h2⟩ := Option.map_eq_some_iff.1 e
  obtain ⟨h3, h4⟩ := Prod.mk.inj h2
  subst h3
  refine ⟨_, s', hr, fun j hj => ?_, h1, by decide +kernel, h4⟩
  have := forall_of_collect (reachLawful cfg0_ok) hr (p := fun l => (l.source, l.target) != (9, 2)) (by decide +kernel) hj
  simp at this

end Verif.Split.Props
