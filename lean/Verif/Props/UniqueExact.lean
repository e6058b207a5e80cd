import Verif.Props.Exact
import Verif.Props.Decorators
import Verif.DerivedExact

/-!
# C97: what the decorators for unique doublets do in general

C41 leaves out ends that are null or the wildcard. Here every pair of ends is allowed, over the united store.
-/

namespace Verif.Unit.Props
open Verif Links Deco

variable {c : Cfg}

/-- Link `j` is taken to be an `(a, b)` link: the wildcard as an end stands for everything; nothing is found if `a` is null, or
if `a` is the wildcard and `b` null. -/
def TakenFor (any : Nat) (v : View) (a b j : Nat) : Prop :=
  a ≠ 0 ∧ ¬ (a = any ∧ b = 0) ∧ ∃ p, v j = some p ∧ (a = any ∨ p.1 = a) ∧ (b = any ∨ p.2 = b)

/-- What the traversal `[any, a, b]` visits. -/
theorem taken_visits (hc : CfgOK c) {s : Store} (h : Reach c s) (a b : Nat) :
    ∃ L, (links c).Visits s [c.consts.any, a, b] L ∧
      (links c).found s [c.consts.any, a, b] = some (L.length != 0) ∧
      (links c).search s a b = some (L.head?.map (·.index)) ∧
      (∀ l ∈ L, TakenFor c.consts.any ((links c).view s) a b l.index) ∧
      ((∃ j, TakenFor c.consts.any ((links c).view s) a b j) → L ≠ []) := by
  obtain ⟨L, h1, h2, h3, h4⟩ := C58_traversal_exact hc h [c.consts.any, a, b] (by simp)
  obtain ⟨L', k1, k2, -, -, -, k6⟩ := query_law hc (reach_good hc h) [c.consts.any, a, b] (by simp)
  have e := Links.Visits.unique h1 k1
  subst e
  have hany := any_ne_zero hc
  have hend := hc.end_le
  refine ⟨L, h1, ?_, ?_, ?_, ?_⟩
  · have k7 : L.length ≤ c.consts.internalEnd := k6 (by simp)
    rw [if_pos (by omega)] at k2
    simp only [Links.found, Links.countBy]
    show (countLinks c s [c.consts.any, a, b]).map _ = _
    rw [k2]; rfl
  · show ((links c).find s [c.consts.any, a, b]).map _ = _
    simp only [Links.find, Links.eachBy_eq h1, Option.map_some]
    cases L <;> rfl
  · intro l hl
    have hn : ¬ NullAsk c.consts.any [c.consts.any, a, b] := fun hn => by rw [h3 hn] at hl; cases hl
    obtain ⟨g1, -, g2, g3⟩ := h2 l hl
    refine ⟨?_, ?_, (l.source, l.target), g1, g2, g3⟩
    · rintro rfl; exact hn (.inr (.inr ⟨b, rfl⟩))
    · rintro ⟨rfl, rfl⟩; exact hn (.inr (.inl rfl))
  · rintro ⟨j, ha, hab, p, hp, g2, g3⟩ rfl
    have hn : ¬ NullAsk c.consts.any [c.consts.any, a, b] := by
      rintro (e | e | ⟨y, e⟩)
      · cases e
      · simp only [List.cons.injEq, and_true, true_and] at e; exact hab e
      · simp only [List.cons.injEq, and_true, true_and] at e; exact ha e.1
    obtain ⟨f1, f2, f3⟩ := h4 hn ⟨j, p.1, p.2⟩ hp ⟨.inl rfl, g2, g3⟩
    by_cases hp' : IsPair c.consts.any [c.consts.any, a, b]
    · have := f1 hp'; cases this
    · by_cases hd : DoubleEnd c.consts.any [c.consts.any, a, b] ⟨j, p.1, p.2⟩
      · have := f2 hd; cases this
      · have := f3 hp' hd; cases this

/-- **C97**, `UniqueValidator`, for every index and every pair of ends: the update is refused with AlreadyExists, without any
effect, if some link is taken for the pair; otherwise it is the update of the store below. -/
theorem C97_unique_validator (hc : CfgOK c) {s : Store} (h : Reach c s) (i a b : Nat) :
    ((∃ j, TakenFor c.consts.any ((links c).view s) a b j) →
      Fails (fun _ hd st => (uniqueValidator (links c)).updateLinks s [i] [i, a, b] hd st) s (.alreadyExists a b)) ∧
    ((∀ j, ¬ TakenFor c.consts.any ((links c).view s) a b j) → ∀ {σ : Type} (hd : WH σ) (st : σ),
      (uniqueValidator (links c)).updateLinks s [i] [i, a, b] hd st = (links c).updateByWith s [i] [i, a, b] hd st) := by
  obtain ⟨L, -, h2, -, h4, h5⟩ := taken_visits hc h a b
  constructor
  · intro he
    refine uniqueValidator_found ?_
    show (links c).found s [c.consts.any, a, b] = _
    rw [h2]
    cases L with
    | nil => exact absurd rfl (h5 he)
    | cons l L => rfl
  · intro hno σ hd st
    refine uniqueValidator_not_found ?_ hd st
    show (links c).found s [c.consts.any, a, b] = _
    rw [h2]
    cases L with
    | nil => rfl
    | cons l L => exact absurd (h4 l (by simp)) (hno _)

/-- **C97**: exactly which duplicates `UniqueValidator` lets in. If doublets are unique and updating link `i` to `(a, b)` through
it succeeds, they are unique afterwards unless another link is `(a, b)` already, `(a, b)` is not the null pair, and `a` is null or
`a` is the wildcard and `b` null. -/
theorem C97_unique_validator_lets_in (hc : CfgOK c) {s : Store} (h : Reach c s) (hu : ((links c).view s).Uniq) {i a b : Nat}
    {r : Nat} {s' : Store} (e : (uniqueValidator (links c)).update s i a b = some ⟨.ok r, s', ()⟩) :
    r = i ∧ Reach c s' ∧ (links c).view s' = ((links c).view s).set i (a, b) ∧
    (((links c).view s').Uniq ↔
      ¬ ((a, b) ≠ (0, 0) ∧ (a = 0 ∨ (a = c.consts.any ∧ b = 0)) ∧ ∃ j, j ≠ i ∧ (links c).view s j = some (a, b))) := by
  obtain ⟨v1, v2⟩ := C97_unique_validator hc h i a b
  by_cases ht : ∃ j, TakenFor c.consts.any ((links c).view s) a b j
  · rw [update_err (v1 ht)] at e; cases e
  · have hno : ∀ j, ¬ TakenFor c.consts.any ((links c).view s) a b j := fun j hj => ht ⟨j, hj⟩
    have v3 := fun {σ : Type} (hd : WH σ) (st : σ) => v2 hno hd st
    let W := reachLawful hc
    cases hv : (links c).view s i with
    | none =>
      have hm := W.update_missing s h i hv i a b
      rw [update_err (D := uniqueValidator (links c)) (e := .notExists i)
        (fun σ hd st => (v3 hd st).trans (updateByWith_err hm hd st))] at e
      cases e
    | some p =>
      obtain ⟨s1, before, -, k2, -, k4, k5⟩ := W.update s h i p hv (hu i) i a b trivial
      rw [update_ok (D := uniqueValidator (links c))
        (fun σ hd st => (v3 hd st).trans (updateByWith_ok k5 hd st))] at e
      cases e
      refine ⟨rfl, k2, k4, ?_⟩
      rw [k4]
      constructor
      · rintro hu' ⟨h0, -, j, hj, hvj⟩
        exact hj (hu' i (a, b) (View.set_same _ _ _) h0 j (by rw [View.set_other _ _ hj, hvj]))
      · intro hx
        by_cases h0 : (a, b) = (0, 0)
        · obtain ⟨rfl, rfl⟩ := Prod.mk.inj h0
          exact hu.set_null i
        · refine hu.set fun j hj hvj => ?_
          by_cases ha : a = 0 ∨ (a = c.consts.any ∧ b = 0)
          · exact hx ⟨h0, ha, j, hj, hvj⟩
          · exact hno j ⟨fun e => ha (.inl e), fun e => ha (.inr e), (a, b), hvj, .inr rfl, .inr rfl⟩

/-- **C97**, `UniqueResolver`, for every index and every pair of ends. If no link is taken for the pair, the update is that of the
store below. Otherwise one such link `old` is chosen; an index that names no link is refused without effect; link `i` is deleted,
and then `old` is given the ends `(a, b)`, whatever its ends were (with wildcards these are others), and returned; but if `old` is
`i` itself the call then fails with NotExists and the link is gone. -/
theorem C97_unique_resolver (hc : CfgOK c) {s : Store} (h : Reach c s) (i a b : Nat) :
    ((∀ j, ¬ TakenFor c.consts.any ((links c).view s) a b j) → ∀ {σ : Type} (hd : WH σ) (st : σ),
      (uniqueResolver (links c)).updateLinks s [i] [i, a, b] hd st = (links c).updateByWith s [i] [i, a, b] hd st) ∧
    ((∃ j, TakenFor c.consts.any ((links c).view s) a b j) →
      ((links c).view s i = none →
        Fails (fun _ hd st => (uniqueResolver (links c)).updateLinks s [i] [i, a, b] hd st) s (.notExists i)) ∧
      ∀ p, (links c).view s i = some p → ((links c).view s).NoTwin i →
        ∃ old, (links c).search s a b = some (some old) ∧ TakenFor c.consts.any ((links c).view s) a b old ∧
          (old = i → ∃ s', Reach c s' ∧ (links c).view s' = ((links c).view s).del i ∧
            ∀ {σ : Type} (hd : WH σ) (st : σ), (uniqueResolver (links c)).updateLinks s [i] [i, a, b] hd st =
              some ⟨.error (.notExists i), s', (hd st ⟨i, p.1, p.2⟩ Link.nothing).2⟩) ∧
          (old ≠ i → (((links c).view s).del i).NoTwin old →
            ∃ s', Reach c s' ∧ (links c).view s' = (((links c).view s).del i).set old (a, b) ∧
              (uniqueResolver (links c)).update s i a b = some ⟨.ok old, s', ()⟩ ∧
              ∀ {σ : Type} (hd : WH σ) (st : σ), (uniqueResolver (links c)).updateLinks s [i] [i, a, b] hd st =
                let st1 := (hd st ⟨i, p.1, p.2⟩ Link.nothing).2
                some ⟨.ok (hd st1 ⟨old, a, b⟩ ⟨old, a, b⟩).1, s', (hd st1 ⟨old, a, b⟩ ⟨old, a, b⟩).2⟩)) := by
  obtain ⟨L, -, -, h3, h4, h5⟩ := taken_visits hc h a b
  let W := reachLawful hc
  refine ⟨fun hno σ hd st => ?_, fun he => ?_⟩
  · cases L with
    | cons l L => exact absurd (h4 l (by simp)) (hno _)
    | nil =>
      simp only [uniqueResolver, List.getElem?_cons_zero, List.getElem?_cons_succ, h3, List.head?_nil, Option.map_none,
        Option.bind_some]
      rfl
  · cases L with
    | nil => exact absurd rfl (h5 he)
    | cons l L =>
      simp only [List.head?_cons, Option.map_some] at h3
      refine ⟨fun hv σ hd st => ?_, fun p hv ht => ?_⟩
      · have hm := W.delete_missing s h i hv
        simp only [uniqueResolver, List.getElem?_cons_zero, List.getElem?_cons_succ, h3, Option.bind_some, deleteWith,
          deleteByWith_err hm]
      · obtain ⟨s1, k1, -, k3, k4⟩ := W.delete s h i p hv ht trivial
        refine ⟨l.index, h3, h4 l (by simp), fun hoi => ⟨s1, k1, k3, fun hd st => ?_⟩, fun hoi ht' => ?_⟩
        · have hm := W.update_missing s1 k1 i (by rw [k3, View.del_same]) i a b
          rw [hoi] at h3
          simp only [uniqueResolver, List.getElem?_cons_zero, List.getElem?_cons_succ, h3, Option.bind_some, deleteWith,
            deleteByWith_ok k4, updateWith, updateByWith_err hm]
        · obtain ⟨-, -, q, hq, -, -⟩ := h4 l (by simp)
          have hv1 : (links c).view s1 l.index = some q := by rw [k3, View.del_other _ hoi, hq]
          obtain ⟨s', before, q1, q2, -, q4, q5⟩ := W.update s1 k1 l.index q hv1 (by rw [k3]; exact ht') l.index a b trivial
          obtain ⟨s2, -, -, hS⟩ := update_law hc (reach_good hc k1) hv1 (by rw [k3]; exact ht') l.index a b
          have hb : before = ⟨l.index, a, b⟩ := by
            have e := (q5 Link (fun _ b _ => (.cont, b)) Link.nothing).symm.trans
              (hS Link (fun _ b _ => (.cont, b)) Link.nothing)
            simp only [Option.some.injEq, Out.mk.injEq] at e
            exact e.2.2
          subst hb
          have hcall : ∀ {σ : Type} (hd : WH σ) (st : σ), (uniqueResolver (links c)).updateLinks s [i] [i, a, b] hd st =
                let st1 := (hd st ⟨i, p.1, p.2⟩ Link.nothing).2
                some ⟨.ok (hd st1 ⟨l.index, a, b⟩ ⟨l.index, a, b⟩).1, s', (hd st1 ⟨l.index, a, b⟩ ⟨l.index, a, b⟩).2⟩ := by
            intro σ hd st
            simp only [uniqueResolver, List.getElem?_cons_zero, List.getElem?_cons_succ, h3, Option.bind_some, deleteWith,
              deleteByWith_ok k4, updateWith, updateByWith_ok q5]
          refine ⟨s', q2, by rw [q4, k3], ?_, hcall⟩
          simp [update, updateBy, updateByWith, hcall, unwrapW, wrapW, keepIndex, resultIndex, Except.map]

/-- **C97**, `CascadeUniqueResolver`, for every index and every pair of ends: if no link is taken for the pair, the update is that
of the store below; if link `i` itself is the one chosen, it is deleted and the call fails with NotExists; an index that names no
link is refused without effect. -/
theorem C97_cascade_unique_resolver (hc : CfgOK c) {s : Store} (h : Reach c s) (i a b : Nat) :
    ((∀ j, ¬ TakenFor c.consts.any ((links c).view s) a b j) → ∀ {σ : Type} (hd : WH σ) (st : σ),
      (cascadeUniqueResolver (links c)).updateLinks s [i] [i, a, b] hd st =
        (links c).updateByWith s [i] [i, a, b] hd st) ∧
    ((∃ j, TakenFor c.consts.any ((links c).view s) a b j) →
      ((links c).view s i = none →
        Fails (fun _ hd st => (cascadeUniqueResolver (links c)).updateLinks s [i] [i, a, b] hd st) s (.notExists i)) ∧
      ∀ p, (links c).view s i = some p → ((links c).view s).NoTwin i →
        ∃ old, (links c).search s a b = some (some old) ∧ TakenFor c.consts.any ((links c).view s) a b old ∧
          (old = i → ∃ s', Reach c s' ∧ (links c).view s' = ((links c).view s).del i ∧
            ∀ {σ : Type} (hd : WH σ) (st : σ), (cascadeUniqueResolver (links c)).updateLinks s [i] [i, a, b] hd st =
              some ⟨.error (.notExists i), s', (hd st ⟨i, p.1, p.2⟩ Link.nothing).2⟩)) := by
  obtain ⟨L, -, -, h3, h4, h5⟩ := taken_visits hc h a b
  let W := reachLawful hc
  refine ⟨fun hno σ hd st => ?_, fun he => ?_⟩
  · cases L with
    | cons l L => exact absurd (h4 l (by simp)) (hno _)
    | nil =>
      simp only [cascadeUniqueResolver, List.getElem?_cons_zero, List.getElem?_cons_succ, h3, List.head?_nil,
        Option.map_none, Option.bind_some]
      rfl
  · cases L with
    | nil => exact absurd rfl (h5 he)
    | cons l L =>
      simp only [List.head?_cons, Option.map_some] at h3
      refine ⟨fun hv σ hd st => ?_, fun p hv ht => ?_⟩
      · simp [cascadeUniqueResolver, h3, rebaseWith, tryGetLink, W.get s h, hv]
      · obtain ⟨s1, k1, -, k3, k4⟩ := W.delete s h i p hv ht trivial
        refine ⟨l.index, h3, h4 l (by simp), fun hoi => ⟨s1, k1, k3, fun {σ} hd st => ?_⟩⟩
        have hm := W.update_missing s1 k1 i (by rw [k3, View.del_same]) i a b
        have hr : (links c).rebaseWith s i i hd st = some ⟨.ok (), s, st⟩ := by
          simp [rebaseWith, tryGetLink, W.get s h, hv]
        rw [hoi] at h3
        simp only [cascadeUniqueResolver, List.getElem?_cons_zero, List.getElem?_cons_succ, h3, Option.bind_some, hr,
          deleteWith, deleteByWith_ok k4, updateWith, updateByWith_err hm]

/-- Every occurrence of `i` in the ends of the other links replaced by `old`; a link `(i, i)` becomes `(i, old)` (C60). -/
def rebased (v : View) (i old : Nat) : View := fun k =>
  if k = i then v k
  else (v k).map fun p => if p = (i, i) then (i, old) else (if p.1 = i then old else p.1, if p.2 = i then old else p.2)

/-- **C97**, `CascadeUniqueResolver`, when another link `old` is chosen: `i` is replaced by `old` in all other links (with the
exception of C60), deleted, and `old` is given the ends `(a, b)`, whatever its ends were, and returned. The conditions say that no
link is updated or deleted while another has the same doublet. -/
theorem C97_cascade_merges (hc : CfgOK c) {s : Store} (h : Reach c s) {i a b old : Nat} {p : Nat × Nat}
    (hv : (links c).view s i = some p) (hold : (links c).search s a b = some (some old)) (hne : old ≠ i)
    (hu : ∀ j, ((links c).view s).Uses i j → ((links c).view s).NoTwin j)
    (hx : (∃ d, d ≠ i ∧ (links c).view s d = some (i, i)) →
      ∀ j, (links c).view s j ≠ some (old, i) ∧ (links c).view s j ≠ some (i, old))
    (ht : (rebased ((links c).view s) i old).NoTwin i) (ht' : ((rebased ((links c).view s) i old).del i).NoTwin old) :
    ∃ s', Reach c s' ∧ (cascadeUniqueResolver (links c)).update s i a b = some ⟨.ok old, s', ()⟩ ∧
      (links c).view s' = ((rebased ((links c).view s) i old).del i).set old (a, b) := by
  let W := reachLawful hc
  obtain ⟨L, -, -, l3, l4, -⟩ := taken_visits hc h a b
  have hq : ∃ q, (links c).view s old = some q := by
    rw [hold] at l3
    cases L with
    | nil => cases l3
    | cons l L =>
      cases l3
      obtain ⟨-, -, q, hq, -⟩ := l4 l (by simp)
      exact ⟨q, hq⟩
  obtain ⟨q, hq⟩ := hq
  obtain ⟨s1, g1, g2, g3⟩ := Links.rebaseWith_exact W h hv (Ne.symm hne)
    (fun _ _ _ _ _ _ _ => ⟨fun _ _ => trivial, fun _ _ => ⟨fun _ => trivial, fun _ => trivial⟩⟩)
    (fun j a b h1 h2 h3 => hu j ⟨h2, a, b, h1, h3⟩) hx
  have e1 : (links c).view s1 = rebased ((links c).view s) i old := g2
  have hv1 : (links c).view s1 i = some p := by rw [e1, rebased, if_pos rfl, hv]
  obtain ⟨s2, k1, -, k3, k4⟩ := W.delete s1 g1 i p hv1 (by rw [e1]; exact ht) trivial
  have hv2 : ∃ q', (links c).view s2 old = some q' := by
    rw [k3, View.del_other _ hne, e1, rebased, if_neg hne, hq]
    exact ⟨_, rfl⟩
  obtain ⟨q', hv2⟩ := hv2
  obtain ⟨s', before, -, q2, -, q4, q5⟩ := W.update s2 k1 old q' hv2 (by rw [k3, e1]; exact ht') old a b trivial
  refine ⟨s', q2, ?_, by rw [q4, k3, e1]⟩
  obtain ⟨st', e2⟩ := g3 (wrapW keepIndex) (0, (.cont : Ctl Unit))
  simp only [update, updateBy, updateByWith, cascadeUniqueResolver, List.getElem?_cons_zero,
    List.getElem?_cons_succ, hold, Option.bind_some, e2, deleteWith, deleteByWith_ok k4]
  have he := fun (σ : Type) (h : WH σ) (st : σ) => updateByWith_ok q5 h st
  simp only [updateWith, he]
  simp [unwrapW, wrapW, keepIndex, resultIndex, Except.map]

/-! ### On concrete stores -/

/-- `sNet`: 1 = (1,1), 2 = (1,3), 3 = (2,2), 4 = (0,0), 6 = (3,2), wildcard 252. Link 2 is taken for (any, 3), link 3 for (2, any),
no link for (0, 3) or (any, 0). -/
example : TakenFor 252 ((links cfg0).view sNet) 252 3 2 ∧ TakenFor 252 ((links cfg0).view sNet) 2 252 3 ∧
    ¬ TakenFor 252 ((links cfg0).view sNet) 0 3 2 ∧ ¬ TakenFor 252 ((links cfg0).view sNet) 252 0 4 :=
  ⟨⟨by decide, by decide, (1, 3), by decide +kernel, by decide⟩, ⟨by decide, by decide, (2, 2), by decide +kernel, by decide⟩,
    fun h => h.1 rfl, fun h => h.2.1 ⟨rfl, rfl⟩⟩

example : Fails (fun _ hd st => (uniqueValidator (links cfg0)).updateLinks sNet [6] [6, 252, 3] hd st) sNet
    (.alreadyExists 252 3) :=
  (C97_unique_validator cfg0_ok sNet_reach 6 252 3).1
    ⟨2, by decide, by decide, (1, 3), by decide +kernel, by decide⟩

/-- Updating 6 to (any, 3) through `UniqueResolver` deletes 6 and overwrites the source of link 2 with the wildcard. -/
example : ∃ s', Reach cfg0 s' ∧ (uniqueResolver (links cfg0)).update sNet 6 252 3 = some ⟨.ok 2, s', ()⟩ ∧
    (links cfg0).view s' 6 = none ∧ (links cfg0).view s' 2 = some (252, 3) := by
  obtain ⟨-, h⟩ := C97_unique_resolver cfg0_ok sNet_reach 6 252 3
  obtain ⟨-, h⟩ := h ⟨2, by decide, by decide, (1, 3), by decide +kernel, by decide⟩
  obtain ⟨old, h1, -, -, h⟩ := h (3, 2) (by decide +kernel) (sNet_uniq 6)
  have e : (links cfg0).search sNet 252 3 = some (some 2) := by decide +kernel
  rw [e] at h1
  cases h1
  obtain ⟨s', k1, k2, k3, -⟩ := h (by decide) (sNet_uniq.del 6 2)
  refine ⟨s', k1, k3, ?_, ?_⟩ <;> rw [k2]
  · rw [View.set_other _ _ (by decide), View.del_same]
  · rw [View.set_same]

/-- The accepted update of 4 to (3,1) keeps doublets unique. -/
example : ∃ s', (uniqueValidator (links cfg0)).update sNet 4 3 1 = some ⟨.ok 4, s', ()⟩ ∧ ((links cfg0).view s').Uniq := by
  have e : ((uniqueValidator (links cfg0)).update sNet 4 3 1).map (fun o => o.res.toOption) = some (some 4) := by
    decide +kernel
  obtain ⟨⟨r, s', u⟩, h1, h2⟩ := Option.map_eq_some_iff.1 e
  cases r with
  | error _ => cases h2
  | ok r =>
    cases h2
    exact ⟨s', h1, (C97_unique_validator_lets_in cfg0_ok sNet_reach sNet_uniq h1).2.2.2.2
      fun h => by rcases h.2.1 with h | h <;> revert h <;> decide⟩

/-- Updating 3 to (any, 3) through `CascadeUniqueResolver` merges it into 2, whose source becomes the wildcard. -/
example : ((cascadeUniqueResolver (links cfg0)).update sNet 3 252 3).map
    (fun o => (o.res.toOption, (List.range 7).map ((links cfg0).view o.st))) =
      some (some 2, [none, some (1, 1), some (252, 3), none, some (0, 0), none, some (2, 2)]) := by decide +kernel

/-- An instance of the theorem: 1 is updated to (any, 2) and merged into 3 = (2,2); 2 = (1,3) becomes (3,3). -/
example : ∃ s', Reach cfg0 s' ∧ (cascadeUniqueResolver (links cfg0)).update sNet 1 252 2 = some ⟨.ok 3, s', ()⟩ ∧
    (links cfg0).view s' 1 = none ∧ (links cfg0).view s' 2 = some (3, 3) ∧ (links cfg0).view s' 3 = some (252, 2) := by
  have hv1 : (links cfg0).view sNet 1 = some (1, 1) := by decide +kernel
  have hv3 : (links cfg0).view sNet 3 = some (2, 2) := by decide +kernel
  have key : ∀ j q, (links cfg0).view sNet j = some q →
      ((fun (j : Nat) (q : Nat × Nat) => (j == 1 || q != (1, 1)) && (j == 1 || (q != (1, 1) &&
        (if q.1 = 1 then 3 else q.1, if q.2 = 1 then 3 else q.2) != (1, 1))) && (j == 1 || j == 3 ||
        (if q.1 = 1 then 3 else q.1, if q.2 = 1 then 3 else q.2) != (2, 2))) : Nat → Nat × Nat → Bool) j q = true :=
    forall_links sNet_reach (by decide +kernel)
  obtain ⟨s', h1, h2, h3⟩ := C97_cascade_merges cfg0_ok sNet_reach (i := 1) (a := 252) (b := 2) (old := 3) hv1
    (by decide +kernel) (by decide) (fun j _ => sNet_uniq j)
    (fun ⟨d, hd, hv⟩ => by have := key d _ hv; simp [hd] at this)
    (fun p hp _ j hj => by
      rw [rebased, if_pos rfl, hv1] at hp
      cases hp
      apply Classical.byContradiction
      intro hj1
      rw [rebased, if_neg hj1] at hj
      obtain ⟨q, hq, e⟩ := Option.map_eq_some_iff.1 hj
      have := key j q hq
      simp only [hj1, beq_eq_false_iff_ne, ne_eq, not_false_eq_true, Bool.and_eq_true, Bool.or_eq_true, beq_iff_eq,
        false_or, bne_iff_ne] at this
      split at e
      · cases e
      · exact this.1.2.2 e)
    (fun p hp _ j hj => by
      rw [View.del_other _ (by decide), rebased, if_neg (by decide), hv3] at hp
      cases hp
      apply Classical.byContradiction
      intro hj3
      have hj1 : j ≠ 1 := by rintro rfl; rw [View.del_same] at hj; cases hj
      rw [View.del_other _ hj1, rebased, if_neg hj1] at hj
      obtain ⟨q, hq, e⟩ := Option.map_eq_some_iff.1 hj
      have := key j q hq
      simp only [hj1, hj3, beq_eq_false_iff_ne, ne_eq, not_false_eq_true, Bool.and_eq_true, Bool.or_eq_true, beq_iff_eq,
        false_or, bne_iff_ne] at this
      split at e
      · cases e
      · exact this.2 e)
  have hv2 : (links cfg0).view sNet 2 = some (1, 3) := by decide +kernel
  refine ⟨s', h1, h2, ?_, ?_, ?_⟩ <;> rw [h3]
  · rw [View.set_other _ _ (by decide), View.del_same]
  · rw [View.set_other _ _ (by decide), View.del_other _ (by decide), rebased, if_neg (by decide), hv2]; rfl
  · rw [View.set_same]

/-- Updating 2 to (any, 3), which matches 2 itself, deletes it. -/
example : ((cascadeUniqueResolver (links cfg0)).update sNet 2 252 3).map (fun o => (o.res, (links cfg0).view o.st 2)) =
    some (.error (.notExists 2), none) := by decide +kernel

/-- `UniqueValidator` lets a second (0,3) in, and on this store nothing else but a second (any,0). -/
example : ((uniqueValidator (links cfg0)).update (runs cfg0 [.create, .create, .update 1 0 3]) 2 0 3).map
    (fun o => (o.res.toOption, (links cfg0).view o.st 1, (links cfg0).view o.st 2)) =
      some (some 2, some (0, 3), some (0, 3)) := by decide +kernel

end Verif.Unit.Props
