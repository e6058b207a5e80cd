import Verif.Props.UniqueExact
import Verif.Props.Singles
import Verif.Props.SplitDoubleUsers

/-!
# C97 on the split store

Every pair of ends that are not null, the wildcard included. (For null ends see C67: what is found for them may be another pair.)
-/

namespace Verif.Split.Props
open Verif Links Deco
open Verif.Unit.Props (rebased)

variable {c : Cfg}

theorem pair_nullFree (hc : CfgOK c) {s : Store} (h : Reach c s) {a b : Nat} (ha : a ≠ 0) (hb : b ≠ 0) :
    NullFree c.consts.any [c.consts.any, a, b] := by
  intro _ y hy
  simp only [List.tail_cons, List.mem_cons, List.not_mem_nil, or_false] at hy
  rcases hy with rfl | rfl
  · exact ha
  · exact hb

/-- Link `j` matches the pair `(a, b)`, the wildcard matching everything. -/
def Matches (any : Nat) (v : View) (a b j : Nat) : Prop :=
  ∃ p, v j = some p ∧ (a = any ∨ p.1 = a) ∧ (b = any ∨ p.2 = b)

/-- What the search of the resolvers finds: a link that matches, if there is one. -/
theorem split_search (hc : CfgOK c) {s : Store} (h : Reach c s) {a b : Nat} (ha : a ≠ 0) (hb : b ≠ 0) :
    ((∀ j, ¬ Matches c.consts.any ((links c).view s) a b j) → (links c).search s a b = some none) ∧
    ((∃ j, Matches c.consts.any ((links c).view s) a b j) →
      ∃ old, (links c).search s a b = some (some old) ∧ Matches c.consts.any ((links c).view s) a b old) := by
  obtain ⟨f, r, h1, -, ⟨h3, h4⟩, -⟩ := C100_split_find_single_found hc h [c.consts.any, a, b] (by simp)
    (pair_nullFree hc h ha hb)
  have hs : (links c).search s a b = some (f.map (·.index)) := by
    show ((links c).find s [c.consts.any, a, b]).map _ = _
    rw [h1]; rfl
  refine ⟨fun hno => ?_, fun ⟨j, p, hp, m1, m2⟩ => ?_⟩
  · cases f with
    | none => exact hs
    | some l =>
      obtain ⟨g1, -, g2, g3⟩ := h3 l rfl
      exact absurd ⟨_, g1, g2, g3⟩ (hno l.index)
  · cases f with
    | none => exact absurd ⟨.inl rfl, m1, m2⟩ (h4 rfl ⟨j, p.1, p.2⟩ hp)
    | some l =>
      obtain ⟨g1, -, g2, g3⟩ := h3 l rfl
      exact ⟨l.index, hs, _, g1, g2, g3⟩

/-- Some link has the source `a`, or nothing dangles and there are unused indices. -/
def Refused (any : Nat) (v : View) (a b : Nat) : Prop :=
  (a ≠ any → v a = none → (∃ j t, v j = some (a, t)) ∨ ¬ v.SourceDangles ∧ ¬ v.GapFree) ∧
  (¬ (a ≠ any ∧ v a = none) → ∃ j, Matches any v a b j)

/-- **C97**, `UniqueValidator` over a split store, for every index and every pair of ends that are not null. The update is refused
with AlreadyExists, without any effect, if some link matches the pair (the wildcard matching everything); but if the source
`a` is not a link, it is refused if some link has the source `a`, whatever its target is, and also if no link has a source that
is not a link and some index below a link is unused. Otherwise it is the update of the store below. -/
theorem C97_split_unique_validator (hc : CfgOK c) {s : Store} (h : Reach c s) (i : Nat) {a b : Nat} (ha : a ≠ 0) (hb : b ≠ 0) :
    (Refused c.consts.any ((links c).view s) a b →
      Fails (fun _ hd st => (uniqueValidator (links c)).updateLinks s [i] [i, a, b] hd st) s (.alreadyExists a b)) ∧
    (¬ Refused c.consts.any ((links c).view s) a b → ∀ {σ : Type} (hd : WH σ) (st : σ),
      (uniqueValidator (links c)).updateLinks s [i] [i, a, b] hd st = (links c).updateByWith s [i] [i, a, b] hd st) := by
  obtain ⟨-, -, -, -, -, -, h5⟩ := C100_split_find_single_found hc h [c.consts.any, a, b] (by simp) (pair_nullFree hc h ha hb)
  obtain ⟨n, hn⟩ := C67_counts_return hc h [c.consts.any, a, b] (by simp) (by simp)
  have hf : (links c).found s [c.consts.any, a, b] = some (n != 0) := by rw [Links.found, hn]; rfl
  have h6 : (n != 0) = true ↔ Refused c.consts.any ((links c).view s) a b := by
    rw [h5 _ hf]
    constructor
    · rintro ⟨k1, k2⟩
      refine ⟨fun e1 e2 => ?_, fun e => ?_⟩
      · rcases k1 rfl e1 e2 with ⟨l, l1, l2⟩ | k
        · exact .inl ⟨l.index, l.target, by rw [← l2]; exact l1⟩
        · exact .inr k
      · obtain ⟨l, l1, -, l2, l3⟩ := k2 (fun k => e k.2)
        exact ⟨l.index, _, l1, l2, l3⟩
    · rintro ⟨k1, k2⟩
      refine ⟨fun _ e1 e2 => ?_, fun e => ?_⟩
      · rcases k1 e1 e2 with ⟨j, t, l1⟩ | k
        · exact .inl ⟨⟨j, a, t⟩, l1, rfl⟩
        · exact .inr k
      · obtain ⟨j, p, l1, l2, l3⟩ := k2 (fun k => e ⟨rfl, k⟩)
        exact ⟨⟨j, p.1, p.2⟩, l1, .inl rfl, l2, l3⟩
  constructor
  · intro he
    refine uniqueValidator_found ?_
    show (links c).found s [c.consts.any, a, b] = _
    rw [hf, h6.2 he]
  · intro hno σ hd st
    refine uniqueValidator_not_found ?_ hd st
    show (links c).found s [c.consts.any, a, b] = _
    rw [hf, Bool.eq_false_iff.2 (fun e => hno (h6.1 e))]

/-- **C97**: a link that matches is always a reason to refuse. So if doublets are unique and an update through `UniqueValidator` to ends
that are not null succeeds, doublets are unique afterwards, for the wildcard too. -/
theorem C97_split_unique_validator_keeps (hc : CfgOK c) {s : Store} (h : Reach c s) (hu : ((links c).view s).Uniq) {i a b : Nat}
    (ha : a ≠ 0) (hb : b ≠ 0) (hself : a = i ∨ b = i → ∀ p, (links c).view s i = some p → p.1 = 0)
    {r : Nat} {s' : Store} (e : (uniqueValidator (links c)).update s i a b = some ⟨.ok r, s', ()⟩) :
    r = i ∧ Reach c s' ∧ (links c).view s' = ((links c).view s).set i (a, b) ∧ ((links c).view s').Uniq := by
  obtain ⟨v1, v2⟩ := C97_split_unique_validator hc h i ha hb
  by_cases ht : Refused c.consts.any ((links c).view s) a b
  · rw [update_err (v1 ht)] at e; cases e
  · have v3 := fun {σ : Type} (hd : WH σ) (st : σ) => v2 ht hd st
    let W := reachLawful hc
    cases hv : (links c).view s i with
    | none =>
      have hm := W.update_missing s h i hv i a b
      rw [update_err (D := uniqueValidator (links c)) (e := .notExists i)
        (fun σ hd st => (v3 hd st).trans (updateByWith_err hm hd st))] at e
      cases e
    | some p =>
      obtain ⟨s1, before, -, k2, -, k4, k5⟩ := W.update s h i p hv (hu i) i a b ⟨fun _ => hb, hself⟩
      rw [update_ok (D := uniqueValidator (links c))
        (fun σ hd st => (v3 hd st).trans (updateByWith_ok k5 hd st))] at e
      cases e
      refine ⟨rfl, k2, k4, ?_⟩
      rw [k4]
      refine hu.set fun j hj hvj => ht ⟨fun _ _ => .inl ⟨j, b, hvj⟩, fun _ => ⟨j, _, hvj, .inr rfl, .inr rfl⟩⟩

/-- **C97**, `UniqueResolver` over a split store, for every index and every pair of ends that are not null. If no link matches the
pair, the update is that of the store below. Otherwise one link `old` that matches is chosen; an index that names no link is refused
without effect; link `i` is deleted, and then `old` is given the ends `(a, b)`, whatever its ends were (with wildcards these are
others), and returned; but if `old` is `i` itself the call then fails with NotExists and the link is gone. -/
theorem C97_split_unique_resolver (hc : CfgOK c) {s : Store} (h : Reach c s) (i : Nat) {a b : Nat} (ha : a ≠ 0) (hb : b ≠ 0) :
    ((∀ j, ¬ Matches c.consts.any ((links c).view s) a b j) → ∀ {σ : Type} (hd : WH σ) (st : σ),
      (uniqueResolver (links c)).updateLinks s [i] [i, a, b] hd st = (links c).updateByWith s [i] [i, a, b] hd st) ∧
    ((∃ j, Matches c.consts.any ((links c).view s) a b j) →
      ((links c).view s i = none →
        Fails (fun _ hd st => (uniqueResolver (links c)).updateLinks s [i] [i, a, b] hd st) s (.notExists i)) ∧
      ∀ p, (links c).view s i = some p → ((links c).view s).NoTwin i →
        (∀ j, ((links c).view s).Uses i j → ((links c).view s).NoTwin j) →
        ∃ old, (links c).search s a b = some (some old) ∧ Matches c.consts.any ((links c).view s) a b old ∧
          (old = i → ∃ s', Reach c s' ∧ (links c).view s' = ((links c).view s).del i ∧
            ∀ {σ : Type} (hd : WH σ) (st : σ), (uniqueResolver (links c)).updateLinks s [i] [i, a, b] hd st =
              some ⟨.error (.notExists i), s', (hd st ⟨i, p.1, p.2⟩ Link.nothing).2⟩) ∧
          ∀ q, (links c).view s old = some q → old ≠ i → (((links c).view s).del i).NoTwin old →
            (a = old ∨ b = old → q.1 = 0) →
            ∃ s', Reach c s' ∧ (links c).view s' = (((links c).view s).del i).set old (a, b) ∧
              (uniqueResolver (links c)).update s i a b = some ⟨.ok old, s', ()⟩ ∧
              ∀ {σ : Type} (hd : WH σ) (st : σ), (uniqueResolver (links c)).updateLinks s [i] [i, a, b] hd st =
                let st1 := (hd st ⟨i, p.1, p.2⟩ Link.nothing).2
                some ⟨.ok (hd st1 ⟨old, q.1, q.2⟩ ⟨old, a, b⟩).1, s', (hd st1 ⟨old, q.1, q.2⟩ ⟨old, a, b⟩).2⟩) := by
  obtain ⟨f1, f2⟩ := split_search hc h ha hb
  let W := reachLawful hc
  refine ⟨fun hno σ hd st => ?_, fun he => ?_⟩
  · simp only [uniqueResolver, List.getElem?_cons_zero, List.getElem?_cons_succ, f1 hno, Option.bind_some]
    rfl
  · obtain ⟨old, h3, h4⟩ := f2 he
    refine ⟨fun hv σ hd st => ?_, fun p hv ht hcd => ?_⟩
    · have hm := W.delete_missing s h i hv
      simp only [uniqueResolver, List.getElem?_cons_zero, List.getElem?_cons_succ, h3, Option.bind_some, deleteWith,
        deleteByWith_err hm]
    · obtain ⟨s1, k1, -, k3, k4⟩ := W.delete s h i p hv ht hcd
      refine ⟨old, h3, h4, fun hoi => ⟨s1, k1, k3, fun hd st => ?_⟩, fun q hq hoi ht' hself => ?_⟩
      · have hm := W.update_missing s1 k1 i (by rw [k3, View.del_same]) i a b
        rw [hoi] at h3
        simp only [uniqueResolver, List.getElem?_cons_zero, List.getElem?_cons_succ, h3, Option.bind_some, deleteWith,
          deleteByWith_ok k4, updateWith, updateByWith_err hm]
      · have hv1 : (links c).view s1 old = some q := by rw [k3, View.del_other _ hoi, hq]
        have hcu : CanUpdate ((links c).view s1) old a b :=
          ⟨fun _ => hb, fun e p' hp' => by rw [hv1] at hp'; cases hp'; exact hself e⟩
        obtain ⟨s', before, q1, q2, -, q4, q5⟩ := W.update s1 k1 old q hv1 (by rw [k3]; exact ht') old a b hcu
        obtain ⟨s2, -, -, hS⟩ := update_law hc (reach_good hc k1) hv1 (by rw [k3]; exact ht') old a b hcu
        have hb' : before = ⟨old, q.1, q.2⟩ := by
          have e := (q5 Link (fun _ b _ => (.cont, b)) Link.nothing).symm.trans
            (hS Link (fun _ b _ => (.cont, b)) Link.nothing)
          simp only [Option.some.injEq, Out.mk.injEq] at e
          exact e.2.2
        subst hb'
        have hcall : ∀ {σ : Type} (hd : WH σ) (st : σ), (uniqueResolver (links c)).updateLinks s [i] [i, a, b] hd st =
              let st1 := (hd st ⟨i, p.1, p.2⟩ Link.nothing).2
              some ⟨.ok (hd st1 ⟨old, q.1, q.2⟩ ⟨old, a, b⟩).1, s', (hd st1 ⟨old, q.1, q.2⟩ ⟨old, a, b⟩).2⟩ := by
          intro σ hd st
          simp only [uniqueResolver, List.getElem?_cons_zero, List.getElem?_cons_succ, h3, Option.bind_some, deleteWith,
            deleteByWith_ok k4, updateWith, updateByWith_ok q5]
        refine ⟨s', q2, by rw [q4, k3], ?_, hcall⟩
        simp [update, updateBy, updateByWith, hcall, unwrapW, wrapW, keepIndex, resultIndex, Except.map]

/-- **C97**, `CascadeUniqueResolver` over a split store, for every index and every pair of ends that are not null: if no link matches
the pair, the update is that of the store below; if link `i` itself is the one chosen, it is deleted and the call fails with
NotExists; an index that names no link is refused without effect. -/
theorem C97_split_cascade_unique_resolver (hc : CfgOK c) {s : Store} (h : Reach c s) (i : Nat) {a b : Nat} (ha : a ≠ 0)
    (hb : b ≠ 0) :
    ((∀ j, ¬ Matches c.consts.any ((links c).view s) a b j) → ∀ {σ : Type} (hd : WH σ) (st : σ),
      (cascadeUniqueResolver (links c)).updateLinks s [i] [i, a, b] hd st =
        (links c).updateByWith s [i] [i, a, b] hd st) ∧
    ((∃ j, Matches c.consts.any ((links c).view s) a b j) →
      ((links c).view s i = none →
        Fails (fun _ hd st => (cascadeUniqueResolver (links c)).updateLinks s [i] [i, a, b] hd st) s (.notExists i)) ∧
      ∀ p, (links c).view s i = some p → ((links c).view s).NoTwin i →
        (∀ j, ((links c).view s).Uses i j → ((links c).view s).NoTwin j) →
        ∃ old, (links c).search s a b = some (some old) ∧ Matches c.consts.any ((links c).view s) a b old ∧
          (old = i → ∃ s', Reach c s' ∧ (links c).view s' = ((links c).view s).del i ∧
            ∀ {σ : Type} (hd : WH σ) (st : σ), (cascadeUniqueResolver (links c)).updateLinks s [i] [i, a, b] hd st =
              some ⟨.error (.notExists i), s', (hd st ⟨i, p.1, p.2⟩ Link.nothing).2⟩)) := by
  obtain ⟨f1, f2⟩ := split_search hc h ha hb
  let W := reachLawful hc
  refine ⟨fun hno σ hd st => ?_, fun he => ?_⟩
  · simp only [cascadeUniqueResolver, List.getElem?_cons_zero, List.getElem?_cons_succ, f1 hno, Option.bind_some]
    rfl
  · obtain ⟨old, h3, h4⟩ := f2 he
    refine ⟨fun hv σ hd st => ?_, fun p hv ht hcd => ?_⟩
    · simp [cascadeUniqueResolver, h3, rebaseWith, tryGetLink, W.get s h, hv]
    · obtain ⟨s1, k1, -, k3, k4⟩ := W.delete s h i p hv ht hcd
      refine ⟨old, h3, h4, fun hoi => ⟨s1, k1, k3, fun {σ} hd st => ?_⟩⟩
      have hm := W.update_missing s1 k1 i (by rw [k3, View.del_same]) i a b
      have hr : (links c).rebaseWith s i i hd st = some ⟨.ok (), s, st⟩ := by
        simp [rebaseWith, tryGetLink, W.get s h, hv]
      rw [hoi] at h3
      simp only [cascadeUniqueResolver, List.getElem?_cons_zero, List.getElem?_cons_succ, h3, Option.bind_some, hr,
        deleteWith, deleteByWith_ok k4, updateWith, updateByWith_err hm]

/-- **C97**, `CascadeUniqueResolver` over a split store, when another link `old` is chosen: `i` is replaced by `old` in all other
links (with the exception of C60), deleted, and `old` is given the ends `(a, b)`, whatever its ends were, and returned. The conditions
say that no link is updated or deleted while another has the same doublet, that a link with a source is not made to refer to itself,
and that no user of `i` that has a source is `old` or refers to itself (as in C60). -/
theorem C97_split_cascade_merges (hc : CfgOK c) {s : Store} (h : Reach c s) {i a b old : Nat} {p : Nat × Nat}
    (ha : a ≠ 0) (hb : b ≠ 0)
    (hv : (links c).view s i = some p) (hold : (links c).search s a b = some (some old)) (hne : old ≠ i)
    (hu : ∀ j, ((links c).view s).Uses i j → ((links c).view s).NoTwin j)
    (hself : ∀ j x y, ((links c).view s).Uses i j → (links c).view s j = some (x, y) → x ≠ 0 → j ≠ old ∧ j ≠ x ∧ j ≠ y)
    (hx : (∃ d, d ≠ i ∧ (links c).view s d = some (i, i)) →
      ∀ j, (links c).view s j ≠ some (old, i) ∧ (links c).view s j ≠ some (i, old))
    (ht : (rebased ((links c).view s) i old).NoTwin i)
    (hd : ∀ j, (rebased ((links c).view s) i old).Uses i j → (rebased ((links c).view s) i old).NoTwin j)
    (ht' : ((rebased ((links c).view s) i old).del i).NoTwin old)
    (hs' : a = old ∨ b = old → ∀ q, rebased ((links c).view s) i old old = some q → q.1 = 0) :
    ∃ s', Reach c s' ∧ (cascadeUniqueResolver (links c)).update s i a b = some ⟨.ok old, s', ()⟩ ∧
      (links c).view s' = ((rebased ((links c).view s) i old).del i).set old (a, b) := by
  let W := reachLawful hc
  have hq : ∃ q, (links c).view s old = some q := by
    obtain ⟨f1, f2⟩ := split_search hc h ha hb
    by_cases he : ∃ j, Matches c.consts.any ((links c).view s) a b j
    · obtain ⟨o, h3, q, hq, -⟩ := f2 he
      rw [hold] at h3
      cases h3
      exact ⟨q, hq⟩
    · rw [f1 (fun j hj => he ⟨j, hj⟩)] at hold
      cases hold
  obtain ⟨q, hq⟩ := hq
  have hold0 : old ≠ 0 := by
    rintro rfl
    rw [W.null s h] at hq
    cases hq
  obtain ⟨s1, g1, g2, g3⟩ := Links.rebaseWith_exact W h hv (Ne.symm hne)
    (rebaseOK hc h (by rw [hv]; simp) hold0 hself)
    (fun j a b h1 h2 h3 => hu j ⟨h2, a, b, h1, h3⟩) hx
  have e1 : (links c).view s1 = rebased ((links c).view s) i old := g2
  have hv1 : (links c).view s1 i = some p := by rw [e1, rebased, if_pos rfl, hv]
  obtain ⟨s2, k1, -, k3, k4⟩ := W.delete s1 g1 i p hv1 (by rw [e1]; exact ht) (show CanDelete _ _ by rw [e1]; exact hd)
  have hv2 : ∃ q', (links c).view s2 old = some q' ∧ rebased ((links c).view s) i old old = some q' := by
    rw [k3, View.del_other _ hne, e1, rebased, if_neg hne, hq]
    exact ⟨_, rfl, rfl⟩
  obtain ⟨q', hv2, hv3⟩ := hv2
  have hcu : CanUpdate ((links c).view s2) old a b :=
    ⟨fun _ => hb, fun e p' hp' => by rw [hv2] at hp'; cases hp'; exact hs' e _ hv3⟩
  obtain ⟨s', before, -, q2, -, q4, q5⟩ := W.update s2 k1 old q' hv2 (by rw [k3, e1]; exact ht') old a b hcu
  refine ⟨s', q2, ?_, by rw [q4, k3, e1]⟩
  obtain ⟨st', e2⟩ := g3 (wrapW keepIndex) (0, (.cont : Ctl _root_.Unit))
  simp only [update, updateBy, updateByWith, cascadeUniqueResolver, List.getElem?_cons_zero,
    List.getElem?_cons_succ, hold, Option.bind_some, e2, deleteWith, deleteByWith_ok k4]
  have he := fun (σ : Type) (h : WH σ) (st : σ) => updateByWith_ok q5 h st
  simp only [updateWith, he]
  simp [unwrapW, wrapW, keepIndex, resultIndex, Except.map]

/-! ### On a concrete store

`sNetU` is 1 = (1,1), 2 = (1,3), 3 = (2,2), 4 = (0,0), 6 = (3,2); index 5 is unused and the wildcard is 252. -/

/-- Link 2 matches (any, 3). -/
example : Fails (fun _ hd st => (uniqueValidator (links cfg0)).updateLinks sNetU [4] [4, 252, 3] hd st) sNetU
    (.alreadyExists 252 3) :=
  (C97_split_unique_validator cfg0_ok sNetU_reach 4 (by decide) (by decide)).1
    ⟨fun e => absurd rfl e, fun _ => ⟨2, (1, 3), by decide +kernel, .inl rfl, .inr rfl⟩⟩

/-- No link has the source 9, but the update of 4 to (9, 1) is refused as a duplicate. -/
example : (∀ j t, (links cfg0).view sNetU j ≠ some (9, t)) ∧
    Fails (fun _ hd st => (uniqueValidator (links cfg0)).updateLinks sNetU [4] [4, 9, 1] hd st) sNetU (.alreadyExists 9 1) := by
  have hv : (links cfg0).view sNetU 9 = none := by decide +kernel
  refine ⟨fun j t hj => ?_, (C97_split_unique_validator cfg0_ok sNetU_reach 4 (by decide) (by decide)).1
    ⟨fun _ _ => .inr ⟨?_, fun hg => hg 5 6 (by decide +kernel) (by decide) (by decide) (by decide +kernel)⟩,
      fun e => absurd ⟨by decide, hv⟩ e⟩⟩
  · have := forall_of_collect (reachLawful cfg0_ok) sNetU_reach (p := fun l => l.source != 9) (by decide +kernel) hj
    simp at this
  · rintro ⟨j, a, b, hj, ha, hna⟩
    have := forall_of_collect (reachLawful cfg0_ok) sNetU_reach
      (p := fun l => l.source == 0 || ((links cfg0).view sNetU l.source).isSome) (by decide +kernel) hj
    simp [ha, hna] at this

/-- The accepted update of 4 to (3,1) keeps doublets unique. -/
example : ∃ s', (uniqueValidator (links cfg0)).update sNetU 4 3 1 = some ⟨.ok 4, s', ()⟩ ∧ ((links cfg0).view s').Uniq := by
  have e : ((uniqueValidator (links cfg0)).update sNetU 4 3 1).map (fun o => o.res.toOption) = some (some 4) := by
    decide +kernel
  obtain ⟨⟨r, s', u⟩, h1, h2⟩ := Option.map_eq_some_iff.1 e
  cases r with
  | error _ => cases h2
  | ok r =>
    cases h2
    exact ⟨s', h1, (C97_split_unique_validator_keeps cfg0_ok sNetU_reach sNetU_uniq (by decide) (by decide)
      (by decide) h1).2.2.2⟩

/-- Updating 6 to (any, 3) through `UniqueResolver` deletes 6 and overwrites the source of link 2 with the wildcard. -/
example : ∃ s', Reach cfg0 s' ∧ (uniqueResolver (links cfg0)).update sNetU 6 252 3 = some ⟨.ok 2, s', ()⟩ ∧
    (links cfg0).view s' 6 = none ∧ (links cfg0).view s' 2 = some (252, 3) := by
  obtain ⟨-, h⟩ := C97_split_unique_resolver cfg0_ok sNetU_reach 6 (a := 252) (b := 3) (by decide) (by decide)
  obtain ⟨-, h⟩ := h ⟨2, (1, 3), by decide +kernel, .inl rfl, .inr rfl⟩
  obtain ⟨old, h1, -, -, h⟩ := h (3, 2) (by decide +kernel) (sNetU_uniq 6) (fun j _ => sNetU_uniq j)
  have e : (links cfg0).search sNetU 252 3 = some (some 2) := by decide +kernel
  rw [e] at h1
  cases h1
  obtain ⟨s', k1, k2, k3, -⟩ := h (1, 3) (by decide +kernel) (by decide) (sNetU_uniq.del 6 2) (by decide)
  refine ⟨s', k1, k3, ?_, ?_⟩ <;> rw [k2]
  · rw [View.set_other _ _ (by decide), View.del_same]
  · rw [View.set_same]

/-- Updating 2 to (any, 3), which matches 2 itself, through either resolver deletes it. -/
example : ((cascadeUniqueResolver (links cfg0)).update sNetU 2 252 3).map (fun o => (o.res, (links cfg0).view o.st 2)) =
    some (.error (.notExists 2), none) ∧
    ((uniqueResolver (links cfg0)).update sNetU 2 252 3).map (fun o => (o.res, (links cfg0).view o.st 2)) =
    some (.error (.notExists 2), none) := by decide +kernel

/-- 1 is updated to (any, 2) and merged into 3 = (2,2); 2 = (1,3) becomes (3,3). -/
example : ∃ s', Reach cfg0 s' ∧ (cascadeUniqueResolver (links cfg0)).update sNetU 1 252 2 = some ⟨.ok 3, s', ()⟩ ∧
    (links cfg0).view s' 1 = none ∧ (links cfg0).view s' 2 = some (3, 3) ∧ (links cfg0).view s' 3 = some (252, 2) := by
  have hv1 : (links cfg0).view sNetU 1 = some (1, 1) := by decide +kernel
  have hv3 : (links cfg0).view sNetU 3 = some (2, 2) := by decide +kernel
  have hv2 : (links cfg0).view sNetU 2 = some (1, 3) := by decide +kernel
  have key : ∀ j q, (links cfg0).view sNetU j = some q →
      (j = 1 ∨ q ≠ (1, 1)) ∧ (j = 1 ∨ j = 3 ∨ (if q.1 = 1 then 3 else q.1, if q.2 = 1 then 3 else q.2) ≠ (2, 2)) ∧
      (j = 1 ∨ j = 2 ∨ (q.1 ≠ 1 ∧ q.2 ≠ 1)) := by
    intro j q hq
    have := forall_of_collect (reachLawful cfg0_ok) sNetU_reach (p := fun l => decide
      ((l.index = 1 ∨ (l.source, l.target) ≠ (1, 1)) ∧ (l.index = 1 ∨ l.index = 3 ∨
        (if l.source = 1 then 3 else l.source, if l.target = 1 then 3 else l.target) ≠ (2, 2)) ∧
        (l.index = 1 ∨ l.index = 2 ∨ (l.source ≠ 1 ∧ l.target ≠ 1)))) (by decide +kernel) (j := j) (x := q.1) (y := q.2) hq
    exact of_decide_eq_true this
  have uses : ∀ j, ((links cfg0).view sNetU).Uses 1 j → j = 2 := by
    rintro j ⟨h1, a, b, h2, h3⟩
    rcases (key j _ h2).2.2 with e | e | ⟨e1, e2⟩
    · exact absurd e h1
    · exact e
    · rcases h3 with e | e
      · exact absurd e e1
      · exact absurd e e2
  have mapped : ∀ j q, j ≠ 1 → rebased ((links cfg0).view sNetU) 1 3 j = some q →
      ∃ p, (links cfg0).view sNetU j = some p ∧ p ≠ (1, 1) ∧
        (if p.1 = 1 then 3 else p.1, if p.2 = 1 then 3 else p.2) = q := by
    intro j q hj hq
    rw [rebased, if_neg hj] at hq
    obtain ⟨p, hp, e⟩ := Option.map_eq_some_iff.1 hq
    have hne := (key j p hp).1.resolve_left hj
    rw [if_neg hne] at e
    exact ⟨p, hp, hne, e⟩
  obtain ⟨s', h1, h2, h3⟩ := C97_split_cascade_merges cfg0_ok sNetU_reach (i := 1) (a := 252) (b := 2) (old := 3)
    (by decide) (by decide) hv1 (by decide +kernel) (by decide) (fun j _ => sNetU_uniq j)
    (fun j x y hj hv _ => by
      rw [uses j hj, hv2] at hv
      rw [uses j hj]
      cases hv
      decide)
    (fun ⟨d, hd, hv⟩ => absurd rfl ((key d _ hv).1.resolve_left hd))
    (fun p hp _ j hj => by
      rw [rebased, if_pos rfl, hv1] at hp
      cases hp
      apply Classical.byContradiction
      intro hj1
      obtain ⟨p, -, -, e⟩ := mapped j _ hj1 hj
      simp only [Prod.mk.injEq] at e
      revert e
      rintro ⟨e, -⟩
      split at e
      · cases e
      · contradiction)
    (fun j ⟨hj, a, b, hv, hu⟩ => by
      obtain ⟨p, -, -, e⟩ := mapped j _ hj hv
      simp only [Prod.mk.injEq] at e
      obtain ⟨e1, e2⟩ := e
      subst e1 e2
      exfalso
      rcases hu with hu | hu <;> split at hu <;> contradiction)
    (fun p hp _ j hj => by
      rw [View.del_other _ (by decide), rebased, if_neg (by decide), hv3] at hp
      cases hp
      apply Classical.byContradiction
      intro hj3
      have hj1 : j ≠ 1 := by rintro rfl; rw [View.del_same] at hj; cases hj
      rw [View.del_other _ hj1] at hj
      obtain ⟨p, hp, -, e⟩ := mapped j _ hj1 hj
      rcases (key j p hp).2.1 with k | k | k
      · exact hj1 k
      · exact hj3 k
      · exact k e)
    (by decide)
  refine ⟨s', h1, h2, ?_, ?_, ?_⟩ <;> rw [h3]
  · rw [View.set_other _ _ (by decide), View.del_same]
  · rw [View.set_other _ _ (by decide), View.del_other _ (by decide), rebased, if_neg (by decide), hv2]; rfl
  · rw [View.set_same]

end Verif.Split.Props
