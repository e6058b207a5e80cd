import Verif.Props.Decorators
import Verif.DerivedExact
import Verif.Props.DoubleUsers

/-!
# C70: deleting through `CascadeUsagesResolver`, in general

C43 is false when a link has `i` at both ends, and says nothing about links that refer to the deleted users.
-/

namespace Verif.Deco.Props
open Verif Links

variable {S : Type} {D : Links S} (W : Lawful D) {s : S}

/-- **C70.** If another link has `i` at both ends, deleting `i` through `CascadeUsagesResolver` fails with `NotExists(j)`, `j`
being such a link, and `i` is kept. Deleted by then, with one call of the handler each: all other links with target `i`, `j`
among them, and some of the links with source `i`; nothing else. -/
theorem C70_cascade_double_user (hs : W.Inv s) (hu : (D.view s).Uniq) {i d : Nat} {p : Nat × Nat}
    (hv : D.view s i = some p) (hd : D.view s d = some (i, i)) (hdi : d ≠ i) :
    ∃ (s' : S) (A : List Link) (j : Nat), W.Inv s' ∧ j ≠ i ∧ D.view s j = some (i, i) ∧ D.view s' i = some p ∧ A.Nodup ∧
      (∀ l ∈ A, (D.view s).Has l ∧ (D.view s).Uses i l.index) ∧
      (∀ k a, D.view s k = some (a, i) → k ≠ i → ⟨k, a, i⟩ ∈ A) ∧
      (∀ l ∈ A, D.view s' l.index = none) ∧
      (∀ k, (∀ l ∈ A, l.index ≠ k) → D.view s' k = D.view s k) ∧
      ∀ {σ : Type} (h : WH σ) (st : σ), (cascadeUsagesResolver D).deleteLinks s [i] h st =
        some ⟨.error (.notExists j), s', callAll h (A.map fun l => (l, Link.nothing)) st⟩ := by
  obtain ⟨s', A, j, g1, g2, g3, g4, g5, g6, g7, g8⟩ := deleteUsagesWith_double W hs hv hd hdi
    (fun j _ _ _ _ _ => hu j) (fun _ _ _ _ _ _ => W.canDelete_uniq _ _ hu)
  refine ⟨s', A, j, g1, g2, g3, ?_, g4, fun l hl => ?_, fun k a hk hki => g6 _ hk hki rfl, fun l hl => ?_, fun k hk => ?_,
    fun {σ} h st => ?_⟩
  · rw [g7]
    simp only
    rw [if_neg, hv]
    intro hm
    obtain ⟨l, hl, e⟩ := List.mem_map.1 hm
    exact (g5 l hl).2.1 e
  · obtain ⟨q1, q2, q3⟩ := g5 l hl
    exact ⟨q1, q2, _, _, q1, q3⟩
  · rw [g7]; exact if_pos (List.mem_map_of_mem hl)
  · rw [g7]
    refine if_neg fun hm => ?_
    obtain ⟨l, hl, e⟩ := List.mem_map.1 hm
    exact hk l hl e
  · simp only [cascadeUsagesResolver, List.getElem?_cons_zero, g8, Option.bind_some]

/-- **C70.** So the deletion of a live link succeeds exactly when no other link has it at both ends. -/
theorem C70_cascade_succeeds_iff (hs : W.Inv s) (hu : (D.view s).Uniq) {i : Nat} (hv : D.view s i ≠ none) :
    (∃ r s', (cascadeUsagesResolver D).delete s i = some ⟨.ok r, s', ()⟩) ↔ ∀ d, D.view s d = some (i, i) → d = i := by
  obtain ⟨p, hp⟩ := Option.ne_none_iff_exists'.1 hv
  constructor
  · rintro ⟨r, s', e⟩ d hd
    apply Classical.byContradiction
    intro hdi
    obtain ⟨s'', A, j, -, -, -, -, -, -, -, -, -, g⟩ := C70_cascade_double_user W hs hu hp hd hdi
    simp only [Links.delete, Links.deleteBy, Links.deleteByWith, g, Option.map_some, unwrapW, resultIndex, Except.map] at e
    cases e
  · intro hd
    obtain ⟨s', L, -, -, -, -, -, -, g⟩ := C43_cascade_usages_resolver_partial W hs hu hp hd
    obtain ⟨r, g⟩ := g (wrapW keepIndex) (0, .cont)
    simp only [Links.delete, Links.deleteBy, Links.deleteByWith, g, Option.map_some, unwrapW, resultIndex, Except.map]
    exact ⟨_, _, rfl⟩

/-- **C70.** After a successful deletion the links that refer to a deleted link are exactly the remaining ones that referred
to a user of `i`: the cascade is one level deep. -/
theorem C70_cascade_dangling (hs : W.Inv s) (hu : (D.view s).Uniq) {i : Nat} (hv : D.view s i ≠ none) {r : Nat} {s' : S}
    (e : (cascadeUsagesResolver D).delete s i = some ⟨.ok r, s', ()⟩) (k : Nat) :
    (∃ x, D.view s x ≠ none ∧ D.view s' x = none ∧ (D.view s').Uses x k) ↔
      (k ≠ i ∧ ¬ (D.view s).Uses i k ∧ ∃ x, (D.view s).Uses i x ∧ (D.view s).Uses x k) := by
  obtain ⟨p, hp⟩ := Option.ne_none_iff_exists'.1 hv
  have hd := (C70_cascade_succeeds_iff W hs hu hv).1 ⟨r, s', e⟩
  obtain ⟨s1, L, g1, -, -, g4, g5, g6, g7⟩ := C43_cascade_usages_resolver_partial W hs hu hp hd
  obtain ⟨r', g7⟩ := g7 (wrapW keepIndex) (0, .cont)
  simp only [Links.delete, Links.deleteBy, Links.deleteByWith, g7, Option.map_some, unwrapW, resultIndex, Except.map,
    Option.some.injEq, Out.mk.injEq] at e
  rw [← e.2.1]
  constructor
  · rintro ⟨x, h1, h2, h3, a, b, h4, h5⟩
    have hk : ¬ (k = i ∨ (D.view s).Uses i k) := fun hk => by rw [g4 k hk] at h4; cases h4
    have hxi : x ≠ i := by rintro rfl; have := g6 k a b h4; exact h5.elim this.1 this.2
    have hxu : (D.view s).Uses i x := by
      apply Classical.byContradiction
      intro hx
      rw [g5 x (fun h => h.elim hxi hx)] at h2
      exact h1 h2
    rw [g5 k hk] at h4
    exact ⟨fun h => hk (.inl h), fun h => hk (.inr h), x, hxu, h3, a, b, h4, h5⟩
  · rintro ⟨h1, h2, x, h3, h4, a, b, h5, h6⟩
    refine ⟨x, ?_, g4 x (.inr h3), h4, a, b, ?_, h6⟩
    · obtain ⟨-, a', b', h7, -⟩ := h3
      rw [h7]; simp
    · rw [g5 k (fun h => h.elim h1 h2), h5]

section United
open Unit Unit.Props

/-- `sDouble` is 2 = (0,0), 3 = (2,1), 4 = (2,2) among others. -/
example : ∃ (s' : Store) (j : Nat), (links cfg0).view s' 2 = some (0, 0) ∧ (links cfg0).view s' 4 = none ∧
    (cascadeUsagesResolver (links cfg0)).delete sDouble 2 = some ⟨.error (.notExists j), s', ()⟩ := by
  obtain ⟨s', A, j, -, -, -, h4, -, -, h7, h8, -, h10⟩ := C70_cascade_double_user (reachLawful cfg0_ok) sDouble_reach
    sDouble_uniq (i := 2) (d := 4) (p := (0, 0)) (by decide +kernel) (by decide +kernel) (by decide)
  refine ⟨s', j, h4, h8 ⟨4, 2, 2⟩ (h7 4 2 (by decide +kernel) (by decide)), ?_⟩
  simp only [Links.delete, Links.deleteBy, Links.deleteByWith, h10]
  rfl

example : (∃ r s', (cascadeUsagesResolver (links cfg0)).delete sNet 3 = some ⟨.ok r, s', ()⟩) ↔
    ∀ d, (links cfg0).view sNet d = some (3, 3) → d = 3 :=
  C70_cascade_succeeds_iff (reachLawful cfg0_ok) sNet_reach sNet_uniq (by decide +kernel)

/-- On `sChain` (1 = (1,1), 2 = (1,3), 3 = (3,3), 4 = (2,3)), deleting 1 leaves 4 dangling. -/
example : ∃ r s', (cascadeUsagesResolver (links cfg0)).delete sChain 1 = some ⟨.ok r, s', ()⟩ ∧
    ∃ x, (links cfg0).view sChain x ≠ none ∧ (links cfg0).view s' x = none ∧ ((links cfg0).view s').Uses x 4 := by
  have hu : ((links cfg0).view sChain).Uniq := uniq_of_check sChain_reach (by decide +kernel)
  have hv : (links cfg0).view sChain 1 ≠ none := by decide +kernel
  have h1 : (links cfg0).view sChain 2 = some (1, 3) := by decide +kernel
  have h2 : (links cfg0).view sChain 4 = some (2, 3) := by decide +kernel
  obtain ⟨r, s', e⟩ := (C70_cascade_succeeds_iff (reachLawful cfg0_ok) sChain_reach hu hv).2 fun d hd => by
    have := forall_links sChain_reach (p := fun j q => j == 1 || q != (1, 1)) (by decide +kernel) d _ hd
    simpa using this
  refine ⟨r, s', e, (C70_cascade_dangling (reachLawful cfg0_ok) sChain_reach hu hv e 4).2 ⟨by decide, ?_, 2, ?_, ?_⟩⟩
  · rintro ⟨-, a, b, h, h'⟩
    rw [h2] at h; cases h
    omega
  · exact ⟨by decide, 1, 3, h1, .inl rfl⟩
  · exact ⟨by decide, 2, 3, h2, .inl rfl⟩

end United

end Verif.Deco.Props
