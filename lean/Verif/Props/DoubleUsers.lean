import Verif.Props.UnitDerived
import Verif.DerivedExact

/-!
# C59, C60: `delete_usages` and `rebase` when a link has the argument at both ends (united store)

C20 and C21 are false then; these say what happens instead, for every such store.
-/

namespace Verif.Unit.Props
open Verif

variable {c : Cfg}

/-! ## C59 -/

/-- **C59.** `delete_usages(i)`, all users of `i` having doublets of their own: it succeeds exactly when no other link has
`i` at both ends. -/
theorem C59_succeeds_iff (hc : CfgOK c) {s : Store} (h : Reach c s) {i : Nat} (hv : (links c).view s i ≠ none)
    (hu : ∀ j, ((links c).view s).Uses i j → ((links c).view s).NoTwin j) :
    (∃ s', (links c).deleteUsages s i = some ⟨.ok (), s', ()⟩) ↔
      ∀ d, (links c).view s d = some (i, i) → d = i := by
  constructor
  · rintro ⟨s', e⟩ d hd
    apply Classical.byContradiction
    intro hdi
    obtain ⟨p, hp⟩ := Option.ne_none_iff_exists'.1 hv
    obtain ⟨s'', A, j, -, -, -, -, -, -, -, g⟩ := Links.deleteUsagesWith_double (reachLawful hc) h hp hd hdi
      (fun j a b h1 h2 h3 => hu j ⟨h2, a, b, h1, h3⟩) (fun _ _ _ _ _ _ => trivial)
    rw [Links.deleteUsages, g] at e
    cases e
  · intro hd
    obtain ⟨s', L, -, -, -, e, -⟩ := C20_delete_usages_partial hc h hv hd hu
    exact ⟨s', e⟩

example : (∃ s', (links cfg0).deleteUsages sNet 3 = some ⟨.ok (), s', ()⟩) ↔
    ∀ d, (links cfg0).view sNet d = some (3, 3) → d = 3 :=
  C59_succeeds_iff cfg0_ok sNet_reach (by decide +kernel) fun j _ => sNet_uniq j

/-- **C59.** When another link has `i` at both ends, `delete_usages(i)` fails with `NotExists(j)`, `j` being such a link; by
then it has deleted `j`, every other link whose target is `i`, and some of the links whose source is `i`: the links the
handler was called with, each once. Nothing else is changed. -/
theorem C59_double_user (hc : CfgOK c) {s : Store} (h : Reach c s) {i d : Nat} (hv : (links c).view s i ≠ none)
    (hd : (links c).view s d = some (i, i)) (hdi : d ≠ i)
    (hu : ∀ j, ((links c).view s).Uses i j → ((links c).view s).NoTwin j) :
    ∃ (s' : Store) (A : List Link) (j : Nat), Reach c s' ∧ j ≠ i ∧ (links c).view s j = some (i, i) ∧
      A.Nodup ∧ (∀ l ∈ A, ((links c).view s).Has l ∧ ((links c).view s).Uses i l.index) ∧
      (∀ k a, (links c).view s k = some (a, i) → k ≠ i → ⟨k, a, i⟩ ∈ A) ∧
      (∀ l ∈ A, (links c).view s' l.index = none) ∧
      (∀ k, (∀ l ∈ A, l.index ≠ k) → (links c).view s' k = (links c).view s k) ∧
      ∀ (σ ρ : Type) (hdl : σ → Link → Link → Ctl ρ × σ) (st : σ), (links c).deleteUsagesWith s i hdl st =
        some ⟨.error (.notExists j), s', callAll hdl (A.map fun l => (l, Link.nothing)) st⟩ := by
  obtain ⟨p, hp⟩ := Option.ne_none_iff_exists'.1 hv
  obtain ⟨s', A, j, g1, g2, g3, g4, g5, g6, g7, g8⟩ := Links.deleteUsagesWith_double (reachLawful hc) h hp hd hdi
    (fun j a b h1 h2 h3 => hu j ⟨h2, a, b, h1, h3⟩) (fun _ _ _ _ _ _ => trivial)
  refine ⟨s', A, j, g1, g2, g3, g4, fun l hl => ?_, fun k a hk hki => g6 _ hk hki rfl, fun l hl => ?_, fun k hk => ?_,
    fun _ _ hdl st => g8 hdl st⟩
  · obtain ⟨q1, q2, q3⟩ := g5 l hl
    exact ⟨q1, q2, _, _, q1, q3⟩
  · rw [g7]; exact if_pos (List.mem_map_of_mem hl)
  · rw [g7]
    refine if_neg fun hm => ?_
    obtain ⟨l, hl, e⟩ := List.mem_map.1 hm
    exact hk l hl e

theorem sDouble_uniq : ((links cfg0).view sDouble).Uniq := uniq_of_check sDouble_reach (by decide +kernel)

example : ∃ (s' : Store) (j : Nat), Reach cfg0 s' ∧ (links cfg0).view s' 4 = none ∧
    (links cfg0).deleteUsages sDouble 2 = some ⟨.error (.notExists j), s', ()⟩ :=
  let ⟨s', A, j, h1, _, _, _, _, h6, h7, _, h9⟩ := C59_double_user cfg0_ok sDouble_reach (i := 2) (d := 4)
    (by decide +kernel) (by decide +kernel) (by decide) fun j _ => sDouble_uniq j
  ⟨s', j, h1, h7 ⟨4, 2, 2⟩ (h6 4 2 (by decide +kernel) (by decide)), by rw [Links.deleteUsages, h9]⟩

/-! ## C60 -/

/-- **C60.** `rebase(old, new)`, `old ≠ new`, every user of `old` having a doublet of its own, and, if a link other than
`old` is `(old, old)`, no link being `(new, old)` or `(old, new)`: the call succeeds; in every link other than `old` each occurrence of
`old` is replaced by `new`, except that a link `(old, old)` becomes `(old, new)`; `old` itself is unchanged. -/
theorem C60_rebase_exact (hc : CfgOK c) {s : Store} (h : Reach c s) {old new : Nat}
    (hv : (links c).view s old ≠ none) (hne : old ≠ new)
    (hu : ∀ j, ((links c).view s).Uses old j → ((links c).view s).NoTwin j)
    (hx : (∃ d, d ≠ old ∧ (links c).view s d = some (old, old)) →
      ∀ j, (links c).view s j ≠ some (new, old) ∧ (links c).view s j ≠ some (old, new)) :
    ∃ s', Reach c s' ∧ (links c).rebase s old new = some ⟨.ok new, s', ()⟩ ∧
      (links c).view s' old = (links c).view s old ∧
      ∀ j, j ≠ old → (links c).view s' j = ((links c).view s j).map fun p =>
        if p = (old, old) then (old, new) else (if p.1 = old then new else p.1, if p.2 = old then new else p.2) := by
  obtain ⟨p, hp⟩ := Option.ne_none_iff_exists'.1 hv
  obtain ⟨s', g1, g2, g3⟩ := Links.rebaseWith_exact (reachLawful hc) h hp hne (fun _ _ _ _ _ _ _ => ⟨fun _ _ => trivial, fun _ _ => ⟨fun _ => trivial, fun _ => trivial⟩⟩)
    (fun j a b h1 h2 h3 => hu j ⟨h2, a, b, h1, h3⟩) hx
  obtain ⟨st', e⟩ := g3 Links.contH ()
  refine ⟨s', g1, ?_, ?_, ?_⟩
  · simp only [Links.rebase]
    rw [e]
    rfl
  · rw [g2]; exact if_pos rfl
  · intro j hj
    rw [g2]
    simp only [if_neg hj]
    rfl

/-- So, whenever some other link has `old` at both ends, `old` is still used after a successful `rebase`. -/
theorem C60_still_used (hc : CfgOK c) {s : Store} (h : Reach c s) {old new d : Nat}
    (hv : (links c).view s old ≠ none) (hne : old ≠ new) (hd : (links c).view s d = some (old, old)) (hdo : d ≠ old)
    (hu : ∀ j, ((links c).view s).Uses old j → ((links c).view s).NoTwin j)
    (hx : ∀ j, (links c).view s j ≠ some (new, old) ∧ (links c).view s j ≠ some (old, new)) :
    ∃ s', Reach c s' ∧ (links c).rebase s old new = some ⟨.ok new, s', ()⟩ ∧ ((links c).view s').Uses old d := by
  obtain ⟨s', g1, g2, -, g4⟩ := C60_rebase_exact hc h hv hne hu fun _ => hx
  refine ⟨s', g1, g2, hdo, old, new, ?_, .inl rfl⟩
  rw [g4 d hdo, hd]
  simp

example : ∃ s', Reach cfg0 s' ∧ (links cfg0).rebase sDouble 2 3 = some ⟨.ok 3, s', ()⟩ ∧
    ((links cfg0).view s').Uses 2 4 :=
  C60_still_used cfg0_ok sDouble_reach (by decide +kernel) (by decide) (by decide +kernel) (by decide)
    (fun j _ => sDouble_uniq j) fun j => by
      constructor <;> intro hj <;>
        have := forall_links sDouble_reach (p := fun _ q => q != (3, 2) && q != (2, 3)) (by decide +kernel) j _ hj <;>
        simp at this

end Verif.Unit.Props
