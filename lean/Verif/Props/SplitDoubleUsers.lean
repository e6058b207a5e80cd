import Verif.Props.DoubleUsers
import Verif.Props.SplitDerived

/-!
# C59, C60 on the split store, C69: `rebase_and_delete` in general, both stores
-/

namespace Verif.Split.Props
open Verif

variable {c : Cfg}

/-! ## C59 -/

/-- **C59**, split store, unique doublets: `delete_usages(i)` succeeds exactly when no other link has `i` at both ends. -/
theorem C59_split_succeeds_iff (hc : CfgOK c) {s : Store} (h : Reach c s) {i : Nat} (hv : (links c).view s i ≠ none)
    (hu : ((links c).view s).Uniq) :
    (∃ s', (links c).deleteUsages s i = some ⟨.ok (), s', ()⟩) ↔
      ∀ d, (links c).view s d = some (i, i) → d = i := by
  constructor
  · rintro ⟨s', e⟩ d hd
    apply Classical.byContradiction
    intro hdi
    obtain ⟨p, hp⟩ := Option.ne_none_iff_exists'.1 hv
    obtain ⟨s'', A, j, -, -, -, -, -, -, -, g⟩ := Links.deleteUsagesWith_double (reachLawful hc) h hp hd hdi
      (fun j a b h1 h2 h3 => hu j) (fun _ _ _ _ _ _ => (reachLawful hc).canDelete_uniq _ _ hu)
    rw [Links.deleteUsages, g] at e
    cases e
  · intro hd
    obtain ⟨s', L, -, -, -, e, -⟩ := C20_split_delete_usages_partial hc h hv hd hu
    exact ⟨s', e⟩

example : (∃ s', (links cfg0).deleteUsages sNetU 3 = some ⟨.ok (), s', ()⟩) ↔
    ∀ d, (links cfg0).view sNetU d = some (3, 3) → d = 3 :=
  C59_split_succeeds_iff cfg0_ok sNetU_reach (by decide +kernel) sNetU_uniq

/-- **C59**, split store, unique doublets. When another link has `i` at both ends, `delete_usages(i)` fails with
`NotExists(j)`, `j` being such a link; by then it has deleted `j`, every other link whose target is `i`, and some of the links
whose source is `i`: the links the handler was called with, each once. Nothing else is changed. -/
theorem C59_split_double_user (hc : CfgOK c) {s : Store} (h : Reach c s) {i d : Nat} (hv : (links c).view s i ≠ none)
    (hd : (links c).view s d = some (i, i)) (hdi : d ≠ i) (hu : ((links c).view s).Uniq) :
    ∃ (s' : Store) (A : List Link) (j : Nat), Reach c s' ∧ j ≠ i ∧ (links c).view s j = some (i, i) ∧
      A.Nodup ∧ (∀ l ∈ A, ((links c).view s).Has l ∧ ((links c).view s).Uses i l.index) ∧
      (∀ k a, (links c).view s k = some (a, i) → k ≠ i → ⟨k, a, i⟩ ∈ A) ∧
      (∀ l ∈ A, (links c).view s' l.index = none) ∧
      (∀ k, (∀ l ∈ A, l.index ≠ k) → (links c).view s' k = (links c).view s k) ∧
      ∀ (σ ρ : Type) (hdl : σ → Link → Link → Ctl ρ × σ) (st : σ), (links c).deleteUsagesWith s i hdl st =
        some ⟨.error (.notExists j), s', callAll hdl (A.map fun l => (l, Link.nothing)) st⟩ := by
  obtain ⟨p, hp⟩ := Option.ne_none_iff_exists'.1 hv
  obtain ⟨s', A, j, g1, g2, g3, g4, g5, g6, g7, g8⟩ := Links.deleteUsagesWith_double (reachLawful hc) h hp hd hdi
    (fun j a b h1 h2 h3 => hu j) (fun _ _ _ _ _ _ => (reachLawful hc).canDelete_uniq _ _ hu)
  refine ⟨s', A, j, g1, g2, g3, g4, fun l hl => ?_, fun k a hk hki => g6 _ hk hki rfl, fun l hl => ?_, fun k hk => ?_,
    fun _ _ hdl st => g8 hdl st⟩
  · obtain ⟨q1, q2, q3⟩ := g5 l hl
    exact ⟨q1, q2, _, _, q1, q3⟩
  · rw [g7]; exact if_pos (List.mem_map_of_mem hl)
  · rw [g7]
    refine if_neg fun hm => ?_
    obtain ⟨l, hl, e⟩ := List.mem_map.1 hm
    exact hk l hl e

/-- 1 = (1,2), 2 = (0,0), 3 = (2,1), 4 = (2,2). -/
def sDouble : Store := runs cfg0 [.create, .create, .create, .create, .update 1 1 2, .update 3 2 1, .update 4 2 2]

theorem sDouble_reach : Reach cfg0 sDouble := (runs_history (by decide +kernel)).reach cfg0_ok

theorem sDouble_uniq : ((links cfg0).view sDouble).Uniq :=
  uniq_of_collect (reachLawful cfg0_ok) sDouble_reach (by decide +kernel)

example : ∃ (s' : Store) (j : Nat), Reach cfg0 s' ∧ (links cfg0).view s' 4 = none ∧
    (links cfg0).deleteUsages sDouble 2 = some ⟨.error (.notExists j), s', ()⟩ :=
  let ⟨s', A, j, h1, _, _, _, _, h6, h7, _, h9⟩ := C59_split_double_user cfg0_ok sDouble_reach (i := 2) (d := 4)
    (by decide +kernel) (by decide +kernel) (by decide) sDouble_uniq
  ⟨s', j, h1, h7 ⟨4, 2, 2⟩ (h6 4 2 (by decide +kernel) (by decide)), by rw [Links.deleteUsages, h9]⟩

/-! ## C60 -/

/-- The updates `rebase` makes on a split store are supported if `new` is not null and no user of `old` that has a source is
`new` or refers to itself. -/
theorem rebaseOK (hc : CfgOK c) {s : Store} (h : Reach c s) {old new : Nat}
    (hv : (links c).view s old ≠ none) (hnew : new ≠ 0)
    (hself : ∀ j a b, ((links c).view s).Uses old j → (links c).view s j = some (a, b) → a ≠ 0 →
        j ≠ new ∧ j ≠ a ∧ j ≠ b) : Links.RebaseOK (reachLawful hc) ((links c).view s) old new := by
  have h0 : old ≠ 0 := by rintro rfl; exact hv ((reachLawful hc).null s h)
  intro w j a b hj hjo hab
  refine ⟨fun hnb hw => ⟨fun ha => ?_, fun he q hq => ?_⟩, fun ha hb => ?_⟩
  · simp only [substPair] at ha ⊢
    split
    · exact hnew
    · next hb =>
      have ha' : a = old := hab.resolve_right hb
      rw [ha'] at hj
      exact view_half hc h hj h0
  · rw [hw] at hq; cases hq
    apply Classical.byContradiction
    intro ha
    obtain ⟨e1, e2, e3⟩ := hself j a b ⟨hjo, a, b, hj, hab⟩ hj ha
    simp only [substPair] at he
    rcases he with he | he
    · split at he
      · exact e1 he.symm
      · exact e2 he.symm
    · split at he
      · exact e1 he.symm
      · exact e3 he.symm
  · subst ha
    obtain ⟨e1, e2, -⟩ := hself j a b ⟨hjo, a, b, hj, hab⟩ hj h0
    refine ⟨fun _ => ⟨fun _ => h0, fun he => ?_⟩, fun _ => ⟨fun _ => hnew, fun he => ?_⟩⟩
    · rcases he with he | he
      · exact absurd he.symm e1
      · exact absurd he.symm e2
    · rcases he with he | he
      · exact absurd he.symm e2
      · exact absurd he.symm e1

/-- **C60**, split store: as for the united store, if `new` is not null and no user of `old` that has a source is `new` or
refers to itself. -/
theorem C60_split_rebase_exact (hc : CfgOK c) {s : Store} (h : Reach c s) {old new : Nat}
    (hv : (links c).view s old ≠ none) (hne : old ≠ new) (hnew : new ≠ 0)
    (hu : ∀ j, ((links c).view s).Uses old j → ((links c).view s).NoTwin j)
    (hself : ∀ j a b, ((links c).view s).Uses old j → (links c).view s j = some (a, b) → a ≠ 0 →
        j ≠ new ∧ j ≠ a ∧ j ≠ b)
    (hx : (∃ d, d ≠ old ∧ (links c).view s d = some (old, old)) →
      ∀ j, (links c).view s j ≠ some (new, old) ∧ (links c).view s j ≠ some (old, new)) :
    ∃ s', Reach c s' ∧ (links c).rebase s old new = some ⟨.ok new, s', ()⟩ ∧
      (links c).view s' old = (links c).view s old ∧
      ∀ j, j ≠ old → (links c).view s' j = ((links c).view s j).map fun p =>
        if p = (old, old) then (old, new) else (if p.1 = old then new else p.1, if p.2 = old then new else p.2) := by
  obtain ⟨p, hp⟩ := Option.ne_none_iff_exists'.1 hv
  obtain ⟨s', g1, g2, g3⟩ := Links.rebaseWith_exact (reachLawful hc) h hp hne (rebaseOK hc h hv hnew hself)
    (fun j a b h1 h2 h3 => hu j ⟨h2, a, b, h1, h3⟩) hx
  obtain ⟨st', e⟩ := g3 Links.contH ()
  refine ⟨s', g1, ?_, ?_, ?_⟩
  · simp only [Links.rebase]
    rw [e]
    rfl
  · rw [g2]; exact if_pos rfl
  · intro j hj
    rw [g2]
    simp only [if_neg hj]
    rfl

/-- So, whenever some other link has `old` at both ends, `old` is still used after a successful `rebase`. -/
theorem C60_split_still_used (hc : CfgOK c) {s : Store} (h : Reach c s) {old new d : Nat}
    (hv : (links c).view s old ≠ none) (hne : old ≠ new) (hnew : new ≠ 0) (hd : (links c).view s d = some (old, old))
    (hdo : d ≠ old) (hu : ∀ j, ((links c).view s).Uses old j → ((links c).view s).NoTwin j)
    (hself : ∀ j a b, ((links c).view s).Uses old j → (links c).view s j = some (a, b) → a ≠ 0 →
        j ≠ new ∧ j ≠ a ∧ j ≠ b)
    (hx : ∀ j, (links c).view s j ≠ some (new, old) ∧ (links c).view s j ≠ some (old, new)) :
    ∃ s', Reach c s' ∧ (links c).rebase s old new = some ⟨.ok new, s', ()⟩ ∧ ((links c).view s').Uses old d := by
  obtain ⟨s', g1, g2, -, g4⟩ := C60_split_rebase_exact hc h hv hne hnew hu hself fun _ => hx
  refine ⟨s', g1, g2, hdo, old, new, ?_, .inl rfl⟩
  rw [g4 d hdo, hd]
  simp

/-- 1 = (0,0), 2 = (0,0), 3 = (2,1), 4 = (2,2), 5 = (0,0). -/
def sDouble2 : Store := runs cfg0 [.create, .create, .create, .create, .create, .update 3 2 1, .update 4 2 2]

theorem sDouble2_reach : Reach cfg0 sDouble2 := (runs_history (by decide +kernel)).reach cfg0_ok

theorem sDouble2_uniq : ((links cfg0).view sDouble2).Uniq :=
  uniq_of_collect (reachLawful cfg0_ok) sDouble2_reach (by decide +kernel)

theorem sDouble2_self : ∀ j a b, ((links cfg0).view sDouble2).Uses 2 j → (links cfg0).view sDouble2 j = some (a, b) → a ≠ 0 →
    j ≠ 5 ∧ j ≠ a ∧ j ≠ b := by
  rintro j a b ⟨hjo, a', b', h1, h2⟩ hj ha
  have := forall_of_collect (reachLawful cfg0_ok) sDouble2_reach
    (p := fun l => l.source == 0 || (l.index != 5 && l.index != l.source && l.index != l.target)) (by decide +kernel) hj
  simp [ha] at this
  exact ⟨this.1.1, this.1.2, this.2⟩

theorem sDouble2_pairs : ∀ j, (links cfg0).view sDouble2 j ≠ some (5, 2) ∧ (links cfg0).view sDouble2 j ≠ some (2, 5) :=
  fun j => by
    constructor <;> intro hj <;>
      have := forall_of_collect (reachLawful cfg0_ok) sDouble2_reach
        (p := fun l => (l.source, l.target) != (5, 2) && (l.source, l.target) != (2, 5)) (by decide +kernel) hj <;>
      simp at this

example : ∃ s', Reach cfg0 s' ∧ (links cfg0).rebase sDouble2 2 5 = some ⟨.ok 5, s', ()⟩ ∧
    ((links cfg0).view s').Uses 2 4 :=
  C60_split_still_used cfg0_ok sDouble2_reach (by decide +kernel) (by decide) (by decide) (by decide +kernel) (by decide)
    (fun j _ => sDouble2_uniq j) sDouble2_self sDouble2_pairs

/-! ## C69 -/

/-- **C69**, split store: as for the united store, with the further conditions of C60. -/
theorem C69_split_rebase_and_delete_exact (hc : CfgOK c) {s : Store} (h : Reach c s) {old new : Nat} {p : Nat × Nat}
    (hv : (links c).view s old = some p) (hne : old ≠ new) (hnew : new ≠ 0)
    (hu : ∀ j, ((links c).view s).Uses old j → ((links c).view s).NoTwin j)
    (hself : ∀ j a b, ((links c).view s).Uses old j → (links c).view s j = some (a, b) → a ≠ 0 →
        j ≠ new ∧ j ≠ a ∧ j ≠ b)
    (hx : (∃ d, d ≠ old ∧ (links c).view s d = some (old, old)) →
      ∀ j, (links c).view s j ≠ some (new, old) ∧ (links c).view s j ≠ some (old, new))
    (ht : p ≠ (0, 0) → ∀ j q, j ≠ old → (links c).view s j = some q → q ≠ (old, old) →
        (if q.1 = old then new else q.1, if q.2 = old then new else q.2) ≠ p) :
    ∃ s', Reach c s' ∧ (links c).rebaseAndDelete s old new = some ⟨.ok 0, s', ()⟩ ∧
      (links c).view s' old = none ∧
      (∀ j, j ≠ old → (links c).view s' j = ((links c).view s j).map fun p =>
        if p = (old, old) then (old, new) else (if p.1 = old then new else p.1, if p.2 = old then new else p.2)) ∧
      ∀ j, ((links c).view s').Uses old j ↔ j ≠ old ∧ (links c).view s j = some (old, old) := by
  obtain ⟨s', g1, g2, g3⟩ := Links.rebaseAndDelete_exact (reachLawful hc) h hv hne
    (rebaseOK hc h (by rw [hv]; simp) hnew hself) (fun j a b h1 h2 h3 => hu j ⟨h2, a, b, h1, h3⟩) hx ht (fun w hw => hw)
  refine ⟨s', g1, g2, by rw [g3]; simp, fun j hj => ?_, Links.uses_after_rebase hne g3⟩
  rw [g3]; simp only [if_neg hj]; rfl

/-- On `sDouble2`: 3 becomes (5,1), 2 is removed, and 4 refers to it as (2,5). -/
example : ∃ s', Reach cfg0 s' ∧ (links cfg0).rebaseAndDelete sDouble2 2 5 = some ⟨.ok 0, s', ()⟩ ∧
    (links cfg0).view s' 2 = none ∧ ((links cfg0).view s').Uses 2 4 :=
  let ⟨s', h1, h2, h3, _, h5⟩ := C69_split_rebase_and_delete_exact cfg0_ok sDouble2_reach (old := 2) (new := 5)
    (p := (0, 0)) (by decide +kernel) (by decide) (by decide) (fun j _ => sDouble2_uniq j) sDouble2_self
    (fun _ => sDouble2_pairs) (fun hp => absurd rfl hp)
  ⟨s', h1, h2, h3, (h5 4).2 ⟨by decide, by decide +kernel⟩⟩

end Verif.Split.Props

namespace Verif.Unit.Props
open Verif

variable {c : Cfg}

/-- **C69.** `rebase_and_delete(old, new)`, `old ≠ new`, under the conditions of C60 and if `old` does not end up with the
doublet of another link: the call succeeds and returns 0. `old` is gone. In every other link each occurrence of `old` is
replaced by `new`, except that a link `(old, old)` becomes `(old, new)`: these links, and no others, then refer to the deleted
link. -/
theorem C69_rebase_and_delete_exact (hc : CfgOK c) {s : Store} (h : Reach c s) {old new : Nat} {p : Nat × Nat}
    (hv : (links c).view s old = some p) (hne : old ≠ new)
    (hu : ∀ j, ((links c).view s).Uses old j → ((links c).view s).NoTwin j)
    (hx : (∃ d, d ≠ old ∧ (links c).view s d = some (old, old)) →
      ∀ j, (links c).view s j ≠ some (new, old) ∧ (links c).view s j ≠ some (old, new))
    (ht : p ≠ (0, 0) → ∀ j q, j ≠ old → (links c).view s j = some q → q ≠ (old, old) →
        (if q.1 = old then new else q.1, if q.2 = old then new else q.2) ≠ p) :
    ∃ s', Reach c s' ∧ (links c).rebaseAndDelete s old new = some ⟨.ok 0, s', ()⟩ ∧
      (links c).view s' old = none ∧
      (∀ j, j ≠ old → (links c).view s' j = ((links c).view s j).map fun p =>
        if p = (old, old) then (old, new) else (if p.1 = old then new else p.1, if p.2 = old then new else p.2)) ∧
      ∀ j, ((links c).view s').Uses old j ↔ j ≠ old ∧ (links c).view s j = some (old, old) := by
  obtain ⟨s', g1, g2, g3⟩ := Links.rebaseAndDelete_exact (reachLawful hc) h hv hne
    (fun _ _ _ _ _ _ _ => ⟨fun _ _ => trivial, fun _ _ => ⟨fun _ => trivial, fun _ => trivial⟩⟩)
    (fun j a b h1 h2 h3 => hu j ⟨h2, a, b, h1, h3⟩) hx ht (fun _ _ => trivial)
  refine ⟨s', g1, g2, by rw [g3]; simp, fun j hj => ?_, Links.uses_after_rebase hne g3⟩
  rw [g3]; simp only [if_neg hj]; rfl

/-- On `sDouble`: 2 is removed, and 4 refers to it as (2,3). -/
example : ∃ s', Reach cfg0 s' ∧ (links cfg0).rebaseAndDelete sDouble 2 3 = some ⟨.ok 0, s', ()⟩ ∧
    (links cfg0).view s' 2 = none ∧ ((links cfg0).view s').Uses 2 4 :=
  let ⟨s', h1, h2, h3, _, h5⟩ := C69_rebase_and_delete_exact cfg0_ok sDouble_reach (old := 2) (new := 3) (p := (0, 0))
    (by decide +kernel) (by decide) (fun j _ => sDouble_uniq j) (fun _ j => by
      constructor <;> intro hj <;>
        have := forall_links sDouble_reach (p := fun _ q => q != (3, 2) && q != (2, 3)) (by decide +kernel) j _ hj <;>
        simp at this) (fun hp => absurd rfl hp)
  ⟨s', h1, h2, h3, (h5 4).2 ⟨by decide, by decide +kernel⟩⟩

end Verif.Unit.Props
