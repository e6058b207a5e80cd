import Verif.Nested
import Verif.Props.Careful

/-!
# C81: nested pairs are stored once and can be read back
-/

namespace Verif.Unit.Props
open Verif Verif.Unit

variable {c : Cfg}

theorem client_nest_law (hc : CfgOK c) (hcap : ∀ s, Client c s → CanGrow c s) :
    Client.Law (links c) (Client c) := by
  intro s hs
  obtain ⟨-, h2, h3, h4⟩ := C51_careful_client hc hs
  exact ⟨⟨h2, h3⟩, fun k hk => h4 k hk (hcap s hs)⟩

/-- **C81**, united store. A careful client (`Client`, C51) stores a nested pair whose items are points, on a memory that, when it
grows, stays within the index type. Every call returns. No existing link changes, every new link is a part of the nested
pair, and if no call failed then the result is the nested pair: following sources and targets from it shows it. -/
theorem C81_nested_pair_is_stored (hc : CfgOK c) (hcap : ∀ s, Client c s → CanGrow c s) {s : Store}
    (h : Client c s) {t : Nest} (ht : t.Points ((links c).view s)) :
    ∃ o, t.build (links c) s = some o ∧ Client c o.st ∧
      (∀ k p, (links c).view s k = some p → (links c).view o.st k = some p) ∧
      (∀ k, (links c).view o.st k ≠ none →
        (links c).view s k ≠ none ∨ ∃ u, Nest.Part u t ∧ u.At ((links c).view o.st) k) ∧
      ∀ i, o.res = .ok i → t.At ((links c).view o.st) i :=
  Nest.build_law (client_nest_law hc hcap) t h ht

/-- **C81**, united store, continued. As long as a nested pair is there, storing it again returns the same link and
changes nothing. -/
theorem C81_nested_pair_is_stored_once (hc : CfgOK c) (hcap : ∀ s, Client c s → CanGrow c s) {s : Store}
    (h : Client c s) {t : Nest} (ht : t.Points ((links c).view s)) {i : Nat} (hi : t.At ((links c).view s) i) :
    t.build (links c) s = some ⟨.ok i, s, ()⟩ := by
  refine Nest.build_again (client_nest_law hc hcap) (fun s hs x y i hxy hx hy => ?_) t h ht hi
  obtain ⟨hr, hinj, -, -⟩ := C51_careful_client hc hs
  have hne : ∀ k, (links c).view s k ≠ none → k ≠ 0 ∧ k ≠ c.consts.any := fun k hk =>
    ⟨by rintro rfl; exact hk ((reachLawful hc).null s hr), by rintro rfl; exact hk ((reachLawful hc).any_absent s hr)⟩
  rcases C18_get_or_create hc hr (hcap s hs) (hne x hx).1 (hne x hx).2 (hne y hy).2 with
    ⟨j, g1, g2⟩ | ⟨g, -⟩
  · rw [g2, hinj i j _ hxy g1]
  · exact absurd hxy (g i)

/-- **C81**, united store, continued. Two nested pairs are the same link exactly if they are equal, where the pair of an item
with itself counts as the item. -/
theorem C81_nested_pairs_told_apart (hc : CfgOK c) {s : Store} (h : Client c s) {t u : Nest}
    (ht : t.Points ((links c).view s)) (hu : u.Points ((links c).view s)) {i j : Nat}
    (hi : t.At ((links c).view s) i) (hj : u.At ((links c).view s) j) : i = j ↔ t.collapse = u.collapse := by
  obtain ⟨-, h2, h3, -⟩ := C51_careful_client hc h
  exact Nest.index_iff ⟨h2, h3⟩ ht hu hi hj

/-- A memory that does not grow beyond the index type. -/
def cfgCap : Cfg := { cfg0 with alloc := fun _ req => if req ≤ 255 then some req else none }

theorem cap_good : GoodAlloc fun _ req => if req ≤ 255 then some req else none := by
  intro len req n h
  simp only at h
  split at h <;> cases h
  exact Nat.le_refl _

theorem cfgCap_ok : CfgOK cfgCap := { cfg0_ok with alloc_ge := cap_good }

theorem cfgCap_grow (s : Store) : CanGrow cfgCap s := by
  intro n h
  have h : (if s.len + 8 ≤ 255 then some (s.len + 8) else none) = some n := h
  split at h <;> cases h
  assumption

/-- ((1, 2), (2, 2)) with the points 1 and 2. -/
def nest : Nest := .pair (.pair (.item 1) (.item 2)) (.pair (.item 2) (.item 2))

/-- Two points. -/
def sTwo : Store := ((((links cfgCap).createPoint (store0 cfgCap)).bind fun o => (links cfgCap).createPoint o.st).map (·.st)).getD {}

theorem sTwo_client : Client cfgCap sTwo := by
  have h0 : Client cfgCap (store0 cfgCap) := .fresh (c := cfgCap) cfgCap.alloc cfgCap_ok.alloc_ge rfl
  unfold sTwo
  cases h1 : (links cfgCap).createPoint (store0 cfgCap) with
  | none => exact absurd h1 (by decide +kernel)
  | some o =>
    simp only [Option.bind_some]
    have hc1 : Client cfgCap o.st := .act cfgCap.alloc .point h0 cfgCap_ok.alloc_ge (cfgCap_grow _) trivial h1
    cases h2 : (links cfgCap).createPoint o.st with
    | none =>
      have : (((links cfgCap).createPoint (store0 cfgCap)).bind fun o => (links cfgCap).createPoint o.st).isSome = true := by
        decide +kernel
      rw [h1, Option.bind_some, h2] at this; cases this
    | some o2 =>
      exact .act cfgCap.alloc .point hc1 cfgCap_ok.alloc_ge (cfgCap_grow _) trivial h2

theorem sTwo_1 : (links cfgCap).view sTwo 1 = some (1, 1) := by decide +kernel
theorem sTwo_2 : (links cfgCap).view sTwo 2 = some (2, 2) := by decide +kernel

/-- The nested pair is link 4, made of link 3 and the point 2. -/
example : (∀ s, Client cfgCap s → CanGrow cfgCap s) ∧ Client cfgCap sTwo ∧ nest.Points ((links cfgCap).view sTwo) ∧
    ((nest.build (links cfgCap) sTwo).map fun o => (o.res.toOption, (List.range 6).map ((links cfgCap).view o.st))) =
      some (some 4, [none, some (1, 1), some (2, 2), some (1, 2), some (3, 2), none]) :=
  ⟨fun s _ => cfgCap_grow s, sTwo_client, ⟨⟨sTwo_1, sTwo_2⟩, sTwo_2, sTwo_2⟩, by decide +kernel⟩

/-- ((1, 2), 2) is the same link, (2, (1, 2)) is not. -/
example : nest.collapse = Nest.collapse (.pair (.pair (.item 1) (.item 2)) (.item 2)) ∧
    nest.collapse ≠ Nest.collapse (.pair (.item 2) (.pair (.item 1) (.item 2))) := by decide

end Verif.Unit.Props

namespace Verif.Split.Props
open Verif Verif.Split

variable {c : Cfg}

theorem client_nest_law (hc : CfgOK c) (hcap : ∀ s, Client c s → CanGrow c s) :
    Client.Law (links c) (Client c) := by
  intro s hs
  obtain ⟨-, h2, h3, h4⟩ := C51_split_careful_client hc hs
  exact ⟨⟨h2, h3⟩, fun k hk => h4 k hk (hcap s hs)⟩

/-- **C81**, split store. A careful client (`Client`, C51) stores a nested pair whose items are points, on memories that, when
they grow, grow together and stay within the index type. Every call returns. No existing link changes, every new link is a part of the nested
pair, and if no call failed then the result is the nested pair: following sources and targets from it shows it. -/
theorem C81_split_nested_pair_is_stored (hc : CfgOK c) (hcap : ∀ s, Client c s → CanGrow c s) {s : Store}
    (h : Client c s) {t : Nest} (ht : t.Points ((links c).view s)) :
    ∃ o, t.build (links c) s = some o ∧ Client c o.st ∧
      (∀ k p, (links c).view s k = some p → (links c).view o.st k = some p) ∧
      (∀ k, (links c).view o.st k ≠ none →
        (links c).view s k ≠ none ∨ ∃ u, Nest.Part u t ∧ u.At ((links c).view o.st) k) ∧
      ∀ i, o.res = .ok i → t.At ((links c).view o.st) i :=
  Nest.build_law (client_nest_law hc hcap) t h ht

/-- **C81**, split store, continued. As long as a nested pair is there, storing it again returns the same link and
changes nothing. -/
theorem C81_split_nested_pair_is_stored_once (hc : CfgOK c) (hcap : ∀ s, Client c s → CanGrow c s) {s : Store}
    (h : Client c s) {t : Nest} (ht : t.Points ((links c).view s)) {i : Nat} (hi : t.At ((links c).view s) i) :
    t.build (links c) s = some ⟨.ok i, s, ()⟩ := by
  refine Nest.build_again (client_nest_law hc hcap) (fun s hs x y i hxy hx hy => ?_) t h ht hi
  obtain ⟨hr, hinj, hcl, -⟩ := C51_split_careful_client hc hs
  have hne : ∀ k, (links c).view s k ≠ none → k ≠ 0 ∧ k ≠ c.consts.any := fun k hk =>
    ⟨by rintro rfl; exact hk ((reachLawful hc).null s hr), by rintro rfl; exact hk ((reachLawful hc).any_absent s hr)⟩
  rcases C18_split_get_or_create hc hr (hcap s hs) (newUnused_of_sound hc hr ⟨hinj, hcl⟩) (hne x hx).1 (hne x hx).2
      (hne y hy).1 (hne y hy).2 with
    ⟨j, g1, g2⟩ | ⟨g, -⟩
  · rw [g2, hinj i j _ hxy g1]
  · exact absurd hxy (g i)

/-- **C81**, split store, continued. Two nested pairs are the same link exactly if they are equal, where the pair of an item
with itself counts as the item. -/
theorem C81_split_nested_pairs_told_apart (hc : CfgOK c) {s : Store} (h : Client c s) {t u : Nest}
    (ht : t.Points ((links c).view s)) (hu : u.Points ((links c).view s)) {i j : Nat}
    (hi : t.At ((links c).view s) i) (hj : u.At ((links c).view s) j) : i = j ↔ t.collapse = u.collapse := by
  obtain ⟨-, h2, h3, -⟩ := C51_split_careful_client hc h
  exact Nest.index_iff ⟨h2, h3⟩ ht hu hi hj

/-- Memories that do not grow beyond the index type. -/
def cfgCap : Cfg :=
  { cfg0 with dalloc := fun _ req => if req ≤ 255 then some req else none
              ialloc := fun _ req => if req ≤ 255 then some req else none }

theorem cap_exact : ExactAlloc fun _ req => if req ≤ 255 then some req else none := by
  intro len req n h
  simp only at h
  split at h <;> cases h
  rfl

theorem cfgCap_ok : CfgOK cfgCap := { cfg0_ok with dalloc_eq := cap_exact, ialloc_eq := cap_exact }

theorem cfgCap_grow {s : Store} (h : Client cfgCap s) : CanGrow cfgCap s := by
  obtain ⟨free, hf⟩ := reach_good cfgCap_ok (client_law cfgCap_ok h).1
  have he := hf.toInv0.base.len_eq
  intro hd
  have hd : (if s.dlen + 8 ≤ 255 then some (s.dlen + 8) else none) ≠ none := hd
  rw [he] at hd
  by_cases hl : s.ilen + 8 ≤ 255
  · refine ⟨?_, hl⟩
    show (if s.ilen + 8 ≤ 255 then some (s.ilen + 8) else none) ≠ none
    rw [if_pos hl]; simp
  · rw [if_neg hl] at hd; exact absurd rfl hd

/-- ((1, 2), (2, 2)) with the points 1 and 2. -/
def nest : Nest := .pair (.pair (.item 1) (.item 2)) (.pair (.item 2) (.item 2))

/-- Two points. -/
def sTwo : Store := ((((links cfgCap).createPoint (store0 cfgCap)).bind fun o => (links cfgCap).createPoint o.st).map (·.st)).getD {}

theorem sTwo_client : Client cfgCap sTwo := by
  have h0 : Client cfgCap (store0 cfgCap) := .fresh (c := cfgCap) cfgCap.dalloc cfgCap.ialloc cap_exact cap_exact rfl
  unfold sTwo
  cases h1 : (links cfgCap).createPoint (store0 cfgCap) with
  | none => exact absurd h1 (by decide +kernel)
  | some o =>
    simp only [Option.bind_some]
    have hc1 : Client cfgCap o.st := .act cfgCap.dalloc cfgCap.ialloc .point h0 cap_exact cap_exact
      (cfgCap_grow h0) trivial h1
    cases h2 : (links cfgCap).createPoint o.st with
    | none =>
      have : (((links cfgCap).createPoint (store0 cfgCap)).bind fun o => (links cfgCap).createPoint o.st).isSome = true := by
        decide +kernel
      rw [h1, Option.bind_some, h2] at this; cases this
    | some o2 =>
      exact .act cfgCap.dalloc cfgCap.ialloc .point hc1 cap_exact cap_exact (cfgCap_grow hc1) trivial h2

theorem sTwo_1 : (links cfgCap).view sTwo 1 = some (1, 1) := by decide +kernel
theorem sTwo_2 : (links cfgCap).view sTwo 2 = some (2, 2) := by decide +kernel

/-- The nested pair is link 4, made of link 3 and the point 2. -/
example : (∀ s, Client cfgCap s → CanGrow cfgCap s) ∧ Client cfgCap sTwo ∧ nest.Points ((links cfgCap).view sTwo) ∧
    ((nest.build (links cfgCap) sTwo).map fun o => (o.res.toOption, (List.range 6).map ((links cfgCap).view o.st))) =
      some (some 4, [none, some (1, 1), some (2, 2), some (1, 2), some (3, 2), none]) :=
  ⟨fun _ => cfgCap_grow, sTwo_client, ⟨⟨sTwo_1, sTwo_2⟩, sTwo_2, sTwo_2⟩, by decide +kernel⟩

/-- ((1, 2), 2) is the same link, (2, (1, 2)) is not. -/
example : nest.collapse = Nest.collapse (.pair (.pair (.item 1) (.item 2)) (.item 2)) ∧
    nest.collapse ≠ Nest.collapse (.pair (.item 2) (.pair (.item 1) (.item 2))) := by decide

end Verif.Split.Props
