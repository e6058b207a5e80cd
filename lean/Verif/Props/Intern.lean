import Verif.Intern

/-!
# C81: `get_or_create` stores lists of nested pairs with sharing
-/

namespace Verif.Unit.Props
open Verif Verif.Unit

variable {c : Cfg}

theorem grows (hc : CfgOK₀ c) (hfit : ∀ len n, c.alloc len (len + c.step) = some n → n ≤ c.maxT) :
    Links.Grows (weakLawful hc) (ReachU c) where
  inv := fun h => h
  uniq := fun h => (reachU_mend hc h).2
  create := fun {s} _ len => hfit s.len len
  update := fun {s i x y} _ _ _ _ hu => by show View.Uniq _; rw [View.set_set]; exact hu
  next := fun _ _ _ _ h _ _ _ => h

/-- **C81**, united store. Take any store without duplicates, on a memory that grows within the index type, over any tree crate that
works on nodes it can tell apart, and store nested pairs over points of the store. Every call returns, and `Interned` says with what. -/
theorem C81_lists_of_nested_pairs_are_shared (hc : CfgOK₀ c) (hfit : ∀ len n, c.alloc len (len + c.step) = some n → n ≤ c.maxT) {s : Store}
    (h : ReachU c s) (es : List Nest) (hp : ∀ e ∈ es, ∀ i ∈ e.points, (links c).getLink s i = some (some ⟨i, i, i⟩)) :
    ∃ o, (links c).internAll es s = some o ∧ ReachU c o.st ∧ Links.Interned (links c) es s o :=
  Links.interned (weakLawful hc) (grows hc hfit) es h hp

/-- Nested pairs over the points 1 and 2. The second is a pair of the first with itself, the third is the point 1 over again, and the
fourth shares its part with the first. -/
def someNests : List Nest :=
  [.pair (.item 1) (.item 2), .pair (.pair (.item 1) (.item 2)) (.pair (.item 1) (.item 2)), .pair (.item 1) (.item 1),
    .pair (.pair (.item 2) (.item 2)) (.pair (.item 1) (.item 2)), .pair (.item 2) (.pair (.item 1) (.item 2))]

/-- The theorem on a store with two points over the published trees. -/
example : ∃ s, ReachU cfgSFew s ∧ (∀ e ∈ someNests, ∀ i ∈ e.points, (links cfgSFew).getLink s i = some (some ⟨i, i, i⟩)) ∧
    ((links cfgSFew).internAll someNests s).map (fun o => (o.res.toOption, (links cfgSFew).count o.st, (links cfgSFew).readNest 3 5 o.st)) =
      some (some [3, 4, 1, 5, 5], some 5, some (.ok (.pair (.item 2) (.pair (.item 1) (.item 2))))) := by
  have hs : ReachU cfgSFew (store0 cfgSFew) := .fresh (c := cfgSFew) cfgSFew.alloc cfgSFew_ok.alloc_ge rfl
  have key : ((links cfgSFew).makePoints 2 (store0 cfgSFew)).bind (fun o => ((links cfgSFew).internAll someNests o.st).map
      (fun o => (o.res.toOption, (links cfgSFew).count o.st, (links cfgSFew).readNest 3 5 o.st))) =
        some (some [3, 4, 1, 5, 5], some 5, some (.ok (.pair (.item 2) (.pair (.item 1) (.item 2))))) := by decide +kernel
  have res : ((links cfgSFew).makePoints 2 (store0 cfgSFew)).map (fun o => o.res) = some (.ok ()) := by decide +kernel
  rcases Links.makePoints_law (weakLawful cfgSFew_ok) (weak_numbers cfgSFew_ok)
    (fun n => by show View.Uniq _; rw [View.set_set, points_succ]; exact points_uniq _) 2 0 _ hs
    (Links.empty_of_count (weakLawful cfgSFew_ok) hs (by decide +kernel))
    (fun _ s' _ _ _ _ len => cfgSFew_fits s'.len len) with ⟨s', h1, h2, h3⟩ | ⟨e, s', k, -, h1, -⟩
  · refine ⟨s', h2, fun e he i hi => ?_, ?_⟩
    · rw [(weakLawful cfgSFew_ok).get s' h2, h3]
      have : i = 1 ∨ i = 2 := by
        simp only [someNests, List.mem_cons, List.not_mem_nil, or_false] at he
        rcases he with rfl | rfl | rfl | rfl | rfl <;> simp [Nest.points] at hi <;> omega
      rcases this with rfl | rfl <;> rfl
    · rw [h1] at key; exact key
  · rw [h1] at res; cases res

end Verif.Unit.Props

namespace Verif.Split.Props
open Verif Verif.Split

variable {c : Cfg}

theorem grows (hc : CfgOK₀ c) (hgrow : ∀ n, c.dalloc n (n + c.step) ≠ none → c.ialloc n (n + c.step) ≠ none) (hfit : ∀ len, c.ialloc len (len + c.step) ≠ none → len + c.step ≤ c.maxT) :
    Links.Grows (weakLawful hc) (fun s => ReachU c s ∧ ((links c).view s).Sound) where
  inv := fun h => h.1
  uniq := fun h => h.2.uniq
  create := fun {s} h => by
    refine ⟨fun hd => ?_, weak_newUnused hc h.1 h.2⟩
    obtain ⟨free, hi⟩ := reach_good hc.mend (reachU_mend hc h.1).1
    rw [hi.net.base.len_eq] at hd
    exact ⟨hgrow _ hd, hfit _ (hgrow _ hd)⟩
  update := fun {s i x y} h _ _ hy hu => ⟨by rw [View.set_set]; exact hu, fun _ e => hy (e ▸ (weakLawful hc).null s h.1),
    fun _ p hp => by rw [View.set_same] at hp; cases hp; rfl⟩
  next := fun h hx hy hn hi h0 hv _ => ⟨hi, by rw [hv]; exact h.2.add h0 (.inr hx) (.inr hy) hn⟩

/-- **C81**, split store. The memories must grow together, and the ends of the links that are there must be links. -/
theorem C81_split_lists_of_nested_pairs_are_shared (hc : CfgOK₀ c) (hgrow : ∀ n, c.dalloc n (n + c.step) ≠ none → c.ialloc n (n + c.step) ≠ none)
    (hfit : ∀ len, c.ialloc len (len + c.step) ≠ none → len + c.step ≤ c.maxT) {s : Store}
    (h : ReachU c s) (hs : ((links c).view s).Sound) (es : List Nest)
    (hp : ∀ e ∈ es, ∀ i ∈ e.points, (links c).getLink s i = some (some ⟨i, i, i⟩)) :
    ∃ o, (links c).internAll es s = some o ∧ ReachU c o.st ∧ ((links c).view o.st).Sound ∧ Links.Interned (links c) es s o := by
  obtain ⟨o, h1, h2, h3⟩ := Links.interned (weakLawful hc) (grows hc hgrow hfit) es ⟨h, hs⟩ hp
  exact ⟨o, h1, h2.1, h2.2, h3⟩

open Verif.Unit.Props (someNests)

theorem cfgSFew_fits (len : Nat) (h : cfgSFew.ialloc len (len + cfgSFew.step) ≠ none) : len + cfgSFew.step ≤ cfgSFew.maxT := by
  simp only [cfgSFew, Cfg.withAllocs] at h
  split at h
  · next hle => exact hle
  · exact absurd rfl h

/-- The theorem on a store with two points over the published trees. -/
example : (∀ n, cfgSFew.dalloc n (n + cfgSFew.step) ≠ none → cfgSFew.ialloc n (n + cfgSFew.step) ≠ none) ∧ (∀ len, cfgSFew.ialloc len (len + cfgSFew.step) ≠ none → len + cfgSFew.step ≤ cfgSFew.maxT) ∧
    ∃ s, ReachU cfgSFew s ∧ ((links cfgSFew).view s).Sound ∧
    (∀ e ∈ someNests, ∀ i ∈ e.points, (links cfgSFew).getLink s i = some (some ⟨i, i, i⟩)) ∧
    ((links cfgSFew).internAll someNests s).map (fun o => (o.res.toOption, (links cfgSFew).count o.st, (links cfgSFew).readNest 3 5 o.st)) =
      some (some [3, 4, 1, 5, 5], some 5, some (.ok (.pair (.item 2) (.pair (.item 1) (.item 2))))) := by
  refine ⟨fun _ h => h, cfgSFew_fits, ?_⟩
  have hs : ReachU cfgSFew (store0 cfgSFew) :=
    .fresh (c := cfgSFew) cfgSFew.dalloc cfgSFew.ialloc cfgSFew_ok.dalloc_eq cfgSFew_ok.ialloc_eq rfl
  have key : ((links cfgSFew).makePoints 2 (store0 cfgSFew)).bind (fun o => ((links cfgSFew).internAll someNests o.st).map
      (fun o => (o.res.toOption, (links cfgSFew).count o.st, (links cfgSFew).readNest 3 5 o.st))) =
        some (some [3, 4, 1, 5, 5], some 5, some (.ok (.pair (.item 2) (.pair (.item 1) (.item 2))))) := by decide +kernel
  have res : ((links cfgSFew).makePoints 2 (store0 cfgSFew)).map (fun o => o.res) = some (.ok ()) := by decide +kernel
  rcases Links.makePoints_law (weakLawful cfgSFew_ok) (weak_numbers cfgSFew_ok)
    (fun n => ⟨by rw [View.set_set, points_succ]; exact points_uniq _, fun h => h, fun _ p hp => by
      rw [View.set_same] at hp; cases hp; rfl⟩) 2 0 _ hs
    (Links.empty_of_count (weakLawful cfgSFew_ok) hs (by decide +kernel))
    (fun k s' hk hi hw hm => (grows cfgSFew_ok (fun _ h => h) cfgSFew_fits).create ⟨hi, hw ▸ points_sound _⟩) with
    ⟨s', h1, h2, h3⟩ | ⟨e, s', k, -, h1, -⟩
  · refine ⟨s', h2, h3 ▸ points_sound _, fun e he i hi => ?_, ?_⟩
    · rw [(weakLawful cfgSFew_ok).get s' h2, h3]
      have : i = 1 ∨ i = 2 := by
        simp only [someNests, List.mem_cons, List.not_mem_nil, or_false] at he
        rcases he with rfl | rfl | rfl | rfl | rfl <;> simp [Nest.points] at hi <;> omega
      rcases this with rfl | rfl <;> rfl
    · rw [h1] at key; exact key
  · rw [h1] at res; cases res

end Verif.Split.Props
