import Verif.ScriptThreads
import Verif.Props.Script

/-!
# C111: the network that imports build does not depend on their order, up to numbering
-/

namespace Verif.Script
open Verif

/-- What the two theorems below share, for any two stores. -/
theorem schedules {S S' : Type} {D : Links S} {D' : Links S'} {J : S → Prop} {J' : S' → Prop} (hJ : Law D J) (hJ' : Law D' J')
    (hu : ∀ s, J s → (D.view s).Uniq ∧ D.view s 0 = none) (hu' : ∀ s, J' s → (D'.view s).Uniq ∧ D'.view s 0 = none)
    {s : S} {s' : S'} (h : J s) (h' : J' s') (hv : D'.view s' = D.view s)
    (hcl : ∀ j a b, D.view s j = some (a, b) → (a ≠ 0 → D.view s a ≠ none) ∧ (b ≠ 0 → D.view s b ≠ none))
    {P : List (List Call)} (hP : ∀ ks ∈ P, Fits (D.view s) 0 ks) (x y : List Nat) :
    ∃ o o', threads D x (start P) s = some o ∧ threads D' y (start P) s' = some o' ∧
      ∀ ts us, o.res = .ok ts → o'.res = .ok us → (∀ p ∈ ts, p.1 = []) → (∀ p ∈ us, p.1 = []) →
        SameNetwork (Same (D.view s) ((ts.map (·.2)).zip (us.map (·.2)))) (D.view o.st) (D'.view o'.st) := by
  obtain ⟨o, g1, g2, -, g4⟩ := threads_law hJ hP x h .start
  obtain ⟨o', k1, k2, -, k4⟩ := threads_law hJ' (v := D.view s) hP y h' (by rw [hv]; exact .start)
  refine ⟨o, o', g1, k1, fun ts us e e' d d' => ?_⟩
  exact same_network (hu s h).2 hcl hP (hu _ g2).1 (hu' _ k2).1 (hu _ g2).2 (hu' _ k2).2 (g4 ts e) (k4 us e') d d'

/-- Two scripts one after the other, as two threads that are done. -/
theorem progress_two {S : Type} {D : Links S} {J : S → Prop} (hJ : Law D J) {s s₁ s₂ : S} (h : J s) {A B : List Call}
    (hA : Fits (D.view s) 0 A) (hB : Fits (D.view s) 0 B) {ra rb : List Nat} (h1 : run D A [] s = some ⟨.ok ra, s₁, ()⟩)
    (h2 : run D B [] s₁ = some ⟨.ok rb, s₂, ()⟩) :
    J s₂ ∧ Progress (D.view s) [A, B] [([], ra), ([], rb)] (D.view s₂) := by
  obtain ⟨o, g1, g2, g3, g4⟩ := run_law hJ A (rs := []) h (fun _ h => by cases h) hA
  rw [h1] at g1; cases g1
  obtain ⟨o, k1, k2, k3, k4⟩ := run_law hJ B (rs := []) g2 (fun _ h => by cases h) (hB.mono g3)
  rw [h2] at k1; cases k1
  obtain ⟨c1, n1⟩ := g4 ra rfl
  obtain ⟨c2, n2⟩ := k4 rb rfl
  refine ⟨k2, g3.trans k3, rfl, fun t ks rs ht => ?_, fun m hm => ?_⟩
  · match t with
    | 0 => cases ht; exact ⟨A, by simp, c1.mono k3⟩
    | 1 => cases ht; exact ⟨B, by simp, c2⟩
    | t + 2 => simp at ht
  · rcases n2 m hm with hm | hm
    · rcases n1 m hm with hm | hm
      · exact .inl hm
      · exact .inr ⟨([], ra), by simp, hm⟩
    · exact .inr ⟨([], rb), by simp, hm⟩

theorem Progress.swap {v w : View} {A B : List Call} {a b : Thread} (h : Progress v [A, B] [a, b] w) :
    Progress v [B, A] [b, a] w := by
  refine ⟨h.sub, rfl, fun t ks rs ht => ?_, fun m hm => (h.new m hm).imp id fun ⟨p, h1, h2⟩ => ⟨p, ?_, h2⟩⟩
  · match t with
    | 0 => exact h.part 1 ks rs ht
    | 1 => exact h.part 0 ks rs ht
    | t + 2 => simp at ht
  · simp only [List.mem_cons, List.not_mem_nil, or_false] at h1 ⊢
    exact h1.symm

end Verif.Script

namespace Verif.Unit.Props
open Verif Verif.Unit Script

variable {c c' : Cfg}

theorem orderly_uniq (hc : CfgOK c) (s : Store) (h : Orderly c s) : ((links c).view s).Uniq ∧ (links c).view s 0 = none :=
  ⟨h.2, (reachLawful hc).null s h.1⟩

/-- **C111**, united store. Threads share a store without duplicates, whose links have ends that are null or links, and each runs an import script.
Whatever the order in which their calls are made, the calls all return. If all scripts are finished under one order `x` and under another order
`y`, possibly on another store with the same contents (with another history, memory, index type or tree crate), then the two networks are the same:
the links there were before correspond to themselves, the results of a call under `x` to the results of that call under `y`, and this is one-to-one
and respects sources and targets. -/
theorem C111_any_schedule (hc : CfgOK c) (hc' : CfgOK c') (hcap : ∀ s, Reach c s → CanGrow c s)
    (hcap' : ∀ s, Reach c' s → CanGrow c' s) {s s' : Store} (h : Reach c s) (h' : Reach c' s')
    (hv : (links c').view s' = (links c).view s) (hu : ((links c).view s).Uniq) (hcl : Deco.Props.Closed ((links c).view s))
    {P : List (List Script.Call)} (hP : ∀ ks ∈ P, Fits ((links c).view s) 0 ks) (x y : List Nat) :
    ∃ o o', threads (links c) x (start P) s = some o ∧ threads (links c') y (start P) s' = some o' ∧
      ∀ ts us, o.res = .ok ts → o'.res = .ok us → (∀ p ∈ ts, p.1 = []) → (∀ p ∈ us, p.1 = []) →
        SameNetwork (Same ((links c).view s) ((ts.map (·.2)).zip (us.map (·.2)))) ((links c).view o.st) ((links c').view o'.st) :=
  schedules (script_law hc hcap) (script_law hc' hcap') (orderly_uniq hc) (orderly_uniq hc') ⟨h, hu⟩ ⟨h', hv ▸ hu⟩ hv hcl hP x y

/-- **C111**, united store: two imports one after the other. First `A` then `B`, or first `B` then `A`: the networks are the same. -/
theorem C111_either_order (hc : CfgOK c) (hcap : ∀ s, Reach c s → CanGrow c s) {s s₁ s₂ s₃ s₄ : Store} (h : Reach c s)
    (hu : ((links c).view s).Uniq) (hcl : Deco.Props.Closed ((links c).view s)) {A B : List Script.Call}
    (hA : Fits ((links c).view s) 0 A) (hB : Fits ((links c).view s) 0 B) {a b a' b' : List Nat}
    (h1 : run (links c) A [] s = some ⟨.ok a, s₁, ()⟩) (h2 : run (links c) B [] s₁ = some ⟨.ok b, s₂, ()⟩)
    (h3 : run (links c) B [] s = some ⟨.ok b', s₃, ()⟩) (h4 : run (links c) A [] s₃ = some ⟨.ok a', s₄, ()⟩) :
    SameNetwork (Same ((links c).view s) [(a, a'), (b, b')]) ((links c).view s₂) ((links c).view s₄) := by
  obtain ⟨j1, p1⟩ := progress_two (script_law hc hcap) ⟨h, hu⟩ hA hB h1 h2
  obtain ⟨j2, p2⟩ := progress_two (script_law hc hcap) ⟨h, hu⟩ hB hA h3 h4
  have u1 := orderly_uniq hc _ j1
  have u2 := orderly_uniq hc _ j2
  refine same_network ((reachLawful hc).null s h) hcl (P := [A, B]) ?_ u1.1 u2.1 u1.2 u2.2 p1 p2.swap (by simp) (by simp)
  intro ks hk
  simp only [List.mem_cons, List.not_mem_nil, or_false] at hk
  rcases hk with rfl | rfl
  · exact hA
  · exact hB

theorem sTwo_closed : Deco.Props.Closed ((links cfgCap).view sTwo) := fun j a b hj =>
  ⟨fun _ => ((C51_careful_client cfgCap_ok sTwo_client).2.2.1 j a b hj).1,
   fun _ => ((C51_careful_client cfgCap_ok sTwo_client).2.2.1 j a b hj).2⟩

/-- ((1, 2), 2). -/
def script2 : List Script.Call := [⟨.link 1, .link 2⟩, ⟨.result 0, .link 2⟩]

theorem scripts_fit : ∀ ks ∈ [script, script2], Fits ((links cfgCap).view sTwo) 0 ks := by
  intro ks hk
  simp only [List.mem_cons, List.not_mem_nil, or_false] at hk
  rcases hk with rfl | rfl
  · exact script_fits
  · have h1 := sTwo_1
    have h2 := sTwo_2
    simp [script2, Fits, h1, h2]

example := C111_any_schedule cfgCap_ok cfgCap_ok (fun s _ => cfgCap_grow s) (fun s _ => cfgCap_grow s) sTwo_reach sTwo_reach rfl
  sTwo_uniq sTwo_closed scripts_fit [0, 1, 0, 1, 0, 0] [1, 1, 0, 0, 0, 0]

/-- Two orders: the scripts are finished under both, the new links have other indices. -/
example : ((threads (links cfgCap) [0, 1, 0, 1, 0, 0] (start [script, script2]) sTwo).map fun o =>
      (o.res.toOption.map fun ts => ts.map fun t => (t.1.length, t.2), (List.range 9).map ((links cfgCap).view o.st))) =
      some (some [(0, [3, 4, 6, 7]), (0, [3, 5])], [none, some (1, 1), some (2, 2), some (1, 2), some (2, 1), some (3, 2),
        some (3, 4), some (3, 1), none]) := by decide +kernel

example : ((threads (links cfgCap) [1, 1, 0, 0, 0, 0] (start [script, script2]) sTwo).map fun o =>
      (o.res.toOption.map fun ts => ts.map fun t => (t.1.length, t.2), (List.range 9).map ((links cfgCap).view o.st))) =
      some (some [(0, [3, 5, 6, 7]), (0, [3, 4])], [none, some (1, 1), some (2, 2), some (1, 2), some (3, 2), some (2, 1),
        some (3, 5), some (3, 1), none]) := by decide +kernel

end Verif.Unit.Props

namespace Verif.Split.Props
open Verif Verif.Split Script

variable {c c' : Cfg}

theorem orderly_uniq (hc : CfgOK c) (s : Store) (h : Orderly c s) : ((links c).view s).Uniq ∧ (links c).view s 0 = none :=
  ⟨h.2.1, (reachLawful hc).null s h.1⟩

/-- **C111**, split store, as `C111_any_schedule`. -/
theorem C111_split_any_schedule (hc : CfgOK c) (hc' : CfgOK c') (hcap : ∀ s, Reach c s → CanGrow c s)
    (hcap' : ∀ s, Reach c' s → CanGrow c' s) {s s' : Store} (h : Reach c s) (h' : Reach c' s')
    (hv : (links c').view s' = (links c).view s) (hu : ((links c).view s).Uniq) (hcl : Deco.Props.Closed ((links c).view s))
    {P : List (List Script.Call)} (hP : ∀ ks ∈ P, Fits ((links c).view s) 0 ks) (x y : List Nat) :
    ∃ o o', threads (links c) x (start P) s = some o ∧ threads (links c') y (start P) s' = some o' ∧
      ∀ ts us, o.res = .ok ts → o'.res = .ok us → (∀ p ∈ ts, p.1 = []) → (∀ p ∈ us, p.1 = []) →
        SameNetwork (Same ((links c).view s) ((ts.map (·.2)).zip (us.map (·.2)))) ((links c).view o.st) ((links c').view o'.st) :=
  schedules (script_law hc hcap) (script_law hc' hcap') (orderly_uniq hc) (orderly_uniq hc') ⟨h, hu, hcl⟩ ⟨h', hv ▸ hu, hv ▸ hcl⟩ hv hcl
    hP x y

/-- **C111**, split store, as `C111_either_order`. -/
theorem C111_split_either_order (hc : CfgOK c) (hcap : ∀ s, Reach c s → CanGrow c s) {s s₁ s₂ s₃ s₄ : Store} (h : Reach c s)
    (hu : ((links c).view s).Uniq) (hcl : Deco.Props.Closed ((links c).view s)) {A B : List Script.Call}
    (hA : Fits ((links c).view s) 0 A) (hB : Fits ((links c).view s) 0 B) {a b a' b' : List Nat}
    (h1 : run (links c) A [] s = some ⟨.ok a, s₁, ()⟩) (h2 : run (links c) B [] s₁ = some ⟨.ok b, s₂, ()⟩)
    (h3 : run (links c) B [] s = some ⟨.ok b', s₃, ()⟩) (h4 : run (links c) A [] s₃ = some ⟨.ok a', s₄, ()⟩) :
    SameNetwork (Same ((links c).view s) [(a, a'), (b, b')]) ((links c).view s₂) ((links c).view s₄) := by
  obtain ⟨j1, p1⟩ := progress_two (script_law hc hcap) ⟨h, hu, hcl⟩ hA hB h1 h2
  obtain ⟨j2, p2⟩ := progress_two (script_law hc hcap) ⟨h, hu, hcl⟩ hB hA h3 h4
  have u1 := orderly_uniq hc _ j1
  have u2 := orderly_uniq hc _ j2
  refine same_network ((reachLawful hc).null s h) hcl (P := [A, B]) ?_ u1.1 u2.1 u1.2 u2.2 p1 p2.swap (by simp) (by simp)
  intro ks hk
  simp only [List.mem_cons, List.not_mem_nil, or_false] at hk
  rcases hk with rfl | rfl
  · exact hA
  · exact hB

/-- **C111**: the same imports on a united and on a split store with the same contents build the same network. -/
theorem C111_both_kinds {c : Unit.Cfg} (hc : Unit.CfgOK c) (hc' : CfgOK c') (hcap : ∀ s, Unit.Reach c s → Unit.CanGrow c s)
    (hcap' : ∀ s, Reach c' s → CanGrow c' s) {s : Unit.Store} {s' : Store} (h : Unit.Reach c s) (h' : Reach c' s')
    (hv : (links c').view s' = (Unit.links c).view s) (hu : ((Unit.links c).view s).Uniq)
    (hcl : Deco.Props.Closed ((Unit.links c).view s))
    {P : List (List Script.Call)} (hP : ∀ ks ∈ P, Fits ((Unit.links c).view s) 0 ks) (x y : List Nat) :
    ∃ o o', threads (Unit.links c) x (start P) s = some o ∧ threads (links c') y (start P) s' = some o' ∧
      ∀ ts us, o.res = .ok ts → o'.res = .ok us → (∀ p ∈ ts, p.1 = []) → (∀ p ∈ us, p.1 = []) →
        SameNetwork (Same ((Unit.links c).view s) ((ts.map (·.2)).zip (us.map (·.2)))) ((Unit.links c).view o.st)
          ((links c').view o'.st) :=
  schedules (Unit.Props.script_law hc hcap) (script_law hc' hcap') (Unit.Props.orderly_uniq hc) (orderly_uniq hc') ⟨h, hu⟩
    ⟨h', hv ▸ hu, hv ▸ hcl⟩ hv hcl hP x y

theorem scripts_fit : ∀ ks ∈ [Unit.Props.script, Unit.Props.script2], Fits ((links cfgCap).view sTwo) 0 ks := by
  intro ks hk
  simp only [List.mem_cons, List.not_mem_nil, or_false] at hk
  rcases hk with rfl | rfl
  · exact script_fits
  · have h1 := sTwo_1
    have h2 := sTwo_2
    simp [Unit.Props.script2, Fits, h1, h2]

example := C111_split_any_schedule cfgCap_ok cfgCap_ok (fun _ h => cfgCap_grow' h) (fun _ h => cfgCap_grow' h) sTwo_reach sTwo_reach
  rfl sTwo_uniq sTwo_closed scripts_fit [0, 1, 0, 1, 0, 0] [1, 1, 0, 0, 0, 0]

example : ((threads (links cfgCap) [0, 1, 0, 1, 0, 0] (start [Unit.Props.script, Unit.Props.script2]) sTwo).map fun o =>
      (o.res.toOption.map fun ts => ts.map fun t => (t.1.length, t.2), (List.range 9).map ((links cfgCap).view o.st))) =
      some (some [(0, [3, 4, 6, 7]), (0, [3, 5])], [none, some (1, 1), some (2, 2), some (1, 2), some (2, 1), some (3, 2),
        some (3, 4), some (3, 1), none]) := by decide +kernel

end Verif.Split.Props
