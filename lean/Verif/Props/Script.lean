import Verif.Script
import Verif.Props.Careful
import Verif.Props.Nested
import Verif.Props.Decorators

/-!
# C110: an import can be run again
-/

namespace Verif.Unit.Props
open Verif Verif.Unit Script

variable {c : Cfg}

/-- Reachable, without duplicates. -/
def Orderly (c : Cfg) (s : Store) : Prop := Reach c s ∧ ((links c).view s).Uniq

theorem uniq_set {v : View} (hv : v.Uniq) {i x y : Nat} (hn : ∀ j, v j ≠ some (x, y)) :
    (v.set i (x, y)).Uniq := by
  intro j p hj hp k hk
  by_cases e1 : j = i
  · subst e1
    rw [View.set_same] at hj; cases hj
    by_cases e2 : k = j
    · exact e2
    · rw [View.set_other _ _ e2] at hk; exact absurd hk (hn k)
  · rw [View.set_other _ _ e1] at hj
    by_cases e2 : k = i
    · subst e2
      rw [View.set_same] at hk; cases hk
      exact absurd hj (hn j)
    · rw [View.set_other _ _ e2] at hk
      exact hv j p hj hp k hk

theorem script_law (hc : CfgOK c) (hcap : ∀ s, Reach c s → CanGrow c s) : Law (links c) (Orderly c) := by
  intro s ⟨hr, hu⟩ x y hx hy
  have hne : ∀ k, (links c).view s k ≠ none → k ≠ 0 ∧ k ≠ c.consts.any := fun k hk =>
    ⟨by rintro rfl; exact hk ((reachLawful hc).null s hr), by rintro rfl; exact hk ((reachLawful hc).any_absent s hr)⟩
  rcases C18_get_or_create hc hr (hcap s hr) (hne x hx).1 (hne x hx).2 (hne y hy).2 with
    ⟨i, g1, g2⟩ | ⟨g, ⟨e, -, g2⟩ | ⟨i, s', g1, g2, g3, g4, -⟩⟩
  · exact .inl ⟨i, g1, fun j hj => hu i _ g1 (by simp [(hne x hx).1]) j hj, g2⟩
  · exact .inr ⟨g, .inl ⟨e, g2⟩⟩
  · exact .inr ⟨g, .inr ⟨i, s', g1, ⟨g2, by rw [g4]; exact uniq_set hu g⟩, g4, g3⟩⟩

/-- **C110**, united store. An import script (`get_or_create` calls on existing links and on earlier results) on a store without
duplicates always returns. No link changes, and the store is again without duplicates. If no call failed then each result is the
link between the operands of its call, and no other link is new. -/
theorem C110_import (hc : CfgOK c) (hcap : ∀ s, Reach c s → CanGrow c s) {s : Store} (h : Reach c s)
    (hu : ((links c).view s).Uniq) {ks : List Script.Call} (hk : Fits ((links c).view s) 0 ks) :
    ∃ o, run (links c) ks [] s = some o ∧ Reach c o.st ∧ ((links c).view o.st).Uniq ∧
      (∀ k p, (links c).view s k = some p → (links c).view o.st k = some p) ∧
      ∀ rs, o.res = .ok rs → CarriedOut ((links c).view o.st) ks [] rs ∧
        ∀ k, (links c).view o.st k ≠ none → (links c).view s k ≠ none ∨ k ∈ rs := by
  obtain ⟨o, g1, ⟨g2, g3⟩, g4, g5⟩ := run_law (script_law hc hcap) ks (rs := []) ⟨h, hu⟩ (fun _ h => by cases h) hk
  exact ⟨o, g1, g2, g3, g4, g5⟩

/-- **C110**, united store: running an import again. The first part `ks` of a script was run on some store, with results `rs`. Then
anything may have happened (the program stopped and was started again, the store was closed and opened, other links were created, changed
or deleted) that left the links `rs` and the links the script names as they were, and no duplicates. The whole script now does what
its second part would have done: the finished calls return the same links and change nothing. -/
theorem C110_import_again (hc : CfgOK c) (hcap : ∀ s, Reach c s → CanGrow c s) {s₀ s₁ s : Store} (h₀ : Reach c s₀)
    (hu₀ : ((links c).view s₀).Uniq) {ks ls : List Script.Call} (hk₀ : Fits ((links c).view s₀) 0 ks) {rs : List Nat}
    (hrun : run (links c) ks [] s₀ = some ⟨.ok rs, s₁, ()⟩) (h : Reach c s) (hu : ((links c).view s).Uniq)
    (hk : Fits ((links c).view s) 0 (ks ++ ls)) (hsame : ∀ i ∈ rs, (links c).view s i = (links c).view s₁ i) :
    run (links c) (ks ++ ls) [] s = run (links c) ls rs s := by
  obtain ⟨o, g1, -, -, -, g5⟩ := C110_import hc hcap h₀ hu₀ hk₀
  rw [hrun] at g1; cases g1
  exact run_again (script_law hc hcap) ks ls ⟨h, hu⟩ (fun _ h => by cases h) (Fits.append.mp hk).1
    ((g5 rs rfl).1.congr hsame)

/-- **C110**, united store: an import that went through changes nothing when it is run again at once. -/
theorem C110_import_twice (hc : CfgOK c) (hcap : ∀ s, Reach c s → CanGrow c s) {s s' : Store} (h : Reach c s)
    (hu : ((links c).view s).Uniq) {ks : List Script.Call} (hk : Fits ((links c).view s) 0 ks) {rs : List Nat}
    (hrun : run (links c) ks [] s = some ⟨.ok rs, s', ()⟩) :
    run (links c) ks [] s' = some ⟨.ok rs, s', ()⟩ := by
  obtain ⟨o, g1, g2, g3, g4, -⟩ := C110_import hc hcap h hu hk
  rw [hrun] at g1; cases g1
  have := C110_import_again hc hcap h hu hk hrun (ls := []) g2 g3 (by rw [List.append_nil]; exact hk.mono g4) fun _ _ => rfl
  rw [List.append_nil] at this
  exact this

/-- ((1, 2), (2, 1)) and a pair with the first. -/
def script : List Script.Call :=
  [⟨.link 1, .link 2⟩, ⟨.link 2, .link 1⟩, ⟨.result 0, .result 1⟩, ⟨.result 0, .link 1⟩]

theorem sTwo_reach : Reach cfgCap sTwo := (C51_careful_client cfgCap_ok sTwo_client).1

theorem sTwo_uniq : ((links cfgCap).view sTwo).Uniq := fun i _ hp _ j hj =>
  (C51_careful_client cfgCap_ok sTwo_client).2.1 j i _ hj hp

theorem script_fits : Fits ((links cfgCap).view sTwo) 0 script := by
  have h1 := sTwo_1
  have h2 := sTwo_2
  simp [script, Fits, h1, h2]

example := C110_import cfgCap_ok (fun s _ => cfgCap_grow s) sTwo_reach sTwo_uniq script_fits

/-- The first two calls, after which the program stops between `create` and `update` of the third. -/
def sStopped : Store :=
  (((run (links cfgCap) (script.take 2) [] sTwo).bind fun o => (links cfgCap).create o.st).map (·.st)).getD {}

/-- The script run through, and run again after it was stopped: link 5 is left over without ends, the finished calls return the
same links. -/
example : ((run (links cfgCap) script [] sTwo).map fun o => (o.res.toOption, (List.range 8).map ((links cfgCap).view o.st))) =
      some (some [3, 4, 5, 6], [none, some (1, 1), some (2, 2), some (1, 2), some (2, 1), some (3, 4), some (3, 1), none]) ∧
    ((run (links cfgCap) script [] sStopped).map fun o => (o.res.toOption, (List.range 8).map ((links cfgCap).view o.st))) =
      some (some [3, 4, 6, 7],
        [none, some (1, 1), some (2, 2), some (1, 2), some (2, 1), some (0, 0), some (3, 4), some (3, 1)]) := by
  decide +kernel

/-- `C110_import_again` applies to it. -/
example : ∃ s₁, run (links cfgCap) (script.take 2) [] sTwo = some ⟨.ok [3, 4], s₁, ()⟩ ∧ Reach cfgCap sStopped ∧
    (links cfgCap).view sStopped 5 = some (0, 0) ∧
    run (links cfgCap) script [] sStopped = run (links cfgCap) (script.drop 2) [3, 4] sStopped := by
  have hf : Fits ((links cfgCap).view sTwo) 0 (script.take 2) := by
    have h1 := sTwo_1
    have h2 := sTwo_2
    simp [script, Fits, h1, h2]
  have hres : (run (links cfgCap) (script.take 2) [] sTwo).map (·.res.toOption) = some (some [3, 4]) := by decide +kernel
  obtain ⟨⟨r, s₁, _⟩, g1, g2, -, g4, -⟩ := C110_import cfgCap_ok (fun s _ => cfgCap_grow s) sTwo_reach sTwo_uniq hf
  rw [g1] at hres
  cases r with
  | error e => cases hres
  | ok rs =>
    have : rs = [3, 4] := by simpa [Except.toOption] using hres
    subst this
    have hv : (((run (links cfgCap) (script.take 2) [] sTwo).bind fun o => (links cfgCap).create o.st).map fun o => o.res.toOption) =
        some (some 5) := by decide +kernel
    have hS : sStopped = (((links cfgCap).create s₁).map (·.st)).getD {} := by unfold sStopped; rw [g1]; rfl
    rw [g1, Option.bind_some] at hv
    have hcr : ∃ s₂, (links cfgCap).view s₂ = ((links cfgCap).view s₁).set 5 (0, 0) ∧ (links cfgCap).view s₁ 5 = none ∧
        Reach cfgCap s₂ ∧ sStopped = s₂ := by
      rcases Links.create_law (reachLawful cfgCap_ok) g2 (cfgCap_grow s₁) with ⟨e, -, k⟩ | ⟨i, s₂, k1, k2, -, k3, k4, -⟩
      · rw [k] at hv; simp [Except.toOption] at hv
      · rw [k4] at hv
        have : i = 5 := by simpa [Except.toOption] using hv
        subst this
        exact ⟨s₂, k3, k1, k2, by rw [hS, k4]; rfl⟩
    obtain ⟨s₂, k1, k2, k3, rfl⟩ := hcr
    have hsub : ((links cfgCap).view s₁).Sub ((links cfgCap).view sStopped) := by rw [k1]; exact sub_set k2 _
    refine ⟨s₁, g1, k3, by rw [k1, View.set_same], ?_⟩
    have hu := uniq_of_collect (reachLawful cfgCap_ok) k3 (by decide +kernel)
    exact C110_import_again cfgCap_ok (fun s _ => cfgCap_grow s) sTwo_reach sTwo_uniq hf (ls := script.drop 2) g1 k3 hu
      (script_fits.mono fun k p h => hsub k p (g4 k p h)) fun i hi => by
        rw [k1, View.set_other]
        rintro rfl; simp at hi

end Verif.Unit.Props

namespace Verif.Split.Props
open Verif Verif.Split Script

variable {c : Cfg}

/-- Reachable, without duplicates, with ends that are null or links. -/
def Orderly (c : Cfg) (s : Store) : Prop :=
  Reach c s ∧ ((links c).view s).Uniq ∧ Deco.Props.Closed ((links c).view s)

theorem newUnused_of_closed (hc : CfgOK c) {s : Store} (h : Reach c s) (hv : Deco.Props.Closed ((links c).view s)) :
    NewUnused c s := by
  intro i s' hi j a b hj
  have hn : (links c).view s i = none ∧ i ≠ 0 := by
    obtain ⟨free, hf⟩ := reach_good hc h
    have hp : ∀ {s2 : Store} {f2 : List Nat} {x : Nat}, Created c s free s2 f2 x → x ≠ 0 := fun g => by
      have := ((g.live _).mpr (.inr rfl)).1; omega
    rcases create_cases hc hf [] with ⟨x, rest, s2, g1, g2, g3, -⟩ | ⟨-, -, g⟩ | ⟨-, -, -, g⟩ | ⟨-, -, -, -, g⟩ |
      ⟨-, -, -, -, -, g⟩ | ⟨-, -, s2, g2, g3, -⟩
    · rw [create_of_succeeds g2] at hi; cases hi; exact ⟨(g3.view hc hf.toInv0).1, hp g3⟩
    · rw [Links.create_err g] at hi; cases hi
    · rw [Links.create_err g] at hi; cases hi
    · rw [Links.create_err g] at hi; cases hi
    · rw [create_none g] at hi; cases hi
    · rw [create_of_succeeds g2] at hi; cases hi; exact ⟨(g3.view hc hf.toInv0).1, hp g3⟩
  obtain ⟨h1, h2⟩ := hv j a b hj
  exact ⟨fun e => h1 (e ▸ hn.2) (e ▸ hn.1), fun e => h2 (e ▸ hn.2) (e ▸ hn.1)⟩

theorem closed_set {v : View} (hv : Deco.Props.Closed v) {i x y : Nat} (hi : v i = none) (hx : v x ≠ none) (hy : v y ≠ none) :
    Deco.Props.Closed (v.set i (x, y)) := by
  have hm : ∀ {a}, v a ≠ none → v.set i (x, y) a ≠ none := by
    intro a ha
    rw [View.set_other]
    · exact ha
    · rintro rfl; exact ha hi
  intro j a b hj
  by_cases e : j = i
  · subst e
    rw [View.set_same] at hj; cases hj
    exact ⟨fun _ => hm hx, fun _ => hm hy⟩
  · rw [View.set_other _ _ e] at hj
    exact ⟨fun h => hm ((hv j a b hj).1 h), fun h => hm ((hv j a b hj).2 h)⟩

theorem script_law (hc : CfgOK c) (hcap : ∀ s, Reach c s → CanGrow c s) : Law (links c) (Orderly c) := by
  intro s ⟨hr, hu, hcl⟩ x y hx hy
  have hne : ∀ k, (links c).view s k ≠ none → k ≠ 0 ∧ k ≠ c.consts.any := fun k hk =>
    ⟨by rintro rfl; exact hk ((reachLawful hc).null s hr), by rintro rfl; exact hk ((reachLawful hc).any_absent s hr)⟩
  rcases C18_split_get_or_create hc hr (hcap s hr) (newUnused_of_closed hc hr hcl) (hne x hx).1 (hne x hx).2
      (hne y hy).1 (hne y hy).2 with
    ⟨i, g1, g2⟩ | ⟨g, ⟨e, -, g2⟩ | ⟨i, s', g1, g2, g3, g4, -⟩⟩
  · exact .inl ⟨i, g1, fun j hj => hu i _ g1 (by simp [(hne x hx).1]) j hj, g2⟩
  · exact .inr ⟨g, .inl ⟨e, g2⟩⟩
  · exact .inr ⟨g, .inr ⟨i, s', g1, ⟨g2, by rw [g4]; exact Unit.Props.uniq_set hu g, by rw [g4]; exact closed_set hcl g1 hx hy⟩,
      g4, g3⟩⟩

/-- **C110**, split store. An import script (`get_or_create` calls on existing links and on earlier results) on a store without
duplicates, in which each end is null or a link, always returns. No link changes, and the store is again like that. If no call failed
then each result is the link between the operands of its call, and no other link is new. -/
theorem C110_split_import (hc : CfgOK c) (hcap : ∀ s, Reach c s → CanGrow c s) {s : Store} (h : Reach c s)
    (hu : ((links c).view s).Uniq) (hcl : Deco.Props.Closed ((links c).view s)) {ks : List Script.Call}
    (hk : Fits ((links c).view s) 0 ks) :
    ∃ o, run (links c) ks [] s = some o ∧ Reach c o.st ∧ ((links c).view o.st).Uniq ∧ Deco.Props.Closed ((links c).view o.st) ∧
      (∀ k p, (links c).view s k = some p → (links c).view o.st k = some p) ∧
      ∀ rs, o.res = .ok rs → CarriedOut ((links c).view o.st) ks [] rs ∧
        ∀ k, (links c).view o.st k ≠ none → (links c).view s k ≠ none ∨ k ∈ rs := by
  obtain ⟨o, g1, ⟨g2, g3, g3'⟩, g4, g5⟩ :=
    run_law (script_law hc hcap) ks (rs := []) ⟨h, hu, hcl⟩ (fun _ h => by cases h) hk
  exact ⟨o, g1, g2, g3, g3', g4, g5⟩

/-- **C110**, split store: running an import again, as `C110_import_again`. -/
theorem C110_split_import_again (hc : CfgOK c) (hcap : ∀ s, Reach c s → CanGrow c s) {s₀ s₁ s : Store} (h₀ : Reach c s₀)
    (hu₀ : ((links c).view s₀).Uniq) (hcl₀ : Deco.Props.Closed ((links c).view s₀)) {ks ls : List Script.Call}
    (hk₀ : Fits ((links c).view s₀) 0 ks) {rs : List Nat}
    (hrun : run (links c) ks [] s₀ = some ⟨.ok rs, s₁, ()⟩) (h : Reach c s) (hu : ((links c).view s).Uniq)
    (hcl : Deco.Props.Closed ((links c).view s))
    (hk : Fits ((links c).view s) 0 (ks ++ ls)) (hsame : ∀ i ∈ rs, (links c).view s i = (links c).view s₁ i) :
    run (links c) (ks ++ ls) [] s = run (links c) ls rs s := by
  obtain ⟨o, g1, -, -, -, -, g5⟩ := C110_split_import hc hcap h₀ hu₀ hcl₀ hk₀
  rw [hrun] at g1; cases g1
  exact run_again (script_law hc hcap) ks ls ⟨h, hu, hcl⟩ (fun _ h => by cases h) (Fits.append.mp hk).1
    ((g5 rs rfl).1.congr hsame)

/-- **C110**, split store: an import that went through changes nothing when it is run again at once. -/
theorem C110_split_import_twice (hc : CfgOK c) (hcap : ∀ s, Reach c s → CanGrow c s) {s s' : Store} (h : Reach c s)
    (hu : ((links c).view s).Uniq) (hcl : Deco.Props.Closed ((links c).view s)) {ks : List Script.Call}
    (hk : Fits ((links c).view s) 0 ks) {rs : List Nat}
    (hrun : run (links c) ks [] s = some ⟨.ok rs, s', ()⟩) :
    run (links c) ks [] s' = some ⟨.ok rs, s', ()⟩ := by
  obtain ⟨o, g1, g2, g3, g3', g4, -⟩ := C110_split_import hc hcap h hu hcl hk
  rw [hrun] at g1; cases g1
  have := C110_split_import_again hc hcap h hu hcl hk hrun (ls := []) g2 g3 g3'
    (by rw [List.append_nil]; exact hk.mono g4) fun _ _ => rfl
  rw [List.append_nil] at this
  exact this

theorem sTwo_reach : Reach cfgCap sTwo := (C51_split_careful_client cfgCap_ok sTwo_client).1

theorem sTwo_uniq : ((links cfgCap).view sTwo).Uniq := fun i _ hp _ j hj =>
  (C51_split_careful_client cfgCap_ok sTwo_client).2.1 j i _ hj hp

theorem sTwo_closed : Deco.Props.Closed ((links cfgCap).view sTwo) := fun j a b hj =>
  ⟨fun _ => ((C51_split_careful_client cfgCap_ok sTwo_client).2.2.1 j a b hj).1,
   fun _ => ((C51_split_careful_client cfgCap_ok sTwo_client).2.2.1 j a b hj).2⟩

theorem script_fits : Fits ((links cfgCap).view sTwo) 0 Unit.Props.script := by
  have h1 := sTwo_1
  have h2 := sTwo_2
  simp [Unit.Props.script, Fits, h1, h2]

theorem cfgCap_grow' {s : Store} (h : Reach cfgCap s) : CanGrow cfgCap s := by
  obtain ⟨free, hf⟩ := reach_good cfgCap_ok h
  have he := hf.toInv0.base.len_eq
  intro hd
  have hd : (if s.dlen + 8 ≤ 255 then some (s.dlen + 8) else none) ≠ none := hd
  rw [he] at hd
  by_cases hl : s.ilen + 8 ≤ 255
  · refine ⟨?_, hl⟩
    show (if s.ilen + 8 ≤ 255 then some (s.ilen + 8) else none) ≠ none
    rw [if_pos hl]; simp
  · rw [if_neg hl] at hd; exact absurd rfl hd

example := C110_split_import cfgCap_ok (fun _ h => cfgCap_grow' h) sTwo_reach sTwo_uniq sTwo_closed script_fits

/-- The first two calls, after which the program stops between `create` and `update` of the third. -/
def sStopped : Store :=
  (((run (links cfgCap) (Unit.Props.script.take 2) [] sTwo).bind fun o => (links cfgCap).create o.st).map (·.st)).getD {}

/-- The script run through, and run again after it was stopped: link 5 is left over without ends, the finished calls return the
same links. -/
example : ((run (links cfgCap) Unit.Props.script [] sTwo).map fun o =>
        (o.res.toOption, (List.range 8).map ((links cfgCap).view o.st))) =
      some (some [3, 4, 5, 6], [none, some (1, 1), some (2, 2), some (1, 2), some (2, 1), some (3, 4), some (3, 1), none]) ∧
    ((run (links cfgCap) Unit.Props.script [] sStopped).map fun o =>
        (o.res.toOption, (List.range 8).map ((links cfgCap).view o.st))) =
      some (some [3, 4, 6, 7],
        [none, some (1, 1), some (2, 2), some (1, 2), some (2, 1), some (0, 0), some (3, 4), some (3, 1)]) := by
  decide +kernel

end Verif.Split.Props
