import Verif.Props.Grounded
import Verif.Props.SharedActs
import Verif.Props.SplitSharedActs

/-!
# C122 for threads
-/

namespace Verif

variable {S : Type} {D : Links S} {s t : S} {E F : Nat → Nest}

theorem Unfolds.point (h : Unfolds D s E) {i : Nat} (hi : D.view s i = some (i, i)) : E i = .item i := by
  rcases h.ends i i i hi with ⟨-, -, k⟩ | ⟨k, -⟩
  · exact k
  · exact absurd ⟨rfl, rfl⟩ k

/-- What a link stands for depends only on the links below it. -/
theorem Unfolds.keep (h : Unfolds D s E) (h' : Unfolds D t F) (hst : ∀ i p, D.view s i = some p → D.view t i = some p) {i : Nat}
    (hi : D.view s i ≠ none) : D.view t i ≠ none ∧ F i = E i := by
  have : ∀ e i, D.view s i ≠ none → E i = e → F i = e := by
    intro e
    induction e with
    | item j =>
      intro i hi he
      have hd := h.denotes i hi
      rw [he] at hd
      obtain ⟨rfl, hp⟩ := hd
      exact h'.point (hst _ _ hp)
    | pair a b iha ihb =>
      intro i hi he
      have hd := h.denotes i hi
      obtain ⟨⟨x, y⟩, hp⟩ := Option.ne_none_iff_exists'.1 hi
      rcases h.ends i x y hp with ⟨-, -, k⟩ | ⟨k, k'⟩
      · rw [k] at he; cases he
      · rw [k'] at he hd
        obtain ⟨x', y', d1, d2, hp'⟩ := hd
        rw [hp] at hp'; cases hp'
        injection he with e1 e2
        rcases h'.ends i x y (hst _ _ hp) with ⟨l1, l2, -⟩ | ⟨-, l⟩
        · exact absurd ⟨l1, l2⟩ k
        · rw [l, iha x d1.live e1, ihb y d2.live e2]
  obtain ⟨p, hp⟩ := Option.ne_none_iff_exists'.1 hi
  exact ⟨by rw [hst i p hp]; exact Option.some_ne_none _, this _ i hi rfl⟩

end Verif

namespace Verif.Unit.Props
open Verif Verif.Unit
variable {c : Cfg} {P : Programs}

/-- **C122**, united store shared by threads that look and run careful methods (C102). Whatever the schedule, the contents after the
requests that have returned are nested pairs of points, as in the hands of a single client. -/
theorem C122_threads_make_nested_pairs (hc : CfgOK c) (hP : P.Implements c.trees) {s0 : Store} (h0 : Client c s0)
    {cl : Clients Gots (Asks (Nat → Nat → Option Nat))}
    (hd : ∀ log s, Serial (Ask.answer (answer c)) cl s0 log s → ∀ i q, cl i (mine log i) q →
      Proper (OnlyLooks c) (Grows c) c.consts.any ((links c).view s) q)
    {y : Sys AStore Loc Gots} (hy : Runs AStore.look (Ask.job AStore.look (job c P)) cl (.of s0) y) :
    ∃ s E, Serial (Ask.answer (answer c)) cl s0 y.log s ∧ (y.NoWriter → y.mem = .of s) ∧ Unfolds (links c) s E := by
  obtain ⟨s, h1, h2, h3, -⟩ := C102_careful_threads hc hP h0 hd hy
  obtain ⟨E, hE⟩ := C122_every_link_is_a_nested_pair hc.weaken h2
  exact ⟨s, E, h1, h3, hE⟩

/-- **C122**, united store shared by threads that build (C102). Whatever the schedule, what a link stands for stays as it was. A point
that has been returned stands for itself. Whoever asked for the link between x and z, and is given other than x itself, has got the
link that stands for the pair of what x and z stand for. -/
theorem C122_builders_keep_the_meaning (hc : CfgOK c) (hP : P.Implements c.trees) {s0 : Store} (h0 : Client c s0)
    {cl : Clients Gots (Asks (Nat → Nat → Option Nat))}
    (hcl : ∀ i rs q, cl i rs q → Adds (OnlyLooks c) (Grows c) c.consts.any ((links c).view s0) rs q)
    {y : Sys AStore Loc Gots} (hy : Runs AStore.look (Ask.job AStore.look (job c P)) cl (.of s0) y) :
    ∃ s E₀ E, (y.NoWriter → y.mem = .of s) ∧ Unfolds (links c) s0 E₀ ∧ Unfolds (links c) s E ∧
      (∀ i, (links c).view s0 i ≠ none → (links c).view s i ≠ none ∧ E i = E₀ i) ∧
      (∀ t i, (t, .all (.point, .ok i)) ∈ y.log → (links c).view s0 i = none ∧ E i = .item i) ∧
      ∀ t x z i, (t, .all (.pair x z, .ok i)) ∈ y.log → (x = i ∧ z = i) ∨ E i = .pair (E x) (E z) := by
  obtain ⟨s, h1, h2, h3, -⟩ := C102_careful_threads hc hP h0 (fun log s hs => ((acting hc).built h0 hcl hs).2) hy
  obtain ⟨-, hb⟩ := ((acting hc).built h0 hcl h1).1
  obtain ⟨E₀, hE₀⟩ := C122_every_link_is_a_nested_pair hc.weaken h0
  obtain ⟨E, hE⟩ := C122_every_link_is_a_nested_pair hc.weaken h2
  refine ⟨s, E₀, E, h3, hE₀, hE, fun i hi => hE₀.keep hE hb.old hi, fun t i hi => ?_, fun t x z i hi => ?_⟩
  · obtain ⟨k1, k2⟩ := hb.point t i hi
    exact ⟨k2, hE.point k1⟩
  · rcases hE.ends i x z (hb.pair t x z i hi) with ⟨k1, k2, -⟩ | ⟨-, k⟩
    · exact .inl ⟨k1, k2⟩
    · exact .inr k

example {y} := C122_threads_make_nested_pairs (y := y) cfg0_ok Ref.programs_implement sPts_client builders_proper

example {y} := C122_builders_keep_the_meaning (y := y) cfg0_ok Ref.programs_implement sPts_client builders_build

end Verif.Unit.Props

namespace Verif.Split.Props
open Verif Verif.Split
variable {c : Cfg} {P : Programs}

/-- **C122**, split store shared by threads that look and run careful methods (C102). Whatever the schedule, the contents after the
requests that have returned are nested pairs of points, as in the hands of a single client. -/
theorem C122_split_threads_make_nested_pairs (hc : CfgOK c) (hP : P.Implements c.trees) {s0 : Store} (h0 : Client c s0)
    {cl : Clients Gots (Asks Allocs)}
    (hd : ∀ log s, Serial (Ask.answer (answer c)) cl s0 log s → ∀ i q, cl i (mine log i) q →
      Proper (OnlyLooks c) (Grows c) c.consts.any ((links c).view s) q)
    {y : Sys AStore Loc Gots} (hy : Runs AStore.look (Ask.job AStore.look (job c P)) cl (.of s0) y) :
    ∃ s E, Serial (Ask.answer (answer c)) cl s0 y.log s ∧ (y.NoWriter → y.mem = .of s) ∧ Unfolds (links c) s E := by
  obtain ⟨s, h1, h2, h3, -⟩ := C102_split_careful_threads hc hP h0 hd hy
  obtain ⟨E, hE⟩ := C122_split_every_link_is_a_nested_pair hc.weaken h2
  exact ⟨s, E, h1, h3, hE⟩

/-- **C122**, split store shared by threads that build (C102). Whatever the schedule, what a link stands for stays as it was. A point
that has been returned stands for itself. Whoever asked for the link between x and z, and is given other than x itself, has got the
link that stands for the pair of what x and z stand for. -/
theorem C122_split_builders_keep_the_meaning (hc : CfgOK c) (hP : P.Implements c.trees) {s0 : Store} (h0 : Client c s0)
    {cl : Clients Gots (Asks Allocs)}
    (hcl : ∀ i rs q, cl i rs q → Adds (OnlyLooks c) (Grows c) c.consts.any ((links c).view s0) rs q)
    {y : Sys AStore Loc Gots} (hy : Runs AStore.look (Ask.job AStore.look (job c P)) cl (.of s0) y) :
    ∃ s E₀ E, (y.NoWriter → y.mem = .of s) ∧ Unfolds (links c) s0 E₀ ∧ Unfolds (links c) s E ∧
      (∀ i, (links c).view s0 i ≠ none → (links c).view s i ≠ none ∧ E i = E₀ i) ∧
      (∀ t i, (t, .all (.point, .ok i)) ∈ y.log → (links c).view s0 i = none ∧ E i = .item i) ∧
      ∀ t x z i, (t, .all (.pair x z, .ok i)) ∈ y.log → (x = i ∧ z = i) ∨ E i = .pair (E x) (E z) := by
  obtain ⟨s, h1, h2, h3, -⟩ := C102_split_careful_threads hc hP h0 (fun log s hs => ((acting hc).built h0 hcl hs).2) hy
  obtain ⟨-, hb⟩ := ((acting hc).built h0 hcl h1).1
  obtain ⟨E₀, hE₀⟩ := C122_split_every_link_is_a_nested_pair hc.weaken h0
  obtain ⟨E, hE⟩ := C122_split_every_link_is_a_nested_pair hc.weaken h2
  refine ⟨s, E₀, E, h3, hE₀, hE, fun i hi => hE₀.keep hE hb.old hi, fun t i hi => ?_, fun t x z i hi => ?_⟩
  · obtain ⟨k1, k2⟩ := hb.point t i hi
    exact ⟨k2, hE.point k1⟩
  · rcases hE.ends i x z (hb.pair t x z i hi) with ⟨k1, k2, -⟩ | ⟨-, k⟩
    · exact .inl ⟨k1, k2⟩
    · exact .inr k

example {y} := C122_split_threads_make_nested_pairs (y := y) cfg0_ok Ref.programs_implement sPts_client builders_proper

example {y} := C122_split_builders_keep_the_meaning (y := y) cfg0_ok Ref.programs_implement sPts_client builders_build

end Verif.Split.Props
