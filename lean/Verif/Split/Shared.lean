import Verif.Split.Loads
import Verif.Split.PowerLoss

/-!
# A split store shared between threads
-/

namespace Verif.Split
open Verif
open Verif.Unit (Hdr)
variable {c : Cfg} {P : Programs}

/-- How the data memory and the index memory grow. -/
structure Allocs where
  d : Nat → Nat → Option Nat
  i : Nat → Nat → Option Nat

/-- A call as it touches memory: reads load by load, writes assignment by assignment (`callA`, `Split/Access.lean`). -/
def job (c : Cfg) (P : Programs) : Req Allocs → Body AStore Loc Reply
  | .get i => .read fun _ => do
    let l ← Loads.getLink c i
    pure (.link l)
  | .each q h => .read fun f => do
    let r ← Loads.eachLinks c f q (showing h) []
    pure (.links r.1 r.2)
  | .count q => .read fun f => do
    let n ← Loads.countLinks c f q
    pure (.count n)
  | .write k a h => .write fun f => do
    let r ← callA (c.withAllocs a.d a.i) P f (showing2 h) [] k
    pure (.wrote r.1 r.2)

/-- What the model of the store answers, and the store afterwards; `none` = panic. -/
def answer (c : Cfg) (s : Store) : Req Allocs → Option (Reply × Store)
  | .get i => ((links c).getLink s i).map fun l => (.link l, s)
  | .each q h => ((links c).eachLinks s q (showing h) []).map fun r => (.links r.1 r.2, s)
  | .count q => ((links c).countLinks s q).map fun n => (.count n, s)
  | .write k a h => (callExec (c.withAllocs a.d a.i) s (showing2 h) [] k).map fun o => (.wrote o.res o.hs, o.st)

/-- The call, made alone, does not panic, and is one that the store supports; the memories grow to the size asked for. -/
def Allowed (c : Cfg) (s : Store) (q : Req Allocs) : Prop :=
  answer c s q ≠ none ∧ match q with
    | .write k a _ => ExactAlloc a.d ∧ ExactAlloc a.i ∧ Supported ((links c).view s) k ∧
        (k = .create → GrowTogether (c.withAllocs a.d a.i) s ∧ NewUnused (c.withAllocs a.d a.i) s)
    | _ => True

/-- Reads only load, and return what the model says. -/
theorem read_alone' {s : Store} (hl : 0 < s.ilen) {q : Req Allocs}
    (hq : ∀ k a hd, q ≠ .write k a hd) {r : Reply} {s' : Store} (hr : answer c s q = some (r, s')) :
    s' = s ∧ ∃ p, job c P q = .read p ∧ ∀ f, s.ilen < f → (p f).run (AStore.of s).look = some r := by
  cases q with
  | get i =>
    simp only [answer, Option.map_eq_some_iff, Prod.mk.injEq] at hr
    obtain ⟨x, h1, rfl, rfl⟩ := hr
    exact ⟨rfl, _, rfl, fun f hf => by simp [gives_getLink hl i _ h1]⟩
  | each q hd =>
    simp only [answer, Option.map_eq_some_iff, Prod.mk.injEq] at hr
    obtain ⟨x, h1, rfl, rfl⟩ := hr
    exact ⟨rfl, _, rfl, fun f hf => by simp [gives_eachLinks hl hf q _ _ _ h1]⟩
  | count q =>
    simp only [answer, Option.map_eq_some_iff, Prod.mk.injEq] at hr
    obtain ⟨x, h1, rfl, rfl⟩ := hr
    exact ⟨rfl, _, rfl, fun f hf => by simp [gives_countLinks hl hf q _ h1]⟩
  | write k a hd => exact absurd rfl (hq k a hd)

theorem read_alone (hc : CfgOK c) {s : Store} (h : Reach c s) {q : Req Allocs}
    (hq : ∀ k a hd, q ≠ .write k a hd) {r : Reply} {s' : Store} (hr : answer c s q = some (r, s')) :
    s' = s ∧ ∃ p, job c P q = .read p ∧ ∀ f, s.ilen < f → (p f).run (AStore.of s).look = some r := by
  obtain ⟨free, hi⟩ := reach_good hc h
  have hl : 0 < s.ilen := by have := hi.base.alloc_lt; omega
  exact read_alone' hl hq hr

theorem faithful (hc : CfgOK c) (hP : P.Implements c.trees) :
    Faithful AStore.look (job c P) (answer c) (Allowed c) (Reach c) AStore.of where
  works := by
    intro s q h hq
    obtain ⟨⟨r, s'⟩, hr⟩ := Option.ne_none_iff_exists'.mp hq.1
    refine ⟨r, s', hr, ?_⟩
    have rd : (∀ k a hd, q ≠ .write k a hd) → Reach c s' ∧
        ∃ f0, ∀ f, f0 ≤ f → (job c P q).alone AStore.look (.of s) f = some (r, AStore.of s') := by
      intro hw
      obtain ⟨rfl, p, hp, hf⟩ := read_alone (P := P) hc h hw hr
      exact ⟨h, s'.ilen + 1, fun f h => by simp [hp, Body.alone, hf f h]⟩
    cases q with
    | get i => exact rd fun _ _ _ h => nomatch h
    | each q hd => exact rd fun _ _ _ h => nomatch h
    | count q => exact rd fun _ _ _ h => nomatch h
    | write k a hd =>
      obtain ⟨hd', hi', hk, hg⟩ := hq.2
      simp only [answer, Option.map_eq_some_iff, Prod.mk.injEq] at hr
      obtain ⟨o, ho, rfl, rfl⟩ := hr
      refine ⟨(step_keeps hc h hd' hi' hk hg ho).1, ?_⟩
      obtain ⟨free, hi⟩ := reach_good hc h
      obtain ⟨f0, hf⟩ := callA_agree (hc.withAllocs hd' hi') (P := P) hP (hi.withAllocs a.d a.i) (k := k)
        (by rw [view_withAllocs]; exact hk) (showing2 hd) []
      exact ⟨f0, fun f h => by simp [job, Body.alone, Tr.bind_res, (hf f h).1, ho, Tr.run_pure]⟩

end Verif.Split
