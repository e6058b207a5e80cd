import Verif.Unit.Loads
import Verif.Unit.PowerLoss

/-!
# A united store shared between threads
-/

namespace Verif.Unit
open Verif
variable {c : Cfg} {P : Programs}

/-- A call as it touches memory: reads load by load, writes assignment by assignment (`callA`, `Unit/Access.lean`). -/
def job (c : Cfg) (P : Programs) : Req (Nat → Nat → Option Nat) → Body AStore Loc Reply
  | .get i => .read fun _ => do
    let l ← Loads.getLink c i
    pure (.link l)
  | .each q h => .read fun f => do
    let r ← Loads.eachLinks c f q (showing h) []
    pure (.links r.1 r.2)
  | .count q => .read fun f => do
    let n ← Loads.countLinks c f q
    pure (.count n)
  | .write k a h => .write fun f => do
    let r ← callA (c.withAlloc a) P f (showing2 h) [] k
    pure (.wrote r.1 r.2)

/-- What the model of the store answers, and the store afterwards; `none` = panic. -/
def answer (c : Cfg) (s : Store) : Req (Nat → Nat → Option Nat) → Option (Reply × Store)
  | .get i => ((links c).getLink s i).map fun l => (.link l, s)
  | .each q h => ((links c).eachLinks s q (showing h) []).map fun r => (.links r.1 r.2, s)
  | .count q => ((links c).countLinks s q).map fun n => (.count n, s)
  | .write k a h => (callExec (c.withAlloc a) s (showing2 h) [] k).map fun o => (.wrote o.res o.hs, o.st)

/-- The call, made alone, does not panic; the memory grows to at least the size asked for; a link that is updated or
deleted has no twin. -/
def Allowed (c : Cfg) (s : Store) (q : Req (Nat → Nat → Option Nat)) : Prop :=
  answer c s q ≠ none ∧ match q with
    | .write k a _ => GoodAlloc a ∧ ∀ j, callAbout j k → ((links c).view s).NoTwin j
    | _ => True

/-- Reads only load, and return what the model says. -/
theorem read_alone' {s : Store} (hl : 0 < s.len) {q : Req (Nat → Nat → Option Nat)}
    (hq : ∀ k a hd, q ≠ .write k a hd) {r : Reply} {s' : Store} (hr : answer c s q = some (r, s')) :
    s' = s ∧ ∃ p, job c P q = .read p ∧ ∀ f, s.len < f → (p f).run (AStore.of s).look = some r := by
  cases q with
  | get i =>
    simp only [answer, Option.map_eq_some_iff, Prod.mk.injEq] at hr
    obtain ⟨x, h1, rfl, rfl⟩ := hr
    exact ⟨rfl, _, rfl, fun f hf => by simp [gives_getLink hl i _ h1]⟩
  | each q hd =>
    simp only [answer, Option.map_eq_some_iff, Prod.mk.injEq] at hr
    obtain ⟨x, h1, rfl, rfl⟩ := hr
    exact ⟨rfl, _, rfl, fun f hf => by simp [gives_eachLinks hl hf q _ _ _ h1]⟩
  | count q =>
    simp only [answer, Option.map_eq_some_iff, Prod.mk.injEq] at hr
    obtain ⟨x, h1, rfl, rfl⟩ := hr
    exact ⟨rfl, _, rfl, fun f hf => by simp [gives_countLinks hl hf q _ h1]⟩
  | write k a hd => exact absurd rfl (hq k a hd)

theorem read_alone (hc : CfgOK c) {s : Store} (h : Reach c s) {q : Req (Nat → Nat → Option Nat)}
    (hq : ∀ k a hd, q ≠ .write k a hd) {r : Reply} {s' : Store} (hr : answer c s q = some (r, s')) :
    s' = s ∧ ∃ p, job c P q = .read p ∧ ∀ f, s.len < f → (p f).run (AStore.of s).look = some r := by
  obtain ⟨free, ts, tt, hi⟩ := reach_good hc h
  have hl : 0 < s.len := by have := hi.base.alloc_lt; omega
  exact read_alone' hl hq hr

theorem faithful (hc : CfgOK c) (hP : P.Implements c.trees) :
    Faithful AStore.look (job c P) (answer c) (Allowed c) (Reach c) AStore.of where
  works := by
    intro s q h hq
    obtain ⟨⟨r, s'⟩, hr⟩ := Option.ne_none_iff_exists'.mp hq.1
    refine ⟨r, s', hr, ?_⟩
    have rd : (∀ k a hd, q ≠ .write k a hd) → Reach c s' ∧
        ∃ f0, ∀ f, f0 ≤ f → (job c P q).alone AStore.look (.of s) f = some (r, AStore.of s') := by
      intro hw
      obtain ⟨rfl, p, hp, hf⟩ := read_alone (P := P) hc h hw hr
      exact ⟨h, s'.len + 1, fun f h => by simp [hp, Body.alone, hf f h]⟩
    cases q with
    | get i => exact rd fun _ _ _ h => nomatch h
    | each q hd => exact rd fun _ _ _ h => nomatch h
    | count q => exact rd fun _ _ _ h => nomatch h
    | write k a hd =>
      obtain ⟨ha, hk⟩ := hq.2
      simp only [answer, Option.map_eq_some_iff, Prod.mk.injEq] at hr
      obtain ⟨o, ho, rfl, rfl⟩ := hr
      refine ⟨(step_keeps hc h ha hk ho).1, ?_⟩
      obtain ⟨free, ts, tt, hi⟩ := reach_good hc h
      obtain ⟨f0, hf⟩ := callA_agree (hc.withAlloc ha) (P := P) hP (hi.withAlloc a) k
        (fun j hj hl => noTwinIn hc hi.toInv0 hl (hk j hj)) (showing2 hd) []
      exact ⟨f0, fun f h => by simp [job, Body.alone, Tr.bind_res, (hf f h).1, ho, Tr.run_pure]⟩

end Verif.Unit
