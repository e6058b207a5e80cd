import Verif.Unit.Shared
import Verif.Unit.AccessMend

/-!
# Sessions and threads of the united store over a crate that keeps the weaker contract only (helper for C94)
-/

namespace Verif.Unit
open Verif
variable {c : Cfg} {P : Programs}

/-- `SessionU c s xs`: the calls `xs`, made one after another from `s` on, return or fail, and none of them makes two links with the
same pair. -/
inductive SessionU (c : Cfg) : Store → List Step → Prop
  | done (s : Store) : SessionU c s []
  | step {s : Store} {x : Step} {xs : List Step} {o : Out Store x.σ Flow} : GoodAlloc x.alloc →
      KeepsUniq ((links c).view s) x.call →
      callExec (c.withAlloc x.alloc) s x.handler x.start x.call = some o → SessionU c o.st xs → SessionU c s (x :: xs)

/-- The call, made alone, does not panic and makes no two links with the same pair; the memory grows to at least the size asked for. -/
def AllowedU (c : Cfg) (s : Store) (q : Req (Nat → Nat → Option Nat)) : Prop :=
  answer c s q ≠ none ∧ match q with
    | .write k a _ => GoodAlloc a ∧ KeepsUniq ((links c).view s) k
    | _ => True

theorem CfgOK₀.withAlloc (hc : CfgOK₀ c) {a : Nat → Nat → Option Nat} (ha : GoodAlloc a) : CfgOK₀ (c.withAlloc a) :=
  ⟨hc.null_eq, hc.index_eq, hc.source_eq, hc.target_eq, hc.start_eq, hc.end_lt_any, hc.end_le, hc.step_pos, hc.trees, ha⟩

/-- A duplicate-free call keeps the links it is not about. -/
theorem step_keepsU (hc : CfgOK₀ c) {s : Store} (h : ReachU c s) {a : Nat → Nat → Option Nat} (ha : GoodAlloc a) {k : Call}
    (hk : KeepsUniq ((links c).view s) k) {σ : Type} {hd : WH σ} {st : σ} {o : Out Store σ Flow}
    (ho : callExec (c.withAlloc a) s hd st k = some o) :
    ReachU c o.st ∧ ∀ l, ((links c).view s).Has l → ¬ callAbout l.index k → ((links c).view o.st).Has l := by
  have hr : ReachU c o.st := by
    cases k with
    | create => exact .create a h ha ho
    | update i x y =>
      exact .update (q := [i]) (ch := [i, x, y]) h (fun i' a' b' h1 h2 h3 h4 => by
        simp only [List.getElem?_cons_zero, List.getElem?_cons_succ, Option.some.injEq] at h1 h2 h3
        subst h1 h2 h3; exact hk h4) ho
    | delete i =>
      have ho : deleteLinks c s [i] hd st = some o := (Props.deleteLinks_withAlloc a _ _ _ _).symm.trans ho
      exact .delete (q := [i]) h ho
  obtain ⟨hm, hu⟩ := reachU_mend hc h
  obtain ⟨free, ts, tt, hi⟩ := reach_good hc.mend hm
  have hI : Inv (c.withAlloc a).mend s free ts tt := hi.withAlloc a
  have ho' : callExec (c.mend.withAlloc a) s hd st k = some o :=
    (callExec_mend (hc.withAlloc ha) (k := k) ⟨free, ts, tt, hI⟩ hu hk hd st).symm.trans ho
  exact ⟨hr, (step_keeps hc.mend hm ha (fun j _ => hu j) ho').2⟩

/-- What a call does through the accessors. -/
theorem step_accessU (hc : CfgOK₀ c) (hP : P.ImplementsOn Apart c.trees) {s : Store} {free : List Nat} {ts tt : Tree}
    (h : ReachU c s) (hi : Inv c.mend s free ts tt) {a : Nat → Nat → Option Nat} (ha : GoodAlloc a) {k : Call}
    (hk : KeepsUniq ((links c).view s) k) {σ : Type} (hd : WH σ) (st : σ) :
    Ev fun f => Agree (callA (c.withAlloc a) P f hd st k) (.of s) (callExec (c.withAlloc a) s hd st k) fun x =>
      ∀ j, ¬ callAbout j k → LiveIn s free j → x.s.lk j = s.lk j ∧ j ≤ x.s.hdr.allocated :=
  callA_agreeU (hc.withAlloc ha) (P := P) hP (s := s) (k := k) (hi.withAlloc a) (reachU_mend hc h).2 hk hd st

/-- What every memory on the way of a session keeps. -/
theorem written_keepsU (hc : CfgOK₀ c) (hP : P.ImplementsOn Apart c.trees) {s : Store} {xs : List Step} (hs : SessionU c s xs)
    (h : ReachU c s) :
    Ev fun f => ∀ m ∈ written c P f xs (.of s), ∀ l, ((links c).view s).Has l →
      (∀ x ∈ xs, ¬ callAbout l.index x.call) → m.lk l.index = (l.source, l.target) ∧ l.index ≤ m.hdr.allocated := by
  induction hs with
  | done s => exact .of fun f m hm => by simp [written] at hm
  | @step s x xs o ha hk ho hs ih =>
    obtain ⟨hr, hkeep⟩ := step_keepsU hc h ha hk ho
    obtain ⟨free, ts, tt, hi⟩ := reach_good hc.mend (reachU_mend hc h).1
    refine (step_accessU hc hP h hi ha hk x.handler x.start).and (ih hr) fun f ⟨w1, w2⟩ w m hm l hl hx => ?_
    rw [ho] at w1
    simp only [written, w1, Option.map_some, List.mem_append, List.mem_map] at hm
    rcases hm with ⟨y, hy, rfl⟩ | hm
    · obtain ⟨h1, h2⟩ := (has_iff hc.mend hi.toInv0 l).1 hl
      obtain ⟨g1, g2⟩ := w2 y hy l.index (hx x (by simp)) h1
      refine ⟨?_, g2⟩
      rw [g1, h2]
      rfl
    · exact w m hm l (hkeep l hl (hx x (by simp))) fun y hy => hx y (by simp [hy])

theorem faithfulU (hc : CfgOK₀ c) (hP : P.ImplementsOn Apart c.trees) :
    Faithful AStore.look (job c P) (answer c) (AllowedU c) (ReachU c) AStore.of where
  works := by
    intro s q h hq
    obtain ⟨⟨r, s'⟩, hr⟩ := Option.ne_none_iff_exists'.mp hq.1
    obtain ⟨free, ts, tt, hi⟩ := reach_good hc.mend (reachU_mend hc h).1
    refine ⟨r, s', hr, ?_⟩
    have rd : (∀ k a hd, q ≠ .write k a hd) → ReachU c s' ∧
        ∃ f0, ∀ f, f0 ≤ f → (job c P q).alone AStore.look (.of s) f = some (r, AStore.of s') := by
      intro hw
      obtain ⟨rfl, p, hp, hf⟩ := read_alone' (P := P) hi.base.len_pos hw hr
      exact ⟨h, s'.len + 1, fun f h => by simp [hp, Body.alone, hf f h]⟩
    cases q with
    | get i => exact rd fun _ _ _ h => nomatch h
    | each q hd => exact rd fun _ _ _ h => nomatch h
    | count q => exact rd fun _ _ _ h => nomatch h
    | write k a hd =>
      obtain ⟨ha, hk⟩ := hq.2
      simp only [answer, Option.map_eq_some_iff, Prod.mk.injEq] at hr
      obtain ⟨o, ho, rfl, rfl⟩ := hr
      refine ⟨(step_keepsU hc h ha hk ho).1, ?_⟩
      obtain ⟨f0, hf⟩ := step_accessU hc hP h hi ha hk (showing2 hd) []
      exact ⟨f0, fun f h => by simp [job, Body.alone, Tr.bind_res, (hf f h).1, ho, Tr.run_pure]⟩

end Verif.Unit
