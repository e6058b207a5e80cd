import Verif.Split.Shared
import Verif.Split.AccessMend

/-!
# Sessions and threads of the split store over a crate that keeps the weaker contract only (helper for C94)
-/

namespace Verif.Split
open Verif
open Verif.Unit (KeepsUniq callAbout)
variable {c : Cfg} {P : Programs}

/-- The call makes no two links with the same pair, and is one that the store supports (C30). -/
def CallU (c : Cfg) (d i : Nat → Nat → Option Nat) (s : Store) (k : Call) : Prop :=
  KeepsUniq ((links c).view s) k ∧ CanCall ((links c).view s) k ∧
    (k = .create → GrowTogether (c.withAllocs d i) s ∧ NewUnused (c.withAllocs d i) s)

/-- `SessionU c s xs`: the calls `xs`, made one after another from `s` on, return or fail, each of them is one that the store supports
at that time, and none makes two links with the same pair. -/
inductive SessionU (c : Cfg) : Store → List Step → Prop
  | done (s : Store) : SessionU c s []
  | step {s : Store} {x : Step} {xs : List Step} {o : Out Store x.σ Flow} : ExactAlloc x.dalloc → ExactAlloc x.ialloc →
      CallU c x.dalloc x.ialloc s x.call →
      callExec (c.withAllocs x.dalloc x.ialloc) s x.handler x.start x.call = some o → SessionU c o.st xs → SessionU c s (x :: xs)

/-- The call, made alone, does not panic, is one that the store supports and makes no two links with the same pair; the memories grow
to the size asked for. -/
def AllowedU (c : Cfg) (s : Store) (q : Req Allocs) : Prop :=
  answer c s q ≠ none ∧ match q with
    | .write k a _ => ExactAlloc a.d ∧ ExactAlloc a.i ∧ CallU c a.d a.i s k
    | _ => True

theorem callU_withAllocs {d i : Nat → Nat → Option Nat} {s : Store} {k : Call} (hk : CallU c d i s k) :
    KeepsUniq ((links (c.withAllocs d i)).view s) k ∧ CanCall ((links (c.withAllocs d i)).view s) k := by
  rw [view_withAllocs]; exact ⟨hk.1, hk.2.1⟩

/-- A duplicate-free call keeps the links it is not about. -/
theorem step_keepsU (hc : CfgOK₀ c) {s : Store} (h : ReachU c s) {d i : Nat → Nat → Option Nat} (hd : ExactAlloc d)
    (hi : ExactAlloc i) {k : Call} (hk : CallU c d i s k) {σ : Type} {hh : WH σ} {st : σ} {o : Out Store σ Flow}
    (ho : callExec (c.withAllocs d i) s hh st k = some o) :
    ReachU c o.st ∧ ∀ l, ((links c).view s).Has l → ¬ callAbout l.index k → ((links c).view o.st).Has l := by
  have hr : ReachU c o.st := by
    cases k with
    | create => exact .create d i h hd hi (hk.2.2 rfl).1 (hk.2.2 rfl).2 ho
    | update j x y =>
      exact .update (q := [j]) (ch := [j, x, y]) h (fun i' a' b' h1 h2 h3 h4 => by
        simp only [List.getElem?_cons_zero, List.getElem?_cons_succ, Option.some.injEq] at h1 h2 h3
        subst h1 h2 h3; exact ⟨hk.1 h4, hk.2.1⟩) ho
    | delete j =>
      have ho : deleteLinks c s [j] hh st = some o := (Props.deleteLinks_withAllocs d i _ _ _ _).symm.trans ho
      exact .delete (q := [j]) h ho
  obtain ⟨hm, hu⟩ := reachU_mend hc h
  obtain ⟨free, hI⟩ := reach_good hc.mend hm
  have hI' : Inv (c.withAllocs d i).mend s free := hI.withAllocs d i
  have ho' : callExec (c.mend.withAllocs d i) s hh st k = some o :=
    (callExec_mend (hc.withAllocs hd hi) hI' (k := k) (by rw [view_withAllocs]; exact hu) (callU_withAllocs hk).1 hh st).symm.trans ho
  refine ⟨hr, ?_⟩
  have := (step_keeps hc.mend hm hd hi (by rw [view_mend]; exact supported_of_uniq hu hk.2.1)
    (fun e => ⟨(hk.2.2 e).1, newUnused_mend hc hd hi hI (hk.2.2 e).2⟩) ho').2
  rw [view_mend, view_mend] at this
  exact this

/-- What a call does through the accessors. -/
theorem step_accessU (hc : CfgOK₀ c) (hP : P.ImplementsOn Apart c.trees) {s : Store} {free : List Nat}
    (h : ReachU c s) (hI : Inv c.mend s free) {d i : Nat → Nat → Option Nat} (hd : ExactAlloc d) (hi : ExactAlloc i) {k : Call}
    (hs : CanCall ((links c).view s) k) (hk : KeepsUniq ((links c).view s) k) {σ : Type} (hh : WH σ) (st : σ) :
    Ev fun f => Agree (callA (c.withAllocs d i) P f hh st k) (.of s) (callExec (c.withAllocs d i) s hh st k) fun x =>
      ∀ j, ¬ callAbout j k → LiveIn s free j → x.s.data j = s.data j := by
  have hI' : Inv (c.withAllocs d i).mend s free := hI.withAllocs d i
  have hc' := hc.withAllocs hd hi
  have hu := (reachU_mend hc h).2
  have e : (links (c.withAllocs d i)).view s = (links c).view s := view_withAllocs ..
  refine (callA_agreeU hc' (P := P) hP hI' (by rw [e]; exact hu) (k := k) (by rw [e]; exact hs) (by rw [e]; exact hk) hh st).mono
    fun f w => ⟨w.1, fun x hx j hj hl => ?_⟩
  obtain ⟨m, h1, h2⟩ := w.2 x hx
  exact near_keeps hc'.mend hI' (by rw [view_mend, e]; exact supported_of_uniq hu hs) h1 h2 hl hj

/-- What all memories on the way of a session keep. -/
theorem written_keepsU (hc : CfgOK₀ c) (hP : P.ImplementsOn Apart c.trees) {s : Store} {xs : List Step} (hs : SessionU c s xs)
    (h : ReachU c s) :
    Ev fun f => ∀ m ∈ written c P f xs (.of s), ∀ l, ((links c).view s).Has l →
      (∀ x ∈ xs, ¬ callAbout l.index x.call) → m.data l.index = (l.source, l.target) := by
  induction hs with
  | done s => exact .of fun f m hm => by simp [written] at hm
  | @step s x xs o hd hi hk ho hs ih =>
    obtain ⟨hr, hkeep⟩ := step_keepsU hc h hd hi hk ho
    obtain ⟨free, hI⟩ := reach_good hc.mend (reachU_mend hc h).1
    refine (step_accessU hc hP h hI hd hi hk.2.1 hk.1 x.handler x.start).and (ih hr) fun f ⟨w1, w2⟩ w m hm l hl hx => ?_
    rw [ho] at w1
    simp only [written, w1, Option.map_some, List.mem_append, List.mem_map] at hm
    rcases hm with ⟨y, hy, rfl⟩ | hm
    · obtain ⟨h1, h2⟩ := (has_iff hc.mend hI.toInv0 l).1 (by rw [view_mend]; exact hl)
      rw [w2 y hy l.index (hx x (by simp)) h1, h2]
      rfl
    · exact w m hm l (hkeep l hl (hx x (by simp))) fun y hy => hx y (by simp [hy])

theorem faithfulU (hc : CfgOK₀ c) (hP : P.ImplementsOn Apart c.trees) :
    Faithful AStore.look (job c P) (answer c) (AllowedU c) (ReachU c) AStore.of where
  works := by
    intro s q h hq
    obtain ⟨⟨r, s'⟩, hr⟩ := Option.ne_none_iff_exists'.mp hq.1
    obtain ⟨free, hI⟩ := reach_good hc.mend (reachU_mend hc h).1
    refine ⟨r, s', hr, ?_⟩
    have rd : (∀ k a hd, q ≠ .write k a hd) → ReachU c s' ∧
        ∃ f0, ∀ f, f0 ≤ f → (job c P q).alone AStore.look (.of s) f = some (r, AStore.of s') := by
      intro hw
      have hl : 0 < s.ilen := by have := hI.base.alloc_lt; omega
      obtain ⟨rfl, p, hp, hf⟩ := read_alone' (P := P) hl hw hr
      exact ⟨h, s'.ilen + 1, fun f h => by simp [hp, Body.alone, hf f h]⟩
    cases q with
    | get i => exact rd fun _ _ _ h => nomatch h
    | each q hd => exact rd fun _ _ _ h => nomatch h
    | count q => exact rd fun _ _ _ h => nomatch h
    | write k a hd =>
      obtain ⟨hd', hi', hk⟩ := hq.2
      simp only [answer, Option.map_eq_some_iff, Prod.mk.injEq] at hr
      obtain ⟨o, ho, rfl, rfl⟩ := hr
      refine ⟨(step_keepsU hc h hd' hi' hk ho).1, ?_⟩
      obtain ⟨f0, hf⟩ := step_accessU hc hP h hI hd' hi' hk.2.1 hk.1 (showing2 hd) []
      exact ⟨f0, fun f h => by simp [job, Body.alone, Tr.bind_res, (hf f h).1, ho, Tr.run_pure]⟩

end Verif.Split
