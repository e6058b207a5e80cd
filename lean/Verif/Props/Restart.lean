import Verif.Restart
import Verif.Props.Reopen

/-!
# C118: restarts do not show to a careful client
-/

namespace Verif.Unit.Props
open Verif Verif.Unit

variable {c : Cfg}

/-- **C118**, united store. What a careful client computes, restarted at any points between its calls and on memories of any
kind, is what it computes on a map. -/
theorem C118_united_restarted_clients (hc : CfgOK c) {s s' : Store} {tr} (h : History c s tr) {limit : Nat}
    (hl : limit ≤ c.consts.internalEnd) {reserved : Nat → Prop} (hr : reserved c.consts.any) {α : Type} {P : Routine α} {a : α}
    (hP : P.Careful limit reserved (replay tr) (slots tr)) (he : P.Goes (links c) c.consts.any (Restarts c) s a s') :
    ∃ tr', History c s' tr' ∧ P.Means limit (replay tr) (slots tr) a (replay tr') (slots tr') :=
  (serves hc).goes hl hr (fun h ⟨d, n, h1, h2, h3⟩ => .reopen d n h h1 h2 h3) he h hP

/-- **C118**, united store. Two careful clients that are restarted at any points, maybe never, on stores that served the same calls,
compute the same and leave the same links behind. They also leave the same indices to be given out (`slots`), so the same holds
for whatever careful clients go on. -/
theorem C118_united_restarts_do_not_show (hc : CfgOK c) {s t s' t' : Store} {tr} (h1 : History c s tr) (h2 : History c t tr)
    {limit : Nat} (hl : limit ≤ c.consts.internalEnd) {α : Type} {P : Routine α} {a b : α}
    (hP : P.Careful limit (· = c.consts.any) (replay tr) (slots tr))
    (e1 : P.Goes (links c) c.consts.any (Restarts c) s a s') (e2 : P.Goes (links c) c.consts.any (Restarts c) t b t') :
    a = b ∧ (∀ i, (links c).getLink s' i = (links c).getLink t' i) ∧
    ∃ tr1 tr2, History c s' tr1 ∧ History c t' tr2 ∧ replay tr1 = replay tr2 ∧ slots tr1 = slots tr2 := by
  obtain ⟨tr1, k1, m1⟩ := C118_united_restarted_clients hc h1 hl (reserved := (· = c.consts.any)) rfl hP e1
  obtain ⟨tr2, k2, m2⟩ := C118_united_restarted_clients hc h2 hl (reserved := (· = c.consts.any)) rfl hP e2
  obtain ⟨r1, r2, r3⟩ := m1.unique hP m2
  exact ⟨r1, fun i => by rw [(serves hc).get k1, (serves hc).get k2, r2], tr1, tr2, k1, k2, r2, r3⟩

/-- **C118**, united store. If the index type has as many values as memory grows by, there is always a memory on which the store can
be restarted. -/
theorem C118_united_can_be_restarted (hc : CfgOK c) (hst : c.step ≤ c.maxT + 1) {s : Store} {tr} (h : History c s tr) :
    ∃ s', Restarts c s s' := by
  obtain ⟨⟨⟨ts, tt, hi⟩, -⟩, -⟩ := history_inv hc h
  have h1 := hi.base.alloc_le
  have h2 := hc.end_le
  let a : Nat → Nat → Option Nat := fun _ m => some (max m (s.hdr.allocated + 1))
  have ha : GoodAlloc a := fun _ m n e => by cases e; omega
  refine ⟨_, a, s.len, ha, (C72_open_iff (hc.withAlloc ha) _ _).2 ⟨_, _, rfl, ?_, rfl, ?_, rfl⟩, ?_⟩
  · omega
  · show max (max c.step s.hdr.allocated) (s.hdr.allocated + 1) ≤ c.maxT + 1
    omega
  · show s.hdr.allocated < max (max c.step s.hdr.allocated) (s.hdr.allocated + 1)
    omega

end Verif.Unit.Props

namespace Verif.Split.Props
open Verif Verif.Split

variable {c : Cfg}

/-- **C118**, split store. -/
theorem C118_split_restarted_clients (hc : CfgOK c) (hgrow : GrowsAlike c) {s s' : Store} {tr} (h : History c s tr) {limit : Nat}
    (hl : limit ≤ c.consts.internalEnd) {reserved : Nat → Prop} (hr : reserved c.consts.any) {α : Type} {P : Routine α} {a : α}
    (hP : P.Careful limit reserved (replay tr) (slots tr)) (he : P.Goes (links c) c.consts.any (Restarts c) s a s') :
    ∃ tr', History c s' tr' ∧ P.Means limit (replay tr) (slots tr) a (replay tr') (slots tr') :=
  (serves hc hgrow).goes hl hr (fun h ⟨d, i, n, m, h1, h2, h3, h4⟩ => .reopen d i n m h h1 h2 h3 h4) he h hP

/-- **C118**, split store. -/
theorem C118_split_restarts_do_not_show (hc : CfgOK c) (hgrow : GrowsAlike c) {s t s' t' : Store} {tr} (h1 : History c s tr)
    (h2 : History c t tr) {limit : Nat} (hl : limit ≤ c.consts.internalEnd) {α : Type} {P : Routine α} {a b : α}
    (hP : P.Careful limit (· = c.consts.any) (replay tr) (slots tr))
    (e1 : P.Goes (links c) c.consts.any (Restarts c) s a s') (e2 : P.Goes (links c) c.consts.any (Restarts c) t b t') :
    a = b ∧ (∀ i, (links c).getLink s' i = (links c).getLink t' i) ∧
    ∃ tr1 tr2, History c s' tr1 ∧ History c t' tr2 ∧ replay tr1 = replay tr2 ∧ slots tr1 = slots tr2 := by
  obtain ⟨tr1, k1, m1⟩ := C118_split_restarted_clients hc hgrow h1 hl (reserved := (· = c.consts.any)) rfl hP e1
  obtain ⟨tr2, k2, m2⟩ := C118_split_restarted_clients hc hgrow h2 hl (reserved := (· = c.consts.any)) rfl hP e2
  obtain ⟨r1, r2, r3⟩ := m1.unique hP m2
  exact ⟨r1, fun i => by rw [(serves hc hgrow).get k1, (serves hc hgrow).get k2, r2], tr1, tr2, k1, k2, r2, r3⟩

/-- **C118** The same for a united and a split store. -/
theorem C118_united_or_split {cU : Verif.Unit.Cfg} (hU : Verif.Unit.CfgOK cU) (hc : CfgOK c) (hgrow : GrowsAlike c)
    {u u' : Verif.Unit.Store} {s s' : Store} {tr} (h1 : Verif.Unit.History cU u tr) (h2 : History c s tr) {limit : Nat}
    (l1 : limit ≤ cU.consts.internalEnd) (l2 : limit ≤ c.consts.internalEnd) {α : Type} {P : Routine α} {a b : α}
    (hP : P.Careful limit (fun x => x = cU.consts.any ∨ x = c.consts.any) (replay tr) (slots tr))
    (e1 : P.Goes (Verif.Unit.links cU) cU.consts.any (Verif.Unit.Restarts cU) u a u')
    (e2 : P.Goes (links c) c.consts.any (Restarts c) s b s') :
    a = b ∧ ∀ i, (Verif.Unit.links cU).getLink u' i = (links c).getLink s' i := by
  obtain ⟨t1, k1, m1⟩ := Verif.Unit.Props.C118_united_restarted_clients hU h1 l1 (.inl rfl) hP e1
  obtain ⟨t2, k2, m2⟩ := C118_split_restarted_clients hc hgrow h2 l2 (.inr rfl) hP e2
  obtain ⟨r1, r2, -⟩ := m1.unique hP m2
  exact ⟨r1, fun i => by rw [(Verif.Unit.Props.serves hU).get k1, (serves hc hgrow).get k2, r2]⟩

/-- **C118**, split store. If the index type has room for the slots that opening asks for and there are more of them than the largest
index in use, the store can be restarted. -/
theorem C118_split_can_be_restarted (hc : CfgOK c) (hp : c.page ≠ 0) {s : Store} {n : Nat} (hn : SlotsFor c s.hdr.allocated n)
    (hm : n ≤ c.maxT + 1) (hlt : s.hdr.allocated < n) : ∃ s', Restarts c s s' := by
  have he : ExactAlloc fun _ n => some n := fun _ _ _ e => by cases e; rfl
  exact ⟨_, _, _, s.dlen, s.ilen, he, he, (C72_split_open_iff (hc.withAllocs he he) _ _).2
    ⟨hp, n, hn, hm, by simp [Cfg.withAllocs], by simp [Cfg.withAllocs], by simp [Cfg.withAllocs], by simp [Cfg.withAllocs], rfl⟩, hlt⟩

/-- A client that makes a link and lists all links, twice. -/
def makeTwice : Routine (List Link) := makeAndList.bind fun _ => makeAndList

/-- The theorems on fresh stores: the client is restarted after its first half. -/
example : makeTwice.Careful 10 (fun x => x = cfgFewU.consts.any ∨ x = cfgFew.consts.any) (replay []) (slots []) ∧
    (∃ u', makeTwice.Goes (Verif.Unit.links cfgFewU) cfgFewU.consts.any (Verif.Unit.Restarts cfgFewU)
      (Verif.Unit.store0 cfgFewU) [⟨1, 0, 0⟩, ⟨2, 0, 0⟩] u') ∧
    ∃ s', makeTwice.Goes (links cfgFew) cfgFew.consts.any (Restarts cfgFew) (store0 cfgFew) [⟨1, 0, 0⟩, ⟨2, 0, 0⟩] s' := by
  refine ⟨?_, ?_, ?_⟩
  · simp [makeTwice, makeAndList, Routine.bind, Routine.Careful, Call.result, slots, Slots.apply, Call.SplitOK, replay]
    refine ⟨fun j a b h => (by cases h), fun _ _ j a b h => ?_⟩
    simp only [Call.apply, View.set] at h
    split at h
    · cases h; simp
    · cases h
  · have key : ((makeAndList.run (Verif.Unit.links cfgFewU) cfgFewU.consts.any (Verif.Unit.store0 cfgFewU)).bind fun r =>
        r.1.toOption.bind fun _ => (Verif.Unit.init (cfgFewU.withAlloc cfgFewU.alloc) r.2).bind fun o =>
        o.toOption.bind fun s => if r.2.hdr.allocated < s.len then
          (makeAndList.run (Verif.Unit.links cfgFewU) cfgFewU.consts.any s).bind fun r' => r'.1.toOption else none) =
        some [⟨1, 0, 0⟩, ⟨2, 0, 0⟩] := by decide +kernel
    simp only [Option.bind_eq_some_iff, Except.toOption, Prod.exists] at key
    obtain ⟨r, s1, h1, L, h2, o, h3, s2, h4, h5⟩ := key
    split at h5
    · next hlt =>
      simp only [Option.bind_eq_some_iff, Prod.exists] at h5
      obtain ⟨r', s3, h6, h7⟩ := h5
      cases r with
      | error e => cases h2
      | ok L' =>
        cases o with
        | error e => cases h4
        | ok s2' =>
          cases r' with
          | error e => cases h7
          | ok L2 =>
            cases h2; cases h4; cases h7
            exact ⟨s3, (Routine.Goes.of_run h1).bind (.restart ⟨cfgFewU.alloc, s1.len, cfgFewU_ok.alloc_ge, h3, hlt⟩ (.of_run h6))⟩
    · cases h5
  · have key : ((makeAndList.run (links cfgFew) cfgFew.consts.any (store0 cfgFew)).bind fun r =>
        r.1.toOption.bind fun _ => (init (cfgFew.withAllocs cfgFew.dalloc cfgFew.ialloc) r.2).bind fun o =>
        o.toOption.bind fun s => if r.2.hdr.allocated < s.ilen then
          (makeAndList.run (links cfgFew) cfgFew.consts.any s).bind fun r' => r'.1.toOption else none) =
        some [⟨1, 0, 0⟩, ⟨2, 0, 0⟩] := by decide +kernel
    simp only [Option.bind_eq_some_iff, Except.toOption, Prod.exists] at key
    obtain ⟨r, s1, h1, L, h2, o, h3, s2, h4, h5⟩ := key
    split at h5
    · next hlt =>
      simp only [Option.bind_eq_some_iff, Prod.exists] at h5
      obtain ⟨r', s3, h6, h7⟩ := h5
      cases r with
      | error e => cases h2
      | ok L' =>
        cases o with
        | error e => cases h4
        | ok s2' =>
          cases r' with
          | error e => cases h7
          | ok L2 =>
            cases h2; cases h4; cases h7
            exact ⟨s3, (Routine.Goes.of_run h1).bind (.restart ⟨cfgFew.dalloc, cfgFew.ialloc, s1.dlen, s1.ilen, cfgFew_exact,
              cfgFew_exact, h3, hlt⟩ (.of_run h6))⟩
    · cases h5

end Verif.Split.Props
