import Verif.RoutineWeak
import Verif.Props.Readme
import Verif.Props.Restart

/-!
# C120: which trees the indexes are kept in does not show to careful clients that make no duplicates
-/

namespace Verif.Unit.Props
open Verif Verif.Unit

variable {c : Cfg}

/-- **C120**, united store. What a careful client that makes no duplicates computes is what it computes on a map, even if the tree crate
works only on nodes that the comparisons tell apart, and it leaves behind a store that served calls without duplicates. -/
theorem C120_united_store_is_a_map_to_tidy_clients (hc : CfgOK₀ c) {s s' : Store} {tr} (h : HistoryU c s tr) {limit : Nat}
    (hl : limit ≤ c.consts.internalEnd) {reserved : Nat → Prop} (hr : reserved c.consts.any) {α : Type} {P : Routine α} {a : α}
    (hP : P.Careful limit reserved (replay tr) (slots tr)) (hT : P.Tidy limit (replay tr) (slots tr))
    (he : P.run (links c) c.consts.any s = some (.ok a, s')) :
    ∃ tr', HistoryU c s' tr' ∧ P.Means limit (replay tr) (slots tr) a (replay tr') (slots tr') :=
  ((mimics hc).run (serves hc.mend) hl hr P h hP hT).2 a s' he

/-- **C120**, united store. If memory never grows beyond what the index type can number, no call of such a client panics or goes on
forever. -/
theorem C120_united_tidy_clients_finish (hc : CfgOK₀ c) {s : Store} {tr} (h : HistoryU c s tr) {limit : Nat}
    (hl : limit ≤ c.consts.internalEnd) {reserved : Nat → Prop} (hr : reserved c.consts.any)
    (hfit : ∀ len n, c.alloc len (len + c.step) = some n → n ≤ c.maxT) {α : Type} {P : Routine α}
    (hP : P.Careful limit reserved (replay tr) (slots tr)) (hT : P.Tidy limit (replay tr) (slots tr)) :
    ∃ r s', P.run (links c) c.consts.any s = some (r, s') ∧ (r = .error .allocFailed ∨ ∃ a, r = .ok a) := by
  have e : P.run (links c) c.consts.any s = _ := ((mimics hc).run (serves hc.mend) hl hr P h hP hT).1
  rw [e]
  exact C116_united_clients_finish hc.mend (historyU_mend hc h).1 hl hr hfit hP

/-- **C120**, united store. The same for such a client when it is restarted at any points between its calls. -/
theorem C120_united_restarted_tidy_clients (hc : CfgOK₀ c) {s s' : Store} {tr} (h : HistoryU c s tr) {limit : Nat}
    (hl : limit ≤ c.consts.internalEnd) {reserved : Nat → Prop} (hr : reserved c.consts.any) {α : Type} {P : Routine α} {a : α}
    (hP : P.Careful limit reserved (replay tr) (slots tr)) (hT : P.Tidy limit (replay tr) (slots tr))
    (he : P.Goes (links c) c.consts.any (Restarts c) s a s') :
    ∃ tr', HistoryU c s' tr' ∧ P.Means limit (replay tr) (slots tr) a (replay tr') (slots tr') :=
  (mimics hc).goes (serves hc.mend) hl hr (fun h ⟨d, n, h1, h2, h3⟩ => .reopen d n h h1 h2 h3) he h hP hT

/-- **C120**, united store. A call-by-call record without duplicates shows the links that the store returns. -/
theorem C120_united_links (hc : CfgOK₀ c) {s : Store} {tr} (h : HistoryU c s tr) (i : Nat) :
    (links c).getLink s i = some ((replay tr i).map fun p => ⟨i, p.1, p.2⟩) :=
  (serves hc.mend).get (historyU_mend hc h).1 i

end Verif.Unit.Props

namespace Verif.Split.Props
open Verif Verif.Split

variable {c : Cfg}

/-- **C120**, split store. -/
theorem C120_split_store_is_a_map_to_tidy_clients (hc : CfgOK₀ c) (hgrow : GrowsAlike c) {s s' : Store} {tr} (h : HistoryU c s tr)
    {limit : Nat} (hl : limit ≤ c.consts.internalEnd) {reserved : Nat → Prop} (hr : reserved c.consts.any) {α : Type} {P : Routine α}
    {a : α} (hP : P.Careful limit reserved (replay tr) (slots tr)) (hT : P.Tidy limit (replay tr) (slots tr))
    (he : P.run (links c) c.consts.any s = some (.ok a, s')) :
    ∃ tr', HistoryU c s' tr' ∧ P.Means limit (replay tr) (slots tr) a (replay tr') (slots tr') :=
  ((mimics hc hgrow).run (serves hc.mend hgrow) hl hr P h hP hT).2 a s' he

/-- **C120**, split store. -/
theorem C120_split_tidy_clients_finish (hc : CfgOK₀ c) (hgrow : GrowsAlike c) {s : Store} {tr} (h : HistoryU c s tr) {limit : Nat}
    (hl : limit ≤ c.consts.internalEnd) {reserved : Nat → Prop} (hr : reserved c.consts.any)
    (hfit : ∀ len, c.ialloc len (len + c.step) ≠ none → len + c.step ≤ c.maxT) {α : Type} {P : Routine α}
    (hP : P.Careful limit reserved (replay tr) (slots tr)) (hT : P.Tidy limit (replay tr) (slots tr)) :
    ∃ r s', P.run (links c) c.consts.any s = some (r, s') ∧ (r = .error .allocFailed ∨ ∃ a, r = .ok a) := by
  have e : P.run (links c) c.consts.any s = _ := ((mimics hc hgrow).run (serves hc.mend hgrow) hl hr P h hP hT).1
  rw [e]
  exact C116_split_clients_finish hc.mend hgrow (historyU_mend hc h).1 hl hr hfit hP

/-- **C120**, split store. -/
theorem C120_split_restarted_tidy_clients (hc : CfgOK₀ c) (hgrow : GrowsAlike c) {s s' : Store} {tr} (h : HistoryU c s tr)
    {limit : Nat} (hl : limit ≤ c.consts.internalEnd) {reserved : Nat → Prop} (hr : reserved c.consts.any) {α : Type} {P : Routine α}
    {a : α} (hP : P.Careful limit reserved (replay tr) (slots tr)) (hT : P.Tidy limit (replay tr) (slots tr))
    (he : P.Goes (links c) c.consts.any (Restarts c) s a s') :
    ∃ tr', HistoryU c s' tr' ∧ P.Means limit (replay tr) (slots tr) a (replay tr') (slots tr') :=
  (mimics hc hgrow).goes (serves hc.mend hgrow) hl hr (fun h ⟨d, i, n, m, h1, h2, h3, h4⟩ => .reopen d i n m h h1 h2 h3 h4) he h hP hT

/-- **C120**, split store. -/
theorem C120_split_links (hc : CfgOK₀ c) (hgrow : GrowsAlike c) {s : Store} {tr} (h : HistoryU c s tr) (i : Nat) :
    (links c).getLink s i = some ((replay tr i).map fun p => ⟨i, p.1, p.2⟩) := by
  rw [← getLink_mend]
  exact (serves hc.mend hgrow).get (historyU_mend hc h).1 i

/-- **C120**. A careful client that makes no duplicates and runs on a united store and on a split store after the same calls, whatever
their index types, memories and tree crates, computes the same on both and leaves the same links behind, if it finishes on both. -/
theorem C120_united_or_split {cU : Verif.Unit.Cfg} (hU : Verif.Unit.CfgOK₀ cU) (hc : CfgOK₀ c) (hgrow : GrowsAlike c)
    {u u' : Verif.Unit.Store} {s s' : Store} {tr} (h1 : Verif.Unit.HistoryU cU u tr) (h2 : HistoryU c s tr) {limit : Nat}
    (l1 : limit ≤ cU.consts.internalEnd) (l2 : limit ≤ c.consts.internalEnd) {α : Type} {P : Routine α} {a b : α}
    (hP : P.Careful limit (fun x => x = cU.consts.any ∨ x = c.consts.any) (replay tr) (slots tr))
    (hT : P.Tidy limit (replay tr) (slots tr))
    (e1 : P.run (Verif.Unit.links cU) cU.consts.any u = some (.ok a, u'))
    (e2 : P.run (links c) c.consts.any s = some (.ok b, s')) :
    a = b ∧ ∀ i, (Verif.Unit.links cU).getLink u' i = (links c).getLink s' i := by
  obtain ⟨t1, k1, m1⟩ := Verif.Unit.Props.C120_united_store_is_a_map_to_tidy_clients hU h1 l1 (.inl rfl) hP hT e1
  obtain ⟨t2, k2, m2⟩ := C120_split_store_is_a_map_to_tidy_clients hc hgrow h2 l2 (.inr rfl) hP hT e2
  obtain ⟨r1, r2, -⟩ := m1.unique hP m2
  exact ⟨r1, fun i => by rw [Verif.Unit.Props.C120_united_links hU k1, C120_split_links hc hgrow k2, r2]⟩

/-- **C120**. The same for two united stores. -/
theorem C120_united_or_united {c1 c2 : Verif.Unit.Cfg} (hc1 : Verif.Unit.CfgOK₀ c1) (hc2 : Verif.Unit.CfgOK₀ c2)
    {s t s' t' : Verif.Unit.Store} {tr} (h1 : Verif.Unit.HistoryU c1 s tr) (h2 : Verif.Unit.HistoryU c2 t tr) {limit : Nat}
    (l1 : limit ≤ c1.consts.internalEnd) (l2 : limit ≤ c2.consts.internalEnd) {α : Type} {P : Routine α} {a b : α}
    (hP : P.Careful limit (fun x => x = c1.consts.any ∨ x = c2.consts.any) (replay tr) (slots tr))
    (hT : P.Tidy limit (replay tr) (slots tr))
    (e1 : P.run (Verif.Unit.links c1) c1.consts.any s = some (.ok a, s'))
    (e2 : P.run (Verif.Unit.links c2) c2.consts.any t = some (.ok b, t')) :
    a = b ∧ ∀ i, (Verif.Unit.links c1).getLink s' i = (Verif.Unit.links c2).getLink t' i := by
  obtain ⟨t1, k1, m1⟩ := Verif.Unit.Props.C120_united_store_is_a_map_to_tidy_clients hc1 h1 l1 (.inl rfl) hP hT e1
  obtain ⟨t2, k2, m2⟩ := Verif.Unit.Props.C120_united_store_is_a_map_to_tidy_clients hc2 h2 l2 (.inr rfl) hP hT e2
  obtain ⟨r1, r2, -⟩ := m1.unique hP m2
  exact ⟨r1, fun i => by rw [Verif.Unit.Props.C120_united_links hc1 k1, Verif.Unit.Props.C120_united_links hc2 k2, r2]⟩

/-- **C120**. The same for two split stores. -/
theorem C120_split_or_split {c1 c2 : Cfg} (hc1 : CfgOK₀ c1) (hc2 : CfgOK₀ c2) (g1 : GrowsAlike c1) (g2 : GrowsAlike c2)
    {s t s' t' : Store} {tr} (h1 : HistoryU c1 s tr) (h2 : HistoryU c2 t tr) {limit : Nat}
    (l1 : limit ≤ c1.consts.internalEnd) (l2 : limit ≤ c2.consts.internalEnd) {α : Type} {P : Routine α} {a b : α}
    (hP : P.Careful limit (fun x => x = c1.consts.any ∨ x = c2.consts.any) (replay tr) (slots tr))
    (hT : P.Tidy limit (replay tr) (slots tr))
    (e1 : P.run (links c1) c1.consts.any s = some (.ok a, s')) (e2 : P.run (links c2) c2.consts.any t = some (.ok b, t')) :
    a = b ∧ ∀ i, (links c1).getLink s' i = (links c2).getLink t' i := by
  obtain ⟨t1, k1, m1⟩ := C120_split_store_is_a_map_to_tidy_clients hc1 g1 h1 l1 (.inl rfl) hP hT e1
  obtain ⟨t2, k2, m2⟩ := C120_split_store_is_a_map_to_tidy_clients hc2 g2 h2 l2 (.inr rfl) hP hT e2
  obtain ⟨r1, r2, -⟩ := m1.unique hP m2
  exact ⟨r1, fun i => by rw [C120_split_links hc1 g1 k1, C120_split_links hc2 g2 k2, r2]⟩

theorem linkUp_tidy : linkUp.Tidy 10 (replay []) (slots []) := by
  refine ⟨trivial, trivial, fun _ => ?_, fun r _ L _ L' _ A _ => trivial⟩
  intro i p hi h0 j hj
  have key : ∀ i, (((replay []).set 1 (0, 0)).set 2 (0, 0)).set 1 (1, 2) i = some p → i = 1 := by
    intro i hi
    unfold View.set at hi
    split at hi
    · assumption
    · split at hi
      · cases hi; exact absurd rfl h0
      · cases hi
  rw [key i hi, key j hj]

/-- The theorems on fresh stores over the published size-balanced trees, which keep the weaker contract only. -/
example : linkUp.Careful 10 (fun x => x = Verif.Unit.Props.cfgSFew.consts.any ∨ x = cfgSFew.consts.any) (replay []) (slots []) ∧
    linkUp.Tidy 10 (replay []) (slots []) ∧ Verif.Unit.HistoryU Verif.Unit.Props.cfgSFew (Verif.Unit.store0 Verif.Unit.Props.cfgSFew) [] ∧
    HistoryU cfgSFew (store0 cfgSFew) [] ∧ GrowsAlike cfgSFew ∧
    ((linkUp.run (Verif.Unit.links Verif.Unit.Props.cfgSFew) Verif.Unit.Props.cfgSFew.consts.any
      (Verif.Unit.store0 Verif.Unit.Props.cfgSFew)).map fun r => r.1.toOption) =
        some (some (some 1, 2, some ⟨2, 0, 0⟩, [⟨1, 1, 2⟩, ⟨2, 0, 0⟩])) ∧
    ((linkUp.run (links cfgSFew) cfgSFew.consts.any (store0 cfgSFew)).map fun r => r.1.toOption) =
        some (some (some 1, 2, some ⟨2, 0, 0⟩, [⟨1, 1, 2⟩, ⟨2, 0, 0⟩])) :=
  ⟨linkUp_careful (by decide) (by decide), linkUp_tidy,
    .fresh (c := Verif.Unit.Props.cfgSFew) Verif.Unit.Props.cfgSFew.alloc Verif.Unit.Props.cfgSFew_ok.alloc_ge rfl,
    .fresh (c := cfgSFew) cfgSFew.dalloc cfgSFew.ialloc cfgSFew_ok.dalloc_eq cfgSFew_ok.ialloc_eq rfl, fun _ h => h,
    by decide +kernel, by decide +kernel⟩

/-- The same for a client that is restarted after its first half. -/
example : makeTwice.Careful 10 (fun x => x = Verif.Unit.Props.cfgSFew.consts.any ∨ x = cfgSFew.consts.any) (replay []) (slots []) ∧
    makeTwice.Tidy 10 (replay []) (slots []) ∧
    (∃ u', makeTwice.Goes (Verif.Unit.links Verif.Unit.Props.cfgSFew) Verif.Unit.Props.cfgSFew.consts.any
      (Verif.Unit.Restarts Verif.Unit.Props.cfgSFew) (Verif.Unit.store0 Verif.Unit.Props.cfgSFew) [⟨1, 0, 0⟩, ⟨2, 0, 0⟩] u') ∧
    ∃ s', makeTwice.Goes (links cfgSFew) cfgSFew.consts.any (Restarts cfgSFew) (store0 cfgSFew) [⟨1, 0, 0⟩, ⟨2, 0, 0⟩] s' := by
  refine ⟨?_, ⟨trivial, fun _ _ => ⟨trivial, fun _ _ => trivial⟩⟩, ?_, ?_⟩
  · simp [makeTwice, makeAndList, Routine.bind, Routine.Careful, Call.result, slots, Slots.apply, Call.SplitOK, replay]
    refine ⟨fun j a b h => (by cases h), fun _ _ j a b h => ?_⟩
    simp only [Call.apply, View.set] at h
    split at h
    · cases h; simp
    · cases h
  · have key : ((makeAndList.run (Verif.Unit.links Verif.Unit.Props.cfgSFew) Verif.Unit.Props.cfgSFew.consts.any (Verif.Unit.store0 Verif.Unit.Props.cfgSFew)).bind fun r =>
        r.1.toOption.bind fun _ => (Verif.Unit.init (Verif.Unit.Props.cfgSFew.withAlloc Verif.Unit.Props.cfgSFew.alloc) r.2).bind fun o =>
        o.toOption.bind fun s => if r.2.hdr.allocated < s.len then
          (makeAndList.run (Verif.Unit.links Verif.Unit.Props.cfgSFew) Verif.Unit.Props.cfgSFew.consts.any s).bind fun r' => r'.1.toOption else none) =
        some [⟨1, 0, 0⟩, ⟨2, 0, 0⟩] := by decide +kernel
    simp only [Option.bind_eq_some_iff, Except.toOption, Prod.exists] at key
    obtain ⟨r, s1, h1, L, h2, o, h3, s2, h4, h5⟩ := key
    split at h5
    · next hlt =>
      simp only [Option.bind_eq_some_iff, Prod.exists] at h5
      obtain ⟨r', s3, h6, h7⟩ := h5
      cases r with
      | error e => cases h2
      | ok L' =>
        cases o with
        | error e => cases h4
        | ok s2' =>
          cases r' with
          | error e => cases h7
          | ok L2 =>
            cases h2; cases h4; cases h7
            exact ⟨s3, (Routine.Goes.of_run h1).bind (.restart ⟨Verif.Unit.Props.cfgSFew.alloc, s1.len, Verif.Unit.Props.cfgSFew_ok.alloc_ge, h3, hlt⟩ (.of_run h6))⟩
    · cases h5
  · have key : ((makeAndList.run (links cfgSFew) cfgSFew.consts.any (store0 cfgSFew)).bind fun r =>
        r.1.toOption.bind fun _ => (init (cfgSFew.withAllocs cfgSFew.dalloc cfgSFew.ialloc) r.2).bind fun o =>
        o.toOption.bind fun s => if r.2.hdr.allocated < s.ilen then
          (makeAndList.run (links cfgSFew) cfgSFew.consts.any s).bind fun r' => r'.1.toOption else none) =
        some [⟨1, 0, 0⟩, ⟨2, 0, 0⟩] := by decide +kernel
    simp only [Option.bind_eq_some_iff, Except.toOption, Prod.exists] at key
    obtain ⟨r, s1, h1, L, h2, o, h3, s2, h4, h5⟩ := key
    split at h5
    · next hlt =>
      simp only [Option.bind_eq_some_iff, Prod.exists] at h5
      obtain ⟨r', s3, h6, h7⟩ := h5
      cases r with
      | error e => cases h2
      | ok L' =>
        cases o with
        | error e => cases h4
        | ok s2' =>
          cases r' with
          | error e => cases h7
          | ok L2 =>
            cases h2; cases h4; cases h7
            exact ⟨s3, (Routine.Goes.of_run h1).bind (.restart ⟨cfgSFew.dalloc, cfgSFew.ialloc, s1.dlen, s1.ilen, few_exact,
              few_exact, h3, hlt⟩ (.of_run h6))⟩
    · cases h5

end Verif.Split.Props
