import Verif.Props.Routine
import Verif.Props.Session

/-!
# C117: a careful client does the same through the C interface
-/

namespace Verif.Ffi
open Verif

variable {S α : Type}

/-- `Each` (`Ffi.each`) with a callback that keeps the links it is shown and answers `continue`. -/
def gather (D : Links S) (k : Consts) (s : S) (q : List Nat) : Option (List Link) :=
  (Ffi.each D s (some q) q.length (fun L l => (k.cont, L ++ [l])) []).map (·.2)

/-- `Delete` (`Ffi.delete`) with a callback that notes that it was called and answers `continue`. -/
def drop (D : Links S) (k : Consts) (s : S) (i : Nat) : Option (Bool × S) :=
  (Ffi.delete D s (some [i]) 1 (fun _ _ _ => (k.cont, true)) false).map fun r => (r.2.2, r.2.1)

/-- A client of the C interface that follows a routine. All it has are the constants, the codes that calls return and what its
callbacks are given: it takes the code `error` of an update for a missing link and that of a creation for a lack of memory, and
a deletion whose callback was not called for one of a missing link. It finds a link among those a query for its index shows, and
a pair as the first link that a query for it shows. -/
def follow (D : Links S) (k : Consts) : Routine α → S → Option (Except Err α × S)
  | .done a, s => some (.ok a, s)
  | .write .create next, s => (Ffi.smartCreate D s).bind fun r =>
    if r.1 = k.error then some (.error .allocFailed, r.2) else follow D k (next (.ok r.1)) r.2
  | .write (.update i x y) next, s => (Ffi.smartUpdate D s i x y).bind fun r =>
    follow D k (next (if r.1 = k.error then .error (.notExists i) else .ok r.1)) r.2
  | .write (.delete i) next, s => (drop D k s i).bind fun r =>
    follow D k (next (if r.1 then .ok 0 else .error (.notExists i))) r.2
  | .get i next, s => (gather D k s [i]).bind fun L => follow D k (next (L.find? (·.index == i))) s
  | .count p next, s => (Ffi.count D s (some (askWith k.any p)) (askWith k.any p).length).bind fun n => follow D k (next n) s
  | .gather p next, s => (gather D k s (askWith k.any p)).bind fun L => follow D k (next L) s
  | .search x y next, s => (gather D k s [k.any, x, y]).bind fun L => follow D k (next (L.head?.map (·.index))) s
  | .list next, s => (gather D k s []).bind fun L => follow D k (next L) s

end Verif.Ffi

namespace Verif.Ffi.Props
open Verif Verif.Ffi
open Verif.Unit (Cfg CfgOK Reach Store links cfg0 cfg0_ok History)

variable {c : Cfg}

theorem raw_all (q : List Nat) : queryFromRaw (some q) q.length = some q := by simp [queryFromRaw]

theorem gather_eq (s : Store) (q : List Nat) : gather (links c) c.consts s q = (links c).collect s q := by
  have e : (links c).consts s = c.consts := rfl
  simp only [gather, Ffi.each, raw_all, Option.bind_some, Links.collect, e, if_true, Option.map_map]
  rfl

theorem history_reach (hc : CfgOK c) {s : Store} {tr} (h : History c s tr) : Reach c s := by
  induction h with
  | fresh a ha h => exact .fresh a ha h
  | call a k h ha ht ho ih =>
    refine Unit.step_reach ih ?_ ha ho
    rw [(Unit.history_inv hc h).1.view]; exact ht
  | reopen a n h ha hin hlt ih => exact .reopen a n ih ha hin hlt

theorem get_found (hc : CfgOK c) {s : Store} (h : Reach c s) (i : Nat) :
    ∃ L, (links c).Visits s [i] L ∧
      L.find? (·.index == i) = ((links c).view s i).map fun p => (⟨i, p.1, p.2⟩ : Link) := by
  obtain ⟨L, h1, ⟨h2, h3⟩, -⟩ := shows_of_reach hc h [i] (by simp)
  refine ⟨L, h1, ?_⟩
  cases hf : L.find? (·.index == i) with
  | some l =>
    have hi : l.index = i := by simpa using List.find?_some hf
    have hl := (h2 l (List.mem_of_find?_eq_some hf)).1
    obtain ⟨j, a, b⟩ := l
    simp only at hi
    subst hi
    have hl : (links c).view s j = some (a, b) := hl
    rw [hl]; rfl
  | none =>
    cases hv : (links c).view s i with
    | none => rfl
    | some p =>
      exfalso
      have hn : NullFree c.consts.any [i] := by intro _ x hx; simp at hx
      have hm : ¬ IsPair c.consts.any [i] := by rintro ⟨a, b, e, -⟩; cases e
      have := (h3 hn ⟨i, p.1, p.2⟩ hv (.inr rfl)).2.2.1 hm (fun x e => by cases e)
      have hmem : (⟨i, p.1, p.2⟩ : Link) ∈ L := List.count_pos_iff.1 (by omega)
      have := List.find?_eq_none.1 hf _ hmem
      simp at this

theorem live_le (hc : CfgOK c) {s : Store} (h : Reach c s) {i : Nat} (hi : (links c).view s i ≠ none) : i ≤ c.consts.internalEnd := by
  obtain ⟨free, ts, tt, hi'⟩ := Unit.reach_good hc h
  rw [Unit.view_eq hc hi'.toInv0] at hi
  by_cases hl : Unit.LiveIn s free i
  · have := hl.2.1
    have := hi'.base.alloc_le
    omega
  · rw [if_neg hl] at hi; exact absurd rfl hi

/-- A write through the C interface, if it returns. -/
theorem follow_write (hc : CfgOK c) (herr : c.consts.internalEnd < c.consts.error) {s : Store} {tr} (h : History c s tr)
    {α : Type} {limit : Nat} (hl : limit ≤ c.consts.internalEnd) {k : Call}
    (h1 : k.SplitOK (replay tr) (k.result limit (replay tr) (slots tr)))
    (h2 : ∀ m, k.result limit (replay tr) (slots tr) ≠ .error (.limitReached m)) (next : Except Err Nat → Routine α) :
    follow (links c) c.consts (.write k next) s = ((links c).write s k).bind fun o =>
      match o.res with
      | .error .allocFailed => some (.error .allocFailed, o.st)
      | r => follow (links c) c.consts (next r) o.st := by
  have hr := history_reach hc h
  have hw := result_widen hl h2
  have hv := (Unit.history_inv hc h).1.view
  cases k with
  | create =>
    have hs := fun {o} => (Unit.Props.serves hc).write (o := o) h (by rw [hw]; exact h1)
    have ek : (links c).write s .create = (links c).create s := rfl
    simp only [ek] at hs
    simp only [follow, Ffi.smartCreate, Links.write]
    rcases create_of_reach hc hr with ⟨i, s', -, -, hi, -, -, hS⟩ | ⟨e, hF⟩ | ⟨-, hN⟩
    · rw [Links.create_ok (hS [])]
      simp only [Option.map_some, Option.bind_some, resultIntoLog]
      rw [if_neg (by omega)]
    · rw [Links.create_err (hF [])] at hs ⊢
      have e1 : e = .allocFailed := by
        rcases hs rfl with e' | ⟨e', -⟩
        · cases e'; rfl
        · rw [hw] at e'
          simp only [Call.result] at e' h2
          split at e'
          · cases e'
          · split at e'
            · cases e'
            · next hx hy => exact absurd (by simp [hx, hy]) (h2 limit)
      subst e1
      simp only [Option.map_some, Option.bind_some, resultIntoLog]
      exact if_pos rfl
    · rw [Unit.create_none (hN [])]; rfl
  | update i x y =>
    simp only [follow, Ffi.smartUpdate, Links.write]
    rcases update_of_reach hc hr i i x y (hv ▸ h1.1) with ⟨-, hF⟩ | ⟨hi, s', -, -, hS⟩
    · rw [Links.update_err (hF [] [])]
      simp only [Option.map_some, Option.bind_some, resultIntoLog]
      rw [if_pos (show ((links c).consts s).error = c.consts.error from rfl)]
    · rw [Links.update_ok (hS [] [])]
      simp only [Option.map_some, Option.bind_some, resultIntoLog]
      have := live_le hc hr hi
      rw [if_neg (by omega)]
  | delete i =>
    simp only [follow, drop, Ffi.delete, Links.write]
    rcases delete_of_reach hc hr i (hv ▸ h1.1) with ⟨-, hF⟩ | ⟨p, s', -, -, -, hS⟩
    · rw [Links.delete_err (hF [])]
      simp [queryFromRaw, Links.deleteByWith_err (hF [])]
    · rw [Links.delete_ok (hS [])]
      simp [queryFromRaw, Links.deleteByWith_ok (hS []), deleteHandler, Link.nothing]

/-- **C117** On a united store that has served any calls, a careful client that follows a routine through the C interface gets the
same as a client that follows it through the Rust interface, and leaves the same store behind. -/
theorem C117_the_c_interface_is_as_good (hc : CfgOK c) (herr : c.consts.internalEnd < c.consts.error) {limit : Nat}
    (hl : limit ≤ c.consts.internalEnd) {reserved : Nat → Prop} (hr : reserved c.consts.any) {α : Type} (P : Routine α) :
    ∀ {s : Store} {tr}, History c s tr → P.Careful limit reserved (replay tr) (slots tr) →
      follow (links c) c.consts P s = P.run (links c) c.consts.any s := by
  have W := Unit.Props.serves hc
  induction P with
  | done a => intro s tr h hP; rfl
  | write k next ih =>
    intro s tr h hP
    obtain ⟨c1, c2, c3⟩ := hP
    rw [follow_write hc herr h hl c1 c2, Routine.run]
    cases ho : (links c).write s k with
    | none => rfl
    | some o =>
      simp only [Option.bind_some]
      have hw := result_widen hl c2
      rcases W.write h (by rw [hw]; exact c1) ho with e | ⟨e, h'⟩
      · rw [e]
      · rw [hw] at e
        rw [e] at h'
        have key := ih _ h' (by rw [Unit.replay_snoc, Unit.slots_snoc]; exact c3)
        rw [e]
        clear e h' c1 c2 c3 hw
        generalize k.result limit (replay tr) (slots tr) = r at key ⊢
        rcases r with (_ | _) | _ <;> first | rfl | exact key
  | get i next ih =>
    intro s tr h hP
    obtain ⟨L, g1, g2⟩ := get_found hc (history_reach hc h) i
    simp only [follow, Routine.run, gather_eq, Links.collect_eq g1, W.get h, Option.bind_some]
    rw [g2, (Unit.history_inv hc h).1.view]
    exact ih _ h hP
  | count p next ih =>
    intro s tr h hP
    obtain ⟨c1, c2, c3, c4⟩ := hP
    simp only [follow, Routine.run, Ffi.count, raw_all, Option.bind_some]
    cases hn : (links c).countBy s (askWith c.consts.any p) with
    | none => rfl
    | some n =>
      obtain ⟨L, hL, rfl⟩ := W.count h c1 c2 (fun x hx e => c3 x hx (e ▸ hr)) hn
      exact ih _ h (c4 L hL)
  | gather p next ih =>
    intro s tr h hP
    obtain ⟨c1, c2, c3, c4⟩ := hP
    obtain ⟨L, hv, hL⟩ := W.visits h c1 (fun x hx e => c2 x hx (e ▸ hr))
    simp only [follow, Routine.run, gather_eq, Links.collect_eq hv, Option.bind_some]
    exact ih _ h (c4 L hL)
  | search x y next ih =>
    intro s tr h hP
    obtain ⟨c1, c2, c3, c4, c5, c6⟩ := hP
    obtain ⟨r, hv, hL⟩ := W.search h c5 c1 c2 (fun e => c3 (e ▸ hr)) (fun e => c4 (e ▸ hr))
    obtain ⟨L, g1, -⟩ := shows_of_reach hc (history_reach hc h) [c.consts.any, x, y] (by simp)
    have e : (links c).search s x y = some (L.head?.map (·.index)) := by
      simp only [Links.search, Links.find]
      rw [show (links c).consts s = c.consts from rfl, Links.eachBy_eq g1]
      cases L <;> rfl
    rw [e] at hv
    cases hv
    simp only [follow, Routine.run, gather_eq, Links.collect_eq g1, e, Option.bind_some]
    exact ih _ h (c6 _ hL)
  | list next ih =>
    intro s tr h hP
    obtain ⟨L, hv, hL⟩ := W.list h
    simp only [follow, Routine.run, gather_eq, Links.collect_eq hv, Option.bind_some]
    exact ih _ h (hP L hL)

/-- **C117** What a careful client computes through the C interface is what it computes on a map. -/
theorem C117_a_map_to_c_clients (hc : CfgOK c) (herr : c.consts.internalEnd < c.consts.error) {s s' : Store} {tr}
    (h : History c s tr) {limit : Nat} (hl : limit ≤ c.consts.internalEnd) {reserved : Nat → Prop} (hr : reserved c.consts.any)
    {α : Type} {P : Routine α} {a : α} (hP : P.Careful limit reserved (replay tr) (slots tr))
    (he : follow (links c) c.consts P s = some (.ok a, s')) :
    ∃ tr', History c s' tr' ∧ P.Means limit (replay tr) (slots tr) a (replay tr') (slots tr') := by
  rw [C117_the_c_interface_is_as_good hc herr hl hr P h hP] at he
  exact Unit.Props.C116_united_store_is_a_map_to_clients hc h hl hr hP he

/-- **C117** A careful client of the C interface to a united store and a careful client of a split store in Rust that follow the
same routine after the same calls compute the same and leave the same links behind. -/
theorem C117_c_or_split (hc : CfgOK c) (herr : c.consts.internalEnd < c.consts.error) {cS : Split.Cfg} (hS : Split.CfgOK cS)
    (hgrow : Split.Props.GrowsAlike cS) {u u' : Store} {s s' : Split.Store} {tr} (h1 : History c u tr) (h2 : Split.History cS s tr)
    {limit : Nat} (l1 : limit ≤ c.consts.internalEnd) (l2 : limit ≤ cS.consts.internalEnd) {α : Type} {P : Routine α} {a b : α}
    (hP : P.Careful limit (fun x => x = c.consts.any ∨ x = cS.consts.any) (replay tr) (slots tr))
    (e1 : follow (links c) c.consts P u = some (.ok a, u'))
    (e2 : P.run (Split.links cS) cS.consts.any s = some (.ok b, s')) :
    a = b ∧ ∀ i, (links c).getLink u' i = (Split.links cS).getLink s' i := by
  rw [C117_the_c_interface_is_as_good hc herr l1 (.inl rfl) P h1 hP] at e1
  exact Split.Props.C116_united_or_split hc hS hgrow h1 h2 l1 l2 hP e1 e2

/-- The theorems on fresh stores. -/
example : (follow (links Split.Props.cfgFewU) Split.Props.cfgFewU.consts Split.Props.linkUp (Unit.store0 Split.Props.cfgFewU)).map
      (fun r => r.1.toOption) = some (some (some 1, 2, some ⟨2, 0, 0⟩, [⟨1, 1, 2⟩, ⟨2, 0, 0⟩])) ∧
    History Split.Props.cfgFewU (Unit.store0 Split.Props.cfgFewU) [] ∧ CfgOK Split.Props.cfgFewU ∧
    Split.Props.cfgFewU.consts.internalEnd < Split.Props.cfgFewU.consts.error ∧
    Split.Props.linkUp.Careful 10 (fun x => x = Split.Props.cfgFewU.consts.any ∨ x = Split.Props.cfgFew.consts.any) (replay []) (slots []) :=
  ⟨by decide +kernel, .fresh _ Split.Props.cfgFewU_ok.alloc_ge rfl, Split.Props.cfgFewU_ok, by decide,
    Split.Props.linkUp_careful (by decide) (by decide)⟩

end Verif.Ffi.Props
