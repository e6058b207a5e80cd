import Verif.Migrate
import Verif.Props.Grounded
import Verif.Props.Intern

/-!
# C124: a careful client moves its links into a store of another kind
-/

namespace Verif.Props
open Verif

section

theorem length_collect {S : Type} {D : Links S} (W : Lawful D) {s : S} (hs : W.Inv s) {L : List Link} (hL : D.collect s [] = some L)
    {n : Nat} (hn : D.count s = some n) : L.length = n := by
  obtain ⟨L', l1, -⟩ := W.each_all s hs
  cases hL.symm.trans (Links.collect_eq l1)
  exact Option.some.inj ((W.count_all s hs L l1).symm.trans hn)

variable {u u' : Unit.Cfg} {c c' : Split.Cfg}

theorem move_to_united (hu : Unit.CfgOK₀ u) (hfit : ∀ len n, u.alloc len (len + u.step) = some n → n ≤ u.maxT) {S : Type} {D : Links S}
    (W : Lawful D) {s : S} (hs : W.Inv s) (hv : (D.view s).Sound) (hg : (D.view s).Grounded) {t : Unit.Store} (ht : Unit.ReachU u t)
    (h0 : (Unit.links u).count t = some 0) :
    ∃ o, D.moveTo (Unit.links u) s t = some o ∧ Unit.ReachU u o.st ∧ Moved D (Unit.links u) s o ∧
      ∀ err n, o.res = .error err → D.count s = some n →
        err = .allocFailed ∨ err = .limitReached u.consts.internalEnd ∧ u.consts.internalEnd < n := by
  obtain ⟨o, h1, h2, h3⟩ := Links.move_law W (Unit.weakLawful hu) (Unit.Props.grows hu hfit) (Unit.Props.weak_numbers hu)
    (fun n => by show View.Uniq _; rw [View.set_set, points_succ]; exact points_uniq _) (fun _ _ h _ => h) hs hv hg ht h0
  refine ⟨o, h1, h2, h3, fun err n he hn => ?_⟩
  obtain ⟨k1, L, k, k2, k3, k4⟩ := h3.failed err he
  rw [length_collect W hs k2 hn] at k3
  exact (Unit.Props.weak_create_error hu h2 k4 k1).imp id fun g => ⟨g.1, by omega⟩

theorem move_to_split (hc : Split.CfgOK₀ c) (hgrow : ∀ n, c.dalloc n (n + c.step) ≠ none → c.ialloc n (n + c.step) ≠ none)
    (hfit : ∀ len, c.ialloc len (len + c.step) ≠ none → len + c.step ≤ c.maxT) {S : Type} {D : Links S}
    (W : Lawful D) {s : S} (hs : W.Inv s) (hv : (D.view s).Sound) (hg : (D.view s).Grounded) {t : Split.Store} (ht : Split.ReachU c t)
    (h0 : (Split.links c).count t = some 0) :
    ∃ o, D.moveTo (Split.links c) s t = some o ∧ Split.ReachU c o.st ∧ Moved D (Split.links c) s o ∧
      ∀ err n, o.res = .error err → D.count s = some n →
        err = .allocFailed ∨ err = .limitReached c.consts.internalEnd ∧ c.consts.internalEnd < n := by
  obtain ⟨o, h1, h2, h3⟩ := Links.move_law W (Split.weakLawful hc) (Split.Props.grows hc hgrow hfit) (Split.Props.weak_numbers hc)
    (fun n => ⟨by rw [View.set_set, points_succ]; exact points_uniq _, fun h => h, fun _ p hp => by
      rw [View.set_same] at hp; cases hp; rfl⟩) (fun k t h hv => ⟨h, hv ▸ Split.Props.points_sound k⟩) hs hv hg ht h0
  refine ⟨o, h1, h2.1, h3, fun err n he hn => ?_⟩
  obtain ⟨k1, L, k, k2, k3, k4⟩ := h3.failed err he
  rw [length_collect W hs k2 hn] at k3
  exact (Split.Props.weak_create_error hc h2.1 k4 k1).imp id fun g => ⟨g.1, by omega⟩

/-- **C124**, from a united to a split store. A careful client (C51) has links in a united store, and there is an empty split store, new or
emptied, whose memories grow together and within the index type. Moving returns. If no call failed, the contents are the same up to the
numbers of the links, which are numbered from 1 without gaps, and the result tells the new number of each link. It fails only if
memory cannot be had, or there are more links than the other store has indices. -/
theorem C124_united_to_split (ha : Unit.CfgOK₀ u) (hb : Split.CfgOK₀ c)
    (hgrow : ∀ n, c.dalloc n (n + c.step) ≠ none → c.ialloc n (n + c.step) ≠ none)
    (hfit : ∀ len, c.ialloc len (len + c.step) ≠ none → len + c.step ≤ c.maxT)
    {s : Unit.Store} (hs : Unit.Props.Client u s) {t : Split.Store} (ht : Split.ReachU c t) (h0 : (Split.links c).count t = some 0) :
    ∃ o, (Unit.links u).moveTo (Split.links c) s t = some o ∧ Split.ReachU c o.st ∧
      Moved (Unit.links u) (Split.links c) s o ∧
      ∀ err n, o.res = .error err → (Unit.links u).count s = some n →
        err = .allocFailed ∨ err = .limitReached c.consts.internalEnd ∧ c.consts.internalEnd < n := by
  obtain ⟨h1, h2, h3⟩ := Unit.Props.grounded_client ha hs
  exact move_to_split hb hgrow hfit (Unit.weakLawful ha) h1 h2 h3 ht h0

/-- **C124**, from a split to a united store. -/
theorem C124_split_to_united (ha : Split.CfgOK₀ c) (hb : Unit.CfgOK₀ u)
    (hfit : ∀ len n, u.alloc len (len + u.step) = some n → n ≤ u.maxT)
    {s : Split.Store} (hs : Split.Props.Client c s) {t : Unit.Store} (ht : Unit.ReachU u t) (h0 : (Unit.links u).count t = some 0) :
    ∃ o, (Split.links c).moveTo (Unit.links u) s t = some o ∧ Unit.ReachU u o.st ∧
      Moved (Split.links c) (Unit.links u) s o ∧
      ∀ err n, o.res = .error err → (Split.links c).count s = some n →
        err = .allocFailed ∨ err = .limitReached u.consts.internalEnd ∧ u.consts.internalEnd < n := by
  obtain ⟨h1, h2, h3⟩ := Split.Props.grounded_client ha hs
  exact move_to_united hb hfit (Split.weakLawful ha) h1 h2 h3 ht h0

/-- **C124**, from a united to a united store, which may have another index type. -/
theorem C124_united_to_united (ha : Unit.CfgOK₀ u) (hb : Unit.CfgOK₀ u')
    (hfit : ∀ len n, u'.alloc len (len + u'.step) = some n → n ≤ u'.maxT)
    {s : Unit.Store} (hs : Unit.Props.Client u s) {t : Unit.Store} (ht : Unit.ReachU u' t) (h0 : (Unit.links u').count t = some 0) :
    ∃ o, (Unit.links u).moveTo (Unit.links u') s t = some o ∧ Unit.ReachU u' o.st ∧
      Moved (Unit.links u) (Unit.links u') s o ∧
      ∀ err n, o.res = .error err → (Unit.links u).count s = some n →
        err = .allocFailed ∨ err = .limitReached u'.consts.internalEnd ∧ u'.consts.internalEnd < n := by
  obtain ⟨h1, h2, h3⟩ := Unit.Props.grounded_client ha hs
  exact move_to_united hb hfit (Unit.weakLawful ha) h1 h2 h3 ht h0

/-- **C124**, from a split to a split store, which may have another index type. -/
theorem C124_split_to_split (ha : Split.CfgOK₀ c) (hb : Split.CfgOK₀ c')
    (hgrow : ∀ n, c'.dalloc n (n + c'.step) ≠ none → c'.ialloc n (n + c'.step) ≠ none)
    (hfit : ∀ len, c'.ialloc len (len + c'.step) ≠ none → len + c'.step ≤ c'.maxT)
    {s : Split.Store} (hs : Split.Props.Client c s) {t : Split.Store} (ht : Split.ReachU c' t) (h0 : (Split.links c').count t = some 0) :
    ∃ o, (Split.links c).moveTo (Split.links c') s t = some o ∧ Split.ReachU c' o.st ∧
      Moved (Split.links c) (Split.links c') s o ∧
      ∀ err n, o.res = .error err → (Split.links c).count s = some n →
        err = .allocFailed ∨ err = .limitReached c'.consts.internalEnd ∧ c'.consts.internalEnd < n := by
  obtain ⟨h1, h2, h3⟩ := Split.Props.grounded_client ha hs
  exact move_to_split hb hgrow hfit (Split.weakLawful ha) h1 h2 h3 ht h0

/-- **C124**, there and back: from a united store to a split store and from there to another united store. If both moves succeed, the
links are those of the first store up to numbers, and are numbered without gaps. Moving this way is how to get rid of gaps. -/
theorem C124_there_and_back (ha : Unit.CfgOK₀ u) (hb : Split.CfgOK₀ c) (hb' : Unit.CfgOK₀ u')
    (hgrow : ∀ n, c.dalloc n (n + c.step) ≠ none → c.ialloc n (n + c.step) ≠ none)
    (hfit : ∀ len, c.ialloc len (len + c.step) ≠ none → len + c.step ≤ c.maxT)
    (hfit' : ∀ len n, u'.alloc len (len + u'.step) = some n → n ≤ u'.maxT)
    {s : Unit.Store} (hs : Unit.Props.Client u s) {t : Split.Store} (ht : Split.ReachU c t) (h0 : (Split.links c).count t = some 0)
    {t' : Unit.Store} (ht' : Unit.ReachU u' t') (h0' : (Unit.links u').count t' = some 0)
    {o : Out Split.Store PUnit (List Nat)} (ho : (Unit.links u).moveTo (Split.links c) s t = some o) {rs : List Nat} (hrs : o.res = .ok rs) :
    ∃ o', (Split.links c).moveTo (Unit.links u') o.st t' = some o' ∧ ∀ rs', o'.res = .ok rs' →
      ∃ L r f g, (Unit.links u).collect s [] = some L ∧ Renumbered r ((Unit.links u).view s) ((Unit.links u').view o'.st) f g ∧
        ∀ k, (Unit.links u').view o'.st k ≠ none ↔ 1 ≤ k ∧ k ≤ L.length := by
  obtain ⟨h1, h2, h3⟩ := Unit.Props.grounded_client ha hs
  obtain ⟨o1, g1, g2, g3, -⟩ := move_to_split hb hgrow hfit (Unit.weakLawful ha) h1 h2 h3 ht h0
  cases ho.symm.trans g1
  obtain ⟨L, r, f, g, k1, -, R, k2⟩ := g3.done rs hrs
  obtain ⟨o', m1, -, m3, -⟩ := move_to_united hb' hfit' (Split.weakLawful hb) g2 (R.sound h2) (R.grounded h3) ht' h0'
  refine ⟨o', m1, fun rs' hrs' => ?_⟩
  obtain ⟨L', r', f', g', n1, -, R', n2⟩ := m3.done rs' hrs'
  have hup : ((Split.links c).view o.st).Upto L.length := k2
  have hup' : ((Unit.links u').view o'.st).Upto L'.length := n2
  have : L.length = L'.length := (R'.size hup.size).unique hup'.size
  exact ⟨L, _, _, _, k1, R.trans R', this ▸ n2⟩

end

/-- Links 2 to 5 of a united store, of which 2 and 3 are points, become links 1 to 4 of a new split store. -/
example : Unit.CfgOK₀ Unit.Props.cfgS ∧ Split.CfgOK₀ Split.Props.cfgSFew ∧
    (∀ n, Split.Props.cfgSFew.dalloc n (n + Split.Props.cfgSFew.step) ≠ none →
      Split.Props.cfgSFew.ialloc n (n + Split.Props.cfgSFew.step) ≠ none) ∧
    (∀ len, Split.Props.cfgSFew.ialloc len (len + Split.Props.cfgSFew.step) ≠ none →
      len + Split.Props.cfgSFew.step ≤ Split.Props.cfgSFew.maxT) ∧
    Unit.Props.Client Unit.Props.cfgS Unit.Props.sActsB ∧
    Split.ReachU Split.Props.cfgSFew (Split.store0 Split.Props.cfgSFew) ∧
    (Split.links Split.Props.cfgSFew).count (Split.store0 Split.Props.cfgSFew) = some 0 ∧
    (List.range 7).map ((Unit.links Unit.Props.cfgS).view Unit.Props.sActsB) =
      [none, none, some (2, 2), some (3, 3), some (2, 3), some (4, 2), none] ∧
    ((Unit.links Unit.Props.cfgS).moveTo (Split.links Split.Props.cfgSFew) Unit.Props.sActsB (Split.store0 Split.Props.cfgSFew)).map
      (fun o => (o.res.toOption, (List.range 6).map ((Split.links Split.Props.cfgSFew).view o.st))) =
      some (some [1, 2, 3, 4], [none, some (1, 1), some (2, 2), some (1, 2), some (3, 1), none]) :=
  ⟨Unit.Props.cfgS_ok, Split.Props.cfgSFew_ok, fun _ h => h, Split.Props.cfgSFew_fits, Unit.Props.sActsB_client,
    .fresh (c := Split.Props.cfgSFew) Split.Props.cfgSFew.dalloc Split.Props.cfgSFew.ialloc Split.Props.cfgSFew_ok.dalloc_eq
      Split.Props.cfgSFew_ok.ialloc_eq rfl, by decide +kernel, by decide +kernel, by decide +kernel⟩

example : Split.CfgOK₀ Split.Props.cfgS ∧ Unit.CfgOK₀ Unit.Props.cfgSFew ∧
    (∀ len n, Unit.Props.cfgSFew.alloc len (len + Unit.Props.cfgSFew.step) = some n → n ≤ Unit.Props.cfgSFew.maxT) ∧
    Split.Props.Client Split.Props.cfgS Split.Props.sActsB ∧ Unit.ReachU Unit.Props.cfgSFew (Unit.store0 Unit.Props.cfgSFew) ∧
    (Unit.links Unit.Props.cfgSFew).count (Unit.store0 Unit.Props.cfgSFew) = some 0 ∧
    ((Split.links Split.Props.cfgS).moveTo (Unit.links Unit.Props.cfgSFew) Split.Props.sActsB (Unit.store0 Unit.Props.cfgSFew)).map
      (fun o => (o.res.toOption, (List.range 6).map ((Unit.links Unit.Props.cfgSFew).view o.st))) =
      some (some [1, 2, 3, 4], [none, some (1, 1), some (2, 2), some (1, 2), some (3, 1), none]) :=
  ⟨Split.Props.cfgS_ok, Unit.Props.cfgSFew_ok, Unit.Props.cfgSFew_fits, Split.Props.sActsB_client,
    .fresh (c := Unit.Props.cfgSFew) Unit.Props.cfgSFew.alloc Unit.Props.cfgSFew_ok.alloc_ge rfl, by decide +kernel, by decide +kernel⟩

/-- There and back. -/
example : ((Unit.links Unit.Props.cfgS).moveTo (Split.links Split.Props.cfgSFew) Unit.Props.sActsB (Split.store0 Split.Props.cfgSFew)).bind
      (fun o => ((Split.links Split.Props.cfgSFew).moveTo (Unit.links Unit.Props.cfgSFew) o.st (Unit.store0 Unit.Props.cfgSFew)).map fun o' =>
        (o.res.toOption, o'.res.toOption, (List.range 6).map ((Unit.links Unit.Props.cfgSFew).view o'.st))) =
      some (some [1, 2, 3, 4], some [1, 2, 3, 4], [none, some (1, 1), some (2, 2), some (1, 2), some (3, 1), none]) := by
  decide +kernel

end Verif.Props
