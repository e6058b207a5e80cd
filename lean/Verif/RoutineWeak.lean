import Verif.Props.Routine
import Verif.Restart
import Verif.Props.WeakTrees

/-!
# Clients that make no duplicates

The tree crate is only asked to keep nodes apart that the comparisons keep apart (`CfgOK₀`). Histories without duplicates over such
a crate are histories over a crate that keeps the full contract, and clients that make no duplicates do the same over both.
-/

namespace Verif

/-- The call does not give a link the source and the target of another one. -/
def Call.NoDup (v : View) : Call → Prop
  | .update i a b => v i ≠ none → (v.set i (a, b)).Uniq
  | _ => True

/-- The client never makes two links with the same source and target. -/
def Routine.Tidy {α : Type} (limit : Nat) : Routine α → View → Slots → Prop
  | .done _, _, _ => True
  | .write k next, v, z => k.NoDup v ∧
      (next (k.result limit v z)).Tidy limit (k.apply v (k.result limit v z)) (z.apply k (k.result limit v z))
  | .get i next, v, z => (next ((v i).map fun p => ⟨i, p.1, p.2⟩)).Tidy limit v z
  | .count p next, v, z => ∀ L, Answer v p L → (next L.length).Tidy limit v z
  | .gather p next, v, z => ∀ L, Answer v p L → (next L).Tidy limit v z
  | .search x y next, v, z => ∀ r, Found v x y r → (next r).Tidy limit v z
  | .list next, v, z => ∀ L, Listing v L → (next L).Tidy limit v z

theorem uniq_del {v : View} (hu : v.Uniq) (i : Nat) : (v.del i).Uniq := by
  intro x p hx hp y hy
  unfold View.del at hx hy
  split at hx
  · cases hx
  · split at hy
    · cases hy
    · exact hu x p hx hp y hy

theorem uniq_apply {limit : Nat} {v : View} {z : Slots} {k : Call} (hu : v.Uniq) (hk : k.NoDup v) :
    (k.apply v (k.result limit v z)).Uniq := by
  cases k with
  | create =>
    simp only [Call.result]
    repeat' split
    all_goals first | exact Unit.uniq_set_null hu _ | exact hu
  | update i a b =>
    simp only [Call.result]
    split
    · exact hu
    · next h => exact hk h
  | delete i =>
    simp only [Call.result]
    split
    · exact hu
    · exact uniq_del hu i

theorem result_ne_alloc {limit : Nat} {v : View} {z : Slots} {k : Call} : k.result limit v z ≠ .error .allocFailed := by
  cases k <;> simp only [Call.result] <;> (repeat' split) <;> simp

theorem run_write {S α : Type} {D : Links S} {any : Nat} {k : Call} {next : Except Err Nat → Routine α} {s : S} {o : Out S Unit Nat}
    (ho : D.write s k = some o) (hne : o.res ≠ .error .allocFailed) :
    (Routine.write k next).run D any s = (next o.res).run D any o.st := by
  simp only [Routine.run, ho, Option.bind_some]

/-- A store `D` that does the same as a store `D'` as long as no duplicates are made. -/
structure Mimics {S : Type} (D D' : Links S) (H H' : S → List (Call × Except Err Nat) → Prop) : Prop where
  hist : ∀ {s tr}, H s tr → H' s tr ∧ (replay tr).Uniq
  write : ∀ {s tr k}, H s tr → k.NoDup (replay tr) → D.write s k = D'.write s k
  step : ∀ {s tr k o}, H s tr → k.NoDup (replay tr) → k.SplitOK (replay tr) o.res → D.write s k = some o →
    H o.st (tr ++ [(k, o.res)])
  each : ∀ {σ : Type} (s : S) (q : List Nat) (h : RH σ) (st : σ), D.eachLinks s q h st = D'.eachLinks s q h st
  get : ∀ s i, D.getLink s i = D'.getLink s i
  count : ∀ s q, D.countBy s q = D'.countBy s q
  any : ∀ s, D.consts s = D'.consts s

/-- A careful client that makes no duplicates does the same on both stores. -/
theorem Mimics.run {S α : Type} {D D' : Links S} {H H' : S → List (Call × Except Err Nat) → Prop} (M : Mimics D D' H H')
    {any limit' limit : Nat} (W : Serves D' any limit' H') (hl : limit ≤ limit') {reserved : Nat → Prop} (hr : reserved any)
    (P : Routine α) : ∀ {s : S} {tr}, H s tr → P.Careful limit reserved (replay tr) (slots tr) → P.Tidy limit (replay tr) (slots tr) →
      P.run D any s = P.run D' any s ∧ ∀ a s', P.run D any s = some (.ok a, s') →
        ∃ tr', H s' tr' ∧ P.Means limit (replay tr) (slots tr) a (replay tr') (slots tr') := by
  have hcol : ∀ s q, D.collect s q = D'.collect s q := fun s q => by simp only [Links.collect, Links.eachBy, M.each]
  have hse : ∀ s x y, D.search s x y = D'.search s x y := fun s x y => by
    simp only [Links.search, Links.find, Links.eachBy, M.each, M.any]
  induction P with
  | done b =>
    intro s tr h _ _
    exact ⟨rfl, fun a s' e => by cases e; exact ⟨tr, h, .done⟩⟩
  | write k next ih =>
    intro s tr h hc ht
    obtain ⟨c1, c2, c3⟩ := hc
    obtain ⟨t1, t2⟩ := ht
    have e := M.write h t1
    cases ho : D.write s k with
    | none => simp only [Routine.run, ← e, ho]; exact ⟨rfl, fun _ _ e => by cases e⟩
    | some o =>
      have hw := result_widen hl c2
      rcases W.write (M.hist h).1 (by rw [hw]; exact c1) (e.symm.trans ho) with er | ⟨er, -⟩
      · simp only [Routine.run, ← e, ho, Option.bind_some, er]; exact ⟨trivial, fun _ _ e => by cases e⟩
      · rw [hw] at er
        have hne : o.res ≠ .error .allocFailed := by rw [er]; exact result_ne_alloc
        have h' := M.step h t1 (by rw [er]; exact c1) ho
        rw [run_write ho hne, run_write (e.symm.trans ho) hne]
        rw [er] at h' ⊢
        have e1 : replay (tr ++ [(k, k.result limit (replay tr) (slots tr))]) = k.apply (replay tr) (k.result limit (replay tr) (slots tr)) :=
          Unit.replay_snoc _ _
        have e2 : slots (tr ++ [(k, k.result limit (replay tr) (slots tr))]) = (slots tr).apply k (k.result limit (replay tr) (slots tr)) :=
          Unit.slots_snoc _ _
        obtain ⟨g1, g2⟩ := ih _ h' (by rw [e1, e2]; exact c3) (by rw [e1, e2]; exact t2)
        refine ⟨g1, fun a s' he => ?_⟩
        obtain ⟨tr', k1, k2⟩ := g2 a s' he
        rw [e1, e2] at k2
        exact ⟨tr', k1, .write k2⟩
  | get i next ih =>
    intro s tr h hc ht
    simp only [Routine.run, M.get, W.get (M.hist h).1, Option.bind_some]
    obtain ⟨g1, g2⟩ := ih _ h hc ht
    exact ⟨g1, fun a s' he => by obtain ⟨tr', k1, k2⟩ := g2 a s' he; exact ⟨tr', k1, .get k2⟩⟩
  | count p next ih =>
    intro s tr h hc ht
    obtain ⟨c1, c2, c3, c4⟩ := hc
    simp only [Routine.run, M.count]
    cases hn : D'.countBy s (askWith any p) with
    | none => exact ⟨rfl, fun _ _ e => by cases e⟩
    | some n =>
      obtain ⟨L, hL, rfl⟩ := W.count (M.hist h).1 c1 c2 (fun x hx e => c3 x hx (e ▸ hr)) hn
      obtain ⟨g1, g2⟩ := ih _ h (c4 L hL) (ht L hL)
      exact ⟨g1, fun a s' he => by obtain ⟨tr', k1, k2⟩ := g2 a s' he; exact ⟨tr', k1, .count L hL k2⟩⟩
  | gather p next ih =>
    intro s tr h hc ht
    obtain ⟨c1, c2, c3, c4⟩ := hc
    obtain ⟨L, hv, hL⟩ := W.visits (M.hist h).1 c1 (fun x hx e => c2 x hx (e ▸ hr))
    simp only [Routine.run, hcol, Links.collect_eq hv, Option.bind_some]
    obtain ⟨g1, g2⟩ := ih _ h (c4 L hL) (ht L hL)
    exact ⟨g1, fun a s' he => by obtain ⟨tr', k1, k2⟩ := g2 a s' he; exact ⟨tr', k1, .gather L hL k2⟩⟩
  | search x y next ih =>
    intro s tr h hc ht
    obtain ⟨c1, c2, c3, c4, c5, c6⟩ := hc
    obtain ⟨r, hv, hL⟩ := W.search (M.hist h).1 c5 c1 c2 (fun e => c3 (e ▸ hr)) (fun e => c4 (e ▸ hr))
    simp only [Routine.run, hse, hv, Option.bind_some]
    obtain ⟨g1, g2⟩ := ih _ h (c6 r hL) (ht r hL)
    exact ⟨g1, fun a s' he => by obtain ⟨tr', k1, k2⟩ := g2 a s' he; exact ⟨tr', k1, .search r hL k2⟩⟩
  | list next ih =>
    intro s tr h hc ht
    obtain ⟨L, hv, hL⟩ := W.list (M.hist h).1
    simp only [Routine.run, hcol, Links.collect_eq hv, Option.bind_some]
    obtain ⟨g1, g2⟩ := ih _ h (hc L hL) (ht L hL)
    exact ⟨g1, fun a s' he => by obtain ⟨tr', k1, k2⟩ := g2 a s' he; exact ⟨tr', k1, .list L hL k2⟩⟩

/-- The same for a client that is restarted between its calls. -/
theorem Mimics.goes {S α : Type} {D D' : Links S} {H H' : S → List (Call × Except Err Nat) → Prop} (M : Mimics D D' H H')
    {any limit' limit : Nat} (W : Serves D' any limit' H') (hl : limit ≤ limit') {reserved : Nat → Prop} (hr : reserved any)
    {R : S → S → Prop} (hR : ∀ {s s' tr}, H s tr → R s s' → H s' tr) {P : Routine α} {s s' : S} {a : α} (h : P.Goes D any R s a s') :
    ∀ {tr}, H s tr → P.Careful limit reserved (replay tr) (slots tr) → P.Tidy limit (replay tr) (slots tr) →
      ∃ tr', H s' tr' ∧ P.Means limit (replay tr) (slots tr) a (replay tr') (slots tr') := by
  have hcol : ∀ s q, D.collect s q = D'.collect s q := fun s q => by simp only [Links.collect, Links.eachBy, M.each]
  have hse : ∀ s x y, D.search s x y = D'.search s x y := fun s x y => by
    simp only [Links.search, Links.find, Links.eachBy, M.each, M.any]
  induction h with
  | done => intro tr h _ _; exact ⟨tr, h, .done⟩
  | restart hs _ ih => intro tr h hc ht; exact ih (hR h hs) hc ht
  | @write k next s o a s' ho hne _ ih =>
    intro tr h hc ht
    obtain ⟨c1, c2, c3⟩ := hc
    obtain ⟨t1, t2⟩ := ht
    have hw := result_widen hl c2
    rcases W.write (M.hist h).1 (by rw [hw]; exact c1) ((M.write h t1).symm.trans ho) with e | ⟨e, -⟩
    · exact absurd e hne
    · rw [hw] at e
      have h' := M.step h t1 (by rw [e]; exact c1) ho
      rw [e] at h' ih
      obtain ⟨tr', k1, k2⟩ := ih h' (by rw [Unit.replay_snoc, Unit.slots_snoc]; exact c3)
        (by rw [Unit.replay_snoc, Unit.slots_snoc]; exact t2)
      rw [Unit.replay_snoc, Unit.slots_snoc] at k2
      exact ⟨tr', k1, .write k2⟩
  | get ho _ ih =>
    intro tr h hc ht
    rw [M.get, W.get (M.hist h).1] at ho
    cases ho
    obtain ⟨tr', k1, k2⟩ := ih h hc ht
    exact ⟨tr', k1, .get k2⟩
  | count ho _ ih =>
    intro tr h hc ht
    obtain ⟨c1, c2, c3, c4⟩ := hc
    rw [M.count] at ho
    obtain ⟨L, hL, rfl⟩ := W.count (M.hist h).1 c1 c2 (fun x hx e => c3 x hx (e ▸ hr)) ho
    obtain ⟨tr', k1, k2⟩ := ih h (c4 L hL) (ht L hL)
    exact ⟨tr', k1, .count L hL k2⟩
  | gather ho _ ih =>
    intro tr h hc ht
    obtain ⟨c1, c2, c3, c4⟩ := hc
    obtain ⟨L, hv, hL⟩ := W.visits (M.hist h).1 c1 (fun x hx e => c2 x hx (e ▸ hr))
    rw [hcol, Links.collect_eq hv] at ho
    cases ho
    obtain ⟨tr', k1, k2⟩ := ih h (c4 _ hL) (ht _ hL)
    exact ⟨tr', k1, .gather _ hL k2⟩
  | search ho _ ih =>
    intro tr h hc ht
    obtain ⟨c1, c2, c3, c4, c5, c6⟩ := hc
    obtain ⟨r, hv, hL⟩ := W.search (M.hist h).1 c5 c1 c2 (fun e => c3 (e ▸ hr)) (fun e => c4 (e ▸ hr))
    rw [hse, hv] at ho
    cases ho
    obtain ⟨tr', k1, k2⟩ := ih h (c6 _ hL) (ht _ hL)
    exact ⟨tr', k1, .search _ hL k2⟩
  | list ho _ ih =>
    intro tr h hc ht
    obtain ⟨L, hv, hL⟩ := W.list (M.hist h).1
    rw [hcol, Links.collect_eq hv] at ho
    cases ho
    obtain ⟨tr', k1, k2⟩ := ih h (hc _ hL) (ht _ hL)
    exact ⟨tr', k1, .list _ hL k2⟩

end Verif

namespace Verif.Unit
open Verif

/-- Recorded histories without duplicates of the united store (see `History`). -/
inductive HistoryU (c : Cfg) : Store → List (Call × Except Err Nat) → Prop
  | fresh (a) {s : Store} : GoodAlloc a → init (c.withAlloc a) {} = some (.ok s) → HistoryU c s []
  | call (a) (k : Call) {s : Store} {tr} {o : Out Store _root_.Unit Nat} : HistoryU c s tr → GoodAlloc a →
      k.NoDup (replay tr) → step c a s k = some o → HistoryU c o.st (tr ++ [(k, o.res)])
  | reopen (a) (n : Nat) {s s' : Store} {tr} : HistoryU c s tr → GoodAlloc a →
      init (c.withAlloc a) { s with len := n } = some (.ok s') → s.hdr.allocated < s'.len → HistoryU c s' tr

variable {c : Cfg}

theorem step_mend (hc : CfgOK₀ c) (a) {s : Store} {tr} (h : History c.mend s tr) (hu : (replay tr).Uniq) {k : Call}
    (hk : k.NoDup (replay tr)) : step c a s k = step c.mend a s k := by
  obtain ⟨⟨⟨ts, tt, hi⟩, -, hv, -⟩, -⟩ := history_inv hc.mend h
  have hv : (links c).view s = replay tr := hv
  cases k with
  | create => rfl
  | update i x y =>
    have e : ∀ σ (h' : WH σ) st, (links c).updateLinks s [i] [i, x, y] h' st = (links c.mend).updateLinks s [i] [i, x, y] h' st :=
      fun σ h' st => updateLinks_mend (q := [i]) (ch := [i, x, y]) hc ⟨_, _, _, hi⟩ (by rw [hv]; exact hu) (fun j a b h1 h2 h3 h4 => by
        simp at h1 h2 h3; subst h1 h2 h3; rw [hv] at h4 ⊢; exact hk h4) h' st
    simp only [step, Links.update, Links.updateBy, Links.updateByWith, e]
  | delete i =>
    have e : ∀ σ (h' : WH σ) st, (links c).deleteLinks s [i] h' st = (links c.mend).deleteLinks s [i] h' st :=
      fun σ h' st => deleteLinks_mend (q := [i]) hc ⟨_, _, _, hi⟩ (by rw [hv]; exact hu) h' st
    simp only [step, Links.delete, Links.deleteBy, Links.deleteByWith, e]

/-- A history without duplicates over a crate that keeps the weaker contract is a history over the mended crate. -/
theorem historyU_mend (hc : CfgOK₀ c) {s : Store} {tr} (h : HistoryU c s tr) : History c.mend s tr ∧ (replay tr).Uniq := by
  induction h with
  | fresh a ha h => exact ⟨.fresh a ha h, fun i p h => by cases h⟩
  | @call a k s tr o h ha hk ho ih =>
    obtain ⟨ih, hu⟩ := ih
    have h' : History c.mend o.st (tr ++ [(k, o.res)]) :=
      .call a k ih ha (fun i _ => hu i) ((step_mend hc a ih hu hk).symm.trans ho)
    refine ⟨h', ?_⟩
    rw [replay_snoc]
    rcases history_determined hc.mend h' tr k o.res [] rfl with e | e
    · show (k.apply (replay tr) o.res).Uniq
      rw [e]; cases k <;> exact hu
    · show (k.apply (replay tr) o.res).Uniq
      rw [e]; exact uniq_apply hu hk
  | reopen a n h ha hi hl ih => exact ⟨.reopen a n ih.1 ha hi hl, ih.2⟩

theorem mimics (hc : CfgOK₀ c) : Mimics (links c) (links c.mend) (HistoryU c) (History c.mend) where
  hist := historyU_mend hc
  write := fun {s tr k} h hk => by
    obtain ⟨h, hu⟩ := historyU_mend hc h
    have := step_mend hc c.alloc h hu hk
    cases k <;> exact this
  step := fun {s tr k o} h hk _ ho => .call c.alloc k h hc.alloc_ge hk (by cases k <;> exact ho)
  each := fun s q h st => (eachLinks_mend s q h st).symm
  get := fun s i => rfl
  count := fun s q => rfl
  any := fun s => rfl

end Verif.Unit

namespace Verif.Split
open Verif

/-- Recorded histories without duplicates of the split store (see `History`). -/
inductive HistoryU (c : Cfg) : Store → List (Call × Except Err Nat) → Prop
  | fresh (d i) {s : Store} : ExactAlloc d → ExactAlloc i → init (c.withAllocs d i) {} = some (.ok s) → HistoryU c s []
  | call (d i) (k : Call) {s : Store} {tr} {o : Out Store Unit Nat} : HistoryU c s tr → ExactAlloc d → ExactAlloc i →
      GrowTogether (c.withAllocs d i) s → k.NoDup (replay tr) → step c d i s k = some o → k.SplitOK (replay tr) o.res →
      HistoryU c o.st (tr ++ [(k, o.res)])
  | reopen (d i) (n m : Nat) {s s' : Store} {tr} : HistoryU c s tr → ExactAlloc d → ExactAlloc i →
      init (c.withAllocs d i) { s with dlen := n, ilen := m } = some (.ok s') → s.hdr.allocated < s'.ilen → HistoryU c s' tr

variable {c : Cfg}

theorem step_mend (hc : CfgOK₀ c) {d i} (hd : ExactAlloc d) (hi : ExactAlloc i) {s : Store} {tr} (h : History c.mend s tr)
    (hu : (replay tr).Uniq) {k : Call} (hk : k.NoDup (replay tr)) : step c d i s k = step c.mend d i s k := by
  obtain ⟨⟨hn, -, hv, -⟩, -⟩ := history_inv hc.mend h
  rw [view_mend] at hv
  cases k with
  | create =>
    have e : ∀ σ (h' : WH σ) st, (links (c.withAllocs d i)).createLinks s [] h' st = (links (c.mend.withAllocs d i)).createLinks s [] h' st :=
      fun σ h' st => createLinks_allocs hc hd hi hn [] h' st
    simp only [step, Links.create, Links.createBy, Links.createByWith, e]
  | update j x y =>
    have e : ∀ σ (h' : WH σ) st, (links c).updateLinks s [j] [j, x, y] h' st = (links c.mend).updateLinks s [j] [j, x, y] h' st :=
      fun σ h' st => updateLinks_uniq (q := [j]) (ch := [j, x, y]) hc hn (by rw [hv]; exact hu) (fun j a b h1 h2 h3 h4 => by
        simp at h1 h2 h3; subst h1 h2 h3; rw [hv] at h4 ⊢; exact hk h4) h' st
    simp only [step, Links.update, Links.updateBy, Links.updateByWith, e]
  | delete j =>
    have e : ∀ σ (h' : WH σ) st, (links c).deleteLinks s [j] h' st = (links c.mend).deleteLinks s [j] h' st :=
      fun σ h' st => deleteLinks_mend (q := [j]) hc hn (by rw [hv]; exact hu) h' st
    simp only [step, Links.delete, Links.deleteBy, Links.deleteByWith, e]

/-- A history without duplicates over a crate that keeps the weaker contract is a history over the mended crate. -/
theorem historyU_mend (hc : CfgOK₀ c) {s : Store} {tr} (h : HistoryU c s tr) : History c.mend s tr ∧ (replay tr).Uniq := by
  induction h with
  | fresh d i hd hi h => exact ⟨.fresh d i hd hi h, fun i p h => by cases h⟩
  | @call d i k s tr o h hd hi hg hk ho hs ih =>
    obtain ⟨ih, hu⟩ := ih
    have h' : History c.mend o.st (tr ++ [(k, o.res)]) :=
      .call d i k ih hd hi hg ((step_mend hc hd hi ih hu hk).symm.trans ho) hs
    refine ⟨h', ?_⟩
    rw [Unit.replay_snoc]
    rcases history_determined hc.mend h' tr k o.res [] rfl with e | e
    · show (k.apply (replay tr) o.res).Uniq
      rw [e]; cases k <;> exact hu
    · show (k.apply (replay tr) o.res).Uniq
      rw [e]; exact uniq_apply hu hk
  | reopen d i n m h hd hi hn hl ih => exact ⟨.reopen d i n m ih.1 hd hi hn hl, ih.2⟩

theorem mimics (hc : CfgOK₀ c) (hgrow : Props.GrowsAlike c) : Mimics (links c) (links c.mend) (HistoryU c) (History c.mend) where
  hist := historyU_mend hc
  write := fun {s tr k} h hk => by
    obtain ⟨h, hu⟩ := historyU_mend hc h
    have := step_mend hc hc.dalloc_eq hc.ialloc_eq h hu hk
    cases k <;> exact this
  step := fun {s tr k o} h hk hs ho => .call c.dalloc c.ialloc k h hc.dalloc_eq hc.ialloc_eq
    (hgrow.together (history_inv hc.mend (historyU_mend hc h).1).1.1.base.len_eq) hk (by cases k <;> exact ho) hs
  each := fun s q h st => (eachLinks_mend s q h st).symm
  get := fun s i => (getLink_mend s i).symm
  count := fun s q => (countLinks_mend s q).symm
  any := fun s => rfl

end Verif.Split
