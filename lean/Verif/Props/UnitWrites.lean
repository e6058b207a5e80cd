import Verif.Unit.Example
import Verif.Unit.CreateCases
import Verif.Unit.Same

/-!
# Properties C01–C08, C13, C15, C16, C26, C35: the united store under writes

`Reach c s`: `s` is the state of a united store after any history of calls. `History c s tr`: the same with the
calls and their results recorded in `tr`; `replay tr` is what a map holds after them. See `Unit/Reach.lean` and
`Unit/History.lean` for the two definitions and `Spec.lean` for `view`, `Succeeds` and `Fails`.
-/

namespace Verif.Unit.Props
open Verif Verif.Unit

variable {c : Cfg}

/-! ## C01 -/

/-- **C01.** After every history the lookups return exactly what replaying the successful calls on a map gives,
and each call returned what the map at that moment allows (a fresh index, success on a present link,
`NotExists` on a missing one). -/
theorem C01_united_store_is_a_map (hc : CfgOK c) {s : Store} {tr : List (Call × Except Err Nat)}
    (h : History c s tr) :
    (∀ i, (links c).getLink s i = some ((replay tr i).map fun p => ⟨i, p.1, p.2⟩)) ∧
    ∀ pre k r suf, tr = pre ++ (k, r) :: suf → Call.Legit (replay pre) k r := by
  obtain ⟨h1, h2⟩ := history_inv hc h
  refine ⟨fun i => ?_, h2⟩
  obtain ⟨ts, tt, hi⟩ := h1.inv
  rw [← h1.view]
  exact (lawful hc).get s ⟨_, ts, tt, hi⟩ i

/-- **C01**, handlers: a call has the same effect on the store with every handler. -/
theorem C01_effect_is_independent_of_the_handler (hc : CfgOK c) {s : Store} (h : Reach c s)
    {k : Call} (ht : ∀ i, k.subject = some i → ((links c).view s).NoTwin i) {o : Out Store _root_.Unit Nat}
    (ho : step c c.alloc s k = some o) {σ ρ : Type} (hd : σ → Link → Link → Ctl ρ × σ) (st : σ) :
    ∃ o' : Out Store σ (Ctl ρ), o'.st = o.st ∧ (match k with
      | .create => (links c).createWith s hd st
      | .update i x y => (links c).updateWith s i x y hd st
      | .delete i => (links c).deleteWith s i hd st) = some o' := by
  have hg := reach_good hc h
  cases k with
  | create =>
    have ho : (links c).create s = some o := ho
    obtain ⟨free, ts, tt, hi⟩ := hg
    rcases create_cases hc hi [] with ⟨x, rest, s', -, -, -, -, -, this, -⟩ |
      ⟨-, -, this⟩ | ⟨-, -, -, this⟩ | ⟨-, -, -, this⟩ | ⟨-, -, s', -, -, this, -⟩
    · rw [Links.create_ok this] at ho; cases ho
      exact ⟨_, rfl, Links.createByWith_ok this hd st⟩
    · rw [Links.create_err this] at ho; cases ho
      exact ⟨_, rfl, Links.createByWith_err this hd st⟩
    · rw [Links.create_err this] at ho; cases ho
      exact ⟨_, rfl, Links.createByWith_err this hd st⟩
    · rw [create_none this] at ho; cases ho
    · rw [Links.create_ok this] at ho; cases ho
      exact ⟨_, rfl, Links.createByWith_ok this hd st⟩
  | update i x y =>
    have ho : (links c).update s i x y = some o := ho
    cases hv : (links c).view s i with
    | none =>
      have := (lawful hc).update_missing s hg i hv i x y
      rw [Links.update_err this] at ho; cases ho
      exact ⟨_, rfl, Links.updateByWith_err this hd st⟩
    | some p =>
      obtain ⟨s', -, -, this⟩ := update_law hc hg hv (ht i rfl) i x y
      rw [Links.update_ok this] at ho; cases ho
      exact ⟨_, rfl, Links.updateByWith_ok this hd st⟩
  | delete i =>
    have ho : (links c).delete s i = some o := ho
    cases hv : (links c).view s i with
    | none =>
      have := (lawful hc).delete_missing s hg i hv
      rw [Links.delete_err this] at ho; cases ho
      exact ⟨_, rfl, Links.deleteByWith_err this hd st⟩
    | some p =>
      obtain ⟨s', -, -, this⟩ := delete_law hc hg hv (ht i rfl)
      rw [Links.delete_ok this] at ho; cases ho
      exact ⟨_, rfl, Links.deleteByWith_ok this hd st⟩

/-- A history of twelve calls: 1 = (1,1), 2 = (1,3), 3 = (2,2), 4 = (0,0), 5 deleted, 6 = (3,2). -/
example : History cfg0 sNet (trace cfg0 net) ∧ replay (trace cfg0 net) 2 = some (1, 3) ∧
    replay (trace cfg0 net) 5 = none ∧ replay (trace cfg0 net) 6 = some (3, 2) :=
  ⟨sNet_history, by decide +kernel⟩

/-- Both kinds of result occur: deleting 5 fails, deleting 6 succeeds. -/
example : (exec cfg0 [.delete 5, .delete 6] sNet).map (·.2) = some [.error (.notExists 5), .ok 0] := by
  decide +kernel

/-! ## C02 -/

/-- **C02.** A successful creation returns an index that is not null, named no link, and lies in the internal
range; it now names a link (null, null); nothing else changed; the handler was called exactly once, with
(nothing, the new link), and its verdict and state are what the call returns. -/
theorem C02_create_returns_a_fresh_index (hc : CfgOK c) {s : Store} (h : Reach c s)
    {σ ρ : Type} {hd : σ → Link → Link → Ctl ρ × σ} {st : σ} {o : Out Store σ (Ctl ρ)} {r : Ctl ρ}
    (ho : (links c).createWith s hd st = some o) (hr : o.res = .ok r) :
    ∃ i, i ≠ 0 ∧ c.consts.internalStart ≤ i ∧ i ≤ c.consts.internalEnd ∧ (links c).getLink s i = some none ∧
      (∀ k, (links c).view o.st k = if k = i then some (0, 0) else (links c).view s k) ∧
      (r, o.hs) = hd st Link.nothing ⟨i, 0, 0⟩ ∧
      (links c).create s = some ⟨.ok i, o.st, ()⟩ := by
  obtain ⟨free, ts, tt, hi⟩ := reach_good hc h
  have hget := (lawful hc).get s ⟨free, ts, tt, hi⟩
  have fin : ∀ {i s'}, i ≠ 0 → i ≤ c.consts.internalEnd → (links c).view s i = none →
      (links c).view s' = ((links c).view s).set i (0, 0) →
      Links.Succeeds (fun _ hd st => createLinks c s [] hd st) s' Link.nothing ⟨i, 0, 0⟩ →
      ∃ i, i ≠ 0 ∧ c.consts.internalStart ≤ i ∧ i ≤ c.consts.internalEnd ∧ (links c).getLink s i = some none ∧
      (∀ k, (links c).view o.st k = if k = i then some (0, 0) else (links c).view s k) ∧
      (r, o.hs) = hd st Link.nothing ⟨i, 0, 0⟩ ∧
      (links c).create s = some ⟨.ok i, o.st, ()⟩ := by
    intro i s' h0 hle hn hv hS
    have e : some o = _ := ho.symm.trans (Links.createByWith_ok hS hd st)
    cases e
    cases hr
    refine ⟨i, h0, by rw [hc.start_eq]; omega, hle, ?_, fun k => congrFun hv k, rfl, by rw [Links.create_ok hS]⟩
    rw [hget, hn]; rfl
  have hale := hi.base.alloc_le
  rcases create_cases hc hi [] with ⟨x, rest, s', -, h0, hlt, -, -, hS, h1, h2⟩ |
      ⟨-, -, this⟩ | ⟨-, -, -, this⟩ | ⟨-, -, -, this⟩ | ⟨-, hlt, s', -, -, hS, h1, h2⟩
  · exact fin h0 (by omega) h1 h2 hS
  · have e := ho.symm.trans (Links.createByWith_err this hd st)
    cases e; cases hr
  · have e := ho.symm.trans (Links.createByWith_err this hd st)
    cases e; cases hr
  · rw [createWith_none this] at ho; cases ho
  · exact fin (by omega) (by omega) h1 h2 hS

/-- In `sNet` the hypotheses hold and the free index 5 is returned. -/
example : Reach cfg0 sNet ∧ ((links cfg0).create sNet).map (·.res) = some (.ok 5) :=
  ⟨sNet_reach, by decide +kernel⟩

/-! ## C03 and C04 -/

/-- **C04**, first part: the highest allocated slot is a link, or there are no links and no slots are
allocated. -/
theorem C04_highest_slot_is_live (hc : CfgOK c) {s : Store} (h : Reach c s) :
    ((links c).view s).Top s.hdr.allocated := by
  obtain ⟨free, ts, tt, hi⟩ := reach_good hc h
  refine ⟨?_, fun i hi' => ?_⟩
  · by_cases h0 : s.hdr.allocated = 0
    · exact .inl h0
    · right
      rw [view_eq hc hi.toInv0, if_pos]
      · simp
      · exact ⟨by omega, Nat.le_refl _, fun hm => by have := hi.free_lt _ hm; omega⟩
  · rw [view_eq hc hi.toInv0, if_neg]
    intro hl; have := hl.2.1; omega

example : Reach cfg0 sNet ∧ sNet.hdr.allocated = 6 ∧ (links cfg0).view sNet 6 = some (3, 2) :=
  ⟨sNet_reach, by decide +kernel⟩

/-- **C04**, second part: without links there are neither allocated nor free slots, and the next index is 1. -/
theorem C04_empty_store_starts_over (hc : CfgOK c) {s : Store} (h : Reach c s)
    (he : ∀ i, (links c).getLink s i = some none) :
    s.hdr.allocated = 0 ∧ s.hdr.free = 0 ∧ s.hdr.firstFree = 0 ∧
    ∀ i o, (links c).create s = some o → o.res = .ok i → i = 1 := by
  have htop := C04_highest_slot_is_live hc h
  obtain ⟨free, ts, tt, hi⟩ := reach_good hc h
  have hget := (lawful hc).get s ⟨free, ts, tt, hi⟩
  have hnone : ∀ i, (links c).view s i = none := by
    intro i
    have := (hget i).symm.trans (he i)
    cases hv : (links c).view s i with
    | none => rfl
    | some p => rw [hv] at this; simp at this
  have ha : s.hdr.allocated = 0 := by
    rcases htop.1 with h0 | h0
    · exact h0
    · exact absurd (hnone _) h0
  have hf : free = [] := by
    apply List.eq_nil_iff_forall_not_mem.2
    intro x hx; have := hi.free_lt x hx; omega
  have hl := hi.base.list
  rw [hf] at hl
  refine ⟨ha, hl.size_eq, hl.first_eq, ?_⟩
  intro i o ho hr
  rcases create_cases hc hi [] with ⟨x, rest, s', hf', -⟩ |
      ⟨-, -, this⟩ | ⟨-, -, -, this⟩ | ⟨-, -, -, this⟩ | ⟨-, hlt, s', -, -, hS, -⟩
  · rw [hf] at hf'; cases hf'
  · rw [Links.create_err this] at ho; cases ho; cases hr
  · rw [Links.create_err this] at ho; cases ho; cases hr
  · rw [create_none this] at ho; cases ho
  · rw [Links.create_ok hS] at ho; cases ho; cases hr
    show s.hdr.allocated + 1 = 1; omega

/-- Deleting every link of a store with a gap gives back everything; the next index is 1. -/
example : (exec cfg0 (net ++ [.delete 1, .delete 6, .delete 3, .delete 2, .delete 4, .create])
    (store0 cfg0)).map (fun r => (r.2.getLast?, r.1.hdr.allocated)) = some (some (.ok 1), 1) := by
  decide +kernel

/-- **C03.** If some index below the highest link is free, creation returns the free index whose last deletion
is the most recent, and the number of allocated slots stays the same. -/
theorem C03_most_recently_freed_first (hc : CfgOK c) {s : Store} {tr : List (Call × Except Err Nat)}
    (h : History c s tr) (hgap : ∃ k, 0 < k ∧ k < s.hdr.allocated ∧ (links c).getLink s k = some none) :
    ∃ x s', 0 < x ∧ x < s.hdr.allocated ∧ (links c).getLink s x = some none ∧
      (∀ k, 0 < k → k < s.hdr.allocated → (links c).getLink s k = some none → k ≠ x → FreedAfter tr x k) ∧
      (links c).create s = some ⟨.ok x, s', ()⟩ ∧ s'.hdr.allocated = s.hdr.allocated := by
  obtain ⟨h1, -⟩ := history_inv hc h
  obtain ⟨ts, tt, hi⟩ := h1.inv
  have hget := (lawful hc).get s ⟨_, ts, tt, hi⟩
  have hmem : ∀ k, 0 < k → k < s.hdr.allocated → (links c).getLink s k = some none → k ∈ (slots tr).free := by
    intro k hk0 hk hg
    have := (hget k).symm.trans hg
    rw [view_eq hc hi.toInv0] at this
    apply Classical.byContradiction
    intro hnf
    rw [if_pos ⟨hk0, by omega, hnf⟩] at this
    simp at this
  obtain ⟨k0, hk0, hk1, hk2⟩ := hgap
  have hk3 := hmem k0 hk0 hk1 hk2
  rcases create_cases hc hi [] with ⟨x, rest, s', hf, h0, hlt, -, hal, hS, hx, -⟩ |
      ⟨hf, -⟩ | ⟨hf, -⟩ | ⟨hf, -⟩ | ⟨hf, -⟩
  · refine ⟨x, s', by omega, hlt, by rw [hget, hx]; rfl, ?_, by rw [Links.create_ok hS], hal⟩
    intro k hk0 hk1 hk2 hne
    have := hmem k hk0 hk1 hk2
    rw [hf] at this
    have hord := h1.order
    rw [hf, List.pairwise_cons] at hord
    exact hord.1 k ((List.mem_cons.1 this).resolve_left hne)
  all_goals rw [hf] at hk3; cases hk3

/-- Links 2, 4 and 3 are deleted in this order: creation returns 3, then 4, then 2, then 7. -/
example : (exec cfg0 ((net.take 11) ++ [.delete 2, .delete 4, .delete 3, .create, .create, .create, .create])
    (store0 cfg0)).map (fun r => r.2.drop 14) = some [.ok 3, .ok 4, .ok 2, .ok 7] := by decide +kernel

/-- **C03**, growth: if no index below the highest link is free, creation extends the store by exactly one
slot, or fails. -/
theorem C03_grows_by_one (hc : CfgOK c) {s : Store} (h : Reach c s)
    (hfull : ∀ k, 0 < k → k < s.hdr.allocated → (links c).getLink s k ≠ some none)
    {o : Out Store _root_.Unit Nat} {x : Nat} (ho : (links c).create s = some o) (hr : o.res = .ok x) :
    x = s.hdr.allocated + 1 ∧ o.st.hdr.allocated = s.hdr.allocated + 1 := by
  obtain ⟨free, ts, tt, hi⟩ := reach_good hc h
  have hget := (lawful hc).get s ⟨free, ts, tt, hi⟩
  rcases create_cases hc hi [] with ⟨x, rest, s', hf, h0, hlt, -, -, -, hx, -⟩ |
      ⟨-, -, this⟩ | ⟨-, -, -, this⟩ | ⟨-, -, -, this⟩ | ⟨-, hlt, s', -, hal, hS, -⟩
  · exact absurd (by rw [hget, hx]; rfl) (hfull x (by omega) hlt)
  · rw [Links.create_err this] at ho; cases ho; cases hr
  · rw [Links.create_err this] at ho; cases ho; cases hr
  · rw [create_none this] at ho; cases ho
  · rw [Links.create_ok hS] at ho; cases ho; cases hr
    exact ⟨rfl, hal⟩

example : Reach cfg0 (runs cfg0 (net.take 11)) ∧
    ((links cfg0).create (runs cfg0 (net.take 11))).map (·.res) = some (.ok 7) :=
  ⟨runs_reach (by decide +kernel), by decide +kernel⟩

/-! ## C05–C07 -/

/-- **C05.** Updating an existing link `i`, whose doublet no other link shares, to any source and target succeeds:
`i` now reads (i, a, b), every other index reads as before, and the call returns what the handler returned in
its only call. -/
theorem C05_update_changes_one_link (hc : CfgOK c) {s : Store} (h : Reach c s) {i : Nat} {l : Link}
    (hi : (links c).getLink s i = some (some l)) (ht : ((links c).view s).NoTwin i) (a b : Nat)
    {σ ρ : Type} (hd : σ → Link → Link → Ctl ρ × σ) (st : σ) :
    ∃ (s' : Store) (before : Link), Reach c s' ∧
      (links c).updateWith s i a b hd st =
        some ⟨.ok (hd st before ⟨i, a, b⟩).1, s', (hd st before ⟨i, a, b⟩).2⟩ ∧
      (links c).getLink s' i = some (some ⟨i, a, b⟩) ∧
      ∀ k, k ≠ i → (links c).getLink s' k = (links c).getLink s k := by
  have hg := reach_good hc h
  have hgi := (lawful hc).get s hg i
  cases hv : (links c).view s i with
  | none => rw [hv] at hgi; rw [hgi] at hi; cases hi
  | some p =>
    obtain ⟨s', hg', hv', hS⟩ := update_law hc hg hv ht i a b
    refine ⟨s', ⟨i, a, b⟩, ?_, Links.updateByWith_ok hS hd st, ?_, ?_⟩
    · exact Reach.update (q := [i]) (ch := [i, a, b]) (h := fun (u : _root_.Unit) _ _ => (.cont, u)) (st := ()) h
        (fun j hj => by cases hj; exact ht) (hS _ (fun (u : _root_.Unit) _ _ => (.cont, u)) ())
    · rw [(lawful hc).get s' hg', hv', View.set_same]; rfl
    · intro k hk
      rw [(lawful hc).get s' hg', hv', View.set_other _ _ hk, (lawful hc).get s hg]

/-- **C06.** Deleting an existing link `i`, whose doublet no other link shares, succeeds: `i` is gone, every other
index reads as before (including links that refer to `i`), and the handler was called exactly once with
(old link, nothing). -/
theorem C06_delete_removes_one_link (hc : CfgOK c) {s : Store} (h : Reach c s) {i : Nat} {l : Link}
    (hi : (links c).getLink s i = some (some l)) (ht : ((links c).view s).NoTwin i)
    {σ ρ : Type} (hd : σ → Link → Link → Ctl ρ × σ) (st : σ) :
    ∃ s' : Store, Reach c s' ∧
      (links c).deleteWith s i hd st =
        some ⟨.ok (hd st l Link.nothing).1, s', (hd st l Link.nothing).2⟩ ∧
      (links c).getLink s' i = some none ∧
      ∀ k, k ≠ i → (links c).getLink s' k = (links c).getLink s k := by
  have hg := reach_good hc h
  have hgi := (lawful hc).get s hg i
  cases hv : (links c).view s i with
  | none => rw [hv] at hgi; rw [hgi] at hi; cases hi
  | some p =>
    rw [hv] at hgi
    rw [hgi] at hi
    cases hi
    obtain ⟨s', hg', hv', hS⟩ := delete_law hc hg hv ht
    refine ⟨s', ?_, Links.deleteByWith_ok hS hd st, ?_, ?_⟩
    · exact Reach.delete (q := [i]) (h := fun (u : _root_.Unit) _ _ => (.cont, u)) (st := ()) h
        (fun j hj => by cases hj; exact ht) (hS _ (fun (u : _root_.Unit) _ _ => (.cont, u)) ())
    · rw [(lawful hc).get s' hg', hv', View.del_same]; rfl
    · intro k hk
      rw [(lawful hc).get s' hg', hv', View.del_other _ hk, (lawful hc).get s hg]

/-- Link 3 of `sNet` is used by 2 and 6 and has no twin. -/
example : Reach cfg0 sNet ∧ (links cfg0).getLink sNet 3 = some (some ⟨3, 2, 2⟩) ∧
    ((links cfg0).view sNet).NoTwin 3 :=
  ⟨sNet_reach, by decide +kernel, twinFree_noTwin cfg0_ok (reach_good cfg0_ok sNet_reach) (by decide +kernel)⟩

/-- **C07.** Updating or deleting an index that names no link fails with `NotExists` of that index; the handler
is not called and the store is the very same. -/
theorem C07_missing_links_fail_without_effect (hc : CfgOK c) {s : Store} (h : Reach c s) {i : Nat}
    (hi : (links c).getLink s i = some none) {σ ρ : Type} (hd : σ → Link → Link → Ctl ρ × σ) (st : σ) :
    (∀ a b, (links c).updateWith s i a b hd st = some ⟨.error (.notExists i), s, st⟩) ∧
    (links c).deleteWith s i hd st = some ⟨.error (.notExists i), s, st⟩ := by
  have hg := reach_good hc h
  have hgi := (lawful hc).get s hg i
  have hv : (links c).view s i = none := by
    cases hv : (links c).view s i with
    | none => rfl
    | some p => rw [hv, hi] at hgi; cases hgi
  exact ⟨fun a b => Links.updateByWith_err ((lawful hc).update_missing s hg i hv i a b) hd st,
    Links.deleteByWith_err ((lawful hc).delete_missing s hg i hv) hd st⟩

/-- Null, a free index, an index beyond the end and an external value are all missing. -/
example : Reach cfg0 sNet ∧ ∀ i ∈ [0, 5, 7, 200], (links cfg0).getLink sNet i = some none :=
  ⟨sNet_reach, by decide +kernel⟩

/-! ## C08 -/

/-- **C08.** When every index of the internal range names a link, creation fails with `LimitReached` of its upper
end, the store is unchanged and the handler is not called. -/
theorem C08_full_store_refuses (hc : CfgOK c) {s : Store} (h : Reach c s)
    (hfull : ∀ i, c.consts.internalStart ≤ i → i ≤ c.consts.internalEnd → (links c).getLink s i ≠ some none)
    {σ ρ : Type} (hd : σ → Link → Link → Ctl ρ × σ) (st : σ) :
    (links c).createWith s hd st = some ⟨.error (.limitReached c.consts.internalEnd), s, st⟩ := by
  obtain ⟨free, ts, tt, hi⟩ := reach_good hc h
  have hget := (lawful hc).get s ⟨free, ts, tt, hi⟩
  have hale := hi.base.alloc_le
  have hno : ∀ i, 1 ≤ i → i ≤ c.consts.internalEnd → (links c).view s i ≠ none := by
    intro i h1 h2 h3
    exact hfull i (by rw [hc.start_eq]; exact h1) h2 (by rw [hget, h3]; rfl)
  rcases create_cases hc hi [] with ⟨x, rest, s', -, h0, hlt, -, -, -, h1, -⟩ |
      ⟨-, -, this⟩ | ⟨-, hlt, -⟩ | ⟨-, hlt, -⟩ | ⟨-, hlt, s', -, -, -, h1, -⟩
  · exact absurd h1 (hno x (by omega) (by omega))
  · exact Links.createByWith_err this hd st
  · refine absurd ?_ (hno (s.hdr.allocated + 1) (by omega) (by omega))
    rw [view_eq hc hi.toInv0, if_neg fun hl => by have := hl.2.1; omega]
  · refine absurd ?_ (hno (s.hdr.allocated + 1) (by omega) (by omega))
    rw [view_eq hc hi.toInv0, if_neg fun hl => by have := hl.2.1; omega]
  · exact absurd h1 (hno _ (by omega) (by omega))

/-- **C08**, all failures: a failed creation leaves the very same store and does not call the handler; either
every index of the internal range is in use, or the allocator refused the growth by `SIZE_STEP` slots. -/
theorem C08_failed_create_has_no_effect (hc : CfgOK c) {s : Store} (h : Reach c s)
    {σ ρ : Type} {hd : σ → Link → Link → Ctl ρ × σ} {st : σ} {o : Out Store σ (Ctl ρ)} {e : Err}
    (ho : (links c).createWith s hd st = some o) (hr : o.res = .error e) :
    o.st = s ∧ o.hs = st ∧
    ((e = .limitReached c.consts.internalEnd ∧
        ∀ i, c.consts.internalStart ≤ i → i ≤ c.consts.internalEnd → (links c).getLink s i ≠ some none) ∨
     (e = .allocFailed ∧ c.alloc s.len (s.len + c.step) = none)) := by
  obtain ⟨free, ts, tt, hi⟩ := reach_good hc h
  have hget := (lawful hc).get s ⟨free, ts, tt, hi⟩
  rcases create_cases hc hi [] with ⟨x, rest, s', -, -, -, -, -, hS, -⟩ |
      ⟨hf, hle, this⟩ | ⟨-, -, hal, this⟩ | ⟨-, -, -, this⟩ | ⟨-, -, s', -, -, hS, -⟩
  · have e := ho.symm.trans (Links.createByWith_ok hS hd st); cases e; cases hr
  · have e := ho.symm.trans (Links.createByWith_err this hd st); cases e; cases hr
    refine ⟨rfl, rfl, .inl ⟨rfl, fun i h1 h2 h3 => ?_⟩⟩
    rw [hget, view_eq hc hi.toInv0, if_pos ⟨by rw [hc.start_eq] at h1; exact h1, by omega, by simp [hf]⟩] at h3
    cases h3
  · have e := ho.symm.trans (Links.createByWith_err this hd st); cases e; cases hr
    exact ⟨rfl, rfl, .inr ⟨rfl, hal⟩⟩
  · rw [createWith_none this] at ho; cases ho
  · have e := ho.symm.trans (Links.createByWith_ok hS hd st); cases e; cases hr

/-- A store with an internal range of three indices, full. -/
def cfg3 : Cfg := { cfg0 with consts := { consts0 with internalEnd := 3 } }

/-- An allocator that stops at eight slots. -/
def cfg8 : Cfg := { cfg0 with alloc := fun _ req => if req ≤ 8 then some req else none }

example : (exec cfg3 [.create, .create, .create, .create] (store0 cfg3)).map (·.2) =
    some [.ok 1, .ok 2, .ok 3, .error (.limitReached 3)] := by decide +kernel

example : (exec cfg8 (List.replicate 8 .create) (store0 cfg8)).map (·.2) =
    some [.ok 1, .ok 2, .ok 3, .ok 4, .ok 5, .ok 6, .error .allocFailed, .error .allocFailed] := by
  decide +kernel

/-! ## C13 -/

/-- **C13.** `count()` is the number of indices for which lookup returns a link. -/
theorem C13_count_is_number_of_links (hc : CfgOK c) {s : Store} (h : Reach c s) :
    ∃ n, (links c).count s = some n ∧ View.Size ((links c).view s) n := by
  obtain ⟨free, ts, tt, hi⟩ := reach_good hc h
  refine ⟨_, getTotal_eq hi.toInv0, liveList s free, nodup_liveList s free, rfl, fun i => ?_⟩
  rw [mem_liveList, view_eq hc hi.toInv0]
  by_cases hl : LiveIn s free i <;> simp [hl]

/-- **C13**, changes: a successful creation adds one to the count, a deletion subtracts one, an update keeps it. -/
theorem C13_count_changes (hc : CfgOK c) {s : Store} (h : Reach c s) {k : Call}
    (ht : ∀ i, k.subject = some i → ((links c).view s).NoTwin i)
    {o : Out Store _root_.Unit Nat} {r n : Nat} (ho : step c c.alloc s k = some o) (hr : o.res = .ok r)
    (hn : (links c).count s = some n) :
    (links c).count o.st = some (match k with
      | .create => n + 1
      | .update _ _ _ => n
      | .delete _ => n - 1) := by
  have hg := reach_good hc h
  have hro : Reach c o.st := step_reach h ht hc.alloc_ge ho
  obtain ⟨n', hn', hsz⟩ := C13_count_is_number_of_links hc h
  rw [hn] at hn'; cases hn'
  obtain ⟨m, hm, hsz'⟩ := C13_count_is_number_of_links hc hro
  rw [hm]; congr 1
  cases k with
  | create =>
    have ho : (links c).create s = some o := ho
    obtain ⟨free, ts, tt, hi⟩ := hg
    rcases create_cases hc hi [] with ⟨x, rest, s', -, -, -, -, -, hS, h1, h2⟩ |
      ⟨-, -, this⟩ | ⟨-, -, -, this⟩ | ⟨-, -, -, this⟩ | ⟨-, -, s', -, -, hS, h1, h2⟩
    · rw [Links.create_ok hS] at ho; cases ho
      have := size_set hsz (0, 0) (i := x)
      rw [if_pos h1, ← h2] at this
      exact hsz'.unique this
    · rw [Links.create_err this] at ho; cases ho; cases hr
    · rw [Links.create_err this] at ho; cases ho; cases hr
    · rw [create_none this] at ho; cases ho
    · rw [Links.create_ok hS] at ho; cases ho
      have := size_set hsz (0, 0) (i := s.hdr.allocated + 1)
      rw [if_pos h1, ← h2] at this
      exact hsz'.unique this
  | update i x y =>
    have ho : (links c).update s i x y = some o := ho
    cases hv : (links c).view s i with
    | none =>
      rw [Links.update_err ((lawful hc).update_missing s hg i hv i x y)] at ho; cases ho; cases hr
    | some p =>
      obtain ⟨s', -, hv', this⟩ := update_law hc hg hv (ht i rfl) i x y
      rw [Links.update_ok this] at ho; cases ho
      have := size_set hsz (x, y) (i := i)
      rw [if_neg (by simp [hv]), ← hv'] at this
      exact hsz'.unique this
  | delete i =>
    have ho : (links c).delete s i = some o := ho
    cases hv : (links c).view s i with
    | none =>
      rw [Links.delete_err ((lawful hc).delete_missing s hg i hv)] at ho; cases ho; cases hr
    | some p =>
      obtain ⟨s', -, hv', this⟩ := delete_law hc hg hv (ht i rfl)
      rw [Links.delete_ok this] at ho; cases ho
      have := size_del hsz (i := i) (by simp [hv])
      rw [← hv'] at this
      exact hsz'.unique this

example : Reach cfg0 sNet ∧ (links cfg0).count sNet = some 5 ∧
    (step cfg0 cfg0.alloc sNet (.delete 3)).map (fun o => (links cfg0).count o.st) = some (some 4) :=
  ⟨sNet_reach, by decide +kernel⟩

/-! ## C15 -/

/-- **C15.** Deleting a link that is not the highest and then creating one returns the same index; the contents
are as before except that the link is (0, 0), so they are as before if it was (0, 0). -/
theorem C15_delete_then_create_restores_the_index (hc : CfgOK c) {s : Store} (h : Reach c s) {i : Nat}
    {p : Nat × Nat} (hv : (links c).view s i = some p) (ht : ((links c).view s).NoTwin i)
    (hnot : ∃ j, i < j ∧ (links c).view s j ≠ none) :
    ∃ s1 s2, (links c).delete s i = some ⟨.ok 0, s1, ()⟩ ∧ (links c).create s1 = some ⟨.ok i, s2, ()⟩ ∧
      (links c).view s2 = ((links c).view s).set i (0, 0) ∧
      (p = (0, 0) → (links c).view s2 = (links c).view s) := by
  have htop := C04_highest_slot_is_live hc h
  obtain ⟨free, ts, tt, hi⟩ := reach_good hc h
  obtain ⟨j, hij, hj⟩ := hnot
  have hlt : i < s.hdr.allocated := by
    apply Classical.byContradiction
    intro hn
    exact hj (htop.2 j (by omega))
  obtain ⟨s1, free1, ts1, tt1, hi1, hv1, hS1, hfree⟩ := delete_cases hc hi hv ht
  have hfr := (hfree hlt).1
  have key : ∃ s2, (links c).create s1 = some ⟨.ok i, s2, ()⟩ ∧
      (links c).view s2 = ((links c).view s1).set i (0, 0) := by
    rcases create_cases hc hi1 [] with ⟨x, rest, s', hf, -, -, -, -, hS, h1, h2⟩ |
      ⟨hf, -⟩ | ⟨hf, -⟩ | ⟨hf, -⟩ | ⟨hf, -⟩
    · rw [hfr] at hf; cases hf
      exact ⟨s', by rw [Links.create_ok hS], h2⟩
    all_goals rw [hfr] at hf; cases hf
  obtain ⟨s2, hcr, hv2⟩ := key
  have e : (links c).view s2 = ((links c).view s).set i (0, 0) := by
    rw [hv2, hv1]; funext k; simp only [View.set, View.del]; split <;> rfl
  refine ⟨s1, s2, by rw [Links.delete_ok hS1]; rfl, hcr, e, fun hp => ?_⟩
  rw [e]; funext k; simp only [View.set]; split
  · next hk => rw [hk, hv, hp]
  · rfl

/-- Link 4 of `sNet` is (0,0) and not the highest. -/
example : Reach cfg0 sNet ∧ (links cfg0).view sNet 4 = some (0, 0) ∧ ((links cfg0).view sNet).NoTwin 4 ∧
    4 < 6 ∧ (links cfg0).view sNet 6 ≠ none :=
  ⟨sNet_reach, by decide +kernel,
   twinFree_noTwin cfg0_ok (reach_good cfg0_ok sNet_reach) (by decide +kernel), by decide, by decide +kernel⟩

/-! ## C16 -/

/-- **C16.** Opening a store on the memory left by any history, when the memory mapped afterwards covers all
links, gives a store with the same lookups, the same traversals and counts for every query (hence the same
search results), and the same next index (whenever the creation succeeds on both). -/
theorem C16_reopen_partial (hc : CfgOK c) {s s' : Store} (h : Reach c s) {n : Nat}
    (ho : init c { s with len := n } = some (.ok s')) (hlt : s.hdr.allocated < s'.len) :
    Reach c s' ∧ (∀ i, (links c).getLink s' i = (links c).getLink s i) ∧
    (∀ q, (links c).countBy s' q = (links c).countBy s q) ∧
    (∀ q {σ ρ : Type} (hd : σ → Link → Ctl ρ × σ) st,
      (links c).eachBy s' q hd st = (links c).eachBy s q hd st) ∧
    (∀ x y, (links c).search s' x y = (links c).search s x y) ∧
    (∀ i i' o o', (links c).create s = some o → o.res = .ok i →
      (links c).create s' = some o' → o'.res = .ok i' → i = i') := by
  obtain ⟨free, ts, tt, hi⟩ := reach_good hc h
  obtain ⟨hi', ha, hl⟩ := init_reopen hc hi ho hlt
  have heach : ∀ q {σ ρ : Type} (hd : σ → Link → Ctl ρ × σ) st,
      (links c).eachBy s' q hd st = (links c).eachBy s q hd st := by
    intro q σ ρ hd st
    show ((eachLinks c s' q _ _).map _) = ((eachLinks c s q _ _).map _)
    rw [eachLinks_same hc hi.toInv0 hi'.toInv0 ha hl]
  refine ⟨.reopen c.alloc n h hc.alloc_ge ho hlt, getLink_same hc hi.toInv0 hi'.toInv0 ha hl,
    countLinks_same hc hi.toInv0 hi'.toInv0 ha hl, heach, ?_, ?_⟩
  · intro x y
    simp only [Links.search, Links.find]
    rw [heach]; rfl
  · intro i i' o o' ho1 hr1 ho2 hr2
    rcases create_cases hc hi [] with ⟨x, rest, s1, hf, -, -, -, -, hS, -⟩ |
      ⟨-, -, this⟩ | ⟨-, -, -, this⟩ | ⟨-, -, -, this⟩ | ⟨hf, -, s1, -, -, hS, -⟩
    · rcases create_cases hc hi' [] with ⟨x', rest', s1', hf', -, -, -, -, hS', -⟩ |
        ⟨hf', -⟩ | ⟨hf', -⟩ | ⟨hf', -⟩ | ⟨hf', -⟩
      · rw [Links.create_ok hS] at ho1; cases ho1; cases hr1
        rw [Links.create_ok hS'] at ho2; cases ho2; cases hr2
        rw [hf] at hf'; cases hf'; rfl
      all_goals rw [hf] at hf'; cases hf'
    · rw [Links.create_err this] at ho1; cases ho1; cases hr1
    · rw [Links.create_err this] at ho1; cases ho1; cases hr1
    · rw [create_none this] at ho1; cases ho1
    · rcases create_cases hc hi' [] with ⟨x', rest', s1', hf', -⟩ |
        ⟨-, -, this⟩ | ⟨-, -, -, this⟩ | ⟨-, -, -, this⟩ | ⟨hf', -, s1', -, -, hS', -⟩
      · rw [hf] at hf'; cases hf'
      · rw [Links.create_err this] at ho2; cases ho2; cases hr2
      · rw [Links.create_err this] at ho2; cases ho2; cases hr2
      · rw [create_none this] at ho2; cases ho2
      · rw [Links.create_ok hS] at ho1; cases ho1; cases hr1
        rw [Links.create_ok hS'] at ho2; cases ho2; cases hr2
        show s.hdr.allocated + 1 = s'.hdr.allocated + 1
        rw [ha]

/-- Reopening `sNet` (6 links, 8 slots) meets the hypotheses. -/
example : Reach cfg0 sNet ∧ (init cfg0 { sNet with len := 0 }).map (fun r => match r with
    | .ok s' => decide (sNet.hdr.allocated < s'.len) | .error _ => false) = some true :=
  ⟨sNet_reach, by decide +kernel⟩

/-- Twelve links, made in three growth steps of an exact allocator. -/
def sTwelve : Store := runs cfg0 (List.replicate 12 .create)

/-- **C16** fails in general: with an allocator that maps exactly what is asked for, opening the memory of a store
with at least `SIZE_STEP` links maps only as many slots as there are links although slot 0 is the header, and
looking up the last link is then out of bounds (the missing part of `C16_reopen_partial`). -/
theorem C16_reopen_can_lose_the_last_link :
    ∃ s', Reach cfg0 sTwelve ∧ (links cfg0).getLink sTwelve 12 = some (some ⟨12, 0, 0⟩) ∧
      init cfg0 { sTwelve with len := 0 } = some (.ok s') ∧ (links cfg0).getLink s' 12 = none := by
  refine ⟨{ sTwelve with len := 12, hdr := { sTwelve.hdr with reserved := 11 } },
    runs_reach (by decide +kernel), by decide +kernel, ?_, by decide +kernel⟩
  have : sTwelve.hdr.allocated = 12 := by decide +kernel
  unfold init
  simp [this, cfg0, csub]

/-! ## C26 -/

/-- **C26** is false for the united store: the handler of an update is called with the new source and target in
the "before" link as well (`store.rs:478-479` reads them from the change, not from the link). For every
existing link and every update the handler sees no change. -/
theorem C26_update_handler_sees_the_new_link_twice (hc : CfgOK c) {s : Store} (h : Reach c s) {i : Nat}
    {l : Link} (hi : (links c).getLink s i = some (some l)) (ht : ((links c).view s).NoTwin i) (a b : Nat)
    {σ ρ : Type} (hd : σ → Link → Link → Ctl ρ × σ) (st : σ) :
    ∃ s', (links c).updateWith s i a b hd st =
      some ⟨.ok (hd st ⟨i, a, b⟩ ⟨i, a, b⟩).1, s', (hd st ⟨i, a, b⟩ ⟨i, a, b⟩).2⟩ := by
  have hg := reach_good hc h
  have hgi := (lawful hc).get s hg i
  cases hv : (links c).view s i with
  | none => rw [hv] at hgi; rw [hgi] at hi; cases hi
  | some p =>
    obtain ⟨s', -, -, hS⟩ := update_law hc hg hv ht i a b
    exact ⟨s', Links.updateByWith_ok hS hd st⟩

/-- The handler of `update(3, 1, 2)` on `sNet`, where 3 is (2,2), sees (3,1,2) before and after. -/
theorem C26_update_handler_is_wrong :
    (links cfg0).getLink sNet 3 = some (some ⟨3, 2, 2⟩) ∧
    ((links cfg0).updateWith sNet 3 1 2 (fun (_ : Option (Link × Link)) b a =>
      ((.cont : Ctl _root_.Unit), some (b, a))) none).map (·.hs) = some (some (⟨3, 1, 2⟩, ⟨3, 1, 2⟩)) := by
  decide +kernel

/-! ## C35 -/

/-- **C35**, united store: index 0 never names a link; updating or deleting it fails with `NotExists(0)`, and no
traversal reports a link with index 0. -/
theorem C35_null_is_never_a_link (hc : CfgOK c) {s : Store} (h : Reach c s) :
    (links c).getLink s 0 = some none ∧
    (∀ {σ ρ : Type} (hd : σ → Link → Link → Ctl ρ × σ) (st : σ) (a b : Nat),
      (links c).updateWith s 0 a b hd st = some ⟨.error (.notExists 0), s, st⟩ ∧
      (links c).deleteWith s 0 hd st = some ⟨.error (.notExists 0), s, st⟩) ∧
    ∀ q L, q.length ≤ 3 → (links c).Visits s q L → ∀ l ∈ L, l.index ≠ 0 := by
  have hg := reach_good hc h
  have hnull := (lawful hc).null s hg
  have hget : (links c).getLink s 0 = some none := by rw [(lawful hc).get s hg, hnull]; rfl
  refine ⟨hget, ?_, ?_⟩
  · intro σ ρ hd st a b
    have := C07_missing_links_fail_without_effect hc h hget hd st
    exact ⟨this.1 a b, this.2⟩
  · intro q L hq hL l hl h0
    obtain ⟨L', hL', -, hs, -⟩ := query_law hc hg q hq
    have := hL.unique hL'
    subst this
    have := (hs l hl).1
    simp only [View.Has, h0, hnull] at this
    cases this

example : Reach cfg0 sNet ∧ (links cfg0).eachIter sNet [252, 252, 2] =
    some [⟨3, 2, 2⟩, ⟨6, 3, 2⟩] := ⟨sNet_reach, by decide +kernel⟩

end Verif.Unit.Props
