import Verif.Split.Example

/-!
# Properties C30, C33, C46 and the split store parts of C26 and C35: the split store under writes

`Reach c s`: `s` is the state of a split store after any history of supported calls. `History c s tr`: the same with
the calls and their results recorded in `tr`; `replay tr` is what a map holds after them. See `Split/Reach.lean` and
`Split/History.lean` for the two definitions and the side conditions, `Spec.lean` for `view` and `Visits`.
-/

namespace Verif.Split.Props
open Verif Verif.Split

variable {c : Cfg}

/-! ## C30 -/

/-- **C30.** After every supported history the lookups return exactly what replaying the successful calls on a map
gives, and each call returned what the map at that moment allows (a fresh index, success on a present link,
`NotExists` on a missing one). -/
theorem C30_split_store_is_a_map (hc : CfgOK c) {s : Store} {tr : List (Call × Except Err Nat)}
    (h : History c s tr) :
    (∀ i, (links c).getLink s i = some ((replay tr i).map fun p => ⟨i, p.1, p.2⟩)) ∧
    ∀ pre k r suf, tr = pre ++ (k, r) :: suf → Call.Legit (replay pre) k r := by
  obtain ⟨h1, h2⟩ := history_inv hc h
  refine ⟨fun i => ?_, h2⟩
  rw [← h1.view]
  exact (lawful hc).get s ⟨_, h1.inv⟩ i

/-- A history of thirteen calls with a reference to a missing link and a deleted link that is still referred to. -/
example : History cfg0 sNet (trace cfg0 net) ∧ replay (trace cfg0 net) 4 = some (9, 1) ∧
    replay (trace cfg0 net) 5 = none ∧ replay (trace cfg0 net) 6 = some (5, 3) :=
  ⟨sNet_history, by decide +kernel⟩

/-- Every kind of call occurs, with success and failure: updating 5 fails, deleting 3 (used by 2 and 6) succeeds. -/
example : (exec cfg0 [.update 5 1 1, .delete 3, .update 6 1 2, .update 2 1 4, .delete 7] sNet).map (·.2) =
    some [.error (.notExists 5), .ok 0, .ok 6, .ok 2, .error (.notExists 7)] := by
  decide +kernel

/-- **C30**, creation: a successful creation returns an index that is not null, named no link, and lies in the
internal range; it now names a link (null, null); nothing else changed; the handler was called exactly once, with
(nothing, the new link), and its verdict and state are what the call returns. This holds even if links refer to
the new index already; if none does, the store remains a supported one. -/
theorem C30_create_returns_a_fresh_index (hc : CfgOK c) {s : Store} (h : Reach c s) (hg : GrowTogether c s)
    {σ ρ : Type} {hd : σ → Link → Link → Ctl ρ × σ} {st : σ} {o : Out Store σ (Ctl ρ)} {r : Ctl ρ}
    (ho : (links c).createWith s hd st = some o) (hr : o.res = .ok r) :
    ∃ i, i ≠ 0 ∧ c.consts.internalStart ≤ i ∧ i ≤ c.consts.internalEnd ∧ (links c).getLink s i = some none ∧
      (∀ k, (links c).view o.st k = if k = i then some (0, 0) else (links c).view s k) ∧
      (r, o.hs) = hd st Link.nothing ⟨i, 0, 0⟩ ∧
      (links c).create s = some ⟨.ok i, o.st, ()⟩ ∧
      ((∀ j a b, (links c).view s j = some (a, b) → a ≠ i ∧ b ≠ i) → Reach c o.st) := by
  obtain ⟨free, hi⟩ := reach_good hc h
  have hget := (lawful hc).get s ⟨free, hi⟩
  have fin : ∀ {i s' free'}, i ≠ 0 → i ≤ c.consts.internalEnd → Created c s free s' free' i →
      Links.Succeeds (fun _ hd st => createLinks c s [] hd st) s' Link.nothing ⟨i, 0, 0⟩ →
      ∃ i, i ≠ 0 ∧ c.consts.internalStart ≤ i ∧ i ≤ c.consts.internalEnd ∧ (links c).getLink s i = some none ∧
      (∀ k, (links c).view o.st k = if k = i then some (0, 0) else (links c).view s k) ∧
      (r, o.hs) = hd st Link.nothing ⟨i, 0, 0⟩ ∧
      (links c).create s = some ⟨.ok i, o.st, ()⟩ ∧
      ((∀ j a b, (links c).view s j = some (a, b) → a ≠ i ∧ b ≠ i) → Reach c o.st) := by
    intro i s' free' h0 hle hcr hS
    obtain ⟨hn, hv⟩ := hcr.view hc hi.toInv0
    have e : some o = _ := ho.symm.trans (Links.createByWith_ok hS hd st)
    cases e
    cases hr
    have hcre := create_of_succeeds hS
    refine ⟨i, h0, by rw [hc.start_eq]; omega, hle, ?_, fun k => congrFun hv k, rfl, hcre, fun hu => ?_⟩
    · rw [hget, hn]; rfl
    · exact .create (q := []) (h := fun (u : Unit) _ _ => (.cont, u)) (st := ()) c.dalloc c.ialloc h hc.dalloc_eq
        hc.ialloc_eq hg (fun j s2 hj => by
          have hj : (links c).create s = some ⟨.ok j, s2, ()⟩ := hj
          rw [hcre] at hj; cases hj; exact hu) (hS _ _ _)
  have hale := hi.base.alloc_le
  rcases create_cases hc hi [] with ⟨x, rest, s', hf, h1, h2, h3, h4⟩ | ⟨hf, h1, h2⟩ |
      ⟨hf, h1, h2, h3⟩ | ⟨hf, h1, h2, h3, h4⟩ | ⟨hf, h1, h2, h3, h4, h5⟩ | ⟨hf, h1, s', h2, h3, h4⟩
  · have := hi.base.list.nonzero x (by simp [hf])
    have := hi.free_lt x (by simp [hf])
    exact fin (by assumption) (by omega) h2 h1
  · have e := ho.symm.trans (Links.createByWith_err h2 hd st)
    cases e; cases hr
  · have e := ho.symm.trans (Links.createByWith_err h3 hd st)
    cases e; cases hr
  · exact absurd h3 (hg h2)
  · rw [createWith_none h5] at ho; cases ho
  · exact fin (by omega) (by omega) h3 h2

/-- In `sNet` the free index 5 is returned, although link 6 refers to it; in `sNetU` no link does. -/
example : Reach cfg0 sNet ∧ GrowTogether cfg0 sNet ∧
    ((links cfg0).create sNet).map (·.res) = some (.ok 5) ∧ Reach cfg0 sNetU ∧ GrowTogether cfg0 sNetU ∧
    ((links cfg0).create sNetU).map (·.res) = some (.ok 5) :=
  ⟨sNet_reach, fun _ => by simp [cfg0], by decide +kernel, sNetU_reach, fun _ => by simp [cfg0],
    by decide +kernel⟩

/-- **C30**, index reuse: if some index below the highest link is free, creation returns the free index whose last
deletion is the most recent, and the number of allocated slots stays the same. -/
theorem C30_most_recently_freed_first (hc : CfgOK c) {s : Store} {tr : List (Call × Except Err Nat)}
    (h : History c s tr) (hgap : ∃ k, 0 < k ∧ k < s.hdr.allocated ∧ (links c).getLink s k = some none) :
    ∃ x s', 0 < x ∧ x < s.hdr.allocated ∧ (links c).getLink s x = some none ∧
      (∀ k, 0 < k → k < s.hdr.allocated → (links c).getLink s k = some none → k ≠ x → FreedAfter tr x k) ∧
      (links c).create s = some ⟨.ok x, s', ()⟩ ∧ s'.hdr.allocated = s.hdr.allocated := by
  obtain ⟨h1, -⟩ := history_inv hc h
  have hi := h1.inv
  have hget := (lawful hc).get s ⟨_, hi⟩
  have hmem : ∀ k, 0 < k → k < s.hdr.allocated → (links c).getLink s k = some none → k ∈ (slots tr).free := by
    intro k hk0 hk hg
    have := (hget k).symm.trans hg
    rw [view_eq hc hi.toInv0] at this
    apply Classical.byContradiction
    intro hnf
    rw [if_pos ⟨hk0, by omega, hnf⟩] at this
    simp at this
  obtain ⟨k0, hk0, hk1, hk2⟩ := hgap
  have hk3 := hmem k0 hk0 hk1 hk2
  rcases create_cases hc hi [] with ⟨x, rest, s', hf, hS, hcr, hal, -⟩ |
      ⟨hf, -⟩ | ⟨hf, -⟩ | ⟨hf, -⟩ | ⟨hf, -⟩ | ⟨hf, -⟩
  · have hx0 := hi.base.list.nonzero x (by simp [hf])
    have hlt := hi.free_lt x (by simp [hf])
    obtain ⟨hx, -⟩ := hcr.view hc hi.toInv0
    refine ⟨x, s', by omega, hlt, by rw [hget, hx]; rfl, ?_, create_of_succeeds hS, hal⟩
    intro k hk0 hk1 hk2 hne
    have := hmem k hk0 hk1 hk2
    rw [hf] at this
    have hord := h1.order
    rw [hf, List.pairwise_cons] at hord
    exact hord.1 k ((List.mem_cons.1 this).resolve_left hne)
  all_goals rw [hf] at hk3; cases hk3

example : (exec cfg0 (List.replicate 6 .create ++ [.delete 2, .delete 4, .delete 3, .create, .create, .create, .create])
    (store0 cfg0)).map (fun r => r.2.drop 9) = some [.ok 3, .ok 4, .ok 2, .ok 7] := by decide +kernel

/-- **C30**, update: updating an existing link `i`, whose doublet no other link shares, to a supported source and
target succeeds: `i` now reads (i, a, b), every other index reads as before, and the call returns what the handler
returned in its only call. -/
theorem C30_update_changes_one_link (hc : CfgOK c) {s : Store} (h : Reach c s) {i : Nat} {l : Link}
    (hi : (links c).getLink s i = some (some l)) (ht : ((links c).view s).NoTwin i) (a b : Nat)
    (hab : a ≠ 0 → b ≠ 0) (hself : a = i ∨ b = i → l.source = 0)
    {σ ρ : Type} (hd : σ → Link → Link → Ctl ρ × σ) (st : σ) :
    ∃ (s' : Store) (before : Link), Reach c s' ∧
      (links c).updateWith s i a b hd st =
        some ⟨.ok (hd st before ⟨i, a, b⟩).1, s', (hd st before ⟨i, a, b⟩).2⟩ ∧
      (links c).getLink s' i = some (some ⟨i, a, b⟩) ∧
      ∀ k, k ≠ i → (links c).getLink s' k = (links c).getLink s k := by
  have hg := reach_good hc h
  have hgi := (lawful hc).get s hg i
  cases hv : (links c).view s i with
  | none => rw [hv] at hgi; rw [hgi] at hi; cases hi
  | some p =>
    rw [hv] at hgi
    rw [hgi] at hi
    cases hi
    have hu : CanUpdate ((links c).view s) i a b :=
      ⟨hab, fun hh q hq => by rw [hv] at hq; cases hq; exact hself hh⟩
    obtain ⟨s', hg', hv', hS⟩ := update_law hc hg hv ht i a b hu
    refine ⟨s', _, ?_, Links.updateByWith_ok hS hd st, ?_, ?_⟩
    · exact Reach.update (q := [i]) (ch := [i, a, b]) (h := fun (u : Unit) _ _ => (.cont, u)) (st := ()) h
        (fun j x' a' b' hj hh => by cases hj; cases hh; exact ⟨ht, hu⟩)
        (hS _ (fun (u : Unit) _ _ => (.cont, u)) ())
    · rw [(lawful hc).get s' hg', hv', View.set_same]; rfl
    · intro k hk
      rw [(lawful hc).get s' hg', hv', View.set_other _ _ hk, (lawful hc).get s hg]

/-- **C30**, deletion: deleting an existing link `i`, when neither `i` nor a link that refers to it shares its doublet,
succeeds: `i` is gone, every other index reads as before (including links that refer to `i`), and the handler was
called exactly once with (old link, nothing). -/
theorem C30_delete_removes_one_link (hc : CfgOK c) {s : Store} (h : Reach c s) {i : Nat} {l : Link}
    (hi : (links c).getLink s i = some (some l)) (ht : ((links c).view s).NoTwin i)
    (hu : ∀ j, ((links c).view s).Uses i j → ((links c).view s).NoTwin j)
    {σ ρ : Type} (hd : σ → Link → Link → Ctl ρ × σ) (st : σ) :
    ∃ s' : Store, Reach c s' ∧
      (links c).deleteWith s i hd st =
        some ⟨.ok (hd st l Link.nothing).1, s', (hd st l Link.nothing).2⟩ ∧
      (links c).getLink s' i = some none ∧
      ∀ k, k ≠ i → (links c).getLink s' k = (links c).getLink s k := by
  have hg := reach_good hc h
  have hgi := (lawful hc).get s hg i
  cases hv : (links c).view s i with
  | none => rw [hv] at hgi; rw [hgi] at hi; cases hi
  | some p =>
    rw [hv] at hgi
    rw [hgi] at hi
    cases hi
    obtain ⟨s', hg', hv', hS⟩ := delete_law hc hg hv ht hu
    refine ⟨s', ?_, Links.deleteByWith_ok hS hd st, ?_, ?_⟩
    · exact Reach.delete (q := [i]) (h := fun (u : Unit) _ _ => (.cont, u)) (st := ()) h
        (fun j hj => by cases hj; exact ⟨ht, hu⟩) (hS _ (fun (u : Unit) _ _ => (.cont, u)) ())
    · rw [(lawful hc).get s' hg', hv', View.del_same]; rfl
    · intro k hk
      rw [(lawful hc).get s' hg', hv', View.del_other _ hk, (lawful hc).get s hg]

/-- A store without duplicated doublets meets the conditions on duplicates. -/
theorem sNet_uniq : ((links cfg0).view sNet).Uniq := by
  have hg := reach_good cfg0_ok sNet_reach
  intro i p hp
  have hb := view_bound cfg0_ok hg hp
  have h6 : sNet.hdr.allocated = 6 := by decide +kernel
  have : ∀ k < 7, twinFree cfg0 sNet k = true := by decide +kernel
  exact twinFree_noTwin cfg0_ok hg (this i (by omega)) p hp

/-- Link 3 of `sNet` is (2,2) and is used by 2 and 6; link 4 is (9,1). -/
example : Reach cfg0 sNet ∧ (links cfg0).getLink sNet 3 = some (some ⟨3, 2, 2⟩) ∧
    ((links cfg0).view sNet).Uniq ∧ ((links cfg0).view sNet).Uses 3 6 ∧
    (links cfg0).getLink sNet 4 = some (some ⟨4, 9, 1⟩) :=
  ⟨sNet_reach, by decide +kernel, sNet_uniq, ⟨by decide, 5, 3, by decide +kernel, .inr rfl⟩, by decide +kernel⟩

/-- **C30**, missing links: updating or deleting an index that names no link fails with `NotExists` of that index; the
handler is not called and the store is the very same. -/
theorem C30_missing_links_fail_without_effect (hc : CfgOK c) {s : Store} (h : Reach c s) {i : Nat}
    (hi : (links c).getLink s i = some none) {σ ρ : Type} (hd : σ → Link → Link → Ctl ρ × σ) (st : σ) :
    (∀ a b, (links c).updateWith s i a b hd st = some ⟨.error (.notExists i), s, st⟩) ∧
    (links c).deleteWith s i hd st = some ⟨.error (.notExists i), s, st⟩ := by
  have hg := reach_good hc h
  have hgi := (lawful hc).get s hg i
  have hv : (links c).view s i = none := by
    cases hv : (links c).view s i with
    | none => rfl
    | some p => rw [hv, hi] at hgi; cases hgi
  exact ⟨fun a b => Links.updateByWith_err ((lawful hc).update_missing s hg i hv i a b) hd st,
    Links.deleteByWith_err ((lawful hc).delete_missing s hg i hv) hd st⟩

example : Reach cfg0 sNet ∧ ∀ i ∈ [0, 5, 7, 9, 200], (links cfg0).getLink sNet i = some none :=
  ⟨sNet_reach, by decide +kernel⟩

/-- **C30**, count: `count()` is the number of indices for which lookup returns a link. -/
theorem C30_count_is_number_of_links (hc : CfgOK c) {s : Store} (h : Reach c s) :
    ∃ n, (links c).count s = some n ∧ View.Size ((links c).view s) n := by
  obtain ⟨free, hi⟩ := reach_good hc h
  refine ⟨_, total_eq hi.base, liveList s free, nodup_liveList s free, rfl, fun i => ?_⟩
  rw [mem_liveList, view_ne_none hc hi.toInv0]

example : Reach cfg0 sNet ∧ (links cfg0).count sNet = some 5 := ⟨sNet_reach, by decide +kernel⟩

/-- **C30**, no panic: on a store after any supported history, every call that meets its side conditions returns
normally, provided the memories, if they can grow, grow together and within the index type. -/
theorem C30_calls_never_panic (hc : CfgOK c) {s : Store} (h : Reach c s) (k : Call)
    (hg : k = .create → CanGrow c s)
    (hok : ∀ i, k.subject = some i → k.SplitOK ((links c).view s) (.ok 0)) :
    ∃ o, step c c.dalloc c.ialloc s k = some o := by
  have hgood := reach_good hc h
  cases k with
  | create =>
    obtain ⟨free, hi⟩ := hgood
    have hg := hg rfl
    rcases create_cases hc hi [] with ⟨x, rest, s', hf, h1, h2, h3, h4⟩ | ⟨hf, h1, h2⟩ |
      ⟨hf, h1, h2, h3⟩ | ⟨hf, h1, h2, h3, h4⟩ | ⟨hf, h1, h2, h3, h4, h5⟩ | ⟨hf, h1, s', h2, h3, h4⟩
    · exact ⟨_, create_of_succeeds h1⟩
    · exact ⟨_, Links.create_err h2⟩
    · exact ⟨_, Links.create_err h3⟩
    · exact ⟨_, Links.create_err h4⟩
    · exact absurd (hg h2).2 (by omega)
    · exact ⟨_, create_of_succeeds h2⟩
  | update i a b =>
    have hok := hok i rfl
    show ∃ o, (links c).update s i a b = some o
    cases hv : (links c).view s i with
    | none => exact ⟨_, Links.update_err ((lawful hc).update_missing s hgood i hv i a b)⟩
    | some p =>
      obtain ⟨s', -, -, hS⟩ := update_law hc hgood hv hok.1 i a b hok.2
      exact ⟨_, Links.update_ok hS⟩
  | delete i =>
    have hok := hok i rfl
    show ∃ o, (links c).delete s i = some o
    cases hv : (links c).view s i with
    | none => exact ⟨_, Links.delete_err ((lawful hc).delete_missing s hgood i hv)⟩
    | some p =>
      obtain ⟨s', -, -, hS⟩ := delete_law hc hgood hv hok.1 hok.2
      exact ⟨_, Links.delete_ok hS⟩

example : Reach cfg0 sNet ∧ CanGrow cfg0 sNet ∧
    Call.SplitOK ((links cfg0).view sNet) (.update 6 2 3) (.ok 0) :=
  ⟨sNet_reach, fun _ => ⟨by simp [cfg0], by decide +kernel⟩, sNet_uniq 6, by decide,
    by intro h; simp at h⟩

/-! ## C26, split store -/

/-- **C26** holds for the split store: the handler of an update is called once, with the link as it was and as it
becomes. -/
theorem C26_split_update_handler_sees_the_change (hc : CfgOK c) {s : Store} (h : Reach c s) {i : Nat}
    {l : Link} (hi : (links c).getLink s i = some (some l)) (ht : ((links c).view s).NoTwin i) (a b : Nat)
    (hab : a ≠ 0 → b ≠ 0) (hself : a = i ∨ b = i → l.source = 0)
    {σ ρ : Type} (hd : σ → Link → Link → Ctl ρ × σ) (st : σ) :
    ∃ s', (links c).updateWith s i a b hd st =
        some ⟨.ok (hd st l ⟨i, a, b⟩).1, s', (hd st l ⟨i, a, b⟩).2⟩ ∧
      (links c).getLink s' i = some (some ⟨i, a, b⟩) := by
  have hg := reach_good hc h
  have hgi := (lawful hc).get s hg i
  cases hv : (links c).view s i with
  | none => rw [hv] at hgi; rw [hgi] at hi; cases hi
  | some p =>
    rw [hv] at hgi
    rw [hgi] at hi
    cases hi
    obtain ⟨s', hg', hv', hS⟩ := update_law hc hg hv ht i a b
      ⟨hab, fun hh q hq => by rw [hv] at hq; cases hq; exact hself hh⟩
    exact ⟨s', Links.updateByWith_ok hS hd st, by rw [(lawful hc).get s' hg', hv', View.set_same]; rfl⟩

example : ((links cfg0).updateWith sNet 3 1 2 (fun (_ : Option (Link × Link)) b a =>
      ((.cont : Ctl Unit), some (b, a))) none).map (·.hs) = some (some (⟨3, 2, 2⟩, ⟨3, 1, 2⟩)) := by
  decide +kernel

/-! ## C33 -/

/-- **C33.** After deleting `i`, queries for source `i` and for target `i` visit exactly the links that refer to `i`
by that end, each once. -/
theorem C33_deletion_keeps_referrers_findable (hc : CfgOK c) {s : Store} (h : Reach c s) {i : Nat} {l : Link}
    (hi : (links c).getLink s i = some (some l)) (ht : ((links c).view s).NoTwin i)
    (hu : ∀ j, ((links c).view s).Uses i j → ((links c).view s).NoTwin j) :
    ∃ s' L M, (links c).delete s i = some ⟨.ok 0, s', ()⟩ ∧
      (links c).Visits s' [c.consts.any, i, c.consts.any] L ∧ L.Nodup ∧
      (∀ k, k ∈ L ↔ k.index ≠ i ∧ (links c).getLink s k.index = some (some k) ∧ k.source = i) ∧
      (links c).Visits s' [c.consts.any, c.consts.any, i] M ∧ M.Nodup ∧
      (∀ k, k ∈ M ↔ k.index ≠ i ∧ (links c).getLink s k.index = some (some k) ∧ k.target = i) := by
  have hg := reach_good hc h
  have hget := (lawful hc).get s hg
  have hgi := hget i
  cases hv : (links c).view s i with
  | none => rw [hv] at hgi; rw [hgi] at hi; cases hi
  | some p =>
    obtain ⟨s', hg', hv', hS⟩ := delete_law hc hg hv ht hu
    have hi0 : i ≠ 0 := live_ne_zero hc hg (by rw [hv]; rfl)
    have hia : i ≠ c.consts.any := by
      intro e
      have := (lawful hc).any_absent s hg
      rw [show ((links c).consts s).any = c.consts.any from rfl, ← e, hv] at this
      cases this
    obtain ⟨L, h1, h2, h3⟩ := (lawful hc).each_source s' hg' i hi0 hia
    obtain ⟨M, h4, h5, h6⟩ := (lawful hc).each_target s' hg' i hi0 hia
    have hiff : ∀ k : Link, ((links c).view s').Has k ↔
        k.index ≠ i ∧ (links c).getLink s k.index = some (some k) := by
      intro k
      unfold View.Has
      rw [hv', hget]
      by_cases hk : k.index = i
      · rw [hk, View.del_same]; simp
      · rw [View.del_other _ hk]
        cases hvk : (links c).view s k.index with
        | none => simp
        | some q =>
          rcases k with ⟨k1, k2, k3⟩
          rcases q with ⟨q1, q2⟩
          simp only [Option.some.injEq, Prod.mk.injEq, Option.map_some, Link.mk.injEq, true_and]
          exact ⟨fun e => ⟨hk, e⟩, fun e => e.2⟩
    refine ⟨s', L, M, by rw [Links.delete_ok hS]; rfl, h1, h2, fun k => ?_, h4, h5, fun k => ?_⟩
    · rw [h3, hiff, and_assoc]
    · rw [h6, hiff, and_assoc]

/-- Deleting 3 from `sNet`: 2 = (1,3) and 6 = (5,3) are still found by target 3. -/
example : ((links cfg0).delete sNet 3).map (fun o => (links cfg0).eachIter o.st [252, 252, 3]) =
    some (some [⟨2, 1, 3⟩, ⟨6, 5, 3⟩]) := by decide +kernel

/-! ## C35, split store -/

/-- **C35**, split store: index 0 never names a link; updating or deleting it fails with `NotExists(0)`, and no
traversal (for a query that does not ask for null ends) reports a link with index 0. -/
theorem C35_split_null_is_never_a_link (hc : CfgOK c) {s : Store} (h : Reach c s) :
    (links c).getLink s 0 = some none ∧
    (∀ {σ ρ : Type} (hd : σ → Link → Link → Ctl ρ × σ) (st : σ) (a b : Nat),
      (links c).updateWith s 0 a b hd st = some ⟨.error (.notExists 0), s, st⟩ ∧
      (links c).deleteWith s 0 hd st = some ⟨.error (.notExists 0), s, st⟩) ∧
    ∀ q L, q.length ≤ 3 → NullFree c.consts.any q → (links c).Visits s q L → ∀ l ∈ L, l.index ≠ 0 := by
  have hg := reach_good hc h
  have hnull := (lawful hc).null s hg
  have hget : (links c).getLink s 0 = some none := by rw [(lawful hc).get s hg, hnull]; rfl
  refine ⟨hget, ?_, ?_⟩
  · intro σ ρ hd st a b
    have := C30_missing_links_fail_without_effect hc h hget hd st
    exact ⟨this.1 a b, this.2⟩
  · intro q L hq hnf hL l hl h0
    obtain ⟨L', hL', -, hs, -⟩ := query_law hc hg q hq hnf
    have := hL.unique hL'
    subst this
    have := (hs l hl).1
    simp only [View.Has, h0, hnull] at this
    cases this

example : Reach cfg0 sNet ∧ (links cfg0).eachIter sNet [252, 252, 1] =
    some [⟨1, 1, 1⟩, ⟨4, 9, 1⟩] := ⟨sNet_reach, by decide +kernel⟩

end Verif.Split.Props
