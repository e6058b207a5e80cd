import Verif.Props.SplitQueries

/-!
# Properties C32, C46, C47 and the counterexamples to C30, C34, C45: where the split store misbehaves
-/

namespace Verif.Split.Props
open Verif Verif.Split

variable {c : Cfg}

/-- Run calls on a store without checking any side condition. -/
def runAny (c : Cfg) : List Call → Store → Option (Store × List (Except Err Nat))
  | [], s => some (s, [])
  | k :: ks, s =>
    (step c c.dalloc c.ialloc s k).bind fun o => (runAny c ks o.st).map fun r => (r.1, o.res :: r.2)

/-! ## C32 -/

/-- **C32** is false, in every case: whenever creation returns an index `i`, queries for source `i` and for target `i`
visit nothing afterwards, even if links refer to `i` (they stay in the tree of dangling references, because
`resolve_danglind_external` looks for them only after the index became a link). -/
theorem C32_creation_hides_dangling_references (hc : CfgOK c) {s : Store} (h : Reach c s)
    {i : Nat} {s' : Store} (ho : (links c).create s = some ⟨.ok i, s', ()⟩) :
    (links c).Visits s' [c.consts.any, i, c.consts.any] [] ∧
    (links c).Visits s' [c.consts.any, c.consts.any, i] [] ∧
    ∀ j, j ≠ i → (links c).getLink s' j = (links c).getLink s j := by
  obtain ⟨free, hi⟩ := reach_good hc h
  have fin : ∀ {x s1 free'}, Created c s free s1 free' x →
      Links.Succeeds (fun _ hd st => createLinks c s [] hd st) s1 Link.nothing ⟨x, 0, 0⟩ →
      (links c).Visits s' [c.consts.any, i, c.consts.any] [] ∧
      (links c).Visits s' [c.consts.any, c.consts.any, i] [] ∧
      ∀ j, j ≠ i → (links c).getLink s' j = (links c).getLink s j := by
    intro x s1 free' hcr hS
    have e := ho.symm.trans (create_of_succeeds hS)
    cases e
    have hx := hcr.exact hi.toInv0
    have hl := (hcr.live i).2 (.inr rfl)
    have side : ∀ d, (links c).Visits s' (sideQuery c d i) [] := by
      intro d
      obtain ⟨L, g1, -, -, g4⟩ := each_side_int hc hcr.net hx d hl
      have : L = [] := List.eq_nil_iff_forall_not_mem.2 fun k hk => by
        obtain ⟨a1, a2⟩ := (g4 k).1 hk
        rw [hcr.data k a1.1] at a2
        exact hcr.fresh (a2 ▸ a1.2.2)
      subst this
      exact g1
    refine ⟨side .src, side .tgt, fun j hj => ?_⟩
    show getLink c s' j = getLink c s j
    rw [getLink_eq hc hcr.net hx, getLink_eq hc hi.net hi.exact]
    by_cases hlj : LiveIn s free j
    · rw [if_pos hlj, if_pos ((hcr.live j).2 (.inl hlj)), Store.linkAt, Store.linkAt, hcr.data j hlj]
    · rw [if_neg hlj, if_neg fun hh => ((hcr.live j).1 hh).elim hlj hj]
  rcases create_cases hc hi [] with ⟨x, rest, s1, hf, h1, h2, -⟩ | ⟨hf, h1, h2⟩ |
      ⟨hf, h1, h2, h3⟩ | ⟨hf, h1, h2, h3, h4⟩ | ⟨hf, h1, h2, h3, h4, h5⟩ | ⟨hf, h1, s1, h2, h3, -⟩
  · exact fin h2 h1
  · have e := ho.symm.trans (Links.create_err h2); cases e
  · have e := ho.symm.trans (Links.create_err h3); cases e
  · have e := ho.symm.trans (Links.create_err h4); cases e
  · rw [create_none h5] at ho; cases ho
  · exact fin h3 h2

/-- Link 6 = (5,3) of `sNet` is found by source 5. After a creation returned 5 it is still there but not found. -/
theorem C32_lost_reference : Reach cfg0 sNet ∧
    (links cfg0).collect sNet [252, 5, 252] = some [⟨6, 5, 3⟩] ∧
    ((links cfg0).create sNet).map (fun o => (o.res, (links cfg0).getLink o.st 6,
      (links cfg0).collect o.st [252, 5, 252])) = some (.ok 5, some (some ⟨6, 5, 3⟩), some []) :=
  ⟨sNet_reach, by decide +kernel, by decide +kernel⟩

/-- **C32**, the part that holds: if no link refers to the index that creation returns, every link is still found by
its source and by its target. -/
theorem C32_references_to_other_indices_survive_partial (hc : CfgOK c) {s : Store} (h : Reach c s)
    (hg : GrowTogether c s) {i : Nat} {s' : Store} (ho : (links c).create s = some ⟨.ok i, s', ()⟩)
    (hn : ∀ j a b, (links c).view s j = some (a, b) → a ≠ i ∧ b ≠ i) (v : Nat) (hv : v ≠ 0)
    (hv' : v ≠ c.consts.any) :
    ∃ L M, (links c).Visits s' [c.consts.any, v, c.consts.any] L ∧ L.Nodup ∧
      (∀ l, l ∈ L ↔ (links c).getLink s l.index = some (some l) ∧ l.source = v) ∧
      (links c).Visits s' [c.consts.any, c.consts.any, v] M ∧ M.Nodup ∧
      (∀ l, l ∈ M ↔ (links c).getLink s l.index = some (some l) ∧ l.target = v) := by
  have hcw : ∃ o : Out Store Unit (Ctl Unit), (links c).createWith s (fun (u : Unit) _ _ => (.cont, u)) () = some o ∧
      ∃ r, o.res = .ok r := by
    obtain ⟨free, hi⟩ := reach_good hc h
    rcases create_cases hc hi [] with ⟨x, rest, s1, hf, h1, h2, -⟩ | ⟨hf, h1, h2⟩ |
      ⟨hf, h1, h2, h3⟩ | ⟨hf, h1, h2, h3, h4⟩ | ⟨hf, h1, h2, h3, h4, h5⟩ | ⟨hf, h1, s1, h2, h3, -⟩
    · exact ⟨_, Links.createByWith_ok h1 _ _, _, rfl⟩
    · have e := ho.symm.trans (Links.create_err h2); cases e
    · have e := ho.symm.trans (Links.create_err h3); cases e
    · have e := ho.symm.trans (Links.create_err h4); cases e
    · rw [create_none h5] at ho; cases ho
    · exact ⟨_, Links.createByWith_ok h2 _ _, _, rfl⟩
  obtain ⟨o, hw, r, hr⟩ := hcw
  obtain ⟨i', h0, -, -, hnone, hview, -, hcre, hreach⟩ := C30_create_returns_a_fresh_index hc h hg hw hr
  have e := ho.symm.trans hcre
  cases e
  have hg' := reach_good hc (hreach hn)
  have hgs := reach_good hc h
  have hiff : ∀ l : Link, l.source = v ∨ l.target = v → (((links c).view o.st).Has l ↔
      (links c).getLink s l.index = some (some l)) := by
    intro l hl
    unfold View.Has
    rw [hview]
    by_cases hli : l.index = i
    · rw [if_pos hli, hli, hnone]
      constructor
      · intro e
        rcases l with ⟨l1, l2, l3⟩
        simp only [Option.some.injEq, Prod.mk.injEq] at e
        simp only at hl
        omega
      · intro e; cases e
    · rw [if_neg hli, (lawful hc).get s hgs]
      cases (links c).view s l.index with
      | none => simp
      | some p => rcases l with ⟨l1, l2, l3⟩; rcases p with ⟨p1, p2⟩; simp
  obtain ⟨L, h1, h2, h3⟩ := (lawful hc).each_source o.st hg' v hv hv'
  obtain ⟨M, h4, h5, h6⟩ := (lawful hc).each_target o.st hg' v hv hv'
  refine ⟨L, M, h1, h2, fun l => ?_, h4, h5, fun l => ?_⟩
  · rw [h3]
    exact ⟨fun x => ⟨(hiff l (.inl x.2)).1 x.1, x.2⟩, fun x => ⟨(hiff l (.inl x.2)).2 x.1, x.2⟩⟩
  · rw [h6]
    exact ⟨fun x => ⟨(hiff l (.inr x.2)).1 x.1, x.2⟩, fun x => ⟨(hiff l (.inr x.2)).2 x.1, x.2⟩⟩

/-- In `sNetU` creation returns 5, to which no link refers; target 2 is still found. -/
example : Reach cfg0 sNetU ∧ ((links cfg0).create sNetU).map (fun o => (o.res,
    (links cfg0).collect o.st [252, 252, 2])) = some (.ok 5, some [⟨3, 2, 2⟩, ⟨6, 3, 2⟩]) :=
  ⟨sNetU_reach, by decide +kernel⟩

/-! ## Counterexamples to C30 outside its side conditions -/

/-- **C30** needs its condition on half-null links: after `update(1, 2, 0)` link 1 is not found any more, although the
update succeeded and the link is still counted. -/
theorem C30_source_without_target_disappears :
    (runAny cfg0 [.create, .create, .update 1 2 0] (store0 cfg0)).map (fun r =>
      (r.2, (links cfg0).getLink r.1 1, (links cfg0).count r.1)) =
    some ([.ok 1, .ok 2, .ok 1], some none, some 2) := by decide +kernel

/-- **C30**/**C45** need the condition on links that come to refer to themselves: 1 = (2,2) is updated to (1,1), is there,
but is not found by its source. -/
theorem C45_self_reference_not_found :
    (runAny cfg0 [.create, .create, .update 1 2 2, .update 1 1 1] (store0 cfg0)).map (fun r =>
      (r.2, (links cfg0).getLink r.1 1, (links cfg0).collect r.1 [252, 1, 252])) =
    some ([.ok 1, .ok 2, .ok 1, .ok 1], some (some ⟨1, 1, 1⟩), some []) := by decide +kernel

/-! ## Counterexamples to C45 and C34 -/

/-- **C45** fails for null ends: on a store with a free index the query for source 0 visits 6 = (3,2), because the
fields of the header are read as the roots of the trees of link 0. -/
theorem C45_null_source_query_visits_wrong_link : Reach cfg0 sNetU ∧
    (links cfg0).collect sNetU [252, 0, 252] = some [⟨6, 3, 2⟩] := ⟨sNetU_reach, by decide +kernel⟩

/-- **C34** fails for one link and one end: 2 = (1,3) is visited by `[2, 1]` but counted 0 times. -/
theorem C34_index_and_end_miscounted : Reach cfg0 sNet ∧
    (links cfg0).collect sNet [2, 1] = some [⟨2, 1, 3⟩] ∧ (links cfg0).countBy sNet [2, 1] = some 0 :=
  ⟨sNet_reach, by decide +kernel⟩

/-- **C34** fails for a source that is no link with a target: the count ignores the target. -/
theorem C34_virtual_source_ignores_target : Reach cfg0 sNet ∧
    (links cfg0).collect sNet [252, 5, 1] = some [] ∧ (links cfg0).countBy sNet [252, 5, 1] = some 1 :=
  ⟨sNet_reach, by decide +kernel⟩

/-- **C34** fails for a source that is no link when no source dangles: the count is the free index 5. -/
theorem C34_empty_tree_counts_first_free_index : Reach cfg0 sNetU ∧
    (links cfg0).collect sNetU [252, 9, 252] = some [] ∧ (links cfg0).countBy sNetU [252, 9, 252] = some 5 :=
  ⟨sNetU_reach, by decide +kernel⟩

/-! ## C46 -/

/-- **C46** is false: if the data memory grows and the index memory does not, the failed creation leaves a store in
which every lookup of an existing link dereferences the old address of the data memory (undefined behaviour). -/
theorem C46_failed_growth_leaves_dangling_memory (hc : CfgOK c) {s : Store} (h : Reach c s)
    (hd : c.dalloc s.dlen (s.dlen + c.step) ≠ none) (hi : c.ialloc s.ilen (s.ilen + c.step) = none)
    {s' : Store} (ho : (links c).create s = some ⟨.error .allocFailed, s', ()⟩) {i : Nat} {l : Link}
    (hl : (links c).getLink s i = some (some l)) : (links c).getLink s' i = none := by
  obtain ⟨free, hv⟩ := reach_good hc h
  rcases create_cases hc hv [] with ⟨x, rest, s1, hf, h1, h2, -⟩ | ⟨hf, h1, h2⟩ |
      ⟨hf, h1, h2, h3⟩ | ⟨hf, h1, h2, h3, h4⟩ | ⟨hf, h1, h2, h3, h4, h5⟩ | ⟨hf, h1, s1, h2, h3, -⟩
  · have e := ho.symm.trans (create_of_succeeds h1); cases e
  · have e := ho.symm.trans (Links.create_err h2); cases e
  · exact absurd h2 hd
  · have e := ho.symm.trans (Links.create_err h4)
    cases e
    have hgl : getLink c s i = some (some l) := hl
    rw [getLink_eq hc hv.net hv.exact] at hgl
    have hlive : LiveIn s free i := by
      apply Classical.byContradiction
      intro hn; rw [if_neg hn] at hgl; cases hgl
    have hff : s.hdr.firstFree = 0 := by
      have := hv.base.list.first_eq; rw [hf] at this; exact this
    have hlt := live_lt hv.base hlive
    have h1 := hlive.1
    have h2 := hlive.2.1
    have h3 : s.hdr.firstFree ≠ i := by omega
    have h4 : i ≠ 0 := by omega
    show getLink c _ i = none
    simp [getLink, exists?, isUnused, Store.getI, Store.getD, hc.start_eq, h1, h2, h3, h4, hlt]
  · rw [create_none h5] at ho; cases ho
  · have e := ho.symm.trans (create_of_succeeds h2); cases e

/-- A configuration whose index memory cannot grow beyond eight slots. -/
def cfgT : Cfg := { cfg0 with ialloc := fun _ req => if req ≤ 8 then some req else none }

theorem cfgT_ok : CfgOK cfgT :=
  ⟨rfl, rfl, rfl, rfl, rfl, by decide, by decide, by decide, Ref.lawful, cfg0_ok.dalloc_eq, by
    intro len req n h
    simp only [cfgT] at h
    split at h
    · cases h; rfl
    · cases h⟩

/-- Six links fill the eight slots. -/
def sSix : Store := runs cfg0 (List.replicate 6 .create)

/-- The allocators of earlier creations do not matter. -/
theorem cfgT_history {s : Store} {tr} (h : History cfg0 s tr) (hk : tr.all (fun x => match x.1 with
    | .create => true | _ => false) = true) : History cfgT s tr := by
  induction h with
  | fresh d i hd hi h => exact .fresh d i hd hi h
  | call d i k h hd hi hg ho hok ih =>
    rw [List.all_append, Bool.and_eq_true] at hk
    cases k with
    | create => exact .call d i .create (ih hk.1) hd hi hg ho hok
    | update => simp at hk
    | delete => simp at hk
  | reopen d i n m h hd hi hin hlt ih => exact .reopen d i n m (ih hk) hd hi hin hlt

/-- The hypotheses of the theorem above are met: the seventh creation fails, and then link 3 cannot be read. -/
example : Reach cfgT sSix ∧ (links cfgT).getLink sSix 3 = some (some ⟨3, 0, 0⟩) ∧
    cfgT.dalloc sSix.dlen (sSix.dlen + cfgT.step) ≠ none ∧
    cfgT.ialloc sSix.ilen (sSix.ilen + cfgT.step) = none ∧
    ((links cfgT).create sSix).map (fun o => (o.res, (links cfgT).getLink o.st 3)) =
      some (.error .allocFailed, none) := by
  exact ⟨(cfgT_history (runs_history (by decide +kernel)) (by decide +kernel)).reach cfgT_ok, by decide +kernel, by decide +kernel,
    by decide +kernel, by decide +kernel⟩

/-- **C46**, the part that holds: if the memories can only grow together, a failed creation leaves the very same store
and does not call the handler; either every index of the internal range is in use, or the data memory could
not grow. -/
theorem C46_failed_create_has_no_effect_partial (hc : CfgOK c) {s : Store} (h : Reach c s)
    (hg : GrowTogether c s)
    {σ ρ : Type} {hd : σ → Link → Link → Ctl ρ × σ} {st : σ} {o : Out Store σ (Ctl ρ)} {e : Err}
    (ho : (links c).createWith s hd st = some o) (hr : o.res = .error e) :
    o.st = s ∧ o.hs = st ∧
    ((e = .limitReached c.consts.internalEnd ∧
        ∀ i, c.consts.internalStart ≤ i → i ≤ c.consts.internalEnd → (links c).getLink s i ≠ some none) ∨
     (e = .allocFailed ∧ c.dalloc s.dlen (s.dlen + c.step) = none)) := by
  obtain ⟨free, hi⟩ := reach_good hc h
  have hget := (lawful hc).get s ⟨free, hi⟩
  rcases create_cases hc hi [] with ⟨x, rest, s', hf, h1, h2, h3, h4⟩ | ⟨hf, h1, h2⟩ |
      ⟨hf, h1, h2, h3⟩ | ⟨hf, h1, h2, h3, h4⟩ | ⟨hf, h1, h2, h3, h4, h5⟩ | ⟨hf, h1, s', h2, h3, h4⟩
  · have e := ho.symm.trans (Links.createByWith_ok h1 hd st); cases e; cases hr
  · have e := ho.symm.trans (Links.createByWith_err h2 hd st); cases e; cases hr
    refine ⟨rfl, rfl, .inl ⟨rfl, fun i g1 g2 g3 => ?_⟩⟩
    rw [hget, view_eq hc hi.toInv0, if_pos ⟨by rw [hc.start_eq] at g1; exact g1, by omega, by simp [hf]⟩] at g3
    cases g3
  · have e := ho.symm.trans (Links.createByWith_err h3 hd st); cases e; cases hr
    exact ⟨rfl, rfl, .inr ⟨rfl, h2⟩⟩
  · exact absurd h3 (hg h2)
  · rw [createWith_none h5] at ho; cases ho
  · have e := ho.symm.trans (Links.createByWith_ok h2 hd st); cases e; cases hr

/-- A store whose internal range has six indices, full. -/
example : let c := { cfg0 with consts := { Verif.Unit.consts0 with internalEnd := 6 } }
    ((links c).create (runs c (List.replicate 6 .create))).map (·.res) = some (.error (.limitReached 6)) := by
  decide +kernel

/-! ## C47 -/

/-- Two good stores with the same contents answer queries alike. -/
theorem visits_of_view (hc : CfgOK c) {s s' : Store} (h : Good c s) (h' : Good c s')
    (hv : (links c).view s' = (links c).view s) (q : List Nat) (hq : q.length ≤ 3)
    (hn : NullFree c.consts.any q) :
    ∃ L M, (links c).Visits s q L ∧ (links c).Visits s' q M ∧ L.length = M.length ∧
      (¬ IsPair c.consts.any q ∨ ((links c).view s).Uniq → L.Perm M) := by
  obtain ⟨L, a1, -, a3, a4, a5, -⟩ := query_law hc h q hq hn
  obtain ⟨M, b1, -, b3, b4, b5, -⟩ := query_law hc h' q hq hn
  rw [hv] at b3 b4 b5
  have hnp : ¬ IsPair c.consts.any q → L.Perm M := fun hp =>
    perm_of_counts (fun l hl => (a3 l hl).1) (fun l hl => (b3 l hl).1) (a4 hp) (b4 hp)
  by_cases hp : IsPair c.consts.any q
  · obtain ⟨a6, a7⟩ := a5 hp
    obtain ⟨b6, b7⟩ := b5 hp
    obtain ⟨x, y, rfl, hx, hy⟩ := hp
    have hx0 : x ≠ 0 := hn rfl x (by simp)
    match L, M, a3, b3, a6, b6 with
    | [], [], _, _, _, _ => exact ⟨[], [], a1, b1, rfl, fun _ => .nil⟩
    | [], m :: _, _, b3, _, _ => exact absurd rfl (a7 ⟨m, b3 m (by simp)⟩)
    | l :: _, [], a3, _, _, _ => exact absurd rfl (b7 ⟨l, a3 l (by simp)⟩)
    | [l], [m], a3, b3, _, _ =>
      refine ⟨[l], [m], a1, b1, rfl, ?_⟩
      rintro (hnp | hu)
      · exact absurd ⟨x, y, rfl, hx, hy⟩ hnp
      · obtain ⟨l1, l2⟩ := a3 l (by simp)
        obtain ⟨m1, m2⟩ := b3 m (by simp)
        have l3 := l2.2.1.resolve_left hx
        have l4 := l2.2.2.resolve_left hy
        have m3 := m2.2.1.resolve_left hx
        have m4 := m2.2.2.resolve_left hy
        unfold View.Has at l1 m1
        rw [l3, l4] at l1
        rw [m3, m4] at m1
        have := hu m.index _ m1 (by simp [hx0]) l.index l1
        have : l = m := by cases l; cases m; simp_all
        rw [this]
    | _ :: _ :: _, _, _, _, a6, _ => simp at a6
    | _, _ :: _ :: _, _, _, _, b6 => simp at b6
  · exact ⟨L, M, a1, b1, (hnp hp).length_eq, fun _ => hnp hp⟩

/-- **C47** (partial: the memory mapped afterwards must cover all links). Opening a split store on the memories left
by any supported history gives a store with the same lookups, the same number of links, queries that visit the
same links, and the same next index (whenever the creation succeeds on both). -/
theorem C47_split_reopen_partial (hc : CfgOK c) {s s' : Store} (h : Reach c s) {n m : Nat}
    (ho : init c { s with dlen := n, ilen := m } = some (.ok s')) (hlt : s.hdr.allocated < s'.ilen) :
    Reach c s' ∧ (∀ i, (links c).getLink s' i = (links c).getLink s i) ∧
    (links c).count s' = (links c).count s ∧
    (∀ q, q.length ≤ 3 → NullFree c.consts.any q → ∃ L M,
      (links c).Visits s q L ∧ (links c).Visits s' q M ∧ L.length = M.length ∧
      (¬ IsPair c.consts.any q ∨ ((links c).view s).Uniq → L.Perm M)) ∧
    (∀ i i' t t', (links c).create s = some ⟨.ok i, t, ()⟩ → (links c).create s' = some ⟨.ok i', t', ()⟩ →
      i = i') := by
  obtain ⟨free, hi⟩ := reach_good hc h
  obtain ⟨hi', ha, hd⟩ := init_reopen hc hi ho hlt
  have hv : (links c).view s' = (links c).view s := by
    funext k
    rw [view_eq hc hi'.toInv0, view_eq hc hi.toInv0, hd]
    by_cases hk : LiveIn s free k
    · rw [if_pos hk, if_pos ⟨hk.1, by rw [ha]; exact hk.2.1, hk.2.2⟩]
    · rw [if_neg hk, if_neg fun hk' => hk ⟨hk'.1, by rw [← ha]; exact hk'.2.1, hk'.2.2⟩]
  refine ⟨.reopen c.dalloc c.ialloc n m h hc.dalloc_eq hc.ialloc_eq ho hlt, fun i => ?_, ?_,
    fun q hq hn => visits_of_view hc ⟨_, hi⟩ ⟨_, hi'⟩ hv q hq hn, ?_⟩
  · rw [(lawful hc).get s' ⟨_, hi'⟩, (lawful hc).get s ⟨_, hi⟩, hv]
  · show total s' = total s
    rw [total_eq hi'.base, total_eq hi.base]
    simp only [liveList, ha]
  · intro i i' t t' h1 h2
    rcases create_cases hc hi [] with ⟨x, rest, s1, hf, hS, -⟩ | ⟨-, -, e⟩ |
      ⟨-, -, -, e⟩ | ⟨-, -, -, -, e⟩ | ⟨-, -, -, -, -, e⟩ | ⟨hf, -, s1, hS, -⟩
    · rcases create_cases hc hi' [] with ⟨x', rest', s1', hf', hS', -⟩ | ⟨hf', -⟩ |
        ⟨hf', -⟩ | ⟨hf', -⟩ | ⟨hf', -⟩ | ⟨hf', -⟩
      · rw [create_of_succeeds hS] at h1; cases h1
        rw [create_of_succeeds hS'] at h2; cases h2
        rw [hf] at hf'; cases hf'; rfl
      all_goals rw [hf] at hf'; cases hf'
    · have e := h1.symm.trans (Links.create_err e); cases e
    · have e := h1.symm.trans (Links.create_err e); cases e
    · have e := h1.symm.trans (Links.create_err e); cases e
    · rw [create_none e] at h1; cases h1
    · rcases create_cases hc hi' [] with ⟨x', rest', s1', hf', -⟩ | ⟨-, -, e⟩ |
        ⟨-, -, -, e⟩ | ⟨-, -, -, -, e⟩ | ⟨-, -, -, -, -, e⟩ | ⟨hf', -, s1', hS', -⟩
      · rw [hf] at hf'; cases hf'
      · have e := h2.symm.trans (Links.create_err e); cases e
      · have e := h2.symm.trans (Links.create_err e); cases e
      · have e := h2.symm.trans (Links.create_err e); cases e
      · rw [create_none e] at h2; cases h2
      · rw [create_of_succeeds hS] at h1; cases h1
        rw [create_of_succeeds hS'] at h2; cases h2
        rw [ha]

/-- Reopening `sNet` (6 links, 8 slots) meets the hypotheses. -/
example : Reach cfg0 sNet ∧ (init cfg0 { sNet with dlen := 0, ilen := 0 }).map (fun r => match r with
    | .ok s' => decide (sNet.hdr.allocated < s'.ilen) && ((links cfg0).getLink s' 6 == some (some ⟨6, 5, 3⟩))
    | .error _ => false) = some true := ⟨sNet_reach, by decide +kernel⟩

/-- Eight links: the number is a multiple of `SIZE_STEP`. -/
def sEight : Store := runs cfg0 (List.replicate 8 .create)

/-- **C47** fails in general: when the number of links is a multiple of `SIZE_STEP`, opening the memories maps exactly
that many slots although slot 0 is the header, and looking up the last link is then out of bounds. -/
theorem C47_reopen_can_lose_the_last_link :
    ∃ s', Reach cfg0 sEight ∧ (links cfg0).getLink sEight 8 = some (some ⟨8, 0, 0⟩) ∧
      init cfg0 { sEight with dlen := 0, ilen := 0 } = some (.ok s') ∧ (links cfg0).getLink s' 8 = none := by
  refine ⟨{ sEight with dlen := 8, ilen := 8, stale := false, hdr := { sEight.hdr with reserved := 7 } },
    runs_reach (by decide +kernel), by decide +kernel, ?_, by decide +kernel⟩
  have : sEight.hdr.allocated = 8 := by decide +kernel
  unfold init
  simp [this, cfg0, csub, align]

end Verif.Split.Props
