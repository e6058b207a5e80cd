import Verif.Grounded
import Verif.Props.WeakTrees

/-!
# C122: in the hands of a careful client every link is a nested pair
-/

namespace Verif

/-- A way to check which nested pairs are there. -/
theorem pairs_iff {v : View} (hu : v.Uniq) (h0 : v 0 = none) {L : List (Nat × Nest)}
    (hL : ∀ p ∈ L, Denotes v p.2 p.1 ∧ p.2.collapse = p.2) (hall : ∀ i, v i ≠ none → ∃ e, (i, e) ∈ L) (e : Nest) :
    v.Pairs e ↔ e ∈ L.map (·.2) := by
  constructor
  · rintro ⟨hc, i, hi⟩
    obtain ⟨u, hm⟩ := hall i hi.live
    obtain ⟨h1, h2⟩ := hL _ hm
    rw [hi.same hu h0 hc h2 h1]
    exact List.mem_map.2 ⟨_, hm, rfl⟩
  · intro h
    obtain ⟨p, hp, rfl⟩ := List.mem_map.1 h
    exact ⟨(hL p hp).2, p.1, (hL p hp).1⟩

theorem samePairs_of {v w : View} {r : Nat → Nat} {L M : List Nest} (hv : ∀ e, v.Pairs e ↔ e ∈ L) (hw : ∀ e, w.Pairs e ↔ e ∈ M)
    (h : L.map (Nest.rename r) = M) (hr : ∀ i j, v i = some (i, i) → v j = some (j, j) → r i = r j → i = j) : SamePairs r v w := by
  refine ⟨fun e he => (hw _).2 (h ▸ List.mem_map.2 ⟨e, (hv e).1 he, rfl⟩), fun e he => ?_, hr⟩
  have := (hw e).1 he
  rw [← h] at this
  obtain ⟨u, h1, h2⟩ := List.mem_map.1 this
  exact ⟨u, (hv u).2 h1, h2⟩

/-- Following a cycle does not end. -/
theorem readNest_cycle {S : Type} {D : Links S} {s : S} {i j : Nat} (hij : i ≠ j) (hi : D.getLink s i = some (some ⟨i, j, j⟩))
    (hj : D.getLink s j = some (some ⟨j, i, i⟩)) : ∀ fuel, D.readNest fuel i s = none ∧ D.readNest fuel j s = none
  | 0 => ⟨rfl, rfl⟩
  | f + 1 => by
    obtain ⟨h1, h2⟩ := readNest_cycle hij hi hj f
    have h3 : ¬ (j = i ∧ j = i) := fun h => hij h.1.symm
    have h4 : ¬ (i = j ∧ i = j) := fun h => hij h.1
    exact ⟨by simp [Links.readNest, hi, h2, Ne.symm hij], by simp [Links.readNest, hj, h1, hij]⟩

end Verif

namespace Verif.Unit.Props
open Verif Verif.Unit

variable {c c' : Cfg}

theorem grounded_client (hc : CfgOK₀ c) {s : Store} (h : Client c s) :
    ReachU c s ∧ ((links c).view s).Sound ∧ ((links c).view s).Grounded := by
  have hc' := hc.mend
  refine ⟨(weak_client hc h).1, (weak_client hc h).2, ?_⟩
  induction h with
  | @fresh a s ha h =>
    obtain ⟨h1, h2⟩ := init_fresh (hc'.withAlloc ha) h
    have : (links c).view s = View.empty := by
      rw [← view_mend]
      funext k
      rw [view_eq hc' h1.ofAlloc.toInv0, if_neg]
      · rfl
      · intro hl; have := hl.1; have := hl.2.1; omega
    rw [this]; exact .empty
  | @act a k s o hcl ha hg hk ho ih =>
    obtain ⟨w1, w2⟩ := weak_client hc hcl
    have hv : (links (c.withAlloc a)).view s = (links c).view s := view_withAlloc s a
    obtain ⟨o', h1, h2, h3⟩ := Links.act_law (weakLawful (weak_withAlloc hc ha)) (reachU_withAlloc a w1) hg
      (fun v i x y h h' _ => by show ((v.set i (0, 0)).set i (x, y)).Uniq; rw [View.set_set]; exact h.uniq.add h')
      (hv ▸ w2) (k := k) (hv ▸ hk)
    rw [ho] at h1; cases h1
    rw [view_withAlloc, view_withAlloc] at h3
    exact View.Grounded.act h3 hk ih
  | @reopen a n s s' hcl ha hin hlt ih =>
    obtain ⟨free, ts, tt, hi⟩ := reach_good hc' (reachU_mend hc (weak_client hc hcl).1).1
    obtain ⟨h1, h2, h3⟩ := init_reopen (hc'.withAlloc ha) (hi.withAlloc a) hin hlt
    have : (links c).view s' = (links c).view s := by
      rw [← view_mend (c := c) s', ← view_mend (c := c) s]
      funext k
      rw [view_eq hc' h1.ofAlloc.toInv0, view_eq hc' hi.toInv0, h3]
      by_cases hk : LiveIn s free k
      · rw [if_pos hk, if_pos ⟨hk.1, by rw [h2]; exact hk.2.1, hk.2.2⟩]
      · rw [if_neg hk, if_neg fun hk' => hk ⟨hk'.1, by rw [← h2]; exact hk'.2.1, hk'.2.2⟩]
    rw [this]; exact ih

/-- **C122**, united store. In the hands of a careful client (C51) every link stands for a nested pair of points: a point for itself, any
other link for the pair of what its ends stand for. Different links stand for different nested pairs. A client that follows sources and
targets gets to the end: it reads what a link stands for without going deeper than there are links. -/
theorem C122_every_link_is_a_nested_pair (hc : CfgOK₀ c) {s : Store} (h : Client c s) : ∃ E, Unfolds (links c) s E := by
  obtain ⟨h1, h2, h3⟩ := grounded_client hc h
  exact Links.unfold_law (weakLawful hc) h1 h2 h3

/-- **C122**, two united stores, of any index types and tree crates. If the same nested pairs are there, up to the names of the points,
then the contents are the same up to the numbers of the links, whatever the histories were. -/
theorem C122_contents_up_to_numbers (hc : CfgOK₀ c) (hc' : CfgOK₀ c') {s t : Store} (hs : Client c s) (ht : Client c' t) {r : Nat → Nat}
    (h : SamePairs r ((links c).view s) ((links c').view t)) :
    ∃ f g, Renumbered r ((links c).view s) ((links c').view t) f g := by
  obtain ⟨h1, h2, h3⟩ := grounded_client hc hs
  obtain ⟨k1, k2, k3⟩ := grounded_client hc' ht
  exact h3.renumber h2 k2 k3 ((weakLawful hc).null s h1) ((weakLawful hc').null t k1) h

/-- Two points, the link between them, and a link from that to the first point. -/
def actsA : List Act := [.point, .point, .pair 1 2, .pair 3 1]

/-- The same with a point in between that is removed again: the numbers are higher by one. -/
def actsB : List Act := [.point, .point, .point, .pair 2 3, .pair 4 2, .remove 1]

def sActsA : Store := (execS actsA (store0 cfgS)).getD {}
def sActsB : Store := (execS actsB (store0 cfgS)).getD {}

theorem execS_get {ks : List Act} (h : (execS ks (store0 cfgS)).isSome = true) : Client cfgS ((execS ks (store0 cfgS)).getD {}) := by
  have h0 : Client cfgS (store0 cfgS) := .fresh (c := cfgS) cfgS.alloc alloc0_good rfl
  cases e : execS ks (store0 cfgS) with
  | none => rw [e] at h; cases h
  | some s => exact execS_client ks h0 e

theorem sActsA_client : Client cfgS sActsA := execS_get (by decide +kernel)
theorem sActsB_client : Client cfgS sActsB := execS_get (by decide +kernel)

/-- The nested pairs of the example, with the links that stand for them; `n` is added to the numbers. -/
def table (n : Nat) : List (Nat × Nest) :=
  [(n + 1, .item (n + 1)), (n + 2, .item (n + 2)), (n + 3, .pair (.item (n + 1)) (.item (n + 2))),
    (n + 4, .pair (.pair (.item (n + 1)) (.item (n + 2))) (.item (n + 1)))]

theorem table_denotes {v : View} {n : Nat} (h1 : v (n + 1) = some (n + 1, n + 1)) (h2 : v (n + 2) = some (n + 2, n + 2))
    (h3 : v (n + 3) = some (n + 1, n + 2)) (h4 : v (n + 4) = some (n + 3, n + 1)) :
    ∀ p ∈ table n, Denotes v p.2 p.1 ∧ p.2.collapse = p.2 := by
  intro p hp
  have d1 : Denotes v (.item (n + 1)) (n + 1) := ⟨rfl, h1⟩
  have d2 : Denotes v (.item (n + 2)) (n + 2) := ⟨rfl, h2⟩
  have d3 : Denotes v (.pair (.item (n + 1)) (.item (n + 2))) (n + 3) := ⟨_, _, d1, d2, h3⟩
  simp [table] at hp
  rcases hp with rfl | rfl | rfl | rfl
  · exact ⟨d1, rfl⟩
  · exact ⟨d2, rfl⟩
  · exact ⟨d3, by simp [Nest.collapse]⟩
  · exact ⟨⟨_, _, d3, d1, h4⟩, by simp [Nest.collapse]⟩

theorem table_all {n i : Nat} (h : n < i ∧ i ≤ n + 4) : ∃ e, (i, e) ∈ table n := by
  have : i = n + 1 ∨ i = n + 2 ∨ i = n + 3 ∨ i = n + 4 := by omega
  rcases this with rfl | rfl | rfl | rfl <;> simp [table]

theorem table_rename : ((table 0).map (·.2)).map (Nest.rename (· + 1)) = (table 1).map (·.2) := by decide +kernel

theorem unit_table {n : Nat} {s : Store} (h : Client cfgS s)
    (hb : ((links cfgS).collect s []).map (·.all fun l => decide (n < l.index ∧ l.index ≤ n + 4)) = some true)
    (h1 : (links cfgS).view s (n + 1) = some (n + 1, n + 1)) (h2 : (links cfgS).view s (n + 2) = some (n + 2, n + 2))
    (h3 : (links cfgS).view s (n + 3) = some (n + 1, n + 2)) (h4 : (links cfgS).view s (n + 4) = some (n + 3, n + 1)) (e : Nest) :
    ((links cfgS).view s).Pairs e ↔ e ∈ (table n).map (·.2) := by
  obtain ⟨w1, w2⟩ := weak_client cfgS_ok h
  refine pairs_iff w2.uniq ((weakLawful cfgS_ok).null s w1) (table_denotes h1 h2 h3 h4) (fun i hi => ?_) e
  obtain ⟨⟨a, b⟩, hi⟩ := Option.ne_none_iff_exists'.1 hi
  exact table_all (of_decide_eq_true (forall_of_collect (weakLawful cfgS_ok) w1 hb hi))

theorem pairsA (e : Nest) : ((links cfgS).view sActsA).Pairs e ↔ e ∈ (table 0).map (·.2) :=
  unit_table sActsA_client (by decide +kernel) (by decide +kernel) (by decide +kernel) (by decide +kernel) (by decide +kernel) e

example : CfgOK₀ cfgS ∧ Client cfgS sActsA ∧ Client cfgS sActsB ∧
    SamePairs (· + 1) ((links cfgS).view sActsA) ((links cfgS).view sActsB) ∧
    (List.range 7).map ((links cfgS).view sActsB) = [none, none, some (2, 2), some (3, 3), some (2, 3), some (4, 2), none] ∧
    (links cfgS).readNest 4 5 sActsB = some (.ok (.pair (.pair (.item 2) (.item 3)) (.item 2))) :=
  ⟨cfgS_ok, sActsA_client, sActsB_client,
    samePairs_of pairsA (unit_table (n := 1) sActsB_client (by decide +kernel) (by decide +kernel) (by decide +kernel) (by decide +kernel)
      (by decide +kernel)) table_rename (fun i j _ _ h => by simpa using h),
    by decide +kernel, by decide +kernel⟩

/-- Two links that refer to each other: 1 = (2,2) and 2 = (1,1). -/
def sCycle : Store := runs cfg0 [.create, .create, .update 1 2 2, .update 2 1 1]

theorem sCycle_reach : Reach cfg0 sCycle := runs_reach (by decide +kernel)

theorem sCycle_view {k : Nat} {p : Nat × Nat} (h : (links cfg0).view sCycle k = some p) : (k = 1 ∧ p = (2, 2)) ∨ k = 2 ∧ p = (1, 1) := by
  have := forall_of_collect (reachLawful cfg0_ok) sCycle_reach
    (p := fun l => l == ⟨1, 2, 2⟩ || l == ⟨2, 1, 1⟩) (by decide +kernel) (j := k) (x := p.1) (y := p.2) h
  simp at this
  rcases this with ⟨h1, h2, h3⟩ | ⟨h1, h2, h3⟩
  · exact .inl ⟨h1, Prod.ext h2 h3⟩
  · exact .inr ⟨h1, Prod.ext h2 h3⟩

/-- **C122** is about clients that do not update: updates can make two links refer to each other, without duplicates and without
references to links that do not exist. Following the ends then never gets to an end. -/
theorem C122_updates_make_cycles : Reach cfg0 sCycle ∧ ((links cfg0).view sCycle).Sound ∧
    (links cfg0).getLink sCycle 1 = some (some ⟨1, 2, 2⟩) ∧ (links cfg0).getLink sCycle 2 = some (some ⟨2, 1, 1⟩) ∧
    ∀ fuel, (links cfg0).readNest fuel 1 sCycle = none := by
  have h1 : (links cfg0).getLink sCycle 1 = some (some ⟨1, 2, 2⟩) := by decide +kernel
  have h2 : (links cfg0).getLink sCycle 2 = some (some ⟨2, 1, 1⟩) := by decide +kernel
  refine ⟨sCycle_reach, ⟨fun i j p hi hj => ?_, fun i a b hi => ?_⟩, h1, h2, fun f => (readNest_cycle (by decide) h1 h2 f).1⟩
  · rcases sCycle_view hi with ⟨h1, h2⟩ | ⟨h1, h2⟩ <;> rcases sCycle_view hj with ⟨h3, h4⟩ | ⟨h3, h4⟩
    · rw [h1, h3]
    · rw [h2] at h4; cases h4
    · rw [h2] at h4; cases h4
    · rw [h1, h3]
  · have l1 : (links cfg0).view sCycle 1 ≠ none := by decide +kernel
    have l2 : (links cfg0).view sCycle 2 ≠ none := by decide +kernel
    rcases sCycle_view hi with ⟨-, h2⟩ | ⟨-, h2⟩ <;> cases h2
    · exact ⟨l2, l2⟩
    · exact ⟨l1, l1⟩

end Verif.Unit.Props

namespace Verif.Split.Props
open Verif Verif.Split

variable {c c' : Cfg}

theorem grounded_client (hc : CfgOK₀ c) {s : Store} (h : Client c s) :
    ReachU c s ∧ ((links c).view s).Sound ∧ ((links c).view s).Grounded := by
  have hc' := hc.mend
  refine ⟨(weak_client hc h).1, (weak_client hc h).2, ?_⟩
  induction h with
  | @fresh d i s hd hi h =>
    have h' : init (c.mend.withAllocs d i) {} = some (.ok s) := h
    obtain ⟨h1, h2⟩ := init_fresh (hc'.withAllocs hd hi) h'
    have : (links c).view s = View.empty := by
      rw [← view_mend]
      funext k
      rw [view_eq hc' h1.ofAllocs.toInv0, if_neg]
      · rfl
      · intro hl; have := hl.1; have := hl.2.1; omega
    rw [this]; exact .empty
  | @act d i k s o hcl hd hi hg hk ho ih =>
    obtain ⟨w1, w2⟩ := weak_client hc hcl
    obtain ⟨o', h1, h2, h3⟩ := weak_act (hc.withAllocs hd hi) (reachU_withAllocs d i w1)
      (by rw [view_withAllocs]; exact w2) hg (k := k) (by rw [view_withAllocs]; exact hk)
    rw [ho] at h1; cases h1
    rw [view_withAllocs, view_withAllocs] at h3
    exact View.Grounded.act h3 hk ih
  | @reopen d i n m s s' hcl hd hi hin hlt ih =>
    have h' : init (c.mend.withAllocs d i) { s with dlen := n, ilen := m } = some (.ok s') := hin
    obtain ⟨free, hf⟩ := reach_good hc' (reachU_mend hc (weak_client hc hcl).1).1
    obtain ⟨h1, h2, h3⟩ := init_reopen (hc'.withAllocs hd hi) (hf.withAllocs d i) h' hlt
    have : (links c).view s' = (links c).view s := by
      rw [← view_mend (c := c) s', ← view_mend (c := c) s]
      funext k
      rw [view_eq hc' h1.ofAllocs.toInv0, view_eq hc' hf.toInv0, h3]
      by_cases hk : LiveIn s free k
      · rw [if_pos hk, if_pos ⟨hk.1, by rw [h2]; exact hk.2.1, hk.2.2⟩]
      · rw [if_neg hk, if_neg fun hk' => hk ⟨hk'.1, by rw [← h2]; exact hk'.2.1, hk'.2.2⟩]
    rw [this]; exact ih

/-- **C122**, split store: as for the united store. -/
theorem C122_split_every_link_is_a_nested_pair (hc : CfgOK₀ c) {s : Store} (h : Client c s) : ∃ E, Unfolds (links c) s E := by
  obtain ⟨h1, h2, h3⟩ := grounded_client hc h
  exact Links.unfold_law (weakLawful hc) h1 h2 h3

/-- **C122**, two split stores: as for two united stores. -/
theorem C122_split_contents_up_to_numbers (hc : CfgOK₀ c) (hc' : CfgOK₀ c') {s t : Store} (hs : Client c s) (ht : Client c' t)
    {r : Nat → Nat} (h : SamePairs r ((links c).view s) ((links c').view t)) :
    ∃ f g, Renumbered r ((links c).view s) ((links c').view t) f g := by
  obtain ⟨h1, h2, h3⟩ := grounded_client hc hs
  obtain ⟨k1, k2, k3⟩ := grounded_client hc' ht
  exact h3.renumber h2 k2 k3 ((weakLawful hc).null s h1) ((weakLawful hc').null t k1) h

/-- **C122**, a united and a split store: as for two united stores. -/
theorem C122_contents_up_to_numbers_across_stores {u : Unit.Cfg} (hu : Unit.CfgOK₀ u) (hc : CfgOK₀ c) {s : Unit.Store} {t : Store}
    (hs : Unit.Props.Client u s) (ht : Client c t) {r : Nat → Nat} (h : SamePairs r ((Unit.links u).view s) ((links c).view t)) :
    ∃ f g, Renumbered r ((Unit.links u).view s) ((links c).view t) f g := by
  obtain ⟨h1, h2, h3⟩ := Unit.Props.grounded_client hu hs
  obtain ⟨k1, k2, k3⟩ := grounded_client hc ht
  exact h3.renumber h2 k2 k3 ((Unit.weakLawful hu).null s h1) ((weakLawful hc).null t k1) h

def sActsA : Store := (execS Verif.Unit.Props.actsA (store0 cfgS)).getD {}
def sActsB : Store := (execS Verif.Unit.Props.actsB (store0 cfgS)).getD {}

theorem execS_get {ks : List Act} (h : (execS ks (store0 cfgS)).isSome = true) : Client cfgS ((execS ks (store0 cfgS)).getD {}) := by
  have h0 : Client cfgS (store0 cfgS) :=
    .fresh (c := cfgS) cfgS.dalloc cfgS.ialloc cfgS_ok.dalloc_eq cfgS_ok.ialloc_eq rfl
  cases e : execS ks (store0 cfgS) with
  | none => rw [e] at h; cases h
  | some s => exact execS_client ks h0 e

theorem sActsA_client : Client cfgS sActsA := execS_get (by decide +kernel)
theorem sActsB_client : Client cfgS sActsB := execS_get (by decide +kernel)

theorem split_table {n : Nat} {s : Store} (h : Client cfgS s)
    (hb : ((links cfgS).collect s []).map (·.all fun l => decide (n < l.index ∧ l.index ≤ n + 4)) = some true)
    (h1 : (links cfgS).view s (n + 1) = some (n + 1, n + 1)) (h2 : (links cfgS).view s (n + 2) = some (n + 2, n + 2))
    (h3 : (links cfgS).view s (n + 3) = some (n + 1, n + 2)) (h4 : (links cfgS).view s (n + 4) = some (n + 3, n + 1)) (e : Nest) :
    ((links cfgS).view s).Pairs e ↔ e ∈ (Unit.Props.table n).map (·.2) := by
  obtain ⟨w1, w2⟩ := weak_client cfgS_ok h
  refine pairs_iff w2.uniq ((weakLawful cfgS_ok).null s w1) (Unit.Props.table_denotes h1 h2 h3 h4) (fun i hi => ?_) e
  obtain ⟨⟨a, b⟩, hi⟩ := Option.ne_none_iff_exists'.1 hi
  exact Unit.Props.table_all (of_decide_eq_true (forall_of_collect (weakLawful cfgS_ok) w1 hb hi))

theorem pairsB (e : Nest) : ((links cfgS).view sActsB).Pairs e ↔ e ∈ (Unit.Props.table 1).map (·.2) :=
  split_table sActsB_client (by decide +kernel) (by decide +kernel) (by decide +kernel) (by decide +kernel) (by decide +kernel) e

example : CfgOK₀ cfgS ∧ Client cfgS sActsA ∧ Client cfgS sActsB ∧
    SamePairs (· + 1) ((links cfgS).view sActsA) ((links cfgS).view sActsB) ∧
    SamePairs (· + 1) ((Unit.links Unit.Props.cfgS).view Unit.Props.sActsA) ((links cfgS).view sActsB) ∧
    (links cfgS).readNest 4 5 sActsB = some (.ok (.pair (.pair (.item 2) (.item 3)) (.item 2))) :=
  ⟨cfgS_ok, sActsA_client, sActsB_client,
    samePairs_of (split_table (n := 0) sActsA_client (by decide +kernel) (by decide +kernel) (by decide +kernel) (by decide +kernel)
      (by decide +kernel)) pairsB Unit.Props.table_rename (fun i j _ _ h => by simpa using h),
    samePairs_of Unit.Props.pairsA pairsB Unit.Props.table_rename (fun i j _ _ h => by simpa using h), by decide +kernel⟩

end Verif.Split.Props
