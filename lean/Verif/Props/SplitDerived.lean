import Verif.Split.Reach
import Verif.DecoratorLaws
import Verif.Props.SplitQueries
import Verif.Props.UnitDerived

/-!
# Properties C17–C25, C28, C29 of the split store

The default methods of the traits on the split store. Guards beyond those of the united store: the index a creation
returns must not be the end of a link already (`NewUnused`, see C32), a link may not get a source without a target, and a
link that has a source may not be updated to refer to itself (see C30 and C45 in `Props/SplitFindings.lean`).
-/

namespace Verif.Split.Props
open Verif Verif.Split
open Verif.Unit.Props (DoubleEnd visitsOf_match only single_eq Notifies runW)

variable {c : Cfg}

theorem view_half (hc : CfgOK c) {s : Store} (h : Reach c s) {j a b : Nat} (hj : (links c).view s j = some (a, b))
    (ha : a ≠ 0) : b ≠ 0 := by
  obtain ⟨free, hi⟩ := reach_good hc h
  obtain ⟨hl, hp⟩ := live_of_view hc hi.toInv0 hj
  have := hi.half j hl
  rw [hp] at this
  exact this ha

/-! ## C17 -/

/-- **C17**, points on the split store. `create_point` fails, without effect, exactly when `create` does; otherwise it
returns a fresh non-null index whose link has itself as source and target, and changes nothing else. -/
theorem C17_split_create_point (hc : CfgOK c) {s : Store} (h : Reach c s) (hg : CanGrow c s) (hn : NewUnused c s) :
    (∃ e, (links c).create s = some ⟨.error e, s, ()⟩ ∧ (links c).createPoint s = some ⟨.error e, s, ()⟩) ∨
    ∃ i s', i ≠ 0 ∧ (links c).view s i = none ∧ Reach c s' ∧ (links c).createPoint s = some ⟨.ok i, s', ()⟩ ∧
      (links c).view s' = ((links c).view s).set i (i, i) := by
  rcases Links.createPoint_law (reachLawful hc) h ⟨hg, hn⟩
    (fun i _ => ⟨id, fun _ p hp => by rw [View.set_same] at hp; cases hp; rfl⟩) with e | ⟨i, s', h1, h2, h3, h4⟩
  · exact .inl e
  · refine .inr ⟨i, s', ?_, h1, h2, h3, h4⟩
    rintro rfl
    have := (reachLawful hc).null s' h2
    rw [h4, View.set_same] at this; cases this

/-- **C17**, links on the split store: `create_link(x, y)` fails, without effect, exactly when `create` does; otherwise
it returns a fresh non-null index whose link is (x, y), and changes nothing else. -/
theorem C17_split_create_link (hc : CfgOK c) {s : Store} (h : Reach c s) (hg : CanGrow c s) (hn : NewUnused c s)
    (x y : Nat) (hxy : x ≠ 0 → y ≠ 0) :
    (∃ e, (links c).create s = some ⟨.error e, s, ()⟩ ∧ (links c).createLink s x y = some ⟨.error e, s, ()⟩) ∨
    ∃ i s', i ≠ 0 ∧ (links c).view s i = none ∧ Reach c s' ∧
      (links c).createLink s x y = some ⟨.ok i, s', ()⟩ ∧
      (links c).view s' = ((links c).view s).set i (x, y) := by
  rcases Links.createLink_law (reachLawful hc) h ⟨hg, hn⟩ x y
    (fun i _ => ⟨hxy, fun _ p hp => by rw [View.set_same] at hp; cases hp; rfl⟩) with e | ⟨i, s', h1, h2, h3, h4⟩
  · exact .inl e
  · refine .inr ⟨i, s', ?_, h1, h2, h3, h4⟩
    rintro rfl
    have := (reachLawful hc).null s' h2
    rw [h4, View.set_same] at this; cases this

theorem cfg0_canGrow {s : Store} (h : s.ilen ≤ 200) : CanGrow cfg0 s := by
  intro _
  refine ⟨by simp [cfg0], ?_⟩
  show s.ilen + 8 ≤ 255
  omega

/-- No link of `sNetU` refers to 5, which a creation returns. -/
theorem sNetU_newUnused : NewUnused cfg0 sNetU := by
  intro i s' hi j a b hj
  have h5 : ((links cfg0).create sNetU).map (·.res) = some (.ok 5) := by decide +kernel
  rw [hi] at h5
  cases h5
  have := forall_of_collect (reachLawful cfg0_ok) sNetU_reach (p := fun l => l.source != 5 && l.target != 5)
    (by decide +kernel) hj
  simpa using this

theorem sNetU_uniq : ((links cfg0).view sNetU).Uniq :=
  uniq_of_collect (reachLawful cfg0_ok) sNetU_reach (by decide +kernel)

/-- No link other than 3 has 3 at both ends in `sNetU`. -/
theorem sNetU_no_double : ∀ j, (links cfg0).view sNetU j = some (3, 3) → j = 3 := fun j hj => by
  have := forall_of_collect (reachLawful cfg0_ok) sNetU_reach (p := fun l => (l.source, l.target) != (3, 3))
    (by decide +kernel) hj
  simp at this

example : Reach cfg0 sNetU ∧ CanGrow cfg0 sNetU ∧ NewUnused cfg0 sNetU ∧
    ((links cfg0).createPoint sNetU).map (fun o => (o.res.toOption, (links cfg0).view o.st 5)) =
      some (some 5, some (5, 5)) ∧
    ((links cfg0).createLink sNetU 3 1).map (fun o => (o.res.toOption, (links cfg0).view o.st 5)) =
      some (some 5, some (3, 1)) :=
  ⟨sNetU_reach, cfg0_canGrow (by decide +kernel), sNetU_newUnused, by decide +kernel, by decide +kernel⟩

/-! ## C18 -/

/-- **C18**, split store. If a link (x, y) exists, `get_or_create(x, y)` returns one and changes nothing. Otherwise it
fails, without effect, exactly when `create` does, or it adds one link (x, y) at a fresh index and returns that index,
and a second call returns the same index and changes nothing. -/
theorem C18_split_get_or_create (hc : CfgOK c) {s : Store} (h : Reach c s) (hg : CanGrow c s) (hn : NewUnused c s)
    {x y : Nat} (hx : x ≠ 0) (hxa : x ≠ c.consts.any) (hy : y ≠ 0) (hya : y ≠ c.consts.any) :
    (∃ i, (links c).view s i = some (x, y) ∧ (links c).getOrCreate s x y = some ⟨.ok i, s, ()⟩) ∨
    ((∀ i, (links c).view s i ≠ some (x, y)) ∧
      ((∃ e, (links c).create s = some ⟨.error e, s, ()⟩ ∧
          (links c).getOrCreate s x y = some ⟨.error e, s, ()⟩) ∨
        ∃ i s', (links c).view s i = none ∧ Reach c s' ∧
          (links c).getOrCreate s x y = some ⟨.ok i, s', ()⟩ ∧
          (links c).view s' = ((links c).view s).set i (x, y) ∧
          (links c).getOrCreate s' x y = some ⟨.ok i, s', ()⟩)) := by
  rcases Links.search_law (reachLawful hc) h hx hxa hy hya with ⟨h1, h2⟩ | ⟨i, h1, h2⟩
  · refine .inr ⟨h2, ?_⟩
    simp only [Links.getOrCreate, h1, Option.bind_some]
    rcases C17_split_create_link hc h hg hn x y (fun _ => hy) with ⟨e, g1, g2⟩ | ⟨i, s', -, g1, g2, g3, g4⟩
    · exact .inl ⟨e, g1, g2⟩
    · refine .inr ⟨i, s', g1, g2, g3, g4, ?_⟩
      rcases Links.search_law (reachLawful hc) g2 hx hxa hy hya with ⟨-, k2⟩ | ⟨j, k1, k2⟩
      · exact absurd (by rw [g4, View.set_same]) (k2 i)
      · have hj : j = i := by
          apply Classical.byContradiction
          intro hj
          rw [g4, View.set_other _ _ hj] at k2
          exact h2 j k2
        rw [k1, hj, Option.bind_some]
  · refine .inl ⟨i, h2, ?_⟩
    simp only [Links.getOrCreate, h1, Option.bind_some]

example : Reach cfg0 sNetU ∧ CanGrow cfg0 sNetU ∧ NewUnused cfg0 sNetU ∧
    ((links cfg0).getOrCreate sNetU 3 2).map (·.res.toOption) = some (some 6) ∧
    ((links cfg0).getOrCreate sNetU 2 3).map (·.res.toOption) = some (some 5) :=
  ⟨sNetU_reach, cfg0_canGrow (by decide +kernel), sNetU_newUnused, by decide +kernel, by decide +kernel⟩

/-! ## C19 -/

/-- **C19**, split store, what is listed. `usages(i)` is the list of the links other than `i` with source `i` followed by the list
of those with target `i`, each without repetition; `count_usages(i)` is the length of the whole list and
`has_usages(i)` tells if some link other than `i` uses it. (The sum has to fit the index type.) -/
theorem C19_split_usages_list (hc : CfgOK c) {s : Store} (h : Reach c s) {i : Nat} (hv : (links c).view s i ≠ none)
    (hfit : ∀ n, (links c).count s = some n → n + n ≤ c.maxT) :
    ∃ us1 us2, (links c).usages s i = some (.ok (us1 ++ us2)) ∧ us1.Nodup ∧ us2.Nodup ∧
      (∀ j, j ∈ us1 ↔ j ≠ i ∧ ∃ b, (links c).view s j = some (i, b)) ∧
      (∀ j, j ∈ us2 ↔ j ≠ i ∧ ∃ a, (links c).view s j = some (a, i)) ∧
      (links c).countUsagesOf s i = some (.ok (us1.length + us2.length)) ∧
      ∃ b, (links c).hasUsages s i = some b ∧ (b = true ↔ ∃ j, ((links c).view s).Uses i j) := by
  cases hv' : (links c).view s i with
  | none => exact absurd hv' hv
  | some p =>
  obtain ⟨-, -, L1, L2, v1, n1, m1, v2, n2, m2, c1, c2⟩ := Links.usage_lists (reachLawful hc) h hv'
  obtain ⟨L, a1, a2, a3⟩ := (reachLawful hc).each_all s h
  have hL := hfit _ ((reachLawful hc).count_all s h L a1)
  have len1 : (L1.filter (·.index ≠ i)).length ≤ L.length := Verif.Unit.Props.length_le_of_subset (n1.filter _)
    fun l hl => (a3 l).2 ((m1 l).1 (List.mem_filter.1 hl).1).1
  have len2 : (L2.filter (·.index ≠ i)).length ≤ L.length := Verif.Unit.Props.length_le_of_subset (n2.filter _)
    fun l hl => (a3 l).2 ((m2 l).1 (List.mem_filter.1 hl).1).1
  have hcnt := Links.countUsagesOf_eq (reachLawful hc) h hv' n1 m1 n2 m2 c1 c2
    (show _ ≤ c.maxT by omega)
  have e1 : ∀ j, j ∈ (L1.filter (·.index ≠ i)).map (·.index) ↔ j ≠ i ∧ ∃ b, (links c).view s j = some (i, b) := by
    intro j
    rw [List.mem_map]
    constructor
    · rintro ⟨l, hl, rfl⟩
      rw [List.mem_filter, m1] at hl
      obtain ⟨⟨g1, g2⟩, g3⟩ := hl
      refine ⟨by simpa using g3, l.target, ?_⟩
      rw [← g2]; exact g1
    · rintro ⟨hj, b, hb⟩
      exact ⟨⟨j, i, b⟩, List.mem_filter.2 ⟨(m1 _).2 ⟨hb, rfl⟩, by simpa using hj⟩, rfl⟩
  have e2 : ∀ j, j ∈ (L2.filter (·.index ≠ i)).map (·.index) ↔ j ≠ i ∧ ∃ a, (links c).view s j = some (a, i) := by
    intro j
    rw [List.mem_map]
    constructor
    · rintro ⟨l, hl, rfl⟩
      rw [List.mem_filter, m2] at hl
      obtain ⟨⟨g1, g2⟩, g3⟩ := hl
      refine ⟨by simpa using g3, l.source, ?_⟩
      rw [← g2]; exact g1
    · rintro ⟨hj, b, hb⟩
      exact ⟨⟨j, b, i⟩, List.mem_filter.2 ⟨(m2 _).2 ⟨hb, rfl⟩, by simpa using hj⟩, rfl⟩
  refine ⟨(L1.filter (·.index ≠ i)).map (·.index), (L2.filter (·.index ≠ i)).map (·.index), ?_,
    nodup_index (n1.filter _) (fun l hl => ((m1 l).1 (List.mem_filter.1 hl).1).1),
    nodup_index (n2.filter _) (fun l hl => ((m2 l).1 (List.mem_filter.1 hl).1).1), e1, e2,
    by rw [hcnt]; simp, ?_⟩
  · simp only [Links.usages, hcnt, Option.bind_some, Links.usageList_eq v1 v2, Option.map_some,
      Links.filter_map_index, List.filter_append, List.map_append]
  · refine ⟨_, by rw [Links.hasUsages, hcnt]; rfl, ?_⟩
    simp only [bne_iff_ne]
    constructor
    · intro hne
      have : 0 < (L1.filter (·.index ≠ i)).length ∨ 0 < (L2.filter (·.index ≠ i)).length := by omega
      rcases this with h0 | h0
      · obtain ⟨l, hl⟩ := List.exists_mem_of_length_pos h0
        obtain ⟨g1, b, g2⟩ := (e1 l.index).1 (List.mem_map_of_mem hl)
        exact ⟨_, g1, i, b, g2, .inl rfl⟩
      · obtain ⟨l, hl⟩ := List.exists_mem_of_length_pos h0
        obtain ⟨g1, a, g2⟩ := (e2 l.index).1 (List.mem_map_of_mem hl)
        exact ⟨_, g1, a, i, g2, .inr rfl⟩
    · rintro ⟨j, hj, a, b, hab, rfl | rfl⟩
      · have := List.length_pos_of_mem ((e1 j).2 ⟨hj, b, hab⟩)
        rw [List.length_map] at this; omega
      · have := List.length_pos_of_mem ((e2 j).2 ⟨hj, a, hab⟩)
        rw [List.length_map] at this; omega

/-- **C19**, split store (partial: no link other than `i` may have `i` at both ends). `usages(i)` lists the links that use `i`,
each once; `count_usages(i)` is their number and `has_usages(i)` tells if there is one. -/
theorem C19_split_usages_partial (hc : CfgOK c) {s : Store} (h : Reach c s) {i : Nat}
    (hv : (links c).view s i ≠ none) (hd : ∀ j, (links c).view s j = some (i, i) → j = i) :
    ∃ us, (links c).usages s i = some (.ok us) ∧ us.Nodup ∧
      (∀ j, j ∈ us ↔ ((links c).view s).Uses i j) ∧
      (links c).countUsagesOf s i = some (.ok us.length) ∧
      ∃ b, (links c).hasUsages s i = some b ∧ (b = true ↔ ∃ j, ((links c).view s).Uses i j) := by
  cases hv' : (links c).view s i with
  | none => exact absurd hv' hv
  | some p =>
  obtain ⟨-, -, L1, L2, v1, n1, m1, v2, n2, m2, c1, c2⟩ := Links.usage_lists (reachLawful hc) h hv'
  obtain ⟨L, a1, a2, a3⟩ := (reachLawful hc).each_all s h
  have hL := (reachLawful hc).bounded s h L a1
  have hnod := Links.usages_nodup n1 m1 n2 m2 hd
  have hmem : ∀ l, l ∈ (L1 ++ L2).filter (·.index ≠ i) ↔
      ((links c).view s).Has l ∧ l.index ≠ i ∧ (l.source = i ∨ l.target = i) := by
    intro l
    rw [List.mem_filter, List.mem_append, m1, m2]
    simp only [decide_eq_true_eq]
    constructor
    · rintro ⟨h | h, h'⟩
      · exact ⟨h.1, h', .inl h.2⟩
      · exact ⟨h.1, h', .inr h.2⟩
    · rintro ⟨h1, h2, h3 | h3⟩
      · exact ⟨.inl ⟨h1, h3⟩, h2⟩
      · exact ⟨.inr ⟨h1, h3⟩, h2⟩
  have hlen := Verif.Unit.Props.length_le_of_subset hnod fun l hl => (a3 l).2 ((hmem l).1 hl).1
  have hcnt := Links.countUsagesOf_eq (reachLawful hc) h hv' n1 m1 n2 m2 c1 c2
    (by rw [List.filter_append, List.length_append] at hlen; omega)
  have huse : ∀ j, j ∈ ((L1 ++ L2).filter (·.index ≠ i)).map (·.index) ↔ ((links c).view s).Uses i j := by
    intro j
    rw [List.mem_map]
    constructor
    · rintro ⟨l, hl, rfl⟩
      obtain ⟨g1, g2, g3⟩ := (hmem l).1 hl
      exact ⟨g2, _, _, g1, g3⟩
    · rintro ⟨g2, a, b, g1, g3⟩
      exact ⟨⟨j, a, b⟩, (hmem _).2 ⟨g1, g2, g3⟩, rfl⟩
  refine ⟨((L1 ++ L2).filter (·.index ≠ i)).map (·.index), ?_,
    nodup_index hnod (fun l hl => ((hmem l).1 hl).1), huse, ?_, _, by rw [Links.hasUsages, hcnt]; rfl, ?_⟩
  · simp only [Links.usages, hcnt, Option.bind_some, Links.usageList_eq v1 v2, Option.map_some,
      Links.filter_map_index]
  · rw [hcnt, List.length_map, List.filter_append, List.length_append]
  · rw [← List.length_append, ← List.filter_append]
    simp only [bne_iff_ne]
    constructor
    · intro hne
      obtain ⟨l, hl⟩ := List.exists_mem_of_length_pos (Nat.pos_of_ne_zero hne)
      exact ⟨l.index, (huse _).1 (List.mem_map_of_mem hl)⟩
    · rintro ⟨j, hj⟩
      have := List.length_pos_of_mem ((huse j).2 hj)
      rw [List.length_map] at this; omega

/-- A link that is not in the store has no usages to report. -/
theorem C19_split_missing (hc : CfgOK c) {s : Store} (h : Reach c s) {i : Nat} (hv : (links c).view s i = none) :
    (links c).usages s i = some (.error (.notExists i)) ∧
    (links c).countUsagesOf s i = some (.error (.notExists i)) ∧ (links c).hasUsages s i = some false := by
  have : (links c).countUsagesOf s i = some (.error (.notExists i)) := by
    simp only [Links.countUsagesOf, Links.tryGetLink, (reachLawful hc).get s h, hv, Option.map_some,
      Option.map_none, Option.bind_some]
  exact ⟨by rw [Links.usages, this]; rfl, this, by rw [Links.hasUsages, this]; rfl⟩

/-- In `sNet` 2 and 6 use 3; in `sNetU` too. -/
example : (links cfg0).usages sNet 3 = some (.ok [2, 6]) ∧ (links cfg0).countUsagesOf sNet 3 = some (.ok 2) ∧
    (links cfg0).countUsagesOf sNet 1 = some (.ok 2) ∧ (links cfg0).hasUsages sNet 4 = some false ∧
    (links cfg0).view sNet 5 = none := by decide +kernel

example : ∃ us, (links cfg0).usages sNetU 3 = some (.ok us) ∧ us.Nodup :=
  let ⟨us, h1, h2, _⟩ := C19_split_usages_partial cfg0_ok sNetU_reach (i := 3) (by decide +kernel) sNetU_no_double
  ⟨us, h1, h2⟩

example := C19_split_usages_list cfg0_ok sNet_reach (i := 2) (by decide +kernel)
  (fun n hn => by
    have : (links cfg0).count sNet = some 5 := by decide +kernel
    rw [this] at hn; cases hn; decide)

/-! ## C20 -/

/-- **C20**, split store (partial: unique doublets, and no link other than `i` may have `i` at both ends).
`delete_usages(i)` succeeds and removes exactly the links that use `i`; the handler of `delete_usages_with` is called
once for each removed link. -/
theorem C20_split_delete_usages_partial (hc : CfgOK c) {s : Store} (h : Reach c s) {i : Nat}
    (hv : (links c).view s i ≠ none) (hd : ∀ j, (links c).view s j = some (i, i) → j = i)
    (hu : ((links c).view s).Uniq) :
    ∃ (s' : Store) (L : List Link), Reach c s' ∧
      (∀ j, ((links c).view s).Uses i j → (links c).view s' j = none) ∧
      (∀ j, ¬ ((links c).view s).Uses i j → (links c).view s' j = (links c).view s j) ∧
      (links c).deleteUsages s i = some ⟨.ok (), s', ()⟩ ∧
      L.Nodup ∧ (∀ l, l ∈ L ↔ ((links c).view s).Has l ∧ ((links c).view s).Uses i l.index) ∧
      ∀ (σ ρ : Type) (hdl : σ → Link → Link → Ctl ρ × σ) (st : σ), (links c).deleteUsagesWith s i hdl st =
        some ⟨.ok (), s', callAll hdl (L.map fun l => (l, Link.nothing)) st⟩ := by
  cases hv' : (links c).view s i with
  | none => exact absurd hv' hv
  | some p =>
  obtain ⟨s', L, g1, g2, g3, g4, g5⟩ := Links.deleteUsagesWith_law (reachLawful hc) h hv' hd
    (fun j _ _ _ _ _ => hu j) (fun _ _ _ _ _ _ => (reachLawful hc).canDelete_uniq _ _ hu)
  have huse : ∀ l, l ∈ L ↔ ((links c).view s).Has l ∧ ((links c).view s).Uses i l.index := by
    intro l
    rw [g3]
    constructor
    · rintro ⟨q1, q2, q3⟩; exact ⟨q1, q2, _, _, q1, q3⟩
    · rintro ⟨q1, q2, a, b, q3, q4⟩
      unfold View.Has at q1
      rw [q1] at q3
      cases q3
      exact ⟨q1, q2, q4⟩
  have hidx : ∀ j, j ∈ L.map (·.index) ↔ ((links c).view s).Uses i j := by
    intro j
    rw [List.mem_map]
    constructor
    · rintro ⟨l, hl, rfl⟩; exact ((huse l).1 hl).2
    · rintro ⟨q2, a, b, q3, q4⟩; exact ⟨⟨j, a, b⟩, (huse _).2 ⟨q3, q2, a, b, q3, q4⟩, rfl⟩
  refine ⟨s', L, g1, ?_, ?_, ?_, g2, huse, fun _ _ h st => g5 h st⟩
  · intro j hj
    rw [g4]; exact if_pos ((hidx j).2 hj)
  · intro j hj
    rw [g4]; exact if_neg fun hm => hj ((hidx j).1 hm)
  · rw [Links.deleteUsages, g5]

example := C20_split_delete_usages_partial cfg0_ok sNetU_reach (i := 3) (by decide +kernel) sNetU_no_double sNetU_uniq

/-- In `sNetU` links 2 and 6 use 3; both go, nothing else. -/
example : Reach cfg0 sNetU ∧ ((links cfg0).deleteUsages sNetU 3).map
    (fun o => (o.res.toOption, (links cfg0).collect o.st [])) =
      some (some (), some [⟨1, 1, 1⟩, ⟨3, 2, 2⟩, ⟨4, 0, 0⟩]) := ⟨sNetU_reach, by decide +kernel⟩

/-! ## C21 -/

/-- **C21**, split store (partial: `new` is not null, no link other than `old` has `old` at both ends, users of `old` have
no twins, and a user of `old` that has a source neither is `new` nor refers to itself). `rebase(old, new)` returns `new`;
in every link other than `old` each occurrence of `old` is replaced by `new`; nothing else changes. With `old = new` it
does nothing, and a missing `old` is reported. -/
theorem C21_split_rebase_partial (hc : CfgOK c) {s : Store} (h : Reach c s) (old new : Nat) :
    ((links c).view s old = none → (links c).rebase s old new = some ⟨.error (.notExists old), s, ()⟩) ∧
    ((links c).view s old ≠ none → old = new → (links c).rebase s old new = some ⟨.ok new, s, ()⟩) ∧
    ((links c).view s old ≠ none → old ≠ new → new ≠ 0 → (∀ j, (links c).view s j = some (old, old) → j = old) →
      (∀ j, ((links c).view s).Uses old j → ((links c).view s).NoTwin j) →
      (∀ j a b, ((links c).view s).Uses old j → (links c).view s j = some (a, b) → a ≠ 0 →
        j ≠ new ∧ j ≠ a ∧ j ≠ b) →
      ∃ s', Reach c s' ∧ (links c).rebase s old new = some ⟨.ok new, s', ()⟩ ∧
        (links c).view s' old = (links c).view s old ∧
        ∀ j, j ≠ old → (links c).view s' j = ((links c).view s j).map fun p =>
          (if p.1 = old then new else p.1, if p.2 = old then new else p.2)) := by
  refine ⟨fun hv => ?_, fun hv he => ?_, fun hv hne hnew hd hu hself => ?_⟩
  · simp only [Links.rebase, Links.rebaseWith, Links.tryGetLink, (reachLawful hc).get s h, hv, Option.map_none,
      Option.map_some, Option.bind_some, Except.map]
  · subst he
    cases hv' : (links c).view s old with
    | none => exact absurd hv' hv
    | some p =>
      simp only [Links.rebase, Links.rebaseWith, Links.tryGetLink, (reachLawful hc).get s h, hv',
        Option.map_some, Option.bind_some, if_true, Except.map]
  · cases hv' : (links c).view s old with
    | none => exact absurd hv' hv
    | some p =>
      obtain ⟨s', g1, g2, g3⟩ := Links.rebaseWith_law (reachLawful hc) h hv' hne hd
        (fun j a b h1 h2 h3 => hu j ⟨h2, a, b, h1, h3⟩) (fun w j a b hj hjo hab hw => by
          refine ⟨fun ha => ?_, fun he q hq => ?_⟩
          · simp only [substPair] at ha ⊢
            split
            · exact hnew
            · next hb =>
              have ha' : a = old := hab.resolve_right hb
              rw [ha'] at hj
              refine view_half hc h hj ?_
              rintro rfl
              rw [(reachLawful hc).null s h] at hv'; cases hv'
          · rw [hw, hj] at hq; cases hq
            apply Classical.byContradiction
            intro ha
            obtain ⟨e1, e2, e3⟩ := hself j a b ⟨hjo, a, b, hj, hab⟩ hj ha
            simp only [substPair] at he
            rcases he with he | he
            · split at he
              · exact e1 he.symm
              · exact e2 he.symm
            · split at he
              · exact e1 he.symm
              · exact e3 he.symm)
      obtain ⟨st', g3⟩ := g3 Links.contH ()
      refine ⟨s', g1, by rw [Links.rebase, g3]; rfl, ?_, ?_⟩
      · rw [g2]; simp only [if_true]; exact hv'
      · intro j hj
        rw [g2]; simp only [if_neg hj]; rfl

theorem sNetU_self {old new : Nat} (hp : ((links cfg0).collect sNetU []).map (fun L => L.all fun l =>
      (l.source != old && l.target != old) || l.index == old || l.source == 0 || (l.index != new && l.index != l.source &&
        l.index != l.target)) = some true) :
    ∀ j a b, ((links cfg0).view sNetU).Uses old j → (links cfg0).view sNetU j = some (a, b) → a ≠ 0 →
      j ≠ new ∧ j ≠ a ∧ j ≠ b := by
  rintro j a b ⟨hjo, a', b', h1, h2⟩ hj ha
  rw [hj] at h1; cases h1
  have := forall_of_collect (reachLawful cfg0_ok) sNetU_reach hp hj
  have h3 : (a != old && b != old) = false := by
    rcases h2 with rfl | rfl <;> simp
  simp [h3, ha, hjo] at this
  exact ⟨this.1.1, this.1.2, this.2⟩

/-- In `sNetU`, rebasing 3 to 4: link 2 = (1,3) becomes (1,4) and 6 = (3,2) becomes (4,2). -/
example : Reach cfg0 sNetU ∧ ((links cfg0).rebase sNetU 3 4).map
    (fun o => (o.res.toOption, (links cfg0).collect o.st [])) =
      some (some 4, some [⟨1, 1, 1⟩, ⟨2, 1, 4⟩, ⟨3, 2, 2⟩, ⟨4, 0, 0⟩, ⟨6, 4, 2⟩]) := ⟨sNetU_reach, by decide +kernel⟩

example := (C21_split_rebase_partial cfg0_ok sNetU_reach 3 4).2.2 (by decide +kernel) (by decide) (by decide)
  sNetU_no_double (fun j _ => sNetU_uniq j) (sNetU_self (by decide +kernel))

/-! ## C22 -/

/-- **C22**, split store (partial: as C21, the call returns 0 instead of `new`, and `old` may not end up with the same
doublet as a rebased link). The references are rebased and `old` is removed; with `old = new` nothing happens. -/
theorem C22_split_rebase_and_delete_partial (hc : CfgOK c) {s : Store} (h : Reach c s) (old new : Nat) :
    (old = new → (links c).rebaseAndDelete s old new = some ⟨.ok new, s, ()⟩) ∧
    ((links c).view s old = none → old ≠ new →
      (links c).rebaseAndDelete s old new = some ⟨.error (.notExists old), s, ()⟩) ∧
    (∀ p, (links c).view s old = some p → old ≠ new → new ≠ 0 →
      (∀ j, (links c).view s j = some (old, old) → j = old) →
      (∀ j, ((links c).view s).Uses old j → ((links c).view s).NoTwin j) →
      (∀ j a b, ((links c).view s).Uses old j → (links c).view s j = some (a, b) → a ≠ 0 →
        j ≠ new ∧ j ≠ a ∧ j ≠ b) →
      (p ≠ (0, 0) → ∀ j q, j ≠ old → (links c).view s j = some q →
        (if q.1 = old then new else q.1, if q.2 = old then new else q.2) ≠ p) →
      ∃ s', Reach c s' ∧ (links c).rebaseAndDelete s old new = some ⟨.ok 0, s', ()⟩ ∧
        (links c).view s' old = none ∧
        ∀ j, j ≠ old → (links c).view s' j = ((links c).view s j).map fun p =>
          (if p.1 = old then new else p.1, if p.2 = old then new else p.2)) := by
  obtain ⟨r1, r2, r3⟩ := C21_split_rebase_partial hc h old new
  refine ⟨fun he => by rw [Links.rebaseAndDelete, if_pos he], fun hv hne => ?_,
    fun p hv hne hnew hd hu hself ht => ?_⟩
  · rw [Links.rebaseAndDelete, if_neg hne, r1 hv]; rfl
  · obtain ⟨s1, g1, g2, g3, g4⟩ := r3 (by rw [hv]; simp) hne hnew hd hu hself
    have hnt : ((links c).view s1).NoTwin old := by
      intro q hq hq0 j hj
      rw [g3, hv] at hq; cases hq
      by_cases hjo : j = old
      · exact hjo
      · rw [g4 j hjo] at hj
        cases hvj : (links c).view s j with
        | none => rw [hvj] at hj; cases hj
        | some q => rw [hvj] at hj; exact absurd (Option.some.inj hj) (ht hq0 j q hjo hvj)
    have hcd : CanDelete ((links c).view s1) old := by
      rintro j ⟨hj, a, b, hjab, hab⟩
      rw [g4 j hj] at hjab
      cases hvj : (links c).view s j with
      | none => rw [hvj] at hjab; cases hjab
      | some q =>
        rw [hvj] at hjab
        simp only [Option.map_some, Option.some.injEq, Prod.mk.injEq] at hjab
        obtain ⟨e1, e2⟩ := hjab
        rcases hab with rfl | rfl
        · split at e1
          · exact absurd e1.symm hne
          · next hh => exact absurd e1 hh
        · split at e2
          · exact absurd e2.symm hne
          · next hh => exact absurd e2 hh
    obtain ⟨s2, k1, -, k3, k4⟩ := (reachLawful hc).delete s1 g1 old p (by rw [g3, hv]) hnt hcd
    refine ⟨s2, k1, ?_, ?_, ?_⟩
    · rw [Links.rebaseAndDelete, if_neg hne, g2]
      show (links c).delete s1 old = _
      rw [Links.delete_ok k4]; rfl
    · rw [k3, View.del_same]
    · intro j hj
      rw [k3, View.del_other _ hj, g4 j hj]

example := (C22_split_rebase_and_delete_partial cfg0_ok sNetU_reach 3 4).2.2 (2, 2) (by decide +kernel)
  (by decide) (by decide) sNetU_no_double (fun j _ => sNetU_uniq j) (sNetU_self (by decide +kernel))
  (fun _ j q hj hq => by
    have := forall_of_collect (reachLawful cfg0_ok) sNetU_reach
      (p := fun l => l.index == 3 || (if l.source = 3 then 4 else l.source, if l.target = 3 then 4 else l.target) != (2, 2))
      (by decide +kernel) hq
    simpa [hj] using this)

example : Reach cfg0 sNetU ∧ ((links cfg0).rebaseAndDelete sNetU 3 4).map
      (fun o => (o.res.toOption, (links cfg0).collect o.st [])) =
        some (some 0, some [⟨1, 1, 1⟩, ⟨2, 1, 4⟩, ⟨4, 0, 0⟩, ⟨6, 4, 2⟩]) := ⟨sNetU_reach, by decide +kernel⟩

/-! ## C23 -/

/-- **C23**, split store (partial: see below). `delete_all` always returns; it succeeds exactly if the links are numbered
without gaps from 1, and then the store is empty; otherwise it reports a missing link and leaves links behind. -/
theorem C23_split_delete_all_partial (hc : CfgOK c) {s : Store} (h : Reach c s) (hu : ((links c).view s).Uniq) :
    ∃ n, (links c).count s = some n ∧
    ((∀ i, (links c).view s i ≠ none ↔ 1 ≤ i ∧ i ≤ n) →
      ∃ s', Reach c s' ∧ (links c).deleteAll s = some ⟨.ok (), s', ()⟩ ∧ ∀ i, (links c).view s' i = none) ∧
    (¬ (∀ i, (links c).view s i ≠ none ↔ 1 ≤ i ∧ i ≤ n) →
      ∃ s' k, Reach c s' ∧ (links c).deleteAll s = some ⟨.error (.notExists k), s', ()⟩ ∧
        (links c).view s k = none ∧ ∃ i, (links c).view s' i ≠ none) := by
  obtain ⟨n, h1, -, h2⟩ := Links.deleteAll_law (reachLawful hc) h hu
  refine ⟨n, h1, ?_, ?_⟩
  · intro hall
    rcases h2 with ⟨s', g1, -, g3, g4⟩ | ⟨s', k, -, -, -, -, g6, -⟩
    · exact ⟨s', g1, g4, fun i => by rw [g3]; rfl⟩
    · exact absurd hall g6
  · intro hnot
    rcases h2 with ⟨s', g1, g2, g3, g4⟩ | ⟨s', k, g1, g2, g3, g4, g5, g6⟩
    · exact absurd g2 hnot
    · refine ⟨s', k, g1, g6, g3, Classical.byContradiction fun hno => g4 (funext fun i => ?_)⟩
      exact Classical.byContradiction fun hi => hno ⟨i, hi⟩

example := C23_split_delete_all_partial cfg0_ok sNetU_reach sNetU_uniq

/-- A store without gaps is emptied; `sNetU` has a gap at 5. -/
example : ((links cfg0).deleteAll (runs cfg0 [.create, .create, .update 1 1 2])).map
    (fun o => (o.res.toOption, (links cfg0).count o.st)) = some (some (), some 0) ∧
    ((links cfg0).deleteAll sNetU).map (fun o => (o.res, (links cfg0).count o.st)) =
      some (.error (.notExists 5), some 5) := by decide +kernel

/-! ## C24 -/

/-- For exact queries the traversal visits the matching links, each once, and the count is their number. -/
theorem exact_query (hc : CfgOK c) {s : Store} (h : Reach c s) {q : List Nat}
    (hq : Unit.Props.Exact c.consts.any ((links c).view s) q) :
    ∃ L, (links c).Visits s q L ∧ L.Nodup ∧
      (∀ l, l ∈ L ↔ ((links c).view s).Has l ∧ MatchQ c.consts.any q l) ∧
      (CountOK c.consts.any ((links c).view s) q → (links c).countLinks s q = some L.length) := by
  obtain ⟨L, h1, h2, h3, h4, h5, -⟩ := query_law hc (reach_good hc h) q hq.short hq.null
  have hcount : ∀ l, ((links c).view s).Has l → MatchQ c.consts.any q l → L.count l = 1 := by
    intro l hl hm
    by_cases hp : IsPair c.consts.any q
    · obtain ⟨k1, k2⟩ := h5 hp
      have k2 := k2 ⟨l, hl, hm⟩
      match L, k1, k2 with
      | [x], _, _ =>
        have := h3 x (by simp)
        rw [hq.pair hp x l this.1 this.2 hl hm]; simp
    · rw [h4 hp l hl]
      rcases visitsOf_match hm with ⟨e, -⟩ | ⟨-, e⟩
      · exact e
      · exact absurd e (hq.ends l hl)
  have hmem : ∀ l, l ∈ L ↔ ((links c).view s).Has l ∧ MatchQ c.consts.any q l := fun l =>
    ⟨h3 l, fun hl => List.count_pos_iff.1 (by rw [hcount l hl.1 hl.2]; omega)⟩
  have hnod : L.Nodup := Verif.Unit.nodup_of_count fun l hl => by rw [hcount l (h3 l hl).1 (h3 l hl).2]; omega
  refine ⟨L, h1, hnod, hmem, fun hok => ?_⟩
  obtain ⟨M, a1, a2, a3⟩ := (reachLawful hc).each_all s h
  have hM : M.length ≤ c.maxT := (reachLawful hc).bounded s h M a1
  have := Verif.Unit.Props.length_le_of_subset hnod fun l hl => (a3 l).2 (h3 l hl).1
  exact (h2 hok).trans (if_pos (by omega))

/-- **C24**, split store (partial: for exact queries whose count returns, and unique doublets).
`delete_query_with(q)` succeeds, removes exactly the links that match `q`, and calls the handler once for each removed
link. -/
theorem C24_split_delete_query_partial (hc : CfgOK c) {s : Store} (h : Reach c s) {q : List Nat}
    (hq : Unit.Props.Exact c.consts.any ((links c).view s) q)
    {n : Nat} (hn : (links c).countBy s q = some n) (hu : ((links c).view s).Uniq) :
    ∃ (s' : Store) (L : List Link), Reach c s' ∧ L.Nodup ∧
      (∀ l, l ∈ L ↔ ((links c).view s).Has l ∧ MatchQ c.consts.any q l) ∧
      (∀ l, ((links c).view s').Has l ↔ ((links c).view s).Has l ∧ ¬ MatchQ c.consts.any q l) ∧
      ∀ (σ ρ : Type) (hd : σ → Link → Link → Ctl ρ × σ) (st : σ), (links c).deleteQueryWith s q hd st =
        some ⟨.ok (), s', callAll hd (L.map fun l => (l, Link.nothing)) st⟩ := by
  obtain ⟨L, h1, h2, h3, -⟩ := exact_query hc h hq
  obtain ⟨s', g1, g2, g3⟩ := Links.deleteQueryWith_law (reachLawful hc) h hn h1 h2
    (fun l hl => ⟨((h3 l).1 hl).1, hu l.index⟩) (fun _ _ => (reachLawful hc).canDelete_uniq _ _ hu)
  refine ⟨s', L.reverse, g1, nodup_rev h2, fun l => by rw [List.mem_reverse, h3], fun l => ?_,
    fun _ _ hd st => g3 hd st⟩
  unfold View.Has
  simp only [g2]
  constructor
  · intro hl
    split at hl
    · cases hl
    · next hm => exact ⟨hl, fun hmt => hm (List.mem_map_of_mem ((h3 l).2 ⟨hl, hmt⟩))⟩
  · rintro ⟨hl, hm⟩
    rw [if_neg]
    · exact hl
    · intro hin
      obtain ⟨l', hl', e⟩ := List.mem_map.1 hin
      have k := (h3 l').1 hl'
      have k1 := k.1
      unfold View.Has at k1
      rw [e, hl] at k1
      rcases l with ⟨a, b, d⟩; rcases l' with ⟨a', b', d'⟩
      simp at k1 e
      rw [e, ← k1.1, ← k1.2] at k
      exact hm k.2

/-- The query for source 1 is exact in `sNetU`. -/
theorem sNetU_exact : Unit.Props.Exact cfg0.consts.any ((links cfg0).view sNetU) [252, 1, 252] where
  short := by simp
  null := by intro _ x hx; simp at hx; omega
  ends := by rintro l _ ⟨x, e, _⟩; cases e
  pair := by rintro ⟨x, y, e, _, hy⟩; cases e; exact absurd rfl hy

example := C24_split_delete_query_partial cfg0_ok sNetU_reach sNetU_exact (n := 2) (by decide +kernel) sNetU_uniq

/-- In `sNetU`, delete the links with source 1; the handler counts its calls. -/
example : ((links cfg0).deleteQueryWith (ρ := _root_.Unit) sNetU [252, 1, 252]
    (fun (n : Nat) _ _ => (.cont, n + 1)) 0).map
    (fun o => (o.res.toOption, o.hs, (links cfg0).collect o.st [])) =
      some (some (), 2, some [⟨3, 2, 2⟩, ⟨4, 0, 0⟩, ⟨6, 3, 2⟩]) := by decide +kernel

/-! ## C25 -/

/-- **C25**, split store, `find`. If null ends are not asked for, `find(q)` returns a matching link if there is one and
None otherwise; `found(q)`, when it returns and the count is exact (`CountOK`), tells if there is one. -/
theorem C25_split_find_and_found_partial (hc : CfgOK c) {s : Store} (h : Reach c s) {q : List Nat} (hq : q.length ≤ 3)
    (hn : NullFree c.consts.any q) :
    ∃ r, (links c).find s q = some r ∧
      (∀ l, r = some l → ((links c).view s).Has l ∧ MatchQ c.consts.any q l) ∧
      (r = none → ∀ l, ((links c).view s).Has l → ¬ MatchQ c.consts.any q l) ∧
      (CountOK c.consts.any ((links c).view s) q → ∀ b, (links c).found s q = some b →
        (b = true ↔ ∃ l, ((links c).view s).Has l ∧ MatchQ c.consts.any q l)) := by
  obtain ⟨L, h1, h2, h3, h4, h5, -⟩ := query_law hc (reach_good hc h) q hq hn
  have hne : ∀ l, ((links c).view s).Has l → MatchQ c.consts.any q l → L ≠ [] := by
    intro l hl hm
    by_cases hp : IsPair c.consts.any q
    · exact (h5 hp).2 ⟨l, hl, hm⟩
    · have := h4 hp l hl
      rintro rfl
      rcases visitsOf_match hm with ⟨e, -⟩ | ⟨e, -⟩ <;> rw [e] at this <;> cases this
  refine ⟨L.head?, ?_, ?_, ?_, ?_⟩
  · simp only [Links.find, Links.eachBy_eq h1, Option.map_some]
    cases L <;> rfl
  · intro l hl
    exact h3 l (List.mem_of_mem_head? hl)
  · intro he l hl hm
    exact hne l hl hm (List.head?_eq_none_iff.1 he)
  · intro hok b hb
    have hcnt : (links c).countBy s q = countLinks c s q := rfl
    rw [Links.found, hcnt, h2 hok] at hb
    split at hb
    · simp only [Option.map_some, Option.some.injEq] at hb
      rw [← hb, bne_iff_ne]
      constructor
      · intro hlen
        obtain ⟨l, hl⟩ := List.exists_mem_of_length_pos (Nat.pos_of_ne_zero hlen)
        exact ⟨l, h3 l hl⟩
      · rintro ⟨l, hl, hm⟩ hz
        exact hne l hl hm (List.eq_nil_of_length_eq_zero hz)
    · cases hb

/-- **C25**, split store, `single` (partial: for exact queries). `single(q)` returns a link exactly if it is the only one that
matches. -/
theorem C25_split_single_partial (hc : CfgOK c) {s : Store} (h : Reach c s) {q : List Nat}
    (hq : Unit.Props.Exact c.consts.any ((links c).view s) q) :
    ∃ r, (links c).single s q = some r ∧
      ∀ l, r = some l ↔ ((links c).view s).Has l ∧ MatchQ c.consts.any q l ∧
        ∀ l', ((links c).view s).Has l' → MatchQ c.consts.any q l' → l' = l := by
  obtain ⟨L, h1, h2, h3, -⟩ := exact_query hc h hq
  refine ⟨only L, ?_, fun l => ?_⟩
  · simp only [Links.single, Links.eachBy_eq h1, Option.map_some]
    exact congrArg some (single_eq L)
  · constructor
    · intro he
      match L, he with
      | [x], he =>
        have e : x = l := Option.some.inj he
        subst e
        have := (h3 x).1 (by simp)
        refine ⟨this.1, this.2, fun l' k1 k2 => ?_⟩
        simpa using (h3 l').2 ⟨k1, k2⟩
    · rintro ⟨k1, k2, k3⟩
      have hmem := (h3 l).2 ⟨k1, k2⟩
      match L, hmem, h2 with
      | [x], hm, _ => simp at hm; rw [hm]; rfl
      | x :: y :: L, hm, hn =>
        have e1 := (h3 x).1 (by simp)
        have e2 := (h3 y).1 (by simp)
        have := (k3 x e1.1 e1.2).trans (k3 y e2.1 e2.2).symm
        rw [this] at hn
        simp at hn

example := C25_split_single_partial cfg0_ok sNetU_reach sNetU_exact

example := C25_split_find_and_found_partial cfg0_ok sNetU_reach (q := [252, 1, 252]) (by simp) sNetU_exact.null

example : (links cfg0).find sNetU [252, 1, 252] = some (some ⟨1, 1, 1⟩) ∧
    (links cfg0).found sNetU [252, 252, 1] = some true ∧
    (links cfg0).single sNetU [252, 3, 252] = some (some ⟨6, 3, 2⟩) ∧
    (links cfg0).single sNetU [252, 1, 252] = some none := by decide +kernel

/-- **C25** is false of `found` on the split store: no link of `sNetU` has source 9, but `found` says there is one. -/
theorem C25_split_found_is_wrong : Reach cfg0 sNetU ∧ (links cfg0).find sNetU [252, 9, 252] = some none ∧
    (links cfg0).found sNetU [252, 9, 252] = some true := ⟨sNetU_reach, by decide +kernel⟩

/-! ## C28 -/

/-- **C28**: the split store meets the contract of `C28_handler_results_passed_through`: on success there was one
notification, and on failure none. -/
theorem C28_split_store_notifies (hc : CfgOK c) {s : Store} (h : Reach c s) {i : Nat} {p : Nat × Nat}
    (hv : (links c).view s i = some p) (ht : ((links c).view s).NoTwin i) (a b : Nat) :
    (CanUpdate ((links c).view s) i a b →
      ∃ s' cs, Notifies (fun _ h st => (links c).updateLinks s [i] [i, a, b] h st) s' cs) ∧
    (CanDelete ((links c).view s) i → ∃ s' cs, Notifies (fun _ h st => (links c).deleteLinks s [i] h st) s' cs) ∧
    (CanGrow c s → NewUnused c s → (∃ e, Links.Fails (fun _ h st => (links c).createLinks s [] h st) s e) ∨
      ∃ s' cs, Notifies (fun _ h st => (links c).createLinks s [] h st) s' cs) := by
  have key : ∀ {call : (σ : Type) → WH σ → σ → Option (Out Store σ Flow)} {s' : Store} {b a : Link},
      Links.Succeeds call s' b a → Notifies call s' [(b, a)] := by
    intro call s' b a hS σ hd st
    rw [hS]
    simp only [runW]
    rcases hd st b a with ⟨_ | r, st'⟩ <;> rfl
  refine ⟨fun hcu => ?_, fun hcd => ?_, fun hg hn => ?_⟩
  · obtain ⟨s1, b1, -, -, -, -, h1⟩ := (reachLawful hc).update s h i p hv ht i a b hcu
    exact ⟨s1, _, key h1⟩
  · obtain ⟨s2, -, -, -, h2⟩ := (reachLawful hc).delete s h i p hv ht hcd
    exact ⟨s2, _, key h2⟩
  · rcases (reachLawful hc).create s h ⟨hg, hn⟩ [] with e | ⟨j, s3, -, -, -, -, h3⟩
    · exact .inl e
    · exact .inr ⟨s3, _, key h3⟩

example := C28_split_store_notifies cfg0_ok sNetU_reach (i := 6) (p := (3, 2)) (by decide +kernel) (sNetU_uniq 6) 1 4

/-! ## C29 -/

/-- **C29**, split store. When the iterator is built, it yields exactly the links the traversal with the same query
visits, in that order; it is built whenever the count returns. -/
theorem C29_split_iterators_yield_the_traversal (hc : CfgOK c) {s : Store} (h : Reach c s) {q : List Nat}
    (hq : q.length ≤ 3) (hn : NullFree c.consts.any q) :
    ∃ L, (∀ (σ ρ : Type) (hd : σ → Link → Ctl ρ × σ) (st : σ), (links c).eachBy s q hd st = some (runH hd L st)) ∧
      (∀ n, (links c).countBy s q = some n → (links c).eachIter s q = some L) := by
  obtain ⟨L, h1, -⟩ := query_law hc (reach_good hc h) q hq hn
  refine ⟨L, fun σ ρ hd st => Links.eachBy_eq h1 hd st, fun n hn => ?_⟩
  simp only [Links.eachIter, Links.collect_eq h1, hn]; rfl

/-- **C29**, split store, `iter()`: it yields every link of the store exactly once. -/
theorem C29_split_iter_yields_all_links (hc : CfgOK c) {s : Store} (h : Reach c s) :
    ∃ L, (links c).iter s = some L ∧ L.Nodup ∧ ∀ l, l ∈ L ↔ ((links c).view s).Has l := by
  have hany : ((links c).consts s).any = c.consts.any := rfl
  obtain ⟨L, h1, h2, h3, h4⟩ := exact_query hc h (q := [c.consts.any, c.consts.any, c.consts.any])
    ⟨by simp, fun _ x hx => by simp at hx; rw [hx]; exact any_pos hc,
     fun l _ ⟨x, e, _⟩ => (by cases e), fun ⟨x, y, e, hx, _⟩ => absurd (by cases e; rfl) hx⟩
  refine ⟨L, ?_, h2, fun l => ?_⟩
  · have h4 : (links c).countBy s [c.consts.any, c.consts.any, c.consts.any] = some L.length :=
      h4 fun _ hx => absurd rfl hx
    simp only [Links.iter, hany, Links.eachIter, Links.collect_eq h1, h4]; rfl
  · rw [h3]
    exact ⟨fun hl => hl.1, fun hl => ⟨hl, .inl rfl, .inl rfl, .inl rfl⟩⟩

example : (links cfg0).iter sNet = some [⟨1, 1, 1⟩, ⟨2, 1, 3⟩, ⟨3, 2, 2⟩, ⟨4, 9, 1⟩, ⟨6, 5, 3⟩] := by decide +kernel

end Verif.Split.Props
