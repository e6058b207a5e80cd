import Verif.Unit.ReachLawful
import Verif.Props.UnitQueries

/-!
# Properties C17–C25, C28, C29: the derived operations on the united store, and C27: `Fuse`

The default methods of the traits are functions of the required methods (`Doublets.lean`); here they run on the
united store. `callAll h cs st` is the handler's state after it was called with the pairs `cs` in turn.
-/

namespace Verif.Unit.Props
open Verif Verif.Unit

variable {c : Cfg}

/-! ## C17 -/

/-- **C17**, points. `create_point` fails, without effect, exactly when `create` does; otherwise it returns a fresh
non-null index whose link has itself as source and target, and changes nothing else. -/
theorem C17_create_point (hc : CfgOK c) {s : Store} (h : Reach c s) (hg : CanGrow c s) :
    (∃ e, (links c).create s = some ⟨.error e, s, ()⟩ ∧ (links c).createPoint s = some ⟨.error e, s, ()⟩) ∨
    ∃ i s', i ≠ 0 ∧ (links c).view s i = none ∧ Reach c s' ∧ (links c).createPoint s = some ⟨.ok i, s', ()⟩ ∧
      (links c).view s' = ((links c).view s).set i (i, i) := by
  rcases Links.createPoint_law (reachLawful hc) h hg (fun _ _ => trivial) with e | ⟨i, s', h1, h2, h3, h4⟩
  · exact .inl e
  · refine .inr ⟨i, s', ?_, h1, h2, h3, h4⟩
    rintro rfl
    have := (reachLawful hc).null s' h2
    rw [h4, View.set_same] at this; cases this

/-- **C17**, links. `create_link(x, y)` fails, without effect, exactly when `create` does; otherwise it returns a
fresh non-null index whose link is (x, y), and changes nothing else. -/
theorem C17_create_link (hc : CfgOK c) {s : Store} (h : Reach c s) (hg : CanGrow c s) (x y : Nat) :
    (∃ e, (links c).create s = some ⟨.error e, s, ()⟩ ∧ (links c).createLink s x y = some ⟨.error e, s, ()⟩) ∨
    ∃ i s', i ≠ 0 ∧ (links c).view s i = none ∧ Reach c s' ∧
      (links c).createLink s x y = some ⟨.ok i, s', ()⟩ ∧
      (links c).view s' = ((links c).view s).set i (x, y) := by
  rcases Links.createLink_law (reachLawful hc) h hg x y (fun _ _ => trivial) with e | ⟨i, s', h1, h2, h3, h4⟩
  · exact .inl e
  · refine .inr ⟨i, s', ?_, h1, h2, h3, h4⟩
    rintro rfl
    have := (reachLawful hc).null s' h2
    rw [h4, View.set_same] at this; cases this

theorem cfg0_canGrow {s : Store} (h : s.len ≤ 200) : CanGrow cfg0 s := by
  intro n hn
  cases hn
  show s.len + 8 ≤ 255
  omega

/-- Checking all links of a concrete store. -/
def allLinks (s : Store) (p : Nat → Nat × Nat → Bool) : Bool :=
  (List.range (s.hdr.allocated + 1)).all fun j =>
    match (links cfg0).view s j with
    | none => true
    | some q => p j q

theorem forall_links {s : Store} (h : Reach cfg0 s) {p : Nat → Nat × Nat → Bool} (hp : allLinks s p = true) :
    ∀ j q, (links cfg0).view s j = some q → p j q = true := by
  intro j q hj
  have hlt : j < s.hdr.allocated + 1 := by
    apply Classical.byContradiction
    intro hn
    rw [(C04_highest_slot_is_live cfg0_ok h).2 j (by omega)] at hj
    cases hj
  have := List.all_eq_true.1 hp j (List.mem_range.2 hlt)
  rwa [hj] at this

/-- Doublets are unique in a concrete store. -/
theorem uniq_of_check {s : Store} (h : Reach cfg0 s)
    (hp : (List.range (s.hdr.allocated + 1)).all (twinFree cfg0 s) = true) : ((links cfg0).view s).Uniq := by
  intro i p hi
  have hlt : i < s.hdr.allocated + 1 := by
    apply Classical.byContradiction
    intro hn
    rw [(C04_highest_slot_is_live cfg0_ok h).2 i (by omega)] at hi
    cases hi
  exact twinFree_noTwin cfg0_ok (reach_good cfg0_ok h) (List.all_eq_true.1 hp i (List.mem_range.2 hlt)) p hi

theorem sNet_uniq : ((links cfg0).view sNet).Uniq := uniq_of_check sNet_reach (by decide +kernel)

/-- No link other than 3 has 3 at both ends in `sNet`. -/
theorem sNet_no_double : ∀ j, (links cfg0).view sNet j = some (3, 3) → j = 3 := fun j hj => by
  have := forall_links sNet_reach (p := fun j q => q != (3, 3) || j == 3) (by decide +kernel) j _ hj
  simpa using this

/-- On `sNet` the freed slot 5 is reused. -/
example : Reach cfg0 sNet ∧ CanGrow cfg0 sNet ∧
    ((links cfg0).createPoint sNet).map (fun o => (o.res.toOption, (links cfg0).view o.st 5)) =
      some (some 5, some (5, 5)) ∧
    ((links cfg0).createLink sNet 3 1).map (fun o => (o.res.toOption, (links cfg0).view o.st 5)) =
      some (some 5, some (3, 1)) :=
  ⟨sNet_reach, cfg0_canGrow (by decide +kernel), by decide +kernel, by decide +kernel⟩

/-! ## C18 -/

/-- **C18.** If a link (x, y) exists, `get_or_create(x, y)` returns one and changes nothing. Otherwise it fails,
without effect, exactly when `create` does, or it adds one link (x, y) at a fresh index and returns that index,
and a second call returns the same index and changes nothing. -/
theorem C18_get_or_create (hc : CfgOK c) {s : Store} (h : Reach c s) (hg : CanGrow c s) {x y : Nat} (hx : x ≠ 0)
    (hxa : x ≠ c.consts.any) (hya : y ≠ c.consts.any) :
    (∃ i, (links c).view s i = some (x, y) ∧ (links c).getOrCreate s x y = some ⟨.ok i, s, ()⟩) ∨
    ((∀ i, (links c).view s i ≠ some (x, y)) ∧
      ((∃ e, (links c).create s = some ⟨.error e, s, ()⟩ ∧
          (links c).getOrCreate s x y = some ⟨.error e, s, ()⟩) ∨
        ∃ i s', (links c).view s i = none ∧ Reach c s' ∧
          (links c).getOrCreate s x y = some ⟨.ok i, s', ()⟩ ∧
          (links c).view s' = ((links c).view s).set i (x, y) ∧
          (links c).getOrCreate s' x y = some ⟨.ok i, s', ()⟩)) := by
  have hview : ∀ {s : Store} i, Reach c s → ((links c).getLink s i = some (some ⟨i, x, y⟩) ↔
      (links c).view s i = some (x, y)) := by
    intro s i h
    rw [(reachLawful hc).get s h i]
    cases (links c).view s i with
    | none => simp
    | some p => rcases p with ⟨a, b⟩; simp
  obtain ⟨r, h1, h2, h3, -⟩ := C12_search hc h hx hxa hya
  cases r with
  | some i =>
    refine .inl ⟨i, (hview i h).1 (h2 i rfl), ?_⟩
    simp only [Links.getOrCreate, h1, Option.bind_some]
  | none =>
    have hno : ∀ i, (links c).view s i ≠ some (x, y) := fun i hi => h3 rfl i ((hview i h).2 hi)
    refine .inr ⟨hno, ?_⟩
    simp only [Links.getOrCreate, h1, Option.bind_some]
    rcases C17_create_link hc h hg x y with ⟨e, g1, g2⟩ | ⟨i, s', -, g1, g2, g3, g4⟩
    · exact .inl ⟨e, g1, g2⟩
    · refine .inr ⟨i, s', g1, g2, g3, g4, ?_⟩
      obtain ⟨r', k1, -, -, k4⟩ := C12_search hc g2 hx hxa hya
      have := k4 i ((hview i g2).2 (by rw [g4, View.set_same])) (fun j hj => by
        have := (hview j g2).1 hj
        rw [g4] at this
        by_cases hj' : j = i
        · exact hj'
        · rw [View.set_other _ _ hj'] at this; exact absurd this (hno j))
      rw [k1, this, Option.bind_some]

example : Reach cfg0 sNet ∧ CanGrow cfg0 sNet ∧
    ((links cfg0).getOrCreate sNet 3 2).map (·.res.toOption) = some (some 6) ∧
    ((links cfg0).getOrCreate sNet 2 3).map (·.res.toOption) = some (some 5) :=
  ⟨sNet_reach, cfg0_canGrow (by decide +kernel), by decide +kernel, by decide +kernel⟩

/-! ## C19 -/

/-- **C19**, what is listed. `usages(i)` is the list of the links other than `i` with source `i` followed by the list
of those with target `i`, each without repetition; `count_usages(i)` is the length of the whole list and
`has_usages(i)` tells if some link other than `i` uses it. (The sum has to fit the index type.) -/
theorem C19_usages_list (hc : CfgOK c) {s : Store} (h : Reach c s) {i : Nat} (hv : (links c).view s i ≠ none)
    (hfit : ∀ n, (links c).count s = some n → n + n ≤ c.maxT) :
    ∃ us1 us2, (links c).usages s i = some (.ok (us1 ++ us2)) ∧ us1.Nodup ∧ us2.Nodup ∧
      (∀ j, j ∈ us1 ↔ j ≠ i ∧ ∃ b, (links c).view s j = some (i, b)) ∧
      (∀ j, j ∈ us2 ↔ j ≠ i ∧ ∃ a, (links c).view s j = some (a, i)) ∧
      (links c).countUsagesOf s i = some (.ok (us1.length + us2.length)) ∧
      ∃ b, (links c).hasUsages s i = some b ∧ (b = true ↔ ∃ j, ((links c).view s).Uses i j) := by
  cases hv' : (links c).view s i with
  | none => exact absurd hv' hv
  | some p =>
  obtain ⟨-, -, L1, L2, v1, n1, m1, v2, n2, m2, c1, c2⟩ := Links.usage_lists (reachLawful hc) h hv'
  obtain ⟨L, a1, a2, a3⟩ := (reachLawful hc).each_all s h
  have hL := hfit _ ((reachLawful hc).count_all s h L a1)
  have len1 : (L1.filter (·.index ≠ i)).length ≤ L.length := length_le_of_subset (n1.filter _)
    fun l hl => (a3 l).2 ((m1 l).1 (List.mem_filter.1 hl).1).1
  have len2 : (L2.filter (·.index ≠ i)).length ≤ L.length := length_le_of_subset (n2.filter _)
    fun l hl => (a3 l).2 ((m2 l).1 (List.mem_filter.1 hl).1).1
  have hcnt := Links.countUsagesOf_eq (reachLawful hc) h hv' n1 m1 n2 m2 c1 c2
    (show _ ≤ c.maxT by omega)
  have e1 : ∀ j, j ∈ (L1.filter (·.index ≠ i)).map (·.index) ↔ j ≠ i ∧ ∃ b, (links c).view s j = some (i, b) := by
    intro j
    rw [List.mem_map]
    constructor
    · rintro ⟨l, hl, rfl⟩
      rw [List.mem_filter, m1] at hl
      obtain ⟨⟨g1, g2⟩, g3⟩ := hl
      refine ⟨by simpa using g3, l.target, ?_⟩
      rw [← g2]; exact g1
    · rintro ⟨hj, b, hb⟩
      exact ⟨⟨j, i, b⟩, List.mem_filter.2 ⟨(m1 _).2 ⟨hb, rfl⟩, by simpa using hj⟩, rfl⟩
  have e2 : ∀ j, j ∈ (L2.filter (·.index ≠ i)).map (·.index) ↔ j ≠ i ∧ ∃ a, (links c).view s j = some (a, i) := by
    intro j
    rw [List.mem_map]
    constructor
    · rintro ⟨l, hl, rfl⟩
      rw [List.mem_filter, m2] at hl
      obtain ⟨⟨g1, g2⟩, g3⟩ := hl
      refine ⟨by simpa using g3, l.source, ?_⟩
      rw [← g2]; exact g1
    · rintro ⟨hj, b, hb⟩
      exact ⟨⟨j, b, i⟩, List.mem_filter.2 ⟨(m2 _).2 ⟨hb, rfl⟩, by simpa using hj⟩, rfl⟩
  refine ⟨(L1.filter (·.index ≠ i)).map (·.index), (L2.filter (·.index ≠ i)).map (·.index), ?_,
    nodup_index (n1.filter _) (fun l hl => ((m1 l).1 (List.mem_filter.1 hl).1).1),
    nodup_index (n2.filter _) (fun l hl => ((m2 l).1 (List.mem_filter.1 hl).1).1), e1, e2,
    by rw [hcnt]; simp, ?_⟩
  · simp only [Links.usages, hcnt, Option.bind_some, Links.usageList_eq v1 v2, Option.map_some,
      Links.filter_map_index, List.filter_append, List.map_append]
  · refine ⟨_, by rw [Links.hasUsages, hcnt]; rfl, ?_⟩
    simp only [bne_iff_ne]
    constructor
    · intro hne
      have : 0 < (L1.filter (·.index ≠ i)).length ∨ 0 < (L2.filter (·.index ≠ i)).length := by omega
      rcases this with h0 | h0
      · obtain ⟨l, hl⟩ := List.exists_mem_of_length_pos h0
        obtain ⟨g1, b, g2⟩ := (e1 l.index).1 (List.mem_map_of_mem hl)
        exact ⟨_, g1, i, b, g2, .inl rfl⟩
      · obtain ⟨l, hl⟩ := List.exists_mem_of_length_pos h0
        obtain ⟨g1, a, g2⟩ := (e2 l.index).1 (List.mem_map_of_mem hl)
        exact ⟨_, g1, a, i, g2, .inr rfl⟩
    · rintro ⟨j, hj, a, b, hab, rfl | rfl⟩
      · have := List.length_pos_of_mem ((e1 j).2 ⟨hj, b, hab⟩)
        rw [List.length_map] at this; omega
      · have := List.length_pos_of_mem ((e2 j).2 ⟨hj, a, hab⟩)
        rw [List.length_map] at this; omega

/-- **C19** (partial: no link other than `i` may have `i` at both ends). `usages(i)` lists the links that use `i`,
each once; `count_usages(i)` is their number and `has_usages(i)` tells if there is one. -/
theorem C19_usages_partial (hc : CfgOK c) {s : Store} (h : Reach c s) {i : Nat}
    (hv : (links c).view s i ≠ none) (hd : ∀ j, (links c).view s j = some (i, i) → j = i) :
    ∃ us, (links c).usages s i = some (.ok us) ∧ us.Nodup ∧
      (∀ j, j ∈ us ↔ ((links c).view s).Uses i j) ∧
      (links c).countUsagesOf s i = some (.ok us.length) ∧
      ∃ b, (links c).hasUsages s i = some b ∧ (b = true ↔ ∃ j, ((links c).view s).Uses i j) := by
  cases hv' : (links c).view s i with
  | none => exact absurd hv' hv
  | some p =>
  obtain ⟨-, -, L1, L2, v1, n1, m1, v2, n2, m2, c1, c2⟩ := Links.usage_lists (reachLawful hc) h hv'
  obtain ⟨L, a1, a2, a3⟩ := (reachLawful hc).each_all s h
  have hL := (reachLawful hc).bounded s h L a1
  have hnod := Links.usages_nodup n1 m1 n2 m2 hd
  have hmem : ∀ l, l ∈ (L1 ++ L2).filter (·.index ≠ i) ↔
      ((links c).view s).Has l ∧ l.index ≠ i ∧ (l.source = i ∨ l.target = i) := by
    intro l
    rw [List.mem_filter, List.mem_append, m1, m2]
    simp only [decide_eq_true_eq]
    constructor
    · rintro ⟨h | h, h'⟩
      · exact ⟨h.1, h', .inl h.2⟩
      · exact ⟨h.1, h', .inr h.2⟩
    · rintro ⟨h1, h2, h3 | h3⟩
      · exact ⟨.inl ⟨h1, h3⟩, h2⟩
      · exact ⟨.inr ⟨h1, h3⟩, h2⟩
  have hlen := length_le_of_subset hnod fun l hl => (a3 l).2 ((hmem l).1 hl).1
  have hcnt := Links.countUsagesOf_eq (reachLawful hc) h hv' n1 m1 n2 m2 c1 c2
    (by rw [List.filter_append, List.length_append] at hlen; omega)
  have huse : ∀ j, j ∈ ((L1 ++ L2).filter (·.index ≠ i)).map (·.index) ↔ ((links c).view s).Uses i j := by
    intro j
    rw [List.mem_map]
    constructor
    · rintro ⟨l, hl, rfl⟩
      obtain ⟨g1, g2, g3⟩ := (hmem l).1 hl
      exact ⟨g2, _, _, g1, g3⟩
    · rintro ⟨g2, a, b, g1, g3⟩
      exact ⟨⟨j, a, b⟩, (hmem _).2 ⟨g1, g2, g3⟩, rfl⟩
  refine ⟨((L1 ++ L2).filter (·.index ≠ i)).map (·.index), ?_,
    nodup_index hnod (fun l hl => ((hmem l).1 hl).1), huse, ?_, _, by rw [Links.hasUsages, hcnt]; rfl, ?_⟩
  · simp only [Links.usages, hcnt, Option.bind_some, Links.usageList_eq v1 v2, Option.map_some,
      Links.filter_map_index]
  · rw [hcnt, List.length_map, List.filter_append, List.length_append]
  · rw [← List.length_append, ← List.filter_append]
    simp only [bne_iff_ne]
    constructor
    · intro hne
      obtain ⟨l, hl⟩ := List.exists_mem_of_length_pos (Nat.pos_of_ne_zero hne)
      exact ⟨l.index, (huse _).1 (List.mem_map_of_mem hl)⟩
    · rintro ⟨j, hj⟩
      have := List.length_pos_of_mem ((huse j).2 hj)
      rw [List.length_map] at this; omega

/-- A link that is not in the store has no usages to report. -/
theorem C19_missing (hc : CfgOK c) {s : Store} (h : Reach c s) {i : Nat} (hv : (links c).view s i = none) :
    (links c).usages s i = some (.error (.notExists i)) ∧
    (links c).countUsagesOf s i = some (.error (.notExists i)) ∧ (links c).hasUsages s i = some false := by
  have : (links c).countUsagesOf s i = some (.error (.notExists i)) := by
    simp only [Links.countUsagesOf, Links.tryGetLink, (reachLawful hc).get s h, hv, Option.map_some,
      Option.map_none, Option.bind_some]
  exact ⟨by rw [Links.usages, this]; rfl, this, by rw [Links.hasUsages, this]; rfl⟩

example : ∃ us1 us2, (links cfg0).usages sNet 2 = some (.ok (us1 ++ us2)) ∧ us1.Nodup ∧ us2.Nodup :=
  let ⟨u1, u2, h1, h2, h3, _⟩ := C19_usages_list cfg0_ok sNet_reach (i := 2) (by decide +kernel)
    (fun n hn => by
      have : (links cfg0).count sNet = some 5 := by decide +kernel
      rw [this] at hn; cases hn; decide)
  ⟨u1, u2, h1, h2, h3⟩

/-- In `sNet` links 2 and 6 use 3. -/
example : ∃ us, (links cfg0).usages sNet 3 = some (.ok us) ∧ us.Nodup :=
  let ⟨us, h1, h2, _⟩ := C19_usages_partial cfg0_ok sNet_reach (i := 3) (by decide +kernel) sNet_no_double
  ⟨us, h1, h2⟩

example : (links cfg0).usages sNet 3 = some (.ok [6, 2]) ∧ (links cfg0).countUsagesOf sNet 3 = some (.ok 2) ∧
    (links cfg0).countUsagesOf sNet 1 = some (.ok 1) ∧ (links cfg0).hasUsages sNet 4 = some false ∧
    (links cfg0).view sNet 5 = none := by decide +kernel

/-- 3 = (2,1), 4 = (2,2): link 4 uses 2 at both ends. -/
def sDouble : Store := runs cfg0 [.create, .create, .create, .create, .update 3 2 1, .update 4 2 2]

theorem sDouble_reach : Reach cfg0 sDouble := runs_reach (by decide +kernel)

/-- **C19** is false of a link with `i` at both ends: two links use 2, but link 4 is listed and counted twice. -/
theorem C19_double_user_counted_twice : Reach cfg0 sDouble ∧
    (links cfg0).view sDouble 3 = some (2, 1) ∧ (links cfg0).view sDouble 4 = some (2, 2) ∧
    (links cfg0).count sDouble = some 4 ∧
    (links cfg0).usages sDouble 2 = some (.ok [3, 4, 4]) ∧
    (links cfg0).countUsagesOf sDouble 2 = some (.ok 3) := ⟨sDouble_reach, by decide +kernel⟩

/-! ## C20 -/

/-- **C20** (partial: no link other than `i` may have `i` at both ends). `delete_usages(i)` succeeds and removes
exactly the links that use `i`; the handler of `delete_usages_with` is called once for each removed link. -/
theorem C20_delete_usages_partial (hc : CfgOK c) {s : Store} (h : Reach c s) {i : Nat}
    (hv : (links c).view s i ≠ none) (hd : ∀ j, (links c).view s j = some (i, i) → j = i)
    (hu : ∀ j, ((links c).view s).Uses i j → ((links c).view s).NoTwin j) :
    ∃ (s' : Store) (L : List Link), Reach c s' ∧
      (∀ j, ((links c).view s).Uses i j → (links c).view s' j = none) ∧
      (∀ j, ¬ ((links c).view s).Uses i j → (links c).view s' j = (links c).view s j) ∧
      (links c).deleteUsages s i = some ⟨.ok (), s', ()⟩ ∧
      L.Nodup ∧ (∀ l, l ∈ L ↔ ((links c).view s).Has l ∧ ((links c).view s).Uses i l.index) ∧
      ∀ (σ ρ : Type) (hdl : σ → Link → Link → Ctl ρ × σ) (st : σ), (links c).deleteUsagesWith s i hdl st =
        some ⟨.ok (), s', callAll hdl (L.map fun l => (l, Link.nothing)) st⟩ := by
  cases hv' : (links c).view s i with
  | none => exact absurd hv' hv
  | some p =>
  have hu' : ∀ j a b, (links c).view s j = some (a, b) → j ≠ i → (a = i ∨ b = i) →
      ((links c).view s).NoTwin j := fun j a b h1 h2 h3 => hu j ⟨h2, a, b, h1, h3⟩
  obtain ⟨s', L, g1, g2, g3, g4, g5⟩ := Links.deleteUsagesWith_law (reachLawful hc) h hv' hd hu'
    (fun _ _ _ _ _ _ => trivial)
  have huse : ∀ l, l ∈ L ↔ ((links c).view s).Has l ∧ ((links c).view s).Uses i l.index := by
    intro l
    rw [g3]
    constructor
    · rintro ⟨q1, q2, q3⟩; exact ⟨q1, q2, _, _, q1, q3⟩
    · rintro ⟨q1, q2, a, b, q3, q4⟩
      unfold View.Has at q1
      rw [q1] at q3
      cases q3
      exact ⟨q1, q2, q4⟩
  have hidx : ∀ j, j ∈ L.map (·.index) ↔ ((links c).view s).Uses i j := by
    intro j
    rw [List.mem_map]
    constructor
    · rintro ⟨l, hl, rfl⟩; exact ((huse l).1 hl).2
    · rintro ⟨q2, a, b, q3, q4⟩; exact ⟨⟨j, a, b⟩, (huse _).2 ⟨q3, q2, a, b, q3, q4⟩, rfl⟩
  refine ⟨s', L, g1, ?_, ?_, ?_, g2, huse, fun _ _ h st => g5 h st⟩
  · intro j hj
    rw [g4]; exact if_pos ((hidx j).2 hj)
  · intro j hj
    rw [g4]; exact if_neg fun hm => hj ((hidx j).1 hm)
  · rw [Links.deleteUsages, g5]

example : ∃ s', Reach cfg0 s' ∧ (links cfg0).deleteUsages sNet 3 = some ⟨.ok (), s', ()⟩ :=
  let ⟨s', _, h1, _, _, h4, _⟩ := C20_delete_usages_partial cfg0_ok sNet_reach (i := 3) (by decide +kernel)
    sNet_no_double fun j _ => sNet_uniq j
  ⟨s', h1, h4⟩

/-- In `sNet` links 2 and 6 use 3; both go, nothing else. -/
example : Reach cfg0 sNet ∧ ((links cfg0).deleteUsages sNet 3).map
    (fun o => (o.res.toOption, (links cfg0).eachIter o.st [])) =
      some (some (), some [⟨1, 1, 1⟩, ⟨3, 2, 2⟩, ⟨4, 0, 0⟩]) := ⟨sNet_reach, by decide +kernel⟩

/-- **C20** is false of a link with `i` at both ends: it is deleted twice, so the call fails, and link 3 = (2,1), which
uses 2, is still there. All doublets are different. -/
theorem C20_double_user_fails : Reach cfg0 sDouble ∧
    (links cfg0).view sDouble 3 = some (2, 1) ∧ (links cfg0).view sDouble 4 = some (2, 2) ∧
    ((links cfg0).deleteUsages sDouble 2).map (fun o => (o.res, (links cfg0).view o.st 3)) =
      some (.error (.notExists 4), some (2, 1)) := ⟨sDouble_reach, by decide +kernel⟩

/-! ## C21 -/

/-- **C21** (partial: no link other than `old` may have `old` at both ends). `rebase(old, new)` returns `new`; in every
link other than `old` each occurrence of `old` is replaced by `new`; nothing else changes. With `old = new` it
does nothing, and a missing `old` is reported. -/
theorem C21_rebase_partial (hc : CfgOK c) {s : Store} (h : Reach c s) (old new : Nat) :
    ((links c).view s old = none → (links c).rebase s old new = some ⟨.error (.notExists old), s, ()⟩) ∧
    ((links c).view s old ≠ none → old = new → (links c).rebase s old new = some ⟨.ok new, s, ()⟩) ∧
    ((links c).view s old ≠ none → old ≠ new → (∀ j, (links c).view s j = some (old, old) → j = old) →
      (∀ j, ((links c).view s).Uses old j → ((links c).view s).NoTwin j) →
      ∃ s', Reach c s' ∧ (links c).rebase s old new = some ⟨.ok new, s', ()⟩ ∧
        (links c).view s' old = (links c).view s old ∧
        ∀ j, j ≠ old → (links c).view s' j = ((links c).view s j).map fun p =>
          (if p.1 = old then new else p.1, if p.2 = old then new else p.2)) := by
  refine ⟨fun hv => ?_, fun hv he => ?_, fun hv hne hd hu => ?_⟩
  · simp only [Links.rebase, Links.rebaseWith, Links.tryGetLink, (reachLawful hc).get s h, hv, Option.map_none,
      Option.map_some, Option.bind_some, Except.map]
  · subst he
    cases hv' : (links c).view s old with
    | none => exact absurd hv' hv
    | some p =>
      simp only [Links.rebase, Links.rebaseWith, Links.tryGetLink, (reachLawful hc).get s h, hv',
        Option.map_some, Option.bind_some, if_true, Except.map]
  · cases hv' : (links c).view s old with
    | none => exact absurd hv' hv
    | some p =>
      obtain ⟨s', g1, g2, g3⟩ := Links.rebaseWith_law (reachLawful hc) h hv' hne hd
        (fun j a b h1 h2 h3 => hu j ⟨h2, a, b, h1, h3⟩) (fun _ _ _ _ _ _ _ _ => trivial)
      obtain ⟨st', g3⟩ := g3 Links.contH ()
      refine ⟨s', g1, by rw [Links.rebase, g3]; rfl, ?_, ?_⟩
      · rw [g2]; simp only [if_true]; exact hv'
      · intro j hj
        rw [g2]; simp only [if_neg hj]; rfl

example : ∃ s', Reach cfg0 s' ∧ (links cfg0).rebase sNet 3 4 = some ⟨.ok 4, s', ()⟩ :=
  let ⟨s', h1, h2, _⟩ := (C21_rebase_partial cfg0_ok sNet_reach 3 4).2.2 (by decide +kernel) (by decide)
    sNet_no_double fun j _ => sNet_uniq j
  ⟨s', h1, h2⟩

/-- In `sNet`, rebasing 3 to 4: link 2 = (1,3) becomes (1,4) and 6 = (3,2) becomes (4,2). -/
example : Reach cfg0 sNet ∧ ((links cfg0).rebase sNet 3 4).map
    (fun o => (o.res.toOption, (links cfg0).eachIter o.st [])) =
      some (some 4, some [⟨1, 1, 1⟩, ⟨2, 1, 4⟩, ⟨3, 2, 2⟩, ⟨4, 0, 0⟩, ⟨6, 4, 2⟩]) := ⟨sNet_reach, by decide +kernel⟩

/-- **C21** is false of a link with `old` at both ends: after `rebase(2, 1)`, link 4 = (2,2) has become (2,1) and
still refers to 2. -/
theorem C21_double_user_keeps_a_reference : Reach cfg0 sDouble ∧
    (links cfg0).view sDouble 4 = some (2, 2) ∧
    ((links cfg0).rebase sDouble 2 1).map (fun o => (o.res, (links cfg0).view o.st 4)) =
      some (.ok 1, some (2, 1)) := ⟨sDouble_reach, by decide +kernel⟩

/-! ## C22 -/

/-- **C22** (partial: as C21, the call returns 0 instead of `new`, and `old` may not end up with the same doublet as
a rebased link). The references are rebased and `old` is removed; with `old = new` nothing happens. -/
theorem C22_rebase_and_delete_partial (hc : CfgOK c) {s : Store} (h : Reach c s) (old new : Nat) :
    (old = new → (links c).rebaseAndDelete s old new = some ⟨.ok new, s, ()⟩) ∧
    ((links c).view s old = none → old ≠ new →
      (links c).rebaseAndDelete s old new = some ⟨.error (.notExists old), s, ()⟩) ∧
    (∀ p, (links c).view s old = some p → old ≠ new → (∀ j, (links c).view s j = some (old, old) → j = old) →
      (∀ j, ((links c).view s).Uses old j → ((links c).view s).NoTwin j) →
      (p ≠ (0, 0) → ∀ j q, j ≠ old → (links c).view s j = some q →
        (if q.1 = old then new else q.1, if q.2 = old then new else q.2) ≠ p) →
      ∃ s', Reach c s' ∧ (links c).rebaseAndDelete s old new = some ⟨.ok 0, s', ()⟩ ∧
        (links c).view s' old = none ∧
        ∀ j, j ≠ old → (links c).view s' j = ((links c).view s j).map fun p =>
          (if p.1 = old then new else p.1, if p.2 = old then new else p.2)) := by
  obtain ⟨r1, r2, r3⟩ := C21_rebase_partial hc h old new
  refine ⟨fun he => by rw [Links.rebaseAndDelete, if_pos he], fun hv hne => ?_, fun p hv hne hd hu ht => ?_⟩
  · rw [Links.rebaseAndDelete, if_neg hne, r1 hv]; rfl
  · obtain ⟨s1, g1, g2, g3, g4⟩ := r3 (by rw [hv]; simp) hne hd hu
    have hnt : ((links c).view s1).NoTwin old := by
      intro q hq hq0 j hj
      rw [g3, hv] at hq; cases hq
      by_cases hjo : j = old
      · exact hjo
      · rw [g4 j hjo] at hj
        cases hvj : (links c).view s j with
        | none => rw [hvj] at hj; cases hj
        | some q => rw [hvj] at hj; exact absurd (Option.some.inj hj) (ht hq0 j q hjo hvj)
    obtain ⟨s2, k1, -, k3, k4⟩ := (reachLawful hc).delete s1 g1 old p (by rw [g3, hv]) hnt trivial
    refine ⟨s2, k1, ?_, ?_, ?_⟩
    · rw [Links.rebaseAndDelete, if_neg hne, g2]
      show (links c).delete s1 old = _
      rw [Links.delete_ok k4]; rfl
    · rw [k3, View.del_same]
    · intro j hj
      rw [k3, View.del_other _ hj, g4 j hj]

example : ∃ s', Reach cfg0 s' ∧ (links cfg0).rebaseAndDelete sNet 3 4 = some ⟨.ok 0, s', ()⟩ :=
  let ⟨s', h1, h2, _⟩ := (C22_rebase_and_delete_partial cfg0_ok sNet_reach 3 4).2.2 (2, 2) (by decide +kernel)
    (by decide) sNet_no_double (fun j _ => sNet_uniq j) (fun _ j q hj hq => by
      have := forall_links sNet_reach
        (p := fun j q => j == 3 || (if q.1 = 3 then 4 else q.1, if q.2 = 3 then 4 else q.2) != (2, 2))
        (by decide +kernel) j q hq
      simpa [hj] using this)
  ⟨s', h1, h2⟩

/-- **C22** is false in what is returned: 0, not the new link. -/
theorem C22_returns_null : Reach cfg0 sNet ∧
    ((links cfg0).rebaseAndDelete sNet 3 4).map
      (fun o => (o.res.toOption, (links cfg0).eachIter o.st [])) =
        some (some 0, some [⟨1, 1, 1⟩, ⟨2, 1, 4⟩, ⟨4, 0, 0⟩, ⟨6, 4, 2⟩]) := ⟨sNet_reach, by decide +kernel⟩

/-! ## C23 -/

/-- **C23** (partial: see below). `delete_all` always returns; it succeeds exactly if the links are numbered
without gaps from 1, and then the store is empty; otherwise it reports a missing link and leaves links behind. -/
theorem C23_delete_all_partial (hc : CfgOK c) {s : Store} (h : Reach c s) (hu : ((links c).view s).Uniq) :
    ∃ n, (links c).count s = some n ∧
    ((∀ i, (links c).view s i ≠ none ↔ 1 ≤ i ∧ i ≤ n) →
      ∃ s', Reach c s' ∧ (links c).deleteAll s = some ⟨.ok (), s', ()⟩ ∧ ∀ i, (links c).view s' i = none) ∧
    (¬ (∀ i, (links c).view s i ≠ none ↔ 1 ≤ i ∧ i ≤ n) →
      ∃ s' k, Reach c s' ∧ (links c).deleteAll s = some ⟨.error (.notExists k), s', ()⟩ ∧
        (links c).view s k = none ∧ ∃ i, (links c).view s' i ≠ none) := by
  obtain ⟨n, h1, -, h2⟩ := Links.deleteAll_law (reachLawful hc) h hu
  refine ⟨n, h1, ?_, ?_⟩
  · intro hall
    rcases h2 with ⟨s', g1, -, g3, g4⟩ | ⟨s', k, -, -, -, -, g6, -⟩
    · exact ⟨s', g1, g4, fun i => by rw [g3]; rfl⟩
    · exact absurd hall g6
  · intro hnot
    rcases h2 with ⟨s', g1, g2, g3, g4⟩ | ⟨s', k, g1, g2, g3, g4, g5, g6⟩
    · exact absurd g2 hnot
    · refine ⟨s', k, g1, g6, g3, Classical.byContradiction fun hno => g4 (funext fun i => ?_)⟩
      exact Classical.byContradiction fun hi => hno ⟨i, hi⟩

example : ∃ n, (links cfg0).count sDouble = some n :=
  let ⟨n, h, _⟩ := C23_delete_all_partial cfg0_ok sDouble_reach (uniq_of_check sDouble_reach (by decide +kernel))
  ⟨n, h⟩

/-- A store without gaps is emptied. -/
example : Reach cfg0 sDouble ∧ ((links cfg0).deleteAll sDouble).map
    (fun o => (o.res.toOption, (links cfg0).count o.st)) = some (some (), some 0) :=
  ⟨sDouble_reach, by decide +kernel⟩

/-- **C23** is false: `sNet` has 5 links and no link 5, `delete_all` fails and removes nothing. -/
theorem C23_delete_all_fails : Reach cfg0 sNet ∧
    ((links cfg0).deleteAll sNet).map (fun o => (o.res, (links cfg0).count o.st)) =
      some (.error (.notExists 5), some 5) := ⟨sNet_reach, by decide +kernel⟩

/-! ## C24 -/

/-- A query whose answer is exact: no null ends asked for over all links, no link met from both ends, and the
doublet asked for, if any, is not duplicated. -/
structure Exact (any : Nat) (v : View) (q : List Nat) : Prop where
  short : q.length ≤ 3
  null : NullFree any q
  ends : ∀ l, v.Has l → ¬ DoubleEnd any q l
  pair : IsPair any q → ∀ l l', v.Has l → MatchQ any q l → v.Has l' → MatchQ any q l' → l = l'

/-- For exact queries the traversal visits the matching links, each once, and the count is their number. -/
theorem exact_query (hc : CfgOK c) {s : Store} (h : Reach c s) {q : List Nat}
    (hq : Exact c.consts.any ((links c).view s) q) :
    ∃ L, (links c).Visits s q L ∧ L.Nodup ∧
      (∀ l, l ∈ L ↔ ((links c).view s).Has l ∧ MatchQ c.consts.any q l) ∧
      (links c).countLinks s q = some L.length := by
  obtain ⟨L, h1, h2, h3, h4, h5, -⟩ := query_law hc (reach_good hc h) q hq.short
  have hcount : ∀ l, ((links c).view s).Has l → MatchQ c.consts.any q l → L.count l = 1 := by
    intro l hl hm
    by_cases hp : IsPair c.consts.any q
    · obtain ⟨k1, k2⟩ := h5 hp
      have k2 := k2 hq.null ⟨l, hl, hm⟩
      match L, k1, k2 with
      | [x], _, _ =>
        have := h3 x (by simp)
        rw [hq.pair hp x l this.1 this.2 hl hm]; simp
    · rw [h4 hq.null hp l hl]
      rcases visitsOf_match hm with ⟨e, -⟩ | ⟨-, e⟩
      · exact e
      · exact absurd e (hq.ends l hl)
  have hmem : ∀ l, l ∈ L ↔ ((links c).view s).Has l ∧ MatchQ c.consts.any q l := fun l =>
    ⟨h3 l, fun hl => List.count_pos_iff.1 (by rw [hcount l hl.1 hl.2]; omega)⟩
  have hnod : L.Nodup := nodup_of_count fun l hl => by rw [hcount l (h3 l hl).1 (h3 l hl).2]; omega
  refine ⟨L, h1, hnod, hmem, ?_⟩
  obtain ⟨M, a1, a2, a3⟩ := (reachLawful hc).each_all s h
  have hM : M.length ≤ c.maxT := (reachLawful hc).bounded s h M a1
  have := length_le_of_subset hnod fun l hl => (a3 l).2 (h3 l hl).1
  exact h2.trans (if_pos (by omega))

/-- **C24** (partial: for exact queries). `delete_query_with(q)` succeeds, removes exactly the links that match `q`,
and calls the handler once for each removed link. -/
theorem C24_delete_query_partial (hc : CfgOK c) {s : Store} (h : Reach c s) {q : List Nat}
    (hq : Exact c.consts.any ((links c).view s) q)
    (hu : ∀ l, ((links c).view s).Has l → MatchQ c.consts.any q l → ((links c).view s).NoTwin l.index) :
    ∃ (s' : Store) (L : List Link), Reach c s' ∧ L.Nodup ∧
      (∀ l, l ∈ L ↔ ((links c).view s).Has l ∧ MatchQ c.consts.any q l) ∧
      (∀ l, ((links c).view s').Has l ↔ ((links c).view s).Has l ∧ ¬ MatchQ c.consts.any q l) ∧
      ∀ (σ ρ : Type) (hd : σ → Link → Link → Ctl ρ × σ) (st : σ), (links c).deleteQueryWith s q hd st =
        some ⟨.ok (), s', callAll hd (L.map fun l => (l, Link.nothing)) st⟩ := by
  obtain ⟨L, h1, h2, h3, h4⟩ := exact_query hc h hq
  obtain ⟨s', g1, g2, g3⟩ := Links.deleteQueryWith_law (reachLawful hc) h h4 h1 h2
    (fun l hl => ⟨((h3 l).1 hl).1, hu l ((h3 l).1 hl).1 ((h3 l).1 hl).2⟩) (fun _ _ => trivial)
  refine ⟨s', L.reverse, g1, nodup_rev h2, fun l => by rw [List.mem_reverse, h3], fun l => ?_,
    fun _ _ hd st => g3 hd st⟩
  unfold View.Has
  simp only [g2]
  constructor
  · intro hl
    split at hl
    · cases hl
    · next hm => exact ⟨hl, fun hmt => hm (List.mem_map_of_mem ((h3 l).2 ⟨hl, hmt⟩))⟩
  · rintro ⟨hl, hm⟩
    rw [if_neg]
    · exact hl
    · intro hin
      obtain ⟨l', hl', e⟩ := List.mem_map.1 hin
      have k := (h3 l').1 hl'
      have k1 := k.1
      unfold View.Has at k1
      rw [e, hl] at k1
      rcases l with ⟨a, b, d⟩; rcases l' with ⟨a', b', d'⟩
      simp at k1 e
      rw [e, ← k1.1, ← k1.2] at k
      exact hm k.2

/-- The query for source 1 is exact in `sNet`. -/
theorem sNet_exact : Exact cfg0.consts.any ((links cfg0).view sNet) [252, 1, 252] where
  short := by simp
  null := by intro _ x hx; simp at hx; omega
  ends := by rintro l _ ⟨x, e, _⟩; cases e
  pair := by rintro ⟨x, y, e, _, hy⟩; cases e; exact absurd rfl hy

example : ∃ (s' : Store) (L : List Link), Reach cfg0 s' ∧ L.Nodup :=
  let ⟨s', L, h1, h2, _⟩ := C24_delete_query_partial cfg0_ok sNet_reach sNet_exact fun l _ _ => sNet_uniq l.index
  ⟨s', L, h1, h2⟩

/-- In `sNet`, delete the links with source 1; the handler counts its calls. -/
example : Reach cfg0 sNet ∧ ((links cfg0).deleteQueryWith (ρ := _root_.Unit) sNet [252, 1, 252]
    (fun (n : Nat) _ _ => (.cont, n + 1)) 0).map
    (fun o => (o.res.toOption, o.hs, (links cfg0).eachIter o.st [])) =
      some (some (), 2, some [⟨3, 2, 2⟩, ⟨4, 0, 0⟩, ⟨6, 3, 2⟩]) := ⟨sNet_reach, by decide +kernel⟩

/-- **C24** is false of `[any, x]` if a link has `x` at both ends: 1 = (1,1) is deleted twice, so the call fails. -/
theorem C24_double_end_fails : Reach cfg0 sNet ∧ ((links cfg0).deleteQueryWith (ρ := _root_.Unit) sNet
    [cfg0.consts.any, 1] (fun (n : Nat) _ _ => (.cont, n + 1)) 0).map (fun o => o.res) =
      some (.error (.notExists 1)) := ⟨sNet_reach, by decide +kernel⟩

/-! ## C25 -/

/-- **C25**, `find` and `found`. If null ends are not asked for, `find(q)` returns a matching link if there is one and
None otherwise, and `found(q)`, when it returns, tells if there is one. -/
theorem C25_find_and_found (hc : CfgOK c) {s : Store} (h : Reach c s) {q : List Nat} (hq : q.length ≤ 3)
    (hn : NullFree c.consts.any q) :
    ∃ r, (links c).find s q = some r ∧
      (∀ l, r = some l → ((links c).view s).Has l ∧ MatchQ c.consts.any q l) ∧
      (r = none → ∀ l, ((links c).view s).Has l → ¬ MatchQ c.consts.any q l) ∧
      ∀ b, (links c).found s q = some b →
        (b = true ↔ ∃ l, ((links c).view s).Has l ∧ MatchQ c.consts.any q l) := by
  obtain ⟨L, h1, h2, h3, h4, h5, -⟩ := query_law hc (reach_good hc h) q hq
  have hne : ∀ l, ((links c).view s).Has l → MatchQ c.consts.any q l → L ≠ [] := by
    intro l hl hm
    by_cases hp : IsPair c.consts.any q
    · exact (h5 hp).2 hn ⟨l, hl, hm⟩
    · have := h4 hn hp l hl
      rintro rfl
      rcases visitsOf_match hm with ⟨e, -⟩ | ⟨e, -⟩ <;> rw [e] at this <;> cases this
  refine ⟨L.head?, ?_, ?_, ?_, ?_⟩
  · simp only [Links.find, Links.eachBy_eq h1, Option.map_some]
    cases L <;> rfl
  · intro l hl
    exact h3 l (List.mem_of_mem_head? hl)
  · intro he l hl hm
    exact hne l hl hm (List.head?_eq_none_iff.1 he)
  · intro b hb
    have hcnt : (links c).countBy s q = countLinks c s q := rfl
    rw [Links.found, hcnt, h2] at hb
    split at hb
    · simp only [Option.map_some, Option.some.injEq] at hb
      rw [← hb, bne_iff_ne]
      constructor
      · intro hlen
        obtain ⟨l, hl⟩ := List.exists_mem_of_length_pos (Nat.pos_of_ne_zero hlen)
        exact ⟨l, h3 l hl⟩
      · rintro ⟨l, hl, hm⟩ hz
        exact hne l hl hm (List.eq_nil_of_length_eq_zero hz)
    · cases hb

/-- The only element of a list. -/
def only : List Link → Option Link
  | [l] => some l
  | _ => none

theorem single_eq (L : List Link) :
    (runH (ρ := _root_.Unit) (fun r l => match r with
      | none => (.cont, some l)
      | some _ => (.brk (), none)) L (none : Option Link)).2 = only L := by
  match L with
  | [] => rfl
  | [l] => rfl
  | _ :: _ :: _ => rfl

/-- **C25**, `single` (partial: for exact queries). `single(q)` returns a link exactly if it is the only one that
matches. -/
theorem C25_single_partial (hc : CfgOK c) {s : Store} (h : Reach c s) {q : List Nat}
    (hq : Exact c.consts.any ((links c).view s) q) :
    ∃ r, (links c).single s q = some r ∧
      ∀ l, r = some l ↔ ((links c).view s).Has l ∧ MatchQ c.consts.any q l ∧
        ∀ l', ((links c).view s).Has l' → MatchQ c.consts.any q l' → l' = l := by
  obtain ⟨L, h1, h2, h3, -⟩ := exact_query hc h hq
  refine ⟨only L, ?_, fun l => ?_⟩
  · simp only [Links.single, Links.eachBy_eq h1, Option.map_some]
    exact congrArg some (single_eq L)
  · constructor
    · intro he
      match L, he with
      | [x], he =>
        have e : x = l := Option.some.inj he
        subst e
        have := (h3 x).1 (by simp)
        refine ⟨this.1, this.2, fun l' k1 k2 => ?_⟩
        simpa using (h3 l').2 ⟨k1, k2⟩
    · rintro ⟨k1, k2, k3⟩
      have hmem := (h3 l).2 ⟨k1, k2⟩
      match L, hmem, h2 with
      | [x], hm, _ => simp at hm; rw [hm]; rfl
      | x :: y :: L, hm, hn =>
        have e1 := (h3 x).1 (by simp)
        have e2 := (h3 y).1 (by simp)
        have := (k3 x e1.1 e1.2).trans (k3 y e2.1 e2.2).symm
        rw [this] at hn
        simp at hn

example : ∃ r, (links cfg0).single sNet [252, 1, 252] = some r :=
  let ⟨r, h, _⟩ := C25_single_partial cfg0_ok sNet_reach sNet_exact
  ⟨r, h⟩

example : Reach cfg0 sNet ∧ (links cfg0).find sNet [252, 1, 252] = some (some ⟨1, 1, 1⟩) ∧
    (links cfg0).found sNet [252, 252, 4] = some false ∧
    (links cfg0).single sNet [252, 3, 252] = some (some ⟨6, 3, 2⟩) ∧
    (links cfg0).single sNet [252, 1, 252] = some none := ⟨sNet_reach, by decide +kernel⟩

/-- **C25** is false of `single([any, x])` if a link has `x` at both ends: it is visited twice. -/
theorem C25_single_double_end : Reach cfg0 sDouble ∧
    (links cfg0).single sDouble [cfg0.consts.any, 1] = some (some ⟨3, 2, 1⟩) ∧
    (∃ s, Reach cfg0 s ∧ (links cfg0).eachIter s [] = some [⟨1, 1, 1⟩] ∧
      (links cfg0).single s [cfg0.consts.any, 1] = some none) :=
  ⟨sDouble_reach, by decide +kernel, runs cfg0 [.create, .update 1 1 1], runs_reach (by decide +kernel),
    by decide +kernel⟩

/-! ## C27 -/

/-- **C27** (partial). What a fused handler does: it answers Break exactly when the wrapped handler does … -/
theorem C27_fused_handler_reports_break_partial {σ ρ : Type} (h : σ → Link → Link → Ctl ρ × σ) (st : σ)
    (b a : Link) : (fuseCall h ⟨st, false⟩ b a).1 = .brk () ↔ ∃ r, (h st b a).1 = .brk r := by
  rw [fuseCall_eq]
  rcases h st b a with ⟨_ | r, st'⟩ <;> simp

/-- … but it never stops calling it: over any sequence of calls the wrapped handler is called every time. -/
theorem C27_fuse_never_fuses {σ ρ : Type} (h : σ → Link → Link → Ctl ρ × σ) (cs : List (Link × Link)) (st : σ) :
    cs.foldl (fun f c => (fuseCall h f c.1 c.2).2) (⟨st, false⟩ : FuseSt σ) = ⟨callAll h cs st, false⟩ := by
  induction cs generalizing st with
  | nil => rfl
  | cons c cs ih =>
    simp only [List.foldl_cons, fuseCall_eq]
    exact ih _

/-- **C27** is false: a handler that breaks at once is called again, by a second call and inside
`delete_query_with`. -/
theorem C27_called_after_break : Reach cfg0 sNet ∧ ((links cfg0).deleteQueryWith sNet [cfg0.consts.any, 1, cfg0.consts.any]
    (fun (n : Nat) _ _ => (Ctl.brk (), n + 1)) 0).map (fun o => o.hs) = some 2 := ⟨sNet_reach, by decide +kernel⟩

/-! ## C28 -/

/-- Specification of a sequence of write notifications: call the handler in turn, stop at the first break. -/
def runW {σ ρ : Type} (h : σ → Link → Link → Ctl ρ × σ) : List (Link × Link) → σ → Ctl ρ × σ
  | [], st => (.cont, st)
  | c :: cs, st =>
    match h st c.1 c.2 with
    | (.brk r, st') => (.brk r, st')
    | (.cont, st') => runW h cs st'

/-- The contract of `create_links`, `update_links` and `delete_links`: on success the handler was called with the
pairs `cs` in turn until it broke. -/
def Notifies {S : Type} (call : (σ : Type) → WH σ → σ → Option (Out S σ Flow)) (s' : S)
    (cs : List (Link × Link)) : Prop :=
  ∀ (σ : Type) (h : WH σ) (st : σ), call σ h st = some ⟨.ok (runW h cs st).1, s', (runW h cs st).2⟩

theorem notifies_wrap {S σ ρ : Type} {call : (σ : Type) → WH σ → σ → Option (Out S σ Flow)} {s' : S}
    {cs : List (Link × Link)} (h : Notifies call s' cs) (hd : σ → Link → Link → Ctl ρ × σ) (st : σ) :
    (call _ (Links.wrapW hd) (st, .cont)).map Links.unwrapW = some ⟨.ok (runW hd cs st).1, s', (runW hd cs st).2⟩ := by
  rw [h, Option.map_some, Links.unwrapW]
  have : ∀ cs st, ((runW (Links.wrapW hd) cs (st, .cont)).2.2, (runW (Links.wrapW hd) cs (st, .cont)).2.1) =
      runW hd cs st := by
    intro cs
    induction cs with
    | nil => intro st; rfl
    | cons c cs ih =>
      intro st
      simp only [runW, Links.wrapW]
      cases hh : hd st c.1 c.2 with
      | mk r st' => cases r with
        | cont => exact ih st'
        | brk r => rfl
  have e := this cs st
  rw [← e]
  rfl

/-- **C28.** Over every store whose required methods call the handler on some sequence of changes until it breaks,
`create_by_with`, `update_by_with`, `delete_by_with` and `each_by` return what the handler of any `Try` type
returned last: Continue if it always continued, the break value if it broke. -/
theorem C28_handler_results_passed_through {S : Type} (D : Links S) (s s' : S) (q ch : List Nat)
    {σ ρ : Type} (hd : σ → Link → Link → Ctl ρ × σ) (hr : σ → Link → Ctl ρ × σ) (st : σ) :
    (∀ cs, Notifies (fun _ h st => D.createLinks s q h st) s' cs →
      D.createByWith s q hd st = some ⟨.ok (runW hd cs st).1, s', (runW hd cs st).2⟩) ∧
    (∀ cs, Notifies (fun _ h st => D.updateLinks s q ch h st) s' cs →
      D.updateByWith s q ch hd st = some ⟨.ok (runW hd cs st).1, s', (runW hd cs st).2⟩) ∧
    (∀ cs, Notifies (fun _ h st => D.deleteLinks s q h st) s' cs →
      D.deleteByWith s q hd st = some ⟨.ok (runW hd cs st).1, s', (runW hd cs st).2⟩) ∧
    (∀ L, D.Visits s q L → D.eachBy s q hr st = some (runH hr L st)) :=
  ⟨fun _ h => notifies_wrap h hd st, fun _ h => notifies_wrap h hd st, fun _ h => notifies_wrap h hd st,
    fun _ h => Links.eachBy_eq h hr st⟩

/-- The united store meets the contract: on success there was one notification, and on failure none. -/
theorem C28_united_store_notifies (hc : CfgOK c) {s : Store} (h : Reach c s) {i : Nat} {p : Nat × Nat}
    (hv : (links c).view s i = some p) (ht : ((links c).view s).NoTwin i) (a b : Nat) :
    (∃ s' cs, Notifies (fun _ h st => (links c).updateLinks s [i] [i, a, b] h st) s' cs) ∧
    (∃ s' cs, Notifies (fun _ h st => (links c).deleteLinks s [i] h st) s' cs) ∧
    (CanGrow c s → (∃ e, Links.Fails (fun _ h st => (links c).createLinks s [] h st) s e) ∨
      ∃ s' cs, Notifies (fun _ h st => (links c).createLinks s [] h st) s' cs) := by
  have key : ∀ {call : (σ : Type) → WH σ → σ → Option (Out Store σ Flow)} {s' : Store} {b a : Link},
      Links.Succeeds call s' b a → Notifies call s' [(b, a)] := by
    intro call s' b a hS σ hd st
    rw [hS]
    simp only [runW]
    rcases hd st b a with ⟨_ | r, st'⟩ <;> rfl
  obtain ⟨s1, b1, -, -, -, -, h1⟩ := (reachLawful hc).update s h i p hv ht i a b trivial
  obtain ⟨s2, -, -, -, h2⟩ := (reachLawful hc).delete s h i p hv ht trivial
  refine ⟨⟨s1, _, key h1⟩, ⟨s2, _, key h2⟩, fun hg => ?_⟩
  rcases (reachLawful hc).create s h hg [] with e | ⟨j, s3, -, -, -, -, h3⟩
  · exact .inl e
  · exact .inr ⟨s3, _, key h3⟩

/-- A handler with break values of type `String`. -/
example : Reach cfg0 sNet ∧
    (((links cfg0).updateWith sNet 2 1 4 (fun (n : Nat) _ a => (Ctl.brk (a.target + 40), n + 1)) 0).map
      (fun o => (o.res.toOption, o.hs))) = some (some (.brk 44), 1) ∧
    (((links cfg0).deleteWith (ρ := Nat) sNet 2 (fun (n : Nat) _ _ => (.cont, n + 1)) 0).map
      (fun o => (o.res.toOption, o.hs))) = some (some .cont, 1) := ⟨sNet_reach, by decide +kernel⟩

/-! ## C29 -/

/-- **C29.** When the iterator is built, it yields exactly the links the traversal with the same query visits, in
that order; it is built whenever the count returns. -/
theorem C29_iterators_yield_the_traversal (hc : CfgOK c) {s : Store} (h : Reach c s) {q : List Nat}
    (hq : q.length ≤ 3) :
    ∃ L, (∀ (σ ρ : Type) (hd : σ → Link → Ctl ρ × σ) (st : σ), (links c).eachBy s q hd st = some (runH hd L st)) ∧
      (q.length ≠ 2 → (links c).eachIter s q = some L) ∧
      (∀ n, (links c).countBy s q = some n → (links c).eachIter s q = some L) := by
  obtain ⟨L, h1, h2, -, -, -, h6⟩ := query_law hc (reach_good hc h) q hq
  have key : ∀ n, (links c).countBy s q = some n → (links c).eachIter s q = some L := by
    intro n hn
    simp only [Links.eachIter, Links.collect_eq h1, hn]; rfl
  refine ⟨L, fun σ ρ hd st => Links.eachBy_eq h1 hd st, fun hl => ?_, key⟩
  have := hc.end_le
  exact key L.length (h2.trans (if_pos (by have := h6 hl; omega)))

/-- **C29**, `iter()`: it yields every link of the store exactly once. -/
theorem C29_iter_yields_all_links (hc : CfgOK c) {s : Store} (h : Reach c s) :
    ∃ L, (links c).iter s = some L ∧ L.Nodup ∧ ∀ l, l ∈ L ↔ ((links c).view s).Has l := by
  have hany : ((links c).consts s).any = c.consts.any := rfl
  obtain ⟨L, h1, h2, h3, h4⟩ := exact_query hc h (q := [c.consts.any, c.consts.any, c.consts.any])
    ⟨by simp, fun _ x hx => by simp at hx; rw [hx]; exact any_pos hc,
     fun l _ ⟨x, e, _⟩ => (by cases e), fun ⟨x, y, e, hx, _⟩ => absurd (by cases e; rfl) hx⟩
  refine ⟨L, ?_, h2, fun l => ?_⟩
  · have h4 : (links c).countBy s [c.consts.any, c.consts.any, c.consts.any] = some L.length := h4
    simp only [Links.iter, hany, Links.eachIter, Links.collect_eq h1, h4]; rfl
  · rw [h3]
    exact ⟨fun hl => hl.1, fun hl => ⟨hl, .inl rfl, .inl rfl, .inl rfl⟩⟩

example : Reach cfg0 sNet ∧
    (links cfg0).iter sNet = some [⟨1, 1, 1⟩, ⟨2, 1, 3⟩, ⟨3, 2, 2⟩, ⟨4, 0, 0⟩, ⟨6, 3, 2⟩] :=
  ⟨sNet_reach, by decide +kernel⟩

end Verif.Unit.Props
