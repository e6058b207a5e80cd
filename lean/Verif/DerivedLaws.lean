import Verif.Derived

/-!
# Laws of the default methods over any lawful store (helper lemmas)
-/

namespace Verif
open Verif

/-- The handler's state after it was called with the pairs of `cs` in turn, whatever it answered. -/
def callAll {σ ρ : Type} (h : σ → Link → Link → Ctl ρ × σ) (cs : List (Link × Link)) (st : σ) : σ :=
  cs.foldl (fun st c => (h st c.1 c.2).2) st

theorem fuseCall_eq {σ ρ : Type} (h : σ → Link → Link → Ctl ρ × σ) (st : σ) (b a : Link) :
    fuseCall h ⟨st, false⟩ b a =
      (match (h st b a).1 with | .cont => .cont | .brk _ => .brk (), ⟨(h st b a).2, false⟩) := by
  unfold fuseCall
  rcases h st b a with ⟨_ | r, st'⟩ <;> rfl

/-- `p` with `old` replaced by `new`. -/
def substPair (old new : Nat) (p : Nat × Nat) : Nat × Nat :=
  (if p.1 = old then new else p.1, if p.2 = old then new else p.2)

theorem View.NoTwin.del {v : View} {i : Nat} (h : v.NoTwin i) (k : Nat) : (v.del k).NoTwin i := by
  intro p hp hp0 j hj
  simp only [View.del] at hp hj
  split at hp
  · cases hp
  · split at hj
    · cases hj
    · exact h p hp hp0 j hj

theorem filter_index {v : View} {i : Nat} {p : Nat × Nat} (hv : v i = some p) :
    ∀ {L : List Link}, L.Nodup → (∀ l ∈ L, v.Has l) →
      (L.filter (·.index ≠ i)).length + (if (⟨i, p.1, p.2⟩ : Link) ∈ L then 1 else 0) = L.length := by
  intro L
  induction L with
  | nil => intro _ _; simp
  | cons l L ih =>
    intro hn hL
    rw [List.nodup_cons] at hn
    have ih := ih hn.2 fun l hl => hL l (List.mem_cons_of_mem _ hl)
    have hl := hL l (by simp)
    by_cases hi : l.index = i
    · have e : (⟨i, p.1, p.2⟩ : Link) = l := by
        unfold View.Has at hl
        rw [hi, hv] at hl
        rcases l with ⟨a, b, d⟩
        cases hi; cases hl; rfl
      rw [e] at ih ⊢
      rw [if_neg hn.1] at ih
      rw [List.filter_cons_of_neg (by simp [hi]), if_pos (by simp)]
      simp only [List.length_cons]; omega
    · rw [List.filter_cons_of_pos (by simp [hi])]
      have e : (⟨i, p.1, p.2⟩ : Link) ∈ l :: L ↔ (⟨i, p.1, p.2⟩ : Link) ∈ L := by
        rw [List.mem_cons]
        constructor
        · rintro (e | h)
          · exact absurd (by rw [← e]) hi
          · exact h
        · exact .inr
      simp only [e, List.length_cons]; omega

/-- Indices of a duplicate-free list of links of a store are distinct. -/
theorem nodup_index {v : View} {L : List Link} (hn : L.Nodup) (hL : ∀ l ∈ L, v.Has l) :
    (L.map (·.index)).Nodup := by
  refine List.pairwise_map.2 (hn.imp_of_mem fun {a b} ha hb hab he => hab ?_)
  have h1 := hL a ha
  have h2 := hL b hb
  unfold View.Has at h1 h2
  rw [he, h2] at h1
  rcases a with ⟨a1, a2, a3⟩; rcases b with ⟨b1, b2, b3⟩
  simp at h1 he
  simp [h1, he]

theorem nodup_rev {α : Type} {l : List α} (h : l.Nodup) : l.reverse.Nodup :=
  List.pairwise_reverse.2 (h.imp fun hab e => hab e.symm)

namespace Links
variable {S : Type} {D : Links S} (W : Lawful D) {s : S}

theorem create_law (hs : W.Inv s) (hg : W.CanCreate s) :
    (∃ e, Links.Fails (fun _ h st => D.createLinks s [] h st) s e ∧ D.create s = some ⟨.error e, s, ()⟩) ∨
    (∃ i s', D.view s i = none ∧ W.Inv s' ∧ D.consts s' = D.consts s ∧
      D.view s' = (D.view s).set i (0, 0) ∧ D.create s = some ⟨.ok i, s', ()⟩ ∧
      Links.Succeeds (fun _ h st => D.createLinks s [] h st) s' Link.nothing ⟨i, 0, 0⟩) := by
  rcases W.create s hs hg [] with ⟨e, h⟩ | ⟨i, s', h1, h2, h3, h4, h5⟩
  · exact .inl ⟨e, h, Links.create_err h⟩
  · exact .inr ⟨i, s', h1, h2, h3, h4, by rw [Links.create_ok h5], h5⟩

theorem noTwin_null {v : View} {i : Nat} : (v.set i (0, 0)).NoTwin i := by
  intro p hp hp0
  rw [View.set_same] at hp
  cases hp; exact absurd rfl hp0

theorem set_set (v : View) (i : Nat) (p q : Nat × Nat) : (v.set i p).set i q = v.set i q := by
  funext k; simp only [View.set]; split <;> rfl

theorem createPoint_law (hs : W.Inv s) (hg : W.CanCreate s)
    (hu : ∀ i, D.view s i = none → W.CanUpdate ((D.view s).set i (0, 0)) i i i) :
    (∃ e, D.create s = some ⟨.error e, s, ()⟩ ∧ D.createPoint s = some ⟨.error e, s, ()⟩) ∨
    ∃ i s', D.view s i = none ∧ W.Inv s' ∧ D.createPoint s = some ⟨.ok i, s', ()⟩ ∧
      D.view s' = (D.view s).set i (i, i) := by
  rcases create_law W hs hg with ⟨e, -, h⟩ | ⟨i, s', h1, h2, h3, h4, h5, -⟩
  · exact .inl ⟨e, h, by simp [createPoint, h]⟩
  · right
    obtain ⟨s2, b, hb, h6, -, h7, h8⟩ := W.update s' h2 i (0, 0) (by rw [h4, View.set_same])
      (by rw [h4]; exact noTwin_null) i i i (by rw [h4]; exact hu i h1)
    refine ⟨i, s2, h1, h6, ?_, by rw [h7, h4, set_set]⟩
    simp only [createPoint, h5, Option.bind_some]
    rw [Links.update_ok h8]

/-- `create_link_with`: the handler is called twice, for the creation and for the update. -/
theorem createLinkWith_law {σ ρ : Type} (h : Hd σ ρ) (st : σ) (hs : W.Inv s) (hg : W.CanCreate s) (x y : Nat)
    (hu : ∀ i, D.view s i = none → W.CanUpdate ((D.view s).set i (0, 0)) i x y) :
    (∃ e, D.create s = some ⟨.error e, s, ()⟩ ∧ D.createLinkWith s x y h st = some ⟨.error e, s, st⟩) ∨
    ∃ i s' before, D.view s i = none ∧ W.Inv s' ∧ D.view s' = (D.view s).set i (x, y) ∧ before.index = i ∧
      D.createLinkWith s x y h st =
        let st1 := (h st Link.nothing ⟨i, 0, 0⟩).2
        some ⟨.ok (match (h st1 before ⟨i, x, y⟩).1 with | .cont => .cont | .brk _ => .brk ()), s',
          (h st1 before ⟨i, x, y⟩).2⟩ := by
  rcases create_law W hs hg with ⟨e, hf, h⟩ | ⟨i, s', h1, h2, h3, h4, h5, hS⟩
  · refine .inl ⟨e, h, ?_⟩
    simp only [createLinkWith, createWith, createByWith_err hf, Option.bind_some]
  · right
    obtain ⟨s2, b, hb, h6, -, h7, h8⟩ := W.update s' h2 i (0, 0) (by rw [h4, View.set_same])
      (by rw [h4]; exact noTwin_null) i x y (by rw [h4]; exact hu i h1)
    refine ⟨i, s2, b, h1, h6, by rw [h7, h4, set_set], hb, ?_⟩
    simp only [createLinkWith, createWith, createByWith_ok hS, Option.bind_some, createLinkH, fuseCall_eq,
      updateWith, updateByWith_ok h8, Option.map_some]

theorem createLink_law (hs : W.Inv s) (hg : W.CanCreate s) (x y : Nat)
    (hu : ∀ i, D.view s i = none → W.CanUpdate ((D.view s).set i (0, 0)) i x y) :
    (∃ e, D.create s = some ⟨.error e, s, ()⟩ ∧ D.createLink s x y = some ⟨.error e, s, ()⟩) ∨
    ∃ i s', D.view s i = none ∧ W.Inv s' ∧ D.createLink s x y = some ⟨.ok i, s', ()⟩ ∧
      D.view s' = (D.view s).set i (x, y) := by
  rcases createLinkWith_law W keepIndex 0 hs hg x y hu with ⟨e, h, h'⟩ | ⟨i, s', b, h1, h2, h3, hb, h4⟩
  · exact .inl ⟨e, h, by simp [createLink, h', resultIndex, Except.map]⟩
  · refine .inr ⟨i, s', h1, h2, ?_, h3⟩
    simp [createLink, h4, resultIndex, Except.map, keepIndex]

/-- `search` for a pair of non-null parts. -/
theorem search_law (hs : W.Inv s) {x y : Nat} (hx : x ≠ 0) (hxa : x ≠ (D.consts s).any) (hy : y ≠ 0)
    (hya : y ≠ (D.consts s).any) :
    (D.search s x y = some none ∧ ∀ i, D.view s i ≠ some (x, y)) ∨
    ∃ i, D.search s x y = some (some i) ∧ D.view s i = some (x, y) := by
  obtain ⟨L, h1, h2, h3, h4⟩ := W.each_pair s hs x y hx hxa hy hya
  match L, h2 with
  | [], _ =>
    left
    refine ⟨?_, fun i hi => h4 ⟨i, hi⟩ rfl⟩
    simp only [search, find]
    rw [eachBy_eq h1]; rfl
  | [l], _ =>
    right
    have := h3 l (by simp)
    refine ⟨l.index, ?_, ?_⟩
    · simp only [search, find]
      rw [eachBy_eq h1]; rfl
    · have h := this.1
      unfold View.Has at h
      rw [h, this.2.1, this.2.2]

/-! ### Deletions -/

theorem deleteLoop_law : ∀ (L : List Link) (s : S), W.Inv s →
    (L.map (·.index)).Nodup → (∀ l ∈ L, (D.view s).Has l ∧ (D.view s).NoTwin l.index) →
    (∀ l ∈ L, W.CanDelete (D.view s) l.index) →
    ∃ s', W.Inv s' ∧ D.view s' = (fun k => if k ∈ L.map (·.index) then none else D.view s k) ∧
      ∀ {σ ρ : Type} (h : Hd σ ρ) (st : σ), D.deleteLoop h (L.map (·.index)) s ⟨st, false⟩ =
        some ⟨.ok (), s', ⟨callAll h (L.map fun l => (l, Link.nothing)) st, false⟩⟩ := by
  intro L
  induction L with
  | nil => intro s hs _ _ _; exact ⟨s, hs, by simp, fun _ _ => rfl⟩
  | cons l L ih =>
    intro s hs hn hL hcd
    rw [List.map_cons, List.nodup_cons] at hn
    obtain ⟨hl, ht⟩ := hL l (by simp)
    obtain ⟨s1, h1, h2, h3, h4⟩ := W.delete s hs l.index _ hl ht (hcd l (by simp))
    obtain ⟨s2, h5, h6, h7⟩ := ih s1 h1 hn.2 (fun l' hl' => by
      have hne : l'.index ≠ l.index := fun e => hn.1 (e ▸ List.mem_map_of_mem hl')
      obtain ⟨g1, g2⟩ := hL l' (List.mem_cons_of_mem _ hl')
      refine ⟨?_, ?_⟩
      · unfold View.Has; rw [h3, View.del_other _ hne]; exact g1
      · rw [h3]; exact g2.del _)
      (fun l' hl' => by rw [h3]; exact W.canDelete_del _ _ _ (hcd l' (List.mem_cons_of_mem _ hl')))
    refine ⟨s2, h5, ?_, ?_⟩
    · rw [h6, h3]
      funext k
      simp only [List.map_cons, List.mem_cons, View.del]
      by_cases hk : k ∈ L.map (·.index)
      · simp [hk]
      · simp [hk]
    · intro σ ρ h st
      simp only [List.map_cons, deleteLoop, deleteWith, deleteByWith_ok h4, fuseCall_eq]
      exact h7 h _

theorem deleteQueryWith_law (hs : W.Inv s) {q : List Nat} {L : List Link}
    {n : Nat} (hc : D.countLinks s q = some n) (hq : D.Visits s q L) (hn : L.Nodup)
    (hL : ∀ l ∈ L, (D.view s).Has l ∧ (D.view s).NoTwin l.index)
    (hcd : ∀ l ∈ L, W.CanDelete (D.view s) l.index) :
    ∃ s', W.Inv s' ∧ D.view s' = (fun k => if k ∈ L.map (·.index) then none else D.view s k) ∧
      ∀ {σ ρ : Type} (h : Hd σ ρ) (st : σ), D.deleteQueryWith s q h st =
        some ⟨.ok (), s', callAll h (L.reverse.map fun l => (l, Link.nothing)) st⟩ := by
  have hn' := nodup_index hn fun l hl => (hL l hl).1
  obtain ⟨s', h1, h2, h3⟩ := deleteLoop_law W L.reverse s hs
    (by rw [List.map_reverse]; exact nodup_rev hn')
    (fun l hl => hL l (List.mem_reverse.1 hl)) (fun l hl => hcd l (List.mem_reverse.1 hl))
  refine ⟨s', h1, ?_, ?_⟩
  · rw [h2]; simp
  · intro σ ρ h st
    simp only [deleteQueryWith, countBy, hc, collect_eq hq, Option.bind_some]
    rw [← List.map_reverse, h3]
    simp

/-- What the two traversals behind `usages`, `delete_usages` and `rebase` visit. -/
theorem usage_lists (hs : W.Inv s) {i : Nat} {p : Nat × Nat} (hv : D.view s i = some p) :
    i ≠ 0 ∧ i ≠ (D.consts s).any ∧ ∃ L1 L2,
      D.Visits s [(D.consts s).any, i, (D.consts s).any] L1 ∧ L1.Nodup ∧
      (∀ l, l ∈ L1 ↔ (D.view s).Has l ∧ l.source = i) ∧
      D.Visits s [(D.consts s).any, (D.consts s).any, i] L2 ∧ L2.Nodup ∧
      (∀ l, l ∈ L2 ↔ (D.view s).Has l ∧ l.target = i) ∧
      D.countLinks s [(D.consts s).any, i, (D.consts s).any] = some L1.length ∧
      D.countLinks s [(D.consts s).any, (D.consts s).any, i] = some L2.length := by
  have h0 : i ≠ 0 := by rintro rfl; rw [W.null s hs] at hv; cases hv
  have ha : i ≠ (D.consts s).any := by rintro rfl; rw [W.any_absent s hs] at hv; cases hv
  obtain ⟨L1, h1, h2, h3⟩ := W.each_source s hs i h0 ha
  obtain ⟨L2, h4, h5, h6⟩ := W.each_target s hs i h0 ha
  exact ⟨h0, ha, L1, L2, h1, h2, h3, h4, h5, h6, W.count_source s hs i (by simp [hv]) L1 h1,
    W.count_target s hs i (by simp [hv]) L2 h4⟩

theorem usageList_eq {i : Nat} {L1 L2 : List Link}
    (h1 : D.Visits s [(D.consts s).any, i, (D.consts s).any] L1)
    (h2 : D.Visits s [(D.consts s).any, (D.consts s).any, i] L2) :
    D.usageList s i = some (((L1 ++ L2).map (·.index)).filter (· ≠ i)) := by
  simp only [usageList, collect_eq h1, collect_eq h2, Option.bind_some, Option.map_some]

theorem countUsagesOf_eq (hs : W.Inv s) {i : Nat} {p : Nat × Nat} (hv : D.view s i = some p) {L1 L2 : List Link}
    (hn1 : L1.Nodup) (hm1 : ∀ l, l ∈ L1 ↔ (D.view s).Has l ∧ l.source = i)
    (hn2 : L2.Nodup) (hm2 : ∀ l, l ∈ L2 ↔ (D.view s).Has l ∧ l.target = i)
    (hc1 : D.countLinks s [(D.consts s).any, i, (D.consts s).any] = some L1.length)
    (hc2 : D.countLinks s [(D.consts s).any, (D.consts s).any, i] = some L2.length)
    (hb : (L1.filter (·.index ≠ i)).length + (L2.filter (·.index ≠ i)).length ≤ D.maxT) :
    D.countUsagesOf s i =
      some (.ok ((L1.filter (·.index ≠ i)).length + (L2.filter (·.index ≠ i)).length)) := by
  have e1 := filter_index hv hn1 fun l hl => ((hm1 l).1 hl).1
  have e2 := filter_index hv hn2 fun l hl => ((hm2 l).1 hl).1
  have k1 : (⟨i, p.1, p.2⟩ : Link) ∈ L1 ↔ i = p.1 := by
    rw [hm1]; exact ⟨fun h => h.2.symm, fun h => ⟨hv, h.symm⟩⟩
  have k2 : (⟨i, p.1, p.2⟩ : Link) ∈ L2 ↔ i = p.2 := by
    rw [hm2]; exact ⟨fun h => h.2.symm, fun h => ⟨hv, h.symm⟩⟩
  simp only [k1] at e1
  simp only [k2] at e2
  have g1 : (if i = p.1 then csub L1.length 1 else some L1.length) = some (L1.filter (·.index ≠ i)).length := by
    by_cases h : i = p.1
    · rw [if_pos h] at e1 ⊢; rw [csub_eq (by omega)]; congr 1; omega
    · rw [if_neg h] at e1 ⊢; congr 1; omega
  have g2 : (if i = p.2 then csub L2.length 1 else some L2.length) = some (L2.filter (·.index ≠ i)).length := by
    by_cases h : i = p.2
    · rw [if_pos h] at e2 ⊢; rw [csub_eq (by omega)]; congr 1; omega
    · rw [if_neg h] at e2 ⊢; congr 1; omega
  simp only [countUsagesOf, tryGetLink, W.get s hs, hv, Option.map_some, Option.bind_some, countBy, hc1, hc2, g1,
    g2, cadd_eq hb]

/-- The indices listed by `usages` are distinct if no link other than `i` uses `i` at both ends. -/
theorem usages_nodup {v : View} {i : Nat} {L1 L2 : List Link}
    (hn1 : L1.Nodup) (hm1 : ∀ l, l ∈ L1 ↔ v.Has l ∧ l.source = i)
    (hn2 : L2.Nodup) (hm2 : ∀ l, l ∈ L2 ↔ v.Has l ∧ l.target = i)
    (hd : ∀ j, v j = some (i, i) → j = i) :
    ((L1 ++ L2).filter (·.index ≠ i)).Nodup := by
  rw [List.filter_append, List.nodup_append]
  refine ⟨hn1.filter _, hn2.filter _, ?_⟩
  intro a ha b hb hab
  subst hab
  rw [List.mem_filter] at ha hb
  have h1 := (hm1 a).1 ha.1
  have h2 := (hm2 a).1 hb.1
  have : v a.index = some (i, i) := by
    have := h1.1; unfold View.Has at this; rw [this, h1.2, h2.2]
  have := hd _ this
  simp [this] at ha

theorem filter_map_index (L : List Link) (i : Nat) :
    (L.map (·.index)).filter (· ≠ i) = (L.filter (·.index ≠ i)).map (·.index) := by
  rw [List.filter_map]; rfl

theorem deleteUsagesWith_law (hs : W.Inv s) {i : Nat} {p : Nat × Nat}
    (hv : D.view s i = some p) (hd : ∀ j, D.view s j = some (i, i) → j = i)
    (hu : ∀ j a b, D.view s j = some (a, b) → j ≠ i → (a = i ∨ b = i) → (D.view s).NoTwin j)
    (hcd : ∀ j a b, D.view s j = some (a, b) → j ≠ i → (a = i ∨ b = i) → W.CanDelete (D.view s) j) :
    ∃ (s' : S) (L : List Link), W.Inv s' ∧
      L.Nodup ∧ (∀ l, l ∈ L ↔ (D.view s).Has l ∧ l.index ≠ i ∧ (l.source = i ∨ l.target = i)) ∧
      D.view s' = (fun k => if k ∈ L.map (·.index) then none else D.view s k) ∧
      ∀ {σ ρ : Type} (h : Hd σ ρ) (st : σ), D.deleteUsagesWith s i h st =
        some ⟨.ok (), s', callAll h (L.map fun l => (l, Link.nothing)) st⟩ := by
  obtain ⟨h0, ha, L1, L2, v1, n1, m1, v2, n2, m2, c1, c2⟩ := usage_lists W hs hv
  have hmem : ∀ l, l ∈ (L1 ++ L2).filter (·.index ≠ i) ↔
      (D.view s).Has l ∧ l.index ≠ i ∧ (l.source = i ∨ l.target = i) := by
    intro l
    rw [List.mem_filter, List.mem_append, m1, m2]
    simp only [decide_eq_true_eq]
    constructor
    · rintro ⟨h | h, h'⟩
      · exact ⟨h.1, h', .inl h.2⟩
      · exact ⟨h.1, h', .inr h.2⟩
    · rintro ⟨h1, h2, h3 | h3⟩
      · exact ⟨.inl ⟨h1, h3⟩, h2⟩
      · exact ⟨.inr ⟨h1, h3⟩, h2⟩
  have hnod := usages_nodup n1 m1 n2 m2 hd
  have hmem' : ∀ l, l ∈ ((L1 ++ L2).filter (·.index ≠ i)).reverse ↔
      (D.view s).Has l ∧ l.index ≠ i ∧ (l.source = i ∨ l.target = i) := by
    intro l; rw [List.mem_reverse, hmem]
  obtain ⟨s', g1, g2, g3⟩ := deleteLoop_law W ((L1 ++ L2).filter (·.index ≠ i)).reverse s hs
    (nodup_index (nodup_rev hnod) (fun l hl => ((hmem' l).1 hl).1))
    (fun l hl => ⟨((hmem' l).1 hl).1, by
      obtain ⟨q1, q2, q3⟩ := (hmem' l).1 hl
      exact hu l.index l.source l.target q1 q2 q3⟩)
    (fun l hl => by
      obtain ⟨q1, q2, q3⟩ := (hmem' l).1 hl
      exact hcd l.index l.source l.target q1 q2 q3)
  refine ⟨s', _, g1, nodup_rev hnod, hmem', g2, ?_⟩
  intro σ ρ h st
  simp only [deleteUsagesWith, countBy, c1, c2, Option.bind_some, usageList_eq v1 v2, filter_map_index]
  rw [← List.map_reverse, g3]
  rfl

/-! ### Rebase -/

theorem rebaseLoop_law {old new : Nat} (hne : old ≠ new) (h0 : old ≠ 0) :
    ∀ (M : List Link) (s : S), W.Inv s → (M.map (·.index)).Nodup →
    (∀ u ∈ M, (D.view s).Has u ∧ (u.source = old ∨ u.target = old) ∧ ¬ (u.source = old ∧ u.target = old) ∧
      (D.view s).NoTwin u.index) →
    (∀ w : View, ∀ u ∈ M, w u.index = D.view s u.index →
      W.CanUpdate w u.index (substPair old new (u.source, u.target)).1
        (substPair old new (u.source, u.target)).2) →
    ∃ s', W.Inv s' ∧
      D.view s' = (fun k => if k ∈ M.map (·.index) then (D.view s k).map (substPair old new) else D.view s k) ∧
      ∀ {σ ρ : Type} (h : Hd σ ρ) (st : σ), ∃ st', D.rebaseLoop h old new M s ⟨st, false⟩ = some ⟨.ok (), s', ⟨st', false⟩⟩ := by
  intro M
  induction M with
  | nil => intro s hs _ _ _; exact ⟨s, hs, by simp, fun _ st => ⟨st, rfl⟩⟩
  | cons u M ih =>
    intro s hs hn hM hcan
    rw [List.map_cons, List.nodup_cons] at hn
    obtain ⟨hu, hor, hnot, ht⟩ := hM u (by simp)
    have hcu := hcan (D.view s) u (by simp) rfl
    obtain ⟨s1, b, hb, h1, h2, h3, h4⟩ := W.update s hs u.index _ hu ht u.index _ _ hcu
    have hone : ∀ {σ ρ : Type} (h : Hd σ ρ) (st : σ), D.rebaseOne h old new u s ⟨st, false⟩ =
        some ⟨.ok (), s1, ⟨(h st b ⟨u.index, (substPair old new (u.source, u.target)).1,
          (substPair old new (u.source, u.target)).2⟩).2, false⟩⟩ := by
      intro σ ρ h st
      simp only [substPair] at h4 ⊢
      by_cases hs1 : u.source = old
      · have ht1 : u.target ≠ old := fun e => hnot ⟨hs1, e⟩
        rw [if_pos hs1, if_neg ht1] at h4
        simp only [rebaseOne, if_pos hs1, if_neg ht1, updateWith, updateByWith_ok h4, Option.map_some,
          Option.bind_some, Except.map, fuseCall_eq]
      · have ht1 : u.target = old := hor.resolve_left hs1
        rw [if_neg hs1, if_pos ht1] at h4
        simp only [rebaseOne, if_neg hs1, if_pos ht1, updateWith, updateByWith_ok h4, Option.map_some,
          Option.bind_some, Except.map, fuseCall_eq]
    have hsub : ∀ p : Nat × Nat, p.1 = old ∨ p.2 = old →
        substPair old new (u.source, u.target) ≠ p := by
      rintro p hp rfl
      simp only [substPair] at hp
      rcases hp with hp | hp <;> split at hp
      · exact hne hp.symm
      · contradiction
      · exact hne hp.symm
      · contradiction
    have hidx : ∀ u' ∈ M, u'.index ≠ u.index := fun u' hu' e => hn.1 (e ▸ List.mem_map_of_mem hu')
    have hsame : ∀ u' ∈ M, D.view s1 u'.index = D.view s u'.index := fun u' hu' => by
      rw [h3, View.set_other _ _ (hidx u' hu')]
    obtain ⟨s2, g1, g2, g3⟩ := ih s1 h1 hn.2 (fun u' hu' => by
        obtain ⟨q1, q2, q3, q4⟩ := hM u' (List.mem_cons_of_mem _ hu')
        refine ⟨?_, q2, q3, ?_⟩
        · unfold View.Has; rw [hsame u' hu']; exact q1
        · intro p hp hp0 j hj
          rw [hsame u' hu'] at hp
          by_cases hju : j = u.index
          · rw [hju, h3, View.set_same] at hj
            have hq : D.view s u'.index = some (u'.source, u'.target) := q1
            rw [hq] at hp
            rw [Option.some.injEq] at hp hj
            exact absurd (hj.trans hp.symm) (hsub _ q2)
          · rw [h3, View.set_other _ _ hju] at hj
            exact q4 p hp hp0 j hj)
      (fun w u' hu' hw => hcan w u' (List.mem_cons_of_mem _ hu') (by rw [hw, hsame u' hu']))
    refine ⟨s2, g1, ?_, ?_⟩
    · rw [g2, h3]
      funext k
      simp only [List.map_cons, List.mem_cons]
      have hq : D.view s u.index = some (u.source, u.target) := hu
      by_cases hk : k = u.index
      · subst hk
        rw [if_neg hn.1, View.set_same, if_pos (.inl rfl), hq]; rfl
      · rw [View.set_other _ _ hk]
        simp [hk]
    · intro σ ρ h st
      obtain ⟨st', g3⟩ := g3 h (h st b ⟨u.index, (substPair old new (u.source, u.target)).1,
          (substPair old new (u.source, u.target)).2⟩).2
      refine ⟨st', ?_⟩
      simp only [rebaseLoop, hone]
      exact g3

theorem rebaseWith_law (hs : W.Inv s) {old new : Nat} {p : Nat × Nat}
    (hv : D.view s old = some p) (hne : old ≠ new) (hd : ∀ j, D.view s j = some (old, old) → j = old)
    (hu : ∀ j a b, D.view s j = some (a, b) → j ≠ old → (a = old ∨ b = old) → (D.view s).NoTwin j)
    (hcan : ∀ (w : View) j a b, D.view s j = some (a, b) → j ≠ old → (a = old ∨ b = old) → w j = D.view s j →
      W.CanUpdate w j (substPair old new (a, b)).1 (substPair old new (a, b)).2) :
    ∃ s', W.Inv s' ∧
      D.view s' = (fun k => if k = old then D.view s k else (D.view s k).map (substPair old new)) ∧
      ∀ {σ ρ : Type} (h : Hd σ ρ) (st : σ), ∃ st', D.rebaseWith s old new h st = some ⟨.ok (), s', st'⟩ := by
  obtain ⟨h0, ha, L1, L2, v1, n1, m1, v2, n2, m2, c1, c2⟩ := usage_lists W hs hv
  have hmem : ∀ l, l ∈ (L1 ++ L2).filter (·.index ≠ old) ↔
      (D.view s).Has l ∧ l.index ≠ old ∧ (l.source = old ∨ l.target = old) := by
    intro l
    rw [List.mem_filter, List.mem_append, m1, m2]
    simp only [decide_eq_true_eq]
    constructor
    · rintro ⟨h | h, h'⟩
      · exact ⟨h.1, h', .inl h.2⟩
      · exact ⟨h.1, h', .inr h.2⟩
    · rintro ⟨h1, h2, h3 | h3⟩
      · exact ⟨.inl ⟨h1, h3⟩, h2⟩
      · exact ⟨.inr ⟨h1, h3⟩, h2⟩
  obtain ⟨s', g1, g2, g3⟩ := rebaseLoop_law W hne h0 ((L1 ++ L2).filter (·.index ≠ old)) s hs
    (nodup_index (usages_nodup n1 m1 n2 m2 hd) fun l hl => ((hmem l).1 hl).1)
    (fun u hu' => by
      obtain ⟨q1, q2, q3⟩ := (hmem u).1 hu'
      refine ⟨q1, q3, fun hb => ?_, hu _ _ _ q1 q2 q3⟩
      refine q2 (hd _ ?_)
      have : D.view s u.index = some (u.source, u.target) := q1
      rw [this, hb.1, hb.2])
    (fun w u hu' hw => by
      obtain ⟨q1, q2, q3⟩ := (hmem u).1 hu'
      exact hcan w _ _ _ q1 q2 q3 hw)
  refine ⟨s', g1, ?_, ?_⟩
  · rw [g2]
    funext k
    by_cases hk : k = old
    · subst hk
      rw [if_neg, if_pos rfl]
      intro hm
      obtain ⟨l, hl, e⟩ := List.mem_map.1 hm
      exact ((hmem l).1 hl).2.1 e
    · rw [if_neg hk]
      split
      · rfl
      · next hm =>
        cases hvk : D.view s k with
        | none => rfl
        | some r =>
          rw [Option.map_some]
          have : ¬ (r.1 = old ∨ r.2 = old) := fun hr =>
            hm (List.mem_map.2 ⟨⟨k, r.1, r.2⟩, (hmem _).2 ⟨hvk, hk, hr⟩, rfl⟩)
          have e1 : r.1 ≠ old := fun e => this (.inl e)
          have e2 : r.2 ≠ old := fun e => this (.inr e)
          simp [substPair, e1, e2]
  · intro σ ρ h st
    obtain ⟨st', g3⟩ := g3 h st
    refine ⟨st', ?_⟩
    simp only [rebaseWith, tryGetLink, W.get s hs, hv, Option.map_some, Option.bind_some, if_neg hne,
      eachIter, countBy, c1, c2, collect_eq v1, collect_eq v2]
    rw [g3]
    rfl

/-! ### Delete all -/

theorem count_size (hs : W.Inv s) : ∃ n, D.count s = some n ∧ (D.view s).Size n := by
  obtain ⟨L, h1, h2, h3⟩ := W.each_all s hs
  refine ⟨L.length, W.count_all s hs L h1, L.map (·.index), nodup_index h2 fun l hl => (h3 l).1 hl, by simp,
    fun i => ?_⟩
  rw [List.mem_map]
  constructor
  · rintro ⟨l, hl, rfl⟩ e
    have := (h3 l).1 hl
    unfold View.Has at this
    rw [e] at this; cases this
  · intro hi
    cases hv : D.view s i with
    | none => exact absurd hv hi
    | some p => exact ⟨⟨i, p.1, p.2⟩, (h3 _).2 hv, rfl⟩

theorem deleteAllLoop_law : ∀ (n : Nat) (s : S), W.Inv s → (D.view s).Uniq → (D.view s).Size n →
    (∃ s', W.Inv s' ∧ (∀ i, D.view s i ≠ none ↔ 1 ≤ i ∧ i ≤ n) ∧ D.view s' = View.empty ∧
      D.deleteAllLoop (n + 1) s n = some ⟨.ok (), s', ()⟩) ∨
    (∃ s' k, W.Inv s' ∧ k ≤ n ∧ D.view s k = none ∧ (∀ i, i ≤ k → D.view s' i = D.view s i) ∧
      D.view s' ≠ View.empty ∧
      ¬ (∀ i, D.view s i ≠ none ↔ 1 ≤ i ∧ i ≤ n) ∧
      D.deleteAllLoop (n + 1) s n = some ⟨.error (.notExists k), s', ()⟩) := by
  intro n
  induction n with
  | zero =>
    intro s hs _ ⟨l, h1, h2, h3⟩
    left
    have : l = [] := List.eq_nil_of_length_eq_zero h2
    subst this
    have he : D.view s = View.empty := by
      funext i
      have := h3 i
      simp at this
      exact this
    refine ⟨s, hs, fun i => ?_, he, ?_⟩
    · rw [he]; simp [View.empty]; omega
    · simp [deleteAllLoop]
  | succ n ih =>
    intro s hs hu hsz
    cases hv : D.view s (n + 1) with
    | none =>
      right
      refine ⟨s, n + 1, hs, Nat.le_refl _, hv, fun _ _ => rfl, ?_, ?_, ?_⟩
      · intro he
        obtain ⟨l, h1, h2, h3⟩ := hsz
        cases l with
        | nil => simp at h2
        | cons a l =>
          have := (h3 a).1 (by simp)
          rw [he] at this; exact this rfl
      · intro h; exact (h (n + 1)).2 ⟨by omega, Nat.le_refl _⟩ hv
      · rw [deleteAllLoop, if_neg (by omega), delete_err (W.delete_missing s hs _ hv)]
    | some p =>
      obtain ⟨s1, g1, g2, g3, g4⟩ := W.delete s hs _ p hv (hu _) (W.canDelete_uniq _ _ hu)
      have hsz1 : (D.view s1).Size n := by
        have := size_del (i := n + 1) hsz (by simp [hv])
        rw [g3]; simpa using this
      obtain ⟨m, hm, hm'⟩ := count_size W g1
      have := hm'.unique hsz1
      subst this
      have hstep : D.deleteAllLoop (m + 1 + 1) s (m + 1) = D.deleteAllLoop (m + 1) s1 m := by
        rw [deleteAllLoop, if_neg (by omega), delete_ok g4]
        simp only [hm, Option.bind_some]
      have hiff : (∀ i, D.view s1 i ≠ none ↔ 1 ≤ i ∧ i ≤ m) ↔ (∀ i, D.view s i ≠ none ↔ 1 ≤ i ∧ i ≤ m + 1) := by
        rw [g3]
        constructor
        · intro h i
          have := h i
          by_cases hi : i = m + 1
          · subst hi; simp [hv]
          · rw [View.del_other _ hi] at this; rw [this]; omega
        · intro h i
          have := h i
          by_cases hi : i = m + 1
          · subst hi; rw [View.del_same]; simp
          · rw [View.del_other _ hi, this]; omega
      rw [hstep]
      rcases ih s1 g1 (by rw [g3]; exact hu.del _) hsz1 with
        ⟨s2, q1, q2, q3, q4⟩ | ⟨s2, k, q1, q2, q3, q4, q5, q6, q7⟩
      · exact .inl ⟨s2, q1, hiff.1 q2, q3, q4⟩
      · right
        have hlow : ∀ i, i ≤ k → D.view s1 i = D.view s i := fun i hi => by
          rw [g3, View.del_other _ (by omega)]
        exact ⟨s2, k, q1, by omega, by rw [← hlow k (Nat.le_refl _)]; exact q3,
          fun i hi => by rw [q4 i hi, hlow i hi], q5, fun h => q6 (hiff.2 h), q7⟩

theorem deleteAll_law (hs : W.Inv s) (hu : (D.view s).Uniq) : ∃ n, D.count s = some n ∧ (D.view s).Size n ∧
    ((∃ s', W.Inv s' ∧ (∀ i, D.view s i ≠ none ↔ 1 ≤ i ∧ i ≤ n) ∧ D.view s' = View.empty ∧
      D.deleteAll s = some ⟨.ok (), s', ()⟩) ∨
    (∃ s' k, W.Inv s' ∧ k ≤ n ∧ D.view s k = none ∧ D.view s' ≠ View.empty ∧
      ¬ (∀ i, D.view s i ≠ none ↔ 1 ≤ i ∧ i ≤ n) ∧
      D.deleteAll s = some ⟨.error (.notExists k), s', ()⟩)) := by
  obtain ⟨n, h1, h2⟩ := count_size W hs
  refine ⟨n, h1, h2, ?_⟩
  simp only [deleteAll, h1, Option.bind_some]
  rcases deleteAllLoop_law W n s hs hu h2 with h | ⟨s', k, q1, q2, q3, _, q5, q6, q7⟩
  · exact .inl h
  · exact .inr ⟨s', k, q1, q2, q3, q5, q6, q7⟩

end Links
end Verif
