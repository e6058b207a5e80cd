import Verif.DerivedLaws

/-!
# The programs of the README

The three programs of `README.md` as clients of a store, and what they do on any lawful store (`Verif/Spec.lean`) that hands out
the indices in order.
-/

namespace Verif
namespace Links
variable {S : Type} (D : Links S)

/-- `for _ in 0..n { store.create_point()?; }` (`README.md:118-120,139-141`). -/
def makePoints : Nat → S → Option (Out S Unit Unit)
  | 0, s => some ⟨.ok (), s, ()⟩
  | n + 1, s => (D.createPoint s).bind fun o =>
    match o.res with
    | .error e => some ⟨.error e, o.st, ()⟩
    | .ok _ => makePoints n o.st

/-- What the first program prints. -/
structure Tour where
  point : Nat
  link : Nat
  total : Nat
  all : List Link
  bySource : List Link
  updated : Nat
  deleted : List (Link × Link)
deriving DecidableEq

/-- The first program (`README.md:62-99`) from the creation of the second link on, with the point and the other end of that link. -/
def tourFrom (point other : Nat) (s : S) : Option (Except Err Tour × S) :=
  (D.createLink s point other).bind fun o =>
  match o.res with
  | .error e => some (.error e, o.st)
  | .ok link =>
    let any := (D.consts o.st).any
    (D.count o.st).bind fun total =>
    (D.eachIter o.st [any, any, any]).bind fun all =>
    (D.eachIter o.st [any, point, any]).bind fun bySource =>
    (D.update o.st link point link).bind fun o =>
    match o.res with
    | .error e => some (.error e, o.st)
    | .ok updated =>
      (D.deleteWith (ρ := Unit) o.st link (fun L before after => (.cont, L ++ [(before, after)])) []).bind fun o =>
      match o.res with
      | .error e => some (.error e, o.st)
      | .ok _ =>
        let deleted := o.hs
        (D.deleteAll o.st).map fun o =>
          (o.res.map fun _ => ⟨point, link, total, all, bySource, updated, deleted⟩, o.st)

/-- The first program (`README.md:62-99`), without the printing: the second link goes from the point to the point. -/
def tour (s : S) : Option (Except Err Tour × S) :=
  (D.createPoint s).bind fun o =>
  match o.res with
  | .error e => some (.error e, o.st)
  | .ok point => D.tourFrom point point o.st

/-- The first program with one change: the second link goes to another point. Not a program of the README. -/
def tourApart (s : S) : Option (Except Err Tour × S) :=
  (D.createPoint s).bind fun o =>
  match o.res with
  | .error e => some (.error e, o.st)
  | .ok point => (D.createPoint o.st).bind fun o =>
    match o.res with
    | .error e => some (.error e, o.st)
    | .ok other => D.tourFrom point other o.st

end Links

/-- The points 1 to `n` and nothing else. -/
def points (n : Nat) : View := fun i => if 1 ≤ i ∧ i ≤ n then some (i, i) else none

/-- The links are numbered from 1 to `n`. -/
def View.Upto (v : View) (n : Nat) : Prop := ∀ i, v i ≠ none ↔ 1 ≤ i ∧ i ≤ n

theorem points_upto (n : Nat) : (points n).Upto n := fun i => by
  unfold points; split <;> simp [*]

theorem points_succ (n : Nat) : (points n).set (n + 1) (n + 1, n + 1) = points (n + 1) := by
  funext i
  simp only [points, View.set]
  by_cases h : i = n + 1
  · rw [if_pos h, if_pos (by omega), h]
  · rw [if_neg h]
    by_cases h' : 1 ≤ i ∧ i ≤ n
    · rw [if_pos h', if_pos (by omega)]
    · rw [if_neg h', if_neg (by omega)]

theorem points_uniq (n : Nat) : (points n).Uniq := by
  intro i p hi _ j hj
  simp only [points] at hi hj
  split at hi <;> split at hj <;> simp_all
  rw [← hj] at hi; cases hi; rfl

namespace Links
variable {S : Type} {D : Links S} (W : Lawful D)

/-- Creation numbers the links in order as long as there are no gaps. -/
def Numbers : Prop := ∀ {s i s' n}, W.Inv s → (D.view s).Upto n → D.create s = some ⟨.ok i, s', ()⟩ → i = n + 1

theorem create_next (hn : Numbers W) {s : S} {n : Nat} (hs : W.Inv s) (hg : W.CanCreate s) (hv : (D.view s).Upto n) :
    (∃ e, Links.Fails (fun _ h st => D.createLinks s [] h st) s e ∧ D.create s = some ⟨.error e, s, ()⟩) ∨
    ∃ s', W.Inv s' ∧ D.view s' = (D.view s).set (n + 1) (0, 0) ∧ D.create s = some ⟨.ok (n + 1), s', ()⟩ ∧
      Links.Succeeds (fun _ h st => D.createLinks s [] h st) s' Link.nothing ⟨n + 1, 0, 0⟩ := by
  rcases create_law W hs hg with h | ⟨i, s', -, h2, -, h4, h5, h6⟩
  · exact .inl h
  · cases hn hs hv h5; exact .inr ⟨s', h2, h4, h5, h6⟩

theorem createPoint_next (hn : Numbers W) {s : S} {n : Nat} (hs : W.Inv s) (hg : W.CanCreate s) (hv : (D.view s).Upto n)
    (hu : W.CanUpdate ((D.view s).set (n + 1) (0, 0)) (n + 1) (n + 1) (n + 1)) :
    (∃ e, D.create s = some ⟨.error e, s, ()⟩ ∧ D.createPoint s = some ⟨.error e, s, ()⟩) ∨
    ∃ s', W.Inv s' ∧ D.createPoint s = some ⟨.ok (n + 1), s', ()⟩ ∧ D.view s' = (D.view s).set (n + 1) (n + 1, n + 1) := by
  rcases create_next W hn hs hg hv with ⟨e, -, h⟩ | ⟨s', h2, h4, h5, -⟩
  · exact .inl ⟨e, h, by simp [createPoint, h]⟩
  · right
    obtain ⟨s2, b, hb, h6, -, h7, h8⟩ := W.update s' h2 (n + 1) (0, 0) (by rw [h4, View.set_same])
      (by rw [h4]; exact noTwin_null) (n + 1) (n + 1) (n + 1) (by rw [h4]; exact hu)
    refine ⟨s2, h6, ?_, by rw [h7, h4, set_set]⟩
    simp only [createPoint, h5, Option.bind_some]
    rw [Links.update_ok h8]

theorem createLink_next (hn : Numbers W) {s : S} {n : Nat} (hs : W.Inv s) (hg : W.CanCreate s) (hv : (D.view s).Upto n) (x y : Nat)
    (hu : W.CanUpdate ((D.view s).set (n + 1) (0, 0)) (n + 1) x y) :
    (∃ e, D.create s = some ⟨.error e, s, ()⟩ ∧ D.createLink s x y = some ⟨.error e, s, ()⟩) ∨
    ∃ s', W.Inv s' ∧ D.createLink s x y = some ⟨.ok (n + 1), s', ()⟩ ∧ D.view s' = (D.view s).set (n + 1) (x, y) := by
  rcases create_next W hn hs hg hv with ⟨e, hf, h⟩ | ⟨s', h2, h4, h5, hS⟩
  · refine .inl ⟨e, h, ?_⟩
    simp [createLink, createLinkWith, createWith, createByWith_err hf, Except.map, resultIndex]
  · right
    obtain ⟨s2, b, hb, h6, -, h7, h8⟩ := W.update s' h2 (n + 1) (0, 0) (by rw [h4, View.set_same])
      (by rw [h4]; exact noTwin_null) (n + 1) x y (by rw [h4]; exact hu)
    refine ⟨s2, h6, ?_, by rw [h7, h4, set_set]⟩
    simp only [createLink, createLinkWith, createWith, createByWith_ok hS, Option.bind_some, createLinkH, fuseCall_eq,
      updateWith, updateByWith_ok h8, Option.map_some]
    simp [resultIndex, Except.map, keepIndex]

theorem makePoints_law (hn : Numbers W)
    (hu : ∀ n, W.CanUpdate ((points n).set (n + 1) (0, 0)) (n + 1) (n + 1) (n + 1)) :
    ∀ (n m : Nat) (s : S), W.Inv s → D.view s = points m →
      (∀ k s', k < n → W.Inv s' → D.view s' = points (m + k) → D.makePoints k s = some ⟨.ok (), s', ()⟩ → W.CanCreate s') →
      (∃ s', D.makePoints n s = some ⟨.ok (), s', ()⟩ ∧ W.Inv s' ∧ D.view s' = points (m + n)) ∨
      ∃ e s' k, k < n ∧ D.makePoints n s = some ⟨.error e, s', ()⟩ ∧ W.Inv s' ∧ D.view s' = points (m + k) ∧
        D.create s' = some ⟨.error e, s', ()⟩ := by
  intro n
  induction n with
  | zero => intro m s hs hv _; exact .inl ⟨s, rfl, hs, hv⟩
  | succ n ih =>
    intro m s hs hv hg
    rcases createPoint_next W hn hs (hg 0 s (by omega) hs hv rfl) (hv ▸ points_upto m) (hv ▸ hu m) with
      ⟨e, h1, h2⟩ | ⟨s1, h1, h2, h3⟩
    · refine .inr ⟨e, s, 0, by omega, ?_, hs, hv, h1⟩
      simp [makePoints, h2]
    · rw [hv, points_succ] at h3
      have e : ∀ k, D.makePoints (k + 1) s = D.makePoints k s1 := fun k => by simp [makePoints, h2]
      rw [e]
      rcases ih (m + 1) s1 h1 h3 (fun k s' hk hi hw hm => hg (k + 1) s' (by omega) hi (by rw [hw]; congr 1; omega)
        (by rw [e]; exact hm)) with ⟨s', g1, g2, g3⟩ | ⟨e, s', k, g0, g1, g2, g3, g4⟩
      · exact .inl ⟨s', g1, g2, by rw [g3]; congr 1; omega⟩
      · exact .inr ⟨e, s', k + 1, by omega, g1, g2, by rw [g3]; congr 1; omega, g4⟩

theorem count_upto {s : S} (hs : W.Inv s) {n : Nat} (hv : (D.view s).Upto n) : D.count s = some n := by
  obtain ⟨L, h1, h2, h3⟩ := W.each_all s hs
  have hL := nodup_index h2 fun l hl => (h3 l).1 hl
  have hmem : ∀ i, i ∈ L.map (·.index) ↔ i ∈ List.range' 1 n := by
    intro i
    rw [List.mem_range'_1, List.mem_map]
    have := hv i
    constructor
    · rintro ⟨l, hl, rfl⟩
      have hh := (h3 l).1 hl
      unfold View.Has at hh
      have := (hv l.index).1 (by rw [hh]; simp)
      omega
    · intro hi
      have := (hv i).2 (by omega)
      cases hp : D.view s i with
      | none => exact absurd hp this
      | some p => exact ⟨⟨i, p.1, p.2⟩, (h3 _).2 (by unfold View.Has; exact hp), rfl⟩
  have hp := (List.perm_ext_iff_of_nodup hL List.nodup_range').2 hmem
  have := hp.length_eq
  simp only [List.length_map, List.length_range'] at this
  rw [← this]
  exact W.count_all s hs L h1

theorem empty_of_count {s : S} (hs : W.Inv s) (h : D.count s = some 0) : D.view s = points 0 := by
  obtain ⟨n, h1, L, -, h2, h3⟩ := count_size W hs
  rw [h] at h1; cases h1
  cases L with
  | cons x L => simp at h2
  | nil =>
    funext i
    have := h3 i
    unfold points; rw [if_neg (by omega)]
    exact Classical.byContradiction fun hn => by simpa using (h3 i).2 hn

/-- What the changed first program prints, from the creation of the link on: 1 and 2 are the points. -/
def TourOK (t : Tour) : Prop :=
  t.point = 1 ∧ t.link = 3 ∧ t.total = 3 ∧ t.all.Perm [⟨1, 1, 1⟩, ⟨2, 2, 2⟩, ⟨3, 1, 2⟩] ∧
  t.bySource.Perm [⟨1, 1, 1⟩, ⟨3, 1, 2⟩] ∧ t.updated = 3 ∧ t.deleted = [(⟨3, 1, 3⟩, ⟨0, 0, 0⟩)]

theorem tourApart_law (hn : Numbers W) (hg : ∀ s, W.Inv s → (D.view s).Uniq → W.CanCreate s)
    (hu : ∀ v i x y, (v.set i (x, y)).Uniq → W.CanUpdate v i x y)
    (hall : ∀ s, W.Inv s → ∃ L, D.eachIter s [(D.consts s).any, (D.consts s).any, (D.consts s).any] = some L ∧ L.Nodup ∧
      ∀ l, l ∈ L ↔ (D.view s).Has l) {s : S} (hs : W.Inv s) (hv : D.view s = points 0) :
    (∃ t s', D.tourApart s = some (.ok t, s') ∧ W.Inv s' ∧ D.view s' = points 0 ∧ TourOK t) ∨
    ∃ e s', D.tourApart s = some (.error e, s') ∧ D.create s' = some ⟨.error e, s', ()⟩ := by
  have hun : ∀ n, W.CanUpdate ((points n).set (n + 1) (0, 0)) (n + 1) (n + 1) (n + 1) := fun n =>
    hu _ _ _ _ (by rw [set_set, points_succ]; exact points_uniq _)
  rcases createPoint_next W hn hs (hg s hs (hv ▸ points_uniq 0)) (hv ▸ points_upto 0) (hv ▸ hun 0) with ⟨e, h1, h2⟩ | ⟨s1, h1, h2, h3⟩
  · exact .inr ⟨e, s, by simp [tourApart, h2], h1⟩
  rw [hv, points_succ] at h3
  rcases createPoint_next W hn h1 (hg s1 h1 (h3 ▸ points_uniq 1)) (h3 ▸ points_upto 1) (h3 ▸ hun 1) with ⟨e, g1, g2⟩ | ⟨s2, g1, g2, g3⟩
  · exact .inr ⟨e, s1, by simp [tourApart, h2, g2], g1⟩
  rw [h3, points_succ] at g3
  have e12 : D.tourApart s = D.tourFrom 1 2 s2 := by simp [tourApart, h2, g2]
  rw [e12]
  have u3 : ∀ y, y ≠ 1 → ((points 2).set 3 (1, y)).Uniq := by
    intro y hy i p hi hp j hj
    obtain ⟨a, b⟩ := p
    simp only [points, View.set] at hi hj
    have split' : ∀ {k : Nat}, (if k = 3 then some (1, y) else if 1 ≤ k ∧ k ≤ 2 then some (k, k) else none) = some (a, b) →
        k = 3 ∧ a = 1 ∧ b = y ∨ k ≤ 2 ∧ a = k ∧ b = k := by
      intro k hk
      split at hk
      · simp only [Option.some.injEq, Prod.mk.injEq] at hk; omega
      · split at hk
        · simp only [Option.some.injEq, Prod.mk.injEq] at hk; omega
        · cases hk
    have := split' hi
    have := split' hj
    omega
  rcases createLink_next W hn g1 (hg s2 g1 (g3 ▸ points_uniq 2)) (g3 ▸ points_upto 2) 1 2
    (by rw [g3]; exact hu _ _ _ _ (by rw [set_set]; exact u3 2 (by decide))) with ⟨e, k1, k2⟩ | ⟨s3, k1, k2, k3⟩
  · exact .inr ⟨e, s2, by simp [tourFrom, k2], k1⟩
  left
  rw [g3] at k3
  have hup : (D.view s3).Upto 3 := by
    rw [k3]; intro i
    simp only [points, View.set]
    split
    · simp; omega
    · split <;> simp <;> omega
  have hcount := count_upto W k1 hup
  obtain ⟨L, l1, l2, l3⟩ := hall s3 k1
  have hv1 : D.view s3 1 = some (1, 1) := by rw [k3]; rfl
  have ha1 : 1 ≠ (D.consts s3).any := fun e => by
    have := W.any_absent s3 k1; rw [← e, hv1] at this; cases this
  obtain ⟨M, m1, m2, m3⟩ := W.each_source s3 k1 1 (by decide) ha1
  obtain ⟨⟨cn, hcn⟩, -⟩ := W.count_usages s3 k1 1 (by decide) ha1
  have hM : D.eachIter s3 [(D.consts s3).any, 1, (D.consts s3).any] = some M := by
    simp only [eachIter]
    rw [show D.countBy s3 [(D.consts s3).any, 1, (D.consts s3).any] = some cn from hcn]
    exact collect_eq m1
  obtain ⟨s4, b, hb, p1, -, p2, p3⟩ := W.update s3 k1 3 (1, 2) (by rw [k3]; rfl)
    (by rw [k3]; exact fun p hp hp0 j hj => u3 2 (by decide) 3 p hp hp0 j hj) 3 1 3
    (by rw [k3]; exact hu _ _ _ _ (by rw [set_set]; exact u3 3 (by decide)))
  rw [k3, set_set] at p2
  have hu4 : (D.view s4).Uniq := by rw [p2]; exact u3 3 (by decide)
  obtain ⟨s5, q1, -, q2, q3⟩ := W.delete s4 p1 3 (1, 3) (by rw [p2]; rfl)
    (fun p hp hp0 j hj => hu4 3 p hp hp0 j hj) (W.canDelete_uniq _ _ hu4)
  have q2 : D.view s5 = points 2 := by
    rw [q2, p2]; funext i
    simp only [points, View.set, View.del]
    split
    · rw [if_neg (by omega)]
    · rfl
  obtain ⟨n, r1, -, r2⟩ := deleteAll_law W q1 (q2 ▸ points_uniq 2)
  have hn2 : n = 2 := by
    have := count_upto W q1 (q2 ▸ points_upto 2)
    rw [r1] at this; cases this; rfl
  subst hn2
  rcases r2 with ⟨s6, r3, -, r4, r5⟩ | ⟨-, -, -, -, -, -, r3, -⟩
  · refine ⟨⟨1, 3, 3, L, M, 3, [(⟨3, 1, 3⟩, ⟨0, 0, 0⟩)]⟩, s6, ?_, r3, ?_, rfl, rfl, rfl, ?_, ?_, rfl, rfl⟩
    · simp only [tourFrom, k2, Option.bind_some, hcount, l1, hM, Links.update_ok p3]
      simp only [deleteWith, deleteByWith_ok q3, Option.bind_some, r5, Option.map_some]
      rfl
    · rw [r4]; funext i; simp only [View.empty, points]; rw [if_neg (by omega)]
    · refine (List.perm_ext_iff_of_nodup l2 (by decide)).2 fun l => ?_
      rw [l3, k3]
      obtain ⟨i, a, b⟩ := l
      simp only [View.Has, points, View.set, List.mem_cons, Link.mk.injEq, List.not_mem_nil, or_false]
      split
      · simp; omega
      · split <;> simp <;> omega
    · refine (List.perm_ext_iff_of_nodup m2 (by decide)).2 fun l => ?_
      rw [m3, k3]
      obtain ⟨i, a, b⟩ := l
      simp only [View.Has, points, View.set, List.mem_cons, Link.mk.injEq, List.not_mem_nil, or_false]
      split
      · simp; omega
      · split <;> simp <;> omega
  · exact absurd (q2 ▸ points_upto 2) r3

end Links
end Verif
