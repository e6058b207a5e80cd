import Verif.DerivedLaws

/-!
# `delete_usages` and `rebase` when a link has the same index at both ends (helper lemmas)
-/

namespace Verif

theorem first_repeat_from {α : Type} : ∀ (l A : List α), A.Nodup → ¬ (A ++ l).Nodup →
    ∃ A' x B, A ++ l = A' ++ x :: B ∧ A'.Nodup ∧ x ∈ A' := by
  intro l
  induction l with
  | nil => intro A hA h; rw [List.append_nil] at h; exact absurd hA h
  | cons x l ih =>
    intro A hA h
    by_cases hx : x ∈ A
    · exact ⟨A, x, l, rfl, hA, hx⟩
    · have hA' : (A ++ [x]).Nodup := List.nodup_append.2 ⟨hA, by simp, fun a ha b hb => by
        rw [List.mem_singleton.1 hb]; exact fun e => hx (e ▸ ha)⟩
      obtain ⟨A', y, B, e, h1, h2⟩ := ih (A ++ [x]) hA' (by simpa using h)
      exact ⟨A', y, B, by rw [← e]; simp, h1, h2⟩

/-- A list with repetitions, cut at the first repetition. -/
theorem first_repeat {α : Type} {l : List α} (h : ¬ l.Nodup) : ∃ A x B, l = A ++ x :: B ∧ A.Nodup ∧ x ∈ A :=
  first_repeat_from l [] List.nodup_nil h

namespace Links
variable {S : Type} {D : Links S} (W : Lawful D) {s : S}

theorem deleteLoop_append {σ ρ : Type} {h : Hd σ ρ} : ∀ {A B : List Nat} {s s' : S} {f f' : FuseSt σ},
    D.deleteLoop h A s f = some ⟨.ok (), s', f'⟩ → D.deleteLoop h (A ++ B) s f = D.deleteLoop h B s' f' := by
  intro A
  induction A with
  | nil => intro B s s' f f' e; simp only [deleteLoop, Option.some.injEq, Out.mk.injEq] at e; rw [e.2.1, e.2.2]; rfl
  | cons i A ih =>
    intro B s s' f f' e
    simp only [List.cons_append, deleteLoop] at e ⊢
    split at e
    · cases e
    · next o ho =>
      split at e
      · cases e
      · next hr => exact ih e

/-- Deleting a list of links with repetitions stops at the first repetition. -/
theorem deleteLoop_repeat (hs : W.Inv s) {A B : List Link} {x : Link} (hn : (A.map (·.index)).Nodup)
    (hx : x.index ∈ A.map (·.index)) (hL : ∀ l ∈ A, (D.view s).Has l ∧ (D.view s).NoTwin l.index)
    (hcd : ∀ l ∈ A, W.CanDelete (D.view s) l.index) :
    ∃ s', W.Inv s' ∧ D.view s' = (fun k => if k ∈ A.map (·.index) then none else D.view s k) ∧
      ∀ {σ ρ : Type} (h : Hd σ ρ) (st : σ), D.deleteLoop h ((A ++ x :: B).map (·.index)) s ⟨st, false⟩ =
        some ⟨.error (.notExists x.index), s', ⟨callAll h (A.map fun l => (l, Link.nothing)) st, false⟩⟩ := by
  obtain ⟨s', h1, h2, h3⟩ := deleteLoop_law W A s hs hn hL hcd
  refine ⟨s', h1, h2, fun {σ ρ} h st => ?_⟩
  rw [List.map_append, deleteLoop_append (h3 h st), List.map_cons]
  have hv : D.view s' x.index = none := by rw [h2]; simp only [hx, if_true]
  simp only [deleteLoop, deleteWith, deleteByWith_err (W.delete_missing s' h1 x.index hv)]

/-- Deleting the links of `F2` and then those of `F1`, some link being in both: all of `F2` and some of `F1` are deleted,
then the second deletion of a link in both fails. -/
theorem deleteLoop_double (hs : W.Inv s) {F1 F2 : List Link} (hN1 : F1.Nodup) (hN2 : F2.Nodup)
    (hL : ∀ l ∈ F2 ++ F1, (D.view s).Has l ∧ (D.view s).NoTwin l.index)
    (hcd : ∀ l ∈ F2 ++ F1, W.CanDelete (D.view s) l.index) {d : Link} (hd1 : d ∈ F1) (hd2 : d ∈ F2) :
    ∃ (s' : S) (A : List Link) (x : Link), W.Inv s' ∧ x ∈ F1 ∧ x ∈ F2 ∧ A.Nodup ∧ (∀ l ∈ A, l ∈ F2 ++ F1) ∧
      (∀ l ∈ F2, l ∈ A) ∧ D.view s' = (fun k => if k ∈ A.map (·.index) then none else D.view s k) ∧
      ∀ {σ ρ : Type} (h : Hd σ ρ) (st : σ), D.deleteLoop h ((F2 ++ F1).map (·.index)) s ⟨st, false⟩ =
        some ⟨.error (.notExists x.index), s', ⟨callAll h (A.map fun l => (l, Link.nothing)) st, false⟩⟩ := by
  have hrep : ¬ (F2 ++ F1).Nodup := fun hn => (List.nodup_append.1 hn).2.2 _ hd2 _ hd1 rfl
  obtain ⟨A, x, B, e, hA, hx⟩ := first_repeat hrep
  have hsub : ∀ l ∈ F2, l ∈ A := by
    intro l hl
    rcases List.append_eq_append_iff.1 e with ⟨C, e1, -⟩ | ⟨C, e1, e2⟩
    · rw [e1]; simp [hl]
    · -- the first repetition lies in `F2`: impossible
      cases C with
      | nil => rw [e1] at hl; simpa using hl
      | cons y C =>
        simp only [List.cons_append, List.cons.injEq] at e2
        rw [e1, ← e2.1] at hN2
        exact absurd rfl ((List.nodup_append.1 hN2).2.2 _ hx _ (by simp))
  have hAm : ∀ l ∈ A, l ∈ F2 ++ F1 := fun l hl => by rw [e]; simp [hl]
  have hx2 : x ∈ F2 ∧ x ∈ F1 := by
    rcases List.append_eq_append_iff.1 e with ⟨C, e1, e2⟩ | ⟨C, e1, e2⟩
    · have hx1 : x ∈ F1 := by rw [e2]; simp
      refine ⟨?_, hx1⟩
      rw [e1] at hx
      rcases List.mem_append.1 hx with hx | hx
      · exact hx
      · rw [e2] at hN1
        exact absurd rfl ((List.nodup_append.1 hN1).2.2 _ hx _ (by simp))
    · cases C with
      | nil =>
        simp only [List.nil_append] at e2
        simp only [List.append_nil] at e1
        exact ⟨e1 ▸ hx, by rw [← e2]; simp⟩
      | cons y C =>
        simp only [List.cons_append, List.cons.injEq] at e2
        rw [e1, ← e2.1] at hN2
        exact absurd rfl ((List.nodup_append.1 hN2).2.2 _ hx _ (by simp))
  obtain ⟨s', g1, g2, g3⟩ := deleteLoop_repeat W hs (A := A) (B := B) (x := x)
    (nodup_index hA fun l hl => (hL l (hAm l hl)).1) (List.mem_map_of_mem hx)
    (fun l hl => hL l (hAm l hl)) (fun l hl => hcd l (hAm l hl))
  exact ⟨s', A, x, g1, hx2.2, hx2.1, hA, hAm, hsub, g2, fun {σ ρ} h st => by rw [e, g3]⟩

/-- `delete_usages` when some other link has `i` at both ends: it deletes all links whose target is `i` and some of those
whose source is `i`, and then fails. -/
theorem deleteUsagesWith_double (hs : W.Inv s) {i : Nat} {p : Nat × Nat} (hv : D.view s i = some p) {d : Nat}
    (hd : D.view s d = some (i, i)) (hdi : d ≠ i)
    (hu : ∀ j a b, D.view s j = some (a, b) → j ≠ i → (a = i ∨ b = i) → (D.view s).NoTwin j)
    (hcd : ∀ j a b, D.view s j = some (a, b) → j ≠ i → (a = i ∨ b = i) → W.CanDelete (D.view s) j) :
    ∃ (s' : S) (A : List Link) (j : Nat), W.Inv s' ∧ j ≠ i ∧ D.view s j = some (i, i) ∧ A.Nodup ∧
      (∀ l ∈ A, (D.view s).Has l ∧ l.index ≠ i ∧ (l.source = i ∨ l.target = i)) ∧
      (∀ l, (D.view s).Has l → l.index ≠ i → l.target = i → l ∈ A) ∧
      D.view s' = (fun k => if k ∈ A.map (·.index) then none else D.view s k) ∧
      ∀ {σ ρ : Type} (h : Hd σ ρ) (st : σ), D.deleteUsagesWith s i h st =
        some ⟨.error (.notExists j), s', callAll h (A.map fun l => (l, Link.nothing)) st⟩ := by
  obtain ⟨h0, ha, L1, L2, v1, n1, m1, v2, n2, m2, c1, c2⟩ := usage_lists W hs hv
  let F1 := (L1.filter (·.index ≠ i)).reverse
  let F2 := (L2.filter (·.index ≠ i)).reverse
  have hF1 : ∀ l, l ∈ F1 ↔ (D.view s).Has l ∧ l.index ≠ i ∧ l.source = i := by
    intro l
    simp only [F1, List.mem_reverse, List.mem_filter, m1, decide_eq_true_eq]
    exact ⟨fun h => ⟨h.1.1, h.2, h.1.2⟩, fun h => ⟨⟨h.1, h.2.2⟩, h.2.1⟩⟩
  have hF2 : ∀ l, l ∈ F2 ↔ (D.view s).Has l ∧ l.index ≠ i ∧ l.target = i := by
    intro l
    simp only [F2, List.mem_reverse, List.mem_filter, m2, decide_eq_true_eq]
    exact ⟨fun h => ⟨h.1.1, h.2, h.1.2⟩, fun h => ⟨⟨h.1, h.2.2⟩, h.2.1⟩⟩
  have hmem : ∀ l ∈ F2 ++ F1, (D.view s).Has l ∧ l.index ≠ i ∧ (l.source = i ∨ l.target = i) := by
    intro l hl
    rcases List.mem_append.1 hl with hl | hl
    · have := (hF2 l).1 hl; exact ⟨this.1, this.2.1, .inr this.2.2⟩
    · have := (hF1 l).1 hl; exact ⟨this.1, this.2.1, .inl this.2.2⟩
  obtain ⟨s', A, x, g1, x1, x2, hA, hAm, hsub, g2, g3⟩ := deleteLoop_double W hs (nodup_rev (n1.filter _))
    (nodup_rev (n2.filter _)) (F1 := F1) (F2 := F2)
    (fun l hl => ⟨(hmem l hl).1, by obtain ⟨q1, q2, q3⟩ := hmem l hl; exact hu _ _ _ q1 q2 q3⟩)
    (fun l hl => by obtain ⟨q1, q2, q3⟩ := hmem l hl; exact hcd _ _ _ q1 q2 q3)
    (d := ⟨d, i, i⟩) ((hF1 _).2 ⟨hd, hdi, rfl⟩) ((hF2 _).2 ⟨hd, hdi, rfl⟩)
  obtain ⟨q1, q2, q3⟩ := (hF2 x).1 x2
  obtain ⟨-, -, q4⟩ := (hF1 x).1 x1
  have q5 : D.view s x.index = some (x.source, x.target) := q1
  refine ⟨s', A, x.index, g1, q2, by rw [q5, q3, q4], hA, fun l hl => hmem l (hAm l hl),
    fun l q1 q2 q3 => hsub l ((hF2 l).2 ⟨q1, q2, q3⟩), g2, fun {σ ρ} h st => ?_⟩
  have hrev : (((L1 ++ L2).map (·.index)).filter (· ≠ i)).reverse = (F2 ++ F1).map (·.index) := by
    rw [filter_map_index, ← List.map_reverse, List.filter_append, List.reverse_append]
  simp only [deleteUsagesWith, countBy, c1, c2, Option.bind_some, usageList_eq v1 v2]
  rw [hrev, g3]
  rfl

/-- `delete_query_with` for `[any, x]` when some link has `x` at both ends: it deletes all links whose target is `x` and some
of those whose source is `x`, and then fails. -/
theorem deleteQueryWith_double (hs : W.Inv s) {x : Nat} {L1 L2 : List Link} {n : Nat}
    (hc : D.countLinks s [(D.consts s).any, x] = some n) (hq : D.Visits s [(D.consts s).any, x] (L1 ++ L2))
    (n1 : L1.Nodup) (m1 : ∀ l, l ∈ L1 ↔ (D.view s).Has l ∧ l.source = x)
    (n2 : L2.Nodup) (m2 : ∀ l, l ∈ L2 ↔ (D.view s).Has l ∧ l.target = x) {d : Nat}
    (hd : D.view s d = some (x, x))
    (hu : ∀ j a b, D.view s j = some (a, b) → (a = x ∨ b = x) → (D.view s).NoTwin j)
    (hcd : ∀ j a b, D.view s j = some (a, b) → (a = x ∨ b = x) → W.CanDelete (D.view s) j) :
    ∃ (s' : S) (A : List Link) (j : Nat), W.Inv s' ∧ D.view s j = some (x, x) ∧ A.Nodup ∧
      (∀ l ∈ A, (D.view s).Has l ∧ (l.source = x ∨ l.target = x)) ∧
      (∀ l, (D.view s).Has l → l.target = x → l ∈ A) ∧
      D.view s' = (fun k => if k ∈ A.map (·.index) then none else D.view s k) ∧
      ∀ {σ ρ : Type} (h : Hd σ ρ) (st : σ), D.deleteQueryWith s [(D.consts s).any, x] h st =
        some ⟨.error (.notExists j), s', callAll h (A.map fun l => (l, Link.nothing)) st⟩ := by
  have hmem : ∀ l ∈ L2.reverse ++ L1.reverse, (D.view s).Has l ∧ (l.source = x ∨ l.target = x) := by
    intro l hl
    rcases List.mem_append.1 hl with hl | hl
    · have := (m2 l).1 (List.mem_reverse.1 hl); exact ⟨this.1, .inr this.2⟩
    · have := (m1 l).1 (List.mem_reverse.1 hl); exact ⟨this.1, .inl this.2⟩
  obtain ⟨s', A, y, g1, x1, x2, hA, hAm, hsub, g2, g3⟩ := deleteLoop_double W hs (nodup_rev n1) (nodup_rev n2)
    (fun l hl => ⟨(hmem l hl).1, hu _ _ _ (hmem l hl).1 (hmem l hl).2⟩)
    (fun l hl => hcd _ _ _ (hmem l hl).1 (hmem l hl).2)
    (d := ⟨d, x, x⟩) (List.mem_reverse.2 ((m1 _).2 ⟨hd, rfl⟩)) (List.mem_reverse.2 ((m2 _).2 ⟨hd, rfl⟩))
  have q1 := (m2 y).1 (List.mem_reverse.1 x2)
  have q2 := (m1 y).1 (List.mem_reverse.1 x1)
  have q3 : D.view s y.index = some (y.source, y.target) := q1.1
  refine ⟨s', A, y.index, g1, by rw [q3, q1.2, q2.2], hA, fun l hl => hmem l (hAm l hl),
    fun l q1 q2 => hsub l (List.mem_reverse.2 ((m2 l).2 ⟨q1, q2⟩)), g2, fun {σ ρ} h st => ?_⟩
  have hrev : ((L1 ++ L2).map (·.index)).reverse = (L2.reverse ++ L1.reverse).map (·.index) := by
    rw [← List.map_reverse, List.reverse_append]
  simp only [deleteQueryWith, countBy, hc, collect_eq hq, Option.bind_some]
  rw [hrev, g3]
  rfl

/-! ### Rebase -/

/-- What `rebase` makes of a pair: `old` is replaced by `new`, but a pair with `old` at both ends keeps `old` as source. -/
def substKeep (old new : Nat) (p : Nat × Nat) : Nat × Nat :=
  if p = (old, old) then (old, new) else substPair old new p

theorem substPair_ne {old new : Nat} (hne : old ≠ new) (p : Nat × Nat) :
    (substPair old new p).1 ≠ old ∧ (substPair old new p).2 ≠ old := by
  simp only [substPair]
  constructor
  · split
    · exact hne.symm
    · assumption
  · split
    · exact hne.symm
    · assumption

/-- If `substKeep` leaves `old` in a pair, it is the pair `(old, new)` and came from `(old, old)`. -/
theorem substKeep_old {old new : Nat} (hne : old ≠ new) {p q : Nat × Nat} (h : substKeep old new p = q)
    (hq : q.1 = old ∨ q.2 = old) : p = (old, old) ∧ q = (old, new) := by
  unfold substKeep at h
  split at h
  · next e => exact ⟨e, h.symm⟩
  · have := substPair_ne hne p
    rw [h] at this
    rcases hq with hq | hq
    · exact absurd hq this.1
    · exact absurd hq this.2

/-- The updates that `rebase` makes are supported. -/
def RebaseOK {S : Type} {D : Links S} (W : Lawful D) (v0 : View) (old new : Nat) : Prop :=
  ∀ w j a b, v0 j = some (a, b) → j ≠ old → (a = old ∨ b = old) →
    (¬ (a = old ∧ b = old) → w j = some (a, b) →
      W.CanUpdate w j (substPair old new (a, b)).1 (substPair old new (a, b)).2) ∧
    (a = old → b = old → (w j = some (old, old) ∨ w j = some (old, new) → W.CanUpdate w j new old) ∧
      (w j = some (new, old) → W.CanUpdate w j old new))

theorem rebaseLoop_exact {old new : Nat} (hne : old ≠ new) (h0 : old ≠ 0) {v0 : View}
    (hcan : RebaseOK W v0 old new)
    (hu : ∀ j a b, v0 j = some (a, b) → j ≠ old → (a = old ∨ b = old) → v0.NoTwin j)
    (hx : (∃ d, d ≠ old ∧ v0 d = some (old, old)) → ∀ j, v0 j ≠ some (new, old) ∧ v0 j ≠ some (old, new)) :
    ∀ (M : List Link) (s : S), W.Inv s →
    (∀ u ∈ M, v0.Has u ∧ u.index ≠ old ∧ (u.source = old ∨ u.target = old)) →
    ((M.filter fun u => ¬ (u.source = old ∧ u.target = old)).map (·.index)).Nodup →
    (∀ k, D.view s k = v0 k ∨ k ≠ old ∧ D.view s k = (v0 k).map (substKeep old new)) →
    (∀ u ∈ M, ¬ (u.source = old ∧ u.target = old) → D.view s u.index = v0 u.index) →
    ∃ s', W.Inv s' ∧
      D.view s' = (fun k => if k ∈ M.map (·.index) then (v0 k).map (substKeep old new) else D.view s k) ∧
      ∀ {σ ρ : Type} (h : Hd σ ρ) (st : σ), ∃ st', D.rebaseLoop h old new M s ⟨st, false⟩ = some ⟨.ok (), s', ⟨st', false⟩⟩ := by
  intro M
  induction M with
  | nil => intro s hs _ _ _ _; exact ⟨s, hs, by simp, fun _ st => ⟨st, rfl⟩⟩
  | cons u M ih =>
    intro s hs hM hnd hst hun
    obtain ⟨hu0, huo, hor⟩ := hM u (by simp)
    have hv0 : v0 u.index = some (u.source, u.target) := hu0
    have htw0 := hu _ _ _ hv0 huo hor
    -- one step
    have hstep : ∃ s1, W.Inv s1 ∧ D.view s1 = (D.view s).set u.index (substKeep old new (u.source, u.target)) ∧
        ∀ {σ ρ : Type} (h : Hd σ ρ) (st : σ), ∃ st', D.rebaseOne h old new u s ⟨st, false⟩ =
          some ⟨.ok (), s1, ⟨st', false⟩⟩ := by
      by_cases hb : u.source = old ∧ u.target = old
      · obtain ⟨hb1, hb2⟩ := hb
        rw [hb1, hb2] at hv0
        have hx' := hx ⟨u.index, huo, hv0⟩
        -- a pair with `old` in it other than `(old, old)` belongs to no other link
        have hno : ∀ j, j ≠ u.index → ∀ q : Nat × Nat, (q = (old, old) ∨ q = (new, old) ∨ q = (old, new)) →
            D.view s j ≠ some q := by
          intro j hj q hq hjq
          have key : v0 j ≠ some (old, old) := fun e => hj (htw0 _ hv0 (by simp [h0]) j e)
          rcases hst j with e | ⟨-, e⟩
          · rw [e] at hjq
            rcases hq with rfl | rfl | rfl
            · exact key hjq
            · exact (hx' j).1 hjq
            · exact (hx' j).2 hjq
          · rw [e] at hjq
            cases hvj : v0 j with
            | none => rw [hvj] at hjq; cases hjq
            | some r =>
              rw [hvj, Option.map_some, Option.some.injEq] at hjq
              have := substKeep_old hne hjq (by rcases hq with rfl | rfl | rfl <;> simp)
              rw [this.1] at hvj
              exact key hvj
        have hcur : ∃ p, D.view s u.index = some p ∧ (D.view s).NoTwin u.index ∧ (p = (old, old) ∨ p = (old, new)) := by
          rcases hst u.index with e | ⟨-, e⟩
          · rw [hv0] at e
            refine ⟨_, e, fun p hp _ j hj => ?_, .inl rfl⟩
            rw [e] at hp; cases hp
            apply Classical.byContradiction
            intro hj'
            exact hno j hj' _ (.inl rfl) hj
          · rw [hv0, Option.map_some] at e
            have e' : substKeep old new (old, old) = (old, new) := if_pos rfl
            rw [e'] at e
            refine ⟨_, e, fun p hp _ j hj => ?_, .inr rfl⟩
            rw [e] at hp; cases hp
            apply Classical.byContradiction
            intro hj'
            exact hno j hj' _ (.inr (.inr rfl)) hj
        obtain ⟨p, hp, htp, hpp⟩ := hcur
        obtain ⟨s1, b1, -, i1, -, e1, u1⟩ := W.update s hs u.index p hp htp u.index new old
          (((hcan _ _ _ _ hv0 huo (.inl rfl)).2 rfl rfl).1 (by rcases hpp with rfl | rfl <;> simp [hp]))
        have hp1 : D.view s1 u.index = some (new, old) := by rw [e1, View.set_same]
        have htp1 : (D.view s1).NoTwin u.index := by
          intro q hq _ j hj
          rw [hp1] at hq; cases hq
          apply Classical.byContradiction
          intro hj'
          rw [e1, View.set_other _ _ hj'] at hj
          exact hno j hj' _ (.inr (.inl rfl)) hj
        obtain ⟨s2, b2, -, i2, -, e2, u2⟩ := W.update s1 i1 u.index _ hp1 htp1 u.index old new
          (((hcan _ _ _ _ hv0 huo (.inl rfl)).2 rfl rfl).2 hp1)
        refine ⟨s2, i2, ?_, fun {σ ρ} h st => ?_⟩
        · rw [e2, e1, hb1, hb2, set_set]
          simp [substKeep]
        · refine ⟨(h (h st b1 ⟨u.index, new, old⟩).2 b2 ⟨u.index, old, new⟩).2, ?_⟩
          simp only [rebaseOne, hb1, hb2, if_true, updateWith, updateByWith_ok u1, updateByWith_ok u2, Option.map_some,
            Option.bind_some, Except.map, fuseCall_eq]
      · have hcur : D.view s u.index = some (u.source, u.target) := (hun u (by simp) hb).trans hv0
        have htw : (D.view s).NoTwin u.index := by
          intro q hq hq0 j hj
          rw [hcur] at hq
          cases hq
          rcases hst j with e | ⟨-, e⟩
          · rw [e] at hj; exact htw0 _ hv0 hq0 j hj
          · rw [e] at hj
            cases hvj : v0 j with
            | none => rw [hvj] at hj; cases hj
            | some r =>
              rw [hvj, Option.map_some, Option.some.injEq] at hj
              have := substKeep_old hne hj hor
              rw [this.1] at hvj
              by_cases hjo : j = old
              · -- `old` itself is never changed
                subst hjo
                rcases hst j with e' | ⟨hn, -⟩
                · exact htw0 _ hv0 hq0 j (by rw [← e', e, hvj, Option.map_some, ← this.1, hj])
                · exact absurd rfl hn
              · exact absurd (hv0.trans (congrArg some this.2)) (hx ⟨j, hjo, hvj⟩ u.index).2
        obtain ⟨s1, b, hb', h1, h2, h3, h4⟩ := W.update s hs u.index _ hcur htw u.index
          (substPair old new (u.source, u.target)).1 (substPair old new (u.source, u.target)).2
          ((hcan _ _ _ _ hv0 huo hor).1 hb hcur)
        have hk : substKeep old new (u.source, u.target) = substPair old new (u.source, u.target) := by
          unfold substKeep
          rw [if_neg]
          intro e; exact hb ⟨congrArg Prod.fst e, congrArg Prod.snd e⟩
        refine ⟨s1, h1, by rw [h3, hk], fun {σ ρ} h st => ⟨(h st b ⟨u.index, (substPair old new (u.source, u.target)).1,
          (substPair old new (u.source, u.target)).2⟩).2, ?_⟩⟩
        simp only [substPair] at h4 ⊢
        by_cases hs1 : u.source = old
        · have ht1 : u.target ≠ old := fun e => hb ⟨hs1, e⟩
          rw [if_pos hs1, if_neg ht1] at h4
          simp only [rebaseOne, if_pos hs1, if_neg ht1, updateWith, updateByWith_ok h4, Option.map_some,
            Option.bind_some, Except.map, fuseCall_eq]
        · have ht1 : u.target = old := hor.resolve_left hs1
          rw [if_neg hs1, if_pos ht1] at h4
          simp only [rebaseOne, if_neg hs1, if_pos ht1, updateWith, updateByWith_ok h4, Option.map_some,
            Option.bind_some, Except.map, fuseCall_eq]
    obtain ⟨s1, h1, h2, h3⟩ := hstep
    have hset : (v0 u.index).map (substKeep old new) = some (substKeep old new (u.source, u.target)) := by rw [hv0]; rfl
    obtain ⟨s2, g1, g2, g3⟩ := ih s1 h1 (fun u' hu' => hM u' (List.mem_cons_of_mem _ hu'))
      (by
        by_cases hb : u.source = old ∧ u.target = old
        · rwa [List.filter_cons_of_neg (by simp [hb])] at hnd
        · rw [List.filter_cons_of_pos (by simp [hb]), List.map_cons, List.nodup_cons] at hnd
          exact hnd.2)
      (fun k => by
        rw [h2]
        by_cases hk : k = u.index
        · subst hk; rw [View.set_same, hset]; exact .inr ⟨huo, rfl⟩
        · rw [View.set_other _ _ hk]; exact hst k)
      (fun u' hu' hb' => by
        rw [h2, View.set_other]
        · exact hun u' (List.mem_cons_of_mem _ hu') hb'
        · intro e
          by_cases hb : u.source = old ∧ u.target = old
          · have hv' : v0 u'.index = some (u'.source, u'.target) := (hM u' (List.mem_cons_of_mem _ hu')).1
            rw [e, hv0] at hv'
            cases u'; cases hv'
            exact hb' hb
          · rw [List.filter_cons_of_pos (by simp [hb]), List.map_cons, List.nodup_cons] at hnd
            exact hnd.1 (e ▸ List.mem_map_of_mem (List.mem_filter.2 ⟨hu', decide_eq_true hb'⟩)))
    refine ⟨s2, g1, ?_, fun {σ ρ} h st => ?_⟩
    · rw [g2]
      funext k
      simp only [List.map_cons, List.mem_cons]
      by_cases hk : k ∈ M.map (·.index)
      · rw [if_pos hk, if_pos (.inr hk)]
      · rw [if_neg hk, h2]
        by_cases hku : k = u.index
        · subst hku; rw [View.set_same, if_pos (.inl rfl), hset]
        · rw [View.set_other _ _ hku, if_neg]
          rintro (e | e)
          · exact hku e
          · exact hk e
    · obtain ⟨st1, e1⟩ := h3 h st
      obtain ⟨st2, e2⟩ := g3 h st1
      refine ⟨st2, ?_⟩
      simp only [rebaseLoop, e1]
      exact e2

/-- `rebase` in general: a link other than `old` with `old` at both ends becomes `(old, new)`. -/
theorem rebaseWith_exact (hs : W.Inv s) {old new : Nat} {p : Nat × Nat}
    (hv : D.view s old = some p) (hne : old ≠ new) (hcan : RebaseOK W (D.view s) old new)
    (hu : ∀ j a b, D.view s j = some (a, b) → j ≠ old → (a = old ∨ b = old) → (D.view s).NoTwin j)
    (hx : (∃ d, d ≠ old ∧ D.view s d = some (old, old)) →
      ∀ j, D.view s j ≠ some (new, old) ∧ D.view s j ≠ some (old, new)) :
    ∃ s', W.Inv s' ∧
      D.view s' = (fun k => if k = old then D.view s k else (D.view s k).map (substKeep old new)) ∧
      ∀ {σ ρ : Type} (h : Hd σ ρ) (st : σ), ∃ st', D.rebaseWith s old new h st = some ⟨.ok (), s', st'⟩ := by
  obtain ⟨h0, ha, L1, L2, v1, n1, m1, v2, n2, m2, c1, c2⟩ := usage_lists W hs hv
  have hmem : ∀ l, l ∈ (L1 ++ L2).filter (·.index ≠ old) ↔
      (D.view s).Has l ∧ l.index ≠ old ∧ (l.source = old ∨ l.target = old) := by
    intro l
    rw [List.mem_filter, List.mem_append, m1, m2]
    simp only [decide_eq_true_eq]
    constructor
    · rintro ⟨h | h, h'⟩
      · exact ⟨h.1, h', .inl h.2⟩
      · exact ⟨h.1, h', .inr h.2⟩
    · rintro ⟨h1, h2, h3 | h3⟩
      · exact ⟨.inl ⟨h1, h3⟩, h2⟩
      · exact ⟨.inr ⟨h1, h3⟩, h2⟩
  have hnod : ((((L1 ++ L2).filter (·.index ≠ old)).filter fun u => ¬ (u.source = old ∧ u.target = old))).Nodup := by
    rw [List.filter_append, List.filter_append, List.nodup_append]
    refine ⟨(n1.filter _).filter _, (n2.filter _).filter _, fun a ha b hb hab => ?_⟩
    subst hab
    simp only [List.mem_filter, decide_eq_true_eq] at ha hb
    exact ha.2 ⟨((m1 a).1 ha.1.1).2, ((m2 a).1 hb.1.1).2⟩
  obtain ⟨s', g1, g2, g3⟩ := rebaseLoop_exact W hne h0 hcan hu hx ((L1 ++ L2).filter (·.index ≠ old)) s hs
    (fun u hu' => (hmem u).1 hu')
    (nodup_index hnod fun l hl => ((hmem l).1 (List.mem_filter.1 hl).1).1)
    (fun k => .inl rfl) (fun _ _ _ => rfl)
  refine ⟨s', g1, ?_, ?_⟩
  · rw [g2]
    funext k
    by_cases hk : k = old
    · subst hk
      rw [if_neg, if_pos rfl]
      intro hm
      obtain ⟨l, hl, e⟩ := List.mem_map.1 hm
      exact ((hmem l).1 hl).2.1 e
    · rw [if_neg hk]
      split
      · rfl
      · next hm =>
        cases hvk : D.view s k with
        | none => rfl
        | some r =>
          rw [Option.map_some]
          have : ¬ (r.1 = old ∨ r.2 = old) := fun hr =>
            hm (List.mem_map.2 ⟨⟨k, r.1, r.2⟩, (hmem _).2 ⟨hvk, hk, hr⟩, rfl⟩)
          have e1 : r.1 ≠ old := fun e => this (.inl e)
          have e2 : r.2 ≠ old := fun e => this (.inr e)
          have e3 : r ≠ (old, old) := fun e => e1 (by rw [e])
          simp [substKeep, substPair, e1, e2, e3]
  · intro σ ρ h st
    obtain ⟨st', g3⟩ := g3 h st
    refine ⟨st', ?_⟩
    simp only [rebaseWith, tryGetLink, W.get s hs, hv, Option.map_some, Option.bind_some, if_neg hne,
      eachIter, countBy, c1, c2, collect_eq v1, collect_eq v2]
    rw [g3]
    rfl

/-- `rebase_and_delete` in general. -/
theorem rebaseAndDelete_exact (hs : W.Inv s) {old new : Nat} {p : Nat × Nat}
    (hv : D.view s old = some p) (hne : old ≠ new) (hcan : RebaseOK W (D.view s) old new)
    (hu : ∀ j a b, D.view s j = some (a, b) → j ≠ old → (a = old ∨ b = old) → (D.view s).NoTwin j)
    (hx : (∃ d, d ≠ old ∧ D.view s d = some (old, old)) →
      ∀ j, D.view s j ≠ some (new, old) ∧ D.view s j ≠ some (old, new))
    (ht : p ≠ (0, 0) → ∀ j q, j ≠ old → D.view s j = some q → q ≠ (old, old) → substPair old new q ≠ p)
    (hcd : ∀ w : View, (∀ j, w.Uses old j → w.NoTwin j) → W.CanDelete w old) :
    ∃ s', W.Inv s' ∧ D.rebaseAndDelete s old new = some ⟨.ok 0, s', ()⟩ ∧
      D.view s' = fun k => if k = old then none else (D.view s k).map (substKeep old new) := by
  have h0 : old ≠ 0 := by rintro rfl; rw [W.null s hs] at hv; cases hv
  obtain ⟨s1, g1, g2, g3⟩ := rebaseWith_exact W hs hv hne hcan hu hx
  obtain ⟨st', g3⟩ := g3 contH ()
  have gold : D.view s1 old = some p := by rw [g2]; simp [hv]
  have gother : ∀ j, j ≠ old → ∀ r, D.view s1 j = some r → ∃ q, D.view s j = some q ∧ substKeep old new q = r := by
    intro j hj r hr
    rw [g2] at hr
    simp only [if_neg hj] at hr
    exact Option.map_eq_some_iff.1 hr
  have hnt : (D.view s1).NoTwin old := by
    intro q hq hq0 j hj
    rw [gold] at hq; cases hq
    apply Classical.byContradiction
    intro hjo
    obtain ⟨q, e1, e2⟩ := gother j hjo _ hj
    by_cases hqq : q = (old, old)
    · subst hqq
      rw [substKeep, if_pos rfl] at e2
      exact (hx ⟨j, hjo, e1⟩ old).2 (by rw [hv, e2])
    · rw [substKeep, if_neg hqq] at e2
      exact ht hq0 j q hjo e1 hqq e2
  have hcd' : W.CanDelete (D.view s1) old := by
    refine hcd _ ?_
    rintro j ⟨hjo, a, b, hab, hor⟩ r hr _ k hk
    rw [hab] at hr; cases hr
    obtain ⟨q, e1, e2⟩ := gother j hjo _ hab
    obtain ⟨rfl, e4⟩ := substKeep_old hne e2 hor
    rw [e4] at hk
    have hxx := hx ⟨j, hjo, e1⟩
    by_cases hko : k = old
    · subst hko
      rw [gold, ← hv] at hk
      exact absurd hk (hxx k).2
    · obtain ⟨q', k1, k2⟩ := gother k hko _ hk
      obtain ⟨rfl, -⟩ := substKeep_old hne k2 (.inl rfl)
      exact hu j _ _ e1 hjo (.inl rfl) _ e1 (by simp [h0]) k k1
  obtain ⟨s2, k1, -, k3, k4⟩ := W.delete s1 g1 old p gold hnt hcd'
  refine ⟨s2, k1, ?_, ?_⟩
  · rw [rebaseAndDelete, if_neg hne, rebase, g3]
    show D.delete s1 old = _
    rw [delete_ok k4]; rfl
  · rw [k3, g2]
    funext k
    by_cases hk : k = old
    · simp [hk, View.del]
    · simp [hk, View.del]

/-- Who uses `old` after `rebase_and_delete`. -/
theorem uses_after_rebase {v v' : View} {old new : Nat} (hne : old ≠ new)
    (hv : v' = fun k => if k = old then none else (v k).map (substKeep old new)) (j : Nat) :
    v'.Uses old j ↔ j ≠ old ∧ v j = some (old, old) := by
  rw [hv]
  constructor
  · rintro ⟨h1, a, b, h2, h3⟩
    simp only [if_neg h1] at h2
    obtain ⟨q, e1, e2⟩ := Option.map_eq_some_iff.1 h2
    obtain ⟨rfl, -⟩ := substKeep_old hne e2 h3
    exact ⟨h1, e1⟩
  · rintro ⟨h1, h2⟩
    exact ⟨h1, old, new, by simp [h1, h2, substKeep], .inl rfl⟩

end Links
end Verif
