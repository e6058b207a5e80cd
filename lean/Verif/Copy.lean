import Verif.Split.History

/-!
# Building given contents with API calls

A program of a client, not of the repository: to give a fresh store the links `L` it creates links up to the highest
index of `L`, deletes those `L` does not have, and updates the others to their ends in `L`. It uses only `create`,
`delete` and `update` (`doublets/src/data/traits.rs:99-104,191-196,245-250`).
-/

namespace Verif

/-- The highest index of the links `L`, or 0. -/
def highest (L : List Link) : Nat := L.foldr (fun l n => max l.index n) 0

/-- The indices up to the highest one that no link of `L` has. -/
def gaps (L : List Link) : List Nat := (List.range' 1 (highest L)).filter fun i => !(L.map (·.index)).contains i

/-- The calls that give a fresh store the links `L`. -/
def rebuild (L : List Link) : List Call :=
  List.replicate (highest L) .create ++ ((gaps L).map .delete ++ L.map fun l => .update l.index l.source l.target)

/-- Make the calls one after the other; `none` unless all of them succeed. -/
def runAll {S : Type} (step : S → Call → Option (Out S _root_.Unit Nat)) : List Call → S → Option S
  | [], s => some s
  | k :: ks, s =>
    match step s k with
    | some ⟨.ok _, s', _⟩ => runAll step ks s'
    | _ => none

theorem runAll_append {S : Type} {step : S → Call → Option (Out S _root_.Unit Nat)} {ks ks' : List Call} {s s' : S}
    (h : runAll step ks s = some s') : runAll step (ks ++ ks') s = runAll step ks' s' := by
  induction ks generalizing s with
  | nil => cases h; rfl
  | cons k ks ih =>
    simp only [List.cons_append, runAll] at h ⊢
    split at h
    · exact ih h
    · cases h

theorem le_highest {L : List Link} {l : Link} (h : l ∈ L) : l.index ≤ highest L := by
  induction L with
  | nil => cases h
  | cons x L ih =>
    simp only [highest, List.foldr_cons]
    rcases List.mem_cons.1 h with rfl | h
    · exact Nat.le_max_left ..
    · exact Nat.le_trans (ih h) (Nat.le_max_right ..)

theorem highest_le {L : List Link} {n : Nat} (h : ∀ l ∈ L, l.index ≤ n) : highest L ≤ n := by
  induction L with
  | nil => exact Nat.zero_le _
  | cons x L ih =>
    simp only [highest, List.foldr_cons]
    exact Nat.max_le.2 ⟨h x (by simp), ih fun l hl => h l (by simp [hl])⟩

theorem mem_gaps {L : List Link} {i : Nat} : i ∈ gaps L ↔ 1 ≤ i ∧ i ≤ highest L ∧ ∀ l ∈ L, l.index ≠ i := by
  simp only [gaps, List.mem_filter, List.mem_range'_1, Bool.not_eq_true', List.contains_eq_mem, decide_eq_false_iff_not,
    List.mem_map, not_exists, not_and]
  constructor
  · rintro ⟨⟨h1, h2⟩, h3⟩; exact ⟨h1, by omega, fun l hl => h3 l hl⟩
  · rintro ⟨h1, h2, h3⟩; exact ⟨⟨h1, by omega⟩, fun l hl => h3 l hl⟩

theorem gaps_nodup (L : List Link) : (gaps L).Nodup := List.Pairwise.filter _ (List.nodup_range' (step := 1))

/-- What the calls of `rebuild` need of a store (`n` links created so far, all of them null pairs, in `Q n`; in `P` it is
somewhere among the deletions and the updates; `ok` are the ends a link may get). -/
structure Builds {S : Type} (step : S → Call → Option (Out S _root_.Unit Nat)) (view : S → View) (t : Nat)
    (ok : Nat → Nat → Prop) (Q : Nat → S → Prop) (P : S → Prop) : Prop where
  create : ∀ n s, Q n s → n < t → (∀ i p, view s i = some p → p = (0, 0)) → ∃ r s', step s .create = some ⟨.ok r, s', ()⟩ ∧
    Q (n + 1) s' ∧ view s' = (view s).set (n + 1) (0, 0)
  made : ∀ n s, Q n s → P s
  delete : ∀ s i, P s → i ≠ 0 → view s i = some (0, 0) → (∀ i p, view s i = some p → p = (0, 0)) → ∃ r s',
    step s (.delete i) = some ⟨.ok r, s', ()⟩ ∧ P s' ∧ view s' = (view s).del i
  update : ∀ s i a b, P s → view s i = some (0, 0) → ok a b → ∃ r s', step s (.update i a b) = some ⟨.ok r, s', ()⟩ ∧
    P s' ∧ view s' = (view s).set i (a, b)

section
variable {S : Type} {step : S → Call → Option (Out S _root_.Unit Nat)} {view : S → View} {t : Nat} {ok : Nat → Nat → Prop}
  {Q : Nat → S → Prop} {P : S → Prop}

theorem Builds.creates (B : Builds step view t ok Q P) : ∀ (k n : Nat) (s : S), Q n s → n + k ≤ t →
    (∀ i, view s i = if 1 ≤ i ∧ i ≤ n then some (0, 0) else none) → ∃ s', runAll step (List.replicate k .create) s = some s' ∧
      Q (n + k) s' ∧ ∀ i, view s' i = if 1 ≤ i ∧ i ≤ n + k then some (0, 0) else none := by
  intro k
  induction k with
  | zero => intro n s hq _ hv; exact ⟨s, rfl, hq, hv⟩
  | succ k ih =>
    intro n s hq hle hv
    obtain ⟨r, s1, h1, h2, h3⟩ := B.create n s hq (by omega) fun i p hp => by
      rw [hv] at hp; split at hp
      · cases hp; rfl
      · cases hp
    obtain ⟨s2, h4, h5, h6⟩ := ih (n + 1) s1 h2 (by omega) fun i => by
      rw [h3, View.set]
      split
      · rw [if_pos (by omega)]
      · rw [hv]; split
        · rw [if_pos (by omega)]
        · rw [if_neg (by omega)]
    refine ⟨s2, ?_, ?_, ?_⟩
    · rw [List.replicate_succ, runAll, h1]; exact h4
    · rw [show n + (k + 1) = n + 1 + k by omega]; exact h5
    · rw [show n + (k + 1) = n + 1 + k by omega]; exact h6

theorem Builds.deletes (B : Builds step view t ok Q P) : ∀ (D : List Nat) (s : S), P s → D.Nodup →
    (∀ i ∈ D, i ≠ 0 ∧ view s i = some (0, 0)) → (∀ i p, view s i = some p → p = (0, 0)) →
    ∃ s', runAll step (D.map .delete) s = some s' ∧ P s' ∧ ∀ i, view s' i = if i ∈ D then none else view s i := by
  intro D
  induction D with
  | nil => intro s hp _ _ _; exact ⟨s, rfl, hp, fun i => by simp⟩
  | cons d D ih =>
    intro s hp hn hD hz
    rw [List.nodup_cons] at hn
    obtain ⟨r, s1, h1, h2, h3⟩ := B.delete s d hp (hD d (by simp)).1 (hD d (by simp)).2 hz
    obtain ⟨s2, h4, h5, h6⟩ := ih s1 h2 hn.2 (fun i hi => by
        refine ⟨(hD i (by simp [hi])).1, ?_⟩
        rw [h3, View.del, if_neg (show i ≠ d from fun e => hn.1 (e ▸ hi))]
        exact (hD i (by simp [hi])).2) fun i p hp => by
      rw [h3, View.del] at hp
      split at hp
      · cases hp
      · exact hz i p hp
    refine ⟨s2, ?_, h5, fun i => ?_⟩
    · rw [List.map_cons, runAll, h1]; exact h4
    · rw [h6, h3, View.del]
      by_cases hi : i ∈ D
      · simp [hi]
      · by_cases hd : i = d
        · simp [hd]
        · simp [hi, hd]

theorem Builds.updates (B : Builds step view t ok Q P) : ∀ (L : List Link) (s : S), P s → (L.map (·.index)).Nodup →
    (∀ l ∈ L, view s l.index = some (0, 0) ∧ ok l.source l.target) →
    ∃ s', runAll step (L.map fun l => .update l.index l.source l.target) s = some s' ∧ P s' ∧
      (∀ l ∈ L, view s' l.index = some (l.source, l.target)) ∧ ∀ i, (∀ l ∈ L, l.index ≠ i) → view s' i = view s i := by
  intro L
  induction L with
  | nil => intro s hp _ _; exact ⟨s, rfl, hp, by simp, fun i _ => rfl⟩
  | cons x L ih =>
    intro s hp hn hL
    rw [List.map_cons, List.nodup_cons] at hn
    have hne : ∀ l ∈ L, l.index ≠ x.index := fun l hl e => hn.1 (e ▸ List.mem_map_of_mem hl)
    obtain ⟨r, s1, h1, h2, h3⟩ := B.update s x.index x.source x.target hp (hL x (by simp)).1 (hL x (by simp)).2
    obtain ⟨s2, h4, h5, h6, h7⟩ := ih s1 h2 hn.2 (fun l hl => by
        refine ⟨?_, (hL l (by simp [hl])).2⟩
        rw [h3, View.set, if_neg (hne l hl)]
        exact (hL l (by simp [hl])).1)
    refine ⟨s2, ?_, h5, fun l hl => ?_, fun i hi => ?_⟩
    · rw [List.map_cons, runAll, h1]; exact h4
    · rcases List.mem_cons.1 hl with rfl | hl
      · rw [h7 _ hne, h3, View.set, if_pos rfl]
      · exact h6 l hl
    · rw [h7 i fun l hl => hi l (by simp [hl]), h3, View.set, if_neg (fun e => hi x (by simp) e.symm)]

theorem Builds.rebuild (B : Builds step view (highest L) ok Q P) {s : S} (hs : Q 0 s) (hv : view s = View.empty)
    (hn : (L.map (·.index)).Nodup) (hL : ∀ l ∈ L, 1 ≤ l.index ∧ ok l.source l.target) :
    ∃ s', runAll step (rebuild L) s = some s' ∧ P s' ∧ ∀ l, (view s').Has l ↔ l ∈ L := by
  obtain ⟨s1, h1, h2, h3⟩ := B.creates (highest L) 0 s hs (by omega) fun i => by
    rw [hv, if_neg (by omega)]; rfl
  simp only [Nat.zero_add] at h2 h3
  obtain ⟨s2, h4, h5, h6⟩ := B.deletes (gaps L) s1 (B.made _ _ h2) (gaps_nodup L) (fun i hi => by
      obtain ⟨g1, g2, -⟩ := mem_gaps.1 hi
      exact ⟨by omega, by rw [h3, if_pos ⟨g1, g2⟩]⟩) (fun i p hp => by
      rw [h3] at hp; split at hp
      · cases hp; rfl
      · cases hp)
  obtain ⟨s3, h7, h8, h9, h10⟩ := B.updates L s2 h5 hn fun l hl => by
    refine ⟨?_, (hL l hl).2⟩
    rw [h6, if_neg (fun hg => (mem_gaps.1 hg).2.2 l hl rfl), h3, if_pos ⟨(hL l hl).1, le_highest hl⟩]
  refine ⟨s3, ?_, h8, fun l => ⟨fun hl => ?_, h9 l⟩⟩
  · rw [Verif.rebuild, runAll_append h1, runAll_append h4, h7]
  · by_cases hi : ∀ x ∈ L, x.index ≠ l.index
    · exfalso
      rw [View.Has, h10 _ hi, h6] at hl
      split at hl
      · cases hl
      · next hg =>
        rw [h3] at hl
        split at hl
        · next hr => exact hg (mem_gaps.2 ⟨hr.1, hr.2, hi⟩)
        · cases hl
    · simp only [Classical.not_forall, Classical.not_not] at hi
      obtain ⟨x, hx, he⟩ := hi
      have := h9 x hx
      rw [he, show view s3 l.index = some (l.source, l.target) from hl] at this
      cases x; cases l; simp_all
end

end Verif
