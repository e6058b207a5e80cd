import Verif.Unit.History

/-!
# Outcomes of a creation on a united store (helper lemmas)
-/

namespace Verif.Unit
open Verif

variable {c : Cfg}

/-- The creation took free index `x`, or extended the store, or failed. -/
theorem create_cases (hc : CfgOK c) {s : Store} {free : List Nat} {ts tt : Tree}
    (hi : Inv c s free ts tt) (q : List Nat) :
    (∃ x rest s', free = x :: rest ∧ x ≠ 0 ∧ x < s.hdr.allocated ∧ Inv c s' rest ts tt ∧
      s'.hdr.allocated = s.hdr.allocated ∧
      Links.Succeeds (fun _ hd st => createLinks c s q hd st) s' Link.nothing ⟨x, 0, 0⟩ ∧
      (links c).view s x = none ∧ (links c).view s' = ((links c).view s).set x (0, 0)) ∨
    (free = [] ∧ c.consts.internalEnd ≤ s.hdr.allocated ∧
      Links.Fails (fun _ hd st => createLinks c s q hd st) s (.limitReached c.consts.internalEnd)) ∨
    (free = [] ∧ s.hdr.allocated < c.consts.internalEnd ∧ c.alloc s.len (s.len + c.step) = none ∧
      Links.Fails (fun _ hd st => createLinks c s q hd st) s .allocFailed) ∨
    (free = [] ∧ s.hdr.allocated < c.consts.internalEnd ∧
      (∃ n, c.alloc s.len (s.len + c.step) = some n ∧ c.maxT < n) ∧
      ∀ σ (hd : WH σ) st, createLinks c s q hd st = none) ∨
    (free = [] ∧ s.hdr.allocated < c.consts.internalEnd ∧ ∃ s', Inv c s' [] ts tt ∧
      s'.hdr.allocated = s.hdr.allocated + 1 ∧
      Links.Succeeds (fun _ hd st => createLinks c s q hd st) s' Link.nothing ⟨s.hdr.allocated + 1, 0, 0⟩ ∧
      (links c).view s (s.hdr.allocated + 1) = none ∧
      (links c).view s' = ((links c).view s).set (s.hdr.allocated + 1) (0, 0)) := by
  have hu := createLinks_uniform c s q
  rcases createLinks_ok hc hi q recH none with ⟨x, rest, s', hf, h1, h2, h3, h4, h5, h6⟩ |
    ⟨hf, h1, h2⟩ | ⟨hf, h1, h2, h3, h4⟩ | ⟨hf, h1, h2, n, h3, h4, h5⟩ | ⟨hf, h1, s', h2, h3, h4, h5, h6⟩
  · have hn := hi.base.list.nodup
    rw [hf, List.nodup_cons] at hn
    have hx0 := hi.base.list.nonzero x (by simp [hf])
    have hxlt := hi.free_lt x (by simp [hf])
    refine .inl ⟨x, rest, s', hf, hx0, hxlt, h2, h3, hu.succeeds h1, ?_, ?_⟩
    · rw [view_eq hc hi.toInv0, if_neg fun hl => hl.2.2 (by simp [hf])]
    funext k
    rw [View.set, view_eq hc h2.toInv0, view_eq hc hi.toInv0]
    by_cases hk : k = x
    · subst hk
      rw [if_pos rfl, if_pos ⟨by omega, by omega, hn.1⟩, h5]
    · rw [if_neg hk]
      by_cases hl : LiveIn s free k
      · rw [if_pos hl, if_pos ⟨hl.1, by rw [h3]; exact hl.2.1, fun hm => hl.2.2 (by simp [hf, hm])⟩,
          h6 k hl.2.2]
      · rw [if_neg hl, if_neg]
        intro hl'
        exact hl ⟨hl'.1, by rw [← h3]; exact hl'.2.1, by rw [hf]; simp [hk, hl'.2.2]⟩
  · exact .inr (.inl ⟨hf, h1, hu.fails h2⟩)
  · exact .inr (.inr (.inl ⟨hf, h1, h3, hu.fails h4⟩))
  · exact .inr (.inr (.inr (.inl ⟨hf, h1, ⟨n, h3, h4⟩, hu.noneAll h5⟩)))
  · refine .inr (.inr (.inr (.inr ⟨hf, h1, s', h3, h4, hu.succeeds h2, ?_, ?_⟩)))
    · rw [view_eq hc hi.toInv0, if_neg fun hl => by have := hl.2.1; omega]
    funext k
    rw [View.set, view_eq hc h3.toInv0, view_eq hc hi.toInv0, hf]
    by_cases hk : k = s.hdr.allocated + 1
    · subst hk
      rw [if_pos rfl, if_pos ⟨by omega, by omega, by simp⟩, h5]
    · rw [if_neg hk, h6]
      have : LiveIn s' [] k ↔ LiveIn s [] k := by
        simp only [LiveIn, h4, List.not_mem_nil, not_false_eq_true, and_true]
        omega
      simp only [this]

theorem create_none {s : Store}
    (h : ∀ σ (hd : WH σ) st, createLinks c s [] hd st = none) : (links c).create s = none := by
  show ((createLinks c s [] _ _).map _).map _ = none
  rw [h]; rfl

theorem createWith_none {s : Store} {σ ρ : Type} {hd : σ → Link → Link → Ctl ρ × σ} {st : σ}
    (h : ∀ σ (hd : WH σ) st, createLinks c s [] hd st = none) : (links c).createWith s hd st = none := by
  show (createLinks c s [] _ _).map _ = none
  rw [h]; rfl

/-- A deletion: what happens to the index allocation. -/
theorem delete_cases (hc : CfgOK c) {s : Store} {free : List Nat} {ts tt : Tree}
    (hi : Inv c s free ts tt) {i : Nat} {p : Nat × Nat} (hv : (links c).view s i = some p)
    (ht : ((links c).view s).NoTwin i) :
    ∃ s' free' ts' tt', Inv c s' free' ts' tt' ∧ (links c).view s' = ((links c).view s).del i ∧
      Links.Succeeds (fun _ hd st => deleteLinks c s [i] hd st) s' ⟨i, p.1, p.2⟩ Link.nothing ∧
      (i < s.hdr.allocated → free' = i :: free ∧ s'.hdr.allocated = s.hdr.allocated) := by
  have hl : LiveIn s free i := by
    by_cases hl : LiveIn s free i
    · exact hl
    · rw [view_eq hc hi.toInv0, if_neg hl] at hv; cases hv
  obtain ⟨s', free', ts', tt', h1, h2, h3, h4, h5, h6, h7⟩ :=
    deleteLinks_ok hc hi hl (noTwinIn hc hi.toInv0 hl ht) [] recH none
  have hp : s.linkAt i = ⟨i, p.1, p.2⟩ := by
    rw [view_eq hc hi.toInv0, if_pos hl] at hv
    cases hv; rfl
  rw [hp] at h1
  refine ⟨s', free', ts', tt', h2, ?_, (deleteLinks_uniform c s [i]).succeeds h1, h3⟩
  funext k
  rw [View.del, view_eq hc h2.toInv0, view_eq hc hi.toInv0]
  by_cases hk : k = i
  · subst hk
    rw [if_pos rfl, if_neg]
    intro hl2; exact ((h6 k).1 hl2).2 rfl
  · rw [if_neg hk]
    by_cases hlk : LiveIn s free k
    · rw [if_pos hlk, if_pos ((h6 k).2 ⟨hlk, hk⟩), h7 k hlk hk]
    · rw [if_neg hlk, if_neg fun hl' => hlk ((h6 k).1 hl').1]

end Verif.Unit
