import Verif.Unit.Query
import Verif.SpecLemmas

/-! # The united store meets the contract of a store -/

namespace Verif.Unit
open Verif

variable {c : Cfg}

theorem nodup_of_count {L : List Link} (h : ∀ l ∈ L, L.count l ≤ 1) : L.Nodup := by
  rw [List.nodup_iff_count]
  intro l
  by_cases hl : l ∈ L
  · exact h l hl
  · rw [List.count_eq_zero.2 hl]; omega

theorem any_pos (hc : CfgOK c) : c.consts.any ≠ 0 := by have := hc.end_lt_any; omega

/-- The united store is lawful; creation needs the grown memory to be addressable in `T`. -/
def lawful (hc : CfgOK c) : Lawful (links c) where
  Inv := Good c
  CanCreate := CanGrow c
  CanUpdate _ _ _ _ := True
  CanDelete _ _ := True
  canDelete_del _ _ _ _ := trivial
  canDelete_uniq _ _ _ := trivial
  get := by
    intro s ⟨free, ts, tt, h⟩ i
    rw [view_eq hc h.toInv0]
    show getLink c s i = _
    rw [getLink_eq hc h.toInv0]
    by_cases hl : LiveIn s free i <;> simp [hl, Store.linkAt, Store.lk]
  null := by
    intro s ⟨free, ts, tt, h⟩
    rw [view_eq hc h.toInv0, if_neg]
    intro hl; have := hl.1; omega
  any_pos _ _ := any_pos hc
  any_absent := by
    intro s ⟨free, ts, tt, h⟩
    rw [view_eq hc h.toInv0, if_neg]
    intro (hl : LiveIn s free c.consts.any)
    have := hl.2.1; have := h.base.alloc_le; have := hc.end_lt_any; omega
  create := by
    intro s hs hg q
    rcases create_law hc hs hg q with h | ⟨i, s', h1, h2, h3, h4⟩
    · exact Or.inl h
    · exact Or.inr ⟨i, s', h1, h2, rfl, h3, h4⟩
  update_missing := by
    intro s ⟨free, ts, tt, h⟩ i hv x a b σ hd st
    rw [view_eq hc h.toInv0] at hv
    exact updateLinks_missing hc h.toInv0 (fun hl => by simp [hl] at hv) [] x a b [] hd st
  update := by
    intro s hs i p hv ht x a b _
    obtain ⟨s', h1, h2, h3⟩ := update_law hc hs hv ht x a b
    exact ⟨s', _, rfl, h1, rfl, h2, h3⟩
  delete_missing := by
    intro s ⟨free, ts, tt, h⟩ i hv σ hd st
    rw [view_eq hc h.toInv0] at hv
    exact deleteLinks_missing hc h.toInv0 (fun hl => by simp [hl] at hv) [] hd st
  delete := by
    intro s hs i p hv ht _
    obtain ⟨s', h1, h2, h3⟩ := delete_law hc hs hv ht
    exact ⟨s', h1, rfl, h2, h3⟩
  each_all := by
    intro s hs
    obtain ⟨L, h1, h2, h3, h4, _⟩ := query_law hc hs [] (by simp)
    have h4 := h4 (by intro hh; simp at hh) (by rintro ⟨x, y, he, _⟩; simp at he)
    refine ⟨L, h1, nodup_of_count fun l hl => ?_, fun l => ⟨fun hl => (h3 l hl).1, fun hl => ?_⟩⟩
    · rw [h4 l (h3 l hl).1]; simp [visitsOf]
    · have := h4 l hl
      exact List.count_pos_iff.1 (by rw [this]; simp [visitsOf])
  count_all := by
    intro s hs L hL
    obtain ⟨L', h1, h2, h3, h4, _, h6⟩ := query_law hc hs [] (by simp)
    have := h1.unique hL
    subst this
    have := h6 (by simp)
    have := hc.end_le
    show countLinks c s [] = _
    rw [h2, if_pos (by omega)]
  bounded := by
    intro s hs L hL
    obtain ⟨L', h1, h2, h3, h4, _, h6⟩ := query_law hc hs [] (by simp)
    have := h1.unique hL
    subst this
    have := h6 (by simp)
    have := hc.end_le
    show L'.length ≤ c.maxT
    omega
  each_index := by
    intro s hs i hi
    obtain ⟨L, h1, h2, h3, h4, _⟩ := query_law hc hs [i] (by simp)
    have hi : i ≠ c.consts.any := hi
    have h4 := h4 (by intro _; simp) (by rintro ⟨x, y, he, _⟩; simp at he)
    suffices L = (((links c).view s i).map fun p => (⟨i, p.1, p.2⟩ : Link)).toList by rw [← this]; exact h1
    have hmem : ∀ l ∈ L, (links c).view s i = some (l.source, l.target) ∧ l.index = i := by
      intro l hl
      have := h3 l hl
      have h5 := this.2.resolve_left hi
      have h6 := this.1
      unfold View.Has at h6
      rw [h5] at h6
      exact ⟨h6, h5⟩
    cases hv : (links c).view s i with
    | none =>
      cases L with
      | nil => rfl
      | cons l L => have := hmem l (by simp); rw [hv] at this; simp at this
    | some p =>
      have hh : ((links c).view s).Has ⟨i, p.1, p.2⟩ := hv
      have h5 := h4 _ hh
      have h6 : ∀ l ∈ L, l = ⟨i, p.1, p.2⟩ := by
        intro l hl
        have := hmem l hl
        rw [hv] at this
        rcases l with ⟨a, b, d⟩
        simp only [Option.some.injEq] at this
        rw [this.1, ← this.2]
      have h7 : L.length = 1 := by
        have := List.count_eq_length.2 fun l hl => (h6 l hl).symm
        rw [← this, h5]; simp [visitsOf]
      match L, h7 with
      | [l], _ => simp [h6 l (by simp)]
  count_index := by
    intro s ⟨free, ts, tt, h⟩ i hi
    have hi : i ≠ c.consts.any := hi
    show countLinks c s [i] = _
    rw [view_eq hc h.toInv0]
    simp only [countLinks, List.length_singleton, hc.index_eq, List.getElem?_cons_zero,
      Option.bind_some, hi, if_false, if_true, exists_eq hc h.toInv0, Option.map_some, Nat.one_ne_zero]
    by_cases hl : LiveIn s free i <;> simp [hl, oneIf]
  each_source := by
    intro s hs v hv hva
    obtain ⟨L, h1, h2, h3, h4, _⟩ := query_law hc hs [c.consts.any, v, c.consts.any] (by simp)
    have hva : v ≠ c.consts.any := hva
    have h4 := h4 (by intro _ x hx; simp at hx; rcases hx with rfl | rfl; exact hv; exact any_pos hc)
      (by rintro ⟨x, y, he, _, hy⟩; simp at he; exact hy he.2.symm)
    refine ⟨L, h1, nodup_of_count fun l hl => ?_, fun l => ⟨fun hl => ⟨(h3 l hl).1, ?_⟩, fun hl => ?_⟩⟩
    · rw [h4 l (h3 l hl).1]; simp only [visitsOf]; split <;> omega
    · exact (h3 l hl).2.2.1.resolve_left hva
    · have := h4 l hl.1
      exact List.count_pos_iff.1 (by rw [this]; simp [visitsOf, hl.2])
  each_target := by
    intro s hs v hv hva
    obtain ⟨L, h1, h2, h3, h4, _⟩ := query_law hc hs [c.consts.any, c.consts.any, v] (by simp)
    have hva : v ≠ c.consts.any := hva
    have h4 := h4 (by intro _ x hx; simp at hx; rcases hx with rfl | rfl; exact any_pos hc; exact hv)
      (by rintro ⟨x, y, he, hx, hy⟩; simp at he; exact hx he.1.symm)
    refine ⟨L, h1, nodup_of_count fun l hl => ?_, fun l => ⟨fun hl => ⟨(h3 l hl).1, ?_⟩, fun hl => ?_⟩⟩
    · rw [h4 l (h3 l hl).1]; simp only [visitsOf]; split <;> omega
    · exact (h3 l hl).2.2.2.resolve_left hva
    · have := h4 l hl.1
      exact List.count_pos_iff.1 (by rw [this]; simp [visitsOf, hl.2])
  each_pair := by
    intro s hs x y hx hxa hy hya
    obtain ⟨L, h1, h2, h3, _, h5, _⟩ := query_law hc hs [c.consts.any, x, y] (by simp)
    have hxa : x ≠ c.consts.any := hxa
    have hya : y ≠ c.consts.any := hya
    have h5 := h5 ⟨x, y, rfl, hxa, hya⟩
    refine ⟨L, h1, h5.1, fun l hl => ⟨(h3 l hl).1, (h3 l hl).2.2.1.resolve_left hxa,
      (h3 l hl).2.2.2.resolve_left hya⟩, ?_⟩
    rintro ⟨i, hi⟩
    refine h5.2 ?_ ⟨⟨i, x, y⟩, hi, Or.inl rfl, Or.inr rfl, Or.inr rfl⟩
    intro _ z hz
    simp at hz
    rcases hz with rfl | rfl <;> assumption
  count_pair := by
    intro s hs x y hx hxa hy hya
    obtain ⟨L, h1, h2, h3, _, h5, h6⟩ := query_law hc hs [c.consts.any, x, y] (by simp)
    have := hc.end_le
    have := h6 (by simp)
    refine ⟨L.length, h2.trans (if_pos (by omega)), ?_⟩
    rintro ⟨i, hi⟩ e
    refine (h5 ⟨x, y, rfl, hxa, hya⟩).2 ?_ ⟨⟨i, x, y⟩, hi, Or.inl rfl, Or.inr rfl, Or.inr rfl⟩
      (List.eq_nil_of_length_eq_zero e)
    intro _ z hz
    simp at hz
    rcases hz with rfl | rfl <;> assumption
  count_usages := by
    intro s hs v _ _
    obtain ⟨L, _, h2, _, _, _, h6⟩ := query_law hc hs [c.consts.any, v, c.consts.any] (by simp)
    obtain ⟨L', _, h2', _, _, _, h6'⟩ := query_law hc hs [c.consts.any, c.consts.any, v] (by simp)
    have := hc.end_le
    have := h6 (by simp)
    have := h6' (by simp)
    exact ⟨⟨_, h2.trans (if_pos (by omega))⟩, ⟨_, h2'.trans (if_pos (by omega))⟩⟩
  count_source := by
    intro s hs v _ L hL
    obtain ⟨L', h1, h2, _, _, _, h6⟩ := query_law hc hs [c.consts.any, v, c.consts.any] (by simp)
    have := h1.unique hL
    subst this
    have := hc.end_le
    have := h6 (by simp)
    exact h2.trans (if_pos (by omega))
  count_target := by
    intro s hs v _ L hL
    obtain ⟨L', h1, h2, _, _, _, h6⟩ := query_law hc hs [c.consts.any, c.consts.any, v] (by simp)
    have := h1.unique hL
    subst this
    have := hc.end_le
    have := h6 (by simp)
    exact h2.trans (if_pos (by omega))

end Verif.Unit
