import Verif.Split.Query
import Verif.Unit.Lawful
import Verif.DerivedLaws

/-! # The split store meets the contract of a store, with its guards -/

namespace Verif.Split
open Verif
open Verif.Unit (nodup_of_count oneIf)

variable {c : Cfg}

theorem any_pos (hc : CfgOK c) : c.consts.any ≠ 0 := by have := hc.end_lt_any; omega

theorem live_ne_zero (hc : CfgOK c) {s : Store} (h : Good c s) {v : Nat}
    (hl : ((links c).view s v).isSome) : v ≠ 0 := by
  obtain ⟨free, h⟩ := h
  rintro rfl
  have : LiveIn s free 0 := (view_ne_none hc h.toInv0).1 (by intro e; rw [e] at hl; cases hl)
  exact absurd this.1 (by omega)

/-- The split store is lawful. Creation needs both memories to grow together, within `T`, and an index that no
link refers to; an update must not give a source without a target, nor make a link with a source refer to
itself; a deletion needs the users of the link to have no duplicates. -/
def lawful (hc : CfgOK c) : Lawful (links c) where
  Inv := Good c
  CanCreate s := CanGrow c s ∧ NewUnused c s
  CanUpdate := CanUpdate
  CanDelete := CanDelete
  canDelete_del := by
    rintro v i k h j ⟨h1, a, b, h2, h3⟩
    unfold View.del at h2
    split at h2
    · cases h2
    · exact View.NoTwin.del (h j ⟨h1, a, b, h2, h3⟩) k
  canDelete_uniq v i h j _ := h j
  get := by
    intro s ⟨free, h⟩ i
    rw [view_eq hc h.toInv0]
    show getLink c s i = _
    rw [getLink_eq hc h.net h.exact]
    by_cases hl : LiveIn s free i <;> simp [hl, Store.linkAt]
  null := by
    intro s ⟨free, h⟩
    rw [view_eq hc h.toInv0, if_neg]
    intro hl; have := hl.1; omega
  any_pos _ _ := any_pos hc
  any_absent := by
    intro s ⟨free, h⟩
    rw [view_eq hc h.toInv0, if_neg]
    intro (hl : LiveIn s free c.consts.any)
    have := hl.2.1; have := h.base.alloc_le; have := hc.end_lt_any; omega
  create := by
    intro s hs hg q
    rcases create_law hc hs hg.1 hg.2 q with h | ⟨i, s', h1, h2, h3, h4⟩
    · exact Or.inl h
    · exact Or.inr ⟨i, s', h1, h2, rfl, h3, h4⟩
  update_missing := by
    intro s ⟨free, h⟩ i hv x a b σ hd st
    rw [view_eq hc h.toInv0] at hv
    exact updateLinks_missing hc h.toInv0 (fun hl => by simp [hl] at hv) [] x a b [] hd st
  update := by
    intro s hs i p hv ht x a b hu
    obtain ⟨s', h1, h2, h3⟩ := update_law hc hs hv ht x a b hu
    exact ⟨s', _, rfl, h1, rfl, h2, h3⟩
  delete_missing := by
    intro s ⟨free, h⟩ i hv σ hd st
    rw [view_eq hc h.toInv0] at hv
    exact deleteLinks_missing hc h.toInv0 (fun hl => by simp [hl] at hv) [] hd st
  delete := by
    intro s hs i p hv ht hu
    obtain ⟨s', h1, h2, h3⟩ := delete_law hc hs hv ht hu
    exact ⟨s', h1, rfl, h2, h3⟩
  each_all := by
    intro s hs
    obtain ⟨L, h1, h2, h3, h4, _⟩ := query_law hc hs [] (by simp) (by intro hh; simp at hh)
    have h4 := h4 (by rintro ⟨x, y, he, _⟩; simp at he)
    refine ⟨L, h1, nodup_of_count fun l hl => ?_, fun l => ⟨fun hl => (h3 l hl).1, fun hl => ?_⟩⟩
    · rw [h4 l (h3 l hl).1]; simp [visitsOf]
    · have := h4 l hl
      exact List.count_pos_iff.1 (by rw [this]; simp [visitsOf])
  count_all := by
    intro s hs L hL
    obtain ⟨L', h1, h2, h3, h4, _, h6⟩ := query_law hc hs [] (by simp) (by intro hh; simp at hh)
    have := h1.unique hL
    subst this
    have := h6 (by simp)
    have := hc.end_le
    show countLinks c s [] = _
    rw [h2 trivial, if_pos (by omega)]
  bounded := by
    intro s hs L hL
    obtain ⟨L', h1, h2, h3, h4, _, h6⟩ := query_law hc hs [] (by simp) (by intro hh; simp at hh)
    have := h1.unique hL
    subst this
    have := h6 (by simp)
    have := hc.end_le
    show L'.length ≤ c.maxT
    omega
  each_index := by
    intro s hs i hi
    obtain ⟨L, h1, h2, h3, h4, _⟩ := query_law hc hs [i] (by simp) (by intro _; simp)
    have hi : i ≠ c.consts.any := hi
    have h4 := h4 (by rintro ⟨x, y, he, _⟩; simp at he)
    suffices L = (((links c).view s i).map fun p => (⟨i, p.1, p.2⟩ : Link)).toList by rw [← this]; exact h1
    have hmem : ∀ l ∈ L, (links c).view s i = some (l.source, l.target) ∧ l.index = i := by
      intro l hl
      have := h3 l hl
      have h5 := this.2.resolve_left hi
      have h6 := this.1
      unfold View.Has at h6
      rw [h5] at h6
      exact ⟨h6, h5⟩
    cases hv : (links c).view s i with
    | none =>
      cases L with
      | nil => rfl
      | cons l L => have := hmem l (by simp); rw [hv] at this; simp at this
    | some p =>
      have hh : ((links c).view s).Has ⟨i, p.1, p.2⟩ := hv
      have h5 := h4 _ hh
      have h6 : ∀ l ∈ L, l = ⟨i, p.1, p.2⟩ := by
        intro l hl
        have := hmem l hl
        rw [hv] at this
        rcases l with ⟨a, b, d⟩
        simp only [Option.some.injEq] at this
        rw [this.1, ← this.2]
      have h7 : L.length = 1 := by
        have := List.count_eq_length.2 fun l hl => (h6 l hl).symm
        rw [← this, h5]; simp [visitsOf]
      match L, h7 with
      | [l], _ => simp [h6 l (by simp)]
  count_index := by
    intro s ⟨free, h⟩ i hi
    have hi : i ≠ c.consts.any := hi
    show countLinks c s [i] = _
    rw [view_eq hc h.toInv0]
    simp only [countLinks, List.length_singleton, hc.index_eq, List.getElem?_cons_zero,
      Option.bind_some, hi, if_false, if_true, exists_eq hc h.net h.exact, Option.map_some, Nat.one_ne_zero]
    by_cases hl : LiveIn s free i <;> simp [hl, oneIf]
  each_source := by
    intro s hs v hv hva
    obtain ⟨L, h1, h2, h3, h4, _⟩ := query_law hc hs [c.consts.any, v, c.consts.any] (by simp)
      (by intro _ x hx; simp at hx; rcases hx with rfl | rfl; exact hv; exact any_pos hc)
    have hva : v ≠ c.consts.any := hva
    have h4 := h4
      (by rintro ⟨x, y, he, _, hy⟩; simp at he; exact hy he.2.symm)
    refine ⟨L, h1, nodup_of_count fun l hl => ?_, fun l => ⟨fun hl => ⟨(h3 l hl).1, ?_⟩, fun hl => ?_⟩⟩
    · rw [h4 l (h3 l hl).1]; simp only [visitsOf]; split <;> omega
    · exact (h3 l hl).2.2.1.resolve_left hva
    · have := h4 l hl.1
      exact List.count_pos_iff.1 (by rw [this]; simp [visitsOf, hl.2])
  each_target := by
    intro s hs v hv hva
    obtain ⟨L, h1, h2, h3, h4, _⟩ := query_law hc hs [c.consts.any, c.consts.any, v] (by simp)
      (by intro _ x hx; simp at hx; rcases hx with rfl | rfl; exact any_pos hc; exact hv)
    have hva : v ≠ c.consts.any := hva
    have h4 := h4
      (by rintro ⟨x, y, he, hx, hy⟩; simp at he; exact hx he.1.symm)
    refine ⟨L, h1, nodup_of_count fun l hl => ?_, fun l => ⟨fun hl => ⟨(h3 l hl).1, ?_⟩, fun hl => ?_⟩⟩
    · rw [h4 l (h3 l hl).1]; simp only [visitsOf]; split <;> omega
    · exact (h3 l hl).2.2.2.resolve_left hva
    · have := h4 l hl.1
      exact List.count_pos_iff.1 (by rw [this]; simp [visitsOf, hl.2])
  each_pair := by
    intro s hs x y hx hxa hy hya
    obtain ⟨L, h1, h2, h3, _, h5, _⟩ := query_law hc hs [c.consts.any, x, y] (by simp)
      (by intro _ z hz; simp at hz; rcases hz with rfl | rfl <;> assumption)
    have hxa : x ≠ c.consts.any := hxa
    have hya : y ≠ c.consts.any := hya
    have h5 := h5 ⟨x, y, rfl, hxa, hya⟩
    refine ⟨L, h1, h5.1, fun l hl => ⟨(h3 l hl).1, (h3 l hl).2.2.1.resolve_left hxa,
      (h3 l hl).2.2.2.resolve_left hya⟩, ?_⟩
    rintro ⟨i, hi⟩
    exact h5.2 ⟨⟨i, x, y⟩, hi, Or.inl rfl, Or.inr rfl, Or.inr rfl⟩
  count_pair := by
    intro s hs x y hx hxa hy hya
    have hxa : x ≠ c.consts.any := hxa
    have hya : y ≠ c.consts.any := hya
    by_cases hv : (links c).view s x = none
    · obtain ⟨free, h⟩ := hs
      have hl : ¬ LiveIn s free x := fun hl => (view_ne_none hc h.toInv0).2 hl hv
      obtain ⟨L, -, g2, -, ⟨n, g3, -⟩, g4⟩ := side_usages hc h .src hx hxa
      obtain ⟨b1, hb1⟩ := isUnused_some h.base y
      obtain ⟨b2, hb2⟩ := isUnused_some h.base c.consts.any
      have hun := h.net.unused hx (h.exact x)
      have e : countLinks c s [c.consts.any, x, y] = countLinks c s (sideQuery c .src x) := by
        simp [sideQuery, countLinks, count3, hc.index_eq, hc.source_eq, hc.target_eq, hun, hb1, hb2, hl, hxa]
      refine ⟨n, e.trans g3, ?_⟩
      rintro ⟨i, hi⟩ rfl
      rw [g2 (.inr (.inr (.inl ⟨i, x, y, hi, hx, hv⟩)))] at g3
      have := List.eq_nil_of_length_eq_zero (Option.some.inj g3)
      subst this
      obtain ⟨q1, q2⟩ := live_of_view hc h.toInv0 hi
      exact absurd ((g4 i).2 ⟨q1, by rw [q2]; rfl⟩) (by simp)
    · obtain ⟨L, h1, h2, h3, _, h5, h6⟩ := query_law hc hs [c.consts.any, x, y] (by simp)
        (by intro _ z hz; simp at hz; rcases hz with rfl | rfl <;> assumption)
      have := hc.end_le
      have := h6 (by simp)
      refine ⟨L.length, (h2 fun _ _ => .inl hv).trans (if_pos (by omega)), ?_⟩
      rintro ⟨i, hi⟩ e
      exact (h5 ⟨x, y, rfl, hxa, hya⟩).2 ⟨⟨i, x, y⟩, hi, Or.inl rfl, Or.inr rfl, Or.inr rfl⟩
        (List.eq_nil_of_length_eq_zero e)
  count_usages := by
    intro s ⟨free, h⟩ v hv hva
    obtain ⟨_, _, _, _, ⟨n, h1, _⟩, _⟩ := side_usages hc h .src hv hva
    obtain ⟨_, _, _, _, ⟨m, h2, _⟩, _⟩ := side_usages hc h .tgt hv hva
    exact ⟨⟨n, h1⟩, ⟨m, h2⟩⟩
  count_source := by
    intro s hs v hl L hL
    have hv := live_ne_zero hc hs hl
    obtain ⟨L', h1, h2, _, _, _, h6⟩ := query_law hc hs [c.consts.any, v, c.consts.any] (by simp)
      (by intro _ x hx; simp at hx; rcases hx with rfl | rfl; exact hv; exact any_pos hc)
    have := h1.unique hL
    subst this
    have := hc.end_le
    have := h6 (by simp)
    exact (h2 fun _ _ => .inl (by intro e; rw [e] at hl; cases hl)).trans (if_pos (by omega))
  count_target := by
    intro s hs v hl L hL
    have hv := live_ne_zero hc hs hl
    obtain ⟨L', h1, h2, _, _, _, h6⟩ := query_law hc hs [c.consts.any, c.consts.any, v] (by simp)
      (by intro _ x hx; simp at hx; rcases hx with rfl | rfl; exact any_pos hc; exact hv)
    have := h1.unique hL
    subst this
    have := hc.end_le
    have := h6 (by simp)
    exact (h2 fun _ hh => absurd rfl hh).trans (if_pos (by omega))

end Verif.Split
