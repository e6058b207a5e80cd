import Verif.Unit.Instance

/-!
# Queries on the united store: what a traversal visits and what a count returns (helper lemmas)
-/

namespace Verif

/-- How many times a link is visited by a query: once if it matches, except that the two-part
query `[any, x]` visits it once for each end equal to `x`. -/
def visitsOf (any : Nat) (q : List Nat) (l : Link) : Nat :=
  match q with
  | [] => 1
  | [i] => if i = any ∨ l.index = i then 1 else 0
  | [i, x] =>
    if x = any then (if i = any ∨ l.index = i then 1 else 0)
    else if i = any then (if l.source = x then 1 else 0) + (if l.target = x then 1 else 0)
    else if l.index = i ∧ (l.source = x ∨ l.target = x) then 1 else 0
  | [i, x, y] =>
    if (i = any ∨ l.index = i) ∧ (x = any ∨ l.source = x) ∧ (y = any ∨ l.target = y) then 1 else 0
  | _ => 0

/-- A query over all links does not ask for null sources or targets (null ends are in no index). -/
def NullFree (any : Nat) (q : List Nat) : Prop := q.head? = some any → ∀ x ∈ q.tail, x ≠ 0

/-- The query asks for a source and a target over all links. -/
def IsPair (any : Nat) (q : List Nat) : Prop := ∃ x y, q = [any, x, y] ∧ x ≠ any ∧ y ≠ any

end Verif

namespace Verif.Unit
open Verif

variable {c : Cfg}

theorem count_linkAt (s : Store) {L : List Nat} (hn : L.Nodup) (l : Link) :
    (L.map s.linkAt).count l = if l.index ∈ L ∧ l = s.linkAt l.index then 1 else 0 := by
  have hinj : (L.map s.linkAt).Nodup := by
    refine List.pairwise_map.2 (hn.imp fun {a b} hab he => hab ?_)
    exact congrArg Link.index he
  rw [hinj.count]
  congr 1
  rw [List.mem_map, eq_iff_iff]
  constructor
  · rintro ⟨i, hi, rfl⟩; exact ⟨hi, rfl⟩
  · rintro ⟨h1, h2⟩; exact ⟨_, h1, h2.symm⟩

theorem linkAt_unique {s : Store} {i : Nat} {l : Link} (h : l.index = i) :
    l = s.linkAt l.index ↔ s.linkAt i = l := by rw [h]; exact ⟨Eq.symm, Eq.symm⟩

/-- Traversal and count for any query of at most three parts. -/
theorem query_law (hc : CfgOK c) {s : Store} (h : Good c s) (q : List Nat) (hq : q.length ≤ 3) :
    ∃ L : List Link, (links c).Visits s q L ∧
      countLinks c s q = (if L.length ≤ c.maxT then some L.length else none) ∧
      (∀ l ∈ L, ((links c).view s).Has l ∧ MatchQ c.consts.any q l) ∧
      (NullFree c.consts.any q → ¬ IsPair c.consts.any q → ∀ l, ((links c).view s).Has l →
        L.count l = visitsOf c.consts.any q l) ∧
      (IsPair c.consts.any q → L.length ≤ 1 ∧ (NullFree c.consts.any q →
        (∃ l, ((links c).view s).Has l ∧ MatchQ c.consts.any q l) → L ≠ [])) ∧
      (q.length ≠ 2 → L.length ≤ c.consts.internalEnd) := by
  obtain ⟨free, ts, tt, h⟩ := h
  have h0 := h.toInv0
  have hend := hc.end_le
  have hal := h.base.alloc_le
  have hlen : ∀ {L : List Nat}, L.Nodup → (∀ k ∈ L, LiveIn s free k) → L.length ≤ c.consts.internalEnd :=
    fun hn hl => Nat.le_trans (length_le_of_nodup_le _ _ hn fun k hk => ⟨(hl k hk).1, (hl k hk).2.1⟩) hal
  -- everything
  have hall : (liveList s free).length ≤ c.consts.internalEnd :=
    hlen (nodup_liveList s free) fun k hk => mem_liveList.1 hk
  have hallc : getTotal s = if (liveList s free).length ≤ c.maxT then some (liveList s free).length
      else none := by rw [getTotal_eq h0, if_pos (by omega)]
  have hcount_all : ∀ l, ((links c).view s).Has l → ((liveList s free).map s.linkAt).count l = 1 := by
    intro l hl
    have := (has_iff hc h0 l).1 hl
    rw [count_linkAt s (nodup_liveList s free), if_pos ⟨mem_liveList.2 this.1, this.2⟩]
  have hmem_all : ∀ l ∈ (liveList s free).map s.linkAt, ((links c).view s).Has l := by
    intro l hl
    obtain ⟨k, hk, rfl⟩ := List.mem_map.1 hl
    exact (has_iff hc h0 _).2 ⟨mem_liveList.1 hk, rfl⟩
  have hone : 1 ≤ c.consts.internalEnd ∨ ∀ i, ¬ LiveIn s free i := by
    by_cases h1 : 1 ≤ c.consts.internalEnd
    · exact Or.inl h1
    · refine Or.inr fun i hi => ?_
      have := hi.1; have := hi.2.1; omega
  -- one index
  have hidx : ∀ (i : Nat) (b : Bool),
      let L := if LiveIn s free i ∧ b = true then [s.linkAt i] else []
      (∀ l ∈ L, ((links c).view s).Has l ∧ l = s.linkAt i ∧ b = true) ∧
      (∀ l, ((links c).view s).Has l → L.count l = if l.index = i ∧ b = true then 1 else 0) ∧
      L.length ≤ c.consts.internalEnd ∧ L.length ≤ 1 := by
    intro i b L
    by_cases hi : LiveIn s free i ∧ b = true
    · have hL : L = [s.linkAt i] := if_pos hi
      rw [hL]
      refine ⟨?_, ?_, ?_, by simp⟩
      · intro l hl
        rw [List.mem_singleton.1 hl]
        exact ⟨(has_iff hc h0 _).2 ⟨hi.1, rfl⟩, rfl, hi.2⟩
      · intro l hl
        have := ((has_iff hc h0 l).1 hl).2
        rw [List.count_singleton]
        by_cases hli : l.index = i
        · rw [hli] at this; simp [this, Store.linkAt, hi.2]
        · have : (s.linkAt i == l) = false := by
            simp only [beq_eq_false_iff_ne]; intro e; exact hli (by rw [← e]; rfl)
          simp [this, hli]
      · rcases hone with h1 | h1
        · simpa using h1
        · exact absurd hi.1 (h1 i)
    · have hL : L = [] := if_neg hi
      rw [hL]
      refine ⟨by simp, ?_, by simp, by simp⟩
      intro l hl
      have h1 := ((has_iff hc h0 l).1 hl).1
      rw [if_neg]
      · rfl
      · rintro ⟨rfl, hb⟩; exact hi ⟨h1, hb⟩
  -- by source, by target
  have hside : ∀ (L : List Nat) (P : Nat → Prop), L.Nodup → (∀ k, k ∈ L ↔ LiveIn s free k ∧ P k) →
      (∀ l ∈ L.map s.linkAt, ((links c).view s).Has l ∧ P l.index ∧ l = s.linkAt l.index) ∧
      (∀ [DecidablePred P] l, ((links c).view s).Has l →
        (L.map s.linkAt).count l = if P l.index then 1 else 0) ∧
      (L.map s.linkAt).length ≤ c.consts.internalEnd := by
    intro L P hn hP
    refine ⟨?_, ?_, ?_⟩
    · intro l hl
      obtain ⟨k, hk, rfl⟩ := List.mem_map.1 hl
      have := (hP k).1 hk
      exact ⟨(has_iff hc h0 _).2 ⟨this.1, rfl⟩, this.2, rfl⟩
    · intro _ l hl
      have := (has_iff hc h0 l).1 hl
      rw [count_linkAt s hn]
      by_cases hp : P l.index
      · rw [if_pos hp, if_pos ⟨(hP _).2 ⟨this.1, hp⟩, this.2⟩]
      · rw [if_neg hp, if_neg fun hh => hp ((hP _).1 hh.1).2]
    · rw [List.length_map]
      exact hlen hn fun k hk => ((hP k).1 hk).1
  have hget := getLink_eq hc h0
  have hex := exists_eq hc h0
  have hunc := fun {i} (hi : LiveIn s free i) => getLinkUnchecked_eq h0 hi
  have hsrc := src_usages hc h0
  have htgt := tgt_usages hc h0
  have hie := hc.index_eq
  have hse := hc.source_eq
  have hte := hc.target_eq
  have hnoany : ¬ LiveIn s free c.consts.any := fun hl => by
    have := hl.2.1; have := hc.end_lt_any; omega
  -- three parts
  match q, hq with
  | [], _ =>
    refine ⟨(liveList s free).map s.linkAt, ?_, ?_, fun l hl => ⟨hmem_all l hl, trivial⟩, ?_, ?_, ?_⟩
    · intro σ hd st; exact eachAll_eq hc h0 hd st
    · simpa [countLinks] using hallc
    · intro _ _ l hl; rw [hcount_all l hl]; rfl
    · rintro ⟨x, y, he, _⟩; simp at he
    · intro _; simpa using hall
  | [i], _ =>
    by_cases hi : i = c.consts.any
    · refine ⟨(liveList s free).map s.linkAt, ?_, ?_, fun l hl => ⟨hmem_all l hl, Or.inl hi⟩, ?_, ?_, ?_⟩
      · intro σ hd st
        rw [← eachAll_eq hc h0 hd st]
        simp [links, eachLinks, hie, hi]
      · simpa [countLinks, hie, hi] using hallc
      · intro _ _ l hl; rw [hcount_all l hl]; simp [visitsOf, hi]
      · rintro ⟨x, y, he, _⟩; simp at he
      · intro _; simpa using hall
    · obtain ⟨k1, k2, k3, k4⟩ := hidx i true
      refine ⟨_, ?_, ?_, fun l hl => ⟨(k1 l hl).1, Or.inr (by rw [(k1 l hl).2.1]; rfl)⟩, ?_, ?_,
        fun _ => k3⟩
      · intro σ hd st
        simp only [links, eachLinks, List.length_singleton, hie, List.getElem?_cons_zero,
          Option.bind_some, hi, if_false, if_true, hget, Option.map_some, Nat.one_ne_zero, and_true]
        by_cases hl : LiveIn s free i
        · simp only [hl, if_true, runH]
          rcases hd st (s.linkAt i) with ⟨_ | _, st'⟩ <;> rfl
        · simp [hl, runH]
      · rw [if_pos (by omega)]
        simp only [countLinks, List.length_singleton, hie, List.getElem?_cons_zero,
          Option.bind_some, hi, if_false, if_true, hex, Option.map_some, Nat.one_ne_zero, and_true]
        by_cases hl : LiveIn s free i <;> simp [hl, oneIf]
      · intro _ _ l hl; rw [k2 l hl]; simp [visitsOf, hi]
      · rintro ⟨x, y, he, _⟩; simp at he
  | [i, x], _ =>
    by_cases hi : i = c.consts.any
    · by_cases hx : x = c.consts.any
      · refine ⟨(liveList s free).map s.linkAt, ?_, ?_,
          fun l hl => ⟨hmem_all l hl, Or.inl hi, Or.inl hx⟩, ?_, ?_, fun hh => absurd rfl hh⟩
        · intro σ hd st
          rw [← eachAll_eq hc h0 hd st]
          simp [links, eachLinks, hie, hi, hx]
        · simpa [countLinks, hie, hi, hx] using hallc
        · intro _ _ l hl; rw [hcount_all l hl]; simp [visitsOf, hi, hx]
        · rintro ⟨x, y, he, _⟩; simp at he
      · obtain ⟨L1, a1, a2, a3, a4⟩ := hsrc x
        obtain ⟨L2, b1, b2, b3, b4⟩ := htgt x
        obtain ⟨d1, d2, d3⟩ := hside L1 _ a3 a4
        obtain ⟨e1, e2, e3⟩ := hside L2 _ b3 b4
        refine ⟨L1.map s.linkAt ++ L2.map s.linkAt, ?_, ?_, ?_, ?_, ?_, fun hh => absurd rfl hh⟩
        · intro σ hd st
          rw [runH_append, ← a1]
          simp only [← b1]
          simp [links, eachLinks, hie, hi, hx, each3]
        · simp [countLinks, hie, hi, hx, a2, b2, cadd, Nat.add_comm]
        · intro l hl
          rcases List.mem_append.1 hl with hl | hl
          · have := d1 l hl
            refine ⟨this.1, Or.inl hi, Or.inr (Or.inl ?_)⟩
            rw [this.2.2]; exact this.2.1.2
          · have := e1 l hl
            refine ⟨this.1, Or.inl hi, Or.inr (Or.inr ?_)⟩
            rw [this.2.2]; exact this.2.1.2
        · intro hnf _ l hl
          have hx0 : x ≠ 0 := hnf (by simp [hi]) x (by simp)
          have hl2 := ((has_iff hc h0 l).1 hl).2
          rw [List.count_append, d2 l hl, e2 l hl]
          have es : (s.cell l.index).source = l.source := by rw [hl2]; rfl
          have et : (s.cell l.index).target = l.target := by rw [hl2]; rfl
          simp [visitsOf, hi, hx, hx0, es, et]
        · rintro ⟨x, y, he, _⟩; simp at he
    · obtain ⟨k1, k2, k3, k4⟩ := hidx i
        (decide (x = c.consts.any ∨ (s.cell i).source = x ∨ (s.cell i).target = x))
      refine ⟨if LiveIn s free i ∧ decide (x = c.consts.any ∨ (s.cell i).source = x ∨
        (s.cell i).target = x) = true then [s.linkAt i] else [], ?_, ?_, ?_, ?_, ?_, fun hh => absurd rfl hh⟩
      rotate_left 2
      · intro l hl
        have := k1 l hl
        refine ⟨this.1, Or.inr (by rw [this.2.1]; rfl), ?_⟩
        rw [this.2.1]; exact of_decide_eq_true this.2.2
      · intro _ _ l hl
        rw [k2 l hl]
        have hl2 := ((has_iff hc h0 l).1 hl).2
        by_cases hli : l.index = i
        · have es : (s.cell i).source = l.source := by rw [hl2, hli]; rfl
          have et : (s.cell i).target = l.target := by rw [hl2, hli]; rfl
          simp only [visitsOf, hli, es, et, hi, true_and, false_or, if_false]
          by_cases hx : x = c.consts.any <;> simp [hx]
        · simp [visitsOf, hli, hi]
      · rintro ⟨x, y, he, _⟩; simp at he
      · intro σ hd st
        have hcase : (links c).eachLinks s [i, x] hd st = some (if LiveIn s free i ∧
            (x = c.consts.any ∨ (s.cell i).source = x ∨ (s.cell i).target = x)
              then hd st (s.linkAt i) else (.cont, st)) := by
          by_cases hl : LiveIn s free i
          · simp [links, eachLinks, hie, hi, hget, hl, callIf, Store.linkAt]
          · simp [links, eachLinks, hie, hi, hget, hl]
        rw [hcase]
        simp only [decide_eq_true_eq]
        split
        · simp only [runH]
          rcases hd st (s.linkAt i) with ⟨_ | _, st'⟩ <;> rfl
        · rfl
      · rw [if_pos (by omega)]
        have hcase : countLinks c s [i, x] = some (if LiveIn s free i ∧
            (x = c.consts.any ∨ (s.cell i).source = x ∨ (s.cell i).target = x) then 1 else 0) := by
          by_cases hl : LiveIn s free i
          · by_cases hx : x = c.consts.any
            · simp [countLinks, hie, hi, hex, hl, hx]
            · simp [countLinks, hie, hi, hex, hget, hl, hx, oneIf, Store.linkAt]
          · simp [countLinks, hie, hi, hex, hl]
        rw [hcase]
        simp only [decide_eq_true_eq]
        split <;> rfl
  | [i, x, y], _ =>
    have hE : ∀ (σ : Type) (hd : RH σ) (st : σ),
        (links c).eachLinks s [i, x, y] hd st = each3 c s i x y hd st := by
      intro σ hd st; simp [links, eachLinks, hie, hse, hte]
    have hC : countLinks c s [i, x, y] = count3 c s i x y := by
      simp [countLinks, hie, hse, hte]
    by_cases hi : i = c.consts.any
    · by_cases hx : x = c.consts.any
      · by_cases hy : y = c.consts.any
        · refine ⟨(liveList s free).map s.linkAt, ?_, ?_,
            fun l hl => ⟨hmem_all l hl, Or.inl hi, Or.inl hx, Or.inl hy⟩, ?_, ?_, ?_⟩
          · intro σ hd st
            rw [hE, ← eachAll_eq hc h0 hd st]
            simp [each3, hi, hx, hy]
          · rw [hC]; simpa [count3, hi, hx, hy] using hallc
          · intro _ _ l hl; rw [hcount_all l hl]; simp [visitsOf, hi, hx, hy]
          · rintro ⟨x', y', he, h1, h2⟩; simp at he; omega
          · intro _; simpa using hall
        · obtain ⟨L, a1, a2, a3, a4⟩ := htgt y
          obtain ⟨d1, d2, d3⟩ := hside L _ a3 a4
          refine ⟨L.map s.linkAt, ?_, ?_, ?_, ?_, ?_, fun _ => d3⟩
          · intro σ hd st
            rw [hE, ← a1]
            simp [each3, hi, hx, hy]
          · rw [hC, if_pos (by omega)]; simp [count3, hi, hx, hy, a2]
          · intro l hl
            have := d1 l hl
            refine ⟨this.1, Or.inl hi, Or.inl hx, Or.inr ?_⟩
            rw [this.2.2]; exact this.2.1.2
          · intro hnf _ l hl
            have hy0 : y ≠ 0 := hnf (by simp [hi]) y (by simp)
            have hl2 := ((has_iff hc h0 l).1 hl).2
            have et : (s.cell l.index).target = l.target := by rw [hl2]; rfl
            rw [d2 l hl]
            simp [visitsOf, hi, hx, hy, hy0, et]
          · rintro ⟨x', y', he, h1, h2⟩; simp at he; omega
      · by_cases hy : y = c.consts.any
        · obtain ⟨L, a1, a2, a3, a4⟩ := hsrc x
          obtain ⟨d1, d2, d3⟩ := hside L _ a3 a4
          refine ⟨L.map s.linkAt, ?_, ?_, ?_, ?_, ?_, fun _ => d3⟩
          · intro σ hd st
            rw [hE, ← a1]
            simp [each3, hi, hx, hy]
          · rw [hC, if_pos (by omega)]; simp [count3, hi, hx, hy, a2]
          · intro l hl
            have := d1 l hl
            refine ⟨this.1, Or.inl hi, Or.inr ?_, Or.inl hy⟩
            rw [this.2.2]; exact this.2.1.2
          · intro hnf _ l hl
            have hx0 : x ≠ 0 := hnf (by simp [hi]) x (by simp)
            have hl2 := ((has_iff hc h0 l).1 hl).2
            have es : (s.cell l.index).source = l.source := by rw [hl2]; rfl
            rw [d2 l hl]
            simp [visitsOf, hi, hx, hy, hx0, es]
          · rintro ⟨x', y', he, h1, h2⟩; simp at he; omega
        · obtain ⟨k, e1, e2⟩ := srcSearch_ok h0 x y
          rcases e2 with ⟨rfl, e3⟩ | ⟨e2, e3, e4, e5⟩
          · refine ⟨[], ?_, ?_, by simp, ?_, ?_, by simp⟩
            · intro σ hd st
              have h00 : ¬ LiveIn s free 0 := fun hl => by have := hl.1; omega
              rw [hE]; simp [each3, hi, hx, hy, e1, hget, h00, runH]
            · rw [hC]; simp [count3, hi, hx, hy, e1, hc.null_eq]
            · intro _ hp; exact absurd ⟨x, y, by rw [hi], hx, hy⟩ hp
            · intro _
              refine ⟨by simp, fun hnf => ?_⟩
              rintro ⟨l, hl, _, h2, h3⟩
              have hx0 : x ≠ 0 := hnf (by simp [hi]) x (by simp)
              have hl2 := (has_iff hc h0 l).1 hl
              exfalso
              refine e3 _ hl2.1 hx0 ?_
              have es : (s.cell l.index).source = l.source := by rw [hl2.2]; rfl
              have et : (s.cell l.index).target = l.target := by rw [hl2.2]; rfl
              have h2 := h2.resolve_left hx
              have h3 := h3.resolve_left hy
              simp [Store.lk, es, et, h2, h3]
          · have h11 : 1 ≤ c.consts.internalEnd := by
              have := e3.1; have := e3.2.1; omega
            refine ⟨[s.linkAt k], ?_, ?_, ?_, ?_, ?_, by simpa using h11⟩
            · intro σ hd st
              rw [hE]
              simp only [each3, hi, hx, hy, e1, hget, e3, runH, if_true, and_self, if_false,
                Option.bind_some, Option.map_some]
              rcases hd st (s.linkAt k) with ⟨_ | _, st'⟩ <;> rfl
            · rw [hC, if_pos (show [s.linkAt k].length ≤ c.maxT by
                rw [List.length_singleton]; omega)]
              simp [count3, hi, hx, hy, e1, hc.null_eq, e2]
            · intro l hl
              rw [List.mem_singleton.1 hl]
              refine ⟨(has_iff hc h0 _).2 ⟨e3, rfl⟩, Or.inl hi, Or.inr ?_, Or.inr ?_⟩
              · exact congrArg Prod.fst e5
              · exact congrArg Prod.snd e5
            · intro _ hp; exact absurd ⟨x, y, by rw [hi], hx, hy⟩ hp
            · intro _; exact ⟨by simp, fun _ _ => by simp⟩
    · have hp : ¬ IsPair c.consts.any [i, x, y] := by
        rintro ⟨x', y', he, h1, h2⟩; simp at he; omega
      obtain ⟨k1, k2, k3, k4⟩ := hidx i
        (decide ((x = c.consts.any ∨ (s.cell i).source = x) ∧ (y = c.consts.any ∨ (s.cell i).target = y)))
      refine ⟨_, ?_, ?_, ?_, ?_, fun hh => absurd hh hp, fun _ => k3⟩
      rotate_left 2
      · intro l hl
        have := k1 l hl
        have h2 := of_decide_eq_true this.2.2
        refine ⟨this.1, Or.inr (by rw [this.2.1]; rfl), ?_⟩
        rw [this.2.1]; exact h2
      · intro _ _ l hl
        rw [k2 l hl]
        have hl2 := ((has_iff hc h0 l).1 hl).2
        by_cases hli : l.index = i
        · have es : (s.cell i).source = l.source := by rw [hl2, hli]; rfl
          have et : (s.cell i).target = l.target := by rw [hl2, hli]; rfl
          simp [visitsOf, hli, es, et]
        · simp [visitsOf, hli, hi]
      · intro σ hd st
        rw [hE]
        by_cases hl : LiveIn s free i
        · have hcase : each3 c s i x y hd st = some (if
            ((x = c.consts.any ∨ (s.cell i).source = x) ∧ (y = c.consts.any ∨ (s.cell i).target = y))
              then hd st (s.linkAt i) else (.cont, st)) := by
            simp only [each3, hi, if_false, hget, hl, if_true, Option.map_some, callIf, Store.linkAt]
            have ex : (x = (s.cell i).source) ↔ ((s.cell i).source = x) := ⟨Eq.symm, Eq.symm⟩
            have ey : (y = (s.cell i).target) ↔ ((s.cell i).target = y) := ⟨Eq.symm, Eq.symm⟩
            by_cases hx : x = c.consts.any <;> by_cases hy : y = c.consts.any <;>
              simp [hx, hy, ex, ey]
          rw [hcase]
          simp only [hl, true_and, decide_eq_true_eq]
          split
          · simp only [runH]
            rcases hd st (s.linkAt i) with ⟨_ | _, st'⟩ <;> rfl
          · rfl
        · simp [each3, hi, hget, hl, runH]
      · rw [hC, if_pos (by omega)]
        by_cases hl : LiveIn s free i
        · have hcase : count3 c s i x y = some (if
            ((x = c.consts.any ∨ (s.cell i).source = x) ∧ (y = c.consts.any ∨ (s.cell i).target = y))
              then 1 else 0) := by
            simp only [count3, hi, if_false, hex, hl, hunc hl, Option.map_some, oneIf, Store.linkAt,
              Option.bind_some, decide_true, Bool.not_true]
            have ex : (x = (s.cell i).source) ↔ ((s.cell i).source = x) := ⟨Eq.symm, Eq.symm⟩
            have ey : (y = (s.cell i).target) ↔ ((s.cell i).target = y) := ⟨Eq.symm, Eq.symm⟩
            by_cases hx : x = c.consts.any <;> by_cases hy : y = c.consts.any <;>
              simp [hx, hy, ex, ey]
          rw [hcase]
          simp only [hl, true_and, decide_eq_true_eq]
          split <;> rfl
        · simp [count3, hi, hex, hl]

end Verif.Unit
