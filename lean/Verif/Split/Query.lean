import Verif.Split.Instance
import Verif.Unit.Query

/-!
# Queries on the split store: what a traversal visits and what a count returns (helper lemmas)
-/

namespace Verif

/-- Some link has a source that is not a link. -/
def View.SourceDangles (v : View) : Prop := ∃ j a b, v j = some (a, b) ∧ a ≠ 0 ∧ v a = none

/-- There is no unused index below a link. -/
def View.GapFree (v : View) : Prop := ∀ i j, v j ≠ none → 1 ≤ i → i ≤ j → v i ≠ none

end Verif

namespace Verif.Split
open Verif
open Verif.Unit (callIf oneIf)

variable {c : Cfg}

/-- The queries for which the count of the split store is right: not for one link and one end unless both or
none of its ends match; for an end that is not a link only if some source dangles or there are no gaps; for a
source that is not a link only without a target. -/
def CountOK (any : Nat) (v : View) (q : List Nat) : Prop :=
  match q with
  | [i, x] =>
    (i ≠ any → x ≠ any → ∀ a b, v i = some (a, b) → (a = x ↔ b = x)) ∧
    (i = any → x ≠ any → v x ≠ none ∨ v.SourceDangles ∨ v.GapFree)
  | [i, x, y] =>
    i = any → x ≠ any → v x ≠ none ∨ (y = any ∧ (v.SourceDangles ∨ v.GapFree))
  | _ => True

theorem count_linkAt (s : Store) {L : List Nat} (hn : L.Nodup) (l : Link) :
    (L.map s.linkAt).count l = if l.index ∈ L ∧ l = s.linkAt l.index then 1 else 0 := by
  have hinj : (L.map s.linkAt).Nodup := by
    refine List.pairwise_map.2 (hn.imp fun {a b} hab he => hab ?_)
    exact congrArg Link.index he
  rw [hinj.count]
  congr 1
  rw [List.mem_map, eq_iff_iff]
  constructor
  · rintro ⟨i, hi, rfl⟩; exact ⟨hi, rfl⟩
  · rintro ⟨h1, h2⟩; exact ⟨_, h1, h2.symm⟩

theorem gapFree_iff (hc : CfgOK c) {s : Store} {free : List Nat} (h : Inv c s free) :
    ((links c).view s).GapFree ↔ free = [] := by
  constructor
  · intro hg
    cases free with
    | nil => rfl
    | cons x rest =>
      exfalso
      have hx := h.free_lt x (by simp)
      have hx0 := h.base.list.nonzero x (by simp)
      have htop : LiveIn s (x :: rest) s.hdr.allocated :=
        ⟨by omega, Nat.le_refl _, fun hm => by have := h.free_lt _ hm; omega⟩
      have := hg x s.hdr.allocated ((view_ne_none hc h.toInv0).2 htop) (by omega) (by omega)
      exact ((view_ne_none hc h.toInv0).1 this).2.2 (by simp)
  · rintro rfl i j hj h1 h2
    rw [view_ne_none hc h.toInv0] at hj ⊢
    exact ⟨h1, Nat.le_trans h2 hj.2.1, by simp⟩

theorem sourceDangles_iff (hc : CfgOK c) {s : Store} {free : List Nat} (h : Inv0 c s free) :
    ((links c).view s).SourceDangles ↔ ¬ NoExt (ExtRef s free) .src := by
  constructor
  · rintro ⟨j, a, b, hj, ha, hna⟩ hno
    obtain ⟨hl, hd⟩ := live_of_view hc h hj
    refine hno j ⟨hl, by rw [hd]; exact ha, ?_⟩
    rw [hd]
    exact fun hla => (view_ne_none hc h).2 hla hna
  · intro hno
    have : ∃ k, ExtRef s free .src k := Classical.byContradiction fun hn => hno fun k hk => hn ⟨k, hk⟩
    obtain ⟨k, h1, h2, h3⟩ := this
    refine ⟨k, (s.data k).1, (s.data k).2, by rw [view_eq hc h, if_pos h1], h2, ?_⟩
    rw [view_eq hc h]; exact if_neg h3

/-- Traversal by one end. -/
theorem side_usages (hc : CfgOK c) {s : Store} {free : List Nat} (h : Inv c s free) (d : Side) {v : Nat}
    (h0 : v ≠ 0) (ha : v ≠ c.consts.any) :
    ∃ L : List Nat, (∀ (σ : Type) (hd : RH σ) (st : σ),
        eachLinks c s (sideQuery c d v) hd st = some (runH hd (L.map s.linkAt) st)) ∧
      (d = .tgt ∨ (links c).view s v ≠ none ∨ ((links c).view s).SourceDangles ∨
        ((links c).view s).GapFree → countLinks c s (sideQuery c d v) = some L.length) ∧ L.Nodup ∧
      (∃ n, countLinks c s (sideQuery c d v) = some n ∧ n ≤ c.consts.internalEnd) ∧
      ∀ k, k ∈ L ↔ LiveIn s free k ∧ endOf d (s.data k) = v := by
  have hle : ∀ L : List Nat, L.Nodup → (∀ k ∈ L, LiveIn s free k) → L.length ≤ c.consts.internalEnd :=
    fun L hn hl => Nat.le_trans (length_le_of_nodup_le _ _ hn fun k hk => ⟨(hl k hk).1, (hl k hk).2.1⟩)
      h.base.alloc_le
  by_cases hv : LiveIn s free v
  · obtain ⟨L, g1, g2, g3, g4⟩ := each_side_int hc h.net h.exact d hv
    refine ⟨L, g1, fun _ => g2, g3, ⟨_, g2, hle L g3 fun k hk => ((g4 k).1 hk).1.1⟩, fun k => ?_⟩
    rw [g4]
    exact ⟨fun x => ⟨x.1.1, x.2⟩, fun x => ⟨⟨x.1, by rw [x.2]; exact h0, by rw [x.2]; exact hv⟩, x.2⟩⟩
  · obtain ⟨L, g1, g2, g2', g3, g4⟩ := each_side_ext hc h.net h.exact d hv h0 ha
    have g4' : ∀ k, k ∈ L ↔ LiveIn s free k ∧ endOf d (s.data k) = v := by
      intro k
      rw [g4]
      exact ⟨fun x => ⟨x.1.1, x.2⟩, fun x => ⟨⟨x.1, by rw [x.2]; exact h0, by rw [x.2]; exact hv⟩, x.2⟩⟩
    refine ⟨L, g1, ?_, g3, ?_, g4'⟩
    · rintro (x | x | x | x)
      · exact g2 (.inl x)
      · exact absurd ((view_ne_none hc h.toInv0).1 x) hv
      · exact g2 (.inr (.inl ((sourceDangles_iff hc h.toInv0).1 x)))
      · exact g2 (.inr (.inr ((gapFree_iff hc h).1 x)))
    · by_cases hno : d = .src ∧ NoExt (ExtRef s free) .src
      · refine ⟨_, g2' hno.1 hno.2, ?_⟩
        have hb := h.base.alloc_le
        cases free with
        | nil => simp
        | cons x rest =>
          have := h.free_lt x (by simp)
          simp; omega
      · refine ⟨_, g2 ?_, hle L g3 fun k hk => ((g4' k).1 hk).1⟩
        cases d
        · exact .inr (.inl fun hh => hno ⟨rfl, hh⟩)
        · exact .inl rfl

/-- Traversal and count for queries of at most three parts that do not ask for null ends over all links. -/
theorem query_law (hc : CfgOK c) {s : Store} (h : Good c s) (q : List Nat) (hq : q.length ≤ 3)
    (hnf : NullFree c.consts.any q) :
    ∃ L : List Link, (links c).Visits s q L ∧
      (CountOK c.consts.any ((links c).view s) q →
        countLinks c s q = (if L.length ≤ c.maxT then some L.length else none)) ∧
      (∀ l ∈ L, ((links c).view s).Has l ∧ MatchQ c.consts.any q l) ∧
      (¬ IsPair c.consts.any q → ∀ l, ((links c).view s).Has l →
        L.count l = visitsOf c.consts.any q l) ∧
      (IsPair c.consts.any q → L.length ≤ 1 ∧
        ((∃ l, ((links c).view s).Has l ∧ MatchQ c.consts.any q l) → L ≠ [])) ∧
      (q.length ≠ 2 → L.length ≤ c.consts.internalEnd) := by
  obtain ⟨free, h⟩ := h
  have h0 := h.toInv0
  have hend := hc.end_le
  have hal := h.base.alloc_le
  have hlen : ∀ {L : List Nat}, L.Nodup → (∀ k ∈ L, LiveIn s free k) → L.length ≤ c.consts.internalEnd :=
    fun hn hl => Nat.le_trans (length_le_of_nodup_le _ _ hn fun k hk => ⟨(hl k hk).1, (hl k hk).2.1⟩) hal
  -- everything
  have hall : (liveList s free).length ≤ c.consts.internalEnd :=
    hlen (nodup_liveList s free) fun k hk => mem_liveList.1 hk
  have hallc : total s = if (liveList s free).length ≤ c.maxT then some (liveList s free).length
      else none := by rw [total_eq h.base, if_pos (by omega)]
  have hcount_all : ∀ l, ((links c).view s).Has l → ((liveList s free).map s.linkAt).count l = 1 := by
    intro l hl
    have := (has_iff hc h0 l).1 hl
    rw [count_linkAt s (nodup_liveList s free), if_pos ⟨mem_liveList.2 this.1, this.2⟩]
  have hmem_all : ∀ l ∈ (liveList s free).map s.linkAt, ((links c).view s).Has l := by
    intro l hl
    obtain ⟨k, hk, rfl⟩ := List.mem_map.1 hl
    exact (has_iff hc h0 _).2 ⟨mem_liveList.1 hk, rfl⟩
  have hone : 1 ≤ c.consts.internalEnd ∨ ∀ i, ¬ LiveIn s free i := by
    by_cases h1 : 1 ≤ c.consts.internalEnd
    · exact Or.inl h1
    · refine Or.inr fun i hi => ?_
      have := hi.1; have := hi.2.1; omega
  -- one index
  have hidx : ∀ (i : Nat) (b : Bool),
      let L := if LiveIn s free i ∧ b = true then [s.linkAt i] else []
      (∀ l ∈ L, ((links c).view s).Has l ∧ l = s.linkAt i ∧ b = true) ∧
      (∀ l, ((links c).view s).Has l → L.count l = if l.index = i ∧ b = true then 1 else 0) ∧
      L.length ≤ c.consts.internalEnd ∧ L.length ≤ 1 := by
    intro i b L
    by_cases hi : LiveIn s free i ∧ b = true
    · have hL : L = [s.linkAt i] := if_pos hi
      rw [hL]
      refine ⟨?_, ?_, ?_, by simp⟩
      · intro l hl
        rw [List.mem_singleton.1 hl]
        exact ⟨(has_iff hc h0 _).2 ⟨hi.1, rfl⟩, rfl, hi.2⟩
      · intro l hl
        have := ((has_iff hc h0 l).1 hl).2
        rw [List.count_singleton]
        by_cases hli : l.index = i
        · rw [hli] at this; simp [this, Store.linkAt, hi.2]
        · have : (s.linkAt i == l) = false := by
            simp only [beq_eq_false_iff_ne]; intro e; exact hli (by rw [← e]; rfl)
          simp [this, hli]
      · rcases hone with h1 | h1
        · simpa using h1
        · exact absurd hi.1 (h1 i)
    · have hL : L = [] := if_neg hi
      rw [hL]
      refine ⟨by simp, ?_, by simp, by simp⟩
      intro l hl
      have h1 := ((has_iff hc h0 l).1 hl).1
      rw [if_neg]
      · rfl
      · rintro ⟨rfl, hb⟩; exact hi ⟨h1, hb⟩
  -- by source, by target
  have hside : ∀ (L : List Nat) (P : Nat → Prop), L.Nodup → (∀ k, k ∈ L ↔ LiveIn s free k ∧ P k) →
      (∀ l ∈ L.map s.linkAt, ((links c).view s).Has l ∧ P l.index ∧ l = s.linkAt l.index) ∧
      (∀ [DecidablePred P] l, ((links c).view s).Has l →
        (L.map s.linkAt).count l = if P l.index then 1 else 0) ∧
      (L.map s.linkAt).length ≤ c.consts.internalEnd := by
    intro L P hn hP
    refine ⟨?_, ?_, ?_⟩
    · intro l hl
      obtain ⟨k, hk, rfl⟩ := List.mem_map.1 hl
      have := (hP k).1 hk
      exact ⟨(has_iff hc h0 _).2 ⟨this.1, rfl⟩, this.2, rfl⟩
    · intro _ l hl
      have := (has_iff hc h0 l).1 hl
      rw [count_linkAt s hn]
      by_cases hp : P l.index
      · rw [if_pos hp, if_pos ⟨(hP _).2 ⟨this.1, hp⟩, this.2⟩]
      · rw [if_neg hp, if_neg fun hh => hp ((hP _).1 hh.1).2]
    · rw [List.length_map]
      exact hlen hn fun k hk => ((hP k).1 hk).1
  have hget := getLink_eq hc h.net h.exact
  have hex := exists_eq hc h.net h.exact
  have hunc := fun {i} (hi : LiveIn s free i) => getLinkUnchecked_eq h.base hi
  have hun := fun v => isUnused_some h.base v
  have hie := hc.index_eq
  have hse := hc.source_eq
  have hte := hc.target_eq
  have hunv : ∀ v, v ≠ 0 → isUnused s v = some (decide (¬ LiveIn s free v)) :=
    fun v hv => h.net.unused hv (h.exact v)
  match q, hq with
  | [], _ =>
    refine ⟨(liveList s free).map s.linkAt, ?_, ?_, fun l hl => ⟨hmem_all l hl, trivial⟩, ?_, ?_, ?_⟩
    · intro σ hd st; exact eachAll_eq hc h.net h.exact hd st
    · intro _; simpa [countLinks] using hallc
    · intro _ l hl; rw [hcount_all l hl]; rfl
    · rintro ⟨x, y, he, _⟩; simp at he
    · intro _; simpa using hall
  | [i], _ =>
    by_cases hi : i = c.consts.any
    · refine ⟨(liveList s free).map s.linkAt, ?_, ?_, fun l hl => ⟨hmem_all l hl, Or.inl hi⟩, ?_, ?_, ?_⟩
      · intro σ hd st
        rw [← eachAll_eq hc h.net h.exact hd st]
        simp [links, eachLinks, hie, hi]
      · intro _; simpa [countLinks, hie, hi] using hallc
      · intro _ l hl; rw [hcount_all l hl]; simp [visitsOf, hi]
      · rintro ⟨x, y, he, _⟩; simp at he
      · intro _; simpa using hall
    · obtain ⟨k1, k2, k3, k4⟩ := hidx i true
      refine ⟨_, ?_, ?_, fun l hl => ⟨(k1 l hl).1, Or.inr (by rw [(k1 l hl).2.1]; rfl)⟩, ?_, ?_,
        fun _ => k3⟩
      · intro σ hd st
        simp only [links, eachLinks, List.length_singleton, hie, List.getElem?_cons_zero,
          Option.bind_some, hi, if_false, if_true, hget, Option.map_some, Nat.one_ne_zero, and_true]
        by_cases hl : LiveIn s free i
        · simp only [hl, if_true, runH]
          rcases hd st (s.linkAt i) with ⟨_ | _, st'⟩ <;> rfl
        · simp [hl, runH]
      · intro _
        rw [if_pos (by omega)]
        simp only [countLinks, List.length_singleton, hie, List.getElem?_cons_zero,
          Option.bind_some, hi, if_false, if_true, hex, Option.map_some, Nat.one_ne_zero, and_true]
        by_cases hl : LiveIn s free i <;> simp [hl, oneIf]
      · intro _ l hl; rw [k2 l hl]; simp [visitsOf, hi]
      · rintro ⟨x, y, he, _⟩; simp at he
  | [i, x], _ =>
    by_cases hi : i = c.consts.any
    · by_cases hx : x = c.consts.any
      · refine ⟨(liveList s free).map s.linkAt, ?_, ?_,
          fun l hl => ⟨hmem_all l hl, Or.inl hi, Or.inl hx⟩, ?_, ?_, fun hh => absurd rfl hh⟩
        · intro σ hd st
          rw [← eachAll_eq hc h.net h.exact hd st]
          simp [links, eachLinks, hie, hi, hx]
        · intro _
          obtain ⟨u, hu⟩ := hun c.consts.any
          simpa [countLinks, hie, hi, hx, hu] using hallc
        · intro _ l hl; rw [hcount_all l hl]; simp [visitsOf, hi, hx]
        · rintro ⟨x, y, he, _⟩; simp at he
      · have hx0 : x ≠ 0 := hnf (by simp [hi]) x (by simp)
        obtain ⟨L1, a1, a2, a3, -, a4⟩ := side_usages hc h .src hx0 hx
        obtain ⟨L2, b1, b2, b3, -, b4⟩ := side_usages hc h .tgt hx0 hx
        obtain ⟨d1, d2, d3⟩ := hside L1 _ a3 a4
        obtain ⟨e1, e2, e3⟩ := hside L2 _ b3 b4
        refine ⟨L1.map s.linkAt ++ L2.map s.linkAt, ?_, ?_, ?_, ?_, ?_, fun hh => absurd rfl hh⟩
        · intro σ hd st
          rw [runH_append, ← a1]
          simp only [← b1]
          simp [links, eachLinks, sideQuery, hie, hse, hte, hi, hx]
        · intro hcok
          have a2 := a2 (.inr (hcok.2 hi hx))
          have b2 := b2 (.inl rfl)
          have hxs := hunv x hx0
          obtain ⟨u, hu⟩ := hun c.consts.any
          simp only [sideQuery, countLinks, hie, hse, hte, List.length_cons, List.length_nil,
            Nat.reduceAdd, Nat.reduceEqDiff, if_false, if_true, List.getElem?_cons_zero,
            List.getElem?_cons_succ, Option.bind_some, count3, hxs, hu, hx, true_and, and_false,
            and_true] at a2 b2
          simp only [countLinks, hie, List.length_cons, List.length_nil, Nat.reduceAdd,
            Nat.reduceEqDiff, if_false, if_true, List.getElem?_cons_zero,
            List.getElem?_cons_succ, Option.bind_some, hxs, hi, hx, List.length_append,
            List.length_map]
          by_cases hl : LiveIn s free x
          · simp only [hl, not_true, decide_false, Bool.false_eq_true, if_false] at a2 b2 ⊢
            simp [a2, b2, cadd]
          · simp only [hl, not_false_eq_true, decide_true, if_true] at a2 b2 ⊢
            simp [a2, b2, cadd]
        · intro l hl
          rcases List.mem_append.1 hl with hl | hl
          · have := d1 l hl
            refine ⟨this.1, Or.inl hi, Or.inr (Or.inl ?_)⟩
            rw [this.2.2]; exact this.2.1
          · have := e1 l hl
            refine ⟨this.1, Or.inl hi, Or.inr (Or.inr ?_)⟩
            rw [this.2.2]; exact this.2.1
        · intro _ l hl
          have hl2 := ((has_iff hc h0 l).1 hl).2
          rw [List.count_append, d2 l hl, e2 l hl]
          have es : (s.data l.index).1 = l.source := by rw [hl2]; rfl
          have et : (s.data l.index).2 = l.target := by rw [hl2]; rfl
          simp [visitsOf, hi, hx, endOf, es, et]
        · rintro ⟨x, y, he, _⟩; simp at he
    · obtain ⟨k1, k2, k3, k4⟩ := hidx i
        (decide (x = c.consts.any ∨ (s.data i).1 = x ∨ (s.data i).2 = x))
      refine ⟨if LiveIn s free i ∧ decide (x = c.consts.any ∨ (s.data i).1 = x ∨
        (s.data i).2 = x) = true then [s.linkAt i] else [], ?_, ?_, ?_, ?_, ?_, fun hh => absurd rfl hh⟩
      rotate_left 2
      · intro l hl
        have := k1 l hl
        refine ⟨this.1, Or.inr (by rw [this.2.1]; rfl), ?_⟩
        rw [this.2.1]; exact of_decide_eq_true this.2.2
      · intro _ l hl
        rw [k2 l hl]
        have hl2 := ((has_iff hc h0 l).1 hl).2
        by_cases hli : l.index = i
        · have es : (s.data i).1 = l.source := by rw [hl2, hli]; rfl
          have et : (s.data i).2 = l.target := by rw [hl2, hli]; rfl
          simp only [visitsOf, hli, es, et, hi, true_and, false_or, if_false]
          by_cases hx : x = c.consts.any <;> simp [hx]
        · simp [visitsOf, hli, hi]
      · rintro ⟨x, y, he, _⟩; simp at he
      · intro σ hd st
        have hcase : (links c).eachLinks s [i, x] hd st = some (if LiveIn s free i ∧
            (x = c.consts.any ∨ (s.data i).1 = x ∨ (s.data i).2 = x)
              then hd st (s.linkAt i) else (.cont, st)) := by
          by_cases hl : LiveIn s free i
          · simp [links, eachLinks, hie, hi, hget, hl, callIf, Store.linkAt]
          · simp [links, eachLinks, hie, hi, hget, hl]
        rw [hcase]
        simp only [decide_eq_true_eq]
        split
        · simp only [runH]
          rcases hd st (s.linkAt i) with ⟨_ | _, st'⟩ <;> rfl
        · rfl
      · intro hcok
        rw [if_pos (by omega)]
        have hcase : countLinks c s [i, x] = some (if LiveIn s free i ∧
            (x = c.consts.any ∨ (s.data i).1 = x ∨ (s.data i).2 = x) then 1 else 0) := by
          obtain ⟨u, hu⟩ := hun x
          by_cases hl : LiveIn s free i
          · by_cases hx : x = c.consts.any
            · rw [hx] at hu
              simp [countLinks, hie, hi, hex, hl, hx, hu]
            · have hg := hunc hl
              have hdat : s.getD i = some (s.data i) := by
                unfold getLinkUnchecked at hg
                cases hd : s.getD i with
                | none => rw [hd] at hg; simp at hg
                | some p =>
                  unfold Store.getD at hd
                  split at hd
                  · rw [← hd]
                  · cases hd
              have := hcok.1 hi hx (s.data i).1 (s.data i).2 (by rw [view_eq hc h0, if_pos hl])
              simp only [countLinks, hie, hi, hex, hl, hx, hu, hdat, oneIf, List.length_cons,
                List.length_nil, Nat.reduceAdd, Nat.reduceEqDiff, if_false, if_true,
                List.getElem?_cons_zero, List.getElem?_cons_succ, Option.bind_some, decide_true,
                Bool.not_true, Bool.false_eq_true, Option.map_some, true_and, false_or]
              by_cases e1 : (s.data i).1 = x
              · simp [e1, this.1 e1]
              · have e2 : ¬ (s.data i).2 = x := fun e => e1 (this.2 e)
                simp [e1, e2]
          · simp [countLinks, hie, hi, hex, hl, hu]
        rw [hcase]
        simp only [decide_eq_true_eq]
        split <;> rfl
  | [i, x, y], _ =>
    have hE : ∀ (σ : Type) (hd : RH σ) (st : σ),
        (links c).eachLinks s [i, x, y] hd st = each3 c s i x y hd st := by
      intro σ hd st; simp [links, eachLinks, hie, hse, hte]
    have hC : countLinks c s [i, x, y] = count3 c s i x y := by
      simp [countLinks, hie, hse, hte]
    by_cases hi : i = c.consts.any
    · have hx0 : x ≠ 0 := hnf (by simp [hi]) x (by simp)
      have hy0 : y ≠ 0 := hnf (by simp [hi]) y (by simp)
      have hux := hunv x hx0
      have huy := hunv y hy0
      by_cases hx : x = c.consts.any
      · by_cases hy : y = c.consts.any
        · refine ⟨(liveList s free).map s.linkAt, ?_, ?_,
            fun l hl => ⟨hmem_all l hl, Or.inl hi, Or.inl hx, Or.inl hy⟩, ?_, ?_, ?_⟩
          · intro σ hd st
            rw [hE, ← eachAll_eq hc h.net h.exact hd st]
            simp only [each3, hux, huy, Option.bind_some]
            simp [hi, hx, hy]
          · intro _
            rw [hC, ← (List.length_map s.linkAt (as := liveList s free))] at *
            simp only [count3, hux, huy, Option.bind_some]
            simpa [hi, hx, hy] using hallc
          · intro _ l hl; rw [hcount_all l hl]; simp [visitsOf, hi, hx, hy]
          · rintro ⟨x', y', he, h1, h2⟩; simp at he; omega
          · intro _; simpa using hall
        · obtain ⟨L, a1, a2, a3, -, a4⟩ := side_usages hc h .tgt hy0 hy
          obtain ⟨d1, d2, d3⟩ := hside L _ a3 a4
          subst hi hx
          refine ⟨L.map s.linkAt, ?_, ?_, ?_, ?_, ?_, fun _ => d3⟩
          · intro σ hd st; exact a1 σ hd st
          · intro _
            have := a2 (.inl rfl)
            rw [if_pos (by omega), List.length_map]; exact this
          · intro l hl
            have := d1 l hl
            refine ⟨this.1, Or.inl rfl, Or.inl rfl, Or.inr ?_⟩
            rw [this.2.2]; exact this.2.1
          · intro _ l hl
            have hl2 := ((has_iff hc h0 l).1 hl).2
            have et : (s.data l.index).2 = l.target := by rw [hl2]; rfl
            rw [d2 l hl]
            simp [visitsOf, hy, endOf, et]
          · rintro ⟨x', y', he, h1, h2⟩; simp at he; omega
      · by_cases hy : y = c.consts.any
        · obtain ⟨L, a1, a2, a3, -, a4⟩ := side_usages hc h .src hx0 hx
          obtain ⟨d1, d2, d3⟩ := hside L _ a3 a4
          subst hi hy
          refine ⟨L.map s.linkAt, ?_, ?_, ?_, ?_, ?_, fun _ => d3⟩
          · intro σ hd st; exact a1 σ hd st
          · intro hcok
            have := a2 (.inr ?_)
            · rw [if_pos (by omega), List.length_map]; exact this
            · rcases hcok rfl hx with g | g
              · exact .inl g
              · exact .inr g.2
          · intro l hl
            have := d1 l hl
            refine ⟨this.1, Or.inl rfl, Or.inr ?_, Or.inl rfl⟩
            rw [this.2.2]; exact this.2.1
          · intro _ l hl
            have hl2 := ((has_iff hc h0 l).1 hl).2
            have es : (s.data l.index).1 = l.source := by rw [hl2]; rfl
            rw [d2 l hl]
            simp [visitsOf, hx, endOf, es]
          · rintro ⟨x', y', he, h1, h2⟩; simp at he; omega
        · obtain ⟨k, e1, e2⟩ := pairSearch_ok hc h0 hx0 hy0
          rcases e2 with ⟨rfl, e3⟩ | ⟨e2, e3, e5⟩
          · refine ⟨[], ?_, ?_, by simp, ?_, ?_, by simp⟩
            · intro σ hd st
              rw [hE]
              simp only [each3, hux, huy, Option.bind_some, e1]
              simp [hi, hx, hy, hc.null_eq, runH]
            · intro hcok
              have hxl : LiveIn s free x := (view_ne_none hc h0).1
                ((hcok hi hx).resolve_right fun hh => hy hh.1)
              rw [hC]
              simp only [count3, hux, huy, Option.bind_some, e1]
              simp [hi, hx, hy, hc.null_eq, hxl]
            · intro hp; exact absurd ⟨x, y, by rw [hi], hx, hy⟩ hp
            · intro _
              refine ⟨by simp, ?_⟩
              rintro ⟨l, hl, _, h2, h3⟩
              have hl2 := (has_iff hc h0 l).1 hl
              exfalso
              refine e3 _ hl2.1 ?_
              have es : (s.data l.index).1 = l.source := by rw [hl2.2]; rfl
              have et : (s.data l.index).2 = l.target := by rw [hl2.2]; rfl
              have h2 := h2.resolve_left hx
              have h3 := h3.resolve_left hy
              exact Prod.ext (es.trans h2) (et.trans h3)
          · have h11 : 1 ≤ c.consts.internalEnd := by
              have := e3.1; have := e3.2.1; omega
            refine ⟨[s.linkAt k], ?_, ?_, ?_, ?_, ?_, by simpa using h11⟩
            · intro σ hd st
              rw [hE]
              simp only [each3, hi, hx, hy, hux, huy, e1, hget, e3, runH, if_true, and_self, if_false,
                Option.bind_some, hc.null_eq, e2]
              rcases hd st (s.linkAt k) with ⟨_ | _, st'⟩ <;> rfl
            · intro hcok
              have hxl : LiveIn s free x := (view_ne_none hc h0).1
                ((hcok hi hx).resolve_right fun hh => hy hh.1)
              rw [hC, if_pos (show [s.linkAt k].length ≤ c.maxT by
                rw [List.length_singleton]; omega)]
              simp only [count3, hux, huy, Option.bind_some, e1]
              simp [hi, hx, hy, hc.null_eq, hxl, e2]
            · intro l hl
              rw [List.mem_singleton.1 hl]
              refine ⟨(has_iff hc h0 _).2 ⟨e3, rfl⟩, Or.inl hi, Or.inr ?_, Or.inr ?_⟩
              · exact congrArg Prod.fst e5
              · exact congrArg Prod.snd e5
            · intro hp; exact absurd ⟨x, y, by rw [hi], hx, hy⟩ hp
            · intro _; exact ⟨by simp, fun _ => by simp⟩
    · have hp : ¬ IsPair c.consts.any [i, x, y] := by
        rintro ⟨x', y', he, h1, h2⟩; simp at he; omega
      obtain ⟨ux, hux⟩ := hun x
      obtain ⟨uy, huy⟩ := hun y
      obtain ⟨k1, k2, k3, k4⟩ := hidx i
        (decide ((x = c.consts.any ∨ (s.data i).1 = x) ∧ (y = c.consts.any ∨ (s.data i).2 = y)))
      refine ⟨_, ?_, ?_, ?_, ?_, fun hh => absurd hh hp, fun _ => k3⟩
      rotate_left 2
      · intro l hl
        have := k1 l hl
        have h2 := of_decide_eq_true this.2.2
        refine ⟨this.1, Or.inr (by rw [this.2.1]; rfl), ?_⟩
        rw [this.2.1]; exact h2
      · intro _ l hl
        rw [k2 l hl]
        have hl2 := ((has_iff hc h0 l).1 hl).2
        by_cases hli : l.index = i
        · have es : (s.data i).1 = l.source := by rw [hl2, hli]; rfl
          have et : (s.data i).2 = l.target := by rw [hl2, hli]; rfl
          simp [visitsOf, hli, es, et]
        · simp [visitsOf, hli, hi]
      · intro σ hd st
        rw [hE]
        by_cases hl : LiveIn s free i
        · have hcase : each3 c s i x y hd st = some (if
            ((x = c.consts.any ∨ (s.data i).1 = x) ∧ (y = c.consts.any ∨ (s.data i).2 = y))
              then hd st (s.linkAt i) else (.cont, st)) := by
            simp only [each3, hux, huy, Option.bind_some, hi, if_false, hget, hl, if_true,
              Option.map_some, callIf, Store.linkAt]
            by_cases hx : x = c.consts.any <;> by_cases hy : y = c.consts.any <;>
              simp [hx, hy]
          rw [hcase]
          simp only [hl, true_and, decide_eq_true_eq]
          split
          · simp only [runH]
            rcases hd st (s.linkAt i) with ⟨_ | _, st'⟩ <;> rfl
          · rfl
        · simp [each3, hux, huy, hi, hget, hl, runH]
      · intro _
        rw [hC, if_pos (by omega)]
        by_cases hl : LiveIn s free i
        · have hcase : count3 c s i x y = some (if
            ((x = c.consts.any ∨ (s.data i).1 = x) ∧ (y = c.consts.any ∨ (s.data i).2 = y))
              then 1 else 0) := by
            simp only [count3, hux, huy, hi, if_false, hex, hl, hunc hl, Option.map_some, oneIf,
              Store.linkAt, Option.bind_some, decide_true, Bool.not_true]
            by_cases hx : x = c.consts.any <;> by_cases hy : y = c.consts.any <;>
              simp [hx, hy]
          rw [hcase]
          simp only [hl, true_and, decide_eq_true_eq]
          split <;> rfl
        · simp [count3, hux, huy, hi, hex, hl]

end Verif.Split
