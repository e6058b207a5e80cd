import Verif.Split.History

/-!
# Memories that grant more, but alike

A growth of memories that grant `n` slots is a growth of exact memories by another step, and an opening on such memories is an
opening on exact memories of another page size: nothing else in the program looks at the page size and the step.
-/

namespace Verif.Split
open Verif

/-- The two memories grant at least what they are asked for, and if both grant the same request from the same length they grant the
same. Either may fail. -/
def Alike (d i : Nat → Nat → Option Nat) : Prop :=
  ∀ l r n m, d l r = some n → i l r = some m → n = m ∧ r ≤ n

/-- `History` (`Split/History.lean`) on memories that grant alike instead of exactly. The memories given to a reopened store are of
one length. -/
inductive AlikeHistory (c : Cfg) : Store → List (Call × Except Err Nat) → Prop
  | fresh (d i) {s : Store} : Alike d i → init (c.withAllocs d i) {} = some (.ok s) → AlikeHistory c s []
  | call (d i) (k : Call) {s : Store} {tr} {o : Out Store Unit Nat} : AlikeHistory c s tr → Alike d i →
      GrowTogether (c.withAllocs d i) s → step c d i s k = some o → k.SplitOK (replay tr) o.res →
      AlikeHistory c o.st (tr ++ [(k, o.res)])
  | reopen (d i) (n : Nat) {s s' : Store} {tr} : AlikeHistory c s tr → Alike d i →
      init (c.withAllocs d i) { s with dlen := n, ilen := n } = some (.ok s') → s.hdr.allocated < s'.ilen →
      AlikeHistory c s' tr

variable {c : Cfg}

/-- The same program with other page size and step. -/
def Cfg.sized (c : Cfg) (p t : Nat) : Cfg := { c with page := p, step := t }

theorem CfgOK.sized (hc : CfgOK c) (p : Nat) {t : Nat} (ht : 2 ≤ t) : CfgOK (c.sized p t) :=
  ⟨hc.null_eq, hc.index_eq, hc.source_eq, hc.target_eq, hc.start_eq, hc.end_lt_any, hc.end_le, ht, hc.trees,
   hc.dalloc_eq, hc.ialloc_eq⟩

theorem Inv.sized {s : Store} {free : List Nat} (h : Inv c s free) (p t : Nat) : Inv (c.sized p t) s free :=
  ⟨⟨⟨h.base.fresh, h.base.len_eq, h.base.alloc_lt, h.base.alloc_le, h.base.res_pos, h.base.res_le, h.base.res8, h.base.data0,
    h.base.list, h.base.free_le, h.base.beyond⟩, h.forest, h.half⟩, h.free_lt⟩

theorem Inv.ofSized {s : Store} {free : List Nat} {p t : Nat} (h : Inv (c.sized p t) s free) : Inv c s free :=
  ⟨⟨⟨h.base.fresh, h.base.len_eq, h.base.alloc_lt, h.base.alloc_le, h.base.res_pos, h.base.res_le, h.base.res8, h.base.data0,
    h.base.list, h.base.free_le, h.base.beyond⟩, h.forest, h.half⟩, h.free_lt⟩

theorem HInv.sized {s : Store} {tr} (h : HInv c s tr) (p t : Nat) : HInv (c.sized p t) s tr :=
  ⟨h.inv.sized p t, h.top, h.view, h.order⟩

theorem HInv.ofSized {s : Store} {tr} {p t : Nat} (h : HInv (c.sized p t) s tr) : HInv c s tr :=
  ⟨h.inv.ofSized, h.top, h.view, h.order⟩

/-- A memory that always grants exactly what is asked for. -/
def always : Nat → Nat → Option Nat := fun _ r => some r

theorem always_exact : ExactAlloc always := fun _ _ _ h => (Option.some.inj h).symm

/-- A memory that never grows. -/
def never : Nat → Nat → Option Nat := fun _ _ => none

theorem never_exact : ExactAlloc never := fun _ _ _ h => by cases h

set_option smartUnfolding false in
theorem createTop_sized (d i : Nat → Nat → Option Nat) (p t : Nat) (s : Store) {σ : Type} (h : WH σ) (st : σ) :
    createTop ((c.sized p t).withAllocs d i) s h st = createTop c s h st := rfl

set_option smartUnfolding false in
theorem createEnd_sized (d i : Nat → Nat → Option Nat) (p t : Nat) (s : Store) (x : Nat) {σ : Type} (h : WH σ) (st : σ) :
    createEnd ((c.sized p t).withAllocs d i) s x h st = createEnd c s x h st := rfl

theorem unusedDetach_sized (d i : Nat → Nat → Option Nat) (p t : Nat) (s : Store) (x : Nat) :
    unusedDetach ((c.sized p t).withAllocs d i) s x = unusedDetach c s x := rfl

/-- Where the page size, the step and the memories matter in a creation. -/
theorem createLinks_sized (d i : Nat → Nat → Option Nat) (p t : Nat) (s : Store) {σ : Type} (q : List Nat) (h : WH σ) (st : σ) :
    createLinks ((c.sized p t).withAllocs d i) s q h st =
      if s.hdr.firstFree = c.consts.null then
        if c.consts.internalEnd ≤ s.hdr.allocated then some ⟨.error (.limitReached c.consts.internalEnd), s, st⟩
        else
          (csub s.hdr.reserved 1).bind fun r1 =>
          if r1 ≤ s.hdr.allocated then
            match d s.dlen (s.dlen + t) with
            | none => some ⟨.error .allocFailed, s, st⟩
            | some d =>
              match i s.ilen (s.ilen + t) with
              | none => some ⟨.error .allocFailed, { s with dlen := d, stale := true }, st⟩
              | some n =>
                if n ≤ c.maxT then
                  createTop c { s with dlen := d, ilen := n, stale := false, hdr := { s.hdr with reserved := n } } h st
                else none
          else createTop c s h st
      else (unusedDetach c s s.hdr.firstFree).bind fun s' => createEnd c s' s.hdr.firstFree h st := by
  simp only [createLinks, createTop_sized, createEnd_sized, unusedDetach_sized]
  rfl

/-- A creation on memories that grant alike is a creation on exact memories, with another step. -/
theorem create_alike (hc : CfgOK c) {d i : Nat → Nat → Option Nat} (ha : Alike d i) {s : Store} (hlen : s.dlen = s.ilen)
    (hg : GrowTogether (c.withAllocs d i) s) :
    ∃ (t : Nat) (d' i' : Nat → Nat → Option Nat), 2 ≤ t ∧ ExactAlloc d' ∧ ExactAlloc i' ∧
      GrowTogether ((c.sized c.page t).withAllocs d' i') s ∧
      ((d s.dlen (s.dlen + c.step) = none ∧ d' = never) ∨
        ∃ n, d s.dlen (s.dlen + c.step) ≠ none ∧ i s.ilen (s.ilen + c.step) = some n ∧ s.ilen + t = n ∧ d' = always ∧ i' = always) ∧
      ∀ {σ : Type} (q : List Nat) (h : WH σ) (st : σ),
        createLinks (c.withAllocs d i) s q h st = createLinks ((c.sized c.page t).withAllocs d' i') s q h st := by
  cases hd : d s.dlen (s.dlen + c.step) with
  | none =>
    refine ⟨c.step, never, never, hc.step_pos, never_exact, never_exact, fun h => absurd rfl h, .inl ⟨rfl, rfl⟩, ?_⟩
    intro σ q h st
    rw [show c.withAllocs d i = (c.sized c.page c.step).withAllocs d i from rfl]
    simp only [createLinks_sized, hd, never]
  | some n =>
    cases hi : i s.ilen (s.ilen + c.step) with
    | none => exact absurd hi (hg (by show d s.dlen (s.dlen + c.step) ≠ none; rw [hd]; simp))
    | some m =>
      obtain ⟨rfl, hle⟩ := ha _ _ _ _ hd (hlen ▸ hi)
      have h2 := hc.step_pos
      have e1 : s.dlen + (n - s.ilen) = n := by omega
      have e2 : s.ilen + (n - s.ilen) = n := by omega
      refine ⟨n - s.ilen, always, always, by omega, always_exact, always_exact, fun _ => by simp [Cfg.withAllocs, always],
        .inr ⟨n, by simp, rfl, e2, rfl, rfl⟩, ?_⟩
      intro σ q h st
      rw [show c.withAllocs d i = (c.sized c.page c.step).withAllocs d i from rfl]
      simp only [createLinks_sized, hd, hi, always, e1, e2]

theorem create_alike' (hc : CfgOK c) {d i : Nat → Nat → Option Nat} (ha : Alike d i) {s : Store} (hlen : s.dlen = s.ilen)
    (hg : GrowTogether (c.withAllocs d i) s) :
    ∃ (t : Nat) (d' i' : Nat → Nat → Option Nat), 2 ≤ t ∧ ExactAlloc d' ∧ ExactAlloc i' ∧
      GrowTogether ((c.sized c.page t).withAllocs d' i') s ∧
      ((d s.dlen (s.dlen + c.step) = none ∧ d' = never) ∨
        ∃ n, d s.dlen (s.dlen + c.step) ≠ none ∧ i s.ilen (s.ilen + c.step) = some n ∧ s.ilen + t = n ∧ d' = always ∧ i' = always) ∧
      step c d i s .create = step (c.sized c.page t) d' i' s .create := by
  obtain ⟨t, d', i', h1, h2, h3, h4, h5, h6⟩ := create_alike hc ha hlen hg
  refine ⟨t, d', i', h1, h2, h3, h4, h5, ?_⟩
  show ((createLinks (c.withAllocs d i) s [] _ _).map _).map _ =
    ((createLinks ((c.sized c.page t).withAllocs d' i') s [] _ _).map _).map _
  rw [h6]

theorem align_self (n : Nat) : align n n = n := by simp [align]

/-- An opening on memories that grant alike is an opening on exact memories, with another page size and step. -/
theorem init_alike (hc : CfgOK c) {d i : Nat → Nat → Option Nat} (ha : Alike d i) {s s' : Store} (hlen : s.dlen = s.ilen)
    (h : init (c.withAllocs d i) s = some (.ok s')) :
    ∃ n, 2 ≤ n ∧ init ((c.sized n n).withAllocs always always) s = some (.ok s') := by
  have h2 := hc.step_pos
  simp only [init, Cfg.withAllocs] at h
  cases hd : d s.dlen c.page with
  | none => rw [hd] at h; simp at h
  | some d1 =>
    rw [hd] at h
    cases hi : i s.ilen c.page with
    | none => rw [hi] at h; simp at h
    | some i1 =>
      obtain ⟨rfl, -⟩ := ha _ _ _ _ hd (hlen ▸ hi)
      rw [hi] at h
      simp only at h
      by_cases h0 : d1 = 0
      · simp [h0] at h
      rw [if_neg h0] at h
      cases hd2 : d d1 (align (max (max s.hdr.allocated d1) c.step) c.step) with
      | none => rw [hd2] at h; simp at h
      | some d2 =>
        rw [hd2] at h
        cases hi2 : i d1 (align (max (max s.hdr.allocated d1) c.step) c.step) with
        | none => rw [hi2] at h; simp at h
        | some i2 =>
          obtain ⟨rfl, hle⟩ := ha _ _ _ _ hd2 hi2
          rw [hi2] at h
          have hal := le_align (a := max (max s.hdr.allocated d1) c.step) (s := c.step) (by omega)
          have hmax : max (max s.hdr.allocated d2) d2 = d2 := by omega
          refine ⟨d2, by omega, ?_⟩
          simp only [init, Cfg.withAllocs, Cfg.sized, always, hmax, align_self]
          rw [if_neg (show ¬ d2 = 0 by omega)]
          exact h

/-- Histories on memories that grant alike keep everything that histories on exact memories keep. -/
theorem alike_inv (hc : CfgOK c) {s : Store} {tr} (h : AlikeHistory c s tr) :
    HInv c s tr ∧ ∀ pre k r suf, tr = pre ++ (k, r) :: suf → Call.Legit (replay pre) k r := by
  induction h with
  | fresh d i ha h =>
    obtain ⟨n, hn, h'⟩ := init_alike hc ha rfl h
    have hc' := hc.sized n hn
    obtain ⟨h1, h2⟩ := history_inv hc' (.fresh always always always_exact always_exact h')
    exact ⟨h1.ofSized, h2⟩
  | @call d i k s tr o _ ha hg ho hok ih =>
    have key : HInv c o.st (tr ++ [(k, o.res)]) ∧ Call.Legit (replay tr) k o.res := by
      cases k with
      | create =>
        obtain ⟨t, d', i', ht, hd, hi, hg', -, e⟩ := create_alike' hc ha ih.1.inv.base.len_eq hg
        rw [e] at ho
        have := create_h (hc.sized c.page ht) (ih.1.sized c.page t) hd hi hg' ho hok
        exact ⟨this.1.ofSized, this.2.1⟩
      | update i x y => have := update_h hc ih.1 ho hok; exact ⟨this.1, this.2.1⟩
      | delete i => have := delete_h hc ih.1 ho hok; exact ⟨this.1, this.2.1⟩
    refine ⟨key.1, ?_⟩
    intro pre k' r suf he
    rcases snoc_split he with ⟨rfl, e2, -⟩ | ⟨suf', e2⟩
    · cases e2; exact key.2
    · exact ih.2 pre k' r suf' e2
  | @reopen d i n s s' tr _ ha hin hlt ih =>
    obtain ⟨⟨hv, htop, hview, hord⟩, hl⟩ := ih
    obtain ⟨n', hn, h'⟩ := init_alike hc ha rfl hin
    have hc' := (hc.sized n' hn).withAllocs always_exact always_exact
    obtain ⟨h1, h2, h3⟩ := init_reopen hc' ((hv.sized n' n').withAllocs always always) h' hlt
    have h1 := h1.ofAllocs.ofSized
    refine ⟨⟨h1, by rw [h2, htop], ?_, hord⟩, hl⟩
    rw [← hview]
    funext k
    rw [view_eq hc h1.toInv0, view_eq hc hv.toInv0, h3]
    by_cases hk : LiveIn s (slots tr).free k
    · rw [if_pos hk, if_pos ⟨hk.1, by rw [h2]; exact hk.2.1, hk.2.2⟩]
    · rw [if_neg hk, if_neg fun hk' => hk ⟨hk'.1, by rw [← h2]; exact hk'.2.1, hk'.2.2⟩]

end Verif.Split
