import Verif.Unit.Reads
import Verif.SpecLemmas

/-!
# The united store as an instance of the traits, and proof of the contract (helper lemmas)
-/

namespace Verif.Unit
open Verif

/-- `impl Links for Store` and `impl Doublets for Store` (`doublets/src/mem/unit/store.rs:322-567`). -/
def links (c : Cfg) : Links Store where
  maxT := c.maxT
  consts _ := c.consts
  countLinks := countLinks c
  createLinks := createLinks c
  eachLinks := eachLinks c
  updateLinks := updateLinks c
  deleteLinks := deleteLinks c
  getLink := getLink c

/-! ### Mutating calls use the handler at most once, at the end -/

theorem createLinks_uniform (c : Cfg) (s : Store) (q : List Nat) :
    Uniform fun _ h st => createLinks c s q h st := by
  unfold createLinks createTop
  by_cases h1 : s.hdr.firstFree = c.consts.null
  · by_cases h2 : c.consts.internalEnd ≤ s.hdr.allocated
    · exact ⟨some (s, .error (.limitReached c.consts.internalEnd)), by simp [h1, h2]⟩
    · cases h3 : csub s.hdr.reserved 1 with
      | none => exact ⟨none, by simp [h1, h2]⟩
      | some r1 =>
        by_cases h4 : r1 ≤ s.hdr.allocated
        · cases h5 : c.alloc s.len (s.len + c.step) with
          | none => exact ⟨some (s, .error .allocFailed), by simp [h1, h2, h4, h5]⟩
          | some n =>
            by_cases h6 : n ≤ c.maxT
            · refine ⟨(cadd c.maxT s.hdr.allocated 1).map fun a =>
                ({ s with len := n, hdr := { s.hdr with reserved := n, allocated := a } },
                  .ok (Link.nothing, ⟨a, 0, 0⟩)), ?_⟩
              intro σ hd st
              simp only [h1, if_true, h2, if_false, Option.bind_some, h4, h5, h6, Option.map_map]
              rfl
            · exact ⟨none, by simp [h1, h2, h4, h5, h6]⟩
        · refine ⟨(cadd c.maxT s.hdr.allocated 1).map fun a =>
            ({ s with hdr := { s.hdr with allocated := a } }, .ok (Link.nothing, ⟨a, 0, 0⟩)), ?_⟩
          intro σ hd st
          simp only [h1, if_true, h2, if_false, Option.bind_some, h4, Option.map_map]
          rfl
  · refine ⟨(unusedDetach c s s.hdr.firstFree).map fun s' =>
      (s', .ok (Link.nothing, ⟨s.hdr.firstFree, 0, 0⟩)), ?_⟩
    intro σ hd st
    simp only [h1, if_false, Option.map_map]
    rfl

theorem updateLinks_uniform (c : Cfg) (s : Store) (q ch : List Nat) :
    Uniform fun _ h st => updateLinks c s q ch h st := by
  refine ⟨q[0]?.bind fun i => ch[1]?.bind fun a => ch[2]?.bind fun b =>
    (getLink c s i).bind fun
      | none => some (s, .error (.notExists i))
      | some l => (relink c s l i a b).map fun s' => (s', .ok (⟨i, a, b⟩, ⟨i, a, b⟩)), ?_⟩
  intro σ hd st
  unfold updateLinks
  cases q[0]? with
  | none => rfl
  | some i => cases ch[1]? with
    | none => rfl
    | some a => cases ch[2]? with
      | none => rfl
      | some b =>
        simp only [Option.bind_some]
        cases getLink c s i with
        | none => rfl
        | some r => cases r with
          | none => rfl
          | some l =>
            simp only [Option.bind_some, Option.map_map]
            rfl

theorem deleteLinks_uniform (c : Cfg) (s : Store) (q : List Nat) :
    Uniform fun _ h st => deleteLinks c s q h st := by
  cases hq : q[0]? with
  | none => exact ⟨none, by simp [deleteLinks, hq]⟩
  | some i =>
    cases hg : getLink c s i with
    | none => exact ⟨none, by simp [deleteLinks, hq, hg]⟩
    | some r => cases r with
      | none => exact ⟨some (s, .error (.notExists i)), by simp [deleteLinks, hq, hg]⟩
      | some l =>
        cases hu : updateLinks c s [i] [i, 0, 0] (fun (u : _root_.Unit) _ _ => (.cont, u)) () with
        | none => exact ⟨none, by simp [deleteLinks, hq, hg, hu]⟩
        | some o =>
          cases ho : o.res with
          | error e => exact ⟨some (o.st, .error e), by simp [deleteLinks, hq, hg, hu, ho]⟩
          | ok _ =>
            refine ⟨(if i < o.st.hdr.allocated then unusedAttachFirst c o.st i
              else if i = o.st.hdr.allocated then
                (csub o.st.hdr.allocated 1).bind fun a =>
                  releaseTop c (o.st.hdr.allocated + 1)
                    { o.st with hdr := { o.st.hdr with allocated := a } }
              else none).map fun s2 => (s2, .ok (l, Link.nothing)), ?_⟩
            intro σ hd st
            simp only [deleteLinks, hq, hg, hu, ho, Option.bind_some, Option.map_map]
            rfl

/-! ### View -/

variable {c : Cfg}

/-- Some representation exists. -/
def Good (c : Cfg) (s : Store) : Prop := ∃ free ts tt, Inv c s free ts tt

theorem view_eq (hc : CfgOK c) {s : Store} {free : List Nat} {ts tt : Tree}
    (h : Inv0 c s free ts tt) (i : Nat) :
    (links c).view s i = if LiveIn s free i then some (s.lk i) else none := by
  unfold Links.view
  simp only [links, getLink_eq hc h]
  by_cases hl : LiveIn s free i <;> simp [hl, Store.linkAt, Store.lk]

theorem has_iff (hc : CfgOK c) {s : Store} {free : List Nat} {ts tt : Tree}
    (h : Inv0 c s free ts tt) (l : Link) :
    ((links c).view s).Has l ↔ LiveIn s free l.index ∧ l = s.linkAt l.index := by
  unfold View.Has
  rw [view_eq hc h]
  rcases l with ⟨i, a, b⟩
  by_cases hl : LiveIn s free i
  · simp only [hl, if_true, Store.lk, Option.some.injEq, Prod.mk.injEq, Store.linkAt, Link.mk.injEq,
      true_and]
    constructor
    · rintro ⟨h1, h2⟩; exact ⟨h1.symm, h2.symm⟩
    · rintro ⟨h1, h2⟩; exact ⟨h1.symm, h2.symm⟩
  · simp [hl]

theorem noTwinIn (hc : CfgOK c) {s : Store} {free : List Nat} {ts tt : Tree}
    (h : Inv0 c s free ts tt) {i : Nat} (hi : LiveIn s free i)
    (ht : ((links c).view s).NoTwin i) : NoTwinIn s free i := by
  by_cases h0 : s.lk i = (0, 0)
  · exact Or.inl h0
  · refine Or.inr fun k hk hki he => hki ?_
    exact ht (s.lk i) (by rw [view_eq hc h, if_pos hi]) h0 k (by rw [view_eq hc h, if_pos hk, he])

/-- What the constants allow a store to grow to in one step. -/
def CanGrow (c : Cfg) (s : Store) : Prop :=
  ∀ n, c.alloc s.len (s.len + c.step) = some n → n ≤ c.maxT

theorem create_law (hc : CfgOK c) {s : Store} (h : Good c s) (hg : CanGrow c s) (q : List Nat) :
    (∃ e, Links.Fails (fun _ hd st => createLinks c s q hd st) s e) ∨
    (∃ i s', (links c).view s i = none ∧ Good c s' ∧
      (links c).view s' = ((links c).view s).set i (0, 0) ∧
      Links.Succeeds (fun _ hd st => createLinks c s q hd st) s' Link.nothing ⟨i, 0, 0⟩) := by
  obtain ⟨free, ts, tt, h⟩ := h
  have hu := createLinks_uniform c s q
  rcases createLinks_ok hc h q recH none with ⟨x, rest, s', hf, h1, h2, h3, h4, h5, h6⟩ |
    ⟨hf, h1, h2⟩ | ⟨hf, h1, h2, h3, h4⟩ | ⟨hf, h1, h2, n, h3, h4, h5⟩ | ⟨hf, h1, s', h2, h3, h4, h5, h6⟩
  · refine Or.inr ⟨x, s', ?_, ⟨_, _, _, h2⟩, ?_, hu.succeeds h1⟩
    · rw [view_eq hc h.toInv0, if_neg]
      intro hl; exact hl.2.2 (by simp [hf])
    · subst hf
      have hn := h.base.list.nodup
      rw [List.nodup_cons] at hn
      have hx0 := h.base.list.nonzero x (by simp)
      have hxle := h.base.free_le x (by simp)
      funext k
      rw [View.set, view_eq hc h.toInv0, view_eq hc h2.toInv0]
      by_cases hk : k = x
      · subst hk
        rw [if_pos rfl, if_pos ⟨by omega, by omega, hn.1⟩, h5]
      · rw [if_neg hk]
        by_cases hl : LiveIn s (x :: rest) k
        · have hl' : LiveIn s' rest k := ⟨hl.1, by rw [h3]; exact hl.2.1, fun hm => hl.2.2 (by simp [hm])⟩
          rw [if_pos hl, if_pos hl', h6 k hl.2.2]
        · rw [if_neg hl, if_neg]
          intro hl'
          exact hl ⟨hl'.1, by rw [← h3]; exact hl'.2.1, by simp [hk, hl'.2.2]⟩
  · exact Or.inl ⟨_, hu.fails h2⟩
  · exact Or.inl ⟨_, hu.fails h4⟩
  · exact absurd (hg n h3) (by omega)
  · refine Or.inr ⟨_, s', ?_, ⟨_, _, _, h3⟩, ?_, hu.succeeds h2⟩
    · rw [view_eq hc h.toInv0, if_neg]
      intro hl; have := hl.2.1; omega
    · subst hf
      funext k
      rw [View.set, view_eq hc h.toInv0, view_eq hc h3.toInv0]
      by_cases hk : k = s.hdr.allocated + 1
      · subst hk
        rw [if_pos rfl, if_pos ⟨by omega, by omega, by simp⟩, h5]
      · rw [if_neg hk, h6]
        have : LiveIn s' [] k ↔ LiveIn s [] k := by
          simp only [LiveIn, h4, List.not_mem_nil, not_false_eq_true, and_true]
          omega
        simp only [this]

theorem update_law (hc : CfgOK c) {s : Store} (h : Good c s) {i : Nat} {p : Nat × Nat}
    (hv : (links c).view s i = some p) (ht : ((links c).view s).NoTwin i) (x a b : Nat) :
    ∃ s', Good c s' ∧ (links c).view s' = ((links c).view s).set i (a, b) ∧
      Links.Succeeds (fun _ hd st => updateLinks c s [i] [x, a, b] hd st) s' ⟨i, a, b⟩ ⟨i, a, b⟩ := by
  obtain ⟨free, ts, tt, h⟩ := h
  have hi : LiveIn s free i := by
    by_cases hl : LiveIn s free i
    · exact hl
    · rw [view_eq hc h.toInv0, if_neg hl] at hv; simp at hv
  obtain ⟨s', ts', tt', h1, h2, h3, h4, h5⟩ :=
    updateLinks_ok hc h hi (noTwinIn hc h.toInv0 hi ht) [] x a b [] recH none
  refine ⟨s', ⟨_, _, _, h2⟩, ?_, (updateLinks_uniform c s [i] [x, a, b]).succeeds h1⟩
  funext k
  rw [View.set, view_eq hc h.toInv0, view_eq hc h2.toInv0, h5]
  have : LiveIn s' free k ↔ LiveIn s free k := by simp only [LiveIn, h4]
  simp only [this]
  by_cases hk : k = i
  · subst hk; simp [hi]
  · simp [hk]

theorem delete_law (hc : CfgOK c) {s : Store} (h : Good c s) {i : Nat} {p : Nat × Nat}
    (hv : (links c).view s i = some p) (ht : ((links c).view s).NoTwin i) :
    ∃ s', Good c s' ∧ (links c).view s' = ((links c).view s).del i ∧
      Links.Succeeds (fun _ hd st => deleteLinks c s [i] hd st) s' ⟨i, p.1, p.2⟩ Link.nothing := by
  obtain ⟨free, ts, tt, h⟩ := h
  have hi : LiveIn s free i := by
    by_cases hl : LiveIn s free i
    · exact hl
    · rw [view_eq hc h.toInv0, if_neg hl] at hv; simp at hv
  rw [view_eq hc h.toInv0, if_pos hi] at hv
  obtain ⟨s', free', ts', tt', h1, h2, h3, h4, h5, h6, h7⟩ :=
    deleteLinks_ok hc h hi (noTwinIn hc h.toInv0 hi ht) [] recH none
  have hp : s.linkAt i = ⟨i, p.1, p.2⟩ := by
    simp only [Option.some.injEq, Store.lk] at hv
    rw [← hv]; rfl
  rw [hp] at h1
  refine ⟨s', ⟨_, _, _, h2⟩, ?_, (deleteLinks_uniform c s [i]).succeeds h1⟩
  funext k
  rw [View.del, view_eq hc h.toInv0, view_eq hc h2.toInv0]
  by_cases hk : k = i
  · subst hk
    rw [if_pos rfl, if_neg]
    intro hl; exact ((h6 k).1 hl).2 rfl
  · rw [if_neg hk]
    by_cases hl : LiveIn s free k
    · rw [if_pos hl, if_pos ((h6 k).2 ⟨hl, hk⟩), h7 k hl hk]
    · rw [if_neg hl, if_neg fun hl' => hl ((h6 k).1 hl').1]

end Verif.Unit
