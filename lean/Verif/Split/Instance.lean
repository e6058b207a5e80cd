import Verif.Split.Ops
import Verif.Derived

/-!
# The split store meets the map specification under its guards (helper lemmas)
-/

namespace Verif.Split
open Verif

/-! ### Mutating calls use the handler at most once, at the end -/

theorem createEnd_uniform (c : Cfg) (s : Store) (i : Nat) :
    Uniform fun _ h st => createEnd c s i h st := by
  refine ⟨(resolveExternal c s i).map fun s' => (s', .ok (Link.nothing, ⟨i, 0, 0⟩)), ?_⟩
  intro σ hd st
  simp only [createEnd, Option.map_map]
  rfl

theorem createTop_uniform (c : Cfg) (s : Store) : Uniform fun _ h st => createTop c s h st := by
  unfold createTop
  cases h : cadd c.maxT s.hdr.allocated 1 with
  | none => exact ⟨none, fun _ _ _ => rfl⟩
  | some a =>
    simp only [Option.bind_some]
    exact createEnd_uniform c _ a

theorem createLinks_uniform (c : Cfg) (s : Store) (q : List Nat) :
    Uniform fun _ h st => createLinks c s q h st := by
  unfold createLinks
  by_cases h1 : s.hdr.firstFree = c.consts.null
  · by_cases h2 : c.consts.internalEnd ≤ s.hdr.allocated
    · exact ⟨some (s, .error (.limitReached c.consts.internalEnd)), by simp [h1, h2]⟩
    · cases h3 : csub s.hdr.reserved 1 with
      | none => exact ⟨none, by simp [h1, h2]⟩
      | some r1 =>
        by_cases h4 : r1 ≤ s.hdr.allocated
        · cases h5 : c.dalloc s.dlen (s.dlen + c.step) with
          | none => exact ⟨some (s, .error .allocFailed), by simp [h1, h2, h4]⟩
          | some d =>
            cases h7 : c.ialloc s.ilen (s.ilen + c.step) with
            | none => exact ⟨some (_, .error .allocFailed), by simp [h1, h2, h4]; exact fun _ _ _ => rfl⟩
            | some n =>
              by_cases h6 : n ≤ c.maxT
              · simp only [h1, if_true, h2, if_false, Option.bind_some, h4, h6]
                exact createTop_uniform c _
              · exact ⟨none, by simp [h1, h2, h4, h6]⟩
        · simp only [h1, if_true, h2, if_false, Option.bind_some, h4]
          exact createTop_uniform c s
  · simp only [h1, if_false]
    cases unusedDetach c s s.hdr.firstFree with
    | none => exact ⟨none, fun _ _ _ => rfl⟩
    | some s' =>
      simp only [Option.bind_some]
      exact createEnd_uniform c s' _

theorem updateLinks_uniform (c : Cfg) (s : Store) (q ch : List Nat) :
    Uniform fun _ h st => updateLinks c s q ch h st := by
  refine ⟨q[0]?.bind fun i => ch[1]?.bind fun a => ch[2]?.bind fun b =>
    (getLink c s i).bind fun
      | none => some (s, .error (.notExists i))
      | some l => (relink c s l i a b).map fun s' => (s', .ok (l, ⟨i, a, b⟩)), ?_⟩
  intro σ hd st
  unfold updateLinks
  cases q[0]? with
  | none => rfl
  | some i => cases ch[1]? with
    | none => rfl
    | some a => cases ch[2]? with
      | none => rfl
      | some b =>
        simp only [Option.bind_some]
        cases getLink c s i with
        | none => rfl
        | some r => cases r with
          | none => rfl
          | some l =>
            simp only [Option.bind_some, Option.map_map]
            rfl

theorem deleteLinks_uniform (c : Cfg) (s : Store) (q : List Nat) :
    Uniform fun _ h st => deleteLinks c s q h st := by
  cases hq : q[0]? with
  | none => exact ⟨none, by simp [deleteLinks, hq]⟩
  | some i =>
    cases hg : getLink c s i with
    | none => exact ⟨none, by simp [deleteLinks, hq, hg]⟩
    | some r => cases r with
      | none => exact ⟨some (s, .error (.notExists i)), by simp [deleteLinks, hq, hg]⟩
      | some l =>
        cases hr : resolveInternal c s i with
        | none => exact ⟨none, by simp [deleteLinks, hq, hg, hr]⟩
        | some s0 =>
          cases hu : updateLinks c s0 [i] [i, 0, 0] (fun (u : Unit) _ _ => (.cont, u)) () with
          | none => exact ⟨none, by simp [deleteLinks, hq, hg, hr, hu]⟩
          | some o =>
            cases ho : o.res with
            | error e => exact ⟨some (o.st, .error e), by simp [deleteLinks, hq, hg, hr, hu, ho]⟩
            | ok _ =>
              refine ⟨(if i < o.st.hdr.allocated then unusedAttachFirst c o.st i
                else if i = o.st.hdr.allocated then
                  (csub o.st.hdr.allocated 1).bind fun a =>
                    releaseTop c (o.st.hdr.allocated + 1)
                      { o.st with hdr := { o.st.hdr with allocated := a } }
                else none).map fun s2 => (s2, .ok (l, Link.nothing)), ?_⟩
              intro σ hd st
              simp only [deleteLinks, hq, hg, hr, hu, ho, Option.bind_some, Option.map_map]
              rfl

/-! ### View -/

variable {c : Cfg}

/-- Some representation exists. -/
def Good (c : Cfg) (s : Store) : Prop := ∃ free, Inv c s free

theorem view_eq (hc : CfgOK c) {s : Store} {free : List Nat} (h : Inv0 c s free) (i : Nat) :
    (links c).view s i = if LiveIn s free i then some (s.data i) else none := by
  unfold Links.view
  simp only [links, getLink_eq hc h.net h.exact]
  by_cases hl : LiveIn s free i <;> simp [hl, Store.linkAt]

theorem live_of_view (hc : CfgOK c) {s : Store} {free : List Nat} (h : Inv0 c s free) {i : Nat}
    {p : Nat × Nat} (hv : (links c).view s i = some p) : LiveIn s free i ∧ s.data i = p := by
  rw [view_eq hc h] at hv
  by_cases hl : LiveIn s free i
  · rw [if_pos hl] at hv; exact ⟨hl, Option.some.inj hv⟩
  · rw [if_neg hl] at hv; cases hv

theorem view_ne_none (hc : CfgOK c) {s : Store} {free : List Nat} (h : Inv0 c s free) {i : Nat} :
    (links c).view s i ≠ none ↔ LiveIn s free i := by
  rw [view_eq hc h]
  by_cases hl : LiveIn s free i <;> simp [hl]

theorem has_iff (hc : CfgOK c) {s : Store} {free : List Nat} (h : Inv0 c s free) (l : Link) :
    ((links c).view s).Has l ↔ LiveIn s free l.index ∧ l = s.linkAt l.index := by
  unfold View.Has
  rw [view_eq hc h]
  rcases l with ⟨i, a, b⟩
  by_cases hl : LiveIn s free i
  · rcases hd : s.data i with ⟨x, y⟩
    simp only [hl, if_true, Option.some.injEq, Prod.mk.injEq, Store.linkAt, Link.mk.injEq, true_and, hd]
    constructor
    · rintro ⟨h1, h2⟩; exact ⟨h1.symm, h2.symm⟩
    · rintro ⟨h1, h2⟩; exact ⟨h1.symm, h2.symm⟩
  · simp [hl]

theorem noTwinIn (hc : CfgOK c) {s : Store} {free : List Nat} (h : Inv0 c s free) {i : Nat}
    (hi : LiveIn s free i) (ht : ((links c).view s).NoTwin i) : NoTwinIn s free i := by
  by_cases h0 : s.data i = (0, 0)
  · exact Or.inl h0
  · refine Or.inr fun k hk hki he => hki ?_
    exact ht (s.data i) (by rw [view_eq hc h, if_pos hi]) h0 k (by rw [view_eq hc h, if_pos hk, he])

theorem Created.view (hc : CfgOK c) {s s' : Store} {free free' : List Nat} {i : Nat} (h : Inv0 c s free)
    (hk : Created c s free s' free' i) : (links c).view s i = none ∧
      (links c).view s' = ((links c).view s).set i (0, 0) := by
  refine ⟨by rw [view_eq hc h, if_neg hk.fresh], ?_⟩
  funext k
  unfold Links.view View.set
  simp only [links, getLink_eq hc hk.net (hk.exact h), getLink_eq hc h.net h.exact]
  by_cases hki : k = i
  · subst hki
    simp [(hk.live k).2 (Or.inr rfl), Store.linkAt, hk.data_i]
  · by_cases hl : LiveIn s free k
    · simp [(hk.live k).2 (Or.inl hl), hl, hki, Store.linkAt, hk.data k hl]
    · have : ¬ LiveIn s' free' k := fun hl' => by
        rcases (hk.live k).1 hl' with x | x
        · exact hl x
        · exact hki x
      simp [this, hl, hki]

/-- The memories can grow by one step: if the data memory grows so does the index memory, and the new size
is within the index type. -/
def CanGrow (c : Cfg) (s : Store) : Prop :=
  c.dalloc s.dlen (s.dlen + c.step) ≠ none → c.ialloc s.ilen (s.ilen + c.step) ≠ none ∧
    s.ilen + c.step ≤ c.maxT

/-- No link refers to the index a creation would return. -/
def NewUnused (c : Cfg) (s : Store) : Prop :=
  ∀ i s', (links c).create s = some ⟨.ok i, s', ()⟩ →
    ∀ j a b, (links c).view s j = some (a, b) → a ≠ i ∧ b ≠ i

theorem create_of_succeeds {s s' : Store} {i : Nat}
    (h : Links.Succeeds (fun _ h st => createLinks c s [] h st) s' Link.nothing ⟨i, 0, 0⟩) :
    (links c).create s = some ⟨.ok i, s', ()⟩ := by
  have h' : Links.Succeeds (fun _ h st => (links c).createLinks s [] h st) s' Link.nothing ⟨i, 0, 0⟩ := h
  rw [Links.create_ok h']

/-- The outcomes of a creation on a good store that can grow. -/
theorem create_cases (hc : CfgOK c) {s : Store} {free : List Nat} (h : Inv c s free) (q : List Nat) :
    (∃ x rest s', free = x :: rest ∧
      Links.Succeeds (fun _ hd st => createLinks c s q hd st) s' Link.nothing ⟨x, 0, 0⟩ ∧
      Created c s free s' rest x ∧ s'.hdr.allocated = s.hdr.allocated ∧ s'.ilen = s.ilen) ∨
    (free = [] ∧ c.consts.internalEnd ≤ s.hdr.allocated ∧
      Links.Fails (fun _ hd st => createLinks c s q hd st) s (.limitReached c.consts.internalEnd)) ∨
    (free = [] ∧ s.hdr.allocated < c.consts.internalEnd ∧
      c.dalloc s.dlen (s.dlen + c.step) = none ∧
      Links.Fails (fun _ hd st => createLinks c s q hd st) s .allocFailed) ∨
    (free = [] ∧ s.hdr.allocated < c.consts.internalEnd ∧
      c.dalloc s.dlen (s.dlen + c.step) ≠ none ∧ c.ialloc s.ilen (s.ilen + c.step) = none ∧
      Links.Fails (fun _ hd st => createLinks c s q hd st)
        { s with dlen := s.dlen + c.step, stale := true } .allocFailed) ∨
    (free = [] ∧ s.hdr.allocated < c.consts.internalEnd ∧
      c.dalloc s.dlen (s.dlen + c.step) ≠ none ∧ c.ialloc s.ilen (s.ilen + c.step) ≠ none ∧
      c.maxT < s.ilen + c.step ∧ ∀ (σ : Type) (hd : WH σ) (st : σ), createLinks c s q hd st = none) ∨
    (free = [] ∧ s.hdr.allocated < c.consts.internalEnd ∧ ∃ s',
      Links.Succeeds (fun _ hd st => createLinks c s q hd st) s' Link.nothing ⟨s.hdr.allocated + 1, 0, 0⟩ ∧
      Created c s free s' [] (s.hdr.allocated + 1) ∧ s'.hdr.allocated = s.hdr.allocated + 1) := by
  have hu := createLinks_uniform c s q
  rcases createLinks_ok hc h q recH none with ⟨x, rest, s', hf, h1, h2⟩ | ⟨hf, h1, h2⟩ |
    ⟨hf, h1, h2, h3, h4⟩ | ⟨hf, h1, h2, h3, h4, h5⟩ | ⟨hf, h1, h2, h3, h4, h5, h6⟩ | ⟨hf, h1, s', h2, h3⟩
  · exact .inl ⟨x, rest, s', hf, hu.succeeds h1, h2⟩
  · exact .inr (.inl ⟨hf, h1, hu.fails h2⟩)
  · exact .inr (.inr (.inl ⟨hf, h1, h3, hu.fails h4⟩))
  · exact .inr (.inr (.inr (.inl ⟨hf, h1, h3, h4, hu.fails h5⟩)))
  · exact .inr (.inr (.inr (.inr (.inl ⟨hf, h1, h3, h4, h5, hu.noneAll h6⟩))))
  · exact .inr (.inr (.inr (.inr (.inr ⟨hf, h1, s', hu.succeeds h2, h3⟩))))

theorem Created.inv (hc : CfgOK c) {s s' : Store} {free free' : List Nat} {i : Nat} (h : Inv c s free)
    (hk : Created c s free s' free' i) (hlt : ∀ x ∈ free', x < s'.hdr.allocated)
    (hg : ∀ j a b, (links c).view s j = some (a, b) → a ≠ i ∧ b ≠ i) : Inv c s' free' := by
  refine ⟨hk.inv0 h.toInv0 ?_, hlt⟩
  intro d k hl
  have := hg k (s.data k).1 (s.data k).2 (by rw [view_eq hc h.toInv0, if_pos hl])
  cases d
  · exact this.1
  · exact this.2

theorem create_law (hc : CfgOK c) {s : Store} (h : Good c s) (hg : CanGrow c s)
    (hn : NewUnused c s) (q : List Nat) :
    (∃ e, Links.Fails (fun _ hd st => createLinks c s q hd st) s e) ∨
    (∃ i s', (links c).view s i = none ∧ Good c s' ∧
      (links c).view s' = ((links c).view s).set i (0, 0) ∧
      Links.Succeeds (fun _ hd st => createLinks c s q hd st) s' Link.nothing ⟨i, 0, 0⟩) := by
  obtain ⟨free, h⟩ := h
  have hq : (∀ {s' e}, Links.Succeeds (fun _ hd st => createLinks c s q hd st) s' Link.nothing e →
      Links.Succeeds (fun _ hd st => createLinks c s [] hd st) s' Link.nothing e) := fun hS => hS
  rcases create_cases hc h q with ⟨x, rest, s', hf, h1, h2, h3, h4⟩ | ⟨hf, h1, h2⟩ | ⟨hf, h1, h2, h3⟩ |
    ⟨hf, h1, h2, h3, h4⟩ | ⟨hf, h1, h2, h3, h4, h5⟩ | ⟨hf, h1, s', h2, h3, h4⟩
  · obtain ⟨g1, g2⟩ := h2.view hc h.toInv0
    refine Or.inr ⟨x, s', g1, ⟨rest, h2.inv hc h ?_ (hn x s' (create_of_succeeds (hq h1)))⟩, g2, h1⟩
    intro y hy
    rw [h3]; exact h.free_lt y (by rw [hf]; simp [hy])
  · exact Or.inl ⟨_, h2⟩
  · exact Or.inl ⟨_, h3⟩
  · exact absurd h3 (hg h2).1
  · exact absurd (hg h2).2 (by omega)
  · obtain ⟨g1, g2⟩ := h3.view hc h.toInv0
    exact Or.inr ⟨_, s', g1, ⟨[], h3.inv hc h (by simp) (hn _ s' (create_of_succeeds (hq h2)))⟩, g2, h2⟩

/-- Which updates the store supports, in terms of the contents. -/
def CanUpdate (v : View) (i a b : Nat) : Prop :=
  (a ≠ 0 → b ≠ 0) ∧ (a = i ∨ b = i → ∀ p, v i = some p → p.1 = 0)

/-- Which deletions the store supports, in terms of the contents. -/
def CanDelete (v : View) (i : Nat) : Prop := ∀ j, v.Uses i j → v.NoTwin j

theorem update_law (hc : CfgOK c) {s : Store} (h : Good c s) {i : Nat} {p : Nat × Nat}
    (hv : (links c).view s i = some p) (ht : ((links c).view s).NoTwin i) (x a b : Nat)
    (hu : CanUpdate ((links c).view s) i a b) :
    ∃ s', Good c s' ∧ (links c).view s' = ((links c).view s).set i (a, b) ∧
      Links.Succeeds (fun _ hd st => updateLinks c s [i] [x, a, b] hd st) s' ⟨i, p.1, p.2⟩ ⟨i, a, b⟩ := by
  obtain ⟨free, h⟩ := h
  obtain ⟨hi, hp⟩ := live_of_view hc h.toInv0 hv
  obtain ⟨s', h1, h2, h3, h4, h5⟩ := updateLinks_ok hc h hi (noTwinIn hc h.toInv0 hi ht) [] x a b []
    ⟨hu.1, fun hh => hu.2 hh _ (by rw [hp]; exact hv)⟩ recH none
  have hl : s.linkAt i = ⟨i, p.1, p.2⟩ := by rw [← hp]; rfl
  rw [hl] at h1
  refine ⟨s', ⟨_, h2⟩, ?_, (updateLinks_uniform c s [i] [x, a, b]).succeeds h1⟩
  funext k
  rw [View.set, view_eq hc h.toInv0, view_eq hc h2.toInv0, h5]
  have : LiveIn s' free k ↔ LiveIn s free k := by simp only [LiveIn, h4]
  simp only [this]
  by_cases hk : k = i
  · subst hk; simp [hi]
  · simp [hk]

theorem delete_law (hc : CfgOK c) {s : Store} (h : Good c s) {i : Nat} {p : Nat × Nat}
    (hv : (links c).view s i = some p) (ht : ((links c).view s).NoTwin i)
    (hu : CanDelete ((links c).view s) i) :
    ∃ s', Good c s' ∧ (links c).view s' = ((links c).view s).del i ∧
      Links.Succeeds (fun _ hd st => deleteLinks c s [i] hd st) s' ⟨i, p.1, p.2⟩ Link.nothing := by
  obtain ⟨free, h⟩ := h
  obtain ⟨hi, hp⟩ := live_of_view hc h.toInv0 hv
  obtain ⟨s', free', h1, h2, h3, h4, h5, h6, h7⟩ :=
    deleteLinks_ok hc h hi (noTwinIn hc h.toInv0 hi ht) (by
      intro d k hk
      refine noTwinIn hc h.toInv0 hk.1 (hu k ⟨hk.2.1, (s.data k).1, (s.data k).2,
        by rw [view_eq hc h.toInv0, if_pos hk.1], ?_⟩)
      cases d
      · exact Or.inl hk.2.2
      · exact Or.inr hk.2.2) [] recH none
  have hl : s.linkAt i = ⟨i, p.1, p.2⟩ := by rw [← hp]; rfl
  rw [hl] at h1
  refine ⟨s', ⟨_, h2⟩, ?_, (deleteLinks_uniform c s [i]).succeeds h1⟩
  funext k
  rw [View.del, view_eq hc h.toInv0, view_eq hc h2.toInv0]
  by_cases hk : k = i
  · subst hk
    rw [if_pos rfl, if_neg]
    intro hl; exact ((h6 k).1 hl).2 rfl
  · rw [if_neg hk]
    by_cases hl : LiveIn s free k
    · rw [if_pos hl, if_pos ((h6 k).2 ⟨hl, hk⟩), h7 k hl hk]
    · rw [if_neg hl, if_neg fun hl' => hl ((h6 k).1 hl').1]

end Verif.Split
