import Verif.Split.History

/-!
# Split store: histories in which creations reuse indices that links refer to

A link that referred to a missing index stays in the tree of dangling references when a creation makes that index a link,
and a link that has a source and is made to refer to itself goes to that tree as well. Queries for the end look
elsewhere. `Filed` is the contents together with the references that are lost in this way; `LostHistory` relates the
states of the store to it.
-/

namespace Verif

/-- Link `k` refers to `e` as its source (`d = src`) or as its target. -/
def View.Refers (v : View) (d : Split.Side) (k e : Nat) : Prop :=
  match d with
  | .src => ∃ b, v k = some (e, b)
  | .tgt => ∃ a, v k = some (a, e)

/-- The contents of a split store, and the references that queries do not find: `lost src k` says that link `k` is not
found by its source, `lost tgt k` that it is not found by its target. -/
structure Filed where
  view : View
  lost : Split.Side → Nat → Prop

namespace Filed

/-- Nothing stored. -/
def empty : Filed := ⟨fun _ => none, fun _ _ => False⟩

/-- A creation that returns `i` loses all references to `i`. -/
def create (f : Filed) (i : Nat) : Filed :=
  ⟨f.view.set i (0, 0), fun d k => f.lost d k ∨ f.view.Refers d k i⟩

/-- An update of `i` loses its references to `i` itself if `i` had a source; other links are not affected. -/
def update (f : Filed) (i a b : Nat) : Filed :=
  ⟨f.view.set i (a, b), fun d k =>
    (k ≠ i ∧ f.lost d k) ∨
    (k = i ∧ (f.view.set i (a, b)).Refers d i i ∧ ∃ x y, f.view i = some (x, y) ∧ x ≠ 0)⟩

/-- A deletion of `i` recovers the references to `i`. -/
def delete (f : Filed) (i : Nat) : Filed :=
  ⟨f.view.del i, fun d k => f.lost d k ∧ k ≠ i ∧ ¬ f.view.Refers d k i⟩

/-- What a call that returned `r` does to the contents. -/
def after (f : Filed) : Call → Except Err Nat → Filed
  | .create, .ok i => f.create i
  | .update i a b, .ok _ => f.update i a b
  | .delete i, .ok _ => f.delete i
  | _, .error _ => f

/-- Every other link with the same doublet as `i` is lost on side `d`, if that end of `i` is not null. -/
def Single (f : Filed) (d : Split.Side) (i : Nat) : Prop :=
  ∀ j p, j ≠ i → f.view i = some p → f.view j = some p → ¬ f.view.Refers d i 0 → f.lost d j

/-- The calls the store supports: every creation; updates that do not give a source without a target, and deletions, of
links that are not lost and the only ones to be found with their doublet; for a deletion the links found as its
users must be so too. -/
def Allows (f : Filed) : Call → Prop
  | .create => True
  | .update i a b => (∀ d, ¬ f.lost d i ∧ f.Single d i) ∧ (a ≠ 0 → b ≠ 0)
  | .delete i => (∀ d, ¬ f.lost d i ∧ f.Single d i) ∧
      ∀ d k, k ≠ i → f.view.Refers d k i → ¬ f.lost d k → f.Single d k

end Filed
end Verif

namespace Verif.Split
open Verif
open Verif.Unit (lastUsed_eq)

/-- A store opened on two empty memories is in state `s` after a history of calls the store supports, which leaves
the contents `f`. -/
inductive LostHistory (c : Cfg) : Store → Filed → Prop
  | fresh (d i) {s : Store} : ExactAlloc d → ExactAlloc i → init (c.withAllocs d i) {} = some (.ok s) →
      LostHistory c s .empty
  | call (d i) (k : Call) {s : Store} {f} {o : Out Store Unit Nat} : LostHistory c s f → ExactAlloc d →
      ExactAlloc i → (k = .create → GrowTogether (c.withAllocs d i) s) → f.Allows k → step c d i s k = some o →
      LostHistory c o.st (f.after k o.res)
  | reopen (d i) (n m : Nat) {s s' : Store} {f} : LostHistory c s f → ExactAlloc d → ExactAlloc i →
      init (c.withAllocs d i) { s with dlen := n, ilen := m } = some (.ok s') → s.hdr.allocated < s'.ilen →
      LostHistory c s' f

variable {c : Cfg}

/-- How the store represents the contents `f`. -/
structure At (c : Cfg) (s : Store) (free : List Nat) (f : Filed) : Prop where
  net : Net c s free (fun d k => IntRef s free d k ∧ ¬ f.lost d k) (fun d k => ExtRef s free d k ∨ f.lost d k)
  lost : ∀ d k, f.lost d k → IntRef s free d k
  half : ∀ k, LiveIn s free k → (s.data k).1 ≠ 0 → (s.data k).2 ≠ 0
  free_lt : ∀ x ∈ free, x < s.hdr.allocated
  view : ∀ i, f.view i = if LiveIn s free i then some (s.data i) else none

theorem At.exact {s : Store} {free : List Nat} {f : Filed} (h : At c s free f) :
    Exact s free (fun d k => IntRef s free d k ∧ ¬ f.lost d k) (fun d k => ExtRef s free d k ∨ f.lost d k) := by
  intro e he hs
  have ht := h.half e he hs
  by_cases hl : LiveIn s free (s.data e).2
  · by_cases hlo : f.lost .tgt e
    · exact Or.inr (Or.inr hlo)
    · exact Or.inl ⟨⟨he, ht, hl⟩, hlo⟩
  · exact Or.inr (Or.inl ⟨he, ht, hl⟩)

theorem At.links_view (hc : CfgOK c) {s : Store} {free : List Nat} {f : Filed} (h : At c s free f) :
    (links c).view s = f.view := by
  funext i
  rw [h.view]
  unfold Links.view
  simp only [links, getLink_eq hc h.net h.exact]
  by_cases hl : LiveIn s free i <;> simp [hl, Store.linkAt]

theorem At.live {s : Store} {free : List Nat} {f : Filed} (h : At c s free f) {i : Nat} :
    f.view i ≠ none ↔ LiveIn s free i := by
  rw [h.view]
  by_cases hl : LiveIn s free i <;> simp [hl]

theorem At.some_iff {s : Store} {free : List Nat} {f : Filed} (h : At c s free f) {i : Nat} {p : Nat × Nat} :
    f.view i = some p ↔ LiveIn s free i ∧ s.data i = p := by
  rw [h.view]
  by_cases hl : LiveIn s free i <;> simp [hl]

theorem refers_iff (v : View) (d : Side) (k e : Nat) : v.Refers d k e ↔ ∃ p, v k = some p ∧ endOf d p = e := by
  cases d
  · constructor
    · rintro ⟨b, h⟩; exact ⟨_, h, rfl⟩
    · rintro ⟨⟨a, b⟩, h, rfl⟩; exact ⟨b, h⟩
  · constructor
    · rintro ⟨b, h⟩; exact ⟨_, h, rfl⟩
    · rintro ⟨⟨a, b⟩, h, rfl⟩; exact ⟨a, h⟩

theorem At.refers {s : Store} {free : List Nat} {f : Filed} (h : At c s free f) {d : Side} {k e : Nat} :
    f.view.Refers d k e ↔ LiveIn s free k ∧ endOf d (s.data k) = e := by
  rw [refers_iff]
  constructor
  · rintro ⟨p, h1, h2⟩
    obtain ⟨h3, rfl⟩ := h.some_iff.1 h1
    exact ⟨h3, h2⟩
  · rintro ⟨h1, h2⟩; exact ⟨_, h.some_iff.2 ⟨h1, rfl⟩, h2⟩

/-- A link that is the only one to be found with its doublet has no twin in its tree. -/
theorem At.single {s : Store} {free : List Nat} {f : Filed} (h : At c s free f) {d : Side} {i : Nat}
    (hi : LiveIn s free i) (hs : f.Single d i) (he : endOf d (s.data i) ≠ 0) {k : Nat} (hk : LiveIn s free k)
    (hki : k ≠ i) (heq : s.data k = s.data i) : f.lost d k :=
  hs k (s.data i) hki (h.some_iff.2 ⟨hi, rfl⟩) (h.some_iff.2 ⟨hk, heq⟩) fun hr => he (h.refers.1 hr).2

theorem At.created {s s' : Store} {free free' : List Nat} {f : Filed} {i : Nat} (h : At c s free f) (hi0 : i ≠ 0)
    (hk : CreatedN c s free (fun d k => IntRef s free d k ∧ ¬ f.lost d k)
      (fun d k => ExtRef s free d k ∨ f.lost d k) s' free' i)
    (hlt : ∀ x ∈ free', x < s'.hdr.allocated) : At c s' free' (f.create i) := by
  have hz : ∀ d, endOf d ((0, 0) : Nat × Nat) = 0 := by intro d; cases d <;> rfl
  have hI : ∀ d k, IntRef s' free' d k ↔ IntRef s free d k ∨ (LiveIn s free k ∧ endOf d (s.data k) = i) := by
    intro d k
    simp only [IntRef, hk.live]
    constructor
    · rintro ⟨a1 | rfl, a2, a3⟩
      · rw [hk.data k a1] at a2 a3
        exact a3.imp (fun x => ⟨a1, a2, x⟩) (fun x => ⟨a1, x⟩)
      · rw [hk.data_i, hz] at a2; exact absurd rfl a2
    · rintro (⟨a1, a2, a3⟩ | ⟨a1, a2⟩)
      · rw [hk.data k a1]; exact ⟨Or.inl a1, a2, Or.inl a3⟩
      · rw [hk.data k a1, a2]; exact ⟨Or.inl a1, hi0, Or.inr rfl⟩
  have hE : ∀ d k, ExtRef s' free' d k ↔ ExtRef s free d k ∧ endOf d (s.data k) ≠ i := by
    intro d k
    simp only [ExtRef, hk.live]
    constructor
    · rintro ⟨a1 | rfl, a2, a3⟩
      · rw [hk.data k a1] at a2 a3
        exact ⟨⟨a1, a2, fun x => a3 (Or.inl x)⟩, fun x => a3 (Or.inr x)⟩
      · rw [hk.data_i, hz] at a2; exact absurd rfl a2
    · rintro ⟨⟨a1, a2, a3⟩, a4⟩
      rw [hk.data k a1]; exact ⟨Or.inl a1, a2, fun x => x.elim a3 a4⟩
  have hni : ∀ d k, IntRef s free d k → endOf d (s.data k) ≠ i := fun d k hk' e => hk.fresh (e ▸ hk'.2.2)
  refine ⟨hk.net.iff ?_ ?_, ?_, ?_, hlt, ?_⟩
  · intro d k
    show IntRef s' free' d k ∧ ¬ (f.lost d k ∨ f.view.Refers d k i) ↔ _
    rw [hI, h.refers]
    constructor
    · rintro ⟨a1 | a1, a2⟩
      · exact ⟨a1, fun x => a2 (Or.inl x)⟩
      · exact absurd (Or.inr a1) a2
    · rintro ⟨a1, a2⟩
      exact ⟨Or.inl a1, fun x => x.elim a2 fun y => hni d k a1 y.2⟩
  · intro d k
    show ExtRef s' free' d k ∨ f.lost d k ∨ f.view.Refers d k i ↔ _
    rw [hE, h.refers]
    constructor
    · rintro (a1 | a1 | a1)
      · exact Or.inl a1.1
      · exact Or.inr a1
      · exact Or.inl ⟨a1.1, by rw [a1.2]; exact hi0, by rw [a1.2]; exact hk.fresh⟩
    · rintro (a1 | a1)
      · by_cases he : endOf d (s.data k) = i
        · exact Or.inr (Or.inr ⟨a1.1, he⟩)
        · exact Or.inl ⟨a1, he⟩
      · exact Or.inr (Or.inl a1)
  · rintro d k (a1 | a1)
    · exact (hI d k).2 (Or.inl (h.lost d k a1))
    · exact (hI d k).2 (Or.inr (h.refers.1 a1))
  · intro k hl
    rw [hk.live] at hl
    rcases hl with hl | rfl
    · rw [hk.data k hl]; exact h.half k hl
    · rw [hk.data_i]; intro x; exact absurd rfl x
  · intro k
    show f.view.set i (0, 0) k = _
    by_cases hki : k = i
    · subst hki
      rw [if_pos ((hk.live k).2 (Or.inr rfl)), hk.data_i]; simp [View.set]
    · simp only [View.set, if_neg hki, h.view k]
      by_cases hl : LiveIn s free k
      · rw [if_pos hl, if_pos ((hk.live k).2 (Or.inl hl)), hk.data k hl]
      · rw [if_neg hl, if_neg fun hl' => ((hk.live k).1 hl').elim hl hki]

theorem At.updated (hc : CfgOK c) {s : Store} {free : List Nat} {f : Filed} (h : At c s free f) {i : Nat}
    (hi : LiveIn s free i) {a b : Nat} (hg : f.Allows (.update i a b)) (q : List Nat) (x : Nat)
    (ch : List Nat) {σ : Type} (hd : WH σ) (st : σ) :
    ∃ s', updateLinks c s (i :: q) (x :: a :: b :: ch) hd st =
        some ⟨.ok (hd st (s.linkAt i) ⟨i, a, b⟩).1, s', (hd st (s.linkAt i) ⟨i, a, b⟩).2⟩ ∧
      At c s' free (f.update i a b) ∧ s'.hdr.allocated = s.hdr.allocated := by
  obtain ⟨hp, hh⟩ := hg
  obtain ⟨s', g1, g2, g3, g4, g5⟩ := updateLinks_gen hc h.net h.exact hi
    (fun d he => ⟨fun x => x.1.2.1 he, fun x => x.elim (fun y => y.2.1 he) (fun y => (h.lost d i y).2.1 he)⟩)
    (fun d he hl => ⟨⟨hi, he, hl⟩, (hp d).1⟩) (fun d he hl => Or.inl ⟨hi, he, hl⟩)
    (fun d he k ha hb hki heq => by
      by_cases hl : LiveIn s free (endOf d (s.data i))
      · exact (ha hl).2 (h.single hi (hp d).2 he (ha hl).1.1 hki heq)
      · have hk : LiveIn s free k := h.net.live d k (Or.inr (hb hl))
        have := h.lost d k (h.single hi (hp d).2 he hk hki heq)
        exact hl (heq ▸ this.2.2)) a b q x ch hd st
  have hlv : ∀ k, LiveIn s' free k ↔ LiveIn s free k := by intro k; simp only [LiveIn, g4]
  have hself : ∀ d, ((f.view.set i (a, b)).Refers d i i ∧ ∃ x y, f.view i = some (x, y) ∧ x ≠ 0) ↔
      (endOf d (a, b) = i ∧ (s.data i).1 ≠ 0) := by
    intro d
    rw [refers_iff]
    refine and_congr ?_ ?_
    · simp [View.set]
    · constructor
      · rintro ⟨x, y, e1, e2⟩
        rw [(h.some_iff.1 e1).2]; exact e2
      · intro e; exact ⟨_, _, h.some_iff.2 ⟨hi, rfl⟩, e⟩
  have hi0 : i ≠ 0 := by have := hi.1; omega
  refine ⟨s', g1, ⟨g2.iff ?_ ?_, ?_, ?_, by rw [g4]; exact h.free_lt, ?_⟩, g4⟩
  · intro d k
    show IntRef s' free d k ∧ ¬ ((k ≠ i ∧ f.lost d k) ∨ (k = i ∧ _ ∧ _)) ↔ _
    rw [hself]
    simp only [IntRef, hlv]
    rw [g5]
    by_cases hk : k = i
    · subst hk; simp [hi, Seen, and_assoc]
    · simp [hk, and_assoc]
  · intro d k
    show ExtRef s' free d k ∨ (k ≠ i ∧ f.lost d k) ∨ (k = i ∧ _ ∧ _) ↔ _
    rw [hself]
    simp only [ExtRef, hlv]
    rw [g5]
    by_cases hk : k = i
    · subst hk
      simp only [hi, if_true, true_and, ne_eq, not_true_eq_false, false_and, false_or, Seen]
      constructor
      · rintro (⟨a1, a2⟩ | ⟨a1, a2⟩)
        · exact ⟨a1, fun x => a2 x.1⟩
        · exact ⟨by rw [a1]; exact hi0, fun x => x.2 ⟨a1, a2⟩⟩
      · rintro ⟨a1, a2⟩
        by_cases hl : LiveIn s free (endOf d (a, b))
        · exact Or.inr (Classical.byContradiction fun hn => a2 ⟨hl, hn⟩)
        · exact Or.inl ⟨a1, hl⟩
    · simp [hk]
  · intro d k hk
    have hk : (k ≠ i ∧ f.lost d k) ∨ (k = i ∧ _ ∧ _) := hk
    rw [hself] at hk
    simp only [IntRef, hlv]
    rw [g5]
    rcases hk with ⟨a1, a2⟩ | ⟨rfl, a1, a2⟩
    · rw [if_neg a1]; exact h.lost d k a2
    · rw [if_pos rfl, a1]; exact ⟨hi, hi0, hi⟩
  · intro k hk
    rw [hlv] at hk
    rw [g5]
    by_cases hki : k = i
    · subst hki; simpa using hh
    · simpa [hki] using h.half k hk
  · intro k
    show f.view.set i (a, b) k = _
    rw [View.set, h.view, g5]
    simp only [hlv]
    by_cases hk : k = i
    · subst hk; simp [hi]
    · simp [hk]

theorem At.deleted (hc : CfgOK c) {s : Store} {free : List Nat} {f : Filed} (h : At c s free f) {i : Nat}
    (hi : LiveIn s free i) (hg : f.Allows (.delete i)) (q : List Nat) {σ : Type} (hd : WH σ) (st : σ) :
    ∃ s' free', deleteLinks c s (i :: q) hd st =
        some ⟨.ok (hd st (s.linkAt i) Link.nothing).1, s', (hd st (s.linkAt i) Link.nothing).2⟩ ∧
      At c s' free' (f.delete i) := by
  obtain ⟨hp, hh⟩ := hg
  have hi0 : i ≠ 0 := by have := hi.1; omega
  obtain ⟨s', free', g1, g2, g3, -, -, -, hl, hdat⟩ := deleteLinks_gen hc h.net h.exact h.free_lt hi
    (fun d he => ⟨fun x => x.1.2.1 he, fun x => x.elim (fun y => y.2.1 he) (fun y => (h.lost d i y).2.1 he)⟩)
    (fun d he hl => ⟨⟨hi, he, hl⟩, (hp d).1⟩) (fun d he hl => Or.inl ⟨hi, he, hl⟩)
    (fun d he k ha hb hki heq => by
      by_cases hl : LiveIn s free (endOf d (s.data i))
      · exact (ha hl).2 (h.single hi (hp d).2 he (ha hl).1.1 hki heq)
      · have hk : LiveIn s free k := h.net.live d k (Or.inr (hb hl))
        have := h.lost d k (h.single hi (hp d).2 he hk hki heq)
        exact hl (heq ▸ this.2.2))
    (fun d k hk j hj hjk heq => by
      have h1 := hh d k hk.2.1 (h.refers.2 ⟨hk.1.1.1, hk.2.2⟩) hk.1.2
      exact hj.2 (h.single hk.1.1.1 h1 hk.1.1.2.1 hj.1.1 hjk heq)) q hd st
  refine ⟨s', free', g1, ⟨g2.iff ?_ ?_, ?_, ?_, g3, ?_⟩⟩
  · intro d k
    show IntRef s' free' d k ∧ ¬ (f.lost d k ∧ k ≠ i ∧ ¬ f.view.Refers d k i) ↔ _
    rw [h.refers]
    simp only [IntRef, hl, FiledAt]
    constructor
    · rintro ⟨⟨⟨a1, a2⟩, a3, a4, a5⟩, a6⟩
      rw [hdat k a1 a2] at a3 a4 a5
      exact ⟨a2, ⟨⟨a1, a3, a4⟩, fun x => a6 ⟨x, a2, fun y => a5 y.2⟩⟩, fun x => a5 x.2.2⟩
    · rintro ⟨a2, ⟨⟨a1, a3, a4⟩, a5⟩, a6⟩
      rw [hdat k a1 a2]
      exact ⟨⟨⟨a1, a2⟩, a3, a4, fun x => a6 ⟨⟨⟨a1, a3, a4⟩, a5⟩, a2, x⟩⟩, fun x => a5 x.1⟩
  · intro d k
    show ExtRef s' free' d k ∨ (f.lost d k ∧ k ≠ i ∧ ¬ f.view.Refers d k i) ↔ _
    rw [h.refers]
    simp only [ExtRef, hl, FiledAt]
    constructor
    · rintro (⟨⟨a1, a2⟩, a3, a4⟩ | ⟨a1, a2, a3⟩)
      · rw [hdat k a1 a2] at a3 a4
        by_cases he : endOf d (s.data k) = i
        · by_cases hlo : f.lost d k
          · exact ⟨a2, Or.inl (Or.inr hlo)⟩
          · exact ⟨a2, Or.inr ⟨⟨⟨a1, a3, by rw [he]; exact hi⟩, hlo⟩, a2, he⟩⟩
        · exact ⟨a2, Or.inl (Or.inl ⟨a1, a3, fun x => a4 ⟨x, he⟩⟩)⟩
      · exact ⟨a2, Or.inl (Or.inr a1)⟩
    · rintro ⟨a2, (⟨a1, a3, a4⟩ | a1) | ⟨⟨⟨a1, a3, a4⟩, a5⟩, _, a6⟩⟩
      · rw [hdat k a1 a2]
        exact Or.inl ⟨⟨a1, a2⟩, a3, fun x => a4 x.1⟩
      · have h1 := h.lost d k a1
        by_cases he : endOf d (s.data k) = i
        · rw [hdat k h1.1 a2]
          exact Or.inl ⟨⟨h1.1, a2⟩, h1.2.1, fun x => x.2 he⟩
        · exact Or.inr ⟨a1, a2, fun x => he x.2⟩
      · rw [hdat k a1 a2]
        exact Or.inl ⟨⟨a1, a2⟩, a3, fun x => x.2 a6⟩
  · rintro d k ⟨a1, a2, a3⟩
    rw [h.refers] at a3
    have h1 := h.lost d k a1
    simp only [IntRef, hl]
    rw [hdat k h1.1 a2]
    exact ⟨⟨h1.1, a2⟩, h1.2.1, h1.2.2, fun x => a3 ⟨h1.1, x⟩⟩
  · intro k hk
    rw [hl] at hk
    rw [hdat k hk.1 hk.2]
    exact h.half k hk.1
  · intro k
    show f.view.del i k = _
    rw [View.del, h.view]
    by_cases hk : k = i
    · subst hk
      rw [if_pos rfl, if_neg fun x => ((hl k).1 x).2 rfl]
    · rw [if_neg hk]
      by_cases hlk : LiveIn s free k
      · rw [if_pos hlk, if_pos ((hl k).2 ⟨hlk, hk⟩), hdat k hlk hk]
      · rw [if_neg hlk, if_neg fun x => hlk ((hl k).1 x).1]

theorem At.withAllocs {s : Store} {free : List Nat} {f : Filed} (h : At c s free f)
    (d i : Nat → Nat → Option Nat) : At (c.withAllocs d i) s free f :=
  ⟨⟨h.net.base.withAllocs d i, h.net.forest, h.net.live⟩, h.lost, h.half, h.free_lt, h.view⟩

theorem At.ofAllocs {s : Store} {free : List Nat} {f : Filed} {d i : Nat → Nat → Option Nat}
    (h : At (c.withAllocs d i) s free f) : At c s free f :=
  ⟨⟨h.net.base.ofAllocs, h.net.forest, h.net.live⟩, h.lost, h.half, h.free_lt, h.view⟩

/-- A store at rest without lost references. -/
theorem Inv.at {s : Store} {free : List Nat} (h : Inv c s free) {f : Filed} (hl : ∀ d k, ¬ f.lost d k)
    (hv : ∀ i, f.view i = if LiveIn s free i then some (s.data i) else none) : At c s free f :=
  ⟨h.net.iff (fun d k => by simp [hl]) (fun d k => by simp [hl]), fun d k x => absurd x (hl d k), h.half,
    h.free_lt, hv⟩

theorem At.inv {s : Store} {free : List Nat} {f : Filed} (h : At c s free f) (hl : ∀ d k, ¬ f.lost d k) :
    Inv c s free :=
  ⟨h.net.toInv0 (fun d k => by simp [hl]) (fun d k => by simp [hl]) h.half, h.free_lt⟩

/-- What a creation does, whichever indices links refer to. -/
theorem At.create (hc : CfgOK c) {s : Store} {free : List Nat} {f : Filed} (h : At c s free f)
    (hg : GrowTogether c s) :
    (c.maxT < s.ilen + c.step ∧ (links c).create s = none) ∨
    (∃ i s', (links c).create s = some ⟨.ok i, s', ()⟩ ∧ i ≠ 0 ∧ f.view i = none ∧
      ∃ free', At c s' free' (f.create i)) ∨
    (∃ e, (links c).create s = some ⟨.error e, s, ()⟩ ∧ ∀ i, e ≠ .notExists i) := by
  have hu := createLinks_uniform c s []
  have hnone : ∀ {i}, ¬ LiveIn s free i → f.view i = none := fun hl => by rw [h.view, if_neg hl]
  rcases createLinks_gen hc h.net h.exact (fun _ _ hk => hk.1.2.2) [] recH none with
    ⟨x, rest, s', hf, h1, h2, h3, h4⟩ | ⟨hf, h1, h2⟩ | ⟨hf, h1, h2, h3, h4⟩ | ⟨hf, h1, h2, h3, h4, h5⟩ |
    ⟨hf, h1, h2, h3, h4, h5, h6⟩ | ⟨hf, h1, s', h2, h3, h4⟩
  · have hx := h.net.base.list.nonzero x (by simp [hf])
    refine .inr (.inl ⟨x, s', create_of_succeeds (hu.succeeds h1), hx, hnone h2.fresh, rest,
      h.created hx h2 ?_⟩)
    intro y hy
    rw [h3]; exact h.free_lt y (by rw [hf]; simp [hy])
  · exact .inr (.inr ⟨_, Links.create_err (hu.fails h2), by simp⟩)
  · exact .inr (.inr ⟨_, Links.create_err (hu.fails h4), by simp⟩)
  · exact absurd h4 (hg h3)
  · exact .inl ⟨h5, create_none (hu.noneAll h6)⟩
  · exact .inr (.inl ⟨_, s', create_of_succeeds (hu.succeeds h2), by omega, hnone h3.fresh, [],
      h.created (by omega) h3 (by simp)⟩)

theorem At.update (hc : CfgOK c) {s : Store} {free : List Nat} {f : Filed} (h : At c s free f) {i a b : Nat}
    (hg : f.Allows (.update i a b)) :
    (f.view i ≠ none ∧ ∃ s', (links c).update s i a b = some ⟨.ok i, s', ()⟩ ∧
      ∃ free', At c s' free' (f.update i a b)) ∨
    (f.view i = none ∧ (links c).update s i a b = some ⟨.error (.notExists i), s, ()⟩) := by
  by_cases hl : LiveIn s free i
  · obtain ⟨s', h1, h2, -⟩ := h.updated hc hl hg [] i [] recH none
    have hS := (updateLinks_uniform c s [i] [i, a, b]).succeeds h1
    have e := Links.update_ok (D := links c) (s := s) (i := i) (x := a) (y := b) hS
    exact .inl ⟨h.live.2 hl, s', e, _, h2⟩
  · have hf : Links.Fails (fun _ hd st => (links c).updateLinks s [i] [i, a, b] hd st) s (.notExists i) :=
      fun σ hd st => by
        show updateLinks c s [i] [i, a, b] hd st = _
        simp [updateLinks, getLink_eq hc h.net h.exact, hl]
    exact .inr ⟨by rw [h.view, if_neg hl], Links.update_err hf⟩

theorem At.delete (hc : CfgOK c) {s : Store} {free : List Nat} {f : Filed} (h : At c s free f) {i : Nat}
    (hg : f.Allows (.delete i)) :
    (f.view i ≠ none ∧ ∃ s', (links c).delete s i = some ⟨.ok 0, s', ()⟩ ∧
      ∃ free', At c s' free' (f.delete i)) ∨
    (f.view i = none ∧ (links c).delete s i = some ⟨.error (.notExists i), s, ()⟩) := by
  by_cases hl : LiveIn s free i
  · obtain ⟨s', free', h1, h2⟩ := h.deleted hc hl hg [] recH none
    have hS := (deleteLinks_uniform c s [i]).succeeds h1
    have e := Links.delete_ok (D := links c) (s := s) (i := i) hS
    exact .inl ⟨h.live.2 hl, s', e, _, h2⟩
  · have hf : Links.Fails (fun _ hd st => (links c).deleteLinks s [i] hd st) s (.notExists i) :=
      fun σ hd st => by
        show deleteLinks c s [i] hd st = _
        simp [deleteLinks, getLink_eq hc h.net h.exact, hl]
    exact .inr ⟨by rw [h.view, if_neg hl], Links.delete_err hf⟩

theorem At.reopen (hc : CfgOK c) {s s' : Store} {n m : Nat} {free : List Nat} {f : Filed} (h : At c s free f)
    (hi : init c { s with dlen := n, ilen := m } = some (.ok s')) (hlt : s.hdr.allocated < s'.ilen) :
    At c s' free f := by
  obtain ⟨r, h2, -, rfl⟩ := init_ok hc hi
  have hb := h.net.base
  refine ⟨⟨⟨rfl, rfl, hlt, hb.alloc_le, ?_, ?_, hb.res8, hb.data0, hb.list, hb.free_le, hb.beyond⟩,
    fun d => by cases d <;> exact h.net.forest _, h.net.live⟩, h.lost, h.half, h.free_lt, h.view⟩
  · show 1 ≤ r - 1; omega
  · show r - 1 ≤ r; omega

/-- Every history is represented. -/
theorem lost_history (hc : CfgOK c) {s : Store} {f : Filed} (h : LostHistory c s f) : ∃ free, At c s free f := by
  induction h with
  | fresh d i hd hi h =>
    obtain ⟨h1, h2⟩ := init_fresh (hc.withAllocs hd hi) h
    refine ⟨_, h1.ofAllocs.at (fun _ _ x => x) fun k => ?_⟩
    rw [if_neg]
    · rfl
    · intro hl; have := hl.1; have := hl.2.1; omega
  | @call d i k s f o h hd hi hg hok ho ih =>
    obtain ⟨free, ih⟩ := ih
    cases k with
    | create =>
      have ho : (links (c.withAllocs d i)).create s = some o := ho
      rcases (ih.withAllocs d i).create (hc.withAllocs hd hi) (hg rfl) with ⟨-, h1⟩ | ⟨i, s', h1, -, -, free', h2⟩ |
        ⟨e, h1, -⟩
      · rw [h1] at ho; cases ho
      · rw [h1] at ho; cases ho; exact ⟨_, h2.ofAllocs⟩
      · rw [h1] at ho; cases ho; exact ⟨_, ih⟩
    | update i a b =>
      have ho : (links c).update s i a b = some o := ho
      rcases ih.update hc hok with ⟨-, s', h1, free', h2⟩ | ⟨-, h1⟩
      · rw [h1] at ho; cases ho; exact ⟨_, h2⟩
      · rw [h1] at ho; cases ho; exact ⟨_, ih⟩
    | delete i =>
      have ho : (links c).delete s i = some o := ho
      rcases ih.delete hc hok with ⟨-, s', h1, free', h2⟩ | ⟨-, h1⟩
      · rw [h1] at ho; cases ho; exact ⟨_, h2⟩
      · rw [h1] at ho; cases ho; exact ⟨_, ih⟩
  | reopen d i n m h hd hi hin hlt ih =>
    obtain ⟨free, ih⟩ := ih
    exact ⟨_, ((ih.withAllocs d i).reopen (hc.withAllocs hd hi) hin hlt).ofAllocs⟩

end Verif.Split
