import Verif.Batch

/-!
# Removing what is not needed

A client that keeps the links it can get to from some roots, by following sources and targets, and deletes all others: it collects
all links (`each_iter`), marks in its own memory, and deletes (`delete`) link by link. Vocabulary of C113.
-/

namespace Verif.Sweep
open Verif Verif.Links Verif.Batch

/-- The links that one gets to from the roots by following sources and targets. -/
inductive Kept (v : View) (R : List Nat) : Nat → Prop
  | root {i} : i ∈ R → v i ≠ none → Kept v R i
  | source {i a b} : Kept v R i → v i = some (a, b) → v a ≠ none → Kept v R a
  | target {i a b} : Kept v R i → v i = some (a, b) → v b ≠ none → Kept v R b

/-- One round of marking: the marked links, and the links that are an end of a marked link. -/
def round (L M : List Link) : List Link :=
  L.filter fun l => M.any fun m => m.index == l.index || m.source == l.index || m.target == l.index

/-- The client marks the roots among the links `L`, and then goes as many rounds as there are links. -/
def mark (R : List Nat) (L : List Link) : Nat → List Link
  | 0 => L.filter fun l => R.contains l.index
  | n + 1 => round L (mark R L n)

/-- The deletions the client makes. -/
def garbage (R : List Nat) (L : List Link) : List Change :=
  (L.filter fun l => !(mark R L L.length).any fun m => m.index == l.index).map fun l => .del l.index

theorem mark_filter (R : List Nat) (L : List Link) : ∀ n, ∃ p : Link → Bool, mark R L n = L.filter p
  | 0 => ⟨_, rfl⟩
  | _ + 1 => ⟨_, rfl⟩

theorem mark_grows (R : List Nat) (L : List Link) (n : Nat) : (mark R L n).Sublist (mark R L (n + 1)) := by
  obtain ⟨p, hp⟩ := mark_filter R L n
  have : mark R L n = (mark R L (n + 1)).filter p := by
    show _ = (L.filter _).filter p
    rw [List.filter_filter, hp]
    refine List.filter_congr fun l hl => ?_
    cases h : p l with
    | false => simp
    | true =>
      simp only [Bool.true_and]
      refine (List.any_eq_true.2 ⟨l, List.mem_filter.2 ⟨hl, h⟩, ?_⟩).symm
      simp
  rw [this]; exact List.filter_sublist

/-- After as many rounds as there are links, another round marks nothing new. -/
theorem mark_done (R : List Nat) (L : List Link) : mark R L (L.length + 1) = mark R L L.length := by
  have key : ∀ n, mark R L (n + 1) = mark R L n ∨ n ≤ (mark R L n).length := by
    intro n
    induction n with
    | zero => exact .inr (Nat.zero_le _)
    | succ n ih =>
      have fix : mark R L (n + 1) = mark R L n → mark R L (n + 1 + 1) = mark R L (n + 1) := fun h => by
        show round L (mark R L (n + 1)) = round L (mark R L n)
        rw [h]
      rcases ih with h | h
      · exact .inl (fix h)
      · have hs := mark_grows R L n
        by_cases e : (mark R L n).length = (mark R L (n + 1)).length
        · exact .inl (fix (hs.eq_of_length e).symm)
        · have := hs.length_le
          exact .inr (by omega)
  rcases key L.length with h | h
  · exact h
  · have sub : ∀ n, (mark R L n).Sublist L := fun n => by
      obtain ⟨p, hp⟩ := mark_filter R L n
      rw [hp]; exact List.filter_sublist
    have h0 := (sub L.length).length_le
    have h1 : mark R L L.length = L := (sub _).eq_of_length (by omega)
    have h2 := (mark_grows R L L.length).length_le
    have h3 := (sub (L.length + 1)).length_le
    rw [(sub (L.length + 1)).eq_of_length (by omega), h1]

theorem mark_mem {v : View} {R : List Nat} {L : List Link} (hL : ∀ l, l ∈ L ↔ v.Has l) (l : Link) :
    l ∈ mark R L L.length ↔ v.Has l ∧ Kept v R l.index := by
  constructor
  · suffices h : ∀ n l, l ∈ mark R L n → v.Has l ∧ Kept v R l.index from h _ l
    intro n
    induction n with
    | zero =>
      intro l hl
      obtain ⟨h1, h2⟩ := List.mem_filter.1 hl
      have h1 : v l.index = some (l.source, l.target) := (hL l).1 h1
      exact ⟨h1, .root (by simpa using h2) (by rw [h1]; simp)⟩
    | succ n ih =>
      intro l hl
      obtain ⟨h1, h2⟩ := List.mem_filter.1 hl
      have h1 : v l.index = some (l.source, l.target) := (hL l).1 h1
      have hn : v l.index ≠ none := by rw [h1]; simp
      refine ⟨h1, ?_⟩
      obtain ⟨m, hm, h3⟩ := List.any_eq_true.1 h2
      obtain ⟨k1, k2⟩ := ih m hm
      have k1 : v m.index = some (m.source, m.target) := k1
      simp only [Bool.or_eq_true, beq_iff_eq] at h3
      rcases h3 with (e | e) | e
      · rw [← e]; exact k2
      · rw [← e] at hn ⊢; exact .source k2 k1 hn
      · rw [← e] at hn ⊢; exact .target k2 k1 hn
  · rintro ⟨h1, h2⟩
    suffices h : ∀ i, Kept v R i → ∀ l, v.Has l → l.index = i → l ∈ mark R L L.length from h _ h2 l h1 rfl
    intro i hi
    have next : ∀ {m l : Link}, m ∈ mark R L L.length → v.Has l → (m.source = l.index ∨ m.target = l.index) →
        l ∈ mark R L L.length := by
      intro m l hm hl hml
      rw [← mark_done]
      refine List.mem_filter.2 ⟨(hL l).2 hl, List.any_eq_true.2 ⟨m, hm, ?_⟩⟩
      rcases hml with e | e <;> simp [e]
    induction hi with
    | @root i hr hv =>
      intro l hl e
      subst e
      have h0 : ∀ n, l ∈ mark R L n := by
        intro n
        induction n with
        | zero => exact List.mem_filter.2 ⟨(hL l).2 hl, by simpa using hr⟩
        | succ n ih => exact (mark_grows R L n).subset ih
      exact h0 _
    | @source i a b hi hv _ ih =>
      intro l hl e
      exact next (ih ⟨i, a, b⟩ hv rfl) hl (.inl e.symm)
    | @target i a b hi hv _ ih =>
      intro l hl e
      exact next (ih ⟨i, a, b⟩ hv rfl) hl (.inr e.symm)

theorem garbage_mem {v : View} {R : List Nat} {L : List Link} (hL : ∀ l, l ∈ L ↔ v.Has l) (c : Change) :
    c ∈ garbage R L ↔ ∃ i, v i ≠ none ∧ ¬ Kept v R i ∧ c = .del i := by
  have hm : ∀ i, (mark R L L.length).any (fun m => m.index == i) = true ↔ Kept v R i ∧ v i ≠ none := by
    intro i
    rw [List.any_eq_true]
    constructor
    · rintro ⟨m, h1, h2⟩
      have h2 : m.index = i := by simpa using h2
      obtain ⟨k1, k2⟩ := (mark_mem hL m).1 h1
      have k1 : v m.index = some (m.source, m.target) := k1
      rw [h2] at k1 k2
      exact ⟨k2, by rw [k1]; simp⟩
    · rintro ⟨h1, h2⟩
      cases e : v i with
      | none => exact absurd e h2
      | some p => exact ⟨⟨i, p.1, p.2⟩, (mark_mem hL _).2 ⟨e, h1⟩, by simp⟩
  constructor
  · intro hc
    obtain ⟨l, hl, rfl⟩ := List.mem_map.1 hc
    obtain ⟨h1, h2⟩ := List.mem_filter.1 hl
    have h1 : v l.index = some (l.source, l.target) := (hL l).1 h1
    have hn : v l.index ≠ none := by rw [h1]; simp
    refine ⟨l.index, hn, fun hk => ?_, rfl⟩
    rw [(hm l.index).2 ⟨hk, hn⟩] at h2
    cases h2
  · rintro ⟨i, h1, h2, rfl⟩
    cases e : v i with
    | none => exact absurd e h1
    | some p =>
      refine List.mem_map.2 ⟨⟨i, p.1, p.2⟩, List.mem_filter.2 ⟨(hL _).2 e, ?_⟩, rfl⟩
      cases hb : (mark R L L.length).any (fun m => m.index == i) with
      | false => rfl
      | true => exact absurd ((hm i).1 hb).1 h2

end Verif.Sweep
