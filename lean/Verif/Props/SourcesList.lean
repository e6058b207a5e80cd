import Verif.Split.SourcesList

/-!
# C64: reading a linked list of links by source
-/

namespace Verif.Split.SourcesList.Props
open Verif Verif.Split Verif.Split.SourcesList

/-- The memory of `s` holds, for the list of `head`, the circular doubly linked list with the elements `xs`. -/
structure Ring (s : Store) (head : Nat) (xs : List Nat) : Prop where
  /-- the head and the elements are slots of the memories -/
  head_ne : head ≠ 0
  head_lt : head < s.ilen
  mem : ∀ x ∈ xs, x ≠ 0 ∧ x < s.ilen ∧ x < s.dlen
  fresh : s.stale = false
  nodup : xs.Nodup
  /-- the head's slot has the first element and the number of elements -/
  first : (s.idx head).rootS = xs.head?.getD 0
  size : (s.idx head).sizeS = xs.length
  /-- each element's slot has the next one, the last one's the first -/
  next : ∀ i (hi : i < xs.length), (s.idx xs[i]).rightS = xs[(i + 1) % xs.length]'(Nat.mod_lt _ (by omega))
  /-- and the other way round -/
  prev : ∀ i (hi : i < xs.length), (s.idx (xs[(i + 1) % xs.length]'(Nat.mod_lt _ (by omega)))).leftS = xs[i]

theorem Ring.getI {s : Store} {head : Nat} {xs : List Nat} (hr : Ring s head xs) {x : Nat} (hx : x = head ∨ x ∈ xs) :
    s.getI x = some (s.idx x) := by
  have h1 : x < s.ilen := hx.elim (fun e => e ▸ hr.head_lt) fun h => (hr.mem x h).2.1
  have h2 : x ≠ 0 := hx.elim (fun e => e ▸ hr.head_ne) fun h => (hr.mem x h).1
  simp [Store.getI, h1, h2]

theorem Ring.getFirst {s : Store} {head : Nat} {xs : List Nat} (hr : Ring s head xs) :
    getFirst s head = some (xs.head?.getD 0) := by
  rw [SourcesList.getFirst, hr.getI (.inl rfl), Option.map_some, hr.first]

theorem Ring.getNext {s : Store} {head : Nat} {xs : List Nat} (hr : Ring s head xs) (i : Nat) (hi : i < xs.length) :
    getNext s xs[i] = some (xs[(i + 1) % xs.length]'(Nat.mod_lt _ (by omega))) := by
  rw [SourcesList.getNext, hr.getI (.inr (List.getElem_mem hi)), Option.map_some, hr.next i hi]

theorem Ring.getPrevious {s : Store} {head : Nat} {xs : List Nat} (hr : Ring s head xs) (i : Nat) (hi : i < xs.length) :
    getPrevious s (xs[(i + 1) % xs.length]'(Nat.mod_lt _ (by omega))) = some xs[i] := by
  rw [SourcesList.getPrevious, hr.getI (.inr (List.getElem_mem _)), Option.map_some, hr.prev i hi]

/-- The link stored at a slot. -/
def linkAt (s : Store) (x : Nat) : Link := ⟨x, (s.data x).1, (s.data x).2⟩

theorem nodup_le : ∀ (n : Nat) (xs : List Nat), xs.Nodup → (∀ x ∈ xs, x < n) → xs.length ≤ n
  | 0, xs, _, h => by
    cases xs with
    | nil => simp
    | cons x xs => exact absurd (h x (by simp)) (by omega)
  | n + 1, xs, hn, h => by
    have h1 : (xs.erase n).length ≤ n := nodup_le n _ (hn.erase n) fun x hx => by
      have := h x (List.mem_of_mem_erase hx)
      have : x ≠ n := fun e => by subst e; exact (List.Nodup.not_mem_erase hn) hx
      omega
    by_cases hm : n ∈ xs
    · rw [List.length_erase_of_mem hm] at h1; omega
    · rw [List.erase_of_not_mem hm] at h1; omega

theorem eachLoop_ring {s : Store} {head : Nat} {xs : List Nat} (hr : Ring s head xs) {σ : Type} (h : RH σ) :
    ∀ (n i : Nat) (hi : i < xs.length), xs.length - i = n → ∀ (fuel : Nat), n < fuel → ∀ st,
      eachLoop s (xs[0]'(by omega)) h fuel xs[i] st = some (runH h ((xs.drop i).map (linkAt s)) st) := by
  intro n
  induction n with
  | zero => intro i hi e; omega
  | succ n ih =>
    intro i hi e fuel hf st
    obtain ⟨m0, m1, m2⟩ := hr.mem xs[i] (List.getElem_mem hi)
    obtain ⟨fuel, rfl⟩ : ∃ f, fuel = f + 1 := ⟨fuel - 1, by omega⟩
    rw [List.drop_eq_getElem_cons hi, List.map_cons]
    simp only [eachLoop, if_neg m0, getLinkValue, Store.getD, hr.fresh, m2, and_self, if_true, Option.map_some, Option.bind_some,
      runH, linkAt, hr.getNext i hi]
    cases hst : h st ⟨xs[i], (s.data xs[i]).1, (s.data xs[i]).2⟩ with
    | mk f st' =>
      cases f with
      | brk r => rfl
      | cont =>
        simp only [andThen]
        by_cases hl : i + 1 < xs.length
        · have hne : ¬ xs[i + 1] = xs[0]'(by omega) := by
            exact fun e => List.pairwise_iff_getElem.1 hr.nodup 0 (i + 1) (by omega) hl (by omega) e.symm
          have e' : (i + 1) % xs.length = i + 1 := Nat.mod_eq_of_lt hl
          simp only [e', if_neg hne]
          exact ih (i + 1) hl (by omega) fuel (by omega) st'
        · have e' : (i + 1) % xs.length = 0 := by
            have : i + 1 = xs.length := by omega
            rw [this]; exact Nat.mod_self _
          simp only [e', if_true]
          rw [List.drop_eq_nil_of_le (by omega)]
          rfl

/-- **C64.** If the memory holds the circular list `xs` for a source, `each_usages` visits exactly its elements, in order, each
once, with their source and target, stops at the first break, and returns; `count_usages` is their number; `get_last` is the
last one. -/
theorem C64_list_traversal {s : Store} {head : Nat} {xs : List Nat} (hr : Ring s head xs) :
    (∀ (σ : Type) (h : RH σ) (st : σ), eachUsages s head h st = some (runH h (xs.map (linkAt s)) st)) ∧
    countUsages s head = some xs.length ∧
    getLast s head = some (xs.getLast?.getD 0) := by
  refine ⟨fun σ h st => ?_, by rw [countUsages, getSize, hr.getI (.inl rfl), Option.map_some, hr.size], ?_⟩
  · simp only [eachUsages, hr.getFirst, Option.bind_some]
    cases hx : xs with
    | nil => rfl
    | cons x l =>
      have hlen : 0 < xs.length := by rw [hx]; simp
      have hle : xs.length ≤ s.ilen := nodup_le _ _ hr.nodup fun x hx => (hr.mem x hx).2.1
      have := eachLoop_ring hr h (xs.length) 0 hlen rfl (s.ilen + 1) (by omega) st
      simp only [hx, List.getElem_cons_zero, List.drop_zero] at this
      simpa using this
  · cases hx : xs with
    | nil => simp [getLast, hr.getFirst, hx]
    | cons x l =>
      have hlen : 0 < xs.length := by rw [hx]; simp
      have h0 := (hr.mem x (by rw [hx]; simp)).1
      have hp := hr.getPrevious (xs.length - 1) (by omega)
      have e : (xs.length - 1 + 1) % xs.length = 0 := by
        rw [Nat.sub_add_cancel hlen]; exact Nat.mod_self _
      simp only [e] at hp
      have hf : getFirst s head = some x := by rw [hr.getFirst, hx]; rfl
      simp only [getLast, hf, Option.bind_some, if_neg h0]
      have e2 : xs[0] = x := by simp [hx]
      rw [e2] at hp
      rw [hp, ← hx, List.getLast?_eq_getElem?, List.getElem?_eq_getElem (by omega)]
      rfl

/-- A memory with the list 2, 3, 5 for source 4. -/
def sList : Store where
  ilen := 6
  dlen := 6
  data := fun i => (4, i + 10)
  idx := fun i =>
    if i = 4 then { rootS := 2, sizeS := 3 }
    else if i = 2 then { leftS := 5, rightS := 3 }
    else if i = 3 then { leftS := 2, rightS := 5 }
    else if i = 5 then { leftS := 3, rightS := 2 }
    else {}

theorem sList_ring : Ring sList 4 [2, 3, 5] where
  head_ne := by decide
  head_lt := by decide
  mem := by decide
  fresh := rfl
  nodup := by decide
  first := rfl
  size := rfl
  next := by decide +kernel
  prev := by decide +kernel

example : (∀ (σ : Type) (h : RH σ) (st : σ),
      eachUsages sList 4 h st = some (runH h [⟨2, 4, 12⟩, ⟨3, 4, 13⟩, ⟨5, 4, 15⟩] st)) ∧
    getLast sList 4 = some 5 := ⟨(C64_list_traversal sList_ring).1, (C64_list_traversal sList_ring).2.2⟩

end Verif.Split.SourcesList.Props
