import Verif.Printing

/-!
# C65: printed forms identify what they print
-/

namespace Verif.Printing.Props
open Verif Verif.Printing

/-- The text does not begin with a digit. -/
def NoDigit : List Char → Prop
  | [] => True
  | c :: _ => c.isDigit = false

theorem dec_digit {n : Nat} {c : Char} (h : c ∈ dec n) : c.isDigit = true :=
  Nat.isDigit_of_mem_toDigits (by omega) (by omega) h

theorem dec_inj {m n : Nat} (h : dec m = dec n) : m = n := by
  have h1 := Nat.ofDigitChars_ten_toDigits (n := m)
  have h2 := Nat.ofDigitChars_ten_toDigits (n := n)
  unfold dec at h
  rw [h] at h1
  exact h1.symm.trans h2

attribute [local irreducible] dec

theorem append_sep : ∀ {a b r r' : List Char}, (∀ c ∈ a, c.isDigit = true) → (∀ c ∈ b, c.isDigit = true) →
    NoDigit r → NoDigit r' → a ++ r = b ++ r' → a = b ∧ r = r'
  | [], [], _, _, _, _, _, _, h => ⟨rfl, h⟩
  | [], c :: b, r, r', _, hb, hr, _, h => by
    simp only [List.nil_append, List.cons_append] at h
    subst h
    have := hb c (by simp)
    simp only [NoDigit] at hr
    rw [hr] at this; cases this
  | c :: a, [], r, r', ha, _, _, hr', h => by
    simp only [List.nil_append, List.cons_append] at h
    subst h
    have := ha c (by simp)
    simp only [NoDigit] at hr'
    rw [hr'] at this; cases this
  | c :: a, c' :: b, r, r', ha, hb, hr, hr', h => by
    simp only [List.cons_append, List.cons.injEq] at h
    obtain ⟨e1, e2⟩ := append_sep (fun c hc => ha c (by simp [hc])) (fun c hc => hb c (by simp [hc])) hr hr' h.2
    exact ⟨by rw [h.1, e1], e2⟩

theorem dec_ne_nil (n : Nat) : dec n ≠ [] := by unfold dec; exact Nat.toDigits_ne_nil

theorem dec_sep {m n : Nat} {r r' : List Char} (hr : NoDigit r) (hr' : NoDigit r') (h : dec m ++ r = dec n ++ r') :
    m = n ∧ r = r' := by
  obtain ⟨e1, e2⟩ := append_sep (fun _ => dec_digit) (fun _ => dec_digit) hr hr' h
  exact ⟨dec_inj e1, e2⟩

/-- Decidable form of `NoDigit` for texts that are not empty. -/
def ndb : List Char → Bool
  | [] => false
  | c :: _ => !c.isDigit

theorem nd {a r : List Char} (h : ndb a = true) : NoDigit (a ++ r) := by
  cases a with
  | nil => cases h
  | cons c a => simpa [ndb, NoDigit] using h

theorem nd0 {a : List Char} (h : ndb a = true) : NoDigit a := by
  have := nd (r := []) h
  rwa [List.append_nil] at this

theorem link_sep {l l' : Link} {r r' : List Char} (hr : NoDigit r) (hr' : NoDigit r')
    (h : linkDebug l ++ r = linkDebug l' ++ r') : l = l' ∧ r = r' := by
  unfold linkDebug at h
  simp only [List.append_assoc] at h
  obtain ⟨e1, h⟩ := dec_sep (nd (by decide +kernel)) (nd (by decide +kernel)) h
  rw [List.append_cancel_left_eq] at h
  obtain ⟨e2, h⟩ := dec_sep (nd (by decide +kernel)) (nd (by decide +kernel)) h
  rw [List.append_cancel_left_eq] at h
  obtain ⟨e3, h3⟩ := dec_sep hr hr' h
  cases l; cases l'
  simp only at e1 e2 e3
  subst e1 e2 e3
  exact ⟨rfl, h3⟩

theorem vecRest_noDigit (ls : List Link) (r : List Char) : NoDigit (vecRest ls ++ r) := by
  cases ls
  · show Char.isDigit ']' = false; decide
  · show Char.isDigit ',' = false; decide

theorem vecRest_sep : ∀ {ls ls' : List Link} {r r' : List Char}, vecRest ls ++ r = vecRest ls' ++ r' → ls = ls' ∧ r = r'
  | [], [], _, _, h => ⟨rfl, by simpa [vecRest] using h⟩
  | [], _ :: _, _, _, h => by simp [vecRest] at h
  | _ :: _, [], _, _, h => by simp [vecRest] at h
  | l :: ls, l' :: ls', r, r', h => by
    simp only [vecRest, List.append_assoc, List.append_cancel_left_eq] at h
    obtain ⟨e1, h⟩ := link_sep (vecRest_noDigit _ _) (vecRest_noDigit _ _) h
    obtain ⟨e2, e3⟩ := vecRest_sep h
    exact ⟨by rw [e1, e2], e3⟩

theorem linkDebug_head (l : Link) (r : List Char) : ∃ c t, linkDebug l ++ r = c :: t ∧ c.isDigit = true := by
  unfold linkDebug
  cases h : dec l.index with
  | nil => exact absurd h (dec_ne_nil _)
  | cons c t => exact ⟨c, _, rfl, dec_digit (n := l.index) (by rw [h]; simp)⟩

theorem vec_sep : ∀ {ls ls' : List Link} {r r' : List Char}, vecDebug ls ++ r = vecDebug ls' ++ r' → ls = ls' ∧ r = r'
  | [], [], _, _, h => ⟨rfl, by simpa [vecDebug] using h⟩
  | [], l :: ls, _, r, h => by
    simp only [vecDebug, List.append_assoc] at h
    obtain ⟨c, t, e, hc⟩ := linkDebug_head l (vecRest ls ++ r)
    rw [e] at h
    simp at h
    rw [← h.1] at hc; cases hc
  | l :: ls, [], r, _, h => by
    simp only [vecDebug, List.append_assoc] at h
    obtain ⟨c, t, e, hc⟩ := linkDebug_head l (vecRest ls ++ r)
    rw [e] at h
    simp at h
    rw [h.1] at hc; cases hc
  | l :: ls, l' :: ls', r, r', h => by
    simp only [vecDebug, List.append_assoc, List.append_cancel_left_eq] at h
    obtain ⟨e1, h⟩ := link_sep (vecRest_noDigit _ _) (vecRest_noDigit _ _) h
    obtain ⟨e2, e3⟩ := vecRest_sep h
    exact ⟨by rw [e1, e2], e3⟩

theorem lit_link : "link ".toList = ['l', 'i', 'n', 'k', ' '] := by decide +kernel
theorem lit_limit : "limit for the number of links in the storage has been reached: ".toList =
    'l' :: 'i' :: 'm' :: "it for the number of links in the storage has been reached: ".toList := by decide +kernel
theorem lit_unable : "unable to allocate memory for links storage: `".toList =
    'u' :: "nable to allocate memory for links storage: `".toList := by decide +kernel
theorem lit_not : " does not exist.".toList = ' ' :: "does not exist.".toList := by decide +kernel
theorem lit_arrow : "->".toList = ['-', '>'] := by decide +kernel

theorem link_limit {x y : List Char} : "link ".toList ++ x ≠
    "limit for the number of links in the storage has been reached: ".toList ++ y := by
  rw [lit_link, lit_limit]; intro h; injection h with _ h; injection h with _ h; injection h with h
  exact absurd h (by decide)

theorem link_unable {x y : List Char} : "link ".toList ++ x ≠
    "unable to allocate memory for links storage: `".toList ++ y := by
  rw [lit_link, lit_unable]; intro h; injection h with h; exact absurd h (by decide)

theorem limit_unable {x y : List Char} : "limit for the number of links in the storage has been reached: ".toList ++ x ≠
    "unable to allocate memory for links storage: `".toList ++ y := by
  rw [lit_limit, lit_unable]; intro h; injection h with h; exact absurd h (by decide)

theorem not_arrow {y : List Char} : " does not exist.".toList ≠ "->".toList ++ y := by
  rw [lit_not, lit_arrow]; intro h; injection h with h; exact absurd h (by decide)

theorem err_notExists (c : List Char) (i : Nat) :
    errDisplay c (.notExists i) = "link ".toList ++ (dec i ++ " does not exist.".toList) := List.append_assoc ..
theorem err_hasUsages (c : List Char) (ls : List Link) :
    errDisplay c (.hasUsages ls) = "link ".toList ++ (vecDebug ls ++ " has dependencies".toList) := List.append_assoc ..
theorem err_alreadyExists (c : List Char) (s t : Nat) : errDisplay c (.alreadyExists s t) =
    "link ".toList ++ (dec s ++ ("->".toList ++ (dec t ++ " already exists".toList))) := by
  rw [← List.append_assoc, ← List.append_assoc, ← List.append_assoc]
  show "link ".toList ++ (dec s ++ "->".toList ++ dec t) ++ " already exists".toList = _
  simp only [List.append_assoc]
theorem err_limitReached (c : List Char) (n : Nat) : errDisplay c (.limitReached n) =
    "limit for the number of links in the storage has been reached: ".toList ++ dec n := rfl
theorem err_allocFailed (c : List Char) : errDisplay c .allocFailed =
    "unable to allocate memory for links storage: `".toList ++ (c ++ "`".toList) := List.append_assoc ..

theorem notExists_inj {i j : Nat} (h : "link ".toList ++ (dec i ++ " does not exist.".toList) =
    "link ".toList ++ (dec j ++ " does not exist.".toList)) : i = j := by
  have h1 := List.append_cancel_left h
  have hn : NoDigit " does not exist.".toList := nd0 (by decide +kernel)
  exact (dec_sep hn hn h1).1

/-- **C65.** Two links, two doublets, and two errors of the store (whatever the text of the memory's error is) that are printed
alike are the same. -/
theorem C65_printed_forms_identify :
    (∀ l l' : Link, linkDebug l = linkDebug l' → l = l') ∧
    (∀ s t s' t', doubletDisplay s t = doubletDisplay s' t' → s = s' ∧ t = t') ∧
    ∀ (cause cause' : List Char) (e e' : Err), errDisplay cause e = errDisplay cause' e' → e = e' := by
  have hd : ∀ (n : Nat) (r : List Char), ∃ c t, dec n ++ r = c :: t ∧ c.isDigit = true := fun n r => by
    cases h : dec n with
    | nil => exact absurd h (dec_ne_nil _)
    | cons c t => exact ⟨c, _, rfl, dec_digit (n := n) (by rw [h]; simp)⟩
  have hv : ∀ (ls : List Link) (r : List Char), ∃ t, vecDebug ls ++ r = '[' :: t := fun ls r => by
    cases ls <;> exact ⟨_, rfl⟩
  refine ⟨fun l l' h => ?_, fun s t s' t' h => ?_, fun ca ca' e e' h => ?_⟩
  · exact (link_sep (r := []) (r' := []) trivial trivial (by simpa using h)).1
  · unfold doubletDisplay at h
    simp only [List.append_assoc] at h
    obtain ⟨e1, h⟩ := dec_sep (nd (by decide +kernel)) (nd (by decide +kernel)) h
    rw [List.append_cancel_left_eq] at h
    exact ⟨e1, dec_inj h⟩
  · cases e with
    | notExists i =>
      cases e' with
      | notExists j =>
        rw [err_notExists, err_notExists] at h
        exact congrArg _ (notExists_inj h)
      | hasUsages ls =>
        rw [err_notExists, err_hasUsages] at h; replace h := List.append_cancel_left h
        obtain ⟨c, t, e1, hc⟩ := hd i " does not exist.".toList; obtain ⟨t', e2⟩ := hv ls " has dependencies".toList
        rw [e1, e2] at h; rw [(List.cons.inj h).1] at hc; cases hc
      | alreadyExists s t =>
        rw [err_notExists, err_alreadyExists] at h; replace h := List.append_cancel_left h
        have := (dec_sep (nd0 (by decide +kernel)) (nd (by decide +kernel)) h).2
        exact absurd this not_arrow
      | limitReached n =>
        rw [err_notExists, err_limitReached] at h
        exact absurd h link_limit
      | allocFailed =>
        rw [err_notExists, err_allocFailed] at h
        exact absurd h link_unable
    | hasUsages ls =>
      cases e' with
      | notExists j =>
        rw [err_hasUsages, err_notExists] at h; replace h := List.append_cancel_left h
        obtain ⟨c, t, e1, hc⟩ := hd j " does not exist.".toList; obtain ⟨t', e2⟩ := hv ls " has dependencies".toList
        rw [e1, e2] at h; rw [← (List.cons.inj h).1] at hc; cases hc
      | hasUsages ls' =>
        rw [err_hasUsages, err_hasUsages] at h; replace h := List.append_cancel_left h
        rw [(vec_sep h).1]
      | alreadyExists s t =>
        rw [err_hasUsages, err_alreadyExists] at h; replace h := List.append_cancel_left h
        obtain ⟨c, t, e1, hc⟩ := hd s ("->".toList ++ (dec t ++ " already exists".toList))
        obtain ⟨t', e2⟩ := hv ls " has dependencies".toList
        rw [e1, e2] at h; rw [← (List.cons.inj h).1] at hc; cases hc
      | limitReached n =>
        rw [err_hasUsages, err_limitReached] at h
        exact absurd h link_limit
      | allocFailed =>
        rw [err_hasUsages, err_allocFailed] at h
        exact absurd h link_unable
    | alreadyExists s t =>
      cases e' with
      | notExists j =>
        rw [err_alreadyExists, err_notExists] at h; replace h := List.append_cancel_left h
        have := (dec_sep (nd (by decide +kernel)) (nd0 (by decide +kernel)) h).2
        exact absurd this.symm not_arrow
      | hasUsages ls =>
        rw [err_alreadyExists, err_hasUsages] at h; replace h := List.append_cancel_left h
        obtain ⟨c, t, e1, hc⟩ := hd s ("->".toList ++ (dec t ++ " already exists".toList))
        obtain ⟨t', e2⟩ := hv ls " has dependencies".toList
        rw [e1, e2] at h; rw [(List.cons.inj h).1] at hc; cases hc
      | alreadyExists s' t' =>
        rw [err_alreadyExists, err_alreadyExists] at h; replace h := List.append_cancel_left h
        obtain ⟨e1, h⟩ := dec_sep (nd (by decide +kernel)) (nd (by decide +kernel)) h
        rw [List.append_cancel_left_eq] at h
        obtain ⟨e2, -⟩ := dec_sep (nd0 (by decide +kernel)) (nd0 (by decide +kernel)) h
        rw [e1, e2]
      | limitReached n =>
        rw [err_alreadyExists, err_limitReached] at h
        exact absurd h link_limit
      | allocFailed =>
        rw [err_alreadyExists, err_allocFailed] at h
        exact absurd h link_unable
    | limitReached n =>
      cases e' with
      | limitReached n' =>
        rw [err_limitReached, err_limitReached] at h; replace h := List.append_cancel_left h
        rw [dec_inj h]
      | allocFailed =>
        rw [err_limitReached, err_allocFailed] at h
        exact absurd h limit_unable
      | _ =>
        first | rw [err_limitReached, err_notExists] at h | rw [err_limitReached, err_hasUsages] at h | rw [err_limitReached, err_alreadyExists] at h
        exact absurd h.symm link_limit
    | allocFailed =>
      cases e' with
      | allocFailed => rfl
      | limitReached n =>
        rw [err_allocFailed, err_limitReached] at h
        exact absurd h.symm limit_unable
      | _ =>
        first | rw [err_allocFailed, err_notExists] at h | rw [err_allocFailed, err_hasUsages] at h | rw [err_allocFailed, err_alreadyExists] at h
        exact absurd h.symm link_unable

example : linkDebug ⟨12, 3, 45⟩ = "12: 3 45".toList ∧ doubletDisplay 3 45 = "3->45".toList ∧
    errDisplay [] (.hasUsages [⟨1, 2, 3⟩, ⟨4, 5, 6⟩]) = "link [1: 2 3, 4: 5 6] has dependencies".toList := by
  decide +kernel

end Verif.Printing.Props
