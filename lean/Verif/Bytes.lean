import Verif.TreeLemmas

/-!
# Words as bytes

The type of a link's index is an unsigned integer `T`; in memory it takes `w` bytes in the byte order of the machine.
-/

namespace Verif

/-- The byte order of the machine. -/
inductive Endian where
  | little
  | big
deriving DecidableEq

/-- Significance of the byte at position `p` of a word of `w` bytes: 0 is the lowest. -/
def Endian.sig : Endian → Nat → Nat → Nat
  | .little, _, p => p
  | .big, w, p => w - 1 - p

/-- The byte at position `p` of the number `x` written as a word of `w` bytes (`to_ne_bytes`). -/
def byteAt (e : Endian) (w x p : Nat) : Nat := x / 256 ^ e.sig w p % 256

/-- The number with the digits `d 0`, …, `d (w - 1)` to the base 256, lowest first. -/
def spell (d : Nat → Nat) : Nat → Nat
  | 0 => 0
  | w + 1 => spell d w + d w * 256 ^ w

/-- The number found at byte offset `o` of the bytes `F` (`from_ne_bytes`). -/
def readWord (e : Endian) (w : Nat) (F : Nat → Nat) (o : Nat) : Nat := spell (fun j => F (o + e.sig w j)) w

/-! ### Lemmas -/

theorem byteAt_lt (e : Endian) (w x p : Nat) : byteAt e w x p < 256 := Nat.mod_lt _ (by decide)

theorem sig_lt (e : Endian) {w p : Nat} (h : p < w) : e.sig w p < w := by cases e <;> simp only [Endian.sig] <;> omega

theorem sig_sig (e : Endian) {w p : Nat} (h : p < w) : e.sig w (e.sig w p) = p := by
  cases e <;> simp only [Endian.sig] <;> omega

theorem spell_congr {d d' : Nat → Nat} : ∀ {w : Nat}, (∀ j, j < w → d j = d' j) → spell d w = spell d' w
  | 0, _ => rfl
  | w + 1, h => by
    simp only [spell]
    rw [spell_congr fun j hj => h j (by omega), h w (by omega)]

theorem spell_digits (x : Nat) : ∀ w, spell (fun j => x / 256 ^ j % 256) w = x % 256 ^ w
  | 0 => by simp [spell, Nat.mod_one]
  | w + 1 => by
    simp only [spell]
    rw [spell_digits x w, Nat.pow_succ, Nat.mod_mul, Nat.mul_comm (256 ^ w)]

/-- A word written as bytes is read back. -/
theorem readWord_eq {e : Endian} {w x o : Nat} {F : Nat → Nat} (h : ∀ p, p < w → F (o + p) = byteAt e w x p)
    (hx : x < 256 ^ w) : readWord e w F o = x := by
  have : readWord e w F o = spell (fun j => x / 256 ^ j % 256) w := by
    refine spell_congr fun j hj => ?_
    rw [h _ (sig_lt e hj), byteAt, sig_sig e hj]
  rw [this, spell_digits, Nat.mod_eq_of_lt hx]

/-- Position of a byte: the slot of `n` words, the word in the slot and the byte in the word. -/
theorem div_slot {n w i f p : Nat} (hf : f < n) (hp : p < w) : ((n * i + f) * w + p) / (n * w) = i := by
  have h1 : ((n * i + f) * w + p) / w = n * i + f := by
    rw [Nat.add_comm, Nat.add_mul_div_right _ _ (by omega), Nat.div_eq_of_lt hp, Nat.zero_add]
  rw [Nat.mul_comm n w, ← Nat.div_div_eq_div_mul, h1, Nat.add_comm, Nat.add_mul_div_left _ _ (by omega),
    Nat.div_eq_of_lt hf, Nat.zero_add]

theorem div_word {n w i f p : Nat} (hf : f < n) (hp : p < w) : ((n * i + f) * w + p) / w % n = f := by
  rw [Nat.add_comm, Nat.add_mul_div_right _ _ (by omega), Nat.div_eq_of_lt hp, Nat.zero_add, Nat.add_comm,
    Nat.add_mul_mod_self_left, Nat.mod_eq_of_lt hf]

theorem mod_word {a w p : Nat} (hp : p < w) : (a * w + p) % w = p := by
  rw [Nat.add_comm, Nat.add_mul_mod_self_right, Nat.mod_eq_of_lt hp]

theorem word_in {n w i f p len : Nat} (hf : f < n) (hp : p < w) (hi : i < len) : (n * i + f) * w + p < n * w * len := by
  have h1 : (n * i + f) * w + p < (n * i + f + 1) * w := by rw [Nat.add_mul _ 1]; omega
  have h2 : (n * i + f + 1) * w ≤ (n * (i + 1)) * w := Nat.mul_le_mul_right _ (by rw [Nat.mul_add]; omega)
  have h3 : n * (i + 1) * w ≤ n * len * w := Nat.mul_le_mul_right _ (Nat.mul_le_mul_left _ hi)
  calc _ < _ := h1
    _ ≤ _ := h2
    _ ≤ _ := h3
    _ = n * w * len := by rw [Nat.mul_assoc, Nat.mul_comm len w, ← Nat.mul_assoc]

/-! ### Values stored by trees and lists -/

theorem Tree.root_cases (t : Tree) : t.root = 0 ∨ t.root ∈ t.toList := by
  cases t with
  | leaf => exact .inl rfl
  | node a k b => right; simp [Tree.root, Tree.toList]

theorem Holds.root_cases {m : TMem} {t : Tree} {r : Nat} (h : Holds m t r) : r = 0 ∨ r ∈ t.toList := by
  rw [h.root_eq]; exact t.root_cases

/-- The fields of a node of a tree are nodes of the tree or null, and a size that is at most the tree's. -/
theorem Holds.fields {m : TMem} : ∀ {t : Tree} {r : Nat}, Holds m t r → ∀ k ∈ t.toList,
    (m.left k = 0 ∨ m.left k ∈ t.toList) ∧ (m.right k = 0 ∨ m.right k ∈ t.toList) ∧ m.size k ≤ t.toList.length := by
  intro t
  induction t with
  | leaf => intro r _ k hk; simp [Tree.toList] at hk
  | node a x b iha ihb =>
    intro r h k hk
    obtain ⟨-, -, ha, hb, hs⟩ := h
    have hm : ∀ {t : Tree} {y : Nat}, (t = a ∨ t = b) → (y = 0 ∨ y ∈ t.toList) → y = 0 ∨ y ∈ (Tree.node a x b).toList := by
      rintro t y ht (h | h)
      · exact .inl h
      · right
        rcases ht with rfl | rfl <;> simp [Tree.toList, h]
    have hlen : (Tree.node a x b).toList.length = a.toList.length + (b.toList.length + 1) := by simp [Tree.toList]
    simp only [Tree.toList, List.mem_append, List.mem_cons] at hk
    rcases hk with hk | rfl | hk
    · obtain ⟨h1, h2, h3⟩ := iha ha k hk
      exact ⟨hm (.inl rfl) h1, hm (.inl rfl) h2, by omega⟩
    · refine ⟨hm (.inl rfl) ha.root_cases, hm (.inr rfl) hb.root_cases, ?_⟩
      rw [hs, Tree.size_eq_length]; exact Nat.le_refl _
    · obtain ⟨h1, h2, h3⟩ := ihb hb k hk
      exact ⟨hm (.inr rfl) h1, hm (.inr rfl) h2, by omega⟩

/-- The fields of an element of a circular list are elements of the list. -/
theorem IsList.fields {m : LMem} {l : List Nat} (h : IsList m l) {k : Nat} (hk : k ∈ l) : m.prev k ∈ l ∧ m.next k ∈ l := by
  obtain ⟨i, hi, rfl⟩ := List.mem_iff_getElem.1 hk
  have hg : ∀ j, j < l.length → l.getD j 0 ∈ l := fun j hj => by
    rw [List.getD_eq_getElem?_getD, List.getElem?_eq_getElem hj, Option.getD_some]; exact List.getElem_mem hj
  have he : l[i] = l.getD i 0 := by
    rw [List.getD_eq_getElem?_getD, List.getElem?_eq_getElem hi, Option.getD_some]
  have hl : 0 < l.length := by omega
  refine ⟨?_, ?_⟩
  · by_cases h0 : i = 0
    · have := h.prev_eq (l.length - 1) (by omega)
      rw [show (l.length - 1 + 1) % l.length = 0 by rw [Nat.sub_add_cancel hl, Nat.mod_self]] at this
      rw [he, h0, this]; exact hg _ (by omega)
    · have := h.prev_eq (i - 1) (by omega)
      rw [show (i - 1 + 1) % l.length = i by rw [Nat.sub_add_cancel (by omega), Nat.mod_eq_of_lt hi]] at this
      rw [he, this]; exact hg _ (by omega)
  · rw [he, h.next_eq i hi]; exact hg _ (Nat.mod_lt _ hl)

theorem IsList.ends {m : LMem} {l : List Nat} (h : IsList m l) :
    (m.first = 0 ∨ m.first ∈ l) ∧ (m.last = 0 ∨ m.last ∈ l) := by
  rw [h.first_eq, h.last_eq]
  cases l with
  | nil => exact ⟨.inl rfl, .inl rfl⟩
  | cons a l =>
    refine ⟨.inr (by simp), .inr ?_⟩
    rw [List.getLastD_eq_getLast?, List.getLast?_eq_some_getLast (by simp), Option.getD_some]
    exact List.getLast_mem _

end Verif
