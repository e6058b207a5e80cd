import Verif.Bytes
import Verif.Props.Growth

/-!
# The file of a united store, byte by byte

`LinkPart` and `LinksHeader` are `repr(C)` structures of eight words of the same type (`unit/raw_link.rs:3-14`,
`header.rs:3-15`), so there is no padding: slot `i` starts at byte `8·w·i` and the `f`-th word in it at `8·w·i + f·w`. Slot 0
is the header (`unit/store.rs:113-129`).
-/

namespace Verif.Unit
open Verif
variable {c : Cfg}

/-- The words of a slot in memory order (`unit/raw_link.rs:5-14`). -/
def Cell.words (p : Cell) : List Nat :=
  [p.source, p.target, p.leftS, p.rightS, p.sizeS, p.leftT, p.rightT, p.sizeT]

/-- The words in slot `i`; slot 0 is the header (`unit/store.rs:113-129`, `header.rs:5-15`). -/
def Store.slotWords (s : Store) (i : Nat) : List Nat := if i = 0 then s.hdr.asCell.words else (s.cell i).words

/-- Word `f` of slot `i`. -/
def Store.word (s : Store) (i f : Nat) : Nat := (s.slotWords i).getD f 0

/-- Byte `n` of the memory or file of a store whose words take `w` bytes. -/
def Store.bytes (e : Endian) (w : Nat) (s : Store) (n : Nat) : Nat := byteAt e w (s.word (n / (8 * w)) (n / w % 8)) (n % w)

/-- The slot found at number `i` of the bytes `F`. -/
def slotOf (e : Endian) (w : Nat) (F : Nat → Nat) (i : Nat) : Cell :=
  let r f := readWord e w F ((8 * i + f) * w)
  ⟨r 0, r 1, r 2, r 3, r 4, r 5, r 6, r 7⟩

/-- The memory of `len` slots that holds the bytes `F`; memory that is added later is zero. -/
def Store.load (e : Endian) (w len : Nat) (F : Nat → Nat) : Store where
  hdr :=
    let p := slotOf e w F 0
    ⟨p.source, p.target, p.leftS, p.rightS, p.sizeS, p.leftT, p.rightT, p.sizeT⟩
  cell i := if 1 ≤ i ∧ i < len then slotOf e w F i else {}
  len := len

/-! ### Lemmas -/

theorem word_read {e : Endian} {w i f len : Nat} {s : Store} {F : Nat → Nat} (hF : ∀ n, n < 8 * w * len → F n = s.bytes e w n)
    (hi : i < len) (hf : f < 8) (hx : s.word i f < 256 ^ w) : readWord e w F ((8 * i + f) * w) = s.word i f := by
  refine readWord_eq (fun p hp => ?_) hx
  rw [hF _ (word_in hf hp hi), Store.bytes, div_slot hf hp, div_word hf hp, mod_word hp]

theorem slotOf_eq {e : Endian} {w i len : Nat} {s : Store} {F : Nat → Nat} (hF : ∀ n, n < 8 * w * len → F n = s.bytes e w n)
    (hi : i < len) (hx : ∀ f, f < 8 → s.word i f < 256 ^ w) :
    slotOf e w F i = if i = 0 then s.hdr.asCell else s.cell i := by
  have h : ∀ f, f < 8 → readWord e w F ((8 * i + f) * w) = s.word i f := fun f hf => word_read hF hi hf (hx f hf)
  unfold slotOf
  simp only
  rw [h 0 (by omega), h 1 (by omega), h 2 (by omega), h 3 (by omega), h 4 (by omega), h 5 (by omega), h 6 (by omega),
    h 7 (by omega)]
  unfold Store.word Store.slotWords
  split <;> rfl

/-- The number of reserved slots fits: it is converted to the type of the indices whenever it is written. -/
theorem reach_reserved (hc : CfgOK c) {s : Store} (h : Reach c s) : s.hdr.reserved ≤ c.maxT := by
  have hinit : ∀ {a : Nat → Nat → Option Nat} {s s' : Store}, init (c.withAlloc a) s = some (.ok s') → s'.hdr.reserved ≤ c.maxT := by
    intro a s s' h
    unfold init at h
    split at h
    · cases h
    · split at h
      · cases h
      · simp only at h
        split at h
        · cases h
        · obtain ⟨r, -, h⟩ := Option.bind_eq_some_iff.1 h
          split at h
          · next hr => cases h; exact hr
          · cases h
  induction h with
  | fresh a _ h => exact hinit h
  | reopen a n _ _ h _ _ => exact hinit h
  | update _ _ ho ih => rw [(updateLinks_room ho).reserved]; exact ih
  | delete _ _ ho ih => rw [(deleteLinks_room ho).reserved]; exact ih
  | @create a s q σ h st o _ _ ho ih =>
    replace ho : createLinks (c.withAlloc a) s q h st = some o := ho
    unfold createLinks at ho
    simp only at ho
    split at ho
    · split at ho
      · cases ho; exact ih
      · obtain ⟨r1, -, ho⟩ := Option.bind_eq_some_iff.1 ho
        split at ho
        · split at ho
          · cases ho; exact ih
          · split at ho
            · next hn => obtain ⟨a, -, rfl⟩ := Option.map_eq_some_iff.1 ho; exact hn
            · cases ho
        · obtain ⟨a, -, rfl⟩ := Option.map_eq_some_iff.1 ho; exact ih
    · obtain ⟨s', h1, rfl⟩ := Option.map_eq_some_iff.1 ho
      have := (unusedDetach_room h1).reserved
      show s'.hdr.reserved ≤ _
      rw [this]; exact ih

/-- The slots that are not memory, and those never used, are zero. -/
theorem cell_zero {s : Store} {free : List Nat} {ts tt : Tree} (h : Inv0 c s free ts tt) {k : Nat}
    (hk : k = 0 ∨ s.hdr.allocated < k) : s.cell k = {} := by
  have h1 := h.base.beyond k hk
  have hl : ¬ LiveIn s free k := fun hl => by have := hl.1; have := hl.2.1; omega
  have h2 := h.src.clean k fun hm => hl ((h.src_mem k).1 hm).1
  have h3 := h.tgt.clean k fun hm => hl ((h.tgt_mem k).1 hm).1
  simp only [Store.lk, Prod.mk.injEq] at h1
  obtain ⟨a1, a2⟩ := h1
  obtain ⟨b1, b2, b3⟩ := h2
  obtain ⟨c1, c2, c3⟩ := h3
  revert a1 a2 b1 b2 b3 c1 c2 c3
  generalize s.cell k = p
  rcases p with ⟨p1, p2, p3, p4, p5, p6, p7, p8⟩
  simp only
  rintro rfl rfl rfl rfl rfl rfl rfl rfl
  rfl

/-- Every word of a slot fits. -/
theorem word_le (hc : CfgOK c) {s : Store} {free : List Nat} {ts tt : Tree} (h : Inv0 c s free ts tt)
    (hr : s.hdr.reserved ≤ c.maxT) (he : ∀ k, LiveIn s free k → (s.lk k).1 ≤ c.maxT ∧ (s.lk k).2 ≤ c.maxT) (i f : Nat) :
    s.word i f ≤ c.maxT := by
  have hend := hc.end_le
  have hal := h.base.alloc_le
  have hts : ∀ k ∈ ts.toList, 1 ≤ k ∧ k ≤ s.hdr.allocated := fun k hk => by
    have := ((h.src_mem k).1 hk).1; exact ⟨this.1, this.2.1⟩
  have htt : ∀ k ∈ tt.toList, 1 ≤ k ∧ k ≤ s.hdr.allocated := fun k hk => by
    have := ((h.tgt_mem k).1 hk).1; exact ⟨this.1, this.2.1⟩
  have hfr : ∀ k ∈ free, 1 ≤ k ∧ k ≤ s.hdr.allocated := fun k hk => by
    have := h.base.list.nonzero k hk; exact ⟨by omega, h.base.free_le k hk⟩
  have hl1 := length_le_of_nodup_le _ _ h.src.tree.nodup hts
  have hl2 := length_le_of_nodup_le _ _ h.tgt.tree.nodup htt
  have hl3 := length_le_of_nodup_le _ _ h.base.list.nodup hfr
  have orS : ∀ {x}, x = 0 ∨ x ∈ ts.toList → x ≤ c.maxT := by
    rintro x (rfl | hx)
    · omega
    · have := (hts x hx).2; omega
  have orT : ∀ {x}, x = 0 ∨ x ∈ tt.toList → x ≤ c.maxT := by
    rintro x (rfl | hx)
    · omega
    · have := (htt x hx).2; omega
  have orF : ∀ {x}, x = 0 ∨ x ∈ free → x ≤ c.maxT := by
    rintro x (rfl | hx)
    · omega
    · have := (hfr x hx).2; omega
  have hsz : s.hdr.free ≤ c.maxT := by
    have : s.hdr.free = free.length := h.base.list.size_eq
    omega
  have hcellS : ∀ k, (s.cell k).leftS ≤ c.maxT ∧ (s.cell k).rightS ≤ c.maxT ∧ (s.cell k).sizeS ≤ c.maxT := by
    intro k
    by_cases hk : k ∈ ts.toList
    · obtain ⟨h1, h2, h3⟩ := h.src.tree.holds.fields k hk
      exact ⟨orS h1, orS h2, by show s.srcMem.size k ≤ _; omega⟩
    · obtain ⟨h1, h2, h3⟩ := h.src.clean k hk
      omega
  have hcellT : ∀ k, (s.cell k).leftT ≤ c.maxT ∧ (s.cell k).rightT ≤ c.maxT ∧ (s.cell k).sizeT ≤ c.maxT := by
    intro k
    by_cases hk : k ∈ tt.toList
    · obtain ⟨h1, h2, h3⟩ := h.tgt.tree.holds.fields k hk
      exact ⟨orT h1, orT h2, by show s.tgtMem.size k ≤ _; omega⟩
    · obtain ⟨h1, h2, h3⟩ := h.tgt.clean k hk
      omega
  have hlk : ∀ k, (s.cell k).source ≤ c.maxT ∧ (s.cell k).target ≤ c.maxT := by
    intro k
    by_cases hk : k ∈ free
    · obtain ⟨h1, h2⟩ := h.base.list.fields hk
      exact ⟨orF (.inr h1), orF (.inr h2)⟩
    · by_cases hb : k = 0 ∨ s.hdr.allocated < k
      · have := h.base.beyond k hb
        simp only [Store.lk, Prod.mk.injEq] at this
        omega
      · exact he k ⟨by omega, by omega, hk⟩
  have hwords : ∀ x ∈ s.slotWords i, x ≤ c.maxT := by
    intro x hx
    unfold Store.slotWords at hx
    split at hx
    · simp only [Cell.words, Hdr.asCell, List.mem_cons, List.not_mem_nil, or_false] at hx
      rcases hx with rfl | rfl | rfl | rfl | rfl | rfl | rfl | rfl
      · omega
      · exact hr
      · exact hsz
      · exact orF h.base.list.ends.1
      · exact orS h.src.tree.holds.root_cases
      · exact orT h.tgt.tree.holds.root_cases
      · exact orF h.base.list.ends.2
      · rw [h.base.res8]; omega
    · simp only [Cell.words, List.mem_cons, List.not_mem_nil, or_false] at hx
      rcases hx with rfl | rfl | rfl | rfl | rfl | rfl | rfl | rfl
      · exact (hlk i).1
      · exact (hlk i).2
      · exact (hcellS i).1
      · exact (hcellS i).2.1
      · exact (hcellS i).2.2
      · exact (hcellT i).1
      · exact (hcellT i).2.1
      · exact (hcellT i).2.2
  unfold Store.word
  rw [List.getD_eq_getElem?_getD]
  cases hg : (s.slotWords i)[f]? with
  | none => simp
  | some x => exact hwords x (List.mem_of_getElem? hg)

/-- Bytes are read back as the memory they were written from. -/
theorem load_bytes {e : Endian} {w : Nat} {s : Store} {free : List Nat} {ts tt : Tree} (h : Inv0 c s free ts tt)
    (hw : ∀ i f, s.word i f < 256 ^ w) {F : Nat → Nat} (hF : ∀ n, n < 8 * w * s.len → F n = s.bytes e w n) :
    Store.load e w s.len F = s := by
  have h0 : slotOf e w F 0 = s.hdr.asCell :=
    slotOf_eq hF (by have := h.base.alloc_lt; omega) fun f _ => hw 0 f
  have hc : (Store.load e w s.len F).cell = s.cell := by
    funext k
    simp only [Store.load]
    split
    · next hk => rw [slotOf_eq hF hk.2 fun f _ => hw k f, if_neg (by omega)]
    · next hk =>
      rw [cell_zero h]
      have := h.base.alloc_lt
      omega
  have hh : (Store.load e w s.len F).hdr = s.hdr := by
    simp only [Store.load]; rw [h0]; rfl
  have hl : (Store.load e w s.len F).len = s.len := rfl
  revert hc hh hl
  generalize Store.load e w s.len F = t
  rcases t with ⟨t1, t2, t3⟩
  rintro rfl rfl rfl
  rfl

end Verif.Unit
