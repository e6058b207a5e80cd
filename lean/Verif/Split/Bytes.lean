import Verif.Unit.Bytes

/-!
# The files of a split store, byte by byte

`DataPart` is a `repr(C)` structure of two words (`split/data_part.rs:3-8`), `IndexPart` and `LinksHeader` of eight
(`split/index_part.rs:3-15`, `header.rs:3-15`). Data slot `i` starts at byte `2·w·i` of the data file, index slot `i` at byte
`8·w·i` of the index file; index slot 0 is the header (`split/store.rs:131-147`).
-/

namespace Verif.Split
open Verif
open Verif.Unit (Hdr)
variable {c : Cfg}

/-- The words of an index part in memory order (`split/index_part.rs:5-15`). -/
def IPart.words (p : IPart) : List Nat :=
  [p.rootS, p.leftS, p.rightS, p.sizeS, p.rootT, p.leftT, p.rightT, p.sizeT]

/-- The words in index slot `i`; slot 0 is the header (`split/store.rs:131-147`, `header.rs:5-15`). -/
def Store.idxWords (s : Store) (i : Nat) : List Nat := if i = 0 then (asPart s.hdr).words else (s.idx i).words

/-- Word `f` of index slot `i`. -/
def Store.idxWord (s : Store) (i f : Nat) : Nat := (s.idxWords i).getD f 0

/-- Word `f` of data slot `i` (`split/data_part.rs:5-8`). -/
def Store.dataWord (s : Store) (i f : Nat) : Nat := [(s.data i).1, (s.data i).2].getD f 0

/-- Byte `n` of the data file. -/
def Store.dataBytes (e : Endian) (w : Nat) (s : Store) (n : Nat) : Nat :=
  byteAt e w (s.dataWord (n / (2 * w)) (n / w % 2)) (n % w)

/-- Byte `n` of the index file. -/
def Store.idxBytes (e : Endian) (w : Nat) (s : Store) (n : Nat) : Nat :=
  byteAt e w (s.idxWord (n / (8 * w)) (n / w % 8)) (n % w)

/-- The index part found at number `i` of the bytes `F`. -/
def partOf (e : Endian) (w : Nat) (F : Nat → Nat) (i : Nat) : IPart :=
  let r f := readWord e w F ((8 * i + f) * w)
  ⟨r 0, r 1, r 2, r 3, r 4, r 5, r 6, r 7⟩

/-- The memories of `dlen` and `ilen` slots that hold the bytes `D` and `F`; memory that is added later is zero. -/
def Store.load (e : Endian) (w dlen ilen : Nat) (D F : Nat → Nat) : Store where
  hdr :=
    let p := partOf e w F 0
    ⟨p.rootS, p.leftS, p.rightS, p.sizeS, p.rootT, p.leftT, p.rightT, p.sizeT⟩
  idx i := if 1 ≤ i ∧ i < ilen then partOf e w F i else {}
  data i := if i < dlen then (readWord e w D (2 * i * w), readWord e w D ((2 * i + 1) * w)) else (0, 0)
  dlen := dlen
  ilen := ilen

/-! ### Lemmas -/

theorem idxWord_read {e : Endian} {w i f len : Nat} {s : Store} {F : Nat → Nat}
    (hF : ∀ n, n < 8 * w * len → F n = s.idxBytes e w n) (hi : i < len) (hf : f < 8) (hx : s.idxWord i f < 256 ^ w) :
    readWord e w F ((8 * i + f) * w) = s.idxWord i f := by
  refine readWord_eq (fun p hp => ?_) hx
  rw [hF _ (word_in hf hp hi), Store.idxBytes, div_slot hf hp, div_word hf hp, mod_word hp]

theorem dataWord_read {e : Endian} {w i f len : Nat} {s : Store} {F : Nat → Nat}
    (hF : ∀ n, n < 2 * w * len → F n = s.dataBytes e w n) (hi : i < len) (hf : f < 2) (hx : s.dataWord i f < 256 ^ w) :
    readWord e w F ((2 * i + f) * w) = s.dataWord i f := by
  refine readWord_eq (fun p hp => ?_) hx
  rw [hF _ (word_in hf hp hi), Store.dataBytes, div_slot hf hp, div_word hf hp, mod_word hp]

theorem partOf_eq {e : Endian} {w i len : Nat} {s : Store} {F : Nat → Nat}
    (hF : ∀ n, n < 8 * w * len → F n = s.idxBytes e w n) (hi : i < len) (hx : ∀ f, f < 8 → s.idxWord i f < 256 ^ w) :
    partOf e w F i = if i = 0 then asPart s.hdr else s.idx i := by
  have h : ∀ f, f < 8 → readWord e w F ((8 * i + f) * w) = s.idxWord i f := fun f hf => idxWord_read hF hi hf (hx f hf)
  unfold partOf
  simp only
  rw [h 0 (by omega), h 1 (by omega), h 2 (by omega), h 3 (by omega), h 4 (by omega), h 5 (by omega), h 6 (by omega),
    h 7 (by omega)]
  unfold Store.idxWord Store.idxWords
  split <;> rfl

/-- The number of reserved slots fits: it is converted to the type of the indices whenever it is written. -/
theorem reach_reserved {s : Store} (h : Reach c s) : s.hdr.reserved ≤ c.maxT := by
  have hinit : ∀ {d i : Nat → Nat → Option Nat} {s s' : Store}, init (c.withAllocs d i) s = some (.ok s') →
      s'.hdr.reserved ≤ c.maxT := by
    intro d i s s' h
    unfold init at h
    split at h
    · cases h
    · split at h
      · cases h
      · split at h
        · cases h
        · simp only at h
          split at h
          · cases h
          · split at h
            · cases h
            · obtain ⟨r, -, h⟩ := Option.bind_eq_some_iff.1 h
              split at h
              · cases h
              · split at h
                · next hr => cases h; exact hr
                · cases h
  induction h with
  | fresh d i _ _ h => exact hinit h
  | reopen d i n m _ _ _ h _ _ => exact hinit h
  | update _ _ ho ih => rw [(updateLinks_room ho).reserved]; exact ih
  | delete _ _ ho ih => rw [(deleteLinks_room ho).reserved]; exact ih
  | @create d i s q σ h st o _ _ _ _ _ ho ih =>
    replace ho : createLinks (c.withAllocs d i) s q h st = some o := ho
    unfold createLinks at ho
    simp only at ho
    split at ho
    · split at ho
      · cases ho; exact ih
      · obtain ⟨r1, -, ho⟩ := Option.bind_eq_some_iff.1 ho
        split at ho
        · split at ho
          · cases ho; exact ih
          · split at ho
            · cases ho; exact ih
            · split at ho
              · next hn => rw [(createTop_room ho).reserved]; exact hn
              · cases ho
        · rw [(createTop_room ho).reserved]; exact ih
    · obtain ⟨s', h1, ho⟩ := Option.bind_eq_some_iff.1 ho
      obtain ⟨s2, h2, rfl⟩ := Option.map_eq_some_iff.1 ho
      have := ((unusedDetach_room h1).trans (resolveExternal_room h2)).reserved
      show s2.hdr.reserved ≤ _
      rw [this]; exact ih

/-- The tree fields and roots of one side. -/
theorem part_fields {s : Store} {free : List Nat} (h : Inv0 c s free) (d : Side) :
    (∀ k, (nodeOf d (s.idx k)).1 ≤ s.hdr.allocated ∧ (nodeOf d (s.idx k)).2.1 ≤ s.hdr.allocated ∧
      (nodeOf d (s.idx k)).2.2 ≤ s.hdr.allocated ∧ rootOf d (s.idx k) ≤ s.hdr.allocated) ∧
    hrootOf d s.hdr ≤ s.hdr.allocated ∧
    ∀ k, s.hdr.allocated < k → nodeOf d (s.idx k) = (0, 0, 0) ∧ rootOf d (s.idx k) = 0 := by
  obtain ⟨ti, te, h1, h2, h3, h4, h5, h6, h7⟩ := h.forest d
  have hte : ∀ k ∈ te.toList, 1 ≤ k ∧ k ≤ s.hdr.allocated := fun k hk => by
    have := ((h4 k).1 hk).1; exact ⟨this.1, this.2.1⟩
  have hti : ∀ a, a ≠ 0 → ∀ k ∈ (ti a).toList, 1 ≤ k ∧ k ≤ s.hdr.allocated := fun a ha k hk => by
    have := ((h3 a k ha).1 hk).1.1; exact ⟨this.1, this.2.1⟩
  have mem : ∀ {t : Tree} {x : Nat}, (∀ k ∈ t.toList, 1 ≤ k ∧ k ≤ s.hdr.allocated) → x = 0 ∨ x ∈ t.toList →
      x ≤ s.hdr.allocated := by
    rintro t x ht (rfl | hx)
    · omega
    · exact (ht x hx).2
  have fields : ∀ {t : Tree} {r k : Nat}, (∀ k ∈ t.toList, 1 ≤ k ∧ k ≤ s.hdr.allocated) → t.toList.Nodup →
      Holds (s.tmem d) t r → k ∈ t.toList → (nodeOf d (s.idx k)).1 ≤ s.hdr.allocated ∧
        (nodeOf d (s.idx k)).2.1 ≤ s.hdr.allocated ∧ (nodeOf d (s.idx k)).2.2 ≤ s.hdr.allocated := by
    intro t r k ht hn hh hk
    obtain ⟨g1, g2, g3⟩ := hh.fields k hk
    have := length_le_of_nodup_le _ _ hn ht
    exact ⟨mem ht g1, mem ht g2, Nat.le_trans g3 this⟩
  refine ⟨fun k => ?_, mem hte h2.holds.root_cases, fun k hk => ⟨?_, ?_⟩⟩
  · have hroot : rootOf d (s.idx k) ≤ s.hdr.allocated := by
      by_cases hk : k = 0
      · rw [hk, h.base.data0.2]; cases d <;> exact Nat.zero_le _
      · exact mem (hti k hk) (h1 k hk).holds.root_cases
    by_cases hI : IntRef s free d k
    · have ha := h6 k hI
      obtain ⟨g1, g2, g3⟩ := fields (hti _ ha) (h1 _ ha).nodup (h1 _ ha).holds ((h3 _ k ha).2 ⟨hI, rfl⟩)
      exact ⟨g1, g2, g3, hroot⟩
    · by_cases hE : ExtRef s free d k
      · obtain ⟨g1, g2, g3⟩ := fields hte h2.nodup h2.holds ((h4 k).2 hE)
        exact ⟨g1, g2, g3, hroot⟩
      · have : nodeOf d (s.idx k) = (0, 0, 0) := by
          by_cases hk : k = 0
          · rw [hk, h.base.data0.2]; cases d <;> rfl
          · exact h7 k hk hI hE
        rw [this]; exact ⟨Nat.zero_le _, Nat.zero_le _, Nat.zero_le _, hroot⟩
  · exact h7 k (by omega) (fun hI => by have := hI.1.2.1; omega) (fun hE => by have := hE.1.2.1; omega)
  · have hk0 : k ≠ 0 := by omega
    rcases (h1 k hk0).holds.root_cases with hr | hr
    · exact hr
    · obtain ⟨hI, he⟩ := (h3 k _ hk0).1 hr
      have := hI.2.2.2.1
      rw [he] at this; omega

/-- The index slots that are not memory, and those never used, are zero. -/
theorem idx_zero {s : Store} {free : List Nat} (h : Inv0 c s free) {k : Nat} (hk : k = 0 ∨ s.hdr.allocated < k) :
    s.idx k = {} := by
  rcases hk with rfl | hk
  · exact h.base.data0.2
  · have h1 := (part_fields h .src).2.2 k hk
    have h2 := (part_fields h .tgt).2.2 k hk
    simp only [nodeOf, rootOf, Prod.mk.injEq] at h1 h2
    obtain ⟨⟨a1, a2, a3⟩, a4⟩ := h1
    obtain ⟨⟨b1, b2, b3⟩, b4⟩ := h2
    revert a1 a2 a3 a4 b1 b2 b3 b4
    generalize s.idx k = p
    rcases p with ⟨p1, p2, p3, p4, p5, p6, p7, p8⟩
    simp only
    rintro rfl rfl rfl rfl rfl rfl rfl rfl
    rfl

/-- Every word of a data slot fits. -/
theorem dataWord_le (hc : CfgOK c) {s : Store} {free : List Nat} (h : Inv0 c s free)
    (he : ∀ k, LiveIn s free k → (s.data k).1 ≤ c.maxT ∧ (s.data k).2 ≤ c.maxT) (i f : Nat) : s.dataWord i f ≤ c.maxT := by
  have hend := hc.end_le
  have hal := h.base.alloc_le
  have hd : (s.data i).1 ≤ c.maxT ∧ (s.data i).2 ≤ c.maxT := by
    by_cases hk : i ∈ free
    · obtain ⟨h1, h2⟩ := h.base.list.fields hk
      have h3 := h.base.free_le _ h1
      have h4 := h.base.free_le _ h2
      simp only [Store.listMem] at h3 h4
      omega
    · by_cases hb : i = 0
      · rw [hb, h.base.data0.1]; exact ⟨Nat.zero_le _, Nat.zero_le _⟩
      · by_cases hb2 : s.hdr.allocated < i
        · rw [h.base.beyond i hb2]; exact ⟨Nat.zero_le _, Nat.zero_le _⟩
        · exact he i ⟨by omega, by omega, hk⟩
  unfold Store.dataWord
  match f with
  | 0 => exact hd.1
  | 1 => exact hd.2
  | f + 2 => simp

/-- Every word of an index slot fits. -/
theorem idxWord_le (hc : CfgOK c) {s : Store} {free : List Nat} (h : Inv0 c s free)
    (hr : s.hdr.reserved ≤ c.maxT) (i f : Nat) : s.idxWord i f ≤ c.maxT := by
  have hend := hc.end_le
  have hal := h.base.alloc_le
  have hfr : ∀ k ∈ free, 1 ≤ k ∧ k ≤ s.hdr.allocated := fun k hk => by
    have := h.base.list.nonzero k hk; exact ⟨by omega, h.base.free_le k hk⟩
  have hl3 := length_le_of_nodup_le _ _ h.base.list.nodup hfr
  have hsz : s.hdr.free ≤ c.maxT := by
    have : s.hdr.free = free.length := h.base.list.size_eq
    omega
  have orF : ∀ {x}, x = 0 ∨ x ∈ free → x ≤ c.maxT := by
    rintro x (rfl | hx)
    · omega
    · have := (hfr x hx).2; omega
  obtain ⟨s1, s2, -⟩ := part_fields h .src
  obtain ⟨t1, t2, -⟩ := part_fields h .tgt
  simp only [nodeOf, rootOf, hrootOf] at s1 s2 t1 t2
  have g1 := s1 i
  have g2 := t1 i
  have hwords : ∀ x ∈ s.idxWords i, x ≤ c.maxT := by
    intro x hx
    unfold Store.idxWords at hx
    split at hx
    · simp only [IPart.words, asPart, List.mem_cons, List.not_mem_nil, or_false] at hx
      rcases hx with rfl | rfl | rfl | rfl | rfl | rfl | rfl | rfl
      · omega
      · exact hr
      · exact hsz
      · exact orF h.base.list.ends.1
      · omega
      · omega
      · exact orF h.base.list.ends.2
      · rw [h.base.res8]; omega
    · simp only [IPart.words, List.mem_cons, List.not_mem_nil, or_false] at hx
      rcases hx with rfl | rfl | rfl | rfl | rfl | rfl | rfl | rfl <;> omega
  unfold Store.idxWord
  rw [List.getD_eq_getElem?_getD]
  cases hg : (s.idxWords i)[f]? with
  | none => simp
  | some x => exact hwords x (List.mem_of_getElem? hg)

/-- Bytes are read back as the memories they were written from. -/
theorem load_bytes {e : Endian} {w : Nat} {s : Store} {free : List Nat} (h : Inv0 c s free)
    (hd : ∀ i f, s.dataWord i f < 256 ^ w) (hw : ∀ i f, s.idxWord i f < 256 ^ w) {D F : Nat → Nat}
    (hD : ∀ n, n < 2 * w * s.dlen → D n = s.dataBytes e w n) (hF : ∀ n, n < 8 * w * s.ilen → F n = s.idxBytes e w n) :
    Store.load e w s.dlen s.ilen D F = s := by
  have h0 : partOf e w F 0 = asPart s.hdr :=
    partOf_eq hF (by have := h.base.alloc_lt; omega) fun f _ => hw 0 f
  have hi : (Store.load e w s.dlen s.ilen D F).idx = s.idx := by
    funext k
    simp only [Store.load]
    split
    · next hk => rw [partOf_eq hF hk.2 fun f _ => hw k f, if_neg (by omega)]
    · next hk =>
      rw [idx_zero h]
      have := h.base.alloc_lt
      omega
  have hda : (Store.load e w s.dlen s.ilen D F).data = s.data := by
    funext k
    simp only [Store.load]
    split
    · next hk =>
      have e0 := dataWord_read hD hk (show 0 < 2 by omega) (hd k 0)
      have e1 := dataWord_read hD hk (show 1 < 2 by omega) (hd k 1)
      rw [Nat.add_zero] at e0
      rw [e0, e1]; rfl
    · next hk =>
      rw [h.base.beyond k]
      have := h.base.alloc_lt
      have := h.base.len_eq
      omega
  have hh : (Store.load e w s.dlen s.ilen D F).hdr = s.hdr := by
    simp only [Store.load]; rw [h0]; rfl
  have hst : (Store.load e w s.dlen s.ilen D F).stale = s.stale := h.base.fresh.symm
  have hl1 : (Store.load e w s.dlen s.ilen D F).dlen = s.dlen := rfl
  have hl2 : (Store.load e w s.dlen s.ilen D F).ilen = s.ilen := rfl
  revert hi hda hh hst hl1 hl2
  generalize Store.load e w s.dlen s.ilen D F = t
  rcases t with ⟨t1, t2, t3, t4, t5, t6⟩
  rintro rfl rfl rfl rfl rfl rfl
  rfl

end Verif.Split
