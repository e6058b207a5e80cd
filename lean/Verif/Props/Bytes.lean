import Verif.Split.Bytes
import Verif.Unit.ReachLawful
import Verif.Props.SplitDerived
import Verif.DecoratorLaws

/-!
# C82: the file of a store

`maxT` is the largest value of the index type and `w` its size in bytes, so `maxT < 256 ^ w`. `readWord e w F o` is the number
found at byte offset `o` of the bytes `F` in the byte order `e`. The ends of links are values of the index type, which is
what `hends` says; everything else in the file is written by the store itself.
-/

namespace Verif.Unit.Props
open Verif Verif.Unit
variable {c : Cfg} {e : Endian} {w : Nat}

/-- All ends of links are values of the index type. -/
def EndsFit (v : View) (maxT : Nat) : Prop := ∀ l, v.Has l → l.source ≤ maxT ∧ l.target ≤ maxT

theorem endsFit_live (hc : CfgOK c) {s : Store} {free : List Nat} {ts tt : Tree} (h : Inv0 c s free ts tt)
    (he : EndsFit ((links c).view s) c.maxT) : ∀ k, LiveIn s free k → (s.lk k).1 ≤ c.maxT ∧ (s.lk k).2 ≤ c.maxT :=
  fun k hk => he (s.linkAt k) ((has_iff hc h _).2 ⟨hk, rfl⟩)

/-- **C82**. Everything a store ever writes fits in the index type: no count, size, index or pointer in any slot of a
reachable store is larger than the type's largest value, so nothing was truncated. -/
theorem C82_every_word_fits (hc : CfgOK c) {s : Store} (h : Reach c s) (hends : EndsFit ((links c).view s) c.maxT) (i : Nat) :
    ∀ x ∈ s.slotWords i, x ≤ c.maxT := by
  obtain ⟨free, ts, tt, hi⟩ := reach_good hc h
  intro x hx
  obtain ⟨f, hf⟩ := List.getElem?_of_mem hx
  have := word_le hc hi.toInv0 (reach_reserved hc h) (endsFit_live hc hi.toInv0 hends) i f
  rwa [Store.word, List.getD_eq_getElem?_getD, hf, Option.getD_some] at this

/-- **C82**. Where a link is in the file: the link with index `i` is in the eight words from byte `8·w·i` on, its source
first and then its target. The file has room for it. The first word of the file less the third is the number of links. -/
theorem C82_file_holds_the_links (hc : CfgOK c) (hw : c.maxT < 256 ^ w) {s : Store} (h : Reach c s)
    (hends : EndsFit ((links c).view s) c.maxT) :
    (∀ l, ((links c).view s).Has l →
      readWord e w (s.bytes e w) (8 * w * l.index) = l.source ∧
      readWord e w (s.bytes e w) (8 * w * l.index + w) = l.target ∧
      8 * w * l.index + 8 * w ≤ 8 * w * s.len) ∧
    (links c).countLinks s [] =
      some (readWord e w (s.bytes e w) 0 - readWord e w (s.bytes e w) (2 * w)) := by
  obtain ⟨free, ts, tt, hi⟩ := reach_good hc h
  have hx : ∀ i f, s.word i f < 256 ^ w := fun i f =>
    Nat.lt_of_le_of_lt (word_le hc hi.toInv0 (reach_reserved hc h) (endsFit_live hc hi.toInv0 hends) i f) hw
  have hr : ∀ {i f}, i < s.len → f < 8 → readWord e w (s.bytes e w) ((8 * i + f) * w) = s.word i f := fun h1 h2 =>
    word_read (len := s.len) (fun _ _ => rfl) h1 h2 (hx _ _)
  refine ⟨fun l hl => ?_, ?_⟩
  · obtain ⟨hlive, hl⟩ := (has_iff hc hi.toInv0 l).1 hl
    have hlt : l.index < s.len := Nat.lt_of_le_of_lt hlive.2.1 hi.base.alloc_lt
    have h0 : l.index ≠ 0 := by have := hlive.1; omega
    have h1 := hr hlt (show 0 < 8 by omega)
    have h2 := hr hlt (show 1 < 8 by omega)
    rw [show (8 * l.index + 0) * w = 8 * w * l.index by rw [Nat.add_zero, Nat.mul_right_comm]] at h1
    rw [show (8 * l.index + 1) * w = 8 * w * l.index + w by rw [Nat.add_mul, Nat.mul_right_comm, Nat.one_mul]] at h2
    refine ⟨?_, ?_, ?_⟩
    · rw [h1, Store.word, Store.slotWords, if_neg h0, hl]; rfl
    · rw [h2, Store.word, Store.slotWords, if_neg h0, hl]; rfl
    · have : 8 * w * (l.index + 1) ≤ 8 * w * s.len := Nat.mul_le_mul_left _ hlt
      rwa [Nat.mul_add, Nat.mul_one] at this
  · have hlt := hi.base.alloc_lt
    have h1 := hr (i := 0) (f := 0) (by omega) (by omega)
    have h2 := hr (i := 0) (f := 2) (by omega) (by omega)
    simp only [Nat.mul_zero, Nat.zero_add, Nat.zero_mul] at h1 h2
    rw [h1, h2]
    have hfr : ∀ k ∈ free, 1 ≤ k ∧ k ≤ s.hdr.allocated := fun k hk => by
      have := hi.base.list.nonzero k hk; exact ⟨by omega, hi.base.free_le k hk⟩
    have hl := length_le_of_nodup_le _ _ hi.base.list.nodup hfr
    have : s.hdr.free = free.length := hi.base.list.size_eq
    show getTotal s = some (s.hdr.allocated - s.hdr.free)
    unfold getTotal csub
    rw [if_pos (by omega)]

/-- **C82**. The file determines the store: reading back the bytes of a reachable store gives that very store, with all its
links, its list of free slots and its search trees. -/
theorem C82_reading_the_file_back (hc : CfgOK c) (hw : c.maxT < 256 ^ w) {s : Store} (h : Reach c s)
    (hends : EndsFit ((links c).view s) c.maxT) {F : Nat → Nat} (hF : ∀ n, n < 8 * w * s.len → F n = s.bytes e w n) :
    Store.load e w s.len F = s := by
  obtain ⟨free, ts, tt, hi⟩ := reach_good hc h
  exact load_bytes hi.toInv0 (fun i f =>
    Nat.lt_of_le_of_lt (word_le hc hi.toInv0 (reach_reserved hc h) (endsFit_live hc hi.toInv0 hends) i f) hw) hF

/-- `sNet` with one and with two bytes per word: the ends of its links fit, the ends of link 2, which leads from 1 to 3, are
where they should be in either byte order, and the header counts six slots with one free. -/
example : CfgOK cfg0 ∧ Reach cfg0 sNet ∧ cfg0.maxT < 256 ^ 1 ∧ EndsFit ((links cfg0).view sNet) cfg0.maxT ∧
    (links cfg0).view sNet 2 = some (1, 3) ∧
    (List.range' 16 2).map (sNet.bytes .little 1) = [1, 3] ∧ (List.range' 32 4).map (sNet.bytes .big 2) = [0, 1, 0, 3] ∧
    (List.range' 32 4).map (sNet.bytes .little 2) = [1, 0, 3, 0] ∧
    (List.range 6).map (sNet.bytes .little 2) = [6, 0, 7, 0, 1, 0] := by
  refine ⟨cfg0_ok, sNet_reach, by decide, fun l hl => ?_, by decide +kernel, by decide +kernel, by decide +kernel,
    by decide +kernel, by decide +kernel⟩
  have := _root_.Verif.forall_of_collect (W := reachLawful cfg0_ok) (s := sNet) sNet_reach
    (p := fun l => l.source ≤ cfg0.maxT && l.target ≤ cfg0.maxT) (by decide +kernel) hl
  simpa using this

end Verif.Unit.Props

namespace Verif.Split.Props
open Verif Verif.Split
open Verif.Unit.Props (EndsFit)
variable {c : Cfg} {e : Endian} {w : Nat}

theorem endsFit_live (hc : CfgOK c) {s : Store} {free : List Nat} (h : Inv0 c s free)
    (he : EndsFit ((links c).view s) c.maxT) : ∀ k, LiveIn s free k → (s.data k).1 ≤ c.maxT ∧ (s.data k).2 ≤ c.maxT :=
  fun k hk => he (s.linkAt k) ((has_iff hc h _).2 ⟨hk, rfl⟩)

/-- **C82**, split store. Everything in either memory of a reachable store fits in the index type. -/
theorem C82_split_every_word_fits (hc : CfgOK c) {s : Store} (h : Reach c s) (hends : EndsFit ((links c).view s) c.maxT)
    (i : Nat) : (s.data i).1 ≤ c.maxT ∧ (s.data i).2 ≤ c.maxT ∧ ∀ x ∈ s.idxWords i, x ≤ c.maxT := by
  obtain ⟨free, hi⟩ := reach_good hc h
  have hd := dataWord_le hc hi.toInv0 (endsFit_live hc hi.toInv0 hends) i
  refine ⟨hd 0, hd 1, fun x hx => ?_⟩
  obtain ⟨f, hf⟩ := List.getElem?_of_mem hx
  have := idxWord_le hc hi.toInv0 (reach_reserved h) i f
  rwa [Store.idxWord, List.getD_eq_getElem?_getD, hf, Option.getD_some] at this

/-- **C82**, split store. Where a link is: the link with index `i` is in the two words of the data file from byte `2·w·i` on, its
source first. The data file has room for it. The first word of the index file less the third is the number of links. -/
theorem C82_split_files_hold_the_links (hc : CfgOK c) (hw : c.maxT < 256 ^ w) {s : Store} (h : Reach c s)
    (hends : EndsFit ((links c).view s) c.maxT) :
    (∀ l, ((links c).view s).Has l →
      readWord e w (s.dataBytes e w) (2 * w * l.index) = l.source ∧
      readWord e w (s.dataBytes e w) (2 * w * l.index + w) = l.target ∧
      2 * w * l.index + 2 * w ≤ 2 * w * s.dlen) ∧
    (links c).countLinks s [] =
      some (readWord e w (s.idxBytes e w) 0 - readWord e w (s.idxBytes e w) (2 * w)) := by
  obtain ⟨free, hi⟩ := reach_good hc h
  have hxd : ∀ i f, s.dataWord i f < 256 ^ w := fun i f =>
    Nat.lt_of_le_of_lt (dataWord_le hc hi.toInv0 (endsFit_live hc hi.toInv0 hends) i f) hw
  have hxi : ∀ i f, s.idxWord i f < 256 ^ w := fun i f =>
    Nat.lt_of_le_of_lt (idxWord_le hc hi.toInv0 (reach_reserved h) i f) hw
  refine ⟨fun l hl => ?_, ?_⟩
  · obtain ⟨hlive, hl⟩ := (has_iff hc hi.toInv0 l).1 hl
    have hlt : l.index < s.dlen := by
      rw [hi.base.len_eq]; exact Nat.lt_of_le_of_lt hlive.2.1 hi.base.alloc_lt
    have h1 := dataWord_read (e := e) (len := s.dlen) (fun _ _ => rfl) hlt (show 0 < 2 by omega) (hxd _ _)
    have h2 := dataWord_read (e := e) (len := s.dlen) (fun _ _ => rfl) hlt (show 1 < 2 by omega) (hxd _ _)
    rw [show (2 * l.index + 0) * w = 2 * w * l.index by rw [Nat.add_zero, Nat.mul_right_comm]] at h1
    rw [show (2 * l.index + 1) * w = 2 * w * l.index + w by rw [Nat.add_mul, Nat.mul_right_comm, Nat.one_mul]] at h2
    refine ⟨?_, ?_, ?_⟩
    · rw [h1, Store.dataWord, hl]; rfl
    · rw [h2, Store.dataWord, hl]; rfl
    · have : 2 * w * (l.index + 1) ≤ 2 * w * s.dlen := Nat.mul_le_mul_left _ hlt
      rwa [Nat.mul_add, Nat.mul_one] at this
  · have hlt := hi.base.alloc_lt
    have h1 := idxWord_read (e := e) (i := 0) (f := 0) (len := s.ilen) (fun _ _ => rfl) (by omega) (by omega) (hxi _ _)
    have h2 := idxWord_read (e := e) (i := 0) (f := 2) (len := s.ilen) (fun _ _ => rfl) (by omega) (by omega) (hxi _ _)
    simp only [Nat.mul_zero, Nat.zero_add, Nat.zero_mul] at h1 h2
    rw [h1, h2]
    have hfr : ∀ k ∈ free, 1 ≤ k ∧ k ≤ s.hdr.allocated := fun k hk => by
      have := hi.base.list.nonzero k hk; exact ⟨by omega, hi.base.free_le k hk⟩
    have hl := length_le_of_nodup_le _ _ hi.base.list.nodup hfr
    have : s.hdr.free = free.length := hi.base.list.size_eq
    show total s = some (s.hdr.allocated - s.hdr.free)
    unfold total csub
    rw [if_pos (by omega)]

/-- **C82**, split store. The two files determine the store. -/
theorem C82_split_reading_the_files_back (hc : CfgOK c) (hw : c.maxT < 256 ^ w) {s : Store} (h : Reach c s)
    (hends : EndsFit ((links c).view s) c.maxT) {D F : Nat → Nat} (hD : ∀ n, n < 2 * w * s.dlen → D n = s.dataBytes e w n)
    (hF : ∀ n, n < 8 * w * s.ilen → F n = s.idxBytes e w n) : Store.load e w s.dlen s.ilen D F = s := by
  obtain ⟨free, hi⟩ := reach_good hc h
  exact load_bytes hi.toInv0
    (fun i f => Nat.lt_of_le_of_lt (dataWord_le hc hi.toInv0 (endsFit_live hc hi.toInv0 hends) i f) hw)
    (fun i f => Nat.lt_of_le_of_lt (idxWord_le hc hi.toInv0 (reach_reserved h) i f) hw) hD hF

/-- `sNet` in the split store: the ends fit, those of link 2 are in the data file, the counts in the index file. -/
example : CfgOK cfg0 ∧ Reach cfg0 sNet ∧ cfg0.maxT < 256 ^ 1 ∧ EndsFit ((links cfg0).view sNet) cfg0.maxT ∧
    (links cfg0).view sNet 2 = some (1, 3) ∧
    (List.range' 4 2).map (sNet.dataBytes .little 1) = [1, 3] ∧ (List.range' 8 4).map (sNet.dataBytes .big 2) = [0, 1, 0, 3] ∧
    (List.range 6).map (sNet.idxBytes .little 2) = [6, 0, 7, 0, 1, 0] := by
  refine ⟨cfg0_ok, sNet_reach, by decide, fun l hl => ?_, by decide +kernel, by decide +kernel, by decide +kernel,
    by decide +kernel⟩
  have := _root_.Verif.forall_of_collect (W := reachLawful cfg0_ok) (s := sNet) sNet_reach
    (p := fun l => l.source ≤ cfg0.maxT && l.target ≤ cfg0.maxT) (by decide +kernel) hl
  simpa using this

end Verif.Split.Props
