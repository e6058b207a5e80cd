import Verif.Unit.Example
import Verif.Split.Example

/-!
# Property C88: which constants a store can be given

A store is opened with constants of the caller's choice (`Store::with_constants`, `mem/unit/store.rs:55-79`,
`mem/split/store.rs:59-110`; through C: `doublets-ffi/src/lib.rs:167-186`) and does not check them. `CfgOK` has the conditions
under which the other properties hold; here it is shown which constants matter, and what happens where a condition is not met.
-/

namespace Verif

/-- The constants agree in the seven fields that are not `continue`, `break`, `skip`, `itself`, `error` and the external range. -/
structure Consts.SameForStore (k k' : Consts) : Prop where
  index : k'.indexPart = k.indexPart
  source : k'.sourcePart = k.sourcePart
  target : k'.targetPart = k.targetPart
  null : k'.null = k.null
  any : k'.any = k.any
  start : k'.internalStart = k.internalStart
  finish : k'.internalEnd = k.internalEnd

/-- Two stores that answer every call alike. -/
structure Links.Alike {S : Type} (D D' : Links S) : Prop where
  count : ∀ s q, D'.countLinks s q = D.countLinks s q
  create : ∀ {σ : Type} s q (h : WH σ) st, D'.createLinks s q h st = D.createLinks s q h st
  each : ∀ {σ : Type} s q (h : RH σ) st, D'.eachLinks s q h st = D.eachLinks s q h st
  update : ∀ {σ : Type} s q ch (h : WH σ) st, D'.updateLinks s q ch h st = D.updateLinks s q ch h st
  delete : ∀ {σ : Type} s q (h : WH σ) st, D'.deleteLinks s q h st = D.deleteLinks s q h st
  get : ∀ s i, D'.getLink s i = D.getLink s i

namespace Unit.Props
open Verif.Unit

theorem releaseTop_consts (c : Cfg) (k' : Consts) : ∀ (n : Nat) (s : Store),
    releaseTop { c with consts := k' } n s = releaseTop c n s
  | 0, _ => rfl
  | n + 1, s => by
    have hu : ∀ i, unusedDetach { c with consts := k' } s i = unusedDetach c s i := fun _ => rfl
    simp only [releaseTop, hu, releaseTop_consts c k' n]

theorem getLink_same {c : Cfg} {k' : Consts} (h : c.consts.SameForStore k') (s : Store) (i : Nat) :
    getLink { c with consts := k' } s i = getLink c s i := by
  simp only [getLink, exists?, h.start]

theorem eachIdx_same {c : Cfg} {k' : Consts} (h : c.consts.SameForStore k') {σ : Type} (s : Store) (hd : RH σ) :
    ∀ (l : List Nat) (st : σ), eachIdx { c with consts := k' } s hd l st = eachIdx c s hd l st
  | [], _ => rfl
  | i :: is, st => by
    simp only [eachIdx, getLink_same h, eachIdx_same h s hd is]

theorem updateLinks_same {c : Cfg} {k' : Consts} (h : c.consts.SameForStore k') {σ : Type} (s : Store) (q ch : List Nat)
    (hd : WH σ) (st : σ) : updateLinks { c with consts := k' } s q ch hd st = updateLinks c s q ch hd st := by
  have hr : ∀ l i a b, relink { c with consts := k' } s l i a b = relink c s l i a b := fun _ _ _ _ => rfl
  simp only [updateLinks, getLink_same h, hr]

/-- **C88**, united store: the constants `continue`, `break`, `skip`, `itself`, `error` and the external range do not matter to the
store. -/
theorem C88_other_constants_do_not_matter (c : Cfg) (k' : Consts) (h : c.consts.SameForStore k') :
    (links c).Alike (links { c with consts := k' }) := by
  refine ⟨fun s q => ?_, fun s q hd st => ?_, fun s q hd st => ?_, updateLinks_same h, fun s q hd st => ?_, getLink_same h⟩
  · simp only [links, countLinks, count3, exists?, getLink, tgtCount, srcCount, h.any, h.null, h.index, h.source, h.target,
      h.start]
  · have hu : ∀ i, unusedDetach { c with consts := k' } s i = unusedDetach c s i := fun _ => rfl
    simp only [links, createLinks, createTop, h.null, h.finish, hu]
  · simp only [links, eachLinks, each3, eachAll, h.any, h.index, h.source, h.target, getLink_same h, eachIdx_same h]
  · have hu : ∀ s i, unusedAttachFirst { c with consts := k' } s i = unusedAttachFirst c s i := fun _ _ => rfl
    simp only [links, deleteLinks, releaseTop_consts, getLink_same h, updateLinks_same h, hu]

/-- The hypothesis is met by constants that differ in all the other fields. -/
example : consts0.SameForStore { consts0 with cont := 1, brk := 2, skip := 3, itself := 4, error := 5, external := some (7, 9) } :=
  ⟨rfl, rfl, rfl, rfl, rfl, rfl, rfl⟩

theorem init_new {c : Cfg} {s : Store} (h : init c {} = some (.ok s)) : s.hdr.firstFree = 0 ∧ s.hdr.allocated = 0 := by
  unfold init at h
  split at h
  · cases h
  · split at h
    · cases h
    · simp only at h
      split at h
      · cases h
      · simp only [Option.bind_eq_some_iff] at h
        obtain ⟨r, -, h⟩ := h
        split at h
        · cases h; exact ⟨rfl, rfl⟩
        · cases h

/-- **C88**, united store: if `null` is not 0, a new store never creates a link. Creating either does not return, or reports the
index 0, at which there is no link. -/
theorem C88_null_must_be_zero (c : Cfg) (hn : c.consts.null ≠ 0) (hs : 1 ≤ c.consts.internalStart) {s : Store}
    (h : init c {} = some (.ok s)) {o : Out Store _root_.Unit Nat} (ho : (links c).create s = some o) :
    o.res = .ok 0 ∧ (links c).getLink o.st 0 = some none := by
  have hf : s.hdr.firstFree = 0 := (init_new h).1
  have hn' : ¬ 0 = c.consts.null := fun e => hn e.symm
  simp only [Links.create, Links.createBy, Links.createByWith, links, createLinks, hf, hn', if_false, Option.map_map,
    Option.map_eq_some_iff] at ho
  obtain ⟨s', -, rfl⟩ := ho
  refine ⟨rfl, ?_⟩
  have : ¬ (c.consts.internalStart ≤ 0) := by omega
  simp [links, getLink, exists?, this]

/-- A configuration with another `null`. -/
def cfgNull : Cfg := { cfg0 with consts := { consts0 with null := 7 } }

/-- The hypotheses are met, and creating returns. -/
example : ∃ s, init cfgNull {} = some (.ok s) ∧ ((links cfgNull).create s).map (·.res.toOption) = some (some 0) :=
  ⟨_, rfl, by decide +kernel⟩

/-- **C88**, united store: links below the start of the internal range cannot be reached, in any state of the store: they cannot be
read, are not counted by their index, and cannot be updated or deleted. -/
theorem C88_links_below_the_range (c : Cfg) (s : Store) {i : Nat} (hi : i < c.consts.internalStart) (x y : Nat) :
    (links c).getLink s i = some none ∧
    (c.consts.indexPart = 0 → i ≠ c.consts.any → (links c).countLinks s [i] = some 0 ∧ (links c).Visits s [i] []) ∧
    ((links c).update s i x y = some ⟨.error (.notExists i), s, ()⟩) ∧
    ((links c).delete s i = some ⟨.error (.notExists i), s, ()⟩) := by
  have hn : ¬ (c.consts.internalStart ≤ i ∧ i ≤ s.hdr.allocated) := by omega
  have hg : getLink c s i = some none := by simp [getLink, exists?, hn]
  refine ⟨hg, fun h0 ha => ⟨?_, fun σ h st => ?_⟩, ?_, ?_⟩
  · simp [links, countLinks, h0, ha, exists?, hn, oneIf]
  · simp [links, eachLinks, h0, ha, hg, runH]
  · simp [Links.update, Links.updateBy, Links.updateByWith, links, updateLinks, hg, Links.unwrapW, Links.resultIndex, Except.map]
  · simp [Links.delete, Links.deleteBy, Links.deleteByWith, links, deleteLinks, hg, Links.unwrapW, Links.resultIndex, Except.map]

/-- **C88**, united store: with the usual `null`, the first link of a new store has index 1 even if the internal range starts above 1.
Then that link cannot be read, though it was reported. -/
theorem C88_range_must_start_at_one (c : Cfg) (hn : c.consts.null = 0) {s : Store} (h : init c {} = some (.ok s))
    {o : Out Store _root_.Unit Nat} (ho : (links c).create s = some o) {v : Nat} (hv : o.res = .ok v) :
    v = 1 ∧ (1 < c.consts.internalStart → (links c).getLink o.st v = some none) := by
  have hh : s.hdr.firstFree = 0 ∧ s.hdr.allocated = 0 := init_new h
  have hv1 : v = 1 := by
    simp only [Links.create, Links.createBy, Links.createByWith, links, createLinks, hh.1, hn, if_true, Option.map_map,
      Option.map_eq_some_iff] at ho
    obtain ⟨o', ho', rfl⟩ := ho
    have top : ∀ s' : Store, s'.hdr.allocated = 0 → createTop c s' (Links.wrapW Links.keepIndex) (0, .cont) = some o' → v = 1 := by
      intro s' h0 ht
      simp only [createTop, h0, Option.map_eq_some_iff, cadd] at ht
      obtain ⟨a, ha, rfl⟩ := ht
      split at ha
      · cases ha
        simp [Links.wrapW, Links.keepIndex, Links.unwrapW, Links.resultIndex, Except.map] at hv
        omega
      · cases ha
    split at ho'
    · cases ho'; cases hv
    · simp only [Option.bind_eq_some_iff] at ho'
      obtain ⟨r1, -, ho'⟩ := ho'
      split at ho'
      · split at ho'
        · cases ho'; cases hv
        · split at ho'
          · rename_i n _ _
            exact top { s with len := n, hdr := { s.hdr with reserved := n } } hh.2 (by simpa [hh.1] using ho')
          · cases ho'
      · exact top _ hh.2 ho'
  subst hv1
  exact ⟨rfl, fun h1 => (C88_links_below_the_range c o.st h1 0 0).1⟩

/-- A configuration with a range that starts at 2. -/
def cfgStart : Cfg := { cfg0 with consts := { consts0 with internalStart := 2 } }

/-- The hypotheses are met, and creating succeeds. -/
example : ∃ s, init cfgStart {} = some (.ok s) ∧ ((links cfgStart).create s).map (·.res.toOption) = some (some 1) :=
  ⟨_, rfl, by decide +kernel⟩

/-- **C88**, united store: a link whose index is the constant `any` cannot be asked for. The query that names it is the query for all
links, and the query for its usages as a source is the same. Reading by index and all writes are as with another `any`. -/
theorem C88_any_must_not_be_an_index (c : Cfg) (a : Nat) (h0 : c.consts.indexPart = 0) (hs : c.consts.sourcePart = 1)
    (ht : c.consts.targetPart = 2) (s : Store) {L : List Link} (hL : (links c).Visits s [] L) :
    let D := links { c with consts := { c.consts with any := a } }
    D.Visits s [a] L ∧ D.Visits s [a, a, a] L ∧ D.countLinks s [a] = (links c).countLinks s [] ∧
    (∀ i, D.getLink s i = (links c).getLink s i) ∧
    (∀ {σ : Type} q ch (h : WH σ) st, D.updateLinks s q ch h st = (links c).updateLinks s q ch h st) := by
  have hg : ∀ i, getLink { c with consts := { c.consts with any := a } } s i = getLink c s i := fun _ => rfl
  have hidx : ∀ {σ : Type} (h : RH σ) (l : List Nat) (st : σ),
      eachIdx { c with consts := { c.consts with any := a } } s h l st = eachIdx c s h l st := by
    intro σ h l
    induction l with
    | nil => intro st; rfl
    | cons i is ih => intro st; simp only [eachIdx, hg, ih]
  have hall : ∀ {σ : Type} (h : RH σ) (st : σ),
      eachAll { c with consts := { c.consts with any := a } } s h st = some (runH h L st) := by
    intro σ h st
    have := hL σ h st
    simp only [links, eachLinks, List.length_nil, if_true] at this
    rw [← this]
    exact hidx h _ st
  refine ⟨fun σ h st => ?_, fun σ h st => ?_, ?_, hg, fun q ch h st => rfl⟩
  · simpa [links, eachLinks, h0] using hall h st
  · simpa [links, eachLinks, h0, hs, ht, each3] using hall h st
  · simp [links, countLinks, h0]

/-- In a store with five links and `any = 2`, asking for link 2 shows five links. -/
example : ((links { cfg0 with consts := { consts0 with any := 2 } }).eachIter sNet [2]).map List.length = some 5 ∧
    (links { cfg0 with consts := { consts0 with any := 2 } }).getLink sNet 2 = some (some ⟨2, 1, 3⟩) := by
  decide +kernel

theorem each_exchanged {c c' : Cfg} (h0 : c.consts.indexPart = 0) (hs : c.consts.sourcePart = 1) (ht : c.consts.targetPart = 2)
    (h0' : c'.consts.indexPart = 0) (hs' : c'.consts.sourcePart = 2) (ht' : c'.consts.targetPart = 1)
    (ha : c'.consts.any = c.consts.any) {s : Store} (hg : ∀ i, getLink c' s i = getLink c s i) {i x y : Nat} {σ : Type}
    (h : RH σ) (st : σ) : eachLinks c' s [i, x, y] h st = eachLinks c s [i, y, x] h st := by
  have hidx : ∀ (l : List Nat) (st : σ), eachIdx c' s h l st = eachIdx c s h l st := by
    intro l
    induction l with
    | nil => intro st; rfl
    | cons i is ih => intro st; simp only [eachIdx, hg, ih]
  simp [eachLinks, h0, hs, ht, h0', hs', ht', ha, each3, eachAll, hg, hidx]

/-- **C88**, united store: if the positions of source and target are exchanged, queries read their second and third place
exchanged, but updates do not. -/
theorem C88_exchanged_positions (c : Cfg) (h0 : c.consts.indexPart = 0) (hs : c.consts.sourcePart = 1)
    (ht : c.consts.targetPart = 2) (s : Store) (i x y : Nat) :
    let D := links { c with consts := { c.consts with sourcePart := 2, targetPart := 1 } }
    D.countLinks s [i, x, y] = (links c).countLinks s [i, y, x] ∧
    (∀ L, (links c).Visits s [i, y, x] L → D.Visits s [i, x, y] L) ∧
    (∀ {σ : Type} q ch (h : WH σ) st, D.updateLinks s q ch h st = (links c).updateLinks s q ch h st) := by
  refine ⟨?_, fun L hL σ h st => ?_, fun q ch h st => rfl⟩
  · simp [links, countLinks, h0, hs, ht, count3, exists?, srcCount, tgtCount]
  · rw [← hL σ h st]
    exact each_exchanged (c' := { c with consts := { c.consts with sourcePart := 2, targetPart := 1 } }) h0 hs ht h0 rfl rfl rfl (fun _ => rfl) h st

/-- **C88**, united store: if the position of the index is not 0, no query with one part is answered. -/
theorem C88_index_must_be_first (c : Cfg) (h : c.consts.indexPart ≠ 0) (s : Store) (i : Nat) :
    (links c).countLinks s [i] = none ∧ ∀ {σ : Type} (hd : RH σ) (st : σ), (links c).eachLinks s [i] hd st = none := by
  have hq : [i][c.consts.indexPart]? = none := by
    apply List.getElem?_eq_none
    simp only [List.length_singleton]; omega
  exact ⟨by simp [links, countLinks, hq], fun hd st => by simp [links, eachLinks, hq]⟩

/-- **C88**, united store: if the internal range ends above the largest number of the index type, the limit is never reported. When
all indices are in use, creating reports that memory could not be had, or does not return. -/
theorem C88_range_must_end_in_the_type (c : Cfg) (he : c.consts.internalEnd > c.maxT) (s : Store) (ha : s.hdr.allocated = c.maxT)
    (hf : s.hdr.firstFree = c.consts.null) {o : Out Store _root_.Unit Nat} (ho : (links c).create s = some o) :
    o.res = .error .allocFailed := by
  have hle : ¬ c.consts.internalEnd ≤ c.maxT := by omega
  simp only [Links.create, Links.createBy, Links.createByWith, links, createLinks, hf, ha, if_true, hle, if_false, createTop, cadd,
    Option.map_map, Option.map_eq_some_iff] at ho
  obtain ⟨o', ho', rfl⟩ := ho
  have hno : ¬ c.maxT + 1 ≤ c.maxT := by omega
  simp only [Option.bind_eq_some_iff] at ho'
  obtain ⟨r1, -, ho'⟩ := ho'
  split at ho'
  · split at ho'
    · cases ho'; rfl
    · split at ho' <;> simp [hno] at ho'
  · simp [hno] at ho'

end Unit.Props

namespace Split.Props
open Verif.Split

section Same
variable {c : Cfg} {k' : Consts}

theorem releaseTop_consts (c : Cfg) (k' : Consts) : ∀ (n : Nat) (s : Store),
    releaseTop { c with consts := k' } n s = releaseTop c n s
  | 0, _ => rfl
  | n + 1, s => by
    have hu : ∀ i, unusedDetach { c with consts := k' } s i = unusedDetach c s i := fun _ => rfl
    simp only [releaseTop, hu, releaseTop_consts c k' n]

theorem moveOut_consts (c : Cfg) (k' : Consts) (d : Side) (i : Nat) : ∀ (l : List Nat) (s : Store),
    moveOut { c with consts := k' } d i l s = moveOut c d i l s
  | [], _ => rfl
  | k :: ks, s => by
    have h1 : detachInt { c with consts := k' } d s i k = detachInt c d s i k := rfl
    have h2 : ∀ s, attachExt { c with consts := k' } d s k = attachExt c d s k := fun _ => rfl
    simp only [moveOut, h1, h2, moveOut_consts c k' d i ks]

theorem moveIn_consts (c : Cfg) (k' : Consts) (d : Side) (i : Nat) : ∀ (l : List Nat) (s : Store),
    moveIn { c with consts := k' } d i l s = moveIn c d i l s
  | [], _ => rfl
  | k :: ks, s => by
    have h1 : detachExt { c with consts := k' } d s k = detachExt c d s k := rfl
    have h2 : ∀ s, attachInt { c with consts := k' } d s i k = attachInt c d s i k := fun _ => rfl
    simp only [moveIn, h1, h2, moveIn_consts c k' d i ks]

theorem getLink_same (h : c.consts.SameForStore k') (s : Store) (i : Nat) :
    getLink { c with consts := k' } s i = getLink c s i := by
  simp only [getLink, exists?, h.start]

theorem eachIdx_same (h : c.consts.SameForStore k') {σ : Type} (s : Store) (hd : RH σ) : ∀ (l : List Nat) (st : σ),
    eachIdx { c with consts := k' } s hd l st = eachIdx c s hd l st
  | [], _ => rfl
  | i :: is, st => by
    simp only [eachIdx, getLink_same h, eachIdx_same h s hd is]

theorem eachLinks_same (h : c.consts.SameForStore k') {σ : Type} (s : Store) (q : List Nat) (hd : RH σ) (st : σ) :
    eachLinks { c with consts := k' } s q hd st = eachLinks c s q hd st := by
  simp only [eachLinks, each3, eachAll, h.any, h.null, h.index, h.source, h.target, getLink_same h, eachIdx_same h]

theorem countLinks_same (h : c.consts.SameForStore k') (s : Store) (q : List Nat) :
    countLinks { c with consts := k' } s q = countLinks c s q := by
  simp only [countLinks, count3, exists?, extCount, h.any, h.null, h.index, h.source, h.target, h.start]

theorem resolveInternal_same (h : c.consts.SameForStore k') (s : Store) (i : Nat) :
    resolveInternal { c with consts := k' } s i = resolveInternal c s i := by
  simp only [resolveInternal, eachIter, sideQuery, moveOut_consts, countLinks_same h, eachLinks_same h, h.any]

theorem createEnd_same (h : c.consts.SameForStore k') {σ : Type} (s : Store) (i : Nat) (hd : WH σ) (st : σ) :
    createEnd { c with consts := k' } s i hd st = createEnd c s i hd st := by
  simp only [createEnd, resolveExternal, eachIter, sideQuery, moveIn_consts, countLinks_same h, eachLinks_same h, h.any]

theorem updateLinks_same (h : c.consts.SameForStore k') {σ : Type} (s : Store) (q ch : List Nat) (hd : WH σ) (st : σ) :
    updateLinks { c with consts := k' } s q ch hd st = updateLinks c s q ch hd st := by
  have hr : ∀ l i a b, relink { c with consts := k' } s l i a b = relink c s l i a b := fun _ _ _ _ => rfl
  simp only [updateLinks, getLink_same h, hr]

end Same

/-- **C88**, split store: the other constants do not matter. -/
theorem C88_split_other_constants_do_not_matter (c : Cfg) (k' : Consts) (h : c.consts.SameForStore k') :
    (links c).Alike (links { c with consts := k' }) := by
  refine ⟨countLinks_same h, fun s q hd st => ?_, eachLinks_same h, updateLinks_same h, fun s q hd st => ?_, getLink_same h⟩
  · have hu : ∀ i, unusedDetach { c with consts := k' } s i = unusedDetach c s i := fun _ => rfl
    simp only [links, createLinks, createTop, h.null, h.finish, createEnd_same h, hu]
  · have hu : ∀ s i, unusedAttachFirst { c with consts := k' } s i = unusedAttachFirst c s i := fun _ _ => rfl
    simp only [links, deleteLinks, releaseTop_consts, getLink_same h, resolveInternal_same h, updateLinks_same h, hu]

theorem init_new {c : Cfg} {s : Store} (h : init c {} = some (.ok s)) : s.hdr.firstFree = 0 ∧ s.hdr.allocated = 0 := by
  unfold init at h
  split at h
  · cases h
  · split at h
    · cases h
    · split at h
      · cases h
      · simp only at h
        split at h
        · cases h
        · split at h
          · cases h
          · simp only [Option.bind_eq_some_iff] at h
            obtain ⟨r, -, h⟩ := h
            split at h
            · cases h
            · split at h
              · cases h; exact ⟨rfl, rfl⟩
              · cases h

/-- **C88**, split store: if `null` is not 0, a new store never creates a link. -/
theorem C88_split_null_must_be_zero (c : Cfg) (hn : c.consts.null ≠ 0) (hs : 1 ≤ c.consts.internalStart) {s : Store}
    (h : init c {} = some (.ok s)) {o : Out Store _root_.Unit Nat} (ho : (links c).create s = some o) :
    o.res = .ok 0 ∧ (links c).getLink o.st 0 = some none := by
  have hf : s.hdr.firstFree = 0 := (init_new h).1
  have hn' : ¬ 0 = c.consts.null := fun e => hn e.symm
  simp only [Links.create, Links.createBy, Links.createByWith, links, createLinks, hf, hn', if_false, Option.map_map,
    Option.map_eq_some_iff, Option.bind_eq_some_iff, createEnd] at ho
  obtain ⟨o', ⟨s', -, s'', -, rfl⟩, rfl⟩ := ho
  refine ⟨rfl, ?_⟩
  have : ¬ (c.consts.internalStart ≤ 0) := by omega
  simp [links, getLink, exists?, this]

/-- A configuration with another `null`. -/
def cfgNull : Cfg := { cfg0 with consts := { Verif.Unit.consts0 with null := 7 } }

/-- The hypotheses are met, and creating returns. -/
example : ∃ s, init cfgNull {} = some (.ok s) ∧ ((links cfgNull).create s).map (·.res.toOption) = some (some 0) :=
  ⟨_, rfl, by decide +kernel⟩

/-- **C88**, split store: links below the start of the internal range cannot be reached, in any state of the store. -/
theorem C88_split_links_below_the_range (c : Cfg) (s : Store) {i : Nat} (hi : i < c.consts.internalStart) (x y : Nat) :
    (links c).getLink s i = some none ∧
    (c.consts.indexPart = 0 → i ≠ c.consts.any → (links c).countLinks s [i] = some 0 ∧ (links c).Visits s [i] []) ∧
    ((links c).update s i x y = some ⟨.error (.notExists i), s, ()⟩) ∧
    ((links c).delete s i = some ⟨.error (.notExists i), s, ()⟩) := by
  have hn : ¬ (c.consts.internalStart ≤ i ∧ i ≤ s.hdr.allocated) := by omega
  have hg : getLink c s i = some none := by simp [getLink, exists?, hn]
  refine ⟨hg, fun h0 ha => ⟨?_, fun σ h st => ?_⟩, ?_, ?_⟩
  · simp [links, countLinks, h0, ha, exists?, hn, Verif.Unit.oneIf]
  · simp [links, eachLinks, h0, ha, hg, runH]
  · simp [Links.update, Links.updateBy, Links.updateByWith, links, updateLinks, hg, Links.unwrapW, Links.resultIndex, Except.map]
  · simp [Links.delete, Links.deleteBy, Links.deleteByWith, links, deleteLinks, hg, Links.unwrapW, Links.resultIndex, Except.map]

/-- **C88**, split store: with the usual `null`, the first link of a new store has index 1 even if the internal range starts above
1. Then that link cannot be read, though it was reported. -/
theorem C88_split_range_must_start_at_one (c : Cfg) (hn : c.consts.null = 0) {s : Store} (h : init c {} = some (.ok s))
    {o : Out Store _root_.Unit Nat} (ho : (links c).create s = some o) {v : Nat} (hv : o.res = .ok v) :
    v = 1 ∧ (1 < c.consts.internalStart → (links c).getLink o.st v = some none) := by
  have hh : s.hdr.firstFree = 0 ∧ s.hdr.allocated = 0 := init_new h
  have hv1 : v = 1 := by
    simp only [Links.create, Links.createBy, Links.createByWith, links, createLinks, hh.1, hn, if_true, Option.map_map,
      Option.map_eq_some_iff] at ho
    obtain ⟨o', ho', rfl⟩ := ho
    have top : ∀ s' : Store, s'.hdr.allocated = 0 → createTop c s' (Links.wrapW Links.keepIndex) (0, .cont) = some o' → v = 1 := by
      intro s' h0 ht
      simp only [createTop, createEnd, h0, Option.map_eq_some_iff, Option.bind_eq_some_iff, cadd] at ht
      obtain ⟨a, ha, s'', -, rfl⟩ := ht
      split at ha
      · cases ha
        simp [Links.wrapW, Links.keepIndex, Links.unwrapW, Links.resultIndex, Except.map] at hv
        omega
      · cases ha
    split at ho'
    · cases ho'; cases hv
    · simp only [Option.bind_eq_some_iff] at ho'
      obtain ⟨r1, -, ho'⟩ := ho'
      split at ho'
      · split at ho'
        · cases ho'; cases hv
        · rename_i d _
          split at ho'
          · cases ho'; cases hv
          · split at ho'
            · rename_i n _ _
              exact top { s with dlen := d, ilen := n, stale := false, hdr := { s.hdr with reserved := n } } hh.2
                (by simpa [hh.1] using ho')
            · cases ho'
      · exact top _ hh.2 ho'
  subst hv1
  exact ⟨rfl, fun h1 => (C88_split_links_below_the_range c o.st h1 0 0).1⟩

/-- A configuration with a range that starts at 2. -/
def cfgStart : Cfg := { cfg0 with consts := { Verif.Unit.consts0 with internalStart := 2 } }

/-- The hypotheses are met, and creating succeeds. -/
example : ∃ s, init cfgStart {} = some (.ok s) ∧ ((links cfgStart).create s).map (·.res.toOption) = some (some 1) :=
  ⟨_, rfl, by decide +kernel⟩

theorem each_exchanged {c c' : Cfg} (h0 : c.consts.indexPart = 0) (hs : c.consts.sourcePart = 1) (ht : c.consts.targetPart = 2)
    (h0' : c'.consts.indexPart = 0) (hs' : c'.consts.sourcePart = 2) (ht' : c'.consts.targetPart = 1)
    (ha : c'.consts.any = c.consts.any) (hn : c'.consts.null = c.consts.null) {s : Store}
    (hg : ∀ i, getLink c' s i = getLink c s i) {i x y : Nat} {σ : Type}
    (h : RH σ) (st : σ) : eachLinks c' s [i, x, y] h st = eachLinks c s [i, y, x] h st := by
  have hidx : ∀ (l : List Nat) (st : σ), eachIdx c' s h l st = eachIdx c s h l st := by
    intro l
    induction l with
    | nil => intro st; rfl
    | cons i is ih => intro st; simp only [eachIdx, hg, ih]
  simp [eachLinks, h0, hs, ht, h0', hs', ht', ha, hn, each3, eachAll, hg, hidx]

/-- **C88**, split store: if the positions of source and target are exchanged, queries read their second and third place exchanged,
but updates do not. -/
theorem C88_split_exchanged_positions (c : Cfg) (h0 : c.consts.indexPart = 0) (hs : c.consts.sourcePart = 1)
    (ht : c.consts.targetPart = 2) (s : Store) (i x y : Nat) :
    let D := links { c with consts := { c.consts with sourcePart := 2, targetPart := 1 } }
    D.countLinks s [i, x, y] = (links c).countLinks s [i, y, x] ∧
    (∀ L, (links c).Visits s [i, y, x] L → D.Visits s [i, x, y] L) ∧
    (∀ {σ : Type} q ch (h : WH σ) st, D.updateLinks s q ch h st = (links c).updateLinks s q ch h st) := by
  refine ⟨?_, fun L hL σ h st => ?_, fun q ch h st => rfl⟩
  · simp [links, countLinks, h0, hs, ht, count3, exists?, extCount]
  · rw [← hL σ h st]
    exact each_exchanged (c' := { c with consts := { c.consts with sourcePart := 2, targetPart := 1 } }) h0 hs ht h0 rfl rfl rfl rfl
      (fun _ => rfl) h st

/-- **C88**, split store: if the position of the index is not 0, no query with one part is answered. -/
theorem C88_split_index_must_be_first (c : Cfg) (h : c.consts.indexPart ≠ 0) (s : Store) (i : Nat) :
    (links c).countLinks s [i] = none ∧ ∀ {σ : Type} (hd : RH σ) (st : σ), (links c).eachLinks s [i] hd st = none := by
  have hq : [i][c.consts.indexPart]? = none := by
    apply List.getElem?_eq_none
    simp only [List.length_singleton]; omega
  exact ⟨by simp [links, countLinks, hq], fun hd st => by simp [links, eachLinks, hq]⟩

/-- **C88**, split store: if the internal range ends above the largest number of the index type, the limit is never reported. -/
theorem C88_split_range_must_end_in_the_type (c : Cfg) (he : c.consts.internalEnd > c.maxT) (s : Store)
    (ha : s.hdr.allocated = c.maxT) (hf : s.hdr.firstFree = c.consts.null) {o : Out Store _root_.Unit Nat}
    (ho : (links c).create s = some o) : o.res = .error .allocFailed := by
  have hle : ¬ c.consts.internalEnd ≤ c.maxT := by omega
  simp only [Links.create, Links.createBy, Links.createByWith, links, createLinks, hf, ha, if_true, hle, if_false, createTop, cadd,
    Option.map_map, Option.map_eq_some_iff] at ho
  obtain ⟨o', ho', rfl⟩ := ho
  have hno : ¬ c.maxT + 1 ≤ c.maxT := by omega
  simp only [Option.bind_eq_some_iff] at ho'
  obtain ⟨r1, -, ho'⟩ := ho'
  split at ho'
  · split at ho'
    · cases ho'; rfl
    · split at ho'
      · cases ho'; rfl
      · split at ho' <;> simp [hno] at ho'
  · simp [hno] at ho'

/-- A configuration whose `any` is 2. -/
def cfgAny : Cfg := { cfg0 with consts := { Verif.Unit.consts0 with any := 2 } }

/-- Calls made one after another on a new store; `none` if one does not return. -/
def calls (c : Cfg) : List Call → Store → Option Store
  | [], s => some s
  | k :: ks, s => (step c c.dalloc c.ialloc s k).bind fun o => calls c ks o.st

/-- Links 1 = (1,1), 3 = (1,3), 4 = (1,4), 5 = (1,5) and 2 = (0,0). -/
def callsAny : List Call :=
  [.create, .create, .create, .create, .create, .update 1 1 1, .update 3 1 3, .update 4 1 4, .update 5 1 5]

/-- **C88**, split store: `any` must not be an index of a link, already because deleting that link changes what queries for others
say. Link 3 is the only one with target 3, and so says the count; after link 2 is deleted, which has nothing to do with it, the
count is 3. With the usual `any` it stays 1. -/
theorem C88_split_any_must_not_be_an_index :
    ((calls cfgAny callsAny (store0 cfgAny)).bind fun s => (links cfgAny).countLinks s [2, 2, 3]) = some 1 ∧
    ((calls cfgAny (callsAny ++ [.delete 2]) (store0 cfgAny)).bind fun s => (links cfgAny).countLinks s [2, 2, 3]) = some 3 ∧
    ((calls cfgAny (callsAny ++ [.delete 2]) (store0 cfgAny)).map fun s => (List.range 7).map ((links cfgAny).view s)) =
      some [none, some (1, 1), none, some (1, 3), some (1, 4), some (1, 5), none] ∧
    ((calls cfg0 (callsAny ++ [.delete 2]) (store0 cfg0)).bind fun s =>
      (links cfg0).countLinks s [cfg0.consts.any, cfg0.consts.any, 3]) = some 1 := by
  decide +kernel

end Split.Props
end Verif
