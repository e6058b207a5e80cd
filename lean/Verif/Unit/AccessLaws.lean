import Verif.Unit.Access
import Verif.Unit.CrashLaws

/-!
# The accessor level refines the model of the united store

On every store that satisfies the invariant the calls of `Unit/Access.lean` compute what those of `Unit/Model.lean` do,
stay in bounds and use no outdated pointer. In every memory image on the way the links a call is not about keep their
ends.
-/

namespace Verif
variable {M α β : Type}

/-- A computation ends with a result and a memory, and all images on the way satisfy `I`. -/
structure Tr.Does (t : Tr M α) (m : M) (a : α) (m' : M) (I : M → Prop) : Prop where
  res : (t m).2 = some (a, m')
  img : ∀ x ∈ (t m).1, I x

namespace Tr.Does
variable {I : M → Prop}

theorem bind {f : Tr M α} {g : α → Tr M β} {m m' m'' : M} {a : α} {b : β} (h1 : f.Does m a m' I)
    (h2 : (g a).Does m' b m'' I) : (f >>= g).Does m b m'' I := by
  refine ⟨by rw [Tr.bind_some h1.res]; exact h2.res, fun x hx => ?_⟩
  rw [Tr.mem_bind] at hx
  rcases hx with hx | ⟨a', m1, e, hx⟩
  · exact h1.img x hx
  · rw [h1.res] at e
    simp only [Option.some.injEq, Prod.mk.injEq] at e
    obtain ⟨rfl, rfl⟩ := e
    exact h2.img x hx

theorem pure (a : α) (m : M) : Tr.Does (Pure.pure a : Tr M α) m a m I := ⟨rfl, fun x hx => (by cases hx)⟩

theorem ask {f : M → Option α} {m : M} {a : α} (h : f m = some a) : (Tr.ask f).Does m a m I :=
  ⟨by rw [Tr.ask_res, h]; rfl, fun x hx => (by cases hx)⟩

theorem ofOption {o : Option α} {m : M} {a : α} (h : o = some a) : (Tr.ofOption o).Does m a m I := ask h

theorem tell {f : M → Option M} {m m' : M} (h : f m = some m') (hi : I m') : (Tr.tell f).Does m () m' I := by
  refine ⟨by rw [Tr.tell_res, h]; rfl, fun x hx => ?_⟩
  rw [Tr.tell_img, h] at hx
  simp only [Option.toList_some, List.mem_singleton] at hx
  exact hx ▸ hi

theorem mono {J : M → Prop} {t : Tr M α} {m m' : M} {a : α} (h : t.Does m a m' I) (hij : ∀ x, I x → J x) :
    t.Does m a m' J := ⟨h.res, fun x hx => hij x (h.img x hx)⟩

end Tr.Does

/-- For every large enough bound on the rounds of loops. -/
def Ev (p : Nat → Prop) : Prop := ∃ f0, ∀ f, f0 ≤ f → p f

theorem Ev.of {p : Nat → Prop} (h : ∀ f, p f) : Ev p := ⟨0, fun f _ => h f⟩

theorem Ev.and {p q r : Nat → Prop} (hp : Ev p) (hq : Ev q) (h : ∀ f, p f → q f → r f) : Ev r := by
  obtain ⟨a, ha⟩ := hp
  obtain ⟨b, hb⟩ := hq
  exact ⟨max a b, fun f hf => h f (ha f (by omega)) (hb f (by omega))⟩

theorem Ev.mono {p q : Nat → Prop} (hp : Ev p) (h : ∀ f, p f → q f) : Ev q := by
  obtain ⟨a, ha⟩ := hp
  exact ⟨a, fun f hf => h f (ha f hf)⟩

namespace Unit
variable {c : Cfg} {P : Programs}

/-! ### Slots and pointers -/

theorem slot_pos (s : Store) {n : Nat} (h : n ≠ 0) : s.slot n = s.cell n := if_neg h
theorem slot_zero (s : Store) : s.slot 0 = s.hdr.asCell := rfl
theorem setSlot_pos (s : Store) (p : Cell) {n : Nat} (h : n ≠ 0) :
    s.setSlot n p = { s with cell := fun k => if k = n then p else s.cell k } := if_neg h

theorem fresh_of (s : Store) (o : Holder) : (AStore.of s).fresh o = true := by cases o <;> rfl

theorem fresh_mk (s : Store) (o : Holder) : (AStore.mk s true true true true).fresh o = true := by cases o <;> rfl

theorem get_of {s : Store} {n : Nat} (o : Holder) (h : n ≠ 0) (hl : n < s.len) :
    (AStore.of s).get o n = some (s.cell n) := by
  simp [AStore.get, fresh_mk, hl, AStore.of, slot_pos s h]

theorem get_of0 {s : Store} (o : Holder) (hl : 0 < s.len) : (AStore.of s).get o 0 = some s.hdr.asCell := by
  simp [AStore.get, fresh_mk, hl, AStore.of, slot_zero]

theorem header_of {s : Store} (o : Holder) (hl : 0 < s.len) : (AStore.of s).header o = some s.hdr := by
  simp [AStore.header, get_of0 o hl, Hdr.asCell, Hdr.ofCell]

/-- The memory with the cell of `n` changed. -/
def Store.modCell (s : Store) (n : Nat) (f : Cell → Cell) : Store :=
  { s with cell := fun k => if k = n then f (s.cell k) else s.cell k }

theorem mod_of {s : Store} {n : Nat} (o : Holder) (f : Cell → Cell) (h : n ≠ 0) (hl : n < s.len) :
    AStore.mod o n f (.of s) = some (.of (s.modCell n f)) := by
  simp only [AStore.mod, fresh_mk, AStore.of, hl, and_self, if_true, setSlot_pos s _ h, slot_pos s h, Store.modCell]
  congr 4
  funext k
  by_cases hk : k = n <;> simp [hk]

theorem modHeader_of {s : Store} (o : Holder) (f : Hdr → Hdr) (hl : 0 < s.len) :
    AStore.modHeader o f (.of s) = some (.of { s with hdr := f s.hdr }) := by
  simp [AStore.modHeader, AStore.mod, fresh_mk, AStore.of, hl, slot_zero, Store.setSlot, Hdr.asCell, Hdr.ofCell]

theorem store_of {s : Store} {n : Nat} (w v : Nat) (h : n ≠ 0) :
    (AStore.of s).store (n, w) v = .of (s.modCell n (·.setWord w v)) := by
  simp only [AStore.store, AStore.of, setSlot_pos s _ h, slot_pos s h, Store.modCell]
  congr 2
  funext k
  by_cases hk : k = n <;> simp [hk]

/-! ### The accessors do to memory what the abstract ones do to the fields -/

theorem tells_one {M : Type} (f : M → Option M) {m m' : M} (h : f m = some m') :
    (Tr.tells [f] m).2 = some ((), m') := by
  simp [Tr.tells, Tr.bind_res, Tr.tell_res, h, Tr.run_pure]

theorem tells_cons {M : Type} (f : M → Option M) (fs : List (M → Option M)) {m m' : M} (h : f m = some m') :
    (Tr.tells (f :: fs) m).2 = (Tr.tells fs m').2 := by
  simp [Tr.tells, Tr.bind_res, Tr.tell_res, h]

/-- Nodes the trees may name. -/
def InMem (s : Store) (n : Nat) : Prop := n ≠ 0 ∧ n < s.len

theorem putSrc_modCell (s : Store) (m m' : TMem) (r n : Nat) (f : Cell → Cell)
    (h : ∀ k, ({ s.cell k with leftS := m'.left k, rightS := m'.right k, sizeS := m'.size k } : Cell) =
      if k = n then f { s.cell k with leftS := m.left k, rightS := m.right k, sizeS := m.size k }
      else { s.cell k with leftS := m.left k, rightS := m.right k, sizeS := m.size k }) :
    (s.putSrc m r).modCell n f = s.putSrc m' r := by
  simp only [Store.modCell, Store.putSrc]
  congr 1
  funext k
  exact (h k).symm

theorem putTgt_modCell (s : Store) (m m' : TMem) (r n : Nat) (f : Cell → Cell)
    (h : ∀ k, ({ s.cell k with leftT := m'.left k, rightT := m'.right k, sizeT := m'.size k } : Cell) =
      if k = n then f { s.cell k with leftT := m.left k, rightT := m.right k, sizeT := m.size k }
      else { s.cell k with leftT := m.left k, rightT := m.right k, sizeT := m.size k }) :
    (s.putTgt m r).modCell n f = s.putTgt m' r := by
  simp only [Store.modCell, Store.putTgt]
  congr 1
  funext k
  exact (h k).symm

theorem srcSim (s : Store) : Prog.Sim (srcTree.access (0, 4)) (TreeQ.abs (s.cmp srcLt4) (s.cmp srcGt4)) TreeW.abs
    (fun v => AStore.of (s.putSrc v.1 v.2)) (TreeQ.Names (InMem s)) (TreeW.Names (InMem s)) where
  ask q v hq := by
    have hg : ∀ n, InMem s n → (AStore.of (s.putSrc v.1 v.2)).get .src n = some ((s.putSrc v.1 v.2).cell n) :=
      fun n hn => get_of .src hn.1 hn.2
    have hld : ∀ n w, InMem s n → AStore.load (.of (s.putSrc v.1 v.2)) (n, w) = ((s.putSrc v.1 v.2).cell n).word w :=
      fun n w hn => by simp [AStore.load, AStore.of, slot_pos _ hn.1]
    cases q with
    | left n | right n | size n =>
      show ((AStore.of (s.putSrc v.1 v.2)).get .src n).map _ = _
      rw [hg n hq]; rfl
    | leftRef n | leftMut n =>
      show (((AStore.of (s.putSrc v.1 v.2)).get .src n).map _).map _ = _
      rw [hg n hq]
      exact congrArg some (hld n 2 hq)
    | rightRef n | rightMut n =>
      show (((AStore.of (s.putSrc v.1 v.2)).get .src n).map _).map _ = _
      rw [hg n hq]
      exact congrArg some (hld n 3 hq)
    | root => simp [SzbTree.access, srcTree, AStore.load, AStore.of, slot_zero, Hdr.asCell, Cell.word, Store.putSrc,
        TreeQ.abs]
    | toLeft a b | toRight a b =>
      show (((AStore.of (s.putSrc v.1 v.2)).get .src a).bind fun p =>
        ((AStore.of (s.putSrc v.1 v.2)).get .src b).map _).map _ = _
      rw [hg a hq.1, hg b hq.2]; rfl
  tell w v hw := by
    have step : ∀ (m m' : TMem) (n : Nat) (f : Cell → Cell), InMem s n →
        (∀ k, ({ s.cell k with leftS := m'.left k, rightS := m'.right k, sizeS := m'.size k } : Cell) =
          if k = n then f { s.cell k with leftS := m.left k, rightS := m.right k, sizeS := m.size k }
          else { s.cell k with leftS := m.left k, rightS := m.right k, sizeS := m.size k }) →
        AStore.mod .src n f (.of (s.putSrc m v.2)) = some (.of (s.putSrc m' v.2)) := fun m m' n f hn h => by
      rw [mod_of .src f hn.1 (show n < (s.putSrc m v.2).len from hn.2), putSrc_modCell s m m' v.2 n f h]
    have stor : ∀ (m m' : TMem) (n w x : Nat), InMem s n →
        (∀ k, ({ s.cell k with leftS := m'.left k, rightS := m'.right k, sizeS := m'.size k } : Cell) =
          if k = n then ({ s.cell k with leftS := m.left k, rightS := m.right k, sizeS := m.size k } : Cell).setWord w x
          else { s.cell k with leftS := m.left k, rightS := m.right k, sizeS := m.size k }) →
        (AStore.of (s.putSrc m v.2)).store (n, w) x = .of (s.putSrc m' v.2) := fun m m' n w x hn h => by
      rw [store_of w x hn.1, putSrc_modCell s m m' v.2 n _ h]
    cases w with
    | left n x =>
      refine tells_one _ (step v.1 { v.1 with left := upd v.1.left n x } n (fun p => { p with leftS := x }) hw fun k => ?_)
      by_cases hk : k = n <;> simp [upd, hk]
    | right n x =>
      refine tells_one _ (step v.1 { v.1 with right := upd v.1.right n x } n (fun p => { p with rightS := x }) hw fun k => ?_)
      by_cases hk : k = n <;> simp [upd, hk]
    | size n x =>
      refine tells_one _ (step v.1 { v.1 with size := upd v.1.size n x } n (fun p => { p with sizeS := x }) hw fun k => ?_)
      by_cases hk : k = n <;> simp [upd, hk]
    | leftMut n x =>
      refine tells_one _ ?_
      show ((AStore.of (s.putSrc v.1 v.2)).get .src n |>.map fun _ => (n, 2)).map _ = _
      rw [get_of .src hw.1 (show n < (s.putSrc v.1 v.2).len from hw.2)]
      simp only [Option.map_some]
      refine congrArg some (stor v.1 { v.1 with left := upd v.1.left n x } n 2 x hw fun k => ?_)
      by_cases hk : k = n <;> simp [TreeW.abs, upd, hk, Cell.setWord]
    | rightMut n x =>
      refine tells_one _ ?_
      show ((AStore.of (s.putSrc v.1 v.2)).get .src n |>.map fun _ => (n, 3)).map _ = _
      rw [get_of .src hw.1 (show n < (s.putSrc v.1 v.2).len from hw.2)]
      simp only [Option.map_some]
      refine congrArg some (stor v.1 { v.1 with right := upd v.1.right n x } n 3 x hw fun k => ?_)
      by_cases hk : k = n <;> simp [TreeW.abs, upd, hk, Cell.setWord]
    | root x =>
      refine tells_one _ ?_
      simp [srcTree, AStore.store, AStore.of, Store.setSlot, slot_zero, Cell.setWord, Hdr.asCell, Hdr.ofCell,
        Store.putSrc, TreeW.abs]
    | clear n =>
      show (Tr.tells [_, _, _] _).2 = _
      rw [tells_cons _ _ (step v.1 { v.1 with left := upd v.1.left n 0 } n (fun p => { p with leftS := 0 }) hw
          fun k => ?_),
        tells_cons _ _ (step _ { v.1 with left := upd v.1.left n 0, right := upd v.1.right n 0 } n
          (fun p => { p with rightS := 0 }) hw fun k => ?_),
        tells_one _ (step _ ⟨upd v.1.left n 0, upd v.1.right n 0, upd v.1.size n 0⟩ n (fun p => { p with sizeS := 0 })
          hw fun k => ?_)]
      · rfl
      all_goals by_cases hk : k = n <;> simp [upd, hk]

theorem tgtSim (s : Store) : Prog.Sim (tgtTree.access (0, 5)) (TreeQ.abs (s.cmp tgtLt4) (s.cmp tgtGt4)) TreeW.abs
    (fun v => AStore.of (s.putTgt v.1 v.2)) (TreeQ.Names (InMem s)) (TreeW.Names (InMem s)) where
  ask q v hq := by
    have hg : ∀ n, InMem s n → (AStore.of (s.putTgt v.1 v.2)).get .tgt n = some ((s.putTgt v.1 v.2).cell n) :=
      fun n hn => get_of .tgt hn.1 hn.2
    have hld : ∀ n w, InMem s n → AStore.load (.of (s.putTgt v.1 v.2)) (n, w) = ((s.putTgt v.1 v.2).cell n).word w :=
      fun n w hn => by simp [AStore.load, AStore.of, slot_pos _ hn.1]
    cases q with
    | left n | right n | size n =>
      show ((AStore.of (s.putTgt v.1 v.2)).get .tgt n).map _ = _
      rw [hg n hq]; rfl
    | leftRef n | leftMut n =>
      show (((AStore.of (s.putTgt v.1 v.2)).get .tgt n).map _).map _ = _
      rw [hg n hq]
      exact congrArg some (hld n 5 hq)
    | rightRef n | rightMut n =>
      show (((AStore.of (s.putTgt v.1 v.2)).get .tgt n).map _).map _ = _
      rw [hg n hq]
      exact congrArg some (hld n 6 hq)
    | root => simp [SzbTree.access, tgtTree, AStore.load, AStore.of, slot_zero, Hdr.asCell, Cell.word, Store.putTgt,
        TreeQ.abs]
    | toLeft a b | toRight a b =>
      show (((AStore.of (s.putTgt v.1 v.2)).get .tgt a).bind fun p =>
        ((AStore.of (s.putTgt v.1 v.2)).get .tgt b).map _).map _ = _
      rw [hg a hq.1, hg b hq.2]; rfl
  tell w v hw := by
    have step : ∀ (m m' : TMem) (n : Nat) (f : Cell → Cell), InMem s n →
        (∀ k, ({ s.cell k with leftT := m'.left k, rightT := m'.right k, sizeT := m'.size k } : Cell) =
          if k = n then f { s.cell k with leftT := m.left k, rightT := m.right k, sizeT := m.size k }
          else { s.cell k with leftT := m.left k, rightT := m.right k, sizeT := m.size k }) →
        AStore.mod .tgt n f (.of (s.putTgt m v.2)) = some (.of (s.putTgt m' v.2)) := fun m m' n f hn h => by
      rw [mod_of .tgt f hn.1 (show n < (s.putTgt m v.2).len from hn.2), putTgt_modCell s m m' v.2 n f h]
    have stor : ∀ (m m' : TMem) (n w x : Nat), InMem s n →
        (∀ k, ({ s.cell k with leftT := m'.left k, rightT := m'.right k, sizeT := m'.size k } : Cell) =
          if k = n then ({ s.cell k with leftT := m.left k, rightT := m.right k, sizeT := m.size k } : Cell).setWord w x
          else { s.cell k with leftT := m.left k, rightT := m.right k, sizeT := m.size k }) →
        (AStore.of (s.putTgt m v.2)).store (n, w) x = .of (s.putTgt m' v.2) := fun m m' n w x hn h => by
      rw [store_of w x hn.1, putTgt_modCell s m m' v.2 n _ h]
    cases w with
    | left n x =>
      refine tells_one _ (step v.1 { v.1 with left := upd v.1.left n x } n (fun p => { p with leftT := x }) hw fun k => ?_)
      by_cases hk : k = n <;> simp [upd, hk]
    | right n x =>
      refine tells_one _ (step v.1 { v.1 with right := upd v.1.right n x } n (fun p => { p with rightT := x }) hw fun k => ?_)
      by_cases hk : k = n <;> simp [upd, hk]
    | size n x =>
      refine tells_one _ (step v.1 { v.1 with size := upd v.1.size n x } n (fun p => { p with sizeT := x }) hw fun k => ?_)
      by_cases hk : k = n <;> simp [upd, hk]
    | leftMut n x =>
      refine tells_one _ ?_
      show ((AStore.of (s.putTgt v.1 v.2)).get .tgt n |>.map fun _ => (n, 5)).map _ = _
      rw [get_of .tgt hw.1 (show n < (s.putTgt v.1 v.2).len from hw.2)]
      simp only [Option.map_some]
      refine congrArg some (stor v.1 { v.1 with left := upd v.1.left n x } n 5 x hw fun k => ?_)
      by_cases hk : k = n <;> simp [TreeW.abs, upd, hk, Cell.setWord]
    | rightMut n x =>
      refine tells_one _ ?_
      show ((AStore.of (s.putTgt v.1 v.2)).get .tgt n |>.map fun _ => (n, 6)).map _ = _
      rw [get_of .tgt hw.1 (show n < (s.putTgt v.1 v.2).len from hw.2)]
      simp only [Option.map_some]
      refine congrArg some (stor v.1 { v.1 with right := upd v.1.right n x } n 6 x hw fun k => ?_)
      by_cases hk : k = n <;> simp [TreeW.abs, upd, hk, Cell.setWord]
    | root x =>
      refine tells_one _ ?_
      simp [tgtTree, AStore.store, AStore.of, Store.setSlot, slot_zero, Cell.setWord, Hdr.asCell, Hdr.ofCell,
        Store.putTgt, TreeW.abs]
    | clear n =>
      show (Tr.tells [_, _, _] _).2 = _
      rw [tells_cons _ _ (step v.1 { v.1 with left := upd v.1.left n 0 } n (fun p => { p with leftT := 0 }) hw
          fun k => ?_),
        tells_cons _ _ (step _ { v.1 with left := upd v.1.left n 0, right := upd v.1.right n 0 } n
          (fun p => { p with rightT := 0 }) hw fun k => ?_),
        tells_one _ (step _ ⟨upd v.1.left n 0, upd v.1.right n 0, upd v.1.size n 0⟩ n (fun p => { p with sizeT := 0 })
          hw fun k => ?_)]
      · rfl
      all_goals by_cases hk : k = n <;> simp [upd, hk]

theorem listSim (s : Store) (h0 : 0 < s.len) : Prog.Sim unusedList.access ListQ.abs ListW.abs
    (fun v => AStore.of (s.putList v)) (ListQ.Names (InMem s)) (ListW.Names (InMem s)) where
  ask q v hq := by
    have hh : (AStore.of (s.putList v)).header .unused = some (s.putList v).hdr := header_of .unused h0
    have hg : ∀ n, InMem s n → (AStore.of (s.putList v)).get .unused n = some ((s.putList v).cell n) :=
      fun n hn => get_of .unused hn.1 hn.2
    cases q with
    | first | last | size =>
      show ((AStore.of (s.putList v)).header .unused).map _ = _
      rw [hh]; rfl
    | prev n | next n =>
      show ((AStore.of (s.putList v)).get .unused n).map _ = _
      rw [hg n hq]; rfl
  tell w v hw := by
    have hm : ∀ f, AStore.modHeader .unused f (.of (s.putList v)) =
        some (.of { s.putList v with hdr := f (s.putList v).hdr }) := fun f => modHeader_of .unused f h0
    have hc : ∀ n f, InMem s n → AStore.mod .unused n f (.of (s.putList v)) = some (.of ((s.putList v).modCell n f)) :=
      fun n f hn => mod_of .unused f hn.1 hn.2
    cases w with
    | first x => exact tells_one _ (hm fun h => { h with firstFree := x })
    | last x => exact tells_one _ (hm fun h => { h with lastFree := x })
    | size x => exact tells_one _ (hm fun h => { h with free := x })
    | prev n x =>
      refine tells_one _ ((hc n (fun p => { p with source := x }) hw).trans ?_)
      simp only [Store.modCell, Store.putList, ListW.abs]
      congr 3
      funext k
      by_cases hk : k = n <;> simp [upd, hk]
    | next n x =>
      refine tells_one _ ((hc n (fun p => { p with target := x }) hw).trans ?_)
      simp only [Store.modCell, Store.putList, ListW.abs]
      congr 3
      funext k
      by_cases hk : k = n <;> simp [upd, hk]

/-! ### Tree and list operations -/

theorem putSrc_self (s : Store) : s.putSrc s.srcMem s.hdr.rootS = s := rfl
theorem putTgt_self (s : Store) : s.putTgt s.tgtMem s.hdr.rootT = s := rfl
theorem putList_self (s : Store) : s.putList s.listMem = s := rfl

theorem TreeQ.Names.mono {p q : Nat → Prop} (h : ∀ n, p n → q n) : ∀ x, TreeQ.Names p x → TreeQ.Names q x := by
  intro x hx
  cases x <;> first | exact h _ hx | trivial | exact ⟨h _ hx.1, h _ hx.2⟩

theorem TreeW.Names.mono {p q : Nat → Prop} (h : ∀ n, p n → q n) : ∀ x, TreeW.Names p x → TreeW.Names q x := by
  intro x hx
  cases x <;> first | exact h _ hx | trivial

theorem ListQ.Names.mono {p q : Nat → Prop} (h : ∀ n, p n → q n) : ∀ x, ListQ.Names p x → ListQ.Names q x := by
  intro x hx
  cases x <;> first | trivial | exact h _ hx

theorem ListW.Names.mono {p q : Nat → Prop} (h : ∀ n, p n → q n) : ∀ x, ListW.Names p x → ListW.Names q x := by
  intro x hx
  cases x <;> first | trivial | exact h _ hx

theorem mod_same {o : Holder} {n : Nat} {f : Cell → Cell} {a a' : AStore} (h : AStore.mod o n f a = some a')
    (hn : n ≠ 0) (hf : ∀ p, (f p).source = p.source ∧ (f p).target = p.target) : SameData a.s a'.s := by
  unfold AStore.mod at h
  split at h
  · simp only [Option.some.injEq] at h
    subst h
    simp only [setSlot_pos _ _ hn, slot_pos _ hn]
    refine ⟨fun k => ?_, rfl, rfl, rfl, rfl, rfl, rfl, rfl⟩
    by_cases hk : k = n
    · subst hk; simp [Store.lk, hf]
    · simp [Store.lk, hk]
  · cases h

/-- No assignment of the sources tree touches anything but tree fields. -/
theorem srcTree_same {w : TreeW} (hw : w.Names (· ≠ 0)) {f : AStore → Option AStore}
    (hf : f ∈ (srcTree.access (0, 4)).tell w) {a a' : AStore} (h : f a = some a') : SameData a.s a'.s := by
  cases w with
  | left n v | right n v | size n v =>
    simp only [SzbTree.access, List.mem_singleton] at hf
    subst hf
    simp only [srcTree] at h
    exact mod_same h hw fun _ => ⟨rfl, rfl⟩
  | leftMut n v | rightMut n v =>
    simp only [SzbTree.access, List.mem_singleton] at hf
    subst hf
    simp only [srcTree, AStore.get] at h
    split at h
    · simp only [Option.map_some, Option.some.injEq] at h
      subst h
      have hn : n ≠ 0 := hw
      simp only [AStore.store, setSlot_pos _ _ hn, slot_pos _ hn]
      refine ⟨fun k => ?_, rfl, rfl, rfl, rfl, rfl, rfl, rfl⟩
      by_cases hk : k = n
      · subst hk; simp [Store.lk, Cell.setWord]
      · simp [Store.lk, hk]
    · cases h
  | root v =>
    simp only [SzbTree.access, List.mem_singleton] at hf
    subst hf
    simp only [srcTree, Option.some.injEq] at h
    subst h
    exact ⟨fun k => rfl, rfl, rfl, rfl, rfl, rfl, rfl, rfl⟩
  | clear n =>
    simp only [SzbTree.access, srcTree, List.mem_cons, List.not_mem_nil, or_false] at hf
    rcases hf with rfl | rfl | rfl <;> exact mod_same h hw fun _ => ⟨rfl, rfl⟩

/-- No assignment of the targets tree touches anything but tree fields. -/
theorem tgtTree_same {w : TreeW} (hw : w.Names (· ≠ 0)) {f : AStore → Option AStore}
    (hf : f ∈ (tgtTree.access (0, 5)).tell w) {a a' : AStore} (h : f a = some a') : SameData a.s a'.s := by
  cases w with
  | left n v | right n v | size n v =>
    simp only [SzbTree.access, List.mem_singleton] at hf
    subst hf
    simp only [tgtTree] at h
    exact mod_same h hw fun _ => ⟨rfl, rfl⟩
  | leftMut n v | rightMut n v =>
    simp only [SzbTree.access, List.mem_singleton] at hf
    subst hf
    simp only [tgtTree, AStore.get] at h
    split at h
    · simp only [Option.map_some, Option.some.injEq] at h
      subst h
      have hn : n ≠ 0 := hw
      simp only [AStore.store, setSlot_pos _ _ hn, slot_pos _ hn]
      refine ⟨fun k => ?_, rfl, rfl, rfl, rfl, rfl, rfl, rfl⟩
      by_cases hk : k = n
      · subst hk; simp [Store.lk, Cell.setWord]
      · simp [Store.lk, hk]
    · cases h
  | root v =>
    simp only [SzbTree.access, List.mem_singleton] at hf
    subst hf
    simp only [tgtTree, Option.some.injEq] at h
    subst h
    exact ⟨fun k => rfl, rfl, rfl, rfl, rfl, rfl, rfl, rfl⟩
  | clear n =>
    simp only [SzbTree.access, tgtTree, List.mem_cons, List.not_mem_nil, or_false] at hf
    rcases hf with rfl | rfl | rfl <;> exact mod_same h hw fun _ => ⟨rfl, rfl⟩

/-- Slots that do not satisfy `p` have the size in the sources tree that they have in `s`. -/
def SameSizes (p : Nat → Prop) (s : Store) (x : AStore) : Prop := ∀ k, ¬ p k → (x.s.cell k).sizeS = (s.cell k).sizeS

theorem mod_cell {o : Holder} {n : Nat} {f : Cell → Cell} {a a' : AStore} (h : AStore.mod o n f a = some a') (hn : n ≠ 0)
    (k : Nat) : a'.s.cell k = if k = n then f (a.s.cell k) else a.s.cell k := by
  unfold AStore.mod at h
  split at h
  · simp only [Option.some.injEq] at h
    subst h
    simp only [setSlot_pos _ _ hn, slot_pos _ hn]
    by_cases hk : k = n
    · subst hk; simp
    · simp [hk]
  · cases h

theorem modHeader_cell {o : Holder} {g : Hdr → Hdr} {a a' : AStore} (h : AStore.modHeader o g a = some a') :
    a'.s.cell = a.s.cell := by
  unfold AStore.modHeader AStore.mod at h
  split at h
  · simp only [Option.some.injEq] at h
    subst h
    simp [Store.setSlot]
  · cases h

theorem store_cell {a : AStore} {n w v : Nat} (hn : n ≠ 0) (k : Nat) :
    (a.store (n, w) v).s.cell k = if k = n then (a.s.cell k).setWord w v else a.s.cell k := by
  simp only [AStore.store, setSlot_pos _ _ hn, slot_pos _ hn]
  by_cases hk : k = n
  · subst hk; simp
  · simp [hk]

/-- Assignments of the sources tree change the sizes of the named slots only. -/
theorem srcTree_sizes {ok : Nat → Prop} {s : Store} (h0 : ∀ n, ok n → n ≠ 0) {w : TreeW} (hw : w.Names ok)
    {f : AStore → Option AStore} (hf : f ∈ (srcTree.access (0, 4)).tell w) {a a' : AStore} (h : f a = some a')
    (ha : SameSizes ok s a) : SameSizes ok s a' := by
  have hm : ∀ {n : Nat} {g : Cell → Cell}, ok n → AStore.mod .src n g a = some a' → SameSizes ok s a' := by
    intro n g hn h k hk
    rw [mod_cell h (h0 n hn), if_neg (fun e : k = n => hk (e ▸ hn)), ha k hk]
  cases w with
  | left n v | right n v | size n v =>
    simp only [SzbTree.access, List.mem_singleton] at hf
    subst hf
    simp only [srcTree] at h
    exact hm hw h
  | leftMut n v | rightMut n v =>
    simp only [SzbTree.access, List.mem_singleton] at hf
    subst hf
    simp only [srcTree, AStore.get] at h
    split at h
    · simp only [Option.map_some, Option.some.injEq] at h
      subst h
      intro k hk
      have hn : ok n := hw
      rw [store_cell (h0 n hn), if_neg (fun e : k = n => hk (e ▸ hn)), ha k hk]
    · cases h
  | root v =>
    simp only [SzbTree.access, List.mem_singleton] at hf
    subst hf
    simp only [srcTree, Option.some.injEq] at h
    subst h
    exact ha
  | clear n =>
    simp only [SzbTree.access, srcTree, List.mem_cons, List.not_mem_nil, or_false] at hf
    rcases hf with rfl | rfl | rfl <;> exact hm hw h

/-- Assignments of the targets tree change no size in the sources tree. -/
theorem tgtTree_sizes {s : Store} {w : TreeW} (hw : w.Names (· ≠ 0)) {f : AStore → Option AStore}
    (hf : f ∈ (tgtTree.access (0, 5)).tell w) {a a' : AStore} (h : f a = some a')
    (ha : SameSizes (fun _ => False) s a) : SameSizes (fun _ => False) s a' := by
  have hm : ∀ {n : Nat} {g : Cell → Cell}, n ≠ 0 → AStore.mod .tgt n g a = some a' → (∀ p, (g p).sizeS = p.sizeS) →
      SameSizes (fun _ => False) s a' := by
    intro n g hn h hg k hk
    rw [mod_cell h hn, ← ha k hk]
    split
    · exact hg _
    · rfl
  cases w with
  | left n v | right n v | size n v =>
    simp only [SzbTree.access, List.mem_singleton] at hf
    subst hf
    simp only [tgtTree] at h
    exact hm hw h fun _ => rfl
  | leftMut n v | rightMut n v =>
    simp only [SzbTree.access, List.mem_singleton] at hf
    subst hf
    simp only [tgtTree, AStore.get] at h
    split at h
    · simp only [Option.map_some, Option.some.injEq] at h
      subst h
      intro k hk
      rw [store_cell (show n ≠ 0 from hw), ← ha k hk]
      split <;> rfl
    · cases h
  | root v =>
    simp only [SzbTree.access, List.mem_singleton] at hf
    subst hf
    simp only [tgtTree, Option.some.injEq] at h
    subst h
    exact ha
  | clear n =>
    simp only [SzbTree.access, tgtTree, List.mem_cons, List.not_mem_nil, or_false] at hf
    rcases hf with rfl | rfl | rfl <;> exact hm hw h fun _ => rfl

/-- The program of a source tree operation does what the function does. -/
theorem srcProg {s s' : Store} {p : TreeProg} {ok : Nat → Prop} {v : TMem × Nat} (h0 : 0 < s.len)
    (hok : ∀ n, ok n → InMem s n)
    (he : p.eval (TreeQ.abs (s.cmp srcLt4) (s.cmp srcGt4)) TreeW.abs (s.srcMem, s.hdr.rootS) = some ((), v))
    (ho : p.Obeys (TreeQ.abs (s.cmp srcLt4) (s.cmp srcGt4)) TreeW.abs (TreeQ.Names ok) (TreeW.Names ok)
      (s.srcMem, s.hdr.rootS)) (hs' : s' = s.putSrc v.1 v.2) :
    (do let root ← Tr.ask sourceRoot; p.run (srcTree.access root) : Tr AStore _root_.Unit).Does (.of s) () (.of s')
      fun x => SameData s x.s ∧ SameSizes ok s x := by
  refine Tr.Does.bind (.ask (a := (0, 4)) (by simp [sourceRoot, get_of0 .main h0])) ?_
  have hsim : Prog.Sim (srcTree.access (0, 4)) (TreeQ.abs (s.cmp srcLt4) (s.cmp srcGt4)) TreeW.abs
      (fun v => AStore.of (s.putSrc v.1 v.2)) (TreeQ.Names ok) (TreeW.Names ok) :=
    ⟨fun q v hq => (srcSim s).ask q v (TreeQ.Names.mono hok q hq),
      fun w v hw => (srcSim s).tell w v (TreeW.Names.mono hok w hw)⟩
  have hr := Prog.run_eq hsim p (s.srcMem, s.hdr.rootS) ho
  rw [he] at hr
  refine ⟨by rw [hs']; exact hr, ?_⟩
  refine Prog.run_keeps hsim (I := fun x => SameData s x.s ∧ SameSizes ok s x) ?_ p (s.srcMem, s.hdr.rootS) ho
    ⟨SameData.refl s, fun _ _ => rfl⟩
  intro w hw f hf m m' hm hfm
  exact ⟨hm.1.trans (srcTree_same (TreeW.Names.mono (fun n h => (hok n h).1) w hw) hf hfm),
    srcTree_sizes (fun n h => (hok n h).1) hw hf hfm hm.2⟩

/-- The program of a target tree operation does what the function does. -/
theorem tgtProg {s s' : Store} {p : TreeProg} {ok : Nat → Prop} {v : TMem × Nat} (h0 : 0 < s.len)
    (hok : ∀ n, ok n → InMem s n)
    (he : p.eval (TreeQ.abs (s.cmp tgtLt4) (s.cmp tgtGt4)) TreeW.abs (s.tgtMem, s.hdr.rootT) = some ((), v))
    (ho : p.Obeys (TreeQ.abs (s.cmp tgtLt4) (s.cmp tgtGt4)) TreeW.abs (TreeQ.Names ok) (TreeW.Names ok)
      (s.tgtMem, s.hdr.rootT)) (hs' : s' = s.putTgt v.1 v.2) :
    (do let root ← Tr.ask targetRoot; p.run (tgtTree.access root) : Tr AStore _root_.Unit).Does (.of s) () (.of s')
      fun x => SameData s x.s ∧ SameSizes (fun _ => False) s x := by
  refine Tr.Does.bind (.ask (a := (0, 5)) (by simp [targetRoot, get_of0 .main h0])) ?_
  have ho' := Prog.obeys_mono (TreeQ.Names.mono hok) (TreeW.Names.mono hok) ho
  have hr := Prog.run_eq (tgtSim s) p (s.tgtMem, s.hdr.rootT) ho'
  rw [he] at hr
  refine ⟨by rw [hs']; exact hr, ?_⟩
  refine Prog.run_keeps (tgtSim s) (I := fun x => SameData s x.s ∧ SameSizes (fun _ => False) s x) ?_ p
    (s.tgtMem, s.hdr.rootT) ho' ⟨SameData.refl s, fun _ _ => rfl⟩
  intro w hw f hf m m' hm hfm
  have hw' := TreeW.Names.mono (fun _ h => h.1) w hw
  exact ⟨hm.1.trans (tgtTree_same hw' hf hfm), tgtTree_sizes hw' hf hfm hm.2⟩

variable {D : (Nat → Nat → Bool) → (Nat → Nat → Bool) → List Nat → Prop}

theorem attachSourceA_does (hP : P.ImplementsOn D c.trees) {s s' : Store} {ts : Tree} {i : Nat} (h : SrcOK c s ts)
    (hz : i ≠ 0) (hi : i ∉ ts.toList) (hin : ∀ k ∈ i :: ts.toList, InMem s k)
    (hD : D (s.cmp srcLt4) (s.cmp srcGt4) (i :: ts.toList)) (hs : attachSource c s i = some s') :
    Ev fun f => (attachSourceA P f i).Does (.of s) () (.of s') fun x => SameData s x.s ∧ SameSizes (· ∈ i :: ts.toList) s x := by
  have hcl := h.clean i hi
  refine Ev.mono (hP.attach _ (s.cmp srcGt4) _ _ _ i (srcOrd s) h.tree hz hi hcl.1 hcl.2.1 hD) fun f hf => ?_
  unfold attachSource at hs
  cases hv : c.trees.treeAttach (s.cmp srcLt4) (s.cmp srcGt4) s.srcMem s.hdr.rootS i with
  | none => rw [hv] at hs; cases hs
  | some v =>
    rw [hv] at hs hf
    simp only [Option.map_some, Option.some.injEq] at hs
    exact srcProg (by have := (hin i (by simp)).2; omega) hin hf.1 hf.2 hs.symm

theorem attachTargetA_does (hP : P.ImplementsOn D c.trees) {s s' : Store} {tt : Tree} {i : Nat} (h : TgtOK c s tt)
    (hz : i ≠ 0) (hi : i ∉ tt.toList) (hin : ∀ k ∈ i :: tt.toList, InMem s k)
    (hD : D (s.cmp tgtLt4) (s.cmp tgtGt4) (i :: tt.toList)) (hs : attachTarget c s i = some s') :
    Ev fun f => (attachTargetA P f i).Does (.of s) () (.of s') fun x => SameData s x.s ∧ SameSizes (fun _ => False) s x := by
  have hcl := h.clean i hi
  refine Ev.mono (hP.attach _ (s.cmp tgtGt4) _ _ _ i (tgtOrd s) h.tree hz hi hcl.1 hcl.2.1 hD) fun f hf => ?_
  unfold attachTarget at hs
  cases hv : c.trees.treeAttach (s.cmp tgtLt4) (s.cmp tgtGt4) s.tgtMem s.hdr.rootT i with
  | none => rw [hv] at hs; cases hs
  | some v =>
    rw [hv] at hs hf
    simp only [Option.map_some, Option.some.injEq] at hs
    exact tgtProg (by have := (hin i (by simp)).2; omega) hin hf.1 hf.2 hs.symm

theorem detachSourceA_does (hP : P.ImplementsOn D c.trees) {s s' : Store} {ts : Tree} {i : Nat} (h : SrcOK c s ts)
    (hi : i ∈ ts.toList) (hu : ∀ k ∈ ts.toList, k ≠ i → s.lk k ≠ s.lk i) (hin : ∀ k ∈ ts.toList, InMem s k)
    (hD : D (s.cmp srcLt4) (s.cmp srcGt4) ts.toList) (hs : detachSource c s i = some s') :
    Ev fun f => (detachSourceA P f i).Does (.of s) () (.of s') fun x => SameData s x.s ∧ SameSizes (· ∈ ts.toList) s x := by
  refine Ev.mono (hP.detach _ (s.cmp srcGt4) _ _ _ i (srcOrd s) h.tree hi (by
      intro k hk hki
      have := hu k hk hki
      simp only [Store.lk, ne_eq, Prod.mk.injEq] at this
      simp only [Store.cmp, srcGt4_eq, srcLt4_iff]; omega) hD) fun f hf => ?_
  unfold detachSource at hs
  cases hv : c.trees.treeDetach (s.cmp srcLt4) (s.cmp srcGt4) s.srcMem s.hdr.rootS i with
  | none => rw [hv] at hs; cases hs
  | some v =>
    rw [hv] at hs hf
    simp only [Option.map_some, Option.some.injEq] at hs
    exact srcProg (by have := (hin i hi).2; omega) hin hf.1 hf.2 hs.symm

theorem detachTargetA_does (hP : P.ImplementsOn D c.trees) {s s' : Store} {tt : Tree} {i : Nat} (h : TgtOK c s tt)
    (hi : i ∈ tt.toList) (hu : ∀ k ∈ tt.toList, k ≠ i → s.lk k ≠ s.lk i) (hin : ∀ k ∈ tt.toList, InMem s k)
    (hD : D (s.cmp tgtLt4) (s.cmp tgtGt4) tt.toList) (hs : detachTarget c s i = some s') :
    Ev fun f => (detachTargetA P f i).Does (.of s) () (.of s') fun x => SameData s x.s ∧ SameSizes (fun _ => False) s x := by
  refine Ev.mono (hP.detach _ (s.cmp tgtGt4) _ _ _ i (tgtOrd s) h.tree hi (by
      intro k hk hki
      have := hu k hk hki
      simp only [Store.lk, ne_eq, Prod.mk.injEq] at this
      simp only [Store.cmp, tgtGt4_eq, tgtLt4_iff]; omega) hD) fun f hf => ?_
  unfold detachTarget at hs
  cases hv : c.trees.treeDetach (s.cmp tgtLt4) (s.cmp tgtGt4) s.tgtMem s.hdr.rootT i with
  | none => rw [hv] at hs; cases hs
  | some v =>
    rw [hv] at hs hf
    simp only [Option.map_some, Option.some.injEq] at hs
    exact tgtProg (by have := (hin i hi).2; omega) hin hf.1 hf.2 hs.symm

/-- Cells other than those of `l`, and the number of slots used, are the same, and so are all sizes. -/
def SameBut (s : Store) (l : List Nat) (x : AStore) : Prop :=
  (∀ k, k ∉ l → x.s.lk k = s.lk k) ∧ x.s.hdr.allocated = s.hdr.allocated ∧ SameSizes (fun _ => False) s x

theorem listProg {s s' : Store} {p : ListProg} {l : List Nat} {v : LMem} (h0 : 0 < s.len)
    (hok : ∀ n ∈ l, InMem s n) (he : p.eval ListQ.abs ListW.abs s.listMem = some ((), v))
    (ho : p.Obeys ListQ.abs ListW.abs (ListQ.Names (· ∈ l)) (ListW.Names (· ∈ l)) s.listMem)
    (hs' : s' = s.putList v) :
    (p.run unusedList.access : Tr AStore _root_.Unit).Does (.of s) () (.of s') (SameBut s l) := by
  have hsim : Prog.Sim unusedList.access ListQ.abs ListW.abs (fun v => AStore.of (s.putList v))
      (ListQ.Names (· ∈ l)) (ListW.Names (· ∈ l)) :=
    ⟨fun q v hq => (listSim s h0).ask q v (ListQ.Names.mono hok q hq),
      fun w v hw => (listSim s h0).tell w v (ListW.Names.mono hok w hw)⟩
  have hr := Prog.run_eq hsim p s.listMem ho
  rw [he] at hr
  refine ⟨by rw [hs']; exact hr, ?_⟩
  refine Prog.run_keeps hsim (I := SameBut s l) ?_ p s.listMem ho ⟨fun _ _ => rfl, rfl, fun _ _ => rfl⟩
  intro w hw f hf a a' ha h
  have hd : ∀ g : Hdr → Hdr, (∀ x, (g x).allocated = x.allocated) → AStore.modHeader .unused g a = some a' →
      SameBut s l a' := by
    intro g hg h
    have hcell := modHeader_cell h
    unfold AStore.modHeader AStore.mod at h
    split at h
    · simp only [Option.some.injEq] at h
      subst h
      refine ⟨ha.1, ?_, fun k hk => by rw [hcell]; exact ha.2.2 k hk⟩
      simp only [Store.setSlot, if_true, Hdr.asCell, Hdr.ofCell, slot_zero, hg]
      exact ha.2.1
    · cases h
  have hc : ∀ n g, n ∈ l → AStore.mod .unused n g a = some a' → (∀ p : Cell, (g p).sizeS = p.sizeS) → SameBut s l a' := by
    intro n g hn h hg
    have hn0 := (hok n hn).1
    have hcell := mod_cell h hn0
    unfold AStore.mod at h
    split at h
    · simp only [Option.some.injEq] at h
      subst h
      refine ⟨fun k hk => ?_, by simp only [setSlot_pos _ _ hn0]; exact ha.2.1, fun k hk => ?_⟩
      · have hkn : k ≠ n := fun e => hk (e ▸ hn)
        rw [← ha.1 k hk]
        have e := hcell k
        rw [if_neg hkn] at e
        simp only [Store.lk] at e ⊢
        rw [e]
      · rw [hcell, ← ha.2.2 k hk]
        split
        · exact hg _
        · rfl
    · cases h
  cases w with
  | first x | last x | size x =>
    simp only [AbsList.access, List.mem_singleton] at hf
    subst hf
    simp only [unusedList] at h
    exact hd _ (by intro _; rfl) h
  | prev n x | next n x =>
    simp only [AbsList.access, List.mem_singleton] at hf
    subst hf
    simp only [unusedList] at h
    exact hc n _ hw h fun _ => rfl

theorem unusedDetachA_does (hP : P.ImplementsOn D c.trees) {s s' : Store} {l : List Nat} {i : Nat}
    (h : IsList s.listMem l) (hi : i ∈ l) (hin : ∀ k ∈ l, InMem s k) (hs : unusedDetach c s i = some s') :
    Ev fun f => (unusedDetachA P f i).Does (.of s) () (.of s') (SameBut s l) := by
  refine Ev.mono (hP.listDetach _ _ i h hi) fun f hf => ?_
  unfold unusedDetach at hs
  cases hv : c.trees.listDetach s.listMem i with
  | none => rw [hv] at hs; cases hs
  | some v =>
    rw [hv] at hs hf
    simp only [Option.map_some, Option.some.injEq] at hs
    exact listProg (by have := (hin i hi).2; omega) hin hf.1 hf.2 hs.symm

theorem unusedAttachFirstA_does (hP : P.ImplementsOn D c.trees) {s s' : Store} {l : List Nat} {i : Nat}
    (h : IsList s.listMem l) (hz : i ≠ 0) (hi : i ∉ l) (hin : ∀ k ∈ i :: l, InMem s k)
    (hs : unusedAttachFirst c s i = some s') :
    Ev fun f => (unusedAttachFirstA P f i).Does (.of s) () (.of s') (SameBut s (i :: l)) := by
  refine Ev.mono (hP.listAttachFirst _ _ i h hz hi) fun f hf => ?_
  unfold unusedAttachFirst at hs
  cases hv : c.trees.listAttachFirst s.listMem i with
  | none => rw [hv] at hs; cases hs
  | some v =>
    rw [hv] at hs hf
    simp only [Option.map_some, Option.some.injEq] at hs
    exact listProg (by have := (hin i (by simp)).2; omega) hin hf.1 hf.2 hs.symm

end Unit
end Verif
