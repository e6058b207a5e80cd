import Verif.Split.Access
import Verif.Split.CrashLaws
import Verif.Unit.AccessLaws
import Verif.Guard

/-!
# The accessor level of the split store: single operations

Where an operation on a tree or list is within the contract of the crate, the program run through the accessors does to
memory what the model says.
-/

namespace Verif.Split
open Verif
open Verif.Unit (Hdr srcLt4 srcGt4 tgtLt4 tgtGt4 tells_one tells_cons)
variable {c : Cfg} {P : Programs}

/-! ### Slots and pointers -/

theorem slot_pos (s : Store) {n : Nat} (h : n ≠ 0) : s.slot n = s.idx n := if_neg h
theorem slot_zero (s : Store) : s.slot 0 = asPart s.hdr := rfl
theorem setSlot_pos (s : Store) (p : IPart) {n : Nat} (h : n ≠ 0) :
    s.setSlot n p = { s with idx := fun k => if k = n then p else s.idx k } := if_neg h
theorem setSlot_zero (s : Store) (p : IPart) : s.setSlot 0 p = { s with hdr := ofPart p } := if_pos rfl

theorem getI_of {s : Store} {n : Nat} (o : Holder) (h : n ≠ 0) (hl : n < s.ilen) :
    (AStore.of s).getI o n = some (s.idx n) := by
  simp [AStore.getI, AStore.of, hl, slot_pos s h]

theorem getI_of0 {s : Store} (o : Holder) (hl : 0 < s.ilen) : (AStore.of s).getI o 0 = some (asPart s.hdr) := by
  simp [AStore.getI, AStore.of, hl, slot_zero]

theorem getI_eq (s : Store) (o : Holder) (n : Nat) : (AStore.of s).getI o n = s.getI n := by
  simp [AStore.getI, AStore.of, Store.getI, Store.slot]

theorem getD_eq (s : Store) (o : Holder) (n : Nat) : (AStore.of s).getD o n = s.getD n := by
  simp [AStore.getD, AStore.of, Store.getD]

theorem getD_of {s : Store} {n : Nat} (o : Holder) (hs : s.stale = false) (hl : n < s.dlen) :
    (AStore.of s).getD o n = some (s.data n) := by
  simp [AStore.getD, AStore.of, hl, hs]

theorem header_of {s : Store} (o : Holder) (hl : 0 < s.ilen) : (AStore.of s).header o = some s.hdr := by
  simp [AStore.header, getI_of0 o hl, asPart, ofPart]

/-- The memory with index part `n` changed. -/
def Store.modIdx (s : Store) (n : Nat) (f : IPart → IPart) : Store :=
  { s with idx := fun k => if k = n then f (s.idx k) else s.idx k }

theorem modI_of {s : Store} {n : Nat} (o : Holder) (f : IPart → IPart) (h : n ≠ 0) (hl : n < s.ilen) :
    AStore.modI o n f (.of s) = some (.of (s.modIdx n f)) := by
  simp only [AStore.modI, AStore.of, hl, and_self, if_true, setSlot_pos s _ h, slot_pos s h, Store.modIdx]
  congr 3
  funext k
  by_cases hk : k = n <;> simp [hk]

theorem modHeader_of {s : Store} (o : Holder) (f : Hdr → Hdr) (hl : 0 < s.ilen) :
    AStore.modHeader o f (.of s) = some (.of { s with hdr := f s.hdr }) := by
  simp [AStore.modHeader, AStore.modI, AStore.of, hl, slot_zero, Store.setSlot, asPart, ofPart]

theorem modD_of {s : Store} {n : Nat} (o : Holder) (f : Nat × Nat → Nat × Nat) (hs : s.stale = false)
    (hl : n < s.dlen) :
    AStore.modD o n f (.of s) = some (.of { s with data := fun k => if k = n then f (s.data n) else s.data k }) := by
  simp [AStore.modD, AStore.of, hl, hs]

theorem store_of {s : Store} {n : Nat} (w v : Nat) (h : n ≠ 0) :
    (AStore.of s).store (n, w) v = .of (s.modIdx n (·.setWord w v)) := by
  simp only [AStore.store, AStore.of, setSlot_pos s _ h, slot_pos s h, Store.modIdx]
  congr 2
  funext k
  by_cases hk : k = n <;> simp [hk]

/-! ### The accessors of the four trees -/

/-- The words of a node's fields. -/
def leftWord : Side → Nat
  | .src => 1
  | .tgt => 5

def rightWord : Side → Nat
  | .src => 2
  | .tgt => 6

/-- The accessors of a tree read and write the node fields of one side, and compare data parts by `lt` and `gt`. -/
structure NodeAcc (T : SzbTree AStore Ptr) (d : Side) (o : Holder) (lt gt : Nat × Nat → Nat × Nat → Bool) : Prop where
  leftRef : ∀ a n, T.getLeftReference a n = (a.getI o n).map fun _ => (n, leftWord d)
  rightRef : ∀ a n, T.getRightReference a n = (a.getI o n).map fun _ => (n, rightWord d)
  leftMut : ∀ a n, T.getMutLeftReference a n = (a.getI o n).map fun _ => (n, leftWord d)
  rightMut : ∀ a n, T.getMutRightReference a n = (a.getI o n).map fun _ => (n, rightWord d)
  left : ∀ a n, T.getLeft a n = (a.getI o n).map fun p => (nodeOf d p).1
  right : ∀ a n, T.getRight a n = (a.getI o n).map fun p => (nodeOf d p).2.1
  size : ∀ a n, T.getSize a n = (a.getI o n).map fun p => (nodeOf d p).2.2
  setLeft : ∀ n v, T.setLeft n v = AStore.modI o n fun p => setNode d p v (nodeOf d p).2.1 (nodeOf d p).2.2
  setRight : ∀ n v, T.setRight n v = AStore.modI o n fun p => setNode d p (nodeOf d p).1 v (nodeOf d p).2.2
  setSize : ∀ n v, T.setSize n v = AStore.modI o n fun p => setNode d p (nodeOf d p).1 (nodeOf d p).2.1 v
  toLeft : ∀ a m n, T.firstIsToTheLeftOfSecond a m n = (a.getD o m).bind fun p => (a.getD o n).map fun q => lt p q
  toRight : ∀ a m n, T.firstIsToTheRightOfSecond a m n = (a.getD o m).bind fun p => (a.getD o n).map fun q => gt p q
  clear : ∀ n, T.clearNode n = [T.setLeft n 0, T.setRight n 0, T.setSize n 0]
  load : T.load = AStore.load
  store : T.store = AStore.store

/-- The holder of an internal tree's pointers. -/
def intHolder : Side → Holder
  | .src => .intSrc
  | .tgt => .intTgt

/-- The holder of an external tree's pointers. -/
def extHolder : Side → Holder
  | .src => .extSrc
  | .tgt => .extTgt

theorem intAcc (d : Side) : NodeAcc (intTree d) d (intHolder d) (fun p q => decide (keyOf d p < keyOf d q))
    (fun p q => decide (keyOf d p > keyOf d q)) := by
  cases d <;> exact ⟨fun _ _ => rfl, fun _ _ => rfl, fun _ _ => rfl, fun _ _ => rfl, fun _ _ => rfl, fun _ _ => rfl,
    fun _ _ => rfl, fun _ _ => rfl, fun _ _ => rfl, fun _ _ => rfl, fun _ _ _ => rfl, fun _ _ _ => rfl, fun _ => rfl, rfl,
    rfl⟩

theorem extAcc (d : Side) : NodeAcc (extTree d) d (extHolder d) (fun p q => lt4 d p.1 p.2 q.1 q.2)
    (fun p q => gt4 d p.1 p.2 q.1 q.2) := by
  cases d <;> exact ⟨fun _ _ => rfl, fun _ _ => rfl, fun _ _ => rfl, fun _ _ => rfl, fun _ _ => rfl, fun _ _ => rfl,
    fun _ _ => rfl, fun _ _ => rfl, fun _ _ => rfl, fun _ _ => rfl, fun _ _ _ => rfl, fun _ _ _ => rfl, fun _ => rfl, rfl,
    rfl⟩

/-- Nodes the trees may name. -/
def InMem (s : Store) (n : Nat) : Prop := n ≠ 0 ∧ n < s.ilen ∧ n < s.dlen

/-- How a tree's root is kept in memory: `set` stores it, at the pointer `ptr`. -/
structure RootAt (d : Side) (ptr : Ptr) (set : Store → Nat → Store) : Prop where
  load : ∀ s r, AStore.load (.of (set s r)) ptr = r
  store : ∀ s r v, (AStore.of (set s r)).store ptr v = .of (set s v)
  node : ∀ s r k, nodeOf d ((set s r).idx k) = nodeOf d (s.idx k)
  modIdx : ∀ s r n f, (∀ p x, f (setRoot d p x) = setRoot d (f p) x) → (set s r).modIdx n f = set (s.modIdx n f) r
  same : ∀ s r, (set s r).data = s.data ∧ (set s r).dlen = s.dlen ∧ (set s r).ilen = s.ilen ∧
    (set s r).stale = s.stale ∧ (set s r).hdr.allocated = s.hdr.allocated
  keep : ∀ (m : AStore) v, (m.store ptr v).s.data = m.s.data ∧ (m.store ptr v).s.hdr.allocated = m.s.hdr.allocated
  sizes : ∀ (m : AStore) v k, ((m.store ptr v).s.idx k).sizeT = (m.s.idx k).sizeT

/-- The root of the internal tree of link `a`. -/
def setIntRoot (d : Side) (a : Nat) (s : Store) (r : Nat) : Store :=
  { s with idx := fun k => if k = a then setRoot d (s.idx k) r else s.idx k }

/-- The root of the external tree. -/
def setExtRoot (d : Side) (s : Store) (r : Nat) : Store := { s with hdr := setHroot d s.hdr r }

theorem putInt_eq (s : Store) (d : Side) (a : Nat) (m : TMem) (r : Nat) :
    s.putInt d a m r = setIntRoot d a (s.putNodes d m) r := rfl

theorem putExt_eq (s : Store) (d : Side) (m : TMem) (r : Nat) :
    s.putExt d m r = setExtRoot d (s.putNodes d m) r := rfl

def rootWord : Side → Nat
  | .src => 0
  | .tgt => 4

def hrootWord : Side → Nat
  | .src => 4
  | .tgt => 5

theorem intRootAt (d : Side) {a : Nat} (ha : a ≠ 0) : RootAt d (a, rootWord d) (setIntRoot d a) where
  load s r := by
    cases d <;> simp [AStore.load, AStore.of, slot_pos _ ha, setIntRoot, rootWord, IPart.word, setRoot]
  store s r v := by
    rw [store_of _ _ ha]
    simp only [Store.modIdx, setIntRoot]
    congr 2
    funext k
    cases d <;> by_cases hk : k = a <;> simp [hk, setRoot, rootWord, IPart.setWord]
  node s r k := by
    simp only [setIntRoot]
    split
    · exact nodeOf_setRoot _ _ _ _
    · rfl
  modIdx s r n f hf := by
    simp only [Store.modIdx, setIntRoot]
    congr 1
    funext k
    by_cases h1 : k = n
    · subst h1; by_cases h2 : k = a <;> simp [h2, hf]
    · by_cases h2 : k = a
      · subst h2; simp [h1]
      · simp [h1, h2]
  same s r := ⟨rfl, rfl, rfl, rfl, rfl⟩
  keep m v := by simp [AStore.store, setSlot_pos _ _ ha]
  sizes m v k := by
    simp only [AStore.store, setSlot_pos _ _ ha, slot_pos _ ha]
    by_cases hk : k = a
    · rw [if_pos hk, hk]; cases d <;> rfl
    · rw [if_neg hk]

theorem extRootAt (d : Side) : RootAt d (0, hrootWord d) (setExtRoot d) where
  load s r := by
    cases d <;> simp [AStore.load, AStore.of, slot_zero, setExtRoot, hrootWord, IPart.word, setHroot, asPart]
  store s r v := by
    cases d <;> simp [AStore.store, AStore.of, slot_zero, setSlot_zero, setExtRoot, hrootWord, IPart.setWord, setHroot,
      asPart, ofPart]
  node s r k := rfl
  modIdx s r n f hf := rfl
  same s r := by cases d <;> exact ⟨rfl, rfl, rfl, rfl, rfl⟩
  keep m v := by cases d <;> exact ⟨rfl, rfl⟩
  sizes m v k := by cases d <;> rfl

theorem setNode_setNode (d : Side) (p : IPart) (a b e x y z : Nat) :
    setNode d (setNode d p a b e) x y z = setNode d p x y z := by cases d <;> rfl

theorem setNode_nodeOf (d : Side) (p : IPart) :
    setNode d p (nodeOf d p).1 (nodeOf d p).2.1 (nodeOf d p).2.2 = p := by cases d <;> rfl

theorem putNodes_modIdx (s : Store) (d : Side) (m m' : TMem) (n : Nat) (f : IPart → IPart)
    (hf : ∀ p, f (setNode d p (m.left n) (m.right n) (m.size n)) = setNode d p (m'.left n) (m'.right n) (m'.size n))
    (ho : ∀ k, k ≠ n → m'.left k = m.left k ∧ m'.right k = m.right k ∧ m'.size k = m.size k) :
    (s.putNodes d m).modIdx n f = s.putNodes d m' := by
  simp only [Store.modIdx, Store.putNodes]
  congr 1
  funext k
  by_cases hk : k = n
  · subst hk; simp [hf]
  · simp [hk, ho k hk]

/-- The accessors of a tree do to memory what the abstract ones do to its fields. -/
theorem treeSim {T : SzbTree AStore Ptr} {d : Side} {o : Holder} {lt gt : Nat × Nat → Nat × Nat → Bool}
    (hT : NodeAcc T d o lt gt) {ptr : Ptr} {set : Store → Nat → Store} (hR : RootAt d ptr set) (s : Store)
    (hs : s.stale = false) :
    Prog.Sim (T.access ptr) (TreeQ.abs (fun a b => lt (s.data a) (s.data b)) (fun a b => gt (s.data a) (s.data b)))
      TreeW.abs (fun v => AStore.of (set (s.putNodes d v.1) v.2)) (TreeQ.Names (InMem s)) (TreeW.Names (InMem s)) where
  ask q v hq := by
    have hsame := hR.same (s.putNodes d v.1) v.2
    have hg : ∀ n, InMem s n → (AStore.of (set (s.putNodes d v.1) v.2)).getI o n =
        some ((set (s.putNodes d v.1) v.2).idx n) :=
      fun n hn => getI_of o hn.1 (by rw [hsame.2.2.1]; exact hn.2.1)
    have hd : ∀ n, InMem s n → (AStore.of (set (s.putNodes d v.1) v.2)).getD o n = some (s.data n) :=
      fun n hn => by rw [getD_of o (by rw [hsame.2.2.2.1]; exact hs) (by rw [hsame.2.1]; exact hn.2.2), hsame.1]; rfl
    have hn : ∀ n, nodeOf d ((set (s.putNodes d v.1) v.2).idx n) = (v.1.left n, v.1.right n, v.1.size n) := fun n => by
      rw [hR.node]; exact nodeOf_setNode _ _ _ _ _
    have hl : ∀ n, InMem s n → AStore.load (.of (set (s.putNodes d v.1) v.2)) (n, leftWord d) = v.1.left n := by
      intro n hm
      have : AStore.load (.of (set (s.putNodes d v.1) v.2)) (n, leftWord d) =
          (nodeOf d ((set (s.putNodes d v.1) v.2).idx n)).1 := by
        simp only [AStore.load, AStore.of, slot_pos _ hm.1]
        cases d <;> rfl
      rw [this, hn]
    have hr : ∀ n, InMem s n → AStore.load (.of (set (s.putNodes d v.1) v.2)) (n, rightWord d) = v.1.right n := by
      intro n hm
      have : AStore.load (.of (set (s.putNodes d v.1) v.2)) (n, rightWord d) =
          (nodeOf d ((set (s.putNodes d v.1) v.2).idx n)).2.1 := by
        simp only [AStore.load, AStore.of, slot_pos _ hm.1]
        cases d <;> rfl
      rw [this, hn]
    cases q with
    | left n => simp only [SzbTree.access, hT.left, hg n hq, Option.map_some, hn, TreeQ.abs]
    | right n => simp only [SzbTree.access, hT.right, hg n hq, Option.map_some, hn, TreeQ.abs]
    | size n => simp only [SzbTree.access, hT.size, hg n hq, Option.map_some, hn, TreeQ.abs]
    | leftRef n => simp only [SzbTree.access, hT.leftRef, hT.load, hg n hq, Option.map_some, hl n hq, TreeQ.abs]
    | leftMut n => simp only [SzbTree.access, hT.leftMut, hT.load, hg n hq, Option.map_some, hl n hq, TreeQ.abs]
    | rightRef n => simp only [SzbTree.access, hT.rightRef, hT.load, hg n hq, Option.map_some, hr n hq, TreeQ.abs]
    | rightMut n => simp only [SzbTree.access, hT.rightMut, hT.load, hg n hq, Option.map_some, hr n hq, TreeQ.abs]
    | root => simp only [SzbTree.access, hT.load, hR.load, TreeQ.abs]
    | toLeft a b =>
      simp only [SzbTree.access, hT.toLeft, hd a hq.1, hd b hq.2, Option.bind_some, Option.map_some, TreeQ.abs]
    | toRight a b =>
      simp only [SzbTree.access, hT.toRight, hd a hq.1, hd b hq.2, Option.bind_some, Option.map_some, TreeQ.abs]
  tell w v hw := by
    have len : ∀ m : TMem, (set (s.putNodes d m) v.2).ilen = s.ilen := fun m => (hR.same _ _).2.2.1
    have modd : ∀ (m m' : TMem) (n : Nat) (f : IPart → IPart),
        (∀ p, f (setNode d p (m.left n) (m.right n) (m.size n)) = setNode d p (m'.left n) (m'.right n) (m'.size n)) →
        (∀ k, k ≠ n → m'.left k = m.left k ∧ m'.right k = m.right k ∧ m'.size k = m.size k) →
        (∀ p x, f (setRoot d p x) = setRoot d (f p) x) →
        (set (s.putNodes d m) v.2).modIdx n f = set (s.putNodes d m') v.2 := by
      intro m m' n f h1 h2 h3
      rw [hR.modIdx _ _ _ _ h3, putNodes_modIdx s d m m' n f h1 h2]
    have step : ∀ (m m' : TMem) (n : Nat) (f : IPart → IPart), InMem s n →
        (∀ p, f (setNode d p (m.left n) (m.right n) (m.size n)) = setNode d p (m'.left n) (m'.right n) (m'.size n)) →
        (∀ k, k ≠ n → m'.left k = m.left k ∧ m'.right k = m.right k ∧ m'.size k = m.size k) →
        (∀ p x, f (setRoot d p x) = setRoot d (f p) x) →
        AStore.modI o n f (.of (set (s.putNodes d m) v.2)) = some (.of (set (s.putNodes d m') v.2)) := by
      intro m m' n f hn h1 h2 h3
      rw [modI_of o f hn.1 (by rw [len]; exact hn.2.1), modd m m' n f h1 h2 h3]
    have stepL : ∀ (m : TMem) (n x : Nat), InMem s n → T.setLeft n x (.of (set (s.putNodes d m) v.2)) =
        some (.of (set (s.putNodes d { m with left := upd m.left n x }) v.2)) := fun m n x hn => by
      rw [hT.setLeft]
      refine step m _ n _ hn (fun p => ?_) (fun k hk => ?_) (fun p y => ?_)
      · cases d <;> simp [nodeOf, setNode, upd]
      · simp [upd, hk]
      · cases d <;> rfl
    have stepR : ∀ (m : TMem) (n x : Nat), InMem s n → T.setRight n x (.of (set (s.putNodes d m) v.2)) =
        some (.of (set (s.putNodes d { m with right := upd m.right n x }) v.2)) := fun m n x hn => by
      rw [hT.setRight]
      refine step m _ n _ hn (fun p => ?_) (fun k hk => ?_) (fun p y => ?_)
      · cases d <;> simp [nodeOf, setNode, upd]
      · simp [upd, hk]
      · cases d <;> rfl
    have stepS : ∀ (m : TMem) (n x : Nat), InMem s n → T.setSize n x (.of (set (s.putNodes d m) v.2)) =
        some (.of (set (s.putNodes d { m with size := upd m.size n x }) v.2)) := fun m n x hn => by
      rw [hT.setSize]
      refine step m _ n _ hn (fun p => ?_) (fun k hk => ?_) (fun p y => ?_)
      · cases d <;> simp [nodeOf, setNode, upd]
      · simp [upd, hk]
      · cases d <;> rfl
    have hg : ∀ n, InMem s n → (AStore.of (set (s.putNodes d v.1) v.2)).getI o n =
        some ((set (s.putNodes d v.1) v.2).idx n) :=
      fun n hn => getI_of o hn.1 (by rw [len]; exact hn.2.1)
    cases w with
    | left n x => exact tells_one _ (stepL v.1 n x hw)
    | right n x => exact tells_one _ (stepR v.1 n x hw)
    | size n x => exact tells_one _ (stepS v.1 n x hw)
    | leftMut n x =>
      refine tells_one _ ?_
      simp only [hT.leftMut, hT.store, hg n hw, Option.map_some]
      rw [store_of _ _ hw.1, modd v.1 { v.1 with left := upd v.1.left n x } n _ (fun p => ?_) (fun k hk => ?_) (fun p y => ?_)]
      · rfl
      · cases d <;> simp [setNode, upd, IPart.setWord, leftWord]
      · simp [upd, hk]
      · cases d <;> rfl
    | rightMut n x =>
      refine tells_one _ ?_
      simp only [hT.rightMut, hT.store, hg n hw, Option.map_some]
      rw [store_of _ _ hw.1, modd v.1 { v.1 with right := upd v.1.right n x } n _ (fun p => ?_) (fun k hk => ?_) (fun p y => ?_)]
      · rfl
      · cases d <;> simp [setNode, upd, IPart.setWord, rightWord]
      · simp [upd, hk]
      · cases d <;> rfl
    | root x =>
      refine tells_one _ ?_
      simp only [hT.store, hR.store]
      rfl
    | clear n =>
      show (Tr.tells (T.clearNode n) _).2 = _
      rw [hT.clear, tells_cons _ _ (stepL v.1 n 0 hw), tells_cons _ _ (stepR _ n 0 hw), tells_one _ (stepS _ n 0 hw)]
      rfl

/-- The list of unused links. -/
theorem listSim (s : Store) (hs : s.stale = false) (h0 : 0 < s.ilen) : Prog.Sim unusedList.access ListQ.abs ListW.abs
    (fun v => AStore.of (s.putList v)) (ListQ.Names (· < s.dlen)) (ListW.Names (· < s.dlen)) where
  ask q v hq := by
    have hh : (AStore.of (s.putList v)).header .unused = some (s.putList v).hdr := header_of .unused h0
    have hg : ∀ n, n < s.dlen → (AStore.of (s.putList v)).getD .unused n = some ((s.putList v).data n) :=
      fun n hn => getD_of .unused hs hn
    cases q with
    | first | last | size =>
      show ((AStore.of (s.putList v)).header .unused).map _ = _
      rw [hh]; rfl
    | prev n | next n =>
      show ((AStore.of (s.putList v)).getD .unused n).map _ = _
      rw [hg n hq]; rfl
  tell w v hw := by
    have hm : ∀ f, AStore.modHeader .unused f (.of (s.putList v)) =
        some (.of { s.putList v with hdr := f (s.putList v).hdr }) := fun f => modHeader_of .unused f h0
    have hc : ∀ n f, n < s.dlen → AStore.modD .unused n f (.of (s.putList v)) = some (.of { s.putList v with
        data := fun k => if k = n then f ((s.putList v).data n) else (s.putList v).data k }) :=
      fun n f hn => modD_of .unused f hs hn
    cases w with
    | first x => exact tells_one _ (hm fun h => { h with firstFree := x })
    | last x => exact tells_one _ (hm fun h => { h with lastFree := x })
    | size x => exact tells_one _ (hm fun h => { h with free := x })
    | prev n x =>
      refine tells_one _ ((hc n (fun p => (x, p.2)) hw).trans ?_)
      simp only [Store.putList, ListW.abs]
      congr 3
      funext k
      by_cases hk : k = n <;> simp [upd, hk]
    | next n x =>
      refine tells_one _ ((hc n (fun p => (p.1, x)) hw).trans ?_)
      simp only [Store.putList, ListW.abs]
      congr 3
      funext k
      by_cases hk : k = n <;> simp [upd, hk]

/-! ### Programs of trees and of the list -/

/-- The data and the number of slots in use are the same. -/
def SameEnds (s : Store) (x : AStore) : Prop := x.s.data = s.data ∧ x.s.hdr.allocated = s.hdr.allocated

/-- Slots for which `p` does not hold keep the size of their node in the trees by targets. -/
def SameSizes (p : Nat → Prop) (s : Store) (x : AStore) : Prop := ∀ k, ¬ p k → (x.s.idx k).sizeT = (s.idx k).sizeT

theorem SameSizes.trans {p : Nat → Prop} {s : Store} {x y : AStore} (h : SameSizes p s x)
    (h' : ∀ k, ¬ p k → (y.s.idx k).sizeT = (x.s.idx k).sizeT) : SameSizes p s y := fun k hk => (h' k hk).trans (h k hk)

theorem modI_sizes {o : Holder} {n : Nat} {f : IPart → IPart} {a a' : AStore} (h : AStore.modI o n f a = some a')
    (hn : n ≠ 0) (k : Nat) (hk : k = n → ∀ p, (f p).sizeT = p.sizeT) : (a'.s.idx k).sizeT = (a.s.idx k).sizeT := by
  unfold AStore.modI at h
  split at h
  · simp only [Option.some.injEq] at h
    subst h
    simp only [setSlot_pos _ _ hn]
    by_cases e : k = n
    · rw [if_pos e, slot_pos _ hn, hk e, e]
    · rw [if_neg e]
  · cases h

theorem setNode_sizeT {d : Side} (h : d ≠ .tgt) (p : IPart) (x y z : Nat) : (setNode d p x y z).sizeT = p.sizeT := by
  cases d with
  | src => rfl
  | tgt => exact absurd rfl h

theorem modI_same {o : Holder} {n : Nat} {f : IPart → IPart} {a a' : AStore} (h : AStore.modI o n f a = some a')
    (hn : n ≠ 0) : a'.s.data = a.s.data ∧ a'.s.hdr.allocated = a.s.hdr.allocated := by
  unfold AStore.modI at h
  split at h
  · simp only [Option.some.injEq] at h
    subst h
    simp [setSlot_pos _ _ hn]
  · cases h

theorem treeProg {T : SzbTree AStore Ptr} {d : Side} {o : Holder} {lt gt : Nat × Nat → Nat × Nat → Bool}
    (hT : NodeAcc T d o lt gt) {ptr : Ptr} {set : Store → Nat → Store} (hR : RootAt d ptr set) {s s' : Store}
    (hs : s.stale = false) {p : TreeProg} {ok : Nat → Prop} {r0 : Nat} {v : TMem × Nat}
    (hput : set (s.putNodes d (s.tmem d)) r0 = s) (hok : ∀ n, ok n → InMem s n)
    (he : p.eval (TreeQ.abs (fun a b => lt (s.data a) (s.data b)) (fun a b => gt (s.data a) (s.data b))) TreeW.abs
      (s.tmem d, r0) = some ((), v))
    (ho : p.Obeys (TreeQ.abs (fun a b => lt (s.data a) (s.data b)) (fun a b => gt (s.data a) (s.data b))) TreeW.abs
      (TreeQ.Names ok) (TreeW.Names ok) (s.tmem d, r0)) (hs' : s' = set (s.putNodes d v.1) v.2) :
    (p.run (T.access ptr)).Does (.of s) () (.of s') fun x => SameEnds s x ∧ SameSizes (fun k => d = .tgt ∧ ok k) s x := by
  have hsim0 := treeSim hT hR s hs
  have hsim : Prog.Sim (T.access ptr) (TreeQ.abs (fun a b => lt (s.data a) (s.data b)) (fun a b => gt (s.data a) (s.data b)))
      TreeW.abs (fun v => AStore.of (set (s.putNodes d v.1) v.2)) (TreeQ.Names ok) (TreeW.Names ok) :=
    ⟨fun q v hq => hsim0.ask q v (Unit.TreeQ.Names.mono hok q hq),
      fun w v hw => hsim0.tell w v (Unit.TreeW.Names.mono hok w hw)⟩
  have hr := Prog.run_eq hsim p (s.tmem d, r0) ho
  have e : AStore.of (set (s.putNodes d (s.tmem d)) r0) = .of s := by rw [hput]
  simp only [e, he] at hr
  refine ⟨by rw [hs']; exact hr, ?_⟩
  have hk := Prog.run_keeps hsim (I := fun x => SameEnds s x ∧ SameSizes (fun k => d = .tgt ∧ ok k) s x) ?_ p
    (s.tmem d, r0) ho ?_
  · simp only [e] at hk
    exact hk
  · intro w hw f hf m m' hm hfm
    have done : (m'.s.data = m.s.data ∧ m'.s.hdr.allocated = m.s.hdr.allocated) →
        (∀ k, ¬ (d = .tgt ∧ ok k) → (m'.s.idx k).sizeT = (m.s.idx k).sizeT) →
        SameEnds s m' ∧ SameSizes (fun k => d = .tgt ∧ ok k) s m' :=
      fun h g => ⟨⟨h.1.trans hm.1.1, h.2.trans hm.1.2⟩, hm.2.trans g⟩
    have node : ∀ {n : Nat} {f1 f2 f3 : IPart → Nat}, ok n →
        AStore.modI o n (fun p => setNode d p (f1 p) (f2 p) (f3 p)) m = some m' →
        SameEnds s m' ∧ SameSizes (fun k => d = .tgt ∧ ok k) s m' := fun hn h =>
      done (modI_same h (hok _ hn).1) fun k hk => modI_sizes h (hok _ hn).1 k fun e p =>
        setNode_sizeT (fun hd => hk ⟨hd, e ▸ hn⟩) _ _ _ _
    have word : ∀ {n w v : Nat}, ok n → w = leftWord d ∨ w = rightWord d → m.store (n, w) v = m' →
        SameEnds s m' ∧ SameSizes (fun k => d = .tgt ∧ ok k) s m' := by
      intro n w v hn hw e
      subst e
      have hn0 : n ≠ 0 := (hok n hn).1
      refine done (by simp [AStore.store, setSlot_pos _ _ hn0]) fun k _ => ?_
      simp only [AStore.store, setSlot_pos _ _ hn0, slot_pos _ hn0]
      by_cases e : k = n
      · rw [if_pos e, e]
        rcases hw with rfl | rfl <;> cases d <;> rfl
      · rw [if_neg e]
    cases w with
    | left n x =>
      simp only [SzbTree.access, List.mem_singleton] at hf
      subst hf; rw [hT.setLeft] at hfm; exact node hw hfm
    | right n x =>
      simp only [SzbTree.access, List.mem_singleton] at hf
      subst hf; rw [hT.setRight] at hfm; exact node hw hfm
    | size n x =>
      simp only [SzbTree.access, List.mem_singleton] at hf
      subst hf; rw [hT.setSize] at hfm; exact node hw hfm
    | leftMut n x =>
      simp only [SzbTree.access, List.mem_singleton] at hf
      subst hf
      simp only [hT.leftMut, hT.store, Option.map_map] at hfm
      cases hg : m.getI o n with
      | none => rw [hg] at hfm; cases hfm
      | some q =>
        rw [hg] at hfm
        simp only [Option.map_some, Function.comp_apply, Option.some.injEq] at hfm
        exact word hw (.inl rfl) hfm
    | rightMut n x =>
      simp only [SzbTree.access, List.mem_singleton] at hf
      subst hf
      simp only [hT.rightMut, hT.store, Option.map_map] at hfm
      cases hg : m.getI o n with
      | none => rw [hg] at hfm; cases hfm
      | some q =>
        rw [hg] at hfm
        simp only [Option.map_some, Function.comp_apply, Option.some.injEq] at hfm
        exact word hw (.inr rfl) hfm
    | root x =>
      simp only [SzbTree.access, List.mem_singleton] at hf
      subst hf
      simp only [hT.store, Option.some.injEq] at hfm
      subst hfm
      exact done (hR.keep m x) fun k _ => hR.sizes m x k
    | clear n =>
      simp only [SzbTree.access, hT.clear, List.mem_cons, List.not_mem_nil, or_false] at hf
      rcases hf with rfl | rfl | rfl
      · rw [hT.setLeft] at hfm; exact node hw hfm
      · rw [hT.setRight] at hfm; exact node hw hfm
      · rw [hT.setSize] at hfm; exact node hw hfm
  · show SameEnds s (.of (set (s.putNodes d (s.tmem d)) r0)) ∧ SameSizes _ s (.of (set (s.putNodes d (s.tmem d)) r0))
    rw [hput]
    exact ⟨⟨rfl, rfl⟩, fun _ _ => rfl⟩

/-- Data parts other than those of `l`, the number of slots used and the sizes in the trees by targets are the same. -/
def SameBut (s : Store) (l : List Nat) (x : AStore) : Prop :=
  (∀ k, k ∉ l → x.s.data k = s.data k) ∧ x.s.hdr.allocated = s.hdr.allocated ∧ SameSizes (fun _ => False) s x

theorem listProg {s s' : Store} {p : ListProg} {l : List Nat} {v : LMem} (hs : s.stale = false) (h0 : 0 < s.ilen)
    (hok : ∀ n ∈ l, n < s.dlen) (he : p.eval ListQ.abs ListW.abs s.listMem = some ((), v))
    (ho : p.Obeys ListQ.abs ListW.abs (ListQ.Names (· ∈ l)) (ListW.Names (· ∈ l)) s.listMem)
    (hs' : s' = s.putList v) :
    (p.run unusedList.access : Tr AStore _root_.Unit).Does (.of s) () (.of s') (SameBut s l) := by
  have hsim : Prog.Sim unusedList.access ListQ.abs ListW.abs (fun v => AStore.of (s.putList v))
      (ListQ.Names (· ∈ l)) (ListW.Names (· ∈ l)) :=
    ⟨fun q v hq => (listSim s hs h0).ask q v (Unit.ListQ.Names.mono hok q hq),
      fun w v hw => (listSim s hs h0).tell w v (Unit.ListW.Names.mono hok w hw)⟩
  have hr := Prog.run_eq hsim p s.listMem ho
  rw [he] at hr
  refine ⟨by rw [hs']; exact hr, ?_⟩
  refine Prog.run_keeps hsim (I := SameBut s l) ?_ p s.listMem ho ⟨fun _ _ => rfl, rfl, fun _ _ => rfl⟩
  intro w hw f hf a a' ha h
  have hd : ∀ g : Hdr → Hdr, (∀ x, (g x).allocated = x.allocated) → AStore.modHeader .unused g a = some a' →
      SameBut s l a' := by
    intro g hg h
    unfold AStore.modHeader AStore.modI at h
    split at h
    · simp only [Option.some.injEq] at h
      subst h
      refine ⟨ha.1, ?_, ha.2.2⟩
      simp only [setSlot_zero, asPart, ofPart, slot_zero, hg]
      exact ha.2.1
    · cases h
  have hc : ∀ n g, n ∈ l → AStore.modD .unused n g a = some a' → SameBut s l a' := by
    intro n g hn h
    unfold AStore.modD at h
    split at h
    · simp only [Option.some.injEq] at h
      subst h
      refine ⟨fun k hk => ?_, ha.2⟩
      have hkn : k ≠ n := fun e => hk (e ▸ hn)
      rw [← ha.1 k hk]
      simp [hkn]
    · cases h
  cases w with
  | first x | last x | size x =>
    simp only [AbsList.access, List.mem_singleton] at hf
    subst hf
    simp only [unusedList] at h
    exact hd _ (by intro _; rfl) h
  | prev n x | next n x =>
    simp only [AbsList.access, List.mem_singleton] at hf
    subst hf
    simp only [unusedList] at h
    exact hc n _ hw h

end Verif.Split
