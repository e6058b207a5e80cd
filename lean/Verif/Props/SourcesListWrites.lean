import Verif.Split.SourcesListWrites
import Verif.Props.SourcesList

/-!
# C101: lists of sources under attaching and detaching
-/

namespace Verif.Split.SourcesList.Props
open Verif Verif.Split Verif.Split.SourcesList

/-! ### Running the programs over the accessors -/

theorem call_ret (head : Nat) (s : Store) : call head (.ret ()) s = some s := rfl

theorem call_get {head : Nat} {q : ListQ} {g : Nat → ListProg} {s : Store} {a : Nat}
    (h : (access head).ask q s = some a) : call head (.get q >>= g) s = call head (g a) s := by
  show (Prog.run (access head) (Prog.read q g) s).2.map _ = _
  simp only [Prog.run, Tr.bind_res, Tr.ask_res, h, Option.map_some, Option.bind_some]
  rfl

theorem call_put {head : Nat} {w : ListW} {g : _root_.Unit → ListProg} {s s1 : Store}
    (h : (Tr.tells ((access head).tell w) s).2 = some ((), s1)) : call head (.put w >>= g) s = call head (g ()) s1 := by
  show (Prog.run (access head) (Prog.write w (g ())) s).2.map _ = _
  simp only [Prog.run, Tr.bind_res, h, Option.bind_some]
  rfl

theorem call_put_end {head : Nat} {w : ListW} {s s1 : Store}
    (h : (Tr.tells ((access head).tell w) s).2 = some ((), s1)) : call head (.put w) s = some s1 := by
  show (Prog.run (access head) (Prog.write w (.ret ())) s).2.map _ = _
  simp only [Prog.run, Tr.bind_res, h, Option.bind_some]
  rfl

/-- What the list of `head` sees of memory. -/
def view (s : Store) (head : Nat) : LMem where
  prev k := (s.idx k).leftS
  next k := (s.idx k).rightS
  first := (s.idx head).rootS
  last := if (s.idx head).rootS = 0 then 0 else (s.idx (s.idx head).rootS).leftS
  size := (s.idx head).sizeS

/-- Memory with the fields of the list of `head` replaced. -/
def lay (s : Store) (head : Nat) (m : LMem) : Store :=
  { s with idx := fun k => { s.idx k with
      leftS := m.prev k
      rightS := m.next k
      rootS := if k = head then m.first else (s.idx k).rootS
      sizeS := if k = head then m.size else (s.idx k).sizeS } }

theorem lay_view (s : Store) (head : Nat) : lay s head (view s head) = s := by
  unfold lay view
  congr 1
  funext k
  by_cases h : k = head
  · subst h; simp
  · simp [h]

section
variable {s : Store} {head : Nat} {m : LMem}

theorem getI_lay {x : Nat} (h0 : x ≠ 0) (hx : x < s.ilen) : (lay s head m).getI x = some ((lay s head m).idx x) := by
  have : x < (lay s head m).ilen := hx
  simp [Store.getI, this, h0]

theorem ask_first (h0 : head ≠ 0) (hx : head < s.ilen) : (access head).ask .first (lay s head m) = some m.first := by
  show (Store.getI _ _).map _ = _
  rw [getI_lay h0 hx]; simp [lay]

theorem ask_size (h0 : head ≠ 0) (hx : head < s.ilen) : (access head).ask .size (lay s head m) = some m.size := by
  show (Store.getI _ _).map _ = _
  rw [getI_lay h0 hx]; simp [lay]

theorem ask_prev {x : Nat} (h0 : x ≠ 0) (hx : x < s.ilen) : (access head).ask (.prev x) (lay s head m) = some (m.prev x) := by
  show (Store.getI _ _).map _ = _
  rw [getI_lay h0 hx]; simp [lay]

theorem ask_next {x : Nat} (h0 : x ≠ 0) (hx : x < s.ilen) : (access head).ask (.next x) (lay s head m) = some (m.next x) := by
  show (Store.getI _ _).map _ = _
  rw [getI_lay h0 hx]; simp [lay]

theorem ask_last (h0 : head ≠ 0) (hx : head < s.ilen) (hf : m.first ≠ 0 → m.first < s.ilen) :
    (access head).ask .last (lay s head m) = some (if m.first = 0 then 0 else m.prev m.first) := by
  show (SourcesList.getFirst _ _).bind _ = _
  have e : SourcesList.getFirst (lay s head m) head = some m.first := ask_first h0 hx
  rw [e, Option.bind_some]
  by_cases h : m.first = 0
  · simp [h]
  · rw [if_neg h, if_neg h]; exact ask_prev h (hf h)

theorem tells_one {f : Store → Option Store} {a b : Store} (h : f a = some b) : (Tr.tells [f] a).2 = some ((), b) := by
  show ((Tr.tell f >>= fun _ => Tr.tells []) a).2 = _
  rw [Tr.bind_res, Tr.tell_res, h]; rfl

theorem tell_first {v : Nat} (h0 : head ≠ 0) (hx : head < s.ilen) :
    (Tr.tells ((access head).tell (.first v)) (lay s head m)).2 = some ((), lay s head { m with first := v }) := by
  refine tells_one ?_
  have : head < (lay s head m).ilen := hx
  simp only [setFirst, modI, ne_eq, h0, not_false_eq_true, this, and_self, if_true, Option.some.injEq]
  simp only [lay]
  congr 1
  funext k
  by_cases h : k = head <;> simp [h]

theorem tell_size {v : Nat} (h0 : head ≠ 0) (hx : head < s.ilen) :
    (Tr.tells ((access head).tell (.size v)) (lay s head m)).2 = some ((), lay s head { m with size := v }) := by
  refine tells_one ?_
  have : head < (lay s head m).ilen := hx
  simp only [setSize, modI, ne_eq, h0, not_false_eq_true, this, and_self, if_true, Option.some.injEq]
  simp only [lay]
  congr 1
  funext k
  by_cases h : k = head <;> simp [h]

theorem tell_prev {x v : Nat} (h0 : x ≠ 0) (hx : x < s.ilen) :
    (Tr.tells ((access head).tell (.prev x v)) (lay s head m)).2 = some ((), lay s head (Circ.setPrev m x v)) := by
  refine tells_one ?_
  have : x < (lay s head m).ilen := hx
  simp only [setPrevious, modI, ne_eq, h0, not_false_eq_true, this, and_self, if_true, Option.some.injEq]
  simp only [lay, Circ.setPrev]
  congr 1
  funext k
  by_cases h : k = x <;> simp [h]

theorem tell_next {x v : Nat} (h0 : x ≠ 0) (hx : x < s.ilen) :
    (Tr.tells ((access head).tell (.next x v)) (lay s head m)).2 = some ((), lay s head (Circ.setNext m x v)) := by
  refine tells_one ?_
  have : x < (lay s head m).ilen := hx
  simp only [setNext, modI, ne_eq, h0, not_false_eq_true, this, and_self, if_true, Option.some.injEq]
  simp only [lay, Circ.setNext]
  congr 1
  funext k
  by_cases h : k = x <;> simp [h]

theorem tell_last {v : Nat} (a : Store) : (Tr.tells ((access head).tell (.last v)) a).2 = some ((), a) := rfl

end

/-! ### The three methods -/

theorem ring_iff {s : Store} {head : Nat} {xs : List Nat} : Ring s head xs ↔
    head ≠ 0 ∧ head < s.ilen ∧ (∀ x ∈ xs, x ≠ 0 ∧ x < s.ilen ∧ x < s.dlen) ∧ s.stale = false ∧ IsList (view s head) xs := by
  have hg : ∀ (l : List Nat) i (hi : i < l.length), l.getD i 0 = l[i] := fun l i hi => Ref.getD_lt hi
  have hh : ∀ l : List Nat, l.head?.getD 0 = l.headD 0 := fun l => by cases l <;> rfl
  constructor
  · intro h
    refine ⟨h.head_ne, h.head_lt, h.mem, h.fresh, h.nodup, fun x hx => (h.mem x hx).1, h.size, ?_, ?_, ?_, ?_⟩
    · exact h.first.trans (hh xs)
    · show (if (s.idx head).rootS = 0 then 0 else (s.idx (s.idx head).rootS).leftS) = _
      have := (C64_list_traversal h).2.2
      have e : getLast s head = some (if (s.idx head).rootS = 0 then 0 else (s.idx (s.idx head).rootS).leftS) := by
        have := ask_last (s := s) (head := head) (m := view s head) h.head_ne h.head_lt (fun hne => ?_)
        · rwa [lay_view] at this
        · have e1 := h.first
          cases xs with
          | nil => exact absurd e1 hne
          | cons x l =>
            show (s.idx head).rootS < _
            rw [e1]; exact (h.mem x (by simp)).2.1
      rw [e] at this
      rw [Option.some.inj this, List.getLastD_eq_getLast?]
    · intro i hi
      rw [hg xs i hi, hg xs _ (Nat.mod_lt _ (by omega))]
      exact h.next i hi
    · intro i hi
      rw [hg xs i hi, hg xs _ (Nat.mod_lt _ (by omega))]
      exact h.prev i hi
  · rintro ⟨h1, h2, h3, h4, h5⟩
    refine ⟨h1, h2, h3, h4, h5.nodup, h5.first_eq.trans (hh xs).symm, h5.size_eq, ?_, ?_⟩
    · intro i hi
      have := h5.next_eq i hi
      rwa [hg xs i hi, hg xs _ (Nat.mod_lt _ (by omega))] at this
    · intro i hi
      have := h5.prev_eq i hi
      rwa [hg xs i hi, hg xs _ (Nat.mod_lt _ (by omega))] at this

/-- What a call may change: nothing but the fields for the list, of the head and of the slots `ys`. -/
structure Only (s s' : Store) (head : Nat) (ys : List Nat) : Prop where
  data : s'.data = s.data
  sizes : s'.dlen = s.dlen ∧ s'.ilen = s.ilen ∧ s'.stale = s.stale
  header : s'.hdr = s.hdr
  /-- other slots are the same -/
  other : ∀ k, k ≠ head → k ∉ ys → s'.idx k = s.idx k
  /-- the slots of the elements keep the lists they are heads of -/
  heads : ∀ k, k ≠ head → (s'.idx k).rootS = (s.idx k).rootS ∧ (s'.idx k).sizeS = (s.idx k).sizeS
  /-- a head that is no element keeps its place in the list it is an element of -/
  places : ∀ k, k ∉ ys → (s'.idx k).leftS = (s.idx k).leftS ∧ (s'.idx k).rightS = (s.idx k).rightS
  /-- the indexes of targets are the same -/
  targets : ∀ k, (s'.idx k).rootT = (s.idx k).rootT ∧ (s'.idx k).leftT = (s.idx k).leftT ∧
    (s'.idx k).rightT = (s.idx k).rightT ∧ (s'.idx k).sizeT = (s.idx k).sizeT

theorem lay_only {s : Store} {head : Nat} {m' : LMem} {ys : List Nat}
    (h : ∀ k, k ∉ ys → m'.prev k = (view s head).prev k ∧ m'.next k = (view s head).next k) :
    Only s (lay s head m') head ys where
  data := rfl
  sizes := ⟨rfl, rfl, rfl⟩
  header := rfl
  other k h1 h2 := by
    have := h k h2
    simp only [lay, h1, if_false, this.1, this.2, view]
  heads k h1 := by simp [lay, h1]
  places k h2 := h k h2
  targets k := ⟨rfl, rfl, rfl, rfl⟩

theorem view_lay {s : Store} {head : Nat} {m : LMem} {l : List Nat} (h : IsList m l) : IsList (view (lay s head m) head) l where
  nodup := h.nodup
  nonzero := h.nonzero
  size_eq := by simp [view, lay, h.size_eq]
  first_eq := by simp [view, lay, h.first_eq]
  last_eq := by
    have e : (view (lay s head m) head).last = if m.first = 0 then 0 else m.prev m.first := by simp [view, lay]
    rw [e]
    cases hl : l with
    | nil => rw [h.first_eq, hl]; rfl
    | cons x t =>
      have hx : m.first = x := by rw [h.first_eq, hl]; rfl
      have h0 : x ≠ 0 := h.nonzero x (by simp [hl])
      rw [hx, if_neg h0]
      have hp := h.prev_eq (l.length - 1) (by simp [hl])
      have hlen : 0 < l.length := by simp [hl]
      rw [show l.length - 1 + 1 = l.length by omega, Nat.mod_self, ← Circ.getLastD_eq hlen] at hp
      rw [hl] at hp
      exact hp
  next_eq := h.next_eq
  prev_eq := h.prev_eq

theorem ring_after {s : Store} {head : Nat} {m' : LMem} {xs ys : List Nat} (hr : Ring s head xs) (h : IsList m' ys)
    (hy : ∀ y ∈ ys, y < s.ilen ∧ y < s.dlen) : Ring (lay s head m') head ys :=
  ring_iff.2 ⟨hr.head_ne, hr.head_lt, fun y k => ⟨h.nonzero y k, hy y k⟩, hr.fresh, view_lay h⟩

theorem first_mem {m : LMem} {l : List Nat} (h : IsList m l) (h0 : m.first ≠ 0) : m.first ∈ l := by
  have := h.first_eq
  cases l with
  | nil => exact absurd this h0
  | cons a t => rw [this]; simp

/-- `attach_as_first` on the list of `head`. -/
theorem attachFirst_call {s : Store} {head n f : Nat} {xs : List Nat} (hr : Ring s head xs) (h0 : n ≠ 0) (hi : n < s.ilen)
    (hd : n < s.dlen) (hn : n ∉ xs) :
    ∃ s', call head (Circ.attachFirstP f n) s = some s' ∧ Ring s' head (n :: xs) ∧ Only s s' head (n :: xs) := by
  obtain ⟨g1, g2, g3, g4, hL⟩ := ring_iff.1 hr
  obtain ⟨m', e, k1, k2⟩ := Circ.attachFirst_ok hL h0 hn
  refine ⟨lay s head m', ?_, ring_after hr k1 fun y hy => ?_, lay_only k2⟩
  · conv => lhs; rw [← lay_view s head]
    generalize view s head = m at *
    unfold Circ.attachFirstP
    rw [call_get (ask_first g1 g2)]
    by_cases hf : m.first = 0
    · simp only [Circ.attachFirst, hf, if_true, Option.some.injEq] at e
      rw [if_pos hf, call_put (tell_first g1 g2), call_put (tell_last _), call_put (tell_prev h0 hi),
        call_put (tell_next h0 hi), call_get (ask_size g1 g2), call_put_end (tell_size g1 g2), ← e]
      rfl
    · have hm := g3 _ (first_mem hL hf)
      have hp := g3 _ (hL.prev_mem (first_mem hL hf))
      simp only [Circ.attachFirst, hf, if_false, Option.some.injEq] at e
      rw [if_neg hf, call_get (ask_prev hm.1 hm.2.1), call_put (tell_prev h0 hi), call_put (tell_next h0 hi),
        call_put (tell_first g1 g2), call_put (tell_next hp.1 hp.2.1), call_put (tell_prev hm.1 hm.2.1),
        call_get (ask_size g1 g2), call_put_end (tell_size g1 g2), ← e]
      rfl
  · rcases List.mem_cons.1 hy with rfl | hy
    · exact ⟨hi, hd⟩
    · exact (g3 y hy).2

/-- `detach` on the list of `head`. -/
theorem detach_call {s : Store} {head n f : Nat} {xs : List Nat} (hr : Ring s head xs) (hn : n ∈ xs) :
    ∃ s', call head (Circ.detachP f n) s = some s' ∧ Ring s' head (xs.erase n) ∧ Only s s' head xs := by
  obtain ⟨g1, g2, g3, g4, hL⟩ := ring_iff.1 hr
  obtain ⟨m', e, k1, -, -, k2⟩ := Circ.detach_ok hL hn
  refine ⟨lay s head m', ?_, ring_after hr k1 fun y hy => (g3 y (List.mem_of_mem_erase hy)).2, lay_only k2⟩
  conv => lhs; rw [← lay_view s head]
  generalize view s head = m at *
  have hs : m.size ≠ 0 := by
    rw [hL.size_eq]; intro e; rw [List.eq_nil_of_length_eq_zero e] at hn; cases hn
  have hN := g3 n hn
  have hp := g3 _ (hL.prev_mem hn)
  have hq := g3 _ (Circ.next_mem hL hn)
  unfold Circ.detachP
  rw [call_get (ask_prev hN.1 hN.2.1), call_get (ask_next hN.1 hN.2.1)]
  by_cases h0 : m.next n = n
  · simp only [Circ.detach, hs, h0, if_true, if_false, Option.some.injEq] at e
    rw [if_pos h0, call_put (tell_first g1 g2), call_put (tell_last _), call_put (tell_prev hN.1 hN.2.1),
      call_put (tell_next hN.1 hN.2.1), call_get (ask_size g1 g2), call_put_end (tell_size g1 g2), ← e]
    rfl
  · simp only [Circ.detach, hs, h0, if_false, Option.some.injEq] at e
    rw [if_neg h0, call_put (tell_next hp.1 hp.2.1), call_put (tell_prev hq.1 hq.2.1), call_get (ask_first g1 g2),
      call_put (tell_first g1 g2), call_get (ask_last g1 g2 ?_), call_put (tell_last _), call_put (tell_prev hN.1 hN.2.1),
      call_put (tell_next hN.1 hN.2.1), call_get (ask_size g1 g2), call_put_end (tell_size g1 g2), ← e]
    · rfl
    · intro hne
      show (if n = m.first then m.next n else m.first) < _
      have hne' : (if n = m.first then m.next n else m.first) ≠ 0 := hne
      split
      · exact hq.2.1
      · next hc =>
        rw [if_neg hc] at hne'
        exact (g3 _ (first_mem hL hne')).2.1

/-- The list with its first element put last. -/
theorem rotate {m : LMem} {l : List Nat} {n : Nat} (h : IsList m (n :: l)) (hl : l ≠ []) :
    IsList { m with first := l.headD 0, last := n } (l ++ [n]) := by
  have hlen : 0 < l.length := List.length_pos_iff.2 hl
  have hg : ∀ i, i < l.length + 1 → (l ++ [n]).getD i 0 = (n :: l).getD ((i + 1) % (l.length + 1)) 0 := by
    intro i hi
    rcases Nat.lt_or_ge i l.length with h1 | h1
    · rw [Nat.mod_eq_of_lt (by omega)]
      simp [List.getD_eq_getElem?_getD, List.getElem?_append_left h1]
    · have e : i = l.length := by omega
      subst e
      simp [List.getD_eq_getElem?_getD, Nat.mod_self]
  refine ⟨?_, ?_, ?_, ?_, ?_, ?_, ?_⟩
  · have := h.nodup
    rw [List.nodup_append]
    rw [List.nodup_cons] at this
    exact ⟨this.2, by simp, fun a ha b hb e => this.1 (by rw [List.mem_singleton] at hb; subst hb; subst e; exact ha)⟩
  · intro x hx
    exact h.nonzero x (by simpa [or_comm] using hx)
  · have := h.size_eq; simpa using this
  · cases l with
    | nil => exact absurd rfl hl
    | cons a t => rfl
  · simp
  · intro i hi
    simp only [List.length_append, List.length_cons, List.length_nil, Nat.zero_add] at hi ⊢
    rw [hg i hi, hg _ (Nat.mod_lt _ (by omega))]
    exact h.next_eq _ (Nat.mod_lt _ (by omega))
  · intro i hi
    simp only [List.length_append, List.length_cons, List.length_nil, Nat.zero_add] at hi ⊢
    rw [hg i hi, hg _ (Nat.mod_lt _ (by omega))]
    exact h.prev_eq _ (Nat.mod_lt _ (by omega))

/-- `attach_as_last` on the list of `head`. -/
theorem attachLast_call {s : Store} {head n f : Nat} {xs : List Nat} (hr : Ring s head xs) (h0 : n ≠ 0) (hi : n < s.ilen)
    (hd : n < s.dlen) (hn : n ∉ xs) :
    ∃ s', call head (Circ.attachLastP f n) s = some s' ∧ Ring s' head (xs ++ [n]) ∧ Only s s' head (n :: xs) := by
  obtain ⟨g1, g2, g3, g4, hL⟩ := ring_iff.1 hr
  have hlast : (access head).ask .last s = some (xs.getLast?.getD 0) := (C64_list_traversal hr).2.2
  unfold Circ.attachLastP
  rw [call_get hlast]
  by_cases hx : xs = []
  · subst hx
    exact attachFirst_call (f := f) hr h0 hi hd hn
  · have hlen : 0 < xs.length := List.length_pos_iff.2 hx
    have hmem : xs.getLast?.getD 0 ∈ xs := by
      rw [List.getLast?_eq_some_getLast hx]; exact List.getLast_mem hx
    have hz := (g3 _ hmem).1
    rw [if_neg hz]
    obtain ⟨m1, e, k1, k2⟩ := Circ.attachFirst_ok hL h0 hn
    refine ⟨lay s head { m1 with first := xs.headD 0, last := n }, ?_, ring_after hr (rotate k1 hx) fun y hy => ?_, lay_only k2⟩
    · conv => lhs; rw [← lay_view s head]
      have hl : xs.getLast?.getD 0 = (view s head).prev (view s head).first := by
        have hp := hL.prev_eq (xs.length - 1) (by omega)
        rw [show xs.length - 1 + 1 = xs.length by omega, Nat.mod_self, ← Circ.headD_eq, ← hL.first_eq] at hp
        rw [hp, ← Circ.getLastD_eq hlen, List.getLastD_eq_getLast?]
      have hnx : (view s head).next (xs.getLast?.getD 0) = (view s head).first := by
        have hp := hL.next_eq (xs.length - 1) (by omega)
        rw [show xs.length - 1 + 1 = xs.length by omega, Nat.mod_self, ← Circ.headD_eq, ← hL.first_eq,
          ← Circ.getLastD_eq hlen, List.getLastD_eq_getLast?] at hp
        exact hp
      generalize xs.getLast?.getD 0 = l at *
      have hfirst := hL.first_eq
      generalize view s head = m at *
      have hf : m.first ≠ 0 := by
        rw [hfirst, Circ.headD_eq]; exact hL.nonzero _ (Circ.getD_mem hlen)
      have hm := g3 _ (first_mem hL hf)
      have hp := g3 _ hmem
      rw [call_get (ask_next hp.1 hp.2.1), hnx, call_put (tell_prev h0 hi), call_put (tell_next h0 hi),
        call_get (ask_last g1 g2 ?_), call_put (tell_last _), call_put (tell_prev hm.1 hm.2.1),
        call_put (tell_next hp.1 hp.2.1), call_get (ask_size g1 g2), call_put_end (tell_size g1 g2)]
      · simp only [Circ.attachFirst, hf, if_false, Option.some.injEq] at e
        rw [← e, ← hl, ← hfirst]
        rfl
      · exact fun _ => hm.2.1
    · rcases List.mem_append.1 hy with hy | hy
      · exact (g3 y hy).2
      · rw [List.mem_singleton] at hy; subst hy; exact ⟨hi, hd⟩

/-! ### Histories -/

/-- Attach `n` before the first element of the list of `head`, attach it after the last one, detach it. -/
inductive Op where
  | first (head n : Nat)
  | last (head n : Nat)
  | detach (head n : Nat)
deriving Repr, DecidableEq

/-- The head of the list an operation is about. -/
def Op.head : Op → Nat
  | .first h _ | .last h _ | .detach h _ => h

/-- The link an operation is about. -/
def Op.link : Op → Nat
  | .first _ n | .last _ n | .detach _ n => n

/-- The method of the list that is called. (`f` bounds the recursion of the programs, which do not recurse.) -/
def Op.prog (f : Nat) : Op → ListProg
  | .first _ n => Circ.attachFirstP f n
  | .last _ n => Circ.attachLastP f n
  | .detach _ n => Circ.detachP f n

/-- What the operation does to a list, on paper. -/
def Op.on (xs : List Nat) : Op → List Nat
  | .first _ n => n :: xs
  | .last _ n => xs ++ [n]
  | .detach _ n => xs.erase n

/-- What it does to the lists of all heads. -/
def Op.apply (L : Nat → List Nat) (o : Op) : Nat → List Nat := fun h => if h = o.head then o.on (L h) else L h

/-- The caller's part: slots of the memory, a link is attached when it is in no list and detached from the list it is in. -/
def Op.Allowed (s : Store) (L : Nat → List Nat) (o : Op) : Prop :=
  o.head ≠ 0 ∧ o.head < s.ilen ∧
  match o with
  | .first _ n | .last _ n => n ≠ 0 ∧ n < s.ilen ∧ n < s.dlen ∧ ∀ h, n ∉ L h
  | .detach h n => n ∈ L h

/-- The lists after the operations. -/
def replay (ops : List Op) (L : Nat → List Nat) : Nat → List Nat := ops.foldl Op.apply L

/-- The memory after the operations. -/
def calls (f : Nat) : List Op → Store → Option Store
  | [], s => some s
  | o :: ops, s => (call o.head (o.prog f) s).bind (calls f ops)

/-- All operations are allowed when they are called. -/
def AllAllowed (s : Store) : List Op → (Nat → List Nat) → Prop
  | [], _ => True
  | o :: ops, L => o.Allowed s L ∧ AllAllowed s ops (o.apply L)

/-- Memory holds the lists `L`. -/
structure Holds (s : Store) (L : Nat → List Nat) : Prop where
  ring : ∀ h, h ≠ 0 → h < s.ilen → Ring s h (L h)
  out : ∀ h, ¬ (h ≠ 0 ∧ h < s.ilen) → L h = []
  apart : ∀ h h' x, x ∈ L h → x ∈ L h' → h = h'

theorem Ring.kept {s s' : Store} {head h : Nat} {ys xs : List Nat} (hr : Ring s h xs) (ho : Only s s' head ys)
    (hne : h ≠ head) (hd : ∀ x ∈ xs, x ∉ ys) : Ring s' h xs where
  head_ne := hr.head_ne
  head_lt := by rw [ho.sizes.2.1]; exact hr.head_lt
  mem x hx := by rw [ho.sizes.2.1, ho.sizes.1]; exact hr.mem x hx
  fresh := by rw [ho.sizes.2.2]; exact hr.fresh
  nodup := hr.nodup
  first := (ho.heads h hne).1.trans hr.first
  size := (ho.heads h hne).2.trans hr.size
  next i hi := ((ho.places _ (hd _ (List.getElem_mem hi))).2).trans (hr.next i hi)
  prev i hi := ((ho.places _ (hd _ (List.getElem_mem _))).1).trans (hr.prev i hi)

theorem on_sub {o : Op} {xs : List Nat} {x : Nat} (h : x ∈ o.on xs) : x = o.link ∨ x ∈ xs := by
  cases o with
  | first _ n => exact List.mem_cons.1 h
  | last _ n =>
    rcases List.mem_append.1 h with h | h
    · exact .inr h
    · exact .inl (List.mem_singleton.1 h)
  | detach _ n => exact .inr (List.mem_of_mem_erase h)

/-- One operation, on all lists. -/
theorem op_holds {s : Store} {L : Nat → List Nat} {o : Op} (f : Nat) (hs : Holds s L) (ho : o.Allowed s L) :
    ∃ s', call o.head (o.prog f) s = some s' ∧ Holds s' (o.apply L) ∧ Only s s' o.head (o.link :: L o.head) := by
  have hr := hs.ring o.head ho.1 ho.2.1
  have key : ∃ s', call o.head (o.prog f) s = some s' ∧ Ring s' o.head (o.on (L o.head)) ∧
      Only s s' o.head (o.link :: L o.head) := by
    cases o with
    | first h n => exact attachFirst_call (f := f) hr ho.2.2.1 ho.2.2.2.1 ho.2.2.2.2.1 (ho.2.2.2.2.2 _)
    | last h n => exact attachLast_call (f := f) hr ho.2.2.1 ho.2.2.2.1 ho.2.2.2.2.1 (ho.2.2.2.2.2 _)
    | detach h n =>
      obtain ⟨s', e, k1, k2⟩ := detach_call (f := f) hr ho.2.2
      have hsub : ∀ k, k ∉ n :: L h → k ∉ L h := fun k hk hm => hk (List.mem_cons_of_mem _ hm)
      exact ⟨s', e, k1, ⟨k2.data, k2.sizes, k2.header, fun k a b => k2.other k a (hsub k b), k2.heads,
        fun k b => k2.places k (hsub k b), k2.targets⟩⟩
  -- the link of the operation is in no other list
  have hfree : ∀ h, h ≠ o.head → o.link ∉ L h := by
    intro h hne
    cases o with
    | first _ n => exact ho.2.2.2.2.2 h
    | last _ n => exact ho.2.2.2.2.2 h
    | detach h' n => exact fun hm => hne (hs.apart _ _ _ hm ho.2.2)
  have hfar : ∀ h, h ≠ o.head → ∀ x ∈ L h, x ∉ o.link :: L o.head := by
    intro h hne x hx hm
    rcases List.mem_cons.1 hm with rfl | hm
    · exact hfree h hne hx
    · exact hne (hs.apart _ _ _ hx hm)
  obtain ⟨s', e, k1, k2⟩ := key
  refine ⟨s', e, ⟨fun h h0 hl => ?_, fun h hh => ?_, fun h h' x hx hx' => ?_⟩, k2⟩
  · rw [k2.sizes.2.1] at hl
    unfold Op.apply
    by_cases hh : h = o.head
    · subst hh; rw [if_pos rfl]; exact k1
    · rw [if_neg hh]; exact (hs.ring h h0 hl).kept k2 hh (hfar h hh)
  · rw [k2.sizes.2.1] at hh
    unfold Op.apply
    rw [if_neg fun k => hh (by rw [k]; exact ⟨ho.1, ho.2.1⟩)]
    exact hs.out h hh
  · unfold Op.apply at hx hx'
    by_cases h1 : h = o.head
    · by_cases h2 : h' = o.head
      · exact h1.trans h2.symm
      · rw [if_pos h1] at hx; rw [if_neg h2] at hx'
        subst h1
        exact absurd (List.mem_cons.2 (on_sub hx)) (hfar h' h2 x hx')
    · rw [if_neg h1] at hx
      by_cases h2 : h' = o.head
      · rw [if_pos h2] at hx'
        subst h2
        exact absurd (List.mem_cons.2 (on_sub hx')) (hfar h h1 x hx)
      · rw [if_neg h2] at hx'
        exact hs.apart _ _ _ hx hx'

theorem calls_holds (f : Nat) : ∀ (ops : List Op) {s : Store} {L : Nat → List Nat}, Holds s L → AllAllowed s ops L →
    ∃ s', calls f ops s = some s' ∧ Holds s' (replay ops L) ∧ s'.data = s.data ∧ s'.hdr = s.hdr ∧ s'.ilen = s.ilen ∧
      s'.dlen = s.dlen ∧ ∀ k, (s'.idx k).rootT = (s.idx k).rootT ∧ (s'.idx k).leftT = (s.idx k).leftT ∧
        (s'.idx k).rightT = (s.idx k).rightT ∧ (s'.idx k).sizeT = (s.idx k).sizeT
  | [], s, _, hs, _ => ⟨s, rfl, hs, rfl, rfl, rfl, rfl, fun _ => ⟨rfl, rfl, rfl, rfl⟩⟩
  | o :: ops, s, L, hs, ha => by
    obtain ⟨s1, e, k1, k2⟩ := op_holds f hs ha.1
    have ha' : ∀ (ops : List Op) (L : Nat → List Nat), AllAllowed s ops L → AllAllowed s1 ops L := by
      intro ops
      induction ops with
      | nil => exact fun _ _ => trivial
      | cons o ops ih =>
        intro L h
        refine ⟨?_, ih _ h.2⟩
        have := h.1
        unfold Op.Allowed at this ⊢
        rw [k2.sizes.2.1, k2.sizes.1]
        exact this
    obtain ⟨s2, e2, r1, r2, r3, r4, r5, r6⟩ := calls_holds f ops k1 (ha' _ _ ha.2)
    refine ⟨s2, by rw [calls, e]; exact e2, r1, r2.trans k2.data, r3.trans k2.header, r4.trans k2.sizes.2.1,
      r5.trans k2.sizes.1, fun k => ?_⟩
    obtain ⟨a, b, c, d⟩ := r6 k
    obtain ⟨a', b', c', d'⟩ := k2.targets k
    exact ⟨a.trans a', b.trans b', c.trans c', d.trans d'⟩

/-- Memory with no list in it. -/
structure Blank (s : Store) : Prop where
  fresh : s.stale = false
  empty : ∀ h, (s.idx h).rootS = 0 ∧ (s.idx h).sizeS = 0

theorem Blank.holds {s : Store} (h : Blank s) : Holds s fun _ => [] where
  ring x h0 hx := ⟨h0, hx, by simp, h.fresh, .nil, (h.empty x).1, (h.empty x).2,
    fun i hi => absurd hi (Nat.not_lt_zero _), fun i hi => absurd hi (Nat.not_lt_zero _)⟩
  out _ _ := rfl
  apart _ _ _ hx := by cases hx

/-- **C101.** Start from memory without lists and attach and detach links in any order, before the first element or after the
last, in the lists of any number of heads: no call panics, although `set_last` does nothing; and then for every head
`each_usages` visits exactly the elements of the list that the same operations make on paper, in its order, `count_usages` is
its length and `get_last` its last element; no link and no index of targets has changed. -/
theorem C101_lists_keep_their_order {s : Store} (hb : Blank s) (f : Nat) (ops : List Op) (ha : AllAllowed s ops fun _ => []) :
    ∃ s', calls f ops s = some s' ∧
      (∀ h, h ≠ 0 → h < s.ilen → let xs := replay ops (fun _ => []) h
        (∀ (σ : Type) (hd : RH σ) (st : σ), eachUsages s' h hd st = some (runH hd (xs.map (linkAt s)) st)) ∧
        countUsages s' h = some xs.length ∧ getLast s' h = some (xs.getLast?.getD 0)) ∧
      s'.data = s.data ∧ s'.hdr = s.hdr ∧
      ∀ k, (s'.idx k).rootT = (s.idx k).rootT ∧ (s'.idx k).leftT = (s.idx k).leftT ∧
        (s'.idx k).rightT = (s.idx k).rightT ∧ (s'.idx k).sizeT = (s.idx k).sizeT := by
  obtain ⟨s', e, r1, r2, r3, r4, -, r6⟩ := calls_holds f ops hb.holds ha
  refine ⟨s', e, fun h h0 hl => ?_, r2, r3, r6⟩
  obtain ⟨a, b, c⟩ := C64_list_traversal (r1.ring h h0 (by rw [r4]; exact hl))
  have : linkAt s = linkAt s' := by funext x; simp only [linkAt, r2]
  refine ⟨fun σ hd st => ?_, b, c⟩
  rw [this]; exact a σ hd st

/-- One call on memory that holds any list: only the fields of the list change, of the head and of the elements. -/
theorem C101_one_call {s : Store} {head : Nat} {xs : List Nat} (hr : Ring s head xs) (f n : Nat) :
    (n ≠ 0 → n < s.ilen → n < s.dlen → n ∉ xs →
      (∃ s', call head (Circ.attachFirstP f n) s = some s' ∧ Ring s' head (n :: xs) ∧ Only s s' head (n :: xs)) ∧
      ∃ s', call head (Circ.attachLastP f n) s = some s' ∧ Ring s' head (xs ++ [n]) ∧ Only s s' head (n :: xs)) ∧
    (n ∈ xs → ∃ s', call head (Circ.detachP f n) s = some s' ∧ Ring s' head (xs.erase n) ∧ Only s s' head xs) :=
  ⟨fun h0 h1 h2 h3 => ⟨attachFirst_call hr h0 h1 h2 h3, attachLast_call hr h0 h1 h2 h3⟩, detach_call hr⟩

/-- Memory of eight slots, the links of which have the sources 1 and 2. -/
def sBlank : Store where
  ilen := 8
  dlen := 8
  data := fun i => (i % 2 + 1, i)

theorem sBlank_blank : Blank sBlank := ⟨rfl, fun _ => ⟨rfl, rfl⟩⟩

def someOps : List Op :=
  [.last 1 2, .last 1 4, .first 2 3, .first 1 6, .last 2 5, .detach 1 2, .last 1 2, .detach 2 3, .last 2 7, .first 2 3]

theorem someOps_allowed : AllAllowed sBlank someOps fun _ => [] := by
  have att : ∀ {L : Nat → List Nat} {n : Nat}, n ∉ L 1 → n ∉ L 2 → (∀ h, h ≠ 1 → h ≠ 2 → L h = []) → ∀ h, n ∉ L h := by
    intro L n h1 h2 h3 h
    by_cases e1 : h = 1
    · subst e1; exact h1
    by_cases e2 : h = 2
    · subst e2; exact h2
    rw [h3 h e1 e2]; simp
  unfold someOps
  refine ⟨⟨by decide, by decide, by decide, by decide, by decide, att (by decide) (by decide) ?_⟩,
    ⟨by decide, by decide, by decide, by decide, by decide, att (by decide) (by decide) ?_⟩,
    ⟨by decide, by decide, by decide, by decide, by decide, att (by decide) (by decide) ?_⟩,
    ⟨by decide, by decide, by decide, by decide, by decide, att (by decide) (by decide) ?_⟩,
    ⟨by decide, by decide, by decide, by decide, by decide, att (by decide) (by decide) ?_⟩,
    ⟨by decide, by decide, by decide⟩,
    ⟨by decide, by decide, by decide, by decide, by decide, att (by decide) (by decide) ?_⟩,
    ⟨by decide, by decide, by decide⟩,
    ⟨by decide, by decide, by decide, by decide, by decide, att (by decide) (by decide) ?_⟩,
    ⟨by decide, by decide, by decide, by decide, by decide, att (by decide) (by decide) ?_⟩, trivial⟩ <;>
  · intro h h1 h2
    simp only [Op.apply, Op.head, h1, h2, if_false]

example : ∃ s', calls 9 someOps sBlank = some s' ∧
    (∀ (σ : Type) (hd : RH σ) (st : σ),
      eachUsages s' 1 hd st = some (runH hd [⟨6, 1, 6⟩, ⟨4, 1, 4⟩, ⟨2, 1, 2⟩] st) ∧
      eachUsages s' 2 hd st = some (runH hd [⟨3, 2, 3⟩, ⟨5, 2, 5⟩, ⟨7, 2, 7⟩] st)) ∧
    getLast s' 2 = some 7 := by
  obtain ⟨s', e, k, -⟩ := C101_lists_keep_their_order sBlank_blank 9 someOps someOps_allowed
  exact ⟨s', e, fun σ hd st => ⟨(k 1 (by decide) (by decide)).1 σ hd st, (k 2 (by decide) (by decide)).1 σ hd st⟩,
    (k 2 (by decide) (by decide)).2.2⟩

end Verif.Split.SourcesList.Props
