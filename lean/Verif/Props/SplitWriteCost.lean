import Verif.Split.Crash
import Verif.Props.Lost

/-!
# C57: what writes cost (split store)

As in `WriteCost.lean`: the cost of a call is its number of updates of memory, where one whole call of the `trees` crate
counts as one update.
-/

namespace Verif.Split

/-- Number of updates of memory a call makes. -/
def updates (c : Cfg) (s : Store) (k : Call) : Nat := (callImages c s k).length - 1

/-- `Spent c s f n w`: like `LostHistory c s f`, for a history of `n` calls that made `w` updates of memory together. -/
inductive Spent (c : Cfg) : Store → Filed → Nat → Nat → Prop
  | fresh (d i) {s : Store} : ExactAlloc d → ExactAlloc i → init (c.withAllocs d i) {} = some (.ok s) →
      Spent c s .empty 0 0
  | call (d i) (k : Call) {s : Store} {f n w} {o : Out Store Unit Nat} : Spent c s f n w → ExactAlloc d →
      ExactAlloc i → (k = .create → GrowTogether (c.withAllocs d i) s) → f.Allows k → step c d i s k = some o →
      Spent c o.st (f.after k o.res) (n + 1) (w + updates (c.withAllocs d i) s k)
  | reopen (d i) (a b : Nat) {s s' : Store} {f n w} : Spent c s f n w → ExactAlloc d → ExactAlloc i →
      init (c.withAllocs d i) { s with dlen := a, ilen := b } = some (.ok s') → s.hdr.allocated < s'.ilen →
      Spent c s' f n w

/-! ### Lengths of runs -/

theorem Run.len_upd (f : Store → Option Store) (s : Store) : (Run.upd f s).1.length ≤ 1 := by
  unfold Run.upd; split <;> simp

theorem Run.len_upd_eq {f : Store → Option Store} {s s' : Store} (h : f s = some s') :
    (Run.upd f s).1.length = 1 := by
  unfold Run.upd; rw [h]; rfl

theorem Run.len_seq {a b : Run} {s s1 : Store} (h : (a s).2 = some s1) :
    (Run.seq a b s).1.length = (a s).1.length + (b s1).1.length := by
  unfold Run.seq; rw [h]; simp

theorem Run.read_eq {α : Type} {f : Store → Option α} {s : Store} {x : α} (h : f s = some x) (g : α → Run) :
    Run.read f g s = g x s := by
  unfold Run.read; rw [h]

/-- A run of at most `n` updates. -/
def Run.Le (r : Run) (n : Nat) : Prop := ∀ s, (r s).1.length ≤ n

/-- A run of exactly `n` updates, unless it panics. -/
def Run.Is (r : Run) (n : Nat) : Prop := ∀ s s', (r s).2 = some s' → (r s).1.length = n

theorem Run.le_upd (f : Store → Option Store) : (Run.upd f).Le 1 := Run.len_upd f

theorem Run.le_seq {a b : Run} {m n : Nat} (ha : a.Le m) (hb : b.Le n) : (Run.seq a b).Le (m + n) := by
  intro s
  unfold Run.seq
  split
  · exact Nat.le_trans (ha s) (Nat.le_add_right _ _)
  · next s1 _ => rw [List.length_append]; exact Nat.add_le_add (ha s) (hb s1)

theorem Run.le_read {α : Type} {f : Store → Option α} {g : α → Run} {n : Nat} (h : ∀ x, (g x).Le n) :
    (Run.read f g).Le n := by
  intro s
  unfold Run.read
  split
  · simp
  · next x _ => exact h x s

theorem Run.is_upd (f : Store → Option Store) : (Run.upd f).Is 1 := by
  intro s s' h
  rw [Run.upd_2] at h
  exact Run.len_upd_eq h

theorem Run.is_seq {a b : Run} {m n : Nat} (ha : a.Is m) (hb : b.Is n) : (Run.seq a b).Is (m + n) := by
  intro s s' h
  rw [Run.seq_2] at h
  cases h1 : (a s).2 with
  | none => rw [h1] at h; cases h
  | some s1 =>
    rw [h1] at h
    rw [Run.len_seq h1, ha s s1 h1, hb s1 s' h]

theorem Run.is_read {α : Type} {f : Store → Option α} {g : α → Run} {n : Nat} (h : ∀ x, (g x).Is n) :
    (Run.read f g).Is n := by
  intro s s' hs
  rw [Run.read_2] at hs
  cases hf : f s with
  | none => rw [hf] at hs; cases hs
  | some x =>
    rw [hf] at hs
    have := h x s s' hs
    unfold Run.read; rw [hf]; exact this

theorem moveRun_is (f g : Nat → Store → Option Store) : ∀ ks, (moveRun f g ks).Is (2 * ks.length)
  | [] => fun _ _ _ => rfl
  | k :: ks => by
    have := Run.is_seq (Run.is_upd (f k)) (Run.is_seq (Run.is_upd (g k)) (moveRun_is f g ks))
    intro s s' h
    have := this s s' h
    simp only [List.length_cons]
    simp only [moveRun]
    omega

theorem relinkRun_is (c : Cfg) (l : Link) (i a b : Nat) : (relinkRun c l i a b).Is 6 :=
  Run.is_seq (Run.is_upd _) <| Run.is_seq (Run.is_upd _) <| Run.is_read fun _ => Run.is_read fun _ =>
    Run.is_seq (Run.is_upd _) <| Run.is_seq (Run.is_upd _) <| Run.is_seq (Run.is_upd _) (Run.is_upd _)

theorem relinkRun_le (c : Cfg) (l : Link) (i a b : Nat) : (relinkRun c l i a b).Le 6 :=
  Run.le_seq (Run.le_upd _) <| Run.le_seq (Run.le_upd _) <| Run.le_read fun _ => Run.le_read fun _ =>
    Run.le_seq (Run.le_upd _) <| Run.le_seq (Run.le_upd _) <| Run.le_seq (Run.le_upd _) (Run.le_upd _)

/-- The release loop makes two updates per released slot. -/
theorem releaseRun_len (c : Cfg) : ∀ (fuel : Nat) (s s' : Store), (releaseRun c fuel s).2 = some s' →
    (releaseRun c fuel s).1.length + 2 * s'.hdr.allocated = 2 * s.hdr.allocated := by
  intro fuel
  induction fuel with
  | zero => intro s s' h; cases h
  | succ fuel ih =>
    intro s s' h
    simp only [releaseRun] at h ⊢
    cases hu : (if s.hdr.allocated = 0 then some false else isUnused s s.hdr.allocated) with
    | none => rw [Run.read_2, hu] at h; cases h
    | some u =>
      rw [Run.read_eq (f := fun s => if s.hdr.allocated = 0 then some false else isUnused s s.hdr.allocated) hu] at h ⊢
      cases u with
      | false =>
        simp only [Bool.false_eq_true, if_false, Run.done] at h ⊢
        cases h; simp
      | true =>
        have h0 : s.hdr.allocated ≠ 0 := by
          intro e; rw [if_pos e] at hu; cases hu
        simp only [if_true] at h ⊢
        rw [Run.read_eq (f := fun s => some s.hdr.allocated) rfl] at h ⊢
        simp only [Run.seq_2, Run.upd_2] at h
        cases h1 : unusedDetach c s s.hdr.allocated with
        | none => rw [h1] at h; cases h
        | some s1 =>
          rw [h1] at h
          simp only [Option.bind_some] at h
          rw [Run.len_seq (by rw [Run.upd_2]; exact h1), Run.len_upd_eq h1,
            Run.len_seq (by rw [Run.upd_2])]
          have := ih _ _ h
          simp only [Run.upd, List.length_singleton] at this ⊢
          omega

theorem dropRun_len (c : Cfg) (i : Nat) {s s' : Store} (h : (dropRun c i s).2 = some s') :
    (i < s.hdr.allocated → (dropRun c i s).1.length = 1) ∧
    (i = s.hdr.allocated → (dropRun c i s).1.length + 2 * s'.hdr.allocated + 1 = 2 * s.hdr.allocated ∧
      s'.hdr.allocated < s.hdr.allocated) := by
  unfold dropRun at h ⊢
  constructor
  · intro hlt
    rw [if_pos hlt] at h ⊢
    exact Run.is_upd _ s s' h
  · intro heq
    rw [if_neg (by omega), if_pos heq] at h ⊢
    rw [Run.seq_2, Run.upd_2] at h
    by_cases h0 : 1 ≤ s.hdr.allocated
    · rw [csub_eq h0] at h
      simp only [Option.map_some, Option.bind_some] at h
      rw [Run.len_seq (by rw [Run.upd_2, csub_eq h0]; rfl), Run.len_upd_eq (by rw [csub_eq h0]; rfl)]
      have := releaseRun_len c _ _ _ h
      dsimp only at this ⊢
      omega
    · have : s.hdr.allocated = 0 := by omega
      rw [this] at h
      simp [csub] at h

variable {c : Cfg}

/-- The lists `resolve_danglind_internal` works through. -/
theorem resolveInternal_len (hc : CfgOK c) {s : Store} {free : List Nat} {I E : Side → Nat → Prop}
    (h : Net c s free I E) (hx : Exact s free I E) {i : Nat} (hi : LiveIn s free i)
    (hu : ∀ d k, FiledAt I s i d k → ∀ j, I d j → j ≠ k → s.data j ≠ s.data k) :
    ∃ K1 K2 : List Nat, K1.Nodup ∧ K2.Nodup ∧ (∀ k, k ∈ K1 ↔ FiledAt I s i .src k) ∧
      (∀ k, k ∈ K2 ↔ FiledAt I s i .tgt k) ∧
      (resolveInternalRun c i s).1.length = 2 * K1.length + 2 * K2.length := by
  have hlt := live_lt h.base hi
  obtain ⟨L1, e1, n1, m1⟩ := eachIter_side hc h hx .src hi
  have hks1 : ((L1.map s.linkAt).map (·.index)).filter (· ≠ i) = L1.filter (· ≠ i) := by
    rw [List.map_map]; congr 1; exact List.map_id' L1
  have mk1 : ∀ k, k ∈ L1.filter (· ≠ i) ↔ FiledAt I s i .src k := by
    intro k
    simp only [List.mem_filter, m1, decide_eq_true_eq]
    constructor
    · rintro ⟨⟨a1, a2⟩, a3⟩; exact ⟨a1, a3, a2⟩
    · intro hk; exact ⟨⟨hk.1, hk.2.2⟩, hk.2.1⟩
  obtain ⟨s1, f1, o1, w1⟩ := moveOut_ok hc (d := .src) (a := i) (L1.filter (· ≠ i)) h hlt
    (n1.filter _) (fun k hk => ⟨((mk1 k).1 hk).1, ((mk1 k).1 hk).2.2⟩)
    (fun k hk => hu .src k ((mk1 k).1 hk))
  have l1 := fun k => liveIn_only (free := free) o1 k
  have hi1 : LiveIn s1 free i := (l1 i).2 hi
  have x1 : Exact s1 free (fun d' k => I d' k ∧ ¬(d' = Side.src ∧ k ∈ L1.filter (· ≠ i)))
      (fun d' k => E d' k ∨ (d' = Side.src ∧ k ∈ L1.filter (· ≠ i))) := by
    intro e he hs
    rw [o1.data] at hs
    rcases hx e ((l1 e).1 he) hs with x | x
    · exact Or.inl ⟨x, by simp⟩
    · exact Or.inr (Or.inl x)
  obtain ⟨L2, e2, n2, m2⟩ := eachIter_side hc w1 x1 .tgt hi1
  have m2' : ∀ k, k ∈ L2 ↔ I .tgt k ∧ (s.data k).2 = i := by
    intro k
    rw [m2, o1.data]
    simp [endOf]
  have hks2 : tgtUsers i (L2.map s1.linkAt) = L2.filter (· ≠ i) := by
    unfold tgtUsers
    rw [List.filter_filter, List.filter_map, List.map_map]
    have : L2.filter ((fun l : Link => decide (¬(l.index = l.source ∧ l.index = l.target)) &&
        decide (l.index ≠ i)) ∘ s1.linkAt) = L2.filter (· ≠ i) := by
      refine List.filter_congr ?_
      intro k hk
      have ht := ((m2' k).1 hk).2
      simp only [Function.comp, Store.linkAt, o1.data, ht]
      by_cases hki : k = i <;> simp [hki]
    rw [this]; exact List.map_id' _
  have mk2 : ∀ k, k ∈ L2.filter (· ≠ i) ↔ FiledAt I s i .tgt k := by
    intro k
    simp only [List.mem_filter, m2', decide_eq_true_eq]
    constructor
    · rintro ⟨⟨a1, a2⟩, a3⟩; exact ⟨a1, a3, a2⟩
    · intro hk; exact ⟨⟨hk.1, hk.2.2⟩, hk.2.1⟩
  obtain ⟨s2, f2, -, -⟩ := moveOut_ok hc (d := .tgt) (a := i) (L2.filter (· ≠ i)) w1
    (by rw [o1.ilen]; exact hlt) (n2.filter _)
    (fun k hk => ⟨⟨((mk2 k).1 hk).1, by simp⟩, by rw [o1.data]; exact ((mk2 k).1 hk).2.2⟩)
    (fun k hk j hj => by rw [o1.data]; exact hu .tgt k ((mk2 k).1 hk) j hj.1)
  refine ⟨_, _, n1.filter _, n2.filter _, mk1, mk2, ?_⟩
  rw [← moveOut_run] at f1 f2
  unfold resolveInternalRun
  rw [Run.read_eq (f := (eachIter c · (sideQuery c .src i))) e1, hks1, Run.len_seq f1, moveRun_is _ _ _ _ _ f1,
    Run.read_eq (f := (eachIter c · (sideQuery c .tgt i))) e2, hks2, moveRun_is _ _ _ _ _ f2]

theorem resolveExternal_len (hc : CfgOK c) {s : Store} {free : List Nat} {I E : Side → Nat → Prop}
    (h : Net c s free I E) (hx : Exact s free I E) {i : Nat} (hi : LiveIn s free i)
    (hI : ∀ d k, I d k → endOf d (s.data k) ≠ i) : (resolveExternalRun c i s).1.length = 0 := by
  obtain ⟨L1, e1, _, m1⟩ := eachIter_side hc h hx .src hi
  obtain ⟨L2, e2, _, m2⟩ := eachIter_side hc h hx .tgt hi
  have z1 : L1 = [] := List.eq_nil_iff_forall_not_mem.2 fun k hk => hI .src k ((m1 k).1 hk).1 ((m1 k).1 hk).2
  have z2 : L2 = [] := List.eq_nil_iff_forall_not_mem.2 fun k hk => hI .tgt k ((m2 k).1 hk).1 ((m2 k).1 hk).2
  subst z1 z2
  unfold resolveExternalRun
  rw [Run.read_eq (f := (eachIter c · (sideQuery c .src i))) e1, Run.len_seq (s1 := s) rfl,
    Run.read_eq (f := (eachIter c · (sideQuery c .tgt i))) e2]
  rfl

theorem created_len (hc : CfgOK c) {s s' : Store} {free free' : List Nat} {I E : Side → Nat → Prop} {i : Nat}
    (h : Net c s free I E) (hx : Exact s free I E) (hI : ∀ d k, I d k → LiveIn s free (endOf d (s.data k)))
    (hk : CreatedN c s free I E s' free' i) : (resolveExternalRun c i s').1.length = 0 :=
  resolveExternal_len hc hk.net (hk.exact hx) (i := i) ((hk.live i).2 (Or.inr rfl)) (by
    rintro d k hkI he
    rw [hk.data k (h.live d k (Or.inl hkI))] at he
    exact hk.fresh (he ▸ hI d k hkI))

/-- A creation makes at most four updates: it moves no link. -/
theorem createRun_len (hc : CfgOK c) {s : Store} {free : List Nat} {I E : Side → Nat → Prop}
    (h : Net c s free I E) (hx : Exact s free I E) (hI : ∀ d k, I d k → LiveIn s free (endOf d (s.data k))) :
    (createRun c s).1.length ≤ 4 := by
  have top : ∀ {s : Store} (h : Net c s [] I E) (hx : Exact s [] I E)
      (hI : ∀ d k, I d k → LiveIn s [] (endOf d (s.data k))) (hlt : s.hdr.allocated + 1 < s.ilen)
      (hend : s.hdr.allocated < c.consts.internalEnd),
      (Run.seq (bumpRun c) (.read (fun s => some s.hdr.allocated) (resolveExternalRun c)) s).1.length ≤ 1 := by
    intro s h hx hI hlt hend
    have hcr := (createTop_gen hc h hx hI hlt hend (fun (u : Unit) _ _ => (.cont, u)) ()).2
    have hle := hc.end_le
    have hb : bumpRun c s = Run.upd (fun s => some { s with hdr := { s.hdr with allocated := s.hdr.allocated + 1 } }) s := by
      unfold bumpRun Run.upd
      simp only [cadd_eq (show s.hdr.allocated + 1 ≤ c.maxT by omega), Option.map_some]
    rw [Run.len_seq (by rw [hb, Run.upd_2]), hb, Run.read_eq (f := fun s : Store => some s.hdr.allocated) rfl]
    have := created_len hc h hx hI hcr
    have h1 := Run.len_upd (fun s => some { s with hdr := { s.hdr with allocated := s.hdr.allocated + 1 } }) s
    dsimp only at this h1 ⊢
    omega
  unfold createRun
  cases free with
  | cons x rest =>
    have hxf : s.hdr.firstFree = x := by
      have := h.base.list.first_eq; simpa [Store.listMem] using this
    have hx0 : x ≠ 0 := h.base.list.nonzero x (by simp)
    have hn := h.base.list.nodup
    rw [List.nodup_cons] at hn
    have hxle := h.base.free_le x (by simp)
    obtain ⟨s', h1, h2, h3, h4, h5, h6, h7⟩ := unusedDetach_ok hc h (i := x) (by simp)
    simp only [List.erase_cons_head] at h2
    have hcr : CreatedN c s (x :: rest) I E s' rest x := by
      refine ⟨h2, ?_, fun hl => hl.2.2 (by simp), h6, fun k hk => h7 k hk.2.2⟩
      intro k
      simp only [LiveIn, h4, List.mem_cons, not_or]
      constructor
      · rintro ⟨a1, a2, a3⟩
        by_cases e : k = x
        · exact Or.inr e
        · exact Or.inl ⟨a1, a2, e, a3⟩
      · rintro (⟨a1, a2, a3, a4⟩ | rfl)
        · exact ⟨a1, a2, a4⟩
        · exact ⟨by omega, hxle, hn.1⟩
    rw [hxf, hc.null_eq, if_neg hx0, Run.len_seq (by rw [Run.upd_2]; exact h1), Run.len_upd_eq h1,
      created_len hc h hx hI hcr]
    omega
  | nil =>
    have hxf : s.hdr.firstFree = 0 := by
      have := h.base.list.first_eq; simpa [Store.listMem] using this
    rw [hxf, hc.null_eq, if_pos rfl]
    by_cases hend : c.consts.internalEnd ≤ s.hdr.allocated
    · rw [if_pos hend]; simp [Run.done]
    · rw [if_neg hend]
      have hrp := h.base.res_pos
      have hrl := h.base.res_le
      simp only [csub_eq hrp]
      by_cases hr : s.hdr.reserved - 1 ≤ s.hdr.allocated
      · rw [if_pos hr]
        cases hda : c.dalloc s.dlen (s.dlen + c.step) with
        | none => simp [Run.done]
        | some dn =>
          have hdn := hc.dalloc_eq _ _ _ hda
          subst hdn
          cases hal : c.ialloc s.ilen (s.ilen + c.step) with
          | none => exact Nat.le_trans (Run.len_upd _ _) (by omega)
          | some n =>
            have hn := hc.ialloc_eq _ _ _ hal
            subst hn
            have hsp := hc.step_pos
            have hlt := h.base.alloc_lt
            have hle := h.base.len_eq
            simp only
            rw [Run.len_seq (by rw [Run.upd_2]), Run.len_seq (by rw [Run.upd_2])]
            by_cases hm : s.ilen + c.step ≤ c.maxT
            · rw [Run.len_seq (by rw [Run.upd_2, if_pos hm])]
              let s1 : Store := { s with dlen := s.ilen + c.step, ilen := s.ilen + c.step, stale := false,
                                         hdr := { s.hdr with reserved := s.ilen + c.step } }
              have hg : Net c s1 [] I E := grow_ok h (n := s.ilen + c.step) (by omega)
              have := top hg hx hI (by show s.hdr.allocated + 1 < s.ilen + c.step; omega)
                (by show s.hdr.allocated < _; omega)
              rw [hle]
              simp only [Run.upd, hm, if_true, List.length_singleton]
              exact Nat.add_le_add_left (Nat.add_le_add_left (Nat.add_le_add_left this 1) 1) 1
            · simp only [Run.upd, Run.seq, hm, if_false, List.length_singleton, List.length_nil]
              omega
      · rw [if_neg hr]
        exact Nat.le_trans (top h hx hI (by omega) (by omega)) (by omega)

theorem updates_eq (c : Cfg) (s : Store) (k : Call) : updates c s k = (callRun c k s).1.length := by
  simp [updates, callImages]

theorem relinkRun_withAllocs (c : Cfg) (d i : Nat → Nat → Option Nat) (l : Link) (j a b : Nat) :
    relinkRun (c.withAllocs d i) l j a b = relinkRun c l j a b := rfl

theorem releaseRun_withAllocs (c : Cfg) (d i : Nat → Nat → Option Nat) : ∀ fuel : Nat,
    releaseRun (c.withAllocs d i) fuel = releaseRun c fuel := by
  intro fuel
  induction fuel with
  | zero => rfl
  | succ fuel ih => simp only [releaseRun, ih]; rfl

theorem eachAll_withAllocs (c : Cfg) (d i : Nat → Nat → Option Nat) (s : Store) {σ : Type} (h : RH σ) (st : σ) :
    eachAll (c.withAllocs d i) s h st = eachAll c s h st := by
  have : ∀ L st, eachIdx (c.withAllocs d i) s h L st = eachIdx c s h L st := by
    intro L
    induction L with
    | nil => intro st; rfl
    | cons x xs ih =>
      intro st
      simp only [eachIdx, ih]; rfl
  exact this _ _

theorem resolveInternalRun_withAllocs (c : Cfg) (d i : Nat → Nat → Option Nat) (j : Nat) :
    resolveInternalRun (c.withAllocs d i) j = resolveInternalRun c j := by
  have h3 : ∀ (s : Store) {σ : Type} (h : RH σ) (st : σ) (x y z : Nat),
      each3 (c.withAllocs d i) s x y z h st = each3 c s x y z h st := by
    intro s σ h st x y z
    simp only [each3, eachAll_withAllocs]; rfl
  have : ∀ s q, eachIter (c.withAllocs d i) s q = eachIter c s q := by
    intro s q
    simp only [eachIter, eachLinks, eachAll_withAllocs, h3]; rfl
  simp only [resolveInternalRun, this]; rfl

theorem updates_withAllocs (c : Cfg) (d i : Nat → Nat → Option Nat) (s : Store) {k : Call} (hk : k ≠ .create) :
    updates (c.withAllocs d i) s k = updates c s k := by
  rw [updates_eq, updates_eq]
  cases k with
  | create => exact absurd rfl hk
  | update j a b => rfl
  | delete j =>
    have : dropRun (c.withAllocs d i) j = dropRun c j := by
      funext s; simp only [dropRun, releaseRun_withAllocs]; rfl
    simp only [callRun, this, resolveInternalRun_withAllocs]; rfl

theorem unwrapped {call : Option (Out Store (Nat × Flow) Flow)} {o : Out Store Unit Nat}
    (h : (call.map Links.unwrapW).map Links.resultIndex = some o) : ∃ o', call = some o' ∧ o'.st = o.st := by
  cases call with
  | none => simp at h
  | some o' =>
    refine ⟨o', rfl, ?_⟩
    simp only [Option.map_some, Option.some.injEq] at h
    rw [← h]; rfl

theorem detachEnd_allocated {c : Cfg} {d : Side} {e i : Nat} {s s' : Store} (h : detachEnd c d e i s = some s') :
    s'.hdr.allocated = s.hdr.allocated := by
  unfold detachEnd detachInt detachExt at h
  split at h
  · cases h; rfl
  · cases hu : isUnused s e with
    | none => rw [hu] at h; cases h
    | some v =>
      rw [hu] at h
      simp only [Option.bind_some] at h
      split at h
      · obtain ⟨p, -, rfl⟩ := Option.map_eq_some_iff.1 h; cases d <;> rfl
      · split at h
        · obtain ⟨p, -, rfl⟩ := Option.map_eq_some_iff.1 h; cases d <;> rfl
        · cases h

theorem attachEnd_allocated {c : Cfg} {d : Side} {v : Bool} {e i : Nat} {s s' : Store}
    (h : attachEnd c d v e i s = some s') : s'.hdr.allocated = s.hdr.allocated := by
  unfold attachEnd attachInt attachExt at h
  split at h
  · cases h; rfl
  · split at h
    · obtain ⟨p, -, rfl⟩ := Option.map_eq_some_iff.1 h; cases d <;> rfl
    · split at h
      · obtain ⟨p, -, rfl⟩ := Option.map_eq_some_iff.1 h; cases d <;> rfl
      · cases h

theorem relink_allocated {c : Cfg} {s s' : Store} {l : Link} {i a b : Nat} (h : relink c s l i a b = some s') :
    s'.hdr.allocated = s.hdr.allocated := by
  simp only [relink, Option.bind_eq_some_iff] at h
  obtain ⟨s1, h1, s2, h2, v, -, w, -, s3, h3, s4, h4, h5⟩ := h
  rw [attachEnd_allocated h5, attachEnd_allocated h4]
  have : s3.hdr.allocated = s2.hdr.allocated := by
    unfold setPair at h3; split at h3 <;> cases h3; rfl
  rw [this, detachEnd_allocated h2, detachEnd_allocated h1]

/-- What a deletion of an existing link costs: two updates for each link found as its user and side, seven, and two for
each slot released besides. -/
theorem At.delete_len (hc : CfgOK c) {s : Store} {free : List Nat} {f : Filed} (h : At c s free f) {i : Nat}
    (hl : f.view i ≠ none) (hg : f.Allows (.delete i)) {o : Out Store Unit Nat} (ho : (links c).delete s i = some o) :
    ∃ K1 K2 : List Nat, K1.Nodup ∧ K2.Nodup ∧
      (∀ k, k ∈ K1 ↔ k ≠ i ∧ f.view.Refers .src k i ∧ ¬ f.lost .src k) ∧
      (∀ k, k ∈ K2 ↔ k ≠ i ∧ f.view.Refers .tgt k i ∧ ¬ f.lost .tgt k) ∧
      (i < s.hdr.allocated → updates c s (.delete i) = 7 + 2 * K1.length + 2 * K2.length ∧
        o.st.hdr.allocated = s.hdr.allocated) ∧
      (i = s.hdr.allocated → updates c s (.delete i) + 2 * (o.st.hdr.allocated + 1) =
        7 + 2 * K1.length + 2 * K2.length + 2 * s.hdr.allocated ∧ o.st.hdr.allocated < s.hdr.allocated) := by
  have hi := h.live.1 hl
  have hi0 : i ≠ 0 := by have := hi.1; omega
  obtain ⟨hp, hh⟩ := hg
  have hf : ∀ d k, FiledAt (fun d k => IntRef s free d k ∧ ¬ f.lost d k) s i d k ↔
      k ≠ i ∧ f.view.Refers d k i ∧ ¬ f.lost d k := by
    intro d k
    rw [h.refers]
    constructor
    · rintro ⟨⟨a1, a2⟩, a3, a4⟩; exact ⟨a3, ⟨a1.1, a4⟩, a2⟩
    · rintro ⟨a3, ⟨a1, a4⟩, a2⟩
      exact ⟨⟨⟨a1, by rw [a4]; exact hi0, by rw [a4]; exact hi⟩, a2⟩, a3, a4⟩
  have huu : ∀ d k, FiledAt (fun d k => IntRef s free d k ∧ ¬ f.lost d k) s i d k → ∀ j,
      (IntRef s free d j ∧ ¬ f.lost d j) → j ≠ k → s.data j ≠ s.data k := by
    intro d k hk j hj hjk heq
    obtain ⟨a1, a2, a3⟩ := (hf d k).1 hk
    exact hj.2 (h.single hk.1.1.1 (hh d k a1 a2 a3) (by rw [hk.2.2]; exact hi0) hj.1.1 hjk heq)
  obtain ⟨K1, K2, n1, n2, m1, m2, hlen⟩ := resolveInternal_len hc h.net h.exact hi huu
  obtain ⟨s0, r1, r2, r3, r4, r5⟩ := resolveInternal_gen hc h.net h.exact hi huu
  obtain ⟨o', e1, e2⟩ := unwrapped ho
  have hrun : (callRun c (.delete i) s).2 = some o.st := by
    rw [call_run c s (.delete i) _ _]
    show (deleteLinks c s [i] _ _).map _ = _
    have e1 : deleteLinks c s [i] _ _ = some o' := e1
    rw [e1, ← e2]; rfl
  have hget : getLink c s i = some (some (s.linkAt i)) := by rw [getLink_eq hc h.net h.exact, if_pos hi]
  refine ⟨K1, K2, n1, n2, fun k => (m1 k).trans (hf _ _), fun k => (m2 k).trans (hf _ _), ?_⟩
  rw [updates_eq]
  simp only [callRun] at hrun ⊢
  rw [Run.read_eq (f := (getLink c · i)) hget] at hrun ⊢
  have r1' : (resolveInternalRun c i s).2 = some s0 := by rw [resolveInternal_run]; exact r1
  simp only [Run.seq_2, r1', Option.bind_some] at hrun
  rw [Run.len_seq r1', hlen]
  have hl0 : ∀ k, LiveIn s0 free k ↔ LiveIn s free k := by intro k; simp only [LiveIn, r5]
  have hg0 : getLink c s0 i = some (some (s0.linkAt i)) := by
    rw [getLink_eq hc r2, if_pos ((hl0 i).2 hi)]
    intro e he hs
    rw [r3] at hs
    rcases h.exact e ((hl0 e).1 he) hs with x | x
    · exact Classical.byCases (p := FiledAt _ s i .tgt e) (fun hus => Or.inr (Or.inr hus)) fun hus => Or.inl ⟨x, hus⟩
    · exact Or.inr (Or.inl x)
  rw [Run.read_eq (f := (getLink c · i)) hg0] at hrun ⊢
  simp only [Run.seq_2] at hrun ⊢
  cases h1 : (relinkRun c (s0.linkAt i) i 0 0 s0).2 with
  | none => rw [h1] at hrun; cases hrun
  | some s1 =>
    rw [h1, Option.bind_some] at hrun
    rw [Run.len_seq h1, relinkRun_is c _ i 0 0 s0 s1 h1]
    have ha1 : s1.hdr.allocated = s.hdr.allocated := by
      rw [relink_run] at h1
      rw [relink_allocated h1, r5]
    have hd := dropRun_len c i hrun
    rw [ha1] at hd
    constructor
    · intro hlt
      refine ⟨by have := hd.1 hlt; omega, ?_⟩
      unfold dropRun at hrun
      rw [if_pos (by rw [ha1]; exact hlt), Run.upd_2] at hrun
      rw [← ha1]
      unfold unusedAttachFirst at hrun
      split at hrun
      · cases hrun
      · obtain ⟨p, -, e⟩ := Option.map_eq_some_iff.1 hrun
        rw [← e]; rfl
    · intro heq
      have := hd.2 heq
      omega

end Verif.Split

namespace Verif.Split.Props
open Verif Verif.Split

variable {c : Cfg}

/-- Reference `d` of link `k` is found at an existing link. -/
def Here (f : Filed) (d : Side) (k : Nat) : Prop := ∃ e, e ≠ 0 ∧ f.view.Refers d k e ∧ f.view e ≠ none ∧ ¬ f.lost d k

theorem here_create {f : Filed} {i : Nat} (hv : f.view i = none) {d : Side} {k : Nat} (h : Here (f.create i) d k) :
    Here f d k := by
  obtain ⟨e, h0, hr, he, hl⟩ := h
  have hki : k ≠ i := by
    rintro rfl
    obtain ⟨p, hp, hpe⟩ := (refers_iff _ _ _ _).1 hr
    simp only [Filed.create, View.set, if_true, Option.some.injEq] at hp
    subst hp
    exact h0 (hpe.symm.trans (by cases d <;> rfl))
  have hr' : f.view.Refers d k e := by
    rw [refers_iff] at hr ⊢
    simpa [Filed.create, View.set, hki] using hr
  refine ⟨e, h0, hr', ?_, fun x => hl (.inl x)⟩
  have hei : e ≠ i := by rintro rfl; exact hl (.inr hr')
  simpa [Filed.create, View.set, hei] using he

theorem here_update {f : Filed} {i a b : Nat} (hv : f.view i ≠ none) {d : Side} {k : Nat} (hk : k ≠ i)
    (h : Here (f.update i a b) d k) : Here f d k := by
  obtain ⟨e, h0, hr, he, hl⟩ := h
  refine ⟨e, h0, ?_, ?_, fun x => hl (.inl ⟨hk, x⟩)⟩
  · rw [refers_iff] at hr ⊢
    simpa [Filed.update, View.set, hk] using hr
  · by_cases hei : e = i
    · subst hei; exact hv
    · simpa [Filed.update, View.set, hei] using he

theorem here_delete {f : Filed} {i : Nat} {d : Side} {k : Nat} (h : Here (f.delete i) d k) :
    Here f d k ∧ k ≠ i ∧ ¬ f.view.Refers d k i := by
  obtain ⟨e, h0, hr, he, hl⟩ := h
  have hki : k ≠ i := by
    rintro rfl
    obtain ⟨p, hp, -⟩ := (refers_iff _ _ _ _).1 hr
    simp [Filed.delete, View.del] at hp
  have hei : e ≠ i := by rintro rfl; simp [Filed.delete, View.del] at he
  have hr' : f.view.Refers d k e := by
    rw [refers_iff] at hr ⊢
    simpa [Filed.delete, View.del, hki] using hr
  have hn : ¬ f.view.Refers d k i := by
    intro hr2
    rw [refers_iff] at hr' hr2
    obtain ⟨p, hp, e1⟩ := hr'
    obtain ⟨q, hq, e2⟩ := hr2
    rw [hp] at hq; cases hq
    exact hei (e1.symm.trans e2)
  exact ⟨⟨e, h0, hr', by simpa [Filed.delete, View.del, hei] using he, fun x => hl ⟨x, hki, hn⟩⟩, hki, hn⟩

open Classical in
/-- Part of a list. -/
noncomputable def part (P : Nat → Prop) (L : List Nat) : List Nat := L.filter fun k => decide (P k)

theorem mem_part {P : Nat → Prop} {L : List Nat} {k : Nat} : k ∈ part P L ↔ k ∈ L ∧ P k := by
  simp [part]

theorem part_nodup {P : Nat → Prop} {L : List Nat} (h : L.Nodup) : (part P L).Nodup := h.filter _

theorem part_le (P : Nat → Prop) (L : List Nat) : (part P L).length ≤ L.length := List.length_filter_le _ _

theorem part_disjoint {P Q : Nat → Prop} : ∀ (L : List Nat), (∀ k ∈ L, P k → ¬ Q k) →
    (part P L).length + (part Q L).length ≤ L.length
  | [], _ => by simp [part]
  | x :: xs, h => by
    have ih := part_disjoint xs fun k hk => h k (by simp [hk])
    have hx := h x (by simp)
    unfold part at ih ⊢
    by_cases hp : P x
    · simp only [List.filter_cons, hp, hx hp, decide_true, decide_false, if_true, List.length_cons,
        Bool.false_eq_true, if_false]; omega
    · by_cases hq : Q x
      · simp only [List.filter_cons, hp, hq, decide_true, decide_false, if_true, List.length_cons,
          Bool.false_eq_true, if_false]; omega
      · simp only [List.filter_cons, hp, hq, decide_false, List.length_cons, Bool.false_eq_true, if_false]; omega

theorem length_le_of_subset : ∀ {K L : List Nat}, K.Nodup → (∀ k ∈ K, k ∈ L) → K.length ≤ L.length
  | [], _, _, _ => Nat.zero_le _
  | x :: xs, L, hK, h => by
    rw [List.nodup_cons] at hK
    have hx := h x (by simp)
    have := length_le_of_subset (L := L.erase x) hK.2 fun k hk =>
      (List.mem_erase_of_ne (by rintro rfl; exact hK.1 hk)).2 (h k (by simp [hk]))
    rw [List.length_erase_of_mem hx] at this
    have := List.length_pos_of_mem hx
    simp only [List.length_cons]; omega

/-- The lists of references that are found at existing links. -/
structure Held (f : Filed) (L : Side → List Nat) : Prop where
  nodup : ∀ d, (L d).Nodup
  mem : ∀ d k, k ∈ L d ↔ Here f d k

theorem held_sub {f f' : Filed} {L : Side → List Nat} (h : Held f L) (hs : ∀ d k, Here f' d k → Here f d k) :
    Held f' fun d => part (Here f' d) (L d) :=
  ⟨fun d => part_nodup (h.nodup d), fun d k => by rw [mem_part, h.mem]; exact ⟨fun x => x.2, fun x => ⟨hs d k x, x⟩⟩⟩

/-- The cost of one call, up to the references it moves and the slots it releases. -/
theorem call_cost (hc : CfgOK c) {s : Store} {f : Filed} {free : List Nat} (h : At c s free f)
    {d i : Nat → Nat → Option Nat} (hd : ExactAlloc d) (hi : ExactAlloc i) {k : Call}
    (hg : k = .create → GrowTogether (c.withAllocs d i) s) (hk : f.Allows k) {o : Out Store Unit Nat}
    (ho : step c d i s k = some o) {L : Side → List Nat} (hL : Held f L) :
    ∃ L', Held (f.after k o.res) L' ∧
      updates (c.withAllocs d i) s k + 2 * ((L' .src).length + (L' .tgt).length) + 2 * o.st.hdr.allocated ≤
        10 + 2 * ((L .src).length + (L .tgt).length) + 2 * s.hdr.allocated := by
  cases k with
  | create =>
    have hc' := hc.withAllocs hd hi
    have hw := h.withAllocs d i
    have hlen := createRun_len hc' hw.net hw.exact (fun _ _ hk => hk.1.2.2)
    have hup : updates (c.withAllocs d i) s .create ≤ 4 := by rw [updates_eq]; exact hlen
    have ho : (links (c.withAllocs d i)).create s = some o := ho
    have hu := createLinks_uniform (c.withAllocs d i) s []
    have hal : (∃ e, o.res = .error e ∧ o.st = s) ∨ (∃ x, o.res = .ok x ∧ f.view x = none ∧
        o.st.hdr.allocated ≤ s.hdr.allocated + 1) := by
      have hnone : ∀ {i}, ¬ LiveIn s free i → f.view i = none := fun hl => by rw [h.view, if_neg hl]
      rcases createLinks_gen hc' hw.net hw.exact (fun _ _ hk => hk.1.2.2) [] recH none with
        ⟨x, rest, s', hf, h1, h2, h3, h4⟩ | ⟨hf, h1, h2⟩ | ⟨hf, h1, h2, h3, h4⟩ | ⟨hf, h1, h2, h3, h4, h5⟩ |
        ⟨hf, h1, h2, h3, h4, h5, h6⟩ | ⟨hf, h1, s', h2, h3, h4⟩
      · rw [create_of_succeeds (hu.succeeds h1)] at ho
        cases ho; exact .inr ⟨x, rfl, hnone h2.fresh, by show s'.hdr.allocated ≤ _; omega⟩
      · rw [Links.create_err (hu.fails h2)] at ho; cases ho; exact .inl ⟨_, rfl, rfl⟩
      · rw [Links.create_err (hu.fails h4)] at ho; cases ho; exact .inl ⟨_, rfl, rfl⟩
      · exact absurd h4 (hg rfl h3)
      · rw [create_none (hu.noneAll h6)] at ho; cases ho
      · rw [create_of_succeeds (hu.succeeds h2)] at ho
        cases ho; exact .inr ⟨_, rfl, hnone h3.fresh, by show s'.hdr.allocated ≤ _; omega⟩
    rcases hal with ⟨e, h1, h2⟩ | ⟨x, h1, h2, h3⟩
    · rw [h1, h2]
      exact ⟨L, hL, by omega⟩
    · rw [h1]
      refine ⟨_, held_sub hL (f' := f.create x) fun d k => here_create h2, ?_⟩
      have := part_le (Here (f.create x) .src) (L .src)
      have := part_le (Here (f.create x) .tgt) (L .tgt)
      omega
  | update j a b =>
    have ho : (links c).update s j a b = some o := ho
    rw [updates_withAllocs c d i s (by simp)]
    have hup : updates c s (.update j a b) ≤ 6 := by
      rw [updates_eq]
      refine Run.le_read (fun x => ?_) s
      cases x with
      | none => intro s; simp [Run.done]
      | some l => exact relinkRun_le c l j a b
    rcases h.update hc hk with ⟨h1, s', h2, -⟩ | ⟨h1, h2⟩
    · rw [h2] at ho
      cases ho
      let L' : Side → List Nat := fun d => part (Here (f.update j a b) d) (j :: part (· ≠ j) (L d))
      have hn : ∀ d, (j :: part (· ≠ j) (L d)).Nodup := fun d =>
        List.nodup_cons.2 ⟨fun x => (mem_part.1 x).2 rfl, part_nodup (hL.nodup d)⟩
      refine ⟨L', ⟨fun d => part_nodup (hn d), fun d k => ?_⟩, ?_⟩
      · simp only [L', mem_part, List.mem_cons, hL.mem]
        constructor
        · exact fun x => x.2
        · intro x
          refine ⟨?_, x⟩
          by_cases hkj : k = j
          · exact .inl hkj
          · exact .inr ⟨here_update h1 hkj x, hkj⟩
      · have hle : ∀ d, (L' d).length ≤ (L d).length + 1 := fun d => by
          refine Nat.le_trans (part_le _ _) ?_
          rw [List.length_cons]
          exact Nat.succ_le_succ (part_le _ _)
        have := hle .src
        have := hle .tgt
        have hal : s'.hdr.allocated = s.hdr.allocated := by
          obtain ⟨s'', g1, -, g2⟩ := h.updated hc (h.live.1 h1) hk [] j [] recH none
          have hS := (updateLinks_uniform c s [j] [j, a, b]).succeeds g1
          have e := Links.update_ok (D := links c) (s := s) (i := j) (x := a) (y := b) hS
          rw [e] at h2; cases h2; exact g2
        show _ + _ + 2 * s'.hdr.allocated ≤ _
        omega
    · rw [h2] at ho
      cases ho
      exact ⟨L, hL, by show _ + _ + 2 * s.hdr.allocated ≤ _; omega⟩
  | delete j =>
    have ho : (links c).delete s j = some o := ho
    rw [updates_withAllocs c d i s (by simp)]
    rcases h.delete hc hk with ⟨h1, s', h2, -⟩ | ⟨h1, h2⟩
    · obtain ⟨K1, K2, n1, n2, m1, m2, g1, g2⟩ := h.delete_len hc h1 hk ho
      rw [h2] at ho
      cases ho
      have hlive := h.live.1 h1
      have hj0 : j ≠ 0 := by have := hlive.1; omega
      refine ⟨_, held_sub hL (f' := f.delete j) fun d k x => (here_delete x).1, ?_⟩
      have key : ∀ d (K : List Nat), K.Nodup → (∀ k, k ∈ K ↔ k ≠ j ∧ f.view.Refers d k j ∧ ¬ f.lost d k) →
          (part (Here (f.delete j) d) (L d)).length + K.length ≤ (L d).length := by
        intro d K hn hm
        refine Nat.le_trans (Nat.add_le_add_left ?_ _) (part_disjoint (Q := fun k => f.view.Refers d k j) (L d)
          fun k _ x => (here_delete x).2.2)
        refine length_le_of_subset hn fun k hk => ?_
        obtain ⟨a1, a2, a3⟩ := (hm k).1 hk
        exact mem_part.2 ⟨(hL.mem d k).2 ⟨j, hj0, a2, h1, a3⟩, a2⟩
      have q1 := key .src K1 n1 m1
      have q2 := key .tgt K2 n2 m2
      have hjle := hlive.2.1
      simp only at g1 g2 ⊢
      by_cases hlt : j < s.hdr.allocated
      · obtain ⟨z1, z2⟩ := g1 hlt
        omega
      · have := g2 (by omega)
        omega
    · rw [h2] at ho
      cases ho
      have h0 : updates c s (.delete j) = 0 := by
        rw [updates_eq]
        have hn : ¬ LiveIn s free j := fun hl => h.live.2 hl h1
        have hget : getLink c s j = some none := by rw [getLink_eq hc h.net h.exact, if_neg hn]
        simp only [callRun]
        rw [Run.read_eq (f := (getLink c · j)) hget]; rfl
      exact ⟨L, hL, by show _ + _ + 2 * s.hdr.allocated ≤ _; omega⟩

theorem Spent.history {s : Store} {f : Filed} {n w : Nat} (h : Spent c s f n w) : LostHistory c s f := by
  induction h with
  | fresh d i hd hi h => exact .fresh d i hd hi h
  | call d i k _ hd hi hg hk ho ih => exact .call d i k ih hd hi hg hk ho
  | reopen d i a b _ hd hi h hlt ih => exact .reopen d i a b ih hd hi h hlt

/-- **C57**, split store: over any history, the calls make at most ten updates each on average, one call of the `trees`
crate counting as one update, although a deletion moves every user of the deleted link to another tree. -/
theorem C57_split_amortised (hc : CfgOK c) {s : Store} {f : Filed} {n w : Nat} (h : Spent c s f n w) : w ≤ 10 * n := by
  suffices ∃ L, Held f L ∧ w + 2 * ((L .src).length + (L .tgt).length) + 2 * s.hdr.allocated ≤ 10 * n by
    obtain ⟨L, -, h⟩ := this; omega
  induction h with
  | fresh d i hd hi h =>
    refine ⟨fun _ => [], ⟨fun _ => List.nodup_nil, fun d k => ?_⟩, ?_⟩
    · simp only [List.not_mem_nil, false_iff]
      rintro ⟨e, -, hr, -⟩
      obtain ⟨p, hp, -⟩ := (refers_iff _ _ _ _).1 hr
      cases hp
    · have := (init_fresh (hc.withAllocs hd hi) h).2
      simp only [List.length_nil]
      omega
  | @call d i k s f n w o h hd hi hg hk ho ih =>
    obtain ⟨L, h1, h2⟩ := ih
    obtain ⟨free, hat⟩ := lost_history hc (Spent.history h)
    obtain ⟨L', h3, h4⟩ := call_cost hc hat hd hi hg hk ho h1
    exact ⟨L', h3, by omega⟩
  | @reopen d i a b s s' f n w h hd hi hin hlt ih =>
    obtain ⟨L, h1, h2⟩ := ih
    obtain ⟨r, -, -, rfl⟩ := init_ok (hc.withAllocs hd hi) hin
    exact ⟨L, h1, h2⟩

/-- **C57**, split store, one deletion: two updates for each user that is found and each side, seven more, and two for each
unused slot at the end that it gives back besides its own. -/
theorem C57_split_delete_cost (hc : CfgOK c) {s : Store} {f : Filed} (h : LostHistory c s f) {i : Nat}
    (hl : f.view i ≠ none) (hg : f.Allows (.delete i)) :
    ∃ (K1 K2 : List Nat) (s' : Store), (links c).delete s i = some ⟨.ok 0, s', ()⟩ ∧ K1.Nodup ∧ K2.Nodup ∧
      (∀ k, k ∈ K1 ↔ k ≠ i ∧ f.view.Refers .src k i ∧ ¬ f.lost .src k) ∧
      (∀ k, k ∈ K2 ↔ k ≠ i ∧ f.view.Refers .tgt k i ∧ ¬ f.lost .tgt k) ∧
      (i < s.hdr.allocated → updates c s (.delete i) = 7 + 2 * K1.length + 2 * K2.length) ∧
      (i = s.hdr.allocated → updates c s (.delete i) =
        7 + 2 * K1.length + 2 * K2.length + 2 * (s.hdr.allocated - 1 - s'.hdr.allocated)) := by
  obtain ⟨free, hat⟩ := lost_history hc h
  rcases hat.delete hc hg with ⟨-, s', h2, -⟩ | ⟨h1, -⟩
  · obtain ⟨K1, K2, n1, n2, m1, m2, g1, g2⟩ := hat.delete_len hc hl hg h2
    refine ⟨K1, K2, s', h2, n1, n2, m1, m2, fun x => (g1 x).1, fun x => ?_⟩
    have hs := g2 x
    simp only at hs
    omega
  · exact absurd h1 hl

/-- Every history has a cost. -/
theorem LostHistory.spent {s : Store} {f : Filed} (h : LostHistory c s f) : ∃ n w, Spent c s f n w := by
  induction h with
  | fresh d i hd hi h => exact ⟨0, 0, .fresh d i hd hi h⟩
  | call d i k _ hd hi hg hk ho ih => obtain ⟨n, w, h⟩ := ih; exact ⟨_, _, .call d i k h hd hi hg hk ho⟩
  | reopen d i a b _ hd hi h hlt ih => obtain ⟨n, w, h'⟩ := ih; exact ⟨n, w, .reopen d i a b h' hd hi h hlt⟩

/-- A history that reuses an index, with its cost. -/
example : ∃ f n w, Spent cfg0 sLost f n w ∧ w ≤ 10 * n := by
  obtain ⟨f, hf, -⟩ := sLost_history
  obtain ⟨n, w, h⟩ := LostHistory.spent hf
  exact ⟨f, n, w, h, C57_split_amortised cfg0_ok h⟩

/-- Deleting link 1 of `sLost`, which has link 2 as user by its source and link 4 by its target, makes eleven updates;
deleting link 7, at the end and without users, seven. -/
example : allowsB cfg0 sLost [(.src, 6), (.src, 4)] (.delete 1) = true ∧ sLost.hdr.allocated = 7 ∧
    updates cfg0 sLost (.delete 1) = 11 ∧ updates cfg0 sLost (.delete 7) = 7 := by decide +kernel

end Verif.Split.Props
