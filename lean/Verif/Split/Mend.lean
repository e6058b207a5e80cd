import Verif.Split.Reach
import Verif.Mend

/-!
# The split store over a crate that keeps the weaker contract only

As long as no two links store the same pair, the store over such a crate does what the store over the mended crate does.
(Helper for C93.)
-/

namespace Verif.Split
open Verif

/-- The store with the mended crate. -/
noncomputable def Cfg.mend (c : Cfg) : Cfg := { c with trees := Verif.mend c.trees }

/-- `CfgOK` with the weaker contract of the crate. -/
structure CfgOK₀ (c : Cfg) : Prop where
  null_eq : c.consts.null = 0
  index_eq : c.consts.indexPart = 0
  source_eq : c.consts.sourcePart = 1
  target_eq : c.consts.targetPart = 2
  start_eq : c.consts.internalStart = 1
  end_lt_any : c.consts.internalEnd < c.consts.any
  end_le : c.consts.internalEnd ≤ c.maxT
  step_pos : 2 ≤ c.step
  trees : LawfulTrees₀ c.trees
  dalloc_eq : ∀ len req n, c.dalloc len req = some n → n = req
  ialloc_eq : ∀ len req n, c.ialloc len req = some n → n = req

variable {c : Cfg}

theorem CfgOK.weaken (h : CfgOK c) : CfgOK₀ c :=
  ⟨h.null_eq, h.index_eq, h.source_eq, h.target_eq, h.start_eq, h.end_lt_any, h.end_le, h.step_pos, h.trees.weaken, h.dalloc_eq,
   h.ialloc_eq⟩

theorem CfgOK₀.mend (h : CfgOK₀ c) : CfgOK c.mend :=
  ⟨h.null_eq, h.index_eq, h.source_eq, h.target_eq, h.start_eq, h.end_lt_any, h.end_le, h.step_pos, mend_lawful h.trees, h.dalloc_eq,
   h.ialloc_eq⟩

theorem CfgOK₀.withAllocs (hc : CfgOK₀ c) {d i : Nat → Nat → Option Nat} (hd : ExactAlloc d) (hi : ExactAlloc i) :
    CfgOK₀ (c.withAllocs d i) :=
  ⟨hc.null_eq, hc.index_eq, hc.source_eq, hc.target_eq, hc.start_eq, hc.end_lt_any, hc.end_le, hc.step_pos, hc.trees, hd, hi⟩

/-! ### Reads do not use the crate -/

theorem view_mend (s : Store) : (links c.mend).view s = (links c).view s := by
  funext i
  simp only [Links.view]
  have e : (links c.mend).getLink s i = (links c).getLink s i := by
    show getLink c.mend s i = getLink c s i
    simp only [getLink]
    rfl
  rw [e]

theorem init_mend (d i : Nat → Nat → Option Nat) (s : Store) : init (c.mend.withAllocs d i) s = init (c.withAllocs d i) s := rfl

theorem eachIdx_mend {σ : Type} (s : Store) (h : RH σ) : ∀ (l : List Nat) (st : σ), eachIdx c.mend s h l st = eachIdx c s h l st
  | [], _ => rfl
  | i :: l, st => by
    have e : getLink c.mend s i = getLink c s i := rfl
    simp only [eachIdx, eachIdx_mend s h l, e]

theorem eachAll_mend {σ : Type} (s : Store) (h : RH σ) (st : σ) : eachAll c.mend s h st = eachAll c s h st := eachIdx_mend s h _ st

theorem eachLinks_mend {σ : Type} (s : Store) (q : List Nat) (h : RH σ) (st : σ) : eachLinks c.mend s q h st = eachLinks c s q h st := by
  have e3 : ∀ i x y st, each3 c.mend s i x y h st = each3 c s i x y h st := by
    intro i x y st
    simp only [each3, eachAll_mend]
    rfl
  simp only [eachLinks, eachAll_mend, e3]
  rfl

theorem visits_mend (s : Store) (q : List Nat) (L : List Link) : (links c.mend).Visits s q L = (links c).Visits s q L := by
  have e : ∀ σ h st, (links c.mend).eachLinks (σ := σ) s q h st = (links c).eachLinks s q h st := fun σ h st => eachLinks_mend s q h st
  simp only [Links.Visits, e]

theorem eachIter_mend (s : Store) (q : List Nat) : eachIter c.mend s q = eachIter c s q := by
  simp only [eachIter, eachLinks_mend]
  rfl

theorem releaseTop_mend : ∀ (f : Nat) (s : Store), releaseTop c.mend f s = releaseTop c f s
  | 0, _ => rfl
  | f + 1, s => by
    simp only [releaseTop]
    have e : ∀ s i, unusedDetach c.mend s i = unusedDetach c s i := fun _ _ => rfl
    simp only [e, releaseTop_mend f]

/-! ### One tree operation -/

/-- The pairs of these links differ. -/
def Differ (s : Store) (P : Nat → Prop) : Prop := ∀ x y, P x → P y → x ≠ y → s.data x ≠ s.data y

theorem Differ.sub {s s' : Store} {P Q : Nat → Prop} (h : Differ s P) (hq : ∀ k, Q k → P k) (hs : s'.data = s.data) : Differ s' Q := by
  intro x y hx hy
  rw [hs]; exact h x y (hq x hx) (hq y hy)

theorem apart_int {s : Store} {d : Side} {a : Nat} {l : List Nat} (ha : ∀ k ∈ l, endOf d (s.data k) = a)
    (h : ∀ x ∈ l, ∀ y ∈ l, x ≠ y → s.data x ≠ s.data y) : Apart (s.ltI d) (s.gtI d) l := by
  intro x hx y hy hxy
  have hne := h x hx y hy hxy
  rw [ne_eq, pair_eq d, ha x hx, ha y hy] at hne
  simp only [Store.ltI, Store.gtI, decide_eq_true_eq]
  omega

theorem apart_ext {s : Store} {d : Side} {l : List Nat} (h : ∀ x ∈ l, ∀ y ∈ l, x ≠ y → s.data x ≠ s.data y) :
    Apart (s.cmpE (lt4 d)) (s.cmpE (gt4 d)) l := by
  intro x hx y hy hxy
  have hne := h x hx y hy hxy
  rw [ne_eq, pair_eq d] at hne
  simp only [Store.cmpE, gt4_eq, lt4_iff]
  omega

theorem detachInt_mend {s : Store} {d : Side} {I E : Nat → Prop} {i a : Nat} (h : Forest c.mend s d I E) (ha0 : a ≠ 0)
    (hd : Differ s I) : detachInt c d s a i = detachInt c.mend d s a i := by
  obtain ⟨ti, te, h1, h2, h3, h4, h5, h6, h7⟩ := h
  simp only [detachInt]
  split
  · refine congrArg _ (mend_detach (X := c.trees) (h1 a ha0) (apart_int (a := a) ?_ ?_)).symm
    · intro k hk; exact ((h3 a k ha0).1 hk).2
    · intro x hx y hy; exact hd x y ((h3 a x ha0).1 hx).1 ((h3 a y ha0).1 hy).1
  · rfl

theorem attachInt_mend {s : Store} {d : Side} {I E : Nat → Prop} {i a : Nat} (h : Forest c.mend s d I E) (ha0 : a ≠ 0)
    (ha : endOf d (s.data i) = a) (hd : Differ s fun k => I k ∨ k = i) : attachInt c d s a i = attachInt c.mend d s a i := by
  obtain ⟨ti, te, h1, h2, h3, h4, h5, h6, h7⟩ := h
  have hm : ∀ k ∈ i :: (ti a).toList, (I k ∨ k = i) ∧ endOf d (s.data k) = a := by
    intro k hk
    rcases List.mem_cons.1 hk with rfl | hk
    · exact ⟨.inr rfl, ha⟩
    · exact ⟨.inl ((h3 a k ha0).1 hk).1, ((h3 a k ha0).1 hk).2⟩
  simp only [attachInt]
  split
  · exact congrArg _ (mend_attach (X := c.trees) (h1 a ha0) (apart_int (a := a) (fun k hk => (hm k hk).2)
      fun x hx y hy => hd x y (hm x hx).1 (hm y hy).1)).symm
  · rfl

theorem detachExt_mend {s : Store} {d : Side} {I E : Nat → Prop} {i : Nat} (h : Forest c.mend s d I E) (hd : Differ s E) :
    detachExt c d s i = detachExt c.mend d s i := by
  obtain ⟨ti, te, h1, h2, h3, h4, h5, h6, h7⟩ := h
  simp only [detachExt]
  exact congrArg _ (mend_detach (X := c.trees) h2 (apart_ext fun x hx y hy => hd x y ((h4 x).1 hx) ((h4 y).1 hy))).symm

theorem attachExt_mend {s : Store} {d : Side} {I E : Nat → Prop} {i : Nat} (h : Forest c.mend s d I E)
    (hd : Differ s fun k => E k ∨ k = i) : attachExt c d s i = attachExt c.mend d s i := by
  obtain ⟨ti, te, h1, h2, h3, h4, h5, h6, h7⟩ := h
  have hm : ∀ k ∈ i :: te.toList, E k ∨ k = i := by
    intro k hk
    rcases List.mem_cons.1 hk with rfl | hk
    · exact .inr rfl
    · exact .inl ((h4 k).1 hk)
  simp only [attachExt]
  exact congrArg _ (mend_attach (X := c.trees) h2 (apart_ext fun x hx y hy => hd x y (hm x hx) (hm y hy))).symm

theorem detachEnd_mend {s : Store} {d : Side} {free : List Nat} {I E : Side → Nat → Prop} {i e : Nat} (h : Net c.mend s free I E)
    (hd : Differ s fun k => I d k ∨ E d k) : detachEnd c d e i s = detachEnd c.mend d e i s := by
  simp only [detachEnd]
  by_cases h0 : e = 0
  · rw [if_pos h0, if_pos h0]
  · rw [if_neg h0, if_neg h0, detachInt_mend (h.forest d) h0 (hd.sub (fun _ => .inl) rfl),
      detachExt_mend (h.forest d) (hd.sub (fun _ => .inr) rfl)]

theorem attachEnd_mend {s : Store} {d : Side} {free : List Nat} {I E : Side → Nat → Prop} {i e : Nat} {v : Bool}
    (h : Net c.mend s free I E) (he : endOf d (s.data i) = e) (hd : e ≠ 0 → Differ s fun k => (I d k ∨ E d k) ∨ k = i) :
    attachEnd c d v e i s = attachEnd c.mend d v e i s := by
  simp only [attachEnd]
  by_cases h0 : e = 0
  · rw [if_pos h0, if_pos h0]
  · rw [if_neg h0, if_neg h0, attachInt_mend (h.forest d) h0 he ((hd h0).sub ?_ rfl),
      attachExt_mend (h.forest d) ((hd h0).sub ?_ rfl)]
    · rintro k (hk | hk)
      · exact .inl (.inr hk)
      · exact .inr hk
    · rintro k (hk | hk)
      · exact .inl (.inl hk)
      · exact .inr hk

/-! ### Update -/

theorem relink_mend (hc : CfgOK₀ c) {s : Store} {free : List Nat} {I E : Side → Nat → Prop} {i : Nat}
    (h : Net c.mend s free I E) (hx : Exact s free I E) (hi : LiveIn s free i)
    (h0 : ∀ d, endOf d (s.data i) = 0 → ¬ I d i ∧ ¬ E d i)
    (h1 : ∀ d, endOf d (s.data i) ≠ 0 → LiveIn s free (endOf d (s.data i)) → I d i)
    (h2 : ∀ d, endOf d (s.data i) ≠ 0 → ¬ LiveIn s free (endOf d (s.data i)) → E d i)
    (hdf : ∀ d, Differ s fun k => I d k ∨ E d k) (a b : Nat)
    (hda : ∀ d, endOf d (a, b) ≠ 0 → ∀ x y, (x ≠ i ∧ (I d x ∨ E d x)) ∨ x = i → (y ≠ i ∧ (I d y ∨ E d y)) ∨ y = i → x ≠ y →
      (if x = i then (a, b) else s.data x) ≠ (if y = i then (a, b) else s.data y)) :
    relink c s ⟨i, (s.data i).1, (s.data i).2⟩ i a b = relink c.mend s ⟨i, (s.data i).1, (s.data i).2⟩ i a b := by
  have hc' := hc.mend
  have hmem : ∀ d, endOf d (s.data i) ≠ 0 → I d i ∨ E d i := by
    intro d hz
    by_cases hl : LiveIn s free (endOf d (s.data i))
    · exact .inl (h1 d hz hl)
    · exact .inr (h2 d hz hl)
  have hu : ∀ d, endOf d (s.data i) ≠ 0 → ∀ k, (LiveIn s free (endOf d (s.data i)) → I d k) →
      (¬ LiveIn s free (endOf d (s.data i)) → E d k) → k ≠ i → s.data k ≠ s.data i := by
    intro d hz k ha hb hki
    refine hdf d k i ?_ (hmem d hz) hki
    by_cases hl : LiveIn s free (endOf d (s.data i))
    · exact .inl (ha hl)
    · exact .inr (hb hl)
  obtain ⟨s1, e1, o1, n1⟩ := detachEnd_gen hc' h (d := .src) (i := i) rfl (h0 .src) (h1 .src) (h2 .src)
    (hx _) (hu .src)
  have l1 := fun k => liveIn_only (free := free) o1 k
  obtain ⟨s2, e2, o2, n2⟩ := detachEnd_gen hc' n1 (d := .tgt) (i := i) (e := (s.data i).2)
    (by rw [o1.data]; rfl)
    (fun hz => ⟨fun x => (h0 .tgt hz).1 x.1, fun x => (h0 .tgt hz).2 x.1⟩)
    (fun hz hl => ⟨h1 .tgt hz ((l1 _).1 hl), by simp⟩)
    (fun hz hl => ⟨h2 .tgt hz (fun x => hl ((l1 _).2 x)), by simp⟩)
    (fun hl hs => by
      rw [o1.data] at hs
      rcases hx _ ((l1 _).1 hl) hs with x | x
      · exact Or.inl ⟨x, by simp⟩
      · exact Or.inr ⟨x, by simp⟩)
    (fun hz k ha hb hki => by
      rw [o1.data]
      exact hu .tgt hz k (fun x => (ha ((l1 _).2 x)).1) (fun x => (hb fun y => x ((l1 _).1 y)).1) hki)
  have q1 : detachEnd c .src (s.data i).1 i s = some s1 := (detachEnd_mend h (hdf .src)).trans e1
  have e1 : detachEnd c.mend .src (s.data i).1 i s = some s1 := e1
  have q2 : detachEnd c .tgt (s.data i).2 i s1 = some s2 :=
    (detachEnd_mend n1 ((hdf .tgt).sub (by rintro k (hk | hk); exact .inl hk.1; exact .inr hk.1) o1.data)).trans e2
  have l2 : ∀ k, LiveIn s2 free k ↔ LiveIn s free k := fun k => (liveIn_only o2 k).trans (l1 k)
  have d2 : s2.data = s.data := o2.data.trans o1.data
  have hI2 : ∀ d k, (k ≠ i ∧ I d k) ↔ (I d k ∧ ¬(d = Side.src ∧ k = i)) ∧ ¬(d = Side.tgt ∧ k = i) := by
    intro d k; cases d <;> simp [and_comm]
  have hE2 : ∀ d k, (k ≠ i ∧ E d k) ↔ (E d k ∧ ¬(d = Side.src ∧ k = i)) ∧ ¬(d = Side.tgt ∧ k = i) := by
    intro d k; cases d <;> simp [and_comm]
  have n2 := n2.iff hI2 hE2
  have hlt : ∀ e v, isUnused s2 e = some v → v = false → e < s2.ilen := by
    intro e v hv hf
    by_cases he0 : e = 0
    · have := n2.base.alloc_lt; omega
    · obtain ⟨w, hw, hw2⟩ := isUnused_alloc n2.base (n2.forest .tgt) (n2.live .tgt) he0
      rw [hv] at hw; cases hw
      exact live_lt n2.base (Classical.byContradiction fun x => by
        have := hw2.2 (.inl x); rw [hf] at this; cases this)
  obtain ⟨vs, hvs⟩ := isUnused_some n2.base a
  obtain ⟨vt, hvt⟩ := isUnused_some n2.base b
  have hi2 : LiveIn s2 free i := (l2 i).2 hi
  obtain ⟨s3, e3, n3, hh3, hl3, d3⟩ := setPair_ok n2 hi2 (fun d => ⟨fun x => x.1 rfl, fun x => x.1 rfl⟩) a b
  have d3i : s3.data i = (a, b) := by rw [d3, if_pos rfl]
  have hi3 : LiveIn s3 free i := by
    have : LiveIn s3 free i ↔ LiveIn s2 free i := by simp only [LiveIn, hh3]
    exact this.2 hi2
  have hdf3 : ∀ d, endOf d (a, b) ≠ 0 → Differ s3 fun k => ((k ≠ i ∧ I d k) ∨ (k ≠ i ∧ E d k)) ∨ k = i := by
    intro d hz x y hx hy hxy
    have conv : ∀ k, ((k ≠ i ∧ I d k) ∨ (k ≠ i ∧ E d k)) ∨ k = i → (k ≠ i ∧ (I d k ∨ E d k)) ∨ k = i := by
      rintro k ((hk | hk) | hk)
      · exact .inl ⟨hk.1, .inl hk.2⟩
      · exact .inl ⟨hk.1, .inr hk.2⟩
      · exact .inr hk
    rw [d3, d3, d2]
    exact hda d hz x y (conv x hx) (conv y hy) hxy
  obtain ⟨s4, e4, o4, n4⟩ := attachEnd_gen hc' n3 (d := .src) (i := i) (e := a) (v := vs) hi3
    (by rw [d3i]; rfl) (fun x => x.1 rfl) (fun x => x.1 rfl)
    (by rw [hl3]; exact hlt a vs hvs)
  have q4 : attachEnd c .src vs a i s3 = some s4 :=
    (attachEnd_mend n3 (by rw [d3i]) (hdf3 .src)).trans e4
  have q5 : attachEnd c .tgt vt b i s4 = attachEnd c.mend .tgt vt b i s4 :=
    attachEnd_mend n4 (by rw [o4.data, d3i]; rfl) (fun hz => (hdf3 .tgt hz).sub (by
      rintro k ((hk | hk) | hk)
      · rcases hk with hk | hk
        · exact .inl (.inl hk)
        · exact absurd hk.1 (by simp)
      · rcases hk with hk | hk
        · exact .inl (.inr hk)
        · exact absurd hk.1 (by simp)
      · exact .inr hk) o4.data)
  simp only [relink]
  rw [e1, q1, Option.bind_some, Option.bind_some, e2, q2, Option.bind_some, Option.bind_some, hvs, Option.bind_some, Option.bind_some,
    hvt, Option.bind_some, Option.bind_some, e3, Option.bind_some, Option.bind_some, e4, q4, Option.bind_some, Option.bind_some, q5]

theorem updateLinks_mend (hc : CfgOK₀ c) {s : Store} {free : List Nat} {I E : Side → Nat → Prop}
    (h : Net c.mend s free I E) (hx : Exact s free I E)
    (h0 : ∀ i d, LiveIn s free i → endOf d (s.data i) = 0 → ¬ I d i ∧ ¬ E d i)
    (h1 : ∀ i d, LiveIn s free i → endOf d (s.data i) ≠ 0 → LiveIn s free (endOf d (s.data i)) → I d i)
    (h2 : ∀ i d, LiveIn s free i → endOf d (s.data i) ≠ 0 → ¬ LiveIn s free (endOf d (s.data i)) → E d i)
    (hdf : ∀ d, Differ s fun k => I d k ∨ E d k) {q ch : List Nat}
    (hda : ∀ i a b, q[0]? = some i → ch[1]? = some a → ch[2]? = some b → LiveIn s free i → ∀ d, endOf d (a, b) ≠ 0 →
      ∀ x y, (x ≠ i ∧ (I d x ∨ E d x)) ∨ x = i → (y ≠ i ∧ (I d y ∨ E d y)) ∨ y = i → x ≠ y →
      (if x = i then (a, b) else s.data x) ≠ (if y = i then (a, b) else s.data y)) {σ : Type} (hd : WH σ) (st : σ) :
    updateLinks c s q ch hd st = updateLinks c.mend s q ch hd st := by
  have hg : ∀ i, getLink c s i = _ := getLink_eq hc.mend h hx
  simp only [updateLinks]
  cases hq : q[0]? with
  | none => rfl
  | some i =>
    cases hc1 : ch[1]? with
    | none => rfl
    | some a =>
      cases hc2 : ch[2]? with
      | none => rfl
      | some b =>
        simp only [Option.bind_some, hg, getLink_eq hc.mend h hx]
        by_cases hl : LiveIn s free i
        · simp only [if_pos hl, Store.linkAt, Option.bind_some]
          rw [relink_mend hc h hx hl (h0 i · hl) (h1 i · hl) (h2 i · hl) hdf a b (hda i a b hq hc1 hc2 hl)]
        · simp only [if_neg hl, Option.bind_some]

/-! ### Delete -/

theorem moveOut_mend (hc : CfgOK₀ c) {d : Side} {a : Nat} (ha0 : a ≠ 0) : ∀ (ks : List Nat) {s : Store} {I E : Nat → Prop},
    Forest c.mend s d I E → a < s.ilen → ks.Nodup → (∀ k ∈ ks, k ≠ 0) →
    (∀ k ∈ ks, I k ∧ endOf d (s.data k) = a) → Differ s (fun k => I k ∨ E k) →
    moveOut c d a ks s = moveOut c.mend d a ks s := by
  intro ks
  induction ks with
  | nil => intro s I E _ _ _ _ _ _; rfl
  | cons x xs ih =>
    intro s I E h hal hn hnz hk hd
    rw [List.nodup_cons] at hn
    obtain ⟨hx, hxa⟩ := hk x (by simp)
    obtain ⟨s1, e1, g1, o1⟩ := detachInt_ok hc.mend h hx hxa hal fun k hk hkx => hd k x (.inl hk) (.inl hx) hkx
    have hEx : ¬ E x := by
      obtain ⟨ti, te, f1, f2, f3, f4, f5, f6, f7⟩ := h
      exact f5 x hx
    obtain ⟨s2, e2, g2, o2⟩ := attachExt_ok hc.mend (i := x) g1 (hnz x (by simp)) (fun y => y.2 rfl) hEx
    have q1 : detachInt c d s a x = some s1 := (detachInt_mend h ha0 (hd.sub (fun _ => .inl) rfl)).trans e1
    have q2 : attachExt c d s1 x = some s2 := (attachExt_mend g1 (hd.sub (by
      rintro k (hk | rfl)
      · exact .inr hk
      · exact .inl hx) o1.data)).trans e2
    have o12 := o1.trans o2
    simp only [moveOut]
    rw [e1, q1, Option.bind_some, Option.bind_some, e2, q2, Option.bind_some, Option.bind_some]
    refine ih g2 (by rw [o12.ilen]; exact hal) hn.2 (fun k hk => hnz k (by simp [hk])) ?_ (hd.sub ?_ o12.data)
    · intro k hkx
      obtain ⟨p, q⟩ := hk k (by simp [hkx])
      exact ⟨⟨p, fun e => hn.1 (e ▸ hkx)⟩, by rw [o12.data]; exact q⟩
    · rintro k (hk | hk | rfl)
      · exact .inl hk.1
      · exact .inr hk
      · exact .inl hx

theorem resolveInternal_mend (hc : CfgOK₀ c) {s : Store} {free : List Nat} {I E : Side → Nat → Prop}
    (h : Net c.mend s free I E) (hx : Exact s free I E) {i : Nat} (hi : LiveIn s free i)
    (hdf : ∀ d, Differ s fun k => I d k ∨ E d k) : resolveInternal c s i = resolveInternal c.mend s i := by
  have hc' := hc.mend
  have hlt := live_lt h.base hi
  have hi0 : i ≠ 0 := by have := hi.1; omega
  -- sources
  obtain ⟨L1, e1, n1, m1⟩ := eachIter_side hc' h hx .src hi
  have hks1 : ((L1.map s.linkAt).map (·.index)).filter (· ≠ i) = L1.filter (· ≠ i) := by
    rw [List.map_map]; congr 1; exact List.map_id' L1
  have mk1 : ∀ k, k ∈ L1.filter (· ≠ i) → I .src k ∧ endOf .src (s.data k) = i := by
    intro k hk
    exact (m1 k).1 (List.mem_filter.1 hk).1
  obtain ⟨s1, f1, o1, w1⟩ := moveOut_ok hc' (d := .src) (a := i) (L1.filter (· ≠ i)) h hlt
    (n1.filter _) mk1 (fun k hk j hj hjk => hdf .src j k (.inl hj) (.inl (mk1 k hk).1) hjk)
  have q1 := moveOut_mend hc hi0 (L1.filter (· ≠ i)) (h.forest .src) hlt (n1.filter _)
    (fun k hk => by have := (h.live .src k (.inl (mk1 k hk).1)).1; omega) mk1 (hdf .src)
  have l1 := fun k => liveIn_only (free := free) o1 k
  have hi1 : LiveIn s1 free i := (l1 i).2 hi
  have x1 : Exact s1 free (fun d' k => I d' k ∧ ¬(d' = Side.src ∧ k ∈ L1.filter (· ≠ i)))
      (fun d' k => E d' k ∨ (d' = Side.src ∧ k ∈ L1.filter (· ≠ i))) := by
    intro e he hs
    rw [o1.data] at hs
    rcases hx e ((l1 e).1 he) hs with x | x
    · exact Or.inl ⟨x, by simp⟩
    · exact Or.inr (Or.inl x)
  -- targets
  obtain ⟨L2, e2, n2, m2⟩ := eachIter_side hc' w1 x1 .tgt hi1
  have hks2 : (((L2.map s1.linkAt).filter fun l => l.index ≠ i).filter fun l =>
      ¬ (l.index = l.source ∧ l.index = l.target)).map (·.index) = L2.filter (· ≠ i) := by
    rw [List.filter_filter, List.filter_map, List.map_map]
    have : L2.filter ((fun l : Link => decide (¬(l.index = l.source ∧ l.index = l.target)) &&
        decide (l.index ≠ i)) ∘ s1.linkAt) = L2.filter (· ≠ i) := by
      refine List.filter_congr ?_
      intro k hk
      have ht : (s1.data k).2 = i := ((m2 k).1 hk).2
      simp only [Function.comp, Store.linkAt, ht]
      by_cases hki : k = i <;> simp [hki]
    rw [this]; exact List.map_id' _
  have q2 := moveOut_mend hc hi0 (L2.filter (· ≠ i)) (w1.forest .tgt) (by rw [o1.ilen]; exact hlt) (n2.filter _)
    (fun k hk => by
      have := ((m2 k).1 (List.mem_filter.1 hk).1).1
      have := (w1.live .tgt k (.inl this)).1; omega)
    (fun k hk => (m2 k).1 (List.mem_filter.1 hk).1)
    ((hdf .tgt).sub (by
      rintro k (hk | hk | hk)
      · exact .inl hk.1
      · exact .inr hk
      · exact absurd hk.1 (by simp)) o1.data)
  simp only [resolveInternal]
  rw [← eachIter_mend, show sideQuery c .src i = sideQuery c.mend .src i from rfl, e1, Option.bind_some, Option.bind_some, hks1, q1, f1,
    Option.bind_some, Option.bind_some, ← eachIter_mend, show sideQuery c .tgt i = sideQuery c.mend .tgt i from rfl, e2,
    Option.bind_some, Option.bind_some, hks2, q2]

theorem deleteLinks_mend (hc : CfgOK₀ c) {s : Store} {free : List Nat} (h : Inv c.mend s free)
    (hu : ((links c).view s).Uniq) {q : List Nat} {σ : Type} (hd : WH σ) (st : σ) :
    deleteLinks c s q hd st = deleteLinks c.mend s q hd st := by
  have hc' := hc.mend
  have hx := h.exact
  have hu' : ((links c.mend).view s).Uniq := by rw [view_mend]; exact hu
  have hdf : ∀ d, Differ s fun k => IntRef s free d k ∨ ExtRef s free d k := by
    intro d x y hx hy hxy
    have hy0 : endOf d (s.data y) ≠ 0 := by rcases hy with hy | hy <;> exact hy.2.1
    exact noTwin_tree h.toInv0 (noTwinIn hc' h.toInv0 (h.net.live d y hy) (hu' y)) d hy0 x hx hxy
  have hg : ∀ i, getLink c s i = _ := getLink_eq hc' h.net hx
  simp only [deleteLinks]
  cases hq : q[0]? with
  | none => rfl
  | some i =>
    simp only [Option.bind_some, hg, getLink_eq hc' h.net hx]
    by_cases hl : LiveIn s free i
    · simp only [if_pos hl, Option.bind_some]
      have hi0 : i ≠ 0 := by have := hl.1; omega
      have hus : ∀ d k, UserOf s free i d k → NoTwinIn s free k := fun d k hk => noTwinIn hc' h.toInv0 hk.1 (hu' k)
      obtain ⟨s0, r1, r2, r3, r4, r5⟩ := resolveInternal_ok hc' h.toInv0 hl hus
      rw [resolveInternal_mend hc h.net hx hl hdf, r1, Option.bind_some, Option.bind_some]
      have hl0 : ∀ k, LiveIn s0 free k ↔ LiveIn s free k := by intro k; simp only [LiveIn, r5]
      have hx0 : Exact s0 free (fun d k => IntRef s free d k ∧ ¬ UserOf s free i d k)
          (fun d k => ExtRef s free d k ∨ UserOf s free i d k) := by
        intro e he hs
        rw [r3] at hs
        rcases hx e ((hl0 e).1 he) hs with x | x
        · by_cases hus : UserOf s free i .tgt e
          · exact Or.inr (Or.inr hus)
          · exact Or.inl ⟨x, hus⟩
        · exact Or.inr (Or.inl x)
      have hg0 : ∀ j, getLink c s0 j = _ := getLink_eq hc' r2 hx0
      have hup : updateLinks c s0 [i] [i, 0, 0] (fun (u : Unit) _ _ => ((Ctl.cont : Flow), u)) () =
          updateLinks c.mend s0 [i] [i, 0, 0] (fun (u : Unit) _ _ => ((Ctl.cont : Flow), u)) () := by
        have hi0' : LiveIn s0 free i := (hl0 i).2 hl
        have hrl : relink c s0 ⟨i, (s0.data i).1, (s0.data i).2⟩ i 0 0 = relink c.mend s0 ⟨i, (s0.data i).1, (s0.data i).2⟩ i 0 0 := by
          refine relink_mend hc r2 hx0 hi0' ?_ ?_ ?_ ?_ 0 0 ?_
          · intro d he
            rw [r3] at he
            refine ⟨fun x => x.1.2.1 he, ?_⟩
            rintro (x | x)
            · exact x.2.1 he
            · exact x.2.1 rfl
          · intro d he hle
            rw [r3] at he hle
            exact ⟨⟨hl, he, (hl0 _).1 hle⟩, fun x => x.2.1 rfl⟩
          · intro d he hle
            rw [r3] at he hle
            exact .inl ⟨hl, he, fun x => hle ((hl0 _).2 x)⟩
          · intro d
            refine (hdf d).sub ?_ r3
            rintro k (hk | hk | hk)
            · exact .inl hk.1
            · exact .inr hk
            · exact .inl ⟨hk.1, by rw [hk.2.2]; exact hi0, by rw [hk.2.2]; exact hl⟩
          · intro d hz; cases d <;> exact absurd rfl hz
        simp only [updateLinks]
        show ((some i).bind _) = ((some i).bind _)
        simp only [Option.bind_some]
        show ((some 0).bind _) = ((some 0).bind _)
        simp only [Option.bind_some]
        show ((some 0).bind _) = ((some 0).bind _)
        simp only [Option.bind_some, hg0, getLink_eq hc' r2 hx0, if_pos hi0', Store.linkAt, hrl]
      rw [hup]
      simp only [releaseTop_mend]
      rfl
    · simp only [if_neg hl, Option.bind_some]

/-! ### Create -/

theorem resolveExternal_noop_mend (hc : CfgOK₀ c) {s : Store} {free : List Nat} {I E : Side → Nat → Prop}
    (h : Net c.mend s free I E) (hx : Exact s free I E) {i : Nat} (hi : LiveIn s free i)
    (hI : ∀ d k, I d k → endOf d (s.data k) ≠ i) : resolveExternal c s i = some s := by
  obtain ⟨L1, e1, _, m1⟩ := eachIter_side hc.mend h hx .src hi
  obtain ⟨L2, e2, _, m2⟩ := eachIter_side hc.mend h hx .tgt hi
  have z1 : L1 = [] := List.eq_nil_iff_forall_not_mem.2 fun k hk => hI .src k ((m1 k).1 hk).1 ((m1 k).1 hk).2
  have z2 : L2 = [] := List.eq_nil_iff_forall_not_mem.2 fun k hk => hI .tgt k ((m2 k).1 hk).1 ((m2 k).1 hk).2
  subst z1 z2
  rw [eachIter_mend] at e1 e2
  have e1 : eachIter c s (sideQuery c .src i) = _ := e1
  have e2 : eachIter c s (sideQuery c .tgt i) = _ := e2
  simp [resolveExternal, e1, e2, moveIn]

theorem createEnd_mend (hc : CfgOK₀ c) {s s' : Store} {free free' : List Nat} {i : Nat} (h : Inv0 c.mend s free)
    (hk : Created c.mend s free s' free' i) {σ : Type} (hd : WH σ) (st : σ) :
    createEnd c s' i hd st = createEnd c.mend s' i hd st := by
  have hn : ∀ d k, IntRef s free d k → endOf d (s'.data k) ≠ i := by
    rintro d k hkI he
    rw [hk.data k hkI.1] at he
    exact hk.fresh (he ▸ hkI.2.2)
  have e1 := resolveExternal_noop_mend hc hk.net (hk.exact h) (i := i) ((hk.live i).2 (Or.inr rfl)) hn
  have e2 := resolveExternal_noop hc.mend hk.net (hk.exact h) (i := i) ((hk.live i).2 (Or.inr rfl)) hn
  simp only [createEnd, e1, e2]

theorem createLinks_mend (hc : CfgOK₀ c) {s : Store} {free : List Nat} (h : Inv c.mend s free) (q : List Nat)
    {σ : Type} (hd : WH σ) (st : σ) : createLinks c s q hd st = createLinks c.mend s q hd st := by
  have hc' := hc.mend
  have hcs : c.mend.consts = c.consts := rfl
  have hnull := hc.null_eq
  cases free with
  | cons x rest =>
    have hxf : s.hdr.firstFree = x := by
      have := h.base.list.first_eq; simpa [Store.listMem] using this
    have hx0 : x ≠ 0 := h.base.list.nonzero x (by simp)
    have hn := h.base.list.nodup
    rw [List.nodup_cons] at hn
    have hxle := h.base.free_le x (by simp)
    obtain ⟨s', h1, h2, h3, h4, h5, h6, h7⟩ := unusedDetach_ok hc' h.net (i := x) (by simp)
    simp only [List.erase_cons_head] at h2
    have hcr : Created c.mend s (x :: rest) s' rest x := by
      refine ⟨h2, ?_, fun hl => hl.2.2 (by simp), h6, fun k hk => h7 k hk.2.2⟩
      intro k
      simp only [LiveIn, h4, List.mem_cons, not_or]
      constructor
      · rintro ⟨a1, a2, a3⟩
        by_cases e : k = x
        · exact Or.inr e
        · exact Or.inl ⟨a1, a2, e, a3⟩
      · rintro (⟨a1, a2, a3, a4⟩ | rfl)
        · exact ⟨a1, a2, a4⟩
        · exact ⟨by omega, hxle, hn.1⟩
    have h1' : unusedDetach c s x = some s' := h1
    simp only [createLinks, hcs, hnull, hxf, if_neg hx0, h1, h1', Option.bind_some]
    exact createEnd_mend hc h.toInv0 hcr hd st
  | nil =>
    have hxf : s.hdr.firstFree = 0 := by
      have := h.base.list.first_eq; simpa [Store.listMem] using this
    have top : ∀ (s1 : Store), Inv c.mend s1 [] → s1.hdr.allocated + 1 < s1.ilen → s1.hdr.allocated < c.consts.internalEnd →
        createTop c s1 hd st = createTop c.mend s1 hd st := by
      intro s1 hi1 hlt hend
      have hcr := (createTop_ok hc' hi1 hlt hend hd st).2
      have hle := hc.end_le
      simp only [createTop, show c.mend.maxT = c.maxT from rfl, cadd_eq (show s1.hdr.allocated + 1 ≤ c.maxT by omega), Option.bind_some]
      exact createEnd_mend hc hi1.toInv0 hcr hd st
    have hff : s.hdr.firstFree = c.consts.null := hxf.trans hnull.symm
    by_cases hend : c.consts.internalEnd ≤ s.hdr.allocated
    · simp only [createLinks, hcs, if_pos hff, if_pos hend]
    · have hend' : s.hdr.allocated < c.consts.internalEnd := by omega
      have hrp := h.base.res_pos
      have hrl := h.base.res_le
      have halt := h.base.alloc_lt
      simp only [createLinks, hcs, if_pos hff, if_neg hend, csub_eq hrp, Option.bind_some,
        show c.mend.dalloc = c.dalloc from rfl, show c.mend.ialloc = c.ialloc from rfl, show c.mend.step = c.step from rfl,
        show c.mend.maxT = c.maxT from rfl]
      by_cases hr : s.hdr.reserved - 1 ≤ s.hdr.allocated
      · simp only [if_pos hr]
        cases hda : c.dalloc s.dlen (s.dlen + c.step) with
        | none => rfl
        | some dn =>
          have hdn := hc.dalloc_eq _ _ _ hda
          cases hal : c.ialloc s.ilen (s.ilen + c.step) with
          | none => rfl
          | some n =>
            have hn := hc.ialloc_eq _ _ _ hal
            simp only
            split
            · refine top _ ?_ ?_ hend'
              · have hsp := hc.step_pos
                have hle := h.base.len_eq
                obtain rfl : dn = n := by omega
                have hg := grow_ok h.net (n := dn) (by omega)
                exact ⟨hg.toInv0 (fun _ _ => Iff.rfl) (fun _ _ => Iff.rfl) h.half, h.free_lt⟩
              · have hsp := hc.step_pos
                show s.hdr.allocated + 1 < n; omega
            · rfl
      · simp only [if_neg hr]
        exact top s h (by omega) hend'

end Verif.Split
