import Verif.Split.Inv

/-!
# Split store: effect of `update_links` on the trees (helper lemmas)

The lemmas are about an arbitrary assignment of links to internal (`I`) and external (`E`) trees, because inside
`delete_links` the assignment is not the one of a store at rest.
-/

namespace Verif.Split
open Verif

variable {c : Cfg}

/-- Header and trees, with the trees' members given by `I` and `E`. -/
structure Net (c : Cfg) (s : Store) (free : List Nat) (I E : Side → Nat → Prop) : Prop where
  base : Base c s free
  forest : ∀ d, Forest c s d (I d) (E d)
  live : ∀ d k, I d k ∨ E d k → LiveIn s free k

/-- Every link with a source is in a targets tree, so `is_unused` recognises it as a link. -/
def Exact (s : Store) (free : List Nat) (I E : Side → Nat → Prop) : Prop :=
  ∀ e, LiveIn s free e → (s.data e).1 ≠ 0 → I .tgt e ∨ E .tgt e

theorem Inv0.net {s : Store} {free : List Nat} (h : Inv0 c s free) :
    Net c s free (IntRef s free) (ExtRef s free) :=
  ⟨h.base, h.forest, fun d k hk => by rcases hk with hk | hk <;> exact hk.1⟩

theorem Inv0.exact {s : Store} {free : List Nat} (h : Inv0 c s free) :
    Exact s free (IntRef s free) (ExtRef s free) := by
  intro e he hs
  have ht := h.half e he hs
  by_cases hl : LiveIn s free (s.data e).2
  · exact Or.inl ⟨he, ht, hl⟩
  · exact Or.inr ⟨he, ht, hl⟩

theorem Net.toInv0 {s : Store} {free : List Nat} {I E : Side → Nat → Prop} (h : Net c s free I E)
    (hI : ∀ d k, IntRef s free d k ↔ I d k) (hE : ∀ d k, ExtRef s free d k ↔ E d k)
    (hh : ∀ k, LiveIn s free k → (s.data k).1 ≠ 0 → (s.data k).2 ≠ 0) : Inv0 c s free :=
  ⟨h.base, fun d => (h.forest d).congr (fun _ _ => rfl) (fun _ _ => rfl) (fun _ _ => rfl) rfl
    (hI d) (hE d), hh⟩

theorem Net.iff {s : Store} {free : List Nat} {I E I' E' : Side → Nat → Prop} (h : Net c s free I E)
    (hI : ∀ d k, I' d k ↔ I d k) (hE : ∀ d k, E' d k ↔ E d k) : Net c s free I' E' := by
  obtain rfl : I' = I := funext fun d => funext fun k => propext (hI d k)
  obtain rfl : E' = E := funext fun d => funext fun k => propext (hE d k)
  exact h

theorem side_cases (d d' : Side) : d' = d ∨ d' = d.flip := by cases d <;> cases d' <;> simp [Side.flip]

theorem flip_ne (d : Side) : d.flip ≠ d := by cases d <;> simp [Side.flip]

theorem Net.step {s s' : Store} {d : Side} {free : List Nat} {I E : Side → Nat → Prop}
    {J F : Nat → Prop} (h : Net c s free I E) (ho : Only d s s') (hf : Forest c s' d J F)
    (hl : ∀ k, J k ∨ F k → LiveIn s free k) :
    Net c s' free (fun d' k => if d' = d then J k else I d' k)
      (fun d' k => if d' = d then F k else E d' k) := by
  refine ⟨h.base.only ho, ?_, ?_⟩
  · intro d'
    rcases side_cases d d' with rfl | rfl
    · simpa using hf
    · have := (h.forest d.flip).other ho
      simpa [flip_ne] using this
  · intro d' k hk
    rw [liveIn_only ho]
    rcases side_cases d d' with rfl | rfl
    · exact hl k (by simpa using hk)
    · exact h.live d.flip k (by simpa [flip_ne] using hk)

theorem Net.unused {s : Store} {free : List Nat} {I E : Side → Nat → Prop} (h : Net c s free I E)
    {e : Nat} (he : e ≠ 0) (hh : LiveIn s free e → (s.data e).1 ≠ 0 → I .tgt e ∨ E .tgt e) :
    isUnused s e = some (decide (¬ LiveIn s free e)) :=
  isUnused_eq h.base (h.forest .tgt) (h.live .tgt) he hh

theorem live_lt {s : Store} {free : List Nat} (h : Base c s free) {e : Nat} (he : LiveIn s free e) :
    e < s.ilen := by have := h.alloc_lt; have := he.2.1; omega

/-- Detaching `i` from the tree of its end on side `d`. Only the
links in that tree must not store the pair of `i`. -/
theorem detachEnd_gen (hc : CfgOK c) {s : Store} {d : Side} {free : List Nat} {I E : Side → Nat → Prop}
    {i e : Nat} (h : Net c s free I E) (he : endOf d (s.data i) = e)
    (h0 : e = 0 → ¬ I d i ∧ ¬ E d i)
    (h1 : e ≠ 0 → LiveIn s free e → I d i) (h2 : e ≠ 0 → ¬ LiveIn s free e → E d i)
    (hex : LiveIn s free e → (s.data e).1 ≠ 0 → I .tgt e ∨ E .tgt e)
    (hu : e ≠ 0 → ∀ k, (LiveIn s free e → I d k) → (¬ LiveIn s free e → E d k) → k ≠ i →
      s.data k ≠ s.data i) :
    ∃ s', detachEnd c d e i s = some s' ∧ Only d s s' ∧
      Net c s' free (fun d' k => I d' k ∧ ¬ (d' = d ∧ k = i)) (fun d' k => E d' k ∧ ¬ (d' = d ∧ k = i)) := by
  by_cases hz : e = 0
  · refine ⟨s, by simp [detachEnd, hz], Only.refl d s, h.iff ?_ ?_⟩
    · intro d' k
      refine ⟨fun x => x.1, fun x => ⟨x, ?_⟩⟩
      rintro ⟨rfl, rfl⟩; exact (h0 hz).1 x
    · intro d' k
      refine ⟨fun x => x.1, fun x => ⟨x, ?_⟩⟩
      rintro ⟨rfl, rfl⟩; exact (h0 hz).2 x
  · have hun := h.unused hz hex
    obtain ⟨ti, te, f1, f2, f3, f4, f5, f6, f7⟩ := h.forest d
    by_cases hl : LiveIn s free e
    · have hi := h1 hz hl
      obtain ⟨s', g1, g2, g3⟩ := detachInt_ok hc (h.forest d) hi he (live_lt h.base hl)
        (fun k hk => hu hz k (fun _ => hk) (fun x => absurd hl x))
      refine ⟨s', by simp [detachEnd, hz, hun, hl, g1], g3, (h.step g3 g2 ?_).iff ?_ ?_⟩
      · rintro k (hk | hk)
        · exact h.live d k (Or.inl hk.1)
        · exact h.live d k (Or.inr hk)
      · intro d' k
        by_cases hd : d' = d
        · subst hd; simp
        · simp [hd]
      · intro d' k
        by_cases hd : d' = d
        · subst hd
          simp only [true_and, if_true, and_iff_left_iff_imp]
          rintro hk rfl
          exact f5 k hi hk
        · simp [hd]
    · have hi := h2 hz hl
      obtain ⟨s', g1, g2, g3⟩ := detachExt_ok hc (h.forest d) hi
        (fun k hk => hu hz k (fun x => absurd x hl) (fun _ => hk))
      refine ⟨s', by simp [detachEnd, hz, hun, hl, g1], g3, (h.step g3 g2 ?_).iff ?_ ?_⟩
      · rintro k (hk | hk)
        · exact h.live d k (Or.inl hk)
        · exact h.live d k (Or.inr hk.1)
      · intro d' k
        by_cases hd : d' = d
        · subst hd
          simp only [true_and, if_true, and_iff_left_iff_imp]
          rintro hk rfl
          exact f5 k hk hi
        · simp [hd]
      · intro d' k
        by_cases hd : d' = d
        · subst hd; simp
        · simp [hd]

/-- Detaching `i` from the tree of its end on side `d`, if its pair is in no tree twice. -/
theorem detachEnd_ok (hc : CfgOK c) {s : Store} {d : Side} {free : List Nat} {I E : Side → Nat → Prop}
    {i e : Nat} (h : Net c s free I E) (he : endOf d (s.data i) = e)
    (h0 : e = 0 → ¬ I d i ∧ ¬ E d i)
    (h1 : e ≠ 0 → LiveIn s free e → I d i) (h2 : e ≠ 0 → ¬ LiveIn s free e → E d i)
    (hex : LiveIn s free e → (s.data e).1 ≠ 0 → I .tgt e ∨ E .tgt e)
    (hu : e ≠ 0 → ∀ k, I d k ∨ E d k → k ≠ i → s.data k ≠ s.data i) :
    ∃ s', detachEnd c d e i s = some s' ∧ Only d s s' ∧
      Net c s' free (fun d' k => I d' k ∧ ¬ (d' = d ∧ k = i)) (fun d' k => E d' k ∧ ¬ (d' = d ∧ k = i)) :=
  detachEnd_gen hc h he h0 h1 h2 hex fun hz k a b => by
    by_cases hl : LiveIn s free e
    · exact hu hz k (Or.inl (a hl))
    · exact hu hz k (Or.inr (b hl))

/-- Attaching `i` on side `d` to the external tree (`v`) or to the tree of its end. -/
theorem attachEnd_gen (hc : CfgOK c) {s : Store} {d : Side} {free : List Nat} {I E : Side → Nat → Prop}
    {i e : Nat} {v : Bool} (h : Net c s free I E) (hi : LiveIn s free i)
    (he : endOf d (s.data i) = e) (hI : ¬ I d i) (hE : ¬ E d i)
    (hv : v = false → e < s.ilen) :
    ∃ s', attachEnd c d v e i s = some s' ∧ Only d s s' ∧
      Net c s' free (fun d' k => I d' k ∨ (d' = d ∧ k = i ∧ e ≠ 0 ∧ v = false))
        (fun d' k => E d' k ∨ (d' = d ∧ k = i ∧ e ≠ 0 ∧ v = true)) := by
  have hz : i ≠ 0 := by have := hi.1; omega
  by_cases h0 : e = 0
  · exact ⟨s, by simp [attachEnd, h0], Only.refl d s, h.iff (by simp [h0]) (by simp [h0])⟩
  · cases v with
    | false =>
      obtain ⟨s', g1, g2, g3⟩ := attachInt_ok hc (h.forest d) hz hI hE he h0 (hv rfl)
      refine ⟨s', by simp [attachEnd, h0, g1], g3, (h.step g3 g2 ?_).iff ?_ ?_⟩
      · rintro k ((hk | rfl) | hk)
        · exact h.live d k (Or.inl hk)
        · exact hi
        · exact h.live d k (Or.inr hk)
      · intro d' k
        by_cases hd : d' = d
        · subst hd; simp [h0]
        · simp [hd]
      · intro d' k
        by_cases hd : d' = d
        · subst hd; simp
        · simp [hd]
    | true =>
      obtain ⟨s', g1, g2, g3⟩ := attachExt_ok hc (h.forest d) hz hI hE
      refine ⟨s', by simp [attachEnd, h0, g1], g3, (h.step g3 g2 ?_).iff ?_ ?_⟩
      · rintro k (hk | (hk | rfl))
        · exact h.live d k (Or.inl hk)
        · exact h.live d k (Or.inr hk)
        · exact hi
      · intro d' k
        by_cases hd : d' = d
        · subst hd; simp
        · simp [hd]
      · intro d' k
        by_cases hd : d' = d
        · subst hd; simp [h0]
        · simp [hd]

/-- Attaching `i` to the tree of its end on side `d`. -/
theorem attachEnd_ok (hc : CfgOK c) {s : Store} {d : Side} {free : List Nat} {I E : Side → Nat → Prop}
    {i e : Nat} {v : Bool} (h : Net c s free I E) (hi : LiveIn s free i)
    (he : endOf d (s.data i) = e) (hI : ¬ I d i) (hE : ¬ E d i)
    (hv : e ≠ 0 → v = decide (¬ LiveIn s free e)) :
    ∃ s', attachEnd c d v e i s = some s' ∧ Only d s s' ∧
      Net c s' free (fun d' k => I d' k ∨ (d' = d ∧ k = i ∧ e ≠ 0 ∧ LiveIn s free e))
        (fun d' k => E d' k ∨ (d' = d ∧ k = i ∧ e ≠ 0 ∧ ¬ LiveIn s free e)) := by
  obtain ⟨s', g1, g2, g3⟩ := attachEnd_gen hc h hi he hI hE (v := v) (by
    intro hvf
    by_cases h0 : e = 0
    · have := h.base.alloc_lt; omega
    · have h2 := hv h0
      rw [hvf] at h2
      exact live_lt h.base (by simpa using h2.symm))
  refine ⟨s', g1, g2, g3.iff ?_ ?_⟩
  · intro d' k
    by_cases h0 : e = 0
    · simp [h0]
    · rw [hv h0]; simp
  · intro d' k
    by_cases h0 : e = 0
    · simp [h0]
    · rw [hv h0]; simp

/-- Writing the pair of a link that is in no tree. -/
theorem setPair_ok {s : Store} {free : List Nat} {I E : Side → Nat → Prop} (h : Net c s free I E)
    {i : Nat} (hi : LiveIn s free i) (hn : ∀ d, ¬ I d i ∧ ¬ E d i) (a b : Nat) :
    ∃ s', setPair s i a b = some s' ∧ Net c s' free I E ∧ s'.hdr = s.hdr ∧ s'.ilen = s.ilen ∧
      (∀ k, s'.data k = if k = i then (a, b) else s.data k) := by
  have hlt := live_lt h.base hi
  have hb := h.base
  have hi1 := hi.1
  refine ⟨{ s with data := fun k => if k = i then (a, b) else s.data k },
    by simp [setPair, hb.fresh, hb.len_eq, hlt], ⟨?_, ?_, h.live⟩, rfl, rfl, fun _ => rfl⟩
  · refine ⟨hb.fresh, hb.len_eq, hb.alloc_lt, hb.alloc_le, hb.res_pos, hb.res_le, hb.res8, ?_, ?_,
      hb.free_le, ?_⟩
    · refine ⟨?_, hb.data0.2⟩
      show (if 0 = i then (a, b) else s.data 0) = (0, 0)
      rw [if_neg (by omega)]; exact hb.data0.1
    · refine hb.list.congr rfl rfl rfl ?_
      intro k hk
      have hki : k ≠ i := fun e => hi.2.2 (e ▸ hk)
      simp [Store.listMem, hki]
    · intro k hk
      have hk' : s.hdr.allocated < k := hk
      show (if k = i then (a, b) else s.data k) = (0, 0)
      rw [if_neg (by have := hi.2.1; omega)]; exact hb.beyond k hk'
  · intro d
    refine (h.forest d).congr ?_ (fun _ _ => rfl) (fun _ _ => rfl) rfl (fun _ => Iff.rfl)
      (fun _ => Iff.rfl)
    rintro k hk
    have hki : k ≠ i := by
      rintro rfl
      rcases hk with hk | hk
      · exact (hn d).1 hk
      · exact (hn d).2 hk
    show (if k = i then (a, b) else s.data k) = s.data k
    rw [if_neg hki]

/-- Is the new end `e` of link `i`, whose source was `old`, taken for a link by `update_links`? Not if it is `i` itself and
`i` had a source: then `i`, detached from its trees, looks unused. -/
def Seen (s : Store) (free : List Nat) (i old e : Nat) : Prop := LiveIn s free e ∧ ¬ (e = i ∧ old ≠ 0)

/-- Effect of `relink`. -/
theorem relink_gen (hc : CfgOK c) {s : Store} {free : List Nat} {I E : Side → Nat → Prop} {i : Nat}
    (h : Net c s free I E) (hx : Exact s free I E) (hi : LiveIn s free i)
    (h0 : ∀ d, endOf d (s.data i) = 0 → ¬ I d i ∧ ¬ E d i)
    (h1 : ∀ d, endOf d (s.data i) ≠ 0 → LiveIn s free (endOf d (s.data i)) → I d i)
    (h2 : ∀ d, endOf d (s.data i) ≠ 0 → ¬ LiveIn s free (endOf d (s.data i)) → E d i)
    (hu : ∀ d, endOf d (s.data i) ≠ 0 → ∀ k, (LiveIn s free (endOf d (s.data i)) → I d k) →
      (¬ LiveIn s free (endOf d (s.data i)) → E d k) → k ≠ i → s.data k ≠ s.data i)
    (a b : Nat) :
    ∃ s', relink c s ⟨i, (s.data i).1, (s.data i).2⟩ i a b = some s' ∧
      Net c s' free
        (fun d k => (k ≠ i ∧ I d k) ∨ (k = i ∧ endOf d (a, b) ≠ 0 ∧ Seen s free i (s.data i).1 (endOf d (a, b))))
        (fun d k => (k ≠ i ∧ E d k) ∨ (k = i ∧ endOf d (a, b) ≠ 0 ∧ ¬ Seen s free i (s.data i).1 (endOf d (a, b)))) ∧
      s'.ilen = s.ilen ∧ s'.hdr.allocated = s.hdr.allocated ∧ s'.hdr.reserved = s.hdr.reserved ∧
      (∀ k, s'.data k = if k = i then (a, b) else s.data k) := by
  obtain ⟨s1, e1, o1, n1⟩ := detachEnd_gen hc h (d := .src) (i := i) rfl (h0 .src) (h1 .src) (h2 .src)
    (hx _) (hu .src)
  have l1 := fun k => liveIn_only (free := free) o1 k
  obtain ⟨s2, e2, o2, n2⟩ := detachEnd_gen hc n1 (d := .tgt) (i := i) (e := (s.data i).2)
    (by rw [o1.data]; rfl)
    (fun hz => ⟨fun x => (h0 .tgt hz).1 x.1, fun x => (h0 .tgt hz).2 x.1⟩)
    (fun hz hl => ⟨h1 .tgt hz ((l1 _).1 hl), by simp⟩)
    (fun hz hl => ⟨h2 .tgt hz (fun x => hl ((l1 _).2 x)), by simp⟩)
    (fun hl hs => by
      rw [o1.data] at hs
      rcases hx _ ((l1 _).1 hl) hs with x | x
      · exact Or.inl ⟨x, by simp⟩
      · exact Or.inr ⟨x, by simp⟩)
    (fun hz k ha hb hki => by
      rw [o1.data]
      exact hu .tgt hz k (fun x => (ha ((l1 _).2 x)).1) (fun x => (hb fun y => x ((l1 _).1 y)).1) hki)
  have l2 : ∀ k, LiveIn s2 free k ↔ LiveIn s free k := fun k => (liveIn_only o2 k).trans (l1 k)
  have d2 : s2.data = s.data := o2.data.trans o1.data
  have hI2 : ∀ d k, (k ≠ i ∧ I d k) ↔ (I d k ∧ ¬(d = Side.src ∧ k = i)) ∧ ¬(d = Side.tgt ∧ k = i) := by
    intro d k; cases d <;> simp [and_comm]
  have hE2 : ∀ d k, (k ≠ i ∧ E d k) ↔ (E d k ∧ ¬(d = Side.src ∧ k = i)) ∧ ¬(d = Side.tgt ∧ k = i) := by
    intro d k; cases d <;> simp [and_comm]
  have n2 := n2.iff hI2 hE2
  have un : ∀ e v, e ≠ 0 → isUnused s2 e = some v → (v = false ↔ Seen s free i (s.data i).1 e) := by
    intro e v he hv
    obtain ⟨w, hw, hw2⟩ := isUnused_alloc n2.base (n2.forest .tgt) (n2.live .tgt) he
    rw [hv] at hw
    cases hw
    rw [d2] at hw2
    have : v = false ↔ ¬ v = true := by cases v <;> simp
    rw [this, hw2, l2, Seen]
    constructor
    · intro hn
      have hl : LiveIn s free e := Classical.byContradiction fun x => hn (Or.inl x)
      refine ⟨hl, ?_⟩
      rintro ⟨rfl, h5⟩
      exact hn (Or.inr ⟨by simp, h5⟩)
    · rintro ⟨hl, hn⟩ (x | ⟨x1, x2⟩)
      · exact x hl
      · by_cases hei : e = i
        · subst hei; exact hn ⟨rfl, x2⟩
        · refine x1 ?_
          rcases hx e hl x2 with x | x
          · exact Or.inl ⟨hei, x⟩
          · exact Or.inr ⟨hei, x⟩
  obtain ⟨vs, hvs⟩ := isUnused_some n2.base a
  obtain ⟨vt, hvt⟩ := isUnused_some n2.base b
  have hi2 : LiveIn s2 free i := (l2 i).2 hi
  obtain ⟨s3, e3, n3, hh3, hl3, d3⟩ := setPair_ok n2 hi2 (fun d => ⟨fun x => x.1 rfl, fun x => x.1 rfl⟩) a b
  have l3 : ∀ k, LiveIn s3 free k ↔ LiveIn s free k := by
    intro k; rw [← l2 k]; simp only [LiveIn, hh3]
  have d3i : s3.data i = (a, b) := by rw [d3, if_pos rfl]
  have hi3 : LiveIn s3 free i := (l3 i).2 hi
  have hlt : ∀ e v, isUnused s2 e = some v → v = false → e < s.ilen := by
    intro e v hv hf
    by_cases h0 : e = 0
    · have := h.base.alloc_lt; omega
    · exact live_lt h.base ((un e v h0 hv).1 hf).1
  have hlen : s2.ilen = s.ilen := o2.ilen.trans o1.ilen
  obtain ⟨s4, e4, o4, n4⟩ := attachEnd_gen hc n3 (d := .src) (i := i) (e := a) (v := vs) hi3
    (by rw [d3i]; rfl) (fun x => x.1 rfl) (fun x => x.1 rfl)
    (by rw [hl3, hlen]; exact hlt a vs hvs)
  have hi4 : LiveIn s4 free i := (liveIn_only o4 i).2 hi3
  obtain ⟨s5, e5, o5, n5⟩ := attachEnd_gen hc n4 (d := .tgt) (i := i) (e := b) (v := vt) hi4
    (by rw [o4.data, d3i]; rfl) (by rintro (x | x); exact x.1 rfl; exact absurd x.1 (by simp))
    (by rintro (x | x); exact x.1 rfl; exact absurd x.1 (by simp))
    (by rw [o4.ilen, hl3, hlen]; exact hlt b vt hvt)
  have vT : ∀ v : Bool, v = true ↔ ¬ v = false := by intro v; cases v <;> simp
  refine ⟨s5, ?_, n5.iff ?_ ?_, ?_, ?_, ?_, ?_⟩
  · have e1 : detachEnd c .src (s.data i).1 i s = some s1 := e1
    simp only [relink]
    rw [e1, Option.bind_some, e2, Option.bind_some, hvs, Option.bind_some, hvt, Option.bind_some, e3,
      Option.bind_some, e4, Option.bind_some, e5]
  · intro d k
    cases d
    · by_cases h0 : a = 0
      · simp [endOf, h0]
      · simp [endOf, un a vs h0 hvs]
    · by_cases h0 : b = 0
      · simp [endOf, h0]
      · simp [endOf, un b vt h0 hvt]
  · intro d k
    rw [vT vs, vT vt]
    cases d
    · by_cases h0 : a = 0
      · simp [endOf, h0]
      · rw [un a vs h0 hvs]; simp [endOf]
    · by_cases h0 : b = 0
      · simp [endOf, h0]
      · rw [un b vt h0 hvt]; simp [endOf]
  · rw [o5.ilen, o4.ilen, hl3, o2.ilen, o1.ilen]
  · rw [o5.allocated, o4.allocated, hh3, o2.allocated, o1.allocated]
  · rw [o5.reserved, o4.reserved, hh3, o2.reserved, o1.reserved]
  · intro k; rw [o5.data, o4.data, d3, d2]

/-- Effect of `relink` if no link in a tree stores the pair of `i` and `i` is not made to refer to itself once it has a
source. -/
theorem relink_ok (hc : CfgOK c) {s : Store} {free : List Nat} {I E : Side → Nat → Prop} {i : Nat}
    (h : Net c s free I E) (hx : Exact s free I E) (hi : LiveIn s free i)
    (h0 : ∀ d, endOf d (s.data i) = 0 → ¬ I d i ∧ ¬ E d i)
    (h1 : ∀ d, endOf d (s.data i) ≠ 0 → LiveIn s free (endOf d (s.data i)) → I d i)
    (h2 : ∀ d, endOf d (s.data i) ≠ 0 → ¬ LiveIn s free (endOf d (s.data i)) → E d i)
    (hu : ∀ d, endOf d (s.data i) ≠ 0 → ∀ k, I d k ∨ E d k → k ≠ i → s.data k ≠ s.data i)
    (a b : Nat) (hg : a = i ∨ b = i → (s.data i).1 = 0) :
    ∃ s', relink c s ⟨i, (s.data i).1, (s.data i).2⟩ i a b = some s' ∧
      Net c s' free
        (fun d k => (k ≠ i ∧ I d k) ∨ (k = i ∧ endOf d (a, b) ≠ 0 ∧ LiveIn s free (endOf d (a, b))))
        (fun d k => (k ≠ i ∧ E d k) ∨ (k = i ∧ endOf d (a, b) ≠ 0 ∧ ¬ LiveIn s free (endOf d (a, b)))) ∧
      s'.ilen = s.ilen ∧ s'.hdr.allocated = s.hdr.allocated ∧ s'.hdr.reserved = s.hdr.reserved ∧
      (∀ k, s'.data k = if k = i then (a, b) else s.data k) := by
  obtain ⟨s', g1, g2, g3⟩ := relink_gen hc h hx hi h0 h1 h2 (fun d hz k x y => by
    by_cases hl : LiveIn s free (endOf d (s.data i))
    · exact hu d hz k (Or.inl (x hl))
    · exact hu d hz k (Or.inr (y hl))) a b
  have hs : ∀ d, Seen s free i (s.data i).1 (endOf d (a, b)) ↔ LiveIn s free (endOf d (a, b)) := by
    intro d
    refine ⟨fun x => x.1, fun x => ⟨x, ?_⟩⟩
    rintro ⟨x1, x2⟩
    refine x2 (hg ?_)
    cases d
    · exact Or.inl x1
    · exact Or.inr x1
  refine ⟨s', g1, g2.iff ?_ ?_, g3⟩
  · intro d k; rw [hs]
  · intro d k; rw [hs]

/-- Moving links from the internal tree of `a` to the external tree. -/
theorem moveOut_ok (hc : CfgOK c) {d : Side} {a : Nat} : ∀ (ks : List Nat) {s : Store}
    {free : List Nat} {I E : Side → Nat → Prop}, Net c s free I E → a < s.ilen → ks.Nodup →
    (∀ k ∈ ks, I d k ∧ endOf d (s.data k) = a) →
    (∀ k ∈ ks, ∀ j, I d j → j ≠ k → s.data j ≠ s.data k) →
    ∃ s', moveOut c d a ks s = some s' ∧ Only d s s' ∧
      Net c s' free (fun d' k => I d' k ∧ ¬ (d' = d ∧ k ∈ ks)) (fun d' k => E d' k ∨ (d' = d ∧ k ∈ ks)) := by
  intro ks
  induction ks with
  | nil =>
    intro s free I E h _ _ _ _
    exact ⟨s, rfl, Only.refl d s, h.iff (by simp) (by simp)⟩
  | cons x xs ih =>
    intro s free I E h ha hn hk hu
    rw [List.nodup_cons] at hn
    obtain ⟨hx, hxa⟩ := hk x (by simp)
    have hxz := nonzero_of_forest (h.forest d) (Or.inl hx)
    have hxl := h.live d x (Or.inl hx)
    obtain ⟨ti, te, f1, f2, f3, f4, f5, f6, f7⟩ := h.forest d
    obtain ⟨s1, e1, g1, o1⟩ := detachInt_ok hc (h.forest d) hx hxa ha (hu x (by simp))
    have n1 := h.step o1 g1 (by
      rintro k (hk | hk)
      · exact h.live d k (Or.inl hk.1)
      · exact h.live d k (Or.inr hk))
    obtain ⟨s2, e2, g2, o2⟩ := attachExt_ok hc (i := x) g1 hxz (fun y => y.2 rfl) (f5 x hx)
    have n2 := n1.step o2 g2 (by
      intro k hk
      rw [liveIn_only o1]
      rcases hk with hk | hk | rfl
      · exact h.live d k (Or.inl hk.1)
      · exact h.live d k (Or.inr hk)
      · exact hxl)
    have n2 := n2.iff (I' := fun d' k => I d' k ∧ ¬ (d' = d ∧ k = x))
      (E' := fun d' k => E d' k ∨ (d' = d ∧ k = x))
      (by intro d' k; by_cases hd : d' = d <;> simp [hd])
      (by intro d' k; by_cases hd : d' = d <;> simp [hd])
    have o12 := o1.trans o2
    obtain ⟨s3, e3, o3, n3⟩ := ih n2 (by rw [o12.ilen]; exact ha) hn.2
      (by
        intro k hkx
        obtain ⟨p, q⟩ := hk k (by simp [hkx])
        refine ⟨⟨p, ?_⟩, by rw [o12.data]; exact q⟩
        rintro ⟨_, rfl⟩; exact hn.1 hkx)
      (by
        intro k hkx j hj hjk
        rw [o12.data]
        exact hu k (by simp [hkx]) j hj.1 hjk)
    refine ⟨s3, ?_, o12.trans o3, n3.iff ?_ ?_⟩
    · simp only [moveOut, e1, Option.bind_some, e2, e3]
    · intro d' k
      by_cases hd : d' = d <;> simp [hd, and_assoc]
    · intro d' k
      by_cases hd : d' = d <;> simp [hd, or_assoc]

end Verif.Split
