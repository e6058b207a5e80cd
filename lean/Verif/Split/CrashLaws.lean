import Verif.Split.Crash
import Verif.Split.Query

/-!
# What a crash image of the split store still holds (helper lemmas)
-/

namespace Verif.Split
open Verif

variable {c : Cfg}

/-- All states after updates satisfy `P`. -/
def Run.All (P : Store → Prop) (r : Run) (s : Store) : Prop := ∀ m ∈ (r s).1, P m

theorem Run.All.mem {P : Store → Prop} {r : Run} {s m : Store} (h : Run.All P r s) (hm : m ∈ (r s).1) : P m := h m hm

theorem Run.all_done {P : Store → Prop} {s : Store} : Run.All P .done s := by intro m hm; cases hm

theorem Run.all_upd {P : Store → Prop} {f : Store → Option Store} {s : Store} (h : ∀ s', f s = some s' → P s') :
    Run.All P (.upd f) s := by
  intro m hm
  unfold Run.upd at hm
  cases hf : f s with
  | none => rw [hf] at hm; cases hm
  | some s' =>
    rw [hf] at hm
    simp only [List.mem_singleton] at hm
    subst hm; exact h _ hf

theorem Run.all_seq {P : Store → Prop} {a b : Run} {s : Store} (h1 : Run.All P a s)
    (h2 : ∀ s1, (a s).2 = some s1 → Run.All P b s1) : Run.All P (.seq a b) s := by
  intro m hm
  unfold Run.seq at hm
  cases hf : (a s).2 with
  | none => rw [hf] at hm; exact h1 m hm
  | some s1 =>
    rw [hf] at hm
    simp only [List.mem_append] at hm
    rcases hm with hm | hm
    · exact h1 m hm
    · exact h2 s1 hf m hm

theorem Run.all_read {P : Store → Prop} {α : Type} {f : Store → Option α} {g : α → Run} {s : Store}
    (h : ∀ x, f s = some x → Run.All P (g x) s) : Run.All P (.read f g) s := by
  intro m hm
  unfold Run.read at hm
  cases hf : f s with
  | none => rw [hf] at hm; cases hm
  | some x => rw [hf] at hm; exact h x hf m hm

/-- One update, then the rest, when the update is known to succeed. -/
theorem Run.all_then {P : Store → Prop} {f : Store → Option Store} {b : Run} {s s1 : Store} (h : f s = some s1)
    (h1 : P s1) (h2 : Run.All P b s1) : Run.All P (.seq (.upd f) b) s :=
  Run.all_seq (Run.all_upd fun s' hs => by rw [h] at hs; cases hs; exact h1)
    (fun s' hs => by rw [Run.upd_2, h] at hs; cases hs; exact h2)

theorem Run.all_imp {P Q : Store → Prop} {r : Run} {s : Store} (h : Run.All P r s) (hpq : ∀ m, P m → Q m) :
    Run.All Q r s := fun m hm => hpq m (h m hm)

/-- Each end of `p` is that of `q` or that of `r`. -/
def Part (p q r : Nat × Nat) : Prop := (p.1 = q.1 ∨ p.1 = r.1) ∧ (p.2 = q.2 ∨ p.2 = r.2)

theorem Part.old {p q r : Nat × Nat} (h : p = q) : Part p q r := by subst h; exact ⟨.inl rfl, .inl rfl⟩

theorem Part.new {p q r : Nat × Nat} (h : p = r) : Part p q r := by subst h; exact ⟨.inr rfl, .inr rfl⟩

/-- `m` holds the links of `s`, apart from `i`, but some may not be where they belong: `i`, and if `D` holds (deletion)
the links that refer to `i`. `new` is the doublet link `i` may already have while its target is not attached. -/
structure Image (c : Cfg) (s : Store) (free : List Nat) (i : Nat) (D : Prop) (new : Nat × Nat) (m : Store)
    (free' : List Nat) (I E : Side → Nat → Prop) : Prop where
  net : Net c m free' I E
  keep : ∀ k, k ≠ i → LiveIn s free k → LiveIn m free' k ∧ m.data k = s.data k
  only : ∀ k, LiveIn m free' k → LiveIn s free k ∨ m.data k = (0, 0)
  seen : ∀ k, k ≠ i → LiveIn s free k → ¬ (D ∧ (s.data k).2 = i) → (s.data k).1 ≠ 0 → I .tgt k ∨ E .tgt k
  int : ∀ d k, k ≠ i → LiveIn s free k → endOf d (s.data k) ≠ 0 → ¬ (D ∧ endOf d (s.data k) = i) →
    LiveIn s free (endOf d (s.data k)) → I d k
  ext : ∀ d k, k ≠ i → LiveIn s free k → endOf d (s.data k) ≠ 0 → ¬ (D ∧ endOf d (s.data k) = i) →
    ¬ LiveIn s free (endOf d (s.data k)) → E d k
  self : (I .src i ∨ E .src i) → (m.data i).1 ≠ 0 → (I .tgt i ∨ E .tgt i) ∨ m.data i = new
  own : (I .tgt i ∨ E .tgt i) → m.data i = s.data i ∨ m.data i = new
  raw : ¬ D → (∀ k ∈ free', k ∈ free) ∧ Part (m.data i) (s.data i) new

/-- Some image. -/
def IsImage (c : Cfg) (s : Store) (free : List Nat) (i : Nat) (D : Prop) (new : Nat × Nat) (m : Store) : Prop :=
  ∃ free' I E, Image c s free i D new m free' I E

/-- The state before the call. -/
theorem Inv0.image {s : Store} {free : List Nat} (h : Inv0 c s free) (i : Nat) (D : Prop) (new : Nat × Nat) :
    Image c s free i D new s free (IntRef s free) (ExtRef s free) where
  net := h.net
  keep k _ hk := ⟨hk, rfl⟩
  only k hk := .inl hk
  seen k _ hk _ hs := h.exact k hk hs
  int d k _ hk h0 _ hl := ⟨hk, h0, hl⟩
  ext d k _ hk h0 _ hl := ⟨hk, h0, hl⟩
  self hi hs := .inl (h.exact i (by rcases hi with hi | hi <;> exact hi.1) hs)
  own _ := .inl rfl
  raw _ := ⟨fun _ hk => hk, .old rfl⟩

/-! ### Update -/

/-- The states while link `i` is taken out of its trees, changed and put back. -/
structure Off (c : Cfg) (s : Store) (free : List Nat) (I E : Side → Nat → Prop) (i a b : Nat) (m : Store)
    (I' E' : Side → Nat → Prop) : Prop where
  net : Net c m free I' E'
  allocated : m.hdr.allocated = s.hdr.allocated
  data : ∀ k, k ≠ i → m.data k = s.data k
  off : ∀ d k, k ≠ i → ((I' d k ↔ I d k) ∧ (E' d k ↔ E d k))
  self : (¬ I' .src i ∧ ¬ E' .src i) ∨ m.data i = (a, b)
  own : (I' .tgt i ∨ E' .tgt i) → m.data i = s.data i ∨ m.data i = (a, b)
  part : Part (m.data i) (s.data i) (a, b)

theorem relink_images (hc : CfgOK c) {s : Store} {free : List Nat} {I E : Side → Nat → Prop} {i : Nat}
    (h : Net c s free I E) (hx : Exact s free I E) (hi : LiveIn s free i)
    (h0 : ∀ d, endOf d (s.data i) = 0 → ¬ I d i ∧ ¬ E d i)
    (h1 : ∀ d, endOf d (s.data i) ≠ 0 → LiveIn s free (endOf d (s.data i)) → I d i)
    (h2 : ∀ d, endOf d (s.data i) ≠ 0 → ¬ LiveIn s free (endOf d (s.data i)) → E d i)
    (hu : ∀ d, endOf d (s.data i) ≠ 0 → ∀ k, I d k ∨ E d k → k ≠ i → s.data k ≠ s.data i)
    (a b : Nat) (hg : a = i ∨ b = i → (s.data i).1 = 0) :
    Run.All (fun m => ∃ I' E', Off c s free I E i a b m I' E') (relinkRun c (s.linkAt i) i a b) s := by
  obtain ⟨s1, e1, o1, n1⟩ := detachEnd_ok hc h (d := .src) (i := i) rfl (h0 .src) (h1 .src) (h2 .src)
    (hx _) (hu .src)
  have l1 := fun k => liveIn_only (free := free) o1 k
  obtain ⟨s2, e2, o2, n2⟩ := detachEnd_ok hc n1 (d := .tgt) (i := i) (e := (s.data i).2)
    (by rw [o1.data]; rfl)
    (fun hz => ⟨fun x => (h0 .tgt hz).1 x.1, fun x => (h0 .tgt hz).2 x.1⟩)
    (fun hz hl => ⟨h1 .tgt hz ((l1 _).1 hl), by simp⟩)
    (fun hz hl => ⟨h2 .tgt hz (fun x => hl ((l1 _).2 x)), by simp⟩)
    (fun hl hs => by
      rw [o1.data] at hs
      rcases hx _ ((l1 _).1 hl) hs with x | x
      · exact Or.inl ⟨x, by simp⟩
      · exact Or.inr ⟨x, by simp⟩)
    (fun hz k hk hki => by
      rw [o1.data]
      refine hu .tgt hz k ?_ hki
      rcases hk with hk | hk
      · exact Or.inl hk.1
      · exact Or.inr hk.1)
  have l2 : ∀ k, LiveIn s2 free k ↔ LiveIn s free k := fun k => (liveIn_only o2 k).trans (l1 k)
  have d2 : s2.data = s.data := o2.data.trans o1.data
  have hI2 : ∀ d k, (k ≠ i ∧ I d k) ↔ (I d k ∧ ¬(d = Side.src ∧ k = i)) ∧ ¬(d = Side.tgt ∧ k = i) := by
    intro d k; cases d <;> simp [and_comm]
  have hE2 : ∀ d k, (k ≠ i ∧ E d k) ↔ (E d k ∧ ¬(d = Side.src ∧ k = i)) ∧ ¬(d = Side.tgt ∧ k = i) := by
    intro d k; cases d <;> simp [and_comm]
  have n2 := n2.iff hI2 hE2
  have un : ∀ e, e ≠ 0 → (e = i → (s.data i).1 = 0) →
      isUnused s2 e = some (decide (¬ LiveIn s free e)) := by
    intro e he hei
    rw [n2.unused he]
    · simp only [l2]
    · intro hl hs
      rw [d2] at hs
      have hne : e ≠ i := by rintro rfl; exact hs (hei rfl)
      rcases hx e ((l2 e).1 hl) hs with x | x
      · exact Or.inl ⟨hne, x⟩
      · exact Or.inr ⟨hne, x⟩
  have hi2 : LiveIn s2 free i := (l2 i).2 hi
  have hn2 : ∀ d, ¬ (i ≠ i ∧ I d i) ∧ ¬ (i ≠ i ∧ E d i) := fun d => ⟨fun x => x.1 rfl, fun x => x.1 rfl⟩
  obtain ⟨s3, e3, n3, hh3, hl3, d3⟩ := setPair_ok n2 hi2 hn2 a (s2.data i).2
  have hi3 : LiveIn s3 free i := by simpa only [LiveIn, hh3] using hi2
  obtain ⟨s3', e3', n3', hh3', hl3', d3'⟩ := setPair_ok n3 hi3 hn2 (s3.data i).1 b
  have l3 : ∀ k, LiveIn s3' free k ↔ LiveIn s free k := by
    intro k; rw [← l2 k]; simp only [LiveIn, hh3', hh3]
  have d3i : s3'.data i = (a, b) := by rw [d3', if_pos rfl, d3, if_pos rfl]
  have d3k : ∀ k, k ≠ i → s3'.data k = s.data k := by
    intro k hk; rw [d3', if_neg hk, d3, if_neg hk, d2]
  have hi3' : LiveIn s3' free i := (l3 i).2 hi
  have hoff : ∀ (J F : Side → Nat → Prop), (∀ d k, J d k ↔ k ≠ i ∧ I d k) → (∀ d k, F d k ↔ k ≠ i ∧ E d k) →
      ∀ d k, k ≠ i → ((J d k ↔ I d k) ∧ (F d k ↔ E d k)) := by
    intro J F hJ hF d k hk
    rw [hJ, hF]
    exact ⟨and_iff_right hk, and_iff_right hk⟩
  have e1 : detachEnd c .src (s.linkAt i).source i s = some s1 := e1
  have e2 : detachEnd c .tgt (s.linkAt i).target i s1 = some s2 := e2
  refine Run.all_then e1 ⟨_, _, n1, o1.allocated, fun k _ => by rw [o1.data],
    fun d k hk => ⟨by simp [hk], by simp [hk]⟩, .inl ⟨by simp, by simp⟩, fun _ => .inl (by rw [o1.data]),
    .old (by rw [o1.data])⟩ ?_
  refine Run.all_then e2 ⟨_, _, n2, o2.allocated.trans o1.allocated, fun k _ => by rw [d2],
    fun d k hk => ⟨and_iff_right hk, and_iff_right hk⟩, .inl (hn2 _), fun x => absurd x (not_or.2 (hn2 _)),
    .old (by rw [d2])⟩ ?_
  refine Run.all_read fun vs hvs => Run.all_read fun vt hvt => ?_
  refine Run.all_then (f := setSource i a) e3 ⟨_, _, n3, by rw [hh3, o2.allocated, o1.allocated],
    fun k hk => by rw [d3, if_neg hk, d2], fun d k hk => ⟨and_iff_right hk, and_iff_right hk⟩, .inl (hn2 _),
    fun x => absurd x (not_or.2 (hn2 _)), ⟨.inr (by rw [d3, if_pos rfl]), .inl (by rw [d3, if_pos rfl, d2])⟩⟩ ?_
  refine Run.all_then (f := setTarget i b) e3' ⟨_, _, n3', by rw [hh3', hh3, o2.allocated, o1.allocated],
    fun k hk => by rw [d3k k hk], fun d k hk => ⟨and_iff_right hk, and_iff_right hk⟩, .inl (hn2 _),
    fun x => absurd x (not_or.2 (hn2 _)), .new d3i⟩ ?_
  obtain ⟨s4, e4, o4, n4⟩ := attachEnd_ok hc n3' (d := .src) (i := i) (e := a) (v := vs) hi3'
    (by rw [d3i]; rfl) (fun x => x.1 rfl) (fun x => x.1 rfl) (by
      intro ha
      have := hvs.symm.trans (un a ha (fun e => hg (Or.inl e)))
      simpa only [l3, Option.some.injEq] using this)
  have hi4 : LiveIn s4 free i := (liveIn_only o4 i).2 hi3'
  have l4 : ∀ k, LiveIn s4 free k ↔ LiveIn s free k := fun k => (liveIn_only o4 k).trans (l3 k)
  obtain ⟨s5, e5, o5, n5⟩ := attachEnd_ok hc n4 (d := .tgt) (i := i) (e := b) (v := vt) hi4
    (by rw [o4.data, d3i]; rfl) (by rintro (x | x); exact x.1 rfl; exact absurd x.1 (by simp))
    (by rintro (x | x); exact x.1 rfl; exact absurd x.1 (by simp)) (by
      intro hb
      have := hvt.symm.trans (un b hb (fun e => hg (Or.inr e)))
      simpa only [l4, Option.some.injEq] using this)
  refine Run.all_then e4 ⟨_, _, n4, by rw [o4.allocated, hh3', hh3, o2.allocated, o1.allocated],
    fun k hk => by rw [o4.data, d3k k hk], fun d k hk => ⟨by simp [hk], by simp [hk]⟩,
    .inr (by rw [o4.data, d3i]), fun _ => .inr (by rw [o4.data, d3i]), .new (by rw [o4.data, d3i])⟩ ?_
  refine Run.all_upd fun s' hs => ?_
  rw [e5] at hs
  cases hs
  exact ⟨_, _, n5, by rw [o5.allocated, o4.allocated, hh3', hh3, o2.allocated, o1.allocated],
    fun k hk => by rw [o5.data, o4.data, d3k k hk], fun d k hk => ⟨by simp [hk], by simp [hk]⟩,
    .inr (by rw [o5.data, o4.data, d3i]), fun _ => .inr (by rw [o5.data, o4.data, d3i]),
    .new (by rw [o5.data, o4.data, d3i])⟩

/-- While link `i` is changed it is out of all trees for a moment. -/
theorem relink_hides (hc : CfgOK c) {s : Store} {free : List Nat} (h : Inv0 c s free) {i : Nat}
    (hi : LiveIn s free i) (hu : NoTwinIn s free i) (a b : Nat) :
    ∃ m ∈ (relinkRun c (s.linkAt i) i a b s).1, m.hdr.allocated = s.hdr.allocated ∧ m.data = s.data ∧
      ∃ I' E', Net c m free I' E' ∧ ¬ I' .tgt i ∧ ¬ E' .tgt i := by
  obtain ⟨s1, e1, o1, n1⟩ := detachEnd_ok hc h.net (d := .src) (i := i) rfl
    (fun he => ⟨fun x => x.2.1 he, fun x => x.2.1 he⟩) (fun he hl => ⟨hi, he, hl⟩) (fun he hl => ⟨hi, he, hl⟩)
    (h.exact _) (noTwin_tree h hu .src)
  have l1 := fun k => liveIn_only (free := free) o1 k
  obtain ⟨s2, e2, o2, n2⟩ := detachEnd_ok hc n1 (d := .tgt) (i := i) (e := (s.data i).2)
    (by rw [o1.data]; rfl)
    (fun hz => ⟨fun x => x.1.2.1 hz, fun x => x.1.2.1 hz⟩)
    (fun hz hl => ⟨⟨hi, hz, (l1 _).1 hl⟩, by simp⟩)
    (fun hz hl => ⟨⟨hi, hz, fun x => hl ((l1 _).2 x)⟩, by simp⟩)
    (fun hl hs => by
      rw [o1.data] at hs
      rcases h.exact _ ((l1 _).1 hl) hs with x | x
      · exact Or.inl ⟨x, by simp⟩
      · exact Or.inr ⟨x, by simp⟩)
    (fun hz k hk hki => by
      rw [o1.data]
      refine noTwin_tree h hu .tgt hz k ?_ hki
      rcases hk with hk | hk
      · exact Or.inl hk.1
      · exact Or.inr hk.1)
  have e1 : detachEnd c .src (s.linkAt i).source i s = some s1 := e1
  have e2 : detachEnd c .tgt (s.linkAt i).target i s1 = some s2 := e2
  refine ⟨s2, ?_, o2.allocated.trans o1.allocated, o2.data.trans o1.data, _, _, n2, by simp, by simp⟩
  unfold relinkRun
  simp only [Run.seq, Run.upd, e1, e2]
  simp

theorem update_images (hc : CfgOK c) {s : Store} {free : List Nat} (h : Inv c s free) {i : Nat}
    (hi : LiveIn s free i) (hu : NoTwinIn s free i) (a b : Nat) (hg : UpdOK (s.data i) i a b) :
    Run.All (IsImage c s free i False (a, b)) (relinkRun c (s.linkAt i) i a b) s := by
  refine Run.all_imp (relink_images hc h.net h.exact hi
    (fun d he => ⟨fun x => x.2.1 he, fun x => x.2.1 he⟩)
    (fun d he hl => ⟨hi, he, hl⟩) (fun d he hl => ⟨hi, he, hl⟩)
    (noTwin_tree h.toInv0 hu) a b hg.2) ?_
  rintro m ⟨I', E', g⟩
  have hl : ∀ k, LiveIn m free k ↔ LiveIn s free k := fun k => by simp only [LiveIn, g.allocated]
  refine ⟨free, I', E', g.net, fun k hk hl' => ⟨(hl k).2 hl', g.data k hk⟩, fun k hl' => .inl ((hl k).1 hl'), ?_, ?_,
    ?_, ?_, g.own, fun _ => ⟨fun _ hk => hk, g.part⟩⟩
  · intro k hk hl' _ hs
    rw [(g.off .tgt k hk).1, (g.off .tgt k hk).2]
    exact h.exact k hl' hs
  · intro d k hk hl' he _ hle
    rw [(g.off d k hk).1]; exact ⟨hl', he, hle⟩
  · intro d k hk hl' he _ hle
    rw [(g.off d k hk).2]; exact ⟨hl', he, hle⟩
  · intro hs _
    rcases g.self with hn | hn
    · rcases hs with hs | hs
      · exact absurd hs hn.1
      · exact absurd hs hn.2
    · exact .inr hn

/-! ### Delete -/

/-- Moving links from the internal tree of `a` to the external tree: the states in between. -/
theorem moveOut_images (hc : CfgOK c) {d : Side} {a : Nat} {s0 : Store} {free : List Nat} {I0 E0 : Side → Nat → Prop}
    {U : Side → Nat → Prop} : ∀ (ks : List Nat) {s : Store} {I E : Side → Nat → Prop}, Net c s free I E →
    s.hdr.allocated = s0.hdr.allocated → s.data = s0.data →
    (∀ d k, ¬ U d k → ((I d k ↔ I0 d k) ∧ (E d k ↔ E0 d k))) → a < s.ilen → ks.Nodup → (∀ k ∈ ks, U d k) →
    (∀ k ∈ ks, I d k ∧ endOf d (s.data k) = a) →
    (∀ k ∈ ks, ∀ j, I d j → j ≠ k → s.data j ≠ s.data k) →
    Run.All (fun m => ∃ I' E', Net c m free I' E' ∧ m.hdr.allocated = s0.hdr.allocated ∧ m.data = s0.data ∧
        ∀ d k, ¬ U d k → ((I' d k ↔ I0 d k) ∧ (E' d k ↔ E0 d k)))
      (moveRun (fun k s => detachInt c d s a k) (fun k s => attachExt c d s k) ks) s := by
  intro ks
  induction ks with
  | nil => intro s I E _ _ _ _ _ _ _ _ _; exact Run.all_done
  | cons x xs ih =>
    intro s I E h hA hD hU ha hn hks hk hu
    rw [List.nodup_cons] at hn
    obtain ⟨hx, hxa⟩ := hk x (by simp)
    have hxz := nonzero_of_forest (h.forest d) (Or.inl hx)
    have hxl := h.live d x (Or.inl hx)
    have hxU := hks x (by simp)
    obtain ⟨ti, te, f1, f2, f3, f4, f5, f6, f7⟩ := h.forest d
    obtain ⟨s1, e1, g1, o1⟩ := detachInt_ok hc (h.forest d) hx hxa ha (hu x (by simp))
    have n1 := h.step o1 g1 (by
      rintro k (hk | hk)
      · exact h.live d k (Or.inl hk.1)
      · exact h.live d k (Or.inr hk))
    obtain ⟨s2, e2, g2, o2⟩ := attachExt_ok hc (i := x) g1 hxz (fun y => y.2 rfl) (f5 x hx)
    have n2 := n1.step o2 g2 (by
      intro k hk
      rw [liveIn_only o1]
      rcases hk with hk | hk | rfl
      · exact h.live d k (Or.inl hk.1)
      · exact h.live d k (Or.inr hk)
      · exact hxl)
    have n2 := n2.iff (I' := fun d' k => I d' k ∧ ¬ (d' = d ∧ k = x))
      (E' := fun d' k => E d' k ∨ (d' = d ∧ k = x))
      (by intro d' k; by_cases hd : d' = d <;> simp [hd])
      (by intro d' k; by_cases hd : d' = d <;> simp [hd])
    have n1 := n1.iff (I' := fun d' k => I d' k ∧ ¬ (d' = d ∧ k = x)) (E' := E)
      (by intro d' k; by_cases hd : d' = d <;> simp [hd])
      (by intro d' k; by_cases hd : d' = d <;> simp [hd])
    have o12 := o1.trans o2
    have hne : ∀ d' k, ¬ U d' k → ¬ (d' = d ∧ k = x) := by
      rintro d' k hkU ⟨e, e'⟩; rw [e, e'] at hkU; exact hkU hxU
    have hU1 : ∀ d' k, ¬ U d' k → ((I d' k ∧ ¬ (d' = d ∧ k = x) ↔ I0 d' k) ∧ (E d' k ↔ E0 d' k)) := by
      intro d' k hk
      rw [and_iff_left (hne d' k hk)]; exact hU d' k hk
    have hU2 : ∀ d' k, ¬ U d' k → ((I d' k ∧ ¬ (d' = d ∧ k = x) ↔ I0 d' k) ∧
        (E d' k ∨ (d' = d ∧ k = x) ↔ E0 d' k)) := by
      intro d' k hk
      rw [and_iff_left (hne d' k hk), or_iff_left (hne d' k hk)]; exact hU d' k hk
    refine Run.all_then e1 ⟨_, _, n1, o1.allocated.trans hA, o1.data.trans hD, hU1⟩ ?_
    refine Run.all_then e2 ⟨_, _, n2, o12.allocated.trans hA, o12.data.trans hD, hU2⟩ ?_
    refine ih n2 (o12.allocated.trans hA) (o12.data.trans hD) hU2 (by rw [o12.ilen]; exact ha) hn.2
      (fun k hkx => hks k (by simp [hkx])) ?_ ?_
    · intro k hkx
      obtain ⟨p, q⟩ := hk k (by simp [hkx])
      refine ⟨⟨p, ?_⟩, by rw [o12.data]; exact q⟩
      rintro ⟨_, rfl⟩; exact hn.1 hkx
    · intro k hkx j hj hjk
      rw [o12.data]
      exact hu k (by simp [hkx]) j hj.1 hjk

/-- The states while the users of `i` are moved. -/
def Moving (c : Cfg) (s : Store) (free : List Nat) (i : Nat) (m : Store) : Prop :=
  ∃ I E, Net c m free I E ∧ m.hdr.allocated = s.hdr.allocated ∧ m.data = s.data ∧
    ∀ d k, ¬ UserOf s free i d k → ((I d k ↔ IntRef s free d k) ∧ (E d k ↔ ExtRef s free d k))

theorem Moving.image {s m : Store} {free : List Nat} (h : Inv0 c s free) {i : Nat} (hm : Moving c s free i m) :
    IsImage c s free i True (0, 0) m := by
  obtain ⟨I, E, n, ha, hd, hU⟩ := hm
  have hl : ∀ k, LiveIn m free k ↔ LiveIn s free k := fun k => by simp only [LiveIn, ha]
  have hns : ∀ d, ¬ UserOf s free i d i := fun d x => x.2.1 rfl
  refine ⟨free, I, E, n, fun k _ hk => ⟨(hl k).2 hk, by rw [hd]⟩, fun k hk => .inl ((hl k).1 hk), ?_, ?_, ?_, ?_,
    fun _ => .inl (by rw [hd]), fun hn => absurd trivial hn⟩
  · intro k hk hlk hne hs
    have hu : ¬ UserOf s free i .tgt k := fun x => hne ⟨trivial, x.2.2⟩
    rw [(hU .tgt k hu).1, (hU .tgt k hu).2]
    exact h.exact k hlk hs
  · intro d k hk hlk he hne hle
    have hu : ¬ UserOf s free i d k := fun x => hne ⟨trivial, x.2.2⟩
    rw [(hU d k hu).1]; exact ⟨hlk, he, hle⟩
  · intro d k hk hlk he hne hle
    have hu : ¬ UserOf s free i d k := fun x => hne ⟨trivial, x.2.2⟩
    rw [(hU d k hu).2]; exact ⟨hlk, he, hle⟩
  · intro hi hs
    left
    rw [(hU .tgt i (hns _)).1, (hU .tgt i (hns _)).2]
    rw [(hU .src i (hns _)).1, (hU .src i (hns _)).2] at hi
    refine h.exact i (by rcases hi with hi | hi <;> exact hi.1) ?_
    rw [← hd]; exact hs

theorem resolve_images (hc : CfgOK c) {s : Store} {free : List Nat} (h : Inv0 c s free) {i : Nat}
    (hi : LiveIn s free i) (hu : ∀ d k, UserOf s free i d k → NoTwinIn s free k) :
    Run.All (Moving c s free i) (resolveInternalRun c i) s := by
  have hi0 : i ≠ 0 := by have := hi.1; omega
  have hlt := live_lt h.base hi
  have husr : ∀ d k, UserOf s free i d k → IntRef s free d k :=
    fun d k hk => ⟨hk.1, by rw [hk.2.2]; exact hi0, by rw [hk.2.2]; exact hi⟩
  have huniq : ∀ d k, UserOf s free i d k → ∀ j, IntRef s free d j → j ≠ k → s.data j ≠ s.data k := by
    intro d k hk j hj hjk
    rcases hu d k hk with x | x
    · have := hk.2.2
      rw [x] at this
      cases d <;> exact absurd this.symm hi0
    · exact x j hj.1 hjk
  obtain ⟨L1, e1, n1, m1⟩ := eachIter_side hc h.net h.exact .src hi
  have hks1 : ((L1.map s.linkAt).map (·.index)).filter (· ≠ i) = L1.filter (· ≠ i) := by
    rw [List.map_map]; congr 1; exact List.map_id' L1
  have mk1 : ∀ k, k ∈ L1.filter (· ≠ i) ↔ UserOf s free i .src k := by
    intro k
    simp only [List.mem_filter, m1, decide_eq_true_eq]
    constructor
    · rintro ⟨⟨a1, a2⟩, a3⟩; exact ⟨a1.1, a3, a2⟩
    · intro hk; exact ⟨⟨husr .src k hk, hk.2.2⟩, hk.2.1⟩
  obtain ⟨s1, f1, o1, w1⟩ := moveOut_ok hc (d := .src) (a := i) (L1.filter (· ≠ i)) h.net hlt
    (n1.filter _) (fun k hk => ⟨husr .src k ((mk1 k).1 hk), ((mk1 k).1 hk).2.2⟩)
    (fun k hk => huniq .src k ((mk1 k).1 hk))
  have l1 := fun k => liveIn_only (free := free) o1 k
  have hi1 : LiveIn s1 free i := (l1 i).2 hi
  have x1 : Exact s1 free (fun d' k => IntRef s free d' k ∧ ¬(d' = Side.src ∧ k ∈ L1.filter (· ≠ i)))
      (fun d' k => ExtRef s free d' k ∨ (d' = Side.src ∧ k ∈ L1.filter (· ≠ i))) := by
    intro e he hs
    rw [o1.data] at hs
    rcases h.exact e ((l1 e).1 he) hs with x | x
    · exact Or.inl ⟨x, by simp⟩
    · exact Or.inr (Or.inl x)
  obtain ⟨L2, e2, n2, m2⟩ := eachIter_side hc w1 x1 .tgt hi1
  have m2' : ∀ k, k ∈ L2 ↔ IntRef s free .tgt k ∧ (s.data k).2 = i := by
    intro k
    rw [m2, o1.data]
    simp [endOf]
  have hks2 : tgtUsers i (L2.map s1.linkAt) = L2.filter (· ≠ i) := by
    unfold tgtUsers
    rw [List.filter_filter, List.filter_map, List.map_map]
    have : L2.filter ((fun l : Link => decide (¬(l.index = l.source ∧ l.index = l.target)) &&
        decide (l.index ≠ i)) ∘ s1.linkAt) = L2.filter (· ≠ i) := by
      refine List.filter_congr ?_
      intro k hk
      have ht := ((m2' k).1 hk).2
      simp only [Function.comp, Store.linkAt, o1.data, ht]
      by_cases hki : k = i <;> simp [hki]
    rw [this]; exact List.map_id' _
  have mk2 : ∀ k, k ∈ L2.filter (· ≠ i) ↔ UserOf s free i .tgt k := by
    intro k
    simp only [List.mem_filter, m2', decide_eq_true_eq]
    constructor
    · rintro ⟨⟨a1, a2⟩, a3⟩; exact ⟨a1.1, a3, a2⟩
    · intro hk; exact ⟨⟨husr .tgt k hk, hk.2.2⟩, hk.2.1⟩
  unfold resolveInternalRun
  refine Run.all_read fun l1' hl1 => ?_
  rw [e1, Option.some.injEq] at hl1
  subst hl1
  rw [hks1]
  refine Run.all_seq ?_ fun s1' hs1 => ?_
  · exact moveOut_images hc (U := UserOf s free i) (I0 := IntRef s free) (E0 := ExtRef s free) _ h.net rfl rfl
      (fun _ _ _ => ⟨Iff.rfl, Iff.rfl⟩) hlt (n1.filter _) (fun k hk => (mk1 k).1 hk)
      (fun k hk => ⟨husr .src k ((mk1 k).1 hk), ((mk1 k).1 hk).2.2⟩) (fun k hk => huniq .src k ((mk1 k).1 hk))
  · rw [moveOut_run, f1, Option.some.injEq] at hs1
    subst hs1
    refine Run.all_read fun l2' hl2 => ?_
    rw [e2, Option.some.injEq] at hl2
    subst hl2
    rw [hks2]
    refine moveOut_images hc (U := UserOf s free i) (I0 := IntRef s free) (E0 := ExtRef s free) _ w1 o1.allocated
      o1.data ?_ (by rw [o1.ilen]; exact hlt) (n2.filter _) (fun k hk => (mk2 k).1 hk)
      (fun k hk => ⟨⟨husr .tgt k ((mk2 k).1 hk), by simp⟩, by rw [o1.data]; exact ((mk2 k).1 hk).2.2⟩)
      (fun k hk j hj => by rw [o1.data]; exact huniq .tgt k ((mk2 k).1 hk) j hj.1)
    intro d k hk
    have hk' : ¬ (d = .src ∧ k ∈ L1.filter (· ≠ i)) := by
      rintro ⟨e, e'⟩; rw [mk1] at e'; rw [e] at hk; exact hk e'
    rw [and_iff_left hk', or_iff_left hk']
    exact ⟨Iff.rfl, Iff.rfl⟩

/-- While the users of `i` are moved, each link whose target is `i` is out of the target trees for a moment. -/
theorem moveOut_hides (hc : CfgOK c) {free : List Nat} {d : Side} {a x0 : Nat} :
    ∀ (ks : List Nat) {s : Store} {I E : Side → Nat → Prop}, Net c s free I E → a < s.ilen → ks.Nodup →
    (∀ k ∈ ks, I d k ∧ endOf d (s.data k) = a) → (∀ k ∈ ks, ∀ j, I d j → j ≠ k → s.data j ≠ s.data k) → x0 ∈ ks →
    ∃ m ∈ (moveRun (fun k s => detachInt c d s a k) (fun k s => attachExt c d s k) ks s).1,
      m.hdr.allocated = s.hdr.allocated ∧ m.data = s.data ∧
      ∃ I' E', Net c m free I' E' ∧ ¬ I' d x0 ∧ ¬ E' d x0 := by
  intro ks
  induction ks with
  | nil => intro s I E _ _ _ _ _ h; cases h
  | cons x xs ih =>
    intro s I E h ha hn hk hu hx0
    rw [List.nodup_cons] at hn
    obtain ⟨hx, hxa⟩ := hk x (by simp)
    have hxz := nonzero_of_forest (h.forest d) (Or.inl hx)
    have hxl := h.live d x (Or.inl hx)
    obtain ⟨ti, te, f1, f2, f3, f4, f5, f6, f7⟩ := h.forest d
    obtain ⟨s1, e1, g1, o1⟩ := detachInt_ok hc (h.forest d) hx hxa ha (hu x (by simp))
    have n1 := h.step o1 g1 (by
      rintro k (hk | hk)
      · exact h.live d k (Or.inl hk.1)
      · exact h.live d k (Or.inr hk))
    obtain ⟨s2, e2, g2, o2⟩ := attachExt_ok hc (i := x) g1 hxz (fun y => y.2 rfl) (f5 x hx)
    have n2 := n1.step o2 g2 (by
      intro k hk
      rw [liveIn_only o1]
      rcases hk with hk | hk | rfl
      · exact h.live d k (Or.inl hk.1)
      · exact h.live d k (Or.inr hk)
      · exact hxl)
    have n2 := n2.iff (I' := fun d' k => I d' k ∧ ¬ (d' = d ∧ k = x))
      (E' := fun d' k => E d' k ∨ (d' = d ∧ k = x))
      (by intro d' k; by_cases hd : d' = d <;> simp [hd])
      (by intro d' k; by_cases hd : d' = d <;> simp [hd])
    have n1 := n1.iff (I' := fun d' k => I d' k ∧ ¬ (d' = d ∧ k = x)) (E' := E)
      (by intro d' k; by_cases hd : d' = d <;> simp [hd])
      (by intro d' k; by_cases hd : d' = d <;> simp [hd])
    have o12 := o1.trans o2
    by_cases hxx : x0 = x
    · subst hxx
      refine ⟨s1, by simp [moveRun, Run.seq, Run.upd, e1], o1.allocated, o1.data, _, _, n1, by simp, f5 x0 hx⟩
    · obtain ⟨m, hm, q1, q2, q3⟩ := ih n2 (by rw [o12.ilen]; exact ha) hn.2 (fun k hkx => by
        obtain ⟨p, q⟩ := hk k (by simp [hkx])
        refine ⟨⟨p, ?_⟩, by rw [o12.data]; exact q⟩
        rintro ⟨_, rfl⟩; exact hn.1 hkx) (fun k hkx j hj hjk => by
        rw [o12.data]
        exact hu k (by simp [hkx]) j hj.1 hjk) (by simpa [hxx] using hx0)
      refine ⟨m, ?_, q1.trans o12.allocated, q2.trans o12.data, q3⟩
      simp only [moveRun, Run.seq, Run.upd, e1, e2, List.mem_append, List.mem_singleton]
      exact .inr (.inr hm)

theorem resolve_hides (hc : CfgOK c) {s : Store} {free : List Nat} (h : Inv0 c s free) {i x0 : Nat}
    (hi : LiveIn s free i) (hu : ∀ d k, UserOf s free i d k → NoTwinIn s free k) (hx0 : UserOf s free i .tgt x0) :
    ∃ m ∈ (resolveInternalRun c i s).1, m.hdr.allocated = s.hdr.allocated ∧ m.data = s.data ∧
      ∃ I' E', Net c m free I' E' ∧ ¬ I' .tgt x0 ∧ ¬ E' .tgt x0 := by
  have hi0 : i ≠ 0 := by have := hi.1; omega
  have hlt := live_lt h.base hi
  have husr : ∀ d k, UserOf s free i d k → IntRef s free d k :=
    fun d k hk => ⟨hk.1, by rw [hk.2.2]; exact hi0, by rw [hk.2.2]; exact hi⟩
  have huniq : ∀ d k, UserOf s free i d k → ∀ j, IntRef s free d j → j ≠ k → s.data j ≠ s.data k := by
    intro d k hk j hj hjk
    rcases hu d k hk with x | x
    · have := hk.2.2
      rw [x] at this
      cases d <;> exact absurd this.symm hi0
    · exact x j hj.1 hjk
  obtain ⟨L1, e1, n1, m1⟩ := eachIter_side hc h.net h.exact .src hi
  have hks1 : ((L1.map s.linkAt).map (·.index)).filter (· ≠ i) = L1.filter (· ≠ i) := by
    rw [List.map_map]; congr 1; exact List.map_id' L1
  have mk1 : ∀ k, k ∈ L1.filter (· ≠ i) ↔ UserOf s free i .src k := by
    intro k
    simp only [List.mem_filter, m1, decide_eq_true_eq]
    constructor
    · rintro ⟨⟨a1, a2⟩, a3⟩; exact ⟨a1.1, a3, a2⟩
    · intro hk; exact ⟨⟨husr .src k hk, hk.2.2⟩, hk.2.1⟩
  obtain ⟨s1, f1, o1, w1⟩ := moveOut_ok hc (d := .src) (a := i) (L1.filter (· ≠ i)) h.net hlt
    (n1.filter _) (fun k hk => ⟨husr .src k ((mk1 k).1 hk), ((mk1 k).1 hk).2.2⟩)
    (fun k hk => huniq .src k ((mk1 k).1 hk))
  have l1 := fun k => liveIn_only (free := free) o1 k
  have hi1 : LiveIn s1 free i := (l1 i).2 hi
  have x1 : Exact s1 free (fun d' k => IntRef s free d' k ∧ ¬(d' = Side.src ∧ k ∈ L1.filter (· ≠ i)))
      (fun d' k => ExtRef s free d' k ∨ (d' = Side.src ∧ k ∈ L1.filter (· ≠ i))) := by
    intro e he hs
    rw [o1.data] at hs
    rcases h.exact e ((l1 e).1 he) hs with x | x
    · exact Or.inl ⟨x, by simp⟩
    · exact Or.inr (Or.inl x)
  obtain ⟨L2, e2, n2, m2⟩ := eachIter_side hc w1 x1 .tgt hi1
  have m2' : ∀ k, k ∈ L2 ↔ IntRef s free .tgt k ∧ (s.data k).2 = i := by
    intro k
    rw [m2, o1.data]
    simp [endOf]
  have hks2 : tgtUsers i (L2.map s1.linkAt) = L2.filter (· ≠ i) := by
    unfold tgtUsers
    rw [List.filter_filter, List.filter_map, List.map_map]
    have : L2.filter ((fun l : Link => decide (¬(l.index = l.source ∧ l.index = l.target)) &&
        decide (l.index ≠ i)) ∘ s1.linkAt) = L2.filter (· ≠ i) := by
      refine List.filter_congr ?_
      intro k hk
      have ht := ((m2' k).1 hk).2
      simp only [Function.comp, Store.linkAt, o1.data, ht]
      by_cases hki : k = i <;> simp [hki]
    rw [this]; exact List.map_id' _
  have mk2 : ∀ k, k ∈ L2.filter (· ≠ i) ↔ UserOf s free i .tgt k := by
    intro k
    simp only [List.mem_filter, m2', decide_eq_true_eq]
    constructor
    · rintro ⟨⟨a1, a2⟩, a3⟩; exact ⟨a1.1, a3, a2⟩
    · intro hk; exact ⟨⟨husr .tgt k hk, hk.2.2⟩, hk.2.1⟩
  obtain ⟨m, hm, q1, q2, q3⟩ := moveOut_hides hc (d := .tgt) (a := i) (x0 := x0) (L2.filter (· ≠ i)) w1
    (by rw [o1.ilen]; exact hlt) (n2.filter _)
    (fun k hk => ⟨⟨husr .tgt k ((mk2 k).1 hk), by simp⟩, by rw [o1.data]; exact ((mk2 k).1 hk).2.2⟩)
    (fun k hk j hj => by rw [o1.data]; exact huniq .tgt k ((mk2 k).1 hk) j hj.1) ((mk2 x0).2 hx0)
  refine ⟨m, ?_, q1.trans o1.allocated, q2.trans o1.data, q3⟩
  have hrun := moveOut_run c .src i (L1.filter (· ≠ i)) s
  rw [f1] at hrun
  unfold resolveInternalRun
  simp only [Run.read, e1, hks1]
  unfold Run.seq
  rw [hrun]
  simp only [List.mem_append]
  refine .inr ?_
  simp only [Run.read, e2, hks2]
  exact hm

/-- The loop that releases unused slots at the end: the states in between. -/
theorem release_images (hc : CfgOK c) {P : Store → Prop} {I E : Side → Nat → Prop} {s0 : Store} {free0 : List Nat}
    (hP : ∀ m free', Net c m free' I E → (∀ k, k ∉ free0 → m.data k = s0.data k) →
      (∀ k, 1 ≤ k → k ≤ s0.hdr.allocated → k ∉ free0 → LiveIn m free' k) →
      (∀ k, LiveIn m free' k → (k ≤ s0.hdr.allocated ∧ k ∉ free0) ∨ m.data k = (0, 0)) → P m) :
    ∀ (fuel : Nat) (s : Store) (free : List Nat), Net c s free I E → Exact s free I E →
    (∀ x ∈ free, x ∈ free0) → (∀ k, k ∉ free0 → s.data k = s0.data k) →
    (∀ k, LiveIn s0 free0 k ↔ LiveIn s free k) →
    Run.All P (releaseRun c fuel) s := by
  intro fuel
  induction fuel with
  | zero => intro s free _ _ _ _ _ m hm; cases hm
  | succ fuel ih =>
    intro s free h hx hfree hdat hlive
    refine Run.all_read fun u hu => ?_
    cases u with
    | false => exact Run.all_done
    | true =>
      simp only [if_true]
      refine Run.all_read fun a ha => ?_
      simp only [Option.some.injEq] at ha
      subst ha
      by_cases ha : s.hdr.allocated = 0
      · simp [ha] at hu
      · simp only [ha, if_false] at hu
        rw [h.unused ha (hx _)] at hu
        simp only [Option.some.injEq, decide_eq_true_eq] at hu
        have hm : s.hdr.allocated ∈ free := by
          by_cases hm : s.hdr.allocated ∈ free
          · exact hm
          · exact absurd ⟨by omega, Nat.le_refl _, hm⟩ hu
        obtain ⟨s1, h1, h2, h3, h4, h5, h6, h7⟩ := unusedDetach_ok hc h hm
        have hn := h.base.list.nodup
        let s2 : Store := { s1 with hdr := { s1.hdr with allocated := s.hdr.allocated - 1 } }
        have hne : ∀ x ∈ free.erase s.hdr.allocated, x ≠ s.hdr.allocated ∧ x ∈ free :=
          fun x hx => (hn.mem_erase_iff).1 hx
        have hlt := h.base.alloc_lt
        have hle := h.base.alloc_le
        have h2' : Net c s2 (free.erase s.hdr.allocated) I E := by
          refine setAllocated_ok h2 (by omega) (by omega) ?_ ?_ ?_
          · intro x hx
            have h8 := hne x hx
            have h9 := h.base.free_le x h8.2
            omega
          · intro k hk
            by_cases hk2 : k = s.hdr.allocated
            · rw [hk2]; exact h6
            · exact h2.base.beyond k (by rw [h4]; omega)
          · intro d k hk
            have h8 := h.live d k hk
            have : k ≠ s.hdr.allocated := fun e => h8.2.2 (e ▸ hm)
            have := h8.2.1
            omega
        have hs2a : s2.hdr.allocated = s.hdr.allocated - 1 := rfl
        have hx2 : Exact s2 (free.erase s.hdr.allocated) I E := by
          intro e he hs
          have hef : e ∉ free := by
            intro hef
            by_cases hea : e = s.hdr.allocated
            · have := he.2.1; rw [hs2a] at this; omega
            · exact he.2.2 ((hn.mem_erase_iff).2 ⟨hea, hef⟩)
          refine hx e ⟨he.1, ?_, hef⟩ ?_
          · have := he.2.1; rw [hs2a] at this; omega
          · rw [← h7 e hef]; exact hs
        have hdat1 : ∀ k, k ∉ free0 → s1.data k = s0.data k := fun k hk =>
          (h7 k fun x => hk (hfree k x)).trans (hdat k hk)
        have hl1 : ∀ k, LiveIn s1 (free.erase s.hdr.allocated) k ↔ LiveIn s free k ∨ k = s.hdr.allocated := by
          intro k
          simp only [LiveIn, h4, hn.mem_erase_iff]
          constructor
          · rintro ⟨a1, a2, a3⟩
            by_cases hk : k = s.hdr.allocated
            · exact .inr hk
            · exact .inl ⟨a1, a2, fun x => a3 ⟨hk, x⟩⟩
          · rintro (⟨a1, a2, a3⟩ | rfl)
            · exact ⟨a1, a2, fun x => a3 x.2⟩
            · exact ⟨by omega, Nat.le_refl _, fun x => x.1 rfl⟩
        have hl2 : ∀ k, LiveIn s2 (free.erase s.hdr.allocated) k ↔ LiveIn s free k := by
          intro k
          simp only [LiveIn, hs2a, hn.mem_erase_iff]
          constructor
          · rintro ⟨a1, a2, a3⟩; exact ⟨a1, by omega, fun x => a3 ⟨by omega, x⟩⟩
          · rintro ⟨a1, a2, a3⟩
            have : k ≠ s.hdr.allocated := fun e => a3 (e ▸ hm)
            exact ⟨a1, by omega, fun x => a3 x.2⟩
        have k1 : P s1 := by
          refine hP s1 _ h2 hdat1 ?_ ?_
          · intro k b1 b2 b3; exact (hl1 k).2 (.inl ((hlive k).1 ⟨b1, b2, b3⟩))
          · intro k hk
            rcases (hl1 k).1 hk with hk | rfl
            · exact .inl ⟨((hlive k).2 hk).2.1, ((hlive k).2 hk).2.2⟩
            · exact .inr h6
        have k2 : P s2 := by
          refine hP s2 _ h2' hdat1 ?_ ?_
          · intro k b1 b2 b3; exact (hl2 k).2 ((hlive k).1 ⟨b1, b2, b3⟩)
          · intro k hk
            have := (hlive k).2 ((hl2 k).1 hk)
            exact .inl ⟨this.2.1, this.2.2⟩
        refine Run.all_then h1 k1 (Run.all_then rfl k2 ?_)
        exact ih s2 _ h2' hx2 (fun x hx => hfree x (hne x hx).2) hdat1 (fun k => (hlive k).trans (hl2 k).symm)

theorem delete_images (hc : CfgOK c) {s : Store} {free : List Nat} (h : Inv c s free) {i : Nat}
    (hi : LiveIn s free i) (hu : NoTwinIn s free i) (huu : ∀ d k, UserOf s free i d k → NoTwinIn s free k) :
    Run.All (IsImage c s free i True (0, 0)) (callRun c (.delete i)) s := by
  have hpos := hi.1
  have hget : getLink c s i = some (some (s.linkAt i)) := by
    rw [getLink_eq hc h.net h.exact, if_pos hi]
  refine Run.all_read fun x hx => ?_
  rw [hget, Option.some.injEq] at hx
  subst hx
  simp only
  refine Run.all_seq (Run.all_imp (resolve_images hc h.toInv0 hi huu) fun m hm => hm.image h.toInv0) fun s0' hs0 => ?_
  obtain ⟨s0, r1, r2, r3, r4, r5⟩ := resolveInternal_ok hc h.toInv0 hi huu
  rw [resolveInternal_run, r1, Option.some.injEq] at hs0
  subst hs0
  have hl0 : ∀ k, LiveIn s0 free k ↔ LiveIn s free k := by intro k; simp only [LiveIn, r5]
  have hx0 : Exact s0 free (fun d k => IntRef s free d k ∧ ¬ UserOf s free i d k)
      (fun d k => ExtRef s free d k ∨ UserOf s free i d k) := by
    intro e he hs
    rw [r3] at hs
    rcases h.exact e ((hl0 e).1 he) hs with x | x
    · by_cases hus : UserOf s free i .tgt e
      · exact Or.inr (Or.inr hus)
      · exact Or.inl ⟨x, hus⟩
    · exact Or.inr (Or.inl x)
  have p0 : ∀ d, endOf d (s0.data i) = 0 → ¬ (IntRef s free d i ∧ ¬ UserOf s free i d i) ∧
      ¬ (ExtRef s free d i ∨ UserOf s free i d i) := by
    intro d he
    rw [r3] at he
    refine ⟨fun x => x.1.2.1 he, ?_⟩
    rintro (x | x)
    · exact x.2.1 he
    · exact x.2.1 rfl
  have p1 : ∀ d, endOf d (s0.data i) ≠ 0 → LiveIn s0 free (endOf d (s0.data i)) →
      (IntRef s free d i ∧ ¬ UserOf s free i d i) := by
    intro d he hl
    rw [r3] at he hl
    exact ⟨⟨hi, he, (hl0 _).1 hl⟩, fun x => x.2.1 rfl⟩
  have p2 : ∀ d, endOf d (s0.data i) ≠ 0 → ¬ LiveIn s0 free (endOf d (s0.data i)) →
      (ExtRef s free d i ∨ UserOf s free i d i) := by
    intro d he hl
    rw [r3] at he hl
    exact Or.inl ⟨hi, he, fun x => hl ((hl0 _).2 x)⟩
  have p3 : ∀ d, endOf d (s0.data i) ≠ 0 → ∀ k, (IntRef s free d k ∧ ¬ UserOf s free i d k) ∨
      (ExtRef s free d k ∨ UserOf s free i d k) → k ≠ i → s0.data k ≠ s0.data i := by
    intro d he k hk hki
    rw [r3] at he ⊢
    refine noTwin_tree h.toInv0 hu d he k ?_ hki
    rcases hk with hk | hk | hk
    · exact Or.inl hk.1
    · exact Or.inr hk
    · exact Or.inl ⟨hk.1, by rw [hk.2.2]; omega, by rw [hk.2.2]; exact hi⟩
  have hi0 : LiveIn s0 free i := (hl0 i).2 hi
  refine Run.all_read fun x hx => ?_
  rw [getLink_eq hc r2 hx0, if_pos hi0, Option.some.injEq] at hx
  subst hx
  simp only
  have hkI : ∀ d k, k ≠ i → LiveIn s free k → endOf d (s.data k) ≠ 0 → endOf d (s.data k) ≠ i →
      LiveIn s free (endOf d (s.data k)) → IntRef s free d k ∧ ¬ UserOf s free i d k :=
    fun d k _ hk he hne hl => ⟨⟨hk, he, hl⟩, fun x => hne x.2.2⟩
  refine Run.all_seq (Run.all_imp (relink_images hc r2 hx0 hi0 p0 p1 p2 p3 0 0 (by omega)) ?_) fun s1' hs1 => ?_
  · rintro m ⟨I', E', g⟩
    have hl : ∀ k, LiveIn m free k ↔ LiveIn s free k := fun k => by simp only [LiveIn, g.allocated, r5]
    refine ⟨free, I', E', g.net, fun k hk hl' => ⟨(hl k).2 hl', by rw [g.data k hk, r3]⟩,
      fun k hl' => .inl ((hl k).1 hl'), ?_, ?_, ?_, ?_, fun x => by rw [← r3]; exact g.own x,
      fun hn => absurd trivial hn⟩
    · intro k hk hl' _ hs
      rw [(g.off .tgt k hk).1, (g.off .tgt k hk).2]
      exact hx0 k ((hl0 k).2 hl') (by rw [r3]; exact hs)
    · intro d k hk hl' he hne hle
      rw [(g.off d k hk).1]; exact hkI d k hk hl' he (fun x => hne ⟨trivial, x⟩) hle
    · intro d k hk hl' he _ hle
      rw [(g.off d k hk).2]; exact .inl ⟨hl', he, hle⟩
    · intro hs _
      rcases g.self with hn | hn
      · rcases hs with hs | hs
        · exact absurd hs hn.1
        · exact absurd hs hn.2
      · exact .inr hn
  obtain ⟨s1, g1, h2, h3, h4, _, h5⟩ := relink_ok hc r2 hx0 hi0 p0 p1 p2 p3 0 0 (by omega)
  have g1 : relink c s0 (s0.linkAt i) i 0 0 = some s1 := g1
  rw [relink_run, g1, Option.some.injEq] at hs1
  subst hs1
  rw [r3] at h5
  rw [r5] at h4
  have hz : ∀ d, endOf d ((0, 0) : Nat × Nat) = 0 := by intro d; cases d <;> rfl
  let I1 : Side → Nat → Prop := fun d k => k ≠ i ∧ IntRef s free d k ∧ ¬ UserOf s free i d k
  let E1 : Side → Nat → Prop := fun d k => k ≠ i ∧ (ExtRef s free d k ∨ UserOf s free i d k)
  have h2 : Net c s1 free I1 E1 := h2.iff (by intro d k; simp [hz, I1]) (by intro d k; simp [hz, E1])
  have hi1 : LiveIn s1 free i := by simpa [LiveIn, h4] using hi
  have hd1 : s1.data i = (0, 0) := by rw [h5]; simp
  have hx1 : Exact s1 free I1 E1 := by
    intro e he hs
    have hne : e ≠ i := by rintro rfl; rw [hd1] at hs; exact hs rfl
    rw [h5, if_neg hne] at hs
    have he' : LiveIn s0 free e := by simpa [LiveIn, h4, r5] using he
    rcases hx0 e he' (by rw [r3]; exact hs) with x | x
    · exact Or.inl ⟨hne, x⟩
    · exact Or.inr ⟨hne, x⟩
  have key : ∀ (m : Store) (free' : List Nat), Net c m free' I1 E1 →
      (∀ k, LiveIn s free k → k ≠ i → LiveIn m free' k ∧ m.data k = s.data k) →
      (∀ k, LiveIn m free' k → LiveIn s free k ∨ m.data k = (0, 0)) → IsImage c s free i True (0, 0) m := by
    intro m free' hn hl hdat
    refine ⟨free', I1, E1, hn, fun k hk hl' => hl k hl' hk, hdat, ?_, ?_, ?_, ?_,
      fun x => absurd rfl (by rcases x with x | x <;> exact x.1), fun hn => absurd trivial hn⟩
    · intro k hk hl' hne hs
      rcases h.exact k hl' hs with x | x
      · exact .inl ⟨hk, x, fun y => hne ⟨trivial, y.2.2⟩⟩
      · exact .inr ⟨hk, .inl x⟩
    · intro d k hk hl' he hne hle
      exact ⟨hk, hkI d k hk hl' he (fun x => hne ⟨trivial, x⟩) hle⟩
    · intro d k hk hl' he _ hle
      exact ⟨hk, .inl ⟨hl', he, hle⟩⟩
    · rintro (x | x) _
      · exact absurd rfl x.1
      · exact absurd rfl x.1
  intro m hm
  unfold dropRun at hm
  by_cases hlt : i < s.hdr.allocated
  · obtain ⟨s2, g1, g2, g3, g4, g5, g6⟩ := unusedAttachFirst_ok hc h2 hi1
      (fun d => ⟨fun x => x.1 rfl, fun x => x.1 rfl⟩)
    have hlt1 : i < s1.hdr.allocated := by rw [h4]; exact hlt
    simp only [hlt1, if_true, Run.upd, g1, List.mem_singleton] at hm
    subst hm
    refine key _ _ g2 ?_ ?_
    · intro k hk hki
      refine ⟨⟨hk.1, by rw [g4, h4]; exact hk.2.1, by simp [hki, hk.2.2]⟩, ?_⟩
      rw [g6 k (by simp [hki, hk.2.2]), h5, if_neg hki]
    · intro k hk
      obtain ⟨a1, a2, a3⟩ := hk
      rw [g4, h4] at a2
      simp only [List.mem_cons, not_or] at a3
      exact .inl ⟨a1, a2, a3.2⟩
  · have heq : i = s.hdr.allocated := by have := hi.2.1; omega
    have heq1 : i = s1.hdr.allocated := by rw [h4]; exact heq
    rw [if_neg (by rw [h4]; exact hlt), if_pos heq1] at hm
    revert m
    show Run.All _ _ _
    let s2 : Store := { s1 with hdr := { s1.hdr with allocated := s1.hdr.allocated - 1 } }
    have hlen := h2.base.alloc_lt
    rw [h4] at hlen
    have hale := h.base.alloc_le
    have hs2a : s2.hdr.allocated = i - 1 := by show s1.hdr.allocated - 1 = _; rw [← heq1]
    have hs2 : Net c s2 free I1 E1 := by
      refine setAllocated_ok h2 (by omega) (by omega) ?_ ?_ ?_
      · intro x hx
        have := h.free_lt x hx
        omega
      · intro k hk
        by_cases hk2 : k = i
        · rw [hk2]; exact hd1
        · exact h2.base.beyond k (by omega)
      · intro d k hk
        have h8 := (h2.live d k hk).2.1
        have : k ≠ i := by rcases hk with hk | hk <;> exact hk.1
        omega
    have hx2 : Exact s2 free I1 E1 := by
      intro e he hs
      refine hx1 e ⟨he.1, ?_, he.2.2⟩ hs
      have := he.2.1; omega
    have hlv : ∀ k, LiveIn s2 free k ↔ LiveIn s free k ∧ k ≠ i := by
      intro k
      simp only [LiveIn, hs2a]
      constructor
      · rintro ⟨a1, a2, a3⟩; exact ⟨⟨a1, by omega, a3⟩, by omega⟩
      · rintro ⟨⟨a1, a2, a3⟩, a4⟩; exact ⟨a1, by omega, a3⟩
    have hdat : ∀ k, k ≠ i → s2.data k = s.data k := by
      intro k hk; show s1.data k = _; rw [h5, if_neg hk]
    refine Run.all_then (s1 := s2) (by rw [csub_eq (by omega)]; rfl) ?_ ?_
    · refine key s2 free hs2 (fun k hk hki => ⟨(hlv k).2 ⟨hk, hki⟩, hdat k hki⟩) fun k hk => .inl ((hlv k).1 hk).1
    · refine release_images hc (I := I1) (E := E1) (s0 := s2) (free0 := free) ?_ _ s2 free hs2 hx2 (fun _ hx => hx)
        (fun _ _ => rfl) (fun _ => Iff.rfl)
      intro m free' hn b1 b2 b3
      refine key m free' hn ?_ ?_
      · intro k hk hki
        have hk2 := (hlv k).2 ⟨hk, hki⟩
        exact ⟨b2 k hk2.1 hk2.2.1 hk2.2.2, (b1 k hk.2.2).trans (hdat k hki)⟩
      · intro k hk
        rcases b3 k hk with x | x
        · exact .inl ((hlv k).1 ⟨hk.1, x.1, x.2⟩).1
        · exact .inr x

/-! ### Create -/

/-- Same contents of the two memories, whatever their extents. -/
def SameMem (m m' : Store) : Prop :=
  m.idx = m'.idx ∧ m.data = m'.data ∧ { m.hdr with reserved := 0 } = { m'.hdr with reserved := 0 }

theorem resolveExternal_images (hc : CfgOK c) {s : Store} {free : List Nat} {I E : Side → Nat → Prop}
    (h : Net c s free I E) (hx : Exact s free I E) {i : Nat} (hi : LiveIn s free i)
    (hI : ∀ d k, I d k → endOf d (s.data k) ≠ i) (P : Store → Prop) : Run.All P (resolveExternalRun c i) s := by
  obtain ⟨L1, e1, _, m1⟩ := eachIter_side hc h hx .src hi
  obtain ⟨L2, e2, _, m2⟩ := eachIter_side hc h hx .tgt hi
  have z1 : L1 = [] := List.eq_nil_iff_forall_not_mem.2 fun k hk => hI .src k ((m1 k).1 hk).1 ((m1 k).1 hk).2
  have z2 : L2 = [] := List.eq_nil_iff_forall_not_mem.2 fun k hk => hI .tgt k ((m2 k).1 hk).1 ((m2 k).1 hk).2
  subst z1 z2
  refine Run.all_read fun l1 hl1 => ?_
  rw [e1, Option.some.injEq] at hl1
  subst hl1
  refine Run.all_seq Run.all_done fun s1 hs1 => ?_
  cases hs1
  refine Run.all_read fun l2 hl2 => ?_
  rw [e2, Option.some.injEq] at hl2
  subst hl2
  exact Run.all_done

theorem Created.image {s s' : Store} {free free' : List Nat} {i : Nat} (h : Inv0 c s free)
    (hk : Created c s free s' free' i) (hf : ∀ k ∈ free', k ∈ free) : IsImage c s free i False (0, 0) s' := by
  refine ⟨free', IntRef s free, ExtRef s free, hk.net, fun k _ hl => ⟨(hk.live k).2 (.inl hl), hk.data k hl⟩, ?_,
    fun k _ hl _ hs => h.exact k hl hs, fun d k _ hl he _ hle => ⟨hl, he, hle⟩,
    fun d k _ hl he _ hle => ⟨hl, he, hle⟩, ?_, fun _ => .inr hk.data_i, fun _ => ⟨hf, .new hk.data_i⟩⟩
  · intro k hl
    rcases (hk.live k).1 hl with hl | rfl
    · exact .inl hl
    · exact .inr hk.data_i
  · intro hi _
    exact absurd (by rcases hi with hi | hi <;> exact hi.1) hk.fresh

theorem Created.resolve {s s' : Store} (hc : CfgOK c) {free free' : List Nat} {i : Nat} (h : Inv0 c s free)
    (hk : Created c s free s' free' i) (P : Store → Prop) : Run.All P (resolveExternalRun c i) s' :=
  resolveExternal_images hc hk.net (hk.exact h) ((hk.live i).2 (.inr rfl)) (by
    rintro d k hI he
    rw [hk.data k hI.1] at he
    exact hk.fresh (he ▸ hI.2.2)) P

/-- The images of a creation of index `i`. -/
theorem create_images (hc : CfgOK c) {s : Store} {free : List Nat} (h : Inv c s free) :
    ∃ i, ¬ LiveIn s free i ∧
      Run.All (fun m => ∃ m0, SameMem m m0 ∧ IsImage c s free i False (0, 0) m0) (createRun c) s := by
  cases free with
  | cons x rest =>
    have hx : s.hdr.firstFree = x := by
      have := h.base.list.first_eq; simpa [Store.listMem] using this
    have hx0 : x ≠ 0 := h.base.list.nonzero x (by simp)
    have hn := h.base.list.nodup
    rw [List.nodup_cons] at hn
    have hxle := h.base.free_le x (by simp)
    obtain ⟨s', h1, h2, h3, h4, h5, h6, h7⟩ := unusedDetach_ok hc h.net (i := x) (by simp)
    simp only [List.erase_cons_head] at h2
    have hcr : Created c s (x :: rest) s' rest x := by
      refine ⟨h2, ?_, fun hl => hl.2.2 (by simp), h6, fun k hk => h7 k hk.2.2⟩
      intro k
      simp only [LiveIn, h4, List.mem_cons, not_or]
      constructor
      · rintro ⟨a1, a2, a3⟩
        by_cases e : k = x
        · exact Or.inr e
        · exact Or.inl ⟨a1, a2, e, a3⟩
      · rintro (⟨a1, a2, a3, a4⟩ | rfl)
        · exact ⟨a1, a2, a4⟩
        · exact ⟨by omega, hxle, hn.1⟩
    refine ⟨x, hcr.fresh, ?_⟩
    intro m hm
    unfold createRun at hm
    rw [if_neg (by rw [hx, hc.null_eq]; exact hx0), hx] at hm
    revert m
    exact Run.all_then h1 (⟨s', ⟨rfl, rfl, rfl⟩, hcr.image h.toInv0 fun _ hk => List.mem_cons_of_mem _ hk⟩ :
      ∃ m0, SameMem s' m0 ∧ IsImage c s (x :: rest) x False (0, 0) m0) (hcr.resolve hc h.toInv0 _)
  | nil =>
    have hx : s.hdr.firstFree = 0 := by
      have := h.base.list.first_eq; simpa [Store.listMem] using this
    have hfr : ¬ LiveIn s [] (s.hdr.allocated + 1) := fun hl => by have := hl.2.1; omega
    refine ⟨s.hdr.allocated + 1, hfr, ?_⟩
    have hle := hc.end_le
    -- the part after the growth of the memories
    have top : ∀ s1 : Store, Inv c s1 [] → SameMem s s1 → s1.hdr.allocated + 1 < s1.ilen →
        s1.hdr.allocated < c.consts.internalEnd →
        Run.All (fun m => ∃ m0, SameMem m m0 ∧ IsImage c s [] (s.hdr.allocated + 1) False (0, 0) m0)
          (Run.seq (bumpRun c) (.read (fun s => some s.hdr.allocated) (resolveExternalRun c))) s1 := by
      intro s1 hv hsm hlt hend
      have hal : s1.hdr.allocated = s.hdr.allocated := by
        have := congrArg Unit.Hdr.allocated hsm.2.2; exact this.symm
      have hlv : ∀ k, LiveIn s1 [] k ↔ LiveIn s [] k := fun k => by simp only [LiveIn, hal]
      have hcr : Created c s1 [] { s1 with hdr := { s1.hdr with allocated := s1.hdr.allocated + 1 } } []
          (s1.hdr.allocated + 1) := (createTop_ok hc hv hlt hend (fun (u : _root_.Unit) _ _ => (.cont, u)) ()).2
      have hcr' : Created c s [] { s1 with hdr := { s1.hdr with allocated := s1.hdr.allocated + 1 } } []
          (s.hdr.allocated + 1) := by
        rw [← hal]
        refine ⟨hcr.net.iff ?_ ?_, fun k => (hcr.live k).trans (by rw [hlv]), by rw [← hlv]; exact hcr.fresh, hcr.data_i,
          fun k hk => (hcr.data k ((hlv k).2 hk)).trans (by rw [← hsm.2.1])⟩
        · intro d k; simp only [IntRef, hlv, hsm.2.1]
        · intro d k; simp only [ExtRef, hlv, hsm.2.1]
      refine Run.all_then (s1 := { s1 with hdr := { s1.hdr with allocated := s1.hdr.allocated + 1 } })
        (by rw [cadd_eq (show s1.hdr.allocated + 1 ≤ c.maxT by omega)]; rfl)
        ⟨_, ⟨rfl, rfl, rfl⟩, hcr'.image h.toInv0 fun _ hk => hk⟩ ?_
      refine Run.all_read fun a ha => ?_
      cases ha
      exact hcr.resolve hc hv.toInv0 _
    have same : ∀ m, SameMem m s → ∃ m0, SameMem m m0 ∧ IsImage c s [] (s.hdr.allocated + 1) False (0, 0) m0 :=
      fun m hm => ⟨s, hm, _, _, _, h.toInv0.image _ _ _⟩
    intro m hm
    unfold createRun at hm
    rw [if_pos (by rw [hx, hc.null_eq])] at hm
    by_cases hend : c.consts.internalEnd ≤ s.hdr.allocated
    · rw [if_pos hend] at hm; cases hm
    · rw [if_neg hend, csub_eq h.base.res_pos] at hm
      simp only at hm
      have hsp := hc.step_pos
      have hlt := h.base.alloc_lt
      have hrl := h.base.res_le
      have hlen := h.base.len_eq
      by_cases hr : s.hdr.reserved - 1 ≤ s.hdr.allocated
      · rw [if_pos hr] at hm
        cases hda : c.dalloc s.dlen (s.dlen + c.step) with
        | none => rw [hda] at hm; cases hm
        | some dn =>
          rw [hda] at hm
          have hdn := hc.dalloc_eq _ _ _ hda
          subst hdn
          simp only at hm
          cases hal : c.ialloc s.ilen (s.ilen + c.step) with
          | none =>
            rw [hal] at hm
            simp only [Run.upd, List.mem_singleton] at hm
            subst hm
            exact same _ ⟨rfl, rfl, rfl⟩
          | some n =>
            have hn := hc.ialloc_eq _ _ _ hal
            subst hn
            rw [hal] at hm
            simp only at hm
            revert m
            show Run.All (fun m => ∃ m0, SameMem m m0 ∧ IsImage c s [] (s.hdr.allocated + 1) False (0, 0) m0) _ _
            refine Run.all_then rfl (same _ ⟨rfl, rfl, rfl⟩) ?_
            refine Run.all_then rfl (same _ ⟨rfl, rfl, rfl⟩) ?_
            by_cases hmx : s.ilen + c.step ≤ c.maxT
            · refine Run.all_then (s1 := { s with dlen := s.dlen + c.step, ilen := s.ilen + c.step, stale := false,
                                                  hdr := { s.hdr with reserved := s.ilen + c.step } })
                (by simp only [hmx, if_true]) (same _ ⟨rfl, rfl, rfl⟩) ?_
              refine top _ ?_ ⟨rfl, rfl, rfl⟩ ?_ (by show s.hdr.allocated < _; omega)
              · rw [hlen]
                exact ⟨⟨(grow_ok h.net (by omega)).base, fun d => by cases d <;> exact h.forest _, h.half⟩, by simp⟩
              · show s.hdr.allocated + 1 < s.ilen + c.step; omega
            · refine Run.all_seq (Run.all_upd fun s' hs => ?_) fun s' hs => ?_
              · simp only [hmx, if_false] at hs; cases hs
              · rw [Run.upd_2] at hs; simp only [hmx, if_false] at hs; cases hs
      · rw [if_neg hr] at hm
        exact top s h ⟨rfl, rfl, rfl⟩ (by omega) (by omega) m hm

/-! ### Reopening -/

theorem SameMem.net {m m' s' : Store} {n1 n2 : Nat} (hc : CfgOK c) (hs : SameMem m m') {free : List Nat}
    {I E : Side → Nat → Prop} (h : Net c m' free I E)
    (ho : init c { m with dlen := n1, ilen := n2 } = some (.ok s')) (hlt : m.hdr.allocated < s'.ilen) :
    Net c s' free I E ∧ s'.hdr.allocated = m'.hdr.allocated ∧ s'.data = m'.data := by
  obtain ⟨r, h2, -, rfl⟩ := init_ok hc ho
  obtain ⟨e1, e2, e3⟩ := hs
  have a1 : m.hdr.allocated = m'.hdr.allocated := by injection e3
  have a2 : m.hdr.free = m'.hdr.free := by injection e3
  have a3 : m.hdr.firstFree = m'.hdr.firstFree := by injection e3
  have a4 : m.hdr.rootS = m'.hdr.rootS := by injection e3
  have a5 : m.hdr.rootT = m'.hdr.rootT := by injection e3
  have a6 : m.hdr.lastFree = m'.hdr.lastFree := by injection e3
  have a7 : m.hdr.reserved8 = m'.hdr.reserved8 := by injection e3
  have hb := h.base
  refine ⟨⟨⟨rfl, rfl, hlt, by show m.hdr.allocated ≤ _; rw [a1]; exact hb.alloc_le, ?_, ?_,
    by show m.hdr.reserved8 = 0; rw [a7]; exact hb.res8, by show m.data 0 = _ ∧ m.idx 0 = _; rw [e2, e1]; exact hb.data0, ?_,
    by show ∀ x ∈ free, x ≤ m.hdr.allocated; rw [a1]; exact hb.free_le,
    by show ∀ k, m.hdr.allocated < k → m.data k = _; rw [a1, e2]; exact hb.beyond⟩, ?_, ?_⟩, a1, e2⟩
  · show 1 ≤ r - 1; omega
  · show r - 1 ≤ r; omega
  · have : IsList m'.listMem free := hb.list
    simp only [Store.listMem, e2, a2, a3, a6] at this ⊢
    exact this
  · intro d
    refine (h.forest d).congr (fun k _ => by rw [← e2]) (fun k _ => by rw [← e1]) (fun k _ => by rw [← e1]) ?_
      (fun _ => Iff.rfl) (fun _ => Iff.rfl)
    cases d
    · exact a4
    · exact a5
  · intro d k hk
    have := h.live d k hk
    simp only [LiveIn] at this ⊢
    rw [a1]; exact this

/-- Reopening an image gives an image. -/
theorem SameMem.image {s m m' s' : Store} {n1 n2 : Nat} (hc : CfgOK c) (hs : SameMem m m') {free : List Nat} {i : Nat}
    {D : Prop} {new : Nat × Nat} (h : IsImage c s free i D new m')
    (ho : init c { m with dlen := n1, ilen := n2 } = some (.ok s')) (hlt : m.hdr.allocated < s'.ilen) :
    IsImage c s free i D new s' := by
  obtain ⟨free', I, E, h⟩ := h
  obtain ⟨g1, g2, g3⟩ := hs.net hc h.net ho hlt
  have hl : ∀ k, LiveIn s' free' k ↔ LiveIn m' free' k := fun k => by simp only [LiveIn, g2]
  refine ⟨free', I, E, g1, fun k hk hk' => ?_, fun k hk => ?_, h.seen, h.int, h.ext, ?_, ?_, ?_⟩
  · rw [hl, g3]; exact h.keep k hk hk'
  · rw [g3]; exact h.only k ((hl k).1 hk)
  · rw [g3]; exact h.self
  · rw [g3]; exact h.own
  · rw [g3]; exact h.raw

/-! ### All calls -/

/-- The doublet an update writes. -/
def newOf : Call → Nat × Nat
  | .update _ a b => (a, b)
  | _ => (0, 0)

/-- The calls the split store supports, in terms of the contents. -/
def Supported (v : View) : Call → Prop
  | .create => True
  | .update i a b => v.NoTwin i ∧ CanUpdate v i a b
  | .delete i => v.NoTwin i ∧ CanDelete v i

theorem call_images (hc : CfgOK c) {s : Store} {free : List Nat} (h : Inv c s free) {k : Call}
    (hk : Supported ((links c).view s) k) {m : Store} (hm : m ∈ callImages c s k) :
    ∃ i m0, SameMem m m0 ∧ IsImage c s free i (k = .delete i) (newOf k) m0 ∧
      (LiveIn s free i → callAbout i k) ∧ ∀ j, callAbout j k → j = i := by
  have same : ∀ i, ∃ m0, SameMem s m0 ∧ IsImage c s free i (k = .delete i) (newOf k) m0 :=
    fun i => ⟨s, ⟨rfl, rfl, rfl⟩, _, _, _, h.toInv0.image i _ _⟩
  have hget := fun i => getLink_eq hc h.net h.exact i
  cases k with
  | create =>
    obtain ⟨i, hi, hall⟩ := create_images hc h
    rcases List.mem_cons.1 hm with rfl | hm
    · obtain ⟨m0, g1, g2⟩ := same i
      exact ⟨i, m0, g1, g2, fun hl => absurd hl hi, fun j hj => hj.elim⟩
    · obtain ⟨m0, g1, g2⟩ := hall m hm
      refine ⟨i, m0, g1, ?_, fun hl => absurd hl hi, fun j hj => hj.elim⟩
      have : (Call.create = .delete i) = False := by simp
      rw [this]; exact g2
  | update i a b =>
    refine ⟨i, ?_⟩
    have : ∃ m0, SameMem m m0 ∧ IsImage c s free i (Call.update i a b = .delete i) (newOf (.update i a b)) m0 := by
      rcases List.mem_cons.1 hm with rfl | hm
      · exact same i
      · have e : (Call.update i a b = .delete i) = False := by simp
        rw [e]
        refine ⟨m, ⟨rfl, rfl, rfl⟩, ?_⟩
        refine Run.All.mem ?_ hm
        refine Run.all_read fun x hx => ?_
        rw [hget, Option.some.injEq] at hx
        subst hx
        by_cases hl : LiveIn s free i
        · rw [if_pos hl]
          exact update_images hc h hl (noTwinIn hc h.toInv0 hl hk.1) a b
            ⟨hk.2.1, fun hh => hk.2.2 hh _ (by rw [view_eq hc h.toInv0, if_pos hl])⟩
        · rw [if_neg hl]; exact Run.all_done
    obtain ⟨m0, g1, g2⟩ := this
    exact ⟨m0, g1, g2, fun _ => rfl, fun j hj => hj.symm⟩
  | delete i =>
    refine ⟨i, ?_⟩
    have : ∃ m0, SameMem m m0 ∧ IsImage c s free i (Call.delete i = .delete i) (newOf (.delete i)) m0 := by
      rcases List.mem_cons.1 hm with rfl | hm
      · exact same i
      · have e : (Call.delete i = .delete i) = True := by simp
        rw [e]
        refine ⟨m, ⟨rfl, rfl, rfl⟩, ?_⟩
        refine Run.All.mem ?_ hm
        by_cases hl : LiveIn s free i
        · refine delete_images hc h hl (noTwinIn hc h.toInv0 hl hk.1) ?_
          intro d k hk'
          refine noTwinIn hc h.toInv0 hk'.1 (hk.2 k ⟨hk'.2.1, (s.data k).1, (s.data k).2,
            by rw [view_eq hc h.toInv0, if_pos hk'.1], ?_⟩)
          cases d
          · exact Or.inl hk'.2.2
          · exact Or.inr hk'.2.2
        · refine Run.all_read fun x hx => ?_
          rw [hget, Option.some.injEq, if_neg hl] at hx
          subst hx; exact Run.all_done
    obtain ⟨m0, g1, g2⟩ := this
    exact ⟨m0, g1, g2, fun _ => rfl, fun j hj => hj.symm⟩

theorem IsImage.withAllocs {s m : Store} {free : List Nat} {i : Nat} {D : Prop} {new : Nat × Nat}
    (h : IsImage c s free i D new m) (d e : Nat → Nat → Option Nat) :
    IsImage (c.withAllocs d e) s free i D new m := by
  obtain ⟨free', I, E, h⟩ := h
  exact ⟨free', I, E, ⟨h.net.base.withAllocs d e, h.net.forest, h.net.live⟩, h.keep, h.only, h.seen, h.int, h.ext,
    h.self, h.own, h.raw⟩

theorem IsImage.ofAllocs {s m : Store} {free : List Nat} {i : Nat} {D : Prop} {new : Nat × Nat}
    {d e : Nat → Nat → Option Nat} (h : IsImage (c.withAllocs d e) s free i D new m) :
    IsImage c s free i D new m := by
  obtain ⟨free', I, E, h⟩ := h
  exact ⟨free', I, E, ⟨h.net.base.ofAllocs, h.net.forest, h.net.live⟩, h.keep, h.only, h.seen, h.int, h.ext,
    h.self, h.own, h.raw⟩

/-! ### Reads on an image -/

/-- The store regards `k` as a link. -/
def Vis (s : Store) (free : List Nat) (I E : Side → Nat → Prop) (k : Nat) : Prop :=
  LiveIn s free k ∧ ((s.data k).1 ≠ 0 → I .tgt k ∨ E .tgt k)

section Reads
variable {s : Store} {free : List Nat} {I E : Side → Nat → Prop}

open Classical in
theorem Net.vis (h : Net c s free I E) {e : Nat} (he : e ≠ 0) :
    isUnused s e = some (decide (¬ Vis s free I E e)) := by
  obtain ⟨b, hb1, hb2⟩ := isUnused_alloc h.base (h.forest .tgt) (h.live .tgt) he
  rw [hb1]
  congr 1
  rw [Bool.eq_iff_iff, hb2, decide_eq_true_eq]
  unfold Vis
  by_cases h1 : LiveIn s free e <;> by_cases h2 : (s.data e).1 = 0 <;> simp [h1, h2]

open Classical in
theorem getLink_vis (hc : CfgOK c) (h : Net c s free I E) (k : Nat) :
    getLink c s k = some (if Vis s free I E k then some (s.linkAt k) else none) := by
  unfold getLink exists?
  rw [hc.start_eq]
  by_cases hi : 1 ≤ k ∧ k ≤ s.hdr.allocated
  · rw [if_pos hi, h.vis (by omega)]
    by_cases hv : Vis s free I E k
    · simp [hv, getLinkUnchecked_eq h.base hv.1]
    · simp [hv]
  · rw [if_neg hi]
    have : ¬ Vis s free I E k := fun hl => hi ⟨hl.1.1, hl.1.2.1⟩
    simp [this]

open Classical in
theorem eachIdx_vis (hc : CfgOK c) (h : Net c s free I E) {σ : Type} (hd : RH σ) : ∀ (is : List Nat) (st : σ),
    eachIdx c s hd is st = some (runH hd ((is.filter fun i => Vis s free I E i).map s.linkAt) st) := by
  intro is
  induction is with
  | nil => intro st; rfl
  | cons i is ih =>
    intro st
    simp only [eachIdx, getLink_vis hc h]
    by_cases hm : Vis s free I E i
    · simp only [hm, if_true, decide_true, List.filter_cons_of_pos, List.map_cons, runH, ih]
      rcases hd st (s.linkAt i) with ⟨_ | _, st'⟩ <;> simp [andThen]
    · simp [hm, ih]

/-- The whole traversal. -/
theorem eachAll_vis (hc : CfgOK c) (h : Net c s free I E) :
    ∃ L : List Nat, (links c).Visits s [] (L.map s.linkAt) ∧ L.Nodup ∧ ∀ k, k ∈ L ↔ Vis s free I E k := by
  classical
  refine ⟨(List.range' 1 s.hdr.allocated).filter fun i => Vis s free I E i, fun σ hd st => ?_,
    List.Pairwise.filter _ List.nodup_range', fun k => ?_⟩
  · exact eachIdx_vis hc h hd _ st
  · simp only [List.mem_filter, List.mem_range'_1, decide_eq_true_eq]
    exact ⟨fun x => x.2, fun x => ⟨⟨x.1.1, by have := x.1.2.1; omega⟩, x⟩⟩

/-- Traversal by one end. -/
theorem each_side_vis (hc : CfgOK c) (h : Net c s free I E) (d : Side) {v : Nat} (h0 : v ≠ 0)
    (ha : v ≠ c.consts.any) :
    ∃ L : List Nat, (links c).Visits s (sideQuery c d v) (L.map s.linkAt) ∧ L.Nodup ∧
      ∀ k, k ∈ L ↔ endOf d (s.data k) = v ∧ ((Vis s free I E v ∧ I d k) ∨ (¬ Vis s free I E v ∧ E d k)) := by
  classical
  have hun := h.vis h0
  obtain ⟨b, hany⟩ := isUnused_some h.base c.consts.any
  by_cases hv : Vis s free I E v
  · obtain ⟨L, g1, g2, g3, g4⟩ := int_usages h d h0 (live_lt h.base hv.1)
    refine ⟨L, ?_, g3, fun k => by rw [g4]; simp [hv, and_comm]⟩
    intro σ hd st
    rw [← g1]
    cases d <;>
      simp [links, sideQuery, eachLinks, each3, hc.index_eq, hc.source_eq, hc.target_eq, hun, hany, hv, ha]
  · obtain ⟨L, g1, g2, g2', g3, g4⟩ := ext_usages hc h d v
    refine ⟨L, ?_, g3, fun k => by rw [g4]; simp [hv, and_comm]⟩
    intro σ hd st
    rw [← g1]
    cases d <;>
      simp [links, sideQuery, eachLinks, each3, hc.index_eq, hc.source_eq, hc.target_eq, hun, hany, hv, ha]

/-- The tree in which a doublet is searched holds it or not. -/
theorem pairSearch_vis (h : Net c s free I E) {x y : Nat} (hx0 : x ≠ 0) (hy0 : y ≠ 0) {vx vy : Bool}
    (ex : isUnused s x = some vx) (ey : isUnused s y = some vy) :
    ∃ k d T, pairSearch s vx vy x y = some k ∧
      ((k = 0 ∧ ∀ j, T d j → s.data j ≠ (x, y)) ∨ (k ≠ 0 ∧ T d k ∧ s.data k = (x, y))) ∧
      ((T = I ∧ Vis s free I E (endOf d (x, y))) ∨
        (T = E ∧ d = .src ∧ ¬ Vis s free I E x)) := by
  classical
  rw [h.vis hx0, Option.some.injEq] at ex
  rw [h.vis hy0, Option.some.injEq] at ey
  subst ex ey
  have hS : Vis s free I E x → ∃ k d T, intSearch s .src x y = some k ∧
      ((k = 0 ∧ ∀ j, T d j → s.data j ≠ (x, y)) ∨ (k ≠ 0 ∧ T d k ∧ s.data k = (x, y))) ∧
      ((T = I ∧ Vis s free I E (endOf d (x, y))) ∨ (T = E ∧ d = .src ∧ ¬ Vis s free I E x)) := by
    intro hv
    obtain ⟨k, e1, e2⟩ := intSearch_ok h .src x y hx0 (live_lt h.base hv.1)
    exact ⟨k, .src, I, e1, e2, .inl ⟨rfl, hv⟩⟩
  have hT : Vis s free I E y → ∃ k d T, intSearch s .tgt x y = some k ∧
      ((k = 0 ∧ ∀ j, T d j → s.data j ≠ (x, y)) ∨ (k ≠ 0 ∧ T d k ∧ s.data k = (x, y))) ∧
      ((T = I ∧ Vis s free I E (endOf d (x, y))) ∨ (T = E ∧ d = .src ∧ ¬ Vis s free I E x)) := by
    intro hv
    obtain ⟨k, e1, e2⟩ := intSearch_ok h .tgt x y hy0 (live_lt h.base hv.1)
    exact ⟨k, .tgt, I, e1, e2, .inl ⟨rfl, hv⟩⟩
  unfold pairSearch
  by_cases hx : Vis s free I E x
  · by_cases hy : Vis s free I E y
    · obtain ⟨L1, _, c1, _⟩ := int_usages h .src hx0 (live_lt h.base hx.1)
      obtain ⟨L2, _, c2, _⟩ := int_usages h .tgt hy0 (live_lt h.base hy.1)
      simp only [hx, hy, not_true_eq_false, decide_false, Bool.and_self, c1, c2, Option.bind_some,
        Bool.false_eq_true, if_false]
      by_cases hgt : L1.length > L2.length
      · simp only [hgt, if_true]
        obtain ⟨k, d, T, q1, q2, q3⟩ := hT hy
        refine ⟨k, d, T, q1, q2, ?_⟩
        simpa [hx] using q3
      · simp only [hgt, if_false]
        obtain ⟨k, d, T, q1, q2, q3⟩ := hS hx
        refine ⟨k, d, T, q1, q2, ?_⟩
        simpa [hx] using q3
    · simp only [hx, hy, not_true_eq_false, decide_false, Bool.false_and, Bool.false_eq_true, if_false,
        not_false_eq_true, decide_true, if_true]
      obtain ⟨k, d, T, q1, q2, q3⟩ := hS hx
      refine ⟨k, d, T, q1, q2, ?_⟩
      simpa [hx] using q3
  · by_cases hy : Vis s free I E y
    · simp only [hx, hy, not_true_eq_false, decide_false, Bool.and_false, Bool.false_eq_true, if_false,
        not_false_eq_true, decide_true, if_true]
      obtain ⟨k, d, T, q1, q2, q3⟩ := hT hy
      refine ⟨k, d, T, q1, q2, ?_⟩
      simpa [hx] using q3
    · simp only [hx, hy, not_false_eq_true, decide_true, Bool.and_self, if_true]
      obtain ⟨k, e1, e2⟩ := extSearch_ok h x y
      refine ⟨k, .src, E, e1, e2, ?_⟩
      simp

/-- A link that is out of the target trees is not found after reopening. -/
theorem Net.hidden (hc : CfgOK c) (h : Net c s free I E) {x : Nat} (hI : ¬ I .tgt x) (hE : ¬ E .tgt x)
    (hs : (s.data x).1 ≠ 0) {d e : Nat → Nat → Option Nat} (hd : ExactAlloc d) (he : ExactAlloc e) {n1 n2 : Nat}
    {s' : Store} (ho : init (c.withAllocs d e) { s with dlen := n1, ilen := n2 } = some (.ok s'))
    (hlt : s.hdr.allocated < s'.ilen) :
    (links c).getLink s' x = some none ∧ ∃ L, (links c).Visits s' [] L ∧ ∀ l ∈ L, l.index ≠ x := by
  have hsm : SameMem s s := ⟨rfl, rfl, rfl⟩
  have h' : Net (c.withAllocs d e) s free I E := ⟨h.base.withAllocs d e, h.forest, h.live⟩
  obtain ⟨g1, g2, g3⟩ := hsm.net (hc.withAllocs hd he) h' ho hlt
  have g1 : Net c s' free I E := ⟨g1.base.ofAllocs, g1.forest, g1.live⟩
  have hv : ¬ Vis s' free I E x := by
    rintro ⟨_, v⟩
    rw [g3] at v
    rcases v hs with v | v
    · exact hI v
    · exact hE v
  refine ⟨?_, ?_⟩
  · show getLink c s' x = _
    rw [getLink_vis hc g1, if_neg hv]
  · obtain ⟨L, p1, p2, p3⟩ := eachAll_vis hc g1
    refine ⟨_, p1, fun l hl e => ?_⟩
    obtain ⟨a, ha, rfl⟩ := List.mem_map.1 hl
    exact hv (e ▸ (p3 a).1 ha)

end Reads

end Verif.Split
