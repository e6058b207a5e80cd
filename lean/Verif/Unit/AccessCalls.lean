import Verif.Unit.AccessLaws

/-!
# Whole calls at the accessor level
-/

namespace Verif.Unit
open Verif
variable {c : Cfg} {P : Programs} {D : (Nat → Nat → Bool) → (Nat → Nat → Bool) → List Nat → Prop}

/-- The slot of every link of `s` but `i` holds its ends and lies among the slots in use. Slots without a link are in no
tree by their size. Slot `i` is in no tree by its size, or has the ends it had or the new ends `q`. -/
structure Intact (s : Store) (free : List Nat) (i : Nat) (q : Nat × Nat) (x : AStore) : Prop where
  keep : ∀ k, k ≠ i → LiveIn s free k → x.s.lk k = s.lk k ∧ k ≤ x.s.hdr.allocated
  rest : ∀ k, k ≠ i → ¬ LiveIn s free k → (x.s.cell k).sizeS = 0
  about : (x.s.cell i).sizeS = 0 ∨ x.s.lk i = s.lk i ∨ x.s.lk i = q

/-- The ends of every slot outside the list of unused slots but `i` are what they were, and each end of `i` is what it was or
that of `q`. -/
structure Raw (s : Store) (free : List Nat) (i : Nat) (q : Nat × Nat) (x : AStore) : Prop where
  keep : ∀ k, k ∉ free → k ≠ i → x.s.lk k = s.lk k
  src : (x.s.lk i).1 = (s.lk i).1 ∨ (x.s.lk i).1 = q.1
  tgt : (x.s.lk i).2 = (s.lk i).2 ∨ (x.s.lk i).2 = q.2

theorem Raw.of {s : Store} {free : List Nat} {i : Nat} {q : Nat × Nat} {x : AStore} (h : ∀ k, k ∉ free → k ≠ i → x.s.lk k = s.lk k)
    (hi : x.s.lk i = s.lk i ∨ x.s.lk i = q) : Raw s free i q x := by
  refine ⟨h, ?_, ?_⟩ <;> rcases hi with e | e <;> simp [e]

theorem get_eq_of (s : Store) (o : Holder) (i : Nat) : (AStore.of s).get o i = s.get i := by
  simp [AStore.get, Store.get, fresh_mk, AStore.of, Store.slot]

theorem isUnusedA_of {s : Store} (h0 : 0 < s.len) (i : Nat) : isUnusedA i (.of s) = isUnused s i := by
  simp only [isUnusedA, header_of .main h0, Option.bind_some, isUnused, get_eq_of]

theorem getLinkA_of {s : Store} (h0 : 0 < s.len) (i : Nat) : getLinkA c i (.of s) = getLink c s i := by
  simp only [getLinkA, existsA, header_of .main h0, Option.bind_some, isUnusedA_of h0, getLink, exists?, get_eq_of,
    getLinkUnchecked]
  congr 1
  funext e
  cases e with
  | false => rfl
  | true => simp only [if_true]; cases s.get i <;> rfl

theorem Base.inMem {s : Store} {free : List Nat} (h : Base c s free) {k : Nat} (h1 : 1 ≤ k) (h2 : k ≤ s.hdr.allocated) :
    InMem s k := ⟨by omega, by have := h.alloc_lt; omega⟩

theorem Base.len_pos {s : Store} {free : List Nat} (h : Base c s free) : 0 < s.len := by have := h.alloc_lt; omega

/-- If the links store the pairs `lk`, then the indexes of the store are in the domain `D`. -/
def Fits (D : (Nat → Nat → Bool) → (Nat → Nat → Bool) → List Nat → Prop) (s : Store) (free : List Nat)
    (lk : Nat → Nat × Nat) : Prop :=
  ∀ t : Store, t.lk = lk → ∀ l : List Nat, (∀ k ∈ l, LiveIn s free k) →
    ((∀ k ∈ l, (lk k).1 ≠ 0) → D (t.cmp srcLt4) (t.cmp srcGt4) l) ∧
    ((∀ k ∈ l, (lk k).2 ≠ 0) → D (t.cmp tgtLt4) (t.cmp tgtGt4) l)

/-- The indexes stay in the domain when `i` gets the pair `(a, b)`. -/
def FitsUpdate (D : (Nat → Nat → Bool) → (Nat → Nat → Bool) → List Nat → Prop) (s : Store) (free : List Nat)
    (i a b : Nat) : Prop :=
  Fits D s free s.lk ∧ Fits D s free fun k => if k = i then (a, b) else s.lk k

/-- The indexes stay in the domain during the call. -/
def FitsCall (D : (Nat → Nat → Bool) → (Nat → Nat → Bool) → List Nat → Prop) (s : Store) (free : List Nat) : Call → Prop
  | .create => True
  | .update i a b => LiveIn s free i → FitsUpdate D s free i a b
  | .delete i => LiveIn s free i → FitsUpdate D s free i 0 0

/-! ### Update -/

theorem amid_detachSource (hc : CfgOK c) (hP : P.ImplementsOn D c.trees) {s : Store} {free : List Nat} {ts tt : Tree} {i : Nat}
    (h : Mid c s free ts tt i) (hl : LiveIn s free i) (b : Bool) (hb : b = true ↔ i ∈ ts.toList)
    (hu : b = true → ∀ k ∈ ts.toList, k ≠ i → s.lk k ≠ s.lk i)
    (hD : b = true → D (s.cmp srcLt4) (s.cmp srcGt4) ts.toList) :
    ∃ s1 ts1, whenM b (detachSource c · i) s = some s1 ∧ Mid c s1 free ts1 tt i ∧ i ∉ ts1.toList ∧ SameData s s1 ∧
      Ev fun f => (Tr.when b (detachSourceA P f i)).Does (.of s) () (.of s1) fun x =>
        SameData s x.s ∧ SameSizes (LiveIn s free) s x := by
  obtain ⟨s1, ts1, e1, m1, n1, d1⟩ := mid_detachSource hc h hl b hb hu
  refine ⟨s1, ts1, e1, m1, n1, d1, ?_⟩
  cases b with
  | false => cases e1; exact .of fun f => .pure _ _
  | true =>
    exact (detachSourceA_does hP h.src (hb.1 rfl) (hu rfl)
      (fun k hk => h.base.inMem (h.src_live hk).1 (h.src_live hk).2.1) (hD rfl) e1).mono fun f w => w.mono fun x hx =>
        ⟨hx.1, fun k hk => hx.2 k fun hm => hk (h.src_live hm)⟩

theorem amid_detachTarget (hc : CfgOK c) (hP : P.ImplementsOn D c.trees) {s : Store} {free : List Nat} {ts tt : Tree} {i : Nat}
    (h : Mid c s free ts tt i) (hl : LiveIn s free i) (b : Bool) (hb : b = true ↔ i ∈ tt.toList)
    (hu : b = true → ∀ k ∈ tt.toList, k ≠ i → s.lk k ≠ s.lk i)
    (hD : b = true → D (s.cmp tgtLt4) (s.cmp tgtGt4) tt.toList) :
    ∃ s1 tt1, whenM b (detachTarget c · i) s = some s1 ∧ Mid c s1 free ts tt1 i ∧ i ∉ tt1.toList ∧ SameData s s1 ∧
      Ev fun f => (Tr.when b (detachTargetA P f i)).Does (.of s) () (.of s1) fun x =>
        SameData s x.s ∧ SameSizes (LiveIn s free) s x := by
  obtain ⟨s1, tt1, e1, m1, n1, d1⟩ := mid_detachTarget hc h hl b hb hu
  refine ⟨s1, tt1, e1, m1, n1, d1, ?_⟩
  cases b with
  | false => cases e1; exact .of fun f => .pure _ _
  | true =>
    exact (detachTargetA_does hP h.tgt (hb.1 rfl) (hu rfl)
      (fun k hk => h.base.inMem (h.tgt_live hk).1 (h.tgt_live hk).2.1) (hD rfl) e1).mono fun f w => w.mono fun x hx =>
        ⟨hx.1, fun k _ => hx.2 k fun hf => hf⟩

theorem amid_attachSource (hc : CfgOK c) (hP : P.ImplementsOn D c.trees) {s : Store} {free : List Nat} {ts tt : Tree} {i : Nat}
    (h : Mid c s free ts tt i) (hl : LiveIn s free i) (hi : i ∉ ts.toList) (b : Bool)
    (hD : b = true → D (s.cmp srcLt4) (s.cmp srcGt4) (i :: ts.toList)) :
    ∃ s1 ts1, whenM b (attachSource c · i) s = some s1 ∧ Mid c s1 free ts1 tt i ∧ SameData s s1 ∧
      Ev fun f => (Tr.when b (attachSourceA P f i)).Does (.of s) () (.of s1) fun x =>
        SameData s x.s ∧ SameSizes (LiveIn s free) s x := by
  obtain ⟨s1, ts1, e1, m1, d1⟩ := mid_attachSource hc h hl hi b
  refine ⟨s1, ts1, e1, m1, d1, ?_⟩
  cases b with
  | false => cases e1; exact .of fun f => .pure _ _
  | true =>
    refine (attachSourceA_does hP h.src (by have := hl.1; omega) hi (fun k hk => ?_) (hD rfl) e1).mono fun f w =>
      w.mono fun x hx => ⟨hx.1, fun k hk => hx.2 k fun hm => hk ?_⟩
    rotate_left
    · rcases List.mem_cons.1 hm with rfl | hm
      · exact hl
      · exact h.src_live hm
    rcases List.mem_cons.1 hk with rfl | hk
    · exact h.base.inMem hl.1 hl.2.1
    · exact h.base.inMem (h.src_live hk).1 (h.src_live hk).2.1

theorem amid_attachTarget (hc : CfgOK c) (hP : P.ImplementsOn D c.trees) {s : Store} {free : List Nat} {ts tt : Tree} {i : Nat}
    (h : Mid c s free ts tt i) (hl : LiveIn s free i) (hi : i ∉ tt.toList) (b : Bool)
    (hD : b = true → D (s.cmp tgtLt4) (s.cmp tgtGt4) (i :: tt.toList)) :
    ∃ s1 tt1, whenM b (attachTarget c · i) s = some s1 ∧ Mid c s1 free ts tt1 i ∧ SameData s s1 ∧
      Ev fun f => (Tr.when b (attachTargetA P f i)).Does (.of s) () (.of s1) fun x =>
        SameData s x.s ∧ SameSizes (LiveIn s free) s x := by
  obtain ⟨s1, tt1, e1, m1, d1⟩ := mid_attachTarget hc h hl hi b
  refine ⟨s1, tt1, e1, m1, d1, ?_⟩
  cases b with
  | false => cases e1; exact .of fun f => .pure _ _
  | true =>
    refine (attachTargetA_does hP h.tgt (by have := hl.1; omega) hi (fun k hk => ?_) (hD rfl) e1).mono fun f w =>
      w.mono fun x hx => ⟨hx.1, fun k _ => hx.2 k fun hf => hf⟩
    rcases List.mem_cons.1 hk with rfl | hk
    · exact h.base.inMem hl.1 hl.2.1
    · exact h.base.inMem (h.tgt_live hk).1 (h.tgt_live hk).2.1

theorem relinkA_does (hc : CfgOK c) (hP : P.ImplementsOn D c.trees) {s : Store} {free : List Nat} {ts tt : Tree}
    (h : Inv c s free ts tt) {i : Nat} (hl : LiveIn s free i) (hu : NoTwinIn s free i) (a b : Nat)
    (hD : FitsUpdate D s free i a b) :
    ∃ s', relink c s (s.linkAt i) i a b = some s' ∧
      Ev fun f => (relinkA P f (s.linkAt i) i a b).Does (.of s) () (.of s') fun x =>
        Intact s free i (a, b) x ∧ Raw s free i (a, b) x := by
  obtain ⟨s1, ts1, e1, m1, n1, d1, v1⟩ := amid_detachSource hc hP (h.toInv0.mid i) hl (decide ((s.linkAt i).source ≠ 0))
    (by rw [h.src_mem, decide_eq_true_eq]; simp [hl, Store.linkAt])
    (by
      intro hb k hk hki
      rcases hu with hu | hu
      · rw [decide_eq_true_eq] at hb; exact absurd (congrArg Prod.fst hu) hb
      · exact hu k ((h.src_mem k).1 hk).1 hki)
    (fun _ => (hD.1 s rfl _ fun k hk => ((h.src_mem k).1 hk).1).1 fun k hk => ((h.src_mem k).1 hk).2)
  have l1 := (LiveIn.same d1).2 hl
  obtain ⟨s2, tt2, e2, m2, n2, d2', v2⟩ := amid_detachTarget hc hP m1 l1 (decide ((s.linkAt i).target ≠ 0))
    (by rw [h.tgt_mem, decide_eq_true_eq]; simp [hl, Store.linkAt])
    (by
      intro hb k hk hki
      rw [d1.lk, d1.lk]
      rcases hu with hu | hu
      · rw [decide_eq_true_eq] at hb; exact absurd (congrArg Prod.snd hu) hb
      · exact hu k ((h.tgt_mem k).1 hk).1 hki)
    (fun _ => (hD.1 s1 (funext d1.lk) _ fun k hk => ((h.tgt_mem k).1 hk).1).2 fun k hk => ((h.tgt_mem k).1 hk).2)
  have d2 := d1.trans d2'
  have l2 := (LiveIn.same d2).2 hl
  have hz : i ≠ 0 := by have := hl.1; omega
  have hlt : i < s2.len := by rw [d2.len]; have := h.base.alloc_lt; have := hl.2.1; omega
  let s3 : Store := { s2 with cell := fun k => if k = i then { s2.cell k with source := a } else s2.cell k }
  have e3 : setSource i a s2 = some s3 := by simp [setSource, hlt, s3]
  have m3 : Mid c s3 free ts1 tt2 i := mid_write m2 l2 n1 n2 rfl rfl (fun k hk => by simp [s3, hk])
    (by simp [s3])
  let s4 : Store := { s3 with cell := fun k => if k = i then { s3.cell k with target := b } else s3.cell k }
  have e4 : setTarget i b s3 = some s4 := by
    have : i < s3.len := hlt
    simp [setTarget, this, s4]
  have m4 : Mid c s4 free ts1 tt2 i := mid_write m3 l2 n1 n2 rfl rfl (fun k hk => by simp [s4, hk])
    (by simp [s4])
  have l4 : LiveIn s4 free i := l2
  have k3 : ∀ k, k ≠ i → s3.lk k = s.lk k := fun k hk => by
    rw [← d2.lk k]; simp [Store.lk, s3, hk]
  have k4 : ∀ k, k ≠ i → s4.lk k = s.lk k := fun k hk => by
    rw [← k3 k hk]; simp [Store.lk, s4, hk]
  have lk4 : s4.lk = fun k => if k = i then (a, b) else s.lk k := by
    funext k
    by_cases hk : k = i
    · simp [Store.lk, s4, s3, hk]
    · rw [k4 k hk, if_neg hk]
  have liveOf : ∀ {k}, LiveIn s4 free k → LiveIn s free k := fun h => (LiveIn.same d2).1 h
  obtain ⟨s5, ts5, e5, m5, d5, v5⟩ := amid_attachSource hc hP m4 l4 n1 (decide (a ≠ 0)) (fun hb => by
    rw [decide_eq_true_eq] at hb
    refine (hD.2 s4 lk4 _ fun k hk => ?_).1 fun k hk => ?_
    · rcases List.mem_cons.1 hk with rfl | hk
      · exact hl
      · exact liveOf (m4.src_live hk)
    · by_cases hki : k = i
      · simpa [hki] using hb
      · rw [← lk4]
        exact ((m4.src_mem k hki).1 ((List.mem_cons.1 hk).resolve_left hki)).2)
  obtain ⟨s6, tt6, e6, m6, d6', v6⟩ := amid_attachTarget hc hP m5 ((LiveIn.same d5).2 l4) n2 (decide (b ≠ 0)) (fun hb => by
    rw [decide_eq_true_eq] at hb
    refine (hD.2 s5 ((funext d5.lk).trans lk4) _ fun k hk => ?_).2 fun k hk => ?_
    · rcases List.mem_cons.1 hk with rfl | hk
      · exact hl
      · exact liveOf ((LiveIn.same d5).1 (m5.tgt_live hk))
    · by_cases hki : k = i
      · simpa [hki] using hb
      · rw [← lk4, ← d5.lk k]
        exact ((m5.tgt_mem k hki).1 ((List.mem_cons.1 hk).resolve_left hki)).2)
  have a4 : s4.hdr.allocated = s.hdr.allocated := d2.allocated
  have big : ∀ {t : Store}, (∀ k, k ≠ i → t.lk k = s.lk k) → t.hdr.allocated = s.hdr.allocated →
      (∀ k, ¬ LiveIn s free k → (t.cell k).sizeS = 0) → (t.lk i = s.lk i ∨ t.lk i = (a, b)) → ∀ x : AStore,
      SameData t x.s ∧ SameSizes (LiveIn t free) t x → Intact s free i (a, b) x ∧ Raw s free i (a, b) x := by
    intro t ht ha hz hi x hx
    refine ⟨?_, .of (fun k _ hki => (hx.1.lk k).trans (ht k hki)) (by rw [hx.1.lk]; exact hi)⟩
    refine ⟨fun k hki hk => ⟨(hx.1.lk k).trans (ht k hki), by rw [hx.1.allocated, ha]; exact hk.2.1⟩, fun k hki hk => ?_, ?_⟩
    · rw [hx.2 k (by simpa only [LiveIn, ha] using hk), hz k hk]
    · exact .inr (by rw [hx.1.lk]; exact hi)
  have z0 : ∀ k, ¬ LiveIn s free k → (s.cell k).sizeS = 0 := fun k hk =>
    (h.src.clean k fun hm => hk ((h.src_mem k).1 hm).1).2.2
  have z1 : ∀ k, ¬ LiveIn s free k → (s1.cell k).sizeS = 0 := fun k hk =>
    (m1.src.clean k fun hm => hk ((LiveIn.same d1).1 (m1.src_live hm))).2.2
  have z4 : ∀ k, ¬ LiveIn s free k → (s4.cell k).sizeS = 0 := fun k hk =>
    (m4.src.clean k fun hm => hk (liveOf (m4.src_live hm))).2.2
  have z5 : ∀ k, ¬ LiveIn s free k → (s5.cell k).sizeS = 0 := fun k hk =>
    (m5.src.clean k fun hm => hk (liveOf ((LiveIn.same d5).1 (m5.src_live hm)))).2.2
  have q4 : s4.lk i = (a, b) := by simp [lk4]
  refine ⟨s6, ?_, ?_⟩
  · rw [relink_eq_runSteps]
    simp only [relinkSteps, runSteps, e1, e2, e3, e4, e5, e6, Option.bind_some]
  · refine Ev.and v1 v2 (r := fun f => (Tr.when (decide ((s.linkAt i).source ≠ 0)) (detachSourceA P f i)).Does _ () _ _ ∧
      (Tr.when (decide ((s.linkAt i).target ≠ 0)) (detachTargetA P f i)).Does _ () _ _) (fun f a b => ⟨a, b⟩) |>.and
      (Ev.and v5 v6 (r := fun f => (Tr.when (decide (a ≠ 0)) (attachSourceA P f i)).Does _ () _ _ ∧
      (Tr.when (decide (b ≠ 0)) (attachTargetA P f i)).Does _ () _ _) (fun f a b => ⟨a, b⟩)) ?_
    rintro f ⟨w1, w2⟩ ⟨w5, w6⟩
    refine (w1.mono (big (fun _ _ => rfl) rfl z0 (.inl rfl))).bind
      ((w2.mono (big (fun k _ => d1.lk k) d1.allocated z1 (.inl (d1.lk i)))).bind ?_)
    have t3 : AStore.mod .main i (fun p => { p with source := a }) (.of s2) = some (.of s3) := mod_of .main _ hz hlt
    have t4 : AStore.mod .main i (fun p => { p with target := b }) (.of s3) = some (.of s4) := mod_of .main _ hz hlt
    refine Tr.Does.bind (.tell t3 ⟨⟨fun k hki hk => ⟨k3 k hki, by show k ≤ s2.hdr.allocated; rw [d2.allocated]; exact hk.2.1⟩,
      fun k _ hk => (m3.src.clean k fun hm => hk (liveOf (m3.src_live hm))).2.2, .inl (m3.src.clean i n1).2.2⟩,
      fun k _ hki => k3 k hki, .inr (by simp [Store.lk, AStore.of, s3]), .inl ?_⟩) ?_
    · have := congrArg Prod.snd (d2.lk i)
      simpa [Store.lk, AStore.of, s3] using this
    refine Tr.Does.bind (.tell t4 (big k4 a4 z4 (.inr q4) _ ⟨SameData.refl _, fun _ _ => rfl⟩)) ?_
    exact (w5.mono (big k4 a4 z4 (.inr q4))).bind (w6.mono (big (fun k hk => (d5.lk k).trans (k4 k hk)) (d5.allocated.trans a4)
      z5 (.inr ((d5.lk i).trans q4))))

/-- What a call does at the accessor level, compared to the model. -/
def Agree {σ : Type} (t : Tr AStore (Except Err Flow × σ)) (m : AStore) (o : Option (Out Store σ Flow))
    (I : AStore → Prop) : Prop :=
  (t m).2 = o.map (fun o => ((o.res, o.hs), AStore.of o.st)) ∧ ∀ x ∈ (t m).1, I x

theorem Tr.Does.agree {σ : Type} {t : Tr AStore (Except Err Flow × σ)} {m : AStore} {o : Out Store σ Flow}
    {I : AStore → Prop} (h : t.Does m (o.res, o.hs) (.of o.st) I) : Agree t m (some o) I := ⟨h.res, h.img⟩

theorem Agree.bind {σ α : Type} {f : Tr AStore α} {g : α → Tr AStore (Except Err Flow × σ)} {m m' : AStore} {a : α}
    {o : Option (Out Store σ Flow)} {I : AStore → Prop} (h1 : f.Does m a m' I) (h2 : Agree (g a) m' o I) :
    Agree (f >>= g) m o I := by
  refine ⟨by rw [Tr.bind_some h1.res]; exact h2.1, fun x hx => ?_⟩
  rw [Tr.mem_bind] at hx
  rcases hx with hx | ⟨a', m1, e, hx⟩
  · exact h1.img x hx
  · rw [h1.res] at e
    simp only [Option.some.injEq, Prod.mk.injEq] at e
    obtain ⟨rfl, rfl⟩ := e
    exact h2.2 x hx

theorem Agree.bind_none {σ α : Type} {f : Tr AStore α} {g : α → Tr AStore (Except Err Flow × σ)} {m : AStore}
    {I : AStore → Prop} (h : f m = ([], none)) : Agree (f >>= g) m none I := by
  have e : (f >>= g) m = ([], none) := by show Tr.bind f g m = _; simp only [Tr.bind, h]
  exact ⟨by rw [e]; rfl, by rw [e]; intro x hx; cases hx⟩

theorem updateLinksA_agree (hc : CfgOK c) (hP : P.ImplementsOn D c.trees) {s : Store} {free : List Nat} {ts tt : Tree}
    (h : Inv c s free ts tt) (i a b : Nat) (hu : LiveIn s free i → NoTwinIn s free i)
    (hD : LiveIn s free i → FitsUpdate D s free i a b) {σ : Type} (hd : WH σ) (st : σ) :
    Ev fun f => Agree (updateLinksA c P f i a b hd st) (.of s) (updateLinks c s [i] [i, a, b] hd st) fun x =>
      Intact s free i (a, b) x ∧ Raw s free i (a, b) x := by
  have h0 := h.base.len_pos
  have hg := getLinkA_of (c := c) h0 i
  rw [getLink_eq hc h.toInv0] at hg
  have hm : updateLinks c s [i] [i, a, b] hd st = (getLink c s i).bind fun
      | none => some ⟨.error (.notExists i), s, st⟩
      | some l => (relink c s l i a b).map fun s' =>
        ⟨.ok (hd st ⟨i, a, b⟩ ⟨i, a, b⟩).1, s', (hd st ⟨i, a, b⟩ ⟨i, a, b⟩).2⟩ := rfl
  rw [hm, getLink_eq hc h.toInv0]
  by_cases hl : LiveIn s free i
  · rw [if_pos hl] at hg ⊢
    obtain ⟨s', e, ev⟩ := relinkA_does hc hP h hl (hu hl) a b (hD hl)
    simp only [Option.bind_some, e, Option.map_some]
    refine ev.mono fun f w => Tr.Does.agree ?_
    exact Tr.Does.bind (.ask hg) (Tr.Does.bind w (.pure _ _))
  · rw [if_neg hl] at hg ⊢
    exact .of fun f => Tr.Does.agree (Tr.Does.bind (.ask hg) (.pure _ _))

/-! ### Create -/

theorem createTopA_agree {s : Store} {free : List Nat} (h : Base c s free) {σ : Type} (hd : WH σ) (st : σ)
    {I : AStore → Prop} (hI : ∀ a, s.hdr.allocated ≤ a → I (.of { s with hdr := { s.hdr with allocated := a } })) :
    Agree (createTopA c hd st) (.of s) (createTop c s hd st) I := by
  have h0 := h.len_pos
  unfold createTop createTopA
  refine Agree.bind (.ask (header_of .main h0)) ?_
  cases ha : cadd c.maxT s.hdr.allocated 1 with
  | none => exact Agree.bind_none rfl
  | some a =>
    refine Tr.Does.agree (Tr.Does.bind (.ofOption rfl) (Tr.Does.bind (.tell (modHeader_of .main _ h0) (hI a ?_)) (.pure _ _)))
    unfold cadd at ha
    split at ha
    · simp at ha; omega
    · cases ha

theorem updateMem_does {s : Store} {a b d e : Bool} {I : AStore → Prop} :
    updateMem.Does ⟨s, a, b, d, e⟩ () (.of s) I := ⟨rfl, fun x hx => (by cases hx)⟩

theorem createLinksA_agree (hc : CfgOK c) (hP : P.ImplementsOn D c.trees) {s : Store} {free : List Nat} {ts tt : Tree}
    (h : Inv c s free ts tt) {σ : Type} (hd : WH σ) (st : σ) :
    Ev fun f => Agree (createLinksA c P f hd st) (.of s) (createLinks c s [] hd st) fun x =>
      Intact s free 0 (0, 0) x ∧ Raw s free 0 (0, 0) x := by
  have h0 := h.base.len_pos
  have hself : ∀ x : AStore, x.s.cell = s.cell → s.hdr.allocated ≤ x.s.hdr.allocated →
      Intact s free 0 (0, 0) x ∧ Raw s free 0 (0, 0) x := by
    intro x h1 h2
    refine ⟨?_, .of (fun k _ _ => by simp [Store.lk, h1]) (.inl (by simp [Store.lk, h1]))⟩
    refine ⟨fun k _ hk => ⟨by simp [Store.lk, h1], by have := hk.2.1; omega⟩, fun k _ hk => ?_, .inr (.inl (by simp [Store.lk, h1]))⟩
    rw [h1]
    exact (h.src.clean k fun hm => hk ((h.src_mem k).1 hm).1).2.2
  unfold createLinks createLinksA
  by_cases hx : s.hdr.firstFree = 0
  · refine .of fun f => Agree.bind (.ask (header_of .main h0)) ?_
    have hx' : (s.hdr.firstFree = 0) = True := eq_true hx
    simp only [hc.null_eq, hx', if_true]
    by_cases hend : c.consts.internalEnd ≤ s.hdr.allocated
    · simp only [hend, if_true]
      exact Tr.Does.agree (.pure _ _)
    · simp only [hend, if_false, csub_eq h.base.res_pos, Option.bind_some]
      refine Agree.bind (.ofOption rfl) ?_
      by_cases hr : s.hdr.reserved - 1 ≤ s.hdr.allocated
      · simp only [hr, if_true]
        cases hal : c.alloc s.len (s.len + c.step) with
        | none =>
          refine Agree.bind (a := none) (m' := .of s) ?_ (Tr.Does.agree (.pure _ _))
          refine ⟨?_, ?_⟩ <;> simp [allocA, AStore.of, hal]
        | some n =>
          refine Agree.bind (a := some ()) (m' := ⟨{ s with len := n }, false, false, false, false⟩) ?_ ?_
          · refine ⟨?_, ?_⟩
            · simp [allocA, AStore.of, hal]
            · intro x hx
              simp only [allocA, AStore.of, hal, List.mem_singleton] at hx
              subst hx; exact hself _ rfl (Nat.le_refl _)
          · refine Agree.bind updateMem_does (Agree.bind (.ask (a := n) rfl) ?_)
            have hn := hc.alloc_ge _ _ _ hal
            by_cases hmx : n ≤ c.maxT
            · simp only [hmx, if_true]
              have hn0 : 0 < ({ s with len := n } : Store).len := by show 0 < n; omega
              refine Agree.bind (.tell (modHeader_of .main _ hn0) (hself _ rfl (Nat.le_refl _))) ?_
              exact createTopA_agree (grow_ok h (n := n) (by omega)).base hd st fun a ha => hself _ rfl ha
            · simp only [hmx, if_false]
              exact ⟨rfl, fun x hx => (by cases hx)⟩
      · simp only [hr, if_false]
        exact createTopA_agree h.base hd st fun a ha => hself _ rfl ha
  · cases free with
    | nil => exact absurd (by have := h.base.list.first_eq; simpa [Store.listMem] using this) hx
    | cons y rest =>
      have hy : s.hdr.firstFree = y := by
        have := h.base.list.first_eq; simpa [Store.listMem] using this
      obtain ⟨s', h1, h2, h3, h4, h5, h6, h7⟩ := unusedDetach_ok hc h.toInv0 (i := y) (by simp)
      refine (unusedDetachA_does hP h.base.list (i := y) (by simp) (fun k hk => ?_) h1).mono fun f w => ?_
      · have := h.base.list.nonzero k hk
        exact h.base.inMem (by omega) (h.base.free_le k hk)
      · refine Agree.bind (.ask (header_of .main h0)) ?_
        simp only [hc.null_eq, hx, if_false, hy, h1, Option.map_some]
        rw [hy] at hx
        simp only [hx, if_false]
        refine Tr.Does.agree (Tr.Does.bind (w.mono fun x hx => ⟨⟨fun k _ hk => ?_, fun k _ hk => ?_, ?_⟩,
          .of (fun k hk _ => hx.1 k hk) (.inl (hx.1 0 fun hm => h.base.list.nonzero 0 hm rfl))⟩) (.pure _ _))
        · exact ⟨hx.1 k hk.2.2, by rw [hx.2.1]; exact hk.2.1⟩
        · rw [hx.2.2 k fun hf => hf]
          exact (h.src.clean k fun hm => hk ((h.src_mem k).1 hm).1).2.2
        · rw [hx.2.2 0 fun hf => hf]
          exact .inl (h.src.clean 0 fun hm => by have := ((h.src_mem 0).1 hm).1.1; omega).2.2

/-! ### Delete -/

/-- All links of `s` are where they were, and so are all sizes. -/
def Keeps (s : Store) (free : List Nat) (x : AStore) : Prop :=
  (∀ k, LiveIn s free k → x.s.lk k = s.lk k ∧ k ≤ x.s.hdr.allocated) ∧ SameSizes (fun _ => False) s x

theorem unusedDetach_sizes {s s' : Store} {i : Nat} (h : unusedDetach c s i = some s') (k : Nat) :
    (s'.cell k).sizeS = (s.cell k).sizeS := by
  unfold unusedDetach at h
  cases hv : c.trees.listDetach s.listMem i with
  | none => rw [hv] at h; cases h
  | some v =>
    rw [hv] at h
    simp only [Option.map_some, Option.some.injEq] at h
    subst h
    rfl

theorem releaseTopA_does (hc : CfgOK c) (hP : P.ImplementsOn D c.trees) : ∀ (fuel : Nat) (s : Store) (free : List Nat)
    (ts tt : Tree), Inv0 c s free ts tt → s.hdr.allocated < fuel → ∃ s', releaseTop c fuel s = some s' ∧
      Ev fun f => (releaseTopA P f fuel).Does (.of s) () (.of s') (Keeps s free) := by
  intro fuel
  induction fuel with
  | zero => intro s free ts tt _ hf; omega
  | succ fuel ih =>
    intro s free ts tt h hf
    have h0 := h.base.len_pos
    unfold releaseTop releaseTopA
    by_cases ha : s.hdr.allocated = 0
    · refine ⟨s, by simp [ha], .of fun f => Tr.Does.bind (.ask (header_of .main h0)) ?_⟩
      simp only [ha, if_true]
      exact .pure _ _
    · have hu := isUnused_eq h (show 1 ≤ s.hdr.allocated by omega) (Nat.le_refl _)
      have huA := (isUnusedA_of h0 s.hdr.allocated).trans hu
      by_cases hfr : s.hdr.allocated ∈ free
      · obtain ⟨s1, h1, h2, h3, h4, h5, h6, h7⟩ := unusedDetach_ok hc h hfr
        have hn := h.base.list.nodup
        have hs := shrink_ok h2 (by rw [h4]; exact ha)
          (by rw [h4]; exact fun hm => ((hn.mem_erase_iff).1 hm).1 rfl) (by rw [h4]; exact h6)
        rw [h4] at hs
        obtain ⟨s', e, ev⟩ := ih _ _ ts tt hs (by show s.hdr.allocated - 1 < fuel; omega)
        refine ⟨s', by simp only [ha, if_false, hu, Option.bind_some, hfr, decide_true, if_true, h1, e], ?_⟩
        refine Ev.and ev (unusedDetachA_does hP h.base.list hfr (fun k hk => ?_) h1) fun f w1 w2 => ?_
        · have := h.base.list.nonzero k hk
          exact h.base.inMem (by omega) (h.base.free_le k hk)
        · refine Tr.Does.bind (.ask (header_of .main h0)) ?_
          simp only [ha, if_false]
          refine Tr.Does.bind (.ask huA) ?_
          simp only [hfr, decide_true, if_true]
          have hk1 : ∀ k, LiveIn s free k → k ≤ s.hdr.allocated - 1 := fun k hk => by
            have hk2 : k ≠ s.hdr.allocated := fun e => hk.2.2 (e ▸ hfr)
            have := hk.2.1; omega
          refine Tr.Does.bind (w2.mono fun x hx => ⟨fun k hk => ⟨hx.1 k hk.2.2, by rw [hx.2.1]; exact hk.2.1⟩, hx.2.2⟩) ?_
          refine Tr.Does.bind (.tell (modHeader_of .main _ (by rw [h3]; exact h0)) ?_) ?_
          · exact ⟨fun k hk => ⟨h7 k hk.2.2, hk1 k hk⟩, fun k _ => unusedDetach_sizes h1 k⟩
          · refine w1.mono fun x hx => ⟨fun k hk => ?_, fun k hk => (hx.2 k hk).trans (unusedDetach_sizes h1 k)⟩
            obtain ⟨r1, r2⟩ := hx.1 k ⟨hk.1, hk1 k hk, fun hm => hk.2.2 (List.mem_of_mem_erase hm)⟩
            exact ⟨r1.trans (h7 k hk.2.2), r2⟩
      · refine ⟨s, by simp [ha, hu, hfr], .of fun f => Tr.Does.bind (.ask (header_of .main h0)) ?_⟩
        simp only [ha, if_false]
        refine Tr.Does.bind (.ask huA) ?_
        simp only [hfr, decide_false, Bool.false_eq_true, if_false]
        exact .pure _ _

/-- `delete_links` after the link was found: update to the null pair and release. -/
theorem dropA_does (hc : CfgOK c) (hP : P.ImplementsOn D c.trees) {s : Store} {free : List Nat} {ts tt : Tree}
    (h : Inv c s free ts tt) {i : Nat} (hl : LiveIn s free i) (hlk : s.lk i = (0, 0)) :
    ∃ s', (if i < s.hdr.allocated then unusedAttachFirst c s i
         else if i = s.hdr.allocated then
          (csub s.hdr.allocated 1).bind fun a =>
            releaseTop c (s.hdr.allocated + 1) { s with hdr := { s.hdr with allocated := a } }
         else none) = some s' ∧
      Ev fun f => (dropA P f i).Does (.of s) () (.of s') (Intact s free i (0, 0)) := by
  have h0 := h.base.len_pos
  have z0 : ∀ k, ¬ LiveIn s free k → (s.cell k).sizeS = 0 := fun k hk =>
    (h.src.clean k fun hm => hk ((h.src_mem k).1 hm).1).2.2
  have zi : (s.cell i).sizeS = 0 := (h.src.clean i fun hm => ((h.src_mem i).1 hm).2 (congrArg Prod.fst hlk)).2.2
  have hz : i ≠ 0 := by have := hl.1; omega
  by_cases hlt : i < s.hdr.allocated
  · obtain ⟨s', h1, h2, h3, h4, h5, h6⟩ := unusedAttachFirst_ok hc h.toInv0 hl hlk
    refine ⟨s', by rw [if_pos hlt, h1], ?_⟩
    refine (unusedAttachFirstA_does hP h.base.list hz hl.2.2 (fun k hk => ?_) h1).mono fun f w => ?_
    · rcases List.mem_cons.1 hk with rfl | hk
      · exact h.base.inMem hl.1 hl.2.1
      · have := h.base.list.nonzero k hk
        exact h.base.inMem (by omega) (h.base.free_le k hk)
    · refine Tr.Does.bind (.ask (header_of .main h0)) ?_
      simp only [hlt, if_true]
      refine w.mono fun x hx => ⟨fun k hki hk => ⟨hx.1 k (by simp [hki, hk.2.2]), by rw [hx.2.1]; exact hk.2.1⟩,
        fun k _ hk => (hx.2.2 k fun hf => hf).trans (z0 k hk), .inl ((hx.2.2 i fun hf => hf).trans zi)⟩
  · have heq : i = s.hdr.allocated := by have := hl.2.1; omega
    have hpos := hl.1
    have hcs := csub_eq (show 1 ≤ s.hdr.allocated by omega)
    have hs := shrink_ok h.toInv0 (by omega) (by rw [← heq]; exact hl.2.2) (by rw [← heq]; exact hlk)
    obtain ⟨s', e, ev⟩ := releaseTopA_does hc hP (s.hdr.allocated + 1) _ _ ts tt hs
      (by show s.hdr.allocated - 1 < s.hdr.allocated + 1; omega)
    refine ⟨s', by rw [if_neg hlt, if_pos heq, hcs]; exact e, ev.mono fun f w => ?_⟩
    have hk1 : ∀ k, k ≠ i → LiveIn s free k → k ≤ s.hdr.allocated - 1 := fun k hki hk => by
      have := hk.2.1; omega
    refine Tr.Does.bind (.ask (header_of .main h0)) ?_
    simp only [hlt, if_false]
    rw [if_pos heq]
    refine Tr.Does.bind (.ofOption hcs) (Tr.Does.bind (.tell (modHeader_of .main _ h0) ?_) (w.mono ?_))
    · exact ⟨fun k hki hk => ⟨rfl, hk1 k hki hk⟩, fun k _ hk => z0 k hk, .inl zi⟩
    · exact fun x hx => ⟨fun k hki hk => hx.1 k ⟨hk.1, hk1 k hki hk, hk.2.2⟩,
        fun k _ hk => (hx.2 k fun hf => hf).trans (z0 k hk), .inl ((hx.2 i fun hf => hf).trans zi)⟩

theorem deleteLinksA_agree (hc : CfgOK c) (hP : P.ImplementsOn D c.trees) {s : Store} {free : List Nat} {ts tt : Tree}
    (h : Inv c s free ts tt) (i : Nat) (hu : LiveIn s free i → NoTwinIn s free i)
    (hD : LiveIn s free i → FitsUpdate D s free i 0 0) {σ : Type} (hd : WH σ) (st : σ) :
    Ev fun f => Agree (deleteLinksA c P f i hd st) (.of s) (deleteLinks c s [i] hd st) (Intact s free i (0, 0)) := by
  have h0 := h.base.len_pos
  have hg := getLinkA_of (c := c) h0 i
  rw [getLink_eq hc h.toInv0] at hg
  by_cases hl : LiveIn s free i
  · rw [if_pos hl] at hg
    obtain ⟨s1, ts1, tt1, h1, h2, h3, h4, h5, h6⟩ := relink_ok hc h hl (hu hl) 0 0
    obtain ⟨s1', e1, ev1⟩ := relinkA_does hc hP h hl (hu hl) 0 0 (hD hl)
    rw [show relink c s (s.linkAt i) i 0 0 = some s1 from h1] at e1
    simp only [Option.some.injEq] at e1
    subst e1
    have hl1 : LiveIn s1 free i := by simpa [LiveIn, h4] using hl
    obtain ⟨s2, e2, ev2⟩ := dropA_does hc hP h2 hl1 (by rw [h6]; simp)
    have hm : deleteLinks c s [i] hd st = some ⟨.ok (hd st (s.linkAt i) Link.nothing).1, s2,
        (hd st (s.linkAt i) Link.nothing).2⟩ := by
      have hgl := getLink_eq hc h.toInv0 i
      rw [if_pos hl] at hgl
      have hup : updateLinks c s [i] [i, 0, 0] (fun (u : _root_.Unit) _ _ => ((Ctl.cont : Flow), u)) () =
          some ⟨.ok .cont, s1, ()⟩ := by
        have : relink c s (s.linkAt i) i 0 0 = some s1 := h1
        simp [updateLinks, hgl, this]
      simp only [deleteLinks, List.getElem?_cons_zero, Option.bind_some, hgl, hup]
      rw [e2]; rfl
    rw [hm]
    refine Ev.and ev1 ev2 fun f w1 w2 => Tr.Does.agree ?_
    refine Tr.Does.bind (.ask hg) ?_
    refine Tr.Does.bind (a := (.ok .cont, ())) (m' := .of s1) ?_ ?_
    · exact Tr.Does.bind (.ask hg) (Tr.Does.bind (w1.mono fun x hx => hx.1) (.pure _ _))
    · refine Tr.Does.bind (w2.mono fun x hx => ⟨fun k hki hk => ?_, fun k hki hk => hx.rest k hki (by simpa [LiveIn, h4] using hk),
        hx.about.imp id fun e => .inr (e.elim (fun e => by rw [e, h6]; simp) id)⟩) (.pure _ _)
      have hk1 : LiveIn s1 free k := by simpa [LiveIn, h4] using hk
      obtain ⟨r1, r2⟩ := hx.keep k hki hk1
      exact ⟨by rw [r1, h6, if_neg hki], r2⟩
  · rw [if_neg hl] at hg
    have hm : deleteLinks c s [i] hd st = some ⟨.error (.notExists i), s, st⟩ := by
      have hgl := getLink_eq hc h.toInv0 i
      rw [if_neg hl] at hgl
      simp only [deleteLinks, List.getElem?_cons_zero, Option.bind_some, hgl]
    rw [hm]
    exact .of fun f => Tr.Does.agree (Tr.Does.bind (.ask hg) (.pure _ _))

/-- A call at the accessor level, with a handler. -/
def callA {σ : Type} (c : Cfg) (P : Programs) (f : Nat) (h : WH σ) (st : σ) : Call → Tr AStore (Except Err Flow × σ)
  | .create => createLinksA c P f h st
  | .update i a b => updateLinksA c P f i a b h st
  | .delete i => deleteLinksA c P f i h st

/-- A call at the accessor level does what the model says, and every image on the way keeps the links it is not
about. -/
theorem callA_agreeOn (hc : CfgOK c) (hP : P.ImplementsOn D c.trees) {s : Store} {free : List Nat} {ts tt : Tree}
    (h : Inv c s free ts tt) (k : Call) (hu : ∀ j, callAbout j k → LiveIn s free j → NoTwinIn s free j)
    (hD : FitsCall D s free k) {σ : Type} (hd : WH σ) (st : σ) :
    Ev fun f => Agree (callA c P f hd st k) (.of s) (callExec c s hd st k) fun x =>
      ∀ j, ¬ callAbout j k → LiveIn s free j → x.s.lk j = s.lk j ∧ j ≤ x.s.hdr.allocated := by
  cases k with
  | create =>
    refine (createLinksA_agree hc hP h hd st).mono fun f w => ⟨w.1, fun x hx j _ hj => ?_⟩
    exact (w.2 x hx).1.keep j (by have := hj.1; omega) hj
  | update i a b =>
    refine (updateLinksA_agree hc hP h i a b (hu i rfl) hD hd st).mono fun f w => ⟨w.1, fun x hx j hji hj => ?_⟩
    exact (w.2 x hx).1.keep j (fun e => hji e.symm) hj
  | delete i =>
    refine (deleteLinksA_agree hc hP h i (hu i rfl) hD hd st).mono fun f w => ⟨w.1, fun x hx j hji hj => ?_⟩
    exact (w.2 x hx).keep j (fun e => hji e.symm) hj

theorem fitsCall_any (s : Store) (free : List Nat) (k : Call) : FitsCall (fun _ _ _ => True) s free k := by
  cases k with
  | create => trivial
  | update i a b => exact fun _ => ⟨fun _ _ _ _ => ⟨fun _ => trivial, fun _ => trivial⟩, fun _ _ _ _ => ⟨fun _ => trivial, fun _ => trivial⟩⟩
  | delete i => exact fun _ => ⟨fun _ _ _ _ => ⟨fun _ => trivial, fun _ => trivial⟩, fun _ _ _ _ => ⟨fun _ => trivial, fun _ => trivial⟩⟩

theorem callA_agree (hc : CfgOK c) (hP : P.Implements c.trees) {s : Store} {free : List Nat} {ts tt : Tree}
    (h : Inv c s free ts tt) (k : Call) (hu : ∀ j, callAbout j k → LiveIn s free j → NoTwinIn s free j) {σ : Type}
    (hd : WH σ) (st : σ) :
    Ev fun f => Agree (callA c P f hd st k) (.of s) (callExec c s hd st k) fun x =>
      ∀ j, ¬ callAbout j k → LiveIn s free j → x.s.lk j = s.lk j ∧ j ≤ x.s.hdr.allocated :=
  callA_agreeOn hc (hP.on fun _ _ _ => True) h k hu (fitsCall_any s free k) hd st

/-- What every image on the way of a call that deletes nothing has in its slots. -/
theorem callA_raw (hc : CfgOK c) (hP : P.ImplementsOn D c.trees) {s : Store} {free : List Nat} {ts tt : Tree}
    (h : Inv c s free ts tt) (k : Call) (hk : ∀ i, k ≠ .delete i)
    (hu : ∀ j, callAbout j k → LiveIn s free j → NoTwinIn s free j)
    (hD : FitsCall D s free k) {σ : Type} (hd : WH σ) (st : σ) :
    Ev fun f => ∀ x ∈ (callA c P f hd st k (.of s)).1, ∀ j, j ∉ free →
      ((x.s.lk j).1 = (s.lk j).1 ∨ ∃ a b, k = .update j a b ∧ (x.s.lk j).1 = a) ∧
      ((x.s.lk j).2 = (s.lk j).2 ∨ ∃ a b, k = .update j a b ∧ (x.s.lk j).2 = b) := by
  cases k with
  | create =>
    refine (createLinksA_agree hc hP h hd st).mono fun f w x hx j hj => ?_
    have g := (w.2 x hx).2
    by_cases hz : j = 0
    · subst hz
      have e := h.base.beyond 0 (.inl rfl)
      have g1 := g.src
      have g2 := g.tgt
      rw [e] at g1 g2 ⊢
      exact ⟨.inl (g1.elim id id), .inl (g2.elim id id)⟩
    · rw [g.keep j hj hz]
      exact ⟨.inl rfl, .inl rfl⟩
  | update i a b =>
    refine (updateLinksA_agree hc hP h i a b (hu i rfl) hD hd st).mono fun f w x hx j hj => ?_
    have g := (w.2 x hx).2
    by_cases hz : j = i
    · subst hz
      exact ⟨g.src.imp id fun e => ⟨a, b, rfl, e⟩, g.tgt.imp id fun e => ⟨a, b, rfl, e⟩⟩
    · rw [g.keep j hj hz]
      exact ⟨.inl rfl, .inl rfl⟩
  | delete i => exact absurd rfl (hk i)

/-- In every image on the way a slot that is not without source is in no tree by its size, or holds a link of `s`, or is being
updated and has its new ends. -/
theorem callA_made (hc : CfgOK c) (hP : P.ImplementsOn D c.trees) {s : Store} {free : List Nat} {ts tt : Tree}
    (h : Inv c s free ts tt) (k : Call) (hu : ∀ j, callAbout j k → LiveIn s free j → NoTwinIn s free j)
    (hD : FitsCall D s free k) {σ : Type} (hd : WH σ) (st : σ) :
    Ev fun f => ∀ x ∈ (callA c P f hd st k (.of s)).1, ∀ j, (x.s.cell j).sizeS = 0 ∨ (x.s.cell j).source = 0 ∨
      (LiveIn s free j ∧ x.s.lk j = s.lk j) ∨ ∃ a b, k = .update j a b ∧ x.s.lk j = (a, b) := by
  have h0 := h.base.len_pos
  have gone : ∀ {i : Nat}, ¬ LiveIn s free i → getLinkA c i (.of s) = some none := fun hl => by
    rw [getLinkA_of h0, getLink_eq hc h.toInv0, if_neg hl]
  cases k with
  | create =>
    refine (createLinksA_agree hc hP h hd st).mono fun f w x hx j => ?_
    by_cases hj : LiveIn s free j
    · exact .inr (.inr (.inl ⟨hj, ((w.2 x hx).1.keep j (by have := hj.1; omega) hj).1⟩))
    · by_cases hz : j = 0
      · subst hz
        rcases (w.2 x hx).1.about with e | e | e
        · exact .inl e
        · exact .inr (.inl (congrArg Prod.fst (e.trans (h.base.beyond 0 (.inl rfl)))))
        · exact .inr (.inl (congrArg Prod.fst e))
      · exact .inl ((w.2 x hx).1.rest j hz hj)
  | update i a b =>
    by_cases hl : LiveIn s free i
    · refine (updateLinksA_agree hc hP h i a b (hu i rfl) hD hd st).mono fun f w x hx j => ?_
      by_cases hji : j = i
      · subst hji
        rcases (w.2 x hx).1.about with e | e | e
        · exact .inl e
        · exact .inr (.inr (.inl ⟨hl, e⟩))
        · exact .inr (.inr (.inr ⟨a, b, rfl, e⟩))
      · by_cases hj : LiveIn s free j
        · exact .inr (.inr (.inl ⟨hj, ((w.2 x hx).1.keep j hji hj).1⟩))
        · exact .inl ((w.2 x hx).1.rest j hji hj)
    · refine .of fun f x hx => ?_
      have w : (updateLinksA c P f i a b hd st).Does (.of s) _ _ fun _ => False := Tr.Does.bind (.ask (gone hl)) (.pure _ _)
      exact (w.img x hx).elim
  | delete i =>
    by_cases hl : LiveIn s free i
    · refine (deleteLinksA_agree hc hP h i (hu i rfl) hD hd st).mono fun f w x hx j => ?_
      by_cases hji : j = i
      · subst hji
        rcases (w.2 x hx).about with e | e | e
        · exact .inl e
        · exact .inr (.inr (.inl ⟨hl, e⟩))
        · exact .inr (.inl (congrArg Prod.fst e))
      · by_cases hj : LiveIn s free j
        · exact .inr (.inr (.inl ⟨hj, ((w.2 x hx).keep j hji hj).1⟩))
        · exact .inl ((w.2 x hx).rest j hji hj)
    · refine .of fun f x hx => ?_
      have w : (deleteLinksA c P f i hd st).Does (.of s) _ _ fun _ => False := Tr.Does.bind (.ask (gone hl)) (.pure _ _)
      exact (w.img x hx).elim

/-! ### Opening -/

/-- Opening a store: whatever the memory holds and wherever the pointers point. Only the number of reserved slots is
written. -/
theorem initA_agree (a : AStore) :
    (match init c a.s with
      | none => (initA c a).2 = none
      | some (.error e) => ∃ m, (initA c a).2 = some (.error e, m)
      | some (.ok s') => (initA c a).2 = some (.ok (), .of s')) ∧
    ∀ x ∈ (initA c a).1, x.s.cell = a.s.cell ∧ ∃ r, x.s.hdr = { a.s.hdr with reserved := r } := by
  obtain ⟨s, b1, b2, b3, b4⟩ := a
  unfold init initA
  simp only
  have hal : ∀ {t : Store} {d1 d2 d3 d4 : Bool} (g : AStore → Nat),
      allocA c g ⟨t, d1, d2, d3, d4⟩ = match c.alloc t.len (g ⟨t, d1, d2, d3, d4⟩) with
        | none => ([], some (none, ⟨t, d1, d2, d3, d4⟩))
        | some k => ([⟨{ t with len := k }, false, false, false, false⟩],
          some (some (), ⟨{ t with len := k }, false, false, false, false⟩)) := fun g => rfl
  have hb : ∀ {α β : Type} (f : Tr AStore α) (g : α → Tr AStore β) (m : AStore), (f >>= g) m = Tr.bind f g m :=
    fun _ _ _ => rfl
  rw [hb, Tr.bind, hal]
  cases h1 : c.alloc s.len c.page with
  | none =>
    simp only
    exact ⟨⟨_, rfl⟩, fun x hx => (by cases hx)⟩
  | some n1 =>
    simp only
    rw [hb, Tr.bind]
    simp only [updateMem]
    rw [hb, Tr.bind]
    by_cases hn : n1 = 0
    · subst hn
      simp [Tr.ask, AStore.header, AStore.get, AStore.fresh]
      exact ⟨s.hdr.reserved, rfl⟩
    · have hh : AStore.header ⟨{ s with len := n1 }, true, true, true, true⟩ .main = some s.hdr :=
        header_of .main (s := { s with len := n1 }) (by show 0 < n1; omega)
      simp only [Tr.ask, hh, Option.map_some, hn, if_false]
      rw [hb, Tr.bind, hal]
      simp only
      cases h2 : c.alloc n1 (max c.step s.hdr.allocated) with
      | none =>
        simp only
        refine ⟨⟨_, rfl⟩, fun x hx => ?_⟩
        simp only [Tr.run_pure, List.append_nil, List.nil_append, List.mem_singleton] at hx
        subst hx
        exact ⟨rfl, s.hdr.reserved, rfl⟩
      | some n2 =>
        simp only
        rw [hb, Tr.bind]
        simp only [updateMem]
        rw [hb, Tr.bind]
        simp only [Tr.ask, Option.map_some]
        rw [hb, Tr.bind]
        simp only [Tr.ofOption, Tr.ask]
        cases h3 : csub n2 1 with
        | none =>
          simp only [Option.map_none, Option.bind_none, true_and]
          intro x hx
          simp only [List.append_nil, List.nil_append, List.mem_cons, List.cons_append, List.not_mem_nil, or_false] at hx
          rcases hx with rfl | rfl <;> exact ⟨rfl, s.hdr.reserved, rfl⟩
        | some r =>
          have hn2 : 0 < n2 := by
            unfold csub at h3
            split at h3
            · omega
            · cases h3
          simp only [Option.map_some, Option.bind_some]
          by_cases hr : r ≤ c.maxT
          · simp only [hr, if_true]
            rw [hb, Tr.bind]
            have ht : setHeader (fun h => { h with reserved := r }) ⟨{ s with len := n2 }, true, true, true, true⟩ =
                ([.of { s with len := n2, hdr := { s.hdr with reserved := r } }],
                  some ((), .of { s with len := n2, hdr := { s.hdr with reserved := r } })) := by
              have := modHeader_of (s := { s with len := n2 }) .main (fun h => { h with reserved := r }) hn2
              unfold setHeader Tr.tell
              rw [show AStore.mk { s with len := n2 } true true true true = .of { s with len := n2 } from rfl, this]
              rfl
            simp only [ht]
            refine ⟨rfl, fun x hx => ?_⟩
            simp only [Tr.run_pure, List.append_nil, List.nil_append, List.mem_cons, List.cons_append,
              List.not_mem_nil, or_false] at hx
            rcases hx with rfl | rfl | rfl
            · exact ⟨rfl, s.hdr.reserved, rfl⟩
            · exact ⟨rfl, s.hdr.reserved, rfl⟩
            · exact ⟨rfl, r, rfl⟩
          · simp only [hr, if_false]
            refine ⟨rfl, fun x hx => ?_⟩
            simp only [Tr.fail, List.append_nil, List.nil_append, List.mem_cons, List.cons_append, List.not_mem_nil,
              or_false] at hx
            rcases hx with rfl | rfl <;> exact ⟨rfl, s.hdr.reserved, rfl⟩

end Verif.Unit
