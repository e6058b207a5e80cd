import Verif.Props.MadeUp
import Verif.Props.Recovery

/-!
# Property C106: a power loss while a network only grows

`C105_power_loss_can_make_a_link_up` shows that after a power loss links may be found that never existed, because unused slots
keep other things than ends. Here is the case in which that cannot happen: the store has no unused slots and the calls since
the file was last on disk delete nothing. Then every end found is an end that this very link had or was given. If in addition
every link is given its ends once, the links found with both ends are links that were there or were asked for.
-/

/-- A link with two ends. -/
def Verif.Link.ended (l : Verif.Link) : Bool := l.source != 0 && l.target != 0

theorem Verif.Link.ended_iff {l : Verif.Link} : l.ended = true ↔ l.source ≠ 0 ∧ l.target ≠ 0 := by
  simp [Verif.Link.ended]

namespace Verif.Props
open Verif

/-- Every index up to that of a link is a link: none was deleted and not reused. -/
def Dense (v : View) : Prop := ∀ l, v.Has l → ∀ j, 1 ≤ j → j ≤ l.index → ∃ l', v.Has l' ∧ l'.index = j

/-- Each end of `l` is the one it had in `v`, or null if there was no such link, or one that a call gave it. -/
def EndsFrom (v : View) (ks : List Call) (l : Link) : Prop :=
  ((∃ l0, v.Has l0 ∧ l0.index = l.index ∧ l0.source = l.source) ∨ (v l.index = none ∧ l.source = 0) ∨
    ∃ b, Call.update l.index l.source b ∈ ks) ∧
  ((∃ l0, v.Has l0 ∧ l0.index = l.index ∧ l0.target = l.target) ∨ (v l.index = none ∧ l.target = 0) ∨
    ∃ a, Call.update l.index a l.target ∈ ks)

/-- The calls give each link its ends once, and only links that had none. -/
def WrittenOnce (v : View) (ks : List Call) : Prop :=
  ∀ i a b, Call.update i a b ∈ ks → (∀ a' b', Call.update i a' b' ∈ ks → a' = a ∧ b' = b) ∧
    ∀ l, v.Has l → l.index = i → l.source = 0 ∧ l.target = 0

/-- With ends given once, ends that are not null belong together. -/
theorem EndsFrom.whole {v : View} {ks : List Call} {l : Link} (h : EndsFrom v ks l) (hw : WrittenOnce v ks)
    (h1 : l.source ≠ 0) (h2 : l.target ≠ 0) : v.Has l ∨ Call.update l.index l.source l.target ∈ ks := by
  obtain ⟨e1 | ⟨-, e1⟩ | ⟨b, e1⟩, e2 | ⟨-, e2⟩ | ⟨a, e2⟩⟩ := h
  · obtain ⟨l1, g1, g2, g3⟩ := e1
    obtain ⟨l2, k1, k2, k3⟩ := e2
    left
    have : l1 = l2 := by
      have a1 : v l1.index = some (l1.source, l1.target) := g1
      have a2 : v l2.index = some (l2.source, l2.target) := k1
      rw [g2] at a1; rw [k2, a1] at a2
      simp only [Option.some.injEq, Prod.mk.injEq] at a2
      rcases l1 with ⟨i1, s1, t1⟩; rcases l2 with ⟨i2, s2, t2⟩
      simp only [Link.mk.injEq]
      exact ⟨g2.trans k2.symm, a2⟩
    subst this
    have : l1 = l := by
      rcases l1 with ⟨i1, s1, t1⟩; rcases l with ⟨i2, s2, t2⟩
      simp only [Link.mk.injEq]
      exact ⟨g2, g3, k3⟩
    rw [← this]; exact g1
  · exact absurd e2 h2
  · obtain ⟨l1, g1, g2, g3⟩ := e1
    exact absurd (g3 ▸ ((hw _ _ _ e2).2 l1 g1 g2).1) h1
  · exact absurd e1 h1
  · exact absurd e1 h1
  · exact absurd e1 h1
  · obtain ⟨l1, g1, g2, g3⟩ := e2
    exact absurd (g3 ▸ ((hw _ _ _ e1).2 l1 g1 g2).2) h2
  · exact absurd e2 h2
  · right
    have := ((hw _ _ _ e1).1 _ _ e2).2
    rw [this]; exact e1

end Verif.Props

/-! # United store -/

namespace Verif.Unit.Props
open Verif Verif.Unit
open Verif.Props (Dense EndsFrom WrittenOnce)
variable {c : Cfg} {P : Programs}

theorem dense_free (hc : CfgOK c) {s : Store} {free : List Nat} {ts tt : Tree} (h : Inv c s free ts tt)
    (hd : Dense ((links c).view s)) : free = [] := by
  refine List.eq_nil_iff_forall_not_mem.2 fun x hx => ?_
  have hlt := h.free_lt x hx
  have h0 := h.base.list.nonzero x hx
  have hl : LiveIn s free s.hdr.allocated := ⟨by omega, Nat.le_refl _, fun hm => by have := h.free_lt _ hm; omega⟩
  obtain ⟨l', g1, g2⟩ := hd (s.linkAt s.hdr.allocated) ((has_iff hc h.toInv0 _).2 ⟨hl, rfl⟩) x (by omega)
    (by show x ≤ s.hdr.allocated; omega)
  have := ((has_iff hc h.toInv0 l').1 g1).1.2.2
  rw [g2] at this
  exact this hx

theorem dense_of (hc : CfgOK c) {s : Store} (h : Reach c s) (h0 : s.hdr.firstFree = 0) : Dense ((links c).view s) := by
  obtain ⟨free, ts, tt, hi⟩ := reach_good hc h
  have hf : free = [] := by
    cases free with
    | nil => rfl
    | cons x r =>
      have e := hi.base.list.first_eq
      have : s.hdr.firstFree = x := by simpa [Store.listMem] using e
      exact absurd (this.symm.trans h0) (hi.base.list.nonzero x (by simp))
  subst hf
  intro l hl j h1 h2
  have := ((has_iff hc hi.toInv0 l).1 hl).1.2.1
  exact ⟨s.linkAt j, (has_iff hc hi.toInv0 _).2 ⟨⟨h1, by show j ≤ _; omega, by simp⟩, rfl⟩, rfl⟩

/-- **C106**. No index below that of a link is unused, and the calls since the file was last on disk delete nothing. The power
fails at any moment, the file is left as any mixture of what it was at the moments since, and a store is opened on it. Every
link that a lookup or a traversal of the whole store shows has as its source one that it had or was given, and as its target
one that it had or was given. -/
theorem C106_power_loss_while_growing (hc : CfgOK c) (hP : P.Implements c.trees) {s : Store} (h : Reach c s)
    (hd : Dense ((links c).view s)) {xs : List Step} (hs : Session c s xs) (hx : ∀ x ∈ xs, ∀ i, x.call ≠ .delete i) :
    ∃ f0, ∀ f, f0 ≤ f → ∀ t, Torn (s :: written c P f xs (.of s)) t →
      ∀ (a' : Nat → Nat → Option Nat) (n : Nat) (s' : Store),
      init (c.withAlloc a') { t with len := n } = some (.ok s') → t.hdr.allocated < s'.len →
      (∀ i l, (links c).getLink s' i = some (some l) → EndsFrom ((links c).view s) (xs.map (·.call)) l) ∧
      ∃ L, (links c).Visits s' [] L ∧ ∀ l ∈ L, EndsFrom ((links c).view s) (xs.map (·.call)) l := by
  obtain ⟨free, ts, tt, hi⟩ := reach_good hc h
  obtain rfl := dense_free hc hi hd
  obtain ⟨f0, hf⟩ := written_raw hc (P := P) hP hs hx hi
  refine ⟨f0, fun f hff t ht a' n s' ho hlt => ?_⟩
  obtain ⟨hcell, hal⟩ := init_mem ho
  have hlt' : s'.hdr.allocated < s'.len := by rw [hal]; exact hlt
  have old : ∀ j, j ≠ 0 → (∃ l0, ((links c).view s).Has l0 ∧ l0.index = j ∧ l0.source = (s.lk j).1 ∧ l0.target = (s.lk j).2) ∨
      (links c).view s j = none ∧ s.lk j = (0, 0) := by
    intro j hj
    by_cases hl : LiveIn s [] j
    · exact .inl ⟨s.linkAt j, (has_iff hc hi.toInv0 _).2 ⟨hl, rfl⟩, rfl, rfl, rfl⟩
    · refine .inr ⟨by rw [view_eq hc hi.toInv0, if_neg hl], hi.base.beyond j (.inr ?_)⟩
      exact Nat.lt_of_not_le fun hle => hl ⟨by omega, hle, by simp⟩
  have look : ∀ i l, (links c).getLink s' i = some (some l) →
      EndsFrom ((links c).view s) (xs.map (·.call)) l := by
    intro i l hl
    have hl : getLink c s' i = some (some l) := hl
    have h0 : i ≠ 0 := by
      rintro rfl
      unfold getLink exists? at hl
      rw [hc.start_eq] at hl
      simp at hl
    have hat : s'.linkAt i = l := by
      rcases getLink_slot (c := c) h0 hlt' with e | e
      · rw [e] at hl; cases hl
      · rw [e] at hl; cases hl; rfl
    subst hat
    have hm : ∀ m ∈ s :: written c P f xs (.of s),
        ((m.lk i).1 = (s.lk i).1 ∨ ∃ x ∈ xs, ∃ a b, x.call = .update i a b ∧ (m.lk i).1 = a) ∧
        ((m.lk i).2 = (s.lk i).2 ∨ ∃ x ∈ xs, ∃ a b, x.call = .update i a b ∧ (m.lk i).2 = b) := by
      intro m hm
      rcases List.mem_cons.1 hm with rfl | hm
      · exact ⟨.inl rfl, .inl rfl⟩
      · exact hf f hff m hm i
    obtain ⟨m0, g0, e0⟩ := ht i 0
    obtain ⟨m1, g1, e1⟩ := ht i 1
    simp only [Store.word, Store.slotWords, if_neg h0, Cell.words, List.getD_cons_zero, List.getD_cons_succ] at e0 e1
    have k0 := (hm m0 g0).1
    have k1 := (hm m1 g1).2
    have e0 : (s'.linkAt i).source = (m0.lk i).1 := by simp only [Store.linkAt, hcell]; exact e0
    have e1 : (s'.linkAt i).target = (m1.lk i).2 := by simp only [Store.linkAt, hcell]; exact e1
    rw [← e0] at k0
    rw [← e1] at k1
    refine ⟨?_, ?_⟩
    · rcases k0 with k | ⟨x, hx, a, b, k, k'⟩
      · rcases old i h0 with ⟨l0, g⟩ | ⟨g, g'⟩
        · exact .inl ⟨l0, g.1, g.2.1, g.2.2.1.trans k.symm⟩
        · exact .inr (.inl ⟨g, by rw [k, g']⟩)
      · exact .inr (.inr ⟨b, List.mem_map.2 ⟨x, hx, by rw [k, k']; rfl⟩⟩)
    · rcases k1 with k | ⟨x, hx, a, b, k, k'⟩
      · rcases old i h0 with ⟨l0, g⟩ | ⟨g, g'⟩
        · exact .inl ⟨l0, g.1, g.2.1, g.2.2.2.trans k.symm⟩
        · exact .inr (.inl ⟨g, by rw [k, g']⟩)
      · exact .inr (.inr ⟨a, List.mem_map.2 ⟨x, hx, by rw [k, k']; rfl⟩⟩)
  obtain ⟨L, h1, h2⟩ := all_visits (c := c) hlt'
  exact ⟨look, L, h1, fun l hl => look l.index l (h2 l hl)⟩

/-- **C106**. If moreover each link is given its ends once, then every link shown that has two ends was in the store when the
file was last on disk, or one of the calls since has given it these ends. -/
theorem C106_power_loss_makes_no_link_up_while_growing (hc : CfgOK c) (hP : P.Implements c.trees) {s : Store} (h : Reach c s)
    (hd : Dense ((links c).view s)) {xs : List Step} (hs : Session c s xs) (hx : ∀ x ∈ xs, ∀ i, x.call ≠ .delete i)
    (hw : WrittenOnce ((links c).view s) (xs.map (·.call))) :
    ∃ f0, ∀ f, f0 ≤ f → ∀ t, Torn (s :: written c P f xs (.of s)) t →
      ∀ (a' : Nat → Nat → Option Nat) (n : Nat) (s' : Store),
      init (c.withAlloc a') { t with len := n } = some (.ok s') → t.hdr.allocated < s'.len →
      (∀ i l, (links c).getLink s' i = some (some l) → l.source ≠ 0 → l.target ≠ 0 →
        ((links c).view s).Has l ∨ Call.update l.index l.source l.target ∈ xs.map (·.call)) ∧
      ∃ L, (links c).Visits s' [] L ∧ ∀ l ∈ L, l.source ≠ 0 → l.target ≠ 0 →
        ((links c).view s).Has l ∨ Call.update l.index l.source l.target ∈ xs.map (·.call) := by
  obtain ⟨f0, hf⟩ := C106_power_loss_while_growing hc hP h hd hs hx
  refine ⟨f0, fun f hff t ht a' n s' ho hlt => ?_⟩
  obtain ⟨g1, L, g2, g3⟩ := hf f hff t ht a' n s' ho hlt
  exact ⟨fun i l hl h1 h2 => (g1 i l hl).whole hw h1 h2, L, g2, fun l hl h1 h2 => (g3 l hl).whole hw h1 h2⟩

/-- **C106**. After such a power loss, a client that copies the links with two ends to a fresh store gets a sound store with
real links only. -/
theorem C106_recovery_while_growing (hc : CfgOK c) (hc' : CfgOK c') (hP : P.Implements c.trees) {s : Store} (h : Reach c s)
    (hd : Dense ((links c).view s)) {xs : List Step} (hs : Session c s xs) (hx : ∀ x ∈ xs, ∀ i, x.call ≠ .delete i)
    (hw : WrittenOnce ((links c).view s) (xs.map (·.call))) :
    ∃ f0, ∀ f, f0 ≤ f → ∀ t, Torn (s :: written c P f xs (.of s)) t →
      ∀ (a' : Nat → Nat → Option Nat), GoodAlloc a' → ∀ (n : Nat) (s' : Store),
      init (c.withAlloc a') { t with len := n } = some (.ok s') → t.hdr.allocated < s'.len →
      ∃ L, (links c).Visits s' [] L ∧ ∀ s0, init c' {} = some (.ok s0) →
        (∀ l ∈ L.filter Link.ended, l.index ≤ c'.consts.internalEnd) → RoomFor c' (highest (L.filter Link.ended)) →
        ∃ r, runAll (step c' c'.alloc) (rebuild (L.filter Link.ended)) s0 = some r ∧ Reach c' r ∧
          ∀ l, ((links c').view r).Has l →
            ((links c).view s).Has l ∨ Call.update l.index l.source l.target ∈ xs.map (·.call) := by
  obtain ⟨f0, hf⟩ := C106_power_loss_makes_no_link_up_while_growing hc hP h hd hs hx hw
  refine ⟨f0, fun f hff t ht a' ha' n s' ho hlt => ?_⟩
  obtain ⟨-, L, g2, g3⟩ := hf f hff t ht a' n s' ho hlt
  obtain ⟨k1, k2, -⟩ := visited_any (hc.withAlloc ha') ho ((visits_withAlloc a').2 g2)
  refine ⟨L, g2, fun s0 h0 hL hr => ?_⟩
  obtain ⟨r, r1, r2, r3⟩ := C89_any_links_can_be_stored hc' (L := L.filter Link.ended)
    (k1.sublist ((List.filter_sublist).map _)) (fun l hl => ⟨k2 l (List.mem_filter.1 hl).1, hL l hl⟩) hr h0
  refine ⟨r, r1, r2, fun l hl => ?_⟩
  obtain ⟨m1, m2⟩ := List.mem_filter.1 ((r3 l).1 hl)
  obtain ⟨e1, e2⟩ := Link.ended_iff.1 m2
  exact g3 l m1 e1 e2

/-- Two links, the second still without ends. -/
def sYoung : Store := runs cfg0 [.create, .update 1 1 1, .create]

theorem sYoung_reach : Reach cfg0 sYoung := runs_reach (by decide +kernel)

/-- A link is created, and links 2 and 3 get their ends. -/
def growth : List Call := [.create, .update 2 2 1, .update 3 1 2]

/-- The memory at the end of these calls. -/
def sGrown : Store := ((written cfg0 Ref.programs 9 (growth.map quiet) (.of sYoung)).getLast?).getD {}

theorem sGrown_mem : sGrown ∈ written cfg0 Ref.programs 9 (growth.map quiet) (.of sYoung) := by
  unfold sGrown
  cases h : (written cfg0 Ref.programs 9 (growth.map quiet) (.of sYoung)).getLast? with
  | none =>
    have : (written cfg0 Ref.programs 9 (growth.map quiet) (.of sYoung)).getLast?.isSome = true := by decide +kernel
    rw [h] at this; cases this
  | some m => exact List.mem_of_getLast? h

theorem growth_once : WrittenOnce ((links cfg0).view sYoung) (growth.map quiet |>.map (·.call)) := by
  have h2 : (links cfg0).view sYoung 2 = some (0, 0) := by decide +kernel
  have h3 : (links cfg0).view sYoung 3 = none := by decide +kernel
  intro i a b hm
  simp only [growth, quiet, List.map_cons, List.map_nil, List.mem_cons, List.not_mem_nil, or_false, Call.update.injEq,
    reduceCtorEq, false_or] at hm ⊢
  rcases hm with ⟨rfl, rfl, rfl⟩ | ⟨rfl, rfl, rfl⟩
  · refine ⟨fun a' b' h => ?_, fun l hl e => ?_⟩
    · rcases h with h | h
      · exact h.2
      · omega
    · have : (links cfg0).view sYoung l.index = some (l.source, l.target) := hl
      rw [e, h2] at this
      simp only [Option.some.injEq, Prod.mk.injEq] at this
      exact ⟨this.1.symm, this.2.symm⟩
  · refine ⟨fun a' b' h => ?_, fun l hl e => ?_⟩
    · rcases h with h | h
      · omega
      · exact h.2
    · have : (links cfg0).view sYoung l.index = some (l.source, l.target) := hl
      rw [e, h3] at this
      cases this

/-- The hypotheses hold of these calls. A file of which slot 2 is as before them and the rest as after them shows link 3 with
its ends. -/
example : CfgOK cfg0 ∧ Ref.programs.Implements cfg0.trees ∧ Reach cfg0 sYoung ∧ Dense ((links cfg0).view sYoung) ∧
    Session cfg0 sYoung (growth.map quiet) ∧ (∀ x ∈ growth.map quiet, ∀ i, x.call ≠ .delete i) ∧
    WrittenOnce ((links cfg0).view sYoung) (growth.map quiet |>.map (·.call)) ∧
    Torn (sYoung :: written cfg0 Ref.programs 9 (growth.map quiet) (.of sYoung)) (mixed sYoung sGrown [2]) ∧
    opened (mixed sYoung sGrown [2]) (fun s' => (links cfg0).getLink s' 3) = some (some ⟨3, 1, 2⟩) := by
  refine ⟨cfg0_ok, Ref.programs_implement, sYoung_reach, dense_of cfg0_ok sYoung_reach (by decide +kernel),
    sessionB_ok sYoung_reach (by decide +kernel), ?_, growth_once,
    mixed_torn List.mem_cons_self (List.mem_cons_of_mem _ sGrown_mem) _, by decide +kernel⟩
  intro x hx i
  simp only [growth, List.map_cons, List.map_nil, List.mem_cons, List.not_mem_nil, or_false] at hx
  rcases hx with rfl | rfl | rfl <;> simp [quiet]

/-- Two links, both with ends. -/
def sOld : Store := runs cfg0 [.create, .update 1 1 1, .create, .update 2 2 1]

theorem sOld_reach : Reach cfg0 sOld := runs_reach (by decide +kernel)

/-- The memory after link 2 was updated. -/
def sNew : Store := ((written cfg0 Ref.programs 9 ([Call.update 2 1 2].map quiet) (.of sOld)).getLast?).getD {}

/-- The same, but the source of link 2 is as before. -/
def sHalf : Store := { sNew with cell := fun i => if i = 2 then { sNew.cell 2 with source := (sOld.cell 2).source } else sNew.cell i }

/-- **C106**: that ends are given once is needed. Link 2 leads from 2 to 1 and is updated to lead from 1 to 2. If the power
fails it can be found to lead from 2 to 2. -/
theorem C106_power_loss_can_mix_the_ends_of_an_update : ∃ (xs : List Step) (t : Store), CfgOK cfg0 ∧
    Ref.programs.Implements cfg0.trees ∧ Reach cfg0 sOld ∧ Dense ((links cfg0).view sOld) ∧ Session cfg0 sOld xs ∧
    xs.map (·.call) = [.update 2 1 2] ∧ (links cfg0).getLink sOld 2 = some (some ⟨2, 2, 1⟩) ∧
    Torn (sOld :: written cfg0 Ref.programs 9 xs (.of sOld)) t ∧
    opened t (fun s' => (links cfg0).getLink s' 2) = some (some ⟨2, 2, 2⟩) := by
  have hl : sNew ∈ written cfg0 Ref.programs 9 ([Call.update 2 1 2].map quiet) (.of sOld) := by
    unfold sNew
    cases h : (written cfg0 Ref.programs 9 ([Call.update 2 1 2].map quiet) (.of sOld)).getLast? with
    | none =>
      have : (written cfg0 Ref.programs 9 ([Call.update 2 1 2].map quiet) (.of sOld)).getLast?.isSome = true := by
        decide +kernel
      rw [h] at this; cases this
    | some m => exact List.mem_of_getLast? h
  refine ⟨[Call.update 2 1 2].map quiet, sHalf, cfg0_ok, Ref.programs_implement, sOld_reach,
    dense_of cfg0_ok sOld_reach (by decide +kernel), sessionB_ok sOld_reach (by decide +kernel), rfl, by decide +kernel,
    fun i f => ?_, by decide +kernel⟩
  by_cases h0 : i = 0
  · exact ⟨sNew, List.mem_cons_of_mem _ hl, by simp [Store.word, Store.slotWords, sHalf, h0]⟩
  · by_cases h2 : i = 2
    · subst h2
      match f with
      | 0 => exact ⟨sOld, by simp, by simp [Store.word, Store.slotWords, sHalf, Cell.words]⟩
      | n + 1 => exact ⟨sNew, List.mem_cons_of_mem _ hl, by simp [Store.word, Store.slotWords, sHalf, Cell.words]⟩
    · exact ⟨sNew, List.mem_cons_of_mem _ hl, by simp [Store.word, Store.slotWords, sHalf, h0, h2]⟩

end Verif.Unit.Props

/-! # Split store -/

namespace Verif.Split.Props
open Verif Verif.Split
open Verif.Props (Dense EndsFrom WrittenOnce)
variable {c : Cfg} {P : Programs}

theorem dense_free (hc : CfgOK c) {s : Store} {free : List Nat} (h : Inv c s free) (hd : Dense ((links c).view s)) :
    free = [] := by
  refine List.eq_nil_iff_forall_not_mem.2 fun x hx => ?_
  have hlt := h.free_lt x hx
  have h0 := h.base.list.nonzero x hx
  have hl : LiveIn s free s.hdr.allocated := ⟨by omega, Nat.le_refl _, fun hm => by have := h.free_lt _ hm; omega⟩
  obtain ⟨l', g1, g2⟩ := hd (s.linkAt s.hdr.allocated) ((has_iff hc h.toInv0 _).2 ⟨hl, rfl⟩) x (by omega)
    (by show x ≤ s.hdr.allocated; omega)
  have := ((has_iff hc h.toInv0 l').1 g1).1.2.2
  rw [g2] at this
  exact this hx

theorem dense_of (hc : CfgOK c) {s : Store} (h : Reach c s) (h0 : s.hdr.firstFree = 0) : Dense ((links c).view s) := by
  obtain ⟨free, hi⟩ := reach_good hc h
  have hf : free = [] := by
    cases free with
    | nil => rfl
    | cons x r =>
      have e := hi.base.list.first_eq
      have : s.hdr.firstFree = x := by simpa [Store.listMem] using e
      exact absurd (this.symm.trans h0) (hi.base.list.nonzero x (by simp))
  subst hf
  intro l hl j h1 h2
  have := ((has_iff hc hi.toInv0 l).1 hl).1.2.1
  exact ⟨s.linkAt j, (has_iff hc hi.toInv0 _).2 ⟨⟨h1, by show j ≤ _; omega, by simp⟩, rfl⟩, rfl⟩

/-- **C106**, split store: as `Unit.Props.C106_power_loss_while_growing`, every word of both files being what it was at some
moment. -/
theorem C106_split_power_loss_while_growing (hc : CfgOK c) (hP : P.Implements c.trees) {s : Store} (h : Reach c s)
    (hd : Dense ((links c).view s)) {xs : List Step} (hs : Session c s xs) (hx : ∀ x ∈ xs, ∀ i, x.call ≠ .delete i) :
    ∃ f0, ∀ f, f0 ≤ f → ∀ t, Torn (s :: written c P f xs (.of s)) t →
      ∀ (d' i' : Nat → Nat → Option Nat), ExactAlloc d' → ExactAlloc i' → ∀ (n1 n2 : Nat) (s' : Store),
      init (c.withAllocs d' i') { t with dlen := n1, ilen := n2 } = some (.ok s') → t.hdr.allocated < s'.ilen →
      (∀ i l, (links c).getLink s' i = some (some l) → EndsFrom ((links c).view s) (xs.map (·.call)) l) ∧
      ∃ L, (links c).Visits s' [] L ∧ ∀ l ∈ L, EndsFrom ((links c).view s) (xs.map (·.call)) l := by
  obtain ⟨free, hi⟩ := reach_good hc h
  obtain rfl := dense_free hc hi hd
  obtain ⟨f0, hf⟩ := written_raw hc (P := P) hP hs hx hi
  refine ⟨f0, fun f hff t ht d' i' hd' hi' n1 n2 s' ho hlt => ?_⟩
  obtain ⟨n, hn2, -, e⟩ := init_ok (hc.withAllocs hd' hi') ho
  have hsd : s'.data = t.data := by rw [e]
  have hst : s'.stale = false := by rw [e]
  have hsi : s'.hdr.allocated < s'.ilen := by rw [e] at hlt ⊢; exact hlt
  have hsl : s'.hdr.allocated < s'.dlen := by rw [e] at hlt ⊢; exact hlt
  have old : ∀ j, j ≠ 0 →
      (∃ l0, ((links c).view s).Has l0 ∧ l0.index = j ∧ l0.source = (s.data j).1 ∧ l0.target = (s.data j).2) ∨
      (links c).view s j = none ∧ s.data j = (0, 0) := by
    intro j hj
    by_cases hl : LiveIn s [] j
    · exact .inl ⟨s.linkAt j, (has_iff hc hi.toInv0 _).2 ⟨hl, rfl⟩, rfl, rfl, rfl⟩
    · refine .inr ⟨by rw [view_eq hc hi.toInv0, if_neg hl], hi.base.beyond j ?_⟩
      exact Nat.lt_of_not_le fun hle => hl ⟨by omega, hle, by simp⟩
  have look : ∀ i l, (links c).getLink s' i = some (some l) →
      EndsFrom ((links c).view s) (xs.map (·.call)) l := by
    intro i l hl
    have hl : getLink c s' i = some (some l) := hl
    have h0 : i ≠ 0 := by
      have := (getLink_le hl).1
      rw [hc.start_eq] at this
      omega
    have hat : s'.linkAt i = l := by
      rcases getLink_slot (c := c) hst hsi hsl i with e | e
      · rw [e] at hl; cases hl
      · rw [e] at hl; cases hl; rfl
    subst hat
    have hm : ∀ m ∈ s :: written c P f xs (.of s),
        ((m.data i).1 = (s.data i).1 ∨ ∃ x ∈ xs, ∃ a b, x.call = .update i a b ∧ (m.data i).1 = a) ∧
        ((m.data i).2 = (s.data i).2 ∨ ∃ x ∈ xs, ∃ a b, x.call = .update i a b ∧ (m.data i).2 = b) := by
      intro m hm
      rcases List.mem_cons.1 hm with rfl | hm
      · exact ⟨.inl rfl, .inl rfl⟩
      · exact hf f hff m hm i h0
    obtain ⟨⟨m0, g0, e0⟩, -⟩ := ht i 0
    obtain ⟨⟨m1, g1, e1⟩, -⟩ := ht i 1
    simp only [Store.dataWord, List.getD_cons_zero, List.getD_cons_succ] at e0 e1
    have k0 := (hm m0 g0).1
    have k1 := (hm m1 g1).2
    have e0 : (s'.linkAt i).source = (m0.data i).1 := by simp only [Store.linkAt, hsd]; exact e0
    have e1 : (s'.linkAt i).target = (m1.data i).2 := by simp only [Store.linkAt, hsd]; exact e1
    rw [← e0] at k0
    rw [← e1] at k1
    refine ⟨?_, ?_⟩
    · rcases k0 with k | ⟨x, hx, a, b, k, k'⟩
      · rcases old i h0 with ⟨l0, g⟩ | ⟨g, g'⟩
        · exact .inl ⟨l0, g.1, g.2.1, g.2.2.1.trans k.symm⟩
        · exact .inr (.inl ⟨g, by rw [k, g']⟩)
      · exact .inr (.inr ⟨b, List.mem_map.2 ⟨x, hx, by rw [k, k']; rfl⟩⟩)
    · rcases k1 with k | ⟨x, hx, a, b, k, k'⟩
      · rcases old i h0 with ⟨l0, g⟩ | ⟨g, g'⟩
        · exact .inl ⟨l0, g.1, g.2.1, g.2.2.2.trans k.symm⟩
        · exact .inr (.inl ⟨g, by rw [k, g']⟩)
      · exact .inr (.inr ⟨a, List.mem_map.2 ⟨x, hx, by rw [k, k']; rfl⟩⟩)
  obtain ⟨L, h1, h2⟩ := all_visits (c := c) hst hsi hsl
  exact ⟨look, L, h1, fun l hl => look l.index l (h2 l hl)⟩

/-- **C106**, split store: as `Unit.Props.C106_power_loss_makes_no_link_up_while_growing`. -/
theorem C106_split_power_loss_makes_no_link_up_while_growing (hc : CfgOK c) (hP : P.Implements c.trees) {s : Store}
    (h : Reach c s) (hd : Dense ((links c).view s)) {xs : List Step} (hs : Session c s xs)
    (hx : ∀ x ∈ xs, ∀ i, x.call ≠ .delete i) (hw : WrittenOnce ((links c).view s) (xs.map (·.call))) :
    ∃ f0, ∀ f, f0 ≤ f → ∀ t, Torn (s :: written c P f xs (.of s)) t →
      ∀ (d' i' : Nat → Nat → Option Nat), ExactAlloc d' → ExactAlloc i' → ∀ (n1 n2 : Nat) (s' : Store),
      init (c.withAllocs d' i') { t with dlen := n1, ilen := n2 } = some (.ok s') → t.hdr.allocated < s'.ilen →
      (∀ i l, (links c).getLink s' i = some (some l) → l.source ≠ 0 → l.target ≠ 0 →
        ((links c).view s).Has l ∨ Call.update l.index l.source l.target ∈ xs.map (·.call)) ∧
      ∃ L, (links c).Visits s' [] L ∧ ∀ l ∈ L, l.source ≠ 0 → l.target ≠ 0 →
        ((links c).view s).Has l ∨ Call.update l.index l.source l.target ∈ xs.map (·.call) := by
  obtain ⟨f0, hf⟩ := C106_split_power_loss_while_growing hc hP h hd hs hx
  refine ⟨f0, fun f hff t ht d' i' hd' hi' n1 n2 s' ho hlt => ?_⟩
  obtain ⟨g1, L, g2, g3⟩ := hf f hff t ht d' i' hd' hi' n1 n2 s' ho hlt
  exact ⟨fun i l hl h1 h2 => (g1 i l hl).whole hw h1 h2, L, g2, fun l hl h1 h2 => (g3 l hl).whole hw h1 h2⟩

/-- **C106**, split store: as `Unit.Props.C106_recovery_while_growing`. -/
theorem C106_split_recovery_while_growing (hc : CfgOK c) (hc' : CfgOK c') (hP : P.Implements c.trees) {s : Store}
    (h : Reach c s) (hd : Dense ((links c).view s)) {xs : List Step} (hs : Session c s xs)
    (hx : ∀ x ∈ xs, ∀ i, x.call ≠ .delete i) (hw : WrittenOnce ((links c).view s) (xs.map (·.call))) :
    ∃ f0, ∀ f, f0 ≤ f → ∀ t, Torn (s :: written c P f xs (.of s)) t →
      ∀ (d' i' : Nat → Nat → Option Nat), ExactAlloc d' → ExactAlloc i' → ∀ (n1 n2 : Nat) (s' : Store),
      init (c.withAllocs d' i') { t with dlen := n1, ilen := n2 } = some (.ok s') → t.hdr.allocated < s'.ilen →
      ∃ L, (links c).Visits s' [] L ∧ ∀ s0, init c' {} = some (.ok s0) →
        (∀ l ∈ L.filter Link.ended, l.index ≤ c'.consts.internalEnd) → RoomFor c' (highest (L.filter Link.ended)) →
        ∃ r, runAll (step c' c'.dalloc c'.ialloc) (rebuild (L.filter Link.ended)) s0 = some r ∧ Reach c' r ∧
          ∀ l, ((links c').view r).Has l →
            ((links c).view s).Has l ∨ Call.update l.index l.source l.target ∈ xs.map (·.call) := by
  obtain ⟨f0, hf⟩ := C106_split_power_loss_makes_no_link_up_while_growing hc hP h hd hs hx hw
  refine ⟨f0, fun f hff t ht d' i' hd' hi' n1 n2 s' ho hlt => ?_⟩
  obtain ⟨-, L, g2, g3⟩ := hf f hff t ht d' i' hd' hi' n1 n2 s' ho hlt
  obtain ⟨k1, k2, -⟩ := visited_any (hc.withAllocs hd' hi') ho ((visits_withAllocs d' i').2 g2)
  refine ⟨L, g2, fun s0 h0 hL hr => ?_⟩
  obtain ⟨r, r1, r2, r3⟩ := C89_split_any_links_can_be_stored hc' (L := L.filter Link.ended)
    (k1.sublist ((List.filter_sublist).map _))
    (fun l hl => ⟨k2 l (List.mem_filter.1 hl).1, hL l hl, fun _ => (Link.ended_iff.1 (List.mem_filter.1 hl).2).2⟩) hr h0
  refine ⟨r, r1, r2, fun l hl => ?_⟩
  obtain ⟨m1, m2⟩ := List.mem_filter.1 ((r3 l).1 hl)
  obtain ⟨e1, e2⟩ := Link.ended_iff.1 m2
  exact g3 l m1 e1 e2

/-- Two links, the second still without ends. -/
def sYoung : Store := runs cfg0 [.create, .update 1 1 1, .create]

theorem sYoung_reach : Reach cfg0 sYoung := runs_reach (by decide +kernel)

/-- A link is created, and links 2 and 3 get their ends. -/
def growth : List Call := [.create, .update 2 2 1, .update 3 1 2]

/-- The memories at the end of these calls. -/
def sGrown : Store := ((written cfg0 Ref.programs 9 (growth.map quiet) (.of sYoung)).getLast?).getD {}

theorem sGrown_mem : sGrown ∈ written cfg0 Ref.programs 9 (growth.map quiet) (.of sYoung) := by
  unfold sGrown
  cases h : (written cfg0 Ref.programs 9 (growth.map quiet) (.of sYoung)).getLast? with
  | none =>
    have : (written cfg0 Ref.programs 9 (growth.map quiet) (.of sYoung)).getLast?.isSome = true := by decide +kernel
    rw [h] at this; cases this
  | some m => exact List.mem_of_getLast? h

theorem growth_once : WrittenOnce ((links cfg0).view sYoung) (growth.map quiet |>.map (·.call)) := by
  have h2 : (links cfg0).view sYoung 2 = some (0, 0) := by decide +kernel
  have h3 : (links cfg0).view sYoung 3 = none := by decide +kernel
  intro i a b hm
  simp only [growth, quiet, List.map_cons, List.map_nil, List.mem_cons, List.not_mem_nil, or_false, Call.update.injEq,
    reduceCtorEq, false_or] at hm ⊢
  rcases hm with ⟨rfl, rfl, rfl⟩ | ⟨rfl, rfl, rfl⟩
  · refine ⟨fun a' b' h => ?_, fun l hl e => ?_⟩
    · rcases h with h | h
      · exact h.2
      · omega
    · have : (links cfg0).view sYoung l.index = some (l.source, l.target) := hl
      rw [e, h2] at this
      simp only [Option.some.injEq, Prod.mk.injEq] at this
      exact ⟨this.1.symm, this.2.symm⟩
  · refine ⟨fun a' b' h => ?_, fun l hl e => ?_⟩
    · rcases h with h | h
      · omega
      · exact h.2
    · have : (links cfg0).view sYoung l.index = some (l.source, l.target) := hl
      rw [e, h3] at this
      cases this

/-- The hypotheses hold of these calls. Files of which slot 2 is as before them and the rest as after them show link 3 with
its ends. -/
example : CfgOK cfg0 ∧ Ref.programs.Implements cfg0.trees ∧ Reach cfg0 sYoung ∧ Dense ((links cfg0).view sYoung) ∧
    Session cfg0 sYoung (growth.map quiet) ∧ (∀ x ∈ growth.map quiet, ∀ i, x.call ≠ .delete i) ∧
    WrittenOnce ((links cfg0).view sYoung) (growth.map quiet |>.map (·.call)) ∧
    Torn (sYoung :: written cfg0 Ref.programs 9 (growth.map quiet) (.of sYoung)) (mixed sYoung sGrown [2]) ∧
    opened (mixed sYoung sGrown [2]) (fun s' => (links cfg0).getLink s' 3) = some (some ⟨3, 1, 2⟩) := by
  refine ⟨cfg0_ok, Ref.programs_implement, sYoung_reach, dense_of cfg0_ok sYoung_reach (by decide +kernel),
    sessionB_ok sYoung_reach (by decide +kernel), ?_, growth_once,
    mixed_torn List.mem_cons_self (List.mem_cons_of_mem _ sGrown_mem) _, by decide +kernel⟩
  intro x hx i
  simp only [growth, List.map_cons, List.map_nil, List.mem_cons, List.not_mem_nil, or_false] at hx
  rcases hx with rfl | rfl | rfl <;> simp [quiet]

/-- Three links, the third without ends. -/
def sOld : Store := runs cfg0 [.create, .update 1 1 1, .create, .create, .update 2 1 3]

theorem sOld_reach : Reach cfg0 sOld := runs_reach (by decide +kernel)

/-- The memories after link 2 was updated. -/
def sNew : Store := ((written cfg0 Ref.programs 9 ([Call.update 2 3 1].map quiet) (.of sOld)).getLast?).getD {}

/-- The same, but the source of link 2 is as before. -/
def sHalf : Store := { sNew with data := fun i => if i = 2 then ((sOld.data 2).1, (sNew.data 2).2) else sNew.data i }

theorem sHalf_idx (i f : Nat) : sHalf.idxWord i f = sNew.idxWord i f := by
  simp only [Store.idxWord, Store.idxWords, sHalf]

/-- **C106**, split store: that ends are given once is needed. Link 2 leads from 1 to 3 and is updated to lead from 3 to 1. If
the power fails it can be found to lead from 1 to 1. -/
theorem C106_split_power_loss_can_mix_the_ends_of_an_update : ∃ (xs : List Step) (t : Store), CfgOK cfg0 ∧
    Ref.programs.Implements cfg0.trees ∧ Reach cfg0 sOld ∧ Dense ((links cfg0).view sOld) ∧ Session cfg0 sOld xs ∧
    xs.map (·.call) = [.update 2 3 1] ∧ (links cfg0).getLink sOld 2 = some (some ⟨2, 1, 3⟩) ∧
    Torn (sOld :: written cfg0 Ref.programs 9 xs (.of sOld)) t ∧
    opened t (fun s' => (links cfg0).getLink s' 2) = some (some ⟨2, 1, 1⟩) := by
  have hl : sNew ∈ written cfg0 Ref.programs 9 ([Call.update 2 3 1].map quiet) (.of sOld) := by
    unfold sNew
    cases h : (written cfg0 Ref.programs 9 ([Call.update 2 3 1].map quiet) (.of sOld)).getLast? with
    | none =>
      have : (written cfg0 Ref.programs 9 ([Call.update 2 3 1].map quiet) (.of sOld)).getLast?.isSome = true := by
        decide +kernel
      rw [h] at this; cases this
    | some m => exact List.mem_of_getLast? h
  refine ⟨[Call.update 2 3 1].map quiet, sHalf, cfg0_ok, Ref.programs_implement, sOld_reach,
    dense_of cfg0_ok sOld_reach (by decide +kernel), sessionB_ok sOld_reach (by decide +kernel), rfl, by decide +kernel,
    fun i f => ⟨?_, sNew, List.mem_cons_of_mem _ hl, sHalf_idx i f⟩, by decide +kernel⟩
  by_cases h2 : i = 2
  · subst h2
    match f with
    | 0 => exact ⟨sOld, by simp, by simp [Store.dataWord, sHalf]⟩
    | n + 1 => exact ⟨sNew, List.mem_cons_of_mem _ hl, by simp [Store.dataWord, sHalf]⟩
  · exact ⟨sNew, List.mem_cons_of_mem _ hl, by simp [Store.dataWord, sHalf, h2]⟩

end Verif.Split.Props
