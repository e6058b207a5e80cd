import Verif.Props.Recovery
import Verif.Props.SharedCrash
import Verif.Props.SplitSharedCrash

/-!
# C90, recovery of a store that threads shared

When the process dies or the power fails while threads share a store (C103), copying what a traversal visits recovers it as
after a crash of a single thread.
-/

namespace Verif.Unit.Props
open Verif Verif.Unit
variable {c c' : Cfg} {P : Programs}

/-- The memory `t`, however it is opened, can be copied by a client: the traversal of everything ends, storing what it visits in
a fresh store succeeds, the copy is a sound store in which lookups return what they return in the damaged one, and under the index
of a link in `Q` it has that link or none. -/
def CanBeCopied (c c' : Cfg) (Q : Link → Prop) (t : Store) : Prop :=
  ∀ (a' : Nat → Nat → Option Nat) (n : Nat) (s' : Store), GoodAlloc a' →
    init (c.withAlloc a') { t with len := n } = some (.ok s') → t.hdr.allocated < s'.len →
    ∃ L, (links c).Visits s' [] L ∧ ∀ s0, init c' {} = some (.ok s0) → (∀ l ∈ L, l.index ≤ c'.consts.internalEnd) →
      RoomFor c' (highest L) → ∃ r, runAll (step c' c'.alloc) (rebuild L) s0 = some r ∧ Reach c' r ∧
      (∀ i, (links c').view r i = (links c).view s' i) ∧
      ∀ l, Q l → (links c').view r l.index = some (l.source, l.target) ∨ (links c').view r l.index = none

theorem OpensWith.canBeCopied (hc : CfgOK c) (hc' : CfgOK c') {Q : Link → Prop} {t : Store} (h : OpensWith c Q t) :
    CanBeCopied c c' Q t := by
  intro a' n s' ha' ho hlt
  obtain ⟨g1, L, g2, -⟩ := h a' n s' ho hlt
  refine ⟨L, g2, fun s0 h0 hL hr => ?_⟩
  obtain ⟨r, r1, r2, r3⟩ := C90_any_memory_can_be_copied (hc.withAlloc ha') hc' ho ((visits_withAlloc a').2 g2) hL hr h0
  refine ⟨r, r1, r2, fun i => congrFun r3 i, fun l hl => ?_⟩
  rw [r3, view_withAlloc]
  obtain ⟨-, -, g | g⟩ := g1 l hl
  · exact .inl (by simp only [Links.view, g])
  · exact .inr (by simp only [Links.view, g])

/-- **C90**, united store shared by threads that run any methods, in any schedule. After a power failure the file can be copied,
and under the index of a link that was there at the beginning and that none of the requests is about the copy has that link or
none. After a crash the memory can be copied, and the same holds of the links that the finished requests leave and that nobody
who is writing is about. -/
theorem C90_recovery_with_threads (hc : CfgOK c) (hc' : CfgOK c') (hP : P.Implements c.trees) (A : Type) :
    ∃ B, ∀ {s0 : Store} {cl : Clients (Got Reply A) (Ask (Req (Nat → Nat → Option Nat)) Reply A)}, Reach c s0 →
      Disciplined (Ask.answer (answer c)) (Ask.Sup (answer c) (Allowed c)) cl s0 →
      ∀ {ms : List AStore} {y : Sys AStore Loc (Got Reply A)},
      Schedule AStore.look (Ask.job AStore.look (job c P)) cl B (.of s0) ms y →
      (∀ t, Torn (ms.map (·.s)) t → CanBeCopied c c' (fun l => ((links c).view s0).Has l ∧
        Disciplined (Ask.answer (answer c)) (Ask.Sup (answer c) fun _ q => ¬ q.about l.index) cl s0) t) ∧
      ∃ s, Serial (Ask.answer (answer c)) cl s0 y.log s ∧
        CanBeCopied c c' (fun l => ((links c).view s).Has l ∧ ∀ i rest last q, y.phase i = .writing rest last →
          cl i (mine y.log i) q → Ask.Sup (answer c) (fun _ q => ¬ q.about l.index) s q) y.mem.s := by
  obtain ⟨B, h⟩ := C103_any_moment hc hP A
  refine ⟨B, fun h0 hd _ _ hs => ?_⟩
  obtain ⟨h1, s, h2, -, -, h3⟩ := h h0 hd hs
  exact ⟨fun t ht => (h1 t ht).canBeCopied hc hc', s, h2, h3.canBeCopied hc hc'⟩

/-- **C90**, united store shared by threads that build (C102). At whatever moment the process dies, the memory can be copied,
and under the index of every link that was there from the start or has been returned to anybody the copy has that link or none;
after a power failure the same holds of the links that were there when the file was last on disk. -/
theorem C90_recovery_with_builders (hc : CfgOK c) (hc' : CfgOK c') (hP : P.Implements c.trees) :
    ∃ B, ∀ {s0 : Store} {cl : Clients Gots (Asks (Nat → Nat → Option Nat))}, Client c s0 →
      (∀ i rs q, cl i rs q → Adds (OnlyLooks c) (Grows c) c.consts.any ((links c).view s0) rs q) →
      ∀ {ms : List AStore} {y : Sys AStore Loc Gots},
      Schedule AStore.look (Ask.job AStore.look (job c P)) cl B (.of s0) ms y →
      (∀ t, Torn (ms.map (·.s)) t → CanBeCopied c c' (fun l => ((links c).view s0).Has l) t) ∧
      CanBeCopied c c' (fun l => ((links c).view s0).Has l ∨
        (∃ t, (t, .all (.point, .ok l.index)) ∈ y.log ∧ l.source = l.index ∧ l.target = l.index) ∨
        ∃ t, (t, .all (.pair l.source l.target, .ok l.index)) ∈ y.log) y.mem.s := by
  obtain ⟨B, h⟩ := C103_builders hc hP
  refine ⟨B, fun h0 hcl _ _ hs => ?_⟩
  obtain ⟨h1, h2⟩ := h h0 hcl hs
  exact ⟨fun t ht => (h1 t ht).canBeCopied hc hc', h2.canBeCopied hc hc'⟩

/-- Two threads that make a point each over a store with two points. -/
example : ∃ B, ∃ ms y, Schedule AStore.look (Ask.job AStore.look (job cfg0 Ref.programs)) builders B (.of sPts) ms y ∧
    y.log.length = 2 ∧ ((links cfg0).view sPts).Has ⟨1, 1, 1⟩ ∧
    ∀ t, Torn (ms.map (·.s)) t → CanBeCopied cfg0 cfg0 (fun l => ((links cfg0).view sPts).Has l) t := by
  obtain ⟨B, h⟩ := C90_recovery_with_builders cfg0_ok cfg0_ok Ref.programs_implement
  obtain ⟨ms, s, i, j, -, hs⟩ := builders_schedule B
  exact ⟨B, ms, _, hs, rfl, by show (links cfg0).view sPts 1 = some (1, 1); decide +kernel, (h sPts_client builders_build hs).1⟩

example : ∃ B, ∃ ms y, Schedule AStore.look (Ask.job AStore.look (job cfg0 Ref.programs)) builders B (.of sPts) ms y ∧
    y.log.length = 2 ∧ ∃ s, Serial (Ask.answer (answer cfg0)) builders sPts y.log s := by
  obtain ⟨B, h⟩ := C90_recovery_with_threads cfg0_ok cfg0_ok Ref.programs_implement (Act × Except Err Nat)
  obtain ⟨ms, s, i, j, -, hs⟩ := builders_schedule B
  obtain ⟨-, s', h1, -⟩ := h (client_law cfg0_ok sPts_client).1 builders_disciplined hs
  exact ⟨B, ms, _, hs, rfl, s', h1⟩

end Verif.Unit.Props

namespace Verif.Split.Props
open Verif Verif.Split
variable {c c' : Cfg} {P : Programs}

/-- The memories `t`, however they are opened, can be copied by a client: the traversal of everything ends, storing what it visits,
except links that have a source but no target, in a fresh store succeeds, the copy is a sound store with these links, and under the
index of a link in `Q` it has that link or none. -/
def CanBeCopied (c c' : Cfg) (Q : Link → Prop) (t : Store) : Prop :=
  ∀ (d' i' : Nat → Nat → Option Nat), ExactAlloc d' → ExactAlloc i' → ∀ (n1 n2 : Nat) (s' : Store),
    init (c.withAllocs d' i') { t with dlen := n1, ilen := n2 } = some (.ok s') → t.hdr.allocated < s'.ilen →
    ∃ L, (links c).Visits s' [] L ∧ ∀ s0, init c' {} = some (.ok s0) → (∀ l ∈ L, l.index ≤ c'.consts.internalEnd) →
      RoomFor c' (highest (L.filter Link.whole)) →
      ∃ r, runAll (step c' c'.dalloc c'.ialloc) (rebuild (L.filter Link.whole)) s0 = some r ∧ Reach c' r ∧
      (∀ l, ((links c').view r).Has l ↔ ((links c).view s').Has l ∧ (l.source ≠ 0 → l.target ≠ 0)) ∧
      ∀ l, Q l → (links c').view r l.index = some (l.source, l.target) ∨ (links c').view r l.index = none

theorem OpensWith.canBeCopied (hc : CfgOK c) (hc' : CfgOK c') {Q : Link → Prop} {t : Store} (h : OpensWith c Q t) :
    CanBeCopied c c' Q t := by
  intro d' i' hd' hi' n1 n2 s' ho hlt
  obtain ⟨g1, L, g2, -⟩ := h d' i' hd' hi' n1 n2 s' ho hlt
  refine ⟨L, g2, fun s0 h0 hL hr => ?_⟩
  obtain ⟨r, r1, r2, r3⟩ := C90_split_any_memory_can_be_copied (hc.withAllocs hd' hi') hc' ho ((visits_withAllocs d' i').2 g2) hL hr h0
  rw [view_withAllocs] at r3
  refine ⟨r, r1, r2, r3, fun l hl => ?_⟩
  obtain ⟨-, g⟩ := g1 l hl
  cases hr' : (links c').view r l.index with
  | none => exact .inr rfl
  | some p =>
    have hp : (links c).view s' l.index = some p := ((r3 ⟨l.index, p.1, p.2⟩).1 hr').1
    rcases g with g | g
    · simp only [Links.view, g, Option.some.injEq] at hp
      exact .inl (by rw [← hp])
    · simp only [Links.view, g] at hp
      cases hp

/-- **C90**, split store shared by threads: as `Unit.Props.C90_recovery_with_threads`. -/
theorem C90_split_recovery_with_threads (hc : CfgOK c) (hc' : CfgOK c') (hP : P.Implements c.trees) (A : Type) :
    ∃ B, ∀ {s0 : Store} {cl : Clients (Got Reply A) (Ask (Req Allocs) Reply A)}, Reach c s0 →
      Disciplined (Ask.answer (answer c)) (Ask.Sup (answer c) (Allowed c)) cl s0 →
      ∀ {ms : List AStore} {y : Sys AStore Loc (Got Reply A)},
      Schedule AStore.look (Ask.job AStore.look (job c P)) cl B (.of s0) ms y →
      (∀ t, Torn (ms.map (·.s)) t → CanBeCopied c c' (fun l => ((links c).view s0).Has l ∧
        Disciplined (Ask.answer (answer c)) (Ask.Sup (answer c) fun _ q => ¬ q.about l.index) cl s0) t) ∧
      ∃ s, Serial (Ask.answer (answer c)) cl s0 y.log s ∧
        CanBeCopied c c' (fun l => ((links c).view s).Has l ∧ ∀ i rest last q, y.phase i = .writing rest last →
          cl i (mine y.log i) q → Ask.Sup (answer c) (fun _ q => ¬ q.about l.index) s q) y.mem.s := by
  obtain ⟨B, h⟩ := C103_split_any_moment hc hP A
  refine ⟨B, fun h0 hd _ _ hs => ?_⟩
  obtain ⟨h1, s, h2, -, -, h3⟩ := h h0 hd hs
  exact ⟨fun t ht => (h1 t ht).canBeCopied hc hc', s, h2, h3.canBeCopied hc hc'⟩

/-- **C90**, split store shared by threads that build: as `Unit.Props.C90_recovery_with_builders`. -/
theorem C90_split_recovery_with_builders (hc : CfgOK c) (hc' : CfgOK c') (hP : P.Implements c.trees) :
    ∃ B, ∀ {s0 : Store} {cl : Clients Gots (Asks Allocs)}, Client c s0 →
      (∀ i rs q, cl i rs q → Adds (OnlyLooks c) (Grows c) c.consts.any ((links c).view s0) rs q) →
      ∀ {ms : List AStore} {y : Sys AStore Loc Gots},
      Schedule AStore.look (Ask.job AStore.look (job c P)) cl B (.of s0) ms y →
      (∀ t, Torn (ms.map (·.s)) t → CanBeCopied c c' (fun l => ((links c).view s0).Has l) t) ∧
      CanBeCopied c c' (fun l => ((links c).view s0).Has l ∨
        (∃ t, (t, .all (.point, .ok l.index)) ∈ y.log ∧ l.source = l.index ∧ l.target = l.index) ∨
        ∃ t, (t, .all (.pair l.source l.target, .ok l.index)) ∈ y.log) y.mem.s := by
  obtain ⟨B, h⟩ := C103_split_builders hc hP
  refine ⟨B, fun h0 hcl _ _ hs => ?_⟩
  obtain ⟨h1, h2⟩ := h h0 hcl hs
  exact ⟨fun t ht => (h1 t ht).canBeCopied hc hc', h2.canBeCopied hc hc'⟩

/-- Two threads that make a point each over a store with two points. -/
example : ∃ B, ∃ ms y, Schedule AStore.look (Ask.job AStore.look (job cfg0 Ref.programs)) builders B (.of sPts) ms y ∧
    y.log.length = 2 ∧ ((links cfg0).view sPts).Has ⟨1, 1, 1⟩ ∧
    ∀ t, Torn (ms.map (·.s)) t → CanBeCopied cfg0 cfg0 (fun l => ((links cfg0).view sPts).Has l) t := by
  obtain ⟨B, h⟩ := C90_split_recovery_with_builders cfg0_ok cfg0_ok Ref.programs_implement
  obtain ⟨ms, s, i, j, -, hs⟩ := builders_schedule B
  exact ⟨B, ms, _, hs, rfl, by show (links cfg0).view sPts 1 = some (1, 1); decide +kernel, (h sPts_client builders_build hs).1⟩

example : ∃ B, ∃ ms y, Schedule AStore.look (Ask.job AStore.look (job cfg0 Ref.programs)) builders B (.of sPts) ms y ∧
    y.log.length = 2 ∧ ∃ s, Serial (Ask.answer (answer cfg0)) builders sPts y.log s := by
  obtain ⟨B, h⟩ := C90_split_recovery_with_threads cfg0_ok cfg0_ok Ref.programs_implement (Act × Except Err Nat)
  obtain ⟨ms, s, i, j, -, hs⟩ := builders_schedule B
  obtain ⟨-, s', h1, -⟩ := h (client_law cfg0_ok sPts_client).1 builders_disciplined hs
  exact ⟨B, ms, _, hs, rfl, s', h1⟩

end Verif.Split.Props
