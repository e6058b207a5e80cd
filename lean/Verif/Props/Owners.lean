import Verif.Owners
import Verif.Props.Shared
import Verif.Props.SplitShared

/-!
# Property C107: threads that own different links do not notice each other

Threads share a store as in C85. If each link has at most one owner, every thread updates and deletes only links that it owns,
and looks up only links that nobody else owns, then each thread gets the results that it would get from a private map of links
(`Alone`, `privateAnswer` in `Verif/Owners.lean`), whatever the schedule, and the links are in the end what these private runs
make of them.
-/

namespace Verif.Unit.Props
open Verif Verif.Unit
variable {c : Cfg} {P : Programs}

/-- The store answers like a map. An update reports the new link as the link before (`store.rs:479-480`, C26). -/
theorem answers_private (hc : CfgOK c) {s : Store} (h : Reach c s) {own : Nat → Nat → Prop} {t : Nat}
    {q : Req (Nat → Nat → Option Nat)} (hw : OwnCall own t q) (ha : Allowed c s q) {r : Reply} {s' : Store}
    (hr : answer c s q = some (r, s')) :
    privateAnswer (fun _ new => new) ((links c).view s) q = some (r, (links c).view s') ∧ Reach c s' := by
  have hg := reach_good hc h
  cases q with
  | each q h => exact hw.elim
  | count q => exact hw.elim
  | get i =>
    simp only [answer, (lawful hc).get s hg i, Option.map_some, Option.some.injEq, Prod.mk.injEq] at hr
    obtain ⟨rfl, rfl⟩ := hr
    exact ⟨rfl, h⟩
  | write k a hd =>
    obtain ⟨-, ha, hk⟩ := ha
    have hca := hc.withAlloc ha
    have hga : Good (c.withAlloc a) s := by
      obtain ⟨free, ts, tt, hi⟩ := hg
      exact ⟨_, _, _, hi.withAlloc a⟩
    simp only [answer, Option.map_eq_some_iff, Prod.mk.injEq] at hr
    obtain ⟨o, ho, rfl, rfl⟩ := hr
    refine ⟨?_, (step_keeps hc h ha hk ho).1⟩
    cases k with
    | create => exact hw.elim
    | update i x y =>
      simp only [privateAnswer]
      cases hv : (links c).view s i with
      | none =>
        have := (lawful hca).update_missing s hga i hv i x y _ (showing2 hd) []
        obtain rfl := Option.some.inj (ho.symm.trans this)
        rfl
      | some p =>
        obtain ⟨s', -, hv', he⟩ := update_law hca hga hv (hk i rfl) i x y
        obtain rfl := Option.some.inj (ho.symm.trans (he _ (showing2 hd) []))
        have hv' : (links c).view s' = ((links c).view s).set i (x, y) := hv'
        simp only [hv']
        rfl
    | delete i =>
      simp only [privateAnswer]
      cases hv : (links c).view s i with
      | none =>
        have := (lawful hca).delete_missing s hga i hv _ (showing2 hd) []
        obtain rfl := Option.some.inj (ho.symm.trans this)
        rfl
      | some p =>
        obtain ⟨s', -, hv', he⟩ := delete_law hca hga hv (hk i rfl)
        obtain rfl := Option.some.inj (ho.symm.trans (he _ (showing2 hd) []))
        have hv' : (links c).view s' = ((links c).view s).del i := hv'
        simp only [hv']
        rfl

theorem serial_reach (hc : CfgOK c) {s0 : Store} (h0 : Reach c s0) {cl : Clients Reply (Req (Nat → Nat → Option Nat))}
    (hd : Disciplined (answer c) (Allowed c) cl s0) {own : Nat → Nat → Prop} (hcl : ∀ t rs q, cl t rs q → OwnCall own t q)
    {log : List (Nat × Reply)} {s : Store} (h : Serial (answer c) cl s0 log s) : Reach c s := by
  induction h with
  | start => exact h0
  | call hs h1 h2 ih => exact (answers_private hc ih (hcl _ _ _ h1) (hd _ _ hs _ _ h1) h2).2

/-- **C107**, united store. Every schedule, down to single loads and assignments: at every moment the results that a thread
has got are those of a run of its own on a private copy of the links; the links that nobody else owns are what that run has
made of them; links without owner are what they were at the start. -/
theorem C107_owners_do_not_notice_each_other (hc : CfgOK c) (hP : P.Implements c.trees) {s0 : Store} (h0 : Reach c s0)
    {cl : Clients Reply (Req (Nat → Nat → Option Nat))} (hd : Disciplined (answer c) (Allowed c) cl s0)
    {own : Nat → Nat → Prop} (ho : ∀ t u j, own t j → own u j → t = u) (hcl : ∀ t rs q, cl t rs q → OwnCall own t q)
    {y : Sys AStore Loc Reply} (hy : Runs AStore.look (job c P) cl (.of s0) y) :
    ∃ s, Reach c s ∧ (y.NoWriter → y.mem = .of s) ∧
      (∀ t, ∃ v, Alone (fun _ new => new) cl t ((links c).view s0) (mine y.log t) v ∧
        ∀ j, NotOthers own t j → (links c).view s j = v j) ∧
      ∀ j, (∀ t, ¬ own t j) → (links c).view s j = (links c).view s0 j := by
  obtain ⟨s, h1, h2, h3, -⟩ := C85_every_schedule hc hP h0 hd hy
  obtain ⟨g1, g2⟩ := serial_owners (before := fun _ new => new) (view := (links c).view)
    (fun hs hq hr => (answers_private hc (serial_reach hc h0 hd hcl hs) (hcl _ _ _ hq) (hd _ _ hs _ _ hq) hr).1) hcl ho h1
  refine ⟨s, h2, h3, fun t => ?_, g2⟩
  obtain ⟨v, k1, k2⟩ := g1 t
  exact ⟨v, k1, fun j hj => (k2 j hj).symm⟩

/-- **C107**, united store. If moreover the next call of a thread is determined by its results, then all schedules that
finish give every thread the same results and end with the same contents. -/
theorem C107_schedules_end_alike (hc : CfgOK c) (hP : P.Implements c.trees) {s0 : Store} (h0 : Reach c s0)
    {cl : Clients Reply (Req (Nat → Nat → Option Nat))} (hd : Disciplined (answer c) (Allowed c) cl s0)
    {own : Nat → Nat → Prop} (ho : ∀ t u j, own t j → own u j → t = u) (hcl : ∀ t rs q, cl t rs q → OwnCall own t q)
    (hdet : Deterministic cl) {y y' : Sys AStore Loc Reply} (hy : Runs AStore.look (job c P) cl (.of s0) y)
    (hy' : Runs AStore.look (job c P) cl (.of s0) y') (hi : ∀ t, y.phase t = .idle ∧ Finished cl t (mine y.log t))
    (hi' : ∀ t, y'.phase t = .idle ∧ Finished cl t (mine y'.log t)) :
    (∀ t, mine y.log t = mine y'.log t) ∧
    ∃ s s', Reach c s ∧ Reach c s' ∧ y.mem = .of s ∧ y'.mem = .of s' ∧ (links c).view s = (links c).view s' := by
  obtain ⟨s, h1, h2, h3, h4⟩ := C107_owners_do_not_notice_each_other hc hP h0 hd ho hcl hy
  obtain ⟨s', h1', h2', h3', h4'⟩ := C107_owners_do_not_notice_each_other hc hP h0 hd ho hcl hy'
  have key : ∀ t, mine y.log t = mine y'.log t ∧ ∀ j, NotOthers own t j → (links c).view s j = (links c).view s' j := by
    intro t
    obtain ⟨v, g1, g2⟩ := h3 t
    obtain ⟨v', g1', g2'⟩ := h3' t
    obtain ⟨e1, e2⟩ := g1.finished hdet (hi t).2 g1' (hi' t).2
    exact ⟨e1, fun j hj => by rw [g2 j hj, g2' j hj, e2]⟩
  refine ⟨fun t => (key t).1, s, s', h1, h1', h2 fun t _ _ e => ?_, h2' fun t _ _ e => ?_, funext fun j => ?_⟩
  · rw [(hi t).1] at e; cases e
  · rw [(hi' t).1] at e; cases e
  · by_cases hj : ∃ t, own t j
    · obtain ⟨t, ht⟩ := hj
      exact (key t).2 j fun u hu => ho _ _ j hu ht
    · exact (h4 j fun t ht => hj ⟨t, ht⟩).trans (h4' j fun t ht => hj ⟨t, ht⟩).symm

/-- **C107**, united store. Threads that keep cells are disciplined, whatever the schedule: every link holds nothing or a pair
whose target is its own key, and updates keep the key. -/
theorem C107_cells_are_disciplined (hc : CfgOK c) {s0 : Store} (h0 : Reach c s0) {key : Nat → Nat} (hk : Keys key)
    (hs : Cells key ((links c).view s0)) {cl : Clients Reply (Req (Nat → Nat → Option Nat))}
    (hcl : ∀ t rs q, cl t rs q → CellCall key q ∧ ∀ k a h, q = .write k a h → GoodAlloc a) :
    Disciplined (answer c) (Allowed c) cl s0 := by
  have one : ∀ {s q}, Reach c s → Cells key ((links c).view s) → CellCall key q →
      (∀ k a h, q = .write k a h → GoodAlloc a) → Allowed c s q := by
    intro s q h hu hq hA
    have hg := reach_good hc h
    cases q with
    | each q h => exact hq.elim
    | count q => exact hq.elim
    | get i => exact ⟨by simp [answer, (lawful hc).get s hg i], trivial⟩
    | write k a hd =>
      have ha := hA _ _ _ rfl
      have hca := hc.withAlloc ha
      have hga : Good (c.withAlloc a) s := by
        obtain ⟨free, ts, tt, hi⟩ := hg
        exact ⟨_, _, _, hi.withAlloc a⟩
      refine ⟨?_, ha, fun j _ => hu.uniq hk j⟩
      cases k with
      | create => exact hq.elim
      | update i x y =>
        cases hv : (links (c.withAlloc a)).view s i with
        | none =>
          have := (lawful hca).update_missing s hga i hv i x y _ (showing2 hd) []
          have : callExec (c.withAlloc a) s (showing2 hd) [] (.update i x y) = _ := this
          simp [answer, this]
        | some p =>
          obtain ⟨s', -, -, he⟩ := update_law hca hga hv (hu.uniq hk i) i x y
          have : callExec (c.withAlloc a) s (showing2 hd) [] (.update i x y) = _ := he _ (showing2 hd) []
          simp [answer, this]
      | delete i =>
        cases hv : (links (c.withAlloc a)).view s i with
        | none =>
          have := (lawful hca).delete_missing s hga i hv _ (showing2 hd) []
          have : callExec (c.withAlloc a) s (showing2 hd) [] (.delete i) = _ := this
          simp [answer, this]
        | some p =>
          obtain ⟨s', -, -, he⟩ := delete_law hca hga hv (hu.uniq hk i)
          have : callExec (c.withAlloc a) s (showing2 hd) [] (.delete i) = _ := he _ (showing2 hd) []
          simp [answer, this]
  intro log s hse i q hq
  have inv : Reach c s ∧ Cells key ((links c).view s) := by
    clear hq
    induction hse with
    | start => exact ⟨h0, hs⟩
    | @call log s s' i q r _ h1 h2 ih =>
      obtain ⟨k1, k2⟩ := hcl _ _ _ h1
      obtain ⟨g1, g2⟩ := answers_private hc ih.1 (k1.within i) (one ih.1 ih.2 k1 k2) h2
      exact ⟨g2, ih.2.answer k1 g1⟩
  exact one inv.1 inv.2 (hcl _ _ _ hq).1 (hcl _ _ _ hq).2

/-- Memory grows to what is asked for. -/
def grantAll : Nat → Nat → Option Nat := fun _ r => some r

theorem grantAll_ok : GoodAlloc grantAll := fun _ _ _ e => Nat.le_of_eq (Option.some.inj e)

/-- Two cells, and a third link. -/
def sCells : Store := runs cfg0 [.create, .create, .create, .update 1 3 11, .update 2 3 12]

theorem sCells_reach : Reach cfg0 sCells := runs_reach (by decide +kernel)

theorem sCells_cells : Cells cellKey ((links cfg0).view sCells) := by
  intro j p hj
  obtain ⟨free, ts, tt, hi⟩ := reach_good cfg0_ok sCells_reach
  have hle : 1 ≤ j ∧ j ≤ 3 := by
    rw [view_eq cfg0_ok hi.toInv0] at hj
    split at hj
    · next h =>
      have h1 : sCells.hdr.allocated = 3 := by decide +kernel
      exact ⟨h.1, h1 ▸ h.2.1⟩
    · cases hj
  rcases (by omega : j = 1 ∨ j = 2 ∨ j = 3) with rfl | rfl | rfl
  · have e : (links cfg0).view sCells 1 = some (3, 11) := by decide +kernel
    obtain rfl := Option.some.inj (hj.symm.trans e)
    exact .inr rfl
  · have e : (links cfg0).view sCells 2 = some (3, 12) := by decide +kernel
    obtain rfl := Option.some.inj (hj.symm.trans e)
    exact .inr rfl
  · have e : (links cfg0).view sCells 3 = some (0, 0) := by decide +kernel
    obtain rfl := Option.some.inj (hj.symm.trans e)
    exact .inl rfl

theorem cells_disciplined : Disciplined (answer cfg0) (Allowed cfg0) (cellThreads grantAll) sCells :=
  C107_cells_are_disciplined cfg0_ok sCells_reach cellKey_keys sCells_cells fun t rs q h =>
    ⟨(cellThreads_within t rs q h).2.1, fun k a h' e => by
      rw [(cellThreads_within t rs q h).2.2 k a h' e]; exact grantAll_ok⟩

/-- The hypotheses of the theorems are met: two threads use their cells, and some schedule finishes. -/
example : CfgOK cfg0 ∧ Ref.programs.Implements cfg0.trees ∧ Reach cfg0 sCells ∧ Keys cellKey ∧ Cells cellKey ((links cfg0).view sCells) ∧
    Disciplined (answer cfg0) (Allowed cfg0) (cellThreads grantAll) sCells ∧
    (∀ t u j, cellOwner t j → cellOwner u j → t = u) ∧ (∀ t rs q, cellThreads grantAll t rs q → OwnCall cellOwner t q) ∧
    Deterministic (cellThreads grantAll) ∧
    ∃ y, Runs AStore.look (job cfg0 Ref.programs) (cellThreads grantAll) (.of sCells) y ∧
      ∀ t, y.phase t = .idle ∧ Finished (cellThreads grantAll) t (mine y.log t) := by
  obtain ⟨log, s, h1, h2⟩ := cellThreads_finish cells_disciplined fun s q h => h.1
  exact ⟨cfg0_ok, Ref.programs_implement, sCells_reach, cellKey_keys, sCells_cells, cells_disciplined,
    fun t u j => cellOwner_one, fun t rs q h => (cellThreads_within t rs q h).1, cellThreads_det _, _,
    C85_one_at_a_time_is_a_schedule cfg0_ok Ref.programs_implement sCells_reach cells_disciplined h1, fun t => ⟨rfl, h2 t⟩⟩

end Verif.Unit.Props

namespace Verif.Split.Props
open Verif Verif.Split
variable {c : Cfg} {P : Programs}

/-- The store answers like a map. -/
theorem answers_private (hc : CfgOK c) {s : Store} (h : Reach c s) {own : Nat → Nat → Prop} {t : Nat}
    {q : Req Allocs} (hw : OwnCall own t q) (ha : Allowed c s q) {r : Reply} {s' : Store}
    (hr : answer c s q = some (r, s')) :
    privateAnswer (fun old _ => old) ((links c).view s) q = some (r, (links c).view s') ∧ Reach c s' := by
  have hg := reach_good hc h
  cases q with
  | each q h => exact hw.elim
  | count q => exact hw.elim
  | get i =>
    simp only [answer, (lawful hc).get s hg i, Option.map_some, Option.some.injEq, Prod.mk.injEq] at hr
    obtain ⟨rfl, rfl⟩ := hr
    exact ⟨rfl, h⟩
  | write k a hd =>
    obtain ⟨-, had, hai, hk, hgr⟩ := ha
    have hca := hc.withAllocs had hai
    have hga : Good (c.withAllocs a.d a.i) s := by
      obtain ⟨free, hi⟩ := hg
      exact ⟨_, hi.withAllocs a.d a.i⟩
    simp only [answer, Option.map_eq_some_iff, Prod.mk.injEq] at hr
    obtain ⟨o, ho, rfl, rfl⟩ := hr
    refine ⟨?_, (step_keeps hc h had hai hk hgr ho).1⟩
    cases k with
    | create => exact hw.elim
    | update i x y =>
      simp only [privateAnswer]
      cases hv : (links c).view s i with
      | none =>
        have : callExec (c.withAllocs a.d a.i) s (showing2 hd) [] (.update i x y) = some ⟨.error (.notExists i), s, []⟩ :=
          (lawful hca).update_missing s hga i (by rw [view_withAllocs]; exact hv) i x y _ (showing2 hd) []
        obtain rfl := Option.some.inj (ho.symm.trans this)
        rfl
      | some p =>
        have hv0 : (links (c.withAllocs a.d a.i)).view s i = some p := by rw [view_withAllocs]; exact hv
        have hn : ((links (c.withAllocs a.d a.i)).view s).NoTwin i := by rw [view_withAllocs]; exact hk.1
        have hu : CanUpdate ((links (c.withAllocs a.d a.i)).view s) i x y := by rw [view_withAllocs]; exact hk.2
        obtain ⟨s', -, hv', he⟩ := update_law hca hga hv0 hn i x y hu
        have he : callExec (c.withAllocs a.d a.i) s (showing2 hd) [] (.update i x y) = _ := he _ (showing2 hd) []
        obtain rfl := Option.some.inj (ho.symm.trans he)
        have hv' : (links c).view s' = ((links c).view s).set i (x, y) := hv'
        simp only [hv']
        rfl
    | delete i =>
      simp only [privateAnswer]
      cases hv : (links c).view s i with
      | none =>
        have : callExec (c.withAllocs a.d a.i) s (showing2 hd) [] (.delete i) = some ⟨.error (.notExists i), s, []⟩ :=
          (lawful hca).delete_missing s hga i (by rw [view_withAllocs]; exact hv) _ (showing2 hd) []
        obtain rfl := Option.some.inj (ho.symm.trans this)
        rfl
      | some p =>
        have hv0 : (links (c.withAllocs a.d a.i)).view s i = some p := by rw [view_withAllocs]; exact hv
        have hn : ((links (c.withAllocs a.d a.i)).view s).NoTwin i := by rw [view_withAllocs]; exact hk.1
        have hu : CanDelete ((links (c.withAllocs a.d a.i)).view s) i := by rw [view_withAllocs]; exact hk.2
        obtain ⟨s', -, hv', he⟩ := delete_law hca hga hv0 hn hu
        have he : callExec (c.withAllocs a.d a.i) s (showing2 hd) [] (.delete i) = _ := he _ (showing2 hd) []
        obtain rfl := Option.some.inj (ho.symm.trans he)
        have hv' : (links c).view s' = ((links c).view s).del i := hv'
        simp only [hv']
        rfl

theorem serial_reach (hc : CfgOK c) {s0 : Store} (h0 : Reach c s0) {cl : Clients Reply (Req Allocs)}
    (hd : Disciplined (answer c) (Allowed c) cl s0) {own : Nat → Nat → Prop} (hcl : ∀ t rs q, cl t rs q → OwnCall own t q)
    {log : List (Nat × Reply)} {s : Store} (h : Serial (answer c) cl s0 log s) : Reach c s := by
  induction h with
  | start => exact h0
  | call hs h1 h2 ih => exact (answers_private hc ih (hcl _ _ _ h1) (hd _ _ hs _ _ h1) h2).2

/-- **C107**, split store. Every schedule, down to single loads and assignments: at every moment the results that a thread
has got are those of a run of its own on a private copy of the links; the links that nobody else owns are what that run has
made of them; links without owner are what they were at the start. -/
theorem C107_split_owners_do_not_notice_each_other (hc : CfgOK c) (hP : P.Implements c.trees) {s0 : Store} (h0 : Reach c s0)
    {cl : Clients Reply (Req Allocs)} (hd : Disciplined (answer c) (Allowed c) cl s0)
    {own : Nat → Nat → Prop} (ho : ∀ t u j, own t j → own u j → t = u) (hcl : ∀ t rs q, cl t rs q → OwnCall own t q)
    {y : Sys AStore Loc Reply} (hy : Runs AStore.look (job c P) cl (.of s0) y) :
    ∃ s, Reach c s ∧ (y.NoWriter → y.mem = .of s) ∧
      (∀ t, ∃ v, Alone (fun old _ => old) cl t ((links c).view s0) (mine y.log t) v ∧
        ∀ j, NotOthers own t j → (links c).view s j = v j) ∧
      ∀ j, (∀ t, ¬ own t j) → (links c).view s j = (links c).view s0 j := by
  obtain ⟨s, h1, h2, h3, -⟩ := C85_split_every_schedule hc hP h0 hd hy
  obtain ⟨g1, g2⟩ := serial_owners (before := fun old _ => old) (view := (links c).view)
    (fun hs hq hr => (answers_private hc (serial_reach hc h0 hd hcl hs) (hcl _ _ _ hq) (hd _ _ hs _ _ hq) hr).1) hcl ho h1
  refine ⟨s, h2, h3, fun t => ?_, g2⟩
  obtain ⟨v, k1, k2⟩ := g1 t
  exact ⟨v, k1, fun j hj => (k2 j hj).symm⟩

/-- **C107**, split store. If moreover the next call of a thread is determined by its results, then all schedules that
finish give every thread the same results and end with the same contents. -/
theorem C107_split_schedules_end_alike (hc : CfgOK c) (hP : P.Implements c.trees) {s0 : Store} (h0 : Reach c s0)
    {cl : Clients Reply (Req Allocs)} (hd : Disciplined (answer c) (Allowed c) cl s0)
    {own : Nat → Nat → Prop} (ho : ∀ t u j, own t j → own u j → t = u) (hcl : ∀ t rs q, cl t rs q → OwnCall own t q)
    (hdet : Deterministic cl) {y y' : Sys AStore Loc Reply} (hy : Runs AStore.look (job c P) cl (.of s0) y)
    (hy' : Runs AStore.look (job c P) cl (.of s0) y') (hi : ∀ t, y.phase t = .idle ∧ Finished cl t (mine y.log t))
    (hi' : ∀ t, y'.phase t = .idle ∧ Finished cl t (mine y'.log t)) :
    (∀ t, mine y.log t = mine y'.log t) ∧
    ∃ s s', Reach c s ∧ Reach c s' ∧ y.mem = .of s ∧ y'.mem = .of s' ∧ (links c).view s = (links c).view s' := by
  obtain ⟨s, h1, h2, h3, h4⟩ := C107_split_owners_do_not_notice_each_other hc hP h0 hd ho hcl hy
  obtain ⟨s', h1', h2', h3', h4'⟩ := C107_split_owners_do_not_notice_each_other hc hP h0 hd ho hcl hy'
  have key : ∀ t, mine y.log t = mine y'.log t ∧ ∀ j, NotOthers own t j → (links c).view s j = (links c).view s' j := by
    intro t
    obtain ⟨v, g1, g2⟩ := h3 t
    obtain ⟨v', g1', g2'⟩ := h3' t
    obtain ⟨e1, e2⟩ := g1.finished hdet (hi t).2 g1' (hi' t).2
    exact ⟨e1, fun j hj => by rw [g2 j hj, g2' j hj, e2]⟩
  refine ⟨fun t => (key t).1, s, s', h1, h1', h2 fun t _ _ e => ?_, h2' fun t _ _ e => ?_, funext fun j => ?_⟩
  · rw [(hi t).1] at e; cases e
  · rw [(hi' t).1] at e; cases e
  · by_cases hj : ∃ t, own t j
    · obtain ⟨t, ht⟩ := hj
      exact (key t).2 j fun u hu => ho _ _ j hu ht
    · exact (h4 j fun t ht => hj ⟨t, ht⟩).trans (h4' j fun t ht => hj ⟨t, ht⟩).symm

/-- **C107**, split store. Threads that keep cells are disciplined, whatever the schedule: every link holds nothing or a pair
whose target is its own key, and updates keep the key. -/
theorem C107_split_cells_are_disciplined (hc : CfgOK c) {s0 : Store} (h0 : Reach c s0) {key : Nat → Nat} (hk : Keys key)
    (hs : Cells key ((links c).view s0)) {cl : Clients Reply (Req Allocs)}
    (hcl : ∀ t rs q, cl t rs q → CellCall key q ∧ ∀ k a h, q = .write k a h → ExactAlloc a.d ∧ ExactAlloc a.i) :
    Disciplined (answer c) (Allowed c) cl s0 := by
  have one : ∀ {s q}, Reach c s → Cells key ((links c).view s) → CellCall key q →
      (∀ k a h, q = .write k a h → ExactAlloc a.d ∧ ExactAlloc a.i) → Allowed c s q := by
    intro s q h hu hq hA
    have hg := reach_good hc h
    cases q with
    | each q h => exact hq.elim
    | count q => exact hq.elim
    | get i => exact ⟨by simp [answer, (lawful hc).get s hg i], trivial⟩
    | write k a hd =>
      obtain ⟨had, hai⟩ := hA _ _ _ rfl
      have hca := hc.withAllocs had hai
      have hga : Good (c.withAllocs a.d a.i) s := by
        obtain ⟨free, hi⟩ := hg
        exact ⟨_, hi.withAllocs a.d a.i⟩
      have hsup : Supported ((links c).view s) k := by
        cases k with
        | create => exact hq.elim
        | update i x y => exact ⟨hu.uniq hk i, fun _ => by rw [hq.2]; exact hk.pos i, fun e => absurd e (by
            rw [hq.2]; exact fun e => e.elim hq.1 (hk.other i))⟩
        | delete i => exact ⟨hu.uniq hk i, fun j _ => hu.uniq hk j⟩
      refine ⟨?_, had, hai, hsup, fun e => by subst e; exact hq.elim⟩
      cases k with
      | create => exact hq.elim
      | update i x y =>
        cases hv : (links (c.withAllocs a.d a.i)).view s i with
        | none =>
          have := (lawful hca).update_missing s hga i hv i x y _ (showing2 hd) []
          have : callExec (c.withAllocs a.d a.i) s (showing2 hd) [] (.update i x y) = _ := this
          simp [answer, this]
        | some p =>
          obtain ⟨s', -, -, he⟩ := update_law hca hga hv (by rw [view_withAllocs]; exact hsup.1) i x y (by rw [view_withAllocs]; exact hsup.2)
          have : callExec (c.withAllocs a.d a.i) s (showing2 hd) [] (.update i x y) = _ := he _ (showing2 hd) []
          simp [answer, this]
      | delete i =>
        cases hv : (links (c.withAllocs a.d a.i)).view s i with
        | none =>
          have := (lawful hca).delete_missing s hga i hv _ (showing2 hd) []
          have : callExec (c.withAllocs a.d a.i) s (showing2 hd) [] (.delete i) = _ := this
          simp [answer, this]
        | some p =>
          obtain ⟨s', -, -, he⟩ := delete_law hca hga hv (by rw [view_withAllocs]; exact hsup.1) (by rw [view_withAllocs]; exact hsup.2)
          have : callExec (c.withAllocs a.d a.i) s (showing2 hd) [] (.delete i) = _ := he _ (showing2 hd) []
          simp [answer, this]
  intro log s hse i q hq
  have inv : Reach c s ∧ Cells key ((links c).view s) := by
    clear hq
    induction hse with
    | start => exact ⟨h0, hs⟩
    | @call log s s' i q r _ h1 h2 ih =>
      obtain ⟨k1, k2⟩ := hcl _ _ _ h1
      obtain ⟨g1, g2⟩ := answers_private hc ih.1 (k1.within i) (one ih.1 ih.2 k1 k2) h2
      exact ⟨g2, ih.2.answer k1 g1⟩
  exact one inv.1 inv.2 (hcl _ _ _ hq).1 (hcl _ _ _ hq).2

/-- Both memories grow to what is asked for. -/
def grantAll : Allocs := ⟨fun _ r => some r, fun _ r => some r⟩

theorem grantAll_ok : ExactAlloc grantAll.d ∧ ExactAlloc grantAll.i :=
  ⟨fun _ _ _ e => (Option.some.inj e).symm, fun _ _ _ e => (Option.some.inj e).symm⟩

/-- Two cells, and a third link. -/
def sCells : Store := runs cfg0 [.create, .create, .create, .update 1 3 11, .update 2 3 12]

theorem sCells_reach : Reach cfg0 sCells := runs_reach (by decide +kernel)

theorem sCells_cells : Cells cellKey ((links cfg0).view sCells) := by
  intro j p hj
  obtain ⟨free, hi⟩ := reach_good cfg0_ok sCells_reach
  have hle : 1 ≤ j ∧ j ≤ 3 := by
    rw [view_eq cfg0_ok hi.toInv0] at hj
    split at hj
    · next h =>
      have h1 : sCells.hdr.allocated = 3 := by decide +kernel
      exact ⟨h.1, h1 ▸ h.2.1⟩
    · cases hj
  rcases (by omega : j = 1 ∨ j = 2 ∨ j = 3) with rfl | rfl | rfl
  · have e : (links cfg0).view sCells 1 = some (3, 11) := by decide +kernel
    obtain rfl := Option.some.inj (hj.symm.trans e)
    exact .inr rfl
  · have e : (links cfg0).view sCells 2 = some (3, 12) := by decide +kernel
    obtain rfl := Option.some.inj (hj.symm.trans e)
    exact .inr rfl
  · have e : (links cfg0).view sCells 3 = some (0, 0) := by decide +kernel
    obtain rfl := Option.some.inj (hj.symm.trans e)
    exact .inl rfl

theorem cells_disciplined : Disciplined (answer cfg0) (Allowed cfg0) (cellThreads grantAll) sCells :=
  C107_split_cells_are_disciplined cfg0_ok sCells_reach cellKey_keys sCells_cells fun t rs q h =>
    ⟨(cellThreads_within t rs q h).2.1, fun k a h' e => by
      rw [(cellThreads_within t rs q h).2.2 k a h' e]; exact grantAll_ok⟩

/-- The hypotheses of the theorems are met: two threads use their cells, and some schedule finishes. -/
example : CfgOK cfg0 ∧ Ref.programs.Implements cfg0.trees ∧ Reach cfg0 sCells ∧ Keys cellKey ∧ Cells cellKey ((links cfg0).view sCells) ∧
    Disciplined (answer cfg0) (Allowed cfg0) (cellThreads grantAll) sCells ∧
    (∀ t u j, cellOwner t j → cellOwner u j → t = u) ∧ (∀ t rs q, cellThreads grantAll t rs q → OwnCall cellOwner t q) ∧
    Deterministic (cellThreads grantAll) ∧
    ∃ y, Runs AStore.look (job cfg0 Ref.programs) (cellThreads grantAll) (.of sCells) y ∧
      ∀ t, y.phase t = .idle ∧ Finished (cellThreads grantAll) t (mine y.log t) := by
  obtain ⟨log, s, h1, h2⟩ := cellThreads_finish cells_disciplined fun s q h => h.1
  exact ⟨cfg0_ok, Ref.programs_implement, sCells_reach, cellKey_keys, sCells_cells, cells_disciplined,
    fun t u j => cellOwner_one, fun t rs q h => (cellThreads_within t rs q h).1, cellThreads_det _, _,
    C85_split_one_at_a_time_is_a_schedule cfg0_ok Ref.programs_implement sCells_reach cells_disciplined h1, fun t => ⟨rfl, h2 t⟩⟩

end Verif.Split.Props
