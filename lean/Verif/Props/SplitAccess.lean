import Verif.Split.AccessCalls
import Verif.RefPrograms
import Verif.Props.SplitCrash

/-!
# Properties C76 and C77 for the split store

As in `Props/Access.lean`: `callA` (`Split/Access.lean`) runs a call with the algorithms of the `trees` crate as programs
`P` over the accessors of the repository, `f` bounds the rounds of their loops. `AStore` is the pair of memories with, for
each of the seven holders of a pointer to the data memory and of one to the index memory, whether that pointer is up to
date; in `AStore.of s` all are, unless an allocation of the index memory failed after the data memory was moved.
`(callA … a).2` is `none` if the call panics, indexes out of bounds or uses an outdated pointer, and `(callA … a).1` lists
the memories after every single assignment.
-/

namespace Verif.Split.Props
open Verif Verif.Split

variable {c : Cfg} {P : Programs}

/-! ## C76 -/

/-- **C76**, split store. On every reachable store every supported call runs through the accessors in bounds and with
up-to-date pointers only, and ends with the very result, handler calls and memories that the model of the store gives. -/
theorem C76_split_calls_through_accessors (hc : CfgOK c) (hP : P.Implements c.trees) {s : Store} (h : Reach c s) {k : Call}
    (hk : Supported ((links c).view s) k) {d i : Nat → Nat → Option Nat} (hd : ExactAlloc d) (hi : ExactAlloc i)
    {σ : Type} (hh : WH σ) (st : σ) :
    ∃ f0, ∀ f, f0 ≤ f → (callA (c.withAllocs d i) P f hh st k (.of s)).2 =
      (callExec (c.withAllocs d i) s hh st k).map fun o => ((o.res, o.hs), AStore.of o.st) := by
  obtain ⟨free, hI⟩ := reach_good hc h
  obtain ⟨f0, hf⟩ := callA_agree (hc.withAllocs hd hi) (P := P) hP (hI.withAllocs d i) (k := k)
    (by rw [view_withAllocs]; exact hk) hh st
  exact ⟨f0, fun f h => (hf f h).1⟩

/-- The pointers of all holders. -/
def allFresh (a : AStore) : Bool :=
  [Holder.main, .intSrc, .intTgt, .extSrc, .extTgt, .list, .unused].all fun o => a.d o && a.i o

theorem sNet_delete3 : Supported ((links cfg0).view sNet) (.delete 3) :=
  ⟨twinFree_noTwin cfg0_ok (reach_good cfg0_ok sNet_reach) (by decide +kernel), fun j _ => by
      by_cases hj : j < 7
      · have : ∀ j, j < 7 → twinFree cfg0 sNet j = true := by decide +kernel
        exact twinFree_noTwin cfg0_ok (reach_good cfg0_ok sNet_reach) (this j hj)
      · intro p hp
        have := view_bound cfg0_ok (reach_good cfg0_ok sNet_reach) hp
        have : sNet.hdr.allocated = 6 := by decide +kernel
        omega⟩

/-- The reference programs meet the hypothesis. Link 3 of `sNet`, which links 2 and 6 refer to, is deleted through them:
the call works and returns what the model returns. A creation that moves both memories works, too. -/
example : CfgOK cfg0 ∧ Ref.programs.Implements cfg0.trees ∧ Reach cfg0 sNet ∧
    Supported ((links cfg0).view sNet) (.delete 3) ∧
    ((callA cfg0 Ref.programs 9 (σ := Nat) (fun n _ _ => (.cont, n + 1)) 0 (.delete 3) (.of sNet)).2.map fun r =>
      (r.1.2, getLinkA cfg0 3 r.2, getLinkA cfg0 2 r.2, allFresh r.2)) =
        some (1, some none, some (some ⟨2, 1, 3⟩), true) ∧
    Reach cfg0 (runs cfg0 (List.replicate 6 .create)) ∧
    ((callA cfg0 Ref.programs 9 (σ := Nat) (fun n _ _ => (.cont, n + 1)) 0 .create
      (.of (runs cfg0 (List.replicate 6 .create)))).2.map fun r =>
        (r.1.2, r.2.s.ilen, getLinkA cfg0 7 r.2, allFresh r.2)) = some (1, 16, some (some ⟨7, 0, 0⟩), true) :=
  ⟨cfg0_ok, Ref.programs_implement, sNet_reach, sNet_delete3, by decide +kernel, runs_reach (by decide +kernel),
    by decide +kernel⟩

/-- **C76**, split store, opening. Whatever the memories hold and wherever the pointers point before, opening a store does
what the model says and leaves all pointers up to date. -/
theorem C76_split_opening_through_accessors (m : AStore) :
    match init c m.s with
    | none => (initA c m).2 = none
    | some (.error e) => ∃ m', (initA c m).2 = some (.error e, m')
    | some (.ok s') => (initA c m).2 = some (.ok (), AStore.of s') ∧ allFresh (.of s') = true := by
  have := (initA_agree (c := c) m).1
  cases h : init c m.s with
  | none => rw [h] at this; exact this
  | some r =>
    rw [h] at this
    cases r with
    | error e => exact this
    | ok s' =>
      refine ⟨this, ?_⟩
      have hs : s'.stale = false := by
        unfold init at h
        split at h
        · simp at h
        · split at h
          · simp at h
          · split at h
            · simp at h
            · simp only at h
              split at h
              · simp at h
              · split at h
                · simp at h
                · next d2 _ _ i2 _ =>
                  cases hcs : csub d2 1 with
                  | none => rw [hcs] at h; simp at h
                  | some r =>
                    rw [hcs, Option.bind_some] at h
                    split at h
                    · simp at h
                    · split at h
                      · simp only [Option.some.injEq, Except.ok.injEq] at h
                        subst h; rfl
                      · simp at h
      simp [allFresh, AStore.of, hs]

/-- Opening the memories of `sNet` with no valid pointer. -/
example : (match init cfg0 sNet with | some (.ok _) => true | _ => false) = true ∧
    ((initA cfg0 ⟨sNet, fun _ => false, fun _ => false⟩).2.map fun r => (allFresh r.2, getLinkA cfg0 2 r.2)) =
      some (true, some (some ⟨2, 1, 3⟩)) :=
  ⟨by decide +kernel, by decide +kernel⟩

/-! ## C77 -/

theorem getI_some {s : Store} {k : Nat} (h : k < s.ilen) : ∃ p, s.getI k = some p := by
  unfold Store.getI
  rw [if_pos h]
  split <;> exact ⟨_, rfl⟩

theorem isUnused_some {s : Store} (hs : s.stale = false) (hi : s.hdr.allocated < s.ilen) (hd : s.hdr.allocated < s.dlen)
    (k : Nat) : ∃ u, isUnused s k = some u := by
  unfold isUnused
  split
  · next h =>
    obtain ⟨p, hp⟩ := getI_some (s := s) (k := k) (by omega)
    have hx : s.getD k = some (s.data k) := by
      unfold Store.getD
      rw [if_pos ⟨hs, by omega⟩]
    rw [hp, hx]
    exact ⟨_, rfl⟩
  · exact ⟨_, rfl⟩

/-- Lookup in any memories reports a slot's contents or nothing. -/
theorem getLink_slot {s : Store} (hs : s.stale = false) (hi : s.hdr.allocated < s.ilen) (hd : s.hdr.allocated < s.dlen)
    (k : Nat) : getLink c s k = some none ∨ getLink c s k = some (some (s.linkAt k)) := by
  unfold getLink exists?
  split
  · next h =>
    have hx : s.getD k = some (s.data k) := by
      unfold Store.getD
      rw [if_pos ⟨hs, by omega⟩]
    obtain ⟨u, hu⟩ := isUnused_some hs hi hd k
    rw [hu]
    cases u with
    | true => exact .inl rfl
    | false => right; simp only [Option.map_some, Bool.not_false, Option.bind_some, if_true, getLinkUnchecked, hx]; rfl
  · exact .inl rfl

/-- On any memories whose links are all mapped the traversal of everything visits what lookup finds. -/
theorem all_visits {s : Store} (hs : s.stale = false) (hi : s.hdr.allocated < s.ilen) (hd : s.hdr.allocated < s.dlen) :
    ∃ L, (links c).Visits s [] L ∧ ∀ l ∈ L, getLink c s l.index = some (some l) := by
  have key : ∀ is : List Nat, ∃ L : List Link,
      (∀ (σ : Type) (hd : RH σ) (st : σ), eachIdx c s hd is st = some (runH hd L st)) ∧
      ∀ l ∈ L, getLink c s l.index = some (some l) := by
    intro is
    induction is with
    | nil => exact ⟨[], fun _ _ _ => rfl, fun l hl => by cases hl⟩
    | cons k is ih =>
      obtain ⟨L, h1, h2⟩ := ih
      rcases getLink_slot (c := c) hs hi hd k with hr | hr
      · exact ⟨L, fun σ hd st => by simp only [eachIdx, hr, h1], h2⟩
      · refine ⟨s.linkAt k :: L, fun σ hd st => ?_, fun l' hl' => ?_⟩
        · simp only [eachIdx, hr, runH, h1]
          rcases hd st (s.linkAt k) with ⟨_ | _, st'⟩ <;> simp [andThen]
        · rcases List.mem_cons.1 hl' with rfl | hl'
          · exact hr
          · exact h2 l' hl'
  obtain ⟨L, h1, h2⟩ := key (List.range' 1 s.hdr.allocated)
  exact ⟨L, fun σ hd st => h1 σ hd st, h2⟩

/-- What reopening an image finds that keeps the ends of the links the call is not about. -/
theorem image_ends (hc : CfgOK c) {s : Store} {k : Call} {m : Store}
    (hdata : ∀ l, ((links c).view s).Has l → ¬ callAbout l.index k → m.data l.index = (l.source, l.target))
    {d' i' : Nat → Nat → Option Nat} (hd' : ExactAlloc d') (hi' : ExactAlloc i') {n1 n2 : Nat} {s' : Store}
    (ho : init (c.withAllocs d' i') { m with dlen := n1, ilen := n2 } = some (.ok s')) (hlt : m.hdr.allocated < s'.ilen) :
    (∀ l, ((links c).view s).Has l → ¬ callAbout l.index k →
      s'.data l.index = (l.source, l.target) ∧
      ((links c).getLink s' l.index = some (some l) ∨ (links c).getLink s' l.index = some none)) ∧
    ∃ L, (links c).Visits s' [] L ∧
      ∀ l, ((links c).view s).Has l → ¬ callAbout l.index k → ∀ l' ∈ L, l'.index = l.index → l' = l := by
  obtain ⟨n, hn2, -, e⟩ := init_ok (hc.withAllocs hd' hi') ho
  have hsd : s'.data = m.data := by rw [e]
  have hst : s'.stale = false := by rw [e]
  have hsi : s'.hdr.allocated < s'.ilen := by rw [e] at hlt ⊢; exact hlt
  have hsl : s'.hdr.allocated < s'.dlen := by rw [e] at hlt ⊢; exact hlt
  have hlink : ∀ l, ((links c).view s).Has l → ¬ callAbout l.index k → s'.linkAt l.index = l := by
    intro l hl hca
    simp only [Store.linkAt, hsd, hdata l hl hca]
  refine ⟨fun l hl hca => ⟨by rw [hsd]; exact hdata l hl hca, ?_⟩, ?_⟩
  · rcases getLink_slot (c := c) hst hsi hsl l.index with e | e
    · exact .inr e
    · rw [hlink l hl hca] at e; exact .inl e
  · obtain ⟨L, h1, h2⟩ := all_visits (c := c) hst hsi hsl
    refine ⟨L, h1, fun l hl hca l' hl' e => ?_⟩
    have g := h2 l' hl'
    rw [e] at g
    rcases getLink_slot (c := c) hst hsi hsl l.index with e' | e'
    · rw [e'] at g; cases g
    · rw [hlink l hl hca] at e'; rw [e'] at g; cases g; rfl

/-- **C77**, split store. The process dies after any single assignment inside a supported call, also inside an algorithm
of the `trees` crate, and the memories are reopened. They still hold the ends of every link `l` that the call is not about.
Lookup of `l` returns exactly `l` or reports it missing, and a traversal of the whole store visits nothing else under its
index. -/
theorem C77_split_single_writes_keep_the_ends (hc : CfgOK c) (hP : P.Implements c.trees) {s : Store} (h : Reach c s)
    {k : Call} (hk : Supported ((links c).view s) k) {d i : Nat → Nat → Option Nat} (hd : ExactAlloc d)
    (hi : ExactAlloc i) {σ : Type} (hh : WH σ) (st : σ) :
    ∃ f0, ∀ f, f0 ≤ f → ∀ m ∈ (callA (c.withAllocs d i) P f hh st k (.of s)).1,
      ∀ (d' i' : Nat → Nat → Option Nat), ExactAlloc d' → ExactAlloc i' → ∀ (n1 n2 : Nat) (s' : Store),
      init (c.withAllocs d' i') { m.s with dlen := n1, ilen := n2 } = some (.ok s') → m.s.hdr.allocated < s'.ilen →
      (∀ l, ((links c).view s).Has l → ¬ callAbout l.index k →
        s'.data l.index = (l.source, l.target) ∧
        ((links c).getLink s' l.index = some (some l) ∨ (links c).getLink s' l.index = some none)) ∧
      ∃ L, (links c).Visits s' [] L ∧
        ∀ l, ((links c).view s).Has l → ¬ callAbout l.index k → ∀ l' ∈ L, l'.index = l.index → l' = l := by
  obtain ⟨free, hI⟩ := reach_good hc h
  have hc' := hc.withAllocs hd hi
  have hI' := hI.withAllocs d i
  have hk' : Supported ((links (c.withAllocs d i)).view s) k := by rw [view_withAllocs]; exact hk
  obtain ⟨f0, hf⟩ := callA_agree hc' (P := P) hP hI' hk' hh st
  refine ⟨f0, fun f hff x hx d' i' hd' hi' n1 n2 s' ho hlt => ?_⟩
  obtain ⟨m, hm, hnear⟩ := (hf f hff).2 x hx
  refine image_ends hc (fun l hl hca => ?_) hd' hi' ho hlt
  obtain ⟨h1, h2⟩ := (has_iff hc hI.toInv0 l).1 hl
  rw [near_keeps hc' hI' hk' hm hnear h1 hca, h2]
  rfl

/-- What reopening finds at `i` after each single assignment of a call made through the reference programs. -/
def afterWrite (s : Store) (k : Call) (i : Nat) : List (Option (Option Link)) :=
  (callA cfg0 Ref.programs 9 (σ := _root_.Unit) (fun _ _ _ => (.cont, ())) () k (.of s)).1.map fun m =>
    match init cfg0 m.s with
    | some (.ok s') => if m.s.hdr.allocated < s'.ilen then (links cfg0).getLink s' i else none
    | _ => none

/-- Deleting link 3 of `sNet` makes 39 assignments; link 4 is found after each of them. Link 2, which refers to link 3, is
reported missing after four of them and is itself after the others. -/
example : CfgOK cfg0 ∧ Ref.programs.Implements cfg0.trees ∧ Reach cfg0 sNet ∧
    Supported ((links cfg0).view sNet) (.delete 3) ∧ ¬ callAbout 4 (.delete 3) ∧
    (links cfg0).getLink sNet 4 = some (some ⟨4, 9, 1⟩) ∧
    afterWrite sNet (.delete 3) 4 = List.replicate 39 (some (some ⟨4, 9, 1⟩)) ∧
    (afterWrite sNet (.delete 3) 2).count (some none) = 4 ∧
    (afterWrite sNet (.delete 3) 2).count (some (some ⟨2, 1, 3⟩)) = 35 :=
  ⟨cfg0_ok, Ref.programs_implement, sNet_reach, sNet_delete3, fun h => by simp [callAbout] at h, by decide +kernel,
    by decide +kernel, by decide +kernel, by decide +kernel⟩

theorem sNet_update1 : Supported ((links cfg0).view sNet) (.update 1 2 4) :=
  ⟨twinFree_noTwin cfg0_ok (reach_good cfg0_ok sNet_reach) (by decide +kernel), by decide, fun h => by omega⟩

/-- Reopening `m` maps all links and finds link 2 by its index and not by its ends. -/
def hides (m : AStore) : Bool :=
  match init cfg0 m.s with
  | some (.ok s') => decide (m.s.hdr.allocated < s'.ilen) &&
      decide ((links cfg0).getLink s' 2 = some (some ⟨2, 1, 3⟩)) && decide ((links cfg0).search s' 1 3 = some none)
  | _ => false

/-- **C77**, split store: what a crash inside an index update can do. The reference programs do what the contract of the `trees`
crate says, and link 2 of `sNet` is found by its ends. Link 1 is being updated: after one of the assignments inside its
removal from an index, reopening finds link 2 by its index, but a search for its ends finds nothing. So C77 cannot promise
that other links are found by their ends, and C54 cannot be extended into the calls of the crate by its contract alone. -/
theorem C77_split_crash_inside_an_index_can_hide_links :
    CfgOK cfg0 ∧ Ref.programs.Implements cfg0.trees ∧ Reach cfg0 sNet ∧
    Supported ((links cfg0).view sNet) (.update 1 2 4) ∧
    (callA cfg0 Ref.programs 9 (σ := _root_.Unit) (fun _ _ _ => (.cont, ())) () (.update 1 2 4) (.of sNet)).2.isSome ∧
    ¬ callAbout 2 (.update 1 2 4) ∧ (links cfg0).search sNet 1 3 = some (some 2) ∧
    ∃ m ∈ (callA cfg0 Ref.programs 9 (σ := _root_.Unit) (fun _ _ _ => (.cont, ())) () (.update 1 2 4) (.of sNet)).1,
      ∃ s', init cfg0 m.s = some (.ok s') ∧ m.s.hdr.allocated < s'.ilen ∧
        (links cfg0).getLink s' 2 = some (some ⟨2, 1, 3⟩) ∧ (links cfg0).search s' 1 3 = some none := by
  refine ⟨cfg0_ok, Ref.programs_implement, sNet_reach, sNet_update1, by decide +kernel, fun h => by simp [callAbout] at h,
    by decide +kernel, ?_⟩
  have h : ((callA cfg0 Ref.programs 9 (σ := _root_.Unit) (fun _ _ _ => (.cont, ())) () (.update 1 2 4)
      (.of sNet)).1).any hides = true := by decide +kernel
  obtain ⟨m, hm, hh⟩ := List.any_eq_true.1 h
  refine ⟨m, hm, ?_⟩
  unfold hides at hh
  split at hh
  · next s' e =>
    simp only [Bool.and_eq_true, decide_eq_true_eq] at hh
    exact ⟨s', e, hh.1.1, hh.1.2, hh.2⟩
  · cases hh

/-- **C77**, split store, opening. A crash after any single assignment of an opening changes nothing: the next opening
returns what it would have returned without the interrupted one. -/
theorem C77_split_crash_while_opening (m : AStore) : ∀ x ∈ (initA c m).1, ∀ (c' : Cfg) (n1 n2 : Nat),
    init c' { x.s with dlen := n1, ilen := n2 } = init c' { m.s with dlen := n1, ilen := n2 } := by
  intro x hx c' n1 n2
  obtain ⟨g1, g2, g3⟩ := (initA_agree m).2 x hx
  have hh : x.s.hdr = { m.s.hdr with reserved := x.s.hdr.reserved } := by
    generalize x.s.hdr = p at g3 ⊢
    generalize m.s.hdr = q at g3 ⊢
    cases p
    cases q
    simp only [Verif.Unit.Hdr.mk.injEq] at g3 ⊢
    simp [g3]
  have e : ({ x.s with dlen := n1, ilen := n2 } : Store) = { ({ m.s with dlen := n1, ilen := n2 } : Store) with
      hdr := { m.s.hdr with reserved := x.s.hdr.reserved }, stale := x.s.stale } := by
    rw [← hh]
    simp only [g1, g2]
  rw [e]
  rfl

/-- Opening the memories of `sNet` makes five assignments. -/
example : ((initA cfg0 ⟨sNet, fun _ => false, fun _ => false⟩).1).length = 5 := by decide +kernel

end Verif.Split.Props
