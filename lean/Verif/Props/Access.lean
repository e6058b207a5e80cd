import Verif.Unit.AccessCalls
import Verif.RefPrograms
import Verif.Props.Crash

/-!
# Properties C76 and C77: index algorithms, accessors and single writes (united store)

The algorithms of the `trees` crate reach memory through accessors that the repository implements. `callA`
(`Unit/Access.lean`) runs a call with the algorithms as programs over these accessors: `P` is any family of programs that
does what the contract of the crate says (`Programs.Implements`), `f` bounds the rounds of its loops. `AStore` is the
memory with, for each of the four holders of a pointer to it, whether the pointer is up to date; `AStore.of s` is the
memory `s` with all of them up to date. `(callA … a).2` is `none` if the call panics, indexes out of bounds or uses an
outdated pointer, and `(callA … a).1` lists the memory after every single assignment.
-/

namespace Verif.Unit.Props
open Verif Verif.Unit

variable {c : Cfg} {P : Programs}

/-! ## C76 -/

/-- **C76**. On every reachable store every call runs through the accessors in bounds and with up-to-date pointers only,
and ends with the very result, handler calls and memory that the model of the store gives; all pointers are up to date
again. -/
theorem C76_calls_through_accessors (hc : CfgOK c) (hP : P.Implements c.trees) {s : Store} (h : Reach c s) (k : Call)
    (hk : ∀ j, callAbout j k → ((links c).view s).NoTwin j) {a : Nat → Nat → Option Nat} (ha : GoodAlloc a) {σ : Type}
    (hd : WH σ) (st : σ) :
    ∃ f0, ∀ f, f0 ≤ f → (callA (c.withAlloc a) P f hd st k (.of s)).2 =
      (callExec (c.withAlloc a) s hd st k).map fun o => ((o.res, o.hs), AStore.of o.st) := by
  obtain ⟨free, ts, tt, hi⟩ := reach_good hc h
  obtain ⟨f0, hf⟩ := callA_agree (hc.withAlloc ha) (P := P) hP (hi.withAlloc a) k
    (fun j hj hl => noTwinIn hc hi.toInv0 hl (hk j hj)) hd st
  exact ⟨f0, fun f h => (hf f h).1⟩

/-- The reference programs meet the hypothesis. Link 6 of `sNet` is deleted through them: the call works and returns what
the model returns. -/
example : CfgOK cfg0 ∧ Ref.programs.Implements cfg0.trees ∧ Reach cfg0 sNet ∧
    (∀ j, callAbout j (.delete 6) → ((links cfg0).view sNet).NoTwin j) ∧
    ((callA cfg0 Ref.programs 9 (σ := Nat) (fun n _ _ => (.cont, n + 1)) 0 (.delete 6) (.of sNet)).2.map fun r =>
      (r.1.2, getLinkA cfg0 6 r.2, getLinkA cfg0 2 r.2, r.2.main && r.2.src && r.2.tgt && r.2.unused)) =
        some (1, some none, some (some ⟨2, 1, 3⟩), true) :=
  ⟨cfg0_ok, Ref.programs_implement, sNet_reach, fun j hj => by
    cases hj
    exact twinFree_noTwin cfg0_ok (reach_good cfg0_ok sNet_reach) (by decide +kernel), by decide +kernel⟩

/-- **C76**, opening. Whatever the memory holds and wherever the pointers point before, opening a store does what the
model says and leaves all pointers up to date. -/
theorem C76_opening_through_accessors (m : AStore) :
    match init c m.s with
    | none => (initA c m).2 = none
    | some (.error e) => ∃ m', (initA c m).2 = some (.error e, m')
    | some (.ok s') => (initA c m).2 = some (.ok (), AStore.of s') :=
  (initA_agree m).1

/-- Opening the memory of `sNet` with no valid pointer. -/
example : (match init cfg0 sNet with | some (.ok _) => true | _ => false) = true ∧
    ((initA cfg0 ⟨sNet, false, false, false, false⟩).2.map fun r =>
      (r.2.main && r.2.src && r.2.tgt && r.2.unused, getLinkA cfg0 2 r.2)) = some (true, some (some ⟨2, 1, 3⟩)) :=
  ⟨by decide +kernel, by decide +kernel⟩

/-! ## C77 -/

/-- On any memory whose links are all mapped the traversal of everything visits what lookup finds. -/
theorem all_visits {s : Store} (hlt : s.hdr.allocated < s.len) :
    ∃ L, (links c).Visits s [] L ∧ ∀ l ∈ L, getLink c s l.index = some (some l) := by
  have hg : ∀ k, k ≤ s.hdr.allocated → ∃ r, getLink c s k = some r ∧ ∀ l, r = some l → l.index = k := by
    intro k hk
    have hget : ∃ p, s.get k = some p := by
      unfold Store.get
      rw [if_pos (by omega)]
      exact ⟨_, rfl⟩
    obtain ⟨p, hp⟩ := hget
    have hu : ∃ u, isUnused s k = some u := by
      unfold isUnused
      split
      · rw [hp]; exact ⟨_, rfl⟩
      · exact ⟨_, rfl⟩
    obtain ⟨u, hu⟩ := hu
    have he : ∃ e, exists? c s k = some e := by
      unfold exists?
      split
      · rw [hu]; exact ⟨_, rfl⟩
      · exact ⟨_, rfl⟩
    obtain ⟨e, he⟩ := he
    unfold getLink getLinkUnchecked
    rw [he, hp]
    cases e with
    | false => exact ⟨none, rfl, fun l h => by cases h⟩
    | true => exact ⟨some ⟨k, p.source, p.target⟩, rfl, fun l h => by cases h; rfl⟩
  have key : ∀ is : List Nat, (∀ k ∈ is, k ≤ s.hdr.allocated) → ∃ L : List Link,
      (∀ (σ : Type) (hd : RH σ) (st : σ), eachIdx c s hd is st = some (runH hd L st)) ∧
      ∀ l ∈ L, getLink c s l.index = some (some l) := by
    intro is
    induction is with
    | nil => intro _; exact ⟨[], fun _ _ _ => rfl, fun l hl => by cases hl⟩
    | cons k is ih =>
      intro hk
      obtain ⟨L, h1, h2⟩ := ih fun x hx => hk x (by simp [hx])
      obtain ⟨r, hr, hri⟩ := hg k (hk k (by simp))
      cases r with
      | none => exact ⟨L, fun σ hd st => by simp only [eachIdx, hr, h1], h2⟩
      | some l =>
        refine ⟨l :: L, fun σ hd st => ?_, fun l' hl' => ?_⟩
        · simp only [eachIdx, hr, runH, h1]
          rcases hd st l with ⟨_ | _, st'⟩ <;> simp [andThen]
        · rcases List.mem_cons.1 hl' with rfl | hl'
          · rw [hri _ rfl]; exact hr
          · exact h2 l' hl'
  obtain ⟨L, h1, h2⟩ := key (List.range' 1 s.hdr.allocated) (fun k hk => by
    have := List.mem_range'_1.1 hk; omega)
  exact ⟨L, fun σ hd st => h1 σ hd st, h2⟩

/-- Lookup in any memory reports a slot's contents or nothing. -/
theorem getLink_slot {s : Store} {k : Nat} (hk : k ≠ 0) (hlt : s.hdr.allocated < s.len) :
    getLink c s k = some none ∨ getLink c s k = some (some (s.linkAt k)) := by
  unfold getLink exists?
  split
  · next h =>
    have hget : s.get k = some (s.cell k) := by
      unfold Store.get
      rw [if_pos (by omega), if_neg hk]
    have hu : ∃ u, isUnused s k = some u := by
      unfold isUnused
      split
      · rw [hget]; exact ⟨_, rfl⟩
      · exact ⟨_, rfl⟩
    obtain ⟨u, hu⟩ := hu
    rw [hu]
    cases u with
    | true => exact .inl rfl
    | false => right; simp only [Option.map_some, Bool.not_false, Option.bind_some, if_true, getLinkUnchecked, hget]; rfl
  · exact .inl rfl

/-- What reopening an image finds that keeps the ends of the links the call is not about. -/
theorem image_ends (hc : CfgOK c) {s : Store} {free : List Nat} {ts tt : Tree} (hi : Inv c s free ts tt) {k : Call} {m : Store}
    (himg : ∀ j, ¬ callAbout j k → LiveIn s free j → m.lk j = s.lk j ∧ j ≤ m.hdr.allocated) {a' : Nat → Nat → Option Nat} {n : Nat}
    {s' : Store} (ho : init (c.withAlloc a') { m with len := n } = some (.ok s')) (hlt : m.hdr.allocated < s'.len) :
    (∀ l, ((links c).view s).Has l → ¬ callAbout l.index k →
      (s'.cell l.index).source = l.source ∧ (s'.cell l.index).target = l.target ∧
      ((links c).getLink s' l.index = some (some l) ∨ (links c).getLink s' l.index = some none)) ∧
    ∃ L, (links c).Visits s' [] L ∧
      ∀ l, ((links c).view s).Has l → ¬ callAbout l.index k → ∀ l' ∈ L, l'.index = l.index → l' = l := by
  obtain ⟨hcell, hal⟩ : s'.cell = m.cell ∧ s'.hdr.allocated = m.hdr.allocated := by
    unfold init at ho
    simp only at ho
    split at ho
    · simp at ho
    · split at ho
      · simp at ho
      · split at ho
        · simp at ho
        · next n2 _ =>
          cases hcs : csub n2 1 with
          | none => rw [hcs] at ho; simp at ho
          | some r =>
            rw [hcs] at ho
            simp only [Option.bind_some] at ho
            split at ho
            · simp only [Option.some.injEq, Except.ok.injEq] at ho
              subst ho; exact ⟨rfl, rfl⟩
            · simp at ho
  have hlt' : s'.hdr.allocated < s'.len := by rw [hal]; exact hlt
  have hlook : ∀ l, ((links c).view s).Has l → ¬ callAbout l.index k →
      s'.linkAt l.index = l ∧ l.index ≠ 0 := by
    intro l hl hca
    obtain ⟨h1, h2⟩ := (has_iff hc hi.toInv0 l).1 hl
    have e := (himg l.index hca h1).1
    have e' : s'.lk l.index = s.lk l.index := by rw [← e]; simp only [Store.lk, hcell]
    simp only [Store.lk, Prod.mk.injEq] at e'
    refine ⟨?_, by have := h1.1; omega⟩
    rw [h2]; simp only [Store.linkAt, Link.mk.injEq, true_and]; exact e'
  have hget : ∀ l, ((links c).view s).Has l → ¬ callAbout l.index k →
      getLink c s' l.index = some (some l) ∨ getLink c s' l.index = some none := by
    intro l hl hca
    obtain ⟨h1, h2⟩ := hlook l hl hca
    rcases getLink_slot (c := c) h2 hlt' with e | e
    · exact .inr e
    · rw [h1] at e; exact .inl e
  refine ⟨fun l hl hca => ?_, ?_⟩
  · have := (hlook l hl hca).1
    refine ⟨?_, ?_, hget l hl hca⟩
    · rw [← congrArg Link.source this]; rfl
    · rw [← congrArg Link.target this]; rfl
  · obtain ⟨L, h1, h2⟩ := all_visits (c := c) hlt'
    refine ⟨L, h1, fun l hl hca l' hl' e => ?_⟩
    have g := h2 l' hl'
    rw [e] at g
    rcases hget l hl hca with g' | g' <;> rw [g'] at g <;> cases g
    rfl

/-- **C77**. The process dies after any single assignment inside a call, also inside an algorithm of the `trees` crate,
and the memory is reopened. The memory still holds the ends of every link `l` that the call is not about. Lookup of `l`
returns exactly `l` or reports it missing, and a traversal of the whole store visits nothing else under its index: a crash
never makes a link point elsewhere. -/
theorem C77_single_writes_keep_the_ends (hc : CfgOK c) (hP : P.Implements c.trees) {s : Store} (h : Reach c s) (k : Call)
    (hk : ∀ j, callAbout j k → ((links c).view s).NoTwin j) {a : Nat → Nat → Option Nat} (ha : GoodAlloc a) {σ : Type}
    (hd : WH σ) (st : σ) :
    ∃ f0, ∀ f, f0 ≤ f → ∀ m ∈ (callA (c.withAlloc a) P f hd st k (.of s)).1,
      ∀ (a' : Nat → Nat → Option Nat) (n : Nat) (s' : Store),
      init (c.withAlloc a') { m.s with len := n } = some (.ok s') → m.s.hdr.allocated < s'.len →
      (∀ l, ((links c).view s).Has l → ¬ callAbout l.index k →
        (s'.cell l.index).source = l.source ∧ (s'.cell l.index).target = l.target ∧
        ((links c).getLink s' l.index = some (some l) ∨ (links c).getLink s' l.index = some none)) ∧
      ∃ L, (links c).Visits s' [] L ∧
        ∀ l, ((links c).view s).Has l → ¬ callAbout l.index k → ∀ l' ∈ L, l'.index = l.index → l' = l := by
  obtain ⟨free, ts, tt, hi⟩ := reach_good hc h
  obtain ⟨f0, hf⟩ := callA_agree (hc.withAlloc ha) (P := P) hP (hi.withAlloc a) k
    (fun j hj hl => noTwinIn hc hi.toInv0 hl (hk j hj)) hd st
  refine ⟨f0, fun f hff m hm a' n s' ho hlt => ?_⟩
  exact image_ends hc hi ((hf f hff).2 m hm) ho hlt

/-- What reopening finds at `i` after each single assignment of a call made through the reference programs. -/
def afterWrite (s : Store) (k : Call) (i : Nat) : List (Option (Option Link)) :=
  (callA cfg0 Ref.programs 9 (σ := _root_.Unit) (fun _ _ _ => (.cont, ())) () k (.of s)).1.map fun m =>
    match init cfg0 m.s with
    | some (.ok s') => if m.s.hdr.allocated < s'.len then (links cfg0).getLink s' i else none
    | _ => none


/-- A deletion in `sNet` makes 35 assignments; the ends of link 2 are found after each of them. -/
example : CfgOK cfg0 ∧ Ref.programs.Implements cfg0.trees ∧ Reach cfg0 sNet ∧
    (∀ j, callAbout j (.delete 6) → ((links cfg0).view sNet).NoTwin j) ∧ ¬ callAbout 2 (.delete 6) ∧
    (links cfg0).getLink sNet 2 = some (some ⟨2, 1, 3⟩) ∧
    afterWrite sNet (.delete 6) 2 = List.replicate 35 (some (some ⟨2, 1, 3⟩)) :=
  ⟨cfg0_ok, Ref.programs_implement, sNet_reach, fun j hj => by
    cases hj
    exact twinFree_noTwin cfg0_ok (reach_good cfg0_ok sNet_reach) (by decide +kernel),
    fun h => by simp [callAbout] at h, by decide +kernel, by decide +kernel⟩

/-- Reopening `m` maps all links and finds link 2 by its index and not by its ends. -/
def hides (m : AStore) : Bool :=
  match init cfg0 m.s with
  | some (.ok s') => decide (m.s.hdr.allocated < s'.len) &&
      decide ((links cfg0).getLink s' 2 = some (some ⟨2, 1, 3⟩)) && decide ((links cfg0).search s' 1 3 = some none)
  | _ => false

/-- **C77**: what a crash inside an index update can do. The reference programs do what the contract of the `trees`
crate says, and link 2 of `sNet` is found by its ends. Link 1 is being updated: after one of the assignments inside its
removal from an index, reopening finds link 2 by its index, but a search for its ends finds nothing. So C77 cannot promise
that other links are found by their ends, and C40 cannot be extended into the calls of the crate by its contract alone. -/
theorem C77_crash_inside_an_index_can_hide_links :
    CfgOK cfg0 ∧ Ref.programs.Implements cfg0.trees ∧ Reach cfg0 sNet ∧
    (callA cfg0 Ref.programs 9 (σ := _root_.Unit) (fun _ _ _ => (.cont, ())) () (.update 1 1 4) (.of sNet)).2.isSome ∧
    ¬ callAbout 2 (.update 1 1 4) ∧ (links cfg0).search sNet 1 3 = some (some 2) ∧
    ∃ m ∈ (callA cfg0 Ref.programs 9 (σ := _root_.Unit) (fun _ _ _ => (.cont, ())) () (.update 1 1 4) (.of sNet)).1,
      ∃ s', init cfg0 m.s = some (.ok s') ∧ m.s.hdr.allocated < s'.len ∧
        (links cfg0).getLink s' 2 = some (some ⟨2, 1, 3⟩) ∧ (links cfg0).search s' 1 3 = some none := by
  refine ⟨cfg0_ok, Ref.programs_implement, sNet_reach, by decide +kernel, fun h => by simp [callAbout] at h,
    by decide +kernel, ?_⟩
  have h : ((callA cfg0 Ref.programs 9 (σ := _root_.Unit) (fun _ _ _ => (.cont, ())) () (.update 1 1 4)
      (.of sNet)).1).any hides = true := by decide +kernel
  obtain ⟨m, hm, hh⟩ := List.any_eq_true.1 h
  refine ⟨m, hm, ?_⟩
  unfold hides at hh
  split at hh
  · next s' e =>
    simp only [Bool.and_eq_true, decide_eq_true_eq] at hh
    exact ⟨s', e, hh.1.1, hh.1.2, hh.2⟩
  · cases hh

/-- **C77**, opening. A crash after any single assignment of an opening changes nothing: the next opening returns what it
would have returned without the interrupted one. -/
theorem C77_crash_while_opening (m : AStore) : ∀ x ∈ (initA c m).1, ∀ (c' : Cfg) (n : Nat),
    init c' { x.s with len := n } = init c' { m.s with len := n } := by
  intro x hx c' n
  obtain ⟨h1, r, h2⟩ := (initA_agree m).2 x hx
  have e : ({ x.s with len := n } : Store) = { ({ m.s with len := n } : Store) with hdr := { m.s.hdr with reserved := r } } := by
    simp only [h1, h2]
  rw [e]
  rfl

/-- Opening the memory of `sNet` makes three assignments. -/
example : ((initA cfg0 ⟨sNet, false, false, false, false⟩).1).length = 3 := by decide +kernel

end Verif.Unit.Props
