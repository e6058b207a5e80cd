import Verif.Readme
import Verif.Props.WeakTrees
import Verif.Props.UnitDerived

/-!
# C119: the programs of the README

The second and third program make points; they do so over every tree crate that works on nodes it can tell apart. The first makes a
second link with the ends of the first and then updates it. No contract of a tree crate that finds nodes by comparing them covers
this, and over the published size-balanced trees the program does not reach its end.
-/

namespace Verif.Unit.Props
open Verif Verif.Unit
variable {c : Cfg}

theorem slots_upto (hc : CfgOK c) {s : Store} {free : List Nat} {ts tt : Tree} (hi : Inv c s free ts tt) {n : Nat}
    (hv : ((links c).view s).Upto n) : free = [] ∧ s.hdr.allocated = n := by
  have hl : ∀ i, LiveIn s free i ↔ 1 ≤ i ∧ i ≤ n := fun i => by
    rw [← hv i, view_eq hc hi.toInv0]
    split <;> simp [*]
  have ha : s.hdr.allocated = n := by
    have h1 : n = 0 ∨ n ≤ s.hdr.allocated := (Nat.eq_zero_or_pos n).imp id fun h => ((hl n).2 ⟨h, Nat.le_refl n⟩).2.1
    have h2 : s.hdr.allocated = 0 ∨ s.hdr.allocated ≤ n := (Nat.eq_zero_or_pos _).imp id fun h =>
      ((hl _).1 ⟨h, Nat.le_refl _, fun hm => Nat.lt_irrefl _ (hi.free_lt _ hm)⟩).2
    omega
  refine ⟨?_, ha⟩
  cases free with
  | nil => rfl
  | cons x rest =>
    have h1 := hi.free_lt x (by simp)
    have h2 := hi.base.list.nonzero x (by simp)
    exact absurd (show x ∈ x :: rest by simp) ((hl x).2 ⟨by omega, by omega⟩).2.2

theorem weak_numbers (hc : CfgOK₀ c) : Links.Numbers (weakLawful hc) := by
  intro s i s' n h hv e
  obtain ⟨free, ts, tt, hi⟩ := reach_good hc.mend (reachU_mend hc h).1
  obtain ⟨hf, ha⟩ := slots_upto hc.mend hi hv
  rcases create_cases hc.mend hi [] with ⟨x, rest, s1, h1, -⟩ | ⟨-, -, h1⟩ | ⟨-, -, -, h1⟩ | ⟨-, -, -, h1⟩ | ⟨-, -, s1, -, -, h1, -⟩
  · rw [hf] at h1; cases h1
  · have := (Links.create_err h1).symm.trans e; cases this
  · have := (Links.create_err h1).symm.trans e; cases this
  · have h2 : (links c.mend).create s = none := by
      simp [Links.create, Links.createBy, Links.createByWith, links, h1]
    have := h2.symm.trans e; cases this
  · have := (Links.create_ok h1).symm.trans e; cases this; show s.hdr.allocated + 1 = n + 1; rw [ha]

theorem weak_create_error (hc : CfgOK₀ c) {s s' : Store} {n : Nat} {e : Err} (h : ReachU c s) (hv : ((links c).view s).Upto n)
    (he : (links c).create s = some ⟨.error e, s', ()⟩) :
    e = .allocFailed ∨ e = .limitReached c.consts.internalEnd ∧ c.consts.internalEnd ≤ n := by
  obtain ⟨free, ts, tt, hi⟩ := reach_good hc.mend (reachU_mend hc h).1
  obtain ⟨hf, ha⟩ := slots_upto hc.mend hi hv
  rcases create_cases hc.mend hi [] with ⟨x, rest, s1, h1, -⟩ | ⟨-, h0, h1⟩ | ⟨-, -, -, h1⟩ | ⟨-, -, -, h1⟩ | ⟨-, -, s1, -, -, h1, -⟩
  · rw [hf] at h1; cases h1
  · have := (Links.create_err h1).symm.trans he; cases this; exact .inr ⟨rfl, ha ▸ h0⟩
  · have := (Links.create_err h1).symm.trans he; cases this; exact .inl rfl
  · have h2 : (links c.mend).create s = none := by
      simp [Links.create, Links.createBy, Links.createByWith, links, h1]
    have := h2.symm.trans he; cases this
  · have := (Links.create_ok h1).symm.trans he; cases this

/-- **C119**, united store, the second program of the README: on a store without links, new or emptied, the loop makes the points
1 to `n` and the count is `n`; or it stops because memory ran out or all indices are taken, and the points made so far are there.
This needs no more of the tree crate than that it works on nodes that it can tell apart. -/
theorem C119_points (hc : CfgOK₀ c) (hfit : ∀ len n, c.alloc len (len + c.step) = some n → n ≤ c.maxT) {s : Store}
    (h : ReachU c s) (he : (links c).count s = some 0) (n : Nat) :
    (∃ s', (links c).makePoints n s = some ⟨.ok (), s', ()⟩ ∧ (links c).count s' = some n ∧
      ∀ i, (links c).getLink s' i = some (if 1 ≤ i ∧ i ≤ n then some ⟨i, i, i⟩ else none)) ∨
    ∃ e s' k, k < n ∧ (links c).makePoints n s = some ⟨.error e, s', ()⟩ ∧ (links c).count s' = some k ∧
      (∀ i, (links c).getLink s' i = some (if 1 ≤ i ∧ i ≤ k then some ⟨i, i, i⟩ else none)) ∧
      (e = .allocFailed ∨ e = .limitReached c.consts.internalEnd ∧ c.consts.internalEnd ≤ k) := by
  have hv := Links.empty_of_count (weakLawful hc) h he
  have get : ∀ {s' k}, ReachU c s' → (links c).view s' = points k →
      ∀ i, (links c).getLink s' i = some (if 1 ≤ i ∧ i ≤ k then some ⟨i, i, i⟩ else none) := by
    intro s' k h' hv' i
    rw [(weakLawful hc).get s' h', hv']
    unfold points; split <;> rfl
  rcases Links.makePoints_law (weakLawful hc) (weak_numbers hc)
    (fun n => by show View.Uniq _; rw [View.set_set, points_succ]; exact points_uniq _) n 0 s h hv
    (fun _ s' _ _ _ _ len => hfit s'.len len) with
    ⟨s', h1, h2, h3⟩ | ⟨e, s', k, h0, h1, h2, h3, h4⟩
  · rw [Nat.zero_add] at h3
    exact .inl ⟨s', h1, Links.count_upto (weakLawful hc) h2 (h3 ▸ points_upto n), get h2 h3⟩
  · rw [Nat.zero_add] at h3
    exact .inr ⟨e, s', k, h0, h1, Links.count_upto (weakLawful hc) h2 (h3 ▸ points_upto k), get h2 h3,
      weak_create_error hc h2 (h3 ▸ points_upto k) h4⟩

/-- **C119**, united store (partial: the program of the README uses the point itself instead of a second point, see below). On a
store without links, new or emptied, the first program with a second point for the other end of the link prints what it should and
leaves no links behind; or a creation fails and the program returns its error. This needs no more of the tree crate than that it
works on nodes that it can tell apart. -/
theorem C119_tour_partial (hc : CfgOK₀ c) (hfit : ∀ len n, c.alloc len (len + c.step) = some n → n ≤ c.maxT) {s : Store}
    (h : ReachU c s) (he : (links c).count s = some 0) :
    (∃ t s', (links c).tourApart s = some (.ok t, s') ∧ (links c).count s' = some 0 ∧
      t.point = 1 ∧ t.link = 3 ∧ t.total = 3 ∧ t.all.Perm [⟨1, 1, 1⟩, ⟨2, 2, 2⟩, ⟨3, 1, 2⟩] ∧
      t.bySource.Perm [⟨1, 1, 1⟩, ⟨3, 1, 2⟩] ∧ t.updated = 3 ∧ t.deleted = [(⟨3, 1, 3⟩, ⟨0, 0, 0⟩)]) ∨
    ∃ e s', (links c).tourApart s = some (.error e, s') ∧ (links c).create s' = some ⟨.error e, s', ()⟩ := by
  have hv := Links.empty_of_count (weakLawful hc) h he
  rcases Links.tourApart_law (weakLawful hc) (weak_numbers hc) (fun s _ _ len => hfit s.len len) (fun v i x y hu => hu)
    (fun s h => by
      obtain ⟨L, h1, h2, h3⟩ := C29_iter_yields_all_links hc.mend (reachU_mend hc h).1
      refine ⟨L, ?_, h2, h3⟩
      have e : ∀ σ q h st, (links c.mend).eachLinks (σ := σ) s q h st = (links c).eachLinks s q h st :=
        fun σ q h st => eachLinks_mend s q h st
      simp only [Links.iter, Links.eachIter, Links.collect, Links.eachBy, e] at h1
      exact h1) h hv with ⟨t, s', h1, h2, h3, h4⟩ | h1
  · exact .inl ⟨t, s', h1, Links.count_upto (weakLawful hc) h2 (h3 ▸ points_upto 0), h4⟩
  · exact .inr h1

/-- The published trees and a memory of at most 255 slots. -/
def cfgSFew : Cfg := cfgS.withAlloc fun _ n => if n ≤ 255 then some n else none

theorem cfgSFew_ok : CfgOK₀ cfgSFew :=
  ⟨rfl, rfl, rfl, rfl, rfl, by decide, by decide, by decide, Sbt.trees_weak, fun _ n m h => by
    simp only [cfgSFew, Cfg.withAlloc] at h
    split at h <;> cases h; exact Nat.le_refl _⟩

theorem cfgSFew_fits (len n : Nat) (h : cfgSFew.alloc len (len + cfgSFew.step) = some n) : n ≤ cfgSFew.maxT := by
  simp only [cfgSFew, Cfg.withAlloc] at h
  split at h
  · next hle => cases h; exact hle
  · cases h

/-- The hypotheses of both theorems are met by a new store over the published trees; the programs get to their ends. -/
example : CfgOK₀ cfgSFew ∧ (∀ len n, cfgSFew.alloc len (len + cfgSFew.step) = some n → n ≤ cfgSFew.maxT) ∧ ReachU cfgSFew (store0 cfgSFew) ∧ (links cfgSFew).count (store0 cfgSFew) = some 0 ∧
    ((links cfgSFew).makePoints 3 (store0 cfgSFew)).map (fun o => o.res) = some (.ok ()) ∧
    ((links cfgSFew).tourApart (store0 cfgSFew)).map (fun r => r.1.toOption) =
      some (some ⟨1, 3, 3, [⟨1, 1, 1⟩, ⟨2, 2, 2⟩, ⟨3, 1, 2⟩], [⟨3, 1, 2⟩, ⟨1, 1, 1⟩], 3, [(⟨3, 1, 3⟩, ⟨0, 0, 0⟩)]⟩) := by
  exact ⟨cfgSFew_ok, cfgSFew_fits, .fresh (c := cfgSFew) cfgSFew.alloc cfgSFew_ok.alloc_ge rfl, by decide +kernel, by decide +kernel,
    by decide +kernel⟩

/-- **C119** is false for the first program as it stands. Its second link has the ends of the first, and it updates that link. Over
the published size-balanced trees, which work on nodes they can tell apart, the update makes the store lose the first link: the query
for the links to 1 shows none, that for the links from 1 does not return, and neither does `delete_all` after the second link was
deleted: the program does not get to its end. Over a crate that tells equal nodes apart by itself it does. -/
theorem C119_tour_fails : LawfulTrees₀ Sbt.trees ∧ (links cfgS).tour (store0 cfgS) = none ∧
    (((callsS cfgS [.create, .update 1 1 1, .create, .update 2 1 1]).bind fun s =>
      (links cfgS).collect s [cfgS.consts.any, 1, cfgS.consts.any]).map (·.map (·.index)) = some [1, 2]) ∧
    (((callsS cfgS [.create, .update 1 1 1, .create, .update 2 1 1, .update 2 1 2]).bind fun s =>
      (links cfgS).collect s [cfgS.consts.any, cfgS.consts.any, 1]).map (·.map (·.index)) = some []) ∧
    ((callsS cfgS [.create, .update 1 1 1, .create, .update 2 1 1, .update 2 1 2]).bind fun s =>
      (links cfgS).collect s [cfgS.consts.any, 1, cfgS.consts.any]) = none ∧
    ((callsS cfgS [.create, .update 1 1 1, .create, .update 2 1 1, .update 2 1 2, .delete 2]).bind fun s =>
      (links cfgS).deleteAll s).isNone = true ∧
    ((links cfg0).tour (store0 cfg0)).map (fun r => r.1.toOption) =
      some (some ⟨1, 2, 2, [⟨1, 1, 1⟩, ⟨2, 1, 1⟩], [⟨1, 1, 1⟩, ⟨2, 1, 1⟩], 2, [(⟨2, 1, 2⟩, ⟨0, 0, 0⟩)]⟩) :=
  ⟨Sbt.trees_weak, by decide +kernel, by decide +kernel, by decide +kernel, by decide +kernel, by decide +kernel, by decide +kernel⟩

end Verif.Unit.Props

namespace Verif.Split.Props
open Verif Verif.Split
variable {c : Cfg}

theorem slots_upto (hc : CfgOK c) {s : Store} {free : List Nat} (hi : Inv c s free) {n : Nat}
    (hv : ((links c).view s).Upto n) : free = [] ∧ s.hdr.allocated = n := by
  have hl : ∀ i, LiveIn s free i ↔ 1 ≤ i ∧ i ≤ n := fun i => by
    rw [← hv i, view_eq hc hi.toInv0]
    split <;> simp [*]
  have ha : s.hdr.allocated = n := by
    have h1 : n = 0 ∨ n ≤ s.hdr.allocated := (Nat.eq_zero_or_pos n).imp id fun h => ((hl n).2 ⟨h, Nat.le_refl n⟩).2.1
    have h2 : s.hdr.allocated = 0 ∨ s.hdr.allocated ≤ n := (Nat.eq_zero_or_pos _).imp id fun h =>
      ((hl _).1 ⟨h, Nat.le_refl _, fun hm => Nat.lt_irrefl _ (hi.free_lt _ hm)⟩).2
    omega
  refine ⟨?_, ha⟩
  cases free with
  | nil => rfl
  | cons x rest =>
    have h1 := hi.free_lt x (by simp)
    have h2 : x ≠ 0 := hi.net.base.list.nonzero x (by simp)
    exact absurd (show x ∈ x :: rest by simp) ((hl x).2 ⟨by omega, by omega⟩).2.2

theorem create_mend (hc : CfgOK₀ c) {s : Store} (h : ReachU c s) : (links c.mend).create s = (links c).create s := by
  obtain ⟨free, hf⟩ := reach_good hc.mend (reachU_mend hc h).1
  have e : ∀ σ (h' : WH σ) st, (links c.mend).createLinks s [] h' st = (links c).createLinks s [] h' st :=
    fun σ h' st => (createLinks_mend hc hf [] h' st).symm
  simp only [Links.create, Links.createBy, Links.createByWith, e]

theorem weak_numbers (hc : CfgOK₀ c) : Links.Numbers (weakLawful hc) := by
  intro s i s' n h hv e
  obtain ⟨free, hi⟩ := reach_good hc.mend (reachU_mend hc h).1
  obtain ⟨hf, ha⟩ := slots_upto hc.mend hi (by rw [view_mend]; exact hv)
  have e := (create_mend hc h).trans e
  rcases create_cases hc.mend hi [] with ⟨x, rest, s1, h1, -⟩ | ⟨-, -, h1⟩ | ⟨-, -, -, h1⟩ | ⟨-, -, -, -, h1⟩ | ⟨-, -, -, -, -, h1⟩ |
    ⟨-, -, s1, h1, -⟩
  · rw [hf] at h1; cases h1
  · have := (Links.create_err h1).symm.trans e; cases this
  · have := (Links.create_err h1).symm.trans e; cases this
  · have := (Links.create_err h1).symm.trans e; cases this
  · have h2 : (links c.mend).create s = none := by
      simp [Links.create, Links.createBy, Links.createByWith, links, h1]
    have := h2.symm.trans e; cases this
  · have := (Links.create_ok h1).symm.trans e; cases this; show s.hdr.allocated + 1 = n + 1; rw [ha]

theorem weak_create_error (hc : CfgOK₀ c) {s s' : Store} {n : Nat} {e : Err} (h : ReachU c s) (hv : ((links c).view s).Upto n)
    (he : (links c).create s = some ⟨.error e, s', ()⟩) :
    e = .allocFailed ∨ e = .limitReached c.consts.internalEnd ∧ c.consts.internalEnd ≤ n := by
  obtain ⟨free, hi⟩ := reach_good hc.mend (reachU_mend hc h).1
  obtain ⟨hf, ha⟩ := slots_upto hc.mend hi (by rw [view_mend]; exact hv)
  have he := (create_mend hc h).trans he
  rcases create_cases hc.mend hi [] with ⟨x, rest, s1, h1, -⟩ | ⟨-, h0, h1⟩ | ⟨-, -, -, h1⟩ | ⟨-, -, -, -, h1⟩ | ⟨-, -, -, -, -, h1⟩ |
    ⟨-, -, s1, h1, -⟩
  · rw [hf] at h1; cases h1
  · have := (Links.create_err h1).symm.trans he; cases this; exact .inr ⟨rfl, ha ▸ h0⟩
  · have := (Links.create_err h1).symm.trans he; cases this; exact .inl rfl
  · have := (Links.create_err h1).symm.trans he; cases this; exact .inl rfl
  · have h2 : (links c.mend).create s = none := by
      simp [Links.create, Links.createBy, Links.createByWith, links, h1]
    have := h2.symm.trans he; cases this
  · have := (Links.create_ok h1).symm.trans he; cases this

theorem points_sound (n : Nat) : (points n).Sound := by
  constructor
  · intro i j p hi hj
    unfold points at hi hj
    split at hi <;> split at hj <;> simp_all
    rw [← hj] at hi; cases hi; rfl
  · intro i a b hi
    unfold points at hi ⊢
    split at hi
    · next h => cases hi; rw [if_pos h]; simp
    · cases hi

/-- **C119**, split store, the third program of the README, as the second. The memories must grow together and
within the index type. -/
theorem C119_split_points (hc : CfgOK₀ c) (hgrow : ∀ n, c.dalloc n (n + c.step) ≠ none → c.ialloc n (n + c.step) ≠ none)
    (hfit : ∀ len, c.ialloc len (len + c.step) ≠ none → len + c.step ≤ c.maxT) {s : Store}
    (h : ReachU c s) (he : (links c).count s = some 0) (n : Nat) :
    (∃ s', (links c).makePoints n s = some ⟨.ok (), s', ()⟩ ∧ (links c).count s' = some n ∧
      ∀ i, (links c).getLink s' i = some (if 1 ≤ i ∧ i ≤ n then some ⟨i, i, i⟩ else none)) ∨
    ∃ e s' k, k < n ∧ (links c).makePoints n s = some ⟨.error e, s', ()⟩ ∧ (links c).count s' = some k ∧
      (∀ i, (links c).getLink s' i = some (if 1 ≤ i ∧ i ≤ k then some ⟨i, i, i⟩ else none)) ∧
      (e = .allocFailed ∨ e = .limitReached c.consts.internalEnd ∧ c.consts.internalEnd ≤ k) := by
  have hv := Links.empty_of_count (weakLawful hc) h he
  have grow : ∀ {s'}, ReachU c s' → CanGrow c s' := by
    intro s' h' hd
    obtain ⟨free, hi⟩ := reach_good hc.mend (reachU_mend hc h').1
    rw [hi.net.base.len_eq] at hd
    exact ⟨hgrow _ hd, hfit _ (hgrow _ hd)⟩
  have get : ∀ {s' k}, ReachU c s' → (links c).view s' = points k →
      ∀ i, (links c).getLink s' i = some (if 1 ≤ i ∧ i ≤ k then some ⟨i, i, i⟩ else none) := by
    intro s' k h' hv' i
    rw [(weakLawful hc).get s' h', hv']
    unfold points; split <;> rfl
  rcases Links.makePoints_law (weakLawful hc) (weak_numbers hc)
    (fun n => ⟨by rw [View.set_set, points_succ]; exact points_uniq _, fun h => h, fun _ p hp => by
      rw [View.set_same] at hp; cases hp; rfl⟩) n 0 s h hv
    (fun k s' hk hi hw hm => ⟨grow hi, weak_newUnused hc hi (hw ▸ points_sound _)⟩) with
    ⟨s', h1, h2, h3⟩ | ⟨e, s', k, h0, h1, h2, h3, h4⟩
  · rw [Nat.zero_add] at h3
    exact .inl ⟨s', h1, Links.count_upto (weakLawful hc) h2 (h3 ▸ points_upto n), get h2 h3⟩
  · rw [Nat.zero_add] at h3
    exact .inr ⟨e, s', k, h0, h1, Links.count_upto (weakLawful hc) h2 (h3 ▸ points_upto k), get h2 h3,
      weak_create_error hc h2 (h3 ▸ points_upto k) h4⟩

/-- The published trees and memories of at most 255 slots. -/
def cfgSFew : Cfg := cfgS.withAllocs (fun _ n => if n ≤ 255 then some n else none) (fun _ n => if n ≤ 255 then some n else none)

theorem few_exact : ExactAlloc fun _ n => if n ≤ 255 then some n else none := fun _ n m h => by
  dsimp only at h
  split at h
  · cases h; rfl
  · cases h

theorem cfgSFew_ok : CfgOK₀ cfgSFew := cfgS_ok.withAllocs few_exact few_exact

example : CfgOK₀ cfgSFew ∧ (∀ n, cfgSFew.dalloc n (n + cfgSFew.step) ≠ none → cfgSFew.ialloc n (n + cfgSFew.step) ≠ none) ∧
    (∀ len, cfgSFew.ialloc len (len + cfgSFew.step) ≠ none → len + cfgSFew.step ≤ cfgSFew.maxT) ∧
    ReachU cfgSFew (store0 cfgSFew) ∧ (links cfgSFew).count (store0 cfgSFew) = some 0 ∧
    ((links cfgSFew).makePoints 3 (store0 cfgSFew)).map (fun o => (o.res, (links cfgSFew).count o.st)) = some (.ok (), some 3) := by
  refine ⟨cfgSFew_ok, fun _ h => h, fun len h => ?_,
    .fresh (c := cfgSFew) cfgSFew.dalloc cfgSFew.ialloc cfgSFew_ok.dalloc_eq cfgSFew_ok.ialloc_eq rfl, by decide +kernel, by decide +kernel⟩
  simp only [cfgSFew, Cfg.withAllocs] at h
  split at h
  · next hle => exact hle
  · exact absurd rfl h

end Verif.Split.Props
