import Verif.Props.SplitWrites
import Verif.Split.Alike

/-!
# C98: the two memories of a split store must be of the same length

The theorems about the split store assume memories that grant what is asked for, no more (the united store accepts memories that
grant more). Here: what happens otherwise.
-/

namespace Verif.Split.Props
open Verif

variable {c : Cfg}

/-- The positions of index, source and target in a query are the usual ones. -/
def UsualParts (c : Cfg) : Prop := c.consts.indexPart = 0 ∧ c.consts.sourcePart = 1 ∧ c.consts.targetPart = 2

/-- Asking for the links with a given source looks at the index part and the data part of that index. -/
theorem query_outside {s : Store} {x : Nat} (hx : x ≤ s.hdr.allocated) (hf : s.hdr.firstFree ≠ x)
    (hlen : s.dlen ≤ x ∨ s.ilen ≤ x) (hp : UsualParts c) : eachIter c s (sideQuery c .src x) = none := by
  have hu : isUnused s x = none := by
    simp only [isUnused, hx, hf, ne_eq, not_false_eq_true, and_self, if_true, Store.getI, Store.getD]
    rcases hlen with h | h
    · rw [if_neg (c := s.stale = false ∧ x < s.dlen) (by omega)]
      cases (if x < s.ilen then some (if x = 0 then asPart s.hdr else s.idx x) else none) <;> rfl
    · rw [if_neg (c := x < s.ilen) (by omega)]; rfl
  have hcount : countLinks c s (sideQuery c .src x) = none := by
    simp [countLinks, sideQuery, hp.1, hp.2.1, hp.2.2, count3, hu]
  simp [eachIter, hcount]

/-- **C98.** If one of the two memories has no slot for the next link, and the store does not see a reason to grow (it looks at the
number of slots it noted when it was opened or last grew), the creation is undefined: it panics on the missing slot. -/
theorem C98_create_outside_panics (hp : UsualParts c) (hnull : c.consts.null = 0) (hmax : c.consts.internalEnd ≤ c.maxT)
    {s : Store} (hfree : s.hdr.firstFree = 0)
    (hend : s.hdr.allocated < c.consts.internalEnd) (hres : s.hdr.allocated + 1 < s.hdr.reserved)
    (hlen : s.dlen ≤ s.hdr.allocated + 1 ∨ s.ilen ≤ s.hdr.allocated + 1) {σ : Type} (q : List Nat) (h : WH σ) (st : σ) :
    (links c).createLinks s q h st = none := by
  show createLinks c s q h st = none
  simp only [createLinks, hfree, hnull, if_true]
  rw [if_neg (by omega), csub_eq (by omega)]
  simp only [Option.bind_some]
  rw [if_neg (by omega)]
  simp only [createTop, cadd_eq (show s.hdr.allocated + 1 ≤ c.maxT by omega), Option.bind_some, createEnd, resolveExternal]
  rw [query_outside (s := { s with hdr := { s.hdr with allocated := s.hdr.allocated + 1 } }) (Nat.le_refl _)
    (by simp [hfree]) hlen hp]
  rfl

/-- Memories that round up to multiples of `k` slots: like those asked for exactly, they grant at least what is asked for. -/
def roundUp (k : Nat) : Nat → Nat → Option Nat := fun _ req => some ((req + k - 1) / k * k)

/-- `cfg0` (steps of 8 slots) with an index memory that rounds up to multiples of 12 slots. -/
def cfgI : Cfg := { cfg0 with ialloc := roundUp 12 }

/-- `cfg0` with a data memory that rounds up to multiples of 12 slots. -/
def cfgD : Cfg := { cfg0 with dalloc := roundUp 12 }

/-- `n` creations on a new store: the indices returned, and whether the next creation returns. -/
def createMany (c : Cfg) (n : Nat) : Option (List (Option Nat) × Bool) :=
  (exec c (List.replicate n .create) (store0 c)).map fun r =>
    (r.2.map fun e => e.toOption, ((links c).create r.1).isSome)

/-- **C98**, from an empty store: an index memory that grants more slots than the data memory. Six links fit, the memories grow to 16
and 36 slots, and after nine more links the creation of the sixteenth panics. -/
theorem C98_larger_index_memory : createMany cfgI 15 = some ((List.range' 1 15).map some, false) := by decide +kernel

/-- **C98**, from an empty store: a data memory that grants more slots than the index memory. The store is opened with 24 and 8 slots;
after seven links the creation of the eighth panics. -/
theorem C98_larger_data_memory : createMany cfgD 7 = some ((List.range' 1 7).map some, false) := by decide +kernel

/-- With exact memories the same histories go on. -/
example : createMany cfg0 15 = some ((List.range' 1 15).map some, true) ∧
    createMany cfg0 7 = some ((List.range' 1 7).map some, true) := by decide +kernel

/-- The united store accepts memories that grant more. -/
example : ∀ len req n, roundUp 12 len req = some n → req ≤ n := by
  intro len req n h
  cases h
  omega

/-- The hypotheses of `C98_create_outside_panics` hold of the store that the second history leaves. -/
example {σ : Type} (h : WH σ) (st : σ) :
    (links cfgD).createLinks (((exec cfgD (List.replicate 7 .create) (store0 cfgD)).map (·.1)).getD {}) [] h st = none :=
  C98_create_outside_panics ⟨rfl, rfl, rfl⟩ rfl (by decide) (by decide +kernel) (by decide +kernel) (by decide +kernel)
    (.inr (by decide +kernel)) _ h st

/-- **C98** (partial: memories that grant the same number of slots as each other, be it more than was asked for). After any supported
history on such memories the store holds exactly what a finite map would hold, every call returned what a map would return, and
every further supported call returns normally, provided the memories, if they can grow, grow together and within the index type. -/
theorem C98_alike_memories_partial (hc : CfgOK c) {s : Store} {tr : List (Call × Except Err Nat)} (h : AlikeHistory c s tr) :
    (links c).view s = replay tr ∧
    (∀ pre k r suf, tr = pre ++ (k, r) :: suf → Call.Legit (replay pre) k r) ∧
    ∀ (d i : Nat → Nat → Option Nat) (k : Call), Alike d i →
      (k = .create → d s.dlen (s.dlen + c.step) ≠ none → ∃ n, i s.ilen (s.ilen + c.step) = some n ∧ n ≤ c.maxT) →
      (∀ x, k.subject = some x → k.SplitOK (replay tr) (.ok 0)) → ∃ o, step c d i s k = some o := by
  obtain ⟨hinv, hleg⟩ := alike_inv hc h
  refine ⟨hinv.view, hleg, fun d i k ha hg hok => ?_⟩
  have hgood : Good c s := ⟨_, hinv.inv⟩
  rw [← hinv.view] at hok
  cases k with
  | create =>
    have hg := hg rfl
    obtain ⟨t, d', i', ht, hd, hi, hg', h5, e⟩ := create_alike' hc ha hinv.inv.base.len_eq (by
      intro hne
      obtain ⟨n, hn, -⟩ := hg hne
      rw [show (c.withAllocs d i).ialloc s.ilen (s.ilen + (c.withAllocs d i).step) = some n from hn]
      simp)
    rw [e]
    have hc' := (hc.sized c.page ht).withAllocs hd hi
    rcases create_cases hc' ((hinv.inv.sized c.page t).withAllocs d' i') [] with ⟨x, rest, s', hf, h1, h2, h3, h4⟩ | ⟨hf, h1, h2⟩ |
      ⟨hf, h1, h2, h3⟩ | ⟨hf, h1, h2, h3, h4⟩ | ⟨hf, h1, h2, h3, h4, h6⟩ | ⟨hf, h1, s', h2, h3, h4⟩
    · exact ⟨_, create_of_succeeds h1⟩
    · exact ⟨_, Links.create_err h2⟩
    · exact ⟨_, Links.create_err h3⟩
    · exact ⟨_, Links.create_err h4⟩
    · exfalso
      rcases h5 with ⟨_, rfl⟩ | ⟨n, hdn, hn, hsum, rfl, rfl⟩
      · exact h2 rfl
      · have hlt : c.maxT < s.ilen + t := h4
        obtain ⟨m, hm, hle⟩ := hg hdn
        rw [hn] at hm
        cases hm
        omega
    · exact ⟨_, create_of_succeeds h2⟩
  | update x a b =>
    have hok := hok x rfl
    show ∃ o, (links c).update s x a b = some o
    cases hv : (links c).view s x with
    | none => exact ⟨_, Links.update_err ((lawful hc).update_missing s hgood x hv x a b)⟩
    | some p =>
      obtain ⟨s', -, -, hS⟩ := update_law hc hgood hv hok.1 x a b hok.2
      exact ⟨_, Links.update_ok hS⟩
  | delete x =>
    have hok := hok x rfl
    show ∃ o, (links c).delete s x = some o
    cases hv : (links c).view s x with
    | none => exact ⟨_, Links.delete_err ((lawful hc).delete_missing s hgood x hv)⟩
    | some p =>
      obtain ⟨s', -, -, hS⟩ := delete_law hc hgood hv hok.1 hok.2
      exact ⟨_, Links.delete_ok hS⟩

/-! ### A history on memories that both round up to multiples of 12 slots -/

/-- `cfg0` with both memories rounding up. -/
def cfgR : Cfg := cfg0.withAllocs (roundUp 12) (roundUp 12)

theorem roundUp_alike (k : Nat) (hk : 0 < k) : Alike (roundUp k) (roundUp k) := by
  intro l r n m h1 h2
  cases h1
  cases h2
  refine ⟨rfl, ?_⟩
  have h1 := Nat.div_add_mod (r + k - 1) k
  have h2 := Nat.mod_lt (r + k - 1) hk
  rw [Nat.mul_comm] at h1
  omega

set_option smartUnfolding false in
theorem step_cfgR (s : Store) (k : Call) : step cfgR cfgR.dalloc cfgR.ialloc s k = step cfg0 (roundUp 12) (roundUp 12) s k := by
  cases k <;> rfl

theorem okB_cfgR (s : Store) (k : Call) (r : Except Err Nat) : okB cfgR s k r = okB cfg0 s k r := by
  cases k <;> cases r <;> rfl

theorem exec_alike : ∀ (ks : List Call) {s s' : Store} {rs tr},
    AlikeHistory cfg0 s tr → exec cfgR ks s = some (s', rs) → AlikeHistory cfg0 s' (tr ++ ks.zip rs) := by
  intro ks
  induction ks with
  | nil => intro s s' rs tr hr h; simp [exec] at h; rw [← h.1]; simpa using hr
  | cons k ks ih =>
    intro s s' rs tr hr h
    unfold exec at h
    rw [step_cfgR] at h
    cases ho : step cfg0 (roundUp 12) (roundUp 12) s k with
    | none => rw [ho] at h; simp at h
    | some o =>
      rw [ho] at h
      simp only [Option.bind_some, okB_cfgR] at h
      split at h
      · next hk =>
        cases he : exec cfgR ks o.st with
        | none => rw [he] at h; simp at h
        | some r =>
          rw [he] at h
          simp only [Option.map_some, Option.some.injEq, Prod.mk.injEq] at h
          rw [← h.1, ← h.2, List.zip_cons_cons]
          have hi := (alike_inv cfg0_ok hr).1
          have := ih (.call (roundUp 12) (roundUp 12) k hr (roundUp_alike 12 (by decide)) (by intro _; simp [Cfg.withAllocs, roundUp])
            ho ?_) he
          · simpa using this
          · rw [← hi.view]; exact okB_ok cfg0_ok ⟨_, hi.inv⟩ hk
      · simp at h

/-- Twenty-six creations, then updates and deletions, on memories that grow from 24 to 36 slots. -/
def longRun : List Call :=
  List.replicate 26 .create ++ [.update 1 1 1, .update 2 1 1, .update 26 2 1, .delete 5, .delete 26, .create]

example : ∃ s tr, AlikeHistory cfg0 s tr ∧ tr.length = 32 ∧ s.ilen = 36 ∧ s.dlen = 36 ∧ s.hdr.allocated = 25 ∧
    (links cfg0).getLink s 2 = some (some ⟨2, 1, 1⟩) := by
  have h : (exec cfgR longRun (store0 cfgR)).isSome = true := by decide +kernel
  obtain ⟨r, hr⟩ := Option.isSome_iff_exists.1 h
  have h0 : AlikeHistory cfg0 (store0 cfgR) [] :=
    .fresh (c := cfg0) (roundUp 12) (roundUp 12) (roundUp_alike 12 (by decide)) rfl
  have h1 : (exec cfgR longRun (store0 cfgR)).map (fun r => [(longRun.zip r.2).length, r.1.ilen, r.1.dlen, r.1.hdr.allocated]) =
      some [32, 36, 36, 25] := by decide +kernel
  have h2 : (exec cfgR longRun (store0 cfgR)).map (fun r => getLink cfg0 r.1 2) = some (some (some ⟨2, 1, 1⟩)) := by decide +kernel
  rw [hr] at h1 h2
  simp only [Option.map_some, Option.some.injEq, List.cons.injEq, and_true] at h1 h2
  exact ⟨r.1, _, exec_alike longRun h0 hr, by simpa using h1.1, h1.2.1, h1.2.2.1, h1.2.2.2, h2⟩

end Verif.Split.Props
