import Verif.Unit.Lawful

/-!
# Reachable states of the united store

`Reach c s`: `s` is the state of some store opened on empty memory, after any finite history of calls,
with any handlers, any allocator behaviour (each growth may fail or give more than asked) and any number of
close/reopen cycles. The only restriction on the history is that a link is not updated or deleted while
another link has the same non-null source and target.
-/

namespace Verif.Unit
open Verif

/-- An allocator that never reports success with less than asked. -/
def GoodAlloc (a : Nat → Nat → Option Nat) : Prop := ∀ len req n, a len req = some n → req ≤ n

/-- The configuration with another allocator. -/
def Cfg.withAlloc (c : Cfg) (a : Nat → Nat → Option Nat) : Cfg := { c with alloc := a }

inductive Reach (c : Cfg) : Store → Prop
  /-- `Store::new` / `with_constants` on empty memory. -/
  | fresh (a) {s : Store} : GoodAlloc a → init (c.withAlloc a) {} = some (.ok s) → Reach c s
  /-- `create_links`, successful or not. -/
  | create (a) {s : Store} {q : List Nat} {σ : Type} {h : WH σ} {st : σ} {o : Out Store σ Flow} :
      Reach c s → GoodAlloc a → (links (c.withAlloc a)).createLinks s q h st = some o → Reach c o.st
  /-- `update_links`, successful or not. -/
  | update {s : Store} {q ch : List Nat} {σ : Type} {h : WH σ} {st : σ} {o : Out Store σ Flow} :
      Reach c s → (∀ i, q.head? = some i → ((links c).view s).NoTwin i) →
      (links c).updateLinks s q ch h st = some o → Reach c o.st
  /-- `delete_links`, successful or not. -/
  | delete {s : Store} {q : List Nat} {σ : Type} {h : WH σ} {st : σ} {o : Out Store σ Flow} :
      Reach c s → (∀ i, q.head? = some i → ((links c).view s).NoTwin i) →
      (links c).deleteLinks s q h st = some o → Reach c o.st
  /-- Closing the store and opening another one on the same memory, provided it gets mapped to an extent
  that covers the links. -/
  | reopen (a) (n : Nat) {s s' : Store} : Reach c s → GoodAlloc a →
      init (c.withAlloc a) { s with len := n } = some (.ok s') → s.hdr.allocated < s'.len → Reach c s'

variable {c : Cfg}

theorem CfgOK.withAlloc (hc : CfgOK c) {a : Nat → Nat → Option Nat} (ha : GoodAlloc a) :
    CfgOK (c.withAlloc a) :=
  ⟨hc.null_eq, hc.index_eq, hc.source_eq, hc.target_eq, hc.start_eq, hc.end_lt_any, hc.end_le,
   hc.step_pos, hc.trees, ha⟩

theorem Inv.withAlloc {s : Store} {free : List Nat} {ts tt : Tree} (h : Inv c s free ts tt)
    (a : Nat → Nat → Option Nat) : Inv (c.withAlloc a) s free ts tt :=
  ⟨⟨⟨h.base.alloc_lt, h.base.alloc_le, h.base.res_pos, h.base.res_le, h.base.res8, h.base.list,
    h.base.free_le, h.base.beyond⟩, ⟨h.src.tree, h.src.clean⟩, ⟨h.tgt.tree, h.tgt.clean⟩, h.src_mem, h.tgt_mem⟩, h.free_lt⟩

theorem Inv.ofAlloc {s : Store} {free : List Nat} {ts tt : Tree} {a : Nat → Nat → Option Nat}
    (h : Inv (c.withAlloc a) s free ts tt) : Inv c s free ts tt :=
  ⟨⟨⟨h.base.alloc_lt, h.base.alloc_le, h.base.res_pos, h.base.res_le, h.base.res8, h.base.list,
    h.base.free_le, h.base.beyond⟩, ⟨h.src.tree, h.src.clean⟩, ⟨h.tgt.tree, h.tgt.clean⟩, h.src_mem, h.tgt_mem⟩, h.free_lt⟩

theorem init_fresh (hc : CfgOK c) {s : Store} (h : init c {} = some (.ok s)) :
    Inv c s [] .leaf .leaf ∧ s.hdr.allocated = 0 := by
  unfold init at h
  simp only at h
  split at h
  · simp at h
  · next n1 hn1 =>
    split at h
    · simp at h
    · split at h
      · simp at h
      · next n2 hn2 =>
        have h2 : 2 ≤ n2 := by
          have := hc.alloc_ge _ _ _ hn2; have := hc.step_pos; omega
        rw [csub_eq (by omega)] at h
        simp only [Option.bind_some] at h
        split at h
        · simp only [Option.some.injEq, Except.ok.injEq] at h
          subst h
          refine ⟨⟨⟨⟨?_, ?_, ?_, ?_, rfl, ?_, by simp, fun _ _ => rfl⟩, ⟨IsTree.leaf hc.trees.leaf _ _, ?_⟩,
            ⟨IsTree.leaf hc.trees.leaf _ _, ?_⟩, ?_, ?_⟩, by simp⟩, rfl⟩
          · show 0 < n2; omega
          · exact Nat.zero_le _
          · show 1 ≤ n2 - 1; omega
          · show n2 - 1 ≤ n2; omega
          · exact ⟨List.nodup_nil, by simp, rfl, rfl, rfl, by simp, by simp⟩
          · intro k _; exact ⟨rfl, rfl, rfl⟩
          · intro k _; exact ⟨rfl, rfl, rfl⟩
          · intro k; simp [Tree.toList]
          · intro k; simp [Tree.toList]
        · simp at h

theorem init_reopen (hc : CfgOK c) {s s' : Store} {n : Nat} {free : List Nat} {ts tt : Tree}
    (hi : Inv c s free ts tt) (h : init c { s with len := n } = some (.ok s'))
    (hlt : s.hdr.allocated < s'.len) :
    Inv c s' free ts tt ∧ s'.hdr.allocated = s.hdr.allocated ∧ (∀ k, s'.lk k = s.lk k) := by
  unfold init at h
  simp only at h
  split at h
  · simp at h
  · next n1 hn1 =>
    split at h
    · simp at h
    · split at h
      · simp at h
      · next n2 hn2 =>
        have h2 : 2 ≤ n2 := by
          have := hc.alloc_ge _ _ _ hn2; have := hc.step_pos; omega
        rw [csub_eq (by omega)] at h
        simp only [Option.bind_some] at h
        split at h
        · simp only [Option.some.injEq, Except.ok.injEq] at h
          subst h
          refine ⟨⟨⟨⟨hlt, hi.base.alloc_le, ?_, ?_, hi.base.res8, hi.base.list, hi.base.free_le,
            hi.base.beyond⟩, ⟨hi.src.tree, hi.src.clean⟩, ⟨hi.tgt.tree, hi.tgt.clean⟩, hi.src_mem,
            hi.tgt_mem⟩, hi.free_lt⟩, rfl, fun _ => rfl⟩
          · show 1 ≤ n2 - 1; omega
          · show n2 - 1 ≤ n2; omega
        · simp at h

theorem view_withAlloc (s : Store) (a : Nat → Nat → Option Nat) :
    (links (c.withAlloc a)).view s = (links c).view s := rfl

theorem reach_good (hc : CfgOK c) {s : Store} (h : Reach c s) : Good c s := by
  induction h with
  | fresh a ha h => exact ⟨_, _, _, (init_fresh (hc.withAlloc ha) h).1.ofAlloc⟩
  | @create a s q σ h st o _ ha ho ih =>
    obtain ⟨free, ts, tt, hi⟩ := ih
    have ho : createLinks (c.withAlloc a) s q h st = some o := ho
    rcases createLinks_ok (hc.withAlloc ha) (hi.withAlloc a) q h st with
      ⟨x, rest, s', hf, h1, h2, -⟩ | ⟨hf, h1, h2⟩ | ⟨hf, h1, h2, h3, h4⟩ |
      ⟨hf, h1, h2, n, h3, h4, h5⟩ | ⟨hf, h1, s', h2, h3, -⟩
    · rw [h1] at ho; cases ho; exact ⟨_, _, _, h2.ofAlloc⟩
    · rw [h2] at ho; cases ho; exact ⟨_, _, _, hi⟩
    · rw [h4] at ho; cases ho; exact ⟨_, _, _, hi⟩
    · rw [h5] at ho; cases ho
    · rw [h2] at ho; cases ho; exact ⟨_, _, _, h3.ofAlloc⟩
  | @update s q ch σ h st o _ ht ho ih =>
    obtain ⟨free, ts, tt, hi⟩ := ih
    have ho : updateLinks c s q ch h st = some o := ho
    match q, ch with
    | [], _ => simp [updateLinks] at ho
    | _ :: _, [] => simp [updateLinks] at ho
    | _ :: _, [_] => simp [updateLinks] at ho
    | _ :: _, [_, _] => simp [updateLinks] at ho
    | i :: q, x :: a :: b :: ch =>
      by_cases hl : LiveIn s free i
      · obtain ⟨s', ts', tt', h1, h2, -⟩ := updateLinks_ok hc hi hl
          (noTwinIn hc hi.toInv0 hl (ht i rfl)) q x a b ch h st
        rw [h1] at ho; cases ho; exact ⟨_, _, _, h2⟩
      · rw [updateLinks_missing hc hi.toInv0 hl] at ho; cases ho; exact ⟨_, _, _, hi⟩
  | @delete s q σ h st o _ ht ho ih =>
    obtain ⟨free, ts, tt, hi⟩ := ih
    have ho : deleteLinks c s q h st = some o := ho
    match q with
    | [] => simp [deleteLinks] at ho
    | i :: q =>
      by_cases hl : LiveIn s free i
      · obtain ⟨s', free', ts', tt', h1, h2, -⟩ := deleteLinks_ok hc hi hl
          (noTwinIn hc hi.toInv0 hl (ht i rfl)) q h st
        rw [h1] at ho; cases ho; exact ⟨_, _, _, h2⟩
      · rw [deleteLinks_missing hc hi.toInv0 hl] at ho; cases ho; exact ⟨_, _, _, hi⟩
  | reopen a n _ ha h hlt ih =>
    obtain ⟨free, ts, tt, hi⟩ := ih
    exact ⟨_, _, _, (init_reopen (hc.withAlloc ha) (hi.withAlloc a) h hlt).1.ofAlloc⟩

end Verif.Unit
