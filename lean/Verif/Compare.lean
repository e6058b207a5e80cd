import Verif.Split.History
import Verif.Unit.History
import Verif.Unit.CreateCases

/-!
# Results of the calls of a history, as a function of the calls before (helper lemmas)
-/

namespace Verif

/-- What a call returns when no memory is exhausted, given the contents, the index allocation and the highest
allowed index. -/
def Call.result (limit : Nat) (v : View) (z : Slots) : Call → Except Err Nat
  | .create =>
    match z.free with
    | x :: _ => .ok x
    | [] => if z.top < limit then .ok (z.top + 1) else .error (.limitReached limit)
  | .update i _ _ => if v i = none then .error (.notExists i) else .ok i
  | .delete i => if v i = none then .error (.notExists i) else .ok 0

/-- A legitimate result of an update or deletion is the expected one. -/
theorem Call.Legit.result {v : View} {k : Call} {r : Except Err Nat} (h : k.Legit v r) (hk : k ≠ .create)
    (limit : Nat) (z : Slots) : r = k.result limit v z := by
  cases k with
  | create => exact absurd rfl hk
  | update i a b =>
    cases r with
    | error e => simp only [Call.Legit] at h; simp [Call.result, h.1, h.2]
    | ok x => simp only [Call.Legit] at h; simp [Call.result, h.1, h.2]
  | delete i =>
    cases r with
    | error e => simp only [Call.Legit] at h; simp [Call.result, h.1, h.2]
    | ok x => simp only [Call.Legit] at h; simp [Call.result, h.1, h.2]

/-- The results of a history are determined by its calls, if no memory was exhausted. -/
def Determined (limit : Nat) (tr : List (Call × Except Err Nat)) : Prop :=
  ∀ pre k r suf, tr = pre ++ (k, r) :: suf →
    r = .error .allocFailed ∨ r = k.result limit (replay pre) (slots pre)

theorem Determined.unique {limit : Nat} {tr tr' : List (Call × Except Err Nat)} (h : Determined limit tr)
    (h' : Determined limit tr') (hf : ∀ x ∈ tr, x.2 ≠ .error .allocFailed)
    (hf' : ∀ x ∈ tr', x.2 ≠ .error .allocFailed) (hk : tr.map Prod.fst = tr'.map Prod.fst) : tr = tr' := by
  suffices ∀ n, tr.take n = tr'.take n by
    have := this (max tr.length tr'.length)
    rwa [List.take_of_length_le (by omega), List.take_of_length_le (by omega)] at this
  have hlen : tr.length = tr'.length := by simpa using congrArg List.length hk
  intro n
  induction n with
  | zero => simp
  | succ n ih =>
    by_cases hn : n < tr.length
    · have e1 : tr = tr.take n ++ (tr[n].1, tr[n].2) :: tr.drop (n + 1) := by
        show tr = tr.take n ++ tr[n] :: tr.drop (n + 1)
        rw [← List.drop_eq_getElem_cons hn, List.take_append_drop]
      have hn' : n < tr'.length := by omega
      have e2 : tr' = tr'.take n ++ (tr'[n].1, tr'[n].2) :: tr'.drop (n + 1) := by
        show tr' = tr'.take n ++ tr'[n] :: tr'.drop (n + 1)
        rw [← List.drop_eq_getElem_cons hn', List.take_append_drop]
      have r1 := (h _ _ _ _ e1).resolve_left (hf _ (List.getElem_mem hn))
      have r2 := (h' _ _ _ _ e2).resolve_left (hf' _ (List.getElem_mem hn'))
      have hk' : tr[n].1 = tr'[n].1 := by
        have : (tr.map Prod.fst)[n]'(by simpa using hn) = (tr'.map Prod.fst)[n]'(by simpa using hn') := by
          simp only [hk]
        simpa using this
      rw [hk', ih] at r1
      have : tr[n] = tr'[n] := Prod.ext hk' (r1.trans r2.symm)
      rw [List.take_succ_eq_append_getElem hn, List.take_succ_eq_append_getElem hn', ih, this]
    · rw [List.take_of_length_le (by omega), List.take_of_length_le (by omega)]
      rw [List.take_of_length_le (by omega), List.take_of_length_le (by omega)] at ih
      exact ih

end Verif

namespace Verif.Unit
open Verif

variable {c : Cfg}

theorem create_result (hc : CfgOK c) {s : Store} {tr} (h : HInv c s tr) {a : Nat → Nat → Option Nat}
    (ha : GoodAlloc a) {o : Out Store _root_.Unit Nat} (ho : step c a s .create = some o) :
    o.res = .error .allocFailed ∨
      o.res = Call.result c.consts.internalEnd (replay tr) (slots tr) .create := by
  obtain ⟨⟨ts, tt, hi⟩, htop, hv, hord⟩ := h
  have ho : (links (c.withAlloc a)).create s = some o := ho
  simp only [Call.result]
  rcases create_cases (hc.withAlloc ha) (hi.withAlloc a) [] with ⟨x, rest, s', hf, -, -, -, -, h1, -⟩ |
    ⟨hf, h1, h2⟩ | ⟨hf, h1, h2, h3⟩ | ⟨hf, h1, h2, h3⟩ | ⟨hf, h1, s', -, -, h2, -⟩
  · rw [Links.create_ok h1] at ho
    cases ho
    right; rw [hf]
  · rw [Links.create_err h2] at ho
    cases ho
    have h1 : c.consts.internalEnd ≤ s.hdr.allocated := h1
    right; rw [hf]; simp only
    rw [if_neg (by omega)]; rfl
  · rw [Links.create_err h3] at ho
    cases ho
    exact .inl rfl
  · rw [create_none h3] at ho; cases ho
  · rw [Links.create_ok h2] at ho
    cases ho
    have h1 : s.hdr.allocated < c.consts.internalEnd := h1
    right; rw [hf]; simp only
    rw [if_pos (by omega), htop]

theorem history_determined (hc : CfgOK c) {s : Store} {tr} (h : History c s tr) :
    Determined c.consts.internalEnd tr := by
  induction h with
  | fresh => intro pre k r suf he; simp at he
  | @call a k s tr o h ha ht ho ih =>
    intro pre k' r suf he
    rcases Split.snoc_split he with ⟨rfl, e2, -⟩ | ⟨suf', e2⟩
    · cases e2
      by_cases hk : k = .create
      · subst hk; exact create_result hc (history_inv hc h).1 ha ho
      · refine .inr (Call.Legit.result ?_ hk _ _)
        exact (history_inv hc (.call a k h ha ht ho)).2 _ _ _ _ rfl
    · exact ih pre k' r suf' e2
  | reopen a n h ha hin hlt ih => exact ih

end Verif.Unit

namespace Verif.Split
open Verif

variable {c : Cfg}

theorem create_result (hc : CfgOK c) {s : Store} {tr} (h : HInv c s tr) {d i : Nat → Nat → Option Nat}
    (hd : ExactAlloc d) (hi : ExactAlloc i) {o : Out Store Unit Nat} (ho : step c d i s .create = some o) :
    o.res = .error .allocFailed ∨
      o.res = Call.result c.consts.internalEnd (replay tr) (slots tr) .create := by
  have hc' := hc.withAllocs hd hi
  have hw := h.inv.withAllocs d i
  have ho : (links (c.withAllocs d i)).create s = some o := ho
  have htop := h.top
  simp only [Call.result]
  rcases create_cases hc' hw [] with ⟨x, rest, s', hf, h1, h2, h3, h4⟩ | ⟨hf, h1, h2⟩ |
      ⟨hf, h1, h2, h3⟩ | ⟨hf, h1, h2, h3, h4⟩ | ⟨hf, h1, h2, h3, h4, h5⟩ | ⟨hf, h1, s', h2, h3, h4⟩
  · rw [create_of_succeeds h1] at ho
    cases ho
    right; rw [hf]
  · rw [Links.create_err h2] at ho
    cases ho
    have h1 : c.consts.internalEnd ≤ s.hdr.allocated := h1
    right; rw [hf]; simp only
    rw [if_neg (by omega)]; rfl
  · rw [Links.create_err h3] at ho
    cases ho
    exact .inl rfl
  · rw [Links.create_err h4] at ho
    cases ho
    exact .inl rfl
  · rw [create_none h5] at ho; cases ho
  · rw [create_of_succeeds h2] at ho
    cases ho
    have h1 : s.hdr.allocated < c.consts.internalEnd := h1
    right; rw [hf]; simp only
    rw [if_pos (by omega), htop]

theorem history_determined (hc : CfgOK c) {s : Store} {tr} (h : History c s tr) :
    Determined c.consts.internalEnd tr := by
  induction h with
  | fresh => intro pre k r suf he; simp at he
  | @call d i k s tr o h hd hi hg ho hok ih =>
    intro pre k' r suf he
    rcases snoc_split he with ⟨rfl, e2, -⟩ | ⟨suf', e2⟩
    · cases e2
      by_cases hk : k = .create
      · subst hk; exact create_result hc (history_inv hc h).1 hd hi ho
      · refine .inr (Call.Legit.result ?_ hk _ _)
        exact (history_inv hc (.call d i k h hd hi hg ho hok)).2 _ _ _ _ rfl
    · exact ih pre k' r suf' e2
  | reopen d i n m h hd hi hin hlt ih => exact ih

end Verif.Split
