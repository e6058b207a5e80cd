import Verif.Props.SameContents
import Verif.Props.Order

/-!
# C115: the index type does not matter, as long as its range is not exceeded

A store of another index type has other constants: another highest index, another index that means "any", other bounds on
counts. A client that asks through the constants does not see the difference.
-/

namespace Verif

/-- A query as a client writes it through the constants of the store: `none` is the constant `any` of the store. -/
def askWith (any : Nat) (p : List (Option Nat)) : List Nat := p.map (·.getD any)

/-- No part of the query that is meant as an index is the constant `any` of one of two stores. -/
def Means (any any' : Nat) (p : List (Option Nat)) : Prop := ∀ x, some x ∈ p → x ≠ any ∧ x ≠ any'

theorem Means.symm {any any' : Nat} {p : List (Option Nat)} (h : Means any any' p) : Means any' any p :=
  fun x hx => ⟨(h x hx).2, (h x hx).1⟩

theorem part_any {any any' : Nat} {p : List (Option Nat)} (h : Means any any' p) {o : Option Nat} (ho : o ∈ p) :
    (o.getD any = any ↔ o.getD any' = any') ∧ (∀ x, o.getD any = any ∨ x = o.getD any ↔ o.getD any' = any' ∨ x = o.getD any') ∧
    (o.getD any ≠ any → o.getD any = o.getD any') := by
  cases o with
  | none => simp
  | some y => have := h y ho; simp [this.1, this.2]

theorem visitsOf_askWith {any any' : Nat} {p : List (Option Nat)} (h : Means any any' p) (l : Link) :
    visitsOf any (askWith any p) l = visitsOf any' (askWith any' p) l := by
  match p, h with
  | [], _ => rfl
  | [i], h => cases i <;> simp_all [visitsOf, askWith, Means]
  | [i, x], h => cases i <;> cases x <;> simp_all [visitsOf, askWith, Means]
  | [i, x, y], h => cases i <;> cases x <;> cases y <;> simp_all [visitsOf, askWith, Means]
  | _ :: _ :: _ :: _ :: _, _ => rfl

theorem matchQ_askWith {any any' : Nat} {p : List (Option Nat)} (h : Means any any' p) (l : Link) :
    MatchQ any (askWith any p) l ↔ MatchQ any' (askWith any' p) l := by
  match p, h with
  | [], _ => rfl
  | [i], h => cases i <;> simp_all [MatchQ, askWith, Means]
  | [i, x], h => cases i <;> cases x <;> simp_all [MatchQ, askWith, Means]
  | [i, x, y], h => cases i <;> cases x <;> cases y <;> simp_all [MatchQ, askWith, Means]
  | _ :: _ :: _ :: _ :: _, _ => rfl

theorem isPair_askWith {any any' : Nat} {p : List (Option Nat)} (h : Means any any' p)
    (hp : IsPair any (askWith any p)) : IsPair any' (askWith any' p) := by
  obtain ⟨x, y, he, hx, hy⟩ := hp
  match p, h, he with
  | [], _, he => cases he
  | [_], _, he => simp [askWith] at he
  | [_, _], _, he => simp [askWith] at he
  | _ :: _ :: _ :: _ :: _, _, he => simp [askWith] at he
  | [i, a, b], h, he =>
    simp only [askWith, List.map_cons, List.map_nil, List.cons.injEq, and_true] at he
    obtain ⟨e1, e2, e3⟩ := he
    have k1 := part_any h (o := i) (by simp)
    have k2 := part_any h (o := a) (by simp)
    have k3 := part_any h (o := b) (by simp)
    refine ⟨x, y, ?_, ?_, ?_⟩
    · simp only [askWith, List.map_cons, List.map_nil, List.cons.injEq, and_true]
      exact ⟨k1.1.1 e1, by rw [← k2.2.2 (by rw [e2]; exact hx), e2], by rw [← k3.2.2 (by rw [e3]; exact hy), e3]⟩
    · intro e
      have := k2.2.2 (by rw [e2]; exact hx)
      exact hx (e2.symm.trans (k2.1.2 (by rw [← this, e2, e])))
    · intro e
      have := k3.2.2 (by rw [e3]; exact hy)
      exact hy (e3.symm.trans (k3.1.2 (by rw [← this, e3, e])))

theorem nullFree_askWith {any any' : Nat} {p : List (Option Nat)} (h : Means any any' p) (h0' : any' ≠ 0)
    (hn : NullFree any (askWith any p)) : NullFree any' (askWith any' p) := by
  match p, h with
  | [], _ => intro e; cases e
  | o :: p, h =>
    intro e x hx
    have e : o.getD any' = any' := by simpa [askWith] using e
    have e1 : o.getD any = any := (part_any h (o := o) (by simp)).1.2 e
    have hx : ∃ a ∈ p, a.getD any' = x := by simpa [askWith] using hx
    obtain ⟨a, ha, rfl⟩ := hx
    cases a with
    | none => exact h0'
    | some y => exact hn (by simp [askWith, e1]) y (List.mem_map.2 ⟨some y, by simpa using ha, rfl⟩)

/-- The results of calls that never met the limit of one store are those of a store with a higher limit. -/
theorem Determined.widen {limit limit' : Nat} (hl : limit ≤ limit') {tr : List (Call × Except Err Nat)}
    (h : Determined limit tr) (hf : ∀ x ∈ tr, x.2 ≠ .error (.limitReached limit)) : Determined limit' tr := by
  intro pre k r suf e
  refine (h pre k r suf e).imp_right fun hr => ?_
  have hne : r ≠ .error (.limitReached limit) := hf (k, r) (by rw [e]; simp)
  rw [hr] at hne ⊢
  cases k with
  | create =>
    simp only [Call.result] at hne ⊢
    cases hz : (slots pre).free with
    | cons x rest => rfl
    | nil =>
      simp only [hz] at hne ⊢
      by_cases ht : (slots pre).top < limit
      · rw [if_pos ht, if_pos (by omega)]
      · rw [if_neg ht] at hne; exact absurd rfl hne
  | update i a b => rfl
  | delete i => rfl

theorem nullAsk_askWith {any any' : Nat} {p : List (Option Nat)} (h : Means any any' p) (h0 : any ≠ 0)
    (hp : Unit.Props.NullAsk any (askWith any p)) : Unit.Props.NullAsk any' (askWith any' p) := by
  match p, h, hp with
  | [], _, hp => simp [askWith, Unit.Props.NullAsk] at hp
  | [_], _, hp => simp [askWith, Unit.Props.NullAsk] at hp
  | [i, x], h, hp => cases i <;> cases x <;> simp_all [Unit.Props.NullAsk, askWith, Means]
  | [i, x, y], h, hp => cases i <;> cases x <;> cases y <;> simp_all [Unit.Props.NullAsk, askWith, Means]
  | _ :: _ :: _ :: _ :: _, _, hp => simp [askWith, Unit.Props.NullAsk] at hp

theorem doubleEnd_askWith {any any' : Nat} {p : List (Option Nat)} (h : Means any any' p) {l : Link}
    (hp : Unit.Props.DoubleEnd any (askWith any p) l) : Unit.Props.DoubleEnd any' (askWith any' p) l := by
  obtain ⟨z, he, hz, h1, h2⟩ := hp
  match p, h, he with
  | [], _, he => cases he
  | [_], _, he => simp [askWith] at he
  | [i, x], h, he => cases i <;> cases x <;> simp_all [Unit.Props.DoubleEnd, askWith, Means]
  | _ :: _ :: _ :: _, _, he => simp [askWith] at he

theorem counts_iff {v : View} {P Q : Link → Prop} (h : ∀ l, P l ↔ Q l) {n : Nat} (hp : v.Counts P n) : v.Counts Q n := by
  have : P = Q := funext fun l => propext (h l)
  rwa [← this]

end Verif

namespace Verif.Unit.Props
open Verif Verif.Unit

variable {c c' : Cfg}

/-- **C115**, united store: writes. Two stores served the same calls. The second has an index type at least as wide. If the
first never met its limit and no memory ran out, then the calls had the same results and the stores have the same links. -/
theorem C115_same_calls_same_results (hc : CfgOK c) (hc' : CfgOK c')
    (hlim : c.consts.internalEnd ≤ c'.consts.internalEnd) {s s' : Store} {tr tr'}
    (h : History c s tr) (h' : History c' s' tr') (hcalls : tr.map Prod.fst = tr'.map Prod.fst)
    (hf : ∀ x ∈ tr, x.2 ≠ .error .allocFailed ∧ x.2 ≠ .error (.limitReached c.consts.internalEnd))
    (hf' : ∀ x ∈ tr', x.2 ≠ .error .allocFailed) :
    tr = tr' ∧ (∀ i, (links c).getLink s i = (links c').getLink s' i) ∧ (links c).count s = (links c').count s' := by
  have e := Determined.unique ((history_determined hc h).widen hlim fun x hx => (hf x hx).2) (history_determined hc' h')
    (fun x hx => (hf x hx).1) hf' hcalls
  subst e
  obtain ⟨⟨⟨ts, tt, hi⟩, -, hv, -⟩, -⟩ := history_inv hc h
  obtain ⟨⟨⟨ts', tt', hi'⟩, -, hv', -⟩, -⟩ := history_inv hc' h'
  have hvv : (links c).view s = (links c').view s' := hv.trans hv'.symm
  refine ⟨rfl, fun i => ?_, ?_⟩
  · rw [(lawful hc).get s ⟨_, _, _, hi⟩, (lawful hc').get s' ⟨_, _, _, hi'⟩, hvv]
  · obtain ⟨n, h1, h2⟩ := Links.count_size (lawful hc) (s := s) ⟨_, _, _, hi⟩
    obtain ⟨m, h3, h4⟩ := Links.count_size (lawful hc') (s := s') ⟨_, _, _, hi'⟩
    rw [hvv] at h2
    rw [h1, h3, h2.unique h4]

/-- **C115**, united store: queries. Two stores of any index types have the same links, no two of which have the same doublet.
A query written through the constants of each store visits the same links equally often in both, and a count that one of them
can represent is the count of the other, if that can represent it. -/
theorem C115_same_answers (hc : CfgOK c) (hc' : CfgOK c') {s s' : Store} (h : Reach c s) (h' : Reach c' s')
    (hget : ∀ i, (links c).getLink s i = (links c').getLink s' i) (hu : ((links c).view s).Uniq)
    (p : List (Option Nat)) (hp : p.length ≤ 3) (hm : Means c.consts.any c'.consts.any p) :
    ∃ L L', (links c).Visits s (askWith c.consts.any p) L ∧ (links c').Visits s' (askWith c'.consts.any p) L' ∧
      L.Perm L' ∧
      (links c).countBy s (askWith c.consts.any p) = (if L.length ≤ c.maxT then some L.length else none) ∧
      (links c').countBy s' (askWith c'.consts.any p) = (if L.length ≤ c'.maxT then some L.length else none) := by
  have hv : (links c).view s = (links c').view s' := by funext i; simp only [Links.view, hget]
  have hq : (askWith c.consts.any p).length ≤ 3 := by simpa [askWith] using hp
  have hq' : (askWith c'.consts.any p).length ≤ 3 := by simpa [askWith] using hp
  obtain ⟨L, a1, a2, a3, a4⟩ := C58_traversal_exact hc h _ hq
  obtain ⟨L', b1, b2, b3, b4⟩ := C58_traversal_exact hc' h' _ hq'
  rw [← hv] at b2 b4
  have hperm : L.Perm L' := by
    by_cases hn : NullAsk c.consts.any (askWith c.consts.any p)
    · rw [a3 hn, b3 (nullAsk_askWith hm (any_ne_zero hc) hn)]
    · have a4 := a4 hn
      have b4 := b4 fun e => hn (nullAsk_askWith hm.symm (any_ne_zero hc') e)
      have b2 : ∀ l ∈ L', ((links c).view s).Has l ∧ MatchQ c.consts.any (askWith c.consts.any p) l := fun l hl =>
        ⟨(b2 l hl).1, (matchQ_askWith hm l).2 (b2 l hl).2⟩
      by_cases hpair : IsPair c.consts.any (askWith c.consts.any p)
      · by_cases hex : ∃ l, ((links c).view s).Has l ∧ MatchQ c.consts.any (askWith c.consts.any p) l
        · obtain ⟨l, hl, hml⟩ := hex
          refine List.Perm.of_eq (eq_of_single
            (P := fun l => ((links c).view s).Has l ∧ MatchQ c.consts.any (askWith c.consts.any p) l)
            (fun l l' x y => uniq_pair hu hpair hn x.1 x.2 y.1 y.2) a2 b2 ?_)
          rw [(a4 l hl hml).1 hpair, (b4 l hl ((matchQ_askWith hm l).1 hml)).1 (isPair_askWith hm hpair)]
        · rw [List.eq_nil_iff_forall_not_mem.2 fun l hl => hex ⟨l, a2 l hl⟩,
            List.eq_nil_iff_forall_not_mem.2 fun l hl => hex ⟨l, b2 l hl⟩]
      · refine perm_of_count fun l => ?_
        by_cases hl : ((links c).view s).Has l ∧ MatchQ c.consts.any (askWith c.consts.any p) l
        · obtain ⟨-, x2, x3⟩ := a4 l hl.1 hl.2
          obtain ⟨-, y2, y3⟩ := b4 l hl.1 ((matchQ_askWith hm l).1 hl.2)
          by_cases hd : DoubleEnd c.consts.any (askWith c.consts.any p) l
          · rw [x2 hd, y2 (doubleEnd_askWith hm hd)]
          · rw [x3 hpair hd, y3 (fun e => hpair (isPair_askWith hm.symm e)) fun e => hd (doubleEnd_askWith hm.symm e)]
        · rw [List.count_eq_zero_of_not_mem fun hx => hl (a2 l hx),
            List.count_eq_zero_of_not_mem fun hx => hl (b2 l hx)]
  obtain ⟨M, k1, k2, -⟩ := query_law hc (reach_good hc h) _ hq
  obtain ⟨M', k1', k2', -⟩ := query_law hc' (reach_good hc' h') _ hq'
  have e := Links.Visits.unique k1 a1
  have e' := Links.Visits.unique k1' b1
  subst e e'
  exact ⟨M, M', a1, b1, hperm, k2, by rw [hperm.length_eq]; exact k2'⟩

/-- **C115**, united store: searches. -/
theorem C115_same_search (hc : CfgOK c) (hc' : CfgOK c') {s s' : Store} (h : Reach c s) (h' : Reach c' s')
    (hget : ∀ i, (links c).getLink s i = (links c').getLink s' i) (hu : ((links c).view s).Uniq)
    {x y : Nat} (hx : x ≠ 0) (hm : Means c.consts.any c'.consts.any [none, some x, some y]) :
    (links c).search s x y = (links c').search s' x y := by
  have mx := hm x (by simp)
  have my := hm y (by simp)
  obtain ⟨r, e, a1, a2, a3⟩ := C12_search hc h hx mx.1 my.1
  obtain ⟨r', e', b1, b2, b3⟩ := C12_search hc' h' hx mx.2 my.2
  rw [e, e']
  cases r' with
  | none =>
    cases r with
    | none => rfl
    | some i => exact absurd ((hget i).symm.trans (a1 i rfl)) (b2 rfl i)
  | some i =>
    have hi := b1 i rfl
    rw [← hget] at hi
    refine congrArg some (a3 i hi fun j hj => ?_)
    have hh : ∀ k, (links c).getLink s k = some (some ⟨k, x, y⟩) → (links c).view s k = some (x, y) := fun k hk => by
      simp [Links.view, hk]
    exact hu i _ (hh i hi) (by simp [hx]) j (hh j hj)

/-- A store of a wider index type: 65 535 values instead of 255. -/
def cfg16 : Cfg := { cfgBal with consts := { consts0 with internalEnd := 65519, any := 65532 }, maxT := 65535 }

theorem cfg16_ok : CfgOK cfg16 :=
  { cfgBal_ok with end_lt_any := by decide, end_le := by decide }

theorem net_history16 : ∃ s, History cfg16 s (trace cfg0 net) ∧ Reach cfg16 s := by
  have h : ((exec cfg16 net (store0 cfg16)).map (·.2)) = (exec cfg0 net (store0 cfg0)).map (·.2) := by
    decide +kernel
  obtain ⟨r, hr⟩ := Option.isSome_iff_exists.1 (show (exec cfg16 net (store0 cfg16)).isSome = true by decide +kernel)
  have h1 := exec_history cfg16_ok cfg16_ok.alloc_ge net (.fresh (c := cfg16) cfg16.alloc cfg16_ok.alloc_ge rfl) hr
  have e : trace cfg0 net = [] ++ net.zip r.2 := by
    unfold trace; rw [← h, hr]; rfl
  exact ⟨r.1, e ▸ h1, exec_reach cfg16_ok cfg16_ok.alloc_ge _ (store0_reach cfg16_ok.alloc_ge rfl) hr⟩

/-- The theorems on a store with indices of 8 bits and a store with indices of 16 bits. -/
example : ∃ s, Reach cfg16 s ∧ (links cfg16).count s = (links cfg0).count sNet ∧
    (links cfg16).search s 1 3 = some (some 2) ∧
    (links cfg16).countBy s [65532, 2] = some 3 ∧ (links cfg0).countBy sNet [252, 2] = some 3 := by
  obtain ⟨s, h, hr⟩ := net_history16
  obtain ⟨-, hget, hcnt⟩ := C115_same_calls_same_results cfg0_ok cfg16_ok (by decide) sNet_history h rfl
    (fun x hx => by
      have : (trace cfg0 net).all (fun x => x.2 != .error .allocFailed && x.2 != .error (.limitReached cfg0.consts.internalEnd)) = true := by
        decide +kernel
      simpa using List.all_eq_true.1 this x hx)
    (fun x hx => by
      have : (trace cfg0 net).all (fun x => x.2 != .error .allocFailed) = true := by decide +kernel
      simpa using List.all_eq_true.1 this x hx)
  have hk : (links cfg0).countBy sNet [252, 2] = some 3 := by decide +kernel
  refine ⟨s, hr, hcnt.symm, ?_, ?_, hk⟩
  · rw [← C115_same_search cfg0_ok cfg16_ok sNet_reach hr hget sNet_uniq (by decide)
      (by intro x hx; simp at hx; rcases hx with rfl | rfl <;> decide)]
    decide +kernel
  · obtain ⟨L, L', -, -, -, h1, h2⟩ := C115_same_answers cfg0_ok cfg16_ok sNet_reach hr hget sNet_uniq [none, some 2] (by decide)
      (by intro x hx; simp at hx; subst hx; decide)
    have h1 : (links cfg0).countBy sNet [252, 2] = (if L.length ≤ 255 then some L.length else none) := h1
    have h2 : (links cfg16).countBy s [65532, 2] = (if L.length ≤ 65535 then some L.length else none) := h2
    rw [hk] at h1
    rw [h2]
    split at h1
    · next e => have : L.length = 3 := (Option.some.inj h1).symm
                rw [this]; rfl
    · cases h1

end Verif.Unit.Props

namespace Verif.Split.Props
open Verif Verif.Split

variable {c c' : Cfg}

/-- **C115**, split store: writes. -/
theorem C115_split_same_calls_same_results (hc : CfgOK c) (hc' : CfgOK c')
    (hlim : c.consts.internalEnd ≤ c'.consts.internalEnd) {s s' : Store} {tr tr'}
    (h : History c s tr) (h' : History c' s' tr') (hcalls : tr.map Prod.fst = tr'.map Prod.fst)
    (hf : ∀ x ∈ tr, x.2 ≠ .error .allocFailed ∧ x.2 ≠ .error (.limitReached c.consts.internalEnd))
    (hf' : ∀ x ∈ tr', x.2 ≠ .error .allocFailed) :
    tr = tr' ∧ (∀ i, (links c).getLink s i = (links c').getLink s' i) ∧ (links c).count s = (links c').count s' := by
  have e := Determined.unique ((history_determined hc h).widen hlim fun x hx => (hf x hx).2) (history_determined hc' h')
    (fun x hx => (hf x hx).1) hf' hcalls
  subst e
  obtain ⟨⟨hi, -, hv, -⟩, -⟩ := history_inv hc h
  obtain ⟨⟨hi', -, hv', -⟩, -⟩ := history_inv hc' h'
  have hvv : (links c).view s = (links c').view s' := hv.trans hv'.symm
  refine ⟨rfl, fun i => ?_, ?_⟩
  · rw [(lawful hc).get s ⟨_, hi⟩, (lawful hc').get s' ⟨_, hi'⟩, hvv]
  · obtain ⟨n, h1, h2⟩ := Links.count_size (lawful hc) (s := s) ⟨_, hi⟩
    obtain ⟨m, h3, h4⟩ := Links.count_size (lawful hc') (s := s') ⟨_, hi'⟩
    rw [hvv] at h2
    rw [h1, h3, h2.unique h4]

/-- **C115**, split store: traversals, for queries that do not ask for null ends over all links. -/
theorem C115_split_same_links (hc : CfgOK c) (hc' : CfgOK c') {s s' : Store} (h : Reach c s) (h' : Reach c' s')
    (hget : ∀ i, (links c).getLink s i = (links c').getLink s' i) (hu : ((links c).view s).Uniq)
    (p : List (Option Nat)) (hp : p.length ≤ 3) (hm : Means c.consts.any c'.consts.any p)
    (hn : NullFree c.consts.any (askWith c.consts.any p)) :
    ∃ L L', (links c).Visits s (askWith c.consts.any p) L ∧ (links c').Visits s' (askWith c'.consts.any p) L' ∧
      L.Perm L' := by
  have hv : (links c).view s = (links c').view s' := by funext i; simp only [Links.view, hget]
  have hq : (askWith c.consts.any p).length ≤ 3 := by simpa [askWith] using hp
  have hq' : (askWith c'.consts.any p).length ≤ 3 := by simpa [askWith] using hp
  have h0' : c'.consts.any ≠ 0 := by have := hc'.end_lt_any; omega
  obtain ⟨L, a1, -, a3, a4, a5, -⟩ := query_law hc (reach_good hc h) _ hq hn
  obtain ⟨L', b1, -, b3, b4, b5, -⟩ := query_law hc' (reach_good hc' h') _ hq' (nullFree_askWith hm h0' hn)
  rw [← hv] at b3 b4 b5
  have b3 : ∀ l ∈ L', ((links c).view s).Has l ∧ MatchQ c.consts.any (askWith c.consts.any p) l := fun l hl =>
    ⟨(b3 l hl).1, (matchQ_askWith hm l).2 (b3 l hl).2⟩
  refine ⟨L, L', a1, b1, ?_⟩
  by_cases hpair : IsPair c.consts.any (askWith c.consts.any p)
  · obtain ⟨a5, a6⟩ := a5 hpair
    obtain ⟨b5, b6⟩ := b5 (isPair_askWith hm hpair)
    by_cases hex : ∃ l, ((links c).view s).Has l ∧ MatchQ c.consts.any (askWith c.consts.any p) l
    · have hna : ¬ Unit.Props.NullAsk c.consts.any (askWith c.consts.any p) := by
        obtain ⟨x, y, he, hx, hy⟩ := hpair
        rw [he] at hn ⊢
        have hx0 : x ≠ 0 := hn rfl x (by simp)
        rintro (e | e | ⟨z, e⟩)
        · cases e
        · cases e; exact hx rfl
        · cases e; exact hx0 rfl
      refine List.Perm.of_eq (eq_of_single
        (P := fun l => ((links c).view s).Has l ∧ MatchQ c.consts.any (askWith c.consts.any p) l)
        (fun l l' x y => Unit.Props.uniq_pair hu hpair hna x.1 x.2 y.1 y.2) a3 b3 ?_)
      have := List.length_pos_iff.2 (a6 hex)
      have := List.length_pos_iff.2 (b6 (let ⟨l, k1, k2⟩ := hex; ⟨l, k1, (matchQ_askWith hm l).1 k2⟩))
      omega
    · rw [List.eq_nil_iff_forall_not_mem.2 fun l hl => hex ⟨l, a3 l hl⟩,
        List.eq_nil_iff_forall_not_mem.2 fun l hl => hex ⟨l, b3 l hl⟩]
  · refine perm_of_count fun l => ?_
    by_cases hl : ((links c).view s).Has l
    · rw [a4 hpair l hl, b4 (fun e => hpair (isPair_askWith hm.symm e)) l hl, visitsOf_askWith hm]
    · rw [List.count_eq_zero_of_not_mem fun hx => hl (a3 l hx).1,
        List.count_eq_zero_of_not_mem fun hx => hl (b3 l hx).1]

/-- The number a split store reports does not depend on the constant that means any. -/
theorem splitCount_askWith {v : View} {any any' f : Nat} {p : List (Option Nat)} (h : Means any any' p) {n : Nat}
    (hc : v.SplitCount any f (askWith any p) n) : v.SplitCount any' f (askWith any' p) n := by
  have hq := matchQ_askWith h
  match p, h, hc, hq with
  | [], _, hc, hq => exact counts_iff hq hc
  | [i], _, hc, hq => exact counts_iff hq hc
  | [i, x], h, hc, hq =>
    simp only [askWith, List.map_cons, List.map_nil, View.SplitCount] at hc ⊢
    have hi := part_any h (o := i) (by simp)
    have hx := part_any h (o := x) (by simp)
    by_cases e : x.getD any = any
    · rw [if_pos e] at hc
      rw [if_pos (hx.1.1 e)]
      exact counts_iff (matchQ_askWith (p := [i]) fun y hy => h y (by simp at hy; simp [hy])) hc
    · rw [if_neg e] at hc
      rw [if_neg fun k => e (hx.1.2 k), ← hx.2.2 e]
      by_cases e' : i.getD any = any
      · rw [if_pos e'] at hc; rw [if_pos (hi.1.1 e')]; exact hc
      · rw [if_neg e'] at hc; rw [if_neg fun k => e' (hi.1.2 k), ← hi.2.2 e']; exact hc
  | [i, x, y], h, hc, hq =>
    simp only [askWith, List.map_cons, List.map_nil, View.SplitCount] at hc hq ⊢
    have hi := part_any h (o := i) (by simp)
    have hx := part_any h (o := x) (by simp)
    have hy := part_any h (o := y) (by simp)
    by_cases e : i.getD any = any ∧ x.getD any ≠ any
    · have ex := hx.2.2 e.2
      have e2 : i.getD any' = any' ∧ x.getD any ≠ any' := ⟨hi.1.1 e.1, fun k => e.2 (hx.1.2 (ex ▸ k))⟩
      rw [← ex]
      by_cases k : v (x.getD any) = none ∨ y.getD any = any
      · rw [if_pos ⟨e.1, e.2, k⟩] at hc
        rw [if_pos ⟨e2.1, e2.2, k.imp_right hy.1.1⟩]; exact hc
      · rw [if_neg fun z => k z.2.2, if_pos e] at hc
        rw [if_neg fun z => k (z.2.2.imp_right hy.1.2), if_pos e2, ← hy.2.2 fun z => k (.inr z)]; exact hc
    · rw [if_neg fun z => e ⟨z.1, z.2.1⟩, if_neg e] at hc
      have e2 : ¬ (i.getD any' = any' ∧ x.getD any' ≠ any') := fun z =>
        e ⟨hi.1.2 z.1, fun k => z.2 (hx.1.1 k)⟩
      rw [if_neg fun z => e2 ⟨z.1, z.2.1⟩, if_neg e2]
      exact counts_iff hq hc
  | _ :: _ :: _ :: _ :: _, _, hc, hq => exact counts_iff hq hc

/-- **C115**, split store: counts. Two stores of any index types served the same calls with the same results. A query written
through the constants of each store has the same count in both, if both can represent it. -/
theorem C115_split_same_counts (hc : CfgOK c) (hc' : CfgOK c') {s s' : Store} {tr}
    (h : History c s tr) (h' : History c' s' tr)
    (p : List (Option Nat)) (hp : p.length ≤ 3) (hm : Means c.consts.any c'.consts.any p)
    (hn : NullFree c.consts.any (askWith c.consts.any p)) :
    ∃ n, (links c).countBy s (askWith c.consts.any p) = (if n ≤ c.maxT then some n else none) ∧
      (links c').countBy s' (askWith c'.consts.any p) = (if n ≤ c'.maxT then some n else none) := by
  have h0' : c'.consts.any ≠ 0 := by have := hc'.end_lt_any; omega
  obtain ⟨⟨hi, -, hv, -⟩, -⟩ := history_inv hc h
  obtain ⟨⟨hi', -, hv', -⟩, -⟩ := history_inv hc' h'
  have hvv : (links c).view s = (links c').view s' := hv.trans hv'.symm
  obtain ⟨n, k1, k2⟩ := split_count hc hi (askWith c.consts.any p) (by simpa [askWith] using hp) hn
  obtain ⟨m, l1, l2⟩ := split_count hc' hi' (askWith c'.consts.any p) (by simpa [askWith] using hp) (nullFree_askWith hm h0' hn)
  rw [← hvv] at l1
  have := (splitCount_askWith hm k1).unique l1
  subst this
  exact ⟨n, k2, l2⟩

/-- A store of a wider index type: 65 535 values instead of 255. -/
def cfg16 : Cfg := { cfgSmall with consts := { Verif.Unit.consts0 with internalEnd := 65519, any := 65532 }, maxT := 65535 }

theorem cfg16_ok : CfgOK cfg16 :=
  { cfgSmall_ok with end_lt_any := by decide, end_le := by decide }

theorem net_history16 : ∃ s, History cfg16 s (trace cfg0 net) := by
  have h : ((exec cfg16 net (store0 cfg16)).map (·.2)) = (exec cfg0 net (store0 cfg0)).map (·.2) := by
    decide +kernel
  obtain ⟨r, hr⟩ := Option.isSome_iff_exists.1 (show (exec cfg16 net (store0 cfg16)).isSome = true by decide +kernel)
  have h1 := exec_history cfg16_ok (fun s _ => by simp [cfg16, cfgSmall, cfg0]) net
    (.fresh (c := cfg16) cfg16.dalloc cfg16.ialloc cfg16_ok.dalloc_eq cfg16_ok.ialloc_eq rfl) hr
  have e : trace cfg0 net = [] ++ net.zip r.2 := by
    unfold trace; rw [← h, hr]; rfl
  exact ⟨r.1, e ▸ h1⟩

/-- The theorems on a store with indices of 8 bits and a store with indices of 16 bits. -/
example : ∃ s, History cfg16 s (trace cfg0 net) ∧ (links cfg16).count s = (links cfg0).count sNet ∧
    (links cfg16).countBy s [65532, 1] = (links cfg0).countBy sNet [252, 1] ∧ (links cfg0).countBy sNet [252, 1] = some 4 := by
  obtain ⟨s, h⟩ := net_history16
  obtain ⟨-, hget, hcnt⟩ := C115_split_same_calls_same_results cfg0_ok cfg16_ok (by decide) sNet_history h rfl
    (fun x hx => by
      have : (trace cfg0 net).all (fun x => x.2 != .error .allocFailed && x.2 != .error (.limitReached cfg0.consts.internalEnd)) = true := by
        decide +kernel
      simpa using List.all_eq_true.1 this x hx)
    (fun x hx => by
      have : (trace cfg0 net).all (fun x => x.2 != .error .allocFailed) = true := by decide +kernel
      simpa using List.all_eq_true.1 this x hx)
  have hk : (links cfg0).countBy sNet [252, 1] = some 4 := by decide +kernel
  refine ⟨s, h, hcnt.symm, ?_, hk⟩
  obtain ⟨n, h1, h2⟩ := C115_split_same_counts cfg0_ok cfg16_ok sNet_history h [none, some 1] (by decide)
    (by intro x hx; simp at hx; subst hx; decide) (by intro _ x hx; simp [askWith] at hx; omega)
  have h1 : (links cfg0).countBy sNet [252, 1] = (if n ≤ 255 then some n else none) := h1
  have h2 : (links cfg16).countBy s [65532, 1] = (if n ≤ 65535 then some n else none) := h2
  rw [hk] at h1 ⊢
  rw [h2]
  split at h1
  · have : n = 4 := (Option.some.inj h1).symm
    rw [this]; rfl
  · cases h1

end Verif.Split.Props
