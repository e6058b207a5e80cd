import Verif.Careful
import Verif.Props.UnitDerived
import Verif.Props.SplitDerived

/-!
# C51: a client that keeps its network sound

It creates points, asks with `get_or_create` for the link between two existing links, and deletes links nobody
uses; between the calls it may close the store and open it again. Then the conditions the other properties put on
calls are always met, on both stores.
-/

namespace Verif.Unit.Props
open Verif Verif.Unit

/-- The states of the united store in the hands of such a client. At each call the memory behaves like some `a`
that does not grow beyond the index type. -/
inductive Client (c : Cfg) : Store → Prop
  | fresh (a) {s : Store} : GoodAlloc a → init (c.withAlloc a) {} = some (.ok s) → Client c s
  | act (a) (k : Act) {s : Store} {o : Out Store _root_.Unit Nat} : Client c s → GoodAlloc a →
      CanGrow (c.withAlloc a) s → k.Careful ((links c).view s) → k.run (links (c.withAlloc a)) s = some o →
      Client c o.st
  | reopen (a) (n : Nat) {s s' : Store} : Client c s → GoodAlloc a →
      init (c.withAlloc a) { s with len := n } = some (.ok s') → s.hdr.allocated < s'.len → Client c s'

variable {c : Cfg}

theorem releaseTop_withAlloc (a : Nat → Nat → Option Nat) : ∀ n s,
    releaseTop (c.withAlloc a) n s = releaseTop c n s := by
  intro n
  induction n with
  | zero => intro s; rfl
  | succ n ih =>
    intro s
    unfold releaseTop
    simp only [ih]
    rfl

theorem deleteLinks_withAlloc (a : Nat → Nat → Option Nat) {σ : Type} (s : Store) (q : List Nat) (h : WH σ) (st : σ) :
    deleteLinks (c.withAlloc a) s q h st = deleteLinks c s q h st := by
  unfold deleteLinks
  simp only [releaseTop_withAlloc]
  rfl

theorem reach_withAlloc (a : Nat → Nat → Option Nat) {s : Store} (h : Reach c s) : Reach (c.withAlloc a) s := by
  induction h with
  | fresh a ha h => exact .fresh a ha h
  | create a _ ha ho ih => exact .create a ih ha ho
  | update _ ht ho ih => exact .update ih ht ho
  | delete _ ht ho ih => exact .delete ih ht (by rw [← ho]; exact deleteLinks_withAlloc a _ _ _ _)
  | reopen a n _ ha hin hlt ih => exact .reopen a n ih ha hin hlt

theorem reach_ofAlloc {a : Nat → Nat → Option Nat} {s : Store} (h : Reach (c.withAlloc a) s) : Reach c s :=
  reach_withAlloc (c := c.withAlloc a) c.alloc h

theorem client_law (hc : CfgOK c) {s : Store} (h : Client c s) : Reach c s ∧ ((links c).view s).Sound := by
  induction h with
  | @fresh a s ha h =>
    refine ⟨.fresh a ha h, ?_⟩
    obtain ⟨h1, h2⟩ := init_fresh (hc.withAlloc ha) h
    have : (links c).view s = View.empty := by
      funext k
      rw [view_eq hc h1.ofAlloc.toInv0, if_neg]
      · rfl
      · intro hl; have := hl.1; have := hl.2.1; omega
    rw [this]; exact .empty
  | @act a k s o _ ha hg hk ho ih =>
    have hv : (links (c.withAlloc a)).view s = (links c).view s := view_withAlloc s a
    obtain ⟨o', h1, h2, h3⟩ := Links.act_law (reachLawful (hc.withAlloc ha)) (reach_withAlloc a ih.1) hg
      (fun _ _ _ _ _ _ _ => trivial) (hv ▸ ih.2) (k := k) (hv ▸ hk)
    rw [ho] at h1; cases h1
    rw [view_withAlloc, view_withAlloc] at h3
    exact ⟨reach_ofAlloc h2, h3.sound hk ih.2⟩
  | @reopen a n s s' _ ha hin hlt ih =>
    refine ⟨.reopen a n ih.1 ha hin hlt, ?_⟩
    obtain ⟨free, ts, tt, hi⟩ := reach_good hc ih.1
    obtain ⟨h1, h2, h3⟩ := init_reopen (hc.withAlloc ha) (hi.withAlloc a) hin hlt
    have : (links c).view s' = (links c).view s := by
      funext k
      rw [view_eq hc h1.ofAlloc.toInv0, view_eq hc hi.toInv0, h3]
      by_cases hk : LiveIn s free k
      · rw [if_pos hk, if_pos ⟨hk.1, by rw [h2]; exact hk.2.1, hk.2.2⟩]
      · rw [if_neg hk, if_neg fun hk' => hk ⟨hk'.1, by rw [← h2]; exact hk'.2.1, hk'.2.2⟩]
    rw [this]; exact ih.2

/-- **C51**, united store. In the hands of a careful client the store is always reachable, different links have
different doublets and the ends of a link are links. The next careful call returns (it never panics) and has the
effect on the contents it should: a point is a new link to itself; `get_or_create` returns the only link (x, y), new
if there was none; `delete` removes the link, or reports that it does not exist. -/
theorem C51_careful_client (hc : CfgOK c) {s : Store} (h : Client c s) :
    Reach c s ∧
    (∀ i j p, (links c).view s i = some p → (links c).view s j = some p → i = j) ∧
    (∀ i a b, (links c).view s i = some (a, b) → (links c).view s a ≠ none ∧ (links c).view s b ≠ none) ∧
    ∀ k : Act, k.Careful ((links c).view s) → CanGrow c s →
      ∃ o, k.run (links c) s = some o ∧ Client c o.st ∧ k.Effect ((links c).view s) o.res ((links c).view o.st) := by
  obtain ⟨h1, h2⟩ := client_law hc h
  refine ⟨h1, h2.inj, h2.closed, fun k hk hg => ?_⟩
  obtain ⟨o, g1, -, g3⟩ := Links.act_law (reachLawful hc) h1 hg (fun _ _ _ _ _ _ _ => trivial) h2 hk
  exact ⟨o, g1, .act c.alloc k h hc.alloc_ge hg hk g1, g3⟩

/-- Check that a concrete call is careful. -/
def carefulB (s : Store) : Act → Bool
  | .point => true
  | .pair x y => ((links cfg0).view s x).isSome && ((links cfg0).view s y).isSome
  | .remove i => allLinks s fun j q => j == i || (q.1 != i && q.2 != i)

/-- Runs of a careful client on a concrete store, with the conditions checked. -/
def execActs : List Act → Store → Option Store
  | [], s => some s
  | k :: ks, s =>
    if (carefulB s k && decide (s.len ≤ 200)) = true then
      (k.run (links cfg0) s).bind fun o => execActs ks o.st
    else none

theorem execActs_client : ∀ (ks : List Act) {s s' : Store}, Client cfg0 s → execActs ks s = some s' →
    Client cfg0 s'
  | [], s, s', h, he => by cases he; exact h
  | k :: ks, s, s', h, he => by
    unfold execActs at he
    split at he
    · rename_i hb
      rw [Bool.and_eq_true] at hb
      cases hr : k.run (links cfg0) s with
      | none => rw [hr] at he; cases he
      | some o =>
        rw [hr] at he
        refine execActs_client ks (.act cfg0.alloc k h cfg0_ok.alloc_ge (cfg0_canGrow (of_decide_eq_true hb.2)) ?_ hr) he
        cases k with
        | point => trivial
        | pair x y =>
          have := hb.1
          simp only [carefulB, Bool.and_eq_true, Option.isSome_iff_ne_none] at this
          exact this
        | remove i =>
          rintro j ⟨hj, a, b, hj', hab⟩
          have := forall_links (client_law cfg0_ok h).1 hb.1 j _ hj'
          simp [hj] at this
          omega
    · cases he

/-- Three points, two links, a link removed and another made in its place. -/
def acts : List Act := [.point, .point, .pair 1 2, .pair 3 1, .pair 1 2, .point, .remove 4, .pair 3 5, .remove 7]

def sActs : Store := (execActs acts (store0 cfg0)).getD {}

theorem sActs_client : Client cfg0 sActs := by
  have h0 : Client cfg0 (store0 cfg0) := .fresh (c := cfg0) cfg0.alloc alloc0_good rfl
  exact execActs_client acts h0 (show execActs acts (store0 cfg0) = some sActs by
    unfold sActs
    have : (execActs acts (store0 cfg0)).isSome = true := by decide +kernel
    cases h : execActs acts (store0 cfg0) with
    | none => rw [h] at this; cases this
    | some s => rfl)

example : Client cfg0 sActs ∧ CanGrow cfg0 sActs ∧ (Act.pair 4 5).Careful ((links cfg0).view sActs) ∧
    (List.range 7).map ((links cfg0).view sActs) =
      [none, some (1, 1), some (2, 2), some (1, 2), some (3, 5), some (5, 5), none] :=
  ⟨sActs_client, cfg0_canGrow (by decide +kernel), ⟨by decide +kernel, by decide +kernel⟩, by decide +kernel⟩

end Verif.Unit.Props

namespace Verif.Split.Props
open Verif Verif.Split

/-- The states of the split store in the hands of such a client. At each call the memories behave like some `d` and
`i` that grow together, within the index type. -/
inductive Client (c : Cfg) : Store → Prop
  | fresh (d i) {s : Store} : ExactAlloc d → ExactAlloc i → init (c.withAllocs d i) {} = some (.ok s) → Client c s
  | act (d i) (k : Act) {s : Store} {o : Out Store Unit Nat} : Client c s → ExactAlloc d → ExactAlloc i →
      CanGrow (c.withAllocs d i) s → k.Careful ((links c).view s) → k.run (links (c.withAllocs d i)) s = some o →
      Client c o.st
  | reopen (d i) (n m : Nat) {s s' : Store} : Client c s → ExactAlloc d → ExactAlloc i →
      init (c.withAllocs d i) { s with dlen := n, ilen := m } = some (.ok s') → s.hdr.allocated < s'.ilen →
      Client c s'

variable {c : Cfg}

theorem releaseTop_withAllocs (d i : Nat → Nat → Option Nat) : ∀ n s,
    releaseTop (c.withAllocs d i) n s = releaseTop c n s := by
  intro n
  induction n with
  | zero => intro s; rfl
  | succ n ih =>
    intro s
    unfold releaseTop
    simp only [ih]
    rfl

theorem moveOut_withAllocs (d i : Nat → Nat → Option Nat) (e : Side) (j : Nat) : ∀ ks s,
    moveOut (c.withAllocs d i) e j ks s = moveOut c e j ks s := by
  intro ks
  induction ks with
  | nil => intro s; rfl
  | cons k ks ih =>
    intro s
    unfold moveOut
    simp only [ih]
    rfl

theorem eachIdx_withAllocs (d i : Nat → Nat → Option Nat) {σ : Type} (s : Store) (h : RH σ) : ∀ ks st,
    eachIdx (c.withAllocs d i) s h ks st = eachIdx c s h ks st := by
  intro ks
  induction ks with
  | nil => intro st; rfl
  | cons k ks ih =>
    intro st
    unfold eachIdx
    simp only [ih]
    rfl

theorem eachIter_withAllocs (d i : Nat → Nat → Option Nat) (s : Store) (q : List Nat) :
    eachIter (c.withAllocs d i) s q = eachIter c s q := by
  unfold eachIter eachLinks each3 eachAll
  simp only [eachIdx_withAllocs]
  rfl

theorem resolveInternal_withAllocs (d i : Nat → Nat → Option Nat) (s : Store) (j : Nat) :
    resolveInternal (c.withAllocs d i) s j = resolveInternal c s j := by
  unfold resolveInternal
  simp only [moveOut_withAllocs, eachIter_withAllocs]
  rfl

theorem deleteLinks_withAllocs (d i : Nat → Nat → Option Nat) {σ : Type} (s : Store) (q : List Nat) (h : WH σ)
    (st : σ) : deleteLinks (c.withAllocs d i) s q h st = deleteLinks c s q h st := by
  unfold deleteLinks
  simp only [releaseTop_withAllocs, resolveInternal_withAllocs]
  rfl

theorem reach_withAllocs (d i : Nat → Nat → Option Nat) {s : Store} (h : Reach c s) :
    Reach (c.withAllocs d i) s := by
  induction h with
  | fresh d i hd hi h => exact .fresh d i hd hi h
  | create d i _ hd hi hg hn ho ih => exact .create d i ih hd hi hg hn ho
  | update _ ht ho ih => exact .update ih ht ho
  | delete _ ht ho ih => exact .delete ih ht (by rw [← ho]; exact deleteLinks_withAllocs d i _ _ _ _)
  | reopen d i n m _ hd hi hin hlt ih => exact .reopen d i n m ih hd hi hin hlt

theorem reach_ofAllocs {d i : Nat → Nat → Option Nat} {s : Store} (h : Reach (c.withAllocs d i) s) : Reach c s :=
  reach_withAllocs (c := c.withAllocs d i) c.dalloc c.ialloc h

/-- In a sound store nothing refers to the index a creation returns. -/
theorem newUnused_of_sound (hc : CfgOK c) {s : Store} (h : Reach c s) (hv : ((links c).view s).Sound) :
    NewUnused c s := by
  intro i s' hi j a b hj
  have hn : (links c).view s i = none := by
    obtain ⟨free, hf⟩ := reach_good hc h
    rcases create_cases hc hf [] with ⟨x, rest, s2, g1, g2, g3, -⟩ | ⟨-, -, g⟩ | ⟨-, -, -, g⟩ | ⟨-, -, -, -, g⟩ |
      ⟨-, -, -, -, -, g⟩ | ⟨-, -, s2, g2, g3, -⟩
    · rw [create_of_succeeds g2] at hi; cases hi; exact (g3.view hc hf.toInv0).1
    · rw [Links.create_err g] at hi; cases hi
    · rw [Links.create_err g] at hi; cases hi
    · rw [Links.create_err g] at hi; cases hi
    · rw [create_none g] at hi; cases hi
    · rw [create_of_succeeds g2] at hi; cases hi; exact (g3.view hc hf.toInv0).1
  obtain ⟨h1, h2⟩ := hv.closed j a b hj
  exact ⟨fun e => h1 (e ▸ hn), fun e => h2 (e ▸ hn)⟩

theorem act_split (hc : CfgOK c) {s : Store} (h : Reach c s) (hv : ((links c).view s).Sound) (hg : CanGrow c s)
    {k : Act} (hk : k.Careful ((links c).view s)) :
    ∃ o, k.run (links c) s = some o ∧ Reach c o.st ∧ k.Effect ((links c).view s) o.res ((links c).view o.st) :=
  Links.act_law (reachLawful hc) h ⟨hg, newUnused_of_sound hc h hv⟩
    (fun _ _ _ _ _ _ hxy => ⟨hxy, fun _ p hp => by rw [View.set_same] at hp; cases hp; rfl⟩) hv hk

theorem client_law (hc : CfgOK c) {s : Store} (h : Client c s) : Reach c s ∧ ((links c).view s).Sound := by
  induction h with
  | @fresh d i s hd hi h =>
    refine ⟨.fresh d i hd hi h, ?_⟩
    obtain ⟨h1, h2⟩ := init_fresh (hc.withAllocs hd hi) h
    have : (links c).view s = View.empty := by
      funext k
      rw [view_eq hc h1.ofAllocs.toInv0, if_neg]
      · rfl
      · intro hl; have := hl.1; have := hl.2.1; omega
    rw [this]; exact .empty
  | @act d i k s o _ hd hi hg hk ho ih =>
    obtain ⟨o', h1, h2, h3⟩ := act_split (hc.withAllocs hd hi) (reach_withAllocs d i ih.1)
      (by rw [view_withAllocs]; exact ih.2) hg (k := k) (by rw [view_withAllocs]; exact hk)
    rw [ho] at h1; cases h1
    rw [view_withAllocs, view_withAllocs] at h3
    exact ⟨reach_ofAllocs h2, h3.sound hk ih.2⟩
  | @reopen d i n m s s' _ hd hi hin hlt ih =>
    refine ⟨.reopen d i n m ih.1 hd hi hin hlt, ?_⟩
    obtain ⟨free, hf⟩ := reach_good hc ih.1
    obtain ⟨h1, h2, h3⟩ := init_reopen (hc.withAllocs hd hi) (hf.withAllocs d i) hin hlt
    have : (links c).view s' = (links c).view s := by
      funext k
      rw [view_eq hc h1.ofAllocs.toInv0, view_eq hc hf.toInv0, h3]
      by_cases hk : LiveIn s free k
      · rw [if_pos hk, if_pos ⟨hk.1, by rw [h2]; exact hk.2.1, hk.2.2⟩]
      · rw [if_neg hk, if_neg fun hk' => hk ⟨hk'.1, by rw [← h2]; exact hk'.2.1, hk'.2.2⟩]
    rw [this]; exact ih.2

/-- **C51**, split store: as for the united store. -/
theorem C51_split_careful_client (hc : CfgOK c) {s : Store} (h : Client c s) :
    Reach c s ∧
    (∀ i j p, (links c).view s i = some p → (links c).view s j = some p → i = j) ∧
    (∀ i a b, (links c).view s i = some (a, b) → (links c).view s a ≠ none ∧ (links c).view s b ≠ none) ∧
    ∀ k : Act, k.Careful ((links c).view s) → CanGrow c s →
      ∃ o, k.run (links c) s = some o ∧ Client c o.st ∧ k.Effect ((links c).view s) o.res ((links c).view o.st) := by
  obtain ⟨h1, h2⟩ := client_law hc h
  refine ⟨h1, h2.inj, h2.closed, fun k hk hg => ?_⟩
  obtain ⟨o, g1, -, g3⟩ := act_split hc h1 h2 hg hk
  exact ⟨o, g1, .act c.dalloc c.ialloc k h hc.dalloc_eq hc.ialloc_eq hg hk g1, g3⟩

/-- Check that a concrete call is careful. -/
def carefulB (s : Store) : Act → Bool
  | .point => true
  | .pair x y => ((links cfg0).view s x).isSome && ((links cfg0).view s y).isSome
  | .remove i =>
    ((links cfg0).collect s []).map (·.all fun l => l.index == i || (l.source != i && l.target != i)) == some true

/-- Runs of a careful client on a concrete store, with the conditions checked. -/
def execActs : List Act → Store → Option Store
  | [], s => some s
  | k :: ks, s =>
    if (carefulB s k && decide (s.ilen ≤ 200)) = true then
      (k.run (links cfg0) s).bind fun o => execActs ks o.st
    else none

theorem execActs_client : ∀ (ks : List Act) {s s' : Store}, Client cfg0 s → execActs ks s = some s' →
    Client cfg0 s'
  | [], s, s', h, he => by cases he; exact h
  | k :: ks, s, s', h, he => by
    unfold execActs at he
    split at he
    · rename_i hb
      rw [Bool.and_eq_true] at hb
      cases hr : k.run (links cfg0) s with
      | none => rw [hr] at he; cases he
      | some o =>
        rw [hr] at he
        refine execActs_client ks (.act cfg0.dalloc cfg0.ialloc k h cfg0_ok.dalloc_eq cfg0_ok.ialloc_eq
          (cfg0_canGrow (of_decide_eq_true hb.2)) ?_ hr) he
        cases k with
        | point => trivial
        | pair x y =>
          have := hb.1
          simp only [carefulB, Bool.and_eq_true, Option.isSome_iff_ne_none] at this
          exact this
        | remove i =>
          rintro j ⟨hj, a, b, hj', hab⟩
          have := forall_of_collect (reachLawful cfg0_ok) (client_law cfg0_ok h).1 (eq_of_beq hb.1) hj'
          simp [hj] at this
          omega
    · cases he

def sActs : Store := (execActs Verif.Unit.Props.acts (store0 cfg0)).getD {}

theorem sActs_client : Client cfg0 sActs := by
  have h0 : Client cfg0 (store0 cfg0) :=
    .fresh (c := cfg0) cfg0.dalloc cfg0.ialloc cfg0_ok.dalloc_eq cfg0_ok.ialloc_eq rfl
  exact execActs_client Verif.Unit.Props.acts h0 (show execActs Verif.Unit.Props.acts (store0 cfg0) = some sActs by
    unfold sActs
    have : (execActs Verif.Unit.Props.acts (store0 cfg0)).isSome = true := by decide +kernel
    cases h : execActs Verif.Unit.Props.acts (store0 cfg0) with
    | none => rw [h] at this; cases this
    | some s => rfl)

example : Client cfg0 sActs ∧ CanGrow cfg0 sActs ∧ (Act.pair 4 5).Careful ((links cfg0).view sActs) ∧
    (List.range 7).map ((links cfg0).view sActs) =
      [none, some (1, 1), some (2, 2), some (1, 2), some (3, 5), some (5, 5), none] :=
  ⟨sActs_client, cfg0_canGrow (by decide +kernel), ⟨by decide +kernel, by decide +kernel⟩, by decide +kernel⟩

end Verif.Split.Props
