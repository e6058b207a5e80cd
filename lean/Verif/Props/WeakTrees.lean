import Verif.SbtTrees
import Verif.Unit.MendReach
import Verif.Split.MendReach
import Verif.Props.Careful

/-!
# C93: a tree crate that tells nodes apart by comparing them is enough for clients that make no duplicates

`LawfulTrees₀` (`Verif/Mend.lean`) is the contract of such a crate: it inserts and removes nodes correctly as long as any two nodes
of the tree compare as smaller or greater. Nothing is promised for a tree that holds two equal nodes.
-/

namespace Verif

theorem View.Uniq.add {v : View} (h : v.Uniq) {i x y : Nat} (hn : ∀ j, v j ≠ some (x, y)) : (v.set i (x, y)).Uniq := by
  intro k p hk hp j hj
  unfold View.set at hk hj
  by_cases hki : k = i
  · rw [if_pos hki] at hk; cases hk
    by_cases hji : j = i
    · rw [hki, hji]
    · rw [if_neg hji] at hj; exact absurd hj (hn j)
  · rw [if_neg hki] at hk
    by_cases hji : j = i
    · rw [if_pos hji] at hj; cases hj; exact absurd hk (hn k)
    · rw [if_neg hji] at hj; exact h k p hk hp j hj

theorem View.set_set (v : View) (i : Nat) (p q : Nat × Nat) : (v.set i p).set i q = v.set i q := by
  funext k
  unfold View.set
  by_cases hk : k = i
  · rw [if_pos hk, if_pos hk]
  · rw [if_neg hk, if_neg hk, if_neg hk]

end Verif

namespace Verif.Unit.Props
open Verif Verif.Unit
variable {c : Cfg}

theorem reachU_withAlloc (a : Nat → Nat → Option Nat) {s : Store} (h : ReachU c s) : ReachU (c.withAlloc a) s := by
  induction h with
  | fresh a ha h => exact .fresh a ha h
  | create a _ ha ho ih => exact .create a ih ha ho
  | update _ ht ho ih => exact .update ih ht ho
  | delete _ ho ih => exact .delete ih (by rw [← ho]; exact deleteLinks_withAlloc a _ _ _ _)
  | reopen a n _ ha hin hlt ih => exact .reopen a n ih ha hin hlt

theorem reachU_ofAlloc {a : Nat → Nat → Option Nat} {s : Store} (h : ReachU (c.withAlloc a) s) : ReachU c s :=
  reachU_withAlloc (c := c.withAlloc a) c.alloc h

theorem weak_withAlloc (hc : CfgOK₀ c) {a : Nat → Nat → Option Nat} (ha : GoodAlloc a) : CfgOK₀ (c.withAlloc a) :=
  ⟨hc.null_eq, hc.index_eq, hc.source_eq, hc.target_eq, hc.start_eq, hc.end_lt_any, hc.end_le, hc.step_pos, hc.trees, ha⟩

theorem weak_client (hc : CfgOK₀ c) {s : Store} (h : Client c s) : ReachU c s ∧ ((links c).view s).Sound := by
  have hc' := hc.mend
  induction h with
  | @fresh a s ha h =>
    refine ⟨.fresh a ha h, ?_⟩
    obtain ⟨h1, h2⟩ := init_fresh (hc'.withAlloc ha) h
    have : (links c).view s = View.empty := by
      rw [← view_mend]
      funext k
      rw [view_eq hc' h1.ofAlloc.toInv0, if_neg]
      · rfl
      · intro hl; have := hl.1; have := hl.2.1; omega
    rw [this]; exact .empty
  | @act a k s o _ ha hg hk ho ih =>
    have hv : (links (c.withAlloc a)).view s = (links c).view s := view_withAlloc s a
    obtain ⟨o', h1, h2, h3⟩ := Links.act_law (weakLawful (weak_withAlloc hc ha)) (reachU_withAlloc a ih.1) hg
      (fun v i x y h h' _ => by show ((v.set i (0, 0)).set i (x, y)).Uniq; rw [View.set_set]; exact h.uniq.add h')
      (hv ▸ ih.2) (k := k) (hv ▸ hk)
    rw [ho] at h1; cases h1
    rw [view_withAlloc, view_withAlloc] at h3
    exact ⟨reachU_ofAlloc h2, h3.sound hk ih.2⟩
  | @reopen a n s s' _ ha hin hlt ih =>
    refine ⟨.reopen a n ih.1 ha hin hlt, ?_⟩
    obtain ⟨free, ts, tt, hi⟩ := reach_good hc' (reachU_mend hc ih.1).1
    obtain ⟨h1, h2, h3⟩ := init_reopen (hc'.withAlloc ha) (hi.withAlloc a) hin hlt
    have : (links c).view s' = (links c).view s := by
      rw [← view_mend (c := c) s', ← view_mend (c := c) s]
      funext k
      rw [view_eq hc' h1.ofAlloc.toInv0, view_eq hc' hi.toInv0, h3]
      by_cases hk : LiveIn s free k
      · rw [if_pos hk, if_pos ⟨hk.1, by rw [h2]; exact hk.2.1, hk.2.2⟩]
      · rw [if_neg hk, if_neg fun hk' => hk ⟨hk'.1, by rw [← h2]; exact hk'.2.1, hk'.2.2⟩]
    rw [this]; exact ih.2

/-- **C93**, united store. Over every tree crate that works on distinguishable nodes, the client of C51, who creates points, asks with
`get_or_create` for the link between two links and removes links nobody uses, never meets a failure: different links have different
doublets, the ends of a link are links, and the next call returns and has the effect it should. -/
theorem C93_careful_client (hc : CfgOK₀ c) {s : Store} (h : Client c s) :
    (∀ i j p, (links c).view s i = some p → (links c).view s j = some p → i = j) ∧
    (∀ i a b, (links c).view s i = some (a, b) → (links c).view s a ≠ none ∧ (links c).view s b ≠ none) ∧
    ∀ k : Act, k.Careful ((links c).view s) → CanGrow c s →
      ∃ o, k.run (links c) s = some o ∧ Client c o.st ∧ k.Effect ((links c).view s) o.res ((links c).view o.st) := by
  obtain ⟨h1, h2⟩ := weak_client hc h
  refine ⟨h2.inj, h2.closed, fun k hk hg => ?_⟩
  obtain ⟨o, g1, -, g3⟩ := Links.act_law (weakLawful hc) h1 hg
    (fun v i x y h h' _ => by show ((v.set i (0, 0)).set i (x, y)).Uniq; rw [View.set_set]; exact h.uniq.add h') h2 hk
  exact ⟨o, g1, .act c.alloc k h hc.alloc_ge hg hk g1, g3⟩

/-- **C93**, united store: the states of the careful client are among those of duplicate-free histories. -/
theorem C93_careful_makes_no_duplicates (hc : CfgOK₀ c) {s : Store} (h : Client c s) : ReachU c s := (weak_client hc h).1

/-- **C93**, united store: after any history in which no update made two links with the same ends, no two links have the same ends,
and each call does what it should. (An update shows its handler the new values twice, as over any crate: C26.) -/
theorem C93_without_duplicates (hc : CfgOK₀ c) {s : Store} (h : ReachU c s) :
    ((links c).view s).Uniq ∧
    (∀ i, (links c).getLink s i = some (((links c).view s i).map fun p => ⟨i, p.1, p.2⟩)) ∧
    (∀ q, CanGrow c s → (∃ e, Links.Fails (fun _ h st => (links c).createLinks s q h st) s e) ∨
      ∃ i s', (links c).view s i = none ∧ ReachU c s' ∧ (links c).view s' = ((links c).view s).set i (0, 0) ∧
        Links.Succeeds (fun _ h st => (links c).createLinks s q h st) s' Link.nothing ⟨i, 0, 0⟩) ∧
    (∀ i p x a b, (links c).view s i = some p → (((links c).view s).set i (a, b)).Uniq →
      ∃ s', ReachU c s' ∧ (links c).view s' = ((links c).view s).set i (a, b) ∧
        Links.Succeeds (fun _ h st => (links c).updateLinks s [i] [x, a, b] h st) s' ⟨i, a, b⟩ ⟨i, a, b⟩) ∧
    (∀ i p, (links c).view s i = some p →
      ∃ s', ReachU c s' ∧ (links c).view s' = ((links c).view s).del i ∧
        Links.Succeeds (fun _ h st => (links c).deleteLinks s [i] h st) s' ⟨i, p.1, p.2⟩ Link.nothing) ∧
    (∃ L, (links c).Visits s [] L ∧ L.Nodup ∧ (∀ l, l ∈ L ↔ ((links c).view s).Has l) ∧
      (links c).countLinks s [] = some L.length) ∧
    (∀ v, v ≠ 0 → v ≠ c.consts.any → ∃ L, (links c).Visits s [c.consts.any, v, c.consts.any] L ∧ L.Nodup ∧
      ∀ l, l ∈ L ↔ ((links c).view s).Has l ∧ l.source = v) ∧
    (∀ v, v ≠ 0 → v ≠ c.consts.any → ∃ L, (links c).Visits s [c.consts.any, c.consts.any, v] L ∧ L.Nodup ∧
      ∀ l, l ∈ L ↔ ((links c).view s).Has l ∧ l.target = v) ∧
    (∀ x y, x ≠ 0 → x ≠ c.consts.any → y ≠ 0 → y ≠ c.consts.any → ∃ L, (links c).Visits s [c.consts.any, x, y] L ∧
      ∀ l, l ∈ L ↔ ((links c).view s).Has l ∧ l.source = x ∧ l.target = y) := by
  have W := weakLawful hc
  have hu := (reachU_mend hc h).2
  refine ⟨hu, (weakLawful hc).get s h, ?_, ?_, ?_, ?_, (weakLawful hc).each_source s h, (weakLawful hc).each_target s h, ?_⟩
  · intro q hg
    rcases (weakLawful hc).create s h hg q with e | ⟨i, s', h1, h2, -, h4, h5⟩
    · exact .inl e
    · exact .inr ⟨i, s', h1, h2, h4, h5⟩
  · intro i p x a b hv hn
    obtain ⟨s', before, h1, h2, -, h4, h5⟩ := (weakLawful hc).update s h i p hv (hu i) x a b hn
    have g := reach_good hc.mend (reachU_mend hc h).1
    obtain ⟨s2, -, -, h6⟩ := update_law hc.mend g hv (hu i) x a b
    have e : (⟨i, a, b⟩ : Link) = before := by
      have h7 := h6 (Option Link) (fun _ b _ => (.cont, some b)) none
      have h8 := h5 (Option Link) (fun _ b _ => (.cont, some b)) none
      have h9 : updateLinks c s [i] [x, a, b] (fun (_ : Option Link) b _ => ((Ctl.cont : Flow), some b)) none = _ := h8
      rw [updateLinks_mend hc g hu (q := [i]) (ch := [x, a, b])
        (fun j a' b' hj ha hb _ => by cases hj; cases ha; cases hb; exact hn)] at h9
      have := h7.symm.trans h9
      simp only [Option.some.injEq, Out.mk.injEq] at this
      exact this.2.2
    exact ⟨s', h2, h4, e ▸ h5⟩
  · intro i p hv
    obtain ⟨s', h1, -, h3, h4⟩ := (weakLawful hc).delete s h i p hv (hu i) trivial
    exact ⟨s', h1, h3, h4⟩
  · obtain ⟨L, h1, h2, h3⟩ := (weakLawful hc).each_all s h
    exact ⟨L, h1, h2, h3, (weakLawful hc).count_all s h L h1⟩
  · intro x y hx hxa hy hya
    obtain ⟨L, h1, h2, h3, h4⟩ := (weakLawful hc).each_pair s h x y hx hxa hy hya
    refine ⟨L, h1, fun l => ⟨h3 l, ?_⟩⟩
    rintro ⟨g1, g2, g3⟩
    have hl : (links c).view s l.index = some (x, y) := by rw [g1, g2, g3]
    match L, h2, h3, h4 ⟨_, hl⟩ with
    | [l'], _, h3, _ =>
      obtain ⟨k1, k2, k3⟩ := h3 l' (by simp)
      have e := hu l.index _ hl (by intro e; cases e; exact hx rfl) l'.index (by rw [k1, k2, k3])
      have : l = l' := by
        rcases l with ⟨i, a, b⟩
        rcases l' with ⟨i', a', b'⟩
        simp only at e g2 g3 k2 k3
        rw [e, g2, g3, k2, k3]
      rw [this]; simp

/-- **C93**, united store: such a history could have taken place over a crate that keeps the contract of the other properties. -/
theorem C93_same_as_the_full_contract (hc : CfgOK₀ c) {s : Store} (h : ReachU c s) :
    ∃ X : TreesCrate, LawfulTrees X ∧ CfgOK { c with trees := X } ∧ Reach { c with trees := X } s :=
  ⟨Verif.mend c.trees, mend_lawful hc.trees, hc.mend, (reachU_mend hc h).1⟩

/-- The configuration of the examples over size-balanced trees that find nodes by comparing them. -/
def cfgS : Cfg := { cfg0 with trees := Sbt.trees }

theorem cfgS_ok : CfgOK₀ cfgS :=
  ⟨rfl, rfl, rfl, rfl, rfl, by decide, by decide, by decide, Sbt.trees_weak, cfg0_ok.alloc_ge⟩

/-- Check that a concrete call is careful. -/
def carefulS (s : Store) : Act → Bool
  | .point => true
  | .pair x y => ((links cfgS).view s x).isSome && ((links cfgS).view s y).isSome
  | .remove i =>
    ((links cfgS).collect s []).map (·.all fun l => l.index == i || (l.source != i && l.target != i)) == some true

def execS : List Act → Store → Option Store
  | [], s => some s
  | k :: ks, s =>
    if (carefulS s k && decide (s.len ≤ 200)) = true then
      (k.run (links cfgS) s).bind fun o => execS ks o.st
    else none

theorem execS_client : ∀ (ks : List Act) {s s' : Store}, Client cfgS s → execS ks s = some s' → Client cfgS s'
  | [], s, s', h, he => by cases he; exact h
  | k :: ks, s, s', h, he => by
    unfold execS at he
    split at he
    · rename_i hb
      rw [Bool.and_eq_true] at hb
      cases hr : k.run (links cfgS) s with
      | none => rw [hr] at he; cases he
      | some o =>
        rw [hr] at he
        refine execS_client ks (.act cfgS.alloc k h cfgS_ok.alloc_ge (cfg0_canGrow (of_decide_eq_true hb.2)) ?_ hr) he
        cases k with
        | point => trivial
        | pair x y =>
          have := hb.1
          simp only [carefulS, Bool.and_eq_true, Option.isSome_iff_ne_none] at this
          exact this
        | remove i =>
          rintro j ⟨hj, a, b, hj', hab⟩
          have := forall_of_collect (weakLawful cfgS_ok) (weak_client cfgS_ok h).1 (eq_of_beq hb.1) hj'
          simp [hj] at this
          omega
    · cases he

def sActsS : Store := (execS acts (store0 cfgS)).getD {}

theorem sActsS_client : Client cfgS sActsS := by
  have h0 : Client cfgS (store0 cfgS) := .fresh (c := cfgS) cfgS.alloc alloc0_good rfl
  exact execS_client acts h0 (show execS acts (store0 cfgS) = some sActsS by
    unfold sActsS
    have : (execS acts (store0 cfgS)).isSome = true := by decide +kernel
    cases h : execS acts (store0 cfgS) with
    | none => rw [h] at this; cases this
    | some s => rfl)

example : CfgOK₀ cfgS ∧ Client cfgS sActsS ∧ ReachU cfgS sActsS ∧ CanGrow cfgS sActsS ∧
    (Act.pair 4 5).Careful ((links cfgS).view sActsS) ∧ (((links cfgS).view sActsS).set 5 (4, 1)).Uniq ∧
    (List.range 7).map ((links cfgS).view sActsS) =
      [none, some (1, 1), some (2, 2), some (1, 2), some (3, 5), some (5, 5), none] :=
  ⟨cfgS_ok, sActsS_client, C93_careful_makes_no_duplicates cfgS_ok sActsS_client, cfg0_canGrow (by decide +kernel),
   ⟨by decide +kernel, by decide +kernel⟩,
   (weak_client cfgS_ok sActsS_client).2.uniq.add fun j hj => by
     have := forall_of_collect (weakLawful cfgS_ok) (weak_client cfgS_ok sActsS_client).1
       (p := fun l => l.source != 4) (by decide +kernel) hj
     simp at this,
   by decide +kernel⟩

/-- Four links of which two have the same ends: 1 = (1,3), 2 = (1,2), 3 = (1,1), 4 = (1,1). -/
def twinCalls : List Call := [.create, .create, .create, .create, .update 1 1 3, .update 2 1 2, .update 3 1 1, .update 4 1 1]

/-- Calls one after the other. -/
def callsS (c : Cfg) (ks : List Call) : Option Store :=
  ks.foldl (fun s k => s.bind fun s => (step c c.alloc s k).map (·.st)) (some (store0 c))

/-- **C93**: the crate may break down otherwise. There is a crate that keeps the weaker contract but not the full one, and a history
that makes two links with the same ends, 3 and 4: over this crate the links with source 1 are found, but after link 2, which has no
duplicate, was deleted, the query for the links with source 1 does not return, although the three links are still there. -/
theorem C93_duplicates_damage_other_links : LawfulTrees₀ Sbt.trees ∧ ¬ LawfulTrees Sbt.trees ∧
    ((callsS cfgS twinCalls).bind fun s => (links cfgS).collect s [cfgS.consts.any, 1, cfgS.consts.any]).map (·.map (·.index)) =
      some [2, 3, 4, 1] ∧
    ((callsS cfgS (twinCalls ++ [.delete 2])).bind fun s => (links cfgS).collect s [cfgS.consts.any, 1, cfgS.consts.any]) = none ∧
    (callsS cfgS (twinCalls ++ [.delete 2])).map (fun s => (List.range 5).map ((links cfgS).view s)) =
      some [none, some (1, 3), none, some (1, 1), some (1, 1)] :=
  ⟨Sbt.trees_weak, Sbt.trees_not_lawful, by decide +kernel, by decide +kernel, by decide +kernel⟩

end Verif.Unit.Props

namespace Verif.Split.Props
open Verif Verif.Split
variable {c : Cfg}

theorem reachU_withAllocs (d i : Nat → Nat → Option Nat) {s : Store} (h : ReachU c s) : ReachU (c.withAllocs d i) s := by
  induction h with
  | fresh d i hd hi h => exact .fresh d i hd hi h
  | create d i _ hd hi hg hn ho ih => exact .create d i ih hd hi hg hn ho
  | update _ ht ho ih => exact .update ih ht ho
  | delete _ ho ih => exact .delete ih (by rw [← ho]; exact deleteLinks_withAllocs d i _ _ _ _)
  | reopen d i n m _ hd hi hin hlt ih => exact .reopen d i n m ih hd hi hin hlt

theorem reachU_ofAllocs {d i : Nat → Nat → Option Nat} {s : Store} (h : ReachU (c.withAllocs d i) s) : ReachU c s :=
  reachU_withAllocs (c := c.withAllocs d i) c.dalloc c.ialloc h

/-- In a sound store nothing refers to the index a creation returns. -/
theorem weak_newUnused (hc : CfgOK₀ c) {s : Store} (h : ReachU c s) (hv : ((links c).view s).Sound) : NewUnused c s := by
  have hr := (reachU_mend hc h).1
  obtain ⟨free, hf⟩ := reach_good hc.mend hr
  have hn := newUnused_of_sound hc.mend hr (by rw [view_mend]; exact hv)
  intro j s' hcr
  rw [← view_mend]
  refine hn j s' (Eq.trans ?_ hcr)
  have e : ∀ σ (h' : WH σ) st, (links c.mend).createLinks s [] h' st = (links c).createLinks s [] h' st :=
    fun σ h' st => (createLinks_mend hc hf [] h' st).symm
  simp only [Links.create, Links.createBy, Links.createByWith, e]

theorem weak_act (hc : CfgOK₀ c) {s : Store} (h : ReachU c s) (hv : ((links c).view s).Sound) (hg : CanGrow c s)
    {k : Act} (hk : k.Careful ((links c).view s)) :
    ∃ o, k.run (links c) s = some o ∧ ReachU c o.st ∧ k.Effect ((links c).view s) o.res ((links c).view o.st) :=
  Links.act_law (weakLawful hc) h ⟨hg, weak_newUnused hc h hv⟩
    (fun v i x y g1 g2 hxy => ⟨by rw [View.set_set]; exact g1.uniq.add g2,
      hxy, fun _ p hp => by rw [View.set_same] at hp; cases hp; rfl⟩) hv hk

theorem weak_client (hc : CfgOK₀ c) {s : Store} (h : Client c s) : ReachU c s ∧ ((links c).view s).Sound := by
  have hc' := hc.mend
  induction h with
  | @fresh d i s hd hi h =>
    refine ⟨.fresh d i hd hi h, ?_⟩
    have h' : init (c.mend.withAllocs d i) {} = some (.ok s) := h
    obtain ⟨h1, h2⟩ := init_fresh (hc'.withAllocs hd hi) h'
    have : (links c).view s = View.empty := by
      rw [← view_mend]
      funext k
      rw [view_eq hc' h1.ofAllocs.toInv0, if_neg]
      · rfl
      · intro hl; have := hl.1; have := hl.2.1; omega
    rw [this]; exact .empty
  | @act d i k s o _ hd hi hg hk ho ih =>
    obtain ⟨o', h1, h2, h3⟩ := weak_act (hc.withAllocs hd hi) (reachU_withAllocs d i ih.1)
      (by rw [view_withAllocs]; exact ih.2) hg (k := k) (by rw [view_withAllocs]; exact hk)
    rw [ho] at h1; cases h1
    rw [view_withAllocs, view_withAllocs] at h3
    exact ⟨reachU_ofAllocs h2, h3.sound hk ih.2⟩
  | @reopen d i n m s s' _ hd hi hin hlt ih =>
    refine ⟨.reopen d i n m ih.1 hd hi hin hlt, ?_⟩
    have h' : init (c.mend.withAllocs d i) { s with dlen := n, ilen := m } = some (.ok s') := hin
    obtain ⟨free, hf⟩ := reach_good hc' (reachU_mend hc ih.1).1
    obtain ⟨h1, h2, h3⟩ := init_reopen (hc'.withAllocs hd hi) (hf.withAllocs d i) h' hlt
    have : (links c).view s' = (links c).view s := by
      rw [← view_mend (c := c) s', ← view_mend (c := c) s]
      funext k
      rw [view_eq hc' h1.ofAllocs.toInv0, view_eq hc' hf.toInv0, h3]
      by_cases hk : LiveIn s free k
      · rw [if_pos hk, if_pos ⟨hk.1, by rw [h2]; exact hk.2.1, hk.2.2⟩]
      · rw [if_neg hk, if_neg fun hk' => hk ⟨hk'.1, by rw [← h2]; exact hk'.2.1, hk'.2.2⟩]
    rw [this]; exact ih.2

/-- **C93**, split store: as for the united store. -/
theorem C93_split_careful_client (hc : CfgOK₀ c) {s : Store} (h : Client c s) :
    (∀ i j p, (links c).view s i = some p → (links c).view s j = some p → i = j) ∧
    (∀ i a b, (links c).view s i = some (a, b) → (links c).view s a ≠ none ∧ (links c).view s b ≠ none) ∧
    ∀ k : Act, k.Careful ((links c).view s) → CanGrow c s →
      ∃ o, k.run (links c) s = some o ∧ Client c o.st ∧ k.Effect ((links c).view s) o.res ((links c).view o.st) := by
  obtain ⟨h1, h2⟩ := weak_client hc h
  refine ⟨h2.inj, h2.closed, fun k hk hg => ?_⟩
  obtain ⟨o, g1, -, g3⟩ := weak_act hc h1 h2 hg hk
  exact ⟨o, g1, .act c.dalloc c.ialloc k h hc.dalloc_eq hc.ialloc_eq hg hk g1, g3⟩

/-- **C93**, split store: the states of the careful client are among those of duplicate-free histories. -/
theorem C93_split_careful_makes_no_duplicates (hc : CfgOK₀ c) {s : Store} (h : Client c s) : ReachU c s := (weak_client hc h).1

/-- **C93**, split store: after any history, within the conditions of C30, in which no update made two links with the same ends, no two
links have the same ends, and each call does what it should. -/
theorem C93_split_without_duplicates (hc : CfgOK₀ c) {s : Store} (h : ReachU c s) :
    ((links c).view s).Uniq ∧
    (∀ i, (links c).getLink s i = some (((links c).view s i).map fun p => ⟨i, p.1, p.2⟩)) ∧
    (∀ q, CanGrow c s → NewUnused c s → (∃ e, Links.Fails (fun _ h st => (links c).createLinks s q h st) s e) ∨
      ∃ i s', (links c).view s i = none ∧ ReachU c s' ∧ (links c).view s' = ((links c).view s).set i (0, 0) ∧
        Links.Succeeds (fun _ h st => (links c).createLinks s q h st) s' Link.nothing ⟨i, 0, 0⟩) ∧
    (∀ i p x a b, (links c).view s i = some p → (((links c).view s).set i (a, b)).Uniq → CanUpdate ((links c).view s) i a b →
      ∃ s', ReachU c s' ∧ (links c).view s' = ((links c).view s).set i (a, b) ∧
        Links.Succeeds (fun _ h st => (links c).updateLinks s [i] [x, a, b] h st) s' ⟨i, p.1, p.2⟩ ⟨i, a, b⟩) ∧
    (∀ i p, (links c).view s i = some p →
      ∃ s', ReachU c s' ∧ (links c).view s' = ((links c).view s).del i ∧
        Links.Succeeds (fun _ h st => (links c).deleteLinks s [i] h st) s' ⟨i, p.1, p.2⟩ Link.nothing) ∧
    (∃ L, (links c).Visits s [] L ∧ L.Nodup ∧ (∀ l, l ∈ L ↔ ((links c).view s).Has l) ∧
      (links c).countLinks s [] = some L.length) ∧
    (∀ v, v ≠ 0 → v ≠ c.consts.any → ∃ L, (links c).Visits s [c.consts.any, v, c.consts.any] L ∧ L.Nodup ∧
      ∀ l, l ∈ L ↔ ((links c).view s).Has l ∧ l.source = v) ∧
    (∀ v, v ≠ 0 → v ≠ c.consts.any → ∃ L, (links c).Visits s [c.consts.any, c.consts.any, v] L ∧ L.Nodup ∧
      ∀ l, l ∈ L ↔ ((links c).view s).Has l ∧ l.target = v) ∧
    (∀ x y, x ≠ 0 → x ≠ c.consts.any → y ≠ 0 → y ≠ c.consts.any → ∃ L, (links c).Visits s [c.consts.any, x, y] L ∧
      ∀ l, l ∈ L ↔ ((links c).view s).Has l ∧ l.source = x ∧ l.target = y) := by
  have hu := (reachU_mend hc h).2
  refine ⟨hu, (weakLawful hc).get s h, ?_, ?_, ?_, ?_, (weakLawful hc).each_source s h, (weakLawful hc).each_target s h, ?_⟩
  · intro q hg hn
    rcases (weakLawful hc).create s h ⟨hg, hn⟩ q with e | ⟨i, s', h1, h2, -, h4, h5⟩
    · exact .inl e
    · exact .inr ⟨i, s', h1, h2, h4, h5⟩
  · intro i p x a b hv hn hup
    obtain ⟨s', before, h1, h2, -, h4, h5⟩ := (weakLawful hc).update s h i p hv (hu i) x a b ⟨hn, hup⟩
    obtain ⟨free, g⟩ := reach_good hc.mend (reachU_mend hc h).1
    obtain ⟨s2, -, -, h6⟩ := update_law hc.mend ⟨free, g⟩ (i := i) (p := p) (by rw [view_mend]; exact hv)
      (by rw [view_mend]; exact hu i) x a b (by rw [view_mend]; exact hup)
    have e : (⟨i, p.1, p.2⟩ : Link) = before := by
      have h7 := h6 (Option Link) (fun _ b _ => (.cont, some b)) none
      have h8 := h5 (Option Link) (fun _ b _ => (.cont, some b)) none
      have h9 : updateLinks c s [i] [x, a, b] (fun (_ : Option Link) b _ => ((Ctl.cont : Flow), some b)) none = _ := h8
      rw [updateLinks_uniq hc g hu (q := [i]) (ch := [x, a, b])
        (fun j a' b' hj ha hb _ => by cases hj; cases ha; cases hb; exact hn)] at h9
      have := h7.symm.trans h9
      simp only [Option.some.injEq, Out.mk.injEq] at this
      exact this.2.2
    exact ⟨s', h2, h4, e ▸ h5⟩
  · intro i p hv
    obtain ⟨s', h1, -, h3, h4⟩ := (weakLawful hc).delete s h i p hv (hu i) trivial
    exact ⟨s', h1, h3, h4⟩
  · obtain ⟨L, h1, h2, h3⟩ := (weakLawful hc).each_all s h
    exact ⟨L, h1, h2, h3, (weakLawful hc).count_all s h L h1⟩
  · intro x y hx hxa hy hya
    obtain ⟨L, h1, h2, h3, h4⟩ := (weakLawful hc).each_pair s h x y hx hxa hy hya
    refine ⟨L, h1, fun l => ⟨h3 l, ?_⟩⟩
    rintro ⟨g1, g2, g3⟩
    have hl : (links c).view s l.index = some (x, y) := by rw [g1, g2, g3]
    match L, h2, h3, h4 ⟨_, hl⟩ with
    | [l'], _, h3, _ =>
      obtain ⟨k1, k2, k3⟩ := h3 l' (by simp)
      have e := hu l.index _ hl (by intro e; cases e; exact hx rfl) l'.index (by rw [k1, k2, k3])
      have : l = l' := by
        rcases l with ⟨i, a, b⟩
        rcases l' with ⟨i', a', b'⟩
        simp only at e g2 g3 k2 k3
        rw [e, g2, g3, k2, k3]
      rw [this]; simp

/-- **C93**, split store: such a history could have taken place over a crate that keeps the contract of the other properties. -/
theorem C93_split_same_as_the_full_contract (hc : CfgOK₀ c) {s : Store} (h : ReachU c s) :
    ∃ X : TreesCrate, LawfulTrees X ∧ CfgOK { c with trees := X } ∧ Reach { c with trees := X } s :=
  ⟨Verif.mend c.trees, mend_lawful hc.trees, hc.mend, (reachU_mend hc h).1⟩

/-- The configuration of the examples over size-balanced trees that find nodes by comparing them. -/
def cfgS : Cfg := { cfg0 with trees := Sbt.trees }

theorem cfgS_ok : CfgOK₀ cfgS :=
  ⟨rfl, rfl, rfl, rfl, rfl, by decide, by decide, by decide, Sbt.trees_weak, cfg0_ok.dalloc_eq, cfg0_ok.ialloc_eq⟩

/-- Check that a concrete call is careful. -/
def carefulS (s : Store) : Act → Bool
  | .point => true
  | .pair x y => ((links cfgS).view s x).isSome && ((links cfgS).view s y).isSome
  | .remove i =>
    ((links cfgS).collect s []).map (·.all fun l => l.index == i || (l.source != i && l.target != i)) == some true

def execS : List Act → Store → Option Store
  | [], s => some s
  | k :: ks, s =>
    if (carefulS s k && decide (s.ilen ≤ 200)) = true then
      (k.run (links cfgS) s).bind fun o => execS ks o.st
    else none

theorem execS_client : ∀ (ks : List Act) {s s' : Store}, Client cfgS s → execS ks s = some s' → Client cfgS s'
  | [], s, s', h, he => by cases he; exact h
  | k :: ks, s, s', h, he => by
    unfold execS at he
    split at he
    · rename_i hb
      rw [Bool.and_eq_true] at hb
      cases hr : k.run (links cfgS) s with
      | none => rw [hr] at he; cases he
      | some o =>
        rw [hr] at he
        refine execS_client ks (.act cfgS.dalloc cfgS.ialloc k h cfgS_ok.dalloc_eq cfgS_ok.ialloc_eq
          (cfg0_canGrow (of_decide_eq_true hb.2)) ?_ hr) he
        cases k with
        | point => trivial
        | pair x y =>
          have := hb.1
          simp only [carefulS, Bool.and_eq_true, Option.isSome_iff_ne_none] at this
          exact this
        | remove i =>
          rintro j ⟨hj, a, b, hj', hab⟩
          have := forall_of_collect (weakLawful cfgS_ok) (weak_client cfgS_ok h).1 (eq_of_beq hb.1) hj'
          simp [hj] at this
          omega
    · cases he

def sActsS : Store := (execS Verif.Unit.Props.acts (store0 cfgS)).getD {}

theorem sActsS_client : Client cfgS sActsS := by
  have h0 : Client cfgS (store0 cfgS) :=
    .fresh (c := cfgS) cfgS.dalloc cfgS.ialloc cfgS_ok.dalloc_eq cfgS_ok.ialloc_eq rfl
  exact execS_client Verif.Unit.Props.acts h0 (show execS Verif.Unit.Props.acts (store0 cfgS) = some sActsS by
    unfold sActsS
    have : (execS Verif.Unit.Props.acts (store0 cfgS)).isSome = true := by decide +kernel
    cases h : execS Verif.Unit.Props.acts (store0 cfgS) with
    | none => rw [h] at this; cases this
    | some s => rfl)

example : CfgOK₀ cfgS ∧ Client cfgS sActsS ∧ ReachU cfgS sActsS ∧ CanGrow cfgS sActsS ∧ NewUnused cfgS sActsS ∧
    (Act.pair 4 5).Careful ((links cfgS).view sActsS) ∧ (((links cfgS).view sActsS).set 5 (4, 1)).Uniq ∧
    CanUpdate ((links cfgS).view sActsS) 5 4 1 ∧
    (List.range 7).map ((links cfgS).view sActsS) =
      [none, some (1, 1), some (2, 2), some (1, 2), some (3, 5), some (5, 5), none] :=
  have w := weak_client cfgS_ok sActsS_client
  ⟨cfgS_ok, sActsS_client, w.1, cfg0_canGrow (by decide +kernel), weak_newUnused cfgS_ok w.1 w.2,
   ⟨by decide +kernel, by decide +kernel⟩,
   w.2.uniq.add fun j hj => by
     have := forall_of_collect (weakLawful cfgS_ok) w.1 (p := fun l => l.source != 4) (by decide +kernel) hj
     simp at this,
   ⟨fun _ => by decide, fun h => by rcases h with h | h <;> cases h⟩, by decide +kernel⟩

/-- Four links of which two have the same ends: 1 = (1,3), 2 = (1,2), 3 = (1,1), 4 = (1,1). -/
def twinCalls : List Call := [.create, .create, .create, .create, .update 1 1 3, .update 2 1 2, .update 3 1 1, .update 4 1 1]

/-- Calls one after the other. -/
def callsS (c : Cfg) (ks : List Call) : Option Store :=
  ks.foldl (fun s k => s.bind fun s => (step c c.dalloc c.ialloc s k).map (·.st)) (some (store0 c))

/-- **C93**, split store: deleting a link without duplicates can make a query run on for ever, because two other links have the same
ends. -/
theorem C93_split_duplicates_damage_other_links : LawfulTrees₀ Sbt.trees ∧
    ((callsS cfgS twinCalls).bind fun s => (links cfgS).collect s [cfgS.consts.any, 1, cfgS.consts.any]).map (·.map (·.index)) =
      some [3, 4, 2, 1] ∧
    ((callsS cfgS (twinCalls ++ [.delete 2])).bind fun s => (links cfgS).collect s [cfgS.consts.any, 1, cfgS.consts.any]) = none ∧
    (callsS cfgS (twinCalls ++ [.delete 2])).map (fun s => (List.range 5).map ((links cfgS).view s)) =
      some [none, some (1, 3), none, some (1, 1), some (1, 1)] :=
  ⟨Sbt.trees_weak, by decide +kernel, by decide +kernel, by decide +kernel⟩

end Verif.Split.Props
