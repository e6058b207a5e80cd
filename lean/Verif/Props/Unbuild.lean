import Verif.Unbuild
import Verif.Props.Grounded

/-!
# C125: a careful client can take its network apart
-/

namespace Verif.Unit.Props
open Verif Verif.Unit

variable {c : Cfg}

/-- **C125**, united store. A careful client (C51) has `n` links and takes its network apart, deleting a link that no other link uses each
time. It never gets stuck: after `k` deletions, `k` up to `n`, there are `n - k` links left, the others are as they were, and the ends of the
links that are left are links. After `n` deletions the store is empty. -/
theorem C125_taken_apart (hc : CfgOK₀ c) {s : Store} (h : Client c s) {n k : Nat} (hn : (links c).count s = some n) (hk : k ≤ n) :
    ∃ s', (links c).takeApart k s = some s' ∧ ReachU c s' ∧ (links c).count s' = some (n - k) ∧
      (∀ i l, (links c).getLink s' i = some (some l) → (links c).getLink s i = some (some l)) ∧
      ∀ i l, (links c).getLink s' i = some (some l) → (∃ m, (links c).getLink s' l.source = some (some m)) ∧
        ∃ m, (links c).getLink s' l.target = some (some m) := by
  obtain ⟨h1, h2, h3⟩ := grounded_client hc h
  obtain ⟨m, m1, m2⟩ := Links.count_size (weakLawful hc) h1
  cases hn.symm.trans m1
  obtain ⟨s', k1, k2, k3, k4, k5⟩ := Links.takeApart_law (weakLawful hc) h1 h2 h3 m2 hk
  have get := (weakLawful hc).get
  have some_of : ∀ {t i l}, ReachU c t → (links c).getLink t i = some (some l) → l.index = i ∧ (links c).view t i = some (l.source, l.target) := by
    intro t i l ht hl
    rw [get t ht] at hl
    cases hv : (links c).view t i with
    | none => rw [hv] at hl; cases hl
    | some p => rw [hv] at hl; cases hl; exact ⟨rfl, rfl⟩
  refine ⟨s', k1, k2, k3, fun i l hl => ?_, fun i l hl => ?_⟩
  · obtain ⟨rfl, hv⟩ := some_of k2 hl
    rw [get s h1, k5 _ _ hv]; rfl
  · obtain ⟨ha, hb⟩ := k4.closed _ _ _ (some_of k2 hl).2
    obtain ⟨p, hp⟩ := Option.ne_none_iff_exists'.1 ha
    obtain ⟨q, hq⟩ := Option.ne_none_iff_exists'.1 hb
    exact ⟨⟨_, by rw [get s' k2, hp]; rfl⟩, ⟨_, by rw [get s' k2, hq]; rfl⟩⟩

/-- Points 2 and 3, 4 from 2 to 3, 5 from 4 to 2: link 5 goes first, then link 4, then the points. -/
example : CfgOK₀ cfgS ∧ Client cfgS sActsB ∧ (links cfgS).count sActsB = some 4 ∧
    (List.range 7).map ((links cfgS).view sActsB) = [none, none, some (2, 2), some (3, 3), some (2, 3), some (4, 2), none] ∧
    ((links cfgS).takeApart 1 sActsB).map (fun s => (List.range 7).map ((links cfgS).view s)) =
      some [none, none, some (2, 2), some (3, 3), some (2, 3), none, none] ∧
    ((links cfgS).takeApart 2 sActsB).map (fun s => (List.range 7).map ((links cfgS).view s)) =
      some [none, none, some (2, 2), some (3, 3), none, none, none] :=
  ⟨cfgS_ok, sActsB_client, by decide +kernel, by decide +kernel, by decide +kernel, by decide +kernel⟩

/-- **C125** is about clients that do not update: of two links that refer to each other there is none to begin with. -/
theorem C125_cycles_cannot_be_taken_apart : Reach cfg0 sCycle ∧ (links cfg0).count sCycle = some 2 ∧
    ∀ n, (links cfg0).takeApart n sCycle = some sCycle := by
  refine ⟨sCycle_reach, by decide +kernel, fun n => ?_⟩
  have h : ((links cfg0).collect sCycle []).map (fun L => (L.find? (Links.unusedIn L)).isNone) = some true := by decide +kernel
  cases n with
  | zero => rfl
  | succ n =>
    cases hL : (links cfg0).collect sCycle [] with
    | none => rw [hL] at h; cases h
    | some L =>
      rw [hL] at h
      have h : (L.find? (Links.unusedIn L)).isNone = true := Option.some.inj h
      rw [Option.isNone_iff_eq_none] at h
      simp [Links.takeApart, hL, h]

end Verif.Unit.Props

namespace Verif.Split.Props
open Verif Verif.Split

variable {c : Cfg}

/-- **C125**, split store. A careful client (C51) has `n` links and takes its network apart, deleting a link that no other link uses each
time. It never gets stuck: after `k` deletions, `k` up to `n`, there are `n - k` links left, the others are as they were, and the ends of the
links that are left are links. After `n` deletions the store is empty. -/
theorem C125_split_taken_apart (hc : CfgOK₀ c) {s : Store} (h : Client c s) {n k : Nat} (hn : (links c).count s = some n) (hk : k ≤ n) :
    ∃ s', (links c).takeApart k s = some s' ∧ ReachU c s' ∧ (links c).count s' = some (n - k) ∧
      (∀ i l, (links c).getLink s' i = some (some l) → (links c).getLink s i = some (some l)) ∧
      ∀ i l, (links c).getLink s' i = some (some l) → (∃ m, (links c).getLink s' l.source = some (some m)) ∧
        ∃ m, (links c).getLink s' l.target = some (some m) := by
  obtain ⟨h1, h2, h3⟩ := grounded_client hc h
  obtain ⟨m, m1, m2⟩ := Links.count_size (weakLawful hc) h1
  cases hn.symm.trans m1
  obtain ⟨s', k1, k2, k3, k4, k5⟩ := Links.takeApart_law (weakLawful hc) h1 h2 h3 m2 hk
  have get := (weakLawful hc).get
  have some_of : ∀ {t i l}, ReachU c t → (links c).getLink t i = some (some l) → l.index = i ∧ (links c).view t i = some (l.source, l.target) := by
    intro t i l ht hl
    rw [get t ht] at hl
    cases hv : (links c).view t i with
    | none => rw [hv] at hl; cases hl
    | some p => rw [hv] at hl; cases hl; exact ⟨rfl, rfl⟩
  refine ⟨s', k1, k2, k3, fun i l hl => ?_, fun i l hl => ?_⟩
  · obtain ⟨rfl, hv⟩ := some_of k2 hl
    rw [get s h1, k5 _ _ hv]; rfl
  · obtain ⟨ha, hb⟩ := k4.closed _ _ _ (some_of k2 hl).2
    obtain ⟨p, hp⟩ := Option.ne_none_iff_exists'.1 ha
    obtain ⟨q, hq⟩ := Option.ne_none_iff_exists'.1 hb
    exact ⟨⟨_, by rw [get s' k2, hp]; rfl⟩, ⟨_, by rw [get s' k2, hq]; rfl⟩⟩

/-- Points 2 and 3, 4 from 2 to 3, 5 from 4 to 2: link 5 goes first, then link 4, then the points. -/
example : CfgOK₀ cfgS ∧ Client cfgS sActsB ∧ (links cfgS).count sActsB = some 4 ∧
    (List.range 7).map ((links cfgS).view sActsB) = [none, none, some (2, 2), some (3, 3), some (2, 3), some (4, 2), none] ∧
    ((links cfgS).takeApart 1 sActsB).map (fun s => (List.range 7).map ((links cfgS).view s)) =
      some [none, none, some (2, 2), some (3, 3), some (2, 3), none, none] ∧
    ((links cfgS).takeApart 2 sActsB).map (fun s => (List.range 7).map ((links cfgS).view s)) =
      some [none, none, some (2, 2), some (3, 3), none, none, none] :=
  ⟨cfgS_ok, sActsB_client, by decide +kernel, by decide +kernel, by decide +kernel, by decide +kernel⟩

end Verif.Split.Props
