import Verif.Props.UnitDerived
import Verif.Props.SplitDerived
import Verif.Compare

/-!
# C52: whole-store traversals go up through the indices, and C53: the memory does not matter
-/

namespace Verif

/-- The queries that ask for everything. -/
def Everything (any : Nat) (q : List Nat) : Prop :=
  q = [] ∨ q = [any] ∨ q = [any, any] ∨ q = [any, any, any]

end Verif

namespace Verif.Unit.Props
open Verif Verif.Unit

variable {c : Cfg}

theorem ascending (hc : CfgOK c) {s : Store} (h : Good c s) {q : List Nat}
    (hq : Everything c.consts.any q) :
    ∃ L, (links c).Visits s q L ∧ L.Pairwise (fun l l' => l.index < l'.index) ∧
      ∀ l, l ∈ L ↔ ((links c).view s).Has l := by
  obtain ⟨free, ts, tt, hi⟩ := h
  refine ⟨(liveList s free).map s.linkAt, ?_, ?_, fun l => ?_⟩
  · intro σ hd st
    rw [← eachAll_eq hc hi.toInv0 hd st]
    rcases hq with rfl | rfl | rfl | rfl <;>
      simp [links, eachLinks, each3, hc.index_eq, hc.source_eq, hc.target_eq]
  · rw [List.pairwise_map]
    exact List.Pairwise.filter _ List.pairwise_lt_range'
  · rw [List.mem_map, has_iff hc hi.toInv0]
    constructor
    · rintro ⟨k, hk, rfl⟩; exact ⟨mem_liveList.1 hk, rfl⟩
    · rintro ⟨h1, h2⟩; exact ⟨_, mem_liveList.2 h1, h2.symm⟩

/-- **C52**, united store. A traversal that asks for everything visits the links in ascending order of their indices,
each once. -/
theorem C52_ascending_order (hc : CfgOK c) {s : Store} (h : Reach c s) {q : List Nat}
    (hq : Everything c.consts.any q) :
    ∃ L, (links c).Visits s q L ∧ L.Pairwise (fun l l' => l.index < l'.index) ∧
      ∀ l, l ∈ L ↔ ((links c).view s).Has l :=
  ascending hc (reach_good hc h) hq

example : Reach cfg0 sNet ∧ ((links cfg0).collect sNet [cfg0.consts.any, cfg0.consts.any]).map (·.map (·.index)) =
    some [1, 2, 3, 4, 6] := ⟨sNet_reach, by decide +kernel⟩

/-- **C53**, united store. Two stores with the same limit that served the same calls, whatever memory each had, how often
each was reopened, and whatever tree crate each used, gave the same answers and have the same contents, unless memory
ran out. -/
theorem C53_memory_does_not_matter {c' : Cfg} (hc : CfgOK c) (hc' : CfgOK c')
    (hlim : c'.consts.internalEnd = c.consts.internalEnd) {s s' : Store} {tr tr'}
    (h : History c s tr) (h' : History c' s' tr') (hcalls : tr.map Prod.fst = tr'.map Prod.fst)
    (hf : ∀ x ∈ tr, x.2 ≠ .error .allocFailed) (hf' : ∀ x ∈ tr', x.2 ≠ .error .allocFailed) :
    tr = tr' ∧ (∀ i, (links c).getLink s i = (links c').getLink s' i) ∧ (links c).count s = (links c').count s' := by
  have e := Determined.unique (history_determined hc h) (by rw [← hlim]; exact history_determined hc' h') hf hf' hcalls
  subst e
  obtain ⟨⟨⟨ts, tt, hi⟩, -, hv, -⟩, -⟩ := history_inv hc h
  obtain ⟨⟨⟨ts', tt', hi'⟩, -, hv', -⟩, -⟩ := history_inv hc' h'
  have hvv : (links c).view s = (links c').view s' := hv.trans hv'.symm
  refine ⟨rfl, fun i => ?_, ?_⟩
  · rw [(lawful hc).get s ⟨_, _, _, hi⟩, (lawful hc').get s' ⟨_, _, _, hi'⟩, hvv]
  · obtain ⟨n, h1, h2⟩ := Links.count_size (lawful hc) (s := s) ⟨_, _, _, hi⟩
    obtain ⟨m, h3, h4⟩ := Links.count_size (lawful hc') (s := s') ⟨_, _, _, hi'⟩
    rw [hvv] at h2
    rw [h1, h3, h2.unique h4]

/-- `cfg0` with memory that is always five slots longer than asked for. -/
def cfgBig : Cfg := cfg0.withAlloc fun _ n => some (n + 5)

theorem cfgBig_ok : CfgOK cfgBig := cfg0_ok.withAlloc fun _ n m h => by cases h; omega

example : History cfg0 sNet (trace cfg0 net) ∧ ∃ s', History cfgBig s' (trace cfg0 net) ∧ s'.len ≠ sNet.len ∧
    (trace cfg0 net).all (fun x => x.2 != .error .allocFailed) = true := by
  have h : ((exec cfgBig net (store0 cfgBig)).map (·.2)) = (exec cfg0 net (store0 cfg0)).map (·.2) := by
    decide +kernel
  obtain ⟨r, hr⟩ := Option.isSome_iff_exists.1 (show (exec cfgBig net (store0 cfgBig)).isSome = true by decide +kernel)
  have h0 : History cfgBig (store0 cfgBig) [] := .fresh (c := cfgBig) cfgBig.alloc cfgBig_ok.alloc_ge rfl
  have h1 := exec_history cfgBig_ok cfgBig_ok.alloc_ge net h0 hr
  have e : trace cfg0 net = [] ++ net.zip r.2 := by
    unfold trace; rw [← h, hr]; rfl
  refine ⟨sNet_history, r.1, e ▸ h1, ?_, by decide +kernel⟩
  have : (exec cfgBig net (store0 cfgBig)).map (fun r => decide (r.1.len ≠ sNet.len)) = some true := by decide +kernel
  rw [hr] at this
  simpa using this

end Verif.Unit.Props

namespace Verif.Split.Props
open Verif Verif.Split

variable {c : Cfg}

theorem ascending (hc : CfgOK c) {s : Store} (h : Good c s) {q : List Nat}
    (hq : Everything c.consts.any q) :
    ∃ L, (links c).Visits s q L ∧ L.Pairwise (fun l l' => l.index < l'.index) ∧
      ∀ l, l ∈ L ↔ ((links c).view s).Has l := by
  obtain ⟨free, hi⟩ := h
  refine ⟨(liveList s free).map s.linkAt, ?_, ?_, fun l => ?_⟩
  · intro σ hd st
    rw [← eachAll_eq hc hi.net hi.exact hd st]
    obtain ⟨u, hu⟩ := isUnused_some hi.base c.consts.any
    rcases hq with rfl | rfl | rfl | rfl <;>
      simp [links, eachLinks, each3, hu, hc.index_eq, hc.source_eq, hc.target_eq]
  · rw [List.pairwise_map]
    exact List.Pairwise.filter _ List.pairwise_lt_range'
  · rw [List.mem_map, has_iff hc hi.toInv0]
    constructor
    · rintro ⟨k, hk, rfl⟩; exact ⟨mem_liveList.1 hk, rfl⟩
    · rintro ⟨h1, h2⟩; exact ⟨_, mem_liveList.2 h1, h2.symm⟩

/-- **C52**, split store. -/
theorem C52_split_ascending_order (hc : CfgOK c) {s : Store} (h : Reach c s) {q : List Nat}
    (hq : Everything c.consts.any q) :
    ∃ L, (links c).Visits s q L ∧ L.Pairwise (fun l l' => l.index < l'.index) ∧
      ∀ l, l ∈ L ↔ ((links c).view s).Has l :=
  ascending hc (reach_good hc h) hq

example : Reach cfg0 sNet ∧ ((links cfg0).collect sNet [cfg0.consts.any, cfg0.consts.any]).map (·.map (·.index)) =
    some [1, 2, 3, 4, 6] := ⟨sNet_reach, by decide +kernel⟩

/-- **C53**, split store. -/
theorem C53_split_memory_does_not_matter {c' : Cfg} (hc : CfgOK c) (hc' : CfgOK c')
    (hlim : c'.consts.internalEnd = c.consts.internalEnd) {s s' : Store} {tr tr'}
    (h : History c s tr) (h' : History c' s' tr') (hcalls : tr.map Prod.fst = tr'.map Prod.fst)
    (hf : ∀ x ∈ tr, x.2 ≠ .error .allocFailed) (hf' : ∀ x ∈ tr', x.2 ≠ .error .allocFailed) :
    tr = tr' ∧ (∀ i, (links c).getLink s i = (links c').getLink s' i) ∧ (links c).count s = (links c').count s' := by
  have e := Determined.unique (history_determined hc h) (by rw [← hlim]; exact history_determined hc' h') hf hf' hcalls
  subst e
  obtain ⟨⟨hi, -, hv, -⟩, -⟩ := history_inv hc h
  obtain ⟨⟨hi', -, hv', -⟩, -⟩ := history_inv hc' h'
  have hvv : (links c).view s = (links c').view s' := hv.trans hv'.symm
  refine ⟨rfl, fun i => ?_, ?_⟩
  · rw [(lawful hc).get s ⟨_, hi⟩, (lawful hc').get s' ⟨_, hi'⟩, hvv]
  · obtain ⟨n, h1, h2⟩ := Links.count_size (lawful hc) (s := s) ⟨_, hi⟩
    obtain ⟨m, h3, h4⟩ := Links.count_size (lawful hc') (s := s') ⟨_, hi'⟩
    rw [hvv] at h2
    rw [h1, h3, h2.unique h4]

/-- `cfg0` with memories that grow in steps of three slots. -/
def cfgSmall : Cfg := { cfg0 with step := 3 }

theorem cfgSmall_ok : CfgOK cfgSmall := { cfg0_ok with step_pos := by decide }

example : History cfg0 sNet (trace cfg0 net) ∧ ∃ s', History cfgSmall s' (trace cfg0 net) ∧ s'.ilen ≠ sNet.ilen ∧
    (trace cfg0 net).all (fun x => x.2 != .error .allocFailed) = true := by
  have h : ((exec cfgSmall net (store0 cfgSmall)).map (·.2)) = (exec cfg0 net (store0 cfg0)).map (·.2) := by
    decide +kernel
  obtain ⟨r, hr⟩ := Option.isSome_iff_exists.1
    (show (exec cfgSmall net (store0 cfgSmall)).isSome = true by decide +kernel)
  have h0 : History cfgSmall (store0 cfgSmall) [] :=
    .fresh (c := cfgSmall) cfgSmall.dalloc cfgSmall.ialloc cfgSmall_ok.dalloc_eq cfgSmall_ok.ialloc_eq rfl
  have h1 := exec_history cfgSmall_ok (fun s _ => by simp [cfgSmall, cfg0]) net h0 hr
  have e : trace cfg0 net = [] ++ net.zip r.2 := by
    unfold trace; rw [← h, hr]; rfl
  refine ⟨sNet_history, r.1, e ▸ h1, ?_, by decide +kernel⟩
  have : (exec cfgSmall net (store0 cfgSmall)).map (fun r => decide (r.1.ilen ≠ sNet.ilen)) = some true := by
    decide +kernel
  rw [hr] at this
  simpa using this

end Verif.Split.Props
