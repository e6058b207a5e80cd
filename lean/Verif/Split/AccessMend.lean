import Verif.Split.AccessCalls
import Verif.Split.MendReach
import Verif.Unit.AccessMend

/-!
# The split store's accessors over a crate that keeps the weaker contract only (helper for C94)
-/

namespace Verif.Split
open Verif
open Verif.Unit (KeepsUniq callAbout)

variable {c : Cfg} {P : Programs}

/-- The update, if it is one, is one the store supports (C30). -/
def CanCall (v : View) : Call → Prop
  | .update i a b => CanUpdate v i a b
  | _ => True

theorem supported_of_uniq {v : View} (hu : v.Uniq) {k : Call} (hk : CanCall v k) : Supported v k := by
  cases k with
  | create => trivial
  | update i a b => exact ⟨hu i, hk⟩
  | delete i => exact ⟨hu i, fun j _ => hu j⟩

theorem sideQuery_mend (d : Side) (i : Nat) : sideQuery c.mend d i = sideQuery c d i := rfl

theorem getLinkA_mend (i : Nat) : getLinkA c.mend i = getLinkA c i := rfl

theorem resolveInternalA_mend (f i : Nat) : resolveInternalA c.mend P f i = resolveInternalA c P f i := by
  simp only [resolveInternalA, eachIter_mend, sideQuery_mend]

theorem resolveExternalA_mend (f i : Nat) : resolveExternalA c.mend P f i = resolveExternalA c P f i := by
  simp only [resolveExternalA, eachIter_mend, sideQuery_mend]

theorem growA_mend : growA c.mend = growA c := rfl

theorem createTopA_mend (f : Nat) : createTopA c.mend P f = createTopA c P f := by
  simp only [createTopA, resolveExternalA_mend, show c.mend.maxT = c.maxT from rfl]

theorem createA_mend (f : Nat) : createA c.mend P f = createA c P f := by
  simp only [createA, createTopA_mend, resolveExternalA_mend, growA_mend, show c.mend.consts = c.consts from rfl]

theorem callA_mend (f : Nat) {σ : Type} (hd : WH σ) (st : σ) (k : Call) : callA c.mend P f hd st k = callA c P f hd st k := by
  cases k <;> simp only [callA, createA_mend, getLinkA_mend, resolveInternalA_mend]

/-- A duplicate-free call does the same over the mended crate. -/
theorem callExec_mend (hc : CfgOK₀ c) {s : Store} {free : List Nat} (h : Inv c.mend s free) (hu : ((links c).view s).Uniq)
    {k : Call} (hk : KeepsUniq ((links c).view s) k) {σ : Type} (hd : WH σ) (st : σ) :
    callExec c s hd st k = callExec c.mend s hd st k := by
  cases k with
  | create => exact createLinks_mend hc h [] hd st
  | update i a b =>
    exact updateLinks_uniq hc h hu (q := [i]) (ch := [i, a, b]) (fun i' a' b' h1 h2 h3 h4 => by
      simp only [List.getElem?_cons_zero, List.getElem?_cons_succ, Option.some.injEq] at h1 h2 h3
      subst h1 h2 h3; exact hk h4) hd st
  | delete i => exact deleteLinks_mend hc h hu (q := [i]) hd st

theorem CfgOK₀.guarded (hc : CfgOK₀ c) : CfgOK₀ (gc Apart c) :=
  ⟨hc.null_eq, hc.index_eq, hc.source_eq, hc.target_eq, hc.start_eq, hc.end_lt_any, hc.end_le, hc.step_pos, guard_weak hc.trees,
    hc.dalloc_eq, hc.ialloc_eq⟩

theorem Inv.mended {s : Store} {free : List Nat} (h : Inv c s free) : Inv c.mend s free :=
  ⟨⟨⟨h.base.fresh, h.base.len_eq, h.base.alloc_lt, h.base.alloc_le, h.base.res_pos, h.base.res_le, h.base.res8, h.base.data0,
    h.base.list, h.base.free_le, h.base.beyond⟩, h.forest, h.half⟩, h.free_lt⟩

theorem view_gc {D : (Nat → Nat → Bool) → (Nat → Nat → Bool) → List Nat → Prop} (s : Store) :
    (links (gc D c)).view s = (links c).view s := rfl

/-- A duplicate-free call at the accessor level does what the model says, and every image on the way is near one of the images over
the mended crate. -/
theorem callA_agreeU (hc : CfgOK₀ c) (hP : P.ImplementsOn Apart c.trees) {s : Store} {free : List Nat} (h : Inv c.mend s free)
    (hu : ((links c).view s).Uniq) {k : Call} (hs : CanCall ((links c).view s) k) (hk : KeepsUniq ((links c).view s) k) {σ : Type}
    (hd : WH σ) (st : σ) :
    Ev fun f => Agree (callA c P f hd st k) (.of s) (callExec c s hd st k) fun x =>
      ∃ m ∈ callImages c.mend s k, Near m x := by
  have hc' := hc.mend
  have hsup := supported_of_uniq hu hs
  have hcg := hc'.weaken.guarded
  have hvg : (links (gc Apart c.mend)).view s = (links c).view s := (view_gc s).trans (view_mend s)
  have hg : Guarded Apart c.mend s hd st k := by
    intro e
    have hI : Inv (gc Apart c.mend).mend s free := h.gc.mended
    have hu' : ((links (gc Apart c.mend)).view s).Uniq := by rw [hvg]; exact hu
    have hk' : KeepsUniq ((links (gc Apart c.mend)).view s) k := by rw [hvg]; exact hk
    have hs' : Supported ((links (gc Apart c.mend).mend).view s) k := by rw [view_mend, hvg]; exact hsup
    rw [callExec_mend hcg hI hu' hk' hd st] at e
    exact supported_guarded hcg.mend hI hs' hd st e
  have := callA_agreeOn hc' (P := P) hP.mend h (k := k) (by rw [view_mend]; exact hsup) hd st hg
  rw [callExec_mend hc h hu hk hd st]
  exact this.mono fun f w => by rw [callA_mend] at w; exact w

end Verif.Split
