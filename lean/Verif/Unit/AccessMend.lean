import Verif.Unit.AccessCalls
import Verif.Unit.MendReach
import Verif.Guard

/-!
# The unit store's accessors over a crate that keeps the weaker contract only (helper for C94)
-/

namespace Verif.Unit
open Verif

variable {c : Cfg} {P : Programs}

/-- The call leaves no two links with the same pair. -/
def KeepsUniq (v : View) : Call → Prop
  | .update i a b => v i ≠ none → (v.set i (a, b)).Uniq
  | _ => True

theorem callA_mend (f : Nat) {σ : Type} (hd : WH σ) (st : σ) (k : Call) : callA c.mend P f hd st k = callA c P f hd st k := by
  cases k <;> rfl

theorem fits_apart {s : Store} {free : List Nat} {lk : Nat → Nat × Nat}
    (h : ∀ x y, LiveIn s free x → LiveIn s free y → x ≠ y → lk x ≠ (0, 0) → lk x ≠ lk y) : Fits Apart s free lk := by
  rintro t rfl l hl
  have key : (∀ k ∈ l, t.lk k ≠ (0, 0)) → Differ t l := fun h0 x hx y hy hxy => h x y (hl x hx) (hl y hy) hxy (h0 x hx)
  exact ⟨fun h0 => apart_src (key fun k hk e => h0 k hk (congrArg Prod.fst e)),
    fun h0 => apart_tgt (key fun k hk e => h0 k hk (congrArg Prod.snd e))⟩

theorem fits_uniq (hc : CfgOK c) {s : Store} {free : List Nat} {ts tt : Tree} (h : Inv c s free ts tt)
    (hu : ((links c).view s).Uniq) {i a b : Nat} (hi : LiveIn s free i) (ha : (((links c).view s).set i (a, b)).Uniq) :
    FitsUpdate Apart s free i a b := by
  have hvw := view_eq hc h.toInv0
  refine ⟨fits_apart fun x y hx hy hxy h0 e => hxy ?_, fits_apart fun x y hx hy hxy h0 e => hxy ?_⟩
  · exact (hu x _ (by rw [hvw, if_pos hx]) h0 y (by rw [hvw, if_pos hy, e])).symm
  · have hset : ∀ z, LiveIn s free z → ((links c).view s).set i (a, b) z = some (if z = i then (a, b) else s.lk z) := by
      intro z hz
      unfold View.set
      by_cases hzi : z = i
      · simp only [hzi, if_true]
      · simp only [if_neg hzi]; rw [hvw, if_pos hz]
    exact (ha x _ (hset x hx) h0 y (by rw [hset y hy, e])).symm

/-- A duplicate-free call does the same over the mended crate. -/
theorem callExec_mend (hc : CfgOK₀ c) {s : Store} (hg : Good c.mend s) (hu : ((links c).view s).Uniq) {k : Call}
    (hk : KeepsUniq ((links c).view s) k) {σ : Type} (hd : WH σ) (st : σ) : callExec c s hd st k = callExec c.mend s hd st k := by
  cases k with
  | create => rfl
  | update i a b =>
    exact updateLinks_mend hc hg hu (q := [i]) (ch := [i, a, b]) (fun i' a' b' h1 h2 h3 h4 => by
      simp only [List.getElem?_cons_zero, List.getElem?_cons_succ, Option.some.injEq] at h1 h2 h3
      subst h1 h2 h3; exact hk h4) hd st
  | delete i => exact deleteLinks_mend hc hg hu (q := [i]) hd st

/-- A duplicate-free call at the accessor level does what the model says, and every image on the way keeps the links it is not
about. -/
theorem callA_agreeU (hc : CfgOK₀ c) (hP : P.ImplementsOn Apart c.trees) {s : Store} {free : List Nat} {ts tt : Tree}
    (h : Inv c.mend s free ts tt) (hu : ((links c).view s).Uniq) {k : Call} (hk : KeepsUniq ((links c).view s) k) {σ : Type}
    (hd : WH σ) (st : σ) :
    Ev fun f => Agree (callA c P f hd st k) (.of s) (callExec c s hd st k) fun x =>
      ∀ j, ¬ callAbout j k → LiveIn s free j → x.s.lk j = s.lk j ∧ j ≤ x.s.hdr.allocated := by
  have hc' := hc.mend
  have := callA_agreeOn hc' (P := P) hP.mend h k (fun j _ hj => noTwinIn hc' h.toInv0 hj (hu j)) (by
    cases k with
    | create => trivial
    | update i a b => exact fun hi => fits_uniq hc' h hu hi (hk (by
        rw [← view_mend, view_eq hc' h.toInv0, if_pos hi]; simp))
    | delete i => exact fun hi => fits_uniq hc' h hu hi (uniq_set_null hu i)) hd st
  rw [callExec_mend hc ⟨free, ts, tt, h⟩ hu hk hd st]
  exact this.mono fun f w => by rw [callA_mend] at w; exact w

end Verif.Unit
