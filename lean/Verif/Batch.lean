import Verif.DecoratorLaws

/-!
# Batches of changes to different links

A client that updates and deletes many links, one call per link, as in `for link in store.each_iter(query) { store.update(…) }`
(`each_iter`, `update` and `delete` of `doublets/src/data/traits.rs`).
-/

namespace Verif.Batch
open Verif Verif.Links

/-- One call: `update(i, a, b)` (`traits.rs:191-196`) or `delete(i)` (`traits.rs:245-250`). -/
inductive Change where
  | set (i a b : Nat)
  | del (i : Nat)
deriving DecidableEq

/-- The link a change is about. -/
def Change.index : Change → Nat
  | .set i _ _ => i
  | .del i => i

/-- What link `index` is afterwards. -/
def Change.result : Change → Option (Nat × Nat)
  | .set _ a b => some (a, b)
  | .del _ => none

/-- What the call returns if it ends well: `update` the index, `delete` null. -/
def Change.returns : Change → Nat
  | .set i _ _ => i
  | .del _ => 0

/-- The call. -/
def Change.call {S : Type} (D : Links S) (s : S) : Change → Option (Out S Unit Nat)
  | .set i a b => D.update s i a b
  | .del i => D.delete s i

/-- The calls one after the other, with what they return. -/
def run {S : Type} (D : Links S) : List Change → S → Option (List (Except Err Nat) × S)
  | [], s => some ([], s)
  | c :: cs, s => (c.call D s).bind fun o => (run D cs o.st).map fun r => (o.res :: r.1, r.2)

/-- The links after a batch: each link that is named by a change is what this change makes of it. -/
def After (v : View) (L : List Change) (w : View) : Prop :=
  (∀ c ∈ L, w c.index = c.result) ∧ ∀ k, (∀ c ∈ L, c.index ≠ k) → w k = v k

/-- The changes are about different links that exist, and make no duplicates: no two updates are to the same doublet, and no
update is to the doublet another link has (null doublets excepted). -/
structure Independent (v : View) (L : List Change) : Prop where
  uniq : v.Uniq
  apart : (L.map Change.index).Nodup
  live : ∀ c ∈ L, v c.index ≠ none
  new : ∀ c ∈ L, ∀ p, c.result = some p → p ≠ (0, 0) → ∀ j, v j = some p → j = c.index
  differ : ∀ c ∈ L, ∀ d ∈ L, ∀ p, c.result = some p → d.result = some p → p ≠ (0, 0) → c.index = d.index

theorem Independent.perm {v : View} {L L' : List Change} (h : Independent v L) (hp : L.Perm L') : Independent v L' :=
  ⟨h.uniq, (hp.map _).nodup_iff.1 h.apart, fun c hc => h.live c (hp.mem_iff.2 hc), fun c hc => h.new c (hp.mem_iff.2 hc),
    fun c hc d hd => h.differ c (hp.mem_iff.2 hc) d (hp.mem_iff.2 hd)⟩

/-- The contents are determined. -/
theorem After.unique {v w w' : View} {L L' : List Change} (hp : L.Perm L') (h : After v L w) (h' : After v L' w') : w = w' := by
  funext k
  by_cases hk : ∃ c ∈ L, c.index = k
  · obtain ⟨c, hc, rfl⟩ := hk
    rw [h.1 c hc, h'.1 c (hp.mem_iff.1 hc)]
  · have hk' : ∀ c ∈ L, c.index ≠ k := fun c hc e => hk ⟨c, hc, e⟩
    rw [h.2 k hk', h'.2 k fun c hc => hk' c (hp.mem_iff.2 hc)]

/-- One change. -/
def Change.apply (v : View) : Change → View
  | .set i a b => v.set i (a, b)
  | .del i => v.del i

theorem Change.apply_same (v : View) (c : Change) : c.apply v c.index = c.result := by
  cases c
  · exact View.set_same _ _ _
  · exact View.del_same _ _

theorem Change.apply_other (v : View) (c : Change) {k : Nat} (hk : k ≠ c.index) : c.apply v k = v k := by
  cases c
  · exact View.set_other _ _ hk
  · exact View.del_other _ hk

/-- The first change leaves the others independent. -/
theorem Independent.step {v : View} {c : Change} {L : List Change} (h : Independent v (c :: L)) :
    Independent (c.apply v) L := by
  have hap := h.apart
  rw [List.map_cons, List.nodup_cons] at hap
  have hne : ∀ d ∈ L, d.index ≠ c.index := fun d hd e => hap.1 (e ▸ List.mem_map_of_mem hd)
  refine ⟨?_, hap.2, ?_, ?_, fun d hd e he => h.differ d (List.mem_cons_of_mem _ hd) e (List.mem_cons_of_mem _ he)⟩
  · cases c with
    | del i => exact h.uniq.del i
    | set i a b =>
      by_cases h0 : (a, b) = (0, 0)
      · obtain ⟨rfl, rfl⟩ := Prod.mk.inj h0
        exact h.uniq.set_null i
      · exact h.uniq.set fun j hj hv => hj (h.new (.set i a b) (by simp) _ rfl h0 j hv)
  · intro d hd
    rw [c.apply_other v (hne d hd)]
    exact h.live d (List.mem_cons_of_mem _ hd)
  · intro d hd p hp h0 j hj
    by_cases hjc : j = c.index
    · subst hjc
      rw [c.apply_same] at hj
      exact h.differ c (by simp) d (List.mem_cons_of_mem _ hd) p hj hp h0
    · rw [c.apply_other v hjc] at hj
      exact h.new d (List.mem_cons_of_mem _ hd) p hp h0 j hj

variable {S : Type} {D : Links S} (W : Lawful D)

/-- The updates are supported whatever the other links are. -/
def Supported (v : View) (L : List Change) : Prop :=
  ∀ i a b, Change.set i a b ∈ L → ∀ w : View, w i = v i → W.CanUpdate w i a b

theorem call_law {s : S} (hs : W.Inv s) {c : Change} {L : List Change} (hi : Independent (D.view s) (c :: L))
    (hsup : Supported W (D.view s) (c :: L)) :
    ∃ s', c.call D s = some ⟨.ok c.returns, s', ()⟩ ∧ W.Inv s' ∧ D.view s' = c.apply (D.view s) := by
  cases hv : D.view s c.index with
  | none => exact absurd hv (hi.live c (by simp))
  | some p =>
    cases c with
    | set i a b =>
      obtain ⟨s', before, k1, k2, k3, k4, k5⟩ := W.update s hs i p hv (hi.uniq i) i a b (hsup i a b (by simp) _ rfl)
      exact ⟨s', update_ok k5, k2, k4⟩
    | del i =>
      obtain ⟨s', k1, k2, k3, k4⟩ := W.delete s hs i p hv (hi.uniq i) (W.canDelete_uniq _ _ hi.uniq)
      exact ⟨s', delete_ok k4, k1, k3⟩

theorem run_law : ∀ (L : List Change) (s : S), W.Inv s → Independent (D.view s) L → Supported W (D.view s) L →
    ∃ s', run D L s = some (L.map fun c => .ok c.returns, s') ∧ W.Inv s' ∧ After (D.view s) L (D.view s') ∧
      (D.view s').Uniq := by
  intro L
  induction L with
  | nil => intro s hs hi _; exact ⟨s, rfl, hs, ⟨by simp, fun _ _ => rfl⟩, hi.uniq⟩
  | cons c L ih =>
    intro s hs hi hsup
    obtain ⟨s1, h1, h2, h3⟩ := call_law W hs hi hsup
    have hap := hi.apart
    rw [List.map_cons, List.nodup_cons] at hap
    have hne : ∀ d ∈ L, d.index ≠ c.index := fun d hd e => hap.1 (e ▸ List.mem_map_of_mem hd)
    obtain ⟨s', g1, g2, g3, g4⟩ := ih s1 h2 (by rw [h3]; exact hi.step) (by
      intro i a b hm w hw
      have hic : i ≠ c.index := hne _ hm
      rw [h3, c.apply_other _ hic] at hw
      exact hsup i a b (List.mem_cons_of_mem _ hm) w hw)
    refine ⟨s', by simp [run, h1, g1], g2, ⟨?_, ?_⟩, g4⟩
    · intro d hd
      rcases List.mem_cons.1 hd with rfl | hd
      · rw [g3.2 _ hne, h3, d.apply_same]
      · exact g3.1 d hd
    · intro k hk
      rw [g3.2 k fun d hd => hk d (List.mem_cons_of_mem _ hd), h3, c.apply_other _ (Ne.symm (hk c (by simp)))]

/-- `for link in links { store.update(link.index, f(link)) }` over the links a traversal returned. -/
def rewriting (f : Link → Nat × Nat) (L : List Link) : List Change :=
  L.map fun l => .set l.index (f l).1 (f l).2

end Verif.Batch
