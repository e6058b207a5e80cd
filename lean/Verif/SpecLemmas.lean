import Verif.Spec

/-! # Lemmas about the specification vocabulary -/

namespace Verif

theorem runH_collect {ρ : Type} (L acc : List Link) :
    runH (ρ := ρ) (fun (acc : List Link) l => (.cont, acc ++ [l])) L acc = (.cont, acc ++ L) := by
  induction L generalizing acc with
  | nil => simp [runH]
  | cons l L ih => simp [runH, ih]

theorem View.set_same (v : View) (i : Nat) (p : Nat × Nat) : v.set i p i = some p := by simp [View.set]

theorem View.set_other (v : View) {i k : Nat} (p : Nat × Nat) (h : k ≠ i) : v.set i p k = v k := by
  simp [View.set, h]

theorem View.del_same (v : View) (i : Nat) : v.del i i = none := by simp [View.del]

theorem View.del_other (v : View) {i k : Nat} (h : k ≠ i) : v.del i k = v k := by simp [View.del, h]

theorem View.Uniq.del {v : View} (h : v.Uniq) (i : Nat) : (v.del i).Uniq := by
  intro k p hk hp j hj
  simp only [View.del] at hk hj
  split at hk
  · simp at hk
  · split at hj
    · simp at hj
    · exact h k p hk hp j hj

/-- A view has at most one size. -/
theorem View.Size.unique {v : View} {n m : Nat} (h : View.Size v n) (h' : View.Size v m) : n = m := by
  obtain ⟨l, h1, h2, h3⟩ := h
  obtain ⟨l', h1', h2', h3'⟩ := h'
  have hp : l.Perm l' := by
    rw [List.perm_ext_iff_of_nodup h1 h1']
    intro i; rw [h3, h3']
  have := hp.length_eq
  omega

theorem size_set {v : View} {n i : Nat} (h : View.Size v n) (p : Nat × Nat) :
    View.Size (View.set v i p) (if v i = none then n + 1 else n) := by
  obtain ⟨l, h1, h2, h3⟩ := h
  by_cases hv : v i = none
  · rw [if_pos hv]
    refine ⟨i :: l, List.nodup_cons.2 ⟨fun hm => (h3 i).1 hm hv, h1⟩, by simp [h2], fun k => ?_⟩
    rw [List.mem_cons, h3, View.set]
    by_cases hk : k = i <;> simp [hk]
  · rw [if_neg hv]
    refine ⟨l, h1, h2, fun k => ?_⟩
    rw [h3, View.set]
    by_cases hk : k = i
    · subst hk; simp [hv]
    · simp [hk]

theorem size_del {v : View} {n i : Nat} (h : View.Size v n) (hv : v i ≠ none) :
    View.Size (View.del v i) (n - 1) := by
  obtain ⟨l, h1, h2, h3⟩ := h
  refine ⟨l.erase i, h1.erase i, by rw [List.length_erase_of_mem ((h3 i).2 hv), h2], fun k => ?_⟩
  rw [h1.mem_erase_iff, h3, View.del]
  by_cases hk : k = i <;> simp [hk]

namespace Links
variable {S : Type} {D : Links S}

theorem Visits.unique {s : S} {q : List Nat} {L L' : List Link} (h : D.Visits s q L)
    (h' : D.Visits s q L') : L = L' := by
  have e := (h _ (fun (acc : List Link) l => (.cont, acc ++ [l])) []).symm.trans
    (h' _ (fun (acc : List Link) l => (.cont, acc ++ [l])) [])
  simpa [runH_collect] using e

end Links

/-! ### Mutating calls use the handler at most once, at the end -/

/-- The call computes its result without the handler and hands it over at most once. -/
def Uniform {S : Type} (call : (σ : Type) → WH σ → σ → Option (Out S σ Flow)) : Prop :=
  ∃ core : Option (S × Except Err (Link × Link)), ∀ (σ : Type) (h : WH σ) (st : σ),
    call σ h st = core.map fun p =>
      match p.2 with
      | .error e => ⟨.error e, p.1, st⟩
      | .ok ba => ⟨.ok (h st ba.1 ba.2).1, p.1, (h st ba.1 ba.2).2⟩

/-- A handler that records its arguments. -/
def recH : WH (Option (Link × Link)) := fun _ b a => (.cont, some (b, a))

theorem Uniform.succeeds {S : Type} {call : (σ : Type) → WH σ → σ → Option (Out S σ Flow)}
    (u : Uniform call) {s' : S} {b a : Link} {r : Except Err Flow}
    (h : call _ recH none = some ⟨r, s', some (b, a)⟩) : Links.Succeeds call s' b a := by
  obtain ⟨core, hu⟩ := u
  intro σ hd st
  rw [hu] at h ⊢
  rcases core with _ | ⟨s1, e | ⟨b1, a1⟩⟩
  · simp at h
  · simp at h
  · simp only [Option.map_some, Option.some.injEq, Out.mk.injEq, recH, Prod.mk.injEq] at h ⊢
    obtain ⟨h1, h2, h3, h4⟩ := h
    subst h2 h3 h4
    simp

theorem Uniform.fails {S : Type} {call : (σ : Type) → WH σ → σ → Option (Out S σ Flow)}
    (u : Uniform call) {s' : S} {e : Err} {x : Option (Link × Link)}
    (h : call _ recH none = some ⟨.error e, s', x⟩) : Links.Fails call s' e := by
  obtain ⟨core, hu⟩ := u
  intro σ hd st
  rw [hu] at h ⊢
  rcases core with _ | ⟨s1, e1 | ⟨b1, a1⟩⟩
  · simp at h
  · simp only [Option.map_some, Option.some.injEq, Out.mk.injEq, Except.error.injEq] at h ⊢
    obtain ⟨h1, h2, h3⟩ := h
    subst h1 h2
    simp
  · simp at h

theorem Uniform.noneAll {S : Type} {call : (σ : Type) → WH σ → σ → Option (Out S σ Flow)}
    (hu : Uniform call) (h : call _ recH none = none) (σ : Type) (hd : WH σ) (st : σ) :
    call σ hd st = none := by
  obtain ⟨core, hcore⟩ := hu
  have e1 := hcore _ recH none
  rw [h] at e1
  cases core with
  | some p => simp at e1
  | none => rw [hcore]; rfl

end Verif
