import Verif.Stacks

/-!
# Walks along references

A client goes from a link to one of its ends, from there to one of its ends, and so on. Vocabulary of C123, and why stores behind both
validators have no walks that come back.
-/

namespace Verif
open Links

/-- A walk: a list of links, each of which is an end of the one before it, and not that link itself. -/
inductive Walk (v : View) : List Nat → Prop
  | stop {i : Nat} : v i ≠ none → Walk v [i]
  | go {i a b k : Nat} {L : List Nat} : v i = some (a, b) → k = a ∨ k = b → k ≠ i → Walk v (k :: L) → Walk v (i :: k :: L)

/-- No walk comes back to a link it has been at. -/
def NoReturn (v : View) : Prop := ∀ L, Walk v L → L.Nodup

variable {v : View} {i : Nat}

theorem NoReturn.empty : NoReturn View.empty := by
  intro L h
  cases h with
  | stop h => exact absurd rfl h
  | go h => cases h

theorem Walk.unused {p : Nat × Nat} (hi : ∀ j, ¬ v.Uses i j) : ∀ {L : List Nat}, Walk (v.set i p) L → ∀ x ∈ L.tail, x ≠ i := by
  intro L h
  induction h with
  | stop _ => intro x hx; cases hx
  | @go j a b k L hj hk hkj hw ih =>
    intro x hx
    rcases List.mem_cons.1 hx with rfl | hx
    · rintro rfl
      have hji : j ≠ x := fun e => hkj e.symm
      rw [View.set_other _ _ hji] at hj
      exact hi j ⟨hji, a, b, hj, hk.imp Eq.symm Eq.symm⟩
    · exact ih x hx

theorem Walk.old {p : Nat × Nat} (hi : ∀ j, ¬ v.Uses i j) : ∀ {L : List Nat}, Walk (v.set i p) L → (∀ x ∈ L, x ≠ i) → Walk v L := by
  intro L h
  induction h with
  | @stop j hj => intro hx; rw [View.set_other _ _ (hx j (by simp))] at hj; exact .stop hj
  | @go j a b k L hj hk hkj hw ih =>
    intro hx
    rw [View.set_other _ _ (hx j (by simp))] at hj
    exact .go hj hk hkj (ih fun x h => hx x (List.mem_cons_of_mem _ h))

/-- Giving a link that nobody uses new ends. -/
theorem NoReturn.set (h : NoReturn v) {p : Nat × Nat} (hi : ∀ j, ¬ v.Uses i j) : NoReturn (v.set i p) := by
  intro L hw
  have hu := hw.unused hi
  cases hw with
  | stop _ => simp
  | @go j a b k L hj hk hkj hw =>
    have ht : (k :: L).Nodup := h _ (hw.old hi hu)
    by_cases e : j = i
    · exact List.nodup_cons.2 ⟨fun hm => hu j hm e, ht⟩
    · exact h _ (Walk.old (i := i) (p := p) hi (.go hj hk hkj hw) fun x hx => by
        rcases List.mem_cons.1 hx with rfl | hx
        · exact e
        · exact hu x hx)

theorem NoReturn.del (h : NoReturn v) (i : Nat) : NoReturn (v.del i) := by
  have sub : ∀ {j p}, v.del i j = some p → v j = some p := by
    intro j p hj
    unfold View.del at hj
    split at hj
    · cases hj
    · exact hj
  intro L hw
  refine h L ?_
  induction hw with
  | @stop j hj =>
    obtain ⟨p, hp⟩ := Option.ne_none_iff_exists'.1 hj
    exact .stop (by rw [sub hp]; simp)
  | go hj hk hkj _ ih => exact .go (sub hj) hk hkj ih

theorem not_uses_new (hw : Whole v) (hi : v i = none) (h0 : i ≠ 0) (j : Nat) : ¬ v.Uses i j := by
  rintro ⟨-, a, b, hj, hab⟩
  rcases hw j a b hj with ⟨rfl, rfl⟩ | ⟨h1, h2⟩
  · rcases hab with e | e <;> exact h0 e.symm
  · rcases hab with e | e
    · exact h1 (e ▸ hi)
    · exact h2 (e ▸ hi)

section Stores
variable {S : Type} {D : Links S} (W : Lawful D) {s : S} {k : Consts}

/-- Unique doublets, no dangling references, no walk that comes back. -/
def TreeIn (k : Consts) (s : S) : Prop := WholeIn W k s ∧ NoReturn (D.view s)

theorem treeIn_create (hs : TreeIn W k s) {s' : S} (hc : CreatedIn W s s') : TreeIn W k s' := by
  refine ⟨(wholeIn_create W hs.1 hc).1, ?_⟩
  rcases hc with e | ⟨i, e1, e2, -, e4⟩
  · rw [e]; exact hs.2
  · have h0 : i ≠ 0 := by
      rintro rfl
      have := W.null s' e2
      rw [e4, View.set_same] at this; cases this
    rw [e4]; exact hs.2.set (not_uses_new hs.1.2.2.2 e1 h0)

theorem treeIn_core (h0 : ∀ s i, W.Inv s → W.CanUpdate (D.view s) i 0 0) (hs : TreeIn W k s) {i x a b : Nat} (hi : ∀ j, ¬ (D.view s).Uses i j)
    (he : LiveEnds W s i a b) {σ : Type} {hd : WH σ} {st : σ} {o : Out S σ Flow}
    (ho : (uniqueValidator D).updateLinks s [i] [x, a, b] hd st = some o) : TreeIn W k o.st ∧ Stays D s o.st := by
  obtain ⟨g1, g2⟩ := wholeIn_update W h0 hs.1 he ho
  refine ⟨⟨g1, ?_⟩, g2⟩
  have hE : Ends k.any a b := he.imp id fun e => by
    have := live_ends W hs.1.1 e.1 e.2.1
    rwa [hs.1.2.1] at this
  have hC : W.CanUpdate (D.view s) i a b := by
    rcases he with ⟨rfl, rfl⟩ | e
    · exact h0 _ _ hs.1.1
    · exact e.2.2
  rcases uniqueValidator_cases W hs.1.uniqIn hE hC ho with e | ⟨-, -, -, e4, -⟩
  · rw [e]; exact hs.2
  · rw [e4]; exact hs.2.set hi

theorem treeIn_delete {D' : Links S} (f : Forwards D D') (hd' : @Links.deleteLinks S D' = @Links.deleteLinks S D)
    (hix : k.indexPart = 0) (hs : TreeIn W k s) {σ : Type} {i : Nat} {hd : WH σ} {st : σ} {o : Out S σ Flow}
    (ho : (usagesValidator D').deleteLinks s [i] hd st = some o) : TreeIn W k o.st := by
  refine ⟨usagesValidator_delete_cases W f hd' hix hs.1 ho, ?_⟩
  obtain ⟨⟨h1, h2, h3, h4⟩, h5⟩ := hs
  have ho : checkUsages D s [i] st (D.deleteByWith s [i] hd st) = some o := by
    rw [← ho]
    simp only [usagesValidator, f.checkUsages, Links.deleteByWith, hd']
  rcases checkUsages_law W h1 (h2 ▸ hix) i st ho with ⟨-, rfl⟩ | ⟨e1, e2, e3⟩ | ⟨-, -, ls, rfl, -⟩
  · exact h5
  · obtain ⟨p, hv⟩ := Option.ne_none_iff_exists'.1 e1
    obtain ⟨s', k1, k2, k3, k4⟩ := W.delete s h1 i p hv (h3 i) (W.canDelete_uniq _ _ h3)
    rw [deleteByWith_ok k4] at e3
    cases e3
    show NoReturn (D.view s')
    rw [k3]; exact h5.del i
  · exact h5

/-- Both validators on the store, in either order. -/
theorem validators_treeIn (hix : k.indexPart = 0) (h0 : ∀ s i, W.Inv s → W.CanUpdate (D.view s) i 0 0) {D' : Links S}
    (hD : D' = usagesValidator (uniqueValidator D) ∨ D' = uniqueValidator (usagesValidator D)) :
    DeleteKeeps D' (TreeIn W k) ∧ UpdateKeeps D' (TreeIn W k) (LiveEnds W) (Stays D) := by
  have hr : ∀ s, Stays D s s := fun _ _ h => h
  rcases hD with rfl | rfl
  · refine ⟨fun σ s i hd st o hs ho => treeIn_delete W (D' := uniqueValidator D) ⟨rfl, rfl, rfl, rfl, rfl, rfl⟩ rfl hix hs ho, ?_⟩
    intro σ s i x a b hd st o hs he ho
    have f : Forwards D (uniqueValidator D) := ⟨rfl, rfl, rfl, rfl, rfl, rfl⟩
    have ho : checkUsages D s [i] st ((uniqueValidator D).updateByWith s [i] [x, a, b] hd st) = some o := by
      rw [← ho]; simp only [usagesValidator, f.checkUsages]
    rcases checkUsages_law W hs.1.1 (hs.1.2.1 ▸ hix) i st ho with ⟨-, rfl⟩ | ⟨-, e2, e3⟩ | ⟨-, -, ls, rfl, -⟩
    · exact ⟨hs, hr _⟩
    · simp only [updateByWith, Option.map_eq_some_iff] at e3
      obtain ⟨o', e3, rfl⟩ := e3
      exact treeIn_core W h0 (x := x) hs e2 he (o := o') e3
    · exact ⟨hs, hr _⟩
  · refine ⟨fun σ s i hd st o hs ho => treeIn_delete W (.refl D) rfl hix hs ho, ?_⟩
    intro σ s i x a b hd st o hs he ho
    simp only [uniqueValidator, List.getElem?_cons_zero, List.getElem?_cons_succ, Option.bind_eq_some_iff] at ho
    obtain ⟨f, hf, ho⟩ := ho
    split at ho
    · cases ho; exact ⟨hs, hr _⟩
    · next hff =>
      have hf : D.found s [(D.consts s).any, a, b] = some false := by
        have : f = false := by simpa using hff
        rw [← this]; exact hf
      simp only [updateByWith, Option.map_eq_some_iff] at ho
      obtain ⟨o', h1, rfl⟩ := ho
      rcases checkUsages_law W hs.1.1 (hs.1.2.1 ▸ hix) i _ h1 with ⟨-, rfl⟩ | ⟨-, e2, e3⟩ | ⟨-, -, ls, rfl, -⟩
      · exact ⟨hs, hr _⟩
      · refine treeIn_core W h0 (x := x) hs e2 he (hd := wrapW hd) (st := (st, .cont)) (o := o') ?_
        rw [uniqueValidator_not_found hf]; exact e3
      · exact ⟨hs, hr _⟩

end Stores

end Verif
