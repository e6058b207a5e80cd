import Verif.Grounded

/-!
# A client that takes its links apart

The client deletes a link that no other link uses, as long as there is one. The client is not part of the repository; the calls it makes
are. Vocabulary of C125.
-/

namespace Verif

namespace Links
variable {S : Type} (D : Links S)

/-- No other link of the list uses the link. -/
def unusedIn (L : List Link) (l : Link) : Bool := L.all fun m => m.index == l.index || (m.source != l.index && m.target != l.index)

/-- At most `n` times: list the links with `each` (`doublets/src/data/traits.rs:285-288`), look for the first that no other uses, and
`delete` it (`doublets/src/data/traits.rs:245-250`). The client stops when there is no such link. `none` if a call does not return or
fails. -/
def takeApart : Nat → S → Option S
  | 0, s => some s
  | n + 1, s => (D.collect s []).bind fun L =>
    match L.find? (unusedIn L) with
    | none => some s
    | some l => (D.delete s l.index).bind fun o =>
      match o.res with
      | .error _ => none
      | .ok _ => takeApart n o.st

end Links

theorem exists_highest {α : Type} (f : α → Nat) : ∀ {L : List α}, L ≠ [] → ∃ l ∈ L, ∀ m ∈ L, f m ≤ f l
  | [], h => absurd rfl h
  | [a], _ => ⟨a, by simp, fun m hm => by simp at hm; rw [hm]; exact Nat.le_refl _⟩
  | a :: b :: L, _ => by
    obtain ⟨l, hl, hm⟩ := exists_highest f (L := b :: L) (by simp)
    by_cases h : f a ≤ f l
    · exact ⟨l, List.mem_cons_of_mem _ hl, fun m hm' => by
        rcases List.mem_cons.1 hm' with rfl | hm'
        · exact h
        · exact hm m hm'⟩
    · refine ⟨a, by simp, fun m hm' => ?_⟩
      rcases List.mem_cons.1 hm' with rfl | hm'
      · exact Nat.le_refl _
      · have := hm m hm'; omega

namespace Links
variable {S : Type} {D : Links S}

theorem unused_exists (W : Lawful D) {s : S} (hs : W.Inv s) (hv : (D.view s).Sound) (hg : (D.view s).Grounded) {L : List Link}
    (l3 : ∀ l, l ∈ L ↔ (D.view s).Has l) (hne : L ≠ []) : ∃ l ∈ L, unusedIn L l = true := by
  obtain ⟨E, hE⟩ := unfold_law W hs hv hg
  obtain ⟨l, hl, hm⟩ := exists_highest (fun l : Link => (E l.index).depth) hne
  refine ⟨l, hl, ?_⟩
  rw [unusedIn, List.all_eq_true]
  intro m hmL
  rw [Bool.or_eq_true, beq_iff_eq, Bool.and_eq_true, bne_iff_ne, bne_iff_ne]
  refine Classical.or_iff_not_imp_left.2 fun hne => ?_
  have h1 := hm m hmL
  have h2 : D.view s m.index = some (m.source, m.target) := (l3 m).1 hmL
  rcases hE.ends _ _ _ h2 with ⟨e1, e2, -⟩ | ⟨-, e⟩
  · exact ⟨fun h => hne (e1.symm.trans h), fun h => hne (e2.symm.trans h)⟩
  · simp only [e, Nest.depth] at h1
    exact ⟨fun h => by rw [h] at h1; omega, fun h => by rw [h] at h1; omega⟩

theorem takeApart_law (W : Lawful D) : ∀ {k n : Nat} {s : S}, W.Inv s → (D.view s).Sound → (D.view s).Grounded → (D.view s).Size n → k ≤ n →
    ∃ s', D.takeApart k s = some s' ∧ W.Inv s' ∧ D.count s' = some (n - k) ∧ (D.view s').Sound ∧
      ∀ i p, D.view s' i = some p → D.view s i = some p
  | 0, n, s, hs, hv, _, hn, _ => by
    obtain ⟨m, h1, h2⟩ := count_size W hs
    cases h2.unique hn
    exact ⟨s, rfl, hs, h1, hv, fun _ _ h => h⟩
  | k + 1, n, s, hs, hv, hg, hn, hk => by
    obtain ⟨L, l1, -, l3⟩ := W.each_all s hs
    have hne : L ≠ [] := by
      rintro rfl
      obtain ⟨M, m1, m2, m3⟩ := hn
      cases M with
      | nil => simp at m2; omega
      | cons x M =>
        obtain ⟨⟨a, b⟩, hp⟩ := Option.ne_none_iff_exists'.1 ((m3 x).1 (by simp))
        exact absurd ((l3 ⟨x, a, b⟩).2 hp) (by simp)
    obtain ⟨l0, h0, hu0⟩ := unused_exists W hs hv hg l3 hne
    cases hf : L.find? (unusedIn L) with
    | none => exact absurd hu0 (by simpa using List.find?_eq_none.1 hf l0 h0)
    | some l =>
      have hl : D.view s l.index = some (l.source, l.target) := (l3 l).1 (List.mem_of_find?_eq_some hf)
      have hu : ∀ j, ¬ (D.view s).Uses l.index j := by
        rintro j ⟨hj, a, b, hp, hab⟩
        have := List.find?_some hf
        rw [unusedIn, List.all_eq_true] at this
        have := this ⟨j, a, b⟩ ((l3 ⟨j, a, b⟩).2 hp)
        rw [Bool.or_eq_true, beq_iff_eq, Bool.and_eq_true, bne_iff_ne, bne_iff_ne] at this
        rcases this with h | ⟨h1, h2⟩
        · exact hj h
        · exact hab.elim h1 h2
      obtain ⟨s', h1, -, h2, h3⟩ := W.delete s hs l.index _ hl (hv.uniq _) (W.canDelete_uniq _ _ hv.uniq)
      obtain ⟨s'', k1, k2, k3, k4, k5⟩ := takeApart_law W (k := k) (n := n - 1) h1 (h2 ▸ hv.remove hu) (h2 ▸ hg.remove hu)
        (h2 ▸ size_del hn (by rw [hl]; simp)) (by omega)
      refine ⟨s'', by simp [takeApart, collect_eq l1, hf, delete_ok h3, k1], k2, by rw [k3]; congr 1; omega, k4, fun i p hi => ?_⟩
      have := k5 i p hi
      rw [h2] at this
      by_cases e : i = l.index
      · rw [e, View.del_same] at this; cases this
      · rw [View.del_other _ e] at this; exact this

end Links
end Verif
