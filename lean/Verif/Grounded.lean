import Verif.Intern

/-!
# Networks in which every link is a nested pair

Points and links between links that were there before: following sources and targets always ends at points. Vocabulary of C122.
-/

namespace Verif

/-- Every link stands for a nested pair of points. -/
def View.Grounded (v : View) : Prop := ∀ i, v i ≠ none → ∃ e, Denotes v e i

/-- The nested pairs that are there. The pair of a point with itself is the point, so it is not counted separately. -/
def View.Pairs (v : View) (e : Nest) : Prop := e.collapse = e ∧ ∃ i, Denotes v e i

/-- The nested pair with other items. -/
def Nest.rename (r : Nat → Nat) : Nest → Nest
  | .item i => .item (r i)
  | .pair a b => .pair (a.rename r) (b.rename r)

/-- Up to the names `r` of the points, the same nested pairs are there. -/
structure SamePairs (r : Nat → Nat) (v w : View) : Prop where
  to : ∀ e, v.Pairs e → w.Pairs (e.rename r)
  back : ∀ e, w.Pairs e → ∃ u, v.Pairs u ∧ u.rename r = e
  /-- Different points have different names. -/
  inj : ∀ i j, v i = some (i, i) → v j = some (j, j) → r i = r j → i = j

/-- Contents that differ in the numbers of the links only: `f` renumbers `v` to `w`, and `g` renumbers back. Points are renumbered by
`r`. -/
structure Renumbered (r : Nat → Nat) (v w : View) (f g : Nat → Nat) : Prop where
  to : ∀ i a b, v i = some (a, b) → w (f i) = some (f a, f b)
  back : ∀ i a b, w i = some (a, b) → v (g i) = some (g a, g b)
  left : ∀ i, v i ≠ none → g (f i) = i
  right : ∀ i, w i ≠ none → f (g i) = i
  points : ∀ i, v i = some (i, i) → f i = r i

namespace View.Grounded
variable {v w : View}

theorem empty : View.empty.Grounded := fun _ h => absurd rfl h

theorem add (h : v.Grounded) {i x y : Nat} (hi : v i = none) (hx : v x ≠ none) (hy : v y ≠ none) : (v.set i (x, y)).Grounded := by
  have keep : ∀ k p, v k = some p → v.set i (x, y) k = some p := fun k p hk => by
    rw [View.set_other _ _ (fun e => by rw [e, hi] at hk; cases hk)]; exact hk
  intro k hk
  by_cases e : k = i
  · obtain ⟨a, ha⟩ := h x hx
    obtain ⟨b, hb⟩ := h y hy
    exact ⟨.pair a b, x, y, ha.keep keep, hb.keep keep, by rw [e, View.set_same]⟩
  · rw [View.set_other _ _ e] at hk
    obtain ⟨a, ha⟩ := h k hk
    exact ⟨a, ha.keep keep⟩

theorem addPoint (h : v.Grounded) {i : Nat} (hi : v i = none) : (v.set i (i, i)).Grounded := by
  have keep : ∀ k p, v k = some p → v.set i (i, i) k = some p := fun k p hk => by
    rw [View.set_other _ _ (fun e => by rw [e, hi] at hk; cases hk)]; exact hk
  intro k hk
  by_cases e : k = i
  · exact ⟨.item i, e, View.set_same _ _ _⟩
  · rw [View.set_other _ _ e] at hk
    obtain ⟨a, ha⟩ := h k hk
    exact ⟨a, ha.keep keep⟩

theorem denotes_del {i : Nat} (hi : ∀ j, ¬ v.Uses i j) : ∀ {e : Nest} {k : Nat}, k ≠ i → Denotes v e k → Denotes (v.del i) e k
  | .item j, k, hk, ⟨h1, h2⟩ => ⟨h1, by rw [View.del_other _ (h1 ▸ hk)]; exact h2⟩
  | .pair a b, k, hk, ⟨x, y, h1, h2, h3⟩ =>
    ⟨x, y, denotes_del hi (fun e => hi k ⟨hk, x, y, h3, .inl e⟩) h1, denotes_del hi (fun e => hi k ⟨hk, x, y, h3, .inr e⟩) h2,
      by rw [View.del_other _ hk]; exact h3⟩

theorem remove (h : v.Grounded) {i : Nat} (hi : ∀ j, ¬ v.Uses i j) : (v.del i).Grounded := by
  intro k hk
  by_cases e : k = i
  · rw [e, View.del_same] at hk; exact absurd rfl hk
  · rw [View.del_other _ e] at hk
    obtain ⟨a, ha⟩ := h k hk
    exact ⟨a, denotes_del hi e ha⟩

/-- Careful actions keep it so. -/
theorem act {k : Act} {r : Except Err Nat} (he : k.Effect v r w) (hk : k.Careful v) (h : v.Grounded) : w.Grounded := by
  cases k with
  | point =>
    cases r with
    | error e => have : w = v := he; rw [this]; exact h
    | ok i => rw [he.2]; exact h.addPoint he.1
  | pair x y =>
    cases r with
    | error e => have : w = v := he; rw [this]; exact h
    | ok i =>
      rcases he with ⟨-, e⟩ | ⟨-, h2, h3⟩
      · rw [e]; exact h
      · rw [h3]; exact h.add h2 hk.1 hk.2
  | remove i =>
    cases r with
    | error e => rw [he.2.2]; exact h
    | ok x => rw [he.2]; exact h.remove hk

end View.Grounded

variable {v w : View}

theorem Nest.collapse_parts {a b : Nest} (h : (Nest.pair a b).collapse = .pair a b) : a.collapse = a ∧ b.collapse = b := by
  rcases Nest.collapse_pair a b with ⟨i, -, -, e⟩ | ⟨e, -⟩
  · rw [e] at h; cases h
  · rw [e] at h; injection h with h1 h2; exact ⟨h1, h2⟩

theorem Nest.collapse_collapse (e : Nest) : e.collapse.collapse = e.collapse := by
  induction e with
  | item i => rfl
  | pair a b iha ihb =>
    rcases Nest.collapse_pair a b with ⟨i, -, -, e⟩ | ⟨e, hn⟩
    · rw [e]; rfl
    · rw [e]
      rcases Nest.collapse_pair a.collapse b.collapse with ⟨i, h1, h2, -⟩ | ⟨e', -⟩
      · rw [iha] at h1; rw [ihb] at h2; exact absurd ⟨h1, h2⟩ (hn i)
      · rw [e', iha, ihb]

/-- A link stands for one nested pair only. -/
theorem Denotes.same (hu : v.Uniq) (h0 : v 0 = none) : ∀ {e u : Nest} {i : Nat}, e.collapse = e → u.collapse = u →
    Denotes v e i → Denotes v u i → e = u
  | .item i, u, k, _, hc, h, h' => by
    obtain ⟨rfl, hp⟩ := h
    rw [← hc]; exact (Nest.collapse_of_point hp h').symm
  | .pair a b, .item j, k, hc, _, h, h' => by
    obtain ⟨rfl, hp⟩ := h'
    rw [← hc]; exact Nest.collapse_of_point hp h
  | .pair a b, .pair a' b', k, hc, hc', ⟨x, y, h1, h2, h3⟩, ⟨x', y', h1', h2', h3'⟩ => by
    rw [h3] at h3'; cases h3'
    rw [h1.same hu h0 (Nest.collapse_parts hc).1 (Nest.collapse_parts hc').1 h1',
      h2.same hu h0 (Nest.collapse_parts hc).2 (Nest.collapse_parts hc').2 h2']

/-- The deeper half of a nested pair, the deeper half of that, and so on, are different links. -/
theorem Denotes.chain (hu : v.Uniq) (h0 : v 0 = none) : ∀ {e : Nest} {i : Nat}, e.collapse = e → Denotes v e i →
    ∃ L : List Nat, L.Nodup ∧ L.length = e.depth + 1 ∧ ∀ k ∈ L, ∃ u : Nest, u.collapse = u ∧ Denotes v u k ∧ u.depth ≤ e.depth
  | .item i, k, hc, h => ⟨[k], by simp, rfl, fun j hj => by simp at hj; subst hj; exact ⟨.item i, rfl, h, Nat.le_refl _⟩⟩
  | .pair a b, k, hc, h => by
    obtain ⟨x, y, h1, h2, h3⟩ := h
    have ⟨ca, cb⟩ := Nest.collapse_parts hc
    have fresh : ∀ (L : List Nat) (d : Nat), d < (Nest.pair a b).depth →
        (∀ k ∈ L, ∃ u : Nest, u.collapse = u ∧ Denotes v u k ∧ u.depth ≤ d) → k ∉ L := by
      intro L d hd hL hk
      obtain ⟨u, g1, g2, g3⟩ := hL k hk
      have := g2.same hu h0 g1 hc ⟨x, y, h1, h2, h3⟩
      subst this; omega
    have hd : (Nest.pair a b).depth = max a.depth b.depth + 1 := rfl
    by_cases hab : b.depth ≤ a.depth
    · obtain ⟨L, g1, g2, g3⟩ := h1.chain hu h0 ca
      have : k ∉ L := fresh L a.depth (by omega) g3
      refine ⟨k :: L, List.nodup_cons.2 ⟨this, g1⟩, by simp [g2, hd]; omega, fun j hj => ?_⟩
      rcases List.mem_cons.1 hj with rfl | hj
      · exact ⟨_, hc, ⟨x, y, h1, h2, h3⟩, Nat.le_refl _⟩
      · obtain ⟨u, k1, k2, k3⟩ := g3 j hj; exact ⟨u, k1, k2, by omega⟩
    · obtain ⟨L, g1, g2, g3⟩ := h2.chain hu h0 cb
      have : k ∉ L := fresh L b.depth (by omega) g3
      refine ⟨k :: L, List.nodup_cons.2 ⟨this, g1⟩, by simp [g2, hd]; omega, fun j hj => ?_⟩
      rcases List.mem_cons.1 hj with rfl | hj
      · exact ⟨_, hc, ⟨x, y, h1, h2, h3⟩, Nat.le_refl _⟩
      · obtain ⟨u, k1, k2, k3⟩ := g3 j hj; exact ⟨u, k1, k2, by omega⟩

theorem nodup_length_le {L M : List Nat} (hL : L.Nodup) (h : ∀ k ∈ L, k ∈ M) : L.length ≤ M.length := by
  induction L generalizing M with
  | nil => simp
  | cons x L ih =>
    have hx := h x (by simp)
    have hn := List.nodup_cons.1 hL
    have := ih (M := M.erase x) hn.2 fun k hk => by
      have : k ≠ x := fun e => hn.1 (e ▸ hk)
      exact (List.mem_erase_of_ne this).2 (h k (by simp [hk]))
    rw [List.length_erase_of_mem hx] at this
    have := List.length_pos_of_mem hx
    simp; omega

theorem Denotes.depth_lt (hu : v.Uniq) (h0 : v 0 = none) {n : Nat} (hn : v.Size n) {e : Nest} {i : Nat} (hc : e.collapse = e)
    (h : Denotes v e i) : e.depth < n := by
  obtain ⟨L, g1, g2, g3⟩ := h.chain hu h0 hc
  obtain ⟨M, -, m2, m3⟩ := hn
  have := nodup_length_le g1 (M := M) fun k hk => by
    obtain ⟨u, -, hu, -⟩ := g3 k hk
    exact (m3 k).2 hu.live
  omega

/-- What a client can rely on: `E` tells what each link stands for. -/
structure Unfolds {S : Type} (D : Links S) (s : S) (E : Nat → Nest) : Prop where
  /-- Each link stands for its nested pair. -/
  denotes : ∀ i, D.view s i ≠ none → Denotes (D.view s) (E i) i
  /-- A link that is not a point is the pair of what its ends are; a point stands for itself. -/
  ends : ∀ i a b, D.view s i = some (a, b) → (a = i ∧ b = i ∧ E i = .item i) ∨ (¬ (a = i ∧ b = i) ∧ E i = .pair (E a) (E b))
  /-- Different links stand for different nested pairs. -/
  inj : ∀ i j, D.view s i ≠ none → D.view s j ≠ none → E i = E j → i = j
  /-- A client that follows sources and targets reads it; it need not go deeper than there are links. -/
  read : ∀ n, D.count s = some n → ∀ i, D.view s i ≠ none → D.readNest n i s = some (.ok (E i))

theorem Links.unfold_law {S : Type} {D : Links S} (W : Lawful D) {s : S} (hs : W.Inv s) (hv : (D.view s).Sound)
    (hg : (D.view s).Grounded) : ∃ E, Unfolds D s E := by
  have hu := hv.uniq
  have h0 := W.null s hs
  have hex : ∀ i, ∃ e : Nest, D.view s i ≠ none → Denotes (D.view s) e i ∧ e.collapse = e := by
    intro i
    by_cases h : D.view s i = none
    · exact ⟨.item 0, fun h' => absurd h h'⟩
    · obtain ⟨e, he⟩ := hg i h
      exact ⟨e.collapse, fun _ => ⟨he.collapse hu h0, Nest.collapse_collapse e⟩⟩
  let E := fun i => (hex i).choose
  have hE : ∀ i, D.view s i ≠ none → Denotes (D.view s) (E i) i ∧ (E i).collapse = E i := fun i => (hex i).choose_spec
  refine ⟨E, fun i hi => (hE i hi).1, fun i a b hi => ?_, fun i j hi hj e => ?_, fun n hn i hi => ?_⟩
  · have hl : D.view s i ≠ none := by rw [hi]; simp
    have ⟨ha, hb⟩ := hv.closed i a b hi
    by_cases hp : a = i ∧ b = i
    · obtain ⟨rfl, rfl⟩ := hp
      refine .inl ⟨rfl, rfl, ?_⟩
      rw [← (hE _ hl).2]; exact Nest.collapse_of_point hi (hE _ hl).1
    · refine .inr ⟨hp, ?_⟩
      have hd : Denotes (D.view s) (.pair (E a) (E b)) i := ⟨a, b, (hE a ha).1, (hE b hb).1, hi⟩
      refine (hE i hl).1.same hu h0 (hE i hl).2 ?_ hd
      rcases Nest.collapse_pair (E a) (E b) with ⟨k, h1, h2, h3⟩ | ⟨h3, -⟩
      · have := hd.collapse hu h0
        rw [h3] at this
        obtain ⟨rfl, hk⟩ := this
        rw [hk] at hi; cases hi
        exact absurd ⟨rfl, rfl⟩ hp
      · rw [h3, (hE a ha).2, (hE b hb).2]
  · exact (hE i hi).1.unique hu h0 (e ▸ (hE j hj).1)
  · obtain ⟨m, h1, h2⟩ := count_size W hs
    rw [hn] at h1; cases h1
    have ⟨g1, g2⟩ := hE i hi
    rw [readNest_law (W.get s hs) hu h0 g1 (g1.depth_lt hu h0 h2 g2), g2]

theorem Denotes.rename_inj {r : Nat → Nat} (hr : ∀ i j, v i = some (i, i) → v j = some (j, j) → r i = r j → i = j) :
    ∀ {e u : Nest} {i j : Nat}, Denotes v e i → Denotes v u j → e.rename r = u.rename r → e = u
  | .item i, .item j, _, _, h, h', he => by
    injection he with he
    rw [hr i j h.2 h'.2 he]
  | .item _, .pair _ _, _, _, _, _, he => by cases he
  | .pair _ _, .item _, _, _, _, _, he => by cases he
  | .pair a b, .pair a' b', _, _, ⟨_, _, h1, h2, _⟩, ⟨_, _, h1', h2', _⟩, he => by
    injection he with e1 e2
    rw [h1.rename_inj hr h1' e1, h2.rename_inj hr h2' e2]

/-- Which nested pairs are there determines the contents up to the numbers of the links. -/
theorem View.Grounded.renumber {r : Nat → Nat} (hv : v.Sound) (hw : w.Sound) (gv : v.Grounded) (gw : w.Grounded) (h0v : v 0 = none)
    (h0w : w 0 = none) (h : SamePairs r v w) : ∃ f g, Renumbered r v w f g := by
  have huv := hv.uniq
  have huw := hw.uniq
  have one : ∀ {v : View}, v.Uniq → v 0 = none → v.Grounded → ∀ i, v i ≠ none → ∃ e : Nest, e.collapse = e ∧ Denotes v e i :=
    fun hu h0 gv i hi => by
      obtain ⟨e, he⟩ := gv i hi
      exact ⟨e.collapse, Nest.collapse_collapse e, he.collapse hu h0⟩
  have hf : ∀ i, ∃ j, v i ≠ none → ∀ e : Nest, e.collapse = e → Denotes v e i → Denotes w (e.rename r) j := by
    intro i
    by_cases hi : v i = none
    · exact ⟨0, fun h => absurd hi h⟩
    · obtain ⟨e, hc, he⟩ := one huv h0v gv i hi
      obtain ⟨-, j, hj⟩ := h.to e ⟨hc, i, he⟩
      exact ⟨j, fun _ u hu' hd => hd.same huv h0v hu' hc he ▸ hj⟩
  have hg : ∀ j, ∃ i, w j ≠ none → ∃ e : Nest, e.collapse = e ∧ Denotes v e i ∧ Denotes w (e.rename r) j := by
    intro j
    by_cases hj : w j = none
    · exact ⟨0, fun h => absurd hj h⟩
    · obtain ⟨e, hc, he⟩ := one huw h0w gw j hj
      obtain ⟨u, ⟨hu, i, hi⟩, rfl⟩ := h.back e ⟨hc, j, he⟩
      exact ⟨i, fun _ => ⟨u, hu, hi, he⟩⟩
  let f := fun i => (hf i).choose
  let g := fun j => (hg j).choose
  have hf : ∀ i, v i ≠ none → ∀ e : Nest, e.collapse = e → Denotes v e i → Denotes w (e.rename r) (f i) := fun i => (hf i).choose_spec
  have hg : ∀ j, w j ≠ none → ∃ e : Nest, e.collapse = e ∧ Denotes v e (g j) ∧ Denotes w (e.rename r) j := fun j => (hg j).choose_spec
  have left : ∀ i, v i ≠ none → g (f i) = i := by
    intro i hi
    obtain ⟨e, hc, he⟩ := one huv h0v gv i hi
    have h1 := hf i hi e hc he
    obtain ⟨u, hu, h2, h3⟩ := hg _ h1.live
    obtain ⟨c1, -⟩ := h.to e ⟨hc, i, he⟩
    obtain ⟨c2, -⟩ := h.to u ⟨hu, _, h2⟩
    have := he.rename_inj h.inj h2 (h1.same huw h0w c1 c2 h3)
    subst this
    exact h2.unique huv h0v he
  have right : ∀ j, w j ≠ none → f (g j) = j := by
    intro j hj
    obtain ⟨e, hc, h1, h2⟩ := hg j hj
    exact (hf _ h1.live e hc h1).unique huw h0w h2
  have to : ∀ i a b, v i = some (a, b) → w (f i) = some (f a, f b) := by
    intro i a b hi
    obtain ⟨ha, hb⟩ := hv.closed i a b hi
    have hl : v i ≠ none := by rw [hi]; simp
    obtain ⟨e, hc, he⟩ := one huv h0v gv i hl
    have hd := hf i hl e hc he
    cases e with
    | item j =>
      obtain ⟨rfl, hj⟩ := he
      rw [hi] at hj; cases hj
      obtain ⟨e1, e2⟩ := hd
      rw [e1, e2]
    | pair p q =>
      obtain ⟨x, y, h1, h2, h3⟩ := he
      rw [hi] at h3; cases h3
      obtain ⟨x', y', h1', h2', h3'⟩ := hd
      rw [h3', h1'.unique huw h0w (hf _ ha p (Nest.collapse_parts hc).1 h1), h2'.unique huw h0w (hf _ hb q (Nest.collapse_parts hc).2 h2)]
  refine ⟨f, g, to, fun j x y hj => ?_, left, right, fun i hi => (hf i (by rw [hi]; simp) (.item i) rfl ⟨rfl, hi⟩).1⟩
  have hl : w j ≠ none := by rw [hj]; simp
  obtain ⟨e, -, he, -⟩ := hg j hl
  obtain ⟨⟨a, b⟩, hab⟩ := Option.ne_none_iff_exists'.1 he.live
  have h1 := to _ a b hab
  rw [right j hl, hj] at h1
  cases h1
  obtain ⟨ha, hb⟩ := hv.closed _ a b hab
  rw [hab, left a ha, left b hb]

end Verif
