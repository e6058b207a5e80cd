import Verif.Grounded

/-!
# A client that carries nested pairs over into another store

The client lists the links of one store, reads what each of them stands for, and stores it in another store, where the points have
other numbers. The client is not part of the repository; the calls it makes are. Vocabulary of C124.
-/

namespace Verif

namespace Links
variable {S T : Type} (D : Links S) (D' : Links T)

/-- Reading what each of some links stands for, to depth `n`, with `get_link` (`doublets/src/data/traits.rs:256`). -/
def readAll (n : Nat) : List Link → S → Option (Except Err (List Nest))
  | [], _ => some (.ok [])
  | l :: ls, s => (D.readNest n l.index s).bind fun
    | .error e => some (.error e)
    | .ok a => (readAll n ls s).map fun r => r.map (a :: ·)

/-- Carrying over: `each` (`doublets/src/data/traits.rs:285-288`) lists the links, which are read one by one; then what they stand for
is stored with `get_or_create` (`doublets/src/data/traits.rs:425-434`), with the points renamed by `r`. The indices in the other store are
returned, in the order of the links. -/
def migrate (r : Nat → Nat) (s : S) (t : T) : Option (Out T Unit (List Nat)) :=
  (D.collect s []).bind fun L => (D.readAll L.length L s).bind fun
    | .error e => some ⟨.error e, t, ()⟩
    | .ok es => D'.internAll (es.map (Nest.rename r)) t

/-- The points among some links. -/
def pointsIn (L : List Link) : List Nat := (L.filter fun l => l.source == l.index && l.target == l.index).map (·.index)

/-- Moving into an empty store: the client first makes as many points there as there are in `s`, with `create_point`
(`doublets/src/data/traits.rs:336-342`). It takes them to be numbered from 1, in the order in which `each` visits the points of `s`. Then it
carries over. -/
def moveTo (s : S) (t : T) : Option (Out T Unit (List Nat)) :=
  (D.collect s []).bind fun L => (D'.makePoints (pointsIn L).length t).bind fun o =>
    match o.res with
    | .error e => some ⟨.error e, o.st, ()⟩
    | .ok _ => D.migrate D' (fun i => (pointsIn L).idxOf i + 1) s o.st

end Links

variable {v w u : View} {r f g : Nat → Nat}

theorem Renumbered.denotes (R : Renumbered r v w f g) : ∀ {e : Nest} {i : Nat}, Denotes v e i → Denotes w (e.rename r) (f i)
  | .item i, _, ⟨h1, h2⟩ => by
    subst h1
    have := R.to _ _ _ h2
    rw [R.points _ h2] at this
    exact ⟨R.points _ h2, this⟩
  | .pair a b, i, ⟨x, y, h1, h2, h3⟩ => ⟨f x, f y, R.denotes h1, R.denotes h2, R.to _ _ _ h3⟩

theorem Nest.parts_rename (r : Nat → Nat) (e : Nest) : (e.rename r).parts = e.parts.map (Nest.rename r) := by
  induction e with
  | item i => rfl
  | pair a b iha ihb => simp [Nest.rename, Nest.parts, iha, ihb]

theorem Denotes.parts : ∀ {e : Nest} {i : Nat}, e.collapse = e → Denotes v e i → ∀ p ∈ e.parts, p.collapse = p ∧ ∃ j, Denotes v p j
  | .item i, k, hc, h, p, hp => by
    simp [Nest.parts] at hp
    subst hp
    exact ⟨hc, k, h⟩
  | .pair a b, k, hc, h, p, hp => by
    simp only [Nest.parts, List.mem_cons, List.mem_append] at hp
    rcases hp with rfl | hp | hp
    · exact ⟨hc, k, h⟩
    · obtain ⟨x, y, h1, -, -⟩ := h
      exact h1.parts (Nest.collapse_parts hc).1 p hp
    · obtain ⟨x, y, -, h2, -⟩ := h
      exact h2.parts (Nest.collapse_parts hc).2 p hp

theorem Denotes.points_rename : ∀ {e : Nest} {i : Nat}, Denotes v e i → ∀ j ∈ (e.rename r).points, ∃ k, j = r k ∧ v k = some (k, k)
  | .item i, _, h, j, hj => by
    simp [Nest.rename, Nest.points] at hj
    exact ⟨i, hj, h.2⟩
  | .pair a b, _, ⟨_, _, h1, h2, _⟩, j, hj => by
    simp only [Nest.rename, Nest.points, List.mem_append] at hj
    exact hj.elim (h1.points_rename j) (h2.points_rename j)

theorem Denotes.collapse_rename (hr : ∀ i j, v i = some (i, i) → v j = some (j, j) → r i = r j → i = j) :
    ∀ {e : Nest} {i : Nat}, e.collapse = e → Denotes v e i → (e.rename r).collapse = e.rename r
  | .item i, _, _, _ => rfl
  | .pair a b, _, hc, ⟨_, _, h1, h2, _⟩ => by
    obtain ⟨ca, cb⟩ := Nest.collapse_parts hc
    have ha := h1.collapse_rename hr ca
    have hb := h2.collapse_rename hr cb
    rcases Nest.collapse_pair (a.rename r) (b.rename r) with ⟨k, k1, k2, -⟩ | ⟨k, -⟩
    · rw [ha] at k1
      rw [hb] at k2
      have := h1.rename_inj hr h2 (k1.trans k2.symm)
      subst this
      cases a with
      | item j => simp [Nest.collapse] at hc
      | pair _ _ => cases k1
    · show ((Nest.pair (a.rename r) (b.rename r)).collapse) = _
      rw [k, ha, hb]; rfl

/-- In a network of nested pairs the ends of links are links. -/
theorem View.Grounded.sound (hg : w.Grounded) (hu : w.Uniq) (h0 : w 0 = none) : w.Sound := by
  have closed : ∀ i a b, w i = some (a, b) → w a ≠ none ∧ w b ≠ none := by
    intro i a b hi
    obtain ⟨e, he⟩ := hg i (by rw [hi]; simp)
    cases e with
    | item j =>
      obtain ⟨rfl, hj⟩ := he
      rw [hi] at hj; cases hj
      rw [hi]; simp
    | pair p q =>
      obtain ⟨x, y, h1, h2, h3⟩ := he
      rw [hi] at h3; cases h3
      exact ⟨h1.live, h2.live⟩
  refine ⟨fun i j p hi hj => hu j p hj (fun h => ?_) i hi, closed⟩
  obtain ⟨a, b⟩ := p
  cases h
  exact (closed i 0 0 hi).1 h0

/-- What the names of the points must be like: `r` takes the points of `v` to the points of `u`, one to one, and `u` contains nothing
else. -/
structure Names (r : Nat → Nat) (v u : View) : Prop where
  to : ∀ i, v i = some (i, i) → u (r i) = some (r i, r i)
  inj : ∀ i j, v i = some (i, i) → v j = some (j, j) → r i = r j → i = j
  only : ∀ k, u k ≠ none → ∃ i, v i = some (i, i) ∧ k = r i

/-- What carrying over from `s` to `t` leads to. -/
structure Migrated {S T : Type} (D : Links S) (D' : Links T) (r : Nat → Nat) (s : S) (o : Out T Unit (List Nat)) : Prop where
  /-- If no call failed, the contents are the same up to the numbers of the links, and the result tells the new numbers: link by link,
  in the order in which the links are visited. -/
  done : ∀ rs, o.res = .ok rs → ∃ L f g, D.collect s [] = some L ∧ rs = L.map (fun l => f l.index) ∧
    Renumbered r (D.view s) (D'.view o.st) f g
  /-- It fails only if no link can be created, and then some links are still missing. -/
  failed : ∀ err, o.res = .error err → D'.create o.st = some ⟨.error err, o.st, ()⟩ ∧
    ∃ L, D.collect s [] = some L ∧ ∀ n, (D'.view o.st).Size n → n < L.length

/-- What moving from `s` into an empty store leads to. -/
structure Moved {S T : Type} (D : Links S) (D' : Links T) (s : S) (o : Out T Unit (List Nat)) : Prop where
  /-- If no call failed, the contents are the same up to the numbers of the links; the result tells the new numbers, link by link, in the
  order in which the links are visited; and the new numbers go from 1 to the number of links, without gaps. -/
  done : ∀ rs, o.res = .ok rs → ∃ L r f g, D.collect s [] = some L ∧ rs = L.map (fun l => f l.index) ∧
    Renumbered r (D.view s) (D'.view o.st) f g ∧ ∀ k, D'.view o.st k ≠ none ↔ 1 ≤ k ∧ k ≤ L.length
  /-- It fails only if no link can be created, and then some links are still missing. -/
  failed : ∀ err, o.res = .error err → D'.create o.st = some ⟨.error err, o.st, ()⟩ ∧
    ∃ L n, D.collect s [] = some L ∧ n < L.length ∧ ∀ k, D'.view o.st k ≠ none ↔ 1 ≤ k ∧ k ≤ n

theorem Renumbered.size (R : Renumbered r v w f g) {n : Nat} (h : v.Size n) : w.Size n := by
  obtain ⟨l, h1, h2, h3⟩ := h
  have live : ∀ i, v i ≠ none → w (f i) ≠ none := fun i hi => by
    obtain ⟨⟨a, b⟩, hp⟩ := Option.ne_none_iff_exists'.1 hi
    rw [R.to i a b hp]; simp
  refine ⟨l.map f, ?_, by simpa using h2, fun k => ?_⟩
  · have : (l.map f).map g = l := by
      rw [List.map_map]
      conv => rhs; rw [← List.map_id l]
      exact List.map_congr_left fun i hi => R.left i ((h3 i).1 hi)
    rw [← this] at h1
    exact (List.pairwise_map.1 h1).imp fun hne e => hne (congrArg g e)
  · rw [List.mem_map]
    constructor
    · rintro ⟨i, hi, rfl⟩; exact live i ((h3 i).1 hi)
    · intro hk
      obtain ⟨⟨a, b⟩, hp⟩ := Option.ne_none_iff_exists'.1 hk
      exact ⟨g k, (h3 _).2 (by rw [R.back k a b hp]; simp), R.right k hk⟩

theorem Renumbered.live (R : Renumbered r v w f g) {i : Nat} (hi : v i ≠ none) : w (f i) ≠ none := by
  obtain ⟨⟨a, b⟩, hp⟩ := Option.ne_none_iff_exists'.1 hi
  rw [R.to i a b hp]; simp

theorem Renumbered.live_back (R : Renumbered r v w f g) {k : Nat} (hk : w k ≠ none) : v (g k) ≠ none := by
  obtain ⟨⟨a, b⟩, hp⟩ := Option.ne_none_iff_exists'.1 hk
  rw [R.back k a b hp]; simp

theorem Renumbered.grounded (R : Renumbered r v w f g) (hg : v.Grounded) : w.Grounded := fun k hk => by
  obtain ⟨e, he⟩ := hg _ (R.live_back hk)
  exact ⟨e.rename r, R.right k hk ▸ R.denotes he⟩

theorem Renumbered.sound (R : Renumbered r v w f g) (hv : v.Sound) : w.Sound := by
  refine ⟨fun i j p hi hj => ?_, fun i a b hi => ?_⟩
  · have h := hv.inj _ _ _ (R.back i p.1 p.2 hi) (R.back j p.1 p.2 hj)
    rw [← R.right i (by rw [hi]; simp), h, R.right j (by rw [hj]; simp)]
  · have h := R.back i a b hi
    obtain ⟨ha, hb⟩ := hv.closed _ _ _ h
    have hf := R.to _ _ _ h
    rw [R.right i (by rw [hi]; simp), hi] at hf
    injection hf with hf
    injection hf with h1 h2
    exact ⟨by rw [h1]; exact R.live ha, by rw [h2]; exact R.live hb⟩

theorem Renumbered.trans {x : View} {r' f' g' : Nat → Nat} (R : Renumbered r v w f g) (R' : Renumbered r' w x f' g') :
    Renumbered (fun i => r' (r i)) v x (fun i => f' (f i)) (fun i => g (g' i)) where
  to := fun _ _ _ h => R'.to _ _ _ (R.to _ _ _ h)
  back := fun _ _ _ h => R.back _ _ _ (R'.back _ _ _ h)
  left := fun i hi => by rw [R'.left _ (R.live hi), R.left i hi]
  right := fun k hk => by rw [R.right _ (R'.live_back hk), R'.right k hk]
  points := fun i hi => by
    have := R.to _ _ _ hi
    rw [R'.points _ this, R.points _ hi]

theorem View.Upto.size {n : Nat} (h : v.Upto n) : v.Size n :=
  ⟨List.range' 1 n, List.nodup_range', by simp, fun i => by rw [h i, List.mem_range'_1]; omega⟩

namespace Links
variable {S T : Type} {D : Links S} {D' : Links T}

theorem readAll_law {s : S} {n : Nat} {E : Nat → Nest} : ∀ {L : List Link}, (∀ l ∈ L, D.readNest n l.index s = some (.ok (E l.index))) →
    D.readAll n L s = some (.ok (L.map fun l => E l.index))
  | [], _ => rfl
  | l :: L, h => by
    rw [readAll, h l (by simp), Option.bind_some]
    simp only
    rw [readAll_law fun l' hl' => h l' (List.mem_cons_of_mem _ hl')]
    rfl

theorem migrate_law (W : Lawful D) (W' : Lawful D') {J : T → Prop} (G : Grows W' J) {s : S} (hs : W.Inv s) (hv : (D.view s).Sound)
    (hg : (D.view s).Grounded) {t : T} (ht : J t) {r : Nat → Nat} (hr : Names r (D.view s) (D'.view t)) :
    ∃ o, D.migrate D' r s t = some o ∧ J o.st ∧ Migrated D D' r s o := by
  obtain ⟨E, hE⟩ := unfold_law W hs hv hg
  have hu := hv.uniq
  have h0 := W.null s hs
  obtain ⟨L, l1, -, l3⟩ := W.each_all s hs
  have hL := collect_eq l1
  have hlive : ∀ l ∈ L, D.view s l.index ≠ none := fun l hl => by rw [(l3 l).1 hl]; simp
  have hread := readAll_law (D := D) (s := s) (n := L.length) (E := E) (L := L) fun l hl =>
    hE.read _ (W.count_all s hs L l1) _ (hlive l hl)
  have hcol : ∀ i, D.view s i ≠ none → (E i).collapse = E i := by
    intro i hi
    have h1 := (hE.denotes i hi).collapse hu h0
    have h2 := hE.read _ (W.count_all s hs L l1) i hi
    obtain ⟨m, m1, m2⟩ := count_size W hs
    have hd : (E i).collapse.depth < m := h1.depth_lt hu h0 m2 (Nest.collapse_collapse _)
    cases (W.count_all s hs L l1).symm.trans m1
    have h3 := readNest_law (W.get s hs) hu h0 h1 hd
    rw [h2, Nest.collapse_collapse] at h3
    exact (Except.ok.inj (Option.some.inj h3)).symm
  let es := (L.map fun l => E l.index).map (Nest.rename r)
  have hpts : ∀ e ∈ es, ∀ i ∈ e.points, D'.view t i = some (i, i) := by
    intro e he i hi
    obtain ⟨a, ha, rfl⟩ := List.mem_map.1 he
    obtain ⟨l, hl, rfl⟩ := List.mem_map.1 ha
    obtain ⟨k, rfl, hk⟩ := (hE.denotes _ (hlive l hl)).points_rename i hi
    exact hr.to k hk
  obtain ⟨o, o1, o2, o3, o4, o5⟩ := internAll_law W' G es ht hpts
  have hu' := G.uniq o2
  have h0' := W'.null _ (G.inv o2)
  -- what the links of the other store stand for
  have hnew : ∀ k, D'.view o.st k ≠ none → ∃ p : Nest, (D.view s).Pairs p ∧ Denotes (D'.view o.st) (p.rename r) k := by
    intro k hk
    rcases o3.new k hk with h | ⟨p, hp, hd⟩
    · obtain ⟨i, hi, rfl⟩ := hr.only k h
      exact ⟨.item i, ⟨rfl, i, rfl, hi⟩, rfl, o3.keep _ _ (hr.to i hi)⟩
    · obtain ⟨e, he, hpe⟩ := List.mem_flatMap.1 hp
      obtain ⟨a, ha, rfl⟩ := List.mem_map.1 he
      obtain ⟨l, hl, rfl⟩ := List.mem_map.1 ha
      rw [Nest.parts_rename] at hpe
      obtain ⟨q, hq, rfl⟩ := List.mem_map.1 hpe
      exact ⟨q, (hE.denotes _ (hlive l hl)).parts (hcol _ (hlive l hl)) q hq, hd⟩
  refine ⟨o, by simp only [migrate, hL, Option.bind_some, hread]; exact o1, o2, fun rs hrs => ?_, fun err he => ⟨(o5 err he).1, L, hL, ?_⟩⟩
  rotate_left
  · -- the links of the other store stand for different links of the first, and none for the one that is missing
    rintro n ⟨M, m1, m2, m3⟩
    obtain ⟨-, p, hp, hmiss⟩ := o5 err he
    obtain ⟨e, he, hpe⟩ := List.mem_flatMap.1 hp
    obtain ⟨a, ha, rfl⟩ := List.mem_map.1 he
    obtain ⟨l, hl, rfl⟩ := List.mem_map.1 ha
    rw [Nest.parts_rename] at hpe
    obtain ⟨q, hq, rfl⟩ := List.mem_map.1 hpe
    obtain ⟨q1, j0, q2⟩ := (hE.denotes _ (hlive l hl)).parts (hcol _ (hlive l hl)) q hq
    have hx : ∀ k, ∃ j, D'.view o.st k ≠ none → ∃ p : Nest, p.collapse = p ∧ Denotes (D.view s) p j ∧ Denotes (D'.view o.st) (p.rename r) k := by
      intro k
      by_cases hk : D'.view o.st k = none
      · exact ⟨0, fun h => absurd hk h⟩
      · obtain ⟨p, ⟨p1, j, p2⟩, p3⟩ := hnew k hk
        exact ⟨j, fun _ => ⟨p, p1, p2, p3⟩⟩
    let h := fun k => (hx k).choose
    have hh : ∀ k, D'.view o.st k ≠ none → ∃ p : Nest, p.collapse = p ∧ Denotes (D.view s) p (h k) ∧ Denotes (D'.view o.st) (p.rename r) k :=
      fun k => (hx k).choose_spec
    have hin : ∀ k, D'.view o.st k ≠ none → ∀ p : Nest, p.collapse = p → Denotes (D.view s) p (h k) → Denotes (D'.view o.st) (p.rename r) k := by
      intro k hk p hp hd
      obtain ⟨p', p1, p2, p3⟩ := hh k hk
      rw [hd.same hu h0 hp p1 p2]; exact p3
    have hnd : (j0 :: M.map h).Nodup := by
      rw [List.nodup_cons]
      constructor
      · intro hm
        obtain ⟨k, hk, e⟩ := List.mem_map.1 hm
        exact hmiss k (hin k ((m3 k).1 hk) q q1 (by rw [e]; exact q2))
      · refine List.pairwise_map.2 (m1.imp_of_mem fun {k k'} hk hk' hne e => hne ?_)
        obtain ⟨p, p1, p2, p3⟩ := hh k ((m3 k).1 hk)
        exact p3.unique hu' h0' (hin k' ((m3 k').1 hk') p p1 (e ▸ p2))
    have := nodup_length_le hnd (M := L.map (·.index)) fun j hj => by
      have hj : D.view s j ≠ none := by
        rcases List.mem_cons.1 hj with rfl | hj
        · exact q2.live
        · obtain ⟨k, hk, rfl⟩ := List.mem_map.1 hj
          obtain ⟨p, -, p2, -⟩ := hh k ((m3 k).1 hk)
          exact p2.live
      obtain ⟨⟨a, b⟩, hp⟩ := Option.ne_none_iff_exists'.1 hj
      exact List.mem_map.2 ⟨⟨j, a, b⟩, (l3 ⟨j, a, b⟩).2 hp, rfl⟩
    simp only [List.length_cons, List.length_map, m2] at this
    omega
  obtain ⟨k1, k2⟩ := o4 rs hrs
  have hg' : (D'.view o.st).Grounded := fun k hk => by
    obtain ⟨p, -, hd⟩ := hnew k hk
    exact ⟨_, hd⟩
  have hv' := hg'.sound hu' h0'
  have hat : ∀ (n : Nat) l, L[n]? = some l → ∃ x, rs[n]? = some x ∧ Denotes (D'.view o.st) ((E l.index).rename r) x := by
    intro n l hl
    have hn : n < rs.length := by
      rw [k1]; simp only [es, List.length_map]
      exact (List.getElem?_eq_some_iff.1 hl).1
    exact ⟨rs[n], List.getElem?_eq_getElem hn, k2 n _ _ (by simp [es, hl]) (List.getElem?_eq_getElem hn)⟩
  have same : SamePairs r (D.view s) (D'.view o.st) := by
    refine ⟨fun e ⟨hc, i, hi⟩ => ⟨hi.collapse_rename hr.inj hc, ?_⟩, fun e ⟨hc, j, hj⟩ => ?_, hr.inj⟩
    · obtain ⟨⟨a, b⟩, hp⟩ := Option.ne_none_iff_exists'.1 hi.live
      obtain ⟨n, hn⟩ := List.mem_iff_getElem?.1 ((l3 ⟨i, a, b⟩).2 hp)
      obtain ⟨x, -, hx⟩ := hat n _ hn
      rw [hi.same hu h0 hc (hcol i hi.live) (hE.denotes i hi.live)]
      exact ⟨x, hx⟩
    · obtain ⟨p, hp, hd⟩ := hnew j hj.live
      obtain ⟨hpc, i, hi⟩ := hp
      exact ⟨p, ⟨hpc, i, hi⟩, hd.same hu' h0' (hi.collapse_rename hr.inj hpc) hc hj⟩
  obtain ⟨f, g, R⟩ := hg.renumber hv hv' hg' h0 h0' same
  refine ⟨L, f, g, hL, List.ext_getElem? fun n => ?_, R⟩
  rw [List.getElem?_map]
  cases hn : L[n]? with
  | none =>
    rw [List.getElem?_eq_none_iff] at hn
    rw [Option.map_none, List.getElem?_eq_none_iff, k1]
    simpa [es] using hn
  | some l =>
    obtain ⟨x, h1, h2⟩ := hat n l hn
    rw [h1, Option.map_some, h2.unique hu' h0' (R.denotes (hE.denotes _ (hlive l (List.mem_of_getElem? hn))))]

/-- As long as nothing is deleted there are no gaps. -/
theorem Grows.dense {W' : Lawful D'} {J : T → Prop} (G : Grows W' J) (hn : Numbers W') :
    Grows W' (fun t => J t ∧ ∃ n, (D'.view t).Upto n) where
  inv := fun h => G.inv h.1
  uniq := fun h => G.uniq h.1
  create := fun h => G.create h.1
  update := fun h => G.update h.1
  next := fun {t t' i x y} h hx hy hne hi h0 hv hcr => by
    obtain ⟨h, n, hn'⟩ := h
    refine ⟨G.next h hx hy hne hi h0 hv hcr, n + 1, ?_⟩
    have hz : D'.view t (n + 1) = none := by
      cases hz : D'.view t (n + 1) with
      | none => rfl
      | some p => have := (hn' (n + 1)).1 (by rw [hz]; simp); omega
    have e : i = n + 1 := by
      rcases createLink_next W' hn (G.inv h) (G.create h) hn' x y
        (G.update h hz hx hy (uniq_set_new (G.uniq h) hne)) with ⟨e, -, h2⟩ | ⟨t2, -, h2, -⟩
      · rw [hcr] at h2; cases h2
      · rw [hcr] at h2; cases h2; rfl
    subst e
    intro k
    rw [hv]
    by_cases hk : k = n + 1
    · rw [hk, View.set_same]; simp
    · rw [View.set_other _ _ hk, hn' k]; omega

theorem move_law (W : Lawful D) (W' : Lawful D') {J : T → Prop} (G : Grows W' J) (hn : Numbers W')
    (hup : ∀ n, W'.CanUpdate ((points n).set (n + 1) (0, 0)) (n + 1) (n + 1) (n + 1))
    (hJ : ∀ k t, W'.Inv t → D'.view t = points k → J t) {s : S} (hs : W.Inv s) (hv : (D.view s).Sound)
    (hg : (D.view s).Grounded) {t : T} (ht : W'.Inv t) (h0 : D'.count t = some 0) :
    ∃ o, D.moveTo D' s t = some o ∧ J o.st ∧ Moved D D' s o := by
  obtain ⟨L, l1, l2, l3⟩ := W.each_all s hs
  have hL := collect_eq l1
  have hP : ∀ i, i ∈ pointsIn L ↔ D.view s i = some (i, i) := by
    intro i
    simp only [pointsIn, List.mem_map, List.mem_filter, Bool.and_eq_true, beq_iff_eq]
    constructor
    · rintro ⟨l, ⟨h1, h2, h3⟩, rfl⟩
      have := (l3 l).1 h1
      unfold View.Has at this
      rw [this, h2, h3]
    · exact fun h => ⟨⟨i, i, i⟩, ⟨(l3 ⟨i, i, i⟩).2 h, rfl, rfl⟩, rfl⟩
  have hnd : (pointsIn L).Nodup := ((nodup_index l2 fun l hl => (l3 l).1 hl).sublist (List.filter_sublist.map _))
  rcases makePoints_law W' hn hup (pointsIn L).length 0 t ht (empty_of_count W' ht h0)
    (fun k t' _ h1 h2 _ => G.create (hJ _ t' h1 h2)) with ⟨t', h1, h2, h3⟩ | ⟨e, t', k, hk, h1, h2, h3, h4⟩
  · rw [Nat.zero_add] at h3
    have hr : Names (fun i => (pointsIn L).idxOf i + 1) (D.view s) (D'.view t') := by
      rw [h3]
      refine ⟨fun i hi => ?_, fun i j hi hj e => ?_, fun k hk => ?_⟩
      · have := List.idxOf_lt_length_iff.2 ((hP i).2 hi)
        exact if_pos (by omega)
      · have e : (pointsIn L).idxOf i = (pointsIn L).idxOf j := by simpa using e
        have h1 := List.idxOf_lt_length_iff.2 ((hP i).2 hi)
        have h2 := List.idxOf_lt_length_iff.2 ((hP j).2 hj)
        have g1 := List.getElem_idxOf h1
        have g2 := List.getElem_idxOf h2
        simp only [e] at g1
        exact g1.symm.trans g2
      · have hk := (points_upto _ k).1 hk
        have hlt : k - 1 < (pointsIn L).length := by omega
        refine ⟨(pointsIn L)[k - 1], (hP _).1 (List.getElem_mem hlt), ?_⟩
        rw [hnd.idxOf_getElem _ hlt]
        omega
    obtain ⟨o, o1, ⟨o2, n, o3⟩, o4⟩ := migrate_law W W' (G.dense hn) hs hv hg ⟨hJ _ t' h2 h3, _, h3 ▸ points_upto _⟩ hr
    refine ⟨o, by simp [moveTo, hL, h1, o1], o2, fun rs hrs => ?_, fun err he => ?_⟩
    rotate_left
    · obtain ⟨k1, L', k2, k3⟩ := o4.failed err he
      exact ⟨k1, L', n, k2, k3 n o3.size, o3⟩
    obtain ⟨L', f, g, k1, k2, R⟩ := o4.done rs hrs
    rw [hL] at k1; cases k1
    have h1 : (D.view s).Size L.length := by
      obtain ⟨m, m1, m2⟩ := count_size W hs
      cases (W.count_all s hs L l1).symm.trans m1
      exact m2
    cases (R.size h1).unique o3.size
    exact ⟨L, _, f, g, hL, k2, R, o3⟩
  · refine ⟨⟨.error e, t', ()⟩, by simp [moveTo, hL, h1], hJ _ t' h2 h3, fun rs h => (nomatch h), fun err h => ?_⟩
    cases h
    have : (pointsIn L).length ≤ L.length := by
      rw [pointsIn, List.length_map]; exact List.length_filter_le _ _
    refine ⟨h4, L, k, hL, by omega, ?_⟩
    rw [Nat.zero_add] at h3
    exact h3 ▸ points_upto k

end Links
end Verif
