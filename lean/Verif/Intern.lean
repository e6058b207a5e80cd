import Verif.Nested
import Verif.Props.Readme

/-!
# A client that stores nested pairs

Nested pairs are built from points by pairing. The client stores each part of a nested pair with `get_or_create`, so that equal
parts share one link. The client is not part of the repository; the calls it makes are.
-/

namespace Verif

namespace Nest

/-- The points of a nested pair. -/
def points : Nest → List Nat
  | item i => [i]
  | pair a b => points a ++ points b

/-- The parts of a nested pair, itself included. -/
def parts : Nest → List Nest
  | item i => [item i]
  | pair a b => pair a b :: (parts a ++ parts b)

def depth : Nest → Nat
  | item _ => 0
  | pair a b => max (depth a) (depth b) + 1

end Nest

namespace Links
variable {S : Type} (D : Links S)

/-- Storing one nested pair after the other. -/
def internAll : List Nest → S → Option (Out S Unit (List Nat))
  | [], s => some ⟨.ok [], s, ()⟩
  | e :: es, s => (e.build D s).bind fun o =>
    match o.res with
    | .error err => some ⟨.error err, o.st, ()⟩
    | .ok r => (internAll es o.st).map fun o => { o with res := o.res.map (r :: ·) }

/-- Reading a nested pair: a link that is its own source and target is a point, any other link the pair of what its ends are.
`get_link` (`doublets/src/data/traits.rs:256`). Outer `none`: the depth does not suffice. -/
def readNest : Nat → Nat → S → Option (Except Err Nest)
  | 0, _, _ => none
  | f + 1, i, s => (D.getLink s i).bind fun
    | none => some (.error (.notExists i))
    | some l =>
      if l.source = i ∧ l.target = i then some (.ok (.item i))
      else (readNest f l.source s).bind fun
        | .error e => some (.error e)
        | .ok a => (readNest f l.target s).map fun r => r.map (.pair a ·)

end Links

/-- What an index stands for. -/
def Denotes (v : View) : Nest → Nat → Prop
  | .item i, j => j = i ∧ v i = some (i, i)
  | .pair a b, j => ∃ x y, Denotes v a x ∧ Denotes v b y ∧ v j = some (x, y)

namespace Nest
variable {v w : View}

theorem _root_.Verif.Denotes.keep (h : ∀ k p, v k = some p → w k = some p) : ∀ {e : Nest} {j : Nat}, Denotes v e j → Denotes w e j
  | .item _, _, ⟨h1, h2⟩ => ⟨h1, h _ _ h2⟩
  | .pair _ _, _, ⟨x, y, h1, h2, h3⟩ => ⟨x, y, h1.keep h, h2.keep h, h _ _ h3⟩

theorem _root_.Verif.Denotes.live {e : Nest} {j : Nat} (h : Denotes v e j) : v j ≠ none := by
  cases e with
  | item i => rw [h.1, h.2]; simp
  | pair a b => obtain ⟨x, y, -, -, h⟩ := h; rw [h]; simp

theorem _root_.Verif.Denotes.unique (hu : v.Uniq) (h0 : v 0 = none) : ∀ {e : Nest} {j k : Nat}, Denotes v e j → Denotes v e k → j = k
  | .item _, _, _, h, h' => h.1.trans h'.1.symm
  | .pair _ _, j, k, ⟨x, y, h1, h2, h3⟩, ⟨x', y', h1', h2', h3'⟩ => by
    cases h1.unique hu h0 h1'
    cases h2.unique hu h0 h2'
    exact (hu j (x, y) h3 (fun e => by cases e; exact h1.live h0) k h3').symm

theorem collapse_of_point {j : Nat} (hj : v j = some (j, j)) : ∀ {e : Nest}, Denotes v e j → e.collapse = item j
  | .item _, h => by rw [h.1]; rfl
  | .pair a b, ⟨x, y, h1, h2, h3⟩ => by
    rw [hj] at h3
    cases h3
    simp [collapse, collapse_of_point hj h1, collapse_of_point hj h2]

theorem collapse_pair (a b : Nest) : (∃ i, a.collapse = item i ∧ b.collapse = item i ∧ (pair a b).collapse = item i) ∨
    (pair a b).collapse = pair a.collapse b.collapse ∧ ∀ i, ¬ (a.collapse = item i ∧ b.collapse = item i) := by
  cases ha : a.collapse with
  | item i =>
    cases hb : b.collapse with
    | item j =>
      by_cases e : i = j
      · subst e; exact .inl ⟨i, rfl, rfl, by simp [collapse, ha, hb]⟩
      · exact .inr ⟨by simp [collapse, ha, hb, e], fun k h => by cases h.1; cases h.2; exact e rfl⟩
    | pair c d => exact .inr ⟨by simp [collapse, ha, hb], fun k h => by cases h.2⟩
  | pair c d => exact .inr ⟨by simp [collapse, ha], fun k h => by cases h.1⟩

theorem _root_.Verif.Denotes.collapse (hu : v.Uniq) (h0 : v 0 = none) : ∀ {e : Nest} {j : Nat}, Denotes v e j → Denotes v e.collapse j
  | .item _, _, h => h
  | .pair a b, j, ⟨x, y, h1, h2, h3⟩ => by
    have g1 := h1.collapse hu h0
    have g2 := h2.collapse hu h0
    rcases collapse_pair a b with ⟨i, ha, hb, e⟩ | ⟨e, -⟩
    · rw [ha] at g1; rw [hb] at g2; rw [e]
      obtain ⟨rfl, hx⟩ := g1
      obtain ⟨rfl, -⟩ := g2
      have := hu j _ h3 (fun e => by cases e; rw [h0] at hx; cases hx) _ hx
      exact ⟨this.symm, hx⟩
    · rw [e]; exact ⟨x, y, g1, g2, h3⟩

theorem collapse_depth (e : Nest) : e.collapse.depth ≤ e.depth := by
  induction e with
  | item i => exact Nat.le_refl _
  | pair a b iha ihb =>
    rcases collapse_pair a b with ⟨i, -, -, h⟩ | ⟨h, -⟩
    · rw [h]; simp [depth]
    · rw [h]; simp only [depth]; omega

end Nest

namespace Links
variable {S : Type} {D : Links S}

/-- Reading what an index stands for. -/
theorem readNest_law {s : S} (get : ∀ i, D.getLink s i = some ((D.view s i).map fun p => ⟨i, p.1, p.2⟩)) (hu : (D.view s).Uniq)
    (h0 : D.view s 0 = none) : ∀ {e : Nest} {j fuel : Nat}, Denotes (D.view s) e j → e.depth < fuel →
      D.readNest fuel j s = some (.ok e.collapse) := by
  intro e
  induction e with
  | item i =>
    intro j fuel ⟨h1, h2⟩ hf
    cases fuel with
    | zero => simp at hf
    | succ f => subst h1; simp [readNest, get, h2, Nest.collapse]
  | pair a b iha ihb =>
    intro j fuel hd hf
    obtain ⟨x, y, h1, h2, h3⟩ := hd
    cases fuel with
    | zero => simp at hf
    | succ f =>
      simp only [Nest.depth] at hf
      simp only [readNest, get, h3, Option.map_some, Option.bind_some]
      by_cases hp : x = j ∧ y = j
      · obtain ⟨rfl, rfl⟩ := hp
        rw [if_pos ⟨rfl, rfl⟩, Nest.collapse_of_point h3 (e := .pair a b) ⟨_, _, h1, h2, h3⟩]
      · rw [if_neg hp, iha h1 (by omega), ihb h2 (by omega)]
        rcases Nest.collapse_pair a b with ⟨i, ha, hb, e⟩ | ⟨e, -⟩
        · have g1 := h1.collapse hu h0
          have g2 := h2.collapse hu h0
          rw [ha] at g1; rw [hb] at g2
          obtain ⟨rfl, hx⟩ := g1
          obtain ⟨rfl, -⟩ := g2
          have := hu j _ h3 (fun e => by cases e; rw [h0] at hx; cases hx) _ hx
          exact absurd ⟨this, this⟩ hp
        · rw [e]; rfl

variable (W : Lawful D)

/-- States in which the client may make links. -/
structure Grows (J : S → Prop) : Prop where
  inv : ∀ {s}, J s → W.Inv s
  uniq : ∀ {s}, J s → (D.view s).Uniq
  create : ∀ {s}, J s → W.CanCreate s
  update : ∀ {s i x y}, J s → D.view s i = none → D.view s x ≠ none → D.view s y ≠ none → ((D.view s).set i (x, y)).Uniq →
    W.CanUpdate ((D.view s).set i (0, 0)) i x y
  next : ∀ {s s' i x y}, J s → D.view s x ≠ none → D.view s y ≠ none → (∀ k, D.view s k ≠ some (x, y)) → W.Inv s' →
    D.view s i = none → D.view s' = (D.view s).set i (x, y) → D.createLink s x y = some ⟨.ok i, s', ()⟩ → J s'

theorem uniq_set_new {v : View} (hu : v.Uniq) {i x y : Nat} (hn : ∀ k, v k ≠ some (x, y)) : (v.set i (x, y)).Uniq := by
  intro k p hk hp j hj
  unfold View.set at hk hj
  by_cases hki : k = i
  · rw [if_pos hki] at hk; cases hk
    by_cases hji : j = i
    · rw [hji, hki]
    · rw [if_neg hji] at hj; exact absurd hj (hn j)
  · rw [if_neg hki] at hk
    by_cases hji : j = i
    · rw [if_pos hji] at hj; cases hj; exact absurd hk (hn k)
    · rw [if_neg hji] at hj; exact hu k p hk hp j hj

/-- `get_or_create` of two links. -/
theorem getOrCreate_law {J : S → Prop} (G : Grows W J) {s : S} (h : J s) {x y : Nat} (hx : D.view s x ≠ none) (hy : D.view s y ≠ none) :
    (∃ i, D.view s i = some (x, y) ∧ D.getOrCreate s x y = some ⟨.ok i, s, ()⟩) ∨
    (∀ k, D.view s k ≠ some (x, y)) ∧
    ((∃ e, D.create s = some ⟨.error e, s, ()⟩ ∧ D.getOrCreate s x y = some ⟨.error e, s, ()⟩) ∨
    ∃ i s', D.view s i = none ∧ J s' ∧ D.getOrCreate s x y = some ⟨.ok i, s', ()⟩ ∧ D.view s' = (D.view s).set i (x, y)) := by
  have hs := G.inv h
  have n0 : ∀ z, D.view s z ≠ none → z ≠ 0 := fun z hz e => hz (e ▸ W.null s hs)
  have na : ∀ z, D.view s z ≠ none → z ≠ (D.consts s).any := fun z hz e => hz (e ▸ W.any_absent s hs)
  rcases search_law W hs (n0 x hx) (na x hx) (n0 y hy) (na y hy) with ⟨h1, h2⟩ | ⟨i, h1, h2⟩
  · right
    have hun : ∀ i, ((D.view s).set i (x, y)).Uniq := fun i => uniq_set_new (G.uniq h) h2
    refine ⟨h2, ?_⟩
    rcases createLink_law W hs (G.create h) x y (fun i hi => G.update h hi hx hy (hun i)) with ⟨e, g1, g2⟩ | ⟨i, s', g1, g2, g3, g4⟩
    · exact .inl ⟨e, g1, by simp [getOrCreate, h1, g2]⟩
    · exact .inr ⟨i, s', g1, G.next h hx hy h2 g2 g1 g4 g3, by simp [getOrCreate, h1, g3], g4⟩
  · exact .inl ⟨i, h2, by simp [getOrCreate, h1]⟩

/-- What storing leaves behind: the links that were there, and links that stand for parts of what was stored. -/
structure Stored (v w : View) (L : List Nest) : Prop where
  keep : ∀ k p, v k = some p → w k = some p
  new : ∀ k, w k ≠ none → v k ≠ none ∨ ∃ e ∈ L, Denotes w e k

theorem Stored.refl (v : View) (L : List Nest) : Stored v v L := ⟨fun _ _ h => h, fun _ h => .inl h⟩

theorem Stored.trans {u v w : View} {L : List Nest} (h : Stored u v L) (h' : Stored v w L) : Stored u w L :=
  ⟨fun k p hk => h'.keep k p (h.keep k p hk), fun k hk => by
    rcases h'.new k hk with h1 | h1
    · rcases h.new k h1 with h2 | ⟨e, he, hd⟩
      · exact .inl h2
      · exact .inr ⟨e, he, hd.keep h'.keep⟩
    · exact .inr h1⟩

theorem Stored.mono {v w : View} {L L' : List Nest} (h : Stored v w L) (hL : ∀ e ∈ L, e ∈ L') : Stored v w L' :=
  ⟨h.keep, fun k hk => (h.new k hk).imp id fun ⟨e, he, hd⟩ => ⟨e, hL e he, hd⟩⟩

theorem intern_law {J : S → Prop} (G : Grows W J) : ∀ (e : Nest) {s : S}, J s → (∀ i ∈ e.points, D.view s i = some (i, i)) →
    ∃ o, e.build D s = some o ∧ J o.st ∧ Stored (D.view s) (D.view o.st) e.parts ∧
      (∀ r, o.res = .ok r → Denotes (D.view o.st) e r) ∧
      ∀ err, o.res = .error err → D.create o.st = some ⟨.error err, o.st, ()⟩ ∧
        ∃ p ∈ e.parts, ∀ k, ¬ Denotes (D.view o.st) p k := by
  intro e
  induction e with
  | item i =>
    intro s h hp
    exact ⟨_, rfl, h, .refl _ _, fun r hr => by cases hr; exact ⟨rfl, hp i (by simp [Nest.points])⟩, fun err he => by cases he⟩
  | pair a b iha ihb =>
    intro s h hp
    obtain ⟨⟨r1, s1, u1⟩, g1, g2, g3, g4, g5⟩ := iha h fun i hi => hp i (by simp [Nest.points, hi])
    have pa : ∀ e ∈ a.parts, e ∈ (Nest.pair a b).parts := fun e he => by simp [Nest.parts, he]
    have pb : ∀ e ∈ b.parts, e ∈ (Nest.pair a b).parts := fun e he => by simp [Nest.parts, he]
    cases r1 with
    | error e1 =>
      exact ⟨⟨.error e1, s1, ()⟩, by simp [Nest.build, g1], g2, g3.mono pa, fun r hr => (by cases hr), fun err he => by
        cases he; exact ⟨(g5 _ rfl).1, (g5 _ rfl).2.imp fun p hp => ⟨pa p hp.1, hp.2⟩⟩⟩
    | ok x =>
      obtain ⟨⟨r2, s2, u2⟩, k1, k2, k3, k4, k5⟩ := ihb g2 fun i hi => g3.keep _ _ (hp i (by simp [Nest.points, hi]))
      have hx := (g4 x rfl).keep k3.keep
      have h12 := (g3.mono pa).trans (k3.mono pb)
      cases r2 with
      | error e2 =>
        exact ⟨⟨.error e2, s2, ()⟩, by simp [Nest.build, g1, k1], k2, h12, fun r hr => (by cases hr), fun err he => by
          cases he; exact ⟨(k5 _ rfl).1, (k5 _ rfl).2.imp fun p hp => ⟨pb p hp.1, hp.2⟩⟩⟩
      | ok y =>
        have hy := k4 y rfl
        have e0 : (Nest.pair a b).build D s = D.getOrCreate s2 x y := by simp [Nest.build, g1, k1]
        rcases getOrCreate_law W G k2 hx.live hy.live with ⟨i, m1, m2⟩ | ⟨m0, ⟨e, m1, m2⟩ | ⟨i, s', m1, m2, m3, m4⟩⟩
        · exact ⟨_, e0.trans m2, k2, h12, fun r hr => by cases hr; exact ⟨x, y, hx, hy, m1⟩, fun err he => by cases he⟩
        · exact ⟨_, e0.trans m2, k2, h12, fun r hr => (by cases hr), fun err he => by
            cases he
            refine ⟨m1, .pair a b, by simp [Nest.parts], fun k ⟨x', y', n1, n2, n3⟩ => m0 k ?_⟩
            rw [n3, n1.unique (G.uniq k2) (W.null _ (G.inv k2)) hx, n2.unique (G.uniq k2) (W.null _ (G.inv k2)) hy]⟩
        · have kp : ∀ k p, D.view s2 k = some p → D.view s' k = some p := fun k p hk => by
            rw [m4, View.set]
            by_cases e : k = i
            · rw [e, m1] at hk; cases hk
            · rw [if_neg e]; exact hk
          have hd : Denotes (D.view s') (.pair a b) i := ⟨x, y, hx.keep kp, hy.keep kp, by rw [m4, View.set_same]⟩
          refine ⟨_, e0.trans m3, m2, h12.trans ⟨kp, fun k hk => ?_⟩, fun r hr => by cases hr; exact hd, fun err he => by cases he⟩
          by_cases e : k = i
          · exact .inr ⟨.pair a b, by simp [Nest.parts], e ▸ hd⟩
          · rw [m4, View.set, if_neg e] at hk; exact .inl hk

theorem intern_again {J : S → Prop} (G : Grows W J) {s : S} (h : J s) : ∀ {e : Nest} {r : Nat}, Denotes (D.view s) e r →
    e.build D s = some ⟨.ok r, s, ()⟩ := by
  intro e
  induction e with
  | item i => rintro r ⟨rfl, -⟩; rfl
  | pair a b iha ihb =>
    rintro r ⟨x, y, h1, h2, h3⟩
    simp only [Nest.build, iha h1, ihb h2, Option.bind_some]
    rcases getOrCreate_law W G h h1.live h2.live with ⟨i, m1, m2⟩ | ⟨hn, -⟩
    · rw [m2, G.uniq h r (x, y) h3 (fun e => by cases e; exact h1.live (W.null s (G.inv h))) i m1]
    · exact absurd h3 (hn r)

theorem internAll_again {J : S → Prop} (G : Grows W J) {s : S} (h : J s) : ∀ {es : List Nest} {rs : List Nat}, rs.length = es.length →
    (∀ (n : Nat) e r, es[n]? = some e → rs[n]? = some r → Denotes (D.view s) e r) → D.internAll es s = some ⟨.ok rs, s, ()⟩ := by
  intro es
  induction es with
  | nil => intro rs hl _; cases rs with
    | nil => rfl
    | cons _ _ => cases hl
  | cons e es ih =>
    intro rs hl hd
    cases rs with
    | nil => cases hl
    | cons r rs =>
      simp only [internAll, intern_again W G h (hd 0 e r rfl rfl), Option.bind_some]
      rw [ih (rs := rs) (by simpa using hl) fun n e' r' h1 h2 => hd (n + 1) e' r' (by simpa using h1) (by simpa using h2)]
      rfl

theorem internAll_law {J : S → Prop} (G : Grows W J) : ∀ (es : List Nest) {s : S}, J s →
    (∀ e ∈ es, ∀ i ∈ e.points, D.view s i = some (i, i)) →
    ∃ o, D.internAll es s = some o ∧ J o.st ∧ Stored (D.view s) (D.view o.st) (es.flatMap Nest.parts) ∧
      (∀ rs, o.res = .ok rs → rs.length = es.length ∧
        ∀ (n : Nat) e r, es[n]? = some e → rs[n]? = some r → Denotes (D.view o.st) e r) ∧
      ∀ err, o.res = .error err → D.create o.st = some ⟨.error err, o.st, ()⟩ ∧
        ∃ p ∈ es.flatMap Nest.parts, ∀ k, ¬ Denotes (D.view o.st) p k := by
  intro es
  induction es with
  | nil =>
    intro s h _
    exact ⟨_, rfl, h, .refl _ _, fun rs hr => by cases hr; exact ⟨rfl, fun n e r he => by simp at he⟩, fun err he => by cases he⟩
  | cons e es ih =>
    intro s h hp
    obtain ⟨⟨r1, s1, u1⟩, g1, g2, g3, g4, g5⟩ := intern_law W G e h (hp e (by simp))
    have pa : ∀ e' ∈ e.parts, e' ∈ (e :: es).flatMap Nest.parts := fun e' he => by simp [he]
    have pb : ∀ e' ∈ es.flatMap Nest.parts, e' ∈ (e :: es).flatMap Nest.parts := fun e' he => by
      rw [List.flatMap_cons]; exact List.mem_append_right _ he
    cases r1 with
    | error e1 =>
      exact ⟨⟨.error e1, s1, ()⟩, by simp [internAll, g1], g2, g3.mono pa, fun r hr => (by cases hr), fun err he => by
        cases he; exact ⟨(g5 _ rfl).1, (g5 _ rfl).2.imp fun p hp => ⟨pa p hp.1, hp.2⟩⟩⟩
    | ok x =>
      obtain ⟨⟨r2, s2, u2⟩, k1, k2, k3, k4, k5⟩ := ih g2 fun e' he i hi => g3.keep _ _ (hp e' (by simp [he]) i hi)
      refine ⟨⟨r2.map (x :: ·), s2, ()⟩, by simp [internAll, g1, k1], k2, (g3.mono pa).trans (k3.mono pb), fun rs hr => ?_, fun err he => ?_⟩
      · cases r2 with
        | error e2 => cases hr
        | ok rs2 =>
          cases hr
          obtain ⟨l1, l2⟩ := k4 rs2 rfl
          refine ⟨by simp [l1], fun n e' r he hr => ?_⟩
          cases n with
          | zero => simp at he hr; subst he hr; exact (g4 x rfl).keep k3.keep
          | succ n => simp at he hr; exact l2 n e' r he hr
      · cases r2 with
        | error e2 => cases he; exact ⟨(k5 _ rfl).1, (k5 _ rfl).2.imp fun p hp => ⟨pb p hp.1, hp.2⟩⟩
        | ok rs2 => cases he

/-- What storing nested pairs `es` in state `s` leads to. -/
structure Interned (D : Links S) (es : List Nest) (s : S) (o : Out S Unit (List Nat)) : Prop where
  /-- The links that were there are as they were. -/
  kept : ∀ k l, D.getLink s k = some (some l) → D.getLink o.st k = some (some l)
  /-- A new link reads as a part of one of the nested pairs. -/
  new : ∀ k l, D.getLink o.st k = some (some l) → D.getLink s k = some (some l) ∨
    D.getLink s k = some none ∧ ∃ e ∈ es, ∃ p ∈ e.parts, ∀ fuel, p.depth < fuel → D.readNest fuel k o.st = some (.ok p.collapse)
  /-- If no call failed there is an index for each nested pair, that reads as the nested pair, and two of them are the same index
  exactly if they read as the same nested pair. Storing the nested pairs again gives the same indices and changes nothing. -/
  stored : ∀ rs, o.res = .ok rs → rs.length = es.length ∧ D.internAll es o.st = some ⟨.ok rs, o.st, ()⟩ ∧
    ∀ (m n : Nat) e e' r r', es[m]? = some e → es[n]? = some e' → rs[m]? = some r → rs[n]? = some r' →
      (∀ fuel, e.depth < fuel → D.readNest fuel r o.st = some (.ok e.collapse)) ∧ (r = r' ↔ e.collapse = e'.collapse)
  /-- It fails only if no link can be created. -/
  failed : ∀ err, o.res = .error err → D.create o.st = some ⟨.error err, o.st, ()⟩

theorem interned {J : S → Prop} (G : Grows W J) (es : List Nest) {s : S} (h : J s)
    (hp : ∀ e ∈ es, ∀ i ∈ e.points, D.getLink s i = some (some ⟨i, i, i⟩)) :
    ∃ o, D.internAll es s = some o ∧ J o.st ∧ Interned D es s o := by
  have hget : ∀ {s i l}, J s → (D.getLink s i = some (some l) ↔ l.index = i ∧ D.view s i = some (l.source, l.target)) := by
    intro s i l h
    rw [W.get s (G.inv h)]
    obtain ⟨j, a, b⟩ := l
    cases D.view s i with
    | none => simp
    | some p =>
      obtain ⟨x, y⟩ := p
      simp only [Option.map_some, Option.some.injEq, Link.mk.injEq, Prod.mk.injEq]
      constructor
      · rintro ⟨h1, h2, h3⟩; exact ⟨h1.symm, h2, h3⟩
      · rintro ⟨h1, h2, h3⟩; exact ⟨h1.symm, h2, h3⟩
  obtain ⟨o, h1, h2, h3, h4, h5⟩ := internAll_law W G es h fun e he i hi => ((hget h).1 (hp e he i hi)).2
  have hr : ∀ {e j fuel}, Denotes (D.view o.st) e j → e.depth < fuel → D.readNest fuel j o.st = some (.ok e.collapse) := fun hd hf =>
    readNest_law (W.get _ (G.inv h2)) (G.uniq h2) (W.null _ (G.inv h2)) hd hf
  refine ⟨o, h1, h2, fun k l hk => ?_, fun k l hk => ?_, fun rs hrs => ?_, fun err he => (h5 err he).1⟩
  · rw [hget h] at hk; rw [hget h2]; exact ⟨hk.1, h3.keep _ _ hk.2⟩
  · rw [hget h2] at hk
    cases hv : D.view s k with
    | some p =>
      left
      rw [hget h]
      have := h3.keep _ _ hv
      rw [hk.2] at this
      exact ⟨hk.1, hv.trans this.symm⟩
    | none =>
      right
      refine ⟨by rw [W.get s (G.inv h), hv]; rfl, ?_⟩
      rcases h3.new k (by rw [hk.2]; simp) with g | ⟨p, hp, hd⟩
      · exact absurd hv g
      · obtain ⟨e, he, hpe⟩ := List.mem_flatMap.1 hp
        exact ⟨e, he, p, hpe, fun fuel hf => hr hd hf⟩
  · obtain ⟨g1, g2⟩ := h4 rs hrs
    refine ⟨g1, internAll_again W G h2 g1 g2, fun m n e e' r r' e1 e2 r1 r2 => ?_⟩
    have d1 := g2 m e r e1 r1
    have d2 := g2 n e' r' e2 r2
    refine ⟨fun fuel hf => hr d1 hf, fun hrr => ?_, fun hn => ?_⟩
    · subst hrr
      have k1 := hr d1 (fuel := max e.depth e'.depth + 1) (by omega)
      have k2 := hr d2 (fuel := max e.depth e'.depth + 1) (by omega)
      rw [k1] at k2
      exact Except.ok.inj (Option.some.inj k2)
    · have n1 := d1.collapse (G.uniq h2) (W.null _ (G.inv h2))
      have n2 := d2.collapse (G.uniq h2) (W.null _ (G.inv h2))
      rw [hn] at n1
      exact n1.unique (G.uniq h2) (W.null _ (G.inv h2)) n2

end Links
end Verif
