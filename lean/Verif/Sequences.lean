import Verif.Nested

/-!
# Texts as chains of links

The client of `doublets/tests/seq.rs`: a text is a root, an alias (a link from itself to the symbol) for every symbol, and links
from the root to the first alias and from every alias to the next. Vocabulary of C86 and its proof for any store that
answers queries for the source exactly.
-/

namespace Verif

section
variable {S : Type} (D : Links S)

/-- The first loop of `write_seq` (`doublets/tests/seq.rs:15-18`): an alias for every symbol. Returns the list of aliases. -/
def writeAliases : List Nat → S → Option (Out S Unit (List Nat))
  | [], s => some ⟨.ok [], s, ()⟩
  | x :: xs, s =>
    (D.create s).bind fun o =>
    match o.res with
    | .error e => some ⟨.error e, o.st, ()⟩
    | .ok l =>
      (D.update o.st l l x).bind fun o' =>
      match o'.res with
      | .error e => some ⟨.error e, o'.st, ()⟩
      | .ok a => (writeAliases xs o'.st).map fun o'' => ⟨o''.res.map (a :: ·), o''.st, ()⟩

/-- The second loop of `write_seq` (`doublets/tests/seq.rs:20-24`): a link from every element of the list to the next. -/
def writeChain : List Nat → S → Option (Out S Unit Unit)
  | x :: y :: rest, s =>
    (D.createLink s x y).bind fun o =>
    match o.res with
    | .error e => some ⟨.error e, o.st, ()⟩
    | .ok _ => writeChain (y :: rest) o.st
  | _, s => some ⟨.ok (), s, ()⟩

/-- `write_seq` (`doublets/tests/seq.rs:12-26`). The list is never empty, so the `unwrap_or` of line 25 is not modelled. -/
def writeText (seq : List Nat) (s : S) : Option (Out S Unit Nat) :=
  (D.create s).bind fun o =>
  match o.res with
  | .error e => some ⟨.error e, o.st, ()⟩
  | .ok root =>
    (writeAliases D seq o.st).bind fun o' =>
    match o'.res with
    | .error e => some ⟨.error e, o'.st, ()⟩
    | .ok as => (writeChain D (root :: as) o'.st).map fun o'' => ⟨o''.res.map fun _ => root, o''.st, ()⟩

/-- The handler of `custom_single` (`doublets/tests/seq.rs:33-43`). -/
def onlyOther (r : Option Link) (l : Link) : Ctl Unit × Option Link :=
  if r.isNone && l.index != l.source then (.cont, some l)
  else if l.index != l.source then (.brk (), none)
  else (.cont, r)

/-- `custom_single` (`doublets/tests/seq.rs:28-45`). -/
def customSingle (s : S) (q : List Nat) : Option (Option Link) :=
  (D.eachBy s q onlyOther none).map (·.2)

/-- `read_seq` (`doublets/tests/seq.rs:47-57`) from `cur`; `none` = the loop makes more than `fuel` rounds. -/
def readText : Nat → Nat → S → Option (Except Err (List Nat))
  | 0, _, _ => none
  | fuel + 1, cur, s =>
    (customSingle D s [(D.consts s).any, cur, (D.consts s).any]).bind fun
    | none => some (.ok [])
    | some l =>
      (D.tryGetLink s l.target).bind fun
      | .error e => some (.error e)
      | .ok alias => (readText fuel l.target s).map fun r => r.map (alias.target :: ·)

/-- The client writes several texts, one after the other, each with `?`
(`.map(|_| write_seq(..).unwrap()).collect()`, `doublets/tests/seq.rs:99-101`). -/
def writeTexts : List (List Nat) → S → Option (Out S Unit (List Nat))
  | [], s => some ⟨.ok [], s, ()⟩
  | t :: ts, s =>
    (writeText D t s).bind fun o =>
    match o.res with
    | .error e => some ⟨.error e, o.st, ()⟩
    | .ok r => (writeTexts ts o.st).map fun o' => ⟨o'.res.map (r :: ·), o'.st, ()⟩

end

/-- The source of every link is null or a link. -/
def View.SourcesExist (v : View) : Prop := ∀ k a b, v k = some (a, b) → a ≠ 0 → v a ≠ none

/-- Besides perhaps `x` itself no link starts at `x`. -/
def View.Bare (v : View) (x : Nat) : Prop := ∀ k b, v k = some (x, b) → k = x

/-- Besides perhaps `x` itself only link `k` starts at `x`, and it goes to `y`. -/
def View.Step (v : View) (x k y : Nat) : Prop :=
  v k = some (x, y) ∧ k ≠ x ∧ ∀ j b, v j = some (x, b) → j = x ∨ j = k

/-- The text that starts at `x`: for each symbol exactly one link leads on, to a link whose target is the symbol; nothing leads
on from the last one. -/
def View.Text (v : View) : Nat → List Nat → Prop
  | x, [] => v.Bare x
  | x, t :: ts => ∃ k y a, v.Step x k y ∧ v y = some (a, t) ∧ v.Text y ts

/-- All links of `v` are links of `w`, unchanged, and the other links of `w` do not start at links of `v`. -/
def View.Beside (v w : View) : Prop :=
  v.Sub w ∧ ∀ k a b, w k = some (a, b) → v k = none → v a = none

theorem View.Beside.refl (v : View) : v.Beside v :=
  ⟨.refl v, fun k a b h h' => by rw [h] at h'; cases h'⟩

theorem View.Sub.absent {v w : View} (h : v.Sub w) {k : Nat} (hk : w k = none) : v k = none := by
  cases hv : v k with
  | none => rfl
  | some p => rw [h k p hv] at hk; cases hk

theorem View.Sub.present {v w : View} (h : v.Sub w) {k : Nat} (hk : v k ≠ none) : w k ≠ none :=
  fun e => hk (h.absent e)

theorem View.Beside.trans {u v w : View} (h1 : u.Beside v) (h2 : v.Beside w) : u.Beside w := by
  refine ⟨h1.1.trans h2.1, fun k a b hk hu => ?_⟩
  cases hv : v k with
  | none => exact h1.1.absent (h2.2 k a b hk hv)
  | some p =>
    have := h2.1 k p hv
    rw [hk] at this; cases this
    exact h1.2 k a b hv hu

/-- A link of `w` that starts at a link of `v` is a link of `v`. -/
theorem View.Beside.old {v w : View} (h : v.Beside w) {x k b : Nat} (hx : v x ≠ none) (hk : w k = some (x, b)) :
    v k = some (x, b) := by
  cases hv : v k with
  | none => exact absurd (h.2 k x b hk hv) hx
  | some p => have := h.1 k p hv; rw [hk] at this; rw [this]

/-- Texts stay as they are when links are added beside them. -/
theorem View.Beside.text {v w : View} (h : v.Beside w) : ∀ {ts : List Nat} {x : Nat}, v x ≠ none → v.Text x ts → w.Text x ts
  | [], x, hx, ht => fun k b hk => ht k b (h.old hx hk)
  | t :: ts, x, hx, ⟨k, y, a, ⟨h1, h2, h3⟩, h4, h5⟩ =>
    ⟨k, y, a, ⟨h.1 _ _ h1, h2, fun j b hj => h3 j b (h.old hx hj)⟩, h.1 _ _ h4,
      h.text (by rw [h4]; simp) h5⟩

theorem View.Sub.set {v : View} {i : Nat} {p : Nat × Nat} (h : v i = none) : v.Sub (v.set i p) := by
  intro k q hk
  rw [View.set_other]; exact hk
  rintro rfl; rw [h] at hk; cases hk

theorem View.Sub.set_null {v w : View} {i : Nat} {p : Nat × Nat} (h : v.Sub w) (hi : v i = none) : v.Sub (w.set i p) := by
  intro k q hk
  rw [View.set_other]; exact h k q hk
  rintro rfl; rw [hi] at hk; cases hk

/-! What `create` and `update` return says how every handler is called, if the store treats all handlers alike. -/

theorem Uniform.create_succeeds {S : Type} {D : Links S} {s s' : S} {i : Nat}
    (u : Uniform fun _ h st => D.createLinks s [] h st) (h : D.create s = some ⟨.ok i, s', ()⟩) :
    ∃ b a, a.index = i ∧ Links.Succeeds (fun _ h st => D.createLinks s [] h st) s' b a := by
  obtain ⟨core, hu⟩ := u
  simp only [Links.create, Links.createBy, Links.createByWith, hu] at h
  cases core with
  | none => cases h
  | some p =>
    rcases p with ⟨s1, e | ⟨b, a⟩⟩
    · simp [Links.unwrapW, Links.resultIndex, Except.map] at h
    · simp [Links.unwrapW, Links.resultIndex, Except.map, Links.wrapW, Links.keepIndex] at h
      obtain ⟨h1, rfl⟩ := h
      exact ⟨b, a, h1, fun σ hd st => by rw [hu]; rfl⟩

theorem Uniform.create_fails {S : Type} {D : Links S} {s s' : S} {e : Err}
    (u : Uniform fun _ h st => D.createLinks s [] h st) (h : D.create s = some ⟨.error e, s', ()⟩) :
    Links.Fails (fun _ h st => D.createLinks s [] h st) s' e := by
  obtain ⟨core, hu⟩ := u
  simp only [Links.create, Links.createBy, Links.createByWith, hu] at h
  cases core with
  | none => cases h
  | some p =>
    rcases p with ⟨s1, e | ⟨b, a⟩⟩
    · simp [Links.unwrapW, Links.resultIndex, Except.map] at h
      obtain ⟨rfl, rfl⟩ := h
      exact fun σ hd st => by rw [hu]; rfl
    · simp [Links.unwrapW, Links.resultIndex, Except.map] at h

theorem Uniform.update_succeeds {S : Type} {D : Links S} {s s' : S} {i j x y : Nat}
    (u : Uniform fun _ h st => D.updateLinks s [i] [i, x, y] h st) (h : D.update s i x y = some ⟨.ok j, s', ()⟩) :
    ∃ b a, a.index = j ∧ Links.Succeeds (fun _ h st => D.updateLinks s [i] [i, x, y] h st) s' b a := by
  obtain ⟨core, hu⟩ := u
  simp only [Links.update, Links.updateBy, Links.updateByWith, hu] at h
  cases core with
  | none => cases h
  | some p =>
    rcases p with ⟨s1, e | ⟨b, a⟩⟩
    · simp [Links.unwrapW, Links.resultIndex, Except.map] at h
    · simp [Links.unwrapW, Links.resultIndex, Except.map, Links.wrapW, Links.keepIndex] at h
      obtain ⟨h1, rfl⟩ := h
      exact ⟨b, a, h1, fun σ hd st => by rw [hu]; rfl⟩

/-- What the client needs of a store in states `J`; `ok` are the symbols the store takes. -/
structure TextLaw {S : Type} (D : Links S) (J : S → Prop) (ok : Nat → Prop) : Prop where
  null : ∀ s, J s → D.view s 0 = none
  sources : ∀ s, J s → (D.view s).SourcesExist
  ok_ne : ∀ x, x ≠ 0 → ok x
  get : ∀ s, J s → ∀ i, D.getLink s i = some ((D.view s i).map fun p => ⟨i, p.1, p.2⟩)
  create : ∀ s, J s →
    (∃ e, Links.Fails (fun _ h st => D.createLinks s [] h st) s e) ∨
    ∃ i s' b a, a.index = i ∧ Links.Succeeds (fun _ h st => D.createLinks s [] h st) s' b a ∧
      i ≠ 0 ∧ D.view s i = none ∧ J s' ∧ D.view s' = (D.view s).set i (0, 0)
  fill : ∀ s, J s → ∀ i x y, D.view s i = some (0, 0) → D.view s x ≠ none → ok y →
    ∃ s' b a, a.index = i ∧ Links.Succeeds (fun _ h st => D.updateLinks s [i] [i, x, y] h st) s' b a ∧
      J s' ∧ D.view s' = (D.view s).set i (x, y)
  each : ∀ s, J s → ∀ x, D.view s x ≠ none →
    ∃ L, D.Visits s [(D.consts s).any, x, (D.consts s).any] L ∧ L.Nodup ∧
      ∀ l, l ∈ L ↔ (D.view s).Has l ∧ l.source = x

namespace TextLaw
variable {S : Type} {D : Links S} {J : S → Prop} {ok : Nat → Prop} (W : TextLaw D J ok)
include W

theorem create_eq {s : S} (hs : J s) :
    (∃ e, D.create s = some ⟨.error e, s, ()⟩) ∨
    ∃ i s', D.create s = some ⟨.ok i, s', ()⟩ ∧ i ≠ 0 ∧ D.view s i = none ∧ J s' ∧ D.view s' = (D.view s).set i (0, 0) := by
  rcases W.create s hs with ⟨e, h⟩ | ⟨i, s', b, a, rfl, h, h1⟩
  · exact .inl ⟨e, Links.create_err h⟩
  · exact .inr ⟨_, s', Links.create_ok h, h1⟩

theorem fill_eq {s : S} (hs : J s) {i x y : Nat} (hi : D.view s i = some (0, 0)) (hx : D.view s x ≠ none) (hy : ok y) :
    ∃ s', D.update s i x y = some ⟨.ok i, s', ()⟩ ∧ J s' ∧ D.view s' = (D.view s).set i (x, y) := by
  obtain ⟨s', b, a, rfl, h, h1⟩ := W.fill s hs i x y hi hx hy
  exact ⟨s', Links.update_ok h, h1⟩

theorem createLink_eq {s : S} (hs : J s) {x y : Nat} (hx : D.view s x ≠ none) (hy : D.view s y ≠ none) :
    (∃ e, D.createLink s x y = some ⟨.error e, s, ()⟩) ∨
    ∃ i s', D.createLink s x y = some ⟨.ok i, s', ()⟩ ∧ i ≠ 0 ∧ D.view s i = none ∧ J s' ∧
      D.view s' = (D.view s).set i (x, y) := by
  rcases W.create s hs with ⟨e, h⟩ | ⟨i, s', b, a, rfl, h, h0, h1, h2, h3⟩
  · refine .inl ⟨e, ?_⟩
    simp [Links.createLink, Links.createLinkWith, Links.createWith, Links.createByWith_err h, Links.resultIndex, Except.map]
  · obtain ⟨s2, b2, a2, e2, h4, h5, h6⟩ := W.fill s' h2 a.index x y (by rw [h3, View.set_same])
      (by rw [h3]; exact (View.Sub.set h1).present hx)
      (W.ok_ne _ (by rintro rfl; exact hy (W.null s hs)))
    refine .inr ⟨_, s2, ?_, h0, h1, h5, by rw [h6, h3, Links.set_set]⟩
    simp [Links.createLink, Links.createLinkWith, Links.createWith, Links.createByWith_ok h, Links.createLinkH, fuseCall,
      Links.updateWith, Links.updateByWith_ok h4, Links.resultIndex, Except.map, Links.keepIndex, e2]

theorem ne_zero {s : S} (hs : J s) {x : Nat} (hx : D.view s x ≠ none) : x ≠ 0 := by
  rintro rfl; exact hx (W.null s hs)

/-- No link starts at an index that is not a link. -/
theorem no_source {s : S} (hs : J s) {x k b : Nat} (h0 : x ≠ 0) (hx : D.view s x = none) : D.view s k ≠ some (x, b) :=
  fun h => W.sources s hs k x b h h0 hx

/-- The first loop of `write_seq`. -/
theorem aliases_law : ∀ (xs : List Nat) {s : S}, J s → (∀ x ∈ xs, ok x) →
    ∃ o, writeAliases D xs s = some o ∧ J o.st ∧ (D.view s).Beside (D.view o.st) ∧
      ∀ as, o.res = .ok as → as.Nodup ∧ (∀ a ∈ as, D.view s a = none) ∧
        (∀ a ∈ as, (D.view o.st).Bare a) ∧
        (∀ k a b, D.view o.st k = some (a, b) → D.view s k = some (a, b) ∨ a = k ∧ k ∈ as) ∧
        as.length = xs.length ∧ ∀ p ∈ as.zip xs, D.view o.st p.1 = some p
  | [], s, hs, _ => ⟨_, rfl, hs, .refl _, fun as h => by
      cases h
      exact ⟨.nil, by simp, by simp, fun k a b h => .inl h, rfl, by simp⟩⟩
  | x :: xs, s, hs, hok => by
    unfold writeAliases
    rcases W.create_eq hs with ⟨e, h⟩ | ⟨i, s1, h, h0, h1, h2, h3⟩
    · exact ⟨⟨.error e, s, ()⟩, by rw [h]; rfl, hs, .refl _, fun as h => by cases h⟩
    · obtain ⟨s2, h4, h5, h6⟩ := W.fill_eq h2 (i := i) (x := i) (y := x) (by rw [h3, View.set_same])
        (by rw [h3, View.set_same]; simp) (hok x (by simp))
      obtain ⟨o, g1, g2, g3, g4⟩ := aliases_law xs h5 (fun y hy => hok y (by simp [hy]))
      have hv : D.view s2 = (D.view s).set i (i, x) := by rw [h6, h3, Links.set_set]
      have hb : (D.view s).Beside (D.view s2) := by
        rw [hv]
        refine ⟨View.Sub.set h1, fun k a b hk hn => ?_⟩
        by_cases e : k = i
        · rw [e, View.set_same] at hk; cases hk; exact h1
        · rw [View.set_other _ _ e, hn] at hk; cases hk
      refine ⟨⟨o.res.map (i :: ·), o.st, ()⟩, ?_, g2, hb.trans g3, fun as has => ?_⟩
      · simp only [h, Option.bind_some, h4, g1, Option.map_some]
      · obtain ⟨as', has'⟩ : ∃ as', o.res = .ok as' := by
          cases hr : o.res with
          | error e => simp [hr, Except.map] at has
          | ok as' => exact ⟨as', rfl⟩
        simp only [has', Except.map, Except.ok.injEq] at has
        subst has
        obtain ⟨k1, k2, k3, k4, k5, k6⟩ := g4 as' has'
        have hi : D.view s2 i = some (i, x) := by rw [hv, View.set_same]
        have hni : i ∉ as' := fun hm => by have := k2 i hm; rw [hi] at this; cases this
        refine ⟨List.nodup_cons.2 ⟨hni, k1⟩, ?_, ?_, ?_, by simp [k5], ?_⟩
        · intro a ha
          rcases List.mem_cons.1 ha with rfl | ha
          · exact h1
          · exact hb.1.absent (k2 a ha)
        · intro a ha
          rcases List.mem_cons.1 ha with rfl | ha
          · intro k b hk
            rcases k4 k a b hk with hk | ⟨e, -⟩
            · rw [hv] at hk
              by_cases e : k = a
              · exact e
              · rw [View.set_other _ _ e] at hk
                exact absurd hk (W.no_source hs h0 h1)
            · exact e.symm
          · exact k3 a ha
        · intro k a b hk
          rcases k4 k a b hk with hk | ⟨e, hm⟩
          · rw [hv] at hk
            by_cases e : k = i
            · rw [e, View.set_same] at hk; cases hk; exact .inr ⟨e.symm, by simp [e]⟩
            · rw [View.set_other _ _ e] at hk; exact .inl hk
          · exact .inr ⟨e, by simp [hm]⟩
        · intro p hp
          rcases List.mem_cons.1 hp with rfl | hp
          · exact g3.1 _ _ hi
          · exact k6 p hp
end TextLaw

/-- Each element of the list leads to the next one, the last one leads nowhere. -/
def View.Linked (v : View) : List Nat → Prop
  | [] => True
  | [x] => v.Bare x
  | x :: y :: rest => (∃ k, v.Step x k y) ∧ v.Linked (y :: rest)

theorem View.Linked.text {v : View} : ∀ {as ts : List Nat} {x : Nat}, as.length = ts.length → v.Linked (x :: as) →
    (∀ p ∈ as.zip ts, ∃ a, v p.1 = some (a, p.2)) → v.Text x ts
  | [], [], x, _, h, _ => h
  | y :: as, t :: ts, x, hl, ⟨⟨k, hk⟩, h⟩, hz => by
    obtain ⟨a, ha⟩ := hz (y, t) (by simp)
    exact ⟨k, y, a, hk, ha, h.text (by simpa using hl) fun p hp => hz p (by simp [hp])⟩

namespace TextLaw
variable {S : Type} {D : Links S} {J : S → Prop} {ok : Nat → Prop} (W : TextLaw D J ok)
include W

/-- The second loop of `write_seq`. -/
theorem chain_law : ∀ (xs : List Nat) {s : S}, J s → xs.Nodup → (∀ x ∈ xs, D.view s x ≠ none) →
    (∀ x ∈ xs, (D.view s).Bare x) →
    ∃ o, writeChain D xs s = some o ∧ J o.st ∧ (D.view s).Sub (D.view o.st) ∧
      (∀ k a b, D.view o.st k = some (a, b) → D.view s k = some (a, b) ∨ D.view s k = none ∧ a ∈ xs) ∧
      (o.res = .ok () → (D.view o.st).Linked xs)
  | [], s, hs, _, _, _ => ⟨_, rfl, hs, .refl _, fun k a b h => .inl h, fun _ => trivial⟩
  | [x], s, hs, _, _, hb => ⟨_, rfl, hs, .refl _, fun k a b h => .inl h, fun _ => hb x (by simp)⟩
  | x :: y :: rest, s, hs, hn, he, hb => by
    unfold writeChain
    rcases W.createLink_eq hs (x := x) (y := y) (he x (by simp)) (he y (by simp)) with ⟨e, h⟩ | ⟨i, s1, h, h0, h1, h2, h3⟩
    · exact ⟨⟨.error e, s, ()⟩, by rw [h]; rfl, hs, .refl _, fun k a b h => .inl h, fun h => by cases h⟩
    · rw [List.nodup_cons] at hn
      have hsub : (D.view s).Sub (D.view s1) := by rw [h3]; exact View.Sub.set h1
      obtain ⟨o, g1, g2, g3, g4, g5⟩ := chain_law (y :: rest) h2 hn.2
        (fun z hz => hsub.present (he z (by simp only [List.mem_cons] at hz ⊢; exact .inr hz)))
        (fun z hz k b hk => by
          rw [h3] at hk
          by_cases e : k = i
          · rw [e, View.set_same] at hk; cases hk; exact absurd hz hn.1
          · rw [View.set_other _ _ e] at hk
            exact hb z (by simp only [List.mem_cons] at hz ⊢; exact .inr hz) k b hk)
      have hix : i ≠ x := by rintro rfl; exact he i (by simp) h1
      refine ⟨o, by simp only [h, Option.bind_some, g1], g2, hsub.trans g3, fun k a b hk => ?_, fun hr => ⟨⟨i, ?_, hix, ?_⟩, g5 hr⟩⟩
      · rcases g4 k a b hk with hk | ⟨hk, hm⟩
        · rw [h3] at hk
          by_cases e : k = i
          · rw [e, View.set_same] at hk; cases hk; exact .inr ⟨by rw [e]; exact h1, by simp⟩
          · rw [View.set_other _ _ e] at hk; exact .inl hk
        · exact .inr ⟨hsub.absent hk, by simp only [List.mem_cons] at hm ⊢; exact .inr hm⟩
      · exact g3 _ _ (by rw [h3, View.set_same])
      · intro j b hj
        rcases g4 j x b hj with hj | ⟨-, hm⟩
        · rw [h3] at hj
          by_cases e : j = i
          · exact .inr e
          · rw [View.set_other _ _ e] at hj; exact .inl (hb x (by simp) j b hj)
        · exact absurd hm hn.1

/-- `write_seq`: every call returns; the links that were there stay and nothing starts at them that did not before; if no call
failed the text starts at the result, which is a new link. -/
theorem write_law (ts : List Nat) {s : S} (hs : J s) (hok : ∀ t ∈ ts, ok t) :
    ∃ o, writeText D ts s = some o ∧ J o.st ∧ (D.view s).Beside (D.view o.st) ∧
      ∀ r, o.res = .ok r → D.view s r = none ∧ D.view o.st r = some (0, 0) ∧ (D.view o.st).Text r ts := by
  unfold writeText
  rcases W.create_eq hs with ⟨e, h⟩ | ⟨root, s1, h, h0, h1, h2, h3⟩
  · exact ⟨⟨.error e, s, ()⟩, by rw [h]; rfl, hs, .refl _, fun as h => by cases h⟩
  · have hr1 : D.view s1 root = some (0, 0) := by rw [h3, View.set_same]
    have hb1 : (D.view s).Beside (D.view s1) := by
      rw [h3]
      refine ⟨View.Sub.set h1, fun k a b hk hn => ?_⟩
      by_cases e : k = root
      · rw [e, View.set_same] at hk; cases hk; exact W.null s hs
      · rw [View.set_other _ _ e, hn] at hk; cases hk
    obtain ⟨o1, g1, g2, g3, g4⟩ := W.aliases_law ts h2 hok
    cases hr : o1.res with
    | error e => exact ⟨⟨.error e, o1.st, ()⟩, by simp only [h, Option.bind_some, g1, hr], g2, hb1.trans g3, fun r hr => by cases hr⟩
    | ok as =>
      obtain ⟨k1, k2, k3, k4, k5, k6⟩ := g4 as hr
      have hra : root ∉ as := fun hm => by have := k2 root hm; rw [hr1] at this; cases this
      have hbare : (D.view o1.st).Bare root := by
        intro k b hk
        rcases k4 k root b hk with hk | ⟨e, hm⟩
        · rw [h3] at hk
          by_cases e : k = root
          · exact e
          · rw [View.set_other _ _ e] at hk
            exact absurd hk (W.no_source hs h0 h1)
        · exact e.symm
      have hex : ∀ x ∈ root :: as, D.view s x = none ∧ D.view o1.st x ≠ none := by
        intro x hx
        rcases List.mem_cons.1 hx with rfl | hx
        · exact ⟨h1, g3.1.present (by rw [hr1]; simp)⟩
        · refine ⟨hb1.1.absent (k2 x hx), ?_⟩
          obtain ⟨n, hn, rfl⟩ := List.getElem_of_mem hx
          have := k6 (as[n], ts[n]'(by rw [← k5]; exact hn)) (by
            rw [List.mem_iff_getElem]
            exact ⟨n, by simp [← k5, hn], by simp⟩)
          rw [this]; simp
      obtain ⟨o2, l1, l2, l3, l4, l5⟩ := W.chain_law (root :: as) g2 (List.nodup_cons.2 ⟨hra, k1⟩)
        (fun x hx => (hex x hx).2) (by
          intro x hx
          rcases List.mem_cons.1 hx with rfl | hx
          · exact hbare
          · exact k3 x hx)
      refine ⟨⟨o2.res.map fun _ => root, o2.st, ()⟩, by simp only [h, Option.bind_some, g1, hr, l1, Option.map_some], l2, ?_, ?_⟩
      · refine ⟨(hb1.trans g3).1.trans l3, fun k a b hk hn => ?_⟩
        rcases l4 k a b hk with hk | ⟨-, hm⟩
        · exact (hb1.trans g3).2 k a b hk hn
        · exact (hex a hm).1
      · intro r hr
        cases hr2 : o2.res with
        | error e => simp [hr2, Except.map] at hr
        | ok u =>
          simp only [hr2, Except.map, Except.ok.injEq] at hr
          subst hr
          refine ⟨h1, l3 _ _ (g3.1 _ _ hr1), (l5 hr2).text k5 fun p hp => ⟨p.1, l3 _ _ (k6 p hp)⟩⟩

omit W in
/-- What `custom_single` makes of a list of links. -/
theorem runH_onlyOther (L : List Link) (r : Option Link) : (runH onlyOther L r).2 =
    match r, L.filter (fun l => l.index != l.source) with
    | none, [l] => some l
    | some l, [] => some l
    | _, _ => none := by
  induction L generalizing r with
  | nil => cases r <;> simp [runH]
  | cons l L ih =>
    unfold runH
    cases hl : (l.index != l.source) with
    | false =>
      have e : onlyOther r l = (.cont, r) := by simp [onlyOther, hl]
      simp only [e, ih, List.filter_cons, hl, Bool.false_eq_true, if_false]
    | true =>
      cases r with
      | none =>
        have e : onlyOther none l = (.cont, some l) := by simp [onlyOther, hl]
        simp only [e, ih, List.filter_cons, hl, if_true]
        cases List.filter (fun l => l.index != l.source) L <;> simp
      | some r =>
        have e : onlyOther (some r) l = (.brk (), none) := by simp [onlyOther, hl]
        simp only [e, List.filter_cons, hl, if_true]

omit W in
theorem eq_singleton {α : Type} {l : List α} {a : α} (hn : l.Nodup) (h : ∀ x, x ∈ l ↔ x = a) : l = [a] := by
  cases l with
  | nil => exact absurd ((h a).2 rfl) (by simp)
  | cons b t =>
    have hb : b = a := (h b).1 (by simp)
    subst hb
    cases t with
    | nil => rfl
    | cons c t =>
      have hc : c = b := (h c).1 (by simp)
      subst hc
      simp at hn

theorem single_none {s : S} (hs : J s) {x : Nat} (hx : D.view s x ≠ none) (hb : (D.view s).Bare x) :
    customSingle D s [(D.consts s).any, x, (D.consts s).any] = some none := by
  obtain ⟨L, h1, -, h3⟩ := W.each s hs x hx
  unfold customSingle
  rw [Links.eachBy_eq h1, Option.map_some, runH_onlyOther]
  have : L.filter (fun l => l.index != l.source) = [] := by
    rw [List.filter_eq_nil_iff]
    intro l hl
    obtain ⟨g1, g2⟩ := (h3 l).1 hl
    have := hb l.index l.target (by rw [← g2]; exact g1)
    simp [this, g2]
  rw [this]

theorem single_some {s : S} (hs : J s) {x k y : Nat} (hx : D.view s x ≠ none) (hb : (D.view s).Step x k y) :
    customSingle D s [(D.consts s).any, x, (D.consts s).any] = some (some ⟨k, x, y⟩) := by
  obtain ⟨L, h1, h2, h3⟩ := W.each s hs x hx
  unfold customSingle
  rw [Links.eachBy_eq h1, Option.map_some, runH_onlyOther]
  have : L.filter (fun l => l.index != l.source) = [⟨k, x, y⟩] := by
    refine eq_singleton (h2.filter _) fun l => ?_
    rw [List.mem_filter, h3]
    constructor
    · rintro ⟨⟨g1, g2⟩, g3⟩
      rcases l with ⟨i, a, b⟩
      simp only at g2; subst g2
      have g1 : D.view s i = some (a, b) := g1
      rcases hb.2.2 i b g1 with e | e
      · simp [e] at g3
      · subst e; rw [hb.1] at g1; cases g1; rfl
    · rintro rfl
      exact ⟨⟨hb.1, rfl⟩, by simp [hb.2.1]⟩
  rw [this]

/-- `read_seq` reads the text that is there. -/
theorem read_law {s : S} (hs : J s) : ∀ (ts : List Nat) {x : Nat}, D.view s x ≠ none → (D.view s).Text x ts →
    ∀ fuel, ts.length < fuel → readText D fuel x s = some (.ok ts)
  | ts, _, _, _, 0, hf => absurd hf (by simp)
  | [], x, hx, ht, fuel + 1, _ => by
    unfold readText; rw [W.single_none hs hx ht]; rfl
  | t :: ts, x, hx, ⟨k, y, a, h1, h2, h3⟩, fuel + 1, hf => by
    have hr := read_law hs ts (by rw [h2]; simp) h3 fuel (by simpa using hf)
    unfold readText
    rw [W.single_some hs hx h1]
    simp only [Option.bind_some, Links.tryGetLink, W.get s hs, h2, Option.map_some, hr, Except.map]

/-- Texts written one after the other. -/
theorem texts_law : ∀ (tss : List (List Nat)) {s : S}, J s → (∀ ts ∈ tss, ∀ t ∈ ts, ok t) →
    ∃ o, writeTexts D tss s = some o ∧ J o.st ∧ (D.view s).Beside (D.view o.st) ∧
      ∀ rs, o.res = .ok rs → rs.Nodup ∧ rs.length = tss.length ∧
        ∀ p ∈ rs.zip tss, D.view s p.1 = none ∧ D.view o.st p.1 = some (0, 0) ∧ (D.view o.st).Text p.1 p.2
  | [], s, hs, _ => ⟨_, rfl, hs, .refl _, fun rs h => by cases h; exact ⟨.nil, rfl, by simp⟩⟩
  | ts :: tss, s, hs, hok => by
    unfold writeTexts
    obtain ⟨o, h1, h2, h3, h4⟩ := W.write_law ts hs (hok ts (by simp))
    cases hr : o.res with
    | error e => exact ⟨⟨.error e, o.st, ()⟩, by simp only [h1, Option.bind_some, hr], h2, h3, fun rs h => by cases h⟩
    | ok r =>
      obtain ⟨o', g1, g2, g3, g4⟩ := texts_law tss h2 (fun ts hts => hok ts (by simp [hts]))
      refine ⟨⟨o'.res.map (r :: ·), o'.st, ()⟩, by simp only [h1, Option.bind_some, hr, g1, Option.map_some], g2, h3.trans g3, ?_⟩
      intro rs hrs
      cases hr' : o'.res with
      | error e => simp [hr', Except.map] at hrs
      | ok rs' =>
        simp only [hr', Except.map, Except.ok.injEq] at hrs
        subst hrs
        obtain ⟨k1, k2, k3⟩ := g4 rs' hr'
        obtain ⟨l1, l2, l3⟩ := h4 r hr
        have hlr : D.view o.st r ≠ none := by rw [l2]; simp
        refine ⟨List.nodup_cons.2 ⟨fun hm => ?_, k1⟩, by simp [k2], fun p hp => ?_⟩
        · obtain ⟨n, hn, e⟩ := List.getElem_of_mem hm
          have := (k3 (rs'[n], tss[n]'(by rw [← k2]; exact hn)) (by
            rw [List.mem_iff_getElem]
            exact ⟨n, by simp [← k2, hn], by simp⟩)).1
          simp only [e] at this
          exact hlr this
        · rcases List.mem_cons.1 hp with rfl | hp
          · exact ⟨l1, g3.1 _ _ l2, g3.text hlr l3⟩
          · obtain ⟨m1, m2, m3⟩ := k3 p hp
            exact ⟨h3.1.absent m1, m2, m3⟩

end TextLaw
end Verif
