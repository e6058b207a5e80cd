import Verif.Script

/-!
# Imports by several threads

Several threads share a store and each runs an import script (`Script.run`), one call at a time, in any order. Vocabulary of C111:
the network they build is the same whatever the order, up to the numbering of new links.
-/

namespace Verif.Script
open Verif

/-- A thread: the calls it still has to make, and its results so far. -/
abbrev Thread := List Call × List Nat

/-- The threads make calls in the order `sch` gives (the thread at the head makes its next call, if it has one). The first error
ends it. -/
def threads {S : Type} (D : Links S) : List Nat → List Thread → S → Option (Out S Unit (List Thread))
  | [], ts, s => some ⟨.ok ts, s, ()⟩
  | t :: sch, ts, s =>
    match ts[t]? with
    | some (k :: ks, rs) =>
      (k.source.eval rs).bind fun a =>
      (k.target.eval rs).bind fun b =>
      (D.getOrCreate s a b).bind fun o =>
      match o.res with
      | .error e => some ⟨.error e, o.st, ()⟩
      | .ok i => threads D sch (ts.set t (ks, rs ++ [i])) o.st
    | _ => threads D sch ts s

/-- Threads that are about to run the scripts `P`. -/
def start (P : List (List Call)) : List Thread := P.map fun ks => (ks, [])

/-- Link `i` of one store and link `j` of another are the same: the same link of the contents `v` both began with (or both null),
or the results of the same call, where `ps` pairs the results of each script on the one store with those on the other. -/
def Same (v : View) (ps : List (List Nat × List Nat)) (i j : Nat) : Prop :=
  (j = i ∧ (i = 0 ∨ v i ≠ none)) ∨ ∃ p ∈ ps, ∃ k : Nat, p.1[k]? = some i ∧ p.2[k]? = some j

/-- The links of `w₁` and `w₂` are the same network under a correspondence: it is one-to-one, pairs each link of either with a
link of the other, and links that correspond have ends that correspond. -/
structure SameNetwork (R : Nat → Nat → Prop) (w₁ w₂ : View) : Prop where
  fst : ∀ i, w₁ i ≠ none → ∃ j, R i j ∧ w₂ j ≠ none
  snd : ∀ j, w₂ j ≠ none → ∃ i, R i j ∧ w₁ i ≠ none
  right : ∀ i j k, R i j → R i k → j = k
  left : ∀ i j k, R i k → R j k → i = j
  ends : ∀ i j a b, R i j → w₁ i = some (a, b) → ∃ a' b', w₂ j = some (a', b') ∧ R a a' ∧ R b b'

theorem CarriedOut.snoc {v : View} : ∀ {ks : List Call} {rs rs' : List Nat}, CarriedOut v ks rs rs' → ∀ {k : Call} {a b i : Nat},
    k.source.eval rs' = some a → k.target.eval rs' = some b → v i = some (a, b) → CarriedOut v (ks ++ [k]) rs (rs' ++ [i])
  | [], _, _, e, _, a, b, i, h1, h2, h3 => by
    cases (show _ = _ from e)
    exact ⟨a, b, i, h1, h2, h3, rfl⟩
  | _ :: _, _, _, ⟨a, b, i, g1, g2, g3, g4⟩, _, _, _, _, h1, h2, h3 => ⟨a, b, i, g1, g2, g3, g4.snoc h1 h2 h3⟩

theorem CarriedOut.length {v : View} : ∀ {ks : List Call} {rs rs' : List Nat}, CarriedOut v ks rs rs' →
    rs'.length = rs.length + ks.length
  | [], _, _, e => by rw [show _ = _ from e]; rfl
  | _ :: _, _, _, ⟨_, _, _, _, _, _, g4⟩ => by rw [g4.length]; simp; omega

theorem CarriedOut.mem {v : View} : ∀ {ks : List Call} {rs rs' : List Nat}, CarriedOut v ks rs rs' → ∀ i ∈ rs', i ∈ rs ∨ v i ≠ none
  | [], _, _, e, i, hi => by rw [show _ = _ from e] at hi; exact .inl hi
  | _ :: _, _, _, ⟨a, b, m, _, _, g3, g4⟩, i, hi => by
    rcases g4.mem i hi with h | h
    · rcases List.mem_append.mp h with h | h
      · exact .inl h
      · rw [List.mem_singleton.mp h, g3]; exact .inr (by simp)
    · exact .inr h

theorem CarriedOut.get {v : View} : ∀ {ks : List Call} {rs rs' : List Nat}, CarriedOut v ks rs rs' → ∀ {k i : Nat}, rs[k]? = some i →
    rs'[k]? = some i
  | [], _, _, e, k, i, hi => by rw [show _ = _ from e]; exact hi
  | _ :: _, _, _, ⟨_, _, _, _, _, _, g4⟩, k, i, hi => g4.get (by
    rw [List.getElem?_append_left]
    · exact hi
    · exact (List.getElem?_eq_some_iff.mp hi).1)

variable {S : Type} {D : Links S} {J : S → Prop}

/-- How far the threads have come: each has carried out the first part of its script, and only results are new. -/
structure Progress (v : View) (P : List (List Call)) (ts : List Thread) (w : View) : Prop where
  sub : v.Sub w
  len : ts.length = P.length
  part : ∀ (t : Nat) (ks : List Call) (rs : List Nat), ts[t]? = some (ks, rs) → ∃ ls, P[t]? = some (ls ++ ks) ∧ CarriedOut w ls [] rs
  new : ∀ k, w k ≠ none → v k ≠ none ∨ ∃ p ∈ ts, k ∈ p.2

theorem Progress.start {v : View} {P : List (List Call)} : Progress v P (start P) v where
  sub := .refl _
  len := by simp [Script.start]
  part t ks rs h := by
    rw [Script.start, List.getElem?_map] at h
    cases e : P[t]? with
    | none => rw [e] at h; cases h
    | some ls => rw [e] at h; cases h; exact ⟨[], rfl, rfl⟩
  new _ h := .inl h

/-- The threads always come to an end, and if no call failed then each has carried out what it has done. -/
theorem threads_law (hJ : Law D J) {v : View} {P : List (List Call)} (hP : ∀ ks ∈ P, Fits v 0 ks) :
    ∀ (sch : List Nat) {ts : List Thread} {s : S}, J s → Progress v P ts (D.view s) →
      ∃ o, threads D sch ts s = some o ∧ J o.st ∧ v.Sub (D.view o.st) ∧
        ∀ ts', o.res = .ok ts' → Progress v P ts' (D.view o.st)
  | [], ts, s, hs, hp => ⟨_, rfl, hs, hp.sub, fun ts' e => by cases e; exact hp⟩
  | t :: sch, ts, s, hs, hp => by
    unfold threads
    split
    · next k ks rs ht =>
      obtain ⟨ls, h1, h2⟩ := hp.part t _ rs ht
      have hf := (Fits.append.mp (hP _ (List.mem_of_getElem? h1))).2
      have hl := h2.length
      simp only [List.length_nil, Nat.zero_add] at hl hf
      rw [← hl] at hf
      have hf := hf.mono hp.sub
      have hrs : ∀ i ∈ rs, D.view s i ≠ none := fun i hi => (h2.mem i hi).resolve_left (by simp)
      obtain ⟨a, ea, ha⟩ := operand hrs (hf.1 k.source (.inl rfl))
      obtain ⟨b, eb, hb⟩ := operand hrs (hf.1 k.target (.inr rfl))
      have htl : t < ts.length := (List.getElem?_eq_some_iff.mp ht).1
      have step : ∀ {i : Nat} {s' : S}, (D.view s).Sub (D.view s') → D.view s' i = some (a, b) →
          (∀ k, D.view s' k ≠ none → D.view s k ≠ none ∨ k = i) → Progress v P (ts.set t (ks, rs ++ [i])) (D.view s') := by
        intro i s' hsub hi hnew
        refine ⟨hp.sub.trans hsub, by rw [List.length_set, hp.len], fun u ks' rs' hu => ?_, fun m hm => ?_⟩
        · rw [List.getElem?_set] at hu
          by_cases e : t = u
          · subst e
            rw [if_pos rfl, if_pos htl] at hu
            cases hu
            exact ⟨ls ++ [k], by rw [h1]; simp, (h2.mono hsub).snoc ea eb hi⟩
          · rw [if_neg e] at hu
            obtain ⟨ls', g1, g2⟩ := hp.part u ks' rs' hu
            exact ⟨ls', g1, g2.mono hsub⟩
        · have hold : ∀ p ∈ ts, m ∈ p.2 → ∃ p ∈ ts.set t (ks, rs ++ [i]), m ∈ p.2 := by
            intro p hpm hm
            obtain ⟨u, hu⟩ := List.mem_iff_getElem?.mp hpm
            by_cases e : t = u
            · subst e
              rw [ht] at hu; cases hu
              exact ⟨(ks, rs ++ [i]), List.mem_iff_getElem?.mpr ⟨t, by rw [List.getElem?_set, if_pos rfl, if_pos htl]⟩,
                List.mem_append_left _ hm⟩
            · exact ⟨p, List.mem_iff_getElem?.mpr ⟨u, by rw [List.getElem?_set, if_neg e]; exact hu⟩, hm⟩
          rcases hnew m hm with hm | rfl
          · rcases hp.new m hm with hm | ⟨p, h1, h2⟩
            · exact .inl hm
            · exact .inr (hold p h1 h2)
          · exact .inr ⟨(ks, rs ++ [m]), List.mem_iff_getElem?.mpr ⟨t, by rw [List.getElem?_set, if_pos rfl, if_pos htl]⟩, by simp⟩
      rw [ea, Option.bind_some, eb, Option.bind_some]
      rcases hJ s hs a b ha hb with ⟨i, g1, -, g3⟩ | ⟨-, ⟨e, g⟩ | ⟨i, s', g1, g2, g3, g4⟩⟩
      · rw [g3, Option.bind_some]
        exact threads_law hJ hP sch hs (step (.refl _) g1 fun _ h => .inl h)
      · rw [g, Option.bind_some]
        exact ⟨_, rfl, hs, hp.sub, fun _ h => by cases h⟩
      · rw [g4, Option.bind_some]
        refine threads_law hJ hP sch g2 (step (by rw [g3]; exact sub_set g1 _) (by rw [g3, View.set_same]) fun m hm => ?_)
        by_cases e : m = i
        · exact .inr e
        · rw [g3, View.set_other _ _ e] at hm; exact .inl hm
    · exact threads_law hJ hP sch hs hp

/-! ### The correspondence -/

/-- A one-to-one correspondence between links (and null) under which ends correspond. -/
structure Corr (w₁ w₂ : View) (R : Nat → Nat → Prop) : Prop where
  right : ∀ i j k, R i j → R i k → j = k
  left : ∀ i j k, R i k → R j k → i = j
  both : ∀ i j, R i j → (i = 0 ∧ j = 0) ∨ ∃ a b a' b', w₁ i = some (a, b) ∧ w₂ j = some (a', b') ∧ R a a' ∧ R b b'

variable {w₁ w₂ : View} {R : Nat → Nat → Prop}

/-- The results of one more call on both sides correspond. -/
theorem Corr.add (h : Corr w₁ w₂ R) (h₁ : w₁.Uniq) (h₂ : w₂.Uniq) (z₁ : w₁ 0 = none) (z₂ : w₂ 0 = none) {a b a' b' i j : Nat}
    (ha : R a a') (hb : R b b') (hna : a ≠ 0) (hna' : a' ≠ 0) (hi : w₁ i = some (a, b)) (hj : w₂ j = some (a', b')) :
    Corr w₁ w₂ fun x y => R x y ∨ (x = i ∧ y = j) where
  right x y z hy hz := by
    have key : ∀ {y}, R i y → y = j := by
      intro y hy
      rcases h.both i y hy with ⟨rfl, -⟩ | ⟨c, d, c', d', g1, g2, g3, g4⟩
      · rw [z₁] at hi; cases hi
      · rw [hi] at g1; cases g1
        have e1 := h.right _ _ _ ha g3
        have e2 := h.right _ _ _ hb g4
        subst e1 e2
        exact h₂ j _ hj (by simp [hna']) y g2
    rcases hy with hy | ⟨rfl, rfl⟩
    · rcases hz with hz | ⟨rfl, rfl⟩
      · exact h.right _ _ _ hy hz
      · exact key hy
    · rcases hz with hz | ⟨-, rfl⟩
      · exact (key hz).symm
      · rfl
  left x y z hy hz := by
    have key : ∀ {x}, R x j → x = i := by
      intro x hx
      rcases h.both x j hx with ⟨-, rfl⟩ | ⟨c, d, c', d', g1, g2, g3, g4⟩
      · rw [z₂] at hj; cases hj
      · rw [hj] at g2; cases g2
        have e1 := h.left _ _ _ ha g3
        have e2 := h.left _ _ _ hb g4
        subst e1 e2
        exact h₁ i _ hi (by simp [hna]) x g1
    rcases hy with hy | ⟨rfl, rfl⟩
    · rcases hz with hz | ⟨rfl, rfl⟩
      · exact h.left _ _ _ hy hz
      · exact key hy
    · rcases hz with hz | ⟨rfl, -⟩
      · exact (key hz).symm
      · rfl
  both x y hxy := by
    rcases hxy with hxy | ⟨rfl, rfl⟩
    · rcases h.both x y hxy with g | ⟨c, d, c', d', g1, g2, g3, g4⟩
      · exact .inl g
      · exact .inr ⟨c, d, c', d', g1, g2, .inl g3, .inl g4⟩
    · exact .inr ⟨a, b, a', b', hi, hj, .inl ha, .inl hb⟩

theorem Corr.congr {R' : Nat → Nat → Prop} (h : Corr w₁ w₂ R) (he : ∀ i j, R i j ↔ R' i j) : Corr w₁ w₂ R' := by
  have : R = R' := by funext i j; exact propext (he i j)
  rw [← this]; exact h

/-- The results of one more script on both sides correspond. -/
theorem Corr.script (h₁ : w₁.Uniq) (h₂ : w₂.Uniq) (z₁ : w₁ 0 = none) (z₂ : w₂ 0 = none) {v : View} :
    ∀ {ks : List Call} {R : Nat → Nat → Prop} {r₁ r₂ t₁ t₂ : List Nat}, Corr w₁ w₂ R → (∀ i, v i ≠ none → R i i) →
      v 0 = none → Fits v r₁.length ks → r₁.length = r₂.length → (∀ (k i j : Nat), r₁[k]? = some i → r₂[k]? = some j → R i j) →
      (∀ i ∈ r₁, w₁ i ≠ none) → (∀ i ∈ r₂, w₂ i ≠ none) →
      CarriedOut w₁ ks r₁ t₁ → CarriedOut w₂ ks r₂ t₂ →
      Corr w₁ w₂ fun i j => R i j ∨ ∃ k : Nat, t₁[k]? = some i ∧ t₂[k]? = some j
  | [], R, r₁, r₂, t₁, t₂, h, _, _, _, _, hr, _, _, e₁, e₂ => by
    cases (show _ = _ from e₁)
    cases (show _ = _ from e₂)
    exact h.congr fun i j => ⟨.inl, fun g => g.elim id fun ⟨k, g1, g2⟩ => hr k i j g1 g2⟩
  | k :: ks, R, r₁, r₂, t₁, t₂, h, hv, hv0, ⟨hf, hf'⟩, hl, hr, hm₁, hm₂, ⟨a, b, i, ea, eb, hi, hc⟩,
      ⟨a', b', j, ea', eb', hj, hc'⟩ => by
    have op : ∀ o : Operand, o = k.source ∨ o = k.target → ∀ x y, o.eval r₁ = some x → o.eval r₂ = some y →
        R x y ∧ x ≠ 0 ∧ y ≠ 0 := by
      intro o ho x y hx hy
      have ho := hf o ho
      cases o with
      | link n =>
        have hx : n = x := by simpa [Operand.eval] using hx
        have hy : n = y := by simpa [Operand.eval] using hy
        subst hx hy
        have ho : v n ≠ none := ho
        have : n ≠ 0 := by rintro rfl; exact ho hv0
        exact ⟨hv n ho, this, this⟩
      | result m =>
        refine ⟨hr m x y hx hy, ?_, ?_⟩
        · rintro rfl; exact hm₁ 0 (List.mem_of_getElem? hx) z₁
        · rintro rfl; exact hm₂ 0 (List.mem_of_getElem? hy) z₂
    obtain ⟨ha, hna, hna'⟩ := op _ (.inl rfl) _ _ ea ea'
    obtain ⟨hb, -, -⟩ := op _ (.inr rfl) _ _ eb eb'
    have hadd := h.add h₁ h₂ z₁ z₂ ha hb hna hna' hi hj
    have key : ∀ (m x y : Nat), (r₁ ++ [i])[m]? = some x → (r₂ ++ [j])[m]? = some y → R x y ∨ (x = i ∧ y = j) := by
      intro m x y hx hy
      by_cases hlt : m < r₁.length
      · rw [List.getElem?_append_left hlt] at hx
        rw [List.getElem?_append_left (hl ▸ hlt)] at hy
        exact .inl (hr m x y hx hy)
      · rw [List.getElem?_append_right (Nat.le_of_not_lt hlt)] at hx
        rw [List.getElem?_append_right (hl ▸ Nat.le_of_not_lt hlt), ← hl] at hy
        have hm0 : m - r₁.length = 0 := by
          have := (List.getElem?_eq_some_iff.mp hx).1
          simp only [List.length_singleton] at this; omega
        rw [hm0] at hx hy
        simp only [List.getElem?_cons_zero, Option.some.injEq] at hx hy
        exact .inr ⟨hx.symm, hy.symm⟩
    have mem : ∀ {w : View} {r : List Nat} {i : Nat} {p : Nat × Nat}, w i = some p → (∀ m ∈ r, w m ≠ none) →
        ∀ m ∈ r ++ [i], w m ≠ none := by
      intro w r i p hi hr m hm
      rcases List.mem_append.mp hm with hm | hm
      · exact hr m hm
      · rw [List.mem_singleton.mp hm, hi]; simp
    have ih := Corr.script h₁ h₂ z₁ z₂ hadd (fun m hm => .inl (hv m hm)) hv0 (r₁ := r₁ ++ [i]) (r₂ := r₂ ++ [j])
      (by rw [List.length_append]; exact hf') (by simp [hl]) key (mem hi hm₁) (mem hj hm₂) hc hc'
    refine ih.congr fun x y => ⟨?_, ?_⟩
    · rintro ((g | ⟨rfl, rfl⟩) | g)
      · exact .inl g
      · refine .inr ⟨r₁.length, hc.get (by simp), hc'.get (by rw [hl]; simp)⟩
      · exact .inr g
    · rintro (g | g)
      · exact .inl (.inl g)
      · exact .inr g

/-- The results of several scripts on both sides correspond. -/
theorem Corr.scripts (h₁ : w₁.Uniq) (h₂ : w₂.Uniq) (z₁ : w₁ 0 = none) (z₂ : w₂ 0 = none) {v : View} (hv0 : v 0 = none) :
    ∀ {P : List (List Call)} {R : Nat → Nat → Prop} {ts us : List (List Nat)}, Corr w₁ w₂ R → (∀ i, v i ≠ none → R i i) →
      (∀ ks ∈ P, Fits v 0 ks) → ts.length = P.length → us.length = P.length →
      (∀ (t : Nat) (ks : List Call) (r : List Nat), P[t]? = some ks → ts[t]? = some r → CarriedOut w₁ ks [] r) →
      (∀ (t : Nat) (ks : List Call) (r : List Nat), P[t]? = some ks → us[t]? = some r → CarriedOut w₂ ks [] r) →
      Corr w₁ w₂ fun i j => R i j ∨ ∃ p ∈ ts.zip us, ∃ k : Nat, p.1[k]? = some i ∧ p.2[k]? = some j
  | [], R, ts, us, h, _, _, _, _, _, _ => by
    refine h.congr fun i j => ⟨.inl, ?_⟩
    rintro (g | ⟨p, hp, -⟩)
    · exact g
    · cases ts with
      | nil => simp at hp
      | cons _ _ => simp at *
  | ks :: P, R, [], us, _, _, _, hl, _, _, _ => by simp at hl
  | ks :: P, R, r :: ts, [], _, _, _, _, hl, _, _ => by simp at hl
  | ks :: P, R, r :: ts, r' :: us, h, hv, hf, hl, hl', hc, hc' => by
    have h0 := Corr.script h₁ h₂ z₁ z₂ h hv hv0 (r₁ := []) (r₂ := []) (hf ks (by simp)) rfl
      (fun _ _ _ g => by simp at g) (fun _ g => by cases g) (fun _ g => by cases g) (hc 0 ks r rfl rfl) (hc' 0 ks r' rfl rfl)
    have ih := Corr.scripts h₁ h₂ z₁ z₂ hv0 (P := P) (ts := ts) (us := us) h0 (fun i hi => .inl (hv i hi))
      (fun ks hk => hf ks (List.mem_cons_of_mem _ hk)) (by simpa using hl) (by simpa using hl')
      (fun t ks r h1 h2 => hc (t + 1) ks r (by simpa using h1) (by simpa using h2))
      (fun t ks r h1 h2 => hc' (t + 1) ks r (by simpa using h1) (by simpa using h2))
    refine ih.congr fun i j => ?_
    rw [List.zip_cons_cons]
    simp only [List.mem_cons]
    constructor
    · rintro ((g | g) | ⟨p, hp, g⟩)
      · exact .inl g
      · exact .inr ⟨_, .inl rfl, g⟩
      · exact .inr ⟨p, .inr hp, g⟩
    · rintro (g | ⟨p, rfl | hp, g⟩)
      · exact .inl (.inl g)
      · exact .inl (.inr g)
      · exact .inr ⟨p, hp, g⟩

/-- Two runs that started from the same contents and finished all scripts end with the same network. -/
theorem same_network {v : View} (hv0 : v 0 = none)
    (hcl : ∀ j a b, v j = some (a, b) → (a ≠ 0 → v a ≠ none) ∧ (b ≠ 0 → v b ≠ none)) {P : List (List Call)}
    (hP : ∀ ks ∈ P, Fits v 0 ks) (h₁ : w₁.Uniq) (h₂ : w₂.Uniq) (z₁ : w₁ 0 = none) (z₂ : w₂ 0 = none) {ts us : List Thread}
    (p₁ : Progress v P ts w₁) (p₂ : Progress v P us w₂) (d₁ : ∀ p ∈ ts, p.1 = []) (d₂ : ∀ p ∈ us, p.1 = []) :
    SameNetwork (Same v ((ts.map (·.2)).zip (us.map (·.2)))) w₁ w₂ := by
  have hbase : Corr w₁ w₂ fun i j => j = i ∧ (i = 0 ∨ v i ≠ none) := by
    refine ⟨fun i j k h1 h2 => h1.1.trans h2.1.symm, fun i j k h1 h2 => h1.1.symm.trans h2.1, ?_⟩
    rintro i j ⟨rfl, h | h⟩
    · exact .inl ⟨h, h⟩
    · cases e : v j with
      | none => exact absurd e h
      | some q =>
        obtain ⟨a, b⟩ := q
        obtain ⟨k1, k2⟩ := hcl j a b e
        refine .inr ⟨a, b, a, b, p₁.sub j _ e, p₂.sub j _ e, ⟨rfl, ?_⟩, ⟨rfl, ?_⟩⟩
        · by_cases h0 : a = 0
          · exact .inl h0
          · exact .inr (k1 h0)
        · by_cases h0 : b = 0
          · exact .inl h0
          · exact .inr (k2 h0)
  have done : ∀ {w : View} {ts : List Thread}, Progress v P ts w → (∀ p ∈ ts, p.1 = []) → ∀ (t : Nat) (ks : List Call) (r : List Nat),
      P[t]? = some ks → (ts.map (·.2))[t]? = some r → CarriedOut w ks [] r := by
    intro w ts p d t ks r h1 h2
    rw [List.getElem?_map] at h2
    cases e : ts[t]? with
    | none => rw [e] at h2; cases h2
    | some q =>
      obtain ⟨ks', rs⟩ := q
      rw [e] at h2; cases h2
      have : ks' = [] := d _ (List.mem_of_getElem? e)
      subst this
      obtain ⟨ls, g1, g2⟩ := p.part t _ _ e
      rw [h1, List.append_nil] at g1; cases g1
      exact g2
  have hlen : ts.length = us.length := p₁.len.trans p₂.len.symm
  have hC := Corr.scripts h₁ h₂ z₁ z₂ hv0 (P := P) (ts := ts.map (·.2)) (us := us.map (·.2)) hbase
    (fun i hi => ⟨rfl, .inr hi⟩) hP (by simp [p₁.len]) (by simp [p₂.len]) (done p₁ d₁) (done p₂ d₂)
  have hlens : ∀ (t : Nat) (p q : Thread), ts[t]? = some p → us[t]? = some q → p.2.length = q.2.length := by
    intro t p q hp hq
    have htl : t < P.length := by rw [← p₁.len]; exact (List.getElem?_eq_some_iff.mp hp).1
    have hPt : P[t]? = some P[t] := List.getElem?_eq_getElem htl
    rw [(done p₁ d₁ t _ p.2 hPt (by rw [List.getElem?_map, hp]; rfl)).length,
      (done p₂ d₂ t _ q.2 hPt (by rw [List.getElem?_map, hq]; rfl)).length]
  have hz : ∀ (t : Nat) (p q : Thread), ts[t]? = some p → us[t]? = some q →
      (p.2, q.2) ∈ (ts.map (·.2)).zip (us.map (·.2)) := by
    intro t p q hp hq
    refine List.mem_iff_getElem?.mpr ⟨t, ?_⟩
    rw [List.getElem?_zip_eq_some]
    exact ⟨by rw [List.getElem?_map, hp]; rfl, by rw [List.getElem?_map, hq]; rfl⟩
  have live : ∀ i j, Same v ((ts.map (·.2)).zip (us.map (·.2))) i j → (w₁ i ≠ none ↔ w₂ j ≠ none) := by
    intro i j hij
    rcases hC.both i j hij with ⟨rfl, rfl⟩ | ⟨a, b, a', b', g1, g2, -⟩
    · rw [z₁, z₂]
    · rw [g1, g2]; simp
  refine ⟨fun i hi => ?_, fun j hj => ?_, hC.right, hC.left, fun i j a b hij hi => ?_⟩
  · have : ∃ j, Same v ((ts.map (·.2)).zip (us.map (·.2))) i j := by
      rcases p₁.new i hi with h | ⟨p, hp, hm⟩
      · exact ⟨i, .inl ⟨rfl, .inr h⟩⟩
      · obtain ⟨t, ht⟩ := List.mem_iff_getElem?.mp hp
        obtain ⟨k, hk⟩ := List.mem_iff_getElem?.mp hm
        have htl : t < us.length := by rw [← hlen]; exact (List.getElem?_eq_some_iff.mp ht).1
        have hu : us[t]? = some us[t] := List.getElem?_eq_getElem htl
        have hkl : k < us[t].2.length := by
          rw [← hlens t p _ ht hu]; exact (List.getElem?_eq_some_iff.mp hk).1
        exact ⟨us[t].2[k], .inr ⟨_, hz t p _ ht hu, k, hk, List.getElem?_eq_getElem hkl⟩⟩
    obtain ⟨j, hj⟩ := this
    exact ⟨j, hj, (live i j hj).mp hi⟩
  · have : ∃ i, Same v ((ts.map (·.2)).zip (us.map (·.2))) i j := by
      rcases p₂.new j hj with h | ⟨p, hp, hm⟩
      · exact ⟨j, .inl ⟨rfl, .inr h⟩⟩
      · obtain ⟨t, ht⟩ := List.mem_iff_getElem?.mp hp
        obtain ⟨k, hk⟩ := List.mem_iff_getElem?.mp hm
        have htl : t < ts.length := by rw [hlen]; exact (List.getElem?_eq_some_iff.mp ht).1
        have hu : ts[t]? = some ts[t] := List.getElem?_eq_getElem htl
        have hkl : k < ts[t].2.length := by
          rw [hlens t _ p hu ht]; exact (List.getElem?_eq_some_iff.mp hk).1
        exact ⟨ts[t].2[k], .inr ⟨_, hz t _ p hu ht, k, List.getElem?_eq_getElem hkl, hk⟩⟩
    obtain ⟨i, hi⟩ := this
    exact ⟨i, hi, (live i j hi).mpr hj⟩
  · rcases hC.both i j hij with ⟨rfl, -⟩ | ⟨c, d, c', d', g1, g2, g3, g4⟩
    · rw [z₁] at hi; cases hi
    · rw [hi] at g1; cases g1
      exact ⟨c', d', g2, g3, g4⟩

end Verif.Script
