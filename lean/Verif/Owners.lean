import Verif.Shared

/-!
# Threads that own links

A specification that does not mention stores: what a thread is answered if its links are a private map (`privateAnswer`), and
which calls stay within the links that a thread owns (`OwnCall`).
-/

namespace Verif

section
variable {A : Type} (before : Link → Link → Link)

/-- What a plain map of links answers to lookups, updates and deletions; other calls are not considered. `before` is what an
update reports as the link before, from the old link and the new one. -/
def privateAnswer (v : View) : Req A → Option (Reply × View)
  | .get i => some (.link ((v i).map fun p => ⟨i, p.1, p.2⟩), v)
  | .write (.update i x y) _ h =>
    match v i with
    | none => some (.wrote (.error (.notExists i)) [], v)
    | some p => let e := (before ⟨i, p.1, p.2⟩ ⟨i, x, y⟩, (⟨i, x, y⟩ : Link)); some (.wrote (.ok (h [e])) [e], v.set i (x, y))
  | .write (.delete i) _ h =>
    match v i with
    | none => some (.wrote (.error (.notExists i)) [], v)
    | some p => let e := ((⟨i, p.1, p.2⟩ : Link), Link.nothing); some (.wrote (.ok (h [e])) [e], v.del i)
  | _ => none

/-- A run of thread `t` on a private copy of the links `v0`: the results it gets, and what it makes of the links. -/
inductive Alone (cl : Clients Reply (Req A)) (t : Nat) (v0 : View) : List Reply → View → Prop
  | start : Alone cl t v0 [] v0
  | call {rs : List Reply} {v v' : View} {q : Req A} {r : Reply} : Alone cl t v0 rs v → cl t rs q →
      privateAnswer before v q = some (r, v') → Alone cl t v0 (rs ++ [r]) v'

/-- Nobody but `t` owns link `j`. -/
def NotOthers (own : Nat → Nat → Prop) (t j : Nat) : Prop := ∀ u, own u j → u = t

/-- Thread `t` updates and deletes links it owns, and looks up links that nobody else owns. -/
def OwnCall (own : Nat → Nat → Prop) (t : Nat) : Req A → Prop
  | .get j => NotOthers own t j
  | .write (.update j _ _) _ _ => own t j
  | .write (.delete j) _ _ => own t j
  | _ => False

variable {before} {own : Nat → Nat → Prop}

theorem private_local {t : Nat} {q : Req A} (hq : OwnCall own t q) (ho : ∀ j, own t j → NotOthers own t j) {v w w' : View} {r : Reply}
    (hv : ∀ j, NotOthers own t j → v j = w j) (hr : privateAnswer before w q = some (r, w')) :
    ∃ v', privateAnswer before v q = some (r, v') ∧ ∀ j, NotOthers own t j → v' j = w' j := by
  cases q with
  | get i =>
    simp only [privateAnswer, Option.some.injEq, Prod.mk.injEq] at hr
    obtain ⟨rfl, rfl⟩ := hr
    exact ⟨v, by simp only [privateAnswer, hv i hq], hv⟩
  | each q h => exact hq.elim
  | count q => exact hq.elim
  | write k a h =>
    cases k with
    | create => exact hq.elim
    | update i x y =>
      have hi := hv i (ho i hq)
      simp only [privateAnswer] at hr ⊢
      rw [hi]
      cases hw : w i with
      | none =>
        rw [hw] at hr
        simp only [Option.some.injEq, Prod.mk.injEq] at hr
        obtain ⟨rfl, rfl⟩ := hr
        exact ⟨v, rfl, hv⟩
      | some p =>
        rw [hw] at hr
        simp only [Option.some.injEq, Prod.mk.injEq] at hr
        obtain ⟨rfl, rfl⟩ := hr
        refine ⟨_, rfl, fun j hj => ?_⟩
        simp only [View.set, hv j hj]
    | delete i =>
      have hi := hv i (ho i hq)
      simp only [privateAnswer] at hr ⊢
      rw [hi]
      cases hw : w i with
      | none =>
        rw [hw] at hr
        simp only [Option.some.injEq, Prod.mk.injEq] at hr
        obtain ⟨rfl, rfl⟩ := hr
        exact ⟨v, rfl, hv⟩
      | some p =>
        rw [hw] at hr
        simp only [Option.some.injEq, Prod.mk.injEq] at hr
        obtain ⟨rfl, rfl⟩ := hr
        refine ⟨_, rfl, fun j hj => ?_⟩
        simp only [View.del, hv j hj]

theorem private_frame {t : Nat} {q : Req A} (hq : OwnCall own t q) {w w' : View} {r : Reply}
    (hr : privateAnswer before w q = some (r, w')) {j : Nat} (hj : ¬ own t j) : w' j = w j := by
  cases q with
  | get i =>
    simp only [privateAnswer, Option.some.injEq, Prod.mk.injEq] at hr
    rw [hr.2]
  | each q h => exact hq.elim
  | count q => exact hq.elim
  | write k a h =>
    cases k with
    | create => exact hq.elim
    | update i x y =>
      have hne : j ≠ i := fun e => hj (e ▸ hq)
      simp only [privateAnswer] at hr
      split at hr <;> simp only [Option.some.injEq, Prod.mk.injEq] at hr <;> obtain ⟨-, rfl⟩ := hr
      · rfl
      · simp [View.set, hne]
    | delete i =>
      have hne : j ≠ i := fun e => hj (e ▸ hq)
      simp only [privateAnswer] at hr
      split at hr <;> simp only [Option.some.injEq, Prod.mk.injEq] at hr <;> obtain ⟨-, rfl⟩ := hr
      · rfl
      · simp [View.del, hne]

/-- Threads that own different links, on a store that answers such calls like a map: each gets the results of a private run,
and its links are what this run makes of them. Links without owner stay. -/
theorem serial_owners {S : Type} {answer : S → Req A → Option (Reply × S)} {view : S → View} {cl : Clients Reply (Req A)} {s0 : S}
    (ans : ∀ {log s i q r s'}, Serial answer cl s0 log s → cl i (mine log i) q → answer s q = some (r, s') →
      privateAnswer before (view s) q = some (r, view s'))
    (hcl : ∀ t rs q, cl t rs q → OwnCall own t q) (ho : ∀ t u j, own t j → own u j → t = u)
    {log : List (Nat × Reply)} {s : S} (h : Serial answer cl s0 log s) :
    (∀ t, ∃ v, Alone before cl t (view s0) (mine log t) v ∧ ∀ j, NotOthers own t j → v j = view s j) ∧
    ∀ j, (∀ t, ¬ own t j) → view s j = view s0 j := by
  induction h with
  | start => exact ⟨fun t => ⟨_, .start, fun _ _ => rfl⟩, fun _ _ => rfl⟩
  | @call log s s' i q r hs h1 h2 ih =>
    have hp := ans hs h1 h2
    have hw := hcl _ _ _ h1
    refine ⟨fun t => ?_, fun j hj => (private_frame hw hp (hj i)).trans (ih.2 j hj)⟩
    obtain ⟨v, g1, g2⟩ := ih.1 t
    by_cases ht : t = i
    · subst ht
      obtain ⟨v', k1, k2⟩ := private_local hw (fun j hj u hu => ho _ _ j hu hj) g2 hp
      rw [mine_self]
      exact ⟨v', .call g1 h1 k1, k2⟩
    · rw [mine_other ht]
      exact ⟨v, g1, fun j hj => (g2 j hj).trans (private_frame hw hp fun h => ht (hj _ h).symm).symm⟩

/-! ### Private runs are determined by the programs -/

/-- Every thread has at most one next call. -/
def Deterministic (cl : Clients Reply (Req A)) : Prop := ∀ t rs q q', cl t rs q → cl t rs q' → q = q'

/-- Thread `t` has no further call to make. -/
def Finished (cl : Clients Reply (Req A)) (t : Nat) (rs : List Reply) : Prop := ∀ q, ¬ cl t rs q

theorem Alone.functional {cl : Clients Reply (Req A)} (hd : Deterministic cl) {t : Nat} {v0 : View} {rs : List Reply} {v : View}
    (h : Alone before cl t v0 rs v) : ∀ {rs' v'}, Alone before cl t v0 rs' v' → rs'.length = rs.length → rs' = rs ∧ v' = v := by
  induction h with
  | start =>
    intro rs' v' h' hl
    cases h' with
    | start => exact ⟨rfl, rfl⟩
    | call _ _ _ => simp at hl
  | call g1 g2 g3 ih =>
    intro rs' v' h' hl
    cases h' with
    | start => simp at hl
    | call k1 k2 k3 =>
      obtain ⟨rfl, rfl⟩ := ih k1 (by simpa using hl)
      obtain rfl := hd _ _ _ _ k2 g2
      rw [k3] at g3
      simp only [Option.some.injEq, Prod.mk.injEq] at g3
      obtain ⟨rfl, rfl⟩ := g3
      exact ⟨rfl, rfl⟩

theorem Alone.prefix {cl : Clients Reply (Req A)} {t : Nat} {v0 : View} {rs : List Reply} {v : View}
    (h : Alone before cl t v0 rs v) {n : Nat} (hn : n < rs.length) :
    ∃ v' q, Alone before cl t v0 (rs.take n) v' ∧ cl t (rs.take n) q := by
  induction h with
  | start => simp at hn
  | @call rs v v' q r g1 g2 g3 ih =>
    by_cases hlt : n < rs.length
    · rw [List.take_append_of_le_length (by omega)]
      exact ih hlt
    · have he : n = rs.length := by simp at hn; omega
      subst he
      rw [List.take_left]
      exact ⟨v, q, g1, g2⟩

theorem Alone.finished {cl : Clients Reply (Req A)} (hd : Deterministic cl) {t : Nat} {v0 : View} {rs rs' : List Reply} {v v' : View}
    (h : Alone before cl t v0 rs v) (hf : Finished cl t rs) (h' : Alone before cl t v0 rs' v') (hf' : Finished cl t rs') :
    rs = rs' ∧ v = v' := by
  rcases Nat.lt_trichotomy rs.length rs'.length with hl | hl | hl
  · obtain ⟨w, q, k1, k2⟩ := h'.prefix hl
    obtain ⟨e, -⟩ := h.functional hd k1 (by rw [List.length_take]; omega)
    exact absurd (e ▸ k2) (hf q)
  · exact h'.functional hd h hl
  · obtain ⟨w, q, k1, k2⟩ := h.prefix hl
    obtain ⟨e, -⟩ := h'.functional hd k1 (by rw [List.length_take]; omega)
    exact absurd (e ▸ k2) (hf' q)

/-! ### Cells: links with a target of their own -/

/-- Every link holds nothing, or has the target that `key` says. -/
def Cells (key : Nat → Nat) (v : View) : Prop := ∀ j p, v j = some p → p = (0, 0) ∨ p.2 = key j

/-- A key belongs to one link, and is neither null nor that link. -/
structure Keys (key : Nat → Nat) : Prop where
  inj : ∀ i j, key i = key j → i = j
  pos : ∀ i, key i ≠ 0
  other : ∀ i, key i ≠ i

/-- Cells are looked up, assigned and deleted. -/
def CellCall (key : Nat → Nat) : Req A → Prop
  | .get _ => True
  | .write (.update j x y) _ _ => x ≠ j ∧ y = key j
  | .write (.delete _) _ _ => True
  | _ => False

theorem CellCall.within {key : Nat → Nat} {q : Req A} (hq : CellCall key q) (t : Nat) : OwnCall (fun u _ => u = t) t q := by
  cases q with
  | get i => exact fun _ h => h
  | each q h => exact hq.elim
  | count q => exact hq.elim
  | write k a h =>
    cases k with
    | create => exact hq.elim
    | _ => rfl

theorem Cells.uniq {key : Nat → Nat} (hk : Keys key) {v : View} (h : Cells key v) : v.Uniq := by
  intro i p hi hp j hj
  rcases h i p hi with e | e
  · exact absurd e hp
  · rcases h j p hj with e' | e'
    · exact absurd e' hp
    · exact hk.inj _ _ (e'.symm.trans e)

theorem Cells.answer {key : Nat → Nat} {v v' : View} (h : Cells key v) {q : Req A} (hq : CellCall key q) {r : Reply}
    (hr : privateAnswer before v q = some (r, v')) : Cells key v' := by
  cases q with
  | get i =>
    simp only [privateAnswer, Option.some.injEq, Prod.mk.injEq] at hr
    exact hr.2 ▸ h
  | each q h => exact hq.elim
  | count q => exact hq.elim
  | write k a hd =>
    cases k with
    | create => exact hq.elim
    | update i x y =>
      simp only [privateAnswer] at hr
      split at hr <;> simp only [Option.some.injEq, Prod.mk.injEq] at hr <;> obtain ⟨-, rfl⟩ := hr
      · exact h
      · intro j p hj
        simp only [View.set] at hj
        split at hj
        · next e => subst e; cases hj; exact .inr hq.2
        · exact h j p hj
    | delete i =>
      simp only [privateAnswer] at hr
      split at hr <;> simp only [Option.some.injEq, Prod.mk.injEq] at hr <;> obtain ⟨-, rfl⟩ := hr
      · exact h
      · intro j p hj
        simp only [View.del] at hj
        split at hj
        · cases hj
        · exact h j p hj

/-! ### An example -/

/-- The key of link `j`. -/
def cellKey (j : Nat) : Nat := j + 10

theorem cellKey_keys : Keys cellKey := ⟨fun i j h => by simp only [cellKey] at h; omega, fun i => by simp [cellKey], fun i => by simp [cellKey]⟩

/-- Threads 0 and 1 look up their cell, links 1 and 2, assign it, look up link 3, that nobody owns, and delete their cell. -/
def cellSteps (a : A) (t : Nat) : List (Req A) :=
  if t < 2 then [.get (t + 1), .write (.update (t + 1) 4 (cellKey (t + 1))) a fun _ => .cont, .get 3,
    .write (.delete (t + 1)) a fun _ => .cont] else []

def cellThreads (a : A) : Clients Reply (Req A) := fun t rs q => (cellSteps a t)[rs.length]? = some q

/-- Thread 0 owns link 1 and thread 1 link 2. -/
def cellOwner (t j : Nat) : Prop := j = t + 1 ∧ t < 2

theorem cellOwner_one {t u j : Nat} (h : cellOwner t j) (h' : cellOwner u j) : t = u := by
  have h1 := h.1
  have h2 := h'.1
  omega

theorem cellThreads_det (a : A) : Deterministic (cellThreads a) := fun t rs q q' h h' => by
  simp only [cellThreads] at h h'
  exact Option.some.inj (h.symm.trans h')

theorem cellThreads_mem {a : A} {t : Nat} {rs : List Reply} {q : Req A} (h : cellThreads a t rs q) : t < 2 ∧
    (q = .get (t + 1) ∨ q = .write (.update (t + 1) 4 (cellKey (t + 1))) a (fun _ => .cont) ∨ q = .get 3 ∨
      q = .write (.delete (t + 1)) a fun _ => .cont) := by
  have := List.mem_of_getElem? h
  simp only [cellSteps] at this
  split at this
  · next ht => exact ⟨ht, by simpa using this⟩
  · cases this

theorem cellThreads_within {a : A} (t : Nat) (rs : List Reply) (q : Req A) (h : cellThreads a t rs q) :
    OwnCall cellOwner t q ∧ CellCall cellKey q ∧ ∀ k a' h', q = .write k a' h' → a' = a := by
  obtain ⟨ht, h⟩ := cellThreads_mem h
  rcases h with rfl | rfl | rfl | rfl
  · exact ⟨fun u hu => by have := hu.1; omega, trivial, nofun⟩
  · exact ⟨⟨rfl, ht⟩, ⟨by omega, rfl⟩, fun _ _ _ e => by cases e; rfl⟩
  · exact ⟨fun u hu => by have := hu.1; have := hu.2; omega, trivial, nofun⟩
  · exact ⟨⟨rfl, ht⟩, trivial, fun _ _ _ e => by cases e; rfl⟩

/-- The threads can be run one after the other, to the end. -/
theorem cellThreads_finish {S : Type} {answer : S → Req A → Option (Reply × S)} {sup : S → Req A → Prop} {a : A} {s0 : S}
    (hd : Disciplined answer sup (cellThreads a) s0) (hs : ∀ s q, sup s q → answer s q ≠ none) :
    ∃ log s, Serial answer (cellThreads a) s0 log s ∧ ∀ t, Finished (cellThreads a) t (mine log t) := by
  have one : ∀ n, n ≤ 4 → ∃ log s, Serial answer (cellThreads a) s0 log s ∧ (mine log 0).length = n ∧ ∀ t, t ≠ 0 → mine log t = [] := by
    intro n
    induction n with
    | zero => exact fun _ => ⟨[], s0, .start, rfl, fun _ _ => rfl⟩
    | succ n ih =>
      intro hn
      obtain ⟨log, s, h1, h2, h3⟩ := ih (by omega)
      have hq : ∃ q, cellThreads a 0 (mine log 0) q := by
        simp only [cellThreads, h2, cellSteps]
        exact ⟨_, List.getElem?_eq_getElem (by simp; omega)⟩
      obtain ⟨q, hq⟩ := hq
      obtain ⟨⟨r, s'⟩, hr⟩ := Option.ne_none_iff_exists'.mp (hs _ _ (hd _ _ h1 _ _ hq))
      refine ⟨_, s', .call h1 hq hr, by rw [mine_self]; simp [h2], fun t ht => by rw [mine_other ht, h3 t ht]⟩
  have two : ∀ n, n ≤ 4 → ∃ log s, Serial answer (cellThreads a) s0 log s ∧ (mine log 0).length = 4 ∧ (mine log 1).length = n ∧
      ∀ t, 2 ≤ t → mine log t = [] := by
    intro n
    induction n with
    | zero =>
      intro _
      obtain ⟨log, s, h1, h2, h3⟩ := one 4 (by omega)
      exact ⟨log, s, h1, h2, by rw [h3 1 (by omega)]; rfl, fun t ht => h3 t (by omega)⟩
    | succ n ih =>
      intro hn
      obtain ⟨log, s, h1, h2, h3, h4⟩ := ih (by omega)
      have hq : ∃ q, cellThreads a 1 (mine log 1) q := by
        simp only [cellThreads, h3, cellSteps]
        exact ⟨_, List.getElem?_eq_getElem (by simp; omega)⟩
      obtain ⟨q, hq⟩ := hq
      obtain ⟨⟨r, s'⟩, hr⟩ := Option.ne_none_iff_exists'.mp (hs _ _ (hd _ _ h1 _ _ hq))
      refine ⟨_, s', .call h1 hq hr, by rw [mine_other (by omega), h2], by rw [mine_self]; simp [h3], fun t ht => by
        rw [mine_other (by omega), h4 t ht]⟩
  obtain ⟨log, s, h1, h2, h3, h4⟩ := two 4 (by omega)
  refine ⟨log, s, h1, fun t q hq => ?_⟩
  have hl := (List.getElem?_eq_some_iff.1 hq).1
  simp only [cellSteps] at hl
  split at hl
  · rcases (by omega : t = 0 ∨ t = 1) with rfl | rfl
    · rw [h2] at hl; simp at hl
    · rw [h3] at hl; simp at hl
  · simp at hl

end

end Verif
