import Verif.Session
import Verif.Props.LinkFfi
import Verif.Props.Nested

/-!
# C87: a C client can know the store from what it is told
-/

namespace Verif.Ffi.Props
open Verif Verif.Ffi
open Verif.Unit (Cfg CfgOK Reach Store links cfg0 cfg0_ok)

variable {c : Cfg}

theorem head_of_raw {q : List Nat} {i : Nat} (h : q[0]? = some i) : ∃ rest, q = i :: rest := by
  cases q with
  | nil => cases h
  | cons x rest => cases h; exact ⟨rest, rfl⟩

/-- Only the first part of the restrictions and the second and third of the substitution count. -/
theorem updateLinks_head {σ : Type} (s : Store) (i x a b : Nat) (r q : List Nat) (h : WH σ) (st : σ) :
    Unit.updateLinks c s (i :: r) (x :: a :: b :: q) h st = Unit.updateLinks c s [i] [x, a, b] h st := rfl

theorem deleteLinks_head {σ : Type} (s : Store) (i : Nat) (r : List Nat) (h : WH σ) (st : σ) :
    Unit.deleteLinks c s (i :: r) h st = Unit.deleteLinks c s [i] h st := rfl

/-- What a traversal shows. -/
theorem shows_of_reach (hc : CfgOK c) {s : Store} (h : Reach c s) (q : List Nat) (hq : q.length ≤ 3) :
    ∃ L, (links c).Visits s q L ∧ Shows c.consts.any ((links c).view s) q L ∧
      Unit.countLinks c s q = (if L.length ≤ c.maxT then some L.length else none) ∧
      (q.length ≠ 2 → L.length ≤ c.consts.internalEnd) := by
  obtain ⟨L, h1, h2, h3, h4, h5, h6⟩ := Unit.query_law hc (Unit.reach_good hc h) q hq
  refine ⟨L, h1, ⟨h3, fun hn l hl hm => ⟨fun hp => ?_, fun hp he => ?_, fun hp hx => ?_, fun x hx hx' he => ?_⟩⟩, h2, h6⟩
  · have g1 := (h5 hp).1
    have g2 := (h5 hp).2 hn ⟨l, hl, hm⟩
    cases L with
    | nil => exact absurd rfl g2
    | cons x L => simp only [List.length_cons] at g1 ⊢; omega
  · rw [h4 hn hp l hl]
    rcases Unit.Props.visitsOf_match hm with ⟨e, -⟩ | ⟨-, x, -, -, e1, e2⟩
    · exact e
    · exact absurd (e1.trans e2.symm) he
  · rw [h4 hn hp l hl]
    rcases Unit.Props.visitsOf_match hm with ⟨e, -⟩ | ⟨-, x, e1, e2, -, -⟩
    · exact e
    · exact absurd (hx x e1) e2
  · have hp : ¬ IsPair c.consts.any q := by
      rintro ⟨a, b, e, -⟩; rw [hx] at e; cases e
    rw [h4 hn hp l hl]
    rcases Unit.Props.visitsOf_match hm with ⟨-, e⟩ | ⟨e, -⟩
    · rw [hx] at hm
      obtain ⟨-, hm⟩ := hm
      rcases hm with hm | hm | hm
      · exact absurd hm hx'
      · exact absurd ⟨x, hx, hx', hm, he ▸ hm⟩ e
      · exact absurd ⟨x, hx, hx', he ▸ hm, hm⟩ e
    · exact e

/-- A creation. -/
theorem create_of_reach (hc : CfgOK c) {s : Store} (h : Reach c s) :
    (∃ i s', (links c).view s i = none ∧ 1 ≤ i ∧ i ≤ c.consts.internalEnd ∧ Reach c s' ∧
      (links c).view s' = ((links c).view s).set i (0, 0) ∧
      ∀ q, Links.Succeeds (fun _ hd st => (links c).createLinks s q hd st) s' Link.nothing ⟨i, 0, 0⟩) ∨
    (∃ e, ∀ q, Links.Fails (fun _ hd st => (links c).createLinks s q hd st) s e) ∨
    (¬ Unit.CanGrow c s ∧ ∀ q σ (hd : WH σ) st, (links c).createLinks s q hd st = none) := by
  obtain ⟨free, ts, tt, hi⟩ := Unit.reach_good hc h
  have hle := hi.base.alloc_le
  have hr : ∀ {i s'}, Links.Succeeds (fun _ hd st => Unit.createLinks c s [] hd st) s' Link.nothing ⟨i, 0, 0⟩ → Reach c s' :=
    fun hS => Reach.create (q := []) c.alloc h hc.alloc_ge (hS _ recH none)
  rcases Unit.create_cases hc hi [] with ⟨x, rest, s1, -, h1, h2, -, -, hS, h3, h4⟩ |
      ⟨-, -, e⟩ | ⟨-, -, -, e⟩ | ⟨-, -, ⟨n, h1, h2⟩, e⟩ | ⟨-, h1, s1, -, -, hS, h3, h4⟩
  · exact .inl ⟨x, s1, h3, by omega, by omega, hr hS, h4, fun q => hS⟩
  · exact .inr (.inl ⟨_, fun q => e⟩)
  · exact .inr (.inl ⟨_, fun q => e⟩)
  · exact .inr (.inr ⟨fun hg => absurd (hg n h1) (by omega), fun q => e⟩)
  · exact .inl ⟨_, s1, h3, by omega, by omega, hr hS, h4, fun q => hS⟩

/-- An update. -/
theorem update_of_reach (hc : CfgOK c) {s : Store} (h : Reach c s) (i x a b : Nat) (ht : ((links c).view s).NoTwin i) :
    ((links c).view s i = none ∧ ∀ r q,
      Links.Fails (fun _ hd st => (links c).updateLinks s (i :: r) (x :: a :: b :: q) hd st) s (.notExists i)) ∨
    ((links c).view s i ≠ none ∧ ∃ s', Reach c s' ∧ (links c).view s' = ((links c).view s).set i (a, b) ∧ ∀ r q,
      Links.Succeeds (fun _ hd st => (links c).updateLinks s (i :: r) (x :: a :: b :: q) hd st) s' ⟨i, a, b⟩ ⟨i, a, b⟩) := by
  have hg := Unit.reach_good hc h
  cases hv : (links c).view s i with
  | none => exact .inl ⟨rfl, fun r q => (Unit.lawful hc).update_missing s hg i hv x a b⟩
  | some p =>
    obtain ⟨s', -, h2, h3⟩ := Unit.update_law hc hg hv ht x a b
    refine .inr ⟨by simp, s', ?_, h2, fun r q => h3⟩
    exact Reach.update (q := [i]) (ch := [x, a, b]) h (fun j hj => by cases hj; exact ht) (h3 _ recH none)

/-- A deletion. -/
theorem delete_of_reach (hc : CfgOK c) {s : Store} (h : Reach c s) (i : Nat) (ht : ((links c).view s).NoTwin i) :
    ((links c).view s i = none ∧ ∀ r,
      Links.Fails (fun _ hd st => (links c).deleteLinks s (i :: r) hd st) s (.notExists i)) ∨
    ∃ p s', (links c).view s i = some p ∧ Reach c s' ∧ (links c).view s' = ((links c).view s).del i ∧ ∀ r,
      Links.Succeeds (fun _ hd st => (links c).deleteLinks s (i :: r) hd st) s' ⟨i, p.1, p.2⟩ Link.nothing := by
  have hg := Unit.reach_good hc h
  cases hv : (links c).view s i with
  | none => exact .inl ⟨rfl, fun r => (Unit.lawful hc).delete_missing s hg i hv⟩
  | some p =>
    obtain ⟨s', -, h2, h3⟩ := Unit.delete_law hc hg hv ht
    refine .inr ⟨p, s', rfl, ?_, h2, fun r => h3⟩
    exact Reach.delete (q := [i]) h (fun j hj => by cases hj; exact ht) (h3 _ recH none)

theorem onVisit_after (answer : List Event → Nat) (evs : List Event) : ∀ (L : List Link) (es : List Event),
    cbAfter (onVisit answer evs) es L = es ++ L.map .visited := by
  intro L
  induction L with
  | nil => intro es; simp [cbAfter]
  | cons l L ih => intro es; simp [cbAfter, onVisit, ih]

/-- A traversal. -/
theorem each_of_reach (hc : CfgOK c) {s : Store} (h : Reach c s) (answer : List Event → Nat) (evs : List Event) {q' : List Nat}
    (hq3 : q'.length ≤ 3) {q : Option (List Nat)} {len : Nat} (hq : queryFromRaw q len = some q') :
    ∃ L code es, Shows c.consts.any ((links c).view s) q' L ∧
      Ffi.each (links c) s q len (onVisit answer evs) [] = some (code, es) ∧
      ((code = c.consts.cont ∧ es = L.map .visited ∧
          ∀ n, n < L.length → answer (evs ++ (L.take (n + 1)).map .visited) = c.consts.cont) ∨
        ∃ n, n < L.length ∧ code = c.consts.brk ∧ es = (L.take (n + 1)).map .visited ∧
          (∀ j, j < n → answer (evs ++ (L.take (j + 1)).map .visited) = c.consts.cont) ∧ answer (evs ++ es) ≠ c.consts.cont) := by
  obtain ⟨L, h1, h2, -⟩ := shows_of_reach hc h q' hq3
  have he : ∀ {σ : Type} (cb : σ → Link → Nat × σ) (st : σ), Ffi.each (links c) s q len cb st =
      Ffi.each (links c) s (some q') q'.length cb st := by
    intro σ cb st
    have hq' : queryFromRaw (some q') q'.length = some q' := by simp [queryFromRaw]
    simp only [Ffi.each, hq, hq']
  obtain ⟨L', g1, g2⟩ := C38_each_partial hc h hq3 (qp := some q') (len := q'.length) (.inr ⟨[], by simp, rfl⟩)
  cases h1.unique g1
  have hans : ∀ k (hk : k < L.length), (onVisit answer evs (cbAfter (onVisit answer evs) [] (L.take k)) L[k]).1 =
      answer (evs ++ (L.take (k + 1)).map .visited) := by
    intro k hk
    rw [onVisit_after, List.take_add_one, List.getElem?_eq_getElem hk]
    simp only [onVisit, List.nil_append, Option.toList, List.map_append, List.map_cons, List.map_nil]
  rcases g2 (onVisit answer evs) [] with ⟨g3, g4⟩ | ⟨k, hk, g3, g4, g5⟩
  · refine ⟨L, _, _, h2, (he _ _).trans g4, .inl ⟨rfl, by rw [onVisit_after]; rfl, fun n hn => ?_⟩⟩
    rw [← hans n hn]; exact g3 n hn
  · refine ⟨L, _, _, h2, (he _ _).trans g5, .inr ⟨k, hk, rfl, by rw [onVisit_after]; rfl, fun j hj => ?_, ?_⟩⟩
    · rw [← hans j (by omega)]; exact g3 j hj
    · rw [hans k hk] at g4
      rw [onVisit_after]; exact g4

theorem ofFlow_brk (k : Consts) (p : Prop) [Decidable p] :
    ofFlow k (if p then .brk () else .cont) = if p then k.brk else k.cont := by split <;> rfl

theorem ofFlow_cont (k : Consts) (p : Prop) [Decidable p] :
    ofFlow k (if p then .cont else .brk ()) = if p then k.cont else k.brk := by split <;> rfl

/-- One call of a session. -/
theorem run_says (hc : CfgOK c) {s : Store} (h : Reach c s) (answer : List Event → Nat) (evs : List Event)
    (call : CCall) (hw : ∀ i, call.writes = some i → ((links c).view s).NoTwin i) {code : Nat} {s' : Store} {es : List Event}
    (ho : call.run (links c) answer evs s = some (code, s', es)) :
    Reach c s' ∧ call.Says c.consts answer evs ((links c).view s) code es ((links c).view s') := by
  cases call with
  | smartCreate =>
    simp only [CCall.run, Ffi.smartCreate] at ho
    rcases create_of_reach hc h with ⟨i, s1, h1, h2, h3, h4, h5, h6⟩ | ⟨e, h1⟩ | ⟨-, h1⟩
    · rw [Links.create_ok (h6 [])] at ho
      cases ho
      exact ⟨h4, rfl, .inl ⟨i, h1, h2, h3, rfl, h5⟩⟩
    · rw [Links.create_err (h1 [])] at ho
      cases ho
      exact ⟨h, rfl, .inr ⟨rfl, rfl⟩⟩
    · rw [Unit.create_none (h1 [])] at ho; cases ho
  | smartUpdate i a b =>
    simp only [CCall.run, Ffi.smartUpdate] at ho
    rcases update_of_reach hc h i i a b (hw i rfl) with ⟨h1, h2⟩ | ⟨h1, s1, h2, h3, h4⟩
    · rw [Links.update_err (h2 [] [])] at ho
      cases ho
      exact ⟨h, rfl, by rw [if_pos h1]; exact ⟨rfl, rfl⟩⟩
    · rw [Links.update_ok (h4 [] [])] at ho
      cases ho
      exact ⟨h2, rfl, by rw [if_neg h1]; exact ⟨rfl, h3⟩⟩
  | create q len =>
    simp only [CCall.run, Ffi.create] at ho
    cases hq : queryFromRaw q len with
    | none => rw [hq] at ho; cases ho
    | some q' =>
      rw [hq, Option.bind_some] at ho
      rcases create_of_reach hc h with ⟨i, s1, h1, h2, h3, h4, h5, h6⟩ | ⟨e, h1⟩ | ⟨-, h1⟩
      · rw [Links.createByWith_ok (h6 q')] at ho
        cases ho
        refine ⟨h4, .inl ⟨i, h1, h2, h3, rfl, ?_, h5⟩⟩
        exact ofFlow_brk c.consts _
      · rw [Links.createByWith_err (h1 q')] at ho
        cases ho
        exact ⟨h, .inr ⟨rfl, rfl, rfl⟩⟩
      · simp only [Links.createByWith, h1 q'] at ho
        cases ho
  | update r lr q lq =>
    simp only [CCall.run, Ffi.update] at ho
    cases hr : queryFromRaw r lr with
    | none => rw [hr] at ho; cases ho
    | some r' =>
      cases hq : queryFromRaw q lq with
      | none => rw [hr, hq] at ho; cases ho
      | some q' =>
        rw [hr, hq, Option.bind_some, Option.bind_some] at ho
        match r', q' with
        | [], _ => cases ho
        | i :: r', [] => cases ho
        | i :: r', [x] => cases ho
        | i :: r', [x, a] => cases ho
        | i :: r', x :: a :: b :: q' =>
          suffices key : Reach c s' ∧ if (links c).view s i = none then es = [] ∧ code = c.consts.error ∧ (links c).view s' = (links c).view s
              else es = [.changed ⟨i, a, b⟩ ⟨i, a, b⟩] ∧
                code = (if answer (evs ++ es) = c.consts.cont then c.consts.cont else c.consts.brk) ∧
                (links c).view s' = ((links c).view s).set i (a, b) from ⟨key.1, i, x, a, b, r', q', hr, hq, key.2⟩
          rcases update_of_reach hc h i x a b (hw i (by simp [CCall.writes, hr])) with ⟨h1, h2⟩ | ⟨h1, s1, h2, h3, h4⟩
          · rw [Links.updateByWith_err (h2 r' q')] at ho
            cases ho
            exact ⟨h, by rw [if_pos h1]; exact ⟨rfl, rfl, rfl⟩⟩
          · rw [Links.updateByWith_ok (h4 r' q')] at ho
            cases ho
            refine ⟨h2, ?_⟩
            rw [if_neg h1]
            refine ⟨rfl, ?_, h3⟩
            exact ofFlow_cont c.consts _
  | delete q len =>
    simp only [CCall.run, Ffi.delete] at ho
    cases hq : queryFromRaw q len with
    | none => rw [hq] at ho; cases ho
    | some q' =>
      rw [hq, Option.bind_some] at ho
      match q' with
      | [] => cases ho
      | i :: q' =>
        refine And.imp_right (fun key => ⟨i, q', hq, key⟩) ?_
        rcases delete_of_reach hc h i (hw i (by simp [CCall.writes, hq])) with ⟨h1, h2⟩ | ⟨p, s1, h1, h2, h3, h4⟩
        · rw [Links.deleteByWith_err (h2 q')] at ho
          cases ho
          rw [h1]
          exact ⟨h, rfl, rfl, rfl⟩
        · rw [Links.deleteByWith_ok (h4 q')] at ho
          cases ho
          rw [h1]
          refine ⟨h2, rfl, ?_, h3⟩
          exact ofFlow_brk c.consts _
  | each q len =>
    simp only [CCall.run] at ho
    cases hq : queryFromRaw q len with
    | none => simp only [Ffi.each, hq] at ho; cases ho
    | some q' =>
      by_cases hq3 : q'.length ≤ 3
      · obtain ⟨L, code', es', h1, h2, h3⟩ := each_of_reach hc h answer evs hq3 hq
        rw [h2] at ho
        cases ho
        exact ⟨h, rfl, q', L, hq, h1, h3⟩
      · obtain ⟨a, b, d, e, r, rfl⟩ : ∃ a b d e r, q' = a :: b :: d :: e :: r := by
          match q', hq3 with
          | a :: b :: d :: e :: r, _ => exact ⟨a, b, d, e, r, rfl⟩
          | [], h | [_], h | [_, _], h | [_, _, _], h => exact absurd (by simp) h
        · have he : ∀ {σ : Type} (hd : RH σ) st, Unit.eachLinks c s (a :: b :: d :: e :: r) hd st = none := by
            intro σ hd st
            simp only [Unit.eachLinks, hc.index_eq]
            rw [if_neg (by simp), List.getElem?_cons_zero, Option.bind_some, if_neg (by simp), if_neg (by simp), if_neg (by simp)]
          simp only [Ffi.each, hq, Option.bind_some] at ho
          rw [show (links c).eachBy (ρ := _root_.Unit) s (a :: b :: d :: e :: r) _ _ = _ from congrArg (Option.map _) (he _ _)] at ho
          cases ho
  | count q len =>
    simp only [CCall.run, Ffi.count] at ho
    cases hq : queryFromRaw q len with
    | none => rw [hq] at ho; cases ho
    | some q' =>
      rw [hq, Option.bind_some] at ho
      by_cases hq3 : q'.length ≤ 3
      · obtain ⟨L, -, h1, h2, -⟩ := shows_of_reach hc h q' hq3
        have h2 : (links c).countBy s q' = _ := h2
        rw [h2] at ho
        split at ho
        · cases ho
          exact ⟨h, rfl, rfl, q', L, hq, h1, rfl⟩
        · cases ho
      · obtain ⟨a, b, d, e, r, rfl⟩ : ∃ a b d e r, q' = a :: b :: d :: e :: r := by
          match q', hq3 with
          | a :: b :: d :: e :: r, _ => exact ⟨a, b, d, e, r, rfl⟩
          | [], h | [_], h | [_, _], h | [_, _, _], h => exact absurd (by simp) h
        · have he : Unit.countLinks c s (a :: b :: d :: e :: r) = none := by
            simp only [Unit.countLinks, hc.index_eq]
            rw [if_neg (by simp), List.getElem?_cons_zero, Option.bind_some, if_neg (by simp), if_neg (by simp), if_neg (by simp)]
          rw [show (links c).countBy s (a :: b :: d :: e :: r) = none from he] at ho
          cases ho

/-- What the client learns is what the specification says. -/
theorem learn_of_says (hc : CfgOK c) (herr : c.consts.internalEnd < c.consts.error) {s : Store} (h : Reach c s)
    {answer : List Event → Nat} {evs : List Event} {call : CCall} {code : Nat} {es : List Event} {m' : View}
    (hs : call.Says c.consts answer evs ((links c).view s) code es m') :
    learn c.consts ((links c).view s) call code es = m' := by
  have hle : ∀ i, (links c).view s i ≠ none → i ≠ c.consts.error := by
    intro i hi e
    obtain ⟨free, ts, tt, hi'⟩ := Unit.reach_good hc h
    rw [Unit.view_eq hc hi'.toInv0] at hi
    by_cases hl : Unit.LiveIn s free i
    · have := hl.2.1
      have := hi'.base.alloc_le
      omega
    · rw [if_neg hl] at hi; exact hi rfl
  cases call with
  | smartCreate =>
    obtain ⟨-, ⟨i, h1, h2, h3, rfl, h4⟩ | ⟨rfl, rfl⟩⟩ := hs
    · simp only [learn]; rw [if_neg (by omega), h4]
    · simp only [learn, if_true]
  | smartUpdate i a b =>
    obtain ⟨-, hs⟩ := hs
    split at hs
    · obtain ⟨rfl, rfl⟩ := hs
      simp only [learn, if_true]
    · next hi =>
      obtain ⟨rfl, rfl⟩ := hs
      simp only [learn]; rw [if_neg (hle _ hi)]
  | create q len =>
    rcases hs with ⟨i, h1, h2, h3, rfl, -, rfl⟩ | ⟨rfl, -, rfl⟩
    · simp only [learn, List.foldl, tell, View.change]
      rw [if_neg (by intro e; cases e; omega)]
    · rfl
  | update r lr q lq =>
    obtain ⟨i, x, a, b, r', q', -, -, hs⟩ := hs
    split at hs
    · obtain ⟨rfl, -, rfl⟩ := hs; rfl
    · next hi =>
      obtain ⟨rfl, -, rfl⟩ := hs
      simp only [learn, List.foldl, tell, View.change]
      rw [if_neg]
      intro e; cases e
      exact hi ((Unit.lawful hc).null s (Unit.reach_good hc h))
  | delete q len =>
    obtain ⟨i, q', -, hs⟩ := hs
    split at hs
    · obtain ⟨rfl, -, rfl⟩ := hs; rfl
    · obtain ⟨rfl, -, rfl⟩ := hs
      simp only [learn, List.foldl, tell, View.change, if_true]
  | each q len =>
    obtain ⟨rfl, q', L, -, -, hs⟩ := hs
    have : ∀ (L : List Link) (m : View), (L.map Event.visited).foldl tell m = m := by
      intro L
      induction L with
      | nil => intro m; rfl
      | cons l L ih => intro m; exact ih m
    rcases hs with ⟨-, rfl, -⟩ | ⟨n, -, -, rfl, -⟩ <;> exact this _ _
  | count q len =>
    obtain ⟨rfl, rfl, -⟩ := hs; rfl

/-- **C87** The C interface as a table. A client starts with a table of the links of the store, makes any calls and answers its callbacks in
any way, also depending on all it was told before. It changes the table from the codes and the arguments of its callbacks alone. Suppose that, by
its table, it never writes to a link whose doublet another link has. Then every call answers as the specification `Says` of that table, and
after every call the table is the contents of the store. -/
theorem C87_the_client_knows_the_store (hc : CfgOK c) (herr : c.consts.internalEnd < c.consts.error) {s : Store} (h : Reach c s)
    (answer : List Event → Nat) (calls : List CCall) {xs : List (Step Store)}
    (ho : session (links c) answer s [] calls = some xs)
    (hw : ∀ n x i, xs[n]? = some x → x.call.writes = some i → (learned c.consts ((links c).view s) (xs.take n)).NoTwin i) :
    xs.map (·.call) = calls ∧
    ∀ n x, xs[n]? = some x →
      x.call.Says c.consts answer (eventsOf (xs.take n)) (learned c.consts ((links c).view s) (xs.take n)) x.code x.events
        (learned c.consts ((links c).view s) (xs.take (n + 1))) ∧
      (links c).view x.st = learned c.consts ((links c).view s) (xs.take (n + 1)) ∧ Reach c x.st := by
  have main : ∀ (calls : List CCall) (s : Store) (evs : List Event) (xs : List (Step Store)), Reach c s →
      session (links c) answer s evs calls = some xs →
      (∀ n x i, xs[n]? = some x → x.call.writes = some i → (learned c.consts ((links c).view s) (xs.take n)).NoTwin i) →
      xs.map (·.call) = calls ∧
      ∀ n x, xs[n]? = some x →
        x.call.Says c.consts answer (evs ++ eventsOf (xs.take n)) (learned c.consts ((links c).view s) (xs.take n)) x.code x.events
          (learned c.consts ((links c).view s) (xs.take (n + 1))) ∧
        (links c).view x.st = learned c.consts ((links c).view s) (xs.take (n + 1)) ∧ Reach c x.st := by
    intro calls
    induction calls with
    | nil => intro s evs xs _ ho _; cases ho; exact ⟨rfl, fun n x hx => by simp at hx⟩
    | cons call calls ih =>
      intro s evs xs h ho hw
      simp only [session] at ho
      cases hr : call.run (links c) answer evs s with
      | none => rw [hr] at ho; cases ho
      | some r =>
        obtain ⟨code, s', es⟩ := r
        rw [hr, Option.bind_some] at ho
        simp only at ho
        cases hx : session (links c) answer s' (evs ++ es) calls with
        | none => rw [hx] at ho; cases ho
        | some ys =>
          rw [hx] at ho
          cases ho
          obtain ⟨g1, g2⟩ := run_says hc h answer evs call (fun i hi => hw 0 _ i rfl hi) hr
          have g3 := learn_of_says hc herr h g2
          have g4 : ∀ l, learned c.consts ((links c).view s) ((⟨call, code, es, s'⟩ : Step Store) :: l) =
              learned c.consts ((links c).view s') l := by
            intro l; simp only [learned, List.foldl]; rw [g3]
          obtain ⟨i1, i2⟩ := ih s' (evs ++ es) ys g1 hx fun n x i hn hi => by
            have := hw (n + 1) x i hn hi
            rw [List.take_succ_cons, g4] at this
            exact this
          refine ⟨by simp [i1], fun n x hn => ?_⟩
          cases n with
          | zero =>
            cases hn
            rw [List.take_zero, List.take_succ_cons, List.take_zero, g4]
            refine ⟨?_, rfl, g1⟩
            simpa [learned, eventsOf] using g2
          | succ n =>
            have := i2 n x hn
            rw [List.take_succ_cons, List.take_succ_cons, g4, g4]
            refine ⟨?_, this.2⟩
            simpa [eventsOf] using this.1
  have := main calls s [] xs h ho hw
  simpa using this

/-- **C87** Sessions do not fail: if the allocator never grants more slots than the index type can count, all arguments are legal, and at every
point of the session the client does not write to a link whose doublet another link has, then every call returns. -/
theorem C87_sessions_return (hc : CfgOK c) (herr : c.consts.internalEnd < c.consts.error)
    (hg : ∀ s, Unit.CanGrow c s) {s : Store} (h : Reach c s)
    (answer : List Event → Nat) (calls : List CCall) (hl : ∀ call ∈ calls, call.Legal)
    (hw : ∀ n call i xs, calls[n]? = some call → call.writes = some i →
      session (links c) answer s [] (calls.take n) = some xs → (learned c.consts ((links c).view s) xs).NoTwin i) :
    session (links c) answer s [] calls ≠ none := by
  have one : ∀ (call : CCall) (s : Store) (evs : List Event), Reach c s → call.Legal →
      (∀ i, call.writes = some i → ((links c).view s).NoTwin i) → call.run (links c) answer evs s ≠ none := by
    intro call s evs h hl hw
    cases call with
    | smartCreate =>
      simp only [CCall.run, Ffi.smartCreate]
      rcases create_of_reach hc h with ⟨i, s1, h1, h2, h3, h4, h5, h6⟩ | ⟨e, h1⟩ | ⟨h1, -⟩
      · rw [Links.create_ok (h6 [])]; simp
      · rw [Links.create_err (h1 [])]; simp
      · exact absurd (hg s) h1
    | smartUpdate i a b =>
      simp only [CCall.run, Ffi.smartUpdate]
      rcases update_of_reach hc h i i a b (hw i rfl) with ⟨h1, h2⟩ | ⟨h1, s1, h2, h3, h4⟩
      · rw [Links.update_err (h2 [] [])]; simp
      · rw [Links.update_ok (h4 [] [])]; simp
    | create q len =>
      simp only [CCall.run, Ffi.create]
      cases hq : queryFromRaw q len with
      | none => exact absurd hq hl
      | some q' =>
        rw [Option.bind_some]
        rcases create_of_reach hc h with ⟨i, s1, h1, h2, h3, h4, h5, h6⟩ | ⟨e, h1⟩ | ⟨h1, -⟩
        · rw [Links.createByWith_ok (h6 q')]; simp
        · rw [Links.createByWith_err (h1 q')]; simp
        · exact absurd (hg s) h1
    | update r lr q lq =>
      obtain ⟨⟨i, r', hr⟩, x, a, b, q', hq⟩ := hl
      simp only [CCall.run, Ffi.update]
      rw [hr, hq, Option.bind_some, Option.bind_some]
      rcases update_of_reach hc h i x a b (hw i (by simp [CCall.writes, hr])) with ⟨h1, h2⟩ | ⟨h1, s1, h2, h3, h4⟩
      · rw [Links.updateByWith_err (h2 r' q')]; simp
      · rw [Links.updateByWith_ok (h4 r' q')]; simp
    | delete q len =>
      obtain ⟨i, q', hq⟩ := hl
      simp only [CCall.run, Ffi.delete]
      rw [hq, Option.bind_some]
      rcases delete_of_reach hc h i (hw i (by simp [CCall.writes, hq])) with ⟨h1, h2⟩ | ⟨p, s1, h1, h2, h3, h4⟩
      · rw [Links.deleteByWith_err (h2 q')]; simp
      · rw [Links.deleteByWith_ok (h4 q')]; simp
    | each q len =>
      obtain ⟨q', hq, hq3⟩ := hl
      simp only [CCall.run]
      obtain ⟨L, code', es', h1, h2, h3⟩ := each_of_reach hc h answer evs hq3 hq
      rw [h2]; simp
    | count q len =>
      obtain ⟨q', hq, hq3, hq2⟩ := hl
      simp only [CCall.run, Ffi.count]
      rw [hq, Option.bind_some]
      obtain ⟨L, -, h1, h2, h3⟩ := shows_of_reach hc h q' hq3
      have h2 : (links c).countBy s q' = _ := h2
      have := h3 hq2
      have := hc.end_le
      rw [h2, if_pos (by omega)]; simp
  have main : ∀ (calls : List CCall) (s : Store) (evs : List Event), Reach c s → (∀ call ∈ calls, call.Legal) →
      (∀ n call i xs, calls[n]? = some call → call.writes = some i →
        session (links c) answer s evs (calls.take n) = some xs → (learned c.consts ((links c).view s) xs).NoTwin i) →
      session (links c) answer s evs calls ≠ none := by
    intro calls
    induction calls with
    | nil => intro s evs _ _ _; simp [session]
    | cons call calls ih =>
      intro s evs h hl hw
      have hw0 : ∀ i, call.writes = some i → ((links c).view s).NoTwin i := fun i hi => hw 0 call i [] rfl hi rfl
      have h0 := one call s evs h (hl _ (by simp)) hw0
      simp only [session]
      cases hr : call.run (links c) answer evs s with
      | none => exact absurd hr h0
      | some r =>
        obtain ⟨code, s', es⟩ := r
        rw [Option.bind_some]
        obtain ⟨g1, g2⟩ := run_says hc h answer evs call hw0 hr
        have g3 := learn_of_says hc herr h g2
        have := ih s' (evs ++ es) g1 (fun k hk => hl k (by simp [hk])) fun n k i ys hn hi hy => by
          have := hw (n + 1) k i (⟨call, code, es, s'⟩ :: ys) hn hi (by simp [List.take_succ_cons, session, hr, hy])
          simpa [learned, g3] using this
        simp only
        cases hx : session (links c) answer s' (evs ++ es) calls with
        | none => exact absurd hx this
        | some ys => simp
  exact main calls s [] h hl hw

/-! ### A session on `sNet` -/

theorem learned_map {S : Type} (k : Consts) (m : View) (xs : List (Step S)) :
    learned k m xs = (xs.map fun x => (x.call, x.code, x.events)).foldl (fun m y => learn k m y.1 y.2.1 y.2.2) m := by
  simp [learned, List.foldl_map]

/-- Update link 2, create a link, traverse until the callback breaks, count, delete the new link, and try to delete it again. -/
def callsNet : List CCall :=
  [.update (some [2, 99]) 1 (some [2, 3, 3]) 3, .smartCreate, .each none 0, .count none 7, .delete (some [5]) 1, .delete (some [5]) 1]

/-- The client breaks when it is shown link 3. -/
def answerNet : List Event → Nat := fun es => if es.getLast? = some (.visited ⟨3, 2, 2⟩) then 254 else 255

def stepsNet : List (CCall × Nat × List Event) :=
  [(.update (some [2, 99]) 1 (some [2, 3, 3]) 3, 255, [.changed ⟨2, 3, 3⟩ ⟨2, 3, 3⟩]), (.smartCreate, 5, []),
   (.each none 0, 254, [.visited ⟨1, 1, 1⟩, .visited ⟨2, 3, 3⟩, .visited ⟨3, 2, 2⟩]), (.count none 7, 6, []),
   (.delete (some [5]) 1, 255, [.changed ⟨5, 0, 0⟩ Link.nothing]), (.delete (some [5]) 1, 250, [])]

theorem sessionNet : ∃ xs, session (links cfg0) answerNet Unit.sNet [] callsNet = some xs ∧
    xs.map (fun x => (x.call, x.code, x.events)) = stepsNet := by
  have h : (session (links cfg0) answerNet Unit.sNet [] callsNet).map (fun xs => xs.map fun x => (x.call, x.code, x.events)) =
      some stepsNet := by decide +kernel
  cases ho : session (links cfg0) answerNet Unit.sNet [] callsNet with
  | none => rw [ho] at h; cases h
  | some xs => rw [ho] at h; exact ⟨xs, rfl, by simpa using h⟩

/-- The hypotheses of C87 are met. -/
example : cfg0.consts.internalEnd < cfg0.consts.error ∧ Reach cfg0 Unit.sNet ∧
    ∃ xs, session (links cfg0) answerNet Unit.sNet [] callsNet = some xs ∧ xs.length = 6 ∧
      ∀ n x i, xs[n]? = some x → x.call.writes = some i →
        (learned cfg0.consts ((links cfg0).view Unit.sNet) (xs.take n)).NoTwin i := by
  refine ⟨by decide, Unit.sNet_reach, ?_⟩
  obtain ⟨xs, h1, h2⟩ := sessionNet
  refine ⟨xs, h1, by have := congrArg List.length h2; simpa [stepsNet] using this, fun n x i hn hi => ?_⟩
  have hn' : stepsNet[n]? = some (x.call, x.code, x.events) := by rw [← h2, List.getElem?_map, hn]; rfl
  rw [learned_map, List.map_take, h2]
  have hnull : ∀ m : View, (m.set 5 (0, 0)).NoTwin 5 := fun m p hp hp0 => by simp [View.set] at hp; exact absurd hp.symm hp0
  have hnone : ∀ m : View, (m.del 5).NoTwin 5 := fun m p hp => by simp [View.del] at hp
  match n, hn' with
  | 0, hn' =>
    have hx : x.call = .update (some [2, 99]) 1 (some [2, 3, 3]) 3 := by simp [stepsNet] at hn'; exact hn'.1.symm
    rw [hx] at hi
    cases hi
    exact Unit.Props.sNet_uniq 2
  | 1, hn' => have hx : x.call = .smartCreate := by simp [stepsNet] at hn'; exact hn'.1.symm
              rw [hx] at hi; cases hi
  | 2, hn' => have hx : x.call = .each none 0 := by simp [stepsNet] at hn'; exact hn'.1.symm
              rw [hx] at hi; cases hi
  | 3, hn' => have hx : x.call = .count none 7 := by simp [stepsNet] at hn'; exact hn'.1.symm
              rw [hx] at hi; cases hi
  | 4, hn' =>
    have hx : x.call = .delete (some [5]) 1 := by simp [stepsNet] at hn'; exact hn'.1.symm
    rw [hx] at hi
    cases hi
    exact hnull _
  | 5, hn' =>
    have hx : x.call = .delete (some [5]) 1 := by simp [stepsNet] at hn'; exact hn'.1.symm
    rw [hx] at hi
    cases hi
    exact hnone _
  | n + 6, hn' => simp [stepsNet] at hn'

open Verif.Unit.Props in
/-- The hypotheses of `C87_sessions_return` are met: link 2 of a store with the links 1 = (1, 1) and 2 = (2, 2) is updated, and so on. -/
example : (∀ s, Unit.CanGrow cfgCap s) ∧ Reach cfgCap sTwo ∧
    (∀ call ∈ [CCall.smartUpdate 2 1 2, .smartCreate, .each (some [252, 1]) 2, .count none 0], call.Legal) ∧
    ∀ n call i xs, [CCall.smartUpdate 2 1 2, .smartCreate, .each (some [252, 1]) 2, .count none 0][n]? = some call →
      call.writes = some i →
      session (links cfgCap) (fun _ => 255) sTwo [] ([CCall.smartUpdate 2 1 2, .smartCreate, .each (some [252, 1]) 2, .count none 0].take n) =
        some xs → (learned cfgCap.consts ((links cfgCap).view sTwo) xs).NoTwin i := by
  have hr : Reach cfgCap sTwo := (client_law cfgCap_ok sTwo_client).1
  refine ⟨cfgCap_grow, hr, ?_, fun n call i xs hn hi hx => ?_⟩
  · simp [CCall.Legal, queryFromRaw]
  · match n, hn with
    | 0, hn =>
      cases hn
      cases hi
      cases hx
      exact Unit.twinFree_noTwin cfgCap_ok (Unit.reach_good cfgCap_ok hr) (by decide +kernel)
    | 1, hn => cases hn; cases hi
    | 2, hn => cases hn; cases hi
    | 3, hn => cases hn; cases hi
    | n + 4, hn => simp at hn

end Verif.Ffi.Props
