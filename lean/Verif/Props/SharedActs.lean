import Verif.SharedActs
import Verif.Props.Shared
import Verif.Props.Careful

/-!
# C102: threads that build a network together

Threads share a united store as in C85. Besides single calls they run whole methods, `create_point`, `get_or_create` and
`delete`, which make several calls each and hold the lock from the first to the last (`Act.txn`, `SharedActs.lean`). The
reply to a method repeats the request, so that the log tells who asked for what.
-/

namespace Verif.Unit.Props
open Verif Verif.Unit
variable {c : Cfg} {P : Programs}

/-- Calls that only look: `get`, `each` with up to three parts, `count` with other than two. -/
def OnlyLooks (c : Cfg) (q : Req (Nat → Nat → Option Nat)) : Prop := Always c q ∧ ∀ k a h, q ≠ .write k a h

/-- Memory grows to at least what is asked for, and at most to what the index type can count. -/
def Grows (c : Cfg) (a : Nat → Nat → Option Nat) : Prop :=
  GoodAlloc a ∧ ∀ len req n, a len req = some n → n ≤ c.maxT

theorem look_law (hc : CfgOK c) {s : Store} (h : Reach c s) {q : Req (Nat → Nat → Option Nat)} (hq : OnlyLooks c q) :
    Allowed c s q ∧ ∃ r, answer c s q = some (r, s) := by
  have hg := reach_good hc h
  have hn : answer c s q ≠ none := by
    cases q with
    | get i => simp [answer, (lawful hc).get s hg i]
    | each q hd =>
      obtain ⟨L, h1, -⟩ := query_law hc hg q hq.1
      simp [answer, h1 _ (showing hd) []]
    | count q =>
      obtain ⟨L, -, h3, -, -, -, h6⟩ := query_law hc hg q hq.1.1
      have hend := hc.end_le
      have h3 : (links c).countLinks s q = _ := h3.trans (if_pos (by have := h6 hq.1.2; omega))
      simp [answer, h3]
    | write k a hd => exact absurd rfl (hq.2 k a hd)
  obtain ⟨⟨r, s'⟩, hr⟩ := Option.ne_none_iff_exists'.mp hn
  obtain ⟨rfl, -⟩ := read_alone (P := Ref.programs) hc h hq.2 hr
  refine ⟨⟨hn, ?_⟩, r, hr⟩
  cases q with
  | write k a hd => exact absurd rfl (hq.2 k a hd)
  | _ => trivial

theorem eachIdx_withAlloc (a : Nat → Nat → Option Nat) {σ : Type} (s : Store) (h : RH σ) : ∀ ks st,
    eachIdx (c.withAlloc a) s h ks st = eachIdx c s h ks st := by
  intro ks
  induction ks with
  | nil => intro st; rfl
  | cons k ks ih =>
    intro st
    unfold eachIdx
    simp only [ih]
    rfl

theorem eachLinks_withAlloc (a : Nat → Nat → Option Nat) {σ : Type} (s : Store) (q : List Nat) (h : RH σ) (st : σ) :
    eachLinks (c.withAlloc a) s q h st = eachLinks c s q h st := by
  unfold eachLinks each3 eachAll
  simp only [eachIdx_withAlloc]
  rfl

theorem answers (a : Nat → Nat → Option Nat) : Answers (links (c.withAlloc a)) (answer c) a :=
  ⟨fun s q h => (congrArg (Option.map _) (eachLinks_withAlloc a s q (showing h) [])).symm, fun _ _ => rfl, fun _ _ _ _ _ => rfl,
    fun _ _ _ => rfl⟩

theorem canGrow_of_grows {a : Nat → Nat → Option Nat} (h : Grows c a) (s : Store) : CanGrow (c.withAlloc a) s :=
  fun n hn => h.2 _ _ n hn

theorem acting (hc : CfgOK c) : Acting (fun a => links (c.withAlloc a)) (answer c) (Allowed c) (OnlyLooks c) (Grows c)
    c.consts.any (links c).view (Client c) where
  sound h := (client_law hc h).2
  look h hq := look_law hc (client_law hc h).1 hq
  act := by
    intro s k a h ha hk
    obtain ⟨h1, h2⟩ := client_law hc h
    have hv : (links (c.withAlloc a)).view s = (links c).view s := view_withAlloc s a
    have hr := reach_withAlloc a h1
    obtain ⟨hsup, o, ho, hans⟩ := act_txn (sup := Allowed c) (reachLawful (hc.withAlloc ha.1)) (answers a) hr
      (canGrow_of_grows ha s) (fun _ _ _ _ _ _ _ => trivial)
      (fun s q hd hn => ⟨hn, trivial⟩)
      (fun hn => ⟨hn, ha.1, fun j hj => hj.elim⟩)
      (fun s' i x y _ _ h3 _ hn => ⟨hn, ha.1, fun j hj => by
        have hj : i = j := hj
        subst hj
        rw [← view_withAlloc s' a, h3]; exact Links.noTwin_null⟩)
      (fun i _ hn => ⟨hn, ha.1, fun j _ => h2.uniq j⟩) (hv ▸ h2) (k := k) (hv ▸ hk)
    refine ⟨hsup, o, ho, hans, .act a k h ha.1 (canGrow_of_grows ha s) hk ho, ?_⟩
    obtain ⟨o', g1, -, g3⟩ := Links.act_law (reachLawful (hc.withAlloc ha.1)) hr (canGrow_of_grows ha s)
      (fun _ _ _ _ _ _ _ => trivial) (hv ▸ h2) (k := k) (hv ▸ hk)
    rw [ho] at g1; cases g1
    rw [view_withAlloc, view_withAlloc] at g3
    exact g3
  spare := by
    intro s k a j h ha hk hj hr
    obtain ⟨h1, h2⟩ := client_law hc h
    have hv : (links (c.withAlloc a)).view s = (links c).view s := view_withAlloc s a
    exact (act_txn (sup := fun _ q => ¬ q.about j) (reachLawful (hc.withAlloc ha.1)) (answers a) (reach_withAlloc a h1)
      (canGrow_of_grows ha s) (fun _ _ _ _ _ _ _ => trivial) (fun _ _ _ _ => id) (fun _ => id)
      (fun s' i x y h3 _ _ _ _ (e : i = j) => hj (by rw [← hv, ← e]; exact h3))
      (fun i e _ (e' : i = j) => hr (by rw [e, e'])) (hv ▸ h2) (k := k) (hv ▸ hk)).1
  quiet j hq := by
    intro q
    rename_i q'
    cases q' with
    | write k a h => exact hq.2 k a h rfl
    | _ => exact q

/-- **C102**. A method run under the lock as a sequence of single calls, on a store that careful clients have made, returns
what the method of `Doublets` returns and leaves the store that it leaves. -/
theorem C102_methods (hc : CfgOK c) {s : Store} (h : Client c s) {k : Act} {a : Nat → Nat → Option Nat}
    (ha : Grows c a) (hk : k.Careful ((links c).view s)) :
    ∃ o, k.run (links (c.withAlloc a)) s = some o ∧
      (k.txn c.consts.any a).answer (answer c) s = some ((k, o.res), o.st) := by
  obtain ⟨-, o, h1, h2, -⟩ := (acting hc).act h ha hk
  exact ⟨o, h1, h2⟩

/-- **C102**. Threads that look and run careful methods share the store. Whatever the schedule, word by word, the results
are those of the requests that have returned, made one at a time in the order in which they returned; the store that they
leave is one that a careful client could have made (C51), so different links have different doublets and the ends of links
are links; and whoever is in the middle of a request returns when it is scheduled often enough. Methods are atomic: nobody
ever sees a link between its creation and its update. -/
theorem C102_careful_threads (hc : CfgOK c) (hP : P.Implements c.trees) {s0 : Store} (h0 : Client c s0)
    {cl : Clients Gots (Asks (Nat → Nat → Option Nat))}
    (hd : ∀ log s, Serial (Ask.answer (answer c)) cl s0 log s → ∀ i q, cl i (mine log i) q →
      Proper (OnlyLooks c) (Grows c) c.consts.any ((links c).view s) q)
    {y : Sys AStore Loc Gots} (hy : Runs AStore.look (Ask.job AStore.look (job c P)) cl (.of s0) y) :
    ∃ s, Serial (Ask.answer (answer c)) cl s0 y.log s ∧ Client c s ∧ (y.NoWriter → y.mem = .of s) ∧
      (∀ i j p, (links c).view s i = some p → (links c).view s j = some p → i = j) ∧
      (∀ i a b, (links c).view s i = some (a, b) → (links c).view s a ≠ none ∧ (links c).view s b ≠ none) ∧
      ∀ i, y.phase i ≠ .idle → ∃ q r s' y', cl i (mine y.log i) q ∧ Ask.answer (answer c) s q = some (r, s') ∧
        ThreadSteps AStore.look (Ask.job AStore.look (job c P)) cl i y y' ∧ Returned y y' i r (.of s') := by
  obtain ⟨h1, h2⟩ := (acting hc).disciplined h0 hd
  obtain ⟨s, g1, -, g2, g3⟩ := (faithful hc hP).ask.linear (client_law hc h0).1 h1 hy
  have hs := h2 _ _ g1
  obtain ⟨-, k1⟩ := client_law hc hs
  exact ⟨s, g1, hs, g2, k1.inj, k1.closed, g3⟩

/-- **C102**. Threads that build: each looks as it likes, makes points, and asks for the link between links that it knows
of, because they were there from the start or it has got them itself. No condition on the schedule or on what other threads
do is needed. At every moment nothing has been lost or changed; the points that have been returned are new links to
themselves, all different; whoever asked for the link between x and y has got the only link (x, y), so all who asked have
got the same; every link was there from the start or has been returned to somebody; the ends of links are links. -/
theorem C102_builders (hc : CfgOK c) (hP : P.Implements c.trees) {s0 : Store} (h0 : Client c s0)
    {cl : Clients Gots (Asks (Nat → Nat → Option Nat))}
    (hcl : ∀ i rs q, cl i rs q → Adds (OnlyLooks c) (Grows c) c.consts.any ((links c).view s0) rs q)
    {y : Sys AStore Loc Gots} (hy : Runs AStore.look (Ask.job AStore.look (job c P)) cl (.of s0) y) :
    ∃ s, (y.NoWriter → y.mem = .of s) ∧ Built ((links c).view s0) y.log ((links c).view s) ∧
      (∀ i j p, (links c).view s i = some p → (links c).view s j = some p → i = j) ∧
      (∀ i a b, (links c).view s i = some (a, b) → (links c).view s a ≠ none ∧ (links c).view s b ≠ none) ∧
      (∀ t t' x z i j, (t, .all (.pair x z, .ok i)) ∈ y.log → (t', .all (.pair x z, .ok j)) ∈ y.log → i = j) ∧
      ∀ i, y.phase i ≠ .idle → ∃ r m y', ThreadSteps AStore.look (Ask.job AStore.look (job c P)) cl i y y' ∧
        Returned y y' i r m := by
  obtain ⟨s, h1, -, h2, h3, h4, h5⟩ := C102_careful_threads hc hP h0
    (fun log s hs => ((acting hc).built h0 hcl hs).2) hy
  obtain ⟨-, hb⟩ := ((acting hc).built h0 hcl h1).1
  refine ⟨s, h2, hb, h3, h4, fun t t' x z i j hi hj => h3 i j (x, z) (hb.pair _ _ _ _ hi) (hb.pair _ _ _ _ hj), ?_⟩
  intro i hi
  obtain ⟨q, r, s', y', -, -, k1, k2⟩ := h5 i hi
  exact ⟨r, _, y', k1, k2⟩

/-- **C102**. The same for any methods, made of any calls that the store supports: whatever the schedule, the results are
those of the methods that have returned, run one at a time in the order in which they returned, and while nobody writes the
memory is that of the store after them. -/
theorem C102_any_method (hc : CfgOK c) (hP : P.Implements c.trees) {s0 : Store} (h0 : Reach c s0) {A : Type}
    {cl : Clients (Got Reply A) (Ask (Req (Nat → Nat → Option Nat)) Reply A)}
    (hd : Disciplined (Ask.answer (answer c)) (Ask.Sup (answer c) (Allowed c)) cl s0)
    {y : Sys AStore Loc (Got Reply A)} (hy : Runs AStore.look (Ask.job AStore.look (job c P)) cl (.of s0) y) :
    ∃ s, Serial (Ask.answer (answer c)) cl s0 y.log s ∧ Reach c s ∧ (y.NoWriter → y.mem = .of s) ∧
      ∀ i, y.phase i ≠ .idle → ∃ q r s' y', cl i (mine y.log i) q ∧ Ask.answer (answer c) s q = some (r, s') ∧
        ThreadSteps AStore.look (Ask.job AStore.look (job c P)) cl i y y' ∧ Returned y y' i r (.of s') :=
  (faithful hc hP).ask.linear h0 hd hy

/-- **C102**. Conversely the requests of such threads, made one at a time, are one of the schedules. -/
theorem C102_one_at_a_time_is_a_schedule (hc : CfgOK c) (hP : P.Implements c.trees) {s0 : Store} (h0 : Client c s0)
    {cl : Clients Gots (Asks (Nat → Nat → Option Nat))}
    (hd : ∀ log s, Serial (Ask.answer (answer c)) cl s0 log s → ∀ i q, cl i (mine log i) q →
      Proper (OnlyLooks c) (Grows c) c.consts.any ((links c).view s) q)
    {log : List (Nat × Gots)} {s : Store} (h : Serial (Ask.answer (answer c)) cl s0 log s) :
    Runs AStore.look (Ask.job AStore.look (job c P)) cl (.of s0) ⟨.of s, fun _ => .idle, log⟩ :=
  (faithful hc hP).ask.next (client_law hc h0).1 ((acting hc).disciplined h0 hd).1 h

/-! ### The lock must be held for the whole method -/

/-- Two points. -/
def sPts : Store := (execActs [.point, .point] (store0 cfg0)).getD {}

theorem sPts_client : Client cfg0 sPts := by
  have h0 : Client cfg0 (store0 cfg0) := .fresh (c := cfg0) cfg0.alloc alloc0_good rfl
  exact execActs_client _ h0 (show execActs [.point, .point] (store0 cfg0) = some sPts by
    unfold sPts
    have : (execActs [.point, .point] (store0 cfg0)).isSome = true := by decide +kernel
    cases h : execActs [.point, .point] (store0 cfg0) with
    | none => rw [h] at this; cases this
    | some s => rfl)

theorem upTo255_grows : Grows cfg0 upTo255 := by
  refine ⟨?_, ?_⟩
  · intro len req n h
    simp only [upTo255] at h
    split at h
    · cases h; exact Nat.le_refl _
    · cases h
  · intro len req n h
    simp only [upTo255] at h
    split at h
    · next h' => cases h; exact h'
    · cases h

/-- Every thread makes a point p, asks for the link from 1 to 2 and for the link from p to that, and looks it up. -/
def builders : Clients Gots (Asks (Nat → Nat → Option Nat)) := fun _ rs q =>
  (rs = [] ∧ q = .all (Act.point.txn cfg0.consts.any upTo255)) ∨
  (rs.length = 1 ∧ q = .all ((Act.pair 1 2).txn cfg0.consts.any upTo255)) ∨
  (∃ p l, rs = [.all (.point, .ok p), .all (.pair 1 2, .ok l)] ∧
    q = .all ((Act.pair p l).txn cfg0.consts.any upTo255)) ∨
  (∃ rs' k i, rs = rs' ++ [.all (k, .ok i)] ∧ q = .one (.get i))

theorem builders_build : ∀ i rs q, builders i rs q →
    Adds (OnlyLooks cfg0) (Grows cfg0) cfg0.consts.any ((links cfg0).view sPts) rs q := by
  rintro i rs q (⟨-, rfl⟩ | ⟨-, rfl⟩ | ⟨p, l, rfl, rfl⟩ | ⟨rs', k, i, -, rfl⟩)
  · exact .inr (.inl ⟨_, rfl, upTo255_grows⟩)
  · exact .inr (.inr ⟨_, _, _, rfl, upTo255_grows, .inl (by decide +kernel), .inl (by decide +kernel)⟩)
  · exact .inr (.inr ⟨_, _, _, rfl, upTo255_grows, .inr ⟨.point, by simp⟩, .inr ⟨.pair 1 2, by simp⟩⟩)
  · exact .inl ⟨_, rfl, trivial, fun _ _ _ h => nomatch h⟩

theorem builders_proper : ∀ log s, Serial (Ask.answer (answer cfg0)) builders sPts log s → ∀ i q,
    builders i (mine log i) q → Proper (OnlyLooks cfg0) (Grows cfg0) cfg0.consts.any ((links cfg0).view s) q :=
  fun _ _ hs => ((acting cfg0_ok).built sPts_client builders_build hs).2

example {y} := C102_careful_threads (y := y) cfg0_ok Ref.programs_implement sPts_client builders_proper

example {y} := C102_any_method (y := y) cfg0_ok Ref.programs_implement (client_law cfg0_ok sPts_client).1
  ((acting cfg0_ok).disciplined sPts_client builders_proper).1

/-- Threads 5 and 9 make a point each. -/
example : ∃ s i j, Runs AStore.look (Ask.job AStore.look (job cfg0 Ref.programs)) builders (.of sPts)
    ⟨.of s, fun _ => .idle, [(5, .all (.point, i)), (9, .all (.point, j))]⟩ := by
  obtain ⟨-, o1, -, h1, h2, -⟩ := (acting cfg0_ok).act (k := .point) sPts_client upTo255_grows trivial
  obtain ⟨-, o2, -, g1, -, -⟩ := (acting cfg0_ok).act (k := .point) h2 upTo255_grows trivial
  refine ⟨o2.st, o1.res, o2.res, C102_one_at_a_time_is_a_schedule cfg0_ok Ref.programs_implement sPts_client builders_proper
    (log := [(5, .all (.point, o1.res)), (9, .all (.point, o2.res))]) ?_⟩
  refine .call (.call .start (.inl ⟨rfl, rfl⟩) (by simp only [Ask.answer, h1, Option.map_some]; rfl)) (.inl ⟨rfl, rfl⟩) ?_
  simp only [Ask.answer, g1, Option.map_some]

example {y} := C102_builders (y := y) cfg0_ok Ref.programs_implement sPts_client builders_build

/-- `get_or_create(1, 2)` on the store with the points 1 and 2. -/
example := C102_methods cfg0_ok sPts_client (k := .pair 1 2) upTo255_grows ⟨by decide +kernel, by decide +kernel⟩

/-- The calls of `get_or_create(1, 2)` one by one, as a thread makes them that lets go of the lock in between. -/
def careless (rs : List Reply) : Option (Req (Nat → Nat → Option Nat)) :=
  match rs with
  | [] => some (.each [cfg0.consts.any, 1, 2] fun _ => .brk ())
  | [r] => match r.first with
    | some _ => none
    | none => some (.write .create upTo255 fun _ => .cont)
  | [_, r] => match r.index with
    | .error _ => none
    | .ok i => some (.write (.update i 1 2) upTo255 fun _ => .cont)
  | _ => none

/-- What is left to check of a call: an update is of a link that has null ends. -/
def allowedB (s : Store) : Req (Nat → Nat → Option Nat) → Bool
  | .write (.update i _ _) _ _ => (links cfg0).view s i == some (0, 0)
  | .write (.delete _) _ _ => false
  | _ => true

/-- The threads of the list take turns, one call each. -/
def turns : List Nat → List (Nat × Reply) → Store → Option (List (Nat × Reply) × Store)
  | [], log, s => some (log, s)
  | i :: is, log, s =>
    match careless (mine log i) with
    | none => none
    | some q =>
      if allowedB s q = true then
        match answer cfg0 s q with
        | none => none
        | some (r, s') => turns is (log ++ [(i, r)]) s'
      else none

theorem careless_grows {rs : List Reply} {k : Call} {a : Nat → Nat → Option Nat} {h : List (Link × Link) → Flow}
    (hq : careless rs = some (.write k a h)) : a = upTo255 := by
  unfold careless at hq
  split at hq
  · cases hq
  · split at hq
    · cases hq
    · cases hq; rfl
  · split at hq
    · cases hq
    · cases hq; rfl
  · cases hq

theorem turns_run : ∀ (is : List Nat) {log log' : List (Nat × Reply)} {s s' : Store}, Reach cfg0 s →
    OneByOne AStore.look (job cfg0 Ref.programs) (fun _ rs q => careless rs = some q) (.of sPts) log (.of s) →
    turns is log s = some (log', s') →
    OneByOne AStore.look (job cfg0 Ref.programs) (fun _ rs q => careless rs = some q) (.of sPts) log' (.of s')
  | [], _, _, _, _, _, ho, he => by cases he; exact ho
  | i :: is, log, log', s, s', h, ho, he => by
    unfold turns at he
    split at he
    · cases he
    · rename_i q hq
      split at he
      · rename_i hb
        split at he
        · cases he
        · rename_i r s1 ha
          have hal : Allowed cfg0 s q := by
            refine ⟨by rw [ha]; simp, ?_⟩
            cases q with
            | write k a hd =>
              refine ⟨(careless_grows hq).symm ▸ upTo255_grows.1, fun j hj => ?_⟩
              cases k with
              | create => exact hj.elim
              | update l x y =>
                have hj : l = j := hj
                subst hj
                have hb : ((links cfg0).view s l == some (0, 0)) = true := hb
                intro p hp hp0
                rw [eq_of_beq hb] at hp; cases hp
                exact absurd rfl hp0
              | delete l => cases hb
            | _ => trivial
          obtain ⟨h1, h2⟩ := (faithful cfg0_ok Ref.programs_implement).oneMore (i := i) ho h hq hal ha
          exact turns_run is h2 h1 he
      · cases he

/-- Two threads: search, search, create, create, update, update. -/
def twice : Option (List (Nat × Reply) × Store) := turns [0, 1, 0, 1, 0, 1] [] sPts

/-- **C102**. It is the method that must be under one lock, not its calls. Two threads that make the very calls of
`get_or_create(1, 2)`, each call under the lock but letting go of it in between, may end with two links (1, 2), and each
has got its own. -/
theorem C102_separate_locks_make_twins :
    ∃ y s, Runs AStore.look (job cfg0 Ref.programs) (fun _ rs q => careless rs = some q) (.of sPts) y ∧
      (∀ i, y.phase i = .idle) ∧ y.mem = .of s ∧ (mine y.log 0).length = 3 ∧ (mine y.log 1).length = 3 ∧
      (links cfg0).view s 3 = some (1, 2) ∧ (links cfg0).view s 4 = some (1, 2) := by
  have hs : (match twice with
      | none => false
      | some (log, s) => (mine log 0).length == 3 && (mine log 1).length == 3 &&
        (links cfg0).view s 3 == some (1, 2) && (links cfg0).view s 4 == some (1, 2)) = true := by decide +kernel
  split at hs
  · cases hs
  · rename_i log s he
    simp only [Bool.and_eq_true, beq_iff_eq] at hs
    exact ⟨_, s, (turns_run _ (client_law cfg0_ok sPts_client).1 .start he).runs, fun _ => rfl, rfl, hs.1.1.1, hs.1.1.2,
      hs.1.2, hs.2⟩

end Verif.Unit.Props
