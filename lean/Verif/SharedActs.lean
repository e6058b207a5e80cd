import Verif.Shared
import Verif.Careful

/-!
# Threads that call methods which make several calls

The default methods of `Doublets` such as `create_point`, `create_link` and `get_or_create` take `&mut self`
(`doublets/src/data/traits.rs:336-342,361-371,425-434`) and make several calls of `Links`. The thread holds the lock from
the first of these calls to the end of the last.
-/

namespace Verif

/-- A method that makes calls `Q` one after the other, each depending on the replies `R` to the earlier ones. -/
inductive Txn (Q R A : Type) where
  | ret (a : A)
  | call (q : Q) (k : R → Txn Q R A)

section
variable {S M L R Q A B : Type}

/-- A call from within a method: nobody else is in a call, so that the order of its loads does not matter. -/
def Body.tr (look : M → L → Option Nat) (f : Nat) : Body M L R → Tr M R
  | .read p => Tr.ask fun m => (p f).run (look m)
  | .write t => t f

/-- The same call with another result. -/
def Body.map (g : R → B) : Body M L R → Body M L B
  | .read p => .read fun f => do
    let r ← p f
    pure (g r)
  | .write t => .write fun f => do
    let r ← t f
    pure (g r)

namespace Txn

/-- The method as it touches memory: the assignments of its calls, one call after the other. -/
def tr (look : M → L → Option Nat) (job : Q → Body M L R) (f : Nat) : Txn Q R A → Tr M A
  | ret a => pure a
  | call q k => do
    let r ← (job q).tr look f
    (k r).tr look job f

/-- What the method returns if its calls answer as `answer` says, and the store afterwards. -/
def answer (ans : S → Q → Option (R × S)) : S → Txn Q R A → Option (A × S)
  | s, ret a => some (a, s)
  | s, call q k => (ans s q).bind fun x => (k x.1).answer ans x.2

/-- Every call that the method makes is supported. -/
def Sup (ans : S → Q → Option (R × S)) (sup : S → Q → Prop) : S → Txn Q R A → Prop
  | _, ret _ => True
  | s, call q k => sup s q ∧ ∀ r s', ans s q = some (r, s') → (k r).Sup ans sup s'

end Txn

/-- What a thread asks for: a single call or a method. -/
inductive Ask (Q R A : Type) where
  | one (q : Q)
  | all (t : Txn Q R A)

/-- What it gets. -/
inductive Got (R A : Type) where
  | one (r : R)
  | all (a : A)

def Ask.job (look : M → L → Option Nat) (job : Q → Body M L R) : Ask Q R A → Body M L (Got R A)
  | .one q => (job q).map .one
  | .all t => .write fun f => do
    let a ← t.tr look job f
    pure (.all a)

def Ask.answer (ans : S → Q → Option (R × S)) (s : S) : Ask Q R A → Option (Got R A × S)
  | .one q => (ans s q).map fun x => (.one x.1, x.2)
  | .all t => (t.answer ans s).map fun x => (.all x.1, x.2)

def Ask.Sup (ans : S → Q → Option (R × S)) (sup : S → Q → Prop) (s : S) : Ask Q R A → Prop
  | .one q => sup s q
  | .all t => t.Sup ans sup s

variable {look : M → L → Option Nat} {job : Q → Body M L R} {ans : S → Q → Option (R × S)} {sup : S → Q → Prop}
  {I : S → Prop} {of : S → M}

theorem Body.tr_alone (j : Body M L R) (m : M) (f : Nat) : (j.tr look f m).2 = j.alone look m f := by
  cases j <;> rfl

theorem Body.map_alone (g : R → B) (j : Body M L R) (m : M) (f : Nat) :
    (j.map g).alone look m f = (j.alone look m f).map fun x => (g x.1, x.2) := by
  cases j with
  | read p =>
    simp only [Body.map, Body.alone, Rd.run_bind, Rd.run_pure]
    cases (p f).run (look m) <;> rfl
  | write t =>
    simp only [Body.map, Body.alone, Tr.bind_res, Tr.run_pure]
    cases (t f m).2 <;> rfl

theorem Faithful.txn (F : Faithful look job ans sup I of) : ∀ {t : Txn Q R A} {s : S}, I s → t.Sup ans sup s →
    ∃ a s', t.answer ans s = some (a, s') ∧ I s' ∧
      ∃ f0, ∀ f, f0 ≤ f → (t.tr look job f (of s)).2 = some (a, of s') := by
  intro t
  induction t with
  | ret a => exact fun {s} hI _ => ⟨a, s, rfl, hI, 0, fun _ _ => rfl⟩
  | call q k ih =>
    intro s hI hs
    obtain ⟨r, s1, h1, h2, f0, h3⟩ := F.works hI hs.1
    obtain ⟨a, s', g1, g2, f1, g3⟩ := ih r h2 (hs.2 _ _ h1)
    refine ⟨a, s', by simp [Txn.answer, h1, g1], g2, max f0 f1, fun f hf => ?_⟩
    rw [Txn.tr, Tr.bind_some (by rw [Body.tr_alone]; exact h3 f (by omega))]
    exact g3 f (by omega)

/-- Methods, too, do what they should. -/
theorem Faithful.ask (F : Faithful look job ans sup I of) :
    Faithful look (Ask.job (A := A) look job) (Ask.answer ans) (Ask.Sup ans sup) I of where
  works := by
    intro s q hI hs
    cases q with
    | one q =>
      obtain ⟨r, s', h1, h2, f0, h3⟩ := F.works hI hs
      exact ⟨.one r, s', by simp [Ask.answer, h1], h2, f0, fun f hf => by simp [Ask.job, Body.map_alone, h3 f hf]⟩
    | all t =>
      obtain ⟨a, s', h1, h2, f0, h3⟩ := F.txn hI hs
      exact ⟨.all a, s', by simp [Ask.answer, h1], h2, f0, fun f hf => by
        simp [Ask.job, Body.alone, Tr.bind_res, h3 f hf, Tr.run_pure]⟩

/-- One more supported call, made when nobody is in a call. -/
theorem Faithful.oneMore (F : Faithful look job ans sup I of) {cl : Clients R Q} {m0 : M} {log : List (Nat × R)}
    {s s' : S} {i : Nat} {q : Q} {r : R} (h : OneByOne look job cl m0 log (of s)) (hI : I s) (hq : cl i (mine log i) q)
    (hs : sup s q) (ha : ans s q = some (r, s')) : OneByOne look job cl m0 (log ++ [(i, r)]) (of s') ∧ I s' := by
  obtain ⟨r', s1, k1, k2, f0, k3⟩ := F.works hI hs
  rw [k1] at ha; cases ha
  exact ⟨.call h hq (fun f' hf => by rw [k3 f' hf, k3 f0 (Nat.le_refl _)]) (k3 f0 (Nat.le_refl _)), k2⟩

end

/-! ### The methods of a careful client -/

/-- The index in the last link that the handler was shown, as `create_by`, `update_by` and `delete_by` keep it
(`traits.rs:78-88,171-189,224-234`); a call that writes does not return any other kind of reply. -/
def Reply.index : Reply → Except Err Nat
  | .wrote res shown => res.map fun _ => (shown.getLast?.map (·.2.index)).getD 0
  | _ => .ok 0

/-- The link at which the traversal of `find` stopped (`traits.rs:380-390`). -/
def Reply.first : Reply → Option Link
  | .links _ shown => shown.head?
  | _ => none

/-- `create_link(x, y)` (`traits.rs:344-371`), or `create_point()` (`traits.rs:336-342`) if the ends are the new index:
create a link, then update it. -/
def makeLink {A B : Type} (a : A) (ends : Nat → Nat × Nat) (g : Except Err Nat → B) : Txn (Req A) Reply B :=
  .call (.write .create a fun _ => .cont) fun r =>
    match r.index with
    | .error e => .ret (g (.error e))
    | .ok i => .call (.write (.update i (ends i).1 (ends i).2) a fun _ => .cont) fun r => .ret (g r.index)

/-- The methods of a careful client as sequences of calls; the reply repeats the request. `any` is the constant that the
query of `search` contains (`traits.rs:392-398`); `a` is how memory grows. -/
def Act.txn {A : Type} (any : Nat) (a : A) : Act → Txn (Req A) Reply (Act × Except Err Nat)
  | .point => makeLink a (fun i => (i, i)) fun r => (.point, r)
  | .pair x y => .call (.each [any, x, y] fun _ => .brk ()) fun r =>
    match r.first with
    | some l => .ret (.pair x y, .ok l.index)
    | none => makeLink a (fun _ => (x, y)) fun r => (.pair x y, r)
  | .remove i => .call (.write (.delete i) a fun _ => .cont) fun r => .ret (.remove i, r.index)

/-- A call that updates or deletes link `j`. -/
def Req.about {A : Type} (j : Nat) : Req A → Prop
  | .write (.update i _ _) _ _ => i = j
  | .write (.delete i) _ _ => i = j
  | _ => False

/-- `answer` is how the store `D` answers single calls, if memory grows as `a` says. -/
structure Answers {S A : Type} (D : Links S) (ans : S → Req A → Option (Reply × S)) (a : A) : Prop where
  each : ∀ s q h, ans s (.each q h) = (D.eachLinks s q (showing h) []).map fun r => (.links r.1 r.2, s)
  create : ∀ s h, ans s (.write .create a h) =
    (D.createLinks s [] (showing2 h) []).map fun o => (.wrote o.res o.hs, o.st)
  update : ∀ s i x y h, ans s (.write (.update i x y) a h) =
    (D.updateLinks s [i] [i, x, y] (showing2 h) []).map fun o => (.wrote o.res o.hs, o.st)
  delete : ∀ s i h, ans s (.write (.delete i) a h) =
    (D.deleteLinks s [i] (showing2 h) []).map fun o => (.wrote o.res o.hs, o.st)

section
variable {S A B : Type} {D : Links S} {ans : S → Req A → Option (Reply × S)} {a : A} {sup : S → Req A → Prop}

theorem makeLink_law (W : Lawful D) (T : Answers D ans a) {s : S} (hs : W.Inv s) (hg : W.CanCreate s)
    (ends : Nat → Nat × Nat)
    (hu : ∀ i, D.view s i = none → W.CanUpdate ((D.view s).set i (0, 0)) i (ends i).1 (ends i).2)
    (hsc : ans s (.write .create a fun _ => .cont) ≠ none → sup s (.write .create a fun _ => .cont))
    (hsu : ∀ s' i, D.view s i = none → W.Inv s' → D.view s' = (D.view s).set i (0, 0) →
      ans s' (.write (.update i (ends i).1 (ends i).2) a fun _ => .cont) ≠ none →
      sup s' (.write (.update i (ends i).1 (ends i).2) a fun _ => .cont)) (g : Except Err Nat → B) :
    (makeLink a ends g).Sup ans sup s ∧
    ((∃ e, D.create s = some ⟨.error e, s, ()⟩ ∧ (makeLink a ends g).answer ans s = some (g (.error e), s)) ∨
     ∃ i s1 s2, D.view s i = none ∧ D.create s = some ⟨.ok i, s1, ()⟩ ∧
      D.update s1 i (ends i).1 (ends i).2 = some ⟨.ok i, s2, ()⟩ ∧
      D.createWith s (Links.createLinkH Links.keepIndex) (0, { inner := 0 }) = some ⟨.ok .cont, s1, (i, { inner := i })⟩ ∧
      D.updateWith s1 i (ends i).1 (ends i).2 (fuseCall Links.keepIndex) { inner := i } =
        some ⟨.ok .cont, s2, { inner := i }⟩ ∧
      (makeLink a ends g).answer ans s = some (g (.ok i), s2)) := by
  rcases Links.create_law W hs hg with ⟨e, h1, h2⟩ | ⟨i, s1, h1, h2, h3, h4, h5, h6⟩
  · have ha : ans s (.write .create a fun _ => .cont) = some (.wrote (.error e) [], s) := by
      exact (T.create ..).trans (congrArg (Option.map _) (h1 _ (showing2 fun _ => .cont) []))
    refine ⟨⟨hsc (by rw [ha]; simp), fun r s' hr => ?_⟩, .inl ⟨e, h2, ?_⟩⟩
    · rw [ha] at hr; cases hr; trivial
    · simp only [makeLink, Txn.answer, ha, Option.bind_some]; rfl
  · obtain ⟨s2, b, -, -, -, -, h7⟩ := W.update s1 h2 i (0, 0) (by rw [h4, View.set_same])
      (by rw [h4]; exact Links.noTwin_null) i (ends i).1 (ends i).2 (by rw [h4]; exact hu i h1)
    have ha : ans s (.write .create a fun _ => .cont) = some (.wrote (.ok .cont) [(Link.nothing, ⟨i, 0, 0⟩)], s1) := by
      exact (T.create ..).trans (congrArg (Option.map _) (h6 _ (showing2 fun _ => .cont) []))
    have hb : ans s1 (.write (.update i (ends i).1 (ends i).2) a fun _ => .cont) =
        some (.wrote (.ok .cont) [(b, ⟨i, (ends i).1, (ends i).2⟩)], s2) := by
      exact (T.update ..).trans (congrArg (Option.map _) (h7 _ (showing2 fun _ => .cont) []))
    refine ⟨⟨hsc (by rw [ha]; simp), fun r s' hr => ?_⟩, .inr ⟨i, s1, s2, h1, h5, Links.update_ok h7, ?_, ?_, ?_⟩⟩
    · rw [ha] at hr; cases hr
      exact ⟨hsu s1 i h1 h2 h4 (by rw [hb]; simp), fun r s' hr => trivial⟩
    · rw [Links.createWith, Links.createByWith_ok h6]; rfl
    · rw [Links.updateWith, Links.updateByWith_ok h7]; rfl
    · simp only [makeLink, Txn.answer, ha, Option.bind_some]
      show (ans s1 (.write (.update i (ends i).1 (ends i).2) a fun _ => .cont)).bind _ = _
      rw [hb]; rfl

/-- A careful method, made of single calls, does what the method of the model does. -/
theorem act_txn (W : Lawful D) (T : Answers D ans a) {s : S} (hs : W.Inv s) (hg : W.CanCreate s)
    (hu : ∀ v i x y, v.Sound → (∀ j, v j ≠ some (x, y)) → (x ≠ 0 → y ≠ 0) → W.CanUpdate (View.set v i (0, 0)) i x y)
    (hse : ∀ s q h, ans s (.each q h) ≠ none → sup s (.each q h))
    (hsc : ans s (.write .create a fun _ => .cont) ≠ none → sup s (.write .create a fun _ => .cont))
    (hsu : ∀ s' i x y, D.view s i = none → W.Inv s' → D.view s' = (D.view s).set i (0, 0) →
      W.CanUpdate ((D.view s).set i (0, 0)) i x y →
      ans s' (.write (.update i x y) a fun _ => .cont) ≠ none → sup s' (.write (.update i x y) a fun _ => .cont))
    {k : Act} (hsd : ∀ i, k = .remove i → ans s (.write (.delete i) a fun _ => .cont) ≠ none →
      sup s (.write (.delete i) a fun _ => .cont))
    (hv : (D.view s).Sound) (hk : k.Careful (D.view s)) :
    (k.txn (D.consts s).any a).Sup ans sup s ∧
    ∃ o, k.run D s = some o ∧ (k.txn (D.consts s).any a).answer ans s = some ((k, o.res), o.st) := by
  cases k with
  | point =>
    have hup : ∀ i, D.view s i = none → W.CanUpdate ((D.view s).set i (0, 0)) i i i :=
      fun j hj => hu _ _ _ _ hv (fun l hl => (hv.closed l j j hl).1 hj) id
    obtain ⟨h1, h2⟩ := makeLink_law (sup := sup) W T hs hg (fun i => (i, i)) hup hsc
      (fun s' i h1 h2 h3 => hsu s' i i i h1 h2 h3 (hup i h1)) (fun r => (Act.point, r))
    refine ⟨h1, ?_⟩
    rcases h2 with ⟨e, h2, h3⟩ | ⟨i, s1, s2, -, h2, h3, -, -, h4⟩
    · exact ⟨⟨.error e, s, ()⟩, by simp [Act.run, Links.createPoint, h2], h3⟩
    · exact ⟨⟨.ok i, s2, ()⟩, by simp only [Act.run, Links.createPoint, h2, Option.bind_some, h3], h4⟩
  | pair x y =>
    have hne : ∀ k, D.view s k ≠ none → k ≠ 0 ∧ k ≠ (D.consts s).any := by
      refine fun k hk => ⟨?_, ?_⟩
      · rintro rfl; exact hk (W.null s hs)
      · rintro rfl; exact hk (W.any_absent s hs)
    obtain ⟨hx, hxa⟩ := hne x hk.1
    obtain ⟨hy, hya⟩ := hne y hk.2
    obtain ⟨L, h1, h2, h3, h4⟩ := W.each_pair s hs x y hx hxa hy hya
    match L, h2 with
    | [], _ =>
      have hn : ∀ i, D.view s i ≠ some (x, y) := fun i hi => h4 ⟨i, hi⟩ rfl
      have hsr : D.search s x y = some none := by
        simp only [Links.search, Links.find]; rw [Links.eachBy_eq h1]; rfl
      have ha : ans s (.each [(D.consts s).any, x, y] fun _ => .brk ()) = some (.links .cont [], s) := by
        rw [T.each, h1 _ (showing fun _ => .brk ()) []]; rfl
      have hup : ∀ i, D.view s i = none → W.CanUpdate ((D.view s).set i (0, 0)) i x y :=
        fun j _ => hu _ _ _ _ hv hn fun _ => hy
      obtain ⟨g1, g2⟩ := makeLink_law (sup := sup) W T hs hg (fun _ => (x, y)) hup hsc
        (fun s' i h1 h2 h3 => hsu s' i x y h1 h2 h3 (hup i h1)) (fun r => (Act.pair x y, r))
      refine ⟨⟨hse _ _ _ (by rw [ha]; simp), fun r s' hr => ?_⟩, ?_⟩
      · rw [ha] at hr; cases hr; exact g1
      · have e : ((Act.pair x y).txn (D.consts s).any a).answer ans s =
            (makeLink a (fun _ => (x, y)) fun r => (Act.pair x y, r)).answer ans s := by
          simp only [Act.txn, Txn.answer, ha, Option.bind_some]; rfl
        rw [e]
        rcases g2 with ⟨e, h2, h3⟩ | ⟨i, s1, s2, g3, -, -, g4, g5, g6⟩
        · refine ⟨⟨.error e, s, ()⟩, ?_, h3⟩
          rcases Links.createLink_law W hs hg x y hup with ⟨e', k1, k2⟩ | ⟨j, s', k0, k1, k2, k3⟩
          · rw [h2] at k1; cases k1
            simp only [Act.run, Links.getOrCreate, hsr, Option.bind_some, k2]
          · rcases Links.create_law W hs hg with ⟨e', f1, f2⟩ | ⟨i, s1, -, -, -, -, f5, -⟩
            · exfalso
              have : D.createLink s x y = some ⟨.error e', s, ()⟩ := by
                simp [Links.createLink, Links.createLinkWith, Links.createWith, Links.createByWith_err f1,
                  Links.resultIndex, Except.map]
              rw [k2] at this; cases this
            · rw [h2] at f5; cases f5
        · refine ⟨⟨.ok i, s2, ()⟩, ?_, g6⟩
          simp only [Act.run, Links.getOrCreate, hsr, Option.bind_some, Links.createLink, Links.createLinkWith, g4, g5,
            Option.map_some, Links.resultIndex, Except.map]
    | [l], _ =>
      have hsr : D.search s x y = some (some l.index) := by
        simp only [Links.search, Links.find]; rw [Links.eachBy_eq h1]; rfl
      have ha : ans s (.each [(D.consts s).any, x, y] fun _ => .brk ()) = some (.links (.brk ()) [l], s) := by
        rw [T.each, h1 _ (showing fun _ => .brk ()) []]; rfl
      refine ⟨⟨hse _ _ _ (by rw [ha]; simp), fun r s' hr => ?_⟩, ⟨.ok l.index, s, ()⟩, ?_, ?_⟩
      · rw [ha] at hr; cases hr; trivial
      · simp only [Act.run, Links.getOrCreate, hsr, Option.bind_some]
      · simp only [Act.txn, Txn.answer, ha, Option.bind_some]; rfl
  | remove i =>
    cases hi : D.view s i with
    | none =>
      have h1 := W.delete_missing s hs i hi
      have ha : ans s (.write (.delete i) a fun _ => .cont) = some (.wrote (.error (.notExists i)) [], s) := by
        exact (T.delete ..).trans (congrArg (Option.map _) (h1 _ (showing2 fun _ => .cont) []))
      refine ⟨⟨hsd i rfl (by rw [ha]; simp), fun _ _ _ => trivial⟩, _, Links.delete_err h1, ?_⟩
      simp only [Act.txn, Txn.answer, ha, Option.bind_some]; rfl
    | some p =>
      obtain ⟨s', -, -, -, h3⟩ := W.delete s hs i p hi (hv.uniq i) (W.canDelete_uniq _ _ hv.uniq)
      have ha : ans s (.write (.delete i) a fun _ => .cont) =
          some (.wrote (.ok .cont) [(⟨i, p.1, p.2⟩, Link.nothing)], s') := by
        exact (T.delete ..).trans (congrArg (Option.map _) (h3 _ (showing2 fun _ => .cont) []))
      refine ⟨⟨hsd i rfl (by rw [ha]; simp), fun _ _ _ => trivial⟩, _, Links.delete_ok h3, ?_⟩
      simp only [Act.txn, Txn.answer, ha, Option.bind_some]; rfl

end

/-! ### Threads that build a network -/

/-- Requests of threads that only look (`plain` calls) or run careful methods, on memory that grows as `grows` says. -/
abbrev Asks (A : Type) := Ask (Req A) Reply (Act × Except Err Nat)
abbrev Gots := Got Reply (Act × Except Err Nat)

/-- What a store must offer: plain calls change nothing, careful methods have the effects of the methods, and all of this
is supported. -/
structure Acting {S A : Type} (D : A → Links S) (ans : S → Req A → Option (Reply × S)) (sup : S → Req A → Prop)
    (plain : Req A → Prop) (grows : A → Prop) (any : Nat) (view : S → View) (Good : S → Prop) : Prop where
  sound : ∀ {s}, Good s → (view s).Sound
  look : ∀ {s q}, Good s → plain q → sup s q ∧ ∃ r, ans s q = some (r, s)
  act : ∀ {s k a}, Good s → grows a → Act.Careful (view s) k → (k.txn any a).Sup ans sup s ∧
    ∃ o, k.run (D a) s = some o ∧ (k.txn any a).answer ans s = some ((k, o.res), o.st) ∧ Good o.st ∧
      k.Effect (view s) o.res (view o.st)
  spare : ∀ {s k a j}, Good s → grows a → Act.Careful (view s) k → view s j ≠ none → k ≠ .remove j →
    (k.txn any a).Sup ans (fun _ q => ¬ q.about j) s
  quiet : ∀ {q} j, plain q → ¬ Req.about j q

/-- A request of a careful thread, when the contents are `v`. -/
def Proper {A : Type} (plain : Req A → Prop) (grows : A → Prop) (any : Nat) (v : View) (q : Asks A) : Prop :=
  (∃ q', q = .one q' ∧ plain q') ∨ ∃ (k : Act) (a : A), q = .all (k.txn any a) ∧ grows a ∧ k.Careful v

/-- A link that a thread knows of: it was there when the threads began, or the thread has got it. -/
def Knows (v0 : View) (rs : List Gots) (i : Nat) : Prop := v0 i ≠ none ∨ ∃ k, .all (k, .ok i) ∈ rs

/-- A request of a thread that adds to the network: it looks, makes a point, or asks for the link between two links that
it knows of. -/
def Adds {A : Type} (plain : Req A → Prop) (grows : A → Prop) (any : Nat) (v0 : View) (rs : List Gots)
    (q : Asks A) : Prop :=
  (∃ q', q = .one q' ∧ plain q') ∨ (∃ a, q = .all (Act.point.txn any a) ∧ grows a) ∨
    ∃ x y a, q = .all ((Act.pair x y).txn any a) ∧ grows a ∧ Knows v0 rs x ∧ Knows v0 rs y

/-- The new points in the results, in the order in which they were returned. -/
def pointsOf (log : List (Nat × Gots)) : List Nat := log.filterMap fun e =>
  match e.2 with
  | .all (.point, .ok i) => some i
  | _ => none

/-- What the threads have made of the contents `v0`: nothing has been changed or removed; every point that was returned
is a new link to itself, different from the others; whoever asked for a pair has got the link with that pair; every other
link was there before or has been returned to somebody. -/
structure Built (v0 : View) (log : List (Nat × Gots)) (v : View) : Prop where
  old : ∀ i p, v0 i = some p → v i = some p
  point : ∀ t i, (t, .all (.point, .ok i)) ∈ log → v i = some (i, i) ∧ v0 i = none
  points : (pointsOf log).Nodup
  pair : ∀ t x y i, (t, .all (.pair x y, .ok i)) ∈ log → v i = some (x, y)
  removed : ∀ t i r, (t, .all (.remove i, r)) ∉ log
  new : ∀ i, v i ≠ none → v0 i ≠ none ∨ ∃ t k, (t, .all (k, .ok i)) ∈ log

theorem mem_mine {R : Type} {log : List (Nat × R)} {i : Nat} {r : R} (h : r ∈ mine log i) : (i, r) ∈ log := by
  simp only [mine, List.mem_map, List.mem_filter] at h
  obtain ⟨⟨j, r'⟩, ⟨h1, h2⟩, rfl⟩ := h
  have : j = i := by simpa using h2
  rw [← this]; exact h1

theorem mem_pointsOf {log : List (Nat × Gots)} {i : Nat} : i ∈ pointsOf log → ∃ t, (t, .all (.point, .ok i)) ∈ log := by
  unfold pointsOf
  rw [List.mem_filterMap]
  rintro ⟨⟨t, g⟩, h1, h2⟩
  rcases g with r | ⟨k, r⟩
  · cases h2
  · rcases k with - | ⟨x, y⟩ | i
    · rcases r with e | i
      · cases h2
      · cases h2; exact ⟨t, h1⟩
    · cases h2
    · cases h2

theorem Built.start (v : View) : Built v [] v where
  old _ _ h := h
  point _ _ h := nomatch h
  points := .nil
  pair _ _ _ _ h := nomatch h
  removed _ _ _ h := nomatch h
  new _ h := .inl h

/-- A reply that tells of no link. -/
theorem Built.quiet {v0 v : View} {log : List (Nat × Gots)} (h : Built v0 log v) (t : Nat) {g : Gots}
    (hg : (∃ r, g = .one r) ∨ ∃ k e, g = .all (k, .error e) ∧ ∀ i, k ≠ .remove i) : Built v0 (log ++ [(t, g)]) v := by
  have hok : ∀ k i, g ≠ .all (k, .ok i) := by
    rintro k i rfl
    rcases hg with ⟨r, h⟩ | ⟨k', e, h, -⟩ <;> cases h
  have hrm : ∀ i r, g ≠ .all (.remove i, r) := by
    rintro i r rfl
    rcases hg with ⟨r, h⟩ | ⟨k', e, h, h'⟩
    · cases h
    · cases h; exact h' i rfl
  have hmem : ∀ {t' k i}, (t', Got.all (k, .ok i)) ∈ log ++ [(t, g)] → (t', Got.all (k, .ok i)) ∈ log := by
    intro t' k i hm
    rcases List.mem_append.mp hm with hm | hm
    · exact hm
    · rw [List.mem_singleton] at hm; cases hm; exact absurd rfl (hok k i)
  refine ⟨h.old, fun t' i hm => h.point t' i (hmem hm), ?_, fun t' x y i hm => h.pair t' x y i (hmem hm), ?_, ?_⟩
  · have : pointsOf (log ++ [(t, g)]) = pointsOf log := by
      unfold pointsOf
      rw [List.filterMap_append]
      rcases hg with ⟨r, rfl⟩ | ⟨k, e, rfl, -⟩
      · simp
      · cases k <;> simp
    rw [this]; exact h.points
  · intro t' i r hm
    rcases List.mem_append.mp hm with hm | hm
    · exact h.removed _ _ _ hm
    · rw [List.mem_singleton] at hm; cases hm; exact hrm _ _ rfl
  · intro i hi
    rcases h.new i hi with h | ⟨t', k, h⟩
    · exact .inl h
    · exact .inr ⟨t', k, List.mem_append_left _ h⟩

/-- A reply that tells of a link. -/
theorem Built.ok {v0 v v' : View} {log : List (Nat × Gots)} (h : Built v0 log v) (t : Nat) {k : Act} {i : Nat}
    (hold : ∀ j p, v j = some p → v' j = some p) (hnew : ∀ j, v' j ≠ none → v j ≠ none ∨ j = i)
    (hp : k = .point → v i = none ∧ v' i = some (i, i)) (hk : ∀ x y, k = .pair x y → v' i = some (x, y))
    (hr : ∀ j, k ≠ .remove j) : Built v0 (log ++ [(t, .all (k, .ok i))]) v' := by
  have hmem : ∀ {t' k' j}, (t', (Got.all (k', .ok j) : Gots)) ∈ log ++ [(t, .all (k, .ok i))] →
      (t', (Got.all (k', .ok j) : Gots)) ∈ log ∨ (k' = k ∧ j = i) := by
    intro t' k' j hm
    rcases List.mem_append.mp hm with hm | hm
    · exact .inl hm
    · rw [List.mem_singleton] at hm; cases hm; exact .inr ⟨rfl, rfl⟩
  refine ⟨fun j p hj => hold j p (h.old j p hj), ?_, ?_, ?_, ?_, ?_⟩
  · intro t' j hm
    rcases hmem hm with hm | ⟨rfl, rfl⟩
    · exact ⟨hold _ _ (h.point t' j hm).1, (h.point t' j hm).2⟩
    · obtain ⟨h1, h2⟩ := hp rfl
      refine ⟨h2, ?_⟩
      cases h0 : v0 j with
      | none => rfl
      | some p => rw [h.old j p h0] at h1; cases h1
  · have : pointsOf (log ++ [(t, .all (k, .ok i))]) = pointsOf log ++ (if k = .point then [i] else []) := by
      unfold pointsOf
      rw [List.filterMap_append]
      cases k <;> simp
    rw [this]
    split
    · rename_i hk'
      rw [List.nodup_append]
      refine ⟨h.points, by simp, fun a ha b hb => ?_⟩
      rw [List.mem_singleton] at hb
      subst hb
      rintro rfl
      obtain ⟨t', ht'⟩ := mem_pointsOf ha
      have := (h.point t' a ht').1
      rw [(hp hk').1] at this; cases this
    · rw [List.append_nil]; exact h.points
  · intro t' x y j hm
    rcases hmem hm with hm | ⟨rfl, rfl⟩
    · exact hold _ _ (h.pair t' x y j hm)
    · exact hk x y rfl
  · intro t' j r hm
    rcases List.mem_append.mp hm with hm | hm
    · exact h.removed _ _ _ hm
    · rw [List.mem_singleton] at hm; cases hm; exact hr j rfl
  · intro j hj
    rcases hnew j hj with hj | rfl
    · rcases h.new j hj with h | ⟨t', k', h⟩
      · exact .inl h
      · exact .inr ⟨t', k', List.mem_append_left _ h⟩
    · exact .inr ⟨t, k, List.mem_append_right _ (by simp)⟩

theorem Built.knows {v0 v : View} {log : List (Nat × Gots)} (h : Built v0 log v) {t i : Nat}
    (hk : Knows v0 (mine log t) i) : v i ≠ none := by
  rcases hk with hk | ⟨k, hk⟩
  · obtain ⟨p, hp⟩ := Option.ne_none_iff_exists'.mp hk
    rw [h.old i p hp]; simp
  · have hk := mem_mine hk
    rcases k with - | ⟨x, y⟩ | j
    · rw [(h.point t i hk).1]; simp
    · rw [h.pair t x y i hk]; simp
    · exact absurd hk (h.removed _ _ _)

section
variable {S A M L : Type} {D : A → Links S} {ans : S → Req A → Option (Reply × S)} {sup : S → Req A → Prop}
  {plain : Req A → Prop} {grows : A → Prop} {any : Nat} {view : S → View} {Good : S → Prop} {cl : Clients Gots (Asks A)}
  {s0 : S}

theorem Acting.step (T : Acting D ans sup plain grows any view Good) {s : S} (h : Good s) {q : Asks A}
    (hq : Proper plain grows any (view s) q) : q.Sup ans sup s ∧
    ∀ r s', q.answer ans s = some (r, s') → Good s' := by
  rcases hq with ⟨q', rfl, hp⟩ | ⟨k, a, rfl, ha, hk⟩
  · obtain ⟨h1, r, h2⟩ := T.look h hp
    refine ⟨h1, fun r' s' hr => ?_⟩
    simp only [Ask.answer, h2, Option.map_some, Option.some.injEq, Prod.mk.injEq] at hr
    obtain ⟨-, rfl⟩ := hr
    exact h
  · obtain ⟨h1, o, -, h2, h3, -⟩ := T.act h ha hk
    refine ⟨h1, fun r' s' hr => ?_⟩
    simp only [Ask.answer, h2, Option.map_some, Option.some.injEq, Prod.mk.injEq] at hr
    obtain ⟨-, rfl⟩ := hr
    exact h3

/-- Threads that are careful when they run one at a time make supported calls only, and the store stays good. -/
theorem Acting.disciplined (T : Acting D ans sup plain grows any view Good) (h0 : Good s0)
    (hd : ∀ log s, Serial (Ask.answer ans) cl s0 log s → ∀ i q, cl i (mine log i) q → Proper plain grows any (view s) q) :
    Disciplined (Ask.answer ans) (Ask.Sup ans sup) cl s0 ∧
    ∀ log s, Serial (Ask.answer ans) cl s0 log s → Good s := by
  have hg : ∀ log s, Serial (Ask.answer ans) cl s0 log s → Good s := by
    intro log s hs
    induction hs with
    | start => exact h0
    | call hs hq ha ih => exact (T.step ih (hd _ _ hs _ _ hq)).2 _ _ ha
  exact ⟨fun log s hs i q hq => (T.step (hg _ _ hs) (hd _ _ hs _ _ hq)).1, hg⟩

/-- Careful requests do not touch the links that are there, except one that they remove. -/
theorem Acting.spares (T : Acting D ans sup plain grows any view Good) {s : S} (h : Good s) {q : Asks A} {j : Nat}
    (hq : Proper plain grows any (view s) q) (hj : view s j ≠ none) (hr : ∀ a, q ≠ .all ((Act.remove j).txn any a)) :
    Ask.Sup ans (fun _ q => ¬ q.about j) s q := by
  rcases hq with ⟨q', rfl, hq⟩ | ⟨k, a, rfl, ha, hk⟩
  · exact T.quiet j hq
  · exact T.spare h ha hk hj fun e => hr a (by rw [e])

/-- Threads that build are careful, and build. -/
theorem Acting.built (T : Acting D ans sup plain grows any view Good) (h0 : Good s0)
    (hcl : ∀ i rs q, cl i rs q → Adds plain grows any (view s0) rs q) {log : List (Nat × Gots)} {s : S}
    (hs : Serial (Ask.answer ans) cl s0 log s) : (Good s ∧ Built (view s0) log (view s)) ∧
      ∀ i q, cl i (mine log i) q → Proper plain grows any (view s) q := by
  have proper : ∀ {log : List (Nat × Gots)} {s : S}, Built (view s0) log (view s) →
      ∀ i q, cl i (mine log i) q → Proper plain grows any (view s) q := by
    intro log s hb i q hq
    rcases hcl _ _ _ hq with h | ⟨a, rfl, ha⟩ | ⟨x, y, a, rfl, ha, hx, hy⟩
    · exact .inl h
    · exact .inr ⟨.point, a, rfl, ha, trivial⟩
    · exact .inr ⟨.pair x y, a, rfl, ha, hb.knows hx, hb.knows hy⟩
  have hb : Good s ∧ Built (view s0) log (view s) := by
    induction hs with
    | start => exact ⟨h0, .start _⟩
    | @call log s s' i q r hs hq ha ih =>
      obtain ⟨hG, hB⟩ := ih
      rcases hcl _ _ _ hq with ⟨q', rfl, hp⟩ | ⟨a, rfl, hga⟩ | ⟨x, y, a, rfl, hga, hx, hy⟩
      · obtain ⟨-, r', h2⟩ := T.look hG hp
        simp only [Ask.answer, h2, Option.map_some, Option.some.injEq, Prod.mk.injEq] at ha
        obtain ⟨rfl, rfl⟩ := ha
        exact ⟨hG, hB.quiet i (.inl ⟨_, rfl⟩)⟩
      · obtain ⟨-, o, -, h2, h3, h4⟩ := T.act (k := .point) hG hga trivial
        simp only [Ask.answer, h2, Option.map_some, Option.some.injEq, Prod.mk.injEq] at ha
        obtain ⟨rfl, rfl⟩ := ha
        refine ⟨h3, ?_⟩
        rcases ho : o.res with e | j
        · rw [ho] at h4
          have h4 : view o.st = view s := h4
          rw [h4]
          exact hB.quiet i (.inr ⟨_, e, rfl, fun _ h => nomatch h⟩)
        · rw [ho] at h4
          obtain ⟨h5, h6⟩ : view s j = none ∧ view o.st = (view s).set j (j, j) := h4
          refine hB.ok i (fun l p hl => ?_) (fun l hl => ?_) (fun _ => ⟨h5, by rw [h6, View.set_same]⟩)
            (fun _ _ h => nomatch h) fun _ h => nomatch h
          · have : l ≠ j := by rintro rfl; rw [h5] at hl; cases hl
            rw [h6, View.set_other _ _ this, hl]
          · by_cases e : l = j
            · exact .inr e
            · rw [h6, View.set_other _ _ e] at hl; exact .inl hl
      · obtain ⟨-, o, -, h2, h3, h4⟩ := T.act (k := .pair x y) hG hga ⟨hB.knows hx, hB.knows hy⟩
        simp only [Ask.answer, h2, Option.map_some, Option.some.injEq, Prod.mk.injEq] at ha
        obtain ⟨rfl, rfl⟩ := ha
        refine ⟨h3, ?_⟩
        rcases ho : o.res with e | j
        · rw [ho] at h4
          have h4 : view o.st = view s := h4
          rw [h4]
          exact hB.quiet i (.inr ⟨_, e, rfl, fun _ h => nomatch h⟩)
        · rw [ho] at h4
          have h4 : (view s j = some (x, y) ∧ view o.st = view s) ∨
            ((∀ l, view s l ≠ some (x, y)) ∧ view s j = none ∧ view o.st = (view s).set j (x, y)) := h4
          rcases h4 with ⟨h5, h6⟩ | ⟨-, h5, h6⟩
          · refine hB.ok i (fun l p hl => by rw [h6, hl]) (fun l hl => .inl (h6 ▸ hl)) (fun h => nomatch h)
              (fun x' y' h => by cases h; rw [h6, h5]) fun _ h => nomatch h
          · refine hB.ok i (fun l p hl => ?_) (fun l hl => ?_) (fun h => nomatch h)
              (fun x' y' h => by cases h; rw [h6, View.set_same]) fun _ h => nomatch h
            · have : l ≠ j := by rintro rfl; rw [h5] at hl; cases hl
              rw [h6, View.set_other _ _ this, hl]
            · by_cases e : l = j
              · exact .inr e
              · rw [h6, View.set_other _ _ e] at hl; exact .inl hl
  exact ⟨hb, proper hb.2⟩

end
end Verif
