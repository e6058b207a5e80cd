import Verif.SharedCrash
import Verif.Props.SplitSharedActs
import Verif.Props.PowerLoss

/-!
# C103 for the split store

Threads share a split store as in C102, and in the middle of a schedule the process dies or the power fails. `Schedule`
lists the memories that there have been, one for every step of a thread.
-/

namespace Verif.Split.Props
open Verif Verif.Split
variable {c : Cfg} {P : Programs}

/-- What opening finds of the links in `Q`: their ends are in memory; lookup returns exactly the link or reports it missing;
and the traversal of everything ends and visits nothing else under its index. -/
def NotChanged (c : Cfg) (Q : Link → Prop) (s' : Store) : Prop :=
  (∀ l, Q l → s'.data l.index = (l.source, l.target) ∧
    ((links c).getLink s' l.index = some (some l) ∨ (links c).getLink s' l.index = some none)) ∧
  ∃ L, (links c).Visits s' [] L ∧ ∀ l, Q l → ∀ l' ∈ L, l'.index = l.index → l' = l

/-- However the memories `t` are opened, the links in `Q` are not changed. -/
def OpensWith (c : Cfg) (Q : Link → Prop) (t : Store) : Prop :=
  ∀ (d' i' : Nat → Nat → Option Nat), ExactAlloc d' → ExactAlloc i' → ∀ (n1 n2 : Nat) (s' : Store),
    init (c.withAllocs d' i') { t with dlen := n1, ilen := n2 } = some (.ok s') → t.hdr.allocated < s'.ilen → NotChanged c Q s'

theorem about_iff {j : Nat} {k : Call} {a : Allocs} {h : List (Link × Link) → Flow} :
    Req.about j (.write k a h) ↔ callAbout j k := by
  cases k <;> exact Iff.rfl

/-- Calls spare the links that they are not about, assignment by assignment. -/
theorem sparing (hc : CfgOK c) (hP : P.Implements c.trees) :
    Sparing (job c P) (answer c) (Allowed c) (Reach c) AStore.of (fun (l : Link) _ q => ¬ q.about l.index)
      (fun l s => ((links c).view s).Has l)
      (fun l m => m.s.data l.index = (l.source, l.target)) where
  ok := by
    intro l s h hl
    obtain ⟨free, hI⟩ := reach_good hc h
    obtain ⟨-, h2⟩ := (has_iff hc hI.toInv0 l).1 hl
    rw [h2]; rfl
  step := by
    intro l s q r s' h hq hr hl hh
    have rd : (∀ k a hd, q ≠ .write k a hd) → ((links c).view s').Has l := fun hw => by
      obtain ⟨rfl, -⟩ := read_alone (P := P) hc h hw hr
      exact hh
    cases q with
    | write k a hd =>
      simp only [answer, Option.map_eq_some_iff] at hr
      obtain ⟨o, ho, e⟩ := hr
      cases e
      exact (step_keeps hc h hq.2.1 hq.2.2.1 hq.2.2.2.1 hq.2.2.2.2 ho).2 l hh fun e => hl (about_iff.2 e)
    | get i => exact rd fun _ _ _ h => nomatch h
    | each q hd => exact rd fun _ _ _ h => nomatch h
    | count q => exact rd fun _ _ _ h => nomatch h
  way := by
    intro s q h hq
    have rd : (∀ k a hd, q ≠ .write k a hd) → ∀ t, job c P q ≠ .write t := fun hw t e => by
      cases q with
      | write k a hd => exact hw _ _ _ rfl
      | _ => cases e
    cases q with
    | write k a hd =>
      obtain ⟨free, hI⟩ := reach_good hc h
      have hc' := hc.withAllocs hq.2.1 hq.2.2.1
      have hI' := hI.withAllocs a.d a.i
      have hk' : Supported ((links (c.withAllocs a.d a.i)).view s) k := by rw [view_withAllocs]; exact hq.2.2.2.1
      obtain ⟨f0, hf⟩ := callA_agree hc' (P := P) hP hI' hk' (showing2 hd) []
      refine ⟨f0, fun f hff t ht m hm l hl hh => ?_⟩
      simp only [job, Body.write.injEq] at ht
      subst ht
      have hm : m ∈ (Tr.bind (callA (c.withAllocs a.d a.i) P f (showing2 hd) [] k) (fun r => Tr.pure (Reply.wrote r.1 r.2)) (.of s)).1 := hm
      have hm : m ∈ (callA (c.withAllocs a.d a.i) P f (showing2 hd) [] k (.of s)).1 := by
        unfold Tr.bind at hm
        split at hm
        · next l e => rw [e]; exact hm
        · next l x m' e => rw [e]; simpa [Tr.pure] using hm
      obtain ⟨h1, h2⟩ := (has_iff hc hI.toInv0 l).1 hh
      obtain ⟨m0, g1, g2⟩ := (hf f hff).2 m hm
      rw [near_keeps hc' hI' hk' g1 g2 h1 fun e => hl (about_iff.2 e), h2]
      rfl
    | get i => exact ⟨0, fun _ _ t e => absurd e (rd (fun _ _ _ h => nomatch h) t)⟩
    | each q hd => exact ⟨0, fun _ _ t e => absurd e (rd (fun _ _ _ h => nomatch h) t)⟩
    | count q => exact ⟨0, fun _ _ t e => absurd e (rd (fun _ _ _ h => nomatch h) t)⟩

/-- **C103**. Threads run any methods, in any schedule; bounds on the loops of requests are large enough.
If the power fails, and the file is left as any mixture of what it was at the moments since the threads began, then the
links that were there at the beginning and that none of the requests is about are not changed.
If the process dies, the memory is what it is at that moment. Then the links that the requests which have returned leave,
and that nobody who is writing at the moment is about, are not changed; and nothing has happened to the memory if nobody is
writing. -/
theorem C103_split_any_moment (hc : CfgOK c) (hP : P.Implements c.trees) (A : Type) :
    ∃ B, ∀ {s0 : Store} {cl : Clients (Got Reply A) (Ask (Req Allocs) Reply A)}, Reach c s0 →
      Disciplined (Ask.answer (answer c)) (Ask.Sup (answer c) (Allowed c)) cl s0 →
      ∀ {ms : List AStore} {y : Sys AStore Loc (Got Reply A)},
      Schedule AStore.look (Ask.job AStore.look (job c P)) cl B (.of s0) ms y →
      (∀ t, Torn (ms.map (·.s)) t → OpensWith c (fun l => ((links c).view s0).Has l ∧
        Disciplined (Ask.answer (answer c)) (Ask.Sup (answer c) fun _ q => ¬ q.about l.index) cl s0) t) ∧
      ∃ s, Serial (Ask.answer (answer c)) cl s0 y.log s ∧ Reach c s ∧ (y.NoWriter → y.mem = .of s) ∧
        OpensWith c (fun l => ((links c).view s).Has l ∧ ∀ i rest last q, y.phase i = .writing rest last →
          cl i (mine y.log i) q → Ask.Sup (answer c) (fun _ q => ¬ q.about l.index) s q) y.mem.s := by
  have F := faithful hc hP
  obtain ⟨B, hB⟩ := F.ask.spared ((sparing hc hP).ask (A := A) F) (back := (·.s)) fun _ => rfl
  refine ⟨B, fun {s0 cl} h0 hd {ms y} hh => ?_⟩
  obtain ⟨h1, s, h2, h3, h4, h5⟩ := hB h0 hd hh
  refine ⟨fun t ht d' i' hd' hi' n1 n2 s' ho hlt => ?_, s, h2, h3, h4, fun d' i' hd' hi' n1 n2 s' ho hlt => ?_⟩
  · obtain ⟨free, hI⟩ := reach_good hc h0
    have ht' : Torn (s0 :: ms.map (·.s)) t := fun i f => by
      obtain ⟨⟨m, g1, g2⟩, m', g3, g4⟩ := ht i f
      exact ⟨⟨m, by simp [g1], g2⟩, m', by simp [g3], g4⟩
    obtain ⟨g1, L, g2, g3⟩ := torn_ends hc hI
      (Q := fun j => Disciplined (Ask.answer (answer c)) (Ask.Sup (answer c) fun _ q => ¬ q.about j) cl s0)
      (fun m hm l hl hq => by
        obtain ⟨m', hm', rfl⟩ := List.mem_map.1 hm
        exact h1 l hl hq m' hm') ht' hd' hi' ho hlt
    exact ⟨fun l hl => g1 l hl.1 hl.2, L, g2, fun l hl => g3 l hl.1 hl.2⟩
  · obtain ⟨free, hI⟩ := reach_good hc h3
    obtain ⟨g1, L, g2, g3⟩ := torn_ends hc hI
      (Q := fun j => ∀ i rest last q, y.phase i = .writing rest last →
          cl i (mine y.log i) q → Ask.Sup (answer c) (fun _ q => ¬ q.about j) s q) (ms := [y.mem.s]) (t := y.mem.s)
      (fun m hm l hl hq => by
        rw [List.mem_singleton] at hm; subst hm
        exact h5 l hl hq) (fun i f => ⟨⟨y.mem.s, by simp, rfl⟩, y.mem.s, by simp, rfl⟩) hd' hi' ho hlt
    exact ⟨fun l hl => g1 l hl.1 hl.2, L, g2, fun l hl => g3 l hl.1 hl.2⟩

/-- **C103**. Threads that build (C102): at whatever moment the process dies, every link that was there from the start and
every link that has been returned to anybody is not changed, whatever is under way; and a power failure changes no link that
was there when the file was last on disk. -/
theorem C103_split_builders (hc : CfgOK c) (hP : P.Implements c.trees) :
    ∃ B, ∀ {s0 : Store} {cl : Clients Gots (Asks Allocs)}, Client c s0 →
      (∀ i rs q, cl i rs q → Adds (OnlyLooks c) (Grows c) c.consts.any ((links c).view s0) rs q) →
      ∀ {ms : List AStore} {y : Sys AStore Loc Gots},
      Schedule AStore.look (Ask.job AStore.look (job c P)) cl B (.of s0) ms y →
      (∀ t, Torn (ms.map (·.s)) t → OpensWith c (fun l => ((links c).view s0).Has l) t) ∧
      OpensWith c (fun l => ((links c).view s0).Has l ∨
        (∃ t, (t, .all (.point, .ok l.index)) ∈ y.log ∧ l.source = l.index ∧ l.target = l.index) ∨
        ∃ t, (t, .all (.pair l.source l.target, .ok l.index)) ∈ y.log) y.mem.s := by
  obtain ⟨B, hB⟩ := C103_split_any_moment hc hP (Act × Except Err Nat)
  refine ⟨B, fun {s0 cl} h0 hcl {ms y} hh => ?_⟩
  have hpr : ∀ log s, Serial (Ask.answer (answer c)) cl s0 log s → ∀ i q, cl i (mine log i) q →
      Proper (OnlyLooks c) (Grows c) c.consts.any ((links c).view s) q := fun log s hs => ((acting hc).built h0 hcl hs).2
  have hsp : ∀ log s, Serial (Ask.answer (answer c)) cl s0 log s → ∀ j, (links c).view s j ≠ none → ∀ i q,
      cl i (mine log i) q → Ask.Sup (answer c) (fun _ q => ¬ q.about j) s q := fun log s hs j hj i q hq => by
    refine (acting hc).spares ((acting hc).built h0 hcl hs).1.1 (hpr _ _ hs _ _ hq) hj fun a e => ?_
    subst e
    rcases hcl _ _ _ hq with ⟨q', e, -⟩ | ⟨a', e, -⟩ | ⟨x, y, a', e, -⟩ <;> simp [Act.txn, makeLink] at e
  obtain ⟨h1, s, h2, -, -, h3⟩ := hB (client_law hc h0).1 ((acting hc).disciplined h0 hpr).1 hh
  refine ⟨fun t ht d' i' hd' hi' n1 n2 s' ho hlt => ?_, fun d' i' hd' hi' n1 n2 s' ho hlt => ?_⟩
  · obtain ⟨g1, L, g2, g3⟩ := h1 t ht d' i' hd' hi' n1 n2 s' ho hlt
    have hd : ∀ l, ((links c).view s0).Has l →
        Disciplined (Ask.answer (answer c)) (Ask.Sup (answer c) fun _ q => ¬ q.about l.index) cl s0 := fun l hl log s hs i q hq =>
      hsp log s hs _ (by rw [((acting hc).built h0 hcl hs).1.2.old _ _ hl]; simp) i q hq
    exact ⟨fun l hl => g1 l ⟨hl, hd l hl⟩, L, g2, fun l hl => g3 l ⟨hl, hd l hl⟩⟩
  · obtain ⟨g1, L, g2, g3⟩ := h3 d' i' hd' hi' n1 n2 s' ho hlt
    have hb := ((acting hc).built h0 hcl h2).1.2
    have hl : ∀ l : Link, (((links c).view s0).Has l ∨
        (∃ t, (t, .all (.point, .ok l.index)) ∈ y.log ∧ l.source = l.index ∧ l.target = l.index) ∨
        ∃ t, (t, .all (.pair l.source l.target, .ok l.index)) ∈ y.log) → ((links c).view s).Has l := by
      rintro l (h | ⟨t, h, e1, e2⟩ | ⟨t, h⟩)
      · exact hb.old _ _ h
      · show (links c).view s l.index = some (l.source, l.target)
        rw [e1, e2]; exact (hb.point _ _ h).1
      · exact hb.pair _ _ _ _ h
    have hd : ∀ l : Link, ((links c).view s).Has l → ∀ i rest last q, y.phase i = .writing rest last →
        cl i (mine y.log i) q → Ask.Sup (answer c) (fun _ q => ¬ q.about l.index) s q := fun l hl i _ _ q _ hq =>
      hsp _ _ h2 _ (by rw [show (links c).view s l.index = _ from hl]; simp) i q hq
    exact ⟨fun l h => g1 l ⟨hl l h, hd l (hl l h)⟩, L, g2, fun l h => g3 l ⟨hl l h, hd l (hl l h)⟩⟩

/-- **C103**. Conversely every moment inside a request that follows requests made one at a time is a moment of a schedule,
whatever bounds are asked for. -/
theorem C103_split_every_moment_occurs (hc : CfgOK c) (hP : P.Implements c.trees) {A : Type}
    (B : AStore → Ask (Req Allocs) Reply A → Nat) {s0 : Store}
    {cl : Clients (Got Reply A) (Ask (Req Allocs) Reply A)} (h0 : Reach c s0)
    (hd : Disciplined (Ask.answer (answer c)) (Ask.Sup (answer c) (Allowed c)) cl s0) {log : List (Nat × Got Reply A)} {s : Store}
    (hs : Serial (Ask.answer (answer c)) cl s0 log s) {i : Nat} {t : Txn (Req Allocs) Reply A}
    (hq : cl i (mine log i) (.all t)) :
    ∃ f0, ∀ f, f0 ≤ f → ∀ m ∈ (t.tr AStore.look (job c P) f (.of s)).1, ∃ ms y,
      Schedule AStore.look (Ask.job AStore.look (job c P)) cl B (.of s0) ms y ∧ y.mem = m ∧ y.log = log ∧
      ∃ rest last, y.phase i = .writing rest last := by
  have F := (faithful hc hP).ask (A := A)
  obtain ⟨ms, h1⟩ := F.one_by_one h0 hd B hs
  obtain ⟨r, s', -, -, f0, h2⟩ := F.works (F.inv h0 hd hs) (hd _ _ hs _ _ hq)
  refine ⟨max f0 (B (.of s) (.all t)), fun f hf m hm => ?_⟩
  have he : Body.Enough AStore.look (Ask.job AStore.look (job c P) (.all t)) (.of s) f := fun f' hf' => by
    rw [h2 f' (by omega), h2 f (by omega)]
  have h3 := h1.step (.enterWrite (i := i) rfl (fun _ _ => rfl) hq rfl he) (by
    intro rest last _ e
    simp only [Sys.at, if_true, Phase.writing.injEq] at e
    exact ⟨.all t, _, f, Nat.le_trans (Nat.le_max_right f0 _) hf, hq, rfl, by rw [← e.1, ← e.2]⟩)
  obtain ⟨ms', y', rest', k1, k2, k3, k4⟩ := h3.passes (i := i) (m := m) (by simp [Sys.at]; exact ⟨rfl, rfl⟩) (by
    show m ∈ (Tr.bind (t.tr AStore.look (job c P) f) (fun r => Tr.pure (Got.all r)) (.of s)).1
    unfold Tr.bind
    split
    · next l e => rw [e] at hm; exact hm
    · next l x m' e => rw [e] at hm; simp [hm])
  exact ⟨_, y', k1, k2, k4, rest', _, k3⟩

/-! ### Two threads that build -/

theorem builders_disciplined :
    Disciplined (Ask.answer (answer cfg0)) (Ask.Sup (answer cfg0) (Allowed cfg0)) builders sPts :=
  ((acting cfg0_ok).disciplined sPts_client builders_proper).1

/-- Whatever bounds are asked for, there is a schedule after which threads 5 and 9 have made a point each. -/
theorem builders_schedule (B : AStore → Asks Allocs → Nat) : ∃ ms s i j,
    Serial (Ask.answer (answer cfg0)) builders sPts [(5, .all (.point, i)), (9, .all (.point, j))] s ∧
    Schedule AStore.look (Ask.job AStore.look (job cfg0 Ref.programs)) builders B (.of sPts) ms
      ⟨.of s, fun _ => .idle, [(5, .all (.point, i)), (9, .all (.point, j))]⟩ := by
  obtain ⟨-, o1, -, h1, h2, -⟩ := (acting cfg0_ok).act (k := .point) sPts_client both255_grows trivial
  obtain ⟨-, o2, -, g1, -, -⟩ := (acting cfg0_ok).act (k := .point) h2 both255_grows trivial
  have hs : Serial (Ask.answer (answer cfg0)) builders sPts [(5, .all (.point, o1.res)), (9, .all (.point, o2.res))] o2.st := by
    refine .call (log := [((5 : Nat), (Got.all (Act.point, o1.res) : Gots))])
      (.call .start (.inl ⟨rfl, rfl⟩) (by simp only [Ask.answer, h1, Option.map_some]; rfl)) (.inl ⟨rfl, rfl⟩) ?_
    simp only [Ask.answer, g1, Option.map_some]
  obtain ⟨ms, h⟩ := (faithful cfg0_ok Ref.programs_implement).ask.one_by_one (client_law cfg0_ok sPts_client).1
    builders_disciplined B hs
  exact ⟨ms, _, _, _, hs, h⟩

/-- Links 1 and 2 stay what they are, whenever the power fails. -/
example : ∃ B, ∃ ms y, Schedule AStore.look (Ask.job AStore.look (job cfg0 Ref.programs)) builders B (.of sPts) ms y ∧
    y.log.length = 2 ∧ ((links cfg0).view sPts).Has ⟨1, 1, 1⟩ ∧ ((links cfg0).view sPts).Has ⟨2, 2, 2⟩ ∧
    ∀ t, Torn (ms.map (·.s)) t → OpensWith cfg0 (fun l => ((links cfg0).view sPts).Has l) t := by
  obtain ⟨B, h⟩ := C103_split_builders cfg0_ok Ref.programs_implement
  obtain ⟨ms, s, i, j, -, hs⟩ := builders_schedule B
  exact ⟨B, ms, _, hs, rfl, by show (links cfg0).view sPts 1 = some (1, 1); decide +kernel,
    by show (links cfg0).view sPts 2 = some (2, 2); decide +kernel, (h sPts_client builders_build hs).1⟩

/-- The same threads, any moment. -/
example : ∃ B, ∃ ms y, Schedule AStore.look (Ask.job AStore.look (job cfg0 Ref.programs)) builders B (.of sPts) ms y ∧
    ∃ s, Serial (Ask.answer (answer cfg0)) builders sPts y.log s := by
  obtain ⟨B, h⟩ := C103_split_any_moment cfg0_ok Ref.programs_implement (Act × Except Err Nat)
  obtain ⟨ms, s, i, j, -, hs⟩ := builders_schedule B
  obtain ⟨-, s', h1, -⟩ := h (client_law cfg0_ok sPts_client).1 builders_disciplined hs
  exact ⟨B, ms, _, hs, s', h1⟩

/-- Thread 3 begins while the others have a point each. -/
example (B : AStore → Asks Allocs → Nat) {log s} (hs : Serial (Ask.answer (answer cfg0)) builders sPts log s)
    (h3 : mine log 3 = []) := C103_split_every_moment_occurs cfg0_ok Ref.programs_implement B (client_law cfg0_ok sPts_client).1
  builders_disciplined hs (i := 3) (t := Act.point.txn cfg0.consts.any both255) (.inl ⟨h3, rfl⟩)

end Verif.Split.Props
