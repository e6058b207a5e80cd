import Verif.Replay
import Verif.Props.Decorators
import Verif.Props.SplitDerived

/-!
# C79: the changes reported to a write handler, replayed

A handler that writes down what it is told holds a log from which the contents can be rebuilt, at any moment of a call.
-/

namespace Verif
open Verif Links

variable {S : Type} {D : Links S} (W : Lawful D)

/-- A watched store is as lawful as the store. -/
noncomputable def watchedLawful : Lawful (watched W) where
  Inv p := W.Inv p.1
  CanCreate p := W.CanCreate p.1
  CanUpdate := W.CanUpdate
  CanDelete := W.CanDelete
  canDelete_del := W.canDelete_del
  canDelete_uniq := W.canDelete_uniq
  get p h i := W.get p.1 h i
  null p h := W.null p.1 h
  any_pos p h := W.any_pos p.1 h
  any_absent p h := W.any_absent p.1 h
  create p h hg q := by
    rcases W.create p.1 h hg q with ⟨e, hf⟩ | ⟨i, s', h1, h2, h3, h4, h5⟩
    · refine .inl ⟨e, fun σ hd st => ?_⟩
      simp only [watched, if_pos hg]
      rw [show D.createLinks p.1 q hd st = _ from hf σ hd st]
      rfl
    · refine .inr ⟨i, (s', p.2 ++ [s']), h1, h2, h3, h4, fun σ hd st => ?_⟩
      simp only [watched, if_pos hg]
      rw [show D.createLinks p.1 q hd st = _ from h5 σ hd st]
      rfl
  update_missing p h i hv x a b := fun σ hd st => by
    have hv : D.view p.1 i = none := hv
    simp only [watched]
    rw [if_pos ⟨i, x, a, b, rfl, rfl, fun hx => absurd hv hx⟩,
      show D.updateLinks p.1 [i] [x, a, b] hd st = _ from W.update_missing p.1 h i hv x a b σ hd st]
    rfl
  update p h i q hv ht x a b hu := by
    obtain ⟨s', before, h1, h2, h3, h4, h5⟩ := W.update p.1 h i q hv ht x a b hu
    refine ⟨(s', p.2 ++ [s']), before, h1, h2, h3, h4, fun σ hd st => ?_⟩
    simp only [watched]
    rw [if_pos ⟨i, x, a, b, rfl, rfl, fun _ => ⟨ht, hu⟩⟩, show D.updateLinks p.1 [i] [x, a, b] hd st = _ from h5 σ hd st]
    rfl
  delete_missing p h i hv := fun σ hd st => by
    have hv : D.view p.1 i = none := hv
    simp only [watched]
    rw [if_pos ⟨i, rfl, fun hx => absurd hv hx⟩,
      show D.deleteLinks p.1 [i] hd st = _ from W.delete_missing p.1 h i hv σ hd st]
    rfl
  delete p h i q hv ht hd := by
    obtain ⟨s', h2, h3, h4, h5⟩ := W.delete p.1 h i q hv ht hd
    refine ⟨(s', p.2 ++ [s']), h2, h3, h4, fun σ hd' st => ?_⟩
    simp only [watched]
    rw [if_pos ⟨i, rfl, fun _ => ⟨ht, hd⟩⟩, show D.deleteLinks p.1 [i] hd' st = _ from h5 σ hd' st]
    rfl
  each_all p h := W.each_all p.1 h
  count_all p h := W.count_all p.1 h
  bounded p h := W.bounded p.1 h
  each_index p h := W.each_index p.1 h
  count_index p h := W.count_index p.1 h
  each_source p h := W.each_source p.1 h
  each_target p h := W.each_target p.1 h
  each_pair p h := W.each_pair p.1 h
  count_pair p h := W.count_pair p.1 h
  count_usages p h := W.count_usages p.1 h
  count_source p h := W.count_source p.1 h
  count_target p h := W.count_target p.1 h

/-- Any lawful store in any stack of decorators, any method with a handler, any way to answer. Suppose that all writes the call makes are
supported by the store. Then what the handler wrote down, replayed on the contents before the call, gives the contents afterwards,
whether the call succeeds or fails; and the store was in a legal state with the contents after the first `k` changes when the handler was told the
`k`-th. -/
theorem replay_law {s : S} (hs : W.Inv s) (ds : List Deco) (j : Job) {ρ : Type} (answer : List Change → Ctl ρ)
    {o : Out (S × List S) (List Change) _root_.Unit}
    (ho : (stack ds (watched W)).perform (s, []) (recorder answer) [] j = some o) :
    (stack ds D).perform s (recorder answer) [] j = some ⟨o.res, o.st.1, o.hs⟩ ∧
    W.Inv o.st.1 ∧ D.view o.st.1 = (D.view s).replay o.hs ∧ o.st.2.length = o.hs.length ∧
    ∀ k t, o.st.2[k]? = some t → W.Inv t ∧ D.view t = (D.view s).replay (o.hs.take (k + 1)) := by
  obtain ⟨h1, h2, es, h3, h4⟩ := ((watched_watch W).stack ds).perform (s, []) (recorder answer) [] j hs o ho
  rw [callAll_recorder, List.nil_append] at h3
  rw [h3]
  obtain ⟨g1, l, g2, g3, g4⟩ := h4.noted W
  rw [List.nil_append] at g2
  rw [g2]
  exact ⟨by rw [← h3]; exact h1, h2, g1, g3, g4⟩

/-- Deletions in a store without duplicates are supported. -/
theorem watched_deleteLoop {σ ρ : Type} (h : Hd σ ρ) : ∀ (is : List Nat) (p : S × List S) (f : FuseSt σ), W.Inv p.1 →
    (D.view p.1).Uniq → ∃ o, (watched W).deleteLoop h is p f = some o := by
  intro is
  induction is with
  | nil => intro p f _ _; exact ⟨_, rfl⟩
  | cons i is ih =>
    intro p f hs hu
    have W' := watchedLawful W
    simp only [deleteLoop]
    cases hv : D.view p.1 i with
    | none =>
      have := (watchedLawful W).delete_missing p hs i hv
      rw [deleteWith, deleteByWith_err this]
      exact ⟨_, rfl⟩
    | some q =>
      obtain ⟨p', h1, -, h3, h4⟩ := (watchedLawful W).delete p hs i q hv (hu i) (W.canDelete_uniq _ _ hu)
      rw [deleteWith, deleteByWith_ok h4]
      refine ih p' _ h1 ?_
      have h3 : D.view p'.1 = (D.view p.1).del i := h3
      rw [h3]
      exact fun k => (hu k).del i

/-- In a store without duplicates everything that only deletes is supported: the watched call returns when the call does. -/
theorem deletions_supported {s : S} (hs : W.Inv s) (hu : (D.view s).Uniq) {σ ρ : Type} (h : Hd σ ρ) (st : σ) (j : Job)
    (hj : (∃ i, j = .delete i) ∨ (∃ q, j = .deleteQuery q) ∨ ∃ i, j = .deleteUsages i)
    (hr : D.perform s h st j ≠ none) : (watched W).perform (s, []) h st j ≠ none := by
  have hw := watched_watch W
  rcases hj with ⟨i, rfl⟩ | ⟨q, rfl⟩ | ⟨i, rfl⟩
  · simp only [perform]
    cases hv : D.view s i with
    | none =>
      have := (watchedLawful W).delete_missing (s, []) hs i hv
      rw [deleteWith, deleteByWith_err this]
      simp
    | some q =>
      obtain ⟨p', -, -, -, h4⟩ := (watchedLawful W).delete (s, []) hs i q hv (hu i) (W.canDelete_uniq _ _ hu)
      rw [deleteWith, deleteByWith_ok h4]
      simp
  · simp only [perform, deleteQueryWith] at hr ⊢
    rw [hw.countBy (s, []) q, hw.collect (s, []) q]
    cases h1 : D.countBy s q with
    | none => rw [h1] at hr; exact absurd rfl hr
    | some n =>
      cases h2 : D.collect s q with
      | none => rw [h1, h2] at hr; exact absurd rfl hr
      | some ls =>
        obtain ⟨o, ho⟩ := watched_deleteLoop W h (ls.map (·.index)).reverse (s, []) { inner := st } hs hu
        simp [ho]
  · simp only [perform, deleteUsagesWith] at hr ⊢
    rw [hw.consts (s, []), hw.countBy (s, []), hw.countBy (s, []), hw.usageList (s, []) i]
    cases h1 : D.countBy s [(D.consts s).any, i, (D.consts s).any] with
    | none => rw [h1] at hr; exact absurd rfl hr
    | some n =>
      cases h2 : D.countBy s [(D.consts s).any, (D.consts s).any, i] with
      | none => rw [h1, h2] at hr; exact absurd rfl hr
      | some n =>
        cases h3 : D.usageList s i with
        | none => rw [h1, h2, h3] at hr; exact absurd rfl hr
        | some ls =>
          obtain ⟨o, ho⟩ := watched_deleteLoop W h ls.reverse (s, []) { inner := st } hs hu
          simp [ho]

end Verif

namespace Verif.Unit.Props
open Verif Links

variable {c : Cfg}

/-- **C79**, united store, alone or in any stack of decorators: the changes told to the handler of any call, replayed on the contents before, give the
contents afterwards, also if the call fails; and when the handler is told the `k`-th change, the store is in a state that calls can reach, with the
contents after the first `k` changes. (All writes made by the call are on links without twins: the watched call returns.) -/
theorem C79_changes_replay (hc : CfgOK c) {s : Store} (h : Reach c s) (ds : List Deco) (j : Job) {ρ : Type}
    (answer : List Change → Ctl ρ) {o : Out (Store × List Store) (List Change) _root_.Unit}
    (ho : (stack ds (watched (reachLawful hc))).perform (s, []) (recorder answer) [] j = some o) :
    (stack ds (links c)).perform s (recorder answer) [] j = some ⟨o.res, o.st.1, o.hs⟩ ∧
    (links c).view o.st.1 = ((links c).view s).replay o.hs ∧ o.st.2.length = o.hs.length ∧
    ∀ k t, o.st.2[k]? = some t → Reach c t ∧ (links c).view t = ((links c).view s).replay (o.hs.take (k + 1)) := by
  obtain ⟨h1, -, h3, h4, h5⟩ := replay_law (reachLawful hc) h ds j answer ho
  exact ⟨h1, h3, h4, h5⟩

/-- **C79**, united store: if no two links have the same doublet, everything that only deletes makes supported writes only. -/
theorem C79_deletions_are_supported (hc : CfgOK c) {s : Store} (h : Reach c s) (hu : ((links c).view s).Uniq) {σ ρ : Type}
    (hd : Hd σ ρ) (st : σ) (j : Job) (hj : (∃ i, j = .delete i) ∨ (∃ q, j = .deleteQuery q) ∨ ∃ i, j = .deleteUsages i)
    (hr : (links c).perform s hd st j ≠ none) : (watched (reachLawful hc)).perform (s, []) hd st j ≠ none :=
  deletions_supported (reachLawful hc) h hu hd st j hj hr

/-- **C79**, united store: the case of deletions in a store without duplicates, one link, a query, or all users of a link. -/
theorem C79_deletions_replay (hc : CfgOK c) {s : Store} (h : Reach c s) (hu : ((links c).view s).Uniq) (j : Job)
    (hj : (∃ i, j = .delete i) ∨ (∃ q, j = .deleteQuery q) ∨ ∃ i, j = .deleteUsages i) {ρ : Type}
    (answer : List Change → Ctl ρ) {o : Out Store (List Change) _root_.Unit}
    (ho : (links c).perform s (recorder answer) [] j = some o) :
    Reach c o.st ∧ (links c).view o.st = ((links c).view s).replay o.hs := by
  have hw := C79_deletions_are_supported hc h hu (recorder answer) [] j hj (by rw [ho]; simp)
  cases hx : (watched (reachLawful hc)).perform (s, []) (recorder answer) [] j with
  | none => exact absurd hx hw
  | some x =>
    obtain ⟨h1, h2, h3, -⟩ := replay_law (reachLawful hc) h [] j answer hx
    have h1 : (links c).perform s (recorder answer) [] j = _ := h1
    rw [ho] at h1
    cases h1
    exact ⟨h2, h3⟩

/-- Deleting the users of link 2 of `sNet`, link by link: the hypotheses are met, and two changes are reported. -/
example : ∃ o, (stack [] (watched (reachLawful cfg0_ok))).perform (sNet, []) (recorder fun _ => (.cont : Ctl _root_.Unit)) []
    (.deleteUsages 2) = some o ∧ o.hs.length = 2 := by
  have hr : ((links cfg0).perform sNet (recorder fun _ => (.cont : Ctl _root_.Unit)) [] (.deleteUsages 2)).map (·.hs.length) =
      some 2 := by decide +kernel
  have hd := C79_deletions_are_supported cfg0_ok sNet_reach sNet_uniq (recorder fun _ => (.cont : Ctl _root_.Unit)) []
    (.deleteUsages 2) (.inr (.inr ⟨2, rfl⟩)) (fun hx => by rw [hx] at hr; cases hr)
  cases ho : (watched (reachLawful cfg0_ok)).perform (sNet, []) (recorder fun _ => (.cont : Ctl _root_.Unit)) []
      (.deleteUsages 2) with
  | none => exact absurd ho hd
  | some o =>
    refine ⟨o, ho, ?_⟩
    have := (C79_changes_replay cfg0_ok sNet_reach [] _ _ ho).1
    have this : (links cfg0).perform sNet (recorder fun _ => (.cont : Ctl _root_.Unit)) [] (.deleteUsages 2) = _ := this
    rw [this] at hr
    simpa using hr

/-- Deleting link 3 of `sNet` through the decorator that deletes users first: the watched call returns. -/
example : ∃ o, (stack [.cascadeUsagesResolver] (watched (reachLawful cfg0_ok))).perform (sNet, [])
    (recorder fun _ => (.cont : Ctl _root_.Unit)) [] (.delete 3) = some o := by
  obtain ⟨s', L, -, -, -, -, -, -, g⟩ := Verif.Deco.Props.C43_cascade_usages_resolver_partial (watchedLawful (reachLawful cfg0_ok))
    (s := (sNet, [])) sNet_reach sNet_uniq (i := 3) (p := (2, 2)) (by decide +kernel) sNet_no_double
  obtain ⟨r, g⟩ := g (wrapW (recorder fun _ => (.cont : Ctl _root_.Unit))) ([], .cont)
  simp only [stack, List.foldr, Deco.wrap, Links.perform, deleteWith, deleteByWith, g, Option.map_some]
  exact ⟨_, rfl⟩

end Verif.Unit.Props

namespace Verif.Split.Props
open Verif Links

variable {c : Cfg}

/-- **C79**, split store, alone or in any stack of decorators: the changes told to the handler of any call, replayed on the contents before, give the
contents afterwards, also if the call fails; and when the handler is told the `k`-th change, the store is in a state that calls can reach, with the
contents after the first `k` changes. (All writes made by the call are supported: the watched call returns.) -/
theorem C79_split_changes_replay (hc : CfgOK c) {s : Store} (h : Reach c s) (ds : List Deco) (j : Job) {ρ : Type}
    (answer : List Change → Ctl ρ) {o : Out (Store × List Store) (List Change) _root_.Unit}
    (ho : (stack ds (watched (reachLawful hc))).perform (s, []) (recorder answer) [] j = some o) :
    (stack ds (links c)).perform s (recorder answer) [] j = some ⟨o.res, o.st.1, o.hs⟩ ∧
    (links c).view o.st.1 = ((links c).view s).replay o.hs ∧ o.st.2.length = o.hs.length ∧
    ∀ k t, o.st.2[k]? = some t → Reach c t ∧ (links c).view t = ((links c).view s).replay (o.hs.take (k + 1)) := by
  obtain ⟨h1, -, h3, h4, h5⟩ := replay_law (reachLawful hc) h ds j answer ho
  exact ⟨h1, h3, h4, h5⟩

/-- **C79**, split store: if no two links have the same doublet, everything that only deletes makes supported writes only. -/
theorem C79_split_deletions_are_supported (hc : CfgOK c) {s : Store} (h : Reach c s) (hu : ((links c).view s).Uniq) {σ ρ : Type}
    (hd : Hd σ ρ) (st : σ) (j : Job) (hj : (∃ i, j = .delete i) ∨ (∃ q, j = .deleteQuery q) ∨ ∃ i, j = .deleteUsages i)
    (hr : (links c).perform s hd st j ≠ none) : (watched (reachLawful hc)).perform (s, []) hd st j ≠ none :=
  deletions_supported (reachLawful hc) h hu hd st j hj hr

/-- **C79**, split store: the case of deletions in a store without duplicates, one link, a query, or all users of a link. -/
theorem C79_split_deletions_replay (hc : CfgOK c) {s : Store} (h : Reach c s) (hu : ((links c).view s).Uniq) (j : Job)
    (hj : (∃ i, j = .delete i) ∨ (∃ q, j = .deleteQuery q) ∨ ∃ i, j = .deleteUsages i) {ρ : Type}
    (answer : List Change → Ctl ρ) {o : Out Store (List Change) _root_.Unit}
    (ho : (links c).perform s (recorder answer) [] j = some o) :
    Reach c o.st ∧ (links c).view o.st = ((links c).view s).replay o.hs := by
  have hw := C79_split_deletions_are_supported hc h hu (recorder answer) [] j hj (by rw [ho]; simp)
  cases hx : (watched (reachLawful hc)).perform (s, []) (recorder answer) [] j with
  | none => exact absurd hx hw
  | some x =>
    obtain ⟨h1, h2, h3, -⟩ := replay_law (reachLawful hc) h [] j answer hx
    have h1 : (links c).perform s (recorder answer) [] j = _ := h1
    rw [ho] at h1
    cases h1
    exact ⟨h2, h3⟩

/-- Deleting the users of link 2 of `sNetU`, link by link: the hypotheses are met, and two changes are reported. -/
example : ∃ o, (stack [] (watched (reachLawful cfg0_ok))).perform (sNetU, []) (recorder fun _ => (.cont : Ctl _root_.Unit)) []
    (.deleteUsages 2) = some o ∧ o.hs.length = 2 := by
  have hr : ((links cfg0).perform sNetU (recorder fun _ => (.cont : Ctl _root_.Unit)) [] (.deleteUsages 2)).map (·.hs.length) =
      some 2 := by decide +kernel
  have hd := C79_split_deletions_are_supported cfg0_ok sNetU_reach sNetU_uniq (recorder fun _ => (.cont : Ctl _root_.Unit)) []
    (.deleteUsages 2) (.inr (.inr ⟨2, rfl⟩)) (fun hx => by rw [hx] at hr; cases hr)
  cases ho : (watched (reachLawful cfg0_ok)).perform (sNetU, []) (recorder fun _ => (.cont : Ctl _root_.Unit)) []
      (.deleteUsages 2) with
  | none => exact absurd ho hd
  | some o =>
    refine ⟨o, ho, ?_⟩
    have := (C79_split_changes_replay cfg0_ok sNetU_reach [] _ _ ho).1
    have this : (links cfg0).perform sNetU (recorder fun _ => (.cont : Ctl _root_.Unit)) [] (.deleteUsages 2) = _ := this
    rw [this] at hr
    simpa using hr

/-- Deleting link 3 of `sNetU` through the decorator that deletes users first: the watched call returns. -/
example : ∃ o, (stack [.cascadeUsagesResolver] (watched (reachLawful cfg0_ok))).perform (sNetU, [])
    (recorder fun _ => (.cont : Ctl _root_.Unit)) [] (.delete 3) = some o := by
  obtain ⟨s', L, -, -, -, -, -, -, g⟩ := Verif.Deco.Props.C43_cascade_usages_resolver_partial (watchedLawful (reachLawful cfg0_ok))
    (s := (sNetU, [])) sNetU_reach sNetU_uniq (i := 3) (p := (2, 2)) (by decide +kernel) sNetU_no_double
  obtain ⟨r, g⟩ := g (wrapW (recorder fun _ => (.cont : Ctl _root_.Unit))) ([], .cont)
  simp only [stack, List.foldr, Deco.wrap, Links.perform, deleteWith, deleteByWith, g, Option.map_some]
  exact ⟨_, rfl⟩

end Verif.Split.Props
