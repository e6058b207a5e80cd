import Verif.Props.Replay
import Verif.Unit.Unwind
import Verif.Split.Unwind

/-!
# C104: handlers that panic

A user's handler panics in the middle of a write, the panic is caught further up, and the store is used again.
-/

namespace Verif
open Verif Links

/-- A handler that writes down the changes it is told and answers or panics, depending on all of them. -/
def alarm {ρ : Type} (panics : List Change → Bool) (answer : List Change → Ctl ρ) : PHd (List Change) ρ := fun es b a =>
  if panics (es ++ [(b, a)]) then none else some (answer (es ++ [(b, a)]), es ++ [(b, a)])

theorem alarm_answers {ρ : Type} (panics : List Change → Bool) (answer : List Change → Ctl ρ) :
    AnswersAs (alarm panics answer) (recorder answer) := by
  intro es b a r hr
  simp only [alarm] at hr
  split at hr
  · cases hr
  · cases hr; rfl

theorem alarm_never {ρ : Type} {panics : List Change → Bool} {answer : List Change → Ctl ρ} : ∀ (es fs : List Change),
    (∀ k, k < es.length → panics (fs ++ es.take (k + 1)) = false) → panicsAt (alarm panics answer) es fs = none := by
  intro es
  induction es with
  | nil => intros; rfl
  | cons e es ih =>
    intro fs h
    have h0 := h 0 (by simp)
    simp only [Nat.zero_add, List.take_succ_cons, List.take_zero] at h0
    simp only [panicsAt, alarm, h0]
    rw [if_neg (by simp)]
    simp only
    rw [show panicsAt (alarm panics answer) es (fs ++ [(e.1, e.2)]) = none from ih _ fun k hk => by
      have := h (k + 1) (by simp; omega)
      simpa using this]
    rfl

theorem alarm_at {ρ : Type} {panics : List Change → Bool} {answer : List Change → Ctl ρ} : ∀ (es fs : List Change) (k : Nat),
    k < es.length → panics (fs ++ es.take (k + 1)) = true → (∀ m, m < k → panics (fs ++ es.take (m + 1)) = false) →
    panicsAt (alarm panics answer) es fs = some k := by
  intro es
  induction es with
  | nil => intro fs k hk; simp at hk
  | cons e es ih =>
    intro fs k hk h1 h2
    cases k with
    | zero =>
      simp only [Nat.zero_add, List.take_succ_cons, List.take_zero] at h1
      simp only [panicsAt, alarm, h1]
      rfl
    | succ k =>
      have h0 := h2 0 (by omega)
      simp only [Nat.zero_add, List.take_succ_cons, List.take_zero] at h0
      simp only [panicsAt, alarm, h0]
      rw [if_neg (by simp)]
      simp only
      rw [show panicsAt (alarm panics answer) es (fs ++ [(e.1, e.2)]) = some k from ih _ k (by simpa using hk) (by simpa using h1)
        fun m hm => by
          have := h2 (m + 1) (by omega)
          simpa using this]
      rfl

/-- Any lawful store in any stack of decorators, any method with a handler. Suppose that all writes of the call, made with a handler that
does not panic, are supported. A handler that answers the same and panics at none of the changes told gets the same outcome; one that
panics at change `k` leaves a legal store with the contents after the changes up to and including that one. -/
theorem unwind_law {S : Type} {D : Links S} {P : LinksP S} (W : Lawful D) (hP : Courteous D P) {s : S} (hs : W.Inv s) (ds : List Deco)
    (j : Job) {ρ : Type} (answer : List Change → Ctl ρ) (panics : List Change → Bool) {o : Out (S × List S) (List Change) _root_.Unit}
    (ho : (stack ds (watched W)).perform (s, []) (recorder answer) [] j = some o) :
    ((∀ k, k < o.hs.length → panics (o.hs.take (k + 1)) = false) →
      (P.stack ds).perform s (alarm panics answer) [] j = some (.back ⟨o.res, o.st.1, o.hs⟩)) ∧
    ∀ k, k < o.hs.length → panics (o.hs.take (k + 1)) = true → (∀ m, m < k → panics (o.hs.take (m + 1)) = false) →
      ∃ t, (P.stack ds).perform s (alarm panics answer) [] j = some (.unwound t) ∧ W.Inv t ∧
        D.view t = (D.view s).replay (o.hs.take (k + 1)) := by
  obtain ⟨-, -, -, -, h5⟩ := replay_law W hs ds j answer ho
  obtain ⟨es, ts, h1, h2, h3, h4⟩ := ((watched_alarmed W hP).stack ds).perform (s, []) (alarm_answers panics answer) [] j o ho
  rw [callAll_recorder, List.nil_append] at h1
  rw [List.nil_append] at h2
  subst h1
  constructor
  · intro hn
    rw [alarm_never o.hs [] (by simpa using hn)] at h4
    exact h4
  · intro k hk h6 h7
    rw [alarm_at o.hs [] k hk (by simpa using h6) (by simpa using h7)] at h4
    obtain ⟨t, g1, g2⟩ := h4
    rw [← h2] at g1
    exact ⟨t, g2, h5 k t g1⟩

end Verif

namespace Verif.Unit.Props
open Verif Links

variable {c : Cfg}

/-- **C104**, united store, single writes, in every state whatsoever: creating, updating and deleting a link calls the handler at most
once, after everything has been written, so that a panic of the handler leaves the very store that the call leaves when the handler
returns. -/
theorem C104_a_panic_leaves_the_finished_write (c : Cfg) (s : Store) :
    (∀ q, ShowsLast (fun _ h st => (links c).createLinks s q h st) (fun _ h st => (linksP c).createLinks s q h st)) ∧
    (∀ q ch, ShowsLast (fun _ h st => (links c).updateLinks s q ch h st) (fun _ h st => (linksP c).updateLinks s q ch h st)) ∧
    ∀ q, ShowsLast (fun _ h st => (links c).deleteLinks s q h st) (fun _ h st => (linksP c).deleteLinks s q h st) :=
  ⟨(linksP_courteous c).create s, (linksP_courteous c).update s, (linksP_courteous c).delete s⟩

/-- **C104**, united store, alone or in any stack of decorators, any method that takes a write handler. Let `o` be the outcome with a handler
that does not panic (all single writes being supported, as in C79). A handler that gives the same answers and panics at none of the changes
gets the same outcome. One that panics when it is told the change at `k`, and not before, leaves a store that calls can reach, whose contents
are those after the changes up to and including that one. -/
theorem C104_a_panic_leaves_the_changes_told (hc : CfgOK c) {s : Store} (h : Reach c s) (ds : List Deco) (j : Job) {ρ : Type}
    (answer : List Change → Ctl ρ) (panics : List Change → Bool) {o : Out (Store × List Store) (List Change) _root_.Unit}
    (ho : (stack ds (watched (reachLawful hc))).perform (s, []) (recorder answer) [] j = some o) :
    ((∀ k, k < o.hs.length → panics (o.hs.take (k + 1)) = false) →
      ((linksP c).stack ds).perform s (alarm panics answer) [] j = some (.back ⟨o.res, o.st.1, o.hs⟩)) ∧
    ∀ k, k < o.hs.length → panics (o.hs.take (k + 1)) = true → (∀ m, m < k → panics (o.hs.take (m + 1)) = false) →
      ∃ t, ((linksP c).stack ds).perform s (alarm panics answer) [] j = some (.unwound t) ∧ Reach c t ∧
        (links c).view t = ((links c).view s).replay (o.hs.take (k + 1)) :=
  unwind_law (reachLawful hc) (linksP_courteous c) h ds j answer panics ho

/-- **C104**, united store: deletions in a store without duplicates, one link, a query, or all users of a link. If the handler panics at the
change at `k` then the links reported up to then are gone and nothing else has changed. -/
theorem C104_a_panic_stops_deletions (hc : CfgOK c) {s : Store} (h : Reach c s) (hu : ((links c).view s).Uniq) (j : Job)
    (hj : (∃ i, j = .delete i) ∨ (∃ q, j = .deleteQuery q) ∨ ∃ i, j = .deleteUsages i) {ρ : Type}
    (answer : List Change → Ctl ρ) (panics : List Change → Bool) {o : Out Store (List Change) _root_.Unit}
    (ho : (links c).perform s (recorder answer) [] j = some o) {k : Nat} (hk : k < o.hs.length)
    (h1 : panics (o.hs.take (k + 1)) = true) (h2 : ∀ m, m < k → panics (o.hs.take (m + 1)) = false) :
    ∃ t, (linksP c).perform s (alarm panics answer) [] j = some (.unwound t) ∧ Reach c t ∧
      (links c).view t = ((links c).view s).replay (o.hs.take (k + 1)) := by
  have hw := C79_deletions_are_supported hc h hu (recorder answer) [] j hj (by rw [ho]; simp)
  cases hx : (watched (reachLawful hc)).perform (s, []) (recorder answer) [] j with
  | none => exact absurd hx hw
  | some x =>
    have g : (links c).perform s (recorder answer) [] j = _ := (replay_law (reachLawful hc) h [] j answer hx).1
    rw [ho] at g
    cases g
    exact (unwind_law (reachLawful hc) (linksP_courteous c) h [] j answer panics hx).2 k hk h1 h2

/-- The users of link 2 of `sNet` are deleted with a handler that panics at the first of two changes: link 6 is gone, the other user is still
there. -/
example : ((linksP cfg0).perform sNet (alarm (fun _ => true) fun _ => (.cont : Ctl _root_.Unit)) [] (.deleteUsages 2)).map (fun
    | .unwound t => (List.range 8).map ((links cfg0).view t)
    | .back _ => []) = some ((List.range 8).map (((links cfg0).view sNet).del 6)) ∧
    ((links cfg0).perform sNet (recorder fun _ => (.cont : Ctl _root_.Unit)) [] (.deleteUsages 2)).map (·.hs.map (·.1.index)) =
      some [6, 3] := by decide +kernel

/-- `create_link_with` whose handler panics when it is told of the creation: a link with null ends is left behind. -/
example : ((linksP cfg0).perform sNet (alarm (fun es => es.length == 1) fun _ => (.cont : Ctl _root_.Unit)) [] (.createLink 1 1)).map (fun
    | .unwound t => (List.range 12).map ((links cfg0).view t)
    | .back _ => []) =
    ((links cfg0).create sNet).map fun o => (List.range 12).map ((links cfg0).view o.st) := by decide +kernel

end Verif.Unit.Props

namespace Verif.Split.Props
open Verif Links

variable {c : Cfg}

/-- **C104**, split store, single writes, in every state whatsoever: creating, updating and deleting a link calls the handler at most
once, after everything has been written, so that a panic of the handler leaves the very store that the call leaves when the handler
returns. -/
theorem C104_split_a_panic_leaves_the_finished_write (c : Cfg) (s : Store) :
    (∀ q, ShowsLast (fun _ h st => (links c).createLinks s q h st) (fun _ h st => (linksP c).createLinks s q h st)) ∧
    (∀ q ch, ShowsLast (fun _ h st => (links c).updateLinks s q ch h st) (fun _ h st => (linksP c).updateLinks s q ch h st)) ∧
    ∀ q, ShowsLast (fun _ h st => (links c).deleteLinks s q h st) (fun _ h st => (linksP c).deleteLinks s q h st) :=
  ⟨(linksP_courteous c).create s, (linksP_courteous c).update s, (linksP_courteous c).delete s⟩

/-- **C104**, split store, alone or in any stack of decorators, any method that takes a write handler. Let `o` be the outcome with a handler
that does not panic (all single writes being supported, as in C79). A handler that gives the same answers and panics at none of the changes
gets the same outcome. One that panics when it is told the change at `k`, and not before, leaves a store that calls can reach, whose contents
are those after the changes up to and including that one. -/
theorem C104_split_a_panic_leaves_the_changes_told (hc : CfgOK c) {s : Store} (h : Reach c s) (ds : List Deco) (j : Job) {ρ : Type}
    (answer : List Change → Ctl ρ) (panics : List Change → Bool) {o : Out (Store × List Store) (List Change) _root_.Unit}
    (ho : (stack ds (watched (reachLawful hc))).perform (s, []) (recorder answer) [] j = some o) :
    ((∀ k, k < o.hs.length → panics (o.hs.take (k + 1)) = false) →
      ((linksP c).stack ds).perform s (alarm panics answer) [] j = some (.back ⟨o.res, o.st.1, o.hs⟩)) ∧
    ∀ k, k < o.hs.length → panics (o.hs.take (k + 1)) = true → (∀ m, m < k → panics (o.hs.take (m + 1)) = false) →
      ∃ t, ((linksP c).stack ds).perform s (alarm panics answer) [] j = some (.unwound t) ∧ Reach c t ∧
        (links c).view t = ((links c).view s).replay (o.hs.take (k + 1)) :=
  unwind_law (reachLawful hc) (linksP_courteous c) h ds j answer panics ho

/-- **C104**, split store: deletions in a store without duplicates, one link, a query, or all users of a link. If the handler panics at the
change at `k` then the links reported up to then are gone and nothing else has changed. -/
theorem C104_split_a_panic_stops_deletions (hc : CfgOK c) {s : Store} (h : Reach c s) (hu : ((links c).view s).Uniq) (j : Job)
    (hj : (∃ i, j = .delete i) ∨ (∃ q, j = .deleteQuery q) ∨ ∃ i, j = .deleteUsages i) {ρ : Type}
    (answer : List Change → Ctl ρ) (panics : List Change → Bool) {o : Out Store (List Change) _root_.Unit}
    (ho : (links c).perform s (recorder answer) [] j = some o) {k : Nat} (hk : k < o.hs.length)
    (h1 : panics (o.hs.take (k + 1)) = true) (h2 : ∀ m, m < k → panics (o.hs.take (m + 1)) = false) :
    ∃ t, (linksP c).perform s (alarm panics answer) [] j = some (.unwound t) ∧ Reach c t ∧
      (links c).view t = ((links c).view s).replay (o.hs.take (k + 1)) := by
  have hw := C79_split_deletions_are_supported hc h hu (recorder answer) [] j hj (by rw [ho]; simp)
  cases hx : (watched (reachLawful hc)).perform (s, []) (recorder answer) [] j with
  | none => exact absurd hx hw
  | some x =>
    have g : (links c).perform s (recorder answer) [] j = _ := (replay_law (reachLawful hc) h [] j answer hx).1
    rw [ho] at g
    cases g
    exact (unwind_law (reachLawful hc) (linksP_courteous c) h [] j answer panics hx).2 k hk h1 h2

/-- The users of link 2 of `sNetU` are deleted with a handler that panics at the first of two changes: link 6 is gone, the other user is still
there. -/
example : ((linksP cfg0).perform sNetU (alarm (fun _ => true) fun _ => (.cont : Ctl _root_.Unit)) [] (.deleteUsages 2)).map (fun
    | .unwound t => (List.range 8).map ((links cfg0).view t)
    | .back _ => []) = some ((List.range 8).map (((links cfg0).view sNetU).del 6)) ∧
    ((links cfg0).perform sNetU (recorder fun _ => (.cont : Ctl _root_.Unit)) [] (.deleteUsages 2)).map (·.hs.map (·.1.index)) =
      some [6, 3] := by decide +kernel

/-- `create_link_with` whose handler panics when it is told of the creation: a link with null ends is left behind. -/
example : ((linksP cfg0).perform sNetU (alarm (fun es => es.length == 1) fun _ => (.cont : Ctl _root_.Unit)) [] (.createLink 1 1)).map (fun
    | .unwound t => (List.range 12).map ((links cfg0).view t)
    | .back _ => []) =
    ((links cfg0).create sNetU).map fun o => (List.range 12).map ((links cfg0).view o.st) := by decide +kernel

end Verif.Split.Props
