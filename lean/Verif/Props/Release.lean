import Verif.Unit.Release
import Verif.Split.Release
import Verif.Props.UnitQueries
import Verif.Props.SplitWrites
import Verif.Props.SplitDeleteNull
import Verif.Props.DeleteExact

/-!
# C114: builds with and without overflow checks
-/

namespace Verif.Unit.Props
open Verif Verif.Unit

variable {c : Cfg}

/-- A creation on a store with the invariant: both builds do the same, also if they panic. -/
theorem createR_eq (hc : CfgOK c) {s : Store} (h : Good c s) (q : List Nat) {σ : Type} (hd : WH σ) (st : σ) :
    createLinksR c s q hd st = createLinks c s q hd st := by
  obtain ⟨free, ts, tt, h⟩ := h
  have key : createLinks c s q hd st ≠ none → createLinksR c s q hd st = createLinks c s q hd st :=
    (createLinks_agrees s q hd st).eq
  rcases createLinks_ok hc h q hd st with ⟨x, rest, s', hf, h1, -⟩ | ⟨hf, h1, h2⟩ | ⟨hf, h1, h2, h3, h4⟩ |
    ⟨hf, h1, h2, n, h3, h4, h5⟩ | ⟨hf, h1, s', h2, -⟩
  · exact key (by simp [h1])
  · exact key (by simp [h2])
  · exact key (by simp [h4])
  · rw [h5]
    have hff : s.hdr.firstFree = 0 := by
      have := h.base.list.first_eq; simpa [Store.listMem, hf] using this
    have hr := h.base.res_pos
    have : wsub c.maxT s.hdr.reserved 1 ≤ s.hdr.allocated := by unfold wsub; rw [if_pos hr]; omega
    have hnn : ¬ c.consts.internalEnd ≤ s.hdr.allocated := by omega
    have hm : ¬ n ≤ c.maxT := by omega
    simp [createLinksR, hff, hc.null_eq, hnn, this, h3, hm]
  · exact key (by simp [h2])

/-- A deletion: both builds do the same in every state, also if they panic. -/
theorem deleteR_eq (hc : CfgOK c) (s : Store) (q : List Nat) {σ : Type} (hd : WH σ) (st : σ) :
    deleteLinksR c s q hd st = deleteLinks c s q hd st := by
  unfold deleteLinksR deleteLinks
  cases q[0]? with
  | none => rfl
  | some i =>
    simp only [Option.bind_some]
    cases e : getLink c s i with
    | none => rfl
    | some l =>
      simp only [Option.bind_some]
      cases l with
      | none => rfl
      | some l =>
        have hi : 1 ≤ i := by
          unfold getLink exists? at e
          rw [hc.start_eq] at e
          by_cases hp : 1 ≤ i ∧ i ≤ s.hdr.allocated
          · exact hp.1
          · rw [if_neg hp] at e; cases e
        simp only
        congr 1
        funext o
        obtain ⟨res, s1, hs⟩ := o
        cases res with
        | error _ => rfl
        | ok _ =>
          simp only
          congr 1
          split
          · rfl
          · split
            · next he =>
              have : csub s1.hdr.allocated 1 = some (wsub c.maxT s1.hdr.allocated 1) := by
                unfold csub wsub; rw [if_pos (by omega), if_pos (by omega)]
              rw [this]; rfl
            · rfl

theorem initR_eq (hc : CfgOK c) (maxU : Nat) (s : Store) : initR c maxU s = init c s := by
  unfold initR init
  cases e1 : c.alloc s.len c.page with
  | none => rfl
  | some n1 =>
    simp only
    congr 1
    cases e2 : c.alloc n1 (max c.step s.hdr.allocated) with
    | none => rfl
    | some n2 =>
      have := hc.alloc_ge _ _ _ e2
      have h2 := hc.step_pos
      have h1 : 1 ≤ n2 := by omega
      simp only [csub, wsub, if_pos h1, Option.bind_some]

/-- The states of a united store in a build without overflow checks (`maxU` is the largest `usize`), after the histories that
`Reach` describes for a build with the checks. -/
inductive ReachR (c : Cfg) (maxU : Nat) : Store → Prop
  | fresh (a) {s : Store} : GoodAlloc a → initR (c.withAlloc a) maxU {} = some (.ok s) → ReachR c maxU s
  | create (a) {s : Store} {q : List Nat} {σ : Type} {h : WH σ} {st : σ} {o : Out Store σ Flow} :
      ReachR c maxU s → GoodAlloc a → (linksR (c.withAlloc a)).createLinks s q h st = some o → ReachR c maxU o.st
  | update {s : Store} {q ch : List Nat} {σ : Type} {h : WH σ} {st : σ} {o : Out Store σ Flow} :
      ReachR c maxU s → (∀ i, q.head? = some i → ((linksR c).view s).NoTwin i) →
      (linksR c).updateLinks s q ch h st = some o → ReachR c maxU o.st
  | delete {s : Store} {q : List Nat} {σ : Type} {h : WH σ} {st : σ} {o : Out Store σ Flow} :
      ReachR c maxU s → (∀ i, q.head? = some i → ((linksR c).view s).NoTwin i) →
      (linksR c).deleteLinks s q h st = some o → ReachR c maxU o.st
  | reopen (a) (n : Nat) {s s' : Store} : ReachR c maxU s → GoodAlloc a →
      initR (c.withAlloc a) maxU { s with len := n } = some (.ok s') → s.hdr.allocated < s'.len → ReachR c maxU s'

/-- **C114**, states. The two builds get to the same states. -/
theorem C114_same_states (hc : CfgOK c) (maxU : Nat) (s : Store) : ReachR c maxU s ↔ Reach c s := by
  constructor
  · intro h
    induction h with
    | fresh a ha h => exact .fresh a ha (by rwa [initR_eq (hc.withAlloc ha)] at h)
    | @create a s q σ h st o _ ha ho ih =>
      obtain ⟨free, ts, tt, hi⟩ := reach_good hc ih
      have e := createR_eq (hc.withAlloc ha) ⟨free, ts, tt, hi.withAlloc a⟩ q h st
      exact .create (q := q) a ih ha (e.symm.trans ho)
    | update _ hn ho ih => exact .update ih hn ho
    | @delete s q σ h st o _ hn ho ih =>
      have e := deleteR_eq hc s q h st
      exact .delete (q := q) ih hn (e.symm.trans ho)
    | reopen a n _ ha h hl ih => exact .reopen a n ih ha (by rwa [initR_eq (hc.withAlloc ha)] at h) hl
  · intro h
    induction h with
    | fresh a ha h => exact .fresh a ha (by rwa [initR_eq (hc.withAlloc ha)])
    | @create a s q σ h st o _ ha ho ih => exact .create a ih ha ((links_agree.create s q h st).same _ ho)
    | update _ hn ho ih => exact .update ih hn ho
    | @delete s q σ h st o _ hn ho ih => exact .delete ih hn ((links_agree.delete s q h st).same _ ho)
    | reopen a n _ ha h hl ih => exact .reopen a n ih ha (by rwa [initR_eq (hc.withAlloc ha)]) hl

/-- **C114**, writes and lookups. On a reachable store both builds do exactly the same in every create, update and delete call, every
traversal and every lookup: same result, same new store, same calls of the handler, and the same panics. -/
theorem C114_same_calls (hc : CfgOK c) {s : Store} (h : Reach c s) {σ : Type} (q ch : List Nat) (hw : WH σ) (hr : RH σ) (st : σ) (i : Nat) :
    (linksR c).createLinks s q hw st = (links c).createLinks s q hw st ∧
    (linksR c).updateLinks s q ch hw st = (links c).updateLinks s q ch hw st ∧
    (linksR c).deleteLinks s q hw st = (links c).deleteLinks s q hw st ∧
    (linksR c).eachLinks s q hr st = (links c).eachLinks s q hr st ∧
    (linksR c).getLink s i = (links c).getLink s i :=
  ⟨createR_eq hc (reach_good hc h) q hw st, rfl, deleteR_eq hc s q hw st, rfl, rfl⟩

/-- **C114**, counts. Without overflow checks no count by a query of at most three parts panics: it is the number of links the traversal with
the same query visits, modulo the size of the index type. -/
theorem C114_counts (hc : CfgOK c) {s : Store} (h : Reach c s) (q : List Nat) (hq : q.length ≤ 3) :
    ∃ L, (linksR c).Visits s q L ∧ (linksR c).countBy s q = some (L.length % (c.maxT + 1)) ∧
      (q.length ≠ 2 → L.length ≤ c.maxT) := by
  have hg := reach_good hc h
  have hend := hc.end_le
  have hie := hc.index_eq
  have hse := hc.source_eq
  have hte := hc.target_eq
  have key : ∀ q, q.length ≤ 3 → countLinks c s q ≠ none →
      ∃ L, (links c).Visits s q L ∧ countLinksR c s q = some (L.length % (c.maxT + 1)) ∧ L.length ≤ c.maxT ∧
        countLinks c s q = some L.length := by
    intro q hq hn
    obtain ⟨L, h1, h2, -⟩ := query_law hc hg q hq
    by_cases hl : L.length ≤ c.maxT
    · rw [if_pos hl] at h2
      exact ⟨L, h1, by rw [Nat.mod_eq_of_lt (by omega)]; exact (countLinks_agrees s q).same _ h2, hl, h2⟩
    · rw [if_neg hl] at h2; exact absurd h2 hn
  have three : ∀ q, q.length ≤ 3 → q.length ≠ 2 → countLinks c s q ≠ none := by
    intro q hq h2
    obtain ⟨L, -, g2, -, -, -, g6⟩ := query_law hc hg q hq
    have := g6 h2
    rw [if_pos (by omega)] at g2
    simp [g2]
  by_cases h2 : q.length = 2
  · match q, h2 with
    | [i, x], _ =>
      by_cases hix : i = c.consts.any ∧ x ≠ c.consts.any
      · obtain ⟨rfl, hx⟩ := hix
        obtain ⟨L, l1, l2, l3, l4⟩ := key [c.consts.any, x, c.consts.any] (by simp) (three _ (by simp) (by simp))
        obtain ⟨M, m1, m2, m3, m4⟩ := key [c.consts.any, c.consts.any, x] (by simp) (three _ (by simp) (by simp))
        refine ⟨L ++ M, visits_two hc hx l1 m1, ?_, fun hh => absurd rfl hh⟩
        have el : srcCountR c s x = some L.length := by
          rw [Nat.mod_eq_of_lt (by omega)] at l2
          simpa [countLinksR, count3R, hie, hse, hte, hx] using l2
        have em : tgtCountR c s x = some M.length := by
          rw [Nat.mod_eq_of_lt (by omega)] at m2
          simpa [countLinksR, count3R, hie, hse, hte, hx] using m2
        show countLinksR c s [c.consts.any, x] = _
        simp [countLinksR, hie, hx, el, em, wadd, Nat.add_comm]
      · have hn : countLinks c s [i, x] ≠ none := by
          obtain ⟨free, ts, tt, hi⟩ := hg
          have e0 := exists_eq hc hi.toInv0 i
          have e1 := getLink_eq hc hi.toInv0 i
          have e2 : getTotal s ≠ none := three [] (by simp) (by simp)
          by_cases hia : i = c.consts.any
          · have hx : x = c.consts.any := Classical.byContradiction fun hx => hix ⟨hia, hx⟩
            simpa [countLinks, hie, hia, hx] using e2
          · simp only [countLinks, hie]
            simp
            rw [if_neg hia, e0, e1]
            simp only [Option.bind_some, Option.map_some]
            split
            · simp
            · split <;> simp
        obtain ⟨L, l1, l2, -⟩ := key [i, x] (by simp) hn
        exact ⟨L, l1, l2, fun hh => absurd rfl hh⟩
  · obtain ⟨L, l1, l2, l3, -⟩ := key q hq (three q hq h2)
    exact ⟨L, l1, l2, fun _ => l3⟩

example : Reach cfg0 sNet ∧ (linksR cfg0).countBy sNet [252, 2] = some 3 ∧
    (linksR cfg0).collect sNet [252, 2] = some [⟨3, 2, 2⟩, ⟨3, 2, 2⟩, ⟨6, 3, 2⟩] :=
  ⟨sNet_reach, by decide +kernel, by decide +kernel⟩

/-- A store with an index type of six values. -/
def cfgTiny : Cfg := { cfg0 with maxT := 5, step := 6, page := 6, consts := { consts0 with any := 5, internalEnd := 4 } }

theorem cfgTiny_ok : CfgOK cfgTiny :=
  ⟨rfl, rfl, rfl, rfl, rfl, by decide, by decide, by decide, Ref.lawful, cfg0_ok.alloc_ge⟩

/-- Four points at the first link. -/
def sTiny : Store := runs cfgTiny [.create, .create, .create, .create, .update 1 1 1, .update 2 1 1, .update 3 1 1, .update 4 1 1]

theorem sTiny_reach : Reach cfgTiny sTiny := by
  have h : (exec cfgTiny [.create, .create, .create, .create, .update 1 1 1, .update 2 1 1, .update 3 1 1, .update 4 1 1]
    (store0 cfgTiny)).isSome = true := by decide +kernel
  obtain ⟨r, hr⟩ := Option.isSome_iff_exists.1 h
  have : sTiny = r.1 := by unfold sTiny; simp [runs, hr]
  rw [this]
  exact exec_reach cfgTiny_ok cfg0_ok.alloc_ge _ (store0_reach cfg0_ok.alloc_ge rfl) hr

/-- **C114**: counts do differ. Four links have 1 at both ends; the traversal by `[any, 1]` visits eight times. With overflow checks the count
panics; without them it is 2. -/
theorem C114_count_wraps : Reach cfgTiny sTiny ∧ (links cfgTiny).countBy sTiny [5, 1] = none ∧
    (linksR cfgTiny).countBy sTiny [5, 1] = some 2 ∧ (links cfgTiny).countBy sTiny [5, 1, 5] = some 4 ∧
    (links cfgTiny).countBy sTiny [5, 5, 1] = some 4 :=
  ⟨sTiny_reach, by decide +kernel, by decide +kernel, by decide +kernel, by decide +kernel⟩

/-- **C114**, every client. In every state whatsoever, reachable or not: a client program, whatever it calls, that runs without a panic in
a build with overflow checks computes the same and leaves the same store in a build without them. -/
theorem C114_same_results {α : Type} (p : Program α) (s : Store) (r : α × Store) (h : p.run (links c) s = some r) :
    p.run (linksR c) s = some r := (p.agrees links_agree s).same r h

/-- A client that counts the links, creates as many and looks the last one up. -/
def doubling : Program (Option Link) :=
  .count [] fun n => go n 0
where
  go : Nat → Nat → Program (Option Link)
    | 0, last => .get last .done
    | n + 1, _ => .create [] (fun _ _ a => (.cont, a.index)) 0 fun r => go n r.2

example : Reach cfg0 sNet ∧ (doubling.run (links cfg0) sNet).map (·.1) = some (some ⟨10, 0, 0⟩) ∧
    (doubling.run (linksR cfg0) sNet).map (·.1) = some (some ⟨10, 0, 0⟩) :=
  ⟨sNet_reach, by decide +kernel, by decide +kernel⟩

/-- **C114**, default methods. In every state, reachable or not, the default methods too return without overflow checks what they return with
the checks, if these do not panic. -/
theorem C114_default_methods {S : Type} {D E : Links S} (H : D.Agree E) (s : S) (i j a b : Nat) (q : List Nat) {σ ρ : Type} (h : Links.Hd σ ρ) (st : σ) :
    (∀ r, D.createPoint s = some r → E.createPoint s = some r) ∧
    (∀ r, D.createLink s a b = some r → E.createLink s a b = some r) ∧
    (∀ r, D.createLinkWith s a b h st = some r → E.createLinkWith s a b h st = some r) ∧
    (∀ r, D.getOrCreate s a b = some r → E.getOrCreate s a b = some r) ∧
    (∀ r, D.search s a b = some r → E.search s a b = some r) ∧
    (∀ r, D.find s q = some r → E.find s q = some r) ∧
    (∀ r, D.single s q = some r → E.single s q = some r) ∧
    (∀ r, D.found s q = some r → E.found s q = some r) ∧
    (∀ r, D.exist s i = some r → E.exist s i = some r) ∧
    (∀ r, D.eachIter s q = some r → E.eachIter s q = some r) ∧
    (∀ r, D.countUsagesOf s i = some r → E.countUsagesOfR s i = some r) ∧
    (∀ r, D.usages s i = some r → E.usagesR s i = some r) ∧
    (∀ r, D.hasUsages s i = some r → E.hasUsagesR s i = some r) ∧
    (∀ r, D.rebaseWith s i j h st = some r → E.rebaseWith s i j h st = some r) ∧
    (∀ r, D.rebaseAndDelete s i j = some r → E.rebaseAndDelete s i j = some r) ∧
    (∀ r, D.deleteUsagesWith s i h st = some r → E.deleteUsagesWith s i h st = some r) ∧
    (∀ r, D.deleteQueryWith s q h st = some r → E.deleteQueryWith s q h st = some r) ∧
    (∀ r, D.deleteAll s = some r → E.deleteAll s = some r) :=
  ⟨(H.createPoint s).same, (H.createLink s a b).same, (H.createLinkWith s a b h st).same, (H.getOrCreate s a b).same,
    (H.search s a b).same, (H.find s q).same, (H.single s q).same, (H.found s q).same, (H.exist s i).same, (H.eachIter s q).same,
    (H.countUsagesOf s i).same, (H.usages s i).same, (H.hasUsages s i).same, (H.rebaseWith s i j h st).same,
    (H.rebaseAndDelete s i j).same, (H.deleteUsagesWith s i h st).same, (H.deleteQueryWith s q h st).same, (H.deleteAll s).same⟩

/-- Both stores are such pairs. -/
example : (links cfg0).Agree (linksR cfg0) ∧ (Split.links Split.cfg0).Agree (Split.linksR Split.cfg0) ∧
    (linksR cfg0).usagesR sNet 2 = (links cfg0).usages sNet 2 ∧ (links cfg0).usages sNet 2 = some (.ok [3, 3, 6]) :=
  ⟨links_agree, Split.links_agree, by decide +kernel, by decide +kernel⟩

end Verif.Unit.Props

namespace Verif.Split.Props
open Verif Verif.Split

variable {c : Cfg}

/-- A creation on a store with the invariant: both builds do the same, also if they panic. -/
theorem createR_eq (hc : CfgOK c) {s : Store} (h : Good c s) (q : List Nat) {σ : Type} (hd : WH σ) (st : σ) :
    createLinksR c s q hd st = createLinks c s q hd st := by
  obtain ⟨free, h⟩ := h
  have key : createLinks c s q hd st ≠ none → createLinksR c s q hd st = createLinks c s q hd st :=
    (createLinks_agrees s q hd st).eq
  rcases createLinks_ok hc h q hd st with ⟨x, rest, s', hf, h1, -⟩ | ⟨hf, h1, h2⟩ | ⟨hf, h1, h2, h3, h4⟩ |
    ⟨hf, h1, h2, h3, h4, h5⟩ | ⟨hf, h1, h2, h3, h4, h5, h6⟩ | ⟨hf, h1, s', h2, -⟩
  · exact key (by simp [h1])
  · exact key (by simp [h2])
  · exact key (by simp [h4])
  · exact key (by simp [h5])
  · rw [h6]
    have hff : s.hdr.firstFree = 0 := by
      have := h.base.list.first_eq; simpa [Store.listMem, hf] using this
    have hr := h.base.res_pos
    have : wsub c.maxT s.hdr.reserved 1 ≤ s.hdr.allocated := by unfold wsub; rw [if_pos hr]; omega
    have hnn : ¬ c.consts.internalEnd ≤ s.hdr.allocated := by omega
    obtain ⟨d, hd'⟩ := Option.ne_none_iff_exists'.1 h3
    obtain ⟨n, hn⟩ := Option.ne_none_iff_exists'.1 h4
    have hm : ¬ n ≤ c.maxT := by have := hc.ialloc_eq _ _ _ hn; omega
    simp [createLinksR, hff, hc.null_eq, hnn, this, hd', hn, hm]
  · exact key (by simp [h2])

theorem initR_eq (hc : CfgOK c) (maxU : Nat) (s : Store) : initR c maxU s = init c s := by
  unfold initR init
  cases e1 : c.dalloc s.dlen c.page with
  | none => rfl
  | some d1 =>
    cases e2 : c.ialloc s.ilen c.page with
    | none => rfl
    | some i1 =>
      simp only
      congr 1
      cases e3 : c.dalloc d1 (align (max (max s.hdr.allocated d1) c.step) c.step) with
      | none => rfl
      | some d2 =>
        cases e4 : c.ialloc i1 (align (max (max s.hdr.allocated i1) c.step) c.step) with
        | none => rfl
        | some i2 =>
          have h1 := hc.dalloc_eq _ _ _ e3
          have h2 := hc.step_pos
          have h3 : 1 ≤ d2 := by
            subst h1
            unfold align
            split
            · omega
            · omega
          simp only [csub, wsub, if_pos h3, Option.bind_some]

/-- A deletion of a link that, like its users, has no duplicates: both builds do the same. -/
theorem deleteR_eq (hc : CfgOK c) {s : Store} (h : Good c s) (q : List Nat)
    (hok : ∀ i, q.head? = some i → ((links c).view s).NoTwin i ∧ CanDelete ((links c).view s) i) {σ : Type} (hd : WH σ) (st : σ) :
    deleteLinksR c s q hd st = deleteLinks c s q hd st := by
  cases q with
  | nil => rfl
  | cons i q =>
    refine (deleteLinks_agrees s (i :: q) hd st).eq ?_
    have e : deleteLinks c s (i :: q) hd st = (links c).deleteLinks s [i] hd st := rfl
    rw [e]
    obtain ⟨h1, h2⟩ := hok i rfl
    cases hv : (links c).view s i with
    | none => have hF := (lawful hc).delete_missing s h i hv σ hd st; simp only at hF; rw [hF]; simp
    | some p =>
      obtain ⟨s', -, -, hS⟩ := delete_law hc h hv h1 h2
      have hS := hS σ hd st
      show deleteLinks c s [i] hd st ≠ none
      simp only at hS
      rw [hS]; simp

/-- The states of a split store in a build without overflow checks (`maxU` is the largest `usize`), after the histories that
`Reach` describes for a build with the checks. -/
inductive ReachR (c : Cfg) (maxU : Nat) : Store → Prop
  | fresh (d i) {s : Store} : ExactAlloc d → ExactAlloc i → initR (c.withAllocs d i) maxU {} = some (.ok s) → ReachR c maxU s
  | create (d i) {s : Store} {q : List Nat} {σ : Type} {h : WH σ} {st : σ} {o : Out Store σ Flow} :
      ReachR c maxU s → ExactAlloc d → ExactAlloc i → GrowTogether (c.withAllocs d i) s → NewUnused (c.withAllocs d i) s →
      (linksR (c.withAllocs d i)).createLinks s q h st = some o → ReachR c maxU o.st
  | update {s : Store} {q ch : List Nat} {σ : Type} {h : WH σ} {st : σ} {o : Out Store σ Flow} :
      ReachR c maxU s → (∀ i x a b, q.head? = some i → ch.take 3 = [x, a, b] →
        ((linksR c).view s).NoTwin i ∧ CanUpdate ((linksR c).view s) i a b) →
      (linksR c).updateLinks s q ch h st = some o → ReachR c maxU o.st
  | delete {s : Store} {q : List Nat} {σ : Type} {h : WH σ} {st : σ} {o : Out Store σ Flow} :
      ReachR c maxU s → (∀ i, q.head? = some i → ((linksR c).view s).NoTwin i ∧ CanDelete ((linksR c).view s) i) →
      (linksR c).deleteLinks s q h st = some o → ReachR c maxU o.st
  | reopen (d i) (n m : Nat) {s s' : Store} : ReachR c maxU s → ExactAlloc d → ExactAlloc i →
      initR (c.withAllocs d i) maxU { s with dlen := n, ilen := m } = some (.ok s') → s.hdr.allocated < s'.ilen →
      ReachR c maxU s'

/-- **C114**, split store, states. The two builds get to the same states. -/
theorem C114_split_same_states (hc : CfgOK c) (maxU : Nat) (s : Store) : ReachR c maxU s ↔ Reach c s := by
  constructor
  · intro h
    induction h with
    | fresh d i hd hi h => exact .fresh d i hd hi (by rwa [initR_eq (hc.withAllocs hd hi)] at h)
    | @create d i s q σ h st o _ hd hi hg hn ho ih =>
      obtain ⟨free, hv⟩ := reach_good hc ih
      have e := createR_eq (hc.withAllocs hd hi) ⟨free, hv.withAllocs d i⟩ q h st
      exact .create (q := q) d i ih hd hi hg hn (e.symm.trans ho)
    | update _ hn ho ih => exact .update ih hn ho
    | @delete s q σ h st o _ hn ho ih =>
      have e := deleteR_eq hc (reach_good hc ih) q hn h st
      exact .delete (q := q) ih hn (e.symm.trans ho)
    | reopen d i n m _ hd hi h hl ih => exact .reopen d i n m ih hd hi (by rwa [initR_eq (hc.withAllocs hd hi)] at h) hl
  · intro h
    induction h with
    | fresh d i hd hi h => exact .fresh d i hd hi (by rwa [initR_eq (hc.withAllocs hd hi)])
    | @create d i s q σ h st o _ hd hi hg hn ho ih =>
      exact .create d i ih hd hi hg hn ((links_agree.create s q h st).same _ ho)
    | update _ hn ho ih => exact .update ih hn ho
    | @delete s q σ h st o _ hn ho ih => exact .delete ih hn ((links_agree.delete s q h st).same _ ho)
    | reopen d i n m _ hd hi h hl ih => exact .reopen d i n m ih hd hi (by rwa [initR_eq (hc.withAllocs hd hi)]) hl

/-- **C114**, split store, writes and lookups. On a reachable store both builds do exactly the same in every create and update call, every
traversal and every lookup: same result, same new store, same calls of the handler, and the same panics. So they do in every delete
call of a link that, like its users, has no duplicates, and of an index without a link. -/
theorem C114_split_same_calls (hc : CfgOK c) {s : Store} (h : Reach c s) {σ : Type} (q ch : List Nat) (hw : WH σ) (hr : RH σ) (st : σ) (i : Nat) :
    (linksR c).createLinks s q hw st = (links c).createLinks s q hw st ∧
    (linksR c).updateLinks s q ch hw st = (links c).updateLinks s q ch hw st ∧
    ((∀ i, q.head? = some i → ((links c).view s).NoTwin i ∧ CanDelete ((links c).view s) i) →
      (linksR c).deleteLinks s q hw st = (links c).deleteLinks s q hw st) ∧
    (linksR c).eachLinks s q hr st = (links c).eachLinks s q hr st ∧
    (linksR c).getLink s i = (links c).getLink s i :=
  ⟨createR_eq hc (reach_good hc h) q hw st, rfl, fun hok => deleteR_eq hc (reach_good hc h) q hok hw st, rfl, rfl⟩

/-- **C114**, split store, counts. No count by a query of at most three parts panics without overflow checks. Only the count of the links with a
given end can differ from that with the checks, which panics if it overflows: it is the sum of the counts by source and by target,
modulo the size of the index type. -/
theorem C114_split_counts (hc : CfgOK c) {s : Store} (h : Reach c s) :
    (∀ q, q.length ≤ 3 → (q.length = 2 → q.head? ≠ some c.consts.any) →
      (linksR c).countBy s q = (links c).countBy s q ∧ (links c).countBy s q ≠ none) ∧
    (∀ x, x ≠ c.consts.any → ∃ a b, (links c).countBy s [c.consts.any, x, c.consts.any] = some a ∧
      (links c).countBy s [c.consts.any, c.consts.any, x] = some b ∧
      (linksR c).countBy s [c.consts.any, x] = some ((a + b) % (c.maxT + 1))) ∧
    (linksR c).countBy s [c.consts.any, c.consts.any] = (links c).count s ∧
    (links c).countBy s [c.consts.any, c.consts.any] = (links c).count s := by
  have hie := hc.index_eq
  have hse := hc.source_eq
  have hte := hc.target_eq
  have hret := C67_counts_return hc h
  obtain ⟨free, hi⟩ := reach_good hc h
  have hun := isUnused_some hi.base
  obtain ⟨ba, hba⟩ := hun c.consts.any
  have first : ∀ q, q.length ≤ 3 → (q.length = 2 → q.head? ≠ some c.consts.any) →
      (linksR c).countBy s q = (links c).countBy s q ∧ (links c).countBy s q ≠ none := by
    intro q hq h2
    obtain ⟨n, hn⟩ := hret q hq h2
    have hne : (links c).countBy s q ≠ none := by simp [hn]
    exact ⟨(countLinks_agrees s q).eq hne, hne⟩
  refine ⟨first, fun x hx => ?_, ?_, ?_⟩
  · obtain ⟨a, ha⟩ := hret [c.consts.any, x, c.consts.any] (by simp) (by simp)
    obtain ⟨b, hb⟩ := hret [c.consts.any, c.consts.any, x] (by simp) (by simp)
    refine ⟨a, b, ha, hb, ?_⟩
    have ha' : countLinksR c s [c.consts.any, x, c.consts.any] = some a := (countLinks_agrees s _).same _ ha
    have hb' : countLinksR c s [c.consts.any, c.consts.any, x] = some b := (countLinks_agrees s _).same _ hb
    obtain ⟨bx, hbx⟩ := hun x
    simp [countLinksR, count3R, hie, hse, hte, hx, hba, hbx] at ha' hb'
    show countLinksR c s [c.consts.any, x] = _
    cases bx with
    | true =>
      simp at ha' hb'
      simp [countLinksR, hie, hx, hbx, ha', hb', wadd]
    | false =>
      simp at ha' hb'
      simp [countLinksR, hie, hx, hbx, ha', hb', wadd]
  · obtain ⟨e, hne⟩ := first [] (by simp) (by simp)
    show countLinksR c s [c.consts.any, c.consts.any] = countLinks c s []
    have e : countLinksR c s [] = countLinks c s [] := e
    rw [← e]
    simp [countLinksR, hie, hba]
  · show countLinks c s [c.consts.any, c.consts.any] = countLinks c s []
    simp [countLinks, hie, hba]

/-- A store with an index type of six values. -/
def cfgTiny : Cfg := { cfg0 with maxT := 5, step := 6, page := 6, consts := { Verif.Unit.consts0 with any := 5, internalEnd := 4 } }

theorem cfgTiny_ok : CfgOK cfgTiny :=
  ⟨rfl, rfl, rfl, rfl, rfl, by decide, by decide, by decide, Ref.lawful, cfg0_ok.dalloc_eq, cfg0_ok.ialloc_eq⟩

/-- Four points at the first link. -/
def tiny : List Call := [.create, .create, .create, .create, .update 1 1 1, .update 2 1 1, .update 3 1 1, .update 4 1 1]

def sTiny : Store := runs cfgTiny tiny

theorem sTiny_reach : Reach cfgTiny sTiny := by
  have h : (exec cfgTiny tiny (store0 cfgTiny)).isSome = true := by decide +kernel
  obtain ⟨r, hr⟩ := Option.isSome_iff_exists.1 h
  have h0 : History cfgTiny (store0 cfgTiny) [] :=
    .fresh (c := cfgTiny) cfgTiny.dalloc cfgTiny.ialloc cfgTiny_ok.dalloc_eq cfgTiny_ok.ialloc_eq rfl
  have : sTiny = r.1 := by unfold sTiny; simp [runs, hr]
  rw [this]
  exact (exec_history cfgTiny_ok (fun s _ => by simp [cfgTiny, cfg0]) tiny h0 hr).reach cfgTiny_ok

/-- **C114**, split store: counts do differ. Four links have 1 at both ends. With overflow checks the count by `[any, 1]` panics; without them
it is 2. -/
theorem C114_split_count_wraps : Reach cfgTiny sTiny ∧ (links cfgTiny).countBy sTiny [5, 1] = none ∧
    (linksR cfgTiny).countBy sTiny [5, 1] = some 2 ∧ (links cfgTiny).countBy sTiny [5, 1, 5] = some 4 ∧
    (links cfgTiny).countBy sTiny [5, 5, 1] = some 4 :=
  ⟨sTiny_reach, by decide +kernel, by decide +kernel, by decide +kernel, by decide +kernel⟩

/-- **C114**, split store, every client. In every state whatsoever, reachable or not: a client program, whatever it calls, that runs without a
panic in a build with overflow checks computes the same and leaves the same store in a build without them. -/
theorem C114_split_same_results {α : Type} (p : Program α) (s : Store) (r : α × Store) (h : p.run (links c) s = some r) :
    p.run (linksR c) s = some r := (p.agrees links_agree s).same r h

example : Reach cfg0 sNet ∧ (Verif.Unit.Props.doubling.run (links cfg0) sNet).map (·.1) = some (some ⟨10, 0, 0⟩) ∧
    (Verif.Unit.Props.doubling.run (linksR cfg0) sNet).map (·.1) = some (some ⟨10, 0, 0⟩) :=
  ⟨sNet_reach, by decide +kernel, by decide +kernel⟩

end Verif.Split.Props
