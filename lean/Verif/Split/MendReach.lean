import Verif.Split.Mend
import Verif.Unit.MendReach

/-!
# Duplicate-free histories of the split store (helper for C93)
-/

namespace Verif.Split
open Verif

/-- The states of a store opened on two empty memories after histories, within the guards of `Reach`, in which no update makes two
links with the same pair. -/
inductive ReachU (c : Cfg) : Store → Prop
  /-- `Store::new` / `with_constants` on empty memories. -/
  | fresh (d i) {s : Store} : ExactAlloc d → ExactAlloc i → init (c.withAllocs d i) {} = some (.ok s) → ReachU c s
  /-- `create_links`, successful or not, when no link refers to the index it would return. -/
  | create (d i) {s : Store} {q : List Nat} {σ : Type} {h : WH σ} {st : σ} {o : Out Store σ Flow} :
      ReachU c s → ExactAlloc d → ExactAlloc i → GrowTogether (c.withAllocs d i) s → NewUnused (c.withAllocs d i) s →
      (links (c.withAllocs d i)).createLinks s q h st = some o → ReachU c o.st
  /-- `update_links`, successful or not, to supported values, that leaves no two links with the same pair. -/
  | update {s : Store} {q ch : List Nat} {σ : Type} {h : WH σ} {st : σ} {o : Out Store σ Flow} :
      ReachU c s → (∀ i a b, q[0]? = some i → ch[1]? = some a → ch[2]? = some b → (links c).view s i ≠ none →
        (((links c).view s).set i (a, b)).Uniq ∧ CanUpdate ((links c).view s) i a b) →
      (links c).updateLinks s q ch h st = some o → ReachU c o.st
  /-- `delete_links`, successful or not. -/
  | delete {s : Store} {q : List Nat} {σ : Type} {h : WH σ} {st : σ} {o : Out Store σ Flow} :
      ReachU c s → (links c).deleteLinks s q h st = some o → ReachU c o.st
  /-- Closing the store and opening another one on the same memories, mapped to an extent that covers the links. -/
  | reopen (d i) (n m : Nat) {s s' : Store} : ReachU c s → ExactAlloc d → ExactAlloc i →
      init (c.withAllocs d i) { s with dlen := n, ilen := m } = some (.ok s') → s.hdr.allocated < s'.ilen → ReachU c s'

variable {c : Cfg}

theorem differ_of_uniq (hc : CfgOK c) {s : Store} {free : List Nat} (h : Inv c s free) (hu : ((links c).view s).Uniq) (d : Side) :
    Differ s fun k => IntRef s free d k ∨ ExtRef s free d k := by
  intro x y hx hy hxy
  have hy0 : endOf d (s.data y) ≠ 0 := by rcases hy with hy | hy <;> exact hy.2.1
  exact noTwin_tree h.toInv0 (noTwinIn hc h.toInv0 (h.net.live d y hy) (hu y)) d hy0 x hx hxy

/-- The update does the same over the mended crate. -/
theorem updateLinks_uniq (hc : CfgOK₀ c) {s : Store} {free : List Nat} (h : Inv c.mend s free) (hu : ((links c).view s).Uniq)
    {q ch : List Nat} (ha : ∀ i a b, q[0]? = some i → ch[1]? = some a → ch[2]? = some b → (links c).view s i ≠ none →
      (((links c).view s).set i (a, b)).Uniq) {σ : Type} (hd : WH σ) (st : σ) :
    updateLinks c s q ch hd st = updateLinks c.mend s q ch hd st := by
  have hc' := hc.mend
  have hvw : ∀ i, (links c).view s i = if LiveIn s free i then some (s.data i) else none := by
    intro i; rw [← view_mend]; exact view_eq hc' h.toInv0 i
  refine updateLinks_mend hc h.net h.exact
    (fun i d hi he => ⟨fun x => x.2.1 he, fun x => x.2.1 he⟩)
    (fun i d hi he hl => ⟨hi, he, hl⟩) (fun i d hi he hl => ⟨hi, he, hl⟩)
    (differ_of_uniq hc' h (by rw [view_mend]; exact hu)) ?_ hd st
  intro i a b h1 h2 h3 hl d hz x y hx hy hxy e
  have hv := hvw i
  rw [if_pos hl] at hv
  have hua := ha i a b h1 h2 h3 (by rw [hv]; simp)
  have hset : ∀ z, LiveIn s free z → ((links c).view s).set i (a, b) z = some (if z = i then (a, b) else s.data z) := by
    intro z hz
    unfold View.set
    by_cases hzi : z = i
    · simp only [hzi, if_true]
    · simp only [if_neg hzi]; rw [hvw, if_pos hz]
  have hlive : ∀ z, (z ≠ i ∧ (IntRef s free d z ∨ ExtRef s free d z)) ∨ z = i → LiveIn s free z := by
    rintro z (⟨-, hz⟩ | rfl)
    · exact h.net.live d z hz
    · exact hl
  have hnz : (if x = i then (a, b) else s.data x) ≠ (0, 0) := by
    rcases hx with ⟨hxi, hx⟩ | rfl
    · rw [if_neg hxi]
      have : endOf d (s.data x) ≠ 0 := by rcases hx with hx | hx <;> exact hx.2.1
      intro e; rw [e] at this; cases d <;> exact this rfl
    · rw [if_pos rfl]
      intro e; rw [e] at hz; cases d <;> exact hz rfl
  exact hxy (hua x _ (hset x (hlive x hx)) hnz y (by rw [hset y (hlive y hy), e])).symm

theorem createLinks_allocs (hc : CfgOK₀ c) {d i : Nat → Nat → Option Nat} (hd : ExactAlloc d) (hi : ExactAlloc i) {s : Store}
    {free : List Nat} (h : Inv c.mend s free) (q : List Nat) {σ : Type} (hh : WH σ) (st : σ) :
    createLinks (c.withAllocs d i) s q hh st = createLinks (c.mend.withAllocs d i) s q hh st :=
  createLinks_mend (c := c.withAllocs d i) (hc.withAllocs hd hi) (free := free) (h.withAllocs d i) q hh st

theorem newUnused_mend (hc : CfgOK₀ c) {d i : Nat → Nat → Option Nat} (hd : ExactAlloc d) (hi : ExactAlloc i) {s : Store}
    {free : List Nat} (h : Inv c.mend s free) (hn : NewUnused (c.withAllocs d i) s) : NewUnused (c.mend.withAllocs d i) s := by
  intro j s' hcr
  rw [view_withAllocs, view_mend]
  refine hn j s' (Eq.trans ?_ hcr)
  have e : ∀ σ (h' : WH σ) st, (links (c.withAllocs d i)).createLinks s [] h' st = (links (c.mend.withAllocs d i)).createLinks s [] h' st :=
    fun σ h' st => createLinks_allocs hc hd hi h [] h' st
  simp only [Links.create, Links.createBy, Links.createByWith, e]

/-- Every duplicate-free history over a crate that keeps the weaker contract is a history over the mended crate. -/
theorem reachU_mend (hc : CfgOK₀ c) {s : Store} (h : ReachU c s) : Reach c.mend s ∧ ((links c).view s).Uniq := by
  have hc' := hc.mend
  induction h with
  | @fresh d i s hd hi h =>
    have h' : init (c.mend.withAllocs d i) {} = some (.ok s) := h
    refine ⟨.fresh d i hd hi h', ?_⟩
    obtain ⟨h1, h2⟩ := init_fresh (hc'.withAllocs hd hi) h'
    intro j p hp
    rw [← view_mend, view_eq hc' h1.ofAllocs.toInv0, if_neg (fun hl : LiveIn _ _ j => by have := hl.1; have := hl.2.1; omega)] at hp
    cases hp
  | @create d i s q σ h st o _ hd hi hg hn ho ih =>
    obtain ⟨free, hv⟩ := reach_good hc' ih.1
    have ho' : createLinks (c.mend.withAllocs d i) s q h st = some o := (createLinks_allocs hc hd hi hv q h st).symm.trans ho
    have hn' := newUnused_mend hc hd hi hv hn
    refine ⟨.create (q := q) d i ih.1 hd hi hg hn' ho', ?_⟩
    have hcw := hc'.withAllocs hd hi
    have hw := hv.withAllocs d i
    have key : ∀ x s' free', Created (c.mend.withAllocs d i) s free s' free' x → ((links c).view s').Uniq := by
      intro x s' free' hk
      have := (hk.view hcw hw.toInv0).2
      rw [view_withAllocs, view_withAllocs, view_mend, view_mend] at this
      rw [this]
      exact Unit.uniq_set_null ih.2 x
    rcases create_cases hcw hw q with ⟨x, rest, s', hf, h1, h2, h3, h4⟩ | ⟨hf, h1, h2⟩ |
      ⟨hf, h1, h2, h3⟩ | ⟨hf, h1, h2, h3, h4⟩ | ⟨hf, h1, h2, h3, h4, h5⟩ | ⟨hf, h1, s', h2, h3, h4⟩
    · cases ho'.symm.trans (h1 _ h st); exact key _ _ _ h2
    · cases ho'.symm.trans (h2 _ h st); exact ih.2
    · cases ho'.symm.trans (h3 _ h st); exact ih.2
    · exact absurd h3 (hg h2)
    · cases ho'.symm.trans (h5 _ h st)
    · cases ho'.symm.trans (h2 _ h st); exact key _ _ _ h3
  | @update s q ch σ h st o _ hu ho ih =>
    obtain ⟨free, hi⟩ := reach_good hc' ih.1
    have ho' : updateLinks c.mend s q ch h st = some o :=
      (updateLinks_uniq hc hi ih.2 (fun i a b h1 h2 h3 h4 => (hu i a b h1 h2 h3 h4).1) h st).symm.trans ho
    have hu' : ((links c.mend).view s).Uniq := by rw [view_mend]; exact ih.2
    match q, ch with
    | [], _ => simp [updateLinks] at ho'
    | _ :: _, [] => simp [updateLinks] at ho'
    | _ :: _, [_] => simp [updateLinks] at ho'
    | _ :: _, [_, _] => simp [updateLinks] at ho'
    | i :: q, x :: a :: b :: ch =>
      by_cases hl : LiveIn s free i
      · have hv : (links c).view s i = some (s.data i) := by rw [← view_mend, view_eq hc' hi.toInv0, if_pos hl]
        obtain ⟨g1, g2⟩ := hu i a b rfl rfl rfl (by rw [hv]; simp)
        refine ⟨.update (q := i :: q) (ch := x :: a :: b :: ch) (h := h) (st := st) ih.1 ?_ ho', ?_⟩
        · intro j x' a' b' hj hh
          cases hj; cases hh
          exact ⟨hu' _, by rw [view_mend]; exact g2⟩
        · obtain ⟨s', h1, h2, h3, h4, h5⟩ := updateLinks_ok hc' hi hl (noTwinIn hc' hi.toInv0 hl (hu' i)) q x a b ch
            ⟨g2.1, fun hh => g2.2 hh _ hv⟩ h st
          rw [h1] at ho'; cases ho'
          have e : (links c).view s' = ((links c).view s).set i (a, b) := by
            rw [← view_mend (c := c) s', ← view_mend (c := c) s]
            funext k
            unfold View.set
            rw [view_eq hc' h2.toInv0, view_eq hc' hi.toInv0, h5]
            have hlk : LiveIn s' free k ↔ LiveIn s free k := by simp [LiveIn, h4]
            by_cases hk : k = i
            · subst hk; rw [if_pos (hlk.2 hl), if_pos rfl, if_pos rfl]
            · rw [if_neg hk, if_neg hk]
              by_cases hlk' : LiveIn s free k
              · rw [if_pos (hlk.2 hlk'), if_pos hlk']
              · rw [if_neg fun e => hlk' (hlk.1 e), if_neg hlk']
          exact e ▸ g1
      · rw [updateLinks_missing hc' hi.toInv0 hl] at ho'; cases ho'; exact ih
  | @delete s q σ h st o _ ho ih =>
    obtain ⟨free, hi⟩ := reach_good hc' ih.1
    have hu' : ((links c.mend).view s).Uniq := by rw [view_mend]; exact ih.2
    have ho' : deleteLinks c.mend s q h st = some o := by rw [← deleteLinks_mend hc hi ih.2]; exact ho
    refine ⟨.delete ih.1 (fun i _ => ⟨hu' i, fun j _ => hu' j⟩) ho', ?_⟩
    match q with
    | [] => simp [deleteLinks] at ho'
    | i :: q =>
      by_cases hl : LiveIn s free i
      · obtain ⟨s', free', h1, h2, -, -, -, h3, h4⟩ := deleteLinks_ok hc' hi hl (noTwinIn hc' hi.toInv0 hl (hu' i))
          (fun d k hk => noTwinIn hc' hi.toInv0 hk.1 (hu' k)) q h st
        rw [h1] at ho'; cases ho'
        have e : (links c).view s' = ((links c).view s).del i := by
          rw [← view_mend (c := c) s', ← view_mend (c := c) s]
          funext k
          unfold View.del
          rw [view_eq hc' h2.toInv0, view_eq hc' hi.toInv0]
          by_cases hk : k = i
          · rw [if_pos hk, if_neg fun e => ((h3 k).1 e).2 hk]
          · rw [if_neg hk]
            by_cases hlk : LiveIn s free k
            · rw [if_pos ((h3 k).2 ⟨hlk, hk⟩), if_pos hlk, h4 k hlk hk]
            · rw [if_neg fun e => hlk ((h3 k).1 e).1, if_neg hlk]
        exact e ▸ ih.2.del i
      · rw [deleteLinks_missing hc' hi.toInv0 hl] at ho'; cases ho'; exact ih.2
  | @reopen d i n m s s' _ hd hi h hlt ih =>
    obtain ⟨free, hv⟩ := reach_good hc' ih.1
    have h' : init (c.mend.withAllocs d i) { s with dlen := n, ilen := m } = some (.ok s') := h
    refine ⟨.reopen d i n m ih.1 hd hi h' hlt, ?_⟩
    obtain ⟨h1, h2, h3⟩ := init_reopen (hc'.withAllocs hd hi) (hv.withAllocs d i) h' hlt
    have e : (links c).view s' = (links c).view s := by
      rw [← view_mend (c := c) s', ← view_mend (c := c) s]
      funext k
      rw [view_eq hc' h1.ofAllocs.toInv0, view_eq hc' hv.toInv0, h3]
      have hl : LiveIn s' free k ↔ LiveIn s free k := by simp [LiveIn, h2]
      by_cases hk : LiveIn s free k
      · rw [if_pos (hl.2 hk), if_pos hk]
      · rw [if_neg fun e => hk (hl.1 e), if_neg hk]
    exact e ▸ ih.2

theorem countLinks_mend (s : Store) (q : List Nat) : (links c.mend).countLinks s q = (links c).countLinks s q := by
  show countLinks c.mend s q = countLinks c s q
  simp only [countLinks]
  rfl

theorem getLink_mend (s : Store) (i : Nat) : (links c.mend).getLink s i = (links c).getLink s i := by
  show getLink c.mend s i = getLink c s i
  simp only [getLink]
  rfl

theorem consts_mend (s : Store) : (links c.mend).consts s = (links c).consts s := rfl

/-- The split store over a crate that keeps the weaker contract, on duplicate-free histories. -/
noncomputable def weakLawful (hc : CfgOK₀ c) : Lawful (links c) :=
  let W := lawful hc.mend
  have G : ∀ {s}, ReachU c s → Good c.mend s := fun h => reach_good hc.mend (reachU_mend hc h).1
  have U : ∀ {s}, ReachU c s → ((links c).view s).Uniq := fun h => (reachU_mend hc h).2
  have C : ∀ {s} (h : ReachU c s) (q : List Nat) {σ : Type} (hd : WH σ) (st : σ),
      createLinks c s q hd st = createLinks c.mend s q hd st := fun h q σ hd st => by
    obtain ⟨free, hi⟩ := G h
    exact createLinks_mend hc hi q hd st
  have N : ∀ {s}, ReachU c s → NewUnused c s → NewUnused c.mend s := fun h hn => by
    obtain ⟨free, hi⟩ := G h
    exact newUnused_mend (d := c.dalloc) (i := c.ialloc) hc hc.dalloc_eq hc.ialloc_eq hi hn
  { Inv := ReachU c
    CanCreate := fun s => CanGrow c s ∧ NewUnused c s
    CanUpdate := fun v i a b => (v.set i (a, b)).Uniq ∧ CanUpdate v i a b
    CanDelete := fun _ _ => True
    canDelete_del := fun _ _ _ _ => trivial
    canDelete_uniq := fun _ _ _ => trivial
    get := fun s h => by
      have := W.get s (G h)
      simp only [getLink_mend, view_mend] at this
      exact this
    null := fun s h => by
      have := W.null s (G h)
      simp only [view_mend] at this
      exact this
    any_pos := fun s h => W.any_pos s (G h)
    any_absent := fun s h => by
      have := W.any_absent s (G h)
      simp only [view_mend] at this
      exact this
    create := by
      intro s h hg q
      have hS : ∀ {s' b e}, Links.Succeeds (fun _ hd st => (links c.mend).createLinks s q hd st) s' b e →
          Links.Succeeds (fun _ hd st => (links c).createLinks s q hd st) s' b e := by
        intro s' b e hS σ hd st
        show createLinks c s q hd st = _
        rw [C h]; exact hS σ hd st
      rcases W.create s (G h) ⟨hg.1, N h hg.2⟩ q with ⟨e, hF⟩ | ⟨i, s', h1, -, h3, h4, h5⟩
      · refine .inl ⟨e, fun σ hd st => ?_⟩
        show createLinks c s q hd st = _
        rw [C h]; exact hF σ hd st
      · simp only [view_mend] at h1 h3 h4
        exact .inr ⟨i, s', h1, .create (q := q) (h := fun (u : _root_.Unit) _ _ => (.cont, u)) (st := ()) c.dalloc c.ialloc h
          hc.dalloc_eq hc.ialloc_eq (fun hh => (hg.1 hh).1) hg.2 (hS h5 _ _ _), h3, h4, hS h5⟩
    update_missing := by
      intro s h i hv x a b σ hd st
      obtain ⟨free, hi⟩ := G h
      show updateLinks c s [i] [x, a, b] hd st = _
      rw [updateLinks_uniq hc hi (U h) (q := [i]) (ch := [x, a, b])
        (fun j _ _ hj _ _ hn => by cases hj; exact absurd hv hn)]
      exact W.update_missing s (G h) i (by rw [view_mend]; exact hv) x a b σ hd st
    update := by
      intro s h i p hv ht x a b hu
      obtain ⟨s', before, h1, -, h3, h4, h5⟩ := W.update s (G h) i p (by rw [view_mend]; exact hv) (by rw [view_mend]; exact ht) x a b
        (by rw [view_mend]; exact hu.2)
      simp only [view_mend] at h3 h4
      have hua : ∀ j a' b', [i][0]? = some j → [x, a, b][1]? = some a' → [x, a, b][2]? = some b' → (links c).view s j ≠ none →
          (((links c).view s).set j (a', b')).Uniq ∧ CanUpdate ((links c).view s) j a' b' := by
        intro j a' b' hj ha hb _
        cases hj; cases ha; cases hb; exact hu
      have h5' : Links.Succeeds (fun _ h st => (links c).updateLinks s [i] [x, a, b] h st) s' before ⟨i, a, b⟩ := by
        intro σ hd st
        obtain ⟨free, hi⟩ := G h
        show updateLinks c s [i] [x, a, b] hd st = _
        rw [updateLinks_uniq hc hi (U h) (fun j a b g1 g2 g3 g4 => (hua j a b g1 g2 g3 g4).1)]
        exact h5 σ hd st
      exact ⟨s', before, h1, .update (q := [i]) (ch := [x, a, b]) (h := fun (u : _root_.Unit) _ _ => (.cont, u)) (st := ()) h hua
        (h5' _ _ _), h3, h4, h5'⟩
    delete_missing := by
      intro s h i hv σ hd st
      obtain ⟨free, hi⟩ := G h
      show deleteLinks c s [i] hd st = _
      rw [deleteLinks_mend hc hi (U h)]
      exact W.delete_missing s (G h) i (by rw [view_mend]; exact hv) σ hd st
    delete := by
      intro s h i p hv ht _
      have hu' : ((links c.mend).view s).Uniq := by rw [view_mend]; exact U h
      obtain ⟨s', -, h3, h4, h5⟩ := W.delete s (G h) i p (by rw [view_mend]; exact hv) (hu' i) (fun j _ => hu' j)
      simp only [view_mend] at h3 h4
      have h5' : Links.Succeeds (fun _ h st => (links c).deleteLinks s [i] h st) s' ⟨i, p.1, p.2⟩ Link.nothing := by
        intro σ hd st
        obtain ⟨free, hi⟩ := G h
        show deleteLinks c s [i] hd st = _
        rw [deleteLinks_mend hc hi (U h)]
        exact h5 σ hd st
      exact ⟨s', .delete (q := [i]) (h := fun (u : _root_.Unit) _ _ => (.cont, u)) (st := ()) h (h5' _ _ _), h3, h4, h5'⟩
    each_all := fun s h => by
      have := W.each_all s (G h)
      simp only [visits_mend, view_mend, consts_mend, countLinks_mend] at this
      exact this
    count_all := fun s h => by
      have := W.count_all s (G h)
      simp only [visits_mend, view_mend, consts_mend, countLinks_mend] at this
      exact this
    bounded := fun s h => by
      have := W.bounded s (G h)
      simp only [visits_mend, view_mend, consts_mend, countLinks_mend] at this
      exact this
    each_index := fun s h => by
      have := W.each_index s (G h)
      simp only [visits_mend, view_mend, consts_mend, countLinks_mend] at this
      exact this
    count_index := fun s h => by
      have := W.count_index s (G h)
      simp only [visits_mend, view_mend, consts_mend, countLinks_mend] at this
      exact this
    each_source := fun s h => by
      have := W.each_source s (G h)
      simp only [visits_mend, view_mend, consts_mend, countLinks_mend] at this
      exact this
    each_target := fun s h => by
      have := W.each_target s (G h)
      simp only [visits_mend, view_mend, consts_mend, countLinks_mend] at this
      exact this
    each_pair := fun s h => by
      have := W.each_pair s (G h)
      simp only [visits_mend, view_mend, consts_mend, countLinks_mend] at this
      exact this
    count_pair := fun s h => by
      have := W.count_pair s (G h)
      simp only [visits_mend, view_mend, consts_mend, countLinks_mend] at this
      exact this
    count_usages := fun s h => by
      have := W.count_usages s (G h)
      simp only [visits_mend, view_mend, consts_mend, countLinks_mend] at this
      exact this
    count_source := fun s h => by
      have := W.count_source s (G h)
      simp only [visits_mend, view_mend, consts_mend, countLinks_mend] at this
      exact this
    count_target := fun s h => by
      have := W.count_target s (G h)
      simp only [visits_mend, view_mend, consts_mend, countLinks_mend] at this
      exact this }

end Verif.Split
