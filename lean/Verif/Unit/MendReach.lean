import Verif.Unit.Mend
import Verif.Unit.ReachLawful

/-!
# Duplicate-free histories of the unit store (helper for C93)
-/

namespace Verif.Unit
open Verif

/-- The states of a store opened on empty memory after histories in which no update makes two links with the same pair. The calls,
handlers and allocators are otherwise those of `Reach`. -/
inductive ReachU (c : Cfg) : Store → Prop
  /-- `Store::new` / `with_constants` on empty memory. -/
  | fresh (a) {s : Store} : GoodAlloc a → init (c.withAlloc a) {} = some (.ok s) → ReachU c s
  /-- `create_links`, successful or not. -/
  | create (a) {s : Store} {q : List Nat} {σ : Type} {h : WH σ} {st : σ} {o : Out Store σ Flow} :
      ReachU c s → GoodAlloc a → (links (c.withAlloc a)).createLinks s q h st = some o → ReachU c o.st
  /-- `update_links`, successful or not, that leaves no two links with the same pair. -/
  | update {s : Store} {q ch : List Nat} {σ : Type} {h : WH σ} {st : σ} {o : Out Store σ Flow} :
      ReachU c s → (∀ i a b, q[0]? = some i → ch[1]? = some a → ch[2]? = some b → (links c).view s i ≠ none →
        (((links c).view s).set i (a, b)).Uniq) →
      (links c).updateLinks s q ch h st = some o → ReachU c o.st
  /-- `delete_links`, successful or not. -/
  | delete {s : Store} {q : List Nat} {σ : Type} {h : WH σ} {st : σ} {o : Out Store σ Flow} :
      ReachU c s → (links c).deleteLinks s q h st = some o → ReachU c o.st
  /-- Closing the store and opening another one on the same memory, mapped to an extent that covers the links. -/
  | reopen (a) (n : Nat) {s s' : Store} : ReachU c s → GoodAlloc a →
      init (c.withAlloc a) { s with len := n } = some (.ok s') → s.hdr.allocated < s'.len → ReachU c s'

variable {c : Cfg}

theorem view_mend (s : Store) : (links c.mend).view s = (links c).view s := rfl

theorem createLinks_mend (a : Nat → Nat → Option Nat) (s : Store) (q : List Nat) {σ : Type} (h : WH σ) (st : σ) :
    (links (c.mend.withAlloc a)).createLinks s q h st = (links (c.withAlloc a)).createLinks s q h st := rfl

theorem init_mend (a : Nat → Nat → Option Nat) (s : Store) : init (c.mend.withAlloc a) s = init (c.withAlloc a) s := rfl

theorem eachIdx_mend {σ : Type} (s : Store) (h : RH σ) : ∀ (l : List Nat) (st : σ), eachIdx c.mend s h l st = eachIdx c s h l st
  | [], _ => rfl
  | i :: l, st => by
    have e : getLink c.mend s i = getLink c s i := rfl
    simp only [eachIdx, eachIdx_mend s h l, e]

theorem eachAll_mend {σ : Type} (s : Store) (h : RH σ) (st : σ) : eachAll c.mend s h st = eachAll c s h st := eachIdx_mend s h _ st

theorem eachLinks_mend {σ : Type} (s : Store) (q : List Nat) (h : RH σ) (st : σ) : eachLinks c.mend s q h st = eachLinks c s q h st := by
  have e3 : ∀ i x y st, each3 c.mend s i x y h st = each3 c s i x y h st := by
    intro i x y st
    simp only [each3, eachAll_mend]
    rfl
  simp only [eachLinks, eachAll_mend, e3]
  rfl

theorem visits_mend (s : Store) (q : List Nat) (L : List Link) : (links c.mend).Visits s q L = (links c).Visits s q L := by
  have e : ∀ σ h st, (links c.mend).eachLinks (σ := σ) s q h st = (links c).eachLinks s q h st := fun σ h st => eachLinks_mend s q h st
  simp only [Links.Visits, e]

/-- The update does the same over the mended crate. -/
theorem updateLinks_mend (hc : CfgOK₀ c) {s : Store} (hg : Good c.mend s) (hu : ((links c).view s).Uniq) {q ch : List Nat}
    (ha : ∀ i a b, q[0]? = some i → ch[1]? = some a → ch[2]? = some b → (links c).view s i ≠ none →
      (((links c).view s).set i (a, b)).Uniq) {σ : Type} (h : WH σ) (st : σ) :
    updateLinks c s q ch h st = updateLinks c.mend s q ch h st := by
  obtain ⟨free, ts, tt, hi⟩ := hg
  have hc' := hc.mend
  have hgl : ∀ i, getLink c s i = some (if LiveIn s free i then some (s.linkAt i) else none) := getLink_eq hc' hi.toInv0
  have hvw : ∀ i, (links c).view s i = if LiveIn s free i then some (s.lk i) else none := view_eq hc' hi.toInv0
  simp only [updateLinks]
  cases hq : q[0]? with
  | none => rfl
  | some i =>
    cases h1 : ch[1]? with
    | none => rfl
    | some a =>
      cases h2 : ch[2]? with
      | none => rfl
      | some b =>
        simp only [Option.bind_some, hgl, getLink_eq hc' hi.toInv0]
        by_cases hl : LiveIn s free i
        · simp only [if_pos hl, Store.linkAt]
          have hv := hvw i
          rw [if_pos hl] at hv
          have hua := ha i a b hq h1 h2 (by rw [hv]; simp)
          rw [relink_mend hc hi hl (fun k hk => noTwinIn hc' hi.toInv0 hk (hu k)) (fun x y hx hy hxy h0 e => hxy ?_)]
          have hset : ∀ z, LiveIn s free z → ((links c).view s).set i (a, b) z = some (if z = i then (a, b) else s.lk z) := by
            intro z hz
            unfold View.set
            by_cases hzi : z = i
            · simp only [hzi, if_true]
            · simp only [if_neg hzi]; rw [hvw, if_pos hz]
          exact (hua x _ (hset x hx) h0 y (by rw [hset y hy, e])).symm
        · simp only [if_neg hl]

theorem uniq_set_null {v : View} (hu : v.Uniq) (i : Nat) : (v.set i (0, 0)).Uniq := by
  intro x p hx hp y hy
  unfold View.set at hx hy
  by_cases hxi : x = i
  · rw [if_pos hxi] at hx; cases hx; exact absurd rfl hp
  · rw [if_neg hxi] at hx
    by_cases hyi : y = i
    · rw [if_pos hyi] at hy; cases hy; exact absurd rfl hp
    · rw [if_neg hyi] at hy; exact hu x p hx hp y hy

theorem releaseTop_mend : ∀ (f : Nat) (s : Store), releaseTop c.mend f s = releaseTop c f s
  | 0, _ => rfl
  | f + 1, s => by
    simp only [releaseTop]
    have e : ∀ s i, unusedDetach c.mend s i = unusedDetach c s i := fun _ _ => rfl
    simp only [e, releaseTop_mend f]

/-- The deletion does the same over the mended crate. -/
theorem deleteLinks_mend (hc : CfgOK₀ c) {s : Store} (hg : Good c.mend s) (hu : ((links c).view s).Uniq) {q : List Nat}
    {σ : Type} (h : WH σ) (st : σ) : deleteLinks c s q h st = deleteLinks c.mend s q h st := by
  simp only [deleteLinks]
  cases hq : q[0]? with
  | none => rfl
  | some i =>
    simp only [Option.bind_some]
    rw [updateLinks_mend hc hg hu (q := [i]) (ch := [i, 0, 0]) (fun j a b _ h1 h2 _ => by
      simp at h1 h2; subst h1 h2; exact uniq_set_null hu j)]
    simp only [releaseTop_mend]
    rfl

/-- Effect of `create_links` on the links. -/
theorem create_view (hc : CfgOK c) {s : Store} (hg : Good c s) {q : List Nat} {σ : Type} {h : WH σ} {st : σ} {o : Out Store σ Flow}
    (ho : createLinks c s q h st = some o) :
    Good c o.st ∧ ((links c).view o.st = (links c).view s ∨ ∃ i, (links c).view o.st = ((links c).view s).set i (0, 0)) := by
  obtain ⟨free, ts, tt, hi⟩ := hg
  rcases createLinks_ok hc hi q h st with
    ⟨x, rest, s', hf, h1, h2, h3, h4, h5, h6⟩ | ⟨hf, h1, h2⟩ | ⟨hf, h1, h2, h3, h4⟩ | ⟨hf, h1, h2, n, h3, h4, h5⟩ |
    ⟨hf, h1, s', h2, h3, h4, h5, h6⟩
  · rw [h1] at ho; cases ho
    refine ⟨⟨_, _, _, h2⟩, .inr ⟨x, ?_⟩⟩
    have hnd := hi.base.list.nodup
    rw [hf] at hnd
    funext k
    show (links c).view s' k = _
    rw [view_eq hc h2.toInv0]
    unfold View.set
    by_cases hk : k = x
    · subst hk
      have hx := hi.free_lt k (by simp [hf])
      have h0 := hi.base.list.nonzero k (by simp [hf])
      rw [if_pos rfl, if_pos ⟨by omega, by omega, (List.nodup_cons.1 hnd).1⟩, h5]
    · rw [if_neg hk, view_eq hc hi.toInv0]
      have : LiveIn s' rest k ↔ LiveIn s free k := by simp [LiveIn, h3, hf, hk]
      by_cases hl : LiveIn s free k
      · rw [if_pos (this.2 hl), if_pos hl, h6 k hl.2.2]
      · rw [if_neg fun e => hl (this.1 e), if_neg hl]
  · rw [h2] at ho; cases ho; exact ⟨⟨_, _, _, hi⟩, .inl rfl⟩
  · rw [h4] at ho; cases ho; exact ⟨⟨_, _, _, hi⟩, .inl rfl⟩
  · rw [h5] at ho; cases ho
  · rw [h2] at ho; cases ho
    refine ⟨⟨_, _, _, h3⟩, .inr ⟨s.hdr.allocated + 1, ?_⟩⟩
    subst hf
    funext k
    show (links c).view s' k = _
    rw [view_eq hc h3.toInv0]
    unfold View.set
    by_cases hk : k = s.hdr.allocated + 1
    · rw [if_pos hk, if_pos ⟨by omega, by omega, by simp⟩, hk, h5]
    · rw [if_neg hk, view_eq hc hi.toInv0, h6]
      have : LiveIn s' [] k ↔ LiveIn s [] k := by simp [LiveIn, h4]; omega
      by_cases hl : LiveIn s [] k
      · rw [if_pos (this.2 hl), if_pos hl]
      · rw [if_neg fun e => hl (this.1 e), if_neg hl]

/-- Every duplicate-free history over a crate that keeps the weaker contract is a history over the mended crate. -/
theorem reachU_mend (hc : CfgOK₀ c) {s : Store} (h : ReachU c s) : Reach c.mend s ∧ ((links c).view s).Uniq := by
  have hc' := hc.mend
  induction h with
  | fresh a ha h =>
    refine ⟨.fresh a ha h, ?_⟩
    obtain ⟨h1, h2⟩ := init_fresh (hc'.withAlloc ha) h
    intro i p hp
    have hv := (view_eq (hc'.withAlloc ha) h1.toInv0 i).symm.trans hp
    rw [if_neg (fun hl : LiveIn _ _ i => by have := hl.1; have := hl.2.1; omega)] at hv
    cases hv
  | @create a s q σ h st o _ ha ho ih =>
    refine ⟨.create (q := q) a ih.1 ha ho, ?_⟩
    obtain ⟨free, ts, tt, hi⟩ := reach_good hc' ih.1
    rcases (create_view (hc'.withAlloc ha) ⟨free, ts, tt, hi.withAlloc a⟩ (q := q) ho).2 with e | ⟨i, e⟩
    · exact e ▸ ih.2
    · exact e ▸ uniq_set_null ih.2 i
  | @update s q ch σ h st o _ hu ho ih =>
    have hg := reach_good hc' ih.1
    have ho' : updateLinks c.mend s q ch h st = some o := by rw [← updateLinks_mend hc hg ih.2 hu]; exact ho
    refine ⟨.update ih.1 (fun i _ => ih.2 i) ho', ?_⟩
    obtain ⟨free, ts, tt, hi⟩ := hg
    match q, ch with
    | [], _ => simp [updateLinks] at ho'
    | _ :: _, [] => simp [updateLinks] at ho'
    | _ :: _, [_] => simp [updateLinks] at ho'
    | _ :: _, [_, _] => simp [updateLinks] at ho'
    | i :: q, x :: a :: b :: ch =>
      by_cases hl : LiveIn s free i
      · obtain ⟨s', ts', tt', h1, h2, h3, h4, h5⟩ := updateLinks_ok hc' hi hl (noTwinIn hc' hi.toInv0 hl (ih.2 i)) q x a b ch h st
        rw [h1] at ho'; cases ho'
        have hv := view_eq hc' hi.toInv0 i
        rw [if_pos hl] at hv
        have := hu i a b rfl rfl rfl (by rw [← view_mend, hv]; simp)
        have e : (links c).view s' = ((links c).view s).set i (a, b) := by
          funext k
          show (links c.mend).view s' k = ((links c.mend).view s).set i (a, b) k
          unfold View.set
          rw [view_eq hc' h2.toInv0, view_eq hc' hi.toInv0, h5]
          have hlk : LiveIn s' free k ↔ LiveIn s free k := by simp [LiveIn, h4]
          by_cases hk : k = i
          · subst hk; rw [if_pos (hlk.2 hl), if_pos rfl, if_pos rfl]
          · rw [if_neg hk, if_neg hk]
            by_cases hlk' : LiveIn s free k
            · rw [if_pos (hlk.2 hlk'), if_pos hlk']
            · rw [if_neg fun e => hlk' (hlk.1 e), if_neg hlk']
        exact e ▸ this
      · rw [updateLinks_missing hc' hi.toInv0 hl] at ho'; cases ho'; exact ih.2
  | @delete s q σ h st o _ ho ih =>
    have hg := reach_good hc' ih.1
    have ho' : deleteLinks c.mend s q h st = some o := by rw [← deleteLinks_mend hc hg ih.2]; exact ho
    refine ⟨.delete ih.1 (fun i _ => ih.2 i) ho', ?_⟩
    obtain ⟨free, ts, tt, hi⟩ := hg
    match q with
    | [] => simp [deleteLinks] at ho'
    | i :: q =>
      by_cases hl : LiveIn s free i
      · obtain ⟨s', free', ts', tt', h1, h2, -, -, -, h3, h4⟩ := deleteLinks_ok hc' hi hl (noTwinIn hc' hi.toInv0 hl (ih.2 i)) q h st
        rw [h1] at ho'; cases ho'
        have e : (links c).view s' = ((links c).view s).del i := by
          funext k
          show (links c.mend).view s' k = ((links c.mend).view s).del i k
          unfold View.del
          rw [view_eq hc' h2.toInv0, view_eq hc' hi.toInv0]
          by_cases hk : k = i
          · rw [if_pos hk, if_neg fun e => ((h3 k).1 e).2 hk]
          · rw [if_neg hk]
            by_cases hlk : LiveIn s free k
            · rw [if_pos ((h3 k).2 ⟨hlk, hk⟩), if_pos hlk, h4 k hlk hk]
            · rw [if_neg fun e => hlk ((h3 k).1 e).1, if_neg hlk]
        exact e ▸ ih.2.del i
      · rw [deleteLinks_missing hc' hi.toInv0 hl] at ho'; cases ho'; exact ih.2
  | @reopen a n s s' _ ha h hlt ih =>
    refine ⟨.reopen a n ih.1 ha h hlt, ?_⟩
    obtain ⟨free, ts, tt, hi⟩ := reach_good hc' ih.1
    obtain ⟨h1, h2, h3⟩ := init_reopen (hc'.withAlloc ha) (hi.withAlloc a) h hlt
    have e : (links c).view s' = (links c).view s := by
      funext k
      refine (view_eq (hc'.withAlloc ha) h1.toInv0 k).trans (Eq.trans ?_ (view_eq hc' hi.toInv0 k).symm)
      rw [h3]
      have hl : LiveIn s' free k ↔ LiveIn s free k := by simp [LiveIn, h2]
      by_cases hk : LiveIn s free k
      · rw [if_pos (hl.2 hk), if_pos hk]
      · rw [if_neg fun e => hk (hl.1 e), if_neg hk]
    exact e ▸ ih.2

/-- The unit store over a crate that keeps the weaker contract, on duplicate-free histories. -/
noncomputable def weakLawful (hc : CfgOK₀ c) : Lawful (links c) :=
  let W := lawful hc.mend
  have G : ∀ {s}, ReachU c s → Good c.mend s := fun h => reach_good hc.mend (reachU_mend hc h).1
  { Inv := ReachU c
    CanCreate := CanGrow c
    CanUpdate := fun v i a b => (v.set i (a, b)).Uniq
    CanDelete := fun _ _ => True
    canDelete_del := fun _ _ _ _ => trivial
    canDelete_uniq := fun _ _ _ => trivial
    get := fun s h => W.get s (G h)
    null := fun s h => W.null s (G h)
    any_pos := fun s h => W.any_pos s (G h)
    any_absent := fun s h => W.any_absent s (G h)
    create := by
      intro s h hg q
      rcases W.create s (G h) hg q with e | ⟨i, s', h1, -, h3, h4, h5⟩
      · exact .inl e
      · exact .inr ⟨i, s', h1, .create (q := q) (h := fun (u : _root_.Unit) _ _ => (.cont, u)) (st := ()) c.alloc h
          hc.alloc_ge (h5 _root_.Unit (fun (u : _root_.Unit) _ _ => (.cont, u)) ()), h3, h4, h5⟩
    update_missing := by
      intro s h i hv x a b σ hd st
      show updateLinks c s [i] [x, a, b] hd st = _
      rw [updateLinks_mend hc (G h) (reachU_mend hc h).2 (q := [i]) (ch := [x, a, b])
        (fun j _ _ hj _ _ hn => by cases hj; exact absurd hv hn)]
      exact W.update_missing s (G h) i hv x a b σ hd st
    update := by
      intro s h i p hv ht x a b hu
      obtain ⟨s', before, h1, -, h3, h4, h5⟩ := W.update s (G h) i p hv ht x a b trivial
      have hua : ∀ j a' b', [i][0]? = some j → [x, a, b][1]? = some a' → [x, a, b][2]? = some b' → (links c).view s j ≠ none →
          (((links c).view s).set j (a', b')).Uniq := by
        intro j a' b' hj ha hb _
        cases hj; cases ha; cases hb; exact hu
      have h5' : Links.Succeeds (fun _ h st => (links c).updateLinks s [i] [x, a, b] h st) s' before ⟨i, a, b⟩ := by
        intro σ hd st
        show updateLinks c s [i] [x, a, b] hd st = _
        rw [updateLinks_mend hc (G h) (reachU_mend hc h).2 hua]
        exact h5 σ hd st
      exact ⟨s', before, h1, .update (q := [i]) (ch := [x, a, b]) (h := fun (u : _root_.Unit) _ _ => (.cont, u)) (st := ()) h hua
        (h5' _ _ _), h3, h4, h5'⟩
    delete_missing := by
      intro s h i hv σ hd st
      show deleteLinks c s [i] hd st = _
      rw [deleteLinks_mend hc (G h) (reachU_mend hc h).2]
      exact W.delete_missing s (G h) i hv σ hd st
    delete := by
      intro s h i p hv ht _
      obtain ⟨s', -, h3, h4, h5⟩ := W.delete s (G h) i p hv ht trivial
      have h5' : Links.Succeeds (fun _ h st => (links c).deleteLinks s [i] h st) s' ⟨i, p.1, p.2⟩ Link.nothing := by
        intro σ hd st
        show deleteLinks c s [i] hd st = _
        rw [deleteLinks_mend hc (G h) (reachU_mend hc h).2]
        exact h5 σ hd st
      exact ⟨s', .delete (q := [i]) (h := fun (u : _root_.Unit) _ _ => (.cont, u)) (st := ()) h (h5' _ _ _), h3, h4, h5'⟩
    each_all := fun s h => by
      have := W.each_all s (G h)
      simp only [visits_mend] at this
      exact this
    count_all := fun s h => by
      have := W.count_all s (G h)
      simp only [visits_mend] at this
      exact this
    bounded := fun s h => by
      have := W.bounded s (G h)
      simp only [visits_mend] at this
      exact this
    each_index := fun s h => by
      have := W.each_index s (G h)
      simp only [visits_mend] at this
      exact this
    count_index := fun s h => W.count_index s (G h)
    each_source := fun s h => by
      have := W.each_source s (G h)
      simp only [visits_mend] at this
      exact this
    each_target := fun s h => by
      have := W.each_target s (G h)
      simp only [visits_mend] at this
      exact this
    each_pair := fun s h => by
      have := W.each_pair s (G h)
      simp only [visits_mend] at this
      exact this
    count_pair := fun s h => W.count_pair s (G h)
    count_usages := fun s h => W.count_usages s (G h)
    count_source := fun s h => by
      have := W.count_source s (G h)
      simp only [visits_mend] at this
      exact this
    count_target := fun s h => by
      have := W.count_target s (G h)
      simp only [visits_mend] at this
      exact this }

end Verif.Unit
