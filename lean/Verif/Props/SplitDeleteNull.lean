import Verif.Props.DeleteExact
import Verif.Props.SplitNull
import Verif.Props.SplitCounts

/-!
# C68, the split store: what `delete_query_with` does for queries that ask for null ends

The traversals of C67 decide what is deleted: nothing, or links that do not match.
-/

namespace Verif.Split.Props
open Verif Links

variable {c : Cfg}

/-- Outcome of a deletion by query: the links of `L` are gone and nothing else, each was reported once, in that order. -/
def DeletesJust (c : Cfg) (s : Store) (q : List Nat) (L : List Link) : Prop :=
  ∃ s', Reach c s' ∧ (∀ l, ((links c).view s').Has l ↔ ((links c).view s).Has l ∧ l ∉ L) ∧
    ∀ (σ ρ : Type) (hd : σ → Link → Link → Ctl ρ × σ) (st : σ), (links c).deleteQueryWith s q hd st =
      some ⟨.ok (), s', callAll hd (L.map fun l => (l, Link.nothing)) st⟩

/-- What a query visits once is what it deletes. -/
theorem deletes_visited (hc : CfgOK c) {s : Store} (h : Reach c s) (hu : ((links c).view s).Uniq) {q : List Nat} {L : List Link}
    (hn : (links c).countBy s q ≠ none) (hv : (links c).Visits s q L) (hd : L.Nodup) (hL : ∀ l ∈ L, ((links c).view s).Has l) :
    DeletesJust c s q L.reverse := by
  obtain ⟨n, hn⟩ := Option.ne_none_iff_exists'.1 hn
  obtain ⟨s', h1, h2, h3⟩ := Links.deleteQueryWith_law (reachLawful hc) h hn hv hd (fun l hl => ⟨hL l hl, hu l.index⟩)
    (fun l _ => (reachLawful hc).canDelete_uniq _ _ hu)
  exact ⟨s', h1, fun l => by rw [List.mem_reverse]; exact Unit.Props.has_of_deleted hL h2 l, fun _ _ hd st => h3 hd st⟩

theorem nodup_of_length_le_one {L : List Link} (h : L.length ≤ 1) : L.Nodup := by
  match L, h with
  | [], _ => exact List.nodup_nil
  | [_], _ => simp

theorem reverse_of_length_le_one {L : List Link} (h : L.length ≤ 1) : L.reverse = L := by
  match L, h with
  | [], _ => rfl
  | [_], _ => rfl

/-- **C68**, split store, queries for null ends, doublets being unique and no index below a link unused. Queries for a null source, a null
target, a null end on either side (if the count returns), two null ends, or a source and the null target delete nothing, whatever matches.
A query for the null source and a target `y` deletes one link that matches if there is one and `y` is a link, and otherwise nothing; links with
unique doublets match one at a time. -/
theorem C68_split_null_queries_without_gaps (hc : CfgOK c) {s : Store} (h : Reach c s) (hu : ((links c).view s).Uniq)
    (hg : ((links c).view s).GapFree) :
    DeletesJust c s [c.consts.any, 0, c.consts.any] [] ∧ DeletesJust c s [c.consts.any, c.consts.any, 0] [] ∧
    ((links c).countBy s [c.consts.any, 0] ≠ none → DeletesJust c s [c.consts.any, 0] []) ∧
    DeletesJust c s [c.consts.any, 0, 0] [] ∧ (∀ x, x ≠ c.consts.any → DeletesJust c s [c.consts.any, x, 0] []) ∧
    ∀ y, y ≠ 0 → y ≠ c.consts.any → ∃ L, DeletesJust c s [c.consts.any, 0, y] L ∧
      ∀ l, l ∈ L ↔ ((links c).view s).Has l ∧ l.source = 0 ∧ l.target = y ∧ (links c).view s y ≠ none := by
  obtain ⟨h1, h2, h3, h4, h5, h6⟩ := C67_null_ends_without_gaps hc h hg
  have hcnt : ∀ a b d, (links c).countBy s [a, b, d] ≠ none := fun a b d => by
    obtain ⟨n, hn⟩ := C67_counts_return hc h [a, b, d] (by simp) (by simp)
    simp [hn]
  have del : ∀ {q}, (links c).countBy s q ≠ none → (links c).Visits s q [] → DeletesJust c s q [] := fun hq hv =>
    deletes_visited hc h hu hq hv List.nodup_nil (by simp)
  refine ⟨del (hcnt _ _ _) h1, del (hcnt _ _ _) h2, fun hq => del hq h3, del (hcnt _ _ _) h4, fun x hx => del (hcnt _ _ _) (h5 x hx),
    fun y hy hya => ?_⟩
  obtain ⟨L, g1, g2, g3, g4⟩ := h6 y hy hya
  refine ⟨L, ?_, fun l => ⟨fun hl => ?_, ?_⟩⟩
  · have := deletes_visited hc h hu (hcnt _ _ _) g1 (nodup_of_length_le_one g2) fun l hl => (g3 l hl).1
    rwa [reverse_of_length_le_one g2] at this
  · obtain ⟨e1, e2, e3⟩ := g3 l hl
    exact ⟨e1, e2, e3, (g4.1 (List.ne_nil_of_mem hl)).1⟩
  · rintro ⟨e1, e2, e3, e4⟩
    have hne := g4.2 ⟨e4, l, e1, e2, e3⟩
    obtain ⟨l', hl'⟩ := List.exists_mem_of_ne_nil L hne
    obtain ⟨k1, k2, k3⟩ := g3 l' hl'
    have e1 : (links c).view s l.index = some (l.source, l.target) := e1
    have k1 : (links c).view s l'.index = some (l'.source, l'.target) := k1
    have : l.index = l'.index := by
      refine hu l'.index (0, y) (by rw [k1, k2, k3]) (by intro e; rw [Prod.mk.injEq] at e; exact hy e.2) l.index
        (by rw [e1, e2, e3])
    rcases l with ⟨a, b, d⟩; rcases l' with ⟨a', b', d'⟩
    simp only at this e2 e3 k2 k3
    subst this e2 e3
    rw [k2, k3] at hl'
    exact hl'

/-- **C68**, split store, queries for null ends, doublets being unique and some index below a link unused; `top` is the link with the highest
index. A query for a null target still deletes nothing. A query for a null source, on whichever side, deletes `top`, whatever its source is: if it is
null, `top` is all that is deleted; if it is not, nothing that is deleted has a null source. -/
theorem C68_split_null_queries_with_gaps (hc : CfgOK c) {s : Store} (h : Reach c s) (hu : ((links c).view s).Uniq)
    (hg : ¬ ((links c).view s).GapFree) :
    DeletesJust c s [c.consts.any, c.consts.any, 0] [] ∧
    ∃ L top, DeletesJust c s [c.consts.any, 0, c.consts.any] L ∧
      ((links c).countBy s [c.consts.any, 0] ≠ none → DeletesJust c s [c.consts.any, 0] L) ∧ L.Nodup ∧
      top ∈ L ∧ (∀ l, ((links c).view s).Has l → l.index ≤ top.index) ∧ (∀ l ∈ L, ((links c).view s).Has l) ∧
      (top.source = 0 → L = [top]) ∧ (top.source ≠ 0 → ∀ l ∈ L, l.source ≠ 0) := by
  obtain ⟨h1, L, top, h2, h3, h4, h5, h6, h7, h8, h9⟩ := C67_null_ends_with_gaps hc h hg
  have hcnt : ∀ a b d, (links c).countBy s [a, b, d] ≠ none := fun a b d => by
    obtain ⟨n, hn⟩ := C67_counts_return hc h [a, b, d] (by simp) (by simp)
    simp [hn]
  refine ⟨deletes_visited hc h hu (hcnt _ _ _) h1 List.nodup_nil (by simp), L.reverse, top,
    deletes_visited hc h hu (hcnt _ _ _) h2 h4 h7, fun hq => deletes_visited hc h hu hq h3 h4 h7, ?_, List.mem_reverse.2 h5, h6,
    fun l hl => h7 l (List.mem_reverse.1 hl), fun e => by rw [h8 e]; rfl, fun e l hl => h9 e l (List.mem_reverse.1 hl)⟩
  rw [List.nodup_iff_pairwise_ne, List.pairwise_reverse]
  exact (List.nodup_iff_pairwise_ne.1 h4).imp fun hne e => hne e.symm

/-- **C68**, split store, queries for a source and a target of which one is null, with an unused index below a link: at most one link is
deleted; it agrees with the query in the end that is not null. Asked for a source and the null target, it has a target. Asked for two null ends,
it has a target, or is `top` with two null ends. Asked for the null source and a target, it is `top` if that has no source; if not, it may have any
source. -/
theorem C68_split_null_pairs_with_gaps (hc : CfgOK c) {s : Store} (h : Reach c s) (hu : ((links c).view s).Uniq)
    (hg : ¬ ((links c).view s).GapFree) :
    ∃ top, ((links c).view s).Has top ∧ (∀ l, ((links c).view s).Has l → l.index ≤ top.index) ∧
      (∀ x, x ≠ 0 → x ≠ c.consts.any → ∃ L, DeletesJust c s [c.consts.any, x, 0] L ∧ L.length ≤ 1 ∧
        ∀ l ∈ L, ((links c).view s).Has l ∧ l.source = x ∧ l.target ≠ 0) ∧
      (top.source = 0 → ∀ y, y ≠ c.consts.any →
        DeletesJust c s [c.consts.any, 0, y] (if top.target = y then [top] else [])) ∧
      (top.source ≠ 0 →
        (∃ L, DeletesJust c s [c.consts.any, 0, 0] L ∧ L.length ≤ 1 ∧
          ∀ l ∈ L, ((links c).view s).Has l ∧ l.source = 0 ∧ l.target ≠ 0) ∧
        ∀ y, y ≠ 0 → y ≠ c.consts.any → ∃ L, DeletesJust c s [c.consts.any, 0, y] L ∧ L.length ≤ 1 ∧
          ∀ l ∈ L, ((links c).view s).Has l ∧ l.target = y) := by
  obtain ⟨top, h1, h2, h3, h4, h5⟩ := C67_null_pairs_with_gaps hc h hg
  have hcnt : ∀ a b d, (links c).countBy s [a, b, d] ≠ none := fun a b d => by
    obtain ⟨n, hn⟩ := C67_counts_return hc h [a, b, d] (by simp) (by simp)
    simp [hn]
  have del : ∀ {a b d L}, (links c).Visits s [a, b, d] L → L.length ≤ 1 → (∀ l ∈ L, ((links c).view s).Has l) →
      DeletesJust c s [a, b, d] L := fun {a b d L} hv hl hL => by
    have := deletes_visited hc h hu (hcnt a b d) hv (nodup_of_length_le_one hl) hL
    rwa [reverse_of_length_le_one hl] at this
  refine ⟨top, h1, h2, fun x hx hxa => ?_, fun ht y hy => ?_, fun ht => ⟨?_, fun y hy hya => ?_⟩⟩
  · obtain ⟨L, g1, g2, g3⟩ := h3 x hx hxa
    exact ⟨L, del g1 g2 fun l hl => (g3 l hl).1, g2, g3⟩
  · refine del (h4 ht y hy) (by split <;> simp) fun l hl => ?_
    split at hl
    · rw [List.mem_singleton.1 hl]; exact h1
    · cases hl
  · obtain ⟨L, g1, g2, g3⟩ := (h5 ht).1
    exact ⟨L, del g1 g2 fun l hl => (g3 l hl).1, g2, g3⟩
  · obtain ⟨L, g1, g2, g3⟩ := (h5 ht).2 y hy hya
    exact ⟨L, del g1 g2 fun l hl => (g3 l hl).1, g2, g3⟩

/-- The hypotheses are met: in `sNetU`, where 4 is the only link with a null source and 5 has been deleted, deleting all links with a null
source deletes link 6 = (3,2) and keeps link 4. -/
example : Reach cfg0 sNetU ∧ ((links cfg0).view sNetU).Uniq ∧ ¬ ((links cfg0).view sNetU).GapFree ∧
    ((links cfg0).deleteQueryWith sNetU [252, 0, 252] contH ()).map (fun o => (List.range 8).map ((links cfg0).view o.st)) =
      some [none, some (1, 1), some (1, 3), some (2, 2), some (0, 0), none, none, none] := by
  refine ⟨sNetU_reach, sNetU_uniq, fun h => ?_, by decide +kernel⟩
  exact h 5 6 (by decide +kernel) (by omega) (by omega) (by decide +kernel)

/-- The other case: `sFull`, links 1 = (0,0), 2 = (0,1), 3 = (1,2), 4 = (0,9) without a gap. Deleting the links with a null source deletes nothing,
deleting the pair (0,1) deletes link 2, and deleting the pair (0,9) does not delete link 4, as 9 is not a link. -/
example : Reach cfg0 sFull ∧ ((links cfg0).view sFull).Uniq ∧ ((links cfg0).view sFull).GapFree ∧
    [[252, 0, 252], [252, 0, 1], [252, 0, 9]].map (fun q => ((links cfg0).deleteQueryWith sFull q contH ()).map fun o =>
      (List.range 5).map ((links cfg0).view o.st)) =
      [some [none, some (0, 0), some (0, 1), some (1, 2), some (0, 9)], some [none, some (0, 0), none, some (1, 2), some (0, 9)],
       some [none, some (0, 0), some (0, 1), some (1, 2), some (0, 9)]] :=
  ⟨sFull_reach, uniq_of_collect (reachLawful cfg0_ok) sFull_reach (by decide +kernel), by
    obtain ⟨free, hi⟩ := reach_good cfg0_ok sFull_reach
    refine (gapFree_iff cfg0_ok hi).2 ?_
    have hf : sFull.hdr.firstFree = free.headD 0 := hi.base.list.first_eq
    have h0 : sFull.hdr.firstFree = 0 := by decide +kernel
    cases free with
    | nil => rfl
    | cons x r => exact absurd (h0.symm.trans hf).symm (hi.base.list.nonzero x (by simp)), by decide +kernel⟩

end Verif.Split.Props
