import Verif.Unit.Reach
import Verif.DerivedLaws

/-! # Reachability is an invariant under which the united store is lawful (helper lemmas) -/

namespace Verif.Unit
open Verif

variable {c : Cfg}

/-- The united store is lawful on its reachable states. -/
def reachLawful (hc : CfgOK c) : Lawful (links c) :=
  let W := lawful hc
  { Inv := Reach c
    CanCreate := CanGrow c
    CanUpdate := fun _ _ _ _ => True
    CanDelete := fun _ _ => True
    canDelete_del := fun _ _ _ _ => trivial
    canDelete_uniq := fun _ _ _ => trivial
    get := fun s h => W.get s (reach_good hc h)
    null := fun s h => W.null s (reach_good hc h)
    any_pos := fun s h => W.any_pos s (reach_good hc h)
    any_absent := fun s h => W.any_absent s (reach_good hc h)
    create := by
      intro s h hg q
      rcases W.create s (reach_good hc h) hg q with e | ⟨i, s', h1, -, h3, h4, h5⟩
      · exact .inl e
      · exact .inr ⟨i, s', h1, .create (h := fun (u : _root_.Unit) _ _ => (.cont, u)) (st := ()) c.alloc h
          hc.alloc_ge (h5 _ _ _), h3, h4, h5⟩
    update_missing := fun s h => W.update_missing s (reach_good hc h)
    update := by
      intro s h i p hv ht x a b hu
      obtain ⟨s', before, h1, -, h3, h4, h5⟩ := W.update s (reach_good hc h) i p hv ht x a b hu
      exact ⟨s', before, h1, .update (q := [i]) (ch := [x, a, b])
        (h := fun (u : _root_.Unit) _ _ => (.cont, u)) (st := ()) h
        (fun j hj => by cases hj; exact ht) (h5 _ _ _), h3, h4, h5⟩
    delete_missing := fun s h => W.delete_missing s (reach_good hc h)
    delete := by
      intro s h i p hv ht _
      obtain ⟨s', -, h3, h4, h5⟩ := W.delete s (reach_good hc h) i p hv ht trivial
      exact ⟨s', .delete (q := [i]) (h := fun (u : _root_.Unit) _ _ => (.cont, u)) (st := ()) h
        (fun j hj => by cases hj; exact ht) (h5 _ _ _), h3, h4, h5⟩
    each_all := fun s h => W.each_all s (reach_good hc h)
    count_all := fun s h => W.count_all s (reach_good hc h)
    bounded := fun s h => W.bounded s (reach_good hc h)
    each_index := fun s h => W.each_index s (reach_good hc h)
    count_index := fun s h => W.count_index s (reach_good hc h)
    each_source := fun s h => W.each_source s (reach_good hc h)
    each_target := fun s h => W.each_target s (reach_good hc h)
    each_pair := fun s h => W.each_pair s (reach_good hc h)
    count_pair := fun s h => W.count_pair s (reach_good hc h)
    count_usages := fun s h => W.count_usages s (reach_good hc h)
    count_source := fun s h => W.count_source s (reach_good hc h)
    count_target := fun s h => W.count_target s (reach_good hc h) }

end Verif.Unit
