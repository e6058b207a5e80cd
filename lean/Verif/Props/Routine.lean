import Verif.Routine

/-!
# C116: a careful client cannot tell which store it uses
-/

namespace Verif

/-- A routine ends by giving up or with what it computed. -/
theorem run_result {S α : Type} {D : Links S} {any : Nat} {P : Routine α} :
    ∀ {s s' : S} {r : Except Err α}, P.run D any s = some (r, s') → r = .error .allocFailed ∨ ∃ a, r = .ok a := by
  induction P with
  | done a => intro s s' r h; cases h; exact .inr ⟨a, rfl⟩
  | write k next ih =>
    intro s s' r h
    simp only [Routine.run, Option.bind_eq_some_iff] at h
    obtain ⟨o, -, h⟩ := h
    split at h
    · cases h; exact .inl rfl
    · exact ih _ h
  | get i next ih =>
    intro s s' r h
    simp only [Routine.run, Option.bind_eq_some_iff] at h
    obtain ⟨o, -, h⟩ := h
    exact ih _ h
  | count p next ih =>
    intro s s' r h
    simp only [Routine.run, Option.bind_eq_some_iff] at h
    obtain ⟨o, -, h⟩ := h
    exact ih _ h
  | gather p next ih =>
    intro s s' r h
    simp only [Routine.run, Option.bind_eq_some_iff] at h
    obtain ⟨o, -, h⟩ := h
    exact ih _ h
  | search x y next ih =>
    intro s s' r h
    simp only [Routine.run, Option.bind_eq_some_iff] at h
    obtain ⟨o, -, h⟩ := h
    exact ih _ h
  | list next ih =>
    intro s s' r h
    simp only [Routine.run, Option.bind_eq_some_iff] at h
    obtain ⟨o, -, h⟩ := h
    exact ih _ h

end Verif

namespace Verif.Unit.Props
open Verif Verif.Unit

variable {c : Cfg}

theorem splitOK_noTwin {k : Call} {v : View} {r : Except Err Nat} (h : k.SplitOK v r) :
    ∀ i, k.subject = some i → v.NoTwin i := by
  intro i hi
  cases k with
  | create => cases hi
  | update j a b => cases hi; exact h.1
  | delete j => cases hi; exact h.1

theorem query_answer (hc : CfgOK c) {s : Store} (hg : Good c s) {p : List (Option Nat)}
    (ha : Askable ((links c).view s) p) (hp : ∀ x, some x ∈ p → x ≠ c.consts.any) :
    ∃ L, (links c).Visits s (askWith c.consts.any p) L ∧ Answer ((links c).view s) p L ∧
      (links c).countBy s (askWith c.consts.any p) = (if L.length ≤ c.maxT then some L.length else none) := by
  obtain ⟨L, h1, h2, h3, h4, h5, -⟩ := query_law hc hg (askWith c.consts.any p) (by simpa [askWith] using ha.short)
  have hn := nullFree_of_askable (any_ne_zero hc) ha hp
  exact ⟨L, h1, answer_of_visits ha hp h3 (h4 hn) (fun k => ⟨(h5 k).1, (h5 k).2 hn⟩), h2⟩

theorem serves (hc : CfgOK c) : Serves (links c) c.consts.any c.consts.internalEnd (History c) where
  write := by
    intro s tr k o h hk ho
    have ho : step c c.alloc s k = some o := by cases k <;> exact ho
    have h' := History.call c.alloc k h hc.alloc_ge (splitOK_noTwin hk) ho
    rcases history_determined hc h' tr k o.res [] rfl with e | e
    · exact .inl e
    · exact .inr ⟨e, h'⟩
  get := by
    intro s tr h i
    obtain ⟨⟨⟨ts, tt, hi⟩, -, hv, -⟩, -⟩ := history_inv hc h
    rw [← hv]
    exact (lawful hc).get s ⟨_, _, _, hi⟩ i
  visits := by
    intro s tr p h ha hp
    obtain ⟨⟨⟨ts, tt, hi⟩, -, hv, -⟩, -⟩ := history_inv hc h
    rw [← hv] at ha ⊢
    obtain ⟨L, h1, h2, -⟩ := query_answer hc ⟨_, _, _, hi⟩ ha hp
    exact ⟨L, h1, h2⟩
  count := by
    intro s tr p n h ha _ hp hn
    obtain ⟨⟨⟨ts, tt, hi⟩, -, hv, -⟩, -⟩ := history_inv hc h
    rw [← hv] at ha ⊢
    obtain ⟨L, -, h2, h3⟩ := query_answer hc ⟨_, _, _, hi⟩ ha hp
    rw [h3] at hn
    split at hn
    · cases hn; exact ⟨L, h2, rfl⟩
    · cases hn
  search := by
    intro s tr x y h _ hx hy hx' hy'
    obtain ⟨⟨⟨ts, tt, hi⟩, -, hv, -⟩, -⟩ := history_inv hc h
    rw [← hv]
    exact found_of_lawful (lawful hc) (s := s) ⟨_, _, _, hi⟩ hx hy hx' hy'
  list := by
    intro s tr h
    obtain ⟨⟨⟨ts, tt, hi⟩, -, hv, -⟩, -⟩ := history_inv hc h
    rw [← hv]
    exact ascending hc ⟨_, _, _, hi⟩ (.inl rfl)

/-- **C116**, united store. What a careful client computes on the store is what it computes on a map, and the store it
leaves behind has served the calls that lead to the map it leaves behind. -/
theorem C116_united_store_is_a_map_to_clients (hc : CfgOK c) {s s' : Store} {tr} (h : History c s tr) {limit : Nat}
    (hl : limit ≤ c.consts.internalEnd) {reserved : Nat → Prop} (hr : reserved c.consts.any) {α : Type} {P : Routine α} {a : α}
    (hP : P.Careful limit reserved (replay tr) (slots tr)) (he : P.run (links c) c.consts.any s = some (.ok a, s')) :
    ∃ tr', History c s' tr' ∧ P.Means limit (replay tr) (slots tr) a (replay tr') (slots tr') :=
  (serves hc).run hl hr P h hP he

/-- **C116**, united store. If memory never grows beyond what the index type can number, no call of a careful client panics:
it finishes or memory runs out. -/
theorem C116_united_clients_finish (hc : CfgOK c) {s : Store} {tr} (h : History c s tr) {limit : Nat}
    (hl : limit ≤ c.consts.internalEnd) {reserved : Nat → Prop} (hr : reserved c.consts.any)
    (hfit : ∀ len n, c.alloc len (len + c.step) = some n → n ≤ c.maxT) {α : Type} {P : Routine α}
    (hP : P.Careful limit reserved (replay tr) (slots tr)) :
    ∃ r s', P.run (links c) c.consts.any s = some (r, s') ∧ (r = .error .allocFailed ∨ ∃ a, r = .ok a) := by
  obtain ⟨r, s', e⟩ := (serves hc).completes hl hr (fun {s tr k} h hk => by
    obtain ⟨⟨⟨ts, tt, hi⟩, -, hv, -⟩, -⟩ := history_inv hc h
    rw [← hv] at hk
    cases k with
    | create =>
      rcases create_cases hc hi [] with ⟨x, rest, s', -, -, -, -, -, h1, -⟩ | ⟨-, -, h1⟩ | ⟨-, -, -, h1⟩ |
        ⟨-, -, ⟨n, h1, h2⟩, -⟩ | ⟨-, -, s', -, -, h1, -⟩
      · exact ⟨_, Links.create_ok h1⟩
      · exact ⟨_, Links.create_err h1⟩
      · exact ⟨_, Links.create_err h1⟩
      · have := hfit _ _ h1; omega
      · exact ⟨_, Links.create_ok h1⟩
    | update i a b => exact update_returns (lawful hc) ⟨_, _, _, hi⟩ hk.1 trivial
    | delete i => exact delete_returns (lawful hc) ⟨_, _, _, hi⟩ hk.1 trivial) (fun {s tr p} h ha _ hp => by
    obtain ⟨⟨⟨ts, tt, hi⟩, -, hv, -⟩, -⟩ := history_inv hc h
    rw [← hv] at ha
    obtain ⟨L, -, h2, h3⟩ := query_answer hc ⟨_, _, _, hi⟩ ha hp
    refine ⟨L.length, ?_⟩
    rw [h3]; exact if_pos (answer_bounded (lawful hc) (s := s) ⟨_, _, _, hi⟩ h2)) P h hP
  exact ⟨r, s', e, run_result e⟩

/-- **C116**, united store. `create_point`, `create_link` and `get_or_create` are routines of the calls above, so clients may use
them too: in whatever state the store is, they do the same as these routines. -/
theorem C116_united_composite_calls (s : Store) (x y : Nat) :
    (links c).createPoint s = (Routine.createPoint.run (links c) c.consts.any s).map asCall ∧
    (links c).createLink s x y = ((Routine.createLink x y).run (links c) c.consts.any s).map asCall ∧
    (links c).getOrCreate s x y = ((Routine.getOrCreate x y).run (links c) c.consts.any s).map asCall :=
  ⟨createPoint_run _ s, createLink_run _ (fun s => createLinks_uniform c s []) (fun s i a b => updateLinks_uniform c s [i] [i, a, b]) s x y,
    getOrCreate_run _ (fun s => createLinks_uniform c s []) (fun s i a b => updateLinks_uniform c s [i] [i, a, b]) s x y⟩

end Verif.Unit.Props

namespace Verif.Split.Props
open Verif Verif.Split

variable {c : Cfg}

theorem countOK_of_countable {any : Nat} {v : View} {p : List (Option Nat)} (ha : Askable v p) (hk : Countable v p)
    (hp : ∀ x, some x ∈ p → x ≠ any) : CountOK any v (askWith any p) := by
  match p, ha, hk, hp with
  | [], _, _, _ => trivial
  | [_], _, _, _ => trivial
  | [none, none], _, _, _ => exact ⟨fun h => absurd rfl h, fun _ h => absurd rfl h⟩
  | [none, some x], ha, _, _ => exact absurd rfl (ha.side x)
  | [some i, none], _, _, _ => exact ⟨fun _ h => absurd rfl h, fun _ h => absurd rfl h⟩
  | [some i, some x], _, hk, hp => exact ⟨fun _ _ => hk, fun h => absurd h (hp i (by simp))⟩
  | [none, none, _], _, _, _ => exact fun _ h => absurd rfl h
  | [none, some x, _], _, hk, _ => exact fun _ _ => .inl hk
  | [some i, _, _], _, _, hp => exact fun h => absurd h (hp i (by simp))
  | _ :: _ :: _ :: _ :: _, _, _, _ => trivial

theorem query_answer (hc : CfgOK c) {s : Store} (hg : Good c s) {p : List (Option Nat)}
    (ha : Askable ((links c).view s) p) (hp : ∀ x, some x ∈ p → x ≠ c.consts.any) :
    ∃ L, (links c).Visits s (askWith c.consts.any p) L ∧ Answer ((links c).view s) p L ∧
      (Countable ((links c).view s) p →
        (links c).countBy s (askWith c.consts.any p) = (if L.length ≤ c.maxT then some L.length else none)) := by
  have h0 : c.consts.any ≠ 0 := by have := hc.end_lt_any; omega
  obtain ⟨L, h1, h2, h3, h4, h5, -⟩ := query_law hc hg (askWith c.consts.any p) (by simpa [askWith] using ha.short)
    (nullFree_of_askable h0 ha hp)
  exact ⟨L, h1, answer_of_visits ha hp h3 h4 h5, fun hk => h2 (countOK_of_countable ha hk hp)⟩

/-- If the data memory can grow from a length then so can the index memory. -/
def GrowsAlike (c : Cfg) : Prop := ∀ n, c.dalloc n (n + c.step) ≠ none → c.ialloc n (n + c.step) ≠ none

theorem GrowsAlike.together (h : GrowsAlike c) {s : Store} (hs : s.dlen = s.ilen) : GrowTogether c s := by
  unfold GrowTogether; rw [hs]; exact h _

theorem serves (hc : CfgOK c) (hgrow : GrowsAlike c) :
    Serves (links c) c.consts.any c.consts.internalEnd (History c) where
  write := by
    intro s tr k o h hk ho
    have ho : step c c.dalloc c.ialloc s k = some o := by cases k <;> exact ho
    have key : o.res = .error .allocFailed ∨ k.SplitOK (replay tr) o.res := by
      cases k with
      | create =>
        rcases create_result hc (history_inv hc h).1 hc.dalloc_eq hc.ialloc_eq ho with e | e
        · exact .inl e
        · rw [e]; exact .inr hk
      | update i a b => exact .inr hk
      | delete i => exact .inr hk
    rcases key with e | e
    · exact .inl e
    · have h' := History.call c.dalloc c.ialloc k h hc.dalloc_eq hc.ialloc_eq (hgrow.together (history_inv hc h).1.1.base.len_eq) ho e
      rcases history_determined hc h' tr k o.res [] rfl with e | e
      · exact .inl e
      · exact .inr ⟨e, h'⟩
  get := by
    intro s tr h i
    obtain ⟨⟨hi, -, hv, -⟩, -⟩ := history_inv hc h
    rw [← hv]
    exact (lawful hc).get s ⟨_, hi⟩ i
  visits := by
    intro s tr p h ha hp
    obtain ⟨⟨hi, -, hv, -⟩, -⟩ := history_inv hc h
    rw [← hv] at ha ⊢
    obtain ⟨L, h1, h2, -⟩ := query_answer hc ⟨_, hi⟩ ha hp
    exact ⟨L, h1, h2⟩
  count := by
    intro s tr p n h ha hk hp hn
    obtain ⟨⟨hi, -, hv, -⟩, -⟩ := history_inv hc h
    rw [← hv] at ha hk ⊢
    obtain ⟨L, -, h2, h3⟩ := query_answer hc ⟨_, hi⟩ ha hp
    rw [h3 hk] at hn
    split at hn
    · cases hn; exact ⟨L, h2, rfl⟩
    · cases hn
  search := by
    intro s tr x y h _ hx hy hx' hy'
    obtain ⟨⟨hi, -, hv, -⟩, -⟩ := history_inv hc h
    rw [← hv]
    exact found_of_lawful (lawful hc) (s := s) ⟨_, hi⟩ hx hy hx' hy'
  list := by
    intro s tr h
    obtain ⟨⟨hi, -, hv, -⟩, -⟩ := history_inv hc h
    rw [← hv]
    exact ascending hc ⟨_, hi⟩ (.inl rfl)

/-- **C116**, split store. -/
theorem C116_split_store_is_a_map_to_clients (hc : CfgOK c) (hgrow : GrowsAlike c) {s s' : Store} {tr}
    (h : History c s tr) {limit : Nat} (hl : limit ≤ c.consts.internalEnd) {reserved : Nat → Prop} (hr : reserved c.consts.any)
    {α : Type} {P : Routine α} {a : α}
    (hP : P.Careful limit reserved (replay tr) (slots tr)) (he : P.run (links c) c.consts.any s = some (.ok a, s')) :
    ∃ tr', History c s' tr' ∧ P.Means limit (replay tr) (slots tr) a (replay tr') (slots tr') :=
  (serves hc hgrow).run hl hr P h hP he

/-- **C116**, split store. -/
theorem C116_split_clients_finish (hc : CfgOK c) (hgrow : GrowsAlike c) {s : Store} {tr} (h : History c s tr) {limit : Nat}
    (hl : limit ≤ c.consts.internalEnd) {reserved : Nat → Prop} (hr : reserved c.consts.any)
    (hfit : ∀ len, c.ialloc len (len + c.step) ≠ none → len + c.step ≤ c.maxT) {α : Type} {P : Routine α}
    (hP : P.Careful limit reserved (replay tr) (slots tr)) :
    ∃ r s', P.run (links c) c.consts.any s = some (r, s') ∧ (r = .error .allocFailed ∨ ∃ a, r = .ok a) := by
  obtain ⟨r, s', e⟩ := (serves hc hgrow).completes hl hr (fun {s tr k} h hk => by
    obtain ⟨⟨hi, -, hv, -⟩, -⟩ := history_inv hc h
    rw [← hv] at hk
    cases k with
    | create =>
      rcases create_cases hc hi [] with ⟨x, rest, s', -, h1, -⟩ | ⟨-, -, h1⟩ | ⟨-, -, -, h1⟩ |
        ⟨-, -, -, -, h1⟩ | ⟨-, -, -, h1, h2, -⟩ | ⟨-, -, s', h1, -⟩
      · exact ⟨_, Links.create_ok h1⟩
      · exact ⟨_, Links.create_err h1⟩
      · exact ⟨_, Links.create_err h1⟩
      · exact ⟨_, Links.create_err h1⟩
      · have := hfit _ h1; omega
      · exact ⟨_, Links.create_ok h1⟩
    | update i a b => exact update_returns (lawful hc) ⟨_, hi⟩ hk.1 hk.2
    | delete i => exact delete_returns (lawful hc) ⟨_, hi⟩ hk.1 hk.2) (fun {s tr p} h ha hk hp => by
    obtain ⟨⟨hi, -, hv, -⟩, -⟩ := history_inv hc h
    rw [← hv] at ha hk
    obtain ⟨L, -, h2, h3⟩ := query_answer hc ⟨_, hi⟩ ha hp
    refine ⟨L.length, ?_⟩
    rw [h3 hk]; exact if_pos (answer_bounded (lawful hc) (s := s) ⟨_, hi⟩ h2)) P h hP
  exact ⟨r, s', e, run_result e⟩

/-- **C116**, split store. -/
theorem C116_split_composite_calls (s : Store) (x y : Nat) :
    (links c).createPoint s = (Routine.createPoint.run (links c) c.consts.any s).map asCall ∧
    (links c).createLink s x y = ((Routine.createLink x y).run (links c) c.consts.any s).map asCall ∧
    (links c).getOrCreate s x y = ((Routine.getOrCreate x y).run (links c) c.consts.any s).map asCall :=
  ⟨createPoint_run _ s, createLink_run _ (fun s => createLinks_uniform c s []) (fun s i a b => updateLinks_uniform c s [i] [i, a, b]) s x y,
    getOrCreate_run _ (fun s => createLinks_uniform c s []) (fun s i a b => updateLinks_uniform c s [i] [i, a, b]) s x y⟩

/-- **C116**. Routines can be put one after another. -/
theorem C116_one_after_another {S α β : Type} (D : Links S) (any : Nat) (P : Routine α) (f : α → Routine β) (s : S) :
    (P.bind f).run D any s = (P.run D any s).bind fun
      | (.ok a, s') => (f a).run D any s'
      | (.error e, s') => some (.error e, s') := P.run_bind D any f s

/-- **C116**. On a map a careful client computes one thing only and leaves one map behind. -/
theorem C116_one_meaning {α : Type} {limit : Nat} {reserved : Nat → Prop} {P : Routine α} {v v1 v2 : View} {z z1 z2 : Slots}
    {a b : α} (hP : P.Careful limit reserved v z) (h1 : P.Means limit v z a v1 z1) (h2 : P.Means limit v z b v2 z2) :
    a = b ∧ v1 = v2 ∧ z1 = z2 := h1.unique hP h2

/-- **C116**. A careful client that runs on a united store and on a split store after the same calls, whatever their index
types, memories and tree crates, computes the same on both and leaves the same links behind, if it finishes on both. -/
theorem C116_united_or_split {cU : Verif.Unit.Cfg} (hU : Verif.Unit.CfgOK cU) (hc : CfgOK c) (hgrow : GrowsAlike c)
    {u u' : Verif.Unit.Store} {s s' : Store} {tr} (h1 : Verif.Unit.History cU u tr) (h2 : History c s tr) {limit : Nat}
    (l1 : limit ≤ cU.consts.internalEnd) (l2 : limit ≤ c.consts.internalEnd) {α : Type} {P : Routine α} {a b : α}
    (hP : P.Careful limit (fun x => x = cU.consts.any ∨ x = c.consts.any) (replay tr) (slots tr))
    (e1 : P.run (Verif.Unit.links cU) cU.consts.any u = some (.ok a, u'))
    (e2 : P.run (links c) c.consts.any s = some (.ok b, s')) :
    a = b ∧ ∀ i, (Verif.Unit.links cU).getLink u' i = (links c).getLink s' i := by
  obtain ⟨t1, k1, m1⟩ := Verif.Unit.Props.C116_united_store_is_a_map_to_clients hU h1 l1 (.inl rfl) hP e1
  obtain ⟨t2, k2, m2⟩ := C116_split_store_is_a_map_to_clients hc hgrow h2 l2 (.inr rfl) hP e2
  obtain ⟨r1, r2, -⟩ := m1.unique hP m2
  exact ⟨r1, fun i => by rw [(Verif.Unit.Props.serves hU).get k1, (serves hc hgrow).get k2, r2]⟩

/-- **C116**. Threads that take turns on a united store and on a split store after the same calls, one call at a time as the lock
makes them (C85) and in the same order, get the same results and leave the same links behind, if their calls in that order are
those of a careful client. -/
theorem C116_threads_united_or_split {cU : Verif.Unit.Cfg} (hU : Verif.Unit.CfgOK cU) (hc : CfgOK c) (hgrow : GrowsAlike c)
    {u u' : Verif.Unit.Store} {s s' : Store} {tr} (h1 : Verif.Unit.History cU u tr) (h2 : History c s tr) {limit : Nat}
    (l1 : limit ≤ cU.consts.internalEnd) (l2 : limit ≤ c.consts.internalEnd) {α : Type} (ts : List Nat) (Ps : Nat → Routine α)
    {Ps1 Ps2 : Nat → Routine α}
    (hP : (weave ts Ps).Careful limit (fun x => x = cU.consts.any ∨ x = c.consts.any) (replay tr) (slots tr))
    (e1 : turns (Verif.Unit.links cU) cU.consts.any ts Ps u = some (.ok Ps1, u'))
    (e2 : turns (links c) c.consts.any ts Ps s = some (.ok Ps2, s')) :
    Ps1 = Ps2 ∧ ∀ i, (Verif.Unit.links cU).getLink u' i = (links c).getLink s' i := by
  rw [turns_weave] at e1 e2
  exact C116_united_or_split hU hc hgrow h1 h2 l1 l2 hP e1 e2

/-- **C116**. The same for two united stores. -/
theorem C116_united_or_united {c1 c2 : Verif.Unit.Cfg} (hc1 : Verif.Unit.CfgOK c1) (hc2 : Verif.Unit.CfgOK c2)
    {s t s' t' : Verif.Unit.Store} {tr} (h1 : Verif.Unit.History c1 s tr) (h2 : Verif.Unit.History c2 t tr) {limit : Nat}
    (l1 : limit ≤ c1.consts.internalEnd) (l2 : limit ≤ c2.consts.internalEnd) {α : Type} {P : Routine α} {a b : α}
    (hP : P.Careful limit (fun x => x = c1.consts.any ∨ x = c2.consts.any) (replay tr) (slots tr))
    (e1 : P.run (Verif.Unit.links c1) c1.consts.any s = some (.ok a, s'))
    (e2 : P.run (Verif.Unit.links c2) c2.consts.any t = some (.ok b, t')) :
    a = b ∧ ∀ i, (Verif.Unit.links c1).getLink s' i = (Verif.Unit.links c2).getLink t' i := by
  obtain ⟨t1, k1, m1⟩ := Verif.Unit.Props.C116_united_store_is_a_map_to_clients hc1 h1 l1 (.inl rfl) hP e1
  obtain ⟨t2, k2, m2⟩ := Verif.Unit.Props.C116_united_store_is_a_map_to_clients hc2 h2 l2 (.inr rfl) hP e2
  obtain ⟨r1, r2, -⟩ := m1.unique hP m2
  exact ⟨r1, fun i => by rw [(Verif.Unit.Props.serves hc1).get k1, (Verif.Unit.Props.serves hc2).get k2, r2]⟩

/-- **C116**. The same for two split stores. -/
theorem C116_split_or_split {c1 c2 : Cfg} (hc1 : CfgOK c1) (hc2 : CfgOK c2) (g1 : GrowsAlike c1)
    (g2 : GrowsAlike c2) {s t s' t' : Store} {tr} (h1 : History c1 s tr) (h2 : History c2 t tr) {limit : Nat}
    (l1 : limit ≤ c1.consts.internalEnd) (l2 : limit ≤ c2.consts.internalEnd) {α : Type} {P : Routine α} {a b : α}
    (hP : P.Careful limit (fun x => x = c1.consts.any ∨ x = c2.consts.any) (replay tr) (slots tr))
    (e1 : P.run (links c1) c1.consts.any s = some (.ok a, s')) (e2 : P.run (links c2) c2.consts.any t = some (.ok b, t')) :
    a = b ∧ ∀ i, (links c1).getLink s' i = (links c2).getLink t' i := by
  obtain ⟨t1, k1, m1⟩ := C116_split_store_is_a_map_to_clients hc1 g1 h1 l1 (.inl rfl) hP e1
  obtain ⟨t2, k2, m2⟩ := C116_split_store_is_a_map_to_clients hc2 g2 h2 l2 (.inr rfl) hP e2
  obtain ⟨r1, r2, -⟩ := m1.unique hP m2
  exact ⟨r1, fun i => by rw [(serves hc1 g1).get k1, (serves hc2 g2).get k2, r2]⟩

end Verif.Split.Props

namespace Verif.Split.Props
open Verif Verif.Split

/-- A client that makes two links, makes the first refer to itself and to the second, and asks about them. -/
def linkUp : Routine (Option Nat × Nat × Option Link × List Link) :=
  .write .create fun r => .write .create fun r' =>
    match r, r' with
    | .ok i, .ok j => .write (.update i i j) fun _ => .search i j fun f => .gather [none, some i, none] fun L =>
        .count [none, none, some j] fun n => .get j fun l => .list fun A => .done (f, L.length + n, l, A)
    | _, _ => .done (none, 0, none, [])

theorem linkUp_careful {reserved : Nat → Prop} (h1 : ¬ reserved 1) (h2 : ¬ reserved 2) :
    linkUp.Careful 10 reserved (replay []) (slots []) := by
  have e : ∀ k, (replay [] : View) k = none := fun _ => rfl
  simp [linkUp, Routine.Careful, Call.result, slots, Slots.apply, Call.apply, Call.SplitOK, View.set, View.NoTwin, View.Uniq,
    e, h1, h2]
  refine ⟨fun i a b hi h0 j hj => ?_, fun r _ => ⟨⟨by simp, by simp, by simp, by simp⟩, fun L L' hL => by rw [hL.length_eq],
    fun L _ => ⟨⟨by simp, by simp, by simp, by simp⟩, trivial⟩⟩⟩
  have key : ∀ i, (if i = 1 then some (1, 2) else if i = 2 then some (0, 0) else if i = 1 then some (0, 0) else none) = some (a, b) →
      i = 1 := by
    intro i hi
    split at hi
    · assumption
    · split at hi
      · cases hi; exact absurd rfl (h0 rfl)
      · simp at hi
  rw [key i hi, key j hj]

/-- United memory of at most 255 slots. -/
def cfgFewU : Verif.Unit.Cfg := Verif.Unit.cfg0.withAlloc fun _ n => if n ≤ 255 then some n else none

theorem cfgFewU_ok : Verif.Unit.CfgOK cfgFewU := Verif.Unit.cfg0_ok.withAlloc fun _ n m h => by
  split at h
  · cases h; omega
  · cases h

/-- Split memories of at most 255 slots. -/
def cfgFew : Cfg := cfg0.withAllocs (fun _ n => if n ≤ 255 then some n else none) (fun _ n => if n ≤ 255 then some n else none)

theorem cfgFew_exact : ExactAlloc fun _ n => if n ≤ 255 then some n else none := fun _ n m h => by
  dsimp only at h
  split at h
  · cases h; rfl
  · cases h

theorem cfgFew_ok : CfgOK cfgFew := cfg0_ok.withAllocs cfgFew_exact cfgFew_exact

/-- The theorems on fresh stores. -/
example : Verif.Unit.History cfgFewU (Verif.Unit.store0 cfgFewU) [] ∧ History cfgFew (store0 cfgFew) [] ∧ GrowsAlike cfgFew ∧
    (∀ len n, cfgFewU.alloc len (len + cfgFewU.step) = some n → n ≤ cfgFewU.maxT) ∧
    (∀ len, cfgFew.ialloc len (len + cfgFew.step) ≠ none → len + cfgFew.step ≤ cfgFew.maxT) ∧
    ∃ u s a, linkUp.run (Verif.Unit.links cfgFewU) cfgFewU.consts.any (Verif.Unit.store0 cfgFewU) = some (.ok a, u) ∧
      linkUp.run (links cfgFew) cfgFew.consts.any (store0 cfgFew) = some (.ok a, s) ∧ a = (some 1, 2, some ⟨2, 0, 0⟩, [⟨1, 1, 2⟩, ⟨2, 0, 0⟩]) ∧
      ∀ i, (Verif.Unit.links cfgFewU).getLink u i = (links cfgFew).getLink s i := by
  have hu : Verif.Unit.History cfgFewU (Verif.Unit.store0 cfgFewU) [] := .fresh (c := cfgFewU) cfgFewU.alloc cfgFewU_ok.alloc_ge rfl
  have hs : History cfgFew (store0 cfgFew) [] := .fresh (c := cfgFew) cfgFew.dalloc cfgFew.ialloc cfgFew_ok.dalloc_eq cfgFew_ok.ialloc_eq rfl
  have hg : GrowsAlike cfgFew := fun n h => h
  have fu : ∀ len n, cfgFewU.alloc len (len + cfgFewU.step) = some n → n ≤ cfgFewU.maxT := fun len n h => by
    simp only [cfgFewU, Verif.Unit.Cfg.withAlloc] at h
    split at h
    · cases h; assumption
    · cases h
  have fs : ∀ len, cfgFew.ialloc len (len + cfgFew.step) ≠ none → len + cfgFew.step ≤ cfgFew.maxT := fun len h => by
    simp only [cfgFew, Cfg.withAllocs] at h
    split at h
    · assumption
    · exact absurd rfl h
  have hr : ∀ reserved : Nat → Prop, (∀ x, reserved x → x = 252) → linkUp.Careful 10 reserved (replay []) (slots []) :=
    fun reserved h => linkUp_careful (fun e => by cases h 1 e) (fun e => by cases h 2 e)
  have hP := hr (fun x => x = cfgFewU.consts.any ∨ x = cfgFew.consts.any) (fun x h => by rcases h with e | e <;> exact e)
  have ru : ((linkUp.run (Verif.Unit.links cfgFewU) cfgFewU.consts.any (Verif.Unit.store0 cfgFewU)).map fun r => r.1.toOption) =
      some (some (some 1, 2, some ⟨2, 0, 0⟩, [⟨1, 1, 2⟩, ⟨2, 0, 0⟩])) := by decide +kernel
  have rs : ((linkUp.run (links cfgFew) cfgFew.consts.any (store0 cfgFew)).map fun r => r.1.toOption.isSome) = some true := by
    decide +kernel
  obtain ⟨r, u, e1, -⟩ := Verif.Unit.Props.C116_united_clients_finish cfgFewU_ok hu (limit := 10) (by decide) (.inl rfl) fu hP
  obtain ⟨r', s, e2, -⟩ := C116_split_clients_finish cfgFew_ok hg hs (limit := 10) (by decide) (.inr rfl) fs hP
  rw [e1] at ru
  rw [e2] at rs
  obtain ⟨a, rfl⟩ : ∃ a, r = .ok a := by
    cases r with
    | ok a => exact ⟨a, rfl⟩
    | error e => cases ru
  obtain ⟨b, rfl⟩ : ∃ a, r' = .ok a := by
    cases r' with
    | ok a => exact ⟨a, rfl⟩
    | error e => cases rs
  obtain ⟨rfl, h⟩ := C116_united_or_split cfgFewU_ok cfgFew_ok hg hu hs (limit := 10) (by decide) (by decide) hP e1 e2
  simp only [Option.map_some, Except.toOption, Option.some.injEq] at ru
  exact ⟨hu, hs, hg, fu, fs, u, s, a, e1, e2, ru, h⟩

/-- A thread that makes a link and lists all links. -/
def makeAndList : Routine (List Link) := .write .create fun _ => .list .done

/-- What a finished thread has computed. -/
def Routine.outcome {α : Type} : Routine α → Option α
  | .done a => some a
  | _ => none

/-- The theorem on threads: the second makes its link and lists before the first lists. -/
example : (weave [0, 1, 1, 0] fun _ => makeAndList).Careful 10 (fun x => x = cfgFewU.consts.any ∨ x = cfgFew.consts.any) (replay []) (slots []) ∧
    ((turns (Verif.Unit.links cfgFewU) cfgFewU.consts.any [0, 1, 1, 0] (fun _ => makeAndList) (Verif.Unit.store0 cfgFewU)).map fun r =>
      r.1.toOption.map fun Ps => (List.range 3).map fun t => (Routine.outcome (Ps t)).map (·.map (·.index))) =
        some (some [some [1, 2], some [1, 2], none]) ∧
    ((turns (links cfgFew) cfgFew.consts.any [0, 1, 1, 0] (fun _ => makeAndList) (store0 cfgFew)).map fun r =>
      r.1.toOption.map fun Ps => (List.range 3).map fun t => (Routine.outcome (Ps t)).map (·.map (·.index))) =
        some (some [some [1, 2], some [1, 2], none]) := by
  refine ⟨?_, by decide +kernel, by decide +kernel⟩
  simp [weave, makeAndList, Routine.Careful, Call.result, slots, Slots.apply, Call.SplitOK, replay]
  refine ⟨fun j a b h => (by cases h), fun j a b h => ?_⟩
  simp only [Call.apply, View.set] at h
  split at h
  · cases h; simp
  · cases h

end Verif.Split.Props
