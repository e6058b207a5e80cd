import Verif.Unit.CrashLaws
import Verif.Unit.Example

/-!
# C57: what writes cost (united store)

The cost of a call is its number of updates of memory, where one whole call of the `trees` crate counts as one update
(`callImages` lists the memory before the first update and after each).
-/

namespace Verif.Unit

/-- Number of updates of memory a call makes. -/
def updates (c : Cfg) (s : Store) (k : Call) : Nat := (callImages c s k).length - 1

/-- `Spent c s tr w`: like `History c s tr`, and the calls of the history made `w` updates of memory together. -/
inductive Spent (c : Cfg) : Store → List (Call × Except Err Nat) → Nat → Prop
  | fresh (a) {s : Store} : GoodAlloc a → init (c.withAlloc a) {} = some (.ok s) → Spent c s [] 0
  | call (a) (k : Call) {s : Store} {tr w} {o : Out Store _root_.Unit Nat} : Spent c s tr w → GoodAlloc a →
      (∀ i, k.subject = some i → (replay tr).NoTwin i) → step c a s k = some o →
      Spent c o.st (tr ++ [(k, o.res)]) (w + updates (c.withAlloc a) s k)
  | reopen (a) (n : Nat) {s s' : Store} {tr w} : Spent c s tr w → GoodAlloc a →
      init (c.withAlloc a) { s with len := n } = some (.ok s') → s.hdr.allocated < s'.len → Spent c s' tr w

end Verif.Unit

namespace Verif.Unit.Props
open Verif

variable {c : Cfg}

theorem images_length : ∀ (fs : List (Store → Option Store)) (s : Store), (images fs s).length ≤ fs.length + 1 := by
  intro fs
  induction fs with
  | nil => intro s; simp [images]
  | cons f fs ih =>
    intro s
    simp only [images, List.length_cons]
    cases f s with
    | none => simp
    | some s' => have := ih s'; simpa using this

theorem createSteps_length (c : Cfg) (s : Store) : (createSteps c s).length ≤ 3 := by
  unfold createSteps
  split
  · split
    · simp
    · split
      · simp
      · split
        · split <;> simp
        · simp
  · simp

/-- The release loop makes two updates per released slot. -/
theorem releaseImages_length (hc : CfgOK c) : ∀ (fuel : Nat) (s : Store) (free : List Nat) (ts tt : Tree),
    Inv0 c s free ts tt → s.hdr.allocated < fuel → ∀ m, (releaseImages c fuel s).getLast? = some m →
    (releaseImages c fuel s).length + 2 * (free.filter fun x => x < m.hdr.allocated).length = 1 + 2 * free.length := by
  intro fuel
  induction fuel with
  | zero => intro s free ts tt _ h; omega
  | succ fuel ih =>
    intro s free ts tt h hfu m hm
    simp only [releaseImages] at hm ⊢
    by_cases ha : s.hdr.allocated = 0
    · simp only [ha, if_true] at hm ⊢
      have hf : free = [] := by
        apply List.eq_nil_iff_forall_not_mem.2
        intro x hx
        have := h.base.free_le x hx
        have := h.base.list.nonzero x hx
        omega
      simp [hf]
    · simp only [ha, if_false, isUnused_eq h (show 1 ≤ s.hdr.allocated by omega) (Nat.le_refl _)] at hm ⊢
      by_cases hf : s.hdr.allocated ∈ free
      · obtain ⟨s1, h1, h2, h3, h4, h5, h6, h7⟩ := unusedDetach_ok hc h hf
        simp only [hf, decide_true, h1] at hm ⊢
        have hn := h.base.list.nodup
        have hs := shrink_ok h2 (by rw [h4]; exact ha)
          (by rw [h4]; exact fun hm => ((hn.mem_erase_iff).1 hm).1 rfl) (by rw [h4]; exact h6)
        rw [h4] at hs
        have hlast : (releaseImages c fuel { s1 with hdr := { s1.hdr with allocated := s.hdr.allocated - 1 } }).getLast?
            = some m := by
          cases hI : releaseImages c fuel { s1 with hdr := { s1.hdr with allocated := s.hdr.allocated - 1 } } with
          | nil =>
            exfalso
            cases fuel with
            | zero => omega
            | succ fuel =>
              simp only [releaseImages] at hI
              split at hI
              · cases hI
              · split at hI
                · split at hI <;> cases hI
                · cases hI
          | cons x xs => rw [hI] at hm; simpa [List.getLast?_cons_cons] using hm
        have g := ih _ _ ts tt hs (by show s.hdr.allocated - 1 < fuel; omega) m hlast
        have hm1 : m.hdr.allocated ≤ s.hdr.allocated := by
          obtain ⟨free', g1, -, -⟩ := release_images hc _ _ _ _ _ hs m (List.mem_of_getLast? hlast)
          obtain ⟨s', q1, q2, q3, -⟩ := releaseTop_ok hc fuel _ _ ts tt hs (by show s.hdr.allocated - 1 < fuel; omega)
          have q4 := releaseImages_last c fuel _ s' q1
          rw [hlast] at q4
          cases q4
          have : m.hdr.allocated ≤ s.hdr.allocated - 1 := q3
          omega
        rw [erase_filter hn _ _ (by simp; omega)] at g
        have hl : (free.erase s.hdr.allocated).length = free.length - 1 := List.length_erase_of_mem hf
        have hp : 0 < free.length := List.length_pos_of_mem hf
        simp only [List.length_cons] at g ⊢
        omega
      · simp only [hf, decide_false] at hm ⊢
        simp only [List.getLast?_singleton, Option.some.injEq] at hm
        subst hm
        have hfl : (free.filter fun x => x < s.hdr.allocated) = free := by
          rw [List.filter_eq_self]; intro x hx
          have := h.base.free_le x hx
          have : x ≠ s.hdr.allocated := fun e => hf (e ▸ hx)
          simp; omega
        rw [hfl]; simp

theorem images_length_eq : ∀ {fs : List (Store → Option Store)} {s s' : Store}, runSteps fs s = some s' →
    (images fs s).length = fs.length + 1 := by
  intro fs
  induction fs with
  | nil => intro s s' _; simp [images]
  | cons f fs ih =>
    intro s s' h
    simp only [runSteps] at h
    cases hf : f s with
    | none => rw [hf] at h; cases h
    | some s1 =>
      rw [hf, Option.bind_some] at h
      simp only [images, hf, List.length_cons, ih h]

/-- The updates of a deletion: seven, and two for each slot released. -/
theorem delete_updates (hc : CfgOK c) {s : Store} {free : List Nat} {ts tt : Tree} (h : Inv c s free ts tt) {i : Nat}
    (hl : LiveIn s free i) (hu : NoTwinIn s free i) :
    (i < s.hdr.allocated → updates c s (.delete i) = 7) ∧
    (i = s.hdr.allocated → ∀ m, (callImages c s (.delete i)).getLast? = some m →
      updates c s (.delete i) + 2 * (free.filter fun x => x < m.hdr.allocated).length = 7 + 2 * free.length) := by
  simp only [updates, callImages, getLink_eq hc h.toInv0, hl, if_true]
  obtain ⟨s1, ts1, tt1, h1, h2, h3, h4, h5, h6⟩ := relink_ok hc h hl hu 0 0
  have hrs : runSteps (relinkSteps c (s.linkAt i) i 0 0) s = some s1 := by
    rw [← relink_eq_runSteps]; exact h1
  have hlk1 : s1.lk i = (0, 0) := by rw [h6]; simp
  have hl1 : LiveIn s1 free i := by simpa [LiveIn, h4] using hl
  rw [hrs]
  simp only [dropImages, h4, List.length_append, images_length_eq hrs]
  constructor
  · intro hlt
    obtain ⟨s2, g1, g2, g3, g4, g5, g6⟩ := unusedAttachFirst_ok hc h2.toInv0 hl1 hlk1
    simp [hlt, g1, relinkSteps]
  · intro heq m hm
    have hpos := hl.1
    have hs := shrink_ok h2.toInv0 (by omega) (by rw [h4, ← heq]; exact hl.2.2) (by rw [h4, ← heq]; exact hlk1)
    rw [h4] at hs
    rw [if_neg (by omega), if_pos heq, csub_eq (show 1 ≤ s.hdr.allocated by omega)] at hm ⊢
    simp only at hm ⊢
    have hlast : (releaseImages c (s.hdr.allocated + 1)
        { s1 with hdr := { s1.hdr with allocated := s.hdr.allocated - 1 } }).getLast? = some m := by
      obtain ⟨s', q1, -⟩ := releaseTop_ok hc (s.hdr.allocated + 1) _ _ ts1 tt1 hs
        (by show s.hdr.allocated - 1 < _; omega)
      have q2 := releaseImages_last c _ _ s' q1
      rw [List.getLast?_append, q2] at hm
      rw [q2]; simpa using hm
    have g := releaseImages_length hc _ _ _ _ _ hs (by show s.hdr.allocated - 1 < _; omega) m hlast
    have : (relinkSteps c (s.linkAt i) i 0 0).length = 6 := rfl
    simp only at g
    omega

theorem releaseImages_withAlloc (c : Cfg) (a : Nat → Nat → Option Nat) : ∀ (fuel : Nat) (s : Store),
    releaseImages (c.withAlloc a) fuel s = releaseImages c fuel s := by
  intro fuel
  induction fuel with
  | zero => intro s; rfl
  | succ fuel ih => intro s; simp only [releaseImages, ih]; rfl

theorem callImages_delete_withAlloc (c : Cfg) (a : Nat → Nat → Option Nat) (s : Store) (i : Nat) :
    callImages (c.withAlloc a) s (.delete i) = callImages c s (.delete i) := by
  simp only [callImages, dropImages, releaseImages_withAlloc]; rfl

theorem updates_withAlloc (c : Cfg) (a : Nat → Nat → Option Nat) (s : Store) (i : Nat) :
    updates (c.withAlloc a) s (.delete i) = updates c s (.delete i) := by
  simp only [updates, callImages_delete_withAlloc]

theorem unwrapped {call : Option (Out Store (Nat × Flow) Flow)} {o : Out Store _root_.Unit Nat}
    (h : (call.map Links.unwrapW).map Links.resultIndex = some o) : ∃ o', call = some o' ∧ o'.st = o.st := by
  cases call with
  | none => simp at h
  | some o' =>
    refine ⟨o', rfl, ?_⟩
    simp only [Option.map_some, Option.some.injEq] at h
    rw [← h]; rfl

/-- The cost of one call, up to what it releases. -/
theorem call_cost (hc : CfgOK c) {s : Store} {tr} (h : HInv c s tr) {a : Nat → Nat → Option Nat} (ha : GoodAlloc a)
    {k : Call} (ht : ∀ i, k.subject = some i → (replay tr).NoTwin i) {o : Out Store _root_.Unit Nat}
    (ho : step c a s k = some o) :
    HInv c o.st (tr ++ [(k, o.res)]) ∧
    updates (c.withAlloc a) s k + 2 * (slots (tr ++ [(k, o.res)])).free.length ≤ 9 + 2 * (slots tr).free.length := by
  cases k with
  | create =>
    have hI := (create_h hc h ha ho).1
    refine ⟨hI, ?_⟩
    have h1 : updates (c.withAlloc a) s .create ≤ 3 := by
      have := images_length (createSteps (c.withAlloc a) s) s
      have := createSteps_length (c.withAlloc a) s
      show (images _ s).length - 1 ≤ 3
      omega
    have h2 : (slots (tr ++ [(Call.create, o.res)])).free.length ≤ (slots tr).free.length := by
      rw [slots_snoc]
      cases o.res with
      | error e => simp [Slots.apply]
      | ok i =>
        simp only [Slots.apply]
        cases (slots tr).free <;> simp
    omega
  | update i x y =>
    have hI := (update_h hc h (ht i rfl) ho).1
    refine ⟨hI, ?_⟩
    have h1 : updates (c.withAlloc a) s (.update i x y) ≤ 6 := by
      simp only [updates, callImages]
      split
      · have := images_length (relinkSteps (c.withAlloc a) (by assumption) i x y) s
        simp only [relinkSteps, List.length_cons, List.length_nil] at this ⊢
        omega
      · simp
    have h2 : (slots (tr ++ [(Call.update i x y, o.res)])).free.length = (slots tr).free.length := by
      rw [slots_snoc]
      cases o.res <;> simp [Slots.apply]
    omega
  | delete i =>
    have hI := (delete_h hc h (ht i rfl) ho).1
    refine ⟨hI, ?_⟩
    rw [updates_withAlloc]
    obtain ⟨⟨ts, tt, hi⟩, htop, hv, hord⟩ := h
    obtain ⟨o', e1, e2⟩ := unwrapped ho
    have hlast := callImages_last c s (.delete i) _ _ e1
    rw [e2] at hlast
    by_cases hl : LiveIn s (slots tr).free i
    · have hu := noTwinIn hc hi.toInv0 hl (by rw [hv]; exact ht i rfl)
      have hd := delete_updates hc hi hl hu
      obtain ⟨s', free', ts', tt', h1, -⟩ := deleteLinks_ok hc hi hl hu [] recH none
      have hres : o.res = .ok 0 := by
        have ho : (links c).delete s i = some o := ho
        rw [Links.delete_ok ((deleteLinks_uniform c s [i]).succeeds h1)] at ho
        cases ho; rfl
      have hT := hI.top
      rw [slots_snoc, hres] at hT ⊢
      simp only [Slots.apply, ← htop] at hT ⊢
      by_cases hlt : i < s.hdr.allocated
      · have := hd.1 hlt
        simp only [hlt, if_true, List.length_cons]
        omega
      · have heq : i = s.hdr.allocated := by have := hl.2.1; omega
        have := hd.2 heq _ hlast
        rw [if_neg hlt] at hT ⊢
        simp only at hT ⊢
        rw [hT] at this
        omega
    · have h0 : updates c s (.delete i) = 0 := by
        simp [updates, callImages, getLink_eq hc hi.toInv0, hl]
      have h2 : (slots (tr ++ [(Call.delete i, o.res)])).free = (slots tr).free := by
        rw [slots_snoc]
        have ho : (links c).delete s i = some o := ho
        rw [Links.delete_err ((deleteLinks_uniform c s [i]).fails
          (deleteLinks_missing hc hi.toInv0 hl [] recH none))] at ho
        cases ho; rfl
      rw [h2]; omega

/-- **C57**: over any history, the calls make at most nine updates each on average, one call of the `trees` crate
counting as one update. -/
theorem C57_amortised (hc : CfgOK c) {s : Store} {tr} {w : Nat} (h : Spent c s tr w) : w ≤ 9 * tr.length := by
  suffices HInv c s tr ∧ w + 2 * (slots tr).free.length ≤ 9 * tr.length by omega
  induction h with
  | fresh a ha h => exact ⟨(history_inv hc (.fresh a ha h)).1, by simp [slots]⟩
  | @call a k s tr w o _ ha ht ho ih =>
    obtain ⟨h1, h2⟩ := call_cost hc ih.1 ha ht ho
    refine ⟨h1, ?_⟩
    have := ih.2
    simp only [List.length_append, List.length_singleton]
    omega
  | @reopen a n s s' tr w _ ha h hlt ih =>
    obtain ⟨⟨⟨ts, tt, hi⟩, htop, hv, hord⟩, hw⟩ := ih
    obtain ⟨h1, h2, h3⟩ := init_reopen (hc.withAlloc ha) (hi.withAlloc a) h hlt
    refine ⟨⟨⟨ts, tt, h1.ofAlloc⟩, h2.trans htop, ?_, hord⟩, hw⟩
    rw [← hv]
    funext k
    rw [view_eq hc h1.ofAlloc.toInv0, view_eq hc hi.toInv0]
    by_cases hl : LiveIn s (slots tr).free k
    · rw [if_pos hl, if_pos (by simpa [LiveIn, h2] using hl), h3]
    · rw [if_neg hl, if_neg (by simpa [LiveIn, h2] using hl)]

/-- Every history has a cost. -/
theorem History.spent {s : Store} {tr} (h : History c s tr) : ∃ w, Spent c s tr w := by
  induction h with
  | fresh a ha h => exact ⟨0, .fresh a ha h⟩
  | call a k _ ha ht ho ih => exact ih.elim fun w hw => ⟨_, .call a k hw ha ht ho⟩
  | reopen a n _ ha h hlt ih => exact ih.elim fun w hw => ⟨w, .reopen a n hw ha h hlt⟩

/-- Non-vacuity: a history with a cost. -/
example : ∃ w, Spent cfg0 sNet (trace cfg0 net) w ∧ w ≤ 9 * (trace cfg0 net).length :=
  let ⟨w, hw⟩ := History.spent sNet_history
  ⟨w, hw, C57_amortised cfg0_ok hw⟩

/-! ### One deletion alone can be arbitrarily expensive -/

/-- An index type, constants and step size for `m + 1` links, memory that never fails. -/
def cfgWide (m : Nat) : Cfg where
  consts := { consts0 with any := m + 2, internalEnd := m + 1 }
  maxT := 2 * m + 100
  step := m + 4
  page := m + 4
  alloc := fun _ req => some req
  trees := Ref.trees

theorem cfgWide_ok (m : Nat) : CfgOK (cfgWide m) where
  null_eq := rfl
  index_eq := rfl
  source_eq := rfl
  target_eq := rfl
  start_eq := rfl
  end_lt_any := by show m + 1 < m + 2; omega
  end_le := by show m + 1 ≤ 2 * m + 100; omega
  step_pos := by show 2 ≤ m + 4; omega
  trees := Ref.lawful
  alloc_ge := by intro len req n h; cases h; exact Nat.le_refl _

/-- A handler that does nothing. -/
def nopH : WH _root_.Unit := fun u _ _ => (.cont, u)

/-- Creating `j` links. -/
theorem wide_create (m : Nat) : ∀ j, j ≤ m + 1 → ∃ s ts tt, Reach (cfgWide m) s ∧ Inv (cfgWide m) s [] ts tt ∧
    s.hdr.allocated = j ∧ s.hdr.reserved = m + 3 ∧ ∀ k, s.lk k = (0, 0) := by
  intro j
  induction j with
  | zero =>
    intro _
    have hi : init (cfgWide m) {} = some (.ok { len := m + 4, hdr := { reserved := m + 3 } }) := by
      have : m + 3 ≤ 2 * m + 100 := by omega
      simp [init, cfgWide, csub, this]
    obtain ⟨h1, h2⟩ := init_fresh (cfgWide_ok m) hi
    exact ⟨_, _, _, .fresh _ (cfgWide_ok m).alloc_ge hi, h1, h2, rfl, fun _ => rfl⟩
  | succ j ih =>
    intro hj
    obtain ⟨s, ts, tt, h1, h2, h3, h4, h5⟩ := ih (by omega)
    have hrl := h2.base.res_le
    have hend : s.hdr.allocated < (cfgWide m).consts.internalEnd := by show _ < m + 1; omega
    obtain ⟨s', g1, g2, g3, g4, g5, g6, g7⟩ := createTop_ok (cfgWide_ok m) h2 (by omega) hend
      nopH ()
    have hx : s.hdr.firstFree = 0 := by
      have := h2.base.list.first_eq; simpa [Store.listMem] using this
    have hcr : createLinks (cfgWide m) s [] nopH () =
        createTop (cfgWide m) s nopH () := by
      have hnr : ¬ s.hdr.reserved - 1 ≤ s.hdr.allocated := by omega
      simp [createLinks, hx, (cfgWide_ok m).null_eq, Nat.not_le.2 hend, csub_eq h2.base.res_pos, hnr]
    rw [← hcr] at g1
    exact ⟨s', ts, tt, Reach.create (q := []) (h := nopH) (st := ()) (cfgWide m).alloc h1 (cfgWide_ok m).alloc_ge g1, g2, by omega, by omega,
      fun k => (g6 k).trans (h5 k)⟩

/-- Deleting the first `j` of `m + 1` links in order. -/
theorem wide_delete (m : Nat) : ∀ j, j ≤ m → ∃ s free ts tt, Reach (cfgWide m) s ∧ Inv (cfgWide m) s free ts tt ∧
    s.hdr.allocated = m + 1 ∧ free.length = j ∧ (∀ k, k ∈ free ↔ 1 ≤ k ∧ k ≤ j) ∧
    (∀ k, LiveIn s free k → s.lk k = (0, 0)) := by
  intro j
  induction j with
  | zero =>
    intro _
    obtain ⟨s, ts, tt, h1, h2, h3, -, h5⟩ := wide_create m (m + 1) (Nat.le_refl _)
    exact ⟨s, [], ts, tt, h1, h2, h3, rfl, by intro k; simp; omega, fun k _ => h5 k⟩
  | succ j ih =>
    intro hj
    obtain ⟨s, free, ts, tt, h1, h2, h3, h4, h5, h6⟩ := ih (by omega)
    have hl : LiveIn s free (j + 1) := ⟨by omega, by omega, fun hm => by have := (h5 _).1 hm; omega⟩
    have hv : ((links (cfgWide m)).view s).NoTwin (j + 1) := by
      intro p hp hp0
      rw [view_eq (cfgWide_ok m) h2.toInv0, if_pos hl, h6 _ hl] at hp
      cases hp; exact absurd rfl hp0
    obtain ⟨s', free', ts', tt', g1, g2, g3, g4, g5, g6, g7⟩ := deleteLinks_ok (cfgWide_ok m) h2 hl
      (noTwinIn (cfgWide_ok m) h2.toInv0 hl hv) [] nopH ()
    obtain ⟨e1, e2⟩ := g3 (by omega)
    refine ⟨s', free', ts', tt', Reach.delete (q := [j + 1]) (h := nopH) (st := ()) h1 (fun i hi => by cases hi; exact hv) g1, g2,
      e2.trans h3, by rw [e1]; simp [h4], ?_, ?_⟩
    · intro k
      rw [e1, List.mem_cons, h5]
      omega
    · intro k hk
      obtain ⟨k1, k2⟩ := (g6 k).1 hk
      rw [g7 k k1 k2]; exact h6 k k1

/-- **C57, the bound for single calls is false**: whatever number of updates is given, some reachable store has a link
whose deletion makes more. -/
theorem C57_single_delete_unbounded : ∀ m, ∃ c s i, CfgOK c ∧ Reach c s ∧ (links c).view s i ≠ none ∧
    m < updates c s (.delete i) := by
  intro m
  obtain ⟨s, free, ts, tt, h1, h2, h3, h4, h5, h6⟩ := wide_delete m m (Nat.le_refl _)
  have hc := cfgWide_ok m
  have hl : LiveIn s free (m + 1) := ⟨by omega, by omega, fun hm => by have := (h5 _).1 hm; omega⟩
  have hve : (links (cfgWide m)).view s (m + 1) = some (0, 0) := by
    rw [view_eq hc h2.toInv0, if_pos hl, h6 _ hl]
  have hv : ((links (cfgWide m)).view s).NoTwin (m + 1) := by
    intro p hp hp0
    rw [hve] at hp
    cases hp; exact absurd rfl hp0
  have hu := noTwinIn hc h2.toInv0 hl hv
  refine ⟨cfgWide m, s, m + 1, hc, h1, by rw [hve]; simp, ?_⟩
  obtain ⟨s', free', ts', tt', g1, g2, g3, g4, g5, g6, g7⟩ := deleteLinks_ok hc h2 hl hu []
    nopH ()
  have hlast := callImages_last (cfgWide m) s (.delete (m + 1)) nopH () g1
  have hd := (delete_updates hc h2 hl hu).2 h3.symm _ hlast
  have ha : s'.hdr.allocated = 0 := by
    apply Classical.byContradiction
    intro h0
    have hll : LiveIn s' free' s'.hdr.allocated :=
      ⟨by omega, Nat.le_refl _, fun hm => by have := g2.free_lt _ hm; omega⟩
    obtain ⟨⟨k1, k2, k3⟩, k4⟩ := (g6 _).1 hll
    exact k3 ((h5 _).2 ⟨k1, by omega⟩)
  have hf : (free.filter fun x => decide (x < s'.hdr.allocated)).length = 0 := by
    rw [ha]; simp
  simp only [hf] at hd
  omega

end Verif.Unit.Props
