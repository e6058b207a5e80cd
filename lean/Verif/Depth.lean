import Verif.ReadCost
import Verif.Unit.Model
import Verif.Split.Model

/-!
# How deep queries nest calls

`each_usages_core` of the trees is the only code of the stores that calls itself, besides `each_core` and `try_each_by_core`, which
call themselves at most twice, with literal queries. The fuel of its model is the depth of the stack it may use. Here are the queries once
more, with that depth as an argument: they are undefined if it is exceeded.
-/

namespace Verif

/-- Every way down from `r` through the pointers to children ends after at most `m` nodes. -/
def Within (get : Nat → Option Node) : Nat → Nat → Prop
  | 0, r => r = 0
  | m + 1, r => r = 0 ∨ ∀ nd, get r = some nd → Within get m nd.left ∧ Within get m nd.right

theorem Within.mono {get : Nat → Option Node} : ∀ {m m' r : Nat}, Within get m r → m ≤ m' → Within get m' r
  | 0, 0, _, h, _ => h
  | 0, _ + 1, _, h, _ => .inl h
  | m + 1, 0, _, _, hl => by omega
  | m + 1, m' + 1, r, h, hl => by
    rcases h with h | h
    · exact .inl h
    · exact .inr fun nd hnd => ⟨(h nd hnd).1.mono (by omega), (h nd hnd).2.mono (by omega)⟩

theorem Rep.within {get : Nat → Option Node} {lk : Nat → Nat × Nat} : ∀ {t : Tree} {r : Nat}, Rep get lk t r →
    Within get t.height r ∧ ∀ k ∈ t.toList, Within get t.height k
  | .leaf, r, h => ⟨h, by simp [Tree.toList]⟩
  | .node a k b, r, h => by
    obtain ⟨rfl, h0, nd, hnd, -, ha, hb, -⟩ := h
    have h1 : Within get (Tree.node a r b).height r := .inr fun nd' h' => by
      rw [hnd] at h'; cases h'
      exact ⟨ha.within.1.mono (by omega), hb.within.1.mono (by omega)⟩
    refine ⟨h1, fun k hk => ?_⟩
    simp only [Tree.toList, List.mem_append, List.mem_cons] at hk
    rcases hk with hk | rfl | hk
    · exact (ha.within.2 k hk).mono (by simp only [Tree.height]; omega)
    · exact h1
    · exact (hb.within.2 k hk).mono (by simp only [Tree.height]; omega)

theorem Tree.height_le_size : ∀ t : Tree, t.height ≤ t.size
  | .leaf => Nat.le_refl _
  | .node a k b => by
    have := height_le_size a
    have := height_le_size b
    simp only [Tree.height, Tree.size]
    omega

/-- More than `m` nested calls are not needed. -/
theorem Within.eachUsages {get : Nat → Option Node} {σ : Type} (base : Node → Nat) (b : Nat) (h : RH σ) :
    ∀ {m r : Nat}, Within get m r → ∀ {f f' : Nat}, m < f → m < f' → ∀ st,
      eachUsages get base b h f r st = eachUsages get base b h f' r st := by
  intro m
  induction m with
  | zero =>
    intro r hw f f' hf hf' st
    obtain ⟨f, rfl⟩ : ∃ n, f = n + 1 := ⟨f - 1, by omega⟩
    obtain ⟨f', rfl⟩ : ∃ n, f' = n + 1 := ⟨f' - 1, by omega⟩
    have hw : r = 0 := hw
    simp [Verif.eachUsages, hw]
  | succ m ih =>
    intro r hw f f' hf hf' st
    obtain ⟨f, rfl⟩ : ∃ n, f = n + 1 := ⟨f - 1, by omega⟩
    obtain ⟨f', rfl⟩ : ∃ n, f' = n + 1 := ⟨f' - 1, by omega⟩
    rcases hw with hw | hw
    · simp [Verif.eachUsages, hw]
    · simp only [Verif.eachUsages]
      cases hnd : get r with
      | none => rfl
      | some nd =>
        obtain ⟨hl, hr⟩ := hw nd hnd
        have e1 : ∀ st, Verif.eachUsages get base b h f nd.left st = Verif.eachUsages get base b h f' nd.left st :=
          ih hl (by omega) (by omega)
        have e2 : ∀ st, Verif.eachUsages get base b h f nd.right st = Verif.eachUsages get base b h f' nd.right st :=
          ih hr (by omega) (by omega)
        simp only [e1, e2]

theorem Within.eachInorder {get : Nat → Option Node} {σ : Type} (h : RH σ) :
    ∀ {m r : Nat}, Within get m r → ∀ {f f' : Nat}, m < f → m < f' → ∀ st,
      Split.eachInorder get h f r st = Split.eachInorder get h f' r st := by
  intro m
  induction m with
  | zero =>
    intro r hw f f' hf hf' st
    obtain ⟨f, rfl⟩ : ∃ n, f = n + 1 := ⟨f - 1, by omega⟩
    obtain ⟨f', rfl⟩ : ∃ n, f' = n + 1 := ⟨f' - 1, by omega⟩
    have hw : r = 0 := hw
    simp [Split.eachInorder, hw]
  | succ m ih =>
    intro r hw f f' hf hf' st
    obtain ⟨f, rfl⟩ : ∃ n, f = n + 1 := ⟨f - 1, by omega⟩
    obtain ⟨f', rfl⟩ : ∃ n, f' = n + 1 := ⟨f' - 1, by omega⟩
    rcases hw with hw | hw
    · simp [Split.eachInorder, hw]
    · simp only [Split.eachInorder]
      cases hnd : get r with
      | none => rfl
      | some nd =>
        obtain ⟨hl, hr⟩ := hw nd hnd
        have e1 : ∀ st, Split.eachInorder get h f nd.left st = Split.eachInorder get h f' nd.left st :=
          ih hl (by omega) (by omega)
        have e2 : ∀ st, Split.eachInorder get h f nd.right st = Split.eachInorder get h f' nd.right st :=
          ih hr (by omega) (by omega)
        simp only [e1, e2]

namespace Unit

/-- `sources.each_usages` (`sources_recursionless_size_balanced_tree.rs:105-127,183-185`), as `srcEach`, with a stack of the given depth. -/
def srcEachWithin {σ : Type} (depth : Nat) (s : Store) (v : Nat) (h : RH σ) (st : σ) : Option (Flow × σ) :=
  eachUsages s.srcNode Node.source v h depth s.hdr.rootS st

/-- `targets.each_usages` (`targets_recursionless_size_balanced_tree.rs:105-127,183-185`), as `tgtEach`, with a stack of the given depth. -/
def tgtEachWithin {σ : Type} (depth : Nat) (s : Store) (v : Nat) (h : RH σ) (st : σ) : Option (Flow × σ) :=
  eachUsages s.tgtNode Node.target v h depth s.hdr.rootT st

/-- `each_core`, query of length three (`store.rs:276-317`), as `each3`, with a stack of the given depth. -/
def each3Within {σ : Type} (c : Cfg) (depth : Nat) (s : Store) (index source target : Nat) (h : RH σ) (st : σ) :
    Option (Flow × σ) :=
  let any := c.consts.any
  if index = any then
    if source = any ∧ target = any then eachAll c s h st
    else if source = any then tgtEachWithin depth s target h st
    else if target = any then srcEachWithin depth s source h st
    else
      (srcSearch s source target).bind fun link =>
      (getLink c s link).map fun
        | none => (.cont, st)
        | some l => h st l
  else
    (getLink c s index).map fun
      | none => (.cont, st)
      | some l =>
        if target = any ∧ source = any then h st l
        else if target ≠ any ∧ source ≠ any then
          callIf (source = l.source ∧ target = l.target) h l st
        else if source = any then callIf (l.target = target) h l st
        else if target = any then callIf (l.source = source) h l st
        else (.cont, st)

/-- `each_core` (`store.rs:231-320`), as `eachLinks`, with a stack of the given depth. -/
def eachLinksWithin {σ : Type} (c : Cfg) (depth : Nat) (s : Store) (q : List Nat) (h : RH σ) (st : σ) :
    Option (Flow × σ) :=
  let any := c.consts.any
  if q.length = 0 then eachAll c s h st
  else
    q[c.consts.indexPart]?.bind fun index =>
    if q.length = 1 then
      if index = any then eachAll c s h st
      else
        (getLink c s index).map fun
          | none => (.cont, st)
          | some l => h st l
    else if q.length = 2 then
      q[1]?.bind fun value =>
      if index = any then
        if value = any then eachAll c s h st
        else
          andThen (each3Within c depth s index value any h st) fun st' => each3Within c depth s index any value h st'
      else
        (getLink c s index).map fun
          | none => (.cont, st)
          | some l => callIf (value = any ∨ l.source = value ∨ l.target = value) h l st
    else if q.length = 3 then
      q[c.consts.sourcePart]?.bind fun source =>
      q[c.consts.targetPart]?.bind fun target =>
      each3Within c depth s index source target h st
    else none

end Unit

namespace Split

open Verif.Unit (callIf)

/-- `each_usages` of the internal trees (`internal_sources_…:95-110,121-123`, `internal_targets_…:95-117,128-130`), as `intEach`, with a stack of the given depth. -/
def intEachWithin {σ : Type} (depth : Nat) (s : Store) (d : Side) (v : Nat) (h : RH σ) (st : σ) : Option (Flow × σ) :=
  (s.iroot d v).bind fun r =>
  match d with
  | .src => eachInorder (s.node .src) h depth r st
  | .tgt => eachUsages (s.node .tgt) Node.target v h depth r st

/-- `each_usages` of the external trees (`external_sources_…:111-133,189-191`, `external_targets_…:109-131,187-189`), as `extEach`, with a stack of the given depth. -/
def extEachWithin {σ : Type} (depth : Nat) (s : Store) (d : Side) (v : Nat) (h : RH σ) (st : σ) : Option (Flow × σ) :=
  eachUsages (s.node d) (fun nd => endOf d nd.pair) v h depth (hrootOf d s.hdr) st

/-- `try_each_by_core`, query of length three (`store.rs:397-483`), as `each3`, with a stack of the given depth. -/
def each3Within {σ : Type} (c : Cfg) (depth : Nat) (s : Store) (index source target : Nat) (h : RH σ) (st : σ) :
    Option (Flow × σ) :=
  let any := c.consts.any
  (isUnused s source).bind fun vs =>
  (isUnused s target).bind fun vt =>
  if index = any then
    if source = any ∧ target = any then eachAll c s h st
    else if source = any then if vt then extEachWithin depth s .tgt target h st else intEachWithin depth s .tgt target h st
    else if target = any then if vs then extEachWithin depth s .src source h st else intEachWithin depth s .src source h st
    else
      (pairSearch s vs vt source target).bind fun link =>
      if link = c.consts.null then some (.cont, st)
      else
        (getLink c s link).bind fun
          | none => none
          | some l => some (h st l)
  else
    (getLink c s index).map fun
      | none => (.cont, st)
      | some l =>
        if source = any ∧ target = any then h st l
        else if source ≠ any ∧ target ≠ any then
          callIf (l.source = source ∧ l.target = target) h l st
        else if source = any then callIf (l.target = target) h l st
        else if target = any then callIf (l.source = source) h l st
        else (.cont, st)

/-- `try_each_by_core` (`store.rs:352-485`), as `eachLinks`, with a stack of the given depth. -/
def eachLinksWithin {σ : Type} (c : Cfg) (depth : Nat) (s : Store) (q : List Nat) (h : RH σ) (st : σ) :
    Option (Flow × σ) :=
  let any := c.consts.any
  if q.length = 0 then eachAll c s h st
  else
    q[c.consts.indexPart]?.bind fun index =>
    if q.length = 1 then
      if index = any then eachAll c s h st
      else
        (getLink c s index).map fun
          | none => (.cont, st)
          | some l => h st l
    else if q.length = 2 then
      q[1]?.bind fun value =>
      if index = any then
        if value = any then eachAll c s h st
        else
          andThen (each3Within c depth s index value any h st) fun st' => each3Within c depth s index any value h st'
      else
        (getLink c s index).map fun
          | none => (.cont, st)
          | some l => callIf (value = any ∨ l.source = value ∨ l.target = value) h l st
    else if q.length = 3 then
      q[c.consts.sourcePart]?.bind fun source =>
      q[c.consts.targetPart]?.bind fun target =>
      each3Within c depth s index source target h st
    else none

end Split

end Verif
