import Verif.Unit.PowerLoss
import Verif.Split.PowerLoss
import Verif.Props.Access
import Verif.Props.SplitAccess

/-!
# C83: power loss

A store kept in a memory-mapped file is on disk as a whole only now and then. In between the system writes parts of the
file whenever it likes, in any order. After a power loss the file is a mixture: every word of it is what it was at some
moment since the file was last on disk, different words at different moments (`Torn`). Words are not split between
moments, because no word crosses a boundary between disk sectors (`C83_words_lie_in_one_sector`).

`s` is the store as it was last on disk and `xs` the calls made since; `written` lists the memory after every single
assignment of these calls, also inside the algorithms of the `trees` crate.
-/

namespace Verif.Props

/-- **C83**. A word of `w` bytes at a multiple of `w` lies within one sector of `q` bytes, if `q` is a multiple of `w`: all of
its bytes are in the sector of its first byte. -/
theorem C83_words_lie_in_one_sector {w q i p : Nat} (hq : w ∣ q) (hp : p < w) : (i * w + p) / q = i * w / q := by
  obtain ⟨k, rfl⟩ := hq
  have hw : 0 < w := by omega
  rw [← Nat.div_div_eq_div_mul, ← Nat.div_div_eq_div_mul, Nat.mul_div_cancel _ hw, Nat.mul_comm i w, Nat.mul_add_div hw,
    Nat.div_eq_of_lt hp, Nat.add_zero]

/-- Words of eight bytes and sectors of 512: the last byte of word 63 is in sector 0, word 64 starts sector 1. -/
example : 8 ∣ 512 ∧ (63 * 8 + 7) / 512 = 0 ∧ 64 * 8 / 512 = 1 := by decide

end Verif.Props

namespace Verif.Unit.Props
open Verif Verif.Unit
variable {c : Cfg} {P : Programs}

/-- What opening a torn file finds. -/
theorem torn_ends (hc : CfgOK c) {s : Store} {free : List Nat} {ts tt : Tree} (hi : Inv c s free ts tt) {Q : Nat → Prop}
    {ms : List Store} (hf : ∀ m ∈ ms, ∀ l, ((links c).view s).Has l → Q l.index →
      m.lk l.index = (l.source, l.target) ∧ l.index ≤ m.hdr.allocated) {t : Store} (ht : Torn (s :: ms) t)
    {a' : Nat → Nat → Option Nat} {n : Nat} {s' : Store} (ho : init (c.withAlloc a') { t with len := n } = some (.ok s'))
    (hlt : t.hdr.allocated < s'.len) :
    (∀ l, ((links c).view s).Has l → Q l.index →
      (s'.cell l.index).source = l.source ∧ (s'.cell l.index).target = l.target ∧
      ((links c).getLink s' l.index = some (some l) ∨ (links c).getLink s' l.index = some none)) ∧
    ∃ L, (links c).Visits s' [] L ∧
      ∀ l, ((links c).view s).Has l → Q l.index → ∀ l' ∈ L, l'.index = l.index → l' = l := by
  obtain ⟨hcell, hal⟩ := init_mem ho
  have hlt' : s'.hdr.allocated < s'.len := by rw [hal]; exact hlt
  have hlook : ∀ l, ((links c).view s).Has l → Q l.index →
      s'.linkAt l.index = l ∧ l.index ≠ 0 := by
    intro l hl hca
    obtain ⟨h1, h2⟩ := (has_iff hc hi.toInv0 l).1 hl
    have h0 : l.index ≠ 0 := by have := h1.1; omega
    have e := (torn_keeps ht (x := l.source) (y := l.target) h0 fun m hm => by
      rcases List.mem_cons.1 hm with rfl | hm
      · exact ⟨(by rw [h2]; rfl), h1.2.1⟩
      · exact hf m hm l hl hca).1
    refine ⟨?_, h0⟩
    simp only [Store.lk, Prod.mk.injEq] at e
    simp only [Store.linkAt, hcell, e.1, e.2]
  have hget : ∀ l, ((links c).view s).Has l → Q l.index →
      getLink c s' l.index = some (some l) ∨ getLink c s' l.index = some none := by
    intro l hl hca
    obtain ⟨h1, h2⟩ := hlook l hl hca
    rcases getLink_slot (c := c) h2 hlt' with e | e
    · exact .inr e
    · rw [h1] at e; exact .inl e
  refine ⟨fun l hl hca => ?_, ?_⟩
  · have := (hlook l hl hca).1
    refine ⟨?_, ?_, hget l hl hca⟩
    · rw [← congrArg Link.source this]; rfl
    · rw [← congrArg Link.target this]; rfl
  · obtain ⟨L, h1, h2⟩ := all_visits (c := c) hlt'
    refine ⟨L, h1, fun l hl hca l' hl' e => ?_⟩
    have g := h2 l' hl'
    rw [e] at g
    rcases hget l hl hca with g' | g' <;> rw [g'] at g <;> cases g
    rfl

/-- **C83**. The power fails at any moment of a session, the file is left as any mixture of what it was at the moments
since it was last on disk, and a store is opened on it. Every link that was in the store back then and that no call of the
session was about still has its ends in the file. Lookup returns exactly that link or reports it missing, and a traversal
of the whole store visits nothing else under its index. -/
theorem C83_power_loss_keeps_the_ends (hc : CfgOK c) (hP : P.Implements c.trees) {s : Store} (h : Reach c s)
    {xs : List Step} (hs : Session c s xs) :
    ∃ f0, ∀ f, f0 ≤ f → ∀ t, Torn (s :: written c P f xs (.of s)) t →
      ∀ (a' : Nat → Nat → Option Nat) (n : Nat) (s' : Store),
      init (c.withAlloc a') { t with len := n } = some (.ok s') → t.hdr.allocated < s'.len →
      (∀ l, ((links c).view s).Has l → (∀ x ∈ xs, ¬ callAbout l.index x.call) →
        (s'.cell l.index).source = l.source ∧ (s'.cell l.index).target = l.target ∧
        ((links c).getLink s' l.index = some (some l) ∨ (links c).getLink s' l.index = some none)) ∧
      ∃ L, (links c).Visits s' [] L ∧
        ∀ l, ((links c).view s).Has l → (∀ x ∈ xs, ¬ callAbout l.index x.call) → ∀ l' ∈ L, l'.index = l.index → l' = l := by
  obtain ⟨free, ts, tt, hi⟩ := reach_good hc h
  obtain ⟨f0, hf⟩ := written_keeps hc (P := P) hP hs h
  refine ⟨f0, fun f hff t ht a' n s' ho hlt => ?_⟩
  exact torn_ends hc hi (Q := fun i => ∀ x ∈ xs, ¬ callAbout i x.call) (hf f hff) ht ho hlt

/-- A call with a handler that continues. -/
def quiet (k : Call) : Step := ⟨k, cfg0.alloc, _root_.Unit, fun _ _ _ => (.cont, ()), ()⟩

/-- Executable `Session`. -/
def sessionB : List Call → Store → Bool
  | [], _ => true
  | k :: ks, s => guardB cfg0 s k &&
    match callExec (cfg0.withAlloc cfg0.alloc) s (σ := _root_.Unit) (fun _ _ _ => (.cont, ())) () k with
    | none => false
    | some o => sessionB ks o.st

theorem sessionB_ok : ∀ {ks : List Call} {s : Store}, Reach cfg0 s → sessionB ks s = true → Session cfg0 s (ks.map quiet) := by
  intro ks
  induction ks with
  | nil => intro s _ _; exact .done s
  | cons k ks ih =>
    intro s h hb
    simp only [sessionB, Bool.and_eq_true] at hb
    obtain ⟨h1, h2⟩ := hb
    split at h2
    · cases h2
    · next o ho =>
      have hk : ∀ j, callAbout j k → ((links cfg0).view s).NoTwin j := fun j hj =>
        twinFree_noTwin cfg0_ok (reach_good cfg0_ok h) (by cases k <;> cases hj <;> exact h1)
      exact .step (x := quiet k) alloc0_good hk ho (ih (step_keeps cfg0_ok h alloc0_good hk ho).1 h2)

/-- The file whose slots `old` names are as in `m0` and the others, as well as the header, as in `m1`. -/
def mixed (m0 m1 : Store) (old : List Nat) : Store :=
  { hdr := m1.hdr, cell := fun i => if i ∈ old then m0.cell i else m1.cell i, len := m1.len }

theorem mixed_torn {ms : List Store} {m0 m1 : Store} (h0 : m0 ∈ ms) (h1 : m1 ∈ ms) (old : List Nat) :
    Torn ms (mixed m0 m1 old) := by
  intro i f
  by_cases hi : i = 0
  · exact ⟨m1, h1, by simp [Store.word, Store.slotWords, mixed, hi]⟩
  · by_cases ho : i ∈ old
    · exact ⟨m0, h0, by simp [Store.word, Store.slotWords, mixed, hi, ho]⟩
    · exact ⟨m1, h1, by simp [Store.word, Store.slotWords, mixed, hi, ho]⟩

/-- Three calls on `sNet`: link 5 is created and made to lead from 2 to 1, and link 6 is deleted. -/
def session0 : List Call := [.create, .update 5 2 1, .delete 6]

/-- The memories of this session, the first being that of `sNet`. -/
def memories0 : List Store := sNet :: written cfg0 Ref.programs 9 (session0.map quiet) (.of sNet)

/-- Memory `n` of the session. -/
def memory0 (n : Nat) : Store := memories0.getD n sNet

theorem memory0_mem (n : Nat) : memory0 n ∈ memories0 := by
  unfold memory0
  rw [List.getD_eq_getElem?_getD]
  cases h : memories0[n]? with
  | none => exact List.mem_cons_self
  | some m => exact List.mem_of_getElem? h

/-- What a store opened on the file `t` answers to `ask`. -/
def opened {α : Type} (t : Store) (ask : Store → Option α) : Option α :=
  match init (cfg0.withAlloc cfg0.alloc) { t with len := t.len } with
  | some (.ok s') => if t.hdr.allocated < s'.len then ask s' else none
  | _ => none

/-- The session makes 74 assignments. The file of which slots 1, 3 and 5 are as before the session, and the others as after
assignment 40, is such a mixture, and link 2 is found in it. -/
example : CfgOK cfg0 ∧ Ref.programs.Implements cfg0.trees ∧ Reach cfg0 sNet ∧ Session cfg0 sNet (session0.map quiet) ∧
    memories0.length = 75 ∧ Torn memories0 (mixed sNet (memory0 40) [1, 3, 5]) ∧ ((links cfg0).view sNet).Has ⟨2, 1, 3⟩ ∧
    (∀ x ∈ session0.map quiet, ¬ callAbout 2 x.call) ∧
    opened (mixed sNet (memory0 40) [1, 3, 5]) (fun s' => (links cfg0).getLink s' 2) = some (some ⟨2, 1, 3⟩) := by
  refine ⟨cfg0_ok, Ref.programs_implement, sNet_reach, sessionB_ok sNet_reach (by decide +kernel), by decide +kernel,
    mixed_torn (memory0_mem 0) (memory0_mem 40) _, ?_, ?_, by decide +kernel⟩
  · show (links cfg0).view sNet 2 = some (1, 3)
    decide +kernel
  · intro x hx
    simp only [session0, List.map_cons, List.map_nil, List.mem_cons, List.not_mem_nil, or_false] at hx
    rcases hx with rfl | rfl | rfl <;> simp [quiet, callAbout]

/-- **C83**: searches are not kept. Slot 5 of the file is as before the session and everything else as after it, two
moments at which no call was running. Link 3, which leads from 2 to 2 and which no call was about, is there, but a search
for its ends finds nothing. -/
theorem C83_power_loss_can_lose_a_search : ∃ (xs : List Step) (t : Store), Reach cfg0 sNet ∧ Session cfg0 sNet xs ∧
    Torn (sNet :: written cfg0 Ref.programs 9 xs (.of sNet)) t ∧ ((links cfg0).view sNet).Has ⟨3, 2, 2⟩ ∧
    (∀ x ∈ xs, ¬ callAbout 3 x.call) ∧
    opened t (fun s' => (links cfg0).getLink s' 3) = some (some ⟨3, 2, 2⟩) ∧
    opened t (fun s' => (links cfg0).search s' 2 2) = some none := by
  refine ⟨session0.map quiet, mixed sNet (memory0 74) [5], sNet_reach, sessionB_ok sNet_reach (by decide +kernel),
    mixed_torn (memory0_mem 0) (memory0_mem 74) _, ?_, ?_, by decide +kernel, by decide +kernel⟩
  · show (links cfg0).view sNet 3 = some (2, 2)
    decide +kernel
  · intro x hx
    simp only [session0, List.map_cons, List.map_nil, List.mem_cons, List.not_mem_nil, or_false] at hx
    rcases hx with rfl | rfl | rfl <;> simp [quiet, callAbout]

end Verif.Unit.Props

namespace Verif.Split.Props
open Verif Verif.Split
variable {c : Cfg} {P : Programs}

/-- What opening torn files finds. -/
theorem torn_ends (hc : CfgOK c) {s : Store} {free : List Nat} (hI : Inv c s free) {Q : Nat → Prop} {ms : List Store}
    (hf : ∀ m ∈ ms, ∀ l, ((links c).view s).Has l → Q l.index → m.data l.index = (l.source, l.target)) {t : Store}
    (ht : Torn (s :: ms) t) {d' i' : Nat → Nat → Option Nat} (hd' : ExactAlloc d') (hi' : ExactAlloc i') {n1 n2 : Nat} {s' : Store}
    (ho : init (c.withAllocs d' i') { t with dlen := n1, ilen := n2 } = some (.ok s')) (hlt : t.hdr.allocated < s'.ilen) :
    (∀ l, ((links c).view s).Has l → Q l.index →
      s'.data l.index = (l.source, l.target) ∧
      ((links c).getLink s' l.index = some (some l) ∨ (links c).getLink s' l.index = some none)) ∧
    ∃ L, (links c).Visits s' [] L ∧
      ∀ l, ((links c).view s).Has l → Q l.index → ∀ l' ∈ L, l'.index = l.index → l' = l := by
  obtain ⟨n, hn2, -, e⟩ := init_ok (hc.withAllocs hd' hi') ho
  have hsd : s'.data = t.data := by rw [e]
  have hst : s'.stale = false := by rw [e]
  have hsi : s'.hdr.allocated < s'.ilen := by rw [e] at hlt ⊢; exact hlt
  have hsl : s'.hdr.allocated < s'.dlen := by rw [e] at hlt ⊢; exact hlt
  have hdata : ∀ l, ((links c).view s).Has l → Q l.index →
      t.data l.index = (l.source, l.target) := by
    intro l hl hca
    refine torn_keeps ht fun m hm => ?_
    rcases List.mem_cons.1 hm with rfl | hm
    · obtain ⟨-, h2⟩ := (has_iff hc hI.toInv0 l).1 hl
      rw [h2]; rfl
    · exact hf m hm l hl hca
  have hlink : ∀ l, ((links c).view s).Has l → Q l.index → s'.linkAt l.index = l := by
    intro l hl hca
    simp only [Store.linkAt, hsd, hdata l hl hca]
  refine ⟨fun l hl hca => ⟨by rw [hsd]; exact hdata l hl hca, ?_⟩, ?_⟩
  · rcases getLink_slot (c := c) hst hsi hsl l.index with e | e
    · exact .inr e
    · rw [hlink l hl hca] at e; exact .inl e
  · obtain ⟨L, h1, h2⟩ := all_visits (c := c) hst hsi hsl
    refine ⟨L, h1, fun l hl hca l' hl' e => ?_⟩
    have g := h2 l' hl'
    rw [e] at g
    rcases getLink_slot (c := c) hst hsi hsl l.index with e' | e'
    · rw [e'] at g; cases g
    · rw [hlink l hl hca] at e'; rw [e'] at g; cases g; rfl

/-- **C83**, split store. The power fails at any moment of a session, each of the two files is left as any mixture of what it
was at the moments since they were last on disk, and a store is opened on them. Every link that was in the store back then
and that no call of the session was about still has its ends in the data file. Lookup returns exactly that link or reports
it missing, and a traversal of the whole store visits nothing else under its index. -/
theorem C83_split_power_loss_keeps_the_ends (hc : CfgOK c) (hP : P.Implements c.trees) {s : Store} (h : Reach c s)
    {xs : List Step} (hs : Session c s xs) :
    ∃ f0, ∀ f, f0 ≤ f → ∀ t, Torn (s :: written c P f xs (.of s)) t →
      ∀ (d' i' : Nat → Nat → Option Nat), ExactAlloc d' → ExactAlloc i' → ∀ (n1 n2 : Nat) (s' : Store),
      init (c.withAllocs d' i') { t with dlen := n1, ilen := n2 } = some (.ok s') → t.hdr.allocated < s'.ilen →
      (∀ l, ((links c).view s).Has l → (∀ x ∈ xs, ¬ callAbout l.index x.call) →
        s'.data l.index = (l.source, l.target) ∧
        ((links c).getLink s' l.index = some (some l) ∨ (links c).getLink s' l.index = some none)) ∧
      ∃ L, (links c).Visits s' [] L ∧
        ∀ l, ((links c).view s).Has l → (∀ x ∈ xs, ¬ callAbout l.index x.call) → ∀ l' ∈ L, l'.index = l.index → l' = l := by
  obtain ⟨free, hI⟩ := reach_good hc h
  obtain ⟨f0, hf⟩ := written_keeps hc (P := P) hP hs h
  refine ⟨f0, fun f hff t ht d' i' hd' hi' n1 n2 s' ho hlt => ?_⟩
  exact torn_ends hc hI (Q := fun i => ∀ x ∈ xs, ¬ callAbout i x.call) (hf f hff) ht hd' hi' ho hlt

/-- A call with a handler that continues. -/
def quiet (k : Call) : Step := ⟨k, cfg0.dalloc, cfg0.ialloc, _root_.Unit, fun _ _ _ => (.cont, ()), ()⟩

/-- Executable `Session`. -/
def sessionB : List Call → Store → Bool
  | [], _ => true
  | k :: ks, s =>
    (match step cfg0 cfg0.dalloc cfg0.ialloc s k with
      | none => false
      | some o => okB cfg0 s k o.res) &&
    match callExec (cfg0.withAllocs cfg0.dalloc cfg0.ialloc) s (σ := _root_.Unit) (fun _ _ _ => (.cont, ())) () k with
    | none => false
    | some o => sessionB ks o.st

theorem sessionB_ok : ∀ {ks : List Call} {s : Store}, Reach cfg0 s → sessionB ks s = true → Session cfg0 s (ks.map quiet) := by
  intro ks
  induction ks with
  | nil => intro s _ _; exact .done s
  | cons k ks ih =>
    intro s h hb
    simp only [sessionB, Bool.and_eq_true] at hb
    obtain ⟨h1, h2⟩ := hb
    split at h1
    · cases h1
    · next o1 ho1 =>
      split at h2
      · cases h2
      · next o ho =>
        have hok := okB_ok cfg0_ok (reach_good cfg0_ok h) h1
        have hk : Supported ((links cfg0).view s) k := by
          cases k with
          | create => trivial
          | update i a b => exact hok
          | delete i => exact hok
        have hg : k = .create → GrowTogether (cfg0.withAllocs cfg0.dalloc cfg0.ialloc) s ∧
            NewUnused (cfg0.withAllocs cfg0.dalloc cfg0.ialloc) s := by
          rintro rfl
          refine ⟨fun _ e => (by cases e), fun x s' hx => ?_⟩
          have e : (links (cfg0.withAllocs cfg0.dalloc cfg0.ialloc)).create s = some o1 := ho1
          rw [hx] at e
          cases e
          exact hok
        exact .step (x := quiet k) cfg0_ok.dalloc_eq cfg0_ok.ialloc_eq hk hg ho
          (ih (step_keeps cfg0_ok h cfg0_ok.dalloc_eq cfg0_ok.ialloc_eq hk hg ho).1 h2)

/-- The files whose slots `old` names are as in `m0` and the others, as well as the header, as in `m1`. -/
def mixed (m0 m1 : Store) (old : List Nat) : Store :=
  { m1 with
    idx := fun i => if i ∈ old then m0.idx i else m1.idx i
    data := fun i => if i ∈ old then m0.data i else m1.data i }

theorem mixed_torn {ms : List Store} {m0 m1 : Store} (h0 : m0 ∈ ms) (h1 : m1 ∈ ms) (old : List Nat) :
    Torn ms (mixed m0 m1 old) := by
  intro i f
  constructor
  · by_cases ho : i ∈ old
    · exact ⟨m0, h0, by simp [Store.dataWord, mixed, ho]⟩
    · exact ⟨m1, h1, by simp [Store.dataWord, mixed, ho]⟩
  · by_cases hi : i = 0
    · exact ⟨m1, h1, by simp [Store.idxWord, Store.idxWords, mixed, hi]⟩
    · by_cases ho : i ∈ old
      · exact ⟨m0, h0, by simp [Store.idxWord, Store.idxWords, mixed, hi, ho]⟩
      · exact ⟨m1, h1, by simp [Store.idxWord, Store.idxWords, mixed, hi, ho]⟩

/-- Three calls on `sNetU`: link 5 is created and made to lead from 2 to 1, and link 6 is deleted. -/
def session0 : List Call := [.create, .update 5 2 1, .delete 6]

/-- The memories of this session, the first being that of `sNetU`. -/
def memories0 : List Store := sNetU :: written cfg0 Ref.programs 9 (session0.map quiet) (.of sNetU)

/-- Memory `n` of the session. -/
def memory0 (n : Nat) : Store := memories0.getD n sNetU

theorem memory0_mem (n : Nat) : memory0 n ∈ memories0 := by
  unfold memory0
  rw [List.getD_eq_getElem?_getD]
  cases h : memories0[n]? with
  | none => exact List.mem_cons_self
  | some m => exact List.mem_of_getElem? h

/-- What a store opened on the files `t` answers to `ask`. -/
def opened {α : Type} (t : Store) (ask : Store → Option α) : Option α :=
  match init (cfg0.withAllocs cfg0.dalloc cfg0.ialloc) { t with dlen := t.dlen, ilen := t.ilen } with
  | some (.ok s') => if t.hdr.allocated < s'.ilen then ask s' else none
  | _ => none

/-- The session makes 35 assignments. The files of which slots 1, 3 and 5 are as before the session, and the others as after
assignment 20, are such a mixture, and link 2 is found in them. -/
example : CfgOK cfg0 ∧ Ref.programs.Implements cfg0.trees ∧ Reach cfg0 sNetU ∧ Session cfg0 sNetU (session0.map quiet) ∧
    memories0.length = 36 ∧ Torn memories0 (mixed sNetU (memory0 20) [1, 3, 5]) ∧ ((links cfg0).view sNetU).Has ⟨2, 1, 3⟩ ∧
    (∀ x ∈ session0.map quiet, ¬ callAbout 2 x.call) ∧
    opened (mixed sNetU (memory0 20) [1, 3, 5]) (fun s' => (links cfg0).getLink s' 2) = some (some ⟨2, 1, 3⟩) := by
  refine ⟨cfg0_ok, Ref.programs_implement, sNetU_reach, sessionB_ok sNetU_reach (by decide +kernel), by decide +kernel,
    mixed_torn (memory0_mem 0) (memory0_mem 20) _, ?_, ?_, by decide +kernel⟩
  · show (links cfg0).view sNetU 2 = some (1, 3)
    decide +kernel
  · intro x hx
    simp only [session0, List.map_cons, List.map_nil, List.mem_cons, List.not_mem_nil, or_false] at hx
    rcases hx with rfl | rfl | rfl <;> simp [quiet, callAbout]

/-- **C83**, split store: searches are not kept. Slot 5 of either file is as before the session and everything else as after
it. Link 3 is there, but a search for its ends finds nothing. -/
theorem C83_split_power_loss_can_lose_a_search : ∃ (xs : List Step) (t : Store), Reach cfg0 sNetU ∧ Session cfg0 sNetU xs ∧
    Torn (sNetU :: written cfg0 Ref.programs 9 xs (.of sNetU)) t ∧ ((links cfg0).view sNetU).Has ⟨3, 2, 2⟩ ∧
    (∀ x ∈ xs, ¬ callAbout 3 x.call) ∧
    opened t (fun s' => (links cfg0).getLink s' 3) = some (some ⟨3, 2, 2⟩) ∧
    opened t (fun s' => (links cfg0).search s' 2 2) = some none := by
  refine ⟨session0.map quiet, mixed sNetU (memory0 35) [5], sNetU_reach, sessionB_ok sNetU_reach (by decide +kernel),
    mixed_torn (memory0_mem 0) (memory0_mem 35) _, ?_, ?_, by decide +kernel, by decide +kernel⟩
  · show (links cfg0).view sNetU 3 = some (2, 2)
    decide +kernel
  · intro x hx
    simp only [session0, List.map_cons, List.map_nil, List.mem_cons, List.not_mem_nil, or_false] at hx
    rcases hx with rfl | rfl | rfl <;> simp [quiet, callAbout]

end Verif.Split.Props
