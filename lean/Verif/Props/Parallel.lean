import Verif.Parallel
import Verif.Props.UnitDerived
import Verif.Props.SplitDerived

/-!
# C112: parallel iteration handles each link once
-/

namespace Verif.Unit.Props
open Verif Verif.Unit Parallel

variable {c : Cfg}

/-- **C112**, united store. `par_each_iter` for any query, when the count it begins with returns: its vector is what a traversal visits, in that
order, and going through it in parallel is faithful to it (`Parallel.Faithful`), however rayon divides it and schedules the workers. -/
theorem C112_par_each_iter (hc : CfgOK c) {s : Store} (h : Reach c s) {q : List Nat} (hq : q.length ≤ 3) {n : Nat}
    (hn : (links c).countBy s q = some n) :
    ∃ L, (∀ (σ ρ : Type) (hd : σ → Link → Ctl ρ × σ) (st : σ), (links c).eachBy s q hd st = some (runH hd L st)) ∧
      (links c).eachIter s q = some L ∧ Faithful L := by
  obtain ⟨L, h1, -, h3⟩ := C29_iterators_yield_the_traversal hc h hq
  exact ⟨L, h1, h3 n hn, faithful L⟩

/-- **C112**, united store. `par_iter`: however rayon divides the links and schedules the workers, every link of the store is handled once, and
nothing else is. -/
theorem C112_par_iter (hc : CfgOK c) {s : Store} (h : Reach c s) :
    ∃ L, (links c).iter s = some L ∧ Faithful L ∧
      ∀ (j : Job) (ys : List Link), Order (j.pieces L) ys → ys.Nodup ∧ ∀ l, l ∈ ys ↔ ((links c).view s).Has l := by
  obtain ⟨L, h1, h2, h3⟩ := C29_iter_yields_all_links hc h
  refine ⟨L, h1, faithful L, fun j ys ho => ?_⟩
  have hp := Job.order_perm ho
  exact ⟨hp.nodup_iff.mpr h2, fun l => by rw [hp.mem_iff, h3]⟩

example := C112_par_iter cfg0_ok sNet_reach
example := C112_par_each_iter cfg0_ok sNet_reach (q := [252, 2, 252]) (by decide) (n := 1) (by decide +kernel)

/-- Three pieces of a vector of five, and an order in which three workers handle them. -/
example : (Job.split 2 .whole (.split 1 .whole .whole)).pieces [1, 2, 3, 4, 5] = [[1, 2], [3], [4, 5]] ∧
    Order ((Job.split 2 .whole (.split 1 .whole .whole)).pieces [1, 2, 3, 4, 5]) [4, 1, 3, 2, 5] ∧
    (Job.split 2 .whole (.split 1 .whole .whole)).reduce (· + ·) 0 (· * 10) [1, 2, 3, 4, 5] = 150 := by
  refine ⟨rfl, ?_, rfl⟩
  exact .step 2 rfl (.step 0 rfl (.step 1 rfl (.step 0 rfl (.step 2 rfl (.done (by decide))))))

end Verif.Unit.Props

namespace Verif.Split.Props
open Verif Verif.Split Parallel

variable {c : Cfg}

/-- **C112**, split store: `par_each_iter` for queries without null ends, as `C112_par_each_iter`. -/
theorem C112_split_par_each_iter (hc : CfgOK c) {s : Store} (h : Reach c s) {q : List Nat} (hq : q.length ≤ 3)
    (hf : NullFree c.consts.any q) {n : Nat} (hn : (links c).countBy s q = some n) :
    ∃ L, (∀ (σ ρ : Type) (hd : σ → Link → Ctl ρ × σ) (st : σ), (links c).eachBy s q hd st = some (runH hd L st)) ∧
      (links c).eachIter s q = some L ∧ Faithful L := by
  obtain ⟨L, h1, h3⟩ := C29_split_iterators_yield_the_traversal hc h hq hf
  exact ⟨L, h1, h3 n hn, faithful L⟩

/-- **C112**, split store: `par_iter`, as `C112_par_iter`. -/
theorem C112_split_par_iter (hc : CfgOK c) {s : Store} (h : Reach c s) :
    ∃ L, (links c).iter s = some L ∧ Faithful L ∧
      ∀ (j : Job) (ys : List Link), Order (j.pieces L) ys → ys.Nodup ∧ ∀ l, l ∈ ys ↔ ((links c).view s).Has l := by
  obtain ⟨L, h1, h2, h3⟩ := C29_split_iter_yields_all_links hc h
  refine ⟨L, h1, faithful L, fun j ys ho => ?_⟩
  have hp := Job.order_perm ho
  exact ⟨hp.nodup_iff.mpr h2, fun l => by rw [hp.mem_iff, h3]⟩

example := C112_split_par_iter cfg0_ok sNetU_reach

end Verif.Split.Props
