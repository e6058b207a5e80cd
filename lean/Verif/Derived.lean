import Verif.SpecLemmas

/-!
# Default methods in terms of the required methods (helper lemmas)
-/

namespace Verif.Links
open Verif

variable {S σ ρ : Type} {D : Links S}

section
variable {call : (σ : Type) → WH σ → σ → Option (Out S σ Flow)} {s' : S} {b a : Link} {e : Err}

theorem Succeeds.wrap (h : Succeeds call s' b a) (hd : Hd σ ρ) (st : σ) :
    (call _ (wrapW hd) (st, .cont)).map unwrapW =
      some ⟨.ok (hd st b a).1, s', (hd st b a).2⟩ := by
  rw [h]
  simp only [Option.map_some, unwrapW, wrapW]
  rcases hd st b a with ⟨_ | r, st'⟩ <;> rfl

theorem Fails.wrap (h : Fails call s' e) (hd : Hd σ ρ) (st : σ) :
    (call _ (wrapW hd) (st, .cont)).map unwrapW = some ⟨.error e, s', st⟩ := by
  rw [h]; rfl

end

theorem createByWith_ok {s s' : S} {q : List Nat} {b a : Link}
    (h : Succeeds (fun _ h st => D.createLinks s q h st) s' b a) (hd : Hd σ ρ) (st : σ) :
    D.createByWith s q hd st = some ⟨.ok (hd st b a).1, s', (hd st b a).2⟩ := h.wrap hd st

theorem createByWith_err {s s' : S} {q : List Nat} {e : Err}
    (h : Fails (fun _ h st => D.createLinks s q h st) s' e) (hd : Hd σ ρ) (st : σ) :
    D.createByWith s q hd st = some ⟨.error e, s', st⟩ := h.wrap hd st

theorem create_ok {s s' : S} {b a : Link}
    (h : Succeeds (fun _ h st => D.createLinks s [] h st) s' b a) :
    D.create s = some ⟨.ok a.index, s', ()⟩ := by
  simp [create, createBy, createByWith_ok h, keepIndex, resultIndex, Except.map]

theorem create_err {s s' : S} {e : Err}
    (h : Fails (fun _ h st => D.createLinks s [] h st) s' e) :
    D.create s = some ⟨.error e, s', ()⟩ := by
  simp [create, createBy, createByWith_err h, resultIndex, Except.map]

theorem updateByWith_ok {s s' : S} {q ch : List Nat} {b a : Link}
    (h : Succeeds (fun _ h st => D.updateLinks s q ch h st) s' b a) (hd : Hd σ ρ) (st : σ) :
    D.updateByWith s q ch hd st = some ⟨.ok (hd st b a).1, s', (hd st b a).2⟩ := h.wrap hd st

theorem updateByWith_err {s s' : S} {q ch : List Nat} {e : Err}
    (h : Fails (fun _ h st => D.updateLinks s q ch h st) s' e) (hd : Hd σ ρ) (st : σ) :
    D.updateByWith s q ch hd st = some ⟨.error e, s', st⟩ := h.wrap hd st

theorem update_ok {s s' : S} {i x y : Nat} {b a : Link}
    (h : Succeeds (fun _ h st => D.updateLinks s [i] [i, x, y] h st) s' b a) :
    D.update s i x y = some ⟨.ok a.index, s', ()⟩ := by
  simp [update, updateBy, updateByWith_ok h, keepIndex, resultIndex, Except.map]

theorem update_err {s s' : S} {i x y : Nat} {e : Err}
    (h : Fails (fun _ h st => D.updateLinks s [i] [i, x, y] h st) s' e) :
    D.update s i x y = some ⟨.error e, s', ()⟩ := by
  simp [update, updateBy, updateByWith_err h, resultIndex, Except.map]

theorem deleteByWith_ok {s s' : S} {q : List Nat} {b a : Link}
    (h : Succeeds (fun _ h st => D.deleteLinks s q h st) s' b a) (hd : Hd σ ρ) (st : σ) :
    D.deleteByWith s q hd st = some ⟨.ok (hd st b a).1, s', (hd st b a).2⟩ := h.wrap hd st

theorem deleteByWith_err {s s' : S} {q : List Nat} {e : Err}
    (h : Fails (fun _ h st => D.deleteLinks s q h st) s' e) (hd : Hd σ ρ) (st : σ) :
    D.deleteByWith s q hd st = some ⟨.error e, s', st⟩ := h.wrap hd st

theorem delete_ok {s s' : S} {i : Nat} {b a : Link}
    (h : Succeeds (fun _ h st => D.deleteLinks s [i] h st) s' b a) :
    D.delete s i = some ⟨.ok a.index, s', ()⟩ := by
  simp [delete, deleteBy, deleteByWith_ok h, keepIndex, resultIndex, Except.map]

theorem delete_err {s s' : S} {i : Nat} {e : Err}
    (h : Fails (fun _ h st => D.deleteLinks s [i] h st) s' e) :
    D.delete s i = some ⟨.error e, s', ()⟩ := by
  simp [delete, deleteBy, deleteByWith_err h, resultIndex, Except.map]

/-- The wrapper of `each_by` does not change what a traversal does. -/
theorem runH_wrapR (hd : σ → Link → Ctl ρ × σ) (L : List Link) (st : σ) :
    ((runH (wrapR hd) L (st, .cont)).2.2, (runH (wrapR hd) L (st, .cont)).2.1) = runH hd L st := by
  induction L generalizing st with
  | nil => rfl
  | cons l L ih =>
    simp only [runH, wrapR]
    cases hh : hd st l with
    | mk r st' => cases r with
      | cont => exact ih st'
      | brk r => rfl

theorem eachBy_eq {s : S} {q : List Nat} {L : List Link} (h : D.Visits s q L)
    (hd : σ → Link → Ctl ρ × σ) (st : σ) : D.eachBy s q hd st = some (runH hd L st) := by
  unfold eachBy
  rw [h]
  simp only [Option.map_some, runH_wrapR]

theorem collect_eq {s : S} {q : List Nat} {L : List Link} (h : D.Visits s q L) :
    D.collect s q = some L := by
  unfold collect
  rw [eachBy_eq h, runH_collect]
  rfl

end Verif.Links
