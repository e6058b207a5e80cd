import Verif.Macros

/-!
# C61–C63: the generated C functions, their names, and decorators chosen by the environment
-/

namespace Verif.Macros.Props
open Verif.Macros

/-! ## Specification: a type with its parameter replaced -/

mutual
/-- `t'` is `t` with the type parameter `g` replaced by `to`. A parameter is the first segment of a path. -/
inductive Inst (g to : String) : Ty → Ty → Prop where
  | array {e e' : Ty} (n : String) : Inst g to e e' → Inst g to (.array e n) (.array e' n)
  | ptr {e e' : Ty} (tag : String) : Inst g to e e' → Inst g to (.ptr tag e) (.ptr tag e')
  | ref {e e' : Ty} (tag : String) : Inst g to e e' → Inst g to (.ref tag e) (.ref tag e')
  | param {a a' : Args} {r r' : Segs} : InstArgs g to a a' → InstSegs g to r r' →
      Inst g to (.path (.cons g a r)) (.path (.cons to a' r'))
  | path {x : String} {a a' : Args} {r r' : Segs} : x ≠ g → InstArgs g to a a' → InstSegs g to r r' →
      Inst g to (.path (.cons x a r)) (.path (.cons x a' r'))

/-- The further segments of a path keep their names. -/
inductive InstSegs (g to : String) : Segs → Segs → Prop where
  | nil : InstSegs g to .nil .nil
  | cons {x : String} {a a' : Args} {r r' : Segs} : InstArgs g to a a' → InstSegs g to r r' →
      InstSegs g to (.cons x a r) (.cons x a' r')

inductive InstArgs (g to : String) : Args → Args → Prop where
  | none : InstArgs g to .none .none
  | angle {l l' : GArgs} : InstGArgs g to l l' → InstArgs g to (.angle l) (.angle l')

inductive InstGArgs (g to : String) : GArgs → GArgs → Prop where
  | nil : InstGArgs g to .nil .nil
  | ty {t t' : Ty} {l l' : GArgs} : Inst g to t t' → InstGArgs g to l l' → InstGArgs g to (.ty t l) (.ty t' l')
end

mutual
/-- Nowhere in the type is there an array or a path with a further segment named `g` (`a::T`). (Rust has no empty paths.) -/
def Simple (g : String) : Ty → Prop
  | .array _ _ => False
  | .path .nil => False
  | .path (.cons _ a r) => SimpleArgs g a ∧ SimpleSegs g r
  | .ptr _ e => Simple g e
  | .ref _ e => Simple g e
  | .other _ => True

def SimpleSegs (g : String) : Segs → Prop
  | .nil => True
  | .cons x a r => x ≠ g ∧ SimpleArgs g a ∧ SimpleSegs g r

def SimpleArgs (g : String) : Args → Prop
  | .none => True
  | .angle l => SimpleGArgs g l
  | .paren _ => True

def SimpleGArgs (g : String) : GArgs → Prop
  | .nil => True
  | .ty t l => Simple g t ∧ SimpleGArgs g l
  | .other _ l => SimpleGArgs g l
end

/-! ## Replacing the type parameter -/

mutual
theorem inst_ty {g to : String} : ∀ (t t' : Ty), Simple g t → Inst g to t t' → tyFromTo g to t = some t'
  | .array _ _, _, hs, _ => absurd hs (by simp [Simple])
  | .ptr tag e, _, hs, .ptr _ h => by
      simp only [Simple] at hs
      simp only [tyFromTo, inst_ty e _ hs h, Option.map_some]
  | .ref tag e, _, hs, .ref _ h => by
      simp only [Simple] at hs
      simp only [tyFromTo, inst_ty e _ hs h, Option.map_some]
  | .path (.cons x a r), _, hs, h => by
      simp only [Simple] at hs
      cases h with
      | param h1 h2 => simp [tyFromTo, segsFromTo, inst_args a _ hs.1 h1, inst_segs r _ hs.2 h2]
      | path hx h1 h2 => simp [tyFromTo, segsFromTo, inst_args a _ hs.1 h1, inst_segs r _ hs.2 h2, hx]

theorem inst_segs {g to : String} : ∀ (t t' : Segs), SimpleSegs g t → InstSegs g to t t' → segsFromTo g to t = some t'
  | .nil, _, _, .nil => rfl
  | .cons x a r, _, hs, .cons h1 h2 => by
      simp only [SimpleSegs] at hs
      simp [segsFromTo, inst_args a _ hs.2.1 h1, inst_segs r _ hs.2.2 h2, hs.1]

theorem inst_args {g to : String} : ∀ (t t' : Args), SimpleArgs g t → InstArgs g to t t' → argsFromTo g to t = some t'
  | .none, _, _, .none => rfl
  | .angle l, _, hs, .angle h => by
      simp only [SimpleArgs] at hs
      simp [argsFromTo, inst_gargs l _ hs h]

theorem inst_gargs {g to : String} : ∀ (t t' : GArgs), SimpleGArgs g t → InstGArgs g to t t' →
    gargsFromTo g to t = some t'
  | .nil, _, _, .nil => rfl
  | .ty t l, _, hs, .ty h1 h2 => by
      simp only [SimpleGArgs] at hs
      simp [gargsFromTo, inst_ty t _ hs.1 h1, inst_gargs l _ hs.2 h2]
end

mutual
theorem ty_inst {g to : String} : ∀ (t t' : Ty), Simple g t → tyFromTo g to t = some t' → Inst g to t t'
  | .array _ _, _, hs, _ => absurd hs (by simp [Simple])
  | .other _, _, _, h => by simp [tyFromTo] at h
  | .ptr tag e, t', hs, h => by
      simp only [Simple] at hs
      simp only [tyFromTo, Option.map_eq_some_iff] at h
      obtain ⟨e', h, rfl⟩ := h
      exact .ptr tag (ty_inst e e' hs h)
  | .ref tag e, t', hs, h => by
      simp only [Simple] at hs
      simp only [tyFromTo, Option.map_eq_some_iff] at h
      obtain ⟨e', h, rfl⟩ := h
      exact .ref tag (ty_inst e e' hs h)
  | .path .nil, _, hs, _ => absurd hs (by simp [Simple])
  | .path (.cons x a r), t', hs, h => by
      simp only [Simple] at hs
      simp only [tyFromTo, segsFromTo, Option.bind_eq_bind, Option.map_eq_some_iff, Option.bind_eq_some_iff, Option.pure_def,
        Option.some.injEq] at h
      obtain ⟨_, ⟨a', h1, r', h2, rfl⟩, rfl⟩ := h
      have g1 := args_inst a a' hs.1 h1
      have g2 := segs_inst r r' hs.2 h2
      split
      · next e => subst e; exact .param g1 g2
      · next e => exact .path e g1 g2

theorem segs_inst {g to : String} : ∀ (t t' : Segs), SimpleSegs g t → segsFromTo g to t = some t' → InstSegs g to t t'
  | .nil, _, _, h => by simp only [segsFromTo, Option.some.injEq] at h; subst h; exact .nil
  | .cons x a r, _, hs, h => by
      simp only [SimpleSegs] at hs
      simp only [segsFromTo, Option.bind_eq_bind, Option.bind_eq_some_iff, Option.pure_def, Option.some.injEq] at h
      obtain ⟨a', h1, r', h2, rfl⟩ := h
      rw [if_neg hs.1]
      exact .cons (args_inst a a' hs.2.1 h1) (segs_inst r r' hs.2.2 h2)

theorem args_inst {g to : String} : ∀ (t t' : Args), SimpleArgs g t → argsFromTo g to t = some t' → InstArgs g to t t'
  | .none, _, _, h => by simp only [argsFromTo, Option.some.injEq] at h; subst h; exact .none
  | .angle l, _, hs, h => by
      simp only [SimpleArgs] at hs
      simp only [argsFromTo, Option.map_eq_some_iff] at h
      obtain ⟨l', h, rfl⟩ := h
      exact .angle (gargs_inst l l' hs h)
  | .paren _, _, _, h => by simp [argsFromTo] at h

theorem gargs_inst {g to : String} : ∀ (t t' : GArgs), SimpleGArgs g t → gargsFromTo g to t = some t' →
    InstGArgs g to t t'
  | .nil, _, _, h => by simp only [gargsFromTo, Option.some.injEq] at h; subst h; exact .nil
  | .ty t l, _, hs, h => by
      simp only [SimpleGArgs] at hs
      simp only [gargsFromTo, Option.bind_eq_bind, Option.bind_eq_some_iff, Option.pure_def, Option.some.injEq] at h
      obtain ⟨t', h1, l', h2, rfl⟩ := h
      exact .ty (ty_inst t t' hs.1 h1) (gargs_inst l l' hs.2 h2)
  | .other _ _, _, _, h => by simp [gargsFromTo] at h
end

/-! ## C61 -/

/-- The parameter list `ps'` is `ps` with the type parameter replaced: same patterns, same order. -/
inductive InstParams (g to : String) : List (Option (String × Ty)) → List (String × Ty) → Prop where
  | nil : InstParams g to [] []
  | cons {x : String} {t t' : Ty} {l l'} : Inst g to t t' → InstParams g to l l' →
      InstParams g to (some (x, t) :: l) ((x, t') :: l')

/-- The return type with the type parameter replaced. -/
def InstRet (g to : String) (r r' : Option Ty) : Prop :=
  (r = none ∧ r' = none) ∨ ∃ t t', r = some t ∧ r' = some t' ∧ Inst g to t t'

theorem inst_params {g to : String} {l l'} (h : InstParams g to l l') (hs : ∀ p ∈ l, ∀ x t, p = some (x, t) → Simple g t) :
    paramsFromTo g to l = some l' := by
  induction h with
  | nil => rfl
  | @cons x t _ _ _ h1 _ ih =>
    simp [paramsFromTo, inst_ty _ _ (hs (some (x, t)) (by simp) _ _ rfl) h1, ih fun p hp => hs p (by simp [hp])]

/-- The text `pat` with its only `*` replaced by `name`. -/
def Named (pat name full : List Char) : Prop :=
  ∃ a b, pat = a ++ '*' :: b ∧ '*' ∉ a ∧ '*' ∉ b ∧ full = a ++ name ++ b

theorem replaceStar_none {l n : List Char} (h : '*' ∉ l) : replaceStar l n = l := by
  induction l with
  | nil => rfl
  | cons c l ih =>
    simp only [List.mem_cons, not_or] at h
    simp only [replaceStar, List.flatMap_cons] at ih ⊢
    rw [ih h.2, if_neg fun e => h.1 e.symm]
    rfl

theorem replaceStar_one {a b n : List Char} (ha : '*' ∉ a) (hb : '*' ∉ b) :
    replaceStar (a ++ '*' :: b) n = a ++ n ++ b := by
  have e1 := replaceStar_none (n := n) ha
  have e2 := replaceStar_none (n := n) hb
  simp only [replaceStar] at e1 e2
  simp [replaceStar, List.flatMap_append, e1, e2]

theorem one_star {a b : List Char} (ha : '*' ∉ a) (hb : '*' ∉ b) :
    ((a ++ '*' :: b).filter (· = '*')).length = 1 := by
  rw [List.filter_append, List.filter_eq_nil_iff.2 (fun c hc => by simp; exact fun e => ha (e ▸ hc)),
    List.filter_cons_of_pos (by simp), List.filter_eq_nil_iff.2 (fun c hc => by simp; exact fun e => hb (e ▸ hc))]
  rfl

theorem split_at_star {pat : List Char} (h : (pat.filter (· = '*')).length = 1) :
    ∃ a b, pat = a ++ '*' :: b ∧ '*' ∉ a ∧ '*' ∉ b := by
  induction pat with
  | nil => cases h
  | cons c l ih =>
    by_cases hc : c = '*'
    · subst hc
      rw [List.filter_cons_of_pos (by simp), List.length_cons] at h
      refine ⟨[], l, rfl, by simp, fun hm => ?_⟩
      have : '*' ∈ l.filter (· = '*') := List.mem_filter.2 ⟨hm, by simp⟩
      have := List.length_pos_of_mem this
      omega
    · rw [List.filter_cons_of_neg (by simp [hc])] at h
      obtain ⟨a, b, e, h1, h2⟩ := ih h
      exact ⟨c :: a, b, by rw [e]; rfl, by simp [h1]; exact fun e => hc e.symm, h2⟩

/-- The C# name of an index type. -/
def CSharp : List (String × String) :=
  [("i8", "SByte"), ("u8", "Byte"), ("i16", "Int16"), ("u16", "UInt16"), ("i32", "Int32"), ("u32", "UInt32"),
   ("i64", "Int64"), ("u64", "UInt64")]

theorem csharp_iff {t : String} {n : List Char} :
    csharpConvention t = some n ↔ ∃ m, (t, m) ∈ CSharp ∧ n = m.toList := by
  unfold csharpConvention CSharp
  constructor
  · intro h
    by_cases h' : t = "i8"
    · rw [if_pos h', Option.some.injEq] at h; exact ⟨"SByte", by simp [h'], h.symm⟩
    rw [if_neg h'] at h; clear h'
    by_cases h' : t = "u8"
    · rw [if_pos h', Option.some.injEq] at h; exact ⟨"Byte", by simp [h'], h.symm⟩
    rw [if_neg h'] at h; clear h'
    by_cases h' : t = "i16"
    · rw [if_pos h', Option.some.injEq] at h; exact ⟨"Int16", by simp [h'], h.symm⟩
    rw [if_neg h'] at h; clear h'
    by_cases h' : t = "u16"
    · rw [if_pos h', Option.some.injEq] at h; exact ⟨"UInt16", by simp [h'], h.symm⟩
    rw [if_neg h'] at h; clear h'
    by_cases h' : t = "i32"
    · rw [if_pos h', Option.some.injEq] at h; exact ⟨"Int32", by simp [h'], h.symm⟩
    rw [if_neg h'] at h; clear h'
    by_cases h' : t = "u32"
    · rw [if_pos h', Option.some.injEq] at h; exact ⟨"UInt32", by simp [h'], h.symm⟩
    rw [if_neg h'] at h; clear h'
    by_cases h' : t = "i64"
    · rw [if_pos h', Option.some.injEq] at h; exact ⟨"Int64", by simp [h'], h.symm⟩
    rw [if_neg h'] at h; clear h'
    by_cases h' : t = "u64"
    · rw [if_pos h', Option.some.injEq] at h; exact ⟨"UInt64", by simp [h'], h.symm⟩
    rw [if_neg h'] at h; clear h'
    cases h
  · rintro ⟨m, hm, rfl⟩
    simp only [List.mem_cons, Prod.mk.injEq, List.not_mem_nil, or_false] at hm
    rcases hm with ⟨rfl, rfl⟩ | ⟨rfl, rfl⟩ | ⟨rfl, rfl⟩ | ⟨rfl, rfl⟩ | ⟨rfl, rfl⟩ | ⟨rfl, rfl⟩ | ⟨rfl, rfl⟩ | ⟨rfl, rfl⟩ <;>
      simp

/-- The lists correspond element by element. -/
inductive Each {α β : Type} (R : α → β → Prop) : List α → List β → Prop where
  | nil : Each R [] []
  | cons {a b l l'} : R a b → Each R l l' → Each R (a :: l) (b :: l')

/-- What the macro should generate for `f` and the index type `ty`. -/
structure Exports (pat : List Char) (f : GFn) (g ty : String) (e : CFn) : Prop where
  /-- the exported name: the pattern with `*` replaced by the C# name of the type -/
  name : ∃ m, (ty, m) ∈ CSharp ∧ Named pat m.toList e.name
  /-- the parameters and the result of `f`, at that type -/
  params : InstParams g ty f.params e.params
  ret : InstRet g ty f.ret e.ret
  /-- the body calls `f` at that type with the parameters in order -/
  callee : e.callee = f.ident
  tyArg : e.tyArg = ty
  args : e.args = e.params.map (·.1)

theorem params_inst {g to : String} : ∀ {l l'}, paramsFromTo g to l = some l' →
    (∀ p ∈ l, ∀ x t, p = some (x, t) → Simple g t) → InstParams g to l l'
  | [], _, h, _ => by simp only [paramsFromTo, Option.some.injEq] at h; subst h; exact .nil
  | none :: _, _, h, _ => by simp [paramsFromTo] at h
  | some (x, t) :: l, _, h, hs => by
    simp only [paramsFromTo, Option.bind_eq_bind, Option.bind_eq_some_iff, Option.pure_def, Option.some.injEq] at h
    obtain ⟨t', h1, l', h2, rfl⟩ := h
    exact .cons (ty_inst _ _ (hs (some (x, t)) (by simp) _ _ rfl) h1) (params_inst h2 fun p hp => hs p (by simp [hp]))

theorem specializeOne_iff {pat : List Char} {f : GFn} {g ty : String} {e : CFn} (hstar : (pat.filter (· = '*')).length = 1)
    (hps : ∀ p ∈ f.params, ∀ x t, p = some (x, t) → Simple g t) (hr : ∀ t, f.ret = some t → Simple g t) :
    specializeOne pat f g ty = some e ↔ Exports pat f g ty e := by
  obtain ⟨a, b, rfl, ha, hb⟩ := split_at_star hstar
  constructor
  · intro h
    simp only [specializeOne, Option.bind_eq_bind, Option.bind_eq_some_iff, Option.pure_def, Option.some.injEq] at h
    obtain ⟨n, h1, r, h2, ps, h3, rfl⟩ := h
    obtain ⟨m, hm, rfl⟩ := csharp_iff.1 h1
    refine ⟨⟨m, hm, a, b, rfl, ha, hb, replaceStar_one ha hb⟩, params_inst h3 hps, ?_, rfl, rfl, rfl⟩
    cases hfr : f.ret with
    | none => rw [hfr] at h2; simp only [retFromTo, Option.some.injEq] at h2; exact .inl ⟨rfl, h2.symm⟩
    | some t =>
      rw [hfr] at h2
      simp only [retFromTo, Option.map_eq_some_iff] at h2
      obtain ⟨t', h2, rfl⟩ := h2
      exact .inr ⟨t, t', rfl, rfl, ty_inst _ _ (hr t hfr) h2⟩
  · intro h
    obtain ⟨m, hm, a', b', hpat, ha', hb', hn⟩ := h.name
    have e1 := csharp_iff.2 ⟨m, hm, rfl⟩
    have e2 := inst_params h.params hps
    have e3 : retFromTo g ty f.ret = some e.ret := by
      rcases h.ret with ⟨q1, q2⟩ | ⟨t, t', q1, q2, q3⟩
      · rw [q1, q2]; rfl
      · rw [q1, q2]; simp [retFromTo, inst_ty _ _ (hr t q1) q3]
    simp only [specializeOne, e1, e2, e3, Option.bind_eq_bind, Option.bind_some, hpat, replaceStar_one ha' hb']
    obtain ⟨n', p', r', c', t', a''⟩ := e
    have := h.callee; have := h.tyArg; have := h.args
    simp only at *
    subst_vars
    rfl

theorem mapM_iff {α β : Type} {f : α → Option β} {R : α → β → Prop} (h : ∀ a b, f a = some b ↔ R a b) :
    ∀ {l : List α} {l' : List β}, l.mapM f = some l' ↔ Each R l l'
  | [], l' => by
    rw [List.mapM_nil]
    constructor
    · intro e; cases e; exact .nil
    · intro e; cases e; rfl
  | a :: l, l' => by
    rw [List.mapM_cons]
    simp only [Option.bind_eq_bind, Option.bind_eq_some_iff, Option.pure_def, Option.some.injEq]
    constructor
    · rintro ⟨b, h1, l'', h2, rfl⟩
      exact .cons ((h _ _).1 h1) ((mapM_iff h).1 h2)
    · intro e
      cases e with
      | cons h1 h2 => exact ⟨_, (h _ _).2 h1, _, (mapM_iff h).2 h2, rfl⟩

/-- **C61** (partial: no array types and no paths `a::T` in the signature). The macro accepts exactly a name pattern
with one `*`, types with a C# name and types it can rewrite; then, for each listed type, in order, one C function is generated, with the
name, the signature and the body it should have. -/
theorem C61_exported_functions_partial {types : List String} {pat : List Char} {f : GFn} {g : String} {es : List CFn}
    (hg : f.generics = [.type g])
    (hps : ∀ p ∈ f.params, ∀ x t, p = some (x, t) → Simple g t) (hr : ∀ t, f.ret = some t → Simple g t) :
    specializeFor types pat f = some es ↔ pat.count '*' = 1 ∧ Each (Exports pat f g) types es := by
  have hc : (pat.filter (· = '*')).length = pat.count '*' := by
    rw [List.count, List.countP_eq_length_filter]
    congr 1
  simp only [specializeFor, hg, genericName, Option.bind_eq_bind, Option.bind_some, hc]
  split
  · next hs =>
    rw [mapM_iff fun t e => specializeOne_iff (hc.trans hs) hps hr]
    exact ⟨fun h => ⟨hs, h⟩, fun h => h.2⟩
  · next hs => exact ⟨fun h => (nomatch h), fun h => absurd h.1 hs⟩

/-- **C61** for the C interface as it is: all eleven functions are exported, correctly, for all four types. -/
theorem C61_ffi_functions : ∀ pf ∈ ffiFunctions, ∃ es, specializeFor ffiTypes pf.1 pf.2 = some es ∧
    es.length = 4 ∧ Each (Exports pf.1 pf.2 "T") ["u8", "u16", "u32", "u64"] es := by
  have hs : ∀ pf ∈ ffiFunctions, pf.2.generics = [.type "T"] ∧
      (∀ p ∈ pf.2.params, ∀ x t, p = some (x, t) → Simple "T" t) ∧ (∀ t, pf.2.ret = some t → Simple "T" t) := by
    intro pf hpf
    simp only [ffiFunctions, List.mem_cons, List.not_mem_nil, or_false] at hpf
    rcases hpf with rfl | rfl | rfl | rfl | rfl | rfl | rfl | rfl | rfl | rfl | rfl <;>
      refine ⟨rfl, ?_, ?_⟩ <;>
      simp +contextual [named, over, Simple, SimpleSegs, SimpleArgs, SimpleGArgs]
  have ho : ∀ pf ∈ ffiFunctions, ∃ es, specializeFor ffiTypes pf.1 pf.2 = some es ∧ es.length = 4 := by
    intro pf hpf
    simp only [ffiFunctions, List.mem_cons, List.not_mem_nil, or_false] at hpf
    rcases hpf with rfl | rfl | rfl | rfl | rfl | rfl | rfl | rfl | rfl | rfl | rfl <;> exact ⟨_, rfl, rfl⟩
  intro pf hpf
  obtain ⟨h1, h2, h3⟩ := hs pf hpf
  obtain ⟨es, h4, h5⟩ := ho pf hpf
  exact ⟨es, h4, h5, ((C61_exported_functions_partial h1 h2 h3).1 h4).2⟩

/-- **C61**: a function without type parameter, with several parameters, or with a lifetime or constant parameter is refused. -/
theorem C61_needs_one_type_parameter {types : List String} {pat : List Char} {f : GFn} (h : ∀ g, f.generics ≠ [.type g]) :
    specializeFor types pat f = none := by
  have hg : genericName f.generics = none := by
    revert h
    generalize f.generics = gs
    intro h
    unfold genericName
    split
    · next t => exact absurd rfl (h t)
    · rfl
  simp [specializeFor, hg]

example : specializeFor ["u8"] "*Links_Copy".toList ⟨"copy_links", [.type "T", .type "U"],
    [some ("this", .ptr "mut" (named "c_void"))], none⟩ = none := C61_needs_one_type_parameter (by simp)

/-- The names C programs use for the index types. -/
def cTypes : List (String × String) := [("Byte", "u8"), ("UInt16", "u16"), ("UInt32", "u32"), ("UInt64", "u64")]

/-- The functions C programs see, and the Rust functions they call. -/
def cFunctions : List (String × String) :=
  [("New", "new_united_links"), ("NewWithConstants", "new_with_constants_united_links"), ("Drop", "drop_united_links"),
   ("GetConstants", "get_constants_united_links"), ("Create", "create_united"), ("SmartCreate", "smart_create_united"),
   ("SmartUpdate", "smart_update_united"), ("Each", "each_united"), ("Count", "count_united"), ("Update", "update_united"),
   ("Delete", "delete_united")]

/-- **C61** for the C interface as it is: the 44 exported functions, with the function and the type each of them calls. -/
theorem C61_ffi_names :
    (ffiFunctions.map fun pf => ((specializeFor ffiTypes pf.1 pf.2).getD []).map fun e => (e.name, e.callee, e.tyArg)) =
    cFunctions.map fun f => cTypes.map fun t => ((t.1 ++ "Links_" ++ f.1).toList, f.2, t.2) := by decide +kernel

/-- Non-vacuity: `*Links_Count` at `u32`. -/
example : ∃ e, Exports "*Links_Count".toList ⟨"count_united", [.type "T"],
      [some ("this", .ptr "mut" (named "c_void")), some ("query", .ptr "const" (named "T")), some ("len", named "usize")],
      some (named "T")⟩ "T" "u32" e ∧
    e.name = "UInt32Links_Count".toList ∧ e.ret = some (named "u32") ∧ e.args = ["this", "query", "len"] :=
  ⟨⟨"UInt32Links_Count".toList, [("this", .ptr "mut" (named "c_void")), ("query", .ptr "const" (named "u32")),
      ("len", named "usize")], some (named "u32"), "count_united", "u32", ["this", "query", "len"]⟩,
    (specializeOne_iff (by decide +kernel)
      (by simp +contextual [named, Simple, SimpleSegs, SimpleArgs])
      (by simp +contextual [named, Simple, SimpleSegs, SimpleArgs])).1 rfl, rfl, rfl, rfl⟩

/-- **C61** is false of arrays: a parameter `[T; 3]` is exported as one index. -/
theorem C61_array_is_flattened :
    Inst "T" "u64" (.array (named "T") "3") (.array (named "u64") "3") ∧
    tyFromTo "T" "u64" (.array (named "T") "3") = some (named "u64") :=
  ⟨.array _ (.param .none .nil), rfl⟩

/-- **C61** is false of a path with a further segment named as the type parameter: `a::T` becomes `a::u64`. -/
theorem C61_path_segment_is_renamed :
    Inst "T" "u64" (.path (.cons "a" .none (.cons "T" .none .nil))) (.path (.cons "a" .none (.cons "T" .none .nil))) ∧
    tyFromTo "T" "u64" (.path (.cons "a" .none (.cons "T" .none .nil))) =
      some (.path (.cons "a" .none (.cons "u64" .none .nil))) :=
  ⟨.path (by decide) .none (.cons .none .nil), rfl⟩

/-! ## C62 -/

/-- No C# name is the beginning of another. -/
theorem csharp_prefix : ∀ x ∈ CSharp, ∀ y ∈ CSharp, x.2.toList <+: y.2.toList → x = y := by decide +kernel

theorem star_first {r full n : List Char} (h : Named ('*' :: r) n full) : full = n ++ r := by
  obtain ⟨a, b, e, ha, -, rfl⟩ := h
  cases a with
  | nil => simp only [List.nil_append, List.cons.injEq, true_and] at e; rw [e]; rfl
  | cons c a => simp only [List.cons_append, List.cons.injEq] at e; exact absurd (by simp [← e.1]) ha

theorem names_differ {p p' : List Char} {ty ty' m m' : String} {n n' : List Char}
    (hm : (ty, m) ∈ CSharp) (hn1 : Named p m.toList n) (hm' : (ty', m') ∈ CSharp) (hn2 : Named p' m'.toList n') (hn : n = n')
    (hp : p = p' ∨ ∃ r r', p = '*' :: r ∧ p' = '*' :: r') : ty = ty' ∧ p = p' := by
  rcases hp with rfl | ⟨r, r', rfl, rfl⟩
  · obtain ⟨a, b, e1, ha, hb, k1⟩ := hn1
    obtain ⟨a', b', e2, ha', hb', k2⟩ := hn2
    have : a = a' ∧ b = b' := by
      clear hn k1 k2 hm hm'
      subst e1
      induction a generalizing a' with
      | nil =>
        cases a' with
        | nil => simpa using e2
        | cons c a' => simp only [List.nil_append, List.cons_append, List.cons.injEq] at e2; simp [← e2.1] at ha'
      | cons c a ih =>
        cases a' with
        | nil => simp only [List.nil_append, List.cons_append, List.cons.injEq] at e2; simp [e2.1] at ha
        | cons c' a' =>
          simp only [List.cons_append, List.cons.injEq] at e2
          simp only [List.mem_cons, not_or] at ha ha'
          obtain ⟨q1, q2⟩ := ih ha.2 a' ha'.2 e2.2
          exact ⟨by rw [e2.1, q1], q2⟩
    obtain ⟨rfl, rfl⟩ := this
    rw [k1, k2, List.append_cancel_right_eq, List.append_cancel_left_eq] at hn
    have := csharp_prefix _ hm _ hm' (by simp [hn])
    exact ⟨congrArg Prod.fst this, rfl⟩
  · have k1 := star_first hn1
    have k2 := star_first hn2
    rw [k1, k2] at hn
    have hpre : m.toList <+: m'.toList ∨ m'.toList <+: m.toList :=
      List.prefix_or_prefix_of_prefix ⟨r, hn⟩ ⟨r', rfl⟩
    have hx : (ty, m) = (ty', m') := by
      rcases hpre with hpre | hpre
      · exact csharp_prefix _ hm _ hm' hpre
      · exact (csharp_prefix _ hm' _ hm hpre).symm
    simp only [Prod.mk.injEq] at hx
    obtain ⟨rfl, rfl⟩ := hx
    rw [List.append_cancel_left_eq] at hn
    exact ⟨rfl, by rw [hn]⟩

theorem mapM_mem {α β : Type} {f : α → Option β} : ∀ {l : List α} {r : List β}, l.mapM f = some r →
    ∀ b ∈ r, ∃ a ∈ l, f a = some b
  | [], r, h => by simp only [List.mapM_nil, Option.pure_def, Option.some.injEq] at h; subst h; simp
  | x :: l, r, h => by
    simp only [List.mapM_cons, Option.bind_eq_bind, Option.bind_eq_some_iff, Option.pure_def, Option.some.injEq] at h
    obtain ⟨y, h1, r', h2, rfl⟩ := h
    intro b hb
    rcases List.mem_cons.1 hb with rfl | hb
    · exact ⟨x, by simp, h1⟩
    · obtain ⟨a, ha, h3⟩ := mapM_mem h2 b hb
      exact ⟨a, by simp [ha], h3⟩

theorem generated_name {types : List String} {p : List Char} {f : GFn} {es : List CFn} (h : specializeFor types p f = some es)
    {e : CFn} (he : e ∈ es) : ∃ m, (e.tyArg, m) ∈ CSharp ∧ Named p m.toList e.name := by
  simp only [specializeFor, Option.bind_eq_bind, Option.bind_eq_some_iff] at h
  obtain ⟨g, -, h⟩ := h
  split at h
  · next hs =>
    obtain ⟨ty, -, h1⟩ := mapM_mem h e he
    simp only [specializeOne, Option.bind_eq_bind, Option.bind_eq_some_iff, Option.pure_def, Option.some.injEq] at h1
    obtain ⟨n, h1, r, h2, ps, h3, rfl⟩ := h1
    obtain ⟨m, hm, rfl⟩ := csharp_iff.1 h1
    obtain ⟨a, b, rfl, ha, hb⟩ := split_at_star hs
    exact ⟨m, hm, a, b, rfl, ha, hb, replaceStar_one ha hb⟩
  · cases h

/-- **C62.** Names never clash: two functions generated from one pattern, or from two patterns that begin with `*`, have
different names, unless they are for the same type and from the same pattern. -/
theorem C62_names_differ {types types' : List String} {p p' : List Char} {f f' : GFn} {es es' : List CFn}
    (h : specializeFor types p f = some es) (h' : specializeFor types' p' f' = some es')
    (hp : p = p' ∨ ∃ r r', p = '*' :: r ∧ p' = '*' :: r')
    {e e' : CFn} (he : e ∈ es) (he' : e' ∈ es') (hn : e.name = e'.name) : e.tyArg = e'.tyArg ∧ p = p' := by
  obtain ⟨m, hm, k⟩ := generated_name h he
  obtain ⟨m', hm', k'⟩ := generated_name h' he'
  exact names_differ hm k hm' k' hn hp

/-- All patterns of the C interface begin with `*` and are different. -/
example : (∀ pf ∈ ffiFunctions, pf.1.head? = some '*') ∧ (ffiFunctions.map (·.1)).Nodup := by decide +kernel

/-- The 44 exported names are different. -/
example : ((ffiFunctions.map fun pf => (specializeFor ffiTypes pf.1 pf.2).map (·.map (·.name))).map
    (·.getD [])).flatten.Nodup ∧
    ((ffiFunctions.map fun pf => (specializeFor ffiTypes pf.1 pf.2).map (·.map (·.name))).map
    (·.getD [])).flatten.length = 44 := by decide +kernel

/-- With a pattern that does not begin with `*` two functions can get the same name. -/
example : Named "S*_New".toList "Byte".toList "SByte_New".toList ∧ Named "*_New".toList "SByte".toList "SByte_New".toList :=
  ⟨⟨['S'], "_New".toList, rfl, by decide, by decide, rfl⟩, ⟨[], "_New".toList, rfl, by decide, by decide, rfl⟩⟩

/-! ## C63 -/

/-- The text `s` consists of the words `ws`, separated by white space. -/
inductive Words (sp : Char → Bool) : List Char → List (List Char) → Prop where
  /-- only white space -/
  | blank {s : List Char} : (∀ c ∈ s, sp c = true) → Words sp s []
  /-- white space, the last word, white space -/
  | last {a w b : List Char} : (∀ c ∈ a, sp c = true) → w ≠ [] → (∀ c ∈ w, sp c = false) → (∀ c ∈ b, sp c = true) →
      Words sp (a ++ w ++ b) [w]
  /-- white space, a word, at least one white space, and the rest -/
  | cons {a w s : List Char} {b : Char} {l : List (List Char)} : (∀ c ∈ a, sp c = true) → w ≠ [] →
      (∀ c ∈ w, sp c = false) → sp b = true → Words sp s l → Words sp (a ++ w ++ b :: s) (w :: l)

/-- The expression `w₁::new(w₂::new(… base))`. -/
def nest : List (List Char) → EExpr
  | [] => .base
  | w :: l => .new w (nest l)

/-- `e` has the type written `t`, if the given expression has the type `dflt` and every decorator's `new` takes a value of a type `x`
to a value of the decorator's type with `x` in place of `*`. -/
inductive HasTy (pat dflt : List Char) : EExpr → List Char → Prop where
  | base : HasTy pat dflt .base dflt
  | new {w : List Char} {e : EExpr} {t : List Char} : HasTy pat dflt e t →
      HasTy pat dflt (.new w e) (w ++ replaceStar pat t)

theorem wordsAux_space {sp : Char → Bool} : ∀ (a s : List Char), (∀ c ∈ a, sp c = true) →
    wordsAux sp [] (a ++ s) = wordsAux sp [] s
  | [], _, _ => rfl
  | c :: a, s, h => by
    simp only [List.cons_append, wordsAux, h c (by simp), if_true]
    exact wordsAux_space a s fun c hc => h c (by simp [hc])

theorem wordsAux_word {sp : Char → Bool} : ∀ (w cur s : List Char), (∀ c ∈ w, sp c = false) →
    wordsAux sp cur (w ++ s) = wordsAux sp (w.reverse ++ cur) s
  | [], _, _, _ => rfl
  | c :: w, cur, s, h => by
    simp only [List.cons_append, wordsAux, h c (by simp)]
    rw [if_neg (by simp), wordsAux_word w _ _ fun c hc => h c (by simp [hc])]
    simp

theorem words_iff {sp : Char → Bool} {s : List Char} {l : List (List Char)} (h : Words sp s l) : words sp s = l := by
  unfold words
  induction h with
  | @blank s h => have := wordsAux_space s [] h; rw [List.append_nil] at this; rw [this]; rfl
  | @last a w b h1 h2 h3 h4 =>
    rw [List.append_assoc, wordsAux_space _ _ h1, wordsAux_word _ _ _ h3, List.append_nil]
    cases b with
    | nil => simp [wordsAux, h2]
    | cons c b =>
      simp only [wordsAux, h4 c (by simp), if_true]
      rw [if_neg (by simp [h2])]
      have := wordsAux_space b [] fun c hc => h4 c (by simp [hc])
      rw [List.append_nil] at this
      rw [this]
      simp [wordsAux]
  | @cons a w s b l h1 h2 h3 h4 _ ih =>
    rw [List.append_assoc, wordsAux_space _ _ h1, wordsAux_word _ _ _ h3, List.append_nil]
    simp only [wordsAux, h4, if_true]
    rw [if_neg (by simp [h2]), ih]
    simp

/-- **C63.** With the words `w₁ … wₙ` in the environment variable, `env_value!` wraps the store in `w₁::new(… wₙ::new(store))`, so
the first decorator named is the outermost; without the variable it is the store itself. `env_type!` with the same variable names
the type of that value. -/
theorem C63_decorators_from_environment (sp : Char → Bool) (pat dflt : List Char) :
    envValue sp none = .base ∧ envType sp pat dflt none = dflt ∧
    (∀ s l, Words sp s l → envValue sp (some s) = nest l) ∧
    ∀ var, HasTy pat dflt (envValue sp var) (envType sp pat dflt var) := by
  refine ⟨rfl, rfl, fun s l h => ?_, fun var => ?_⟩
  · simp only [envValue, Option.getD_some, words_iff h, List.foldl_reverse]
    induction l with
    | nil => rfl
    | cons w l ih => simp only [List.foldr_cons, nest]; exact congrArg _ (by
        clear ih h s
        induction l with
        | nil => rfl
        | cons w l ih => simp only [List.foldr_cons, nest, ih])
  · simp only [envValue, envType, List.foldl_reverse]
    induction words sp (var.getD []) with
    | nil => exact .base
    | cons w l ih => exact .new ih

/-- The white space of the example. -/
def blank (c : Char) : Bool := c = ' '

/-- `DECORATORS = " A  B "`. -/
example : Words blank " A  B ".toList [['A'], ['B']] ∧
    envValue blank (some " A  B ".toList) = .new ['A'] (.new ['B'] .base) ∧
    envType blank "<u64, *>".toList "S".toList (some " A  B ".toList) = "A<u64, B<u64, S>>".toList :=
  ⟨.cons (a := [' ']) (w := ['A']) (b := ' ') (by decide) (by decide) (by decide) (by decide)
    (.last (a := [' ']) (w := ['B']) (b := [' ']) (by decide) (by decide) (by decide) (by decide)), by decide +kernel⟩

end Verif.Macros.Props
