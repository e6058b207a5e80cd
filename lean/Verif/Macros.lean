/-!
# The two macro crates of the C interface

`doublets-ffi/ffi-attributes` generates the exported C functions, `doublets-ffi/env-decorators` wraps a store in the
decorators named by an environment variable. Their input is Rust syntax; the model keeps the part of the syntax trees the
macros look at.
-/

namespace Verif.Macros

/-! ## `specialize_for` -/

mutual
/-- A Rust type as `syn` gives it. `other` is every kind of type but the four that `ty_from_to` knows.
(doublets-ffi/ffi-attributes/src/lib.rs:46-87) Simplification: lifetimes and mutability are kept as an opaque `tag`. -/
inductive Ty where
  | array (elem : Ty) (len : String)
  | path (segs : Segs)
  | ptr (tag : String) (elem : Ty)
  | ref (tag : String) (elem : Ty)
  | other (text : String)

/-- The segments of a path: an identifier and its arguments. (lib.rs:49-75) -/
inductive Segs where
  | nil
  | cons (ident : String) (args : Args) (rest : Segs)

/-- The arguments of a segment: none, `<…>` or `(…)`. (lib.rs:54-73) -/
inductive Args where
  | none
  | angle (args : GArgs)
  | paren (text : String)

/-- The generic arguments between `<` and `>`: types and others (lifetimes, constants, bindings). (lib.rs:55-67) -/
inductive GArgs where
  | nil
  | ty (t : Ty) (rest : GArgs)
  | other (text : String) (rest : GArgs)
end

/-- `csharp_convention`; `none` is the panic. (doublets-ffi/ffi-attributes/src/lib.rs:15-30) -/
def csharpConvention (s : String) : Option (List Char) :=
  if s = "i8" then some "SByte".toList
  else if s = "u8" then some "Byte".toList
  else if s = "i16" then some "Int16".toList
  else if s = "u16" then some "UInt16".toList
  else if s = "i32" then some "Int32".toList
  else if s = "u32" then some "UInt32".toList
  else if s = "i64" then some "Int64".toList
  else if s = "u64" then some "UInt64".toList
  else none

mutual
/-- `ty_from_to`: replace the identifier `frm` by `to`; `none` is a panic.
(doublets-ffi/ffi-attributes/src/lib.rs:46-87) An array is replaced by its element type, as in the code. -/
def tyFromTo (frm to : String) : Ty → Option Ty
  | .array elem _ => tyFromTo frm to elem
  | .path segs => (segsFromTo frm to segs).map .path
  | .ptr tag elem => (tyFromTo frm to elem).map (.ptr tag)
  | .ref tag elem => (tyFromTo frm to elem).map (.ref tag)
  | .other _ => none

/-- The loop over the segments of a path. (lib.rs:50-74) -/
def segsFromTo (frm to : String) : Segs → Option Segs
  | .nil => some .nil
  | .cons ident args rest => do
    let args' ← argsFromTo frm to args
    let rest' ← segsFromTo frm to rest
    pure (.cons (if ident = frm then to else ident) args' rest')

/-- The match on the arguments of a segment. (lib.rs:54-73) -/
def argsFromTo (frm to : String) : Args → Option Args
  | .none => some .none
  | .angle gs => (gargsFromTo frm to gs).map .angle
  | .paren _ => none

/-- The loop over the generic arguments. (lib.rs:56-66) -/
def gargsFromTo (frm to : String) : GArgs → Option GArgs
  | .nil => some .nil
  | .ty t rest => do
    let t' ← tyFromTo frm to t
    let rest' ← gargsFromTo frm to rest
    pure (.ty t' rest')
  | .other _ _ => none
end

/-- A generic parameter. (lib.rs:111-120) -/
inductive GParam where
  | lifetime
  | const
  | type (ident : String)

/-- The function the attribute is put on: its name, generic parameters, parameters (pattern and type; `none` is a `self`
receiver) and return type (`none`: no arrow). (lib.rs:88-91, 103-123) -/
structure GFn where
  ident : String
  generics : List GParam
  params : List (Option (String × Ty))
  ret : Option Ty

/-- A generated function: its exported name, parameters and return type, and the call it consists of: the function called, the
type argument and the arguments. (lib.rs:177-183) -/
structure CFn where
  name : List Char
  params : List (String × Ty)
  ret : Option Ty
  callee : String
  tyArg : String
  args : List String

/-- The only generic parameter; anything else is a panic. (lib.rs:104-123) -/
def genericName : List GParam → Option String
  | [.type t] => some t
  | _ => none

/-- `fn_pat.replace('*', …)`. (lib.rs:134-146) -/
def replaceStar (pat name : List Char) : List Char :=
  pat.flatMap fun ch => if ch = '*' then name else [ch]

/-- The parameters with their types replaced; a receiver is a panic. (lib.rs:159-166) -/
def paramsFromTo (frm to : String) : List (Option (String × Ty)) → Option (List (String × Ty))
  | [] => some []
  | none :: _ => none
  | some (pat, ty) :: rest => do
    let ty' ← tyFromTo frm to ty
    let rest' ← paramsFromTo frm to rest
    pure ((pat, ty') :: rest')

/-- The return type with the parameter replaced. (lib.rs:150-155) -/
def retFromTo (frm to : String) : Option Ty → Option (Option Ty)
  | none => some none
  | some r => (tyFromTo frm to r).map some

/-- The function generated for one type. (lib.rs:131-184) -/
def specializeOne (pat : List Char) (f : GFn) (g ty : String) : Option CFn := do
  let name ← csharpConvention ty
  let ret ← retFromTo g ty f.ret
  let params ← paramsFromTo g ty f.params
  pure { name := replaceStar pat name, params := params, ret := ret, callee := f.ident, tyArg := ty,
         args := params.map (·.1) }

/-- `specialize_for`: the generated functions, in order; `none` is a panic, that is, a compile error.
(doublets-ffi/ffi-attributes/src/lib.rs:89-189) Simplification: the attribute's arguments are already parsed, and `csharp` is the
only convention (lib.rs:32-36). -/
def specializeFor (types : List String) (pat : List Char) (f : GFn) : Option (List CFn) := do
  let g ← genericName f.generics
  if (pat.filter (· = '*')).length = 1 then types.mapM (specializeOne pat f g) else none

/-! ## The attributed functions -/

/-- A type that is a single name. -/
def named (x : String) : Ty := .path (.cons x .none .nil)

/-- A type `x<T>`. -/
def over (x : String) : Ty := .path (.cons x (.angle (.ty (named "T") .nil)) .nil)

/-- The types every attribute lists. (doublets-ffi/src/lib.rs:148-151 and so on) -/
def ffiTypes : List String := ["u8", "u16", "u32", "u64"]

/-- The eleven functions with the attribute, and their name patterns. (doublets-ffi/src/lib.rs:147-408) -/
def ffiFunctions : List (List Char × GFn) := [
  -- lib.rs:147-157
  ("*Links_New".toList, ⟨"new_united_links", [.type "T"],
    [some ("path", .ptr "const" (named "c_char"))], some (.ptr "mut" (named "c_void"))⟩),
  -- lib.rs:159-186
  ("*Links_NewWithConstants".toList, ⟨"new_with_constants_united_links", [.type "T"],
    [some ("path", .ptr "const" (named "c_char")), some ("constants", over "Constants")], some (.ptr "mut" (named "c_void"))⟩),
  -- lib.rs:188-199
  ("*Links_Drop".toList, ⟨"drop_united_links", [.type "T"],
    [some ("this", .ptr "mut" (named "c_void"))], none⟩),
  -- lib.rs:201-212
  ("*Links_GetConstants".toList, ⟨"get_constants_united_links", [.type "T"],
    [some ("this", .ptr "mut" (named "c_void"))], some (over "Constants")⟩),
  -- lib.rs:214-252
  ("*Links_Create".toList, ⟨"create_united", [.type "T"],
    [some ("this", .ptr "mut" (named "c_void")), some ("query", .ptr "const" (named "T")), some ("len", named "usize"), some ("callback", over "CUDCallback")], some (named "T")⟩),
  -- lib.rs:254-266
  ("*Links_SmartCreate".toList, ⟨"smart_create_united", [.type "T"],
    [some ("this", .ptr "mut" (named "c_void"))], some (named "T")⟩),
  -- lib.rs:268-280
  ("*Links_SmartUpdate".toList, ⟨"smart_update_united", [.type "T"],
    [some ("this", .ptr "mut" (named "c_void")), some ("index", named "T"), some ("source", named "T"), some ("target", named "T")], some (named "T")⟩),
  -- lib.rs:282-311
  ("*Links_Each".toList, ⟨"each_united", [.type "T"],
    [some ("this", .ptr "mut" (named "c_void")), some ("query", .ptr "const" (named "T")), some ("len", named "usize"), some ("callback", over "EachCallback")], some (named "T")⟩),
  -- lib.rs:313-325
  ("*Links_Count".toList, ⟨"count_united", [.type "T"],
    [some ("this", .ptr "mut" (named "c_void")), some ("query", .ptr "const" (named "T")), some ("len", named "usize")], some (named "T")⟩),
  -- lib.rs:327-368
  ("*Links_Update".toList, ⟨"update_united", [.type "T"],
    [some ("this", .ptr "mut" (named "c_void")), some ("restrictions", .ptr "const" (named "T")), some ("len_r", named "usize"), some ("substitutuion", .ptr "const" (named "T")), some ("len_s", named "usize"), some ("callback", over "CUDCallback")], some (named "T")⟩),
  -- lib.rs:370-408
  ("*Links_Delete".toList, ⟨"delete_united", [.type "T"],
    [some ("this", .ptr "mut" (named "c_void")), some ("query", .ptr "const" (named "T")), some ("len", named "usize"), some ("callback", over "CUDCallback")], some (named "T")⟩)]

/-! ## `env_value` and `env_type` -/

/-- The loop of `split_whitespace`: `cur` is the word being read, reversed. (std; used at env-decorators/src/lib.rs:28, 65)
Simplification: `ws` tells which characters are white space. -/
def wordsAux (ws : Char → Bool) : List Char → List Char → List (List Char)
  | cur, [] => if cur = [] then [] else [cur.reverse]
  | cur, c :: cs =>
    if ws c then (if cur = [] then wordsAux ws [] cs else cur.reverse :: wordsAux ws [] cs)
    else wordsAux ws (c :: cur) cs

/-- `split_whitespace`. -/
def words (ws : Char → Bool) (s : List Char) : List (List Char) := wordsAux ws [] s

/-- The expression `env_value!` produces: the given one, wrapped in calls of `new`.
(doublets-ffi/env-decorators/src/lib.rs:22-37) -/
inductive EExpr where
  | base
  | new (name : List Char) (arg : EExpr)
deriving DecidableEq

/-- `env_value!`; `var` is the value of the environment variable, if it is set. (lib.rs:23-37) -/
def envValue (ws : Char → Bool) (var : Option (List Char)) : EExpr :=
  (words ws (var.getD [])).reverse.foldl (fun e n => .new n e) .base

/-- `env_type!`, as text: `pat` is the text put after the name of each decorator with `*` standing for the type wrapped so
far. (lib.rs:60-78) Simplification: printing and parsing of tokens changes white space only, which is ignored. -/
def envType (ws : Char → Bool) (pat dflt : List Char) (var : Option (List Char)) : List Char :=
  (words ws (var.getD [])).reverse.foldl (fun t n => n ++ replaceStar pat t) dflt

end Verif.Macros
