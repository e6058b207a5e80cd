import Verif.Basic

/-!
# Printed forms of links, doublets and errors
-/

namespace Verif.Printing
open Verif

/-- Decimal digits of an index (`Display` of the integer types of Rust; std). -/
def dec (n : Nat) : List Char := Nat.toDigits 10 n

/-- `Debug` of `Link` (`doublets/src/data/link.rs:79-83`). -/
def linkDebug (l : Link) : List Char :=
  dec l.index ++ ": ".toList ++ dec l.source ++ " ".toList ++ dec l.target

/-- `Display` of `Doublet` (`doublets/src/data/doublet.rs:17-21`). -/
def doubletDisplay (source target : Nat) : List Char := dec source ++ "->".toList ++ dec target

/-- The elements of a vector after the first, and the closing bracket (`Debug` of `Vec`; std). -/
def vecRest : List Link → List Char
  | [] => "]".toList
  | l :: ls => ", ".toList ++ linkDebug l ++ vecRest ls

/-- `Debug` of a `Vec<Link>` (std). -/
def vecDebug : List Link → List Char
  | [] => "[]".toList
  | l :: ls => "[".toList ++ linkDebug l ++ vecRest ls

/-- `Display` of `Error` (`doublets/src/data/error.rs:5-24`). Simplification: `cause` is the text of the error of the memory,
which the model's `allocFailed` does not carry. -/
def errDisplay (cause : List Char) : Err → List Char
  | .notExists i => "link ".toList ++ dec i ++ " does not exist.".toList
  | .hasUsages ls => "link ".toList ++ vecDebug ls ++ " has dependencies".toList
  | .alreadyExists s t => "link ".toList ++ doubletDisplay s t ++ " already exists".toList
  | .limitReached n => "limit for the number of links in the storage has been reached: ".toList ++ dec n
  | .allocFailed => "unable to allocate memory for links storage: `".toList ++ cause ++ "`".toList

end Verif.Printing
