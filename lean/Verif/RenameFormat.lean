import Verif.Text

/-!
# schemars_derive/src/name.rs: the generic parameters in a `rename` format string

Names of parameters are strings in Rust; here they are character lists. The set of found type parameters is a
list.
-/

namespace Verif

/-- `str::replace(cc, "")` for a doubled character: leftmost, non-overlapping. -/
def removePairs (c : Char) : List Char → List Char
  | x :: y :: t => if x = c ∧ y = c then removePairs c t else x :: removePairs c (y :: t)
  | [x] => [x]
  | [] => []

/-- `str::split_once(c)`. -/
def splitOnce (c : Char) : List Char → Option (List Char × List Char)
  | [] => none
  | x :: t => if x = c then some ([], t) else (splitOnce c t).map fun (a, b) => (x :: a, b)

/-- The reported errors. -/
inductive RenameError where
  | unmatchedClose
  | unmatchedOpen
  | notGeneric (param : List Char)
  deriving DecidableEq

/-- schemars_derive/src/name.rs:43-73: the loop over the segments after each `{`. -/
def renameSegments (types consts : List (List Char)) :
    List (List Char) → List RenameError × List (List Char)
  | [] => ([], [])
  | segment :: segments =>
    let (errors, found) := renameSegments types consts segments
    match splitOnce '}' segment with
    | some (param, rest) =>
      let e1 := if '}' ∈ rest then [RenameError.unmatchedClose] else []
      if param ∈ types then (e1 ++ errors, param :: found)
      else if param ∈ consts then (e1 ++ errors, found)
      else (e1 ++ [.notGeneric param] ++ errors, found)
    | none => (.unmatchedOpen :: errors, found)

/-- schemars_derive/src/name.rs:5-76 (`get_rename_format_type_params`): the errors, and the type parameters
found. The checks with `contains` before each `replace` make no difference. -/
def renameFormat (types consts : List (List Char)) (s : List Char) : List RenameError × List (List Char) :=
  if '{' ∈ s then
    match splitChar '{' (removePairs '}' (removePairs '{' s)) with
    | [] => ([], [])
    | first :: segments =>
      let (errors, found) := renameSegments types consts segments
      ((if '}' ∈ first then [RenameError.unmatchedClose] else []) ++ errors, found)
  else ([], [])

end Verif
