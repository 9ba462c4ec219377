import Mathlib.Order.Basic

/-!
# Strings as character lists

Rust `str` operations used by the modelled code. A string is processed as its list of `char`s, and its
bytes are the UTF-8 encoding of those characters.
-/

namespace Verif

/-- `str::as_bytes` / `str::bytes`: the UTF-8 encoding. -/
def utf8 (s : List Char) : List UInt8 := s.flatMap String.utf8EncodeChar

/-- `String::from_utf8(..).ok()`: the characters encoded by the bytes, if they are valid UTF-8.
Uses Lean's own UTF-8 decoder. -/
def fromUtf8 (b : List UInt8) : Option (List Char) :=
  (ByteArray.utf8Decode? b.toByteArray).map Array.toList

/-- `str::split(c)` for a character pattern. -/
def splitChar (c : Char) : List Char → List (List Char)
  | [] => [[]]
  | x :: t =>
    if x = c then [] :: splitChar c t
    else match splitChar c t with
      | [] => [[x]]
      | h :: r => (x :: h) :: r

/-- `str::replace` for a two-character pattern and a one-character replacement, as used in
`.replace("~1", "/").replace("~0", "~")`: leftmost, non-overlapping. -/
def replace2 (a b o : Char) : List Char → List Char
  | x :: y :: t => if x = a ∧ y = b then o :: replace2 a b o t else x :: replace2 a b o (y :: t)
  | [x] => [x]
  | [] => []

/-- `str::strip_prefix(c)`. -/
def stripPrefix (c : Char) : List Char → Option (List Char)
  | [] => none
  | x :: t => if x = c then some t else none

/-- `str::strip_suffix(c)`. -/
def stripSuffix (c : Char) (s : List Char) : Option (List Char) :=
  (stripPrefix c s.reverse).map List.reverse

end Verif
