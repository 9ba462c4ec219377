import Verif.Text

/-!
# schemars/src/encoding.rs
-/

namespace Verif

/-- schemars/src/encoding.rs:8-19 (`needs_encoding`). -/
def needsEncoding (b : UInt8) : Bool :=
  let n := b.toNat
  if n = 0x7E ∨ n = 0x2F then true
  else if n = 0x21 ∨ n = 0x24 ∨ (0x26 ≤ n ∧ n ≤ 0x3B) ∨ n = 0x3D ∨ (0x3F ≤ n ∧ n ≤ 0x5A) ∨ n = 0x5F
      ∨ (0x61 ≤ n ∧ n ≤ 0x7A) then false
  else true

/-- One upper-case hexadecimal digit. -/
def hexDigitU (n : Nat) : Char :=
  if n < 10 then Char.ofNat (48 + n) else Char.ofNat (55 + n)

/-- The Rust format `{byte:2X}` (encoding.rs:30): upper-case hexadecimal without leading zeros, padded
on the left **with a space** to width two. -/
def fmt2X (b : UInt8) : List Char :=
  if b.toNat < 16 then [' ', hexDigitU b.toNat]
  else [hexDigitU (b.toNat / 16), hexDigitU (b.toNat % 16)]

/-- The loop body at schemars/src/encoding.rs:24-34: the text appended for one byte. -/
def encodeByte (b : UInt8) : List Char :=
  if b.toNat = 0x7E then ['~', '0']
  else if b.toNat = 0x2F then ['~', '1']
  else if needsEncoding b then '%' :: fmt2X b
  else [Char.ofNat b.toNat]

/-- schemars/src/encoding.rs:7-40 (`encode_ref_name`), on characters. -/
def encodeRefChars (name : List Char) : List Char :=
  if (utf8 name).any needsEncoding then (utf8 name).flatMap encodeByte else name

/-- schemars/src/encoding.rs:7-40 (`encode_ref_name`). -/
def encodeRefName (name : String) : String := String.ofList (encodeRefChars name.toList)

/-- `str::get(0..2)` (encoding.rs:53-54): the first two *bytes* as text, and the rest, when byte 2 is a
character boundary. -/
def strGet02 : List Char → Option (List Char × List Char)
  | c :: t =>
    if c.utf8Size = 1 then
      match t with
      | d :: r => if d.utf8Size = 1 then some ([c, d], r) else none
      | [] => none
    else if c.utf8Size = 2 then some ([c], t)
    else none
  | [] => none

/-- `char::to_digit(16)`. -/
def toDigit16 (c : Char) : Option Nat :=
  let n := c.toNat
  if 48 ≤ n ∧ n ≤ 57 then some (n - 48)
  else if 97 ≤ n ∧ n ≤ 102 then some (n - 87)
  else if 65 ≤ n ∧ n ≤ 70 then some (n - 55)
  else none

/-- Accumulates hexadecimal digits; `none` on an invalid digit or when the value exceeds `u8::MAX`. -/
def hexFold : List Char → Nat → Option Nat
  | [], acc => some acc
  | c :: t, acc =>
    match toDigit16 c with
    | none => none
    | some d => if acc * 16 + d ≤ 255 then hexFold t (acc * 16 + d) else none

/-- `u8::from_str_radix(p, 16).ok()`: empty text and a lone sign are errors, **a leading `+` is
skipped**, a leading `-` is an invalid digit. -/
def u8FromHex (p : List Char) : Option UInt8 :=
  match p with
  | [] => none
  | ['+'] => none
  | '+' :: t => (hexFold t 0).map UInt8.ofNat
  | t => (hexFold t 0).map UInt8.ofNat

/-- The loop body at schemars/src/encoding.rs:52-63: the bytes appended for one `%`-separated segment. -/
def decodeSegment (seg : List Char) : List UInt8 :=
  match strGet02 seg with
  | some (p, rest) =>
    match u8FromHex p with
    | some b => b :: utf8 rest
    | none => 0x25 :: utf8 seg
  | none => 0x25 :: utf8 seg

/-- schemars/src/encoding.rs:45-69 (`percent_decode`), on characters. -/
def percentDecodeChars (s : List Char) : Option (List Char) :=
  if '%' ∈ s then
    match splitChar '%' s with
    | [] => fromUtf8 []
    | first :: rest => fromUtf8 (utf8 first ++ rest.flatMap decodeSegment)
  else some s

/-- schemars/src/encoding.rs:45-69 (`percent_decode`). -/
def percentDecode (s : String) : Option String := (percentDecodeChars s.toList).map String.ofList

end Verif
