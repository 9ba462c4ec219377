import Verif.Text

/-!
# schemars/src/_private/rustdoc.rs: title and description of a doc comment

The functions work on bytes, as in Rust. `none` stands for a panic.
-/

namespace Verif

/-- `u8::is_ascii_whitespace`: space, tab, line feed, form feed, carriage return. -/
def isAsciiWhitespace (b : UInt8) : Bool :=
  b == 0x20 || b == 0x09 || b == 0x0A || b == 0x0C || b == 0x0D

/-- schemars/src/_private/rustdoc.rs:65-74 (`trim_start`). -/
def trimStart (chr : UInt8) (b : List UInt8) : List UInt8 := b.dropWhile (· == chr)

/-- schemars/src/_private/rustdoc.rs:76-94 (`trim_ascii`). -/
def trimAscii (b : List UInt8) : List UInt8 :=
  ((b.dropWhile isAsciiWhitespace).reverse.dropWhile isAsciiWhitespace).reverse

/-- schemars/src/_private/rustdoc.rs:21-31 (`strchr`). -/
def strchr (chr : UInt8) : List UInt8 → Option Nat
  | [] => none
  | b :: r => if b = chr then some 0 else (strchr chr r).map (· + 1)

/-- schemars/src/_private/rustdoc.rs:33-56 (`subslice`). The subtraction panics when `stop` is behind the
end. Both loops stop early at an empty slice. -/
def subslice (b : List UInt8) (start stop : Nat) : Option (List UInt8) :=
  if stop ≤ b.length then some ((b.reverse.drop (b.length - stop)).reverse.drop start) else none

/-- schemars/src/_private/rustdoc.rs:58-63 (`to_utf8`): panics on bytes that are not UTF-8. -/
def toUtf8 (b : List UInt8) : Option (List Char) := fromUtf8 b

/-- schemars/src/_private/rustdoc.rs:1-19 (`get_title_and_description`). -/
def getTitleAndDescription (doc : List Char) : Option (List Char × List Char) :=
  let bytes := trimAscii (utf8 doc)
  if bytes.head? = some 0x23 then
    let stop := (strchr 0x0A bytes).getD bytes.length
    (subslice bytes 0 stop).bind fun first =>
    (subslice bytes stop bytes.length).bind fun rest =>
    (toUtf8 (trimAscii (trimStart 0x23 first))).bind fun title =>
    (toUtf8 (trimAscii rest)).map fun description => (title, description)
  else (toUtf8 bytes).map fun description => ([], description)

end Verif
