import Verif.Json

/-!
# serde's data model and serde_json's serializers

Not part of /repo, but what `schemars/src/ser.rs` and the derived code are about. A `Serialize`
implementation makes a tree of serializer calls; `Val` is that tree. It is assumed not to depend on the
serializer's answers.

Simplifications: the integer types are one constructor; a finite float is the rational it denotes, together
with its text; `skip_field` and the `arbitrary_precision`/`raw_value` special cases of serde_json are left
out.
-/

namespace Verif

/-- The serializer calls made for a value. -/
inductive Val where
  | bool (b : Bool)
  /-- `serialize_i8` ... `serialize_u128` -/
  | int (i : Int)
  /-- `serialize_f32`, `serialize_f64`; `none` for NaN and the infinities -/
  | float (q : Option Rat) (text : String)
  | char (c : Char)
  | str (s : String)
  | bytes (l : List UInt8)
  | none
  | some (v : Val)
  | unit
  | unitStruct (name : String)
  | unitVariant (variant : String)
  | newtypeStruct (name : String) (v : Val)
  | newtypeVariant (variant : String) (v : Val)
  | seq (l : List Val)
  /-- `serialize_tuple` (with an empty name) and `serialize_tuple_struct` -/
  | tuple (name : String) (l : List Val)
  | tupleVariant (variant : String) (l : List Val)
  | map (l : List (Val × Val))
  | struct (name : String) (l : List (String × Val))
  | structVariant (variant : String) (l : List (String × Val))
  | collectStr (s : String)
  | collectMap (l : List (Val × Val))
  /-- a `Serialize` implementation that reports an error -/
  | fail

namespace Serde

/-- serde_json `value/ser.rs`, `MapKeySerializer`: the text of a map key. `Some(k)` counts as `k`, as in the
text serializer (it may also be an error). -/
def keyText : Val → Option String
  | .bool true => some "true"
  | .bool false => some "false"
  | .int i => some (toString i)
  | .float (some _) text => some text
  | .char c => some (String.singleton c)
  | .str s => some s
  | .collectStr s => some s
  | .unitVariant v => some v
  | .newtypeStruct _ v => keyText v
  | .some v => keyText v
  | _ => none

mutual
/-- serde_json `value/ser.rs`, `to_value`: integers must fit into `i64` or `u64`; NaN and infinities become
null; maps keep the last value of a key. -/
def toValue : Val → Option Json
  | .bool b => some (.bool b)
  | .int i => if -2 ^ 63 ≤ i ∧ i < 2 ^ 64 then some (.num (.int i)) else none
  | .float (some q) _ => some (.num (.flt q))
  | .float .none _ => some .null
  | .char c => some (.str (String.singleton c))
  | .str s => some (.str s)
  | .bytes l => some (.arr (l.map fun n => .num (.int n.toNat)))
  | .none => some .null
  | .some v => toValue v
  | .unit => some .null
  | .unitStruct _ => some .null
  | .unitVariant v => some (.str v)
  | .newtypeStruct _ v => toValue v
  | .newtypeVariant variant v => (toValue v).map fun j => .obj [(variant, j)]
  | .seq l => (toValues l).map .arr
  | .tuple _ l => (toValues l).map .arr
  | .tupleVariant variant l => (toValues l).map fun a => .obj [(variant, .arr a)]
  | .map l => (toEntries l).map fun e => .obj (Obj.ofList e)
  | .struct _ l => (toFields l).map fun e => .obj (Obj.ofList e)
  | .structVariant variant l => (toFields l).map fun e => .obj [(variant, .obj (Obj.ofList e))]
  | .collectStr s => some (.str s)
  | .collectMap l => (toEntries l).map fun e => .obj (Obj.ofList e)
  | .fail => none
@[inherit_doc toValue] def toValues : List Val → Option (List Json)
  | [] => some []
  | v :: l => (toValue v).bind fun j => (toValues l).map fun t => j :: t
@[inherit_doc toValue] def toEntries : List (Val × Val) → Option (List (String × Json))
  | [] => some []
  | (k, v) :: l => (keyText k).bind fun s => (toValue v).bind fun j => (toEntries l).map fun t => (s, j) :: t
@[inherit_doc toValue] def toFields : List (String × Val) → Option (List (String × Json))
  | [] => some []
  | (k, v) :: l => (toValue v).bind fun j => (toFields l).map fun t => (k, j) :: t
end

/-- A hexadecimal digit. -/
def hexDigit (n : Nat) : Char := "0123456789abcdef".toList.getD n '0'

/-- serde_json `ser.rs`, `format_escaped_str_contents`, for one character. -/
def escapeChar (c : Char) : List Char :=
  if c = '"' then ['\\', '"']
  else if c = '\\' then ['\\', '\\']
  else if c = Char.ofNat 8 then ['\\', 'b']
  else if c = Char.ofNat 9 then ['\\', 't']
  else if c = Char.ofNat 10 then ['\\', 'n']
  else if c = Char.ofNat 12 then ['\\', 'f']
  else if c = Char.ofNat 13 then ['\\', 'r']
  else if c.toNat < 32 then ['\\', 'u', '0', '0', hexDigit (c.toNat / 16), hexDigit (c.toNat % 16)]
  else [c]

/-- serde_json `ser.rs`, `format_escaped_str`. -/
def quote (s : String) : List Char := '"' :: (s.toList.flatMap escapeChar ++ ['"'])

/-- serde_json `to_string` for the values that can be map keys; `odd` stands for the text of all other
values. -/
def toText (odd : Val → Option (List Char)) : Val → Option (List Char)
  | .bool true => some "true".toList
  | .bool false => some "false".toList
  | .int i => some (toString i).toList
  | .float (some _) text => some text.toList
  | .char c => some (quote (String.singleton c))
  | .str s => some (quote s)
  | .collectStr s => some (quote s)
  | .unitVariant v => some (quote v)
  | .newtypeStruct _ v => toText odd v
  | .some v => toText odd v
  | v => odd v

end Serde

end Verif
