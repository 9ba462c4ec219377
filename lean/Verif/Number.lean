import Verif.Schema

/-!
# Numbers of `serde_json`, and how `Schema::validate` tells them apart

`Verif/Json.lean` has unbounded integers and exact rationals as numbers. Here are the representations that
`serde_json::Number` really has, with and without the feature `arbitrary_precision` (not part of /repo; modelled from
its documentation), and `Schema::validate` with the error it reports.
-/

namespace Verif

/-- The text of a number, which is what a number is with the feature `arbitrary_precision`: digits only, maybe with a
minus sign, or with a fraction or an exponent. Simplified: the second kind is the value that the text denotes. -/
inductive NumText where
  | whole (minus : Bool) (n : Nat)
  | other (q : Rat)
  deriving DecidableEq

/-- `serde_json::Number`: `u64`, negative `i64` or finite `f64`; or a text. A float is the rational that it denotes. -/
inductive Number where
  | posInt (n : UInt64)
  | negInt (i : Int64)
  | float (q : Rat)
  | text (t : NumText)
  deriving DecidableEq

namespace Number

/-- `serde_json::Number::as_u64`. For a text this is `str::parse::<u64>`, which takes no minus sign. -/
def asU64 : Number → Option Nat
  | .posInt n => some n.toNat
  | .negInt _ => none
  | .float _ => none
  | .text (.whole minus n) => if minus = false ∧ n < 2 ^ 64 then some n else none
  | .text (.other _) => none

/-- `serde_json::Number::as_i64`. For a text this is `str::parse::<i64>`. -/
def asI64 : Number → Option Int
  | .posInt n => if n.toNat < 2 ^ 63 then some n.toNat else none
  | .negInt i => some i.toInt
  | .float _ => none
  | .text (.whole minus n) =>
    if minus = true ∧ n ≤ 2 ^ 63 then some (-n) else if minus = false ∧ n < 2 ^ 63 then some n else none
  | .text (.other _) => none

/-- From here on, a number is rounded to an infinite `f64`: half of the last place above the largest finite one,
`2 ^ 1024 - 2 ^ 971`. -/
def f64Limit : Int := 2 ^ 1024 - 2 ^ 970

/-- The value that a text denotes. -/
def textValue : NumText → Rat
  | .whole minus n => ((if minus then -(n : Int) else n : Int) : Rat)
  | .other q => q

/-- `serde_json::Number::as_f64`. For a text this is `str::parse::<f64>`, if the result is finite. Simplified: the value
is not rounded. -/
def asF64 : Number → Option Rat
  | .posInt n => some ((n.toNat : Int) : Rat)
  | .negInt i => some (i.toInt : Rat)
  | .float q => some q
  | .text t => if textValue t < (f64Limit : Rat) ∧ -(f64Limit : Rat) < textValue t then some (textValue t) else none

end Number

/-- `serde::de::Unexpected`, as far as it is used. -/
inductive Unexpected where
  | unit
  | unsigned (n : Nat)
  | signed (i : Int)
  | float (q : Rat)
  | str (s : String)
  | seq
  deriving DecidableEq

/-- `serde_json::Value`; what is inside arrays and objects does not matter here. -/
inductive NValue (α : Type) where
  | null
  | bool (b : Bool)
  | number (n : Number)
  | string (s : String)
  | array (l : List α)
  | object (m : List (String × α))

/-- The value without the representation of its number. -/
def NValue.toJson : NValue Json → Json
  | .null => .null
  | .bool b => .bool b
  | .number (.posInt n) => .num (.int n.toNat)
  | .number (.negInt i) => .num (.int i.toInt)
  | .number (.float q) => .num (.flt q)
  | .number (.text t) => .num (.flt (Number.textValue t))
  | .string s => .str s
  | .array l => .arr l
  | .object m => .obj m

/-- What `validate` does. -/
inductive Validated where
  | ok
  | invalidType (u : Unexpected)
  /-- the `unreachable!` in schemars/src/schema.rs:400 -/
  | panic
  deriving DecidableEq

/-- schemars/src/schema.rs:392-402: the number in the error message. -/
def unexpectedNumber (n : Number) : Option Unexpected :=
  match n.asU64 with
  | some u => some (.unsigned u)
  | none => match n.asI64 with
    | some i => some (.signed i)
    | none => match n.asF64 with
      | some f => some (.float f)
      | none => none

/-- schemars/src/schema.rs:387-408 (`Schema::validate`), with the error. It is called for every value that is turned into
a schema: when it is read (68-77), and in `try_from` (423-448), which `transform_immediate_subschemas` calls for what is
at the places of subschemas. -/
def Schema.validateValue (v : NValue α) : Validated :=
  match v with
  | .bool _ => .ok
  | .object _ => .ok
  | .null => .invalidType .unit
  | .number n => (unexpectedNumber n).elim .panic .invalidType
  | .string s => .invalidType (.str s)
  | .array _ => .invalidType .seq

/-- schemars/src/schema.rs:441-448 (`try_from`): `none` for a panic, `some none` for an error. -/
def Schema.tryFromValue (v : NValue α) : Option (Option (NValue α)) :=
  match Schema.validateValue v with
  | .ok => some (some v)
  | .invalidType _ => some none
  | .panic => none

/-- schemars/src/transform.rs:160-162 (and 166-170, 188-192): what the transforms do with a value at the place of a
subschema, `if let Ok(subschema) = value.try_into() { t.transform(subschema) }`. -/
def visitValue (t : NValue α → Option (NValue α)) (v : NValue α) : Option (NValue α) :=
  (Schema.tryFromValue v).bind fun r => match r with
    | some s => t s
    | none => some v

end Verif
