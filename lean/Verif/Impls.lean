import Verif.Private

/-!
# schemars/src/json_schema_impls: implementations of `JsonSchema` for standard types

Each implementation is a function from the schemas of the inner types to the schema of the type, together
with the program that obtains those schemas (`stdBody`). Types that forward to another one
(`forward_impl!`: wrappers, `HashMap`, atomics, ...) are that type.

Simplifications: where an implementation calls `json_schema` of a primitive type (`Duration`, `OsString`),
the model uses the schema directly, since those calls leave the generator as it is.
-/

namespace Verif

/-- `{"type": t}`: schemars/src/json_schema_impls/primitives.rs:7-19, and the `return_instance_type!` macro
(schemars/src/ser.rs:37-45). -/
def typeOnly (t : String) : Json := mkObj [("type", .str t)]

/-- schemars/src/json_schema_impls/primitives.rs:21-37 (`simple_impl!` with a format). -/
def typeFormat (t f : String) : Json := mkObj [("type", .str t), ("format", .str f)]

/-- schemars/src/json_schema_impls/primitives.rs:119-137 (`char`). -/
def charSchema : Json :=
  mkObj [("type", .str "string"), ("minLength", .num (.int 1)), ("maxLength", .num (.int 1))]

/-- schemars/src/json_schema_impls/primitives.rs:40-59 and 112 (`u8`). -/
def u8Schema : Json :=
  mkObj [("type", .str "integer"), ("format", .str "uint8"), ("minimum", .num (.int 0)),
    ("maximum", .num (.int 255))]

/-- schemars/src/json_schema_impls/sequences.rs:22-27 (`[T]`): `{"type": "array", "items": s}`. -/
def seqSchema (s : Json) : Json := mkObj [("type", .str "array"), ("items", s)]

/-! ## Integers -/

/-- The integer types. -/
inductive IntTy where
  | i8 | i16 | i32 | i64 | i128 | isize | u8 | u16 | u32 | u64 | u128 | usize
  deriving DecidableEq, Repr

/-- The formats in schemars/src/json_schema_impls/primitives.rs:66-71, 112-117. -/
def IntTy.format : IntTy → String
  | .i8 => "int8" | .i16 => "int16" | .i32 => "int32" | .i64 => "int64" | .i128 => "int128" | .isize => "int"
  | .u8 => "uint8" | .u16 => "uint16" | .u32 => "uint32" | .u64 => "uint64" | .u128 => "uint128"
  | .usize => "uint"

/-- schemars/src/json_schema_impls/primitives.rs:40-58 (`ranged_impl!`) with the bounds `MIN` and `MAX`. -/
def rangedInt (f : String) (lo hi : Int) : Json :=
  mkObj [("type", .str "integer"), ("format", .str f), ("minimum", .num (.int lo)), ("maximum", .num (.int hi))]

/-- schemars/src/json_schema_impls/primitives.rs:92-110 (`unsigned_impl!`). -/
def unsignedInt (f : String) : Json :=
  mkObj [("type", .str "integer"), ("format", .str f), ("minimum", .num (.int 0))]

/-- schemars/src/json_schema_impls/primitives.rs:66-71, 112-117. -/
def intSchema (t : IntTy) : Json :=
  match t with
  | .i8 => rangedInt t.format (-128) 127
  | .i16 => rangedInt t.format (-32768) 32767
  | .u8 => rangedInt t.format 0 255
  | .u16 => rangedInt t.format 0 65535
  | .i32 | .i64 | .i128 | .isize => typeFormat "integer" t.format
  | .u32 | .u64 | .u128 | .usize => unsignedInt t.format

/-- Which macro of schemars/src/json_schema_impls/nonzero.rs is used. -/
def IntTy.signed : IntTy → Bool
  | .i8 | .i16 | .i32 | .i64 | .i128 | .isize => true
  | _ => false

/-- schemars/src/json_schema_impls/nonzero.rs:6-64. -/
def nonZeroSchema (t : IntTy) : Json :=
  if t.signed then Schema.put (intSchema t) "not" (mkObj [("const", .num (.int 0))])
  else Schema.put (intSchema t) "minimum" (.num (.int 1))

/-! ## Sequences -/

/-- schemars/src/json_schema_impls/sequences.rs:49-54 (`set_impl!`). -/
def setSchema (s : Json) : Json :=
  mkObj [("type", .str "array"), ("uniqueItems", .bool true), ("items", s)]

/-- schemars/src/json_schema_impls/array.rs:18-23 (`[T; 0]`). -/
def emptyArraySchema : Json := mkObj [("type", .str "array"), ("maxItems", .num (.int 0))]

/-- schemars/src/json_schema_impls/array.rs:40-46 (`[T; n]`). -/
def arraySchema (n : Nat) (s : Json) : Json :=
  mkObj [("type", .str "array"), ("items", s), ("minItems", .num (.int n)), ("maxItems", .num (.int n))]

/-- schemars/src/json_schema_impls/tuple.rs:26-35. -/
def tupleImpl (l : List Json) : Json :=
  mkObj [("type", .str "array"), ("prefixItems", .arr l), ("minItems", .num (.int l.length)),
    ("maxItems", .num (.int l.length))]

/-! ## core.rs, std_time.rs, either1.rs, ffi.rs -/

/-- An object schema with one required property. -/
def oneProperty (k : String) (s : Json) : Json :=
  mkObj [("type", .str "object"), ("properties", mkObj [(k, s)]), ("required", .arr [.str k])]

/-- schemars/src/json_schema_impls/core.rs:44-63 (`Result`). -/
def resultSchema (ok err : Json) : Json :=
  mkObj [("oneOf", .arr [oneProperty "Ok" ok, oneProperty "Err" err])]

/-- schemars/src/json_schema_impls/core.rs:75-98 (`Bound`). `s` and `s'` are the answers of the two calls
for the same type. -/
def boundSchema (s s' : Json) : Json :=
  mkObj [("oneOf", .arr [oneProperty "Included" s, oneProperty "Excluded" s',
    mkObj [("type", .str "string"), ("const", .str "Unbounded")]])]

/-- schemars/src/json_schema_impls/core.rs:110-120 (`Range`). -/
def rangeSchema (s : Json) : Json :=
  mkObj [("type", .str "object"), ("properties", mkObj [("start", s), ("end", s)]),
    ("required", .arr [.str "start", .str "end"])]

/-- schemars/src/json_schema_impls/std_time.rs:14-23 and 36-45: two required properties. -/
def timeSchema (secs nanos : String) : Json :=
  mkObj [("type", .str "object"), ("required", .arr [.str secs, .str nanos]),
    ("properties", mkObj [(secs, intSchema .u64), (nanos, intSchema .u32)])]

/-- schemars/src/json_schema_impls/either1.rs:18-43, one side. -/
def eitherSide (k : String) (s : Json) : Json :=
  mkObj [("type", .str "object"), ("properties", mkObj [(k, s)]), ("additionalProperties", .bool false),
    ("required", .arr [.str k])]

/-- schemars/src/json_schema_impls/either1.rs:18-43. -/
def eitherSchema (l r : Json) : Json := mkObj [("oneOf", .arr [eitherSide "Left" l, eitherSide "Right" r])]

/-- schemars/src/json_schema_impls/ffi.rs:17-37 (`OsString`). -/
def osStringSchema : Json :=
  mkObj [("oneOf", .arr [oneProperty "Unix" (seqSchema (intSchema .u8)),
    oneProperty "Windows" (seqSchema (intSchema .u16))])]

/-- schemars/src/json_schema_impls/ffi.rs:50-65 (`CString`). -/
def cStringSchema (c : Contract) : Json :=
  mkObj [("type", match c with
      | .deserialize => .arr [.str "array", .str "string"]
      | .serialize => .str "array"),
    ("items", mkObj [("type", .str "integer"), ("minimum", .num (.int 1)), ("maximum", .num (.int 255))])]

/-- schemars/src/json_schema_impls/bytes1.rs:16-26 (`Bytes`). -/
def bytesSchema (c : Contract) (u8 : Json) : Json :=
  mkObj [("type", match c with
      | .deserialize => .arr [.str "array", .str "string"]
      | .serialize => .str "array"),
    ("items", u8)]

/-- schemars/src/json_schema_impls/decimal.rs:17-31. -/
def decimalSchema (c : Contract) : Json :=
  match c with
  | .deserialize => mkObj [("type", .arr [.str "string", .str "number"]),
      ("pattern", .str "^-?\\d+(\\.\\d+)?([eE]\\d+)?$")]
  | .serialize => mkObj [("type", .str "string"), ("pattern", .str "^-?\\d+(\\.\\d+)?$")]

/-! ## Maps -/

/-- `iter().map(Value::as_object).collect::<Option<Vec<_>>>()`. -/
def allObjects : List Json → Option (List (List (String × Json)))
  | [] => some []
  | .obj m :: l => (allObjects l).map fun t => m :: t
  | _ :: _ => none

/-- `iter().map(Value::as_str).collect::<Option<Vec<_>>>()`. -/
def allStrings : List Json → Option (List String)
  | [] => some []
  | .str s :: l => (allStrings l).map fun t => s :: t
  | _ :: _ => none

/-- schemars/src/json_schema_impls/maps.rs:45-55: the alternatives for a key. -/
def keyOptions (key : Json) : Option (List (List (String × Json))) :=
  match key with
  | .obj m =>
    match Obj.get m "anyOf" with
    | some (.arr a) => some ((allObjects a).getD [m])
    | _ => some [m]
  | _ => none

/-- `str::strip_prefix(&str)`. -/
def stripList : List Char → List Char → Option (List Char)
  | [], s => some s
  | _ :: _, [] => none
  | c :: p, x :: s => if x = c then stripList p s else none

/-- schemars/src/json_schema_impls/maps.rs:58-69: follows a reference to a definition. -/
def followKeyRef (path : List Char) (defs : List (String × Json)) (o : List (String × Json)) :
    List (String × Json) :=
  match Obj.get o "$ref" with
  | some (.str r) =>
    match stripList ('#' :: definitionsPathStripped path ++ ['/']) r.toList with
    | some name =>
      match Obj.get defs (String.ofList name) with
      | some (.obj d) => d
      | _ => o
    | none => o
  | _ => o

/-- What one alternative allows as keys. -/
inductive KeyUse where
  | pattern (p : String)
  | names (l : List String)
  | unsigned
  | signed
  | any
  deriving DecidableEq

/-- `Value::as_u64`. -/
def asU64? : Json → Option Nat
  | .num (.int (.ofNat n)) => if n < 2 ^ 64 then some n else none
  | _ => none

/-- schemars/src/json_schema_impls/maps.rs:76-103. -/
def keyUse (o : List (String × Json)) : KeyUse :=
  let pattern := (Obj.get o "pattern").bind Json.asStr?
  let names := match Obj.get o "enum" with
    | some (.arr a) => allStrings a
    | _ => none
  let type := (Obj.get o "type").bind Json.asStr?
  let minimum := (Obj.get o "minimum").bind asU64?
  if type = some "string" then
    match pattern, names with
    | some p, _ => .pattern p
    | none, some l => .names l
    | none, none => .any
  else if type = some "integer" then
    if minimum = some 0 then .unsigned else .signed
  else .any

/-- schemars/src/json_schema_impls/maps.rs:117-125: the patterns for integer keys. -/
def intPatterns (uses : List KeyUse) : List String :=
  if uses.contains .signed then ["^-?\\d+$"]
  else if uses.contains .unsigned then ["^\\d+$"]
  else []

/-- The same value schema for each name (schemars/src/json_schema_impls/maps.rs:127-145; the names come from
a `BTreeSet` there, and the map is sorted anyway). -/
def sameFor (names : List String) (v : Json) : List (String × Json) :=
  names.foldl (fun m n => Obj.insert m n v) []

/-- schemars/src/json_schema_impls/maps.rs:71-147. -/
def mapFrom (uses : List KeyUse) (v : Json) : Json :=
  let m := [("additionalProperties", if uses.contains .any then v else .bool false), ("type", .str "object")]
  let patterns := uses.filterMap (fun | .pattern p => some p | _ => none) ++ intPatterns uses
  let m := if patterns = [] then m else Obj.insert m "patternProperties" (.obj (sameFor patterns v))
  let names := uses.flatMap (fun | .names l => l | _ => [])
  .obj (if names = [] then m else Obj.insert m "properties" (.obj (sameFor names v)))

/-- schemars/src/json_schema_impls/maps.rs:37-148: the schema of a map with this key and value schema. -/
def mapSchema (path : List Char) (defs : List (String × Json)) (key value : Json) : Json :=
  match keyOptions key with
  | some os => mapFrom (os.map fun o => keyUse (followKeyRef path defs o)) value
  | none => mkObj [("additionalProperties", value), ("type", .str "object")]

/-! ## The implementations as programs -/

/-- The standard types, over a type of all Rust types. -/
inductive Std (τ : Type) where
  /-- `str`, `String`, `bool`, `()` (schemars/src/json_schema_impls/primitives.rs:41-55), `serde_json::Number`
  (serdejson.rs:23-35), and what forwards to them (`forward_impl!`): `AtomicBool` (atomic.rs:3-4), `PhantomData` (core.rs:136). -/
  | simple (t : String)
  /-- `f32`, `f64`, `Ipv4Addr`, ... (primitives.rs:41-67), the types of jiff (jiff02.rs:6-38) and chrono
  (chrono04.rs), `url::Url` (url2.rs:6-23), `uuid::Uuid` (uuid1.rs:6-23). -/
  | formatted (t f : String)
  /-- The integer types, and the atomic ones, which forward to them (atomic.rs:6-33). -/
  | int (t : IntTy)
  | nonZero (t : IntTy)
  | char
  /-- `serde_json::Value` and `RawValue` (serdejson.rs:8-18, 37-38) -/
  | value
  | option (t : τ)
  | seq (t : τ)
  | set (t : τ)
  | emptyArray
  | array (n : Nat) (t : τ)
  | tuple (l : List τ)
  /-- Maps; `serde_json::Map<String, Value>` forwards to `BTreeMap` (serdejson.rs:20). -/
  | map (k v : τ)
  | result (t e : τ)
  | bound (t : τ)
  | range (t : τ)
  | duration
  | systemTime
  | either (l r : τ)
  | osString
  | cString
  | bytes (u8 : τ)
  | decimal

section
variable {τ : Type}

/-- `subschema_for` for each type of a list, in order. -/
def subAll : List τ → (List Json → Prog τ) → Prog τ
  | [], k => k []
  | t :: l, k => .sub t fun s => subAll l fun r => k (s :: r)

/-- `json_schema` of the standard types. -/
def stdBody : Std τ → Prog τ
  | .simple t => .ret (typeOnly t)
  | .formatted t f => .ret (typeFormat t f)
  | .int t => .ret (intSchema t)
  | .nonZero t => .ret (nonZeroSchema t)
  | .char => .ret charSchema
  | .value => .ret (.bool true)
  | .option t => .sub t fun s => .ret (allowNull s)
  | .seq t => .sub t fun s => .ret (seqSchema s)
  | .set t => .sub t fun s => .ret (setSchema s)
  | .emptyArray => .ret emptyArraySchema
  | .array n t => .sub t fun s => .ret (arraySchema n s)
  | .tuple l => subAll l fun r => .ret (tupleImpl r)
  | .map k v => .direct k fun ks => .sub v fun vs => .askSettings fun st => .askDefs fun defs =>
      .ret (mapSchema st.definitionsPath.toList defs ks vs)
  | .result t e => .sub t fun s => .sub e fun s' => .ret (resultSchema s s')
  | .bound t => .sub t fun s => .sub t fun s' => .ret (boundSchema s s')
  | .range t => .sub t fun s => .ret (rangeSchema s)
  | .duration => .ret (timeSchema "secs" "nanos")
  | .systemTime => .ret (timeSchema "secs_since_epoch" "nanos_since_epoch")
  | .either l r => .sub l fun s => .sub r fun s' => .ret (eitherSchema s s')
  | .osString => .ret osStringSchema
  | .cString => .askSettings fun st => .ret (cStringSchema st.contract)
  | .bytes u8 => .sub u8 fun s => .askSettings fun st => .ret (bytesSchema st.contract s)
  | .decimal => .askSettings fun st => .ret (decimalSchema st.contract)

/-- `inline_schema` of the standard types. -/
def stdInline : Std τ → Bool
  | .result _ _ | .bound _ | .range _ | .duration | .systemTime | .osString | .cString | .bytes _ => false
  | _ => true

/-- `_schemars_private_is_option` (schemars/src/json_schema_impls/core.rs:31-33). -/
def stdIsOption : Std τ → Bool
  | .option _ => true
  | _ => false

end

end Verif
