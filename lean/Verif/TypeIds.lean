import Verif.Impls
import Verif.SchemaType

/-!
# Names and ids of types

`schema_name`, `schema_id` and `json_schema` of the types that the crate itself covers and of derived types:
schemars/src/json_schema_impls/*.rs and schemars_derive/src/lib.rs:93-180.

A `Ty` is a type up to the identical implementations of the crate: a type that forwards to another one
(`forward_impl!`, `#[serde(transparent)]`) is that type, and `str`, `String`, `Path`, `SocketAddr`, ... (all
`simple_impl!(.. => "string")`) are one. Texts are lists of characters.

Simplifications: `stringify!(a::B)` is `a::B`; a type argument without `JsonSchema` (whose
`core::any::type_name` is used in place of an id, schemars/src/_private/mod.rs:216-241) is not covered; the
arguments of a derived type are those of the const params and of the type params that
`relevant_type_params` contains, both in the order of their names; the value of a const param is given by its
`Display`.
-/

namespace Verif

/-- The types of the crate whose implementation has no type params. -/
inductive Fixed where
  /-- `str`, `String`, `Path`, `PathBuf`, `SocketAddr`, `SocketAddrV4`, `SocketAddrV6`. -/
  | string
  | bool | unit | f32 | f64
  | int (t : IntTy)
  | nonZero (t : IntTy)
  | ipv4 | ipv6 | ip
  | char
  | value | number
  | duration | systemTime
  | osString | cString | bytes
  /-- `rust_decimal::Decimal`, `bigdecimal::BigDecimal`. -/
  | decimal
  | weekday | timeDelta
  | chronoDate | chronoDateTime | chronoTime | chronoZoned
  | jiffSignedDuration | jiffSpan | jiffTimestamp | jiffZoned | jiffDate | jiffTime | jiffDateTime
  | semver | url | uuid
  /-- The type `Schema` of the crate. -/
  | schema
  deriving DecidableEq, Repr

/-- The names in schemars/src/json_schema_impls/nonzero.rs:29-34 and 60-65. -/
def IntTy.nonZeroName : IntTy → String
  | .i8 => "NonZeroI8" | .i16 => "NonZeroI16" | .i32 => "NonZeroI32" | .i64 => "NonZeroI64"
  | .i128 => "NonZeroI128" | .isize => "NonZeroIsize"
  | .u8 => "NonZeroU8" | .u16 => "NonZeroU16" | .u32 => "NonZeroU32" | .u64 => "NonZeroU64"
  | .u128 => "NonZeroU128" | .usize => "NonZeroUsize"

namespace Fixed

/-- `schema_name` (primitives.rs, nonzero.rs, serdejson.rs, std_time.rs, ffi.rs, bytes1.rs, decimal.rs,
chrono04.rs, jiff02.rs, semver1.rs, url2.rs, uuid1.rs in schemars/src/json_schema_impls). -/
def name : Fixed → String
  | .string => "string" | .bool => "boolean" | .unit => "null" | .f32 => "float" | .f64 => "double"
  | .int t => t.format
  | .nonZero t => t.nonZeroName
  | .ipv4 => "ipv4" | .ipv6 => "ipv6" | .ip => "ip"
  | .char => "Character"
  | .value => "AnyValue" | .number => "Number"
  | .duration => "Duration" | .systemTime => "SystemTime"
  | .osString => "OsString" | .cString => "CString" | .bytes => "Bytes"
  | .decimal => "Decimal"
  | .weekday => "Weekday" | .timeDelta => "TimeDelta"
  | .chronoDate => "NaiveDate" | .chronoDateTime => "NaiveDateTime" | .chronoTime => "NaiveTime"
  | .chronoZoned => "DateTime"
  | .jiffSignedDuration => "SignedDuration" | .jiffSpan => "Span" | .jiffTimestamp => "Timestamp"
  | .jiffZoned => "Zoned" | .jiffDate => "Date" | .jiffTime => "Time" | .jiffDateTime => "DateTime"
  | .semver => "SemVer" | .url => "Url" | .uuid => "Uuid"
  | .schema => Schema.selfName

/-- `schema_id` (the same files), by default the name (schemars/src/lib.rs:166-168). -/
def id : Fixed → String
  | .nonZero t => "std::num::" ++ t.nonZeroName
  | .char => "char"
  | .duration => "std::time::Duration" | .systemTime => "std::time::SystemTime"
  | .osString => "std::ffi::OsString" | .cString => "std::ffi::CString" | .bytes => "bytes::Bytes"
  | .weekday => "chrono::Weekday" | .timeDelta => "chrono::TimeDelta"
  | .chronoDate => "chrono::NaiveDate" | .chronoDateTime => "chrono::NaiveDateTime"
  | .chronoTime => "chrono::NaiveTime" | .chronoZoned => "chrono::DateTime"
  | .jiffSignedDuration => "jiff::SignedDuration" | .jiffSpan => "jiff::Span"
  | .jiffTimestamp => "jiff::Timestamp" | .jiffZoned => "jiff::Zoned" | .jiffDate => "jiff::Date"
  | .jiffTime => "jiff::Time" | .jiffDateTime => "jiff::DateTime"
  | .semver => "semver::Version" | .url => "url::Url" | .uuid => "uuid::Uuid"
  | .schema => Schema.selfId
  | f => f.name

/-- `inline_schema` (the same files). -/
def inline : Fixed → Bool
  | .duration | .systemTime | .osString | .cString | .bytes | .semver | .schema => false
  | _ => true

/-- schemars/src/json_schema_impls/chrono04.rs:6-33. -/
def weekdaySchema : Json :=
  mkObj [("type", .str "string"), ("enum", .arr [.str "Mon", .str "Tue", .str "Wed", .str "Thu", .str "Fri",
    .str "Sat", .str "Sun"])]

/-- schemars/src/json_schema_impls/chrono04.rs:35-63. -/
def timeDeltaSchema : Json :=
  mkObj [("type", .str "array"), ("prefixItems", .arr [typeFormat "integer" "int64",
    mkObj [("type", .str "integer"), ("minimum", .num (.int 0)), ("exclusiveMaximum", .num (.int 1000000000))]]),
    ("minItems", .num (.int 2)), ("maxItems", .num (.int 2))]

/-- schemars/src/json_schema_impls/semver1.rs:19. -/
def semverPattern : String :=
  "^(0|[1-9]\\d*)\\.(0|[1-9]\\d*)\\.(0|[1-9]\\d*)(?:-((?:0|[1-9]\\d*|\\d*[a-zA-Z-][0-9a-zA-Z-]*)(?:\\.(?:0|[1-9]\\d*|\\d*[a-zA-Z-][0-9a-zA-Z-]*))*))?(?:\\+([0-9a-zA-Z-]+(?:\\.[0-9a-zA-Z-]+)*))?$"

end Fixed

/-- The types: those of the crate and derived types. -/
inductive Ty where
  | fixed (f : Fixed)
  /-- `Option<T>` -/
  | option (t : Ty)
  /-- `[T]`, `Vec<T>`, `VecDeque<T>`, ... -/
  | seq (t : Ty)
  /-- `BTreeSet<T>`, `HashSet<T>`, ... -/
  | set (t : Ty)
  /-- `[T; 0]` -/
  | emptyArray
  /-- `[T; n]` -/
  | array (n : Nat) (t : Ty)
  /-- `ArrayVec<T, CAP>` -/
  | arrayVec (cap : Nat) (t : Ty)
  | tuple (l : List Ty)
  /-- `BTreeMap<K, V>`, `HashMap<K, V>`, ... -/
  | map (k v : Ty)
  | result (t e : Ty)
  | bound (t : Ty)
  /-- `Range<T>`, `RangeInclusive<T>` -/
  | range (t : Ty)
  | either (l r : Ty)
  /-- The derived type `d`, with the texts of its const arguments and its type arguments. -/
  | derived (d : Nat) (consts : List (List Char)) (args : List Ty)

/-- A type with `#[derive(JsonSchema)]`, as far as the generator sees it. -/
structure IdDecl where
  /-- `module_path!()` -/
  modulePath : List Char
  /-- `Container::name` (schemars_derive/src/ast/mod.rs:73-81): the name of the type, or what `rename` says. -/
  name : List Char
  /-- The const params. -/
  consts : Nat
  /-- The relevant type params. -/
  args : Nat
  /-- schemars_derive/src/lib.rs:102-115: the name, from the const arguments and the names of the type
  arguments. -/
  nameOf : List (List Char) → List (List Char) → List Char
  inline : Bool
  body : List (List Char) → List Ty → Prog Ty

namespace Ty

variable (P : Nat → IdDecl)

/-- A number as text. -/
def num (n : Nat) : List Char := (Nat.repr n).toList

/-- `slice.join(s)`. -/
def join (s : List Char) : List (List Char) → List Char
  | [] => []
  | [a] => a
  | a :: b :: l => a ++ s ++ join s (b :: l)

/-- `format!("{a}{x}{b}{y}{c}")`. -/
def fill (a : String) (x : List Char) (b : String) (y : List Char) (c : String) : List Char :=
  a.toList ++ x ++ b.toList ++ y ++ c.toList

mutual
/-- `schema_name`: schemars/src/json_schema_impls/core.rs:11-13, 37-39, 68-70, 103-105, sequences.rs:14-16, 40-42,
array.rs:10-12, 32-34, arrayvec07.rs:16-18, tuple.rs:12-16, maps.rs:21-27,
either1.rs:10-12; schemars_derive/src/lib.rs:102-115. -/
def name : Ty → List Char
  | .fixed f => f.name.toList
  | .option t => fill "Nullable_" (name t) "" [] ""
  | .seq t => fill "Array_of_" (name t) "" [] ""
  | .set t => fill "Set_of_" (name t) "" [] ""
  | .emptyArray => "EmptyArray".toList
  | .array n t => fill "Array_size_" (num n) "_of_" (name t) ""
  | .arrayVec n t => fill "Array_up_to_size_" (num n) "_of_" (name t) ""
  | .tuple l => fill "Tuple_of_" (join "_and_".toList (names l)) "" [] ""
  | .map k v =>
    if id k = "string".toList then fill "Map_of_" (name v) "" [] ""
    else fill "Map_from_" (name k) "_to_" (name v) ""
  | .result t e => fill "Result_of_" (name t) "_or_" (name e) ""
  | .bound t => fill "Bound_of_" (name t) "" [] ""
  | .range t => fill "Range_of_" (name t) "" [] ""
  | .either l r => fill "Either_" (name l) "_or_" (name r) ""
  | .derived d cs l => (P d).nameOf cs (names l)
/-- The names of a list of types. -/
def names : List Ty → List (List Char)
  | [] => []
  | t :: l => name t :: names l
/-- `schema_id`: schemars/src/json_schema_impls/core.rs:15-17, 41-43, 72-74, 107-109, sequences.rs:18-20, 44-46,
array.rs:14-16, 36-38, tuple.rs:18-24, maps.rs:29-35, either1.rs:14-16, and by default the name
(arrayvec07.rs); schemars_derive/src/lib.rs:117-145. -/
def id : Ty → List Char
  | .fixed f => f.id.toList
  | .option t => fill "Option<" (id t) "" [] ">"
  | .seq t => fill "[" (id t) "" [] "]"
  | .set t => fill "Set<" (id t) "" [] ">"
  | .emptyArray => "[]".toList
  | .array n t => fill "[" (num n) "; " (id t) "]"
  | .arrayVec n t => fill "Array_up_to_size_" (num n) "_of_" (name t) ""
  | .tuple l => fill "(" (join [','] (ids l)) "" [] ")"
  | .map k v =>
    if id k = "string".toList then fill "Map<" (id v) "" [] ">" else fill "Map<" (id k) ", " (id v) ">"
  | .result t e => fill "Result<" (id t) ", " (id e) ">"
  | .bound t => fill "Bound<" (id t) "" [] ">"
  | .range t => fill "Range<" (id t) "" [] ">"
  | .either l r => fill "either::Either<" (id l) ", " (id r) ">"
  | .derived d cs l =>
    (P d).modulePath ++ "::".toList ++ (P d).name ++
      (if cs.isEmpty && l.isEmpty then [] else fill "<" cs.flatten "" (ids l).flatten ">")
/-- The ids of a list of types. -/
def ids : List Ty → List (List Char)
  | [] => []
  | t :: l => id t :: ids l
end

/-- `json_schema` of the types without params. -/
def fixedBody : Fixed → Prog Ty
  | .string => stdBody (.simple "string")
  | .bool => stdBody (.simple "boolean")
  | .unit => stdBody (.simple "null")
  | .f32 => stdBody (.formatted "number" "float")
  | .f64 => stdBody (.formatted "number" "double")
  | .int t => stdBody (.int t)
  | .nonZero t => stdBody (.nonZero t)
  | .ipv4 => stdBody (.formatted "string" "ipv4")
  | .ipv6 => stdBody (.formatted "string" "ipv6")
  | .ip => stdBody (.formatted "string" "ip")
  | .char => stdBody .char
  | .value => stdBody .value
  | .number => stdBody (.simple "number")
  | .duration => stdBody .duration
  | .systemTime => stdBody .systemTime
  | .osString => stdBody .osString
  | .cString => stdBody .cString
  | .bytes => stdBody (.bytes (.fixed (.int .u8)))
  | .decimal => stdBody .decimal
  | .weekday => .ret Fixed.weekdaySchema
  | .timeDelta => .ret Fixed.timeDeltaSchema
  | .chronoDate => stdBody (.formatted "string" "date")
  | .chronoDateTime => stdBody (.formatted "string" "partial-date-time")
  | .chronoTime => stdBody (.formatted "string" "partial-time")
  | .chronoZoned => stdBody (.formatted "string" "date-time")
  | .jiffSignedDuration => stdBody (.formatted "string" "duration")
  | .jiffSpan => stdBody (.formatted "string" "duration")
  | .jiffTimestamp => stdBody (.formatted "string" "date-time")
  | .jiffZoned => stdBody (.formatted "string" "zoned-date-time")
  | .jiffDate => stdBody (.formatted "string" "date")
  | .jiffTime => stdBody (.formatted "string" "partial-time")
  | .jiffDateTime => stdBody (.formatted "string" "partial-date-time")
  | .semver => .ret (mkObj [("type", .str "string"), ("pattern", .str Fixed.semverPattern)])
  | .url => stdBody (.formatted "string" "uri")
  | .uuid => stdBody (.formatted "string" "uuid")
  | .schema => .ret (Schema.selfSchema.getD .null)

/-- `json_schema`; for `ArrayVec` schemars/src/json_schema_impls/arrayvec07.rs:20-26. -/
def body : Ty → Prog Ty
  | .fixed f => fixedBody f
  | .option t => stdBody (.option t)
  | .seq t => stdBody (.seq t)
  | .set t => stdBody (.set t)
  | .emptyArray => stdBody .emptyArray
  | .array n t => stdBody (.array n t)
  | .arrayVec n t => .sub t fun s => .ret (mkObj [("type", .str "array"), ("items", s), ("maxItems", .num (.int n))])
  | .tuple l => stdBody (.tuple l)
  | .map k v => stdBody (.map k v)
  | .result t e => stdBody (.result t e)
  | .bound t => stdBody (.bound t)
  | .range t => stdBody (.range t)
  | .either l r => stdBody (.either l r)
  | .derived d cs l => (P d).body cs l

/-- `inline_schema`. -/
def inline : Ty → Bool
  | .fixed f => f.inline
  | .result _ _ | .bound _ | .range _ => false
  | .derived d _ _ => (P d).inline
  | _ => true

/-- The implementation of `JsonSchema` for a type. -/
def typeDef (t : Ty) : TypeDef Ty where
  schemaId := String.ofList (id P t)
  schemaName := String.ofList (name P t)
  inlineSchema := inline P t
  body := body P t

end Ty

end Verif
