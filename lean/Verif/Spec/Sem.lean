import Verif.Spec.Subschema

/-!
# Specification: which instances a JSON Schema accepts

A denotational semantics of JSON Schema (draft-07 to 2020-12, and the `nullable` of OpenAPI 3.0), written
from the JSON Schema specifications. Nothing in it refers to schemars, except for `skipped`, which is used to
state hypotheses.

`den D env s i` is the result of validating the instance `i` against the schema `s`: whether it is valid
and, if so, which property names of `i` count as evaluated.

* `$ref` is resolved by an arbitrary function `env.ref`, so theorems that hold for all `env` hold for all
  resolutions, also recursive ones.
* Regular expressions are given by an arbitrary predicate `env.rx`.
* A keyword that is not listed below is an arbitrary assertion `env.kw` about its value and the instance.

Simplifications: `unevaluatedItems` is ignored; `dependencies` (draft-07) counts as an unknown keyword;
`$dynamicRef` and `$anchor` are unknown keywords; the base URI (`$id`) plays no role; numbers compare by
their exact value; an entry of a keyword with a malformed value puts no constraint on the instance.
-/

namespace Verif.Spec

/-- The differences between dialects. -/
structure Dialect where
  /-- keywords beside `$ref` count (2019-09 and later), instead of being ignored (draft-07, OpenAPI 3.0) -/
  refSiblings : Bool
  /-- tuples are `prefixItems` with `items` (2020-12), instead of `items` with `additionalItems` -/
  prefixItems : Bool
  /-- `unevaluatedProperties` is supported (2019-09 and later) -/
  unevaluated : Bool
  /-- `nullable: true` beside `type` also allows null (OpenAPI 3.0) -/
  nullable : Bool

/-- Draft-07. -/
def draft07 : Dialect := ⟨false, false, false, false⟩
/-- Draft 2019-09. -/
def draft2019 : Dialect := ⟨true, false, true, false⟩
/-- Draft 2020-12. -/
def draft2020 : Dialect := ⟨true, true, true, false⟩
/-- OpenAPI 3.0 (with the array form of `items`, which OpenAPI 3.0 does not define, read as in draft-07). -/
def openapi30 : Dialect := ⟨false, false, false, true⟩

/-- The result of a validation. -/
structure R where
  ok : Bool
  ev : String → Bool

/-- Invalid; nothing counts as evaluated. -/
def R.fail : R := ⟨false, fun _ => false⟩
/-- Valid, without looking at any property. -/
def R.pass : R := ⟨true, fun _ => false⟩
/-- What a schema refers to. -/
structure Env where
  /-- the result for the target of a `$ref` -/
  ref : String → Json → R
  /-- `rx p s`: the text `s` matches the regular expression `p` -/
  rx : String → String → Bool
  /-- other assertions: keyword, value of the keyword, instance -/
  kw : String → Json → Json → Bool

/-- Every reference, pattern and unknown keyword accepts everything (for examples). -/
def trivialEnv : Env := ⟨fun _ _ => R.pass, fun _ _ => true, fun _ _ _ => true⟩

/-! ## Instances -/

mutual
/-- Numbers by value. -/
def canon : Json → Json
  | .num n => .num (.flt n.val)
  | .arr l => .arr (canonList l)
  | .obj m => .obj (canonMembers m)
  | j => j
@[inherit_doc canon] def canonList : List Json → List Json
  | [] => []
  | j :: l => canon j :: canonList l
@[inherit_doc canon] def canonMembers : List (String × Json) → List (String × Json)
  | [] => []
  | (k, v) :: l => (k, canon v) :: canonMembers l
end

/-- Equality of JSON values (`1` and `1.0` are equal). Objects are compared in their sorted form. -/
def jeq (a b : Json) : Bool := canon a == canon b

/-- The members of an object, or none. -/
def members : Json → List (String × Json)
  | .obj m => m
  | _ => []

/-- The elements of an array, or none. -/
def elems : Json → List Json
  | .arr l => l
  | _ => []

/-- A failed validation evaluates nothing, and only members of the instance can be evaluated. -/
def R.norm (i : Json) (r : R) : R :=
  if r.ok then ⟨true, fun k => Obj.has (members i) k && r.ev k⟩ else R.fail

/-- `type`, for one name. -/
def typeName (t : String) (i : Json) : Bool :=
  match t, i with
  | "null", .null => true
  | "boolean", .bool _ => true
  | "number", .num _ => true
  | "integer", .num n => n.val.den == 1
  | "string", .str _ => true
  | "array", .arr _ => true
  | "object", .obj _ => true
  | _, _ => false

/-- One member of the array form of `type`. -/
def typeMember (i t : Json) : Bool :=
  match t with
  | .str t => typeName t i
  | _ => false

/-- `type`, for a name or an array of names. -/
def typeMatch (ty : Json) (i : Json) : Bool :=
  match ty with
  | .str t => typeName t i
  | .arr l => l.any (typeMember i)
  | _ => true

/-! ## Assertions that depend on their value and the instance only -/

/-- No two elements are equal. -/
def distinct : List Json → Bool
  | [] => true
  | a :: l => l.all (fun b => !jeq a b) && distinct l

/-- An assertion about a number. -/
def onNum (raw i : Json) (p : Rat → Rat → Bool) : Bool :=
  match raw, i with
  | .num a, .num x => p a.val x.val
  | _, _ => true

/-- An assertion that compares a number with the length of the instance. -/
def onLen (raw : Json) (len : Option Nat) (p : Rat → Rat → Bool) : Bool :=
  match raw, len with
  | .num a, some n => p a.val n
  | _, _ => true

/-- The number of characters of a string. -/
def strLen : Json → Option Nat
  | .str s => some s.length
  | _ => none
/-- The number of elements of an array. -/
def arrLen : Json → Option Nat
  | .arr l => some l.length
  | _ => none
/-- The number of members of an object. -/
def objLen : Json → Option Nat
  | .obj m => some m.length
  | _ => none

/-- The object has this member. -/
def hasMember (i : Json) (name : Json) : Bool :=
  match name with
  | .str k => Obj.has (members i) k
  | _ => true

/-- `required`: the object has all these members. -/
def requiredOk (raw i : Json) : Bool :=
  match raw, i with
  | .arr l, .obj _ => l.all (hasMember i)
  | _, _ => true

/-- `dependentRequired`. -/
def dependentRequiredOk (raw i : Json) : Bool :=
  (members raw).all fun e => !Obj.has (members i) e.1 || requiredOk e.2 i

/-- The assertions that depend on their value and the instance only. -/
def simpleKeys : List String :=
  ["const", "enum", "multipleOf", "minimum", "maximum", "exclusiveMinimum", "exclusiveMaximum",
    "minLength", "maxLength", "pattern", "minItems", "maxItems", "uniqueItems", "minProperties",
    "maxProperties", "required", "dependentRequired"]

@[inherit_doc simpleKeys]
def simple (env : Env) (k : String) (raw i : Json) : Bool :=
  match k with
  | "const" => jeq raw i
  | "enum" => match raw with
    | .arr l => l.any fun v => jeq v i
    | _ => true
  | "multipleOf" => onNum raw i fun a x => (x / a).den == 1
  | "minimum" => onNum raw i fun a x => decide (a ≤ x)
  | "maximum" => onNum raw i fun a x => decide (x ≤ a)
  | "exclusiveMinimum" => onNum raw i fun a x => decide (a < x)
  | "exclusiveMaximum" => onNum raw i fun a x => decide (x < a)
  | "minLength" => onLen raw (strLen i) fun a n => decide (a ≤ n)
  | "maxLength" => onLen raw (strLen i) fun a n => decide (n ≤ a)
  | "pattern" => match raw, i with
    | .str p, .str s => env.rx p s
    | _, _ => true
  | "minItems" => onLen raw (arrLen i) fun a n => decide (a ≤ n)
  | "maxItems" => onLen raw (arrLen i) fun a n => decide (n ≤ a)
  | "uniqueItems" => match raw, i with
    | .bool true, .arr l => distinct l
    | _, _ => true
  | "minProperties" => onLen raw (objLen i) fun a n => decide (a ≤ n)
  | "maxProperties" => onLen raw (objLen i) fun a n => decide (n ≤ a)
  | "required" => requiredOk raw i
  | "dependentRequired" => dependentRequiredOk raw i
  | _ => true

/-! ## Keywords -/

/-- The keywords whose value is a schema that matters for validation. -/
def oneKeys : List String :=
  ["not", "if", "then", "else", "contains", "additionalProperties", "propertyNames", "additionalItems",
    "items", "unevaluatedProperties"]
/-- The keywords whose value is an array of schemas. -/
def listKeys : List String := ["allOf", "anyOf", "oneOf", "prefixItems", "items"]
/-- The keywords whose value is an object of schemas. -/
def mapKeys : List String := ["properties", "patternProperties", "dependentSchemas"]
/-- The keywords that are not looked at: annotations, identifiers and definitions. -/
def annotations : List String :=
  ["$schema", "$id", "$comment", "$defs", "definitions", "title", "description", "default", "examples",
    "example", "deprecated", "readOnly", "writeOnly", "format", "contentEncoding", "contentMediaType",
    "contentSchema", "unevaluatedItems"]
/-- The keywords that are interpreted below by name. -/
def rawKeys : List String := ["$ref", "type", "nullable", "minContains", "maxContains"]

/-- All keywords that this semantics knows. -/
def known : List String := rawKeys ++ simpleKeys ++ oneKeys ++ listKeys ++ mapKeys ++ annotations

/-- What an entry of a schema contributes. -/
structure KW where
  /-- the value, if the keyword takes no schemas and is no annotation -/
  raw : Option Json := none
  /-- the value, if it should be a schema and is one -/
  sch : Option (Json → R) := none
  /-- the elements, if the value should be an array of schemas and is an array -/
  lst : Option (List (Json → R)) := none
  /-- the members, if the value should be an object of schemas and is an object -/
  mp : Option (List (String × (Json → R))) := none

/-- The interpreted keywords of a schema. -/
abbrev View := String → Option KW

namespace View
variable (v : View)
/-- The plain value of a keyword. -/
def raw (k : String) : Option Json := (v k).bind KW.raw
/-- The schema that is the value of a keyword. -/
def sch (k : String) : Option (Json → R) := (v k).bind KW.sch
/-- The schemas in the array that is the value of a keyword. -/
def lst (k : String) : Option (List (Json → R)) := (v k).bind KW.lst
/-- The schemas in the object that is the value of a keyword. -/
def mp (k : String) : List (String × (Json → R)) := ((v k).bind KW.mp).getD []
end View

section Combine
variable (D : Dialect) (env : Env) (v : View) (i : Json)

/-- `$ref`. -/
def refResult : Option R :=
  match v.raw "$ref" with
  | some (.str r) => some ((env.ref r i).norm i)
  | _ => none

/-- `type`, with `nullable`. -/
def typeOk : Bool :=
  match v.raw "type" with
  | none => true
  | some ty => typeMatch ty i || (D.nullable && v.raw "nullable" == some (.bool true) && i == .null)

/-- The assertions in `simpleKeys`. -/
def simpleOk : Bool := simpleKeys.all fun k =>
  match v.raw k with
  | some r => simple env k r i
  | none => true

/-- The results of the schemas in an array-valued keyword. -/
def listResults (k : String) : List R := ((v.lst k).getD []).map fun s => s i

/-- `allOf`. -/
def allOfOk : Bool := (listResults v i "allOf").all (·.ok)
/-- `anyOf`. -/
def anyOfOk : Bool := (v.lst "anyOf").isNone || (listResults v i "anyOf").any (·.ok)
/-- `oneOf`. -/
def oneOfOk : Bool := (v.lst "oneOf").isNone || (listResults v i "oneOf").countP (·.ok) == 1
/-- `not`. -/
def notOk : Bool :=
  match v.sch "not" with
  | some s => !(s i).ok
  | none => true

/-- The results of `if` and of `then` or `else`; only the second one has to be valid. -/
def ifResults : R × R :=
  match v.sch "if" with
  | none => (R.pass, R.pass)
  | some s =>
    let branch := if (s i).ok then v.sch "then" else v.sch "else"
    (s i, match branch with
      | some b => b i
      | none => R.pass)

/-- The results of the schemas in `dependentSchemas` that apply. -/
def dependentResults : List R :=
  ((v.mp "dependentSchemas").filter fun e => Obj.has (members i) e.1).map fun e => e.2 i

/-- The results of all schemas that apply to the same instance. -/
def inPlaceResults : List R :=
  (refResult env v i).toList ++ listResults v i "allOf" ++ listResults v i "anyOf" ++
    listResults v i "oneOf" ++ [(ifResults v i).1, (ifResults v i).2] ++ dependentResults v i

/-- The name is in `properties`. -/
def inProperties (k : String) : Bool := Obj.has (v.mp "properties") k
/-- The name matches one of `patternProperties`. -/
def inPatterns (k : String) : Bool := (v.mp "patternProperties").any fun e => env.rx e.1 k
/-- The name is covered by `properties`, `patternProperties` or `additionalProperties`. -/
def ownEvaluated (k : String) : Bool :=
  inProperties v k || inPatterns env v k || (v.sch "additionalProperties").isSome

/-- The name is evaluated before `unevaluatedProperties` is considered. -/
def evaluated (k : String) : Bool :=
  Obj.has (members i) k && (ownEvaluated env v k || (inPlaceResults env v i).any fun r => r.ev k)

/-- The value is valid against a schema, if there is one. -/
def optOk (s : Option (Json → R)) (x : Json) : Bool :=
  match s with
  | some s => (s x).ok
  | none => true

/-- `properties`, `patternProperties`, `additionalProperties`, `propertyNames` and
`unevaluatedProperties` for one member of the instance. -/
def memberOk (e : String × Json) : Bool :=
  optOk (Obj.get (v.mp "properties") e.1) e.2 &&
  ((v.mp "patternProperties").all fun p => !env.rx p.1 e.1 || (p.2 e.2).ok) &&
  (inProperties v e.1 || inPatterns env v e.1 || optOk (v.sch "additionalProperties") e.2) &&
  optOk (v.sch "propertyNames") (.str e.1) &&
  (!D.unevaluated || evaluated env v i e.1 || optOk (v.sch "unevaluatedProperties") e.2)

/-- Positional schemas, and a schema for the rest. -/
def tupleOk : List (Json → R) → Option (Json → R) → List Json → Bool
  | _, _, [] => true
  | [], rest, x :: l => optOk rest x && tupleOk [] rest l
  | s :: ss, rest, x :: l => (s x).ok && tupleOk ss rest l

/-- `prefixItems`, `items` and `additionalItems`. -/
def itemsOk : Bool :=
  if D.prefixItems then tupleOk ((v.lst "prefixItems").getD []) (v.sch "items") (elems i)
  else match v.lst "items" with
    | some ss => tupleOk ss (v.sch "additionalItems") (elems i)
    | none => tupleOk [] (v.sch "items") (elems i)

/-- `contains` with `minContains` and `maxContains`. -/
def containsOk : Bool :=
  match v.sch "contains", i with
  | some s, .arr l =>
    let n : Rat := (l.countP fun x => (s x).ok)
    (match v.raw "minContains" with
      | some (.num a) => decide (a.val ≤ n)
      | _ => decide (1 ≤ n)) &&
    (match v.raw "maxContains" with
      | some (.num a) => decide (n ≤ a.val)
      | _ => true)
  | _, _ => true

/-- Unknown keywords. -/
def othersOk (others : List (String × Json)) : Bool := others.all fun e => env.kw e.1 e.2 i

/-- All assertions together, except for the rule about siblings of `$ref`. -/
def allOk (others : List (String × Json)) : Bool :=
  (match refResult env v i with
    | some r => r.ok
    | none => true) &&
  (typeOk D v i && simpleOk env v i) && allOfOk v i && anyOfOk v i && oneOfOk v i && notOk v i &&
  (ifResults v i).2.ok && (dependentResults v i).all (·.ok) &&
  (members i).all (memberOk D env v i) && itemsOk D v i && containsOk v i && othersOk env i others

/-- The names that a valid instance has evaluated. -/
def evAfter (k : String) : Bool :=
  evaluated env v i k ||
    (Obj.has (members i) k && D.unevaluated && (v.sch "unevaluatedProperties").isSome)

/-- The result for an object schema. -/
def combine (others : List (String × Json)) : R :=
  match D.refSiblings, refResult env v i with
  | false, some r => r
  | _, _ => if allOk D env v i others then ⟨true, evAfter D env v i⟩ else R.fail

end Combine

/-! ## Schemas -/

/-- The value may be a schema. -/
def schemaLike : Json → Bool
  | .obj _ => true
  | .bool _ => true
  | _ => false

/-- The plain value of the keyword does not matter: it takes schemas or is an annotation. -/
def noRaw (k : String) : Bool :=
  oneKeys.contains k || listKeys.contains k || mapKeys.contains k || annotations.contains k

mutual
/-- The result of validating an instance against a schema. A value that is no schema accepts anything. -/
def den (D : Dialect) (env : Env) : Json → Json → R
  | .bool true => fun _ => R.pass
  | .bool false => fun _ => R.fail
  | .obj m =>
    let kws := denEntries D env m
    fun i => combine D env (Obj.get kws) i (m.filter fun e => !known.contains e.1)
  | _ => fun _ => R.pass
/-- The results for the elements of an array. -/
def denArr (D : Dialect) (env : Env) : Json → Option (List (Json → R))
  | .arr l => some (denList D env l)
  | _ => none
/-- The results for the members of an object. -/
def denObj (D : Dialect) (env : Env) : Json → Option (List (String × (Json → R)))
  | .obj m => some (denVals D env m)
  | _ => none
@[inherit_doc denArr] def denList (D : Dialect) (env : Env) : List Json → List (Json → R)
  | [] => []
  | j :: l => den D env j :: denList D env l
@[inherit_doc denObj] def denVals (D : Dialect) (env : Env) :
    List (String × Json) → List (String × (Json → R))
  | [] => []
  | (k, x) :: l => (k, den D env x) :: denVals D env l
/-- The interpreted keywords of a schema. -/
def denEntries (D : Dialect) (env : Env) : List (String × Json) → List (String × KW)
  | [] => []
  | (k, x) :: l =>
    (k, { raw := if noRaw k then none else some x
          sch := if oneKeys.contains k && schemaLike x then some (den D env x) else none
          lst := if listKeys.contains k then denArr D env x else none
          mp := if mapKeys.contains k then denObj D env x else none }) :: denEntries D env l
end

/-- The keywords whose subschemas matter for validation. -/
def applied : Vocab := ⟨oneKeys, listKeys, mapKeys⟩

/-- Those of them that schemars does not traverse. -/
def skipped : Vocab := ⟨["unevaluatedProperties"], [], ["dependentSchemas"]⟩

/-- All subschemas that schemars does not traverse, but that matter for validation, satisfy `P` at all
depths. -/
def OutsideOk (P : Json → Prop) (s : Json) : Prop :=
  Everywhere visited (fun x => ∀ y, DirectSub skipped x y → Everywhere applied P y) s

/-- The instance is valid. -/
def Valid (D : Dialect) (env : Env) (s i : Json) : Prop := (den D env s i).ok = true

end Verif.Spec
