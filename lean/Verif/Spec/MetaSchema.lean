import Verif.Json

/-!
# What the meta-schemas ask of a schema

The meta-schemas of JSON Schema draft 7, 2019-09 and 2020-12 say for each keyword what its value must be. Here this is
a table from keywords to kinds of values. It is written from the published meta-schemas, independently of the model.

Simplifications: `format` in the meta-schemas (`uri-reference`, `regex`) is an annotation and asks for nothing; the
patterns that 2019-09 and 2020-12 have for `$id`, `$anchor` and the like are not included; `$vocabulary` is left out.
Keywords that a meta-schema does not mention may have any value.
-/

namespace Verif.Spec

/-- The versions of JSON Schema. The last one stands for what all of them ask together. -/
inductive Draft where
  | draft07 | draft2019 | draft2020 | every
  deriving DecidableEq

/-- The kinds of values of keywords. -/
inductive Kind where
  | any
  /-- a schema -/
  | schema
  /-- a nonempty array of schemas -/
  | schemas
  /-- a schema or a nonempty array of schemas -/
  | schemaOrList
  /-- an object of schemas -/
  | schemaMap
  /-- an object of schemas or arrays of distinct strings -/
  | dependencies
  /-- an object of arrays of distinct strings -/
  | namesMap
  /-- the name of a type, or a nonempty array of distinct names of types -/
  | types
  /-- an array of distinct strings -/
  | names
  /-- an integer that is not negative -/
  | count
  | number
  /-- a number above zero -/
  | positive
  | text
  | flag
  | list
  deriving DecidableEq

/-- Keywords with the same kind in all versions. -/
def commonKinds : List (String × Kind) := [
  ("$schema", .text), ("$id", .text), ("$ref", .text), ("$comment", .text),
  ("title", .text), ("description", .text), ("default", .any), ("readOnly", .flag), ("writeOnly", .flag),
  ("examples", .list), ("format", .text), ("contentMediaType", .text), ("contentEncoding", .text),
  ("type", .types), ("enum", .list), ("const", .any),
  ("multipleOf", .positive), ("maximum", .number), ("exclusiveMaximum", .number), ("minimum", .number),
  ("exclusiveMinimum", .number), ("maxLength", .count), ("minLength", .count), ("pattern", .text),
  ("maxItems", .count), ("minItems", .count), ("uniqueItems", .flag), ("contains", .schema),
  ("maxProperties", .count), ("minProperties", .count), ("required", .names),
  ("additionalProperties", .schema), ("definitions", .schemaMap), ("properties", .schemaMap),
  ("patternProperties", .schemaMap), ("dependencies", .dependencies), ("propertyNames", .schema),
  ("if", .schema), ("then", .schema), ("else", .schema), ("allOf", .schemas), ("anyOf", .schemas),
  ("oneOf", .schemas), ("not", .schema)]

/-- Keywords that came with 2019-09. -/
def laterKinds : List (String × Kind) := [
  ("$anchor", .text), ("$defs", .schemaMap), ("deprecated", .flag), ("contentSchema", .schema),
  ("maxContains", .count), ("minContains", .count), ("dependentRequired", .namesMap),
  ("dependentSchemas", .schemaMap), ("unevaluatedItems", .schema), ("unevaluatedProperties", .schema)]

/-- Keywords whose kind depends on the version. -/
def ownKinds : Draft → List (String × Kind)
  | .draft07 => [("items", .schemaOrList), ("additionalItems", .schema)]
  | .draft2019 => [("items", .schemaOrList), ("additionalItems", .schema), ("$recursiveRef", .text),
      ("$recursiveAnchor", .flag)] ++ laterKinds
  | .draft2020 => [("items", .schema), ("prefixItems", .schemas), ("$dynamicRef", .text), ("$dynamicAnchor", .text)] ++
      laterKinds
  | .every => [("items", .schema), ("additionalItems", .schema), ("$recursiveRef", .text), ("$recursiveAnchor", .flag),
      ("prefixItems", .schemas), ("$dynamicRef", .text), ("$dynamicAnchor", .text)] ++ laterKinds

/-- The kind of value of a keyword. -/
def kindOf (d : Draft) (k : String) : Kind := ((ownKinds d ++ commonKinds).lookup k).getD .any

/-- The names of types. -/
def typeNames : List String := ["array", "boolean", "integer", "null", "number", "object", "string"]

/-- The value is an array of strings, which differ if `distinct`. -/
def NameList (distinct : Bool) (v : Json) : Prop :=
  ∃ l : List String, v = .arr (l.map .str) ∧ (distinct = true → l.Nodup)

/-- What a kind asks of the value, apart from the schemas in it. -/
def Suits (distinct : Bool) (kind : Kind) (v : Json) : Prop :=
  match kind with
  | .any => True
  | .schema => True
  | .schemas => ∃ l, v = .arr l ∧ l ≠ []
  | .schemaOrList => v ≠ .arr []
  | .schemaMap => ∃ m, v = .obj m
  | .dependencies => ∃ m, v = .obj m ∧ ∀ e ∈ m, ∀ l, e.2 = .arr l → NameList distinct e.2
  | .namesMap => ∃ m, v = .obj m ∧ ∀ e ∈ m, NameList distinct e.2
  | .types => (∃ t ∈ typeNames, v = .str t) ∨
      ∃ l : List String, v = .arr (l.map .str) ∧ l ≠ [] ∧ l.Nodup ∧ ∀ t ∈ l, t ∈ typeNames
  | .names => NameList distinct v
  | .count => ∃ n : JNum, v = .num n ∧ 0 ≤ n.val ∧ n.val.den = 1
  | .number => ∃ n, v = .num n
  | .positive => ∃ n : JNum, v = .num n ∧ 0 < n.val
  | .text => ∃ t, v = .str t
  | .flag => ∃ b, v = .bool b
  | .list => ∃ l, v = .arr l

/-- The values that must be schemas. -/
def nested (kind : Kind) (v : Json) : List Json :=
  match kind, v with
  | .schema, v => [v]
  | .schemas, .arr l => l
  | .schemaOrList, .arr l => l
  | .schemaOrList, v => [v]
  | .schemaMap, .obj m => m.map Prod.snd
  | .dependencies, .obj m => (m.map Prod.snd).filter fun x => match x with | .arr _ => false | _ => true
  | _, _ => []

/-- The value is a valid schema according to the meta-schema: a boolean, or an object whose entries are as the table
says. The parameter says whether names in `required` have to differ, as the meta-schemas ask. -/
inductive MetaValid (d : Draft) (distinct : Bool) : Json → Prop
  | bool (b) : MetaValid d distinct (.bool b)
  | obj {m} : (∀ e ∈ m, Suits distinct (kindOf d e.1) e.2) →
      (∀ e ∈ m, ∀ x ∈ nested (kindOf d e.1) e.2, MetaValid d distinct x) → MetaValid d distinct (.obj m)

/-- An entry of a valid schema. -/
def MetaEntry (d : Draft) (distinct : Bool) (k : String) (v : Json) : Prop :=
  Suits distinct (kindOf d k) v ∧ ∀ x ∈ nested (kindOf d k) v, MetaValid d distinct x

/-! ## Schemas that list names

When a schema is flattened, names that it lists become alternatives. This gives a valid schema only if there are such
names. -/

/-- A schema for strings that lists values lists a string. -/
def ListsNames (s : Json) : Prop :=
  ∀ m, s = .obj m → Obj.get m "type" = some (.str "string") → ∀ a, Obj.get m "enum" = some (.arr a) →
    ∃ n, Json.str n ∈ a

/-- So do the alternatives, except perhaps the first of several. -/
def ChoicesListNames (v : Json) : Prop :=
  ∀ x rest, v = .arr (x :: rest) → (rest = [] → ListsNames x) ∧ ∀ y ∈ rest, ListsNames y

/-- The schema can be flattened. -/
def Expandable (s : Json) : Prop :=
  ListsNames s ∧ ∀ m, s = .obj m → ∀ e ∈ m, e.1 = "oneOf" → ChoicesListNames e.2

end Verif.Spec
