import Verif.Json

/-!
# Schemas of OpenAPI 3.0

The Schema Object and the Reference Object of OpenAPI 3.0 (https://spec.openapis.org/oas/3.0/schema/2024-10-18,
`definitions/Schema` and `definitions/Reference`). Left out: the values of the keywords that hold no schemas, apart from `type`.
-/

namespace Verif.Spec

/-- The keywords of a Schema Object. Others are not allowed, apart from extensions. -/
def oasKeywords : List String :=
  ["title", "multipleOf", "maximum", "exclusiveMaximum", "minimum", "exclusiveMinimum", "maxLength", "minLength", "pattern",
    "maxItems", "minItems", "uniqueItems", "maxProperties", "minProperties", "required", "enum", "type", "not", "allOf", "oneOf",
    "anyOf", "items", "properties", "additionalProperties", "description", "format", "default", "nullable", "discriminator",
    "readOnly", "writeOnly", "example", "externalDocs", "deprecated", "xml"]

/-- The names of types. -/
def oasTypes : List String := ["array", "boolean", "integer", "number", "object", "string"]

/-- A name that extensions may have. -/
def Extension (k : String) : Prop := ∃ r, k.toList = 'x' :: '-' :: r

/-- The value is a Schema Object or a Reference Object. -/
inductive Oas30 : Json → Prop
  | reference {m : List (String × Json)} (r : String) (h : Obj.get m "$ref" = some (.str r))
      (alone : ∀ k v, Obj.get m k = some v → k = "$ref") : Oas30 (.obj m)
  | schema {m : List (String × Json)} (keys : ∀ k v, Obj.get m k = some v → k ∈ oasKeywords ∨ Extension k)
      (type : ∀ ty, Obj.get m "type" = some ty → ∃ t ∈ oasTypes, ty = .str t)
      (one : ∀ k ∈ ["not", "items"], ∀ v, Obj.get m k = some v → Oas30 v)
      (array : ∀ k ∈ ["allOf", "anyOf", "oneOf"], ∀ v, Obj.get m k = some v → ∃ l, v = .arr l)
      (list : ∀ k ∈ ["allOf", "anyOf", "oneOf"], ∀ l, Obj.get m k = some (.arr l) → ∀ x ∈ l, Oas30 x)
      (object : ∀ v, Obj.get m "properties" = some v → ∃ p, v = .obj p)
      (members : ∀ p, Obj.get m "properties" = some (.obj p) → ∀ e ∈ p, Oas30 e.2)
      (additional : ∀ v, Obj.get m "additionalProperties" = some v → (∀ b, v ≠ .bool b) → Oas30 v) : Oas30 (.obj m)

/-- What is left of a schema for a reader that knows the keywords of OpenAPI 3.0 only. -/
def oasRead : Json → Json
  | .obj m => .obj (m.filter fun e => e.1 == "$ref" || oasKeywords.contains e.1)
  | j => j

/-! ## What can be expressed -/

/-- A type that mentions null, beside at most one other. -/
def OasNull (ty : Json) : Prop :=
  ty = .str "null" ∨ ∃ l, ty = .arr l ∧ .str "null" ∈ l ∧
    ((∀ x ∈ l, x = .str "null") ∨ ∃ t ∈ oasTypes, l.filter (fun v => v != .str "null") = [.str t])

/-- The keywords of one schema: those of OpenAPI 3.0 and `extra`; types with null if `nulls`; `$ref` beside others if `refs`. -/
structure OasWords (extra : List String) (nulls refs : Bool) (m : List (String × Json)) : Prop where
  keys : ∀ k v, Obj.get m k = some v → k ∈ oasKeywords ∨ Extension k ∨ k ∈ extra ∨ k = "unevaluatedProperties"
  type : ∀ ty, Obj.get m "type" = some ty → (∃ t ∈ oasTypes, ty = .str t) ∨ (nulls = true ∧ OasNull ty)
  ref : ∀ r, Obj.get m "$ref" = some r → (∃ s, r = .str s) ∧ (refs = false → ∀ k v, Obj.get m k = some v → k = "$ref")

/-- The subschemas of a schema: `unevaluatedProperties` only if `uneval`, and not where there are no bools. -/
structure OasParts (uneval : Bool) (S : Bool → Json → Prop) (c : Bool) (m : List (String × Json)) : Prop where
  uneval : ∀ v, Obj.get m "unevaluatedProperties" = some v → uneval = true ∧ c = true
  closed : ∀ v, Obj.get m "unevaluatedProperties" = some v → (∀ b, v ≠ .bool b) → S false v
  one : ∀ k ∈ ["not", "items"], ∀ v, Obj.get m k = some v → S c v
  array : ∀ k ∈ ["allOf", "anyOf", "oneOf"], ∀ v, Obj.get m k = some v → ∃ l, v = .arr l
  list : ∀ k ∈ ["allOf", "anyOf", "oneOf"], ∀ l, Obj.get m k = some (.arr l) → ∀ x ∈ l, S c x
  object : ∀ v, Obj.get m "properties" = some v → ∃ p, v = .obj p
  members : ∀ p, Obj.get m "properties" = some (.obj p) → ∀ e ∈ p, S c e.2
  additional : ∀ v, Obj.get m "additionalProperties" = some v → (∀ b, v ≠ .bool b) → S false v

/-- Schemas all of whose subschemas have words as above; bools only if the flag is set, and not below
`additionalProperties`, where only the value itself may be one. -/
inductive OasStage (extra : List String) (nulls refs uneval : Bool) : Bool → Json → Prop
  | bool (b : Bool) : OasStage extra nulls refs uneval true (.bool b)
  | obj {c : Bool} {m : List (String × Json)} (words : OasWords extra nulls refs m)
      (here : ∀ v, Obj.get m "unevaluatedProperties" = some v → uneval = true ∧ c = true)
      (closed : ∀ v, Obj.get m "unevaluatedProperties" = some v → (∀ b, v ≠ .bool b) →
        OasStage extra nulls refs uneval false v)
      (one : ∀ k ∈ ["not", "items"], ∀ v, Obj.get m k = some v → OasStage extra nulls refs uneval c v)
      (array : ∀ k ∈ ["allOf", "anyOf", "oneOf"], ∀ v, Obj.get m k = some v → ∃ l, v = .arr l)
      (list : ∀ k ∈ ["allOf", "anyOf", "oneOf"], ∀ l, Obj.get m k = some (.arr l) → ∀ x ∈ l,
        OasStage extra nulls refs uneval c x)
      (object : ∀ v, Obj.get m "properties" = some v → ∃ p, v = .obj p)
      (members : ∀ p, Obj.get m "properties" = some (.obj p) → ∀ e ∈ p, OasStage extra nulls refs uneval c e.2)
      (additional : ∀ v, Obj.get m "additionalProperties" = some v → (∀ b, v ≠ .bool b) →
        OasStage extra nulls refs uneval false v) : OasStage extra nulls refs uneval c (.obj m)

/-- A schema that the transforms can express in OpenAPI 3.0: it may use `const`, `examples`, `$ref` with siblings, types
with null, `unevaluatedProperties`, and bools as schemas, but the last two not below `additionalProperties` or
`unevaluatedProperties`. -/
def Translatable (s : Json) : Prop := OasStage ["const", "examples", "$ref"] true true true true s

end Verif.Spec
