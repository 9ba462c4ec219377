import Verif.Json

/-!
# Specification: where a schema has subschemas
-/

namespace Verif.Spec

/-- A JSON Schema is an object or a bool. -/
inductive IsSchema : Json → Prop
  | obj (m) : IsSchema (.obj m)
  | bool (b) : IsSchema (.bool b)

/-- A set of keywords that hold subschemas: directly, in an array, or as the members of an object. -/
structure Vocab where
  one : List String
  list : List String
  map : List String

/-- The keywords that schemars documents as traversed (all of draft-07 except `dependencies`, plus
`prefixItems` and `$defs`). -/
def visited : Vocab where
  one := ["not", "if", "then", "else", "contains", "additionalProperties", "propertyNames",
    "additionalItems", "items"]
  list := ["allOf", "anyOf", "oneOf", "prefixItems", "items"]
  map := ["properties", "patternProperties", "$defs", "definitions"]

/-- All keywords of draft-07, 2019-09 and 2020-12 that hold subschemas. -/
def standard : Vocab where
  one := visited.one ++ ["unevaluatedProperties", "unevaluatedItems", "contentSchema"]
  list := visited.list
  map := visited.map ++ ["dependentSchemas", "dependencies"]

/-- The keywords whose subschemas apply to the same instance location, without `not`. -/
def inPlace : Vocab where
  one := ["if", "then", "else"]
  list := ["allOf", "anyOf", "oneOf"]
  map := []

/-- `x` is a direct subschema of `s`. -/
inductive DirectSub (V : Vocab) : Json → Json → Prop
  | one {m k x} : (k, x) ∈ m → k ∈ V.one → IsSchema x → DirectSub V (.obj m) x
  | list {m k l x} : (k, .arr l) ∈ m → k ∈ V.list → x ∈ l → IsSchema x → DirectSub V (.obj m) x
  | map {m k n q x} : (k, .obj n) ∈ m → k ∈ V.map → (q, x) ∈ n → IsSchema x → DirectSub V (.obj m) x

/-- `x` is `s` or a subschema of `s` at any depth. -/
inductive Reach (V : Vocab) : Json → Json → Prop
  | self (s) : Reach V s s
  | step {s x y} : DirectSub V s x → Reach V x y → Reach V s y

/-- `P` holds for the schema and all subschemas. -/
def Everywhere (V : Vocab) (P : Json → Prop) (s : Json) : Prop := ∀ x, Reach V s x → P x

/-- A step from a schema to a direct subschema: the value of a keyword, an element of its array value, or
a member of its object value. -/
inductive Step
  | key (k : String)
  | idx (k : String) (i : Nat)
  | mem (k q : String)
  deriving DecidableEq

/-- `StepTo V s st x`: taking the step `st` from the schema `s` leads to the value `x`. -/
inductive StepTo (V : Vocab) : Json → Step → Json → Prop
  | key {m k x} : Obj.get m k = some x → k ∈ V.one → StepTo V (.obj m) (.key k) x
  | idx {m k l i x} : Obj.get m k = some (.arr l) → k ∈ V.list → l[i]? = some x →
      StepTo V (.obj m) (.idx k i) x
  | mem {m k n q x} : Obj.get m k = some (.obj n) → k ∈ V.map → Obj.get n q = some x →
      StepTo V (.obj m) (.mem k q) x

/-- `Locate V s p x`: following the steps `p` through subschemas of `s` leads to the schema `x`. -/
inductive Locate (V : Vocab) : Json → List Step → Json → Prop
  | here {s} : IsSchema s → Locate V s [] s
  | step {s st x p y} : StepTo V s st x → IsSchema x → Locate V x p y → Locate V s (st :: p) y

/-- The schema is an object with this keyword. -/
def HasKey (k : String) (s : Json) : Prop := ∃ m v, s = .obj m ∧ (k, v) ∈ m

end Verif.Spec
