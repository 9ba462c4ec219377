import Verif.Private

/-!
# schemars_derive/src/attr/validation.rs: the statements generated for validation attributes

The derive macro collects statements that change the schema; a statement is modelled as the function it
computes. Simplifications: the expressions of the attributes are the values they evaluate to (a panic in them is
not modelled); an `inner(…)` without effect generates no statement in the crate and an identity here.
-/

namespace Verif

/-- schemars_derive/src/attr/parse_meta.rs:315-320 (`LengthOrRange`). -/
structure LengthOrRange where
  min : Option Json := none
  max : Option Json := none
  equal : Option Json := none
  deriving DecidableEq

/-- schemars_derive/src/attr/validation.rs:14-52 (`Format`). -/
inductive AttrFormat where
  | email | uri | ip | ipv4 | ipv6
  deriving DecidableEq

/-- schemars_derive/src/attr/validation.rs:34-42 (`schema_str`). -/
def AttrFormat.schemaStr : AttrFormat → String
  | .email => "email"
  | .uri => "uri"
  | .ip => "ip"
  | .ipv4 => "ipv4"
  | .ipv6 => "ipv6"

/-- schemars_derive/src/attr/validation.rs:55-65 (`ValidationAttrs`), without `required`. -/
inductive ValidationAttrs where
  | mk (length range : Option LengthOrRange) (pattern regex contains : Option String) (format : Option AttrFormat)
    (inner : Option ValidationAttrs)

/-- `ValidationAttrs::default()`. -/
def ValidationAttrs.noAttrs : ValidationAttrs := .mk none none none none none none none

/-- schemars_derive/src/attr/validation.rs:114-134 (`add_length_or_range`). -/
def lengthOrRangeMutators (value : LengthOrRange) (requiredType suffix : String) : List (Json → Json) :=
  ((value.min.or value.equal).elim [] fun min =>
    [fun s => insertValidation s requiredType ("min" ++ suffix) min]) ++
  ((value.max.or value.equal).elim [] fun max =>
    [fun s => insertValidation s requiredType ("max" ++ suffix) max])

/-- Runs the statements. -/
def runMutators (ms : List (Json → Json)) (s : Json) : Json := ms.foldl (fun s f => f s) s

/-- schemars_derive/src/attr/validation.rs:69-112 (`add_mutators`, `add_mutators2`). -/
def ValidationAttrs.mutators : ValidationAttrs → List (Json → Json)
  | .mk length range pattern regex contains format inner =>
    (length.elim [] fun l => lengthOrRangeMutators l "string" "Length" ++ lengthOrRangeMutators l "array" "Items") ++
    (range.elim [] fun r => lengthOrRangeMutators r "number" "imum") ++
    ((regex.or pattern).elim [] fun p => [fun s => insertValidation s "string" "pattern" (.str p)]) ++
    (contains.elim [] fun c => [fun s => mustContain s c]) ++
    (format.elim [] fun f => [fun s => Schema.put s "format" (.str f.schemaStr)]) ++
    (match inner with
      | some a => [fun s => applyInnerValidation s (runMutators a.mutators)]
      | none => [])

end Verif
