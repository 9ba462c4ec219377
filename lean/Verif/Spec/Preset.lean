import Verif.Json

/-!
# The provided settings

The versions of JSON Schema for which settings are provided, the URI under which their organisations publish them, and
the place where documents keep definitions.
-/

namespace Verif.Spec

/-- A version for which settings are provided. -/
inductive Version where
  | draft07 | draft2019 | draft2020 | openapi3
  deriving DecidableEq

namespace Version

/-- The meta-schema. -/
def uri : Version → String
  | .draft07 => "http://json-schema.org/draft-07/schema#"
  | .draft2019 => "https://json-schema.org/draft/2019-09/schema"
  | .draft2020 => "https://json-schema.org/draft/2020-12/schema"
  | .openapi3 => "https://spec.openapis.org/oas/3.0/schema/2024-10-18#/definitions/Schema"

/-- Where documents have definitions. -/
def place : Version → List String
  | .draft07 => ["definitions"]
  | .draft2019 | .draft2020 => ["$defs"]
  | .openapi3 => ["components", "schemas"]

/-- The keyword with an example, and its value. -/
def exampleEntry : Version → Json → String × Json
  | .openapi3, j => ("example", j)
  | _, j => ("examples", .arr [j])

end Version

/-- Keywords whose value is not a schema and that have one meaning in all versions that know them. -/
def plainKeywords : List String :=
  ["$id", "$comment", "description", "default", "readOnly", "writeOnly", "format", "multipleOf", "maximum",
    "exclusiveMaximum", "minimum", "exclusiveMinimum", "maxLength", "minLength", "pattern", "maxItems", "minItems",
    "uniqueItems", "maxProperties", "minProperties", "required", "deprecated"]

end Verif.Spec
