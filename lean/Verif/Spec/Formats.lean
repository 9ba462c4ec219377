import Verif.Spec.Subschema

/-!
# Specification: which `format` values are defined where

The format lists are those of JSON Schema draft-07 (validation, section 7.3) and of 2019-09 and 2020-12
(validation, section 7.3).
-/

namespace Verif.Spec

/-- The formats that draft-07 defines. -/
def formats07 : List String :=
  ["date-time", "date", "time", "email", "idn-email", "hostname", "idn-hostname", "ipv4", "ipv6", "uri",
    "uri-reference", "iri", "iri-reference", "uri-template", "json-pointer", "relative-json-pointer", "regex"]

/-- The formats that 2019-09 and 2020-12 define. -/
def formats2019 : List String := "duration" :: "uuid" :: formats07

/-- What an object says about its meta-schema. -/
inductive Decl
  /-- no `$schema` -/
  | silent
  /-- a `$schema` that is none of the three known meta-schemas -/
  | unknown
  /-- a known meta-schema with its formats -/
  | known (formats : List String)
  deriving DecidableEq

/-- What an object says about its meta-schema. -/
def decl (s : Json) : Decl :=
  match s with
  | .obj m =>
    match Obj.get m "$schema" with
    | none => .silent
    | some v =>
      if v = .str "http://json-schema.org/draft-07/schema#" then .known formats07
      else if v = .str "https://json-schema.org/draft/2019-09/schema" then .known formats2019
      else if v = .str "https://json-schema.org/draft/2020-12/schema" then .known formats2019
      else .unknown
  | _ => .silent

/-- `Trail V s p cs x`: following `p` from `s` leads to `x`; `cs` are the schemas on the way, from `s` to `x`
inclusive. -/
inductive Trail (V : Vocab) : Json → List Step → List Json → Json → Prop
  | here {s} : IsSchema s → Trail V s [] [s] s
  | step {s st x p cs y} : StepTo V s st x → IsSchema x → Trail V x p cs y → Trail V s (st :: p) (s :: cs) y

/-- Some enclosing schema declares an unknown meta-schema. -/
def Blocked (cs : List Json) : Prop := ∃ c ∈ cs, decl c = .unknown

/-- The formats of the nearest enclosing known meta-schema; none if there is no such meta-schema. -/
def inForce : List Json → List String
  | [] => []
  | c :: cs => (cs.foldl (fun acc c => match decl c with | .known fs => fs | _ => acc)
      (match decl c with | .known fs => fs | _ => []))

/-- The object without its `format` if that is a string that is not among `allowed`. -/
def withFormats (allowed : List String) (m : List (String × Json)) : List (String × Json) :=
  match Obj.get m "format" with
  | some (.str f) => if f ∈ allowed then m else m.filter fun e => e.1 ≠ "format"
  | _ => m

end Verif.Spec
