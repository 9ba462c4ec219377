import Verif.Props.AcceptsPipelines

/-!
# C45 for options of types without values
-/

namespace Verif
open Spec

/-- The types of an example: `()`, a type without values and an option of it. -/
inductive NeverTy where
  | unit | never | option
  deriving DecidableEq

namespace NeverTy

def info : TypeInfo NeverTy where
  unit := unit
  isOption t := t = option
  base t := if t = option then never else t
  inline _ := true

/-- `/// Never.` `#[schemars(inline)] enum Never {}` and `Option<Never>`. -/
def decl : NeverTy → Decl NeverTy
  | unit => .std (.simple "null")
  | never => .derived { data := .enum .external [], common := { doc := some "Never." } }
  | option => .std (.option never)

def types : NeverTy → TypeDef NeverTy
  | unit => ⟨"null", "null", true, bodyOf info (decl unit)⟩
  | never => ⟨"ex::Never", "Never", true, bodyOf info (decl never)⟩
  | option => ⟨"Option<ex::Never>", "Nullable_Never", true, bodyOf info (decl option)⟩

theorem declared : Declared types decl info where
  body t := by cases t <;> rfl
  ids t t' h := by
    cases t <;> cases t' <;> first | rfl | (exact absurd h (by decide))
  unit := rfl
  unitInline := rfl
  option t h := by cases t <;> first | exact absurd h (by decide) | exact ⟨never, rfl, rfl⟩
  base t h := by cases t <;> first | exact absurd h (by decide) | rfl

/-- The root schema for `Option<Never>`. -/
def schema : Json := .obj [("$schema", .str meta2020), ("description", .str "Never."), ("not", .obj []),
  ("title", .str "Nullable_Never")]

theorem generates : ∃ g', rootSchemaFor types (run types 10) option
    (Gen.new { Settings.draft2020 with contract := .serialize }) = some (schema, g') ∧ g'.defs = [] :=
  generated (by decide +kernel)

theorem unvalidated (t : NeverTy) : ∀ f ∈ declFields (decl t), f.validation = .noAttrs := by
  cases t <;> simp [decl, declFields, allFields]

end NeverTy

open NeverTy in
/-- C45 fails for an option of an inlined enum without variants and with a doc comment: serde writes null, but the schema
accepts nothing, since `false` with a description has become an object with `not`, to which null is not added. -/
theorem C45_never : ¬ C45_Full := by
  intro hC
  obtain ⟨g', h, -⟩ := generates
  obtain ⟨f, hf⟩ := resolves_plain (D := draft2020) (env := digitEnv) (doc := schema) (by decide)
  have h1 := hC NeverTy _ _ _ _ _ 64 10 .option _ g' (modern_digitEnv f) declared h hf .null
    (serialized_obeys unvalidated ⟨1, .null, .inl rfl⟩)
  exact absurd (show false = true from h1) (by decide)

/-- Without the doc comment the schema is that of null. -/
example : allowNull (.bool false) = nullSchema := rfl

end Verif
