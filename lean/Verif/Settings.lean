import Verif.Generator
import Verif.Infer

/-!
# Settings and the macros for root schemas

`schema_for!` and `schema_for_value!` use a new generator with the default settings.
Simplification: the `unwrap` of `schema_for_value!` is the `none` of the result.
-/

namespace Verif

namespace Settings

/-- schemars/src/generate.rs:66-73. -/
def default : Settings := draft2020

/-- schemars/src/generate.rs:174-179. -/
def forDeserialize (st : Settings) : Settings := { st with contract := .deserialize }

/-- schemars/src/generate.rs:181-186. -/
def forSerialize (st : Settings) : Settings := { st with contract := .serialize }

/-- schemars/src/generate.rs:160-166. -/
def withTransform (st : Settings) (T : Json → Json) : Settings := { st with transforms := st.transforms ++ [T] }

end Settings

/-- schemars/src/macros.rs:41-46, with schemars/src/generate.rs:245-249. -/
def schemaForType {τ : Type} (Γ : τ → TypeDef τ) (R : τ → Gen τ → Option (Json × Gen τ)) (t : τ) : Option Json :=
  intoRootSchemaFor Γ R t (Gen.new .default)

/-- schemars/src/macros.rs:75-82. -/
def schemaForValue (odd : Val → Option (List Char)) (v : Val) : Option Json :=
  intoRootSchemaForValue odd (Gen.new (τ := Unit) .default) v

end Verif
