import Verif.Generator

/-!
# What a schema is without a generator

`Outcome` says which schema a body returns and which types it refers to, without any state: a subschema that is not
inlined is the reference with the name of its type, whatever happened before. `Needed` follows the references.
-/

namespace Verif.Spec

variable {τ : Type} (Γ : τ → TypeDef τ) (st : Settings) (top : Option String)

/-- `Outcome Γ st top p s l`: below the root type with the id `top` (if any), `p` returns `s` and refers to the types
`l`. A body that looks at the definitions has an outcome only if it is the same for all definitions. A body that asks for
a root schema has none. -/
inductive Outcome : Prog τ → Json → List τ → Prop
  | ret (s : Json) : Outcome (.ret s) s []
  | ref {t k s l} : (Γ t).inlineSchema = false → top ≠ some (Γ t).schemaId →
      Outcome (k (Schema.newRef (refFor st.definitionsPath.toList (Γ t).schemaName))) s l → Outcome (.sub t k) s (t :: l)
  | self {t k s l} : (Γ t).inlineSchema = false → top = some (Γ t).schemaId → Outcome (k (Schema.newRef "#")) s l →
      Outcome (.sub t k) s l
  | inlined {t k r a s l} : (Γ t).inlineSchema = true → Outcome (Γ t).body r a → Outcome (k r) s l →
      Outcome (.sub t k) s (a ++ l)
  | direct {t k r a s l} : Outcome (Γ t).body r a → Outcome (k r) s l → Outcome (.direct t k) s (a ++ l)
  | settings {k s l} : Outcome (k st) s l → Outcome (.askSettings k) s l
  | defs {k s l} : (∀ d, Outcome (k d) s l) → Outcome (.askDefs k) s l

/-- The types that `p` refers to, themselves or through the schemas of others. -/
inductive Needed (p : Prog τ) : τ → Prop
  | asked {s l u} : Outcome Γ st top p s l → u ∈ l → Needed p u
  | used {t s l u} : Needed p t → Outcome Γ st top (Γ t).body s l → u ∈ l → Needed p u

/-- Names and ids tell the types apart: types with one name have one id, and types with one id have one name and one
schema. -/
structure Apart : Prop where
  names : ∀ t u, (Γ t).schemaName = (Γ u).schemaName → (Γ t).schemaId = (Γ u).schemaId
  ids : ∀ t u, (Γ t).schemaId = (Γ u).schemaId → (Γ t).schemaName = (Γ u).schemaName ∧
    ∀ s l, Outcome Γ st top (Γ t).body s l → Outcome Γ st top (Γ u).body s l

/-- The generator after it was asked for the types `ts` (the last one first), and nothing else. -/
inductive AskedFor : List τ → Gen τ → Prop
  | new : AskedFor [] (Gen.new st)
  | call {ts g n t s g'} : AskedFor ts g → subschemaFor Γ (run Γ n) t g = some (s, g') → AskedFor (t :: ts) g'

end Verif.Spec
