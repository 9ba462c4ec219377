import Verif.Impls
import Verif.Derive

/-!
# schemars_derive/src/lib.rs: derived implementations that delegate

The derive macro gives a container with `with`, and a `transparent` struct, the implementation of another type, if
no attribute changes the schema. Here a program is the source of each of its implementations (`Source`), and
`Implements` says which implementations the crate and the macro make of it.

Simplifications: the functions of `schema_with` are types with that body (as in `Container.withTy`), told apart
only by the flags below; hand-written implementations and those of the crate are arbitrary bodies.
-/

namespace Verif

variable {τ σ : Type}

/-- schemars_derive/src/attr/validation.rs:239-253 (`is_default`), without `required`. -/
def ValidationAttrs.isDefault : ValidationAttrs → Bool
  | .mk length range pattern regex contains format inner =>
    length.isNone && range.isNone && pattern.isNone && regex.isNone && contains.isNone && format.isNone &&
      inner.isNone

/-- What the derive macro works on: schemars_derive/src/ast/mod.rs:11-23 (`Container`), with the strings that the
generated `schema_id` and `schema_name` return (schemars_derive/src/lib.rs:94-141). -/
structure DeriveInput (τ : Type) where
  container : Container τ
  schemaId : String
  schemaName : String
  /-- the attribute `inline` -/
  inline : Bool := false
  /-- the container has `schema_with`, not `with` -/
  withFunction : Bool := false
  /-- the field of the `transparent` struct has `with` or `schema_with` -/
  fieldWith : Bool := false

/-- schemars_derive/src/attr/mod.rs:292-300 (`FieldAttrs::is_default`). -/
def Field.isDefault (f : Field τ) (hasWith : Bool) : Bool :=
  f.common.isDefault && (f.validation.isDefault && !f.required) && !hasWith

/-- schemars_derive/src/lib.rs:181-199 (`get_transparent_type`). -/
def DeriveInput.transparentType (i : DeriveInput τ) : Option τ :=
  let withType := if !i.withFunction && i.container.common.isDefault then i.container.withTy else none
  withType.or (i.container.transparent.bind fun f =>
    if i.container.common.isDefault && f.isDefault i.fieldWith then some f.ty else none)

/-- The source of an implementation. -/
inductive Source (τ : Type) where
  | derived (i : DeriveInput τ)
  /-- The implementation by `forward_impl!` (schemars/src/json_schema_impls/mod.rs:9-42), as for `Box`, `Rc`, `Cow`
  and references (schemars/src/json_schema_impls/wrapper.rs:4-28). -/
  | forwarded (u : τ)
  /-- An implementation of the crate or of the user. `isOption` is `_schemars_private_is_option`; `nonOptional`
  is the type to which `_schemars_private_non_optional_json_schema` is passed on, if any
  (schemars/src/json_schema_impls/core.rs:27-33). -/
  | written (d : TypeDef τ) (isOption : Bool) (nonOptional : Option τ)

/-- The type to which everything is delegated, if any. -/
def Source.target : Source τ → Option τ
  | .derived i => i.transparentType
  | .forwarded u => some u
  | .written _ _ _ => none

/-- schemars_derive/src/lib.rs:63-92 and schemars/src/json_schema_impls/mod.rs:11-37: the implementation that
delegates to `u`. -/
def delegate (Γ : τ → TypeDef τ) (u : τ) : TypeDef τ :=
  { schemaId := (Γ u).schemaId
    schemaName := (Γ u).schemaName
    inlineSchema := (Γ u).inlineSchema
    body := .direct u .ret }

/-- The implementation and the private answers of a type, made from its source: schemars_derive/src/lib.rs:47-179
and the default methods of schemars/src/lib.rs:176-190. -/
def Source.Made (Γ : τ → TypeDef τ) (I : TypeInfo τ) (t : τ) : Source τ → Prop
  | .derived i => match i.transparentType with
    | some u => Γ t = delegate Γ u ∧ I.isOption t = I.isOption u ∧ I.base t = I.base u
    | none => Γ t = { schemaId := i.schemaId, schemaName := i.schemaName, inlineSchema := i.inline
                      body := containerProg I i.container } ∧ I.isOption t = false ∧ I.base t = t
  | .forwarded u => Γ t = delegate Γ u ∧ I.isOption t = I.isOption u ∧ I.base t = I.base u
  | .written d isOption nonOptional =>
    Γ t = d ∧ I.isOption t = isOption ∧ I.base t = nonOptional.elim t I.base

/-- The implementations `Γ` with the answers `I` are those of the program `src`. -/
structure Implements (src : τ → Source τ) (Γ : τ → TypeDef τ) (I : TypeInfo τ) : Prop where
  made : ∀ t, (src t).Made Γ I t
  inline : ∀ t, I.inline t = (Γ t).inlineSchema

end Verif
