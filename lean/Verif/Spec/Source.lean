import Verif.Spec.Item
import Verif.Spec.Deser

/-!
# Programs in source form

The types of a program as they are declared: standard types, and structs and enums with their attributes. What serde
makes of such a declaration is given by serde's own library (`serdeContainer` in `Verif.Item`), applied to the serde
attributes as they are written, without anything that schemars does. `shape` is the result in the form for which
`Verif.Spec.Serde` and `Verif.Spec.Deser` say what serde writes and reads.
-/

namespace Verif

/-- A declaration in the source. -/
inductive SrcDecl (τ σ : Type) where
  | std (s : Std σ)
  | item (i : SrcItem τ (SrcAttrs τ))

namespace Spec

variable {τ σ α : Type}

section
variable (T : τ → σ)

/-- A field as serde sees it. -/
def shapeField (f : SerdeField τ α) : Field σ where
  name := f.name
  ty := T f.original.ty
  flatten := f.flatten
  skipSer := f.skipSer
  skipDe := f.skipDe
  skipSerIf := f.skipSerIf.isSome
  hasDefault := !f.default.isNone

def shapeFields : SerdeFields τ α → Fields σ
  | .unit => .unit
  | .newtype f => .newtype (shapeField T f)
  | .tuple fs => .tuple (fs.map (shapeField T))
  | .struct fs => .struct (fs.map (shapeField T))

/-- A variant as serde sees it. -/
def shapeVariant (v : SerdeVariant τ α) : Variant σ where
  name := v.name
  fields := shapeFields T v.fields
  skipSer := v.skipSer
  skipDe := v.skipDe
  untagged := v.untagged

/-- The fields or variants as serde sees them. A struct with a tag is written like the only variant of an internally
tagged enum; for reading, the tag of a struct is ignored. -/
def shapeData (c : Contract) (a : SerdeContainer τ α) : DeriveData σ :=
  match a.data, a.tag, c with
  | .struct fields, .internal tag, .serialize =>
    .enum (.internal tag) [{ name := a.name, fields := shapeFields T fields }]
  | .struct fields, _, _ => .struct (shapeFields T fields)
  | .enum vs, tag, _ => .enum tag (vs.map (shapeVariant T))

/-- A container as serde sees it. -/
def shape (c : Contract) (a : SerdeContainer τ α) : Container σ where
  data := shapeData T c a
  denyUnknownFields := a.deny
  hasDefault := !a.default.isNone
  transparent := a.transparent.map (shapeField T)
  fromTy := (a.typeFrom.or a.typeTryFrom).map T
  intoTy := a.typeInto.map T

end

/-- What serde makes of a declaration: for writing (`serialize`) or reading (`deserialize`) its values. -/
def Seen (S : Syntax τ) (C : Cases) (T : τ → σ) (c : Contract) : SrcDecl τ σ → Decl σ → Prop
  | .std s, d => d = .std s
  | .item i, d => ∃ a, serdeContainer S C serdeOf c i = some a ∧ d = .derived (shape T c a)

/-- What schemars makes of a declaration. -/
def Derives {V : Type} (S : Syntax τ) (C : Cases) (M : Meaning τ σ) (N : Values τ V) : SrcDecl τ σ → Decl σ → Prop
  | .std s, d => d = .std s
  | .item i, d => ∃ x, deriveItem S C M N i = some x ∧ d = .derived x.container

/-- The words in schemars attributes that say something other than serde: serde's own, and those that replace the
schema of a type. -/
def disturbing : List String :=
  schemarsSupported ++ ["with", "schema_with", "serialize_with", "deserialize_with", "required",
    "_unstable_ref_variants"]

/-- Functions of the user that replace serde's. -/
def replacing : List String := ["with", "serialize_with", "deserialize_with"]

/-- The attributes leave it to serde how values are written and read. -/
structure Undisturbed (attrs : SrcAttrs τ) : Prop where
  schemars : has disturbing (schemarsOf attrs) = false
  serde : has replacing (serdeOf attrs) = false
  validate : ∀ i ∈ validateOf attrs, i.negated = false ∧ isNamed ["required"] i = false
  garde : has ["required"] (gardeOf attrs) = false

/-- All fields of a struct or variant. -/
def fieldList : SrcFields τ α → List (SrcField τ α)
  | .named l => l
  | .unnamed l => l
  | .unit => []

/-- All variants of an enum. -/
def variantList : SrcData τ α → List (SrcVariant τ α)
  | .enum vs => vs
  | .struct _ => []

/-- The attributes of a declaration, its variants and fields leave it to serde. -/
structure LeftToSerde (item : SrcItem τ (SrcAttrs τ)) : Prop where
  container : Undisturbed item.attrs
  fields : ∀ f ∈ srcFields item.data, Undisturbed f.attrs
  variants : ∀ v ∈ variantList item.data, Undisturbed v.attrs ∧ ∀ f ∈ fieldList v.fields, Undisturbed f.attrs

/-- A field of a `transparent` struct that is written is also read. -/
def SameWays (item : SrcItem τ (SrcAttrs τ)) : Prop :=
  has ["transparent"] (serdeOf item.attrs) = true → ∀ f ∈ srcFields item.data,
    has ["skip", "skip_serializing"] (serdeOf f.attrs) = has ["skip", "skip_deserializing", "default"] (serdeOf f.attrs)

/-- A struct is not tagged. -/
def Untagged (item : SrcItem τ (SrcAttrs τ)) : Prop :=
  variantList item.data = [] → has ["tag"] (serdeOf item.attrs) = false

end Spec

end Verif
