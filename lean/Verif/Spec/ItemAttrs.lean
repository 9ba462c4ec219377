import Verif.Spec.Settled
import Verif.Spec.Annotations
import Verif.Spec.Serde

/-!
# What the annotations in a declaration mean

The other part of the attributes of a declaration: those that do not concern serde. `Verif.Spec.AttrMeta` says which
item counts; here it is said what the result is for the fields, variants and the container.
-/

namespace Verif.Spec

variable {τ σ : Type}

/-- `M` evaluates `concat!` of literals. -/
def Concats (M : Meaning τ σ) : Prop := ∀ l s, concatText l = some s → M.concat l = s

/-- The annotations that these items and the doc comments stand for. -/
structure CommonSays (M : Meaning τ σ) (attrs : SrcAttrs τ) (l : List (MetaItem τ)) (c : CommonAttrs) : Prop where
  title : ∃ x, FirstOf ["title"] HasValue l x ∧ c.title = x.map M.text
  description : ∃ x, FirstOf ["description"] HasValue l x ∧ c.description = x.map M.text
  examples : c.examples = (l.filterMap (valueOf "example")).map M.json
  extensions : c.extensions = (l.flatMap extensionsOf).map fun e => (e.1, M.extension e.2)
  transforms : c.transforms = ((l.filterMap (valueOf "transform")).filter fun x => !isLiteral x).map M.transform
  deprecated : c.deprecated = true ↔ Attr.other .deprecated ∈ attrs
  doc : Concats M → ∀ lines, docsOf attrs = lines.map .str →
    c.doc = if lines = [] then none else some (String.intercalate "\n" (lines.map docText))

/-- What doc comments and the items of the other attributes say about a keyword in the schema. -/
inductive SourceSays (M : Meaning τ σ) (attrs : SrcAttrs τ) (l : List (MetaItem τ)) : String → Json → Prop
  | extend {a k x b} : l.flatMap extensionsOf = a ++ (k, x) :: b → (∀ e ∈ b, e.1 ≠ k) →
    SourceSays M attrs l k (M.extension x)
  | text {k x} : k = "title" ∨ k = "description" → (∀ e ∈ l.flatMap extensionsOf, e.1 ≠ k) →
    FirstOf [k] HasValue l (some x) → M.text x ≠ "" → SourceSays M attrs l k (.str (M.text x))
  | docTitle {lines : List String} {t d : List Char} : (∀ e ∈ l.flatMap extensionsOf, e.1 ≠ "title") →
    l.any (setsOne ["title"]) = false → docsOf attrs = lines.map .str → Splits (String.intercalate "\n" (lines.map docText)).toList t d → t ≠ [] →
    SourceSays M attrs l "title" (.str (String.ofList t))
  | docDescription {lines : List String} {t d : List Char} : (∀ e ∈ l.flatMap extensionsOf, e.1 ≠ "description") →
    l.any (setsOne ["description"]) = false → docsOf attrs = lines.map .str →
    Splits (String.intercalate "\n" (lines.map docText)).toList t d → d ≠ [] →
    SourceSays M attrs l "description" (.str (String.ofList d))
  | deprecated : (∀ e ∈ l.flatMap extensionsOf, e.1 ≠ "deprecated") → Attr.other .deprecated ∈ attrs →
    SourceSays M attrs l "deprecated" (.bool true)
  | examples : (∀ e ∈ l.flatMap extensionsOf, e.1 ≠ "examples") → l.filterMap (valueOf "example") ≠ [] →
    SourceSays M attrs l "examples" (.arr ((l.filterMap (valueOf "example")).filterMap M.json))

/-- The type or function that is given by `with` or `schema_with`. -/
def chosen (M : Meaning τ σ) : WithMeta τ → σ
  | .type t => M.type t
  | .function f => M.function f

/-- The format that an attribute is for. -/
def formatFor (f : FormatMeta) : AttrFormat :=
  match f with
  | .email => .email
  | .uri => .uri
  | .ip => .ip
  | .ipv4 => .ipv4
  | .ipv6 => .ipv6

/-- The bounds in `length(…)` or `range(…)`. -/
def Bounds (M : Meaning τ σ) : Option (LengthMeta τ) → Option LengthOrRange → Prop
  | none, none => True
  | some l, some r => r.min = l.min.map M.number ∧ r.max = l.max.map M.number ∧ r.equal = l.equal.map M.number
  | _, _ => False

/-- The values of validation attributes. -/
inductive Evaluates (M : Meaning τ σ) : ValidationMeta τ → ValidationAttrs → Prop
  | mk {m : ValidationMeta τ} {length range : Option LengthOrRange} {inner : Option ValidationAttrs} :
    Bounds M m.slots.length length → Bounds M m.slots.range range →
    (m.inner = none ↔ inner = none) → (∀ x y, m.inner = some x → inner = some y → Evaluates M x y) →
    Evaluates M m (.mk length range (m.slots.pattern.map M.text) (m.slots.regex.map M.text)
      (m.slots.contains.map M.text) (m.slots.format.map formatFor) inner)

/-- What the attributes of a field say about its schema. -/
structure FieldSays (ps : Parsers τ) (M : Meaning τ σ) (s : SrcField τ (SrcAttrs τ)) (f : Field σ) : Prop where
  common : CommonSays M s.attrs (schemarsOf s.attrs ++ effective s.attrs) f.common
  validation : ∃ m, ValidationReads ps (schemarsOf s.attrs) (validateOf s.attrs) (gardeOf s.attrs) m ∧
    f.required = m.slots.required ∧ Evaluates M m f.validation
  ty : ∃ w, FirstAmong [(schemarsOf s.attrs, ["with", "schema_with"], WithSays ps),
    (effective s.attrs, ["with"], WithSays ps)] w ∧ f.ty = w.elim (M.type s.ty) (chosen M)

/-- What the attributes of a variant say about its schema. -/
structure VariantSays (ps : Parsers τ) (M : Meaning τ σ) (enumIdent : String) (refs : Bool)
    (s : SrcVariant τ (SrcAttrs τ)) (v : Variant σ) : Prop where
  common : CommonSays M s.attrs (schemarsOf s.attrs ++ effective s.attrs) v.common
  withTy : ∃ w, FirstAmong [(schemarsOf s.attrs, ["with", "schema_with"], WithSays ps),
    (effective s.attrs, ["with"], WithSays ps)] w ∧ v.withTy = w.map (chosen M)
  refTy : v.refTy = if refs then some (M.refVariant enumIdent s.ident) else none
  fields : List.Forall₂ (FieldSays ps M) (fieldList s.fields) (allFields v.fields)

/-- The fields and variants. -/
def DataSays (ps : Parsers τ) (M : Meaning τ σ) (ident : String) (refs : Bool) :
    SrcData τ (SrcAttrs τ) → DeriveData σ → Prop
  | .struct s, .struct fs => List.Forall₂ (FieldSays ps M) (fieldList s) (allFields fs)
  | .enum s, .enum _ vs => List.Forall₂ (VariantSays ps M ident refs) s vs
  | _, _ => False

/-- What the attributes of a struct or enum say about its schema. -/
structure ItemSays (S : Syntax τ) (M : Meaning τ σ) (item : SrcItem τ (SrcAttrs τ)) (d : DeriveInput σ) : Prop where
  common : CommonSays M item.attrs (schemarsOf item.attrs ++ effective item.attrs) d.container.common
  data : DataSays S.toParsers M item.ident ((schemarsOf item.attrs).any (setsOne ["_unstable_ref_variants"])) item.data
    d.container.data
  withTy : ∃ w, FirstAmong [(schemarsOf item.attrs, ["with", "schema_with"], WithSays S.toParsers)] w ∧
    d.container.withTy = w.map (chosen M) ∧ (d.withFunction = true ↔ ∃ f, w = some (.function f))
  inline : d.inline = (schemarsOf item.attrs ++ effective item.attrs).any (setsOne ["inline"])
  schemaId : d.schemaId = M.modulePath ++ "::" ++ itemName S effective schemarsOf id item
  transparent : ∀ f, d.container.transparent = some f → ∃ s ∈ srcFields item.data, FieldSays S.toParsers M s f ∧
    d.fieldWith = ((schemarsOf s.attrs).any (setsOne ["with", "schema_with"]) ||
      (effective s.attrs).any (setsOne ["with"]))

end Verif.Spec
