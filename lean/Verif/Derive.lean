import Verif.ValidationAttrs
import Verif.Rustdoc

/-!
# schemars_derive: the `json_schema` body generated for a container

A container with its attributes is a value of `Container`; the generated body is a program (`Prog`). Types are
values of an arbitrary type `τ`. Simplifications:
- A `with`/`schema_with` attribute is resolved: the type of a field is the type whose schema is used
  (`type_for_schema`). The wrapper type for a function is a type with that function as body.
- `SerdeDefault` is reduced to whether there is a default, and to the JSON value of the default if there is one
  to show.
- Expressions in attributes are the values they evaluate to. Generics are not modelled: a type is a closed type.
- `ref_variants`: the wrapper type of a variant is given in the variant.
-/

namespace Verif

section
variable {τ : Type}

/-- Continues a program with its result. -/
def Prog.bind : Prog τ → (Json → Prog τ) → Prog τ
  | .ret s, k => k s
  | .sub t f, k => .sub t fun s => (f s).bind k
  | .direct t f, k => .direct t fun s => (f s).bind k
  | .root t f, k => .root t fun s => (f s).bind k
  | .askSettings f, k => .askSettings fun st => (f st).bind k
  | .askDefs f, k => .askDefs fun d => (f d).bind k

/-- Changes the result of a program. -/
def Prog.map (p : Prog τ) (f : Json → Json) : Prog τ := p.bind fun s => .ret (f s)

/-- What the generated code asks about types: `()`, `_schemars_private_is_option`, the type whose `json_schema` is
called by `_schemars_private_non_optional_json_schema` (the innermost type that is not an `Option`), and
`inline_schema`. -/
structure TypeInfo (τ : Type) where
  unit : τ
  isOption : τ → Bool
  base : τ → τ
  inline : τ → Bool

/-- schemars_derive/src/attr/mod.rs:25-34 (`CommonAttrs`). An example is `none` if it does not serialize. -/
structure CommonAttrs where
  doc : Option String := none
  deprecated : Bool := false
  title : Option String := none
  description : Option String := none
  examples : List (Option Json) := []
  extensions : List (String × Json) := []
  transforms : List (Json → Json) := []

namespace CommonAttrs

/-- schemars_derive/src/attr/mod.rs:167-180 (`is_default`). -/
def isDefault (a : CommonAttrs) : Bool :=
  a.title.isNone && a.description.isNone && a.doc.isNone && !a.deprecated && a.examples.isEmpty &&
    a.extensions.isEmpty && a.transforms.isEmpty

/-- `get_title_and_description(doc)` on strings. -/
def splitDoc (doc : String) : String × String :=
  match getTitleAndDescription doc.toList with
  | some (t, d) => (String.ofList t, String.ofList d)
  | none => ("", "")

/-- The title of the schema: schemars_derive/src/attr/mod.rs:183-191. -/
def effectiveTitle (a : CommonAttrs) : Option String := a.title.or (a.doc.map fun d => (splitDoc d).1)

/-- The description of the schema: schemars_derive/src/attr/mod.rs:184-198. -/
def effectiveDescription (a : CommonAttrs) : Option String := a.description.or (a.doc.map fun d => (splitDoc d).2)

/-- schemars_derive/src/attr/mod.rs:182-238 (`add_mutators`). -/
def mutators (a : CommonAttrs) : List (Json → Json) :=
  (a.effectiveTitle.elim [] fun t => [fun s => insertMetadataIfNonempty s "title" t]) ++
  (a.effectiveDescription.elim [] fun d => [fun s => insertMetadataIfNonempty s "description" d]) ++
  (if a.deprecated then [fun s => Schema.put s "deprecated" (.bool true)] else []) ++
  (if a.examples.isEmpty then [] else [fun s => Schema.put s "examples" (.arr (a.examples.filterMap id))]) ++
  (a.extensions.map fun e s => Schema.put s e.1 e.2) ++
  a.transforms

end CommonAttrs

/-- `serde_derive_internals::attr::Name`, as used by schemars_derive/src/ast/mod.rs:135-154 (`Name`). -/
structure SerdeName where
  ser : String
  de : String

/-- The name under the contract: schemars_derive/src/ast/mod.rs:137-154. -/
def SerdeName.get (n : SerdeName) : Contract → String
  | .serialize => n.ser
  | .deserialize => n.de

/-- schemars_derive/src/ast/mod.rs:156-175 (`with_contract_check`): whether the action is done. -/
def contractCheck (skipDe skipSer : Bool) (c : Contract) : Bool :=
  match skipDe, skipSer with
  | true, true => false
  | true, false => c == .serialize
  | false, true => c == .deserialize
  | false, false => true

/-- schemars_derive/src/ast/mod.rs:39-45 (`Field`) with its attributes. -/
structure Field (τ : Type) where
  name : SerdeName
  /-- the type whose schema is used -/
  ty : τ
  flatten : Bool := false
  skipSer : Bool := false
  skipDe : Bool := false
  skipSerIf : Bool := false
  /-- the field has a `default` attribute -/
  hasDefault : Bool := false
  /-- the default value (of the field or its container), unless it is skipped or not serializable -/
  defaultValue : Option Json := none
  required : Bool := false
  common : CommonAttrs := {}
  validation : ValidationAttrs := .noAttrs

/-- schemars_derive/src/ast/mod.rs:110-124 (`Field::add_mutators`). -/
def Field.mutators (f : Field τ) : List (Json → Json) :=
  f.common.mutators ++ f.validation.mutators ++
  (if f.skipDe then [fun s => Schema.put s "readOnly" (.bool true)] else []) ++
  (if f.skipSer then [fun s => Schema.put s "writeOnly" (.bool true)] else [])

/-- schemars_derive/src/ast/mod.rs:126-132 (`with_contract_check`). -/
def Field.included (f : Field τ) (c : Contract) : Bool := contractCheck f.skipDe f.skipSer c

/-- `serde_derive_internals::ast::Style`, with the fields. -/
inductive Fields (τ : Type) where
  | unit
  | newtype (f : Field τ)
  | tuple (fs : List (Field τ))
  | struct (fs : List (Field τ))

/-- schemars_derive/src/ast/mod.rs:30-37 (`Variant`) with its attributes. -/
structure Variant (τ : Type) where
  name : SerdeName
  fields : Fields τ
  skipSer : Bool := false
  skipDe : Bool := false
  untagged : Bool := false
  withTy : Option τ := none
  /-- the type made for the variant, if the enum has `ref_variants` -/
  refTy : Option τ := none
  common : CommonAttrs := {}

/-- schemars_derive/src/ast/mod.rs:88-90 (`is_unit`). -/
def Variant.isUnit (v : Variant τ) : Bool :=
  match v.fields with
  | .unit => true
  | _ => false

/-- schemars_derive/src/ast/mod.rs:96-102 (`with_contract_check`). -/
def Variant.included (v : Variant τ) (c : Contract) : Bool := contractCheck v.skipDe v.skipSer c

/-- `serde_derive_internals::attr::TagType`. -/
inductive TagType where
  | external
  | internal (tag : String)
  | adjacent (tag content : String)
  | none

/-- schemars_derive/src/ast/mod.rs:25-28 (`Data`). -/
inductive DeriveData (τ : Type) where
  | struct (fields : Fields τ)
  | enum (tag : TagType) (variants : List (Variant τ))

/-- schemars_derive/src/ast/mod.rs:11-23 (`Container`) with the attributes that matter for the body. -/
structure Container (τ : Type) where
  data : DeriveData τ
  denyUnknownFields : Bool := false
  hasDefault : Bool := false
  withTy : Option τ := none
  /-- the field of a `transparent` struct -/
  transparent : Option (Field τ) := none
  fromTy : Option τ := none
  intoTy : Option τ := none
  common : CommonAttrs := {}

end

section
variable {τ : Type} (I : TypeInfo τ)

/-- schemars_derive/src/schema_exprs.rs:172-199 (`expr_for_field`). -/
def fieldProg (f : Field τ) (internalNewtype : Bool) : Prog τ :=
  (if f.required then .direct (I.base f.ty) .ret
    else if internalNewtype then internalNewtypeProg f.ty (I.inline f.ty) .ret
    else .sub f.ty .ret : Prog τ).map (runMutators f.mutators)

/-- Runs the included programs in order and collects their results. -/
def collect : List ((Contract → Bool) × Prog τ) → (List Json → Prog τ) → Prog τ
  | [], k => k []
  | (included, p) :: r, k => .askSettings fun st =>
    if included st.contract then p.bind fun s => collect r fun l => k (s :: l) else collect r k

/-- The schema built in schemars_derive/src/schema_exprs.rs:656-671. -/
def tupleStructSchema (items : List Json) : Json :=
  mkObj (("type", .str "array") ::
    (if items.isEmpty then [] else [("prefixItems", .arr items), ("minItems", .num (.int items.length))]) ++
    [("maxItems", .num (.int items.length))])

/-- schemars_derive/src/schema_exprs.rs:641-672 (`expr_for_tuple_struct`). -/
def tupleStructProg (fs : List (Field τ)) : Prog τ :=
  collect (fs.map fun f => (f.included, fieldProg I f false)) fun items => .ret (tupleStructSchema items)

/-- schemars_derive/src/schema_exprs.rs:766-818 (`field_default_expr`) and 707-712. -/
def insertDefault (containerDefault : Bool) (f : Field τ) (s : Json) : Json :=
  if f.skipSer || (!f.hasDefault && !containerDefault) then s
  else match f.defaultValue with
    | some d => Schema.put s "default" d
    | none => s

/-- schemars_derive/src/schema_exprs.rs:721-735: whether the field is optional. -/
def fieldOptional (containerDefault : Bool) (f : Field τ) (c : Contract) : Bool :=
  let hasDefault := containerDefault || f.hasDefault
  if f.skipSerIf && hasDefault then true
  else if !f.skipSerIf && !hasDefault && !f.required then c == .deserialize && I.isOption f.ty
  else if c == .deserialize then hasDefault || (!f.required && I.isOption f.ty)
  else f.skipSerIf

/-- schemars_derive/src/schema_exprs.rs:687-747: the statement for a field. -/
def structFieldProg (containerDefault : Bool) (f : Field τ) (s : Json) : Prog τ :=
  .askSettings fun st =>
    if f.included st.contract then
      if f.flatten then
        flattenProg (I.base f.ty) (I.isOption f.ty) f.required fun o => .ret (Verif.flatten s o)
      else
        (fieldProg I f false).bind fun fs =>
          .ret (insertObjectProperty s (f.name.get st.contract) (fieldOptional I containerDefault f st.contract)
            (insertDefault containerDefault f fs))
    else .ret s

/-- The statements for the fields. -/
def structFieldsProg (containerDefault : Bool) : List (Field τ) → Json → Prog τ
  | [], s => .ret s
  | f :: r, s => (structFieldProg I containerDefault f s).bind (structFieldsProg containerDefault r)

/-- schemars_derive/src/schema_exprs.rs:674-764 (`expr_for_struct`). -/
def structProg (fs : List (Field τ)) (containerDefault deny : Bool) : Prog τ :=
  structFieldsProg I containerDefault fs
    (mkObj (("type", .str "object") :: if deny then [("additionalProperties", .bool false)] else []))

/-- schemars_derive/src/schema_exprs.rs:557-599 (`expr_for_untagged_enum_variant`). -/
def untaggedVariantProg (v : Variant τ) (deny actuallyUntagged : Bool) : Prog τ :=
  let p : Prog τ := match v.withTy with
    | some t => .sub t .ret
    | none => match v.fields with
      | .unit => .sub I.unit .ret
      | .newtype f => fieldProg I f false
      | .tuple fs => tupleStructProg I fs
      | .struct fs => structProg I fs false deny
  if actuallyUntagged then
    p.bind fun s => .askSettings fun st =>
      .ret (runMutators v.common.mutators
        (if v.common.title.isNone && st.untaggedEnumVariantTitles then
          Schema.put s "title" (.str (v.name.get st.contract)) else s))
  else p

/-- schemars_derive/src/schema_exprs.rs:601-628 (`expr_for_internal_tagged_enum_variant`). -/
def internalVariantProg (v : Variant τ) (deny : Bool) : Prog τ :=
  match v.withTy with
  | some t => .direct t .ret
  | none => match v.fields with
    | .unit => .sub I.unit .ret
    | .newtype f => fieldProg I f true
    | .tuple fs => tupleStructProg I fs
    | .struct fs => structProg I fs false deny

/-- schemars_derive/src/schema_exprs.rs:279-281: variants that are listed by name. -/
def Variant.listed (v : Variant τ) : Bool :=
  v.isUnit && (v.common.isDefault && v.withTy.isNone) && !v.untagged && v.refTy.isNone

/-- schemars_derive/src/schema_exprs.rs:288-301: the schema of the variants listed by name. -/
def unitVariantsSchema (names : List String) : Json :=
  mkObj [("type", .str "string"), ("enum", .arr (names.map .str))]

/-- schemars_derive/src/schema_exprs.rs:282-301, as a program. -/
def unitVariantsProg (vs : List (Variant τ)) : Prog τ :=
  .askSettings fun st =>
    .ret (unitVariantsSchema ((vs.filter (·.included st.contract)).map (·.name.get st.contract)))

/-- schemars_derive/src/schema_exprs.rs:311-337: a variant that is not listed by name. -/
def externalVariantProg (v : Variant τ) (deny : Bool) : Prog τ :=
  if v.untagged then untaggedVariantProg I v deny true
  else if v.isUnit && v.withTy.isNone then
    .askSettings fun st => .ret (runMutators v.common.mutators (newUnitVariant (v.name.get st.contract)))
  else
    .askSettings fun st =>
      (untaggedVariantProg I v deny false).map fun s =>
        runMutators v.common.mutators (newExternalVariant (v.name.get st.contract) s)

/-- schemars_derive/src/schema_exprs.rs:348-365: a variant of an internally tagged enum. -/
def internalTaggedProg (tag : String) (v : Variant τ) (deny : Bool) : Prog τ :=
  if v.untagged then untaggedVariantProg I v deny true
  else
    (internalVariantProg I v deny).bind fun s => .askSettings fun st =>
      .ret (runMutators v.common.mutators (applyInternalTag s tag (v.name.get st.contract) deny))

/-- schemars_derive/src/schema_exprs.rs:422-456: the schema of a variant of an adjacently tagged enum. -/
def adjacentSchema (tag content name : String) (deny : Bool) (sub : Option Json) : Json :=
  mkObj ([("type", .str "object"),
    ("properties", mkObj ((tag, tagSchema name) :: sub.elim [] fun s => [(content, s)])),
    ("required", .arr (.str tag :: sub.elim [] fun _ => [.str content]))] ++
    if deny then [("additionalProperties", .bool false)] else [])

/-- schemars_derive/src/schema_exprs.rs:396-461: a variant of an adjacently tagged enum. -/
def adjacentTaggedProg (tag content : String) (v : Variant τ) (deny : Bool) : Prog τ :=
  if v.untagged then untaggedVariantProg I v deny true
  else if v.isUnit && v.withTy.isNone then
    .askSettings fun st =>
      .ret (runMutators v.common.mutators (adjacentSchema tag content (v.name.get st.contract) deny none))
  else
    .askSettings fun st =>
      (untaggedVariantProg I v deny false).map fun s =>
        runMutators v.common.mutators (adjacentSchema tag content (v.name.get st.contract) deny (some s))

/-- schemars_derive/src/schema_exprs.rs:467-506 (`variant_subschemas`). `first` is the schema of the variants
listed by name. The program of a variant with `ref_variants` is the body of the type made for it
(`enum_ref_variants`, 508-552). -/
def variantSubschemas (unique : Bool) (first : Option (Prog τ)) (vs : List (Variant τ × Prog τ)) : Prog τ :=
  collect ((first.elim [] fun p => [(fun _ => true, p)]) ++
      vs.map fun e => (e.1.included, e.1.refTy.elim e.2 fun t => .sub t .ret)) fun l =>
    .ret (.obj [(if unique && !vs.any fun e => e.1.untagged then "oneOf" else "anyOf", .arr l)])

/-- schemars_derive/src/schema_exprs.rs:274-340 (`expr_for_external_tagged_enum`). -/
def externalEnumProg (vs : List (Variant τ)) (deny : Bool) : Prog τ :=
  let units := vs.filter Variant.listed
  let complex := vs.filter fun v => !v.listed
  if complex.isEmpty then unitVariantsProg units
  else variantSubschemas true (if units.isEmpty then none else some (unitVariantsProg units))
    (complex.map fun v => (v, externalVariantProg I v deny))

/-- schemars_derive/src/schema_exprs.rs:251-272 (`expr_for_enum`), 342-368, 370-387, 389-463. -/
def enumProg (tag : TagType) (vs : List (Variant τ)) (deny : Bool) : Prog τ :=
  if vs.isEmpty then .ret (.bool false)
  else match tag with
    | .external => externalEnumProg I vs deny
    | .none => variantSubschemas false none (vs.map fun v => (v, untaggedVariantProg I v deny true))
    | .internal tag => variantSubschemas true none (vs.map fun v => (v, internalTaggedProg I tag v deny))
    | .adjacent tag content =>
      variantSubschemas true none (vs.map fun v => (v, adjacentTaggedProg I tag content v deny))

/-- schemars_derive/src/schema_exprs.rs:72-84: the body by the data of the container. -/
def dataProg (c : Container τ) : Prog τ :=
  match c.data with
  | .struct .unit => .sub I.unit .ret
  | .struct (.newtype f) => fieldProg I f false
  | .struct (.tuple fs) => tupleStructProg I fs
  | .struct (.struct fs) => structProg I fs c.hasDefault c.denyUnknownFields
  | .enum tag vs => enumProg I tag vs c.denyUnknownFields

/-- schemars_derive/src/schema_exprs.rs:51-111 (`expr_for_container`). -/
def containerProg (c : Container τ) : Prog τ :=
  let p : Prog τ := match c.withTy, c.transparent, c.fromTy, c.intoTy with
    | some t, _, _, _ => .direct t .ret
    | none, some f, _, _ => fieldProg I f false
    | none, none, some from_, some into => .askSettings fun st =>
      if st.contract == .deserialize then .direct from_ .ret else .direct into .ret
    | none, none, some from_, none => .askSettings fun st =>
      if st.contract == .deserialize then .direct from_ .ret else dataProg I c
    | none, none, none, some into => .askSettings fun st =>
      if st.contract == .serialize then .direct into .ret else dataProg I c
    | none, none, none, none => dataProg I c
  p.map (runMutators c.common.mutators)

/-- schemars_derive/src/schema_exprs.rs:113-158 (`expr_for_repr`): the values of the variants. -/
def reprSchema (values : List Int) : Json :=
  mkObj [("type", .str "integer"), ("enum", .arr (values.map fun v => .num (.int v)))]

/-- schemars_derive/src/schema_exprs.rs:113-158 (`expr_for_repr`). -/
def reprProg (values : List Int) (common : CommonAttrs) : Prog τ :=
  .ret (runMutators common.mutators (reprSchema values))

end

end Verif
