import Verif.AttrMeta
import Verif.Delegate

/-!
# schemars_derive: from the source of a type to what the derive macro works on

An item is what the macro is given: a struct or an enum with its fields, types and attributes. Here it becomes a
`DeriveInput`: the attributes are processed and read (`Verif.DeriveAttrs`, `Verif.AttrMeta`), serde's library
`serde_derive_internals` (version 0.29.1) makes its syntax tree of the item with the effective serde attributes, and
the results are put together as in schemars_derive/src/ast.

`serde_derive_internals` is not part of the crate. What it does with the attributes that matter is modelled from its
source. Simplifications:
- Items without generics. Unions are left out (they are refused).
- What the tokens of types and expressions mean is given (`Syntax`, `Meaning`, `Values`). How a rule such as
  `camelCase` changes a name is given too (`Cases`).
- An error is `none`: no schema is generated. Of the checks of `serde_derive_internals`, those are left out that only
  refuse further items: on bounds, getters, identifiers, the place of `flatten`, and members in conflict with a tag.
- The arguments of items that have no influence here (`alias`, `bound`, `borrow`, `getter`, `crate`, `expecting`,
  `other`, identifiers, `deserialize_with`) are not checked.
-/

namespace Verif

/-! ## Items -/

/-- `syn::Field`, with the type as tokens `τ` and attributes `α`. -/
structure SrcField (τ α : Type) where
  /-- the name without `r#`, or the index -/
  ident : String
  ty : τ
  attrs : α

/-- `syn::Fields`. -/
inductive SrcFields (τ α : Type) where
  | named (fs : List (SrcField τ α))
  | unnamed (fs : List (SrcField τ α))
  | unit

/-- `syn::Variant`. -/
structure SrcVariant (τ α : Type) where
  ident : String
  fields : SrcFields τ α
  attrs : α

/-- `syn::Data`. -/
inductive SrcData (τ α : Type) where
  | struct (fields : SrcFields τ α)
  | enum (variants : List (SrcVariant τ α))

/-- `syn::DeriveInput`. -/
structure SrcItem (τ α : Type) where
  ident : String
  data : SrcData τ α
  attrs : α

/-- The tokens that are looked into: whether a type is `PhantomData`, and the last name of a path. -/
structure Syntax (τ : Type) extends Parsers τ where
  isPhantom : τ → Bool
  lastSegment : τ → String

/-! ## serde_derive_internals -/

/-- `serde_derive_internals::case::RenameRule`, without `None`. -/
inductive RenameRule where
  | lower | upper | pascal | camel | snake | screamingSnake | kebab | screamingKebab
  deriving DecidableEq

/-- `RenameRule::from_str`. -/
def RenameRule.fromStr (s : String) : Option RenameRule :=
  if s = "lowercase" then some .lower
  else if s = "UPPERCASE" then some .upper
  else if s = "PascalCase" then some .pascal
  else if s = "camelCase" then some .camel
  else if s = "snake_case" then some .snake
  else if s = "SCREAMING_SNAKE_CASE" then some .screamingSnake
  else if s = "kebab-case" then some .kebab
  else if s = "SCREAMING-KEBAB-CASE" then some .screamingKebab
  else none

/-- `RenameRule::apply_to_field` and `RenameRule::apply_to_variant`. -/
structure Cases where
  field : RenameRule → String → String
  variant : RenameRule → String → String

/-- Applies a rule, if there is one. -/
def applyRule (apply : RenameRule → String → String) (rule : Option RenameRule) (name : String) : String :=
  match rule with
  | some r => apply r name
  | none => name

/-- `serde_derive_internals::attr::RenameAllRules`. -/
structure RenameRules where
  ser : Option RenameRule := none
  de : Option RenameRule := none

/-- `RenameAllRules::or`. -/
def RenameRules.or (a b : RenameRules) : RenameRules := ⟨a.ser.or b.ser, a.de.or b.de⟩

/-- `serde_derive_internals::attr::Default`. -/
inductive SerdeDefault (τ : Type) where
  | none
  | default
  | path (p : τ)
  deriving DecidableEq

/-- `Default::is_none`. -/
def SerdeDefault.isNone {τ : Type} : SerdeDefault τ → Bool
  | .none => true
  | _ => false

/-- The function that writes a field: that of `serialize_with`, or `serialize` in the module of `with`. -/
inductive SerWith (τ : Type) where
  | function (p : τ)
  | module (p : τ)
  deriving DecidableEq

section
variable {τ α : Type}

/-- `serde_derive_internals::attr::get_lit_str`. -/
def litStr : MetaBody τ → Option String
  | .nameValue (.str s) => some s
  | _ => none

/-- `Attr::set`: an attribute is not given twice. -/
def setOnce {β : Type} (slot : Option β) (x : β) : Option (Option β) :=
  match slot with
  | some _ => none
  | none => some (some x)

/-- `Attr::set_opt`. -/
def setOpt {β : Type} (slot : Option β) : Option β → Option (Option β)
  | some x => setOnce slot x
  | none => some slot

/-- `BoolAttr::set_true`, for an item without arguments. -/
def setFlag (slot : Bool) : MetaBody τ → Option Bool
  | .path => if slot then none else some true
  | _ => none

/-- The items in `rename(…)`: the values of `serialize` and of `deserialize`. -/
def splitNames : List (MetaItem τ) → Option (List String × List String)
  | [] => some ([], [])
  | i :: l =>
    if i.negated then none
    else (litStr i.tokens).bind fun s => (splitNames l).bind fun r =>
      if i.ident = some "serialize" then some (s :: r.1, r.2)
      else if i.ident = some "deserialize" then some (r.1, s :: r.2)
      else none

/-- `serde_derive_internals::attr::get_ser_and_de`. -/
def readNames : MetaBody τ → Option (List String × List String)
  | .nameValue (.str s) => some ([s], [s])
  | .list (some l) _ _ _ => splitNames l
  | _ => none

/-- `VecAttr::at_most_one`. -/
def atMostOne : List String → Option (Option String)
  | [] => some none
  | [s] => some (some s)
  | _ => none

/-- `serde_derive_internals::attr::get_renames`. -/
def readRenames (b : MetaBody τ) : Option (Option String × Option String) :=
  (readNames b).bind fun r => (atMostOne r.1).bind fun ser => (atMostOne r.2).map fun de => (ser, de)

/-- A rule of `rename_all` that is given must be known. -/
def readRule : Option String → Option (Option RenameRule)
  | none => some none
  | some s => (RenameRule.fromStr s).map some

/-- `rename_all` and `rename_all_fields`. -/
def setRules (rules : RenameRules) (b : MetaBody τ) : Option RenameRules :=
  (readRenames b).bind fun r => (readRule r.1).bind fun ser => (readRule r.2).bind fun de =>
    (setOpt rules.ser ser).bind fun s => (setOpt rules.de de).map fun d => ⟨s, d⟩

/-- `default` and `default = "…"`. -/
def setDefault (ps : Parsers τ) (slot : SerdeDefault τ) (b : MetaBody τ) : Option (SerdeDefault τ) :=
  match slot, b with
  | .none, .path => some .default
  | .none, .nameValue (.str s) => (ps.path s).map .path
  | _, _ => none

/-- A string that is parsed. -/
def setParsed {β : Type} (parse : String → Option β) (slot : Option β) (b : MetaBody τ) : Option (Option β) :=
  (litStr b).bind fun s => (parse s).bind (setOnce slot)

/-- Runs the items of an attribute, none of which has `!`. -/
def serdeLoop {β : Type} (step : String → MetaBody τ → β → Option β) : List (MetaItem τ) → β → Option β
  | [], b => some b
  | i :: l, b =>
    if i.negated then none
    else i.ident.bind fun name => (step name i.tokens b).bind (serdeLoop step l)

/-- The attributes of a field: the local variables of `serde_derive_internals::attr::Field::from_ast`. -/
structure FieldSlots (τ : Type) where
  serName : Option String := none
  deName : Option String := none
  skipSer : Bool := false
  skipDe : Bool := false
  flatten : Bool := false
  skipSerIf : Option τ := none
  serWith : Option (SerWith τ) := none
  default : SerdeDefault τ := .none

/-- The items of a field that have no influence. -/
def fieldIgnored : List String := ["alias", "bound", "borrow", "getter", "deserialize_with"]

/-- `serde_derive_internals::attr::Field::from_ast`: one item. -/
def fieldStep (ps : Parsers τ) (name : String) (b : MetaBody τ) (a : FieldSlots τ) : Option (FieldSlots τ) :=
  if name = "rename" then
    (readNames b).bind fun r => (atMostOne r.1).bind fun ser => (setOpt a.serName ser).map fun s =>
      { a with serName := s, deName := a.deName.or r.2.head? }
  else if name = "default" then (setDefault ps a.default b).map fun d => { a with default := d }
  else if name = "skip_serializing" then (setFlag a.skipSer b).map fun x => { a with skipSer := x }
  else if name = "skip_deserializing" then (setFlag a.skipDe b).map fun x => { a with skipDe := x }
  else if name = "skip" then
    (setFlag a.skipSer b).bind fun x => (setFlag a.skipDe b).map fun y => { a with skipSer := x, skipDe := y }
  else if name = "skip_serializing_if" then
    (setParsed ps.path a.skipSerIf b).map fun x => { a with skipSerIf := x }
  else if name = "serialize_with" then
    (setParsed (fun s => (ps.path s).map .function) a.serWith b).map fun x => { a with serWith := x }
  else if name = "with" then
    (setParsed (fun s => (ps.path s).map .module) a.serWith b).map fun x => { a with serWith := x }
  else if name = "flatten" then (setFlag a.flatten b).map fun x => { a with flatten := x }
  else if name ∈ fieldIgnored then some a
  else none

/-- The attributes of a variant: the local variables of `serde_derive_internals::attr::Variant::from_ast`. -/
structure VariantSlots where
  serName : Option String := none
  deName : Option String := none
  rules : RenameRules := {}
  skipSer : Bool := false
  skipDe : Bool := false
  untagged : Bool := false

/-- The items of a variant that have no influence. -/
def variantIgnored : List String :=
  ["alias", "bound", "borrow", "other", "with", "serialize_with", "deserialize_with"]

/-- `serde_derive_internals::attr::Variant::from_ast`: one item. -/
def variantStep (name : String) (b : MetaBody τ) (a : VariantSlots) : Option VariantSlots :=
  if name = "rename" then
    (readNames b).bind fun r => (atMostOne r.1).bind fun ser => (setOpt a.serName ser).map fun s =>
      { a with serName := s, deName := a.deName.or r.2.head? }
  else if name = "rename_all" then (setRules a.rules b).map fun r => { a with rules := r }
  else if name = "skip_serializing" then (setFlag a.skipSer b).map fun x => { a with skipSer := x }
  else if name = "skip_deserializing" then (setFlag a.skipDe b).map fun x => { a with skipDe := x }
  else if name = "skip" then
    (setFlag a.skipSer b).bind fun x => (setFlag a.skipDe b).map fun y => { a with skipSer := x, skipDe := y }
  else if name = "untagged" then (setFlag a.untagged b).map fun x => { a with untagged := x }
  else if name ∈ variantIgnored then some a
  else none

/-- The attributes of a container: the local variables of `serde_derive_internals::attr::Container::from_ast`. -/
structure ContainerAttrSlots (τ : Type) where
  serName : Option String := none
  deName : Option String := none
  rules : RenameRules := {}
  fieldRules : RenameRules := {}
  transparent : Bool := false
  deny : Bool := false
  default : SerdeDefault τ := .none
  untagged : Bool := false
  tag : Option String := none
  content : Option String := none
  typeFrom : Option τ := none
  typeTryFrom : Option τ := none
  typeInto : Option τ := none
  remote : Option String := none

/-- The items of a container that have no influence. -/
def containerIgnored : List String := ["bound", "field_identifier", "variant_identifier", "crate", "expecting"]

/-- What an attribute may depend on: whether the item is an enum, a struct with or without named fields, or a unit
struct. -/
inductive SrcKind where
  | enum | named | unnamed | unit
  deriving DecidableEq

/-- The kind of an item. -/
def SrcData.kind : SrcData τ α → SrcKind
  | .enum _ => .enum
  | .struct (.named _) => .named
  | .struct (.unnamed _) => .unnamed
  | .struct .unit => .unit

/-- `serde_derive_internals::attr::Container::from_ast`: one item. -/
def containerStep (S : Syntax τ) (ident : String) (kind : SrcKind) (name : String) (b : MetaBody τ)
    (a : ContainerAttrSlots τ) : Option (ContainerAttrSlots τ) :=
  if name = "rename" then
    (readRenames b).bind fun r => (setOpt a.serName r.1).bind fun s => (setOpt a.deName r.2).map fun d =>
      { a with serName := s, deName := d }
  else if name = "rename_all" then (setRules a.rules b).map fun r => { a with rules := r }
  else if name = "rename_all_fields" then
    if kind = .enum then (setRules a.fieldRules b).map fun r => { a with fieldRules := r } else none
  else if name = "transparent" then (setFlag a.transparent b).map fun x => { a with transparent := x }
  else if name = "deny_unknown_fields" then (setFlag a.deny b).map fun x => { a with deny := x }
  else if name = "default" then
    if kind = .named ∨ kind = .unnamed then
      (setDefault S.toParsers a.default b).map fun d => { a with default := d }
    else none
  else if name = "untagged" then
    if kind = .enum then (setFlag a.untagged b).map fun x => { a with untagged := x } else none
  else if name = "tag" then
    if kind = .enum ∨ kind = .named then (setParsed some a.tag b).map fun x => { a with tag := x } else none
  else if name = "content" then
    if kind = .enum then (setParsed some a.content b).map fun x => { a with content := x } else none
  else if name = "from" then (setParsed S.type a.typeFrom b).map fun x => { a with typeFrom := x }
  else if name = "try_from" then (setParsed S.type a.typeTryFrom b).map fun x => { a with typeTryFrom := x }
  else if name = "into" then (setParsed S.type a.typeInto b).map fun x => { a with typeInto := x }
  else if name = "remote" then
    (setParsed (fun s => if s = "Self" then some ident else (S.path s).map S.lastSegment) a.remote b).map fun x =>
      { a with remote := x }
  else if name ∈ containerIgnored then some a
  else none

/-- `serde_derive_internals::attr::Name::from_attrs` and `rename_by_rules`. -/
def serdeName (apply : RenameRule → String → String) (rules : RenameRules) (ident : String)
    (ser de : Option String) : SerdeName :=
  ⟨ser.getD (applyRule apply rules.ser ident), de.getD (applyRule apply rules.de ident)⟩

/-- `serde_derive_internals::ast::Field`. -/
structure SerdeField (τ α : Type) where
  original : SrcField τ α
  name : SerdeName
  skipSer : Bool
  skipDe : Bool
  flatten : Bool
  skipSerIf : Option τ
  serWith : Option (SerWith τ)
  default : SerdeDefault τ

/-- `serde_derive_internals::ast::Style`, with the fields. -/
inductive SerdeFields (τ α : Type) where
  | unit
  | newtype (f : SerdeField τ α)
  | tuple (fs : List (SerdeField τ α))
  | struct (fs : List (SerdeField τ α))

/-- `serde_derive_internals::ast::Variant`. -/
structure SerdeVariant (τ α : Type) where
  original : SrcVariant τ α
  name : SerdeName
  fields : SerdeFields τ α
  skipSer : Bool
  skipDe : Bool
  untagged : Bool

/-- `serde_derive_internals::ast::Data`. -/
inductive SerdeData (τ α : Type) where
  | struct (fields : SerdeFields τ α)
  | enum (variants : List (SerdeVariant τ α))

/-- `serde_derive_internals::ast::Container`. The tag of a struct is kept too. -/
structure SerdeContainer (τ α : Type) where
  original : SrcItem τ α
  name : SerdeName
  data : SerdeData τ α
  deny : Bool
  default : SerdeDefault τ
  tag : TagType
  /-- the field marked by `check_transparent` -/
  transparent : Option (SerdeField τ α)
  typeFrom : Option τ
  typeTryFrom : Option τ
  typeInto : Option τ
  remote : Option String

/-- All results, if there is no error. -/
def mapAll {β γ : Type} (f : β → Option γ) : List β → Option (List γ)
  | [] => some []
  | x :: l => (f x).bind fun y => (mapAll f l).map fun r => y :: r

/-- `serde_derive_internals::attr::Field::from_ast`, with the renaming of `serde_derive_internals::ast`. A field that
is not read has a default unless its container has one. -/
def serdeField (ps : Parsers τ) (C : Cases) (get : α → List (MetaItem τ)) (rules : RenameRules)
    (container : SerdeDefault τ) (f : SrcField τ α) : Option (SerdeField τ α) :=
  (serdeLoop (fieldStep ps) (get f.attrs) {}).map fun a =>
    { original := f
      name := serdeName C.field rules f.ident a.serName a.deName
      skipSer := a.skipSer
      skipDe := a.skipDe
      flatten := a.flatten
      skipSerIf := a.skipSerIf
      serWith := a.serWith
      default := if container.isNone && a.skipDe && a.default.isNone then .default else a.default }

/-- `serde_derive_internals::ast::struct_from_ast`. -/
def serdeFields (ps : Parsers τ) (C : Cases) (get : α → List (MetaItem τ)) (rules : RenameRules)
    (container : SerdeDefault τ) : SrcFields τ α → Option (SerdeFields τ α)
  | .named fs => (mapAll (serdeField ps C get rules container) fs).map .struct
  | .unnamed [f] => (serdeField ps C get rules container f).map .newtype
  | .unnamed fs => (mapAll (serdeField ps C get rules container) fs).map .tuple
  | .unit => some .unit

/-- `serde_derive_internals::ast::enum_from_ast` for one variant. -/
def serdeVariant (ps : Parsers τ) (C : Cases) (get : α → List (MetaItem τ)) (rules fieldRules : RenameRules)
    (container : SerdeDefault τ) (v : SrcVariant τ α) : Option (SerdeVariant τ α) :=
  (serdeLoop variantStep (get v.attrs) {}).bind fun a =>
    (serdeFields ps C get (a.rules.or fieldRules) container v.fields).map fun fs =>
      { original := v
        name := serdeName C.variant rules v.ident a.serName a.deName
        fields := fs
        skipSer := a.skipSer
        skipDe := a.skipDe
        untagged := a.untagged }

/-- The variants that an internally tagged enum may not have. -/
def SrcFields.isTuple : SrcFields τ α → Bool
  | .unnamed fs => fs.length != 1
  | _ => false

/-- `serde_derive_internals::attr::decide_tag` and `check_adjacent_tag_conflict`. -/
def decideTag (a : ContainerAttrSlots τ) (d : SrcData τ α) : Option TagType :=
  match a.untagged, a.tag, a.content with
  | false, none, none => some .external
  | true, none, none => some .none
  | false, some tag, none =>
    match d with
    | .enum vs => if vs.any fun v => v.fields.isTuple then none else some (.internal tag)
    | .struct _ => some (.internal tag)
  | false, some tag, some content => if tag = content then none else some (.adjacent tag content)
  | _, _, _ => none

/-- `serde_derive_internals::check::allow_transparent`. -/
def allowTransparent (S : Syntax τ) (derive : Contract) (f : SerdeField τ α) : Bool :=
  !S.isPhantom f.original.ty && match derive with
    | .serialize => !f.skipSer
    | .deserialize => !f.skipDe && f.default.isNone

/-- The fields of a struct. -/
def SerdeFields.list : SerdeFields τ α → List (SerdeField τ α)
  | .unit => []
  | .newtype f => [f]
  | .tuple fs => fs
  | .struct fs => fs

/-- `serde_derive_internals::check::check_transparent`. -/
def transparentField (S : Syntax τ) (derive : Contract) (a : ContainerAttrSlots τ) (d : SerdeData τ α) :
    Option (Option (SerdeField τ α)) :=
  if !a.transparent then some none
  else if a.typeFrom.isSome || a.typeTryFrom.isSome || a.typeInto.isSome then none
  else match d with
    | .enum _ => none
    | .struct fields =>
      match fields.list.filter (allowTransparent S derive) with
      | [f] => some (some f)
      | _ => none

/-- `serde_derive_internals::ast::Container::from_ast`: the fields or variants. -/
def serdeData (ps : Parsers τ) (C : Cases) (get : α → List (MetaItem τ)) (a : ContainerAttrSlots τ) :
    SrcData τ α → Option (SerdeData τ α)
  | .struct fields => (serdeFields ps C get a.rules a.default fields).map .struct
  | .enum vs => (mapAll (serdeVariant ps C get a.rules a.fieldRules a.default) vs).map .enum

/-- `serde_derive_internals::ast::Container::from_ast` for the items that `get` finds in the attributes. -/
def serdeContainer (S : Syntax τ) (C : Cases) (get : α → List (MetaItem τ)) (derive : Contract)
    (item : SrcItem τ α) : Option (SerdeContainer τ α) :=
  (serdeLoop (containerStep S item.ident item.data.kind) (get item.attrs) {}).bind fun a =>
  (decideTag a item.data).bind fun tag =>
  (serdeData S.toParsers C get a item.data).bind fun d =>
  (transparentField S derive a d).bind fun t =>
  if a.typeFrom.isSome && a.typeTryFrom.isSome then none
  else some
    { original := item
      name := serdeName (fun _ n => n) {} item.ident a.serName a.deName
      data := d
      deny := a.deny
      default := a.default
      tag := tag
      transparent := t
      typeFrom := a.typeFrom
      typeTryFrom := a.typeTryFrom
      typeInto := a.typeInto
      remote := a.remote }

end

/-! ## schemars_derive/src/ast -/

/-- The attributes of an item in the source. -/
abbrev SrcAttrs (τ : Type) := List (Attr (MetaBody τ) (OtherAttr τ))

/-- What the tokens in attributes mean: the types `σ` that they name, and the values that they evaluate to. -/
structure Meaning (τ σ : Type) where
  type : τ → σ
  /-- the type generated for a `schema_with` function: schemars_derive/src/schema_exprs.rs:208-249 -/
  function : τ → σ
  /-- the type generated for a variant of an enum: schemars_derive/src/schema_exprs.rs:508-555 -/
  refVariant : String → String → σ
  text : MetaExpr τ → String
  /-- `concat!` -/
  concat : List (MetaExpr τ) → String
  json : MetaExpr τ → Option Json
  number : MetaExpr τ → Json
  extension : τ → Json
  transform : MetaExpr τ → Json → Json
  /-- `format!` without arguments -/
  format : String → String
  modulePath : String

/-- The values of fields and containers: `Default::default()` of a type and of the container, a call of the function
at a path, the member of a struct, a condition for skipping, and what is written for a value (`none` if its type does
not implement `Serialize`, or fails to). -/
structure Values (τ V : Type) where
  zero : τ → V
  selfZero : String → V
  call : τ → V
  member : V → String → V
  skipIf : τ → V → Bool
  write : τ → V → Option Json
  writeWith : SerWith τ → V → Option Json

section
variable {τ σ V : Type}

/-- schemars_derive/src/attr/mod.rs:73-83 (`CommonAttrs::populate`): the values of what was read. -/
def commonOf (M : Meaning τ σ) (attrs : SrcAttrs τ) (c : CommonMeta τ) : CommonAttrs :=
  { doc := (getDoc attrs).map M.concat
    deprecated := isDeprecated attrs
    title := c.title.map M.text
    description := c.description.map M.text
    examples := c.examples.map M.json
    extensions := c.extensions.map fun e => (e.1, M.extension e.2)
    transforms := c.transforms.map M.transform }

/-- The values of `length(…)` or `range(…)`. -/
def lengthOf (M : Meaning τ σ) (l : LengthMeta τ) : LengthOrRange :=
  { min := l.min.map M.number, max := l.max.map M.number, equal := l.equal.map M.number }

/-- The format of an attribute. -/
def formatOf : FormatMeta → AttrFormat
  | .email => .email
  | .uri => .uri
  | .ip => .ip
  | .ipv4 => .ipv4
  | .ipv6 => .ipv6

/-- The values of the validation attributes. -/
def validationOf (M : Meaning τ σ) : ValidationMeta τ → ValidationAttrs
  | ⟨s, none⟩ => .mk (s.length.map (lengthOf M)) (s.range.map (lengthOf M)) (s.pattern.map M.text)
      (s.regex.map M.text) (s.contains.map M.text) (s.format.map formatOf) none
  | ⟨s, some v⟩ => .mk (s.length.map (lengthOf M)) (s.range.map (lengthOf M)) (s.pattern.map M.text)
      (s.regex.map M.text) (s.contains.map M.text) (s.format.map formatOf) (some (validationOf M v))

/-- schemars_derive/src/schema_exprs.rs:208-249 (`type_for_schema`). -/
def typeForSchema (M : Meaning τ σ) : WithMeta τ → σ
  | .type t => M.type t
  | .function f => M.function f

/-- schemars_derive/src/schema_exprs.rs:680-684: the value of the container, if it has a default. -/
def containerDefault (N : Values τ V) (ident : String) : SerdeDefault τ → Option V
  | .none => none
  | .default => some (N.selfZero ident)
  | .path p => some (N.call p)

/-- schemars_derive/src/schema_exprs.rs:766-818 (`field_default_expr`), with the serialization of the result in
schemars_derive/src/schema_exprs.rs:707-712. -/
def fieldDefault (N : Values τ V) (container : Option V) (f : SerdeField τ (SrcAttrs τ)) : Option Json :=
  if f.skipSer then none
  else
    (match f.default with
      | .none => container.map fun v => N.member v f.original.ident
      | .default => some (N.zero f.original.ty)
      | .path p => some (N.call p)).bind fun v =>
    if f.skipSerIf.any fun p => N.skipIf p v then none
    else match f.serWith with
      | some w => N.writeWith w v
      | none => N.write f.original.ty v

/-- What reading the attributes gives, if there is no error. -/
def ok? {ε β : Type} : Except ε β → Option β
  | .ok b => some b
  | .error _ => none

/-- schemars_derive/src/ast/from_serde.rs:76-88, with schemars_derive/src/schema_exprs.rs:201-206
(`type_for_field_schema`); also whether the field has `with` or `schema_with`. -/
def fieldFromSerde (ps : Parsers τ) (M : Meaning τ σ) (N : Values τ V) (container : Option V)
    (f : SerdeField τ (SrcAttrs τ)) : Option (Field σ × Bool) :=
  (ok? (deriveField ps f.original.attrs)).map fun m =>
    ({ name := f.name
       ty := m.2.withAttr.elim (M.type f.original.ty) (typeForSchema M)
       flatten := f.flatten
       skipSer := f.skipSer
       skipDe := f.skipDe
       skipSerIf := f.skipSerIf.isSome
       hasDefault := !f.default.isNone
       defaultValue := fieldDefault N container f
       required := m.2.validation.slots.required
       common := commonOf M f.original.attrs m.2.common
       validation := validationOf M m.2.validation }, m.2.withAttr.isSome)

/-- schemars_derive/src/ast/from_serde.rs:9-15 (`vec_from_serde`) for the fields of a struct or variant. -/
def fieldsFromSerde (ps : Parsers τ) (M : Meaning τ σ) (N : Values τ V) (container : Option V) :
    SerdeFields τ (SrcAttrs τ) → Option (Fields σ)
  | .unit => some .unit
  | .newtype f => (fieldFromSerde ps M N container f).map fun r => .newtype r.1
  | .tuple fs => (mapAll (fieldFromSerde ps M N container) fs).map fun l => .tuple (l.map (·.1))
  | .struct fs => (mapAll (fieldFromSerde ps M N container) fs).map fun l => .struct (l.map (·.1))

/-- schemars_derive/src/ast/from_serde.rs:61-74. -/
def variantFromSerde (ps : Parsers τ) (M : Meaning τ σ) (N : Values τ V) (enumIdent : String) (refVariants : Bool)
    (v : SerdeVariant τ (SrcAttrs τ)) : Option (Variant σ) :=
  (ok? (deriveVariant ps v.original.attrs)).bind fun m =>
    (fieldsFromSerde ps M N none v.fields).map fun fs =>
      { name := v.name
        fields := fs
        skipSer := v.skipSer
        skipDe := v.skipDe
        untagged := v.untagged
        withTy := m.2.withAttr.map (typeForSchema M)
        refTy := if refVariants then some (M.refVariant enumIdent v.original.ident) else none
        common := commonOf M v.original.attrs m.2.common }

/-- schemars_derive/src/ast/from_serde.rs:46-59. -/
def dataFromSerde (ps : Parsers τ) (M : Meaning τ σ) (N : Values τ V) (c : SerdeContainer τ (SrcAttrs τ))
    (refVariants : Bool) : Option (DeriveData σ) :=
  match c.data with
  | .struct fields =>
    (fieldsFromSerde ps M N (containerDefault N c.original.ident c.default) fields).map .struct
  | .enum vs => (mapAll (variantFromSerde ps M N c.original.ident refVariants) vs).map (.enum c.tag)

/-- schemars_derive/src/ast/mod.rs:71-80 (`Container::name`). -/
def containerName (c : SerdeContainer τ (SrcAttrs τ)) (m : ContainerMeta τ) : String :=
  if m.slots.renameFormat.isNone then c.remote.getD c.name.de else c.name.de

/-- Whether the `with` attribute names a function. -/
def isFunction : Option (WithMeta τ) → Bool
  | some (.function _) => true
  | _ => false

/-- schemars_derive/src/ast/mod.rs:59-67 (`transparent_field`). -/
def transparentFromSerde (ps : Parsers τ) (M : Meaning τ σ) (N : Values τ V) (c : SerdeContainer τ (SrcAttrs τ)) :
    Option (Option (Field σ × Bool)) :=
  match c.transparent with
  | none => some none
  | some f => (fieldFromSerde ps M N (containerDefault N c.original.ident c.default) f).map some

/-- schemars_derive/src/lib.rs:47-50 (`derive_json_schema`) with schemars_derive/src/ast/mod.rs:47-57
(`Container::from_ast`), schemars_derive/src/ast/from_serde.rs:18-44 and
schemars_derive/src/lib.rs:94-141 (`schema_name`, `schema_id`): what is derived for an item. -/
def deriveItem (S : Syntax τ) (C : Cases) (M : Meaning τ σ) (N : Values τ V) (item : SrcItem τ (SrcAttrs τ)) :
    Option (DeriveInput σ) :=
  (serdeContainer S C (fun attrs => serdeItems (processAttrs attrs).1) .deserialize item).bind fun c =>
  (ok? (deriveContainer S.toParsers (decide (item.data.kind = .enum)) item.attrs)).bind fun m =>
  (dataFromSerde S.toParsers M N c m.2.slots.refVariants).bind fun d =>
  (transparentFromSerde S.toParsers M N c).map fun t =>
  let name := containerName c m.2
  { container :=
      { data := d
        denyUnknownFields := c.deny
        hasDefault := !c.default.isNone
        withTy := m.2.slots.withAttr.map (typeForSchema M)
        transparent := t.map (·.1)
        fromTy := (c.typeFrom.or c.typeTryFrom).map M.type
        intoTy := c.typeInto.map M.type
        common := commonOf M item.attrs m.2.common }
    schemaId := M.modulePath ++ "::" ++ name
    schemaName := if m.2.slots.renameFormat.isNone || !name.toList.contains '{' then name else M.format name
    inline := m.2.slots.inline
    withFunction := isFunction m.2.slots.withAttr
    fieldWith := (t.map (·.2)).getD false }

end

end Verif
