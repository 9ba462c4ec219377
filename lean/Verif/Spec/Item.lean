import Verif.Item
import Verif.Spec.AttrMeta
import Verif.Props.DeriveAttrs

/-!
# What the attributes of a declaration mean

The documented meaning of the serde attributes, for a declaration and the `Container` that is made of it: what is
skipped, flattened, optional or renamed, and how an enum is tagged. It is written with the lists of items that are in
effect, without the order in which the attributes are processed or what happens if they are given twice.
-/

namespace Verif.Spec

variable {τ σ α : Type}

/-- The items in effect: what the schemars attributes set, and what they leave of the serde attributes. -/
noncomputable def effective (attrs : SrcAttrs τ) : List (MetaItem τ) :=
  open Classical in
  (schemarsOf attrs).filter (fun i => decide (∃ k, Sets i k)) ++ (serdeOf attrs).filter fun i => decide (Survives attrs i)

/-- One of the items has one of these names. -/
def has (names : List String) (l : List (MetaItem τ)) : Bool := l.any (isNamed names)

/-- The word for a direction in `rename(serialize = "…", deserialize = "…")`. -/
def directionWord : Contract → String
  | .serialize => "serialize"
  | .deserialize => "deserialize"

/-- The text of `k = "…"`. -/
def textFor (k : String) (i : MetaItem τ) : Option String :=
  if i.ident = some k then
    match i.tokens with
    | .nameValue (.str s) => some s
    | _ => none
  else none

/-- The text that an item named `k` gives for a direction. -/
def given (k : String) (c : Contract) (i : MetaItem τ) : Option String :=
  if i.ident = some k then
    match i.tokens with
    | .nameValue (.str s) => some s
    | .list (some l) _ _ _ => l.findSome? (textFor (directionWord c))
    | _ => none
  else none

/-- The text given for a direction by the first item named `k` that gives one. -/
def givenIn (k : String) (c : Contract) (l : List (MetaItem τ)) : Option String := l.findSome? (given k c)

/-- The names of the renaming rules. -/
def ruleNames : List (String × RenameRule) :=
  [("lowercase", .lower), ("UPPERCASE", .upper), ("PascalCase", .pascal), ("camelCase", .camel), ("snake_case", .snake),
    ("SCREAMING_SNAKE_CASE", .screamingSnake), ("kebab-case", .kebab), ("SCREAMING-KEBAB-CASE", .screamingKebab)]

/-- The renaming rule given for a direction. -/
def ruleIn (k : String) (c : Contract) (l : List (MetaItem τ)) : Option RenameRule :=
  l.findSome? fun i => (given k c i).bind (ruleNames.lookup ·)

/-- What is parsed from the text of `k = "…"`. -/
def parsedIn {β : Type} (k : String) (parse : String → Option β) (l : List (MetaItem τ)) : Option β :=
  l.findSome? fun i => (textFor k i).bind parse

/-- The default that an item gives: `none` for that of the type, or a function. -/
def defaultFor (ps : Parsers τ) (i : MetaItem τ) : Option (Option τ) :=
  if i.ident = some "default" then
    match i.tokens with
    | .path => some none
    | .nameValue (.str s) => (ps.path s).map some
    | _ => none
  else none

/-- The function that an item gives for writing a field. -/
def writerFor (ps : Parsers τ) (i : MetaItem τ) : Option (SerWith τ) :=
  ((textFor "serialize_with" i).bind fun s => (ps.path s).map .function).or
    ((textFor "with" i).bind fun s => (ps.path s).map .module)

/-- The name that `remote = "…"` stands for. -/
def remoteName (S : Syntax τ) (ident : String) (s : String) : Option String :=
  if s = "Self" then some ident else (S.path s).map S.lastSegment

/-- The name of a field or variant: that of `rename`, or the identifier changed by the rule. -/
def shownName (apply : RenameRule → String → String) (rule : Option RenameRule) (ident : String) (c : Contract)
    (l : List (MetaItem τ)) : String :=
  (givenIn "rename" c l).getD (applyRule apply rule ident)

section
variable (S : Syntax τ) (C : Cases) (T : τ → σ) (items : α → List (MetaItem τ)) (other : α → List (MetaItem τ))

/-- What the attributes of a field mean. The type is the one that is written there, unless another is given by `with`
or `schema_with`. -/
structure FieldMeans (rule : Contract → Option RenameRule) (containerDefault : Bool) (s : SrcField τ α)
    (f : Field σ) : Prop where
  name : ∀ c, f.name.get c = shownName C.field (rule c) s.ident c (items s.attrs)
  skipSer : f.skipSer = has ["skip", "skip_serializing"] (items s.attrs)
  skipDe : f.skipDe = has ["skip", "skip_deserializing"] (items s.attrs)
  flatten : f.flatten = has ["flatten"] (items s.attrs)
  skipSerIf : f.skipSerIf = has ["skip_serializing_if"] (items s.attrs)
  hasDefault : f.hasDefault = (has ["default"] (items s.attrs) ||
    !containerDefault && has ["skip", "skip_deserializing"] (items s.attrs))
  ty : has ["with", "schema_with"] (other s.attrs ++ items s.attrs) = false → f.ty = T s.ty

/-- The fields of a struct or variant. -/
def FieldsMean (rule : Contract → Option RenameRule) (containerDefault : Bool) : SrcFields τ α → Fields σ → Prop
  | .named l, .struct fs => List.Forall₂ (FieldMeans C T items other rule containerDefault) l fs
  | .unnamed l, .newtype f => ∃ s, l = [s] ∧ FieldMeans C T items other rule containerDefault s f
  | .unnamed l, .tuple fs => l.length ≠ 1 ∧ List.Forall₂ (FieldMeans C T items other rule containerDefault) l fs
  | .unit, .unit => True
  | _, _ => False

/-- What the attributes of a variant mean, in an enum with these items. -/
structure VariantMeans (l : List (MetaItem τ)) (s : SrcVariant τ α) (v : Variant σ) : Prop where
  name : ∀ c, v.name.get c = shownName C.variant (ruleIn "rename_all" c l) s.ident c (items s.attrs)
  skipSer : v.skipSer = has ["skip", "skip_serializing"] (items s.attrs)
  skipDe : v.skipDe = has ["skip", "skip_deserializing"] (items s.attrs)
  untagged : v.untagged = has ["untagged"] (items s.attrs)
  fields : FieldsMean C T items other
    (fun c => (ruleIn "rename_all" c (items s.attrs)).or (ruleIn "rename_all_fields" c l)) false s.fields v.fields

/-- The representation of an enum. -/
def tagFor (l : List (MetaItem τ)) : TagType :=
  match parsedIn "tag" some l, parsedIn "content" some l with
  | some tag, some content => .adjacent tag content
  | some tag, none => .internal tag
  | none, _ => if has ["untagged"] l then .none else .external

/-- The fields or variants. -/
def DataMeans (l : List (MetaItem τ)) : SrcData τ α → DeriveData σ → Prop
  | .struct s, .struct fs => FieldsMean C T items other (fun c => ruleIn "rename_all" c l) (has ["default"] l) s fs
  | .enum s, .enum tag vs => tag = tagFor l ∧ List.Forall₂ (VariantMeans C T items other l) s vs
  | _, _ => False

/-- All fields in the source of a struct. -/
def srcFields : SrcData τ α → List (SrcField τ α)
  | .struct (.named l) => l
  | .struct (.unnamed l) => l
  | _ => []

/-- The field takes part in reading: it has no default and is not skipped, and its type is not `PhantomData`. -/
def TakesPart (s : SrcField τ α) : Prop :=
  S.isPhantom s.ty = false ∧ has ["skip", "skip_deserializing", "default"] (items s.attrs) = false

/-- The field that a `transparent` struct stands for. -/
def Stands (l : List (MetaItem τ)) (d : SrcData τ α) (f : Field σ) : Prop :=
  ∃ before s after, srcFields d = before ++ s :: after ∧ TakesPart S items s ∧
    (∀ x ∈ before ++ after, ¬ TakesPart S items x) ∧
    FieldMeans C T items other (fun c => ruleIn "rename_all" c l) (has ["default"] l) s f

/-- What the attributes of a struct or enum mean. -/
structure ItemMeans (item : SrcItem τ α) (c : Container σ) : Prop where
  data : DataMeans C T items other (items item.attrs) item.data c.data
  deny : c.denyUnknownFields = has ["deny_unknown_fields"] (items item.attrs)
  hasDefault : c.hasDefault = has ["default"] (items item.attrs)
  fromTy : c.fromTy =
    ((parsedIn "from" S.type (items item.attrs)).or (parsedIn "try_from" S.type (items item.attrs))).map T
  intoTy : c.intoTy = (parsedIn "into" S.type (items item.attrs)).map T
  transparent : c.transparent.isSome = has ["transparent"] (items item.attrs)
  stands : ∀ f, c.transparent = some f → Stands S C T items other (items item.attrs) item.data f

/-- The name of the schema: that of `remote`, or of `rename` (for reading), or of the type. If a schemars attribute has
`rename`, then `{…}` in it is replaced. -/
def itemName (format : String → String) (item : SrcItem τ α) : String :=
  let name := (givenIn "rename" .deserialize (items item.attrs)).getD item.ident
  if (other item.attrs).any (setsOne ["rename"]) then if '{' ∈ name.toList then format name else name
  else (parsedIn "remote" (remoteName S item.ident) (items item.attrs)).getD name

end

/-! ## Defaults -/

section
variable {V : Type} (N : Values τ V) (ps : Parsers τ)

/-- The value that a field gets if the input has nothing for it: from `default` at the field, from `default` at the
struct `ident`, or from the type of the field if it is skipped. -/
def missingValue (ident : String) (containerItems l : List (MetaItem τ)) (s : SrcField τ α) : Option V :=
  match l.findSome? (defaultFor ps), containerItems.findSome? (defaultFor ps) with
  | some none, _ => some (N.zero s.ty)
  | some (some p), _ => some (N.call p)
  | none, some none => some (N.member (N.selfZero ident) s.ident)
  | none, some (some p) => some (N.member (N.call p) s.ident)
  | none, none => if has ["skip", "skip_deserializing"] l then some (N.zero s.ty) else none

/-- What is written for a value of a field. -/
def writtenValue (l : List (MetaItem τ)) (s : SrcField τ α) (v : V) : Option Json :=
  if has ["skip", "skip_serializing"] l then none
  else if (parsedIn "skip_serializing_if" ps.path l).any fun p => N.skipIf p v then none
  else match l.findSome? (writerFor ps) with
    | some w => N.writeWith w v
    | none => N.write s.ty v

/-- What is written for the field after it was missing in the input. -/
def rewritten (ident : String) (containerItems l : List (MetaItem τ)) (s : SrcField τ α) : Option Json :=
  (missingValue N ps ident containerItems l s).bind (writtenValue N ps l s)

end

end Verif.Spec
