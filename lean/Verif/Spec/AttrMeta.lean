import Verif.AttrMeta

/-!
# What the items of the attributes mean

The specification says what the items mean, without the order in which the macro looks at them: of the items that
set the same thing, the first one counts, those of schemars before those of serde, validator and garde.
-/

namespace Verif

namespace Spec

section
variable {τ : Type}

/-! ## What an item says -/

/-- `name = value`. -/
def HasValue (i : MetaItem τ) (v : MetaExpr τ) : Prop := i.negated = false ∧ i.tokens = .nameValue v

/-- `name = "text"`, where the text is parsed. -/
def HasText {α : Type} (parser : String → Option α) (i : MetaItem τ) (a : α) : Prop :=
  ∃ s, HasValue i (.str s) ∧ parser s = some a

/-- `name = value`, where a string stands for the expression in it. -/
def HasCode (ps : Parsers τ) (i : MetaItem τ) (v : MetaExpr τ) : Prop :=
  HasText ps.expr i v ∨ ∃ t, HasValue i (.other t) ∧ v = .other t

/-- Just `name`. -/
def Bare (i : MetaItem τ) : Prop := i.negated = false ∧ i.tokens = .path

/-- `name(item, …)`. -/
def HasItems (i : MetaItem τ) (l : List (MetaItem τ)) : Prop :=
  i.negated = false ∧ ∃ x e b, i.tokens = .list (some l) x e b

/-- `name(expression)`. -/
def HasExpr (i : MetaItem τ) (x : MetaExpr τ) : Prop := i.negated = false ∧ ∃ l e b, i.tokens = .list l (some x) e b

/-- `name("key" = value, …)`. -/
def HasExtensions (i : MetaItem τ) (l : List (String × τ)) : Prop :=
  i.negated = false ∧ ∃ m x b, i.tokens = .list m x (some l) b

/-- The item has one of these names. -/
def isNamed (names : List String) (i : MetaItem τ) : Bool := i.ident.any fun k => names.contains k

/-- The item has one of these names, without `!`. -/
def setsOne (names : List String) (i : MetaItem τ) : Bool := !i.negated && isNamed names i

/-- Of the items with one of these names the first one counts, and `R` is what it says. -/
def FirstOf {β : Type} (names : List String) (R : MetaItem τ → β → Prop) (l : List (MetaItem τ)) (x : Option β) :
    Prop :=
  match l.find? (setsOne names) with
  | none => x = none
  | some i => ∃ b, x = some b ∧ R i b

/-- `length(…)` and `range(…)`: `equal` counts if it comes first, and otherwise the first `min` and `max`. -/
def LengthReads (ps : Parsers τ) (l : List (MetaItem τ)) (r : LengthMeta τ) : Prop :=
  match l.find? (setsOne ["min", "max", "equal"]) with
  | none => r = {}
  | some i =>
    if isNamed ["equal"] i then ∃ v, HasCode ps i v ∧ r = { equal := some v }
    else r.equal = none ∧ FirstOf ["min"] (HasCode ps) l r.min ∧ FirstOf ["max"] (HasCode ps) l r.max

/-- The two bounds. -/
inductive BoundKey where
  | min | max
  deriving DecidableEq

/-- The bounds that an item in `length(…)` or `range(…)` sets. -/
def boundsOf (i : MetaItem τ) : List BoundKey :=
  if isNamed ["min"] i then [.min] else if isNamed ["max"] i then [.max]
  else if isNamed ["equal"] i then [.min, .max] else []

/-- A well formed `length(…)` or `range(…)` of a schemars attribute. -/
def LengthOk (ps : Parsers τ) (i : MetaItem τ) : Prop :=
  ∃ l, HasItems i l ∧ (∀ j ∈ l, isNamed ["min", "max", "equal"] j = true ∧ ∃ v, HasCode ps j v) ∧
    (l.flatMap boundsOf).Nodup

/-- `regex(pattern = …)` of schemars. -/
def SchemarsRegex (i : MetaItem τ) (x : MetaExpr τ) : Prop :=
  ∃ j, HasItems i [j] ∧ isNamed ["pattern"] j = true ∧ HasValue j x

/-- `regex(path = …)` of validator. -/
def ValidateRegex (ps : Parsers τ) (i : MetaItem τ) (x : MetaExpr τ) : Prop :=
  ∃ l, HasItems i l ∧ FirstOf ["path"] (HasCode ps) l (some x)

/-- `contains(…)`: of schemars, `contains(pattern = …)` or `contains(expression)`; of validator,
`contains(pattern = …)` with other items; of garde, `contains(expression)`. -/
def Contains (cx : AttrType) (i : MetaItem τ) (x : MetaExpr τ) : Prop :=
  match cx with
  | .validate => ∃ l, HasItems i l ∧ FirstOf ["pattern"] HasValue l (some x)
  | .garde => HasExpr i x
  | _ => i.negated = false ∧
    ((∃ j y e, i.tokens = .list (some [j]) y e true ∧ isNamed ["pattern"] j = true ∧ HasValue j x) ∨
      ∃ l e, i.tokens = .list l (some x) e false)

/-- The value of an item with this name. -/
def valueOf (name : String) (i : MetaItem τ) : Option (MetaExpr τ) :=
  if setsOne [name] i then
    match i.tokens with
    | .nameValue v => some v
    | _ => none
  else none

/-- The extensions of an item `extend(…)`. -/
def extensionsOf (i : MetaItem τ) : List (String × τ) :=
  if setsOne ["extend"] i then
    match i.tokens with
    | .list _ _ (some l) _ => l
    | _ => []
  else []

/-- Is the expression a string literal? -/
def isLiteral : MetaExpr τ → Bool
  | .str _ => true
  | .other _ => false

/-- What the items that every field, variant and container may have mean. -/
structure CommonReads (l : List (MetaItem τ)) (a : CommonMeta τ) : Prop where
  title : FirstOf ["title"] HasValue l a.title
  description : FirstOf ["description"] HasValue l a.description
  examples : a.examples = l.filterMap (valueOf "example")
  extensions : a.extensions = l.flatMap extensionsOf
  /-- string literals are left out -/
  transforms : a.transforms = (l.filterMap (valueOf "transform")).filter fun x => !isLiteral x

/-- What an item can set once. -/
inductive Setting where
  | title | description
  | extension (key : String)
  | length | range | text | format | required
  | schema
  | crateName | rename | inline | refVariants
  | inner (s : Setting)
  deriving DecidableEq

/-- What a common item sets. -/
def commonSettings (i : MetaItem τ) : List Setting :=
  if isNamed ["title"] i then [.title] else if isNamed ["description"] i then [.description]
  else (extensionsOf i).map fun e => .extension e.1

/-- Well formed common items of a schemars attribute. -/
def CommonOk (ps : Parsers τ) (i : MetaItem τ) : Prop :=
  if isNamed ["title", "description"] i then ∃ v, HasValue i v
  else if isNamed ["example"] i then ∃ v, HasValue i v ∧ ∀ s, v = .str s → ps.path s = none
  else if isNamed ["extend"] i then ∃ l, HasExtensions i l
  else ∃ v, HasValue i v ∧ ∀ s, v = .str s → ps.expr s = none

/-- The formats and their names in attributes. -/
def formats : List (String × FormatMeta) :=
  [("email", .email), ("url", .uri), ("ip", .ip), ("ipv4", .ipv4), ("ipv6", .ipv6)]

/-- The names of the formats. -/
def formatKeys : List String := ["email", "url", "ip", "ipv4", "ipv6"]

/-- A format: just its name, and in attributes of validator it may have arguments. -/
def FormatSays (cx : AttrType) (i : MetaItem τ) (f : FormatMeta) : Prop :=
  (∃ n, i.ident = some n ∧ (n, f) ∈ formats) ∧ (cx = .validate ∨ Bare i)

/-- `length(…)` and `range(…)`. -/
def LengthSays (ps : Parsers τ) (i : MetaItem τ) (r : LengthMeta τ) : Prop := ∃ l, HasItems i l ∧ LengthReads ps l r

/-- `pattern`, `regex` and `contains`: which of them is set, and to what. -/
def TextSays (ps : Parsers τ) (cx : AttrType) (i : MetaItem τ)
    (t : Option (MetaExpr τ) × Option (MetaExpr τ) × Option (MetaExpr τ)) : Prop :=
  ∃ x, (isNamed ["pattern"] i = true ∧ HasExpr i x ∧ t = (some x, none, none)) ∨
    (isNamed ["regex"] i = true ∧ (if cx = .validate then ValidateRegex ps i x else SchemarsRegex i x) ∧
      t = (none, some x, none)) ∨
    (isNamed ["contains"] i = true ∧ Contains cx i x ∧ t = (none, none, some x))

/-- The names of the items of this group. validator has no `pattern`, and garde has no `regex`. -/
def textNames : AttrType → List String
  | .validate => ["regex", "contains"]
  | .garde => ["pattern", "contains"]
  | _ => ["pattern", "regex", "contains"]

/-- The names of all validation items. -/
def validationNames : AttrType → List String
  | .validate => formatKeys ++ ["length", "range", "required", "regex", "contains"]
  | .garde => formatKeys ++ ["length", "range", "required", "pattern", "contains", "inner"]
  | _ => formatKeys ++ ["length", "range", "required", "pattern", "regex", "contains", "inner"]

/-- The keywords that are passed on to serde. -/
def serdeWords : List String :=
  ["rename", "rename_all", "rename_all_fields", "deny_unknown_fields", "tag", "content", "untagged", "default", "skip",
    "skip_serializing", "skip_serializing_if", "skip_deserializing", "flatten", "remote", "transparent", "into", "from",
    "try_from", "bound"]

/-- The items in the items `inner(…)`. -/
def innerOf (l : List (MetaItem τ)) : List (MetaItem τ) :=
  l.flatMap fun i => if setsOne ["inner"] i then
      match i.tokens with
      | .list (some m) _ _ _ => m
      | _ => []
    else []

/-- Attributes of the first kind count before those of the second one, and so on. -/
def FirstAmong {β : Type} : List (List (MetaItem τ) × List String × (MetaItem τ → β → Prop)) → Option β → Prop
  | [], x => x = none
  | (l, names, R) :: more, x =>
    match l.find? (setsOne names) with
    | some i => ∃ b, x = some b ∧ R i b
    | none => FirstAmong more x

/-- The fields `pattern`, `regex` and `contains`, if one is set. -/
def textOf (v : ValidationSlots τ) : Option (Option (MetaExpr τ) × Option (MetaExpr τ) × Option (MetaExpr τ)) :=
  if v.pattern.isNone && v.regex.isNone && v.contains.isNone then none else some (v.pattern, v.regex, v.contains)

/-- What the validation items of schemars, validator and garde mean, except for `inner`. -/
structure SlotsRead (ps : Parsers τ) (schemars validate garde : List (MetaItem τ)) (v : ValidationSlots τ) :
    Prop where
  length : FirstAmong [(schemars, ["length"], LengthSays ps), (validate, ["length"], LengthSays ps),
    (garde, ["length"], LengthSays ps)] v.length
  range : FirstAmong [(schemars, ["range"], LengthSays ps), (validate, ["range"], LengthSays ps),
    (garde, ["range"], LengthSays ps)] v.range
  required : FirstAmong [(schemars, ["required"], fun i (_ : Unit) => Bare i),
    (validate, ["required"], fun i _ => Bare i), (garde, ["required"], fun i _ => Bare i)]
    (if v.required then some () else none)
  format : FirstAmong [(schemars, formatKeys, FormatSays .schemars), (validate, formatKeys, FormatSays .validate),
    (garde, formatKeys, FormatSays .garde)] v.format
  text : FirstAmong [(schemars, textNames .schemars, TextSays ps .schemars),
    (validate, textNames .validate, TextSays ps .validate), (garde, textNames .garde, TextSays ps .garde)] (textOf v)

/-- What the validation items mean, to some depth of `inner(…)`. validator has no `inner`. -/
def ReadsTo (ps : Parsers τ) :
    Nat → List (MetaItem τ) → List (MetaItem τ) → List (MetaItem τ) → ValidationMeta τ → Prop
  | 0, schemars, validate, garde, v => SlotsRead ps schemars validate garde v.slots
  | n + 1, schemars, validate, garde, v => SlotsRead ps schemars validate garde v.slots ∧
    if schemars.any (setsOne ["inner"]) || garde.any (setsOne ["inner"]) then
      ∃ w, v.inner = some w ∧ ReadsTo ps n (innerOf schemars) [] (innerOf garde) w
    else v.inner = none

/-- What the validation items mean. -/
def ValidationReads (ps : Parsers τ) (schemars validate garde : List (MetaItem τ)) (v : ValidationMeta τ) : Prop :=
  ∀ n, ReadsTo ps n schemars validate garde v

/-- `with` and `schema_with`. -/
def WithSays (ps : Parsers τ) (i : MetaItem τ) (w : WithMeta τ) : Prop :=
  (isNamed ["with"] i = true ∧ ∃ t, HasText ps.type i t ∧ w = .type t) ∨
    (isNamed ["schema_with"] i = true ∧ ∃ f, HasText ps.path i f ∧ w = .function f)

/-- What the items of a field mean. -/
structure FieldReads (ps : Parsers τ) (schemars serde validate garde : List (MetaItem τ)) (f : FieldMeta τ) :
    Prop where
  common : CommonReads (schemars ++ serde) f.common
  validation : ValidationReads ps schemars validate garde f.validation
  withAttr : FirstAmong [(schemars, ["with", "schema_with"], WithSays ps), (serde, ["with"], WithSays ps)] f.withAttr

/-- What the items of a variant mean. -/
structure VariantReads (ps : Parsers τ) (schemars serde : List (MetaItem τ)) (f : VariantMeta τ) : Prop where
  common : CommonReads (schemars ++ serde) f.common
  withAttr : FirstAmong [(schemars, ["with", "schema_with"], WithSays ps), (serde, ["with"], WithSays ps)] f.withAttr

/-- What the items of a container mean. `rename`, `with` and `schema_with` of serde are not for schemars. -/
structure ContainerReads (ps : Parsers τ) (isEnum : Bool) (schemars serde : List (MetaItem τ)) (c : ContainerMeta τ) :
    Prop where
  common : CommonReads (schemars ++ serde) c.common
  crateName : FirstAmong [(schemars, ["crate"], HasText ps.path), (serde, ["crate"], HasText ps.path)]
    c.slots.crateName
  rename : FirstAmong [(schemars, ["rename"], fun i s => HasValue i (.str s))] c.slots.renameFormat
  inline : FirstAmong [(schemars, ["inline"], fun i (_ : Unit) => Bare i), (serde, ["inline"], fun i _ => Bare i)]
    (if c.slots.inline then some () else none)
  withAttr : FirstAmong [(schemars, ["with", "schema_with"], WithSays ps)] c.slots.withAttr
  refVariants : FirstAmong [(schemars, ["_unstable_ref_variants"], fun i (_ : Unit) => Bare i ∧ isEnum = true)]
    (if c.slots.refVariants then some () else none)

/-! ## Doc comments -/

/-- One space at the start of a line does not count. -/
def docText (s : String) : String := if s.toList.head? = some ' ' then String.ofList s.toList.tail else s

/-- The items of the attributes of validator. -/
def validateOf (attrs : List (Attr (MetaBody τ) (OtherAttr τ))) : List (MetaItem τ) :=
  attrs.flatMap fun a => match a with | .other (.validate (some l)) => l | _ => []

/-- The items of the attributes of garde. -/
def gardeOf (attrs : List (Attr (MetaBody τ) (OtherAttr τ))) : List (MetaItem τ) :=
  attrs.flatMap fun a => match a with | .other (.garde (some l)) => l | _ => []

/-- The values of the doc attributes. -/
def docsOf (attrs : List (Attr (MetaBody τ) (OtherAttr τ))) : List (MetaExpr τ) :=
  attrs.filterMap fun a => match a with | .other (.doc x) => some x | _ => none

/-- The text of the arguments of `concat!`, if they are all literals. -/
def concatText : List (MetaExpr τ) → Option String
  | [] => some ""
  | .str s :: l => (concatText l).map (s ++ ·)
  | .other _ :: _ => none

/-! ## Which items are accepted in a schemars attribute -/

mutual

/-- What a validation item sets. -/
def validationSettings : MetaItem τ → List Setting
  | ⟨none, _, _⟩ => []
  | ⟨some n, _, body⟩ =>
    if formatKeys.contains n then [.format]
    else if n = "length" then [.length]
    else if n = "range" then [.range]
    else if n = "required" then [.required]
    else if ["pattern", "regex", "contains"].contains n then [.text]
    else if n = "inner" then (bodySettings body).map .inner
    else []

/-- What the items in parentheses set. -/
def bodySettings : MetaBody τ → List Setting
  | .list (some l) _ _ _ => listSettings l
  | .list none _ _ _ => []
  | .path => []
  | .nameValue _ => []

/-- What several validation items set. -/
def listSettings : List (MetaItem τ) → List Setting
  | [] => []
  | i :: l => validationSettings i ++ listSettings l

end

/-- Well formed validation items of a schemars attribute. -/
inductive ValidationOk (ps : Parsers τ) : MetaItem τ → Prop
  | bare {i : MetaItem τ} : isNamed (formatKeys ++ ["required"]) i = true → Bare i → ValidationOk ps i
  | length {i : MetaItem τ} : isNamed ["length", "range"] i = true → LengthOk ps i → ValidationOk ps i
  | pattern {i : MetaItem τ} {x : MetaExpr τ} : isNamed ["pattern"] i = true → HasExpr i x → ValidationOk ps i
  | regex {i : MetaItem τ} {x : MetaExpr τ} : isNamed ["regex"] i = true → SchemarsRegex i x → ValidationOk ps i
  | contains {i : MetaItem τ} {x : MetaExpr τ} : isNamed ["contains"] i = true → Contains .schemars i x →
    ValidationOk ps i
  /-- keywords of serde are accepted in `inner(…)`, and ignored -/
  | inner {i : MetaItem τ} {l : List (MetaItem τ)} : isNamed ["inner"] i = true → HasItems i l →
    (∀ j ∈ l, isNamed (validationNames .schemars) j = true → ValidationOk ps j) →
    (∀ j ∈ l, isNamed (validationNames .schemars) j = true ∨ isNamed serdeWords j = true) → ValidationOk ps i

/-- An item without `!`, also in `inner(…)`. -/
inductive Positive : MetaItem τ → Prop
  | mk {i : MetaItem τ} : i.negated = false →
    (∀ l, isNamed ["inner"] i = true → HasItems i l → ∀ j ∈ l, Positive j) → Positive i

/-- The names of the common items. -/
def commonNames : List String := ["title", "description", "example", "extend", "transform"]

/-- What an item of a field sets. -/
def fieldSettings (i : MetaItem τ) : List Setting :=
  if isNamed commonNames i then commonSettings i
  else if isNamed (validationNames .schemars) i then validationSettings i
  else if isNamed ["with", "schema_with"] i then [.schema]
  else []

/-- Well formed items of a schemars attribute of a field. -/
inductive FieldItemOk (ps : Parsers τ) (i : MetaItem τ) : Prop
  | common : isNamed commonNames i = true → CommonOk ps i → FieldItemOk ps i
  | validation : ValidationOk ps i → FieldItemOk ps i
  | withType {t : τ} : isNamed ["with"] i = true → HasText ps.type i t → FieldItemOk ps i
  | withFunction {f : τ} : isNamed ["schema_with"] i = true → HasText ps.path i f → FieldItemOk ps i
  | serde : isNamed serdeWords i = true → FieldItemOk ps i

/-- What an item of a variant sets. -/
def variantSettings (i : MetaItem τ) : List Setting :=
  if isNamed commonNames i then commonSettings i
  else if isNamed ["with", "schema_with"] i then [.schema]
  else []

/-- Well formed items of a schemars attribute of a variant. -/
inductive VariantItemOk (ps : Parsers τ) (i : MetaItem τ) : Prop
  | common : isNamed commonNames i = true → CommonOk ps i → VariantItemOk ps i
  | withType {t : τ} : isNamed ["with"] i = true → HasText ps.type i t → VariantItemOk ps i
  | withFunction {f : τ} : isNamed ["schema_with"] i = true → HasText ps.path i f → VariantItemOk ps i
  | serde : isNamed serdeWords i = true → VariantItemOk ps i

/-- What an item of a container sets. -/
def containerSettings (i : MetaItem τ) : List Setting :=
  if isNamed commonNames i then commonSettings i
  else if isNamed ["crate"] i then [.crateName]
  else if isNamed ["rename"] i then [.rename]
  else if isNamed ["inline"] i then [.inline]
  else if isNamed ["with", "schema_with"] i then [.schema]
  else if isNamed ["_unstable_ref_variants"] i then [.refVariants]
  else []

/-- Well formed items of a schemars attribute of a container. -/
inductive ContainerItemOk (ps : Parsers τ) (isEnum : Bool) (i : MetaItem τ) : Prop
  | common : isNamed commonNames i = true → CommonOk ps i → ContainerItemOk ps isEnum i
  | crateName {t : τ} : isNamed ["crate"] i = true → HasText ps.path i t → ContainerItemOk ps isEnum i
  | rename {s : String} : isNamed ["rename"] i = true → HasValue i (.str s) → ContainerItemOk ps isEnum i
  | inline : isNamed ["inline"] i = true → Bare i → ContainerItemOk ps isEnum i
  | withType {t : τ} : isNamed ["with"] i = true → HasText ps.type i t → ContainerItemOk ps isEnum i
  | withFunction {f : τ} : isNamed ["schema_with"] i = true → HasText ps.path i f → ContainerItemOk ps isEnum i
  | refVariants : isNamed ["_unstable_ref_variants"] i = true → Bare i → isEnum = true → ContainerItemOk ps isEnum i
  | serde : isNamed serdeWords i = true → isNamed ["rename"] i = false → ContainerItemOk ps isEnum i

end

end Spec

end Verif
