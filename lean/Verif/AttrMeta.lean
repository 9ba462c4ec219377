import Verif.DeriveAttrs

/-!
# schemars_derive/src/attr/{mod,parse_meta,validation,doc}.rs: reading the items of the attributes

How the items of `#[schemars(…)]`, `#[serde(…)]`, `#[validate(…)]` and `#[garde(…)]` become the `FieldAttrs`,
`VariantAttrs` and `ContainerAttrs`, and which errors are reported.

Simplifications: the tokens of an expression, type or path are an arbitrary value of a type `τ`, except for string
literals; what the parsers of `syn` make of the arguments of an item, and of the text of a string, is given (see
`MetaBody.list` and `Parsers`), for any outcome; an error is its kind, without spans.
-/

namespace Verif

/-- `syn::Expr`, as far as it matters: string literals are told apart. -/
inductive MetaExpr (τ : Type) where
  | str (text : String)
  | other (tokens : τ)
  deriving DecidableEq

/-- schemars_derive/src/attr/custom_meta.rs:6-11 (`CustomMeta`): what follows the path of an item. The arguments of
a list are given by the outcome of the parsers that the derive macro runs on them: as items, as one expression, as
extensions (schemars_derive/src/attr/parse_meta.rs:328-348), and whether the second token is `,` or `=`
(schemars_derive/src/attr/parse_meta.rs:220). -/
inductive MetaBody (τ : Type) where
  | path
  | list (metas : Option (List (AttrItem (MetaBody τ)))) (expr : Option (MetaExpr τ))
    (extensions : Option (List (String × τ))) (looksLikeMetas : Bool)
  | nameValue (value : MetaExpr τ)

/-- An item of an attribute. -/
abbrev MetaItem (τ : Type) := AttrItem (MetaBody τ)

/-- `attr_type` of schemars_derive/src/attr/mod.rs:472-476 (`AttrCtxt`). -/
inductive AttrType where
  | schemars | serde | validate | garde
  deriving DecidableEq

/-- `LitStr::parse` for the types that are parsed from strings. -/
structure Parsers (τ : Type) where
  type : String → Option τ
  path : String → Option τ
  expr : String → Option (MetaExpr τ)

/-- The reported errors. -/
inductive MetaError where
  /-- schemars_derive/src/attr/mod.rs:526-536 -/
  | duplicate (name : Option String)
  /-- schemars_derive/src/attr/mod.rs:513-524 -/
  | exclusive (name : Option String) (other : String)
  /-- schemars_derive/src/attr/mod.rs:539-553 -/
  | unknown (name : Option String)
  /-- schemars_derive/src/attr/mod.rs:107-116 -/
  | stringExample
  /-- schemars_derive/src/attr/mod.rs:145-153 -/
  | stringTransform
  /-- schemars_derive/src/attr/mod.rs:126-130 -/
  | duplicateExtension (key : String)
  /-- schemars_derive/src/attr/mod.rs:369-373 -/
  | notEnum
  /-- schemars_derive/src/attr/parse_meta.rs:11-30 -/
  | unexpectedValue (cx : AttrType) (name : Option String)
  /-- schemars_derive/src/attr/parse_meta.rs:42-50 -/
  | expectedValue (cx : AttrType) (name : Option String)
  /-- schemars_derive/src/attr/parse_meta.rs:65-73 -/
  | expectedString (cx : AttrType) (name : Option String)
  /-- schemars_derive/src/attr/parse_meta.rs:84-97 -/
  | unparsable (text : String)
  /-- schemars_derive/src/attr/parse_meta.rs:283-292 -/
  | expectedList (cx : AttrType) (name : Option String)
  /-- schemars_derive/src/attr/parse_meta.rs:295-297 -/
  | syntaxError
  /-- schemars_derive/src/attr/parse_meta.rs:131-139, 163-168, 250-257 -/
  | unknownNested (outer : String) (name : Option String)
  /-- schemars_derive/src/attr/parse_meta.rs:159-161, 188-190 -/
  | unsupported (outer name : String)
  /-- schemars_derive/src/attr/parse_meta.rs:172-176, 197-201, 261-266 -/
  | missing (outer name : String)
  deriving DecidableEq

/-- `Result<T, ()>` and the reported errors. -/
abbrev Parsed (α : Type) := Option α × List MetaError

/-- Errors that are only reported for schemars attributes (schemars_derive/src/attr/mod.rs:514, 527). -/
def reportIf (cx : AttrType) (e : MetaError) : List MetaError := if cx = .schemars then [e] else []

section
variable {τ : Type}

/-! ## parse_meta.rs -/

/-- schemars_derive/src/attr/parse_meta.rs:10-36 (`require_path_only`): is it `Ok`, and the errors. -/
def requirePathOnly (cx : AttrType) (item : MetaItem τ) : Bool × List MetaError :=
  if item.negated then (false, [])
  else match item.tokens with
    | .path => (true, [])
    | _ => (false, [.unexpectedValue cx item.ident])

/-- schemars_derive/src/attr/parse_meta.rs:38-52 (`parse_name_value_expr`). -/
def parseValue (cx : AttrType) (item : MetaItem τ) : Parsed (MetaExpr τ) :=
  match item.negated, item.tokens with
  | false, .nameValue v => (some v, [])
  | _, _ => (none, [.expectedValue cx item.ident])

/-- schemars_derive/src/attr/parse_meta.rs:54-75 (`require_name_value_lit_str`). -/
def requireString (cx : AttrType) (item : MetaItem τ) : Parsed String :=
  match item.negated, item.tokens with
  | false, .nameValue (.str s) => (some s, [])
  | _, _ => (none, [.expectedString cx item.ident])

/-- schemars_derive/src/attr/parse_meta.rs:83-98 (`parse_lit_str`). -/
def parseText {α : Type} (parser : String → Option α) (s : String) : Parsed α :=
  match parser s with
  | some a => (some a, [])
  | none => (none, [.unparsable s])

/-- schemars_derive/src/attr/parse_meta.rs:77-81 (`parse_name_value_lit_str`). -/
def parseString {α : Type} (parser : String → Option α) (cx : AttrType) (item : MetaItem τ) : Parsed α :=
  match requireString cx item with
  | (some s, e) => let (r, e2) := parseText parser s; (r, e ++ e2)
  | (none, e) => (none, e)

/-- schemars_derive/src/attr/parse_meta.rs:301-313 (`parse_name_value_expr_handle_lit_str`). -/
def parseValueOrText (ps : Parsers τ) (cx : AttrType) (item : MetaItem τ) : Parsed (MetaExpr τ) :=
  match parseValue cx item with
  | (some (.str s), e) => let (r, e2) := parseText ps.expr s; (r, e ++ e2)
  | r => r

/-- schemars_derive/src/attr/parse_meta.rs:278-298 (`parse_meta_list_with`); the parser gives `none` when the item
is no list, and `some none` when it fails. -/
def parseListWith {α : Type} (parser : MetaBody τ → Option (Option α)) (cx : AttrType) (item : MetaItem τ) :
    Parsed α :=
  match item.negated, parser item.tokens with
  | false, some (some a) => (some a, [])
  | false, some none => (none, [.syntaxError])
  | _, _ => (none, [.expectedList cx item.ident])

/-- `Punctuated::<CustomMeta, Token![,]>::parse_terminated`. -/
def MetaBody.metas? : MetaBody τ → Option (Option (List (MetaItem τ)))
  | .list metas _ _ _ => some metas
  | _ => none

/-- `Expr::parse`. -/
def MetaBody.expr? : MetaBody τ → Option (Option (MetaExpr τ))
  | .list _ expr _ _ => some expr
  | _ => none

/-- `Punctuated::<Extension, Token![,]>::parse_terminated`. -/
def MetaBody.extensions? : MetaBody τ → Option (Option (List (String × τ)))
  | .list _ _ extensions _ => some extensions
  | _ => none

/-- schemars_derive/src/attr/parse_meta.rs:206-226 (`ContainsFormat::parse`). -/
def MetaBody.contains? : MetaBody τ → Option (Option (List (MetaItem τ) ⊕ MetaExpr τ))
  | .list metas expr _ looksLikeMetas =>
    some (if looksLikeMetas then metas.map .inl else expr.map .inr)
  | _ => none

/-- schemars_derive/src/attr/parse_meta.rs:270-276 (`parse_nested_meta`). -/
def parseNested (cx : AttrType) (item : MetaItem τ) : Parsed (List (MetaItem τ)) :=
  parseListWith MetaBody.metas? cx item

/-- schemars_derive/src/attr/parse_meta.rs:315-320 (`LengthOrRange`). -/
structure LengthMeta (τ : Type) where
  min : Option (MetaExpr τ) := none
  max : Option (MetaExpr τ) := none
  equal : Option (MetaExpr τ) := none
  deriving DecidableEq

/-- schemars_derive/src/attr/parse_meta.rs:112-141: one item in `length(…)` or `range(…)`. -/
def lengthStep (ps : Parsers τ) (cx : AttrType) (outer : String) (r : LengthMeta τ) (item : MetaItem τ) :
    LengthMeta τ × List MetaError :=
  if item.ident = some "min" then
    if r.min.isSome then (r, reportIf cx (.duplicate item.ident))
    else if r.equal.isSome then (r, reportIf cx (.exclusive item.ident "equal"))
    else let (x, e) := parseValueOrText ps cx item; ({ r with min := x }, e)
  else if item.ident = some "max" then
    if r.max.isSome then (r, reportIf cx (.duplicate item.ident))
    else if r.equal.isSome then (r, reportIf cx (.exclusive item.ident "equal"))
    else let (x, e) := parseValueOrText ps cx item; ({ r with max := x }, e)
  else if item.ident = some "equal" then
    if r.min.isSome then (r, reportIf cx (.exclusive item.ident "min"))
    else if r.max.isSome then (r, reportIf cx (.exclusive item.ident "max"))
    else if r.equal.isSome then (r, reportIf cx (.duplicate item.ident))
    else let (x, e) := parseValueOrText ps cx item; ({ r with equal := x }, e)
  else (r, reportIf cx (.unknownNested outer item.ident))

/-- schemars_derive/src/attr/parse_meta.rs:112-141: the loop. -/
def lengthLoop (ps : Parsers τ) (cx : AttrType) (outer : String) :
    List (MetaItem τ) → LengthMeta τ → LengthMeta τ × List MetaError
  | [], r => (r, [])
  | item :: l, r =>
    let (r1, e1) := lengthStep ps cx outer r item
    let (r2, e2) := lengthLoop ps cx outer l r1
    (r2, e1 ++ e2)

/-- schemars_derive/src/attr/parse_meta.rs:108-144 (`parse_length_or_range`). -/
def parseLengthOrRange (ps : Parsers τ) (cx : AttrType) (outer : String) (item : MetaItem τ) :
    Parsed (LengthMeta τ) :=
  match parseNested cx item with
  | (some l, e) => let (r, e2) := lengthLoop ps cx outer l {}; (some r, e ++ e2)
  | (none, e) => (none, e)

/-- schemars_derive/src/attr/parse_meta.rs:153-170: the items in `regex(…)` of schemars. -/
def schemarsRegexLoop (cx : AttrType) : List (MetaItem τ) → Option (MetaExpr τ) → Option (MetaExpr τ) × List MetaError
  | [], r => (r, [])
  | item :: l, r =>
    let (r1, e1) :=
      if item.ident = some "pattern" then
        if r.isSome then (r, reportIf cx (.duplicate item.ident)) else parseValue cx item
      else if item.ident = some "path" then (r, [.unsupported "regex" "path"])
      else (r, [.unknownNested "regex" item.ident])
    let (r2, e2) := schemarsRegexLoop cx l r1
    (r2, e1 ++ e2)

/-- schemars_derive/src/attr/parse_meta.rs:150-177 (`parse_schemars_regex`). -/
def parseSchemarsRegex (cx : AttrType) (item : MetaItem τ) : Parsed (MetaExpr τ) :=
  match parseNested cx item with
  | (some l, e) =>
    match schemarsRegexLoop cx l none with
    | (some p, e2) => (some p, e ++ e2)
    | (none, e2) => (none, e ++ e2 ++ [.missing "regex" "pattern"])
  | (none, e) => (none, e)

/-- schemars_derive/src/attr/parse_meta.rs:182-195: the items in `regex(…)` of validator. -/
def validateRegexLoop (ps : Parsers τ) (cx : AttrType) :
    List (MetaItem τ) → Option (MetaExpr τ) → Option (MetaExpr τ) × List MetaError
  | [], r => (r, [])
  | item :: l, r =>
    let (r1, e1) :=
      if item.ident = some "path" then
        if r.isSome then (r, reportIf cx (.duplicate item.ident)) else parseValueOrText ps cx item
      else if item.ident = some "pattern" then (r, [.unsupported "regex" "pattern"])
      else (r, [])
    let (r2, e2) := validateRegexLoop ps cx l r1
    (r2, e1 ++ e2)

/-- schemars_derive/src/attr/parse_meta.rs:179-203 (`parse_validate_regex`). -/
def parseValidateRegex (ps : Parsers τ) (cx : AttrType) (item : MetaItem τ) : Parsed (MetaExpr τ) :=
  match parseNested cx item with
  | (some l, e) =>
    match validateRegexLoop ps cx l none with
    | (some p, e2) => (some p, e ++ e2)
    | (none, e2) => (none, e ++ e2 ++ [.missing "regex" "path"])
  | (none, e) => (none, e)

/-- schemars_derive/src/attr/parse_meta.rs:244-259: the items in `contains(…)`. -/
def containsLoop (cx : AttrType) : List (MetaItem τ) → Option (MetaExpr τ) → Option (MetaExpr τ) × List MetaError
  | [], r => (r, [])
  | item :: l, r =>
    let (r1, e1) :=
      if item.ident = some "pattern" then
        if r.isSome then (r, reportIf cx (.duplicate item.ident)) else parseValue cx item
      else (r, reportIf cx (.unknownNested "contains" item.ident))
    let (r2, e2) := containsLoop cx l r1
    (r2, e1 ++ e2)

/-- schemars_derive/src/attr/parse_meta.rs:228-240: items or one expression. The attribute types other than
`validate` and `garde` are read like `schemars` (the crate panics for `serde`, which is never passed). -/
def parseContainsFormat (cx : AttrType) (item : MetaItem τ) : Parsed (List (MetaItem τ) ⊕ MetaExpr τ) :=
  match cx with
  | .validate => parseListWith (fun b => b.metas?.map (·.map .inl)) cx item
  | .garde => parseListWith (fun b => b.expr?.map (·.map .inr)) cx item
  | _ => parseListWith MetaBody.contains? cx item

/-- schemars_derive/src/attr/parse_meta.rs:205-268 (`parse_contains`). -/
def parseContains (cx : AttrType) (item : MetaItem τ) : Parsed (MetaExpr τ) :=
  match parseContainsFormat cx item with
  | (some (.inr x), e) => (some x, e)
  | (some (.inl l), e) =>
    match containsLoop cx l none with
    | (some p, e2) => (some p, e ++ e2)
    | (none, e2) => (none, e ++ e2 ++ [.missing "contains" "pattern"])
  | (none, e) => (none, e)

/-! ## mod.rs -/

/-- schemars_derive/src/attr/mod.rs:491-503 (`AttrCtxt::parse_meta`): the new state, the errors, and the items
that were not handled (for which `handle` gives `none`). -/
def parseMeta {σ : Type} (handle : String → MetaItem τ → σ → Option (σ × List MetaError)) :
    List (MetaItem τ) → σ → σ × List MetaError × List (MetaItem τ)
  | [], s => (s, [], [])
  | item :: l, s =>
    match item.ident.bind fun name => handle name item s with
    | some (s1, e1) => let (s2, e2, rest) := parseMeta handle l s1; (s2, e1 ++ e2, rest)
    | none => let (s2, e2, rest) := parseMeta handle l s; (s2, e2, item :: rest)

/-- schemars_derive/src/attr/mod.rs:539-560 (`AttrCtxt::drop`, `is_schemars_serde_keyword`). -/
def unknownErrors (cx : AttrType) (rest : List (MetaItem τ)) : List MetaError :=
  if cx = .schemars then
    (rest.filter fun i => !(i.ident.any fun k => schemarsKeywords.contains k)).map fun i => .unknown i.ident
  else []

/-- schemars_derive/src/attr/mod.rs:25-34 (`CommonAttrs`), without `doc` and `deprecated`. -/
structure CommonMeta (τ : Type) where
  title : Option (MetaExpr τ) := none
  description : Option (MetaExpr τ) := none
  examples : List (MetaExpr τ) := []
  extensions : List (String × τ) := []
  transforms : List (MetaExpr τ) := []
  deriving DecidableEq

/-- schemars_derive/src/attr/mod.rs:122-134: the extensions of one item. -/
def addExtensions : List (String × τ) → List (String × τ) → List (String × τ) × List MetaError
  | [], exts => (exts, [])
  | x :: l, exts =>
    if exts.any fun e => e.1 == x.1 then
      let (r, e) := addExtensions l exts; (r, .duplicateExtension x.1 :: e)
    else addExtensions l (exts ++ [x])

/-- schemars_derive/src/attr/mod.rs:85-165 (`CommonAttrs::process_meta`). -/
def commonMeta (ps : Parsers τ) (cx : AttrType) (name : String) (item : MetaItem τ) (a : CommonMeta τ) :
    Option (CommonMeta τ × List MetaError) :=
  if name = "title" then some <|
    if a.title.isSome then (a, reportIf cx (.duplicate item.ident))
    else let (x, e) := parseValue cx item; ({ a with title := x }, e)
  else if name = "description" then some <|
    if a.description.isSome then (a, reportIf cx (.duplicate item.ident))
    else let (x, e) := parseValue cx item; ({ a with description := x }, e)
  else if name = "example" then some <|
    match parseValue cx item with
    | (some (.str s), e) =>
      ({ a with examples := a.examples ++ [.str s] }, e ++ if (ps.path s).isSome then [.stringExample] else [])
    | (some x, e) => ({ a with examples := a.examples ++ [x] }, e)
    | (none, e) => (a, e)
  else if name = "extend" then some <|
    match parseListWith MetaBody.extensions? cx item with
    | (some l, e) => let (exts, e2) := addExtensions l a.extensions; ({ a with extensions := exts }, e ++ e2)
    | (none, e) => (a, e)
  else if name = "transform" then some <|
    match parseValue cx item with
    | (some (.str s), e) => (a, e ++ if (ps.expr s).isSome then [.stringTransform] else [])
    | (some x, e) => ({ a with transforms := a.transforms ++ [x] }, e)
    | (none, e) => (a, e)
  else none

/-- schemars_derive/src/attr/mod.rs:62-65 (`WithAttr`). -/
inductive WithMeta (τ : Type) where
  | type (t : τ)
  | function (f : τ)
  deriving DecidableEq

/-- schemars_derive/src/attr/mod.rs:271-275, 353-357, 416-420: `with`. -/
def setWithType (ps : Parsers τ) (cx : AttrType) (item : MetaItem τ) (w : Option (WithMeta τ)) :
    Option (WithMeta τ) × List MetaError :=
  match w with
  | some (.type _) => (w, reportIf cx (.duplicate item.ident))
  | some (.function _) => (w, reportIf cx (.exclusive item.ident "schema_with"))
  | none => let (x, e) := parseString ps.type cx item; (x.map .type, e)

/-- schemars_derive/src/attr/mod.rs:276-284, 358-366, 421-429: `schema_with`. -/
def setWithFunction (ps : Parsers τ) (cx : AttrType) (item : MetaItem τ) (w : Option (WithMeta τ)) :
    Option (WithMeta τ) × List MetaError :=
  match w with
  | some (.function _) => (w, reportIf cx (.duplicate item.ident))
  | some (.type _) => (w, reportIf cx (.exclusive item.ident "with"))
  | none => let (x, e) := parseString ps.path cx item; (x.map .function, e)

/-- schemars_derive/src/attr/mod.rs:264-290 (`FieldAttrs::process_meta`) and
schemars_derive/src/attr/mod.rs:409-435 (`VariantAttrs::process_meta`). -/
def withMeta (ps : Parsers τ) (cx : AttrType) (name : String) (item : MetaItem τ) (w : Option (WithMeta τ)) :
    Option (Option (WithMeta τ) × List MetaError) :=
  if name = "with" then some (setWithType ps cx item w)
  else if name = "schema_with" ∧ cx = .schemars then some (setWithFunction ps cx item w)
  else none

/-! ## validation.rs -/

/-- schemars_derive/src/attr/validation.rs:14-21 (`Format`). -/
inductive FormatMeta where
  | email | uri | ip | ipv4 | ipv6
  deriving DecidableEq

/-- schemars_derive/src/attr/validation.rs:24-32 (`attr_str`). -/
def FormatMeta.attrStr : FormatMeta → String
  | .email => "email"
  | .uri => "url"
  | .ip => "ip"
  | .ipv4 => "ipv4"
  | .ipv6 => "ipv6"

/-- schemars_derive/src/attr/validation.rs:44-53 (`from_attr_str`). -/
def FormatMeta.fromAttrStr (s : String) : Option FormatMeta :=
  if s = "email" then some .email
  else if s = "url" then some .uri
  else if s = "ip" then some .ip
  else if s = "ipv4" then some .ipv4
  else if s = "ipv6" then some .ipv6
  else none

/-- schemars_derive/src/attr/validation.rs:56-66 (`ValidationAttrs`), without `inner`. -/
structure ValidationSlots (τ : Type) where
  length : Option (LengthMeta τ) := none
  range : Option (LengthMeta τ) := none
  pattern : Option (MetaExpr τ) := none
  regex : Option (MetaExpr τ) := none
  contains : Option (MetaExpr τ) := none
  required : Bool := false
  format : Option FormatMeta := none
  deriving DecidableEq

/-- schemars_derive/src/attr/validation.rs:56-66 (`ValidationAttrs`). -/
structure ValidationMeta (τ : Type) where
  slots : ValidationSlots τ := {}
  inner : Option (ValidationMeta τ) := none

/-- schemars_derive/src/attr/validation.rs:225-237 (`handle_format`). -/
def handleFormat (cx : AttrType) (item : MetaItem τ) (format : FormatMeta) (v : ValidationSlots τ) :
    ValidationSlots τ × List MetaError :=
  match v.format with
  | some current =>
    (v, reportIf cx (if current = format then .duplicate item.ident else .exclusive item.ident current.attrStr))
  | none =>
    if cx = .validate then ({ v with format := some format }, [])
    else
      let (ok, e) := requirePathOnly cx item
      (if ok then { v with format := some format } else v, e)

/-- schemars_derive/src/attr/validation.rs:151-223 (`ValidationAttrs::process_meta`), without `inner`. -/
def slotMeta (ps : Parsers τ) (cx : AttrType) (name : String) (item : MetaItem τ) (v : ValidationSlots τ) :
    Option (ValidationSlots τ × List MetaError) :=
  match FormatMeta.fromAttrStr name with
  | some format => some (handleFormat cx item format v)
  | none =>
  if name = "length" then some <|
    if v.length.isSome then (v, reportIf cx (.duplicate item.ident))
    else let (x, e) := parseLengthOrRange ps cx name item; ({ v with length := x }, e)
  else if name = "range" then some <|
    if v.range.isSome then (v, reportIf cx (.duplicate item.ident))
    else let (x, e) := parseLengthOrRange ps cx name item; ({ v with range := x }, e)
  else if name = "required" then some <|
    if v.required then (v, reportIf cx (.duplicate item.ident))
    else
      let (ok, e) := requirePathOnly cx item
      (if ok then { v with required := true } else v, e)
  else if name = "pattern" ∧ cx ≠ .validate then some <|
    if v.pattern.isSome then (v, reportIf cx (.duplicate item.ident))
    else if v.regex.isSome then (v, reportIf cx (.exclusive item.ident "regex"))
    else if v.contains.isSome then (v, reportIf cx (.exclusive item.ident "contains"))
    else let (x, e) := parseListWith MetaBody.expr? cx item; ({ v with pattern := x }, e)
  else if name = "regex" ∧ cx ≠ .garde then some <|
    if v.pattern.isSome then (v, reportIf cx (.exclusive item.ident "pattern"))
    else if v.regex.isSome then (v, reportIf cx (.duplicate item.ident))
    else if v.contains.isSome then (v, reportIf cx (.exclusive item.ident "contains"))
    else
      let (x, e) := if cx = .validate then parseValidateRegex ps cx item else parseSchemarsRegex cx item
      ({ v with regex := x }, e)
  else if name = "contains" then some <|
    if v.pattern.isSome then (v, reportIf cx (.exclusive item.ident "pattern"))
    else if v.regex.isSome then (v, reportIf cx (.exclusive item.ident "regex"))
    else if v.contains.isSome then (v, reportIf cx (.duplicate item.ident))
    else let (x, e) := parseContains cx item; ({ v with contains := x }, e)
  else none

mutual

/-- schemars_derive/src/attr/validation.rs:151-223 (`ValidationAttrs::process_meta`), for an item with a name. -/
def validationItem (ps : Parsers τ) (cx : AttrType) :
    MetaItem τ → ValidationMeta τ → Option (ValidationMeta τ × List MetaError)
  | ⟨none, _, _⟩, _ => none
  | ⟨some name, negated, body⟩, v =>
    if name = "inner" ∧ cx ≠ .validate then
      some <| if negated then (v, [.expectedList cx (some name)]) else innerItems ps cx name body v
    else (slotMeta ps cx name ⟨some name, negated, body⟩ v.slots).map fun r => ({ v with slots := r.1 }, r.2)

/-- schemars_derive/src/attr/validation.rs:209-217: the arguments of `inner(…)`, including the end of the life of
`inner_cx`. -/
def innerItems (ps : Parsers τ) (cx : AttrType) (name : String) :
    MetaBody τ → ValidationMeta τ → ValidationMeta τ × List MetaError
  | .list (some l) _ _ _, v =>
    let (w, e, rest) := validationItems ps cx l (v.inner.getD {})
    ({ v with inner := some w }, e ++ unknownErrors cx rest)
  | .list none _ _ _, v => (v, [.syntaxError])
  | .path, v => (v, [.expectedList cx (some name)])
  | .nameValue _, v => (v, [.expectedList cx (some name)])

/-- schemars_derive/src/attr/mod.rs:491-503 (`parse_meta`) for `ValidationAttrs::process_meta`. -/
def validationItems (ps : Parsers τ) (cx : AttrType) :
    List (MetaItem τ) → ValidationMeta τ → ValidationMeta τ × List MetaError × List (MetaItem τ)
  | [], v => (v, [], [])
  | item :: l, v =>
    match validationItem ps cx item v with
    | some (v1, e1) => let (v2, e2, rest) := validationItems ps cx l v1; (v2, e1 ++ e2, rest)
    | none => let (v2, e2, rest) := validationItems ps cx l v; (v2, e2, item :: rest)

end

/-! ## The attributes of a field, a variant and a container -/

/-- schemars_derive/src/attr/mod.rs:36-41 (`FieldAttrs`). -/
structure FieldMeta (τ : Type) where
  common : CommonMeta τ
  validation : ValidationMeta τ
  withAttr : Option (WithMeta τ)

/-- schemars_derive/src/attr/mod.rs:248-258 (`FieldAttrs::populate`), on the items of the four kinds of attributes;
with the errors. -/
def fieldMeta (ps : Parsers τ) (schemars serde validate garde : List (MetaItem τ)) : FieldMeta τ × List MetaError :=
  let (c1, e1, schemars1) := parseMeta (commonMeta ps .schemars) schemars {}
  let (c2, e2, serde1) := parseMeta (commonMeta ps .serde) serde c1
  let (v1, e3, schemars2) := validationItems ps .schemars schemars1 {}
  let (v2, e4, _) := validationItems ps .validate validate v1
  let (v3, e5, _) := validationItems ps .garde garde v2
  let (w1, e6, schemars3) := parseMeta (withMeta ps .schemars) schemars2 none
  let (w2, e7, _) := parseMeta (withMeta ps .serde) serde1 w1
  (⟨c2, v3, w2⟩, e1 ++ e2 ++ e3 ++ e4 ++ e5 ++ e6 ++ e7 ++ unknownErrors .schemars schemars3)

/-- schemars_derive/src/attr/mod.rs:56-60 (`VariantAttrs`). -/
structure VariantMeta (τ : Type) where
  common : CommonMeta τ
  withAttr : Option (WithMeta τ)

/-- schemars_derive/src/attr/mod.rs:396-403 (`VariantAttrs::populate`). -/
def variantMeta (ps : Parsers τ) (schemars serde : List (MetaItem τ)) : VariantMeta τ × List MetaError :=
  let (c1, e1, schemars1) := parseMeta (commonMeta ps .schemars) schemars {}
  let (c2, e2, serde1) := parseMeta (commonMeta ps .serde) serde c1
  let (w1, e3, schemars2) := parseMeta (withMeta ps .schemars) schemars1 none
  let (w2, e4, _) := parseMeta (withMeta ps .serde) serde1 w1
  (⟨c2, w2⟩, e1 ++ e2 ++ e3 ++ e4 ++ unknownErrors .schemars schemars2)

/-- schemars_derive/src/attr/mod.rs:43-54 (`ContainerAttrs`), without `common` and `repr`. -/
structure ContainerSlots (τ : Type) where
  crateName : Option τ := none
  renameFormat : Option String := none
  inline : Bool := false
  refVariants : Bool := false
  withAttr : Option (WithMeta τ) := none
  deriving DecidableEq

/-- schemars_derive/src/attr/mod.rs:328-386 (`ContainerAttrs::process_meta`). -/
def containerSlotMeta (ps : Parsers τ) (isEnum : Bool) (cx : AttrType) (name : String) (item : MetaItem τ)
    (a : ContainerSlots τ) : Option (ContainerSlots τ × List MetaError) :=
  if name = "crate" then some <|
    if a.crateName.isSome then (a, reportIf cx (.duplicate item.ident))
    else let (x, e) := parseString ps.path cx item; ({ a with crateName := x }, e)
  else if name = "rename" ∧ cx = .schemars then some <|
    if a.renameFormat.isSome then (a, reportIf cx (.duplicate item.ident))
    else let (x, e) := requireString cx item; ({ a with renameFormat := x }, e)
  else if name = "inline" then some <|
    if a.inline then (a, reportIf cx (.duplicate item.ident))
    else
      let (ok, e) := requirePathOnly cx item
      (if ok then { a with inline := true } else a, e)
  else if name = "with" ∧ cx = .schemars then some <|
    let (w, e) := setWithType ps cx item a.withAttr; ({ a with withAttr := w }, e)
  else if name = "schema_with" ∧ cx = .schemars then some <|
    let (w, e) := setWithFunction ps cx item a.withAttr; ({ a with withAttr := w }, e)
  else if name = "_unstable_ref_variants" ∧ cx = .schemars then some <|
    if !isEnum then (a, [.notEnum])
    else if a.refVariants then (a, reportIf cx (.duplicate item.ident))
    else
      let (ok, e) := requirePathOnly cx item
      (if ok then { a with refVariants := true } else a, e)
  else none

/-- schemars_derive/src/attr/mod.rs:43-54 (`ContainerAttrs`), without `repr`. -/
structure ContainerMeta (τ : Type) where
  common : CommonMeta τ
  slots : ContainerSlots τ

/-- schemars_derive/src/attr/mod.rs:310-322 (`ContainerAttrs::populate`), without `repr`. -/
def containerMeta (ps : Parsers τ) (isEnum : Bool) (schemars serde : List (MetaItem τ)) :
    ContainerMeta τ × List MetaError :=
  let (c1, e1, schemars1) := parseMeta (commonMeta ps .schemars) schemars {}
  let (c2, e2, serde1) := parseMeta (commonMeta ps .serde) serde c1
  let (a1, e3, schemars2) := parseMeta (containerSlotMeta ps isEnum .schemars) schemars1 {}
  let (a2, e4, _) := parseMeta (containerSlotMeta ps isEnum .serde) serde1 a1
  (⟨c2, a2⟩, e1 ++ e2 ++ e3 ++ e4 ++ unknownErrors .schemars schemars2)

/-- The attributes other than `serde` and `schemars`. `none` means that the items do not parse. -/
inductive OtherAttr (τ : Type) where
  | validate (items : Option (List (MetaItem τ)))
  | garde (items : Option (List (MetaItem τ)))
  | doc (value : MetaExpr τ)
  | deprecated
  | other

/-- schemars_derive/src/attr/mod.rs:448-463 (`get_meta_items`) for `validate`. -/
def validateItems : List (Attr (MetaBody τ) (OtherAttr τ)) → List (MetaItem τ)
  | [] => []
  | .other (.validate (some l)) :: r => l ++ validateItems r
  | _ :: r => validateItems r

/-- schemars_derive/src/attr/mod.rs:448-463 (`get_meta_items`) for `garde`. -/
def gardeItems : List (Attr (MetaBody τ) (OtherAttr τ)) → List (MetaItem τ)
  | [] => []
  | .other (.garde (some l)) :: r => l ++ gardeItems r
  | _ :: r => gardeItems r

/-- schemars_derive/src/attr/doc.rs:8-12: the values of `#[doc = …]`. -/
def docLines : List (Attr (MetaBody τ) (OtherAttr τ)) → List (MetaExpr τ)
  | [] => []
  | .other (.doc x) :: r => x :: docLines r
  | _ :: r => docLines r

/-- schemars_derive/src/attr/doc.rs:18-29: a literal loses one space at its start. -/
def docLine : MetaExpr τ → MetaExpr τ
  | .str s => match s.toList with
    | ' ' :: r => .str (String.ofList r)
    | _ => .str s
  | x => x

/-- schemars_derive/src/attr/doc.rs:5-37 (`get_doc`): the arguments of `concat!`. -/
def getDoc (attrs : List (Attr (MetaBody τ) (OtherAttr τ))) : Option (List (MetaExpr τ)) :=
  match docLines attrs with
  | [] => none
  | x :: l => some (docLine x :: l.flatMap fun y => [.str "\n", docLine y])

/-- schemars_derive/src/attr/mod.rs:78. -/
def isDeprecated (attrs : List (Attr (MetaBody τ) (OtherAttr τ))) : Bool :=
  attrs.any fun a => match a with
    | .other .deprecated => true
    | _ => false

/-- What goes wrong with the attributes of a field, a variant or a container. -/
inductive AttrsError where
  /-- schemars_derive/src/attr/schemars_to_serde.rs -/
  | processing (errors : List AttrError)
  /-- schemars_derive/src/attr/mod.rs -/
  | reading (errors : List MetaError)
  deriving DecidableEq

/-- schemars_derive/src/lib.rs:47-50 (`derive_json_schema`) as far as the attributes of one field are concerned:
the attributes given to serde, and the `FieldAttrs`. -/
def deriveField (ps : Parsers τ) (attrs : List (Attr (MetaBody τ) (OtherAttr τ))) :
    Except AttrsError (List (MetaItem τ) × FieldMeta τ) :=
  let (attrs2, e) := processAttrs attrs
  if e ≠ [] then .error (.processing e)
  else
    let (f, e2) := fieldMeta ps (schemarsItems attrs2).1 (serdeItems attrs2) (validateItems attrs2) (gardeItems attrs2)
    if e2 ≠ [] then .error (.reading e2) else .ok (serdeItems attrs2, f)

/-- schemars_derive/src/lib.rs:47-50 (`derive_json_schema`) as far as the attributes of one variant are concerned. -/
def deriveVariant (ps : Parsers τ) (attrs : List (Attr (MetaBody τ) (OtherAttr τ))) :
    Except AttrsError (List (MetaItem τ) × VariantMeta τ) :=
  let (attrs2, e) := processAttrs attrs
  if e ≠ [] then .error (.processing e)
  else
    let (f, e2) := variantMeta ps (schemarsItems attrs2).1 (serdeItems attrs2)
    if e2 ≠ [] then .error (.reading e2) else .ok (serdeItems attrs2, f)

/-- schemars_derive/src/lib.rs:47-50 (`derive_json_schema`) as far as the attributes of the container are concerned,
without `repr`. -/
def deriveContainer (ps : Parsers τ) (isEnum : Bool) (attrs : List (Attr (MetaBody τ) (OtherAttr τ))) :
    Except AttrsError (List (MetaItem τ) × ContainerMeta τ) :=
  let (attrs2, e) := processAttrs attrs
  if e ≠ [] then .error (.processing e)
  else
    let (f, e2) := containerMeta ps isEnum (schemarsItems attrs2).1 (serdeItems attrs2)
    if e2 ≠ [] then .error (.reading e2) else .ok (serdeItems attrs2, f)

end

end Verif
