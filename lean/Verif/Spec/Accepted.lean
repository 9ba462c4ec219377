import Verif.Spec.Item

/-!
# Which serde attributes are accepted

The documentation of serde says which words an attribute may have on a container, a variant or a field, and what
follows them. Nothing may be given twice.
-/

namespace Verif.Spec

variable {τ α : Type}

/-- What follows a word in a serde attribute. -/
inductive Form where
  /-- nothing -/
  | flag
  /-- `= "path"` -/
  | path
  /-- `= "Type"` -/
  | type
  /-- `= "text"` -/
  | text
  /-- nothing, or `= "path"` -/
  | default
  /-- `= "Self"`, or `= "path"` -/
  | remote
  /-- `= "text"`, or `(serialize = "text", deserialize = "text")` -/
  | names
  /-- the same, with the name of a rule -/
  | rules
  /-- anything: these words are not looked into -/
  | any

/-- `= "text"`, where the text satisfies `P`. -/
def IsText (P : String → Prop) (b : MetaBody τ) : Prop := ∃ s, b = .nameValue (.str s) ∧ P s

/-- `= "text"` or `(serialize = "text", deserialize = "text")`, where the texts satisfy `P`. -/
def IsNames (P : String → Prop) (b : MetaBody τ) : Prop :=
  IsText P b ∨ ∃ l x e y, b = .list (some l) x e y ∧
    ∀ j ∈ l, j.negated = false ∧ (j.ident = some "serialize" ∨ j.ident = some "deserialize") ∧ IsText P j.tokens

/-- What follows has this form. -/
def HasForm (S : Parsers τ) : Form → MetaBody τ → Prop
  | .flag, b => b = .path
  | .path, b => IsText (fun s => ∃ p, S.path s = some p) b
  | .type, b => IsText (fun s => ∃ p, S.type s = some p) b
  | .text, b => IsText (fun _ => True) b
  | .default, b => b = .path ∨ IsText (fun s => ∃ p, S.path s = some p) b
  | .remote, b => IsText (fun s => s = "Self" ∨ ∃ p, S.path s = some p) b
  | .names, b => IsNames (fun _ => True) b
  | .rules, b => IsNames (fun s => ∃ r, (s, r) ∈ ruleNames) b
  | .any, _ => True

/-- What can be given once. -/
inductive Once where
  | name (c : Contract)
  | rule (c : Contract)
  | fieldRule (c : Contract)
  | skip (c : Contract)
  /-- `with` and `serialize_with` -/
  | writer
  | word (s : String)
  deriving DecidableEq

/-- The directions for which an item gives a text. -/
def directions : MetaBody τ → List Contract
  | .nameValue _ => [.serialize, .deserialize]
  | .list (some l) _ _ _ => l.filterMap fun i =>
    if i.ident = some "serialize" then some .serialize
    else if i.ident = some "deserialize" then some .deserialize else none
  | _ => []

/-- A word: what follows it, and what it gives (for some directions). -/
structure Word where
  name : String
  form : Form
  gives : List Contract → List Once

/-- A word that can be given once. -/
def Word.once (name : String) (form : Form) : Word := ⟨name, form, fun _ => [.word name]⟩

/-- A word that is not looked into. -/
def Word.skipped (name : String) : Word := ⟨name, .any, fun _ => []⟩

/-- The words that leave out a field or variant. -/
def skipWords : List Word :=
  [⟨"skip", .flag, fun _ => [.skip .serialize, .skip .deserialize]⟩,
    ⟨"skip_serializing", .flag, fun _ => [.skip .serialize]⟩,
    ⟨"skip_deserializing", .flag, fun _ => [.skip .deserialize]⟩]

/-- `rename` on a field or variant, which may have several names for reading. -/
def renameWord : Word := ⟨"rename", .names, fun ds => (ds.filter (· = .serialize)).map .name⟩

/-- The words for fields. -/
def fieldWords : List Word :=
  skipWords ++ [renameWord, .once "default" .default, .once "skip_serializing_if" .path,
    ⟨"serialize_with", .path, fun _ => [.writer]⟩, ⟨"with", .path, fun _ => [.writer]⟩, .once "flatten" .flag,
    .skipped "alias", .skipped "bound", .skipped "borrow", .skipped "getter", .skipped "deserialize_with"]

/-- The words for variants. -/
def variantWords : List Word :=
  skipWords ++ [renameWord, ⟨"rename_all", .rules, fun ds => ds.map .rule⟩, .once "untagged" .flag, .skipped "alias",
    .skipped "bound", .skipped "borrow", .skipped "other", .skipped "with", .skipped "serialize_with",
    .skipped "deserialize_with"]

/-- The words for containers of a kind. -/
def containerWords (k : SrcKind) : List Word :=
  [⟨"rename", .names, fun ds => ds.map .name⟩, ⟨"rename_all", .rules, fun ds => ds.map .rule⟩,
    .once "transparent" .flag, .once "deny_unknown_fields" .flag, .once "from" .type, .once "try_from" .type,
    .once "into" .type, .once "remote" .remote, .skipped "bound", .skipped "field_identifier",
    .skipped "variant_identifier", .skipped "crate", .skipped "expecting"] ++
  (if k = .enum then [⟨"rename_all_fields", .rules, fun ds => ds.map .fieldRule⟩, .once "untagged" .flag,
    .once "content" .text] else []) ++
  (if k = .named ∨ k = .unnamed then [.once "default" .default] else []) ++
  (if k = .enum ∨ k = .named then [.once "tag" .text] else [])

/-- What an item gives. -/
def given1 (words : List Word) (i : MetaItem τ) : List Once :=
  words.flatMap fun w => if i.ident = some w.name then w.gives (directions i.tokens) else []

/-- The items are accepted: every item is one of the words with what must follow it, and nothing is given twice. -/
structure ItemsOk (ps : Parsers τ) (words : List Word) (l : List (MetaItem τ)) : Prop where
  each : ∀ i ∈ l, i.negated = false ∧ ∃ w ∈ words, i.ident = some w.name ∧ HasForm ps w.form i.tokens
  once : (l.flatMap (given1 words)).Nodup

/-- The items of all fields are accepted. -/
def ItemFieldsOk (ps : Parsers τ) (items : α → List (MetaItem τ)) (s : SrcFields τ α) : Prop :=
  ∀ f ∈ srcFields (.struct s), ItemsOk ps fieldWords (items f.attrs)

/-- The items of the fields and variants are accepted. -/
def ItemDataOk (ps : Parsers τ) (items : α → List (MetaItem τ)) : SrcData τ α → Prop
  | .struct s => ItemFieldsOk ps items s
  | .enum vs => ∀ v ∈ vs, ItemsOk ps variantWords (items v.attrs) ∧ ItemFieldsOk ps items v.fields

/-- `serde` accepts the declaration with these items. -/
structure SerdeOk (S : Syntax τ) (items : α → List (MetaItem τ)) (item : SrcItem τ α) : Prop where
  own : ItemsOk S.toParsers (containerWords item.data.kind) (items item.attrs)
  data : ItemDataOk S.toParsers items item.data
  /-- `untagged` excludes `tag`, which is needed for `content` -/
  tag : has ["untagged"] (items item.attrs) = true → has ["tag"] (items item.attrs) = false
  content : has ["content"] (items item.attrs) = true → has ["tag"] (items item.attrs) = true
  /-- the tag and the content have different names -/
  distinct : ∀ s, parsedIn "tag" some (items item.attrs) = some s → parsedIn "content" some (items item.attrs) ≠ some s
  /-- no tuples in internally tagged enums -/
  tuples : has ["tag"] (items item.attrs) = true → has ["content"] (items item.attrs) = false →
    ∀ vs, item.data = .enum vs → ∀ v ∈ vs, ∀ l, v.fields = .unnamed l → l.length = 1
  /-- one conversion for reading -/
  conversion : has ["from"] (items item.attrs) = true → has ["try_from"] (items item.attrs) = false
  /-- a transparent container is a struct that has one field that takes part, and is not converted -/
  transparent : has ["transparent"] (items item.attrs) = true →
    has ["from", "try_from", "into"] (items item.attrs) = false ∧ item.data.kind ≠ .enum ∧
    ∃ before s after, srcFields item.data = before ++ s :: after ∧ TakesPart S items s ∧
      (∀ x ∈ before ++ after, ¬ TakesPart S items x)

end Verif.Spec
