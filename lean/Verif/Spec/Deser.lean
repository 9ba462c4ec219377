import Verif.Spec.Serde

/-!
# What serde reads

The JSON documents that serde (with `serde_json`) reads as values of a type, from the declaration of the type. Like
`Verif.Spec.Serde` this is a specification of serde, written from its documentation and source, and says nothing
about schemas. `Read … t j` is the smallest relation that is closed under the rules below.

serde reads more than the forms that its documentation shows for a type. `Quirks` says how much of that is counted:
with `lax := false` and no further names only the documented forms are, and with `lax := true` also those that
follow from how the derived visitors and `serde_json` work: a struct from an array, a unit variant from an object with
null, a set from an array with repetitions, and so on. The names that `#[serde(alias = "…")]` adds, and the variants
with `#[serde(other)]`, do not occur in the declarations of the model, since `schemars_derive` does not read these
attributes; so they are given by functions.

Simplifications: texts in formats (`Ipv4Addr`, dates and the like) are read if `parses` says so; a field or type with
`with`, `from` and so on is read as the type whose schema is used; a flattened type with such attributes, and a
flattened tuple struct with one field, is read from all members, also if the type inside would get only some.
-/

namespace Verif
namespace Spec

variable {τ : Type}

/-- How much of what serde reads is counted, and what the declarations do not say. -/
structure Quirks (τ : Type) where
  /-- also the forms that the documentation does not show -/
  lax : Bool := false
  /-- the names of `#[serde(alias = "…")]` on fields -/
  aliases : Field τ → List String := fun _ => []
  /-- the names of `#[serde(alias = "…")]` on variants -/
  variantAliases : Variant τ → List String := fun _ => []
  /-- `#[serde(other)]` -/
  other : Variant τ → Bool := fun _ => false
  /-- what serde reads for flattened fields whatever else is there: an optional field is `None` if its members cannot be
  read, whatever the reason is, and an externally tagged enum is read from one of several members that name variants -/
  lenient : Bool := false
  /-- the texts that are read for a format -/
  parses : String → String → Prop := fun _ _ => True

/-- Only the documented forms, and no names but those of the declarations. -/
structure Documented (q : Quirks τ) : Prop where
  lax : q.lax = false
  aliases : ∀ f, q.aliases f = []
  variantAliases : ∀ v, q.variantAliases v = []
  other : ∀ v, q.other v = false

/-- The text of a decimal number with a positive exponent. -/
def ScientificText (s : String) : Prop :=
  ∃ mantissa e digits, s.toList = mantissa ++ e :: digits ∧ DecimalText (String.ofList mantissa) ∧ (e = 'e' ∨ e = 'E') ∧
    Digits digits

/-- The text of a decimal number with a negative exponent. -/
def SmallText (s : String) : Prop :=
  ∃ mantissa e digits, s.toList = mantissa ++ e :: '-' :: digits ∧ DecimalText (String.ofList mantissa) ∧
    (e = 'e' ∨ e = 'E') ∧ Digits digits

section
variable (w : Nat) (q : Quirks τ) (R : τ → Json → Prop)

/-- The standard types; `w` is the width of a pointer. Most are read as they are written. -/
def ReadStd : Std τ → Json → Prop
  | .formatted t f, j => EncSimple t j ∧ ∀ s, j = .str s → q.parses f s
  | .set t, j => ∃ l, j = .arr l ∧ (∀ x ∈ l, R t x) ∧ (q.lax = true ∨ l.Pairwise fun a b => jeq a b = false)
  | .bound t, j => EncStd w R (.bound t) j ∨ (q.lax = true ∧ j = .obj [("Unbounded", .null)])
  | .range t, j => EncStd w R (.range t) j ∨ (q.lax = true ∧ ∃ x y, j = .arr [x, y] ∧ R t x ∧ R t y)
  | .duration, j => EncStd w R .duration j ∨
      (q.lax = true ∧ ∃ x y, j = .arr [x, y] ∧ EncUnsigned 64 x ∧ EncUnsigned 32 y)
  | .systemTime, j => EncStd w R .systemTime j ∨
      (q.lax = true ∧ ∃ x y, j = .arr [x, y] ∧ EncUnsigned 64 x ∧ EncUnsigned 32 y)
  | .cString, j => EncStd w R .cString j ∨ ∃ s, j = .str s ∧ '\x00' ∉ s.toList
  | .bytes u8, j => EncStd w R (.bytes u8) j ∨ ∃ s, j = .str s
  | .decimal, j => (∃ x, j = .num x) ∨
      ∃ s, j = .str s ∧ (DecimalText s ∨ ScientificText s ∨ (q.lax = true ∧ SmallText s))
  | s, j => EncStd w R s j

-- `R` says what is read for the types mentioned, and `F` for the fields.
variable (F : Field τ → Json → Prop) (base : τ → τ) (decl : τ → Decl τ)

/-- A field of this type may be missing: serde then reads `None`. What it asks is whether the type can be read
from nothing, which also a `transparent` struct and a type with `from` can, if the type inside can. -/
inductive MissingOk : τ → Prop where
  | option {t u} : decl t = .std (.option u) → MissingOk t
  | transparent {t c f} : q.lax = true → decl t = .derived c → c.withTy = none → c.transparent = some f →
      MissingOk (fieldType base f) → MissingOk t
  | source {t c u} : q.lax = true → decl t = .derived c → c.withTy = none → c.transparent = none → c.fromTy = some u →
      MissingOk u → MissingOk t

/-- The member for the field may be missing. `cd` is a `default` of the container. -/
def MayMiss (cd : Bool) (f : Field τ) : Prop :=
  cd = true ∨ f.hasDefault = true ∨ (f.required = false ∧ MissingOk q base decl f.ty)

/-- The names that a field is read under. -/
def namesOf (f : Field τ) : List String := f.name.de :: q.aliases f

/-- The names that a variant is read under. -/
def variantNames (v : Variant τ) : List String := v.name.de :: q.variantAliases v

/-- The fields of a variant that are read: a newtype variant whose field is skipped is read as a unit variant. -/
def readAs (v : Variant τ) : Fields τ :=
  match v.fields with
  | .newtype f => if f.skipDe then .unit else .newtype f
  | fields => fields

/-- A variant that has no content. -/
def hollow (v : Variant τ) : Prop := v.withTy = none ∧ readAs v = .unit

/-- The types that are written as null: `()` and unit structs. -/
def NullType (t : τ) : Prop :=
  decl t = .std (.simple "null") ∨ ∃ c, decl t = .derived c ∧ c.withTy = none ∧ c.transparent = none ∧
    c.fromTy = none ∧ c.data = .struct .unit

/-- Which members a flattened field gets. -/
inductive Share (τ : Type) where
  /-- all that are left, which it leaves for the fields after it -/
  | all
  /-- those with one of the names, which it takes away -/
  | named (names : List String)
  /-- one with the name of a variant, which it takes away -/
  | one (vs : List (Variant τ))

/-- A struct without flattened fields asks for its fields, an adjacently tagged enum for tag and content, and an
externally tagged enum for its variants. Everything else that is read from a map looks at all members. -/
def share (t : τ) : Share τ :=
  match decl t with
  | .std _ => .all
  | .derived c => match c.withTy, c.transparent, c.fromTy, c.data with
    | none, none, none, .struct (.struct fs) =>
      if fs.any fun f => !f.skipDe && f.flatten then .all
      else .named ((fs.filter fun f => !f.skipDe).flatMap (namesOf q))
    | none, none, none, .enum .external vs => if vs.any fun v => v.untagged then .all else .one vs
    | none, none, none, .enum (.adjacent tag content) vs =>
      if vs.any fun v => v.untagged then .all else .named [tag, content]
    | _, _, _, _ => .all

/-- The names of the members that a flattened field of the type looks for, if it does not look at all. -/
def wants (t : τ) : Option (List String) :=
  match share q decl t with
  | .all => none
  | .named ns => some ns
  | .one vs => some ((vs.filter fun v => !v.skipDe).flatMap (variantNames q))

/-- The members that a flattened field of the type looks at. -/
def seen (t : τ) (o : List (String × Json)) : List (String × Json) :=
  match wants q decl t with
  | none => o
  | some ns => o.filter fun e => ns.contains e.1

/-- The members that are left after it. -/
def leave (t : τ) (o : List (String × Json)) : List (String × Json) :=
  match wants q decl t with
  | none => o
  | some ns => o.filter fun e => !ns.contains e.1

/-- The members for no field of the struct itself. -/
def unclaimed (fs : List (Field τ)) (o : List (String × Json)) : List (String × Json) :=
  o.filter fun e => !fs.any fun f => !f.skipDe && !f.flatten && (namesOf q f).contains e.1

/-- The flattened fields of a struct, one after the other, from the members before it to those after it. A type that is
written as null is read from nothing. An externally tagged enum is read from one member, which is null for a unit
variant; if there are members for more than one variant, serde takes the first of them in the document (here: any, with
`lenient`). An optional field is `None` if there are no members for it. -/
inductive ReadFlattened : List (Field τ) → List (String × Json) → List (String × Json) → Prop where
  | nil {o} : ReadFlattened [] o o
  | pass {f fs o o'} : f.skipDe = true ∨ f.flatten = false → ReadFlattened fs o o' → ReadFlattened (f :: fs) o o'
  | part {f fs o o'} : f.skipDe = false → f.flatten = true →
      R (base f.ty) (.obj (seen q decl (base f.ty) o)) ∨ NullType decl (base f.ty) →
      ReadFlattened fs (leave q decl (base f.ty) o) o' → ReadFlattened (f :: fs) o o'
  | one {f fs o o' vs n x} : f.skipDe = false → f.flatten = true → share q decl (base f.ty) = .one vs →
      (n, x) ∈ seen q decl (base f.ty) o → q.lenient = true ∨ seen q decl (base f.ty) o = [(n, x)] →
      R (base f.ty) (.obj [(n, x)]) ∨
        (x = .null ∧ ∃ v ∈ vs, v.skipDe = false ∧ hollow v ∧ n ∈ variantNames q v) →
      ReadFlattened fs (Obj.remove o n) o' → ReadFlattened (f :: fs) o o'
  | none {f fs o o' u} : f.skipDe = false → f.flatten = true → f.required = false → decl f.ty = .std (.option u) →
      seen q decl (base f.ty) o = [] ∨ q.lenient = true →
      ReadFlattened fs (leave q decl (base f.ty) o) o' → ReadFlattened (f :: fs) o o'

/-- A field is read from a member with one of its names, or from none. -/
def ReadMember (cd : Bool) (f : Field τ) (o : List (String × Json)) : Prop :=
  (∃ n ∈ namesOf q f, ∃ x, Obj.get o n = some x ∧ F f x ∧
    ∀ m ∈ namesOf q f, m ≠ n → Obj.get o m = none) ∨
  ((∀ n ∈ namesOf q f, Obj.get o n = none) ∧ MayMiss q base decl cd f)

/-- The members of a struct: those for its own fields; the flattened fields are read from the other members; and nothing
is left if unknown members are denied. -/
def ReadFields (cd deny : Bool) (fs : List (Field τ)) (o : List (String × Json)) : Prop :=
  (∀ f ∈ fs, f.skipDe = false → f.flatten = false → ReadMember q F base decl cd f o) ∧
  ∃ left, ReadFlattened q R base decl fs (unclaimed q fs o) left ∧ (deny = true → left = [])

/-- The elements of a tuple struct, in order. At the end, elements with a default may be missing. -/
inductive ReadElems (cd : Bool) : List (Field τ) → List Json → Prop where
  | nil : ReadElems cd [] []
  | skip {f fs l} : f.skipDe = true → ReadElems cd fs l → ReadElems cd (f :: fs) l
  | elem {f fs l} (x) : f.skipDe = false → F f x → ReadElems cd fs l → ReadElems cd (f :: fs) (x :: l)
  | missing {f fs} : q.lax = true → f.skipDe = false → cd = true ∨ f.hasDefault = true → ReadElems cd fs [] →
      ReadElems cd (f :: fs) []

/-- The contents of a struct or a variant. `seq` says whether a struct with named fields can be read from an array. -/
def ReadContent (seq cd deny : Bool) : Fields τ → Json → Prop
  | .unit, j => j = .null
  | .newtype f, j => F f j
  | .tuple fs, j => ∃ l, j = .arr l ∧ ReadElems q F cd fs l
  | .struct fs, j => (∃ o, j = .obj o ∧ ReadFields q R F base decl cd deny fs o) ∨
      (q.lax = true ∧ seq = true ∧ (∀ f ∈ fs, f.skipDe = false → f.flatten = false) ∧
        ∃ l, j = .arr l ∧ ReadElems q F cd fs l)

/-- The contents of a variant, which `with` may replace. -/
def ReadVariant (seq deny : Bool) (v : Variant τ) (j : Json) : Prop :=
  match v.withTy with
  | some t => R t j
  | none => ReadContent q R F base decl seq false deny (readAs v) j

/-- A value of the type is read from the members next to a tag; null from none. -/
def ReadInside (t : τ) (o : List (String × Json)) : Prop := R t (.obj o) ∨ (NullType decl t ∧ o = [])

/-- The members of a variant of an internally tagged enum next to the tag. serde ignores all members for a unit
variant, also if unknown members are denied. -/
def ReadTagged (deny : Bool) (v : Variant τ) (o : List (String × Json)) : Prop :=
  match v.withTy with
  | some t => ReadInside R decl t o
  | none => match readAs v with
    | .unit => q.lax = true ∨ (deny = true → o = [])
    | .newtype f => ReadInside R decl (fieldType base f) o
    | .tuple _ => False
    | .struct fs => ReadFields q R F base decl false deny fs o

/-- The content of a variant of an adjacently tagged enum. It may be null for a unit variant, and missing for a
newtype variant whose field may be missing. -/
def ReadBeside (deny : Bool) (v : Variant τ) (content : Option Json) : Prop :=
  (hollow v ∧ (content = none ∨ (q.lax = true ∧ content = some .null))) ∨
  (¬ hollow v ∧ ∃ x, content = some x ∧ ReadVariant q R F base decl true deny v x) ∨
  (q.lax = true ∧ content = none ∧ v.withTy = none ∧
    ∃ f, readAs v = .newtype f ∧ MissingOk q base decl (fieldType base f))

/-- The text names no variant. -/
def Unnamed (vs : List (Variant τ)) (n : String) : Prop := ∀ v ∈ vs, v.skipDe = false → n ∉ variantNames q v

/-- The variants of an enum; `vs` are all of them. -/
def ReadEnum (tag : TagType) (deny : Bool) (vs : List (Variant τ)) (v : Variant τ) (j : Json) : Prop :=
  if v.untagged then ReadVariant q R F base decl false deny v j
  else match tag with
    | .external => ∃ n ∈ variantNames q v,
      (hollow v ∧ (j = .str n ∨ (q.lax = true ∧ j = .obj [(n, .null)]))) ∨
      (¬ hollow v ∧ OneMember n (ReadVariant q R F base decl true deny v) j)
    | .internal tag => ∃ n,
      (∃ o, j = .obj o ∧ Obj.get o tag = some (.str n) ∧
        ((n ∈ variantNames q v ∧ ReadTagged q R F base decl deny v (Obj.remove o tag)) ∨
         (q.other v = true ∧ Unnamed q vs n))) ∨
      (q.lax = true ∧ n ∈ variantNames q v ∧ ∃ l fs, j = .arr (.str n :: l) ∧ v.withTy = none ∧
        readAs v = .struct fs ∧ ReadElems q F false fs l)
    | .adjacent tag content => ∃ n,
      (∃ o, j = .obj o ∧ Obj.get o tag = some (.str n) ∧
        ((n ∈ variantNames q v ∧ ReadBeside q R F base decl deny v (Obj.get o content) ∧
            (deny = true → ∀ e ∈ o, e.1 = tag ∨ e.1 = content)) ∨
         (q.other v = true ∧ Unnamed q vs n ∧ Obj.get o content = none))) ∨
      (q.lax = true ∧ n ∈ variantNames q v ∧ ∃ x, j = .arr [.str n, x] ∧ ReadVariant q R F base decl true deny v x)
    | .none => ReadVariant q R F base decl false deny v j

/-- The derived types. -/
def ReadContainer (c : Container τ) (j : Json) : Prop :=
  match c.withTy, c.transparent, c.fromTy with
  | some t, _, _ => R t j
  | none, some f, _ => F f j
  | none, none, some t => R t j
  | none, none, none => match c.data with
    | .struct fields => ReadContent q R F base decl true c.hasDefault c.denyUnknownFields fields j
    | .enum tag vs => ∃ v ∈ vs, v.skipDe = false ∧ ReadEnum q R F base decl tag c.denyUnknownFields vs v j

/-- What serde reads for a declaration, given what it reads for the types mentioned. -/
def ReadDecl : Decl τ → Json → Prop
  | .std s, j => ReadStd w q R s j
  | .derived c, j => ReadContainer q R F base decl c j

end

/-- What is read for a field is what is read for its type. -/
def ofType (R : τ → Json → Prop) (base : τ → τ) (f : Field τ) (x : Json) : Prop := R (fieldType base f) x

/-- The relation is closed under the rules: what they say can be read is in it. -/
def ReadClosed (w : Nat) (q : Quirks τ) (base : τ → τ) (decl : τ → Decl τ) (X : τ → Json → Prop) : Prop :=
  ∀ t j, ReadDecl w q X (ofType X base) base decl (decl t) j → X t j

/-- serde reads `j` as a value of the type `t`: the smallest relation that is closed under the rules. -/
def Read (w : Nat) (q : Quirks τ) (base : τ → τ) (decl : τ → Decl τ) (t : τ) (j : Json) : Prop :=
  ∀ X, ReadClosed w q base decl X → X t j

/-- What is read for a field if its values must also satisfy `K`. -/
def FieldRead (K : Field τ → Json → Prop) (R : τ → Json → Prop) (base : τ → τ) (f : Field τ) (x : Json) : Prop :=
  R (fieldType base f) x ∧ K f x

/-- serde reads `j` as a value of the type `t`, and the values read for fields, except flattened ones and those next to
a tag, satisfy `K`. -/
def ReadIf (w : Nat) (q : Quirks τ) (K : Field τ → Json → Prop) (base : τ → τ) (decl : τ → Decl τ) (t : τ) (j : Json) :
    Prop :=
  ∀ X : τ → Json → Prop, (∀ t j, ReadDecl w q X (FieldRead K X base) base decl (decl t) j → X t j) → X t j

end Spec

end Verif
