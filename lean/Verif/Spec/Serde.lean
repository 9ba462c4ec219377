import Verif.Derive
import Verif.Props.Maps

/-!
# What serde writes

The JSON documents that serde (with `serde_json`) may write for the values of a type, read off the declaration of
the type. This is a specification of serde, written from its documentation and source, and says nothing about
schemas. A declaration is one of the standard types or a derived type; it refers to other types by their names in
`τ`. `Encodes S decl d j` says that `j` may be written for a value of the declaration `d`, if `S t j` says so for
the types that the declaration mentions. `Serialized decl t j` closes this under recursion: values are finite, so
`j` is written by finitely many nested calls. `K f x` says that `x` may be written for the field `f`; `SerializedIf` has
the documents of the values that satisfy this, which is meant for validation attributes. It is asked of the fields that
are written as a whole, which is not the case if they are flattened or put beside a tag.

A type that replaces another (`with`, `from`, `into`, `remote` and so on) is by definition the type whose schema is
used: for such an attribute the specification takes it that the function writes what that type writes, which is
what the schemars documentation asks of the user. Objects are written without duplicate members, and are compared as
the sorted objects of the model.
-/

namespace Verif

/-- The declaration of a type: one of the standard types, or one with derived implementations. -/
inductive Decl (τ : Type) where
  | std (s : Std τ)
  | derived (c : Container τ)

namespace Spec

variable {τ : Type}

/-- The fields of a struct or variant. -/
def allFields : Fields τ → List (Field τ)
  | .unit => []
  | .newtype f => [f]
  | .tuple fs => fs
  | .struct fs => fs

/-- The fields of a declaration. -/
def declFields : Decl τ → List (Field τ)
  | .std _ => []
  | .derived c => c.transparent.toList ++ match c.data with
    | .struct fields => allFields fields
    | .enum _ vs => vs.flatMap fun v => allFields v.fields

/-- The values of the JSON type `t`, as the plain implementations write them. -/
def EncSimple (t : String) (j : Json) : Prop :=
  (t = "null" ∧ j = .null) ∨ (t = "boolean" ∧ ∃ b, j = .bool b) ∨ (t = "string" ∧ ∃ s, j = .str s) ∨
  (t = "number" ∧ ∃ x, j = .num x) ∨ (t = "integer" ∧ ∃ n, j = .num (.int n)) ∨ (t = "object" ∧ ∃ o, j = .obj o) ∨
  (t = "array" ∧ ∃ l, j = .arr l)

/-- The text of a decimal number without an exponent. -/
def DecimalText (s : String) : Prop :=
  ∃ sign whole rest, s.toList = sign ++ whole ++ rest ∧ (sign = [] ∨ sign = ['-']) ∧ Digits whole ∧
    (rest = [] ∨ ∃ frac, rest = '.' :: frac ∧ Digits frac)

/-- An unsigned integer of so many bits, as a document. -/
def EncUnsigned (b : Nat) (j : Json) : Prop := ∃ n : Int, j = .num (.int n) ∧ 0 ≤ n ∧ n < 2 ^ b

/-- An object with exactly these two members. -/
def TwoMembers (a b : String) (P Q : Json → Prop) (j : Json) : Prop :=
  ∃ o x y, j = .obj o ∧ o.Perm [(a, x), (b, y)] ∧ P x ∧ Q y

/-- An object with exactly this member. -/
def OneMember (a : String) (P : Json → Prop) (j : Json) : Prop := ∃ x, j = .obj [(a, x)] ∧ P x

section
variable (w : Nat) (S : τ → Json → Prop)

/-- The standard types; `w` is the width of a pointer. -/
def EncStd : Std τ → Json → Prop
  | .simple t, j => EncSimple t j
  | .formatted t _, j => EncSimple t j
  | .int t, j => ∃ n, j = .num (.int n) ∧ Holds w t n
  | .nonZero t, j => ∃ n, j = .num (.int n) ∧ Holds w t n ∧ n ≠ 0
  | .char, j => ∃ c : Char, j = .str (String.ofList [c])
  | .value, _ => True
  | .option t, j => j = .null ∨ S t j
  | .seq t, j => ∃ l, j = .arr l ∧ ∀ x ∈ l, S t x
  | .set t, j => ∃ l, j = .arr l ∧ (∀ x ∈ l, S t x) ∧ l.Pairwise fun a b => jeq a b = false
  | .emptyArray, j => j = .arr []
  | .array n t, j => ∃ l, j = .arr l ∧ l.length = n ∧ ∀ x ∈ l, S t x
  | .tuple ts, j => ∃ l, j = .arr l ∧ List.Forall₂ S ts l
  | .map k v, j => ∃ o, j = .obj o ∧ ∀ e ∈ o, (∃ x, KeyOf x e.1 ∧ S k x) ∧ S v e.2
  | .result t e, j => OneMember "Ok" (S t) j ∨ OneMember "Err" (S e) j
  | .bound t, j => j = .str "Unbounded" ∨ OneMember "Included" (S t) j ∨ OneMember "Excluded" (S t) j
  | .range t, j => TwoMembers "start" "end" (S t) (S t) j
  | .duration, j => TwoMembers "secs" "nanos" (EncUnsigned 64) (EncUnsigned 32) j
  | .systemTime, j => TwoMembers "secs_since_epoch" "nanos_since_epoch" (EncUnsigned 64) (EncUnsigned 32) j
  | .either l r, j => OneMember "Left" (S l) j ∨ OneMember "Right" (S r) j
  | .osString, j =>
    OneMember "Unix" (fun x => ∃ l, x = .arr l ∧ ∀ y ∈ l, EncUnsigned 8 y) j ∨
    OneMember "Windows" (fun x => ∃ l, x = .arr l ∧ ∀ y ∈ l, EncUnsigned 16 y) j
  | .cString, j => ∃ l, j = .arr l ∧ ∀ y ∈ l, ∃ n : Int, y = .num (.int n) ∧ 1 ≤ n ∧ n ≤ 255
  | .bytes u8, j => ∃ l, j = .arr l ∧ ∀ y ∈ l, S u8 y
  | .decimal, j => ∃ s, j = .str s ∧ DecimalText s

variable (K : Field τ → Json → Prop) (base : τ → τ) (decl : τ → Decl τ)

/-- The type that a field is written as: a `required` field holds a value. -/
def fieldType (f : Field τ) : τ := if f.required then base f.ty else f.ty

/-- An enum with serde's default representation. -/
def ExternalEnum (d : Decl τ) : Prop := ∃ c vs, d = .derived c ∧ c.data = .enum .external vs

/-- A value of `t` is written by writing a value of `u`: `Some(x)` as `x`, and a newtype struct as its field. -/
inductive WrittenAs : τ → τ → Prop where
  | self (t) : WrittenAs t t
  | option {t u v} : decl t = .std (.option u) → WrittenAs u v → WrittenAs t v
  | newtype {t c f v} : decl t = .derived c → c.withTy = none → c.transparent = none → c.intoTy = none →
      c.data = .struct (.newtype f) → WrittenAs (fieldType base f) v → WrittenAs t v

/-- The members that a value of `t` adds to the object it is written into, by `flatten` or as the content of a newtype
variant of an internally tagged enum: those of an object, none for null (`()`, a unit struct or `None`), and for a
unit variant of an enum its name with null. -/
inductive Members (t : τ) : List (String × Json) → Prop where
  | obj (p) : S t (.obj p) → Members t p
  | null : S t .null → Members t []
  | unitVariant (n u) : WrittenAs base decl t u → ExternalEnum (decl u) → S t (.str n) → Members t [(n, .null)]

/-- The fields of a struct, in order. -/
inductive EncFields : List (Field τ) → List (String × Json) → Prop where
  | nil : EncFields [] []
  | skip {f fs o} : f.skipSer = true → EncFields fs o → EncFields (f :: fs) o
  | leftOut {f fs o} : f.skipSer = false → f.skipSerIf = true → EncFields fs o → EncFields (f :: fs) o
  | member {f fs o} (x) : f.skipSer = false → f.flatten = false → S (fieldType base f) x → K f x → EncFields fs o →
      EncFields (f :: fs) ((f.name.ser, x) :: o)
  | flatten {f fs o} (p) : f.skipSer = false → f.flatten = true → Members S base decl (fieldType base f) p →
      EncFields fs o → EncFields (f :: fs) (p ++ o)

/-- The elements of a tuple struct, in order. -/
inductive EncElems : List (Field τ) → List Json → Prop where
  | nil : EncElems [] []
  | skip {f fs l} : f.skipSer = true → EncElems fs l → EncElems (f :: fs) l
  | leftOut {f fs l} : f.skipSer = false → f.skipSerIf = true → EncElems fs l → EncElems (f :: fs) l
  | elem {f fs l} (x) : f.skipSer = false → S (fieldType base f) x → K f x → EncElems fs l →
      EncElems (f :: fs) (x :: l)

/-- The object with these members. -/
def ObjectOf (o : List (String × Json)) (j : Json) : Prop := ∃ o', j = .obj o' ∧ o'.Perm o

/-- The contents of a struct or a variant. -/
def EncContent : Fields τ → Json → Prop
  | .unit, j => j = .null
  | .newtype f, j => S (fieldType base f) j ∧ K f j
  | .tuple fs, j => ∃ l, j = .arr l ∧ EncElems S K base fs l
  | .struct fs, j => ∃ o, EncFields S K base decl fs o ∧ ObjectOf o j

/-- The fields of a variant that are written: a newtype variant whose field is skipped is written as a unit variant. -/
def written (v : Variant τ) : Fields τ :=
  match v.fields with
  | .newtype f => if f.skipSer then .unit else .newtype f
  | fields => fields

/-- The contents of a variant, which `with` may replace. -/
def EncVariant (v : Variant τ) (j : Json) : Prop :=
  match v.withTy with
  | some t => S t j
  | none => EncContent S K base decl (written v) j

/-- A variant that has no content. -/
def bare (v : Variant τ) : Prop := v.withTy = none ∧ written v = .unit

/-- The members of a variant of an internally tagged enum next to the tag. Tuple variants are not allowed there. -/
def EncTagged (v : Variant τ) (o : List (String × Json)) : Prop :=
  match v.withTy with
  | some t => Members S base decl t o
  | none => match written v with
    | .unit => o = []
    | .newtype f => Members S base decl (fieldType base f) o
    | .tuple _ => False
    | .struct fs => EncFields S K base decl fs o

/-- The variants of an enum. -/
def EncEnum (tag : TagType) (v : Variant τ) (j : Json) : Prop :=
  if v.untagged then EncVariant S K base decl v j
  else match tag with
    | .external => (bare v ∧ j = .str v.name.ser) ∨ (¬ bare v ∧ OneMember v.name.ser (EncVariant S K base decl v) j)
    | .internal tag => ∃ o, EncTagged S K base decl v o ∧ ObjectOf ((tag, .str v.name.ser) :: o) j
    | .adjacent tag content =>
      (bare v ∧ j = .obj [(tag, .str v.name.ser)]) ∨
      (¬ bare v ∧ TwoMembers tag content (fun x => x = .str v.name.ser) (EncVariant S K base decl v) j)
    | .none => EncVariant S K base decl v j

/-- The derived types. -/
def EncContainer (c : Container τ) (j : Json) : Prop :=
  match c.withTy, c.transparent, c.intoTy with
  | some t, _, _ => S t j
  | none, some f, _ => S (fieldType base f) j ∧ K f j
  | none, none, some t => S t j
  | none, none, none => match c.data with
    | .struct fields => EncContent S K base decl fields j
    | .enum tag vs => ∃ v ∈ vs, v.skipSer = false ∧ EncEnum S K base decl tag v j

/-- What serde writes for a value of a declaration, given what it writes for the types mentioned. -/
def Encodes : Decl τ → Json → Prop
  | .std s, j => EncStd w S s j
  | .derived c, j => EncContainer S K base decl c j

end

/-- What serde writes with nested calls of at most this depth, for values whose fields satisfy `K`. -/
def SerializedAt (w : Nat) (K : Field τ → Json → Prop) (base : τ → τ) (decl : τ → Decl τ) : Nat → τ → Json → Prop
  | 0, _, _ => False
  | n + 1, t, j => j.WF ∧ Encodes w (SerializedAt w K base decl n) K base decl (decl t) j

/-- serde may write `j` for a value of the type `t` whose fields satisfy `K`. -/
def SerializedIf (w : Nat) (K : Field τ → Json → Prop) (base : τ → τ) (decl : τ → Decl τ) (t : τ) (j : Json) : Prop :=
  ∃ n, SerializedAt w K base decl n t j

/-- All values. -/
def anyValue : Field τ → Json → Prop := fun _ _ => True

/-- serde may write `j` for a value of the type `t`. -/
def Serialized (w : Nat) (base : τ → τ) (decl : τ → Decl τ) (t : τ) (j : Json) : Prop :=
  SerializedIf w anyValue base decl t j

end Spec

end Verif
