import Verif.Spec.Deser

/-!
# Types that are written and read alike

`TwoWay` says of a declaration that its attributes do not make serde write something else than it reads: names for
writing are those for reading, what may be left out in writing may be missing in reading, and what is written by
flattening can be told apart when it is read.
-/

namespace Verif.Spec

variable {τ : Type} (q : Quirks τ) (base : τ → τ) (decl : τ → Decl τ)

/-- A container whose attributes do not replace it by another type. -/
structure Itself (c : Container τ) : Prop where
  noWith : c.withTy = none
  noTransparent : c.transparent = none
  noFrom : c.fromTy = none
  noInto : c.intoTy = none

/-- A type that takes only members with its own names when it is flattened: a struct without flattened fields, or an
externally or adjacently tagged enum, without untagged variants. -/
def FlatType (t : τ) : Prop :=
  ∃ c, decl t = .derived c ∧ Itself c ∧
    ((∃ gs, c.data = .struct (.struct gs) ∧ ∀ g ∈ gs, g.flatten = false ∧
        (g.skipSer = false → g.skipDe = false ∧ g.name.ser = g.name.de)) ∨
     (∃ vs, c.data = .enum .external vs ∧ ∀ v ∈ vs, v.untagged = false) ∨
     (∃ tag content vs, c.data = .enum (.adjacent tag content) vs ∧ ∀ v ∈ vs, v.untagged = false))

/-- A flattened field is such a type or an option of it. If it may be left out it is an option. -/
structure FlatTwoWay (f : Field τ) : Prop where
  written : f.skipSer = false
  read : f.skipDe = false
  type : FlatType decl (base f.ty)
  option : fieldType base f = base f.ty ∨ (f.required = false ∧ decl f.ty = .std (.option (base f.ty)))
  leftOut : f.skipSerIf = true → f.required = false ∧ decl f.ty = .std (.option (base f.ty))

/-- The names of the members that are written or read for the field. -/
def claimed (f : Field τ) : List String :=
  if f.flatten then (wants q decl (base f.ty)).getD []
  else if f.skipDe then if f.skipSer then [] else [f.name.ser]
  else [f.name.de]

/-- The fields of a struct. -/
structure TwoWayFields (cd deny : Bool) (fs : List (Field τ)) : Prop where
  names : ∀ f ∈ fs, f.flatten = false → f.skipSer = false → f.skipDe = false → f.name.ser = f.name.de
  missing : ∀ f ∈ fs, f.flatten = false → f.skipSer = true ∨ f.skipSerIf = true → f.skipDe = true ∨
    MayMiss q base decl cd f
  flat : ∀ f ∈ fs, f.flatten = true → (f.skipSer = true ∧ f.skipDe = true) ∨ FlatTwoWay base decl f
  apart : fs.Pairwise fun f g => ∀ n ∈ claimed q base decl f, n ∉ claimed q base decl g
  unread : deny = true → ∀ f ∈ fs, f.skipSer = false → f.skipDe = false

/-- The contents of a struct or a variant. -/
def TwoWayContent (cd deny : Bool) : Fields τ → Prop
  | .unit => True
  | .newtype _ => True
  | .tuple fs => ∀ f ∈ fs, f.skipSer = f.skipDe ∧ (f.skipSer = false → f.skipSerIf = false)
  | .struct fs => TwoWayFields q base decl cd deny fs

/-- The types that are read from the members next to a tag as they are written: structs with named fields, and those
that are written as null. -/
def NextToTag (t : τ) : Prop :=
  (∃ c gs, decl t = .derived c ∧ Itself c ∧ c.data = .struct (.struct gs)) ∨ NullType decl t

/-- The content of a variant of an internally tagged enum. -/
def TwoWayTagged (v : Variant τ) : Prop :=
  match v.withTy with
  | some t => NextToTag decl t
  | none => ∀ f, v.fields = .newtype f → f.skipSer = false → NextToTag decl (fieldType base f)

/-- A variant. -/
structure TwoWayVariant (tag : TagType) (deny : Bool) (v : Variant τ) : Prop where
  read : v.skipDe = false
  name : v.untagged = false → v.name.ser = v.name.de
  skipped : ∀ f, v.fields = .newtype f → f.skipSer = f.skipDe
  content : v.withTy = none → TwoWayContent q base decl false deny v.fields
  internal : ∀ t, tag = .internal t → v.untagged = false → TwoWayTagged base decl v
  adjacent : ∀ t c, tag = .adjacent t c → t ≠ c

/-- A declaration that serde reads as it writes it. -/
def TwoWay : Decl τ → Prop
  | .std (.formatted _ f) => ∀ s, q.parses f s
  | .std _ => True
  | .derived c => c.withTy = none → c.transparent = none → c.fromTy = c.intoTy ∧ (c.fromTy = none →
      match c.data with
      | .struct fields => TwoWayContent q base decl c.hasDefault c.denyUnknownFields fields
      | .enum tag vs => ∀ v ∈ vs, v.skipSer = false → TwoWayVariant q base decl tag c.denyUnknownFields v)

/-- All types are read as they are written. -/
def AllTwoWay : Prop := ∀ t, TwoWay q base decl (decl t)

end Verif.Spec
