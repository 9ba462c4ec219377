import Verif.Spec.Source

/-!
# Attributes of schemars in place of those of serde

The documentation says that schemars attributes override serde attributes and "behave identically"
(docs/_includes/attributes.md:5). `settled` rewrites the attributes of an item accordingly: what schemars attributes
say in the words of serde is moved to a serde attribute, in place of what it overrides or unsets.
-/

namespace Verif.Spec

variable {τ σ α β : Type}

section
variable (h : α → β)

def mapField (f : SrcField τ α) : SrcField τ β := ⟨f.ident, f.ty, h f.attrs⟩

def mapFields : SrcFields τ α → SrcFields τ β
  | .named fs => .named (fs.map (mapField h))
  | .unnamed fs => .unnamed (fs.map (mapField h))
  | .unit => .unit

def mapVariant (v : SrcVariant τ α) : SrcVariant τ β := ⟨v.ident, mapFields h v.fields, h v.attrs⟩

def mapData : SrcData τ α → SrcData τ β
  | .struct fs => .struct (mapFields h fs)
  | .enum vs => .enum (vs.map (mapVariant h))

/-- The item with the attributes of the item itself, its variants and fields replaced. -/
def mapItem (i : SrcItem τ α) : SrcItem τ β := ⟨i.ident, mapData h i.data, h i.attrs⟩

end

/-- An attribute without what schemars attributes say in the words of serde, and without what serde attributes say. -/
def leftOver : Attr (MetaBody τ) (OtherAttr τ) → Option (Attr (MetaBody τ) (OtherAttr τ))
  | .serde _ => none
  | .schemars (some l) => some (.schemars (some (l.filter fun i => !isNamed serdeWords i)))
  | a => some a

/-- The attributes with everything said in the words of serde in a serde attribute. -/
noncomputable def settled (attrs : SrcAttrs τ) : SrcAttrs τ :=
  attrs.filterMap leftOver ++ [.serde (some (effective attrs))]

/-- What schemars attributes say in the words of serde can be said in serde attributes: it is not `bound`, which is
only respected in schemars attributes, and only words of serde are unset. -/
structure Movable (attrs : SrcAttrs τ) : Prop where
  bound : has ["bound"] (schemarsOf attrs) = false
  unset : ∀ i ∈ schemarsOf attrs, i.negated = true → isNamed serdeWords i = true

/-- Every list of attributes of the item. -/
def attrLists (item : SrcItem τ α) : List α :=
  item.attrs :: (srcFields item.data).map (·.attrs) ++
    (variantList item.data).flatMap fun v => v.attrs :: (fieldList v.fields).map (·.attrs)

/-- All attributes of the item can be moved, and the item is not renamed by schemars, which has a meaning of its own. -/
structure MovableItem (item : SrcItem τ (SrcAttrs τ)) : Prop where
  attrs : ∀ a ∈ attrLists item, Movable a
  rename : has ["rename"] (schemarsOf item.attrs) = false

/-- A declaration with its attributes settled. -/
noncomputable def settledDecl : SrcDecl τ σ → SrcDecl τ σ
  | .std s => .std s
  | .item i => .item (mapItem settled i)

end Verif.Spec
