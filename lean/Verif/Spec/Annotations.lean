import Verif.Derive
import Verif.Props.Rustdoc
import Verif.Spec.Subschema

/-!
# What the attributes of a container, variant or field say

The documentation (docs/_includes/attributes.md, `title / description`, `example`, `deprecated`, `extend`, "Doc
Comments") names for each attribute the keyword that it sets. This file repeats that, without the order in which the
generated code sets them.
-/

namespace Verif.Spec

/-- The title is the attribute `title`, or else the title in the doc comment. -/
def TitleIs (a : CommonAttrs) (t : String) : Prop :=
  a.title = some t ∨ a.title = none ∧ ∃ doc d, a.doc = some doc ∧ Splits doc.toList t.toList d

/-- The description is the attribute `description`, or else the description in the doc comment. -/
def DescriptionIs (a : CommonAttrs) (d : String) : Prop :=
  a.description = some d ∨ a.description = none ∧ ∃ doc t, a.doc = some doc ∧ Splits doc.toList t d.toList

/-- No `extend` gives the keyword. -/
def NotExtended (a : CommonAttrs) (k : String) : Prop := ∀ e ∈ a.extensions, e.1 ≠ k

/-- The value that the attributes give to a keyword. An `extend` comes before everything else, the last one before
the others. An empty title or description is none. Examples that do not serialize are left out. -/
inductive Says (a : CommonAttrs) : String → Json → Prop
  | extend {l k v r} : a.extensions = l ++ (k, v) :: r → (∀ e ∈ r, e.1 ≠ k) → Says a k v
  | title {t} : NotExtended a "title" → TitleIs a t → t ≠ "" → Says a "title" (.str t)
  | description {d} : NotExtended a "description" → DescriptionIs a d → d ≠ "" → Says a "description" (.str d)
  | deprecated : NotExtended a "deprecated" → a.deprecated = true → Says a "deprecated" (.bool true)
  | examples : NotExtended a "examples" → a.examples ≠ [] → Says a "examples" (.arr (a.examples.filterMap id))

/-- The schema has what the attributes say. -/
def Shows (a : CommonAttrs) (r : Json) : Prop := ∀ k v, Says a k v → Schema.get r k = some v

/-- `r` has what the attributes say, and apart from these keywords and those in `but` it is the same as `s`. (The
schema `false` becomes `{"not": {}}` when a keyword is set.) -/
def Carries (but : List String) (a : CommonAttrs) (s r : Json) : Prop :=
  ∀ k, k ∉ but → (∀ v, Says a k v → Schema.get r k = some v) ∧
    ((∀ v, ¬ Says a k v) → (s = .bool false → k ≠ "not") → Schema.get r k = Schema.get s k)

/-- The schema that is declared for a member. -/
def propertyAt (s : Json) (n : String) : Option Json :=
  match Schema.get s "properties" with
  | some (.obj p) => Obj.get p n
  | _ => none

end Verif.Spec
