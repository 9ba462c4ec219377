import Verif.Derive
import Verif.Spec.Sem

/-!
# Values that obey the validation attributes

What the validation attributes of a field ask of its value, written from the schemars documentation: `length` bounds the
number of characters of a text and of elements of an array, `range` bounds numbers, `regex`, `pattern` and `contains`
say what a text matches, and `inner` says all this of the elements. The bounds are compared as JSON Schema compares them
(`simple`), and a value of another type than the one concerned obeys. Whether a text matches is decided by `env`, and
`contains` is the expression that `C52` is about. `format` asks for nothing, as JSON Schema only annotates formats.
-/

namespace Verif.Spec

/-- The value has these bounds. -/
def InBounds (env : Env) (b : Option LengthOrRange) (lo hi : String) (x : Json) : Prop :=
  ∀ l, b = some l → (∀ v, l.min.or l.equal = some v → simple env lo v x = true) ∧
    ∀ v, l.max.or l.equal = some v → simple env hi v x = true

/-- The text matches the expression. -/
def Matches (env : Env) (p : Option String) (x : Json) : Prop :=
  ∀ e, p = some e → simple env "pattern" (.str e) x = true

/-- The value obeys the attributes. -/
def Obeys (env : Env) : ValidationAttrs → Json → Prop
  | .mk length range pattern regex contains _ inner, x =>
    InBounds env length "minLength" "maxLength" x ∧ InBounds env length "minItems" "maxItems" x ∧
    InBounds env range "minimum" "maximum" x ∧ Matches env (regex.or pattern) x ∧
    Matches env (contains.map fun c => String.ofList (regexEscape c.toList)) x ∧
    match inner with
    | none => True
    | some a => ∀ y ∈ elems x, Obeys env a y

/-- The value of the field obeys its attributes. -/
def FieldObeys {τ : Type} (env : Env) (f : Field τ) (x : Json) : Prop := Obeys env f.validation x

end Verif.Spec
