import Verif.Spec.JsonPointer
import Verif.Spec.Sem

/-!
# Specification: references within a document

A `$ref` that is only a fragment refers to the value at the JSON pointer that the fragment denotes (RFC 6901
section 6, JSON Schema core section 8.2.3.1).
-/

namespace Verif.Spec

/-- The reference is a fragment that denotes a JSON pointer, which leads to the target. -/
def RefersTo (doc : Json) (ref : String) (target : Json) : Prop :=
  ∃ toks frag, At doc toks target ∧ ref.toList = '#' :: frag ∧ pctOctets frag = utf8 (renderPointer toks)

/-- The references of the document are followed: an instance is judged by a reference as by its target. -/
def Resolves (D : Dialect) (env : Env) (doc : Json) : Prop :=
  ∀ ref target, RefersTo doc ref target → env.ref ref = den D env target

/-- A name in which nothing has to be escaped for a JSON pointer or decoded in a fragment, and no control characters
below U+0010 (which schemars escapes wrongly). -/
def PlainName (name : String) : Prop := ∀ c ∈ name.toList, 0x10 ≤ c.toNat ∧ c ≠ '%' ∧ c ≠ '~' ∧ c ≠ '/'

end Verif.Spec
