import Verif.Repr

/-!
# Enums with discriminants

From the reference of Rust: what the discriminants of an enum are. From the documentation of `serde_repr`: a value of the
enum is written as its discriminant.
-/

namespace Verif.Spec

/-- The discriminants of an enum: those that are written, and for the others 0 at the start and else one more than the
one before. -/
structure Discriminants (explicit : List (Option Int)) (ds : List Int) : Prop where
  length : ds.length = explicit.length
  written : ∀ (k : Nat) (d : Int), explicit[k]? = some (some d) → ds[k]? = some d
  first : explicit[0]? = some none → ds[0]? = some 0
  next : ∀ (k : Nat) (d : Int), explicit[k + 1]? = some none → ds[k]? = some d → ds[k + 1]? = some (d + 1)

/-- The numbers of an integer type. -/
def ReprInt.Has (r : ReprInt) (n : Int) : Prop :=
  if r.signed then -2 ^ (r.bits - 1) ≤ n ∧ n < 2 ^ (r.bits - 1) else 0 ≤ n ∧ n < 2 ^ r.bits

end Verif.Spec
