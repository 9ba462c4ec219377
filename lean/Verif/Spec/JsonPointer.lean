import Verif.Json
import Verif.Spec.Uri

/-!
# Specification: locations in a JSON document (RFC 6901 section 4)
-/

namespace Verif.Spec

/-- `At j path v`: following the reference tokens `path` from `j` leads to `v`. A token selects the
member of an object with that name, or the element of an array with that index written in decimal
without leading zeros. -/
inductive At : Json → List String → Json → Prop
  | here (j) : At j [] j
  | member {m k v p w} : Obj.get m k = some v → At v p w → At (.obj m) (k :: p) w
  | elem {l p v w} (i : Nat) : l[i]? = some v → At v p w → At (.arr l) (Nat.repr i :: p) w

end Verif.Spec
