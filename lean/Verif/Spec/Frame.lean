import Verif.Spec.Subschema

/-!
# Specification: two schemas that differ only in their direct subschemas
-/

namespace Verif.Spec

/-- The values of a keyword differ only in subschemas that this keyword holds. -/
def ValFrame (V : Vocab) (k : String) (v v' : Json) : Prop :=
  v' = v ∨ (k ∈ V.one ∧ IsSchema v) ∨
  (k ∈ V.list ∧ ∃ l l', v = .arr l ∧ v' = .arr l' ∧ l'.length = l.length ∧
    ∀ (i : Nat) x, l[i]? = some x → ¬ IsSchema x → l'[i]? = some x) ∨
  (k ∈ V.map ∧ ∃ n n', v = .obj n ∧ v' = .obj n' ∧ Obj.keys n' = Obj.keys n ∧
    ∀ q x, Obj.get n q = some x → ¬ IsSchema x → Obj.get n' q = some x)

/-- The schemas differ only in their direct subschemas. -/
inductive Frame (V : Vocab) : Json → Json → Prop
  | obj {m m'} : Obj.keys m' = Obj.keys m →
      (∀ k v, Obj.get m k = some v → ∃ v', Obj.get m' k = some v' ∧ ValFrame V k v v') →
      Frame V (.obj m) (.obj m')
  | other (s) : (∀ m, s ≠ .obj m) → Frame V s s

end Verif.Spec
