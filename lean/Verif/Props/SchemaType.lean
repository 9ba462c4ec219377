import Verif.SchemaType
import Verif.Props.Impls
import Verif.Props.SerOrder
import Verif.Props.SchemaApi

/-!
# C81: the type `Schema` as an instance of `JsonSchema`, and `json_schema!`
-/

namespace Verif
open Spec Ser

theorem Obj.get_find (m : List (String × Json)) (k : String) : Obj.get m k = (m.find? (·.1 == k)).map (·.2) := by
  induction m with
  | nil => rfl
  | cons e t ih =>
    rw [Obj.get_cons, List.find?_cons]
    by_cases h : e.1 = k
    · simp [h]
    · rw [if_neg h, ih, show (e.1 == k) = false from by simpa using h]

/-- C81: `json_schema!` does not panic, whatever the entries; what it gives is a schema, whose entry of a name is the last
one written in the literal. -/
theorem C81_macro (a : Schema.MacroArg) : ∃ s, Schema.ofMacro a = some s ∧ isSchema s = true ∧
    match a with
    | .bool b => s = .bool b
    | .object m => ∀ k, Schema.get s k = (m.reverse.find? (·.1 == k)).map (·.2) := by
  cases a with
  | bool b => exact ⟨_, rfl, rfl, rfl⟩
  | object m =>
    refine ⟨_, rfl, rfl, fun k => ?_⟩
    change Obj.get (Obj.ofList m) k = _
    unfold Obj.ofList
    rw [Obj.get_extend, Obj.get_find]
    cases (m.reverse.find? (·.1 == k)) <;> rfl

/-- C81: the schema of the type `Schema` accepts a value exactly if reading it as a `Schema` succeeds. -/
theorem C81_reads (D : Dialect) (env : Env) (j : Json) :
    ∃ s, Schema.selfSchema = some s ∧ (Valid D env s j ↔ ∃ v, Schema.tryFrom j = some v) := by
  refine ⟨_, rfl, ?_⟩
  rw [valid_mkObj (by simp [Obj.keys]) (.inr rfl)]
  simp only [List.forall_mem_singleton]
  rw [entryOk_type rfl]
  cases j <;> simp [typeMatch, typeMember, typeName, Schema.tryFrom, Schema.validate]

/-- C81: the schema of the type `Schema` accepts what serialization writes for every schema. -/
theorem C81_writes (D : Dialect) (env : Env) (v : Json) (h : isSchema v = true) (b : Bool) :
    ∃ s, Schema.selfSchema = some s ∧ Valid D env s (ser b v) := by
  obtain ⟨s, hs, hv⟩ := C81_reads D env (ser b v)
  refine ⟨s, hs, hv.2 ⟨ser b v, ?_⟩⟩
  cases v with
  | bool x => simp [ser, Schema.tryFrom, Schema.validate]
  | obj m => cases b <;> simp [ser, Schema.tryFrom, Schema.validate]
  | _ => cases h

/-- C08: a write through `as_object_mut` changes the map of an object and nothing of a bool. -/
theorem C08_asObjectMut (s : Json) (f : List (String × Json) → List (String × Json)) :
    Schema.asObjectMut s f = match Schema.tryToObject s with
      | some (.ok m) => .obj (f m)
      | _ => s := by
  cases s <;> rfl

example : Schema.asObjectMut (.obj [("a", .null)]) (fun m => Obj.remove m "a") = .obj [] ∧
    Schema.asObjectMut (.bool false) (fun m => Obj.insert m "a" .null) = .bool false := ⟨by rfl, by rfl⟩

/-- C81: the conversion of a schema to a map neither panics nor loses anything: it gives the map of an object and the value
of a bool. -/
theorem C81_tryToObject (s : Json) (h : isSchema s = true) :
    ∃ r, Schema.tryToObject s = some r ∧ s = (match r with | .ok m => Schema.ofMap m | .error b => Schema.ofBool b) := by
  cases s <;> first | exact ⟨_, rfl, rfl⟩ | cases h

example : Schema.selfSchema = some (.obj [("type", .arr [.str "object", .str "boolean"])]) := by decide

end Verif
