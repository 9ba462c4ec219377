import Verif.Json

/-!
# schemars/src/schema.rs:484-607: `OrderedKeywordWrapper`

The serializer output is modelled as a `Json` whose object entries are in emission order.
-/

namespace Verif.Ser

/-- schemars/src/schema.rs:491-499. -/
def orderedStart : List String :=
  ["$id", "$schema", "title", "description", "type", "format", "properties"]

/-- schemars/src/schema.rs:500. -/
def orderedEnd : List String := ["$defs", "definitions"]

/-- schemars/src/schema.rs:540: `matches!(key, "examples" | "default") || key.starts_with("x-")`. -/
def isPlain (key : String) : Bool :=
  key == "examples" || key == "default" ||
    match key.toList with
    | 'x' :: '-' :: _ => true
    | _ => false

/-- schemars/src/schema.rs:545-552. -/
def isNoReorder (key : String) : Bool :=
  key == "properties" || key == "patternProperties" || key == "dependentSchemas" || key == "$defs" ||
    key == "definitions"

/-- schemars/src/schema.rs:579-597: the three loops over an object. The Rust code serializes each value
while emitting it; the model first serializes every value (`m` is the list of serialized entries) and
then emits the entries in the same order. -/
def emitOrder {α : Type _} (m : List (String × α)) : List (String × α) :=
  orderedStart.filterMap (fun key => (Obj.get m key).map fun v => (key, v)) ++
  m.filter (fun e => !orderedStart.contains e.1 && !orderedEnd.contains e.1) ++
  orderedEnd.filterMap (fun key => (Obj.get m key).map fun v => (key, v))

mutual
/-- schemars/src/schema.rs:527-605 (`serialize`). -/
def ser (noReorder : Bool) : Json → Json
  | .arr l => .arr (serList l)
  | .obj m => if noReorder then .obj (serMap m) else .obj (emitOrder (serProps m))
  | .null => .null
  | .bool b => .bool b
  | .num n => .num n
  | .str s => .str s
/-- schemars/src/schema.rs:560-562. -/
def serList : List Json → List Json
  | [] => []
  | j :: t => ser false j :: serList t
/-- schemars/src/schema.rs:568-572. -/
def serMap : List (String × Json) → List (String × Json)
  | [] => []
  | (k, v) :: t => (k, ser false v) :: serMap t
/-- schemars/src/schema.rs:532-555 (`serialize_schema_property`). -/
def serProps : List (String × Json) → List (String × Json)
  | [] => []
  | (k, v) :: t => (k, if isPlain k then v else ser (isNoReorder k) v) :: serProps t
end

/-- schemars/src/schema.rs:79-86 (`Serialize for Schema`). -/
def serialize (s : Json) : Json := ser false s

end Verif.Ser
