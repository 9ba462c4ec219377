import Verif.Transform

/-!
# The transforms with their panics

`Verif/Transform.lean` leaves out the calls of `unwrap`, and uses `Schema.put` for `Schema::insert`, which panics for a
value that is neither a bool nor an object (schemars/src/schema.rs:191-203, 226-228). Here a panic is `none`.
`RemoveRefSiblings` and `RestrictFormats` have no such calls.
-/

namespace Verif

/-- schemars/src/transform.rs:290-308 (`ReplaceBoolSchemas`), where `T` is the transform itself. -/
def replaceBoolChecked (skipAp : Bool) (T : Json → Option Json) (s : Json) : Option Json :=
  match s with
  | .obj o =>
    match skipAp, Obj.get o "additionalProperties" with
    | true, some ap =>
      (tsubM subSlot T (.obj (Obj.remove o "additionalProperties"))).bind fun s' =>
        (Schema.insert s' "additionalProperties" ap).map (·.1)
    | _, _ => tsubM subSlot T (.obj o)
  | s => (Schema.ensureObject s).map .obj

/-- schemars/src/transform.rs:353-357 (`SetSingleExample`). -/
def setSingleExampleChecked (s : Json) : Option Json :=
  match (Schema.remove s "examples").2 with
  | some (.arr (first :: _)) => (Schema.insert (Schema.remove s "examples").1 "example" first).map (·.1)
  | _ => some (Schema.remove s "examples").1

/-- schemars/src/transform.rs:375-377 (`ReplaceConstValue`). -/
def replaceConstChecked (s : Json) : Option Json :=
  match (Schema.remove s "const").2 with
  | some v => (Schema.insert (Schema.remove s "const").1 "enum" (.arr [v])).map (·.1)
  | none => some (Schema.remove s "const").1

/-- schemars/src/transform.rs:398-404 (`ReplacePrefixItems`). -/
def replacePrefixChecked (s : Json) : Option Json :=
  match (Schema.remove s "prefixItems").2 with
  | some prefixItems => (Schema.insert (Schema.remove s "prefixItems").1 "items" prefixItems).bind fun r =>
    match r.2 with
    | some previous => (Schema.insert r.1 "additionalItems" previous).map (·.1)
    | none => some r.1
  | none => some (Schema.remove s "prefixItems").1

/-- `Value::as_array`. -/
def asArray? : Json → Option (List Json)
  | .arr l => some l
  | _ => none

/-- schemars/src/transform.rs:440-441. -/
def onlyAllowsNullChecked (ty : Json) : Option Bool :=
  match ty with
  | .str _ => some true
  | ty => (asArray? ty).map fun l => l.all (· == .str "null")

/-- schemars/src/transform.rs:435-462 (`AddNullable`). -/
def addNullableChecked (c : NullableCfg) (s : Json) : Option Json :=
  if Schema.hasType s "null" then
    (Schema.insert s "nullable" (.bool true)).bind fun r =>
    (Schema.get r.1 "type").bind fun ty =>
    (onlyAllowsNullChecked ty).bind fun onlyAllowsNull =>
    if onlyAllowsNull then
      if c.addConstNull then
        (Schema.insert r.1 "const" .null).map fun r' => if c.removeNullType then (Schema.remove r'.1 "type").1 else r'.1
      else if c.removeNullType then some (Schema.getMut r.1 "type" fun _ => .arr [])
      else some r.1
    else if c.removeNullType then
      (asArray? ty).map fun l =>
        Schema.getMut r.1 "type" fun _ => match l.filter (· != .str "null") with
          | [x] => x
          | l' => .arr l'
    else some r.1
  else some s

/-- schemars/src/transform.rs:483-506 (`ReplaceUnevaluatedProperties`). -/
def replaceUnevalChecked (s : Json) : Option Json :=
  match (Schema.remove s "unevaluatedProperties").2 with
  | none => some (Schema.remove s "unevaluatedProperties").1
  | some up => (Schema.insert (Schema.remove s "unevaluatedProperties").1 "additionalProperties" up).bind fun r =>
    match gatherPropertyNames r.1 with
    | [] => some r.1
    | names => (Schema.ensureObject r.1).map fun m =>
      match Obj.get m "properties" with
      | none => .obj (Obj.insert m "properties" (.obj (names.foldl entryOrTrue [])))
      | some (.obj p) => .obj (Obj.insert m "properties" (.obj (names.foldl entryOrTrue p)))
      | some _ => .obj m

end Verif
