import Verif.Pointer

/-!
# schemars/src/schema.rs: the `Schema` API

`Schema` wraps a `Value`; the model is the `Json` itself. Methods that may panic return `Option`, with
`none` for a panic. Methods that give out a mutable reference take the write performed through it.
-/

namespace Verif

/-- The type invariant of `Schema`: the value is an object or a bool
(schemars/src/schema.rs:387-408, `validate`). -/
def isSchema : Json → Bool
  | .obj _ => true
  | .bool _ => true
  | _ => false

namespace Schema

/-- schemars/src/schema.rs:130-134 (`Schema::new_ref`). -/
def newRef (r : String) : Json := .obj (Obj.insert [] "$ref" (.str r))

/-- schemars/src/schema.rs:387-408 (`Schema::validate`); the error text is not modelled. -/
def validate (v : Json) : Bool :=
  match v with
  | .bool _ => true
  | .obj _ => true
  | .null => false
  | .num _ => false
  | .str _ => false
  | .arr _ => false

/-- schemars/src/schema.rs:423-448 (`TryFrom` for `Value`, `&Value`, `&mut Value`) and 68-77
(`Deserialize`): all call `validate` and wrap the same value. -/
def tryFrom (v : Json) : Option Json := if validate v then some v else none

/-- schemars/src/schema.rs:450-454 (`Default`). -/
def default : Json := .obj []
/-- schemars/src/schema.rs:456-460 (`From<Map>`). -/
def ofMap (m : List (String × Json)) : Json := .obj m
/-- schemars/src/schema.rs:462-466 (`From<bool>`). -/
def ofBool (b : Bool) : Json := .bool b

/-- schemars/src/schema.rs:191-203 (`ensure_object`): the map of the (possibly converted) schema, `none`
for the `expect` panic. -/
def ensureObject (s : Json) : Option (List (String × Json)) :=
  match s with
  | .bool true => some []
  | .bool false => some (Obj.insert [] "not" (.obj []))
  | .obj m => some m
  | _ => none

/-- schemars/src/schema.rs:226-228 (`insert`): new schema and previous value. -/
def insert (s : Json) (k : String) (v : Json) : Option (Json × Option Json) :=
  (ensureObject s).map fun m => (.obj (Obj.insert m k v), Obj.get m k)

/-- schemars/src/schema.rs:248-254 (`get`). -/
def get (s : Json) (k : String) : Option Json :=
  match s with
  | .obj m => Obj.get m k
  | _ => none

/-- schemars/src/schema.rs:273-279 (`get_mut`) followed by a write. -/
def getMut (s : Json) (k : String) (f : Json → Json) : Json :=
  match s with
  | .obj m => .obj (Obj.modify m k f)
  | s => s

/-- schemars/src/schema.rs:371-377 (`remove`): new schema and removed value. -/
def remove (s : Json) (k : String) : Json × Option Json :=
  match s with
  | .obj m => (.obj (Obj.remove m k), Obj.get m k)
  | s => (s, none)

/-- schemars/src/schema.rs:158-160 (`as_object_mut`) followed by a write to the map. -/
def asObjectMut (s : Json) (f : List (String × Json) → List (String × Json)) : Json :=
  match s with
  | .obj m => .obj (f m)
  | s => s

/-- schemars/src/schema.rs:311-316 and 349-354: a pointer text with a leading `#` is percent-decoded. -/
def pointerText (p : String) : Option (List Char) :=
  match stripPrefix '#' p.toList with
  | some enc => percentDecodeChars enc
  | none => some p.toList

/-- schemars/src/schema.rs:310-317 (`pointer`). -/
def pointer (s : Json) (p : String) : Option Json := (pointerText p).bind (valuePointer s)

/-- schemars/src/schema.rs:348-355 (`pointer_mut`) followed by a write to the referenced value. `none` when
the method returns `None`. -/
def pointerMut (s : Json) (p : String) (f : Json → Json) : Option Json :=
  (pointerText p).bind fun t => valuePointerMut s t f

/-- schemars/src/schema.rs:379-385 (`has_type`). -/
def hasType (s : Json) (ty : String) : Bool :=
  match get s "type" with
  | some (.arr vs) => vs.any fun v => v == .str ty
  | some (.str t) => t == ty
  | _ => false

/-- schemars/src/schema.rs:162-168 (`try_to_object`; and 170-176, `try_as_object_mut`): `none` for the `unreachable!()` panic. -/
def tryToObject (s : Json) : Option (Except Bool (List (String × Json))) :=
  match s with
  | .obj m => some (.ok m)
  | .bool b => some (.error b)
  | _ => none

end Schema

end Verif
