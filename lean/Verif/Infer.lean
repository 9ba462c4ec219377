import Verif.Serde
import Verif.Impls

/-!
# schemars/src/ser.rs: a schema for an example value

All types that the serializer forwards to (`bool`, `char`, `&str`, `&[u8]`, `Value`, `()`) are inlined, so
`subschema_for` returns their schemas and leaves the generator as it was; the model uses the schemas
directly. `none` is an error. `odd` is the text that serde_json gives to the values that it does not
accept as map keys.
-/

namespace Verif
open Serde

/-- schemars/src/ser.rs:162-164, 354-358, 420-424: the title of a named type. -/
def withTitle (title : String) (s : Json) : Json :=
  if title = "" then s else Schema.put s "title" (.str title)

/-- schemars/src/ser.rs:391-395: the key of a map entry, without its quotes. -/
def trimQuotes (t : List Char) : String :=
  String.ofList ((t.dropWhile (· == '"')).reverse.dropWhile (· == '"')).reverse

/-- schemars/src/ser.rs:304-308: adds the schema of one element. -/
def seqStep (items : List Json) (s : Json) : List Json :=
  if s = .bool true then [s] else if items.contains s then items else items ++ [s]

/-- schemars/src/ser.rs:314-320: the `items` of a sequence. -/
def seqItems (items : List Json) : Json :=
  match items with
  | [] => .bool true
  | [s] => s
  | items => mkObj [("anyOf", .arr items)]

/-- schemars/src/ser.rs:101-105: combines the schemas of the values of a map. -/
def mapStep (acc : Option Json) (s : Json) : Option Json :=
  match acc with
  | none => some s
  | some items => if items ≠ s then some (.bool true) else some items

/-- schemars/src/ser.rs:347-352. -/
def tupleSchema (items : List Json) : Json :=
  mkObj [("type", .str "array"), ("prefixItems", .arr items), ("maxItems", .num (.int items.length)),
    ("minItems", .num (.int items.length))]

/-- schemars/src/ser.rs:415-418. -/
def objectSchema (props : List (String × Json)) : Json :=
  mkObj [("type", .str "object"), ("properties", .obj props)]

section
variable (odd : Val → Option (List Char))

mutual
/-- schemars/src/ser.rs:47-252 (`Serializer`). -/
def infer (includeTitle : Bool) : Val → Option Json
  | .bool _ => some (typeOnly "boolean")
  | .int _ => some (typeOnly "integer")
  | .float _ _ => some (typeOnly "number")
  | .char _ => some charSchema
  | .str _ => some (typeOnly "string")
  | .bytes _ => some (seqSchema u8Schema)
  | .none => some (.bool true)
  | .some v => (infer false v).map allowNull
  | .unit => some (.bool true)
  | .unitStruct _ => some nullSchema
  | .unitVariant _ => some (.bool true)
  | .newtypeStruct name v => (infer includeTitle v).map (withTitle (if includeTitle then name else ""))
  | .newtypeVariant _ _ => some (.bool true)
  | .seq l => (inferSeq [] l).map fun items => seqSchema (seqItems items)
  | .tuple name l => (inferTuple l).map fun items =>
      withTitle (if includeTitle then name else "") (tupleSchema items)
  | .tupleVariant _ _ => some (.bool true)
  | .map l => (inferMap [] l).map objectSchema
  | .struct name l => (inferStruct [] l).map fun props =>
      withTitle (if includeTitle then name else "") (objectSchema props)
  | .structVariant _ _ => some (.bool true)
  | .collectStr _ => some (typeOnly "string")
  | .collectMap l => (inferVals .none l).map fun s =>
      mkObj [("type", .str "object"), ("additionalProperties", s.getD (.bool true))]
  | .fail => .none
/-- schemars/src/ser.rs:290-311: the elements of a sequence. -/
def inferSeq (items : List Json) : List Val → Option (List Json)
  | [] => some items
  | v :: l =>
    if items.head? = some (.bool true) then inferSeq items l
    else (infer false v).bind fun s => inferSeq (seqStep items s) l
/-- schemars/src/ser.rs:333-343: the elements of a tuple. -/
def inferTuple : List Val → Option (List Json)
  | [] => some []
  | v :: l => (infer false v).bind fun s => (inferTuple l).map fun t => s :: t
/-- schemars/src/ser.rs:384-412: the entries of a map. -/
def inferMap (props : List (String × Json)) : List (Val × Val) → Option (List (String × Json))
  | [] => some props
  | (k, v) :: l => (toText odd k).bind fun t => (infer false v).bind fun s =>
      inferMap (Obj.insert props (trimQuotes t) s) l
/-- schemars/src/ser.rs:434-445: the fields of a struct. -/
def inferStruct (props : List (String × Json)) : List (String × Val) → Option (List (String × Json))
  | [] => some props
  | (k, v) :: l => (infer false v).bind fun s => inferStruct (Obj.insert props k s) l
/-- schemars/src/ser.rs:88-107: the values of a map. -/
def inferVals (acc : Option Json) : List (Val × Val) → Option (Option Json)
  | [] => some acc
  | (_, v) :: l =>
    if acc = some (.bool true) then inferVals acc l
    else (infer false v).bind fun s => inferVals (mapStep acc s) l
end

/-- schemars/src/generate.rs:519-527 (and 551-559): the object of the root schema, before the definitions
are added. -/
def valueObject (example? : Option Json) (meta? : Option String) (m : List (String × Json)) :
    List (String × Json) :=
  let m1 := match example? with
    | some j => Obj.insert m "examples" (.arr [j])
    | none => m
  match meta? with
  | some ms => Obj.insert m1 "$schema" (.str ms)
  | none => m1

variable {τ : Type}

/-- schemars/src/generate.rs:510-533 (`root_schema_for_value`). The generator is not changed. -/
def rootSchemaForValue (g : Gen τ) (v : Val) : Option Json :=
  (infer odd true v).bind fun s => (Schema.ensureObject s).map fun m =>
    applyTransforms g.settings.transforms (.obj (addDefinitions g.settings.definitionsPath.toList
      (valueObject (toValue v) g.settings.metaSchema m) g.defs))

/-- schemars/src/generate.rs:542-566 (`into_root_schema_for_value`). -/
def intoRootSchemaForValue (g : Gen τ) (v : Val) : Option Json :=
  (infer odd true v).bind fun s => (Schema.ensureObject s).map fun m =>
    let m1 := valueObject (toValue v) g.settings.metaSchema m
    let g1 := { g with settings := { g.settings with metaSchema := none } }
    let (ds, g2) := takeDefinitions g1 false
    applyTransforms g2.settings.transforms (.obj (addDefinitions g2.settings.definitionsPath.toList m1 ds))

end

end Verif
