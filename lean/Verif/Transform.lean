import Verif.Traverse

/-!
# schemars/src/transform.rs: the built-in transforms

For each transform `X` the body of `fn transform` is `xStep T`, where `T` stands for the recursive call
`self.transform`. `x` is the recursive function. `Verif/Lemmas/Transform.lean` proves `x s = xStep x s` and
that this equation has no other solution.
-/

namespace Verif

/-- `Schema::insert` for a schema that is known to be a bool or an object (schemars/src/schema.rs:226-228). -/
def Schema.put (s : Json) (k : String) (v : Json) : Json :=
  match Schema.ensureObject s with
  | some m => .obj (Obj.insert m k v)
  | none => s

/-! ## ReplaceBoolSchemas -/

/-- schemars/src/transform.rs:290-308. -/
def replaceBoolStep (skipAp : Bool) (T : Json → Json) (s : Json) : Json :=
  match s with
  | .obj o =>
    match skipAp, Obj.get o "additionalProperties" with
    | true, some ap =>
      Schema.put (tsub subSlot T (.obj (Obj.remove o "additionalProperties"))) "additionalProperties" ap
    | _, _ => tsub subSlot T (.obj o)
  | s =>
    match Schema.ensureObject s with
    | some m => .obj m
    | none => s

/-- What `replaceBoolStep` does once the subschemas are transformed. -/
def replaceBoolLeave (skipAp : Bool) (orig tr : Json) : Json :=
  match orig, tr with
  | .obj o, .obj o' =>
    match skipAp, Obj.get o "additionalProperties" with
    | true, some ap => .obj (Obj.insert (Obj.remove o' "additionalProperties") "additionalProperties" ap)
    | _, _ => .obj o'
  | .bool true, _ => .obj []
  | .bool false, _ => .obj [("not", .obj [])]
  | _, tr => tr

/-- `ReplaceBoolSchemas` (schemars/src/transform.rs:282-308). -/
def replaceBool (skipAp : Bool) (s : Json) : Json :=
  walk subSlot (fun _ _ => ()) (fun _ => replaceBoolLeave skipAp) () .one s

/-! ## RemoveRefSiblings -/

/-- schemars/src/transform.rs:325-334. -/
def removeRefSiblingsLocal (s : Json) : Json :=
  match s with
  | .obj o =>
    if o.length > 1 then
      match Obj.get o "$ref" with
      | some r =>
        let o1 := Obj.remove o "$ref"
        match Obj.get o1 "allOf" with
        | none => .obj (Obj.insert o1 "allOf" (.arr [.obj [("$ref", r)]]))
        | some (.arr l) => .obj (Obj.insert o1 "allOf" (.arr (l ++ [.obj [("$ref", r)]])))
        | some _ => .obj o1
      | none => s
    else s
  | s => s

/-- schemars/src/transform.rs:321-336. -/
def removeRefSiblingsStep (T : Json → Json) (s : Json) : Json := removeRefSiblingsLocal (tsub subSlot T s)

/-- A transform that first transforms the subschemas and then does `f`. -/
def postOrder (f : Json → Json) (s : Json) : Json :=
  walk subSlot (fun _ _ => ()) (fun _ _ tr => f tr) () .one s

/-- `RemoveRefSiblings` (schemars/src/transform.rs:319-336). -/
def removeRefSiblings : Json → Json := postOrder removeRefSiblingsLocal

/-! ## SetSingleExample -/

/-- schemars/src/transform.rs:353-357. -/
def setSingleExampleLocal (s : Json) : Json :=
  let (s1, ex) := Schema.remove s "examples"
  match ex with
  | some (.arr (first :: _)) => Schema.put s1 "example" first
  | _ => s1

/-- schemars/src/transform.rs:349-359. -/
def setSingleExampleStep (T : Json → Json) (s : Json) : Json := setSingleExampleLocal (tsub subSlot T s)

/-- `SetSingleExample` (schemars/src/transform.rs:347-359). -/
def setSingleExample : Json → Json := postOrder setSingleExampleLocal

/-! ## ReplaceConstValue -/

/-- schemars/src/transform.rs:375-377. -/
def replaceConstLocal (s : Json) : Json :=
  let (s1, c) := Schema.remove s "const"
  match c with
  | some v => Schema.put s1 "enum" (.arr [v])
  | none => s1

/-- schemars/src/transform.rs:371-379. -/
def replaceConstStep (T : Json → Json) (s : Json) : Json := replaceConstLocal (tsub subSlot T s)

/-- `ReplaceConstValue` (schemars/src/transform.rs:369-379). -/
def replaceConst : Json → Json := postOrder replaceConstLocal

/-! ## ReplacePrefixItems -/

/-- schemars/src/transform.rs:398-404. -/
def replacePrefixLocal (s : Json) : Json :=
  let (s1, p) := Schema.remove s "prefixItems"
  match p with
  | some prefixItems =>
    let previous := Schema.get s1 "items"
    let s2 := Schema.put s1 "items" prefixItems
    match previous with
    | some v => Schema.put s2 "additionalItems" v
    | none => s2
  | none => s1

/-- schemars/src/transform.rs:394-406. -/
def replacePrefixStep (T : Json → Json) (s : Json) : Json := replacePrefixLocal (tsub subSlot T s)

/-- `ReplacePrefixItems` (schemars/src/transform.rs:392-406). -/
def replacePrefix : Json → Json := postOrder replacePrefixLocal

/-! ## AddNullable -/

/-- The fields of `AddNullable` (schemars/src/transform.rs:416-422). -/
structure NullableCfg where
  removeNullType : Bool
  addConstNull : Bool

/-- schemars/src/transform.rs:440-441. -/
def onlyAllowsNull (ty : Json) : Bool :=
  match ty with
  | .str _ => true
  | .arr l => l.all fun v => v == .str "null"
  | _ => false

/-- schemars/src/transform.rs:455-460: `retain` and unwrapping of a singleton. -/
def retainNonNull (ty : Json) : Json :=
  match ty with
  | .arr l =>
    match l.filter fun v => v != .str "null" with
    | [x] => x
    | l' => .arr l'
  | ty => ty

/-- schemars/src/transform.rs:435-462. The `unwrap`s cannot fail after `has_type` returned true. -/
def addNullableLocal (c : NullableCfg) (s : Json) : Json :=
  if Schema.hasType s "null" then
    let s1 := Schema.put s "nullable" (.bool true)
    match Schema.get s1 "type" with
    | none => s1
    | some ty =>
      if onlyAllowsNull ty then
        if c.addConstNull then
          let s2 := Schema.put s1 "const" .null
          if c.removeNullType then (Schema.remove s2 "type").1 else s2
        else if c.removeNullType then Schema.getMut s1 "type" fun _ => .arr []
        else s1
      else if c.removeNullType then Schema.getMut s1 "type" retainNonNull
      else s1
  else s

/-- schemars/src/transform.rs:433-466. -/
def addNullableStep (c : NullableCfg) (T : Json → Json) (s : Json) : Json :=
  tsub subSlot T (addNullableLocal c s)

/-- `AddNullable` (schemars/src/transform.rs:416-466). `addNullableLocal` reads and writes no keyword
that is traversed, so it may also run after the traversal; `addNullable_eq` proves the equation with the
order of the code. -/
def addNullable (c : NullableCfg) : Json → Json := postOrder (addNullableLocal c)

/-! ## ReplaceUnevaluatedProperties -/

/-- schemars/src/transform.rs:516-524: the property names of one schema. -/
def ownPropertyNames (s : Json) : List String :=
  match Schema.get s "properties" with
  | some (.obj p) => Obj.keys p
  | _ => []

mutual
/-- `GatherPropertyNames` (schemars/src/transform.rs:510-528). The `BTreeSet` is a list, in the order of
insertion and with repetitions. -/
def gather : Slot → Json → List String
  | .one, .obj o => ownPropertyNames (.obj o) ++ gatherEntries o
  | .list, .arr l => gatherList l
  | _, _ => []
@[inherit_doc gather] def gatherList : List Json → List String
  | [] => []
  | j :: l => gather .one j ++ gatherList l
@[inherit_doc gather] def gatherEntries : List (String × Json) → List String
  | [] => []
  | (k, v) :: l => gather (immSlot k) v ++ gatherEntries l
end

/-- `GatherPropertyNames::transform` on a schema (schemars/src/transform.rs:515-527). -/
def gatherPropertyNames (s : Json) : List String := gather .one s

/-- `properties.entry(name).or_insert(true)` (schemars/src/transform.rs:503-505). -/
def entryOrTrue (p : List (String × Json)) (name : String) : List (String × Json) :=
  match Obj.get p name with
  | some _ => p
  | none => Obj.insert p name (.bool true)

/-- schemars/src/transform.rs:483-506. -/
def replaceUnevalLocal (s : Json) : Json :=
  let (s1, up) := Schema.remove s "unevaluatedProperties"
  match up with
  | none => s1
  | some up =>
    let s2 := Schema.put s1 "additionalProperties" up
    match gatherPropertyNames s2 with
    | [] => s2
    | names =>
      match Schema.get s2 "properties" with
      | none => Schema.put s2 "properties" (.obj (names.foldl entryOrTrue []))
      | some (.obj p) => Schema.put s2 "properties" (.obj (names.foldl entryOrTrue p))
      | some _ => s2

/-- schemars/src/transform.rs:479-508. -/
def replaceUnevalStep (T : Json → Json) (s : Json) : Json := replaceUnevalLocal (tsub subSlot T s)

/-- `ReplaceUnevaluatedProperties` (schemars/src/transform.rs:477-508). -/
def replaceUneval : Json → Json := postOrder replaceUnevalLocal

/-! ## RestrictFormats -/

/-- schemars/src/consts.rs:8-28. -/
def metaDraft07 : String := "http://json-schema.org/draft-07/schema#"
@[inherit_doc metaDraft07] def meta2019 : String := "https://json-schema.org/draft/2019-09/schema"
@[inherit_doc metaDraft07] def meta2020 : String := "https://json-schema.org/draft/2020-12/schema"

/-- schemars/src/transform.rs:638-660. -/
def definedFormats : List String :=
  ["duration", "uuid", "date-time", "date", "time", "email", "idn-email", "hostname", "idn-hostname",
    "ipv4", "ipv6", "uri", "uri-reference", "iri", "iri-reference", "uri-template", "json-pointer",
    "relative-json-pointer", "regex"]

/-- The fields of `RestrictFormats` (schemars/src/transform.rs:601-615). -/
structure FormatsCfg where
  inferFromMetaSchema : Bool
  allowed : List String

/-- schemars/src/transform.rs:676-689: the formats in force in an object, `none` for the early return. -/
def inferFormats (c : FormatsCfg) (inferred : Option (List String)) (o : List (String × Json)) :
    Option (Option (List String)) :=
  if c.inferFromMetaSchema && Obj.has o "$schema" then
    let url := ((Obj.get o "$schema").bind Json.asStr?).getD ""
    if url = metaDraft07 then some (some (definedFormats.drop 2))
    else if url = meta2019 ∨ url = meta2020 then some (some definedFormats)
    else none
  else some inferred

/-- schemars/src/transform.rs:691-699. -/
def dropFormat (c : FormatsCfg) (inferred : Option (List String)) (o : List (String × Json)) :
    List (String × Json) :=
  match (Obj.get o "format").bind Json.asStr? with
  | some f =>
    if !c.allowed.contains f && !(match inferred with | some fs => fs.contains f | none => false) then
      Obj.remove o "format"
    else o
  | none => o

/-- schemars/src/transform.rs:668-703, with the state `self.inferred_formats` that is saved on entry and
restored on exit. -/
def restrictStepM (c : FormatsCfg) (T : Json → StateM (Option (List String)) Json) (s : Json) :
    StateM (Option (List String)) Json :=
  match s with
  | .obj o => do
    let previous ← get
    match inferFormats c previous o with
    | none => pure (.obj o)
    | some inferred => do
      set inferred
      let s' ← tsubM subSlot T (.obj (dropFormat c inferred o))
      set previous
      pure s'
  | s => pure s

/-- What `restrictStepM` does once the subschemas are transformed. -/
def restrictLeave (c : FormatsCfg) (inferred : Option (List String)) (orig tr : Json) : Json :=
  match orig, tr with
  | .obj o, .obj o' =>
    match inferFormats c inferred o with
    | none => .obj o
    | some inferred' => .obj (dropFormat c inferred' o')
  | _, tr => tr

/-- `RestrictFormatsImpl` (schemars/src/transform.rs:662-704) with the state passed as an argument. -/
def restrictFrom (c : FormatsCfg) (inferred : Option (List String)) (s : Json) : Json :=
  walk subSlot (fun e o => (inferFormats c e o).getD e) (restrictLeave c) inferred .one s

/-- `RestrictFormats` (schemars/src/transform.rs:626-636). -/
def restrictFormats (c : FormatsCfg) (s : Json) : Json := restrictFrom c none s

/-! ## RecursiveTransform -/

/-- `RecursiveTransform` (schemars/src/transform.rs:264-272). The recursion need not end, so it takes fuel:
`none` means that more than `fuel` nested calls are made. -/
def recursiveTransform (f : Json → Json) : Nat → Json → Option Json
  | 0, _ => none
  | n + 1, s => tsubM subSlot (recursiveTransform f n) (f s)

/-! ## Settings -/

/-- schemars/src/generate.rs:78-93: the transforms of `SchemaSettings::draft07`, applied in order
(generate.rs:606-610). -/
def draft07Transforms : List (Json → Json) := [replaceUneval, removeRefSiblings, replacePrefix]
/-- schemars/src/generate.rs:97-107 (`draft2019_09`). -/
def draft2019Transforms : List (Json → Json) := [replacePrefix]
/-- schemars/src/generate.rs:111-121 (`draft2020_12`). -/
def draft2020Transforms : List (Json → Json) := []
/-- schemars/src/generate.rs:125-145 (`openapi3`). -/
def openapi3Transforms : List (Json → Json) :=
  [replaceUneval, replaceBool true, addNullable ⟨true, true⟩, removeRefSiblings, setSingleExample,
    replaceConst, replacePrefix]
/-- schemars/src/generate.rs:606-610 (`apply_transforms`). -/
def applyTransforms (ts : List (Json → Json)) (s : Json) : Json := ts.foldl (fun s t => t s) s

end Verif
