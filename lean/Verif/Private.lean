import Verif.Generator

/-!
# schemars/src/_private/mod.rs: helpers called by the standard implementations and by derived code

Functions that take `&mut Schema` return the new schema. The helpers that take the generator are programs
(`Prog`).
-/

namespace Verif

/-- `<()>::json_schema` (schemars/src/json_schema_impls/primitives.rs:72). -/
def nullSchema : Json := .obj [("type", .str "null")]

/-- schemars/src/_private/mod.rs:442-446 (`contains_immediate_subschema`). -/
def containsImmediate (m : List (String × Json)) : Bool :=
  ["if", "allOf", "anyOf", "oneOf", "$ref"].any fun k => Obj.has m k

/-! ## allow_null -/

/-- schemars/src/_private/mod.rs:449-451 (`is_null_schema`). -/
def isNullSchema (v : Json) : Bool := isSchema v && Schema.hasType v "null"

/-- schemars/src/_private/mod.rs:455-462: the condition of the first `return`. -/
def allowsNullAlready (m : List (String × Json)) : Bool :=
  decide (m.length = 1) &&
    match Obj.get m "anyOf" with
    | some (.arr a) => a.any isNullSchema
    | _ => false

/-- schemars/src/_private/mod.rs:475-491: what happens to `type`. -/
def allowNullType (ty : Json) : Json :=
  match ty with
  | .arr l => if l.contains (.str "null") then .arr l else .arr (l ++ [.str "null"])
  | .str s => if s = "null" then .str s else .arr [.str s, .str "null"]
  | ty => ty

/-- schemars/src/_private/mod.rs:497-501: what happens to `enum` when there is no `const`. -/
def allowNullEnum (e : Json) : Json :=
  match e with
  | .arr l => if l.contains .null then .arr l else .arr (l ++ [.null])
  | e => e

/-- schemars/src/_private/mod.rs:493-501: what happens to `const` and `enum`. -/
def allowNullConst (m : List (String × Json)) : List (String × Json) :=
  match Obj.get m "const" with
  | some .null => Obj.remove m "const"
  | some c => Obj.insert (Obj.remove m "const") "enum" (.arr [c, .null])
  | none => Obj.modify m "enum" allowNullEnum

/-- schemars/src/_private/mod.rs:448-508 (`allow_null`). -/
def allowNull (s : Json) : Json :=
  match s with
  | .obj m =>
    if allowsNullAlready m then .obj m
    else if containsImmediate m then .obj [("anyOf", .arr [.obj m, nullSchema])]
    else .obj (allowNullConst (Obj.modify m "type" allowNullType))
  | .bool true => .bool true
  | .bool false => nullSchema
  | s => s

/-! ## Properties -/

/-- `obj.entry(key).or_insert(default)` followed by a write. -/
def Obj.entryOr (m : List (String × Json)) (k : String) (default : Json) (f : Json → Json) :
    List (String × Json) :=
  Obj.insert m k (f ((Obj.get m k).getD default))

/-- `as_object_mut` followed by an insertion. -/
def insertMember (k : String) (v : Json) (o : Json) : Json :=
  match o with
  | .obj p => .obj (Obj.insert p k v)
  | o => o

/-- `as_array_mut` followed by a `push`. -/
def pushElem (v : Json) (a : Json) : Json :=
  match a with
  | .arr l => .arr (l ++ [v])
  | a => a

/-- `as_array_mut` followed by an insertion at the front. -/
def unshiftElem (v : Json) (a : Json) : Json :=
  match a with
  | .arr l => .arr (v :: l)
  | a => a

/-- schemars/src/_private/mod.rs:298-322 (`insert_object_property`). -/
def insertObjectProperty (s : Json) (key : String) (isOptional : Bool) (sub : Json) : Json :=
  match Schema.ensureObject s with
  | some m =>
    let m1 := Obj.entryOr m "properties" (.obj []) (insertMember key sub)
    .obj (if isOptional then m1 else Obj.entryOr m1 "required" (.arr []) (pushElem (.str key)))
  | none => s

/-- schemars/src/_private/mod.rs:324-333 (`insert_metadata_property_if_nonempty`). -/
def insertMetadataIfNonempty (s : Json) (key value : String) : Json :=
  if value = "" then s else Schema.put s key (.str value)

/-- schemars/src/_private/mod.rs:335-344 (`insert_validation_property`). -/
def insertValidation (s : Json) (requiredType key : String) (value : Json) : Json :=
  if Schema.hasType s requiredType || (requiredType == "number" && Schema.hasType s "integer") then
    Schema.put s key value
  else s

/-- schemars/src/_private/regex_syntax.rs:49-55 (`is_meta_character`). -/
def metaChars : List Char :=
  ['\\', '.', '+', '*', '?', '(', ')', '|', '[', ']', '{', '}', '^', '$', '#', '&', '-', '~']

/-- schemars/src/_private/regex_syntax.rs:33-47 (`escape`, `escape_into`), on characters. -/
def regexEscape (s : List Char) : List Char :=
  s.flatMap fun c => if c ∈ metaChars then ['\\', c] else [c]

/-- schemars/src/_private/mod.rs:346-349 (`must_contain`). -/
def mustContain (s : Json) (substring : String) : Json :=
  insertValidation s "string" "pattern" (.str (String.ofList (regexEscape substring.toList)))

/-- schemars/src/_private/mod.rs:351-355 (`apply_inner_validation`). -/
def applyInnerValidation (s : Json) (f : Json → Json) : Json :=
  Schema.getMut s "items" fun i => if isSchema i then f i else i

/-! ## Enum variants -/

/-- The schema of a tag: `{"type": "string", "const": variant}`. -/
def tagSchema (variant : String) : Json := mkObj [("type", .str "string"), ("const", .str variant)]

/-- schemars/src/_private/mod.rs:201-206 (`new_unit_enum_variant`). -/
def newUnitVariant (variant : String) : Json := tagSchema variant

/-- schemars/src/_private/mod.rs:246-257 (`new_externally_tagged_enum_variant`). -/
def newExternalVariant (variant : String) (sub : Json) : Json :=
  mkObj [("type", .str "object"), ("properties", mkObj [(variant, sub)]),
    ("required", .arr [.str variant]), ("additionalProperties", .bool false)]

/-- schemars/src/_private/mod.rs:260-296 (`apply_internal_enum_variant_tag`). -/
def applyInternalTag (s : Json) (tag variant : String) (deny : Bool) : Json :=
  match Schema.ensureObject s with
  | some m =>
    let isUnit := (Obj.get m "type").bind Json.asStr? == some "null"
    let m1 := Obj.insert m "type" (.str "object")
    let m2 := Obj.entryOr m1 "properties" (.obj []) (insertMember tag (tagSchema variant))
    let m3 := Obj.entryOr m2 "required" (.arr []) (unshiftElem (.str tag))
    .obj (if deny && isUnit then Obj.entryOr m3 "additionalProperties" (.bool false) id else m3)
  | none => s

/-! ## flatten -/

/-- schemars/src/_private/mod.rs:358-396 (`flatten_property`), for a key other than `oneOf` and `anyOf`. -/
def flattenPlain (m : List (String × Json)) (key : String) (v2 : Json) : List (String × Json) :=
  match Obj.get m key with
  | none => Obj.insert m key v2
  | some v1 =>
    if key = "required" ∨ key = "allOf" then
      match v1, v2 with
      | .arr a1, .arr a2 => Obj.insert m key (.arr (a1 ++ a2))
      | _, _ => m
    else if key = "properties" ∨ key = "patternProperties" then
      match v1, v2 with
      | .obj o1, .obj o2 => Obj.insert m key (.obj (Obj.extend o1 o2))
      | _, _ => m
    else m

/-- schemars/src/_private/mod.rs:358-396 (`flatten_property`). The recursive call is for `allOf`. -/
def flattenProperty (m : List (String × Json)) (key : String) (v2 : Json) : List (String × Json) :=
  match Obj.get m key with
  | some v1 =>
    if key = "oneOf" ∨ key = "anyOf" then
      flattenPlain (Obj.remove m key) "allOf" (.arr [.obj [(key, v1)], .obj [(key, v2)]])
    else flattenPlain m key v2
  | none => flattenPlain m key v2

/-- schemars/src/_private/mod.rs:429-440 (`normalise_additional_unevaluated_properties`). -/
def normaliseUnevaluated (m1 m2 : List (String × Json)) : List (String × Json) :=
  match Obj.get m1 "additionalProperties" with
  | some ap =>
    if Obj.has m2 "unevaluatedProperties" || containsImmediate m2 then
      Obj.insert (Obj.remove m1 "additionalProperties") "unevaluatedProperties" ap
    else m1
  | none => m1

/-- schemars/src/_private/mod.rs:414-425: both schemas are objects. -/
def flattenObjects (m1 m2 : List (String × Json)) : List (String × Json) :=
  let n1 := normaliseUnevaluated m1 m2
  let n2 := normaliseUnevaluated m2 n1
  n2.foldl (fun m e => flattenProperty m e.1 e.2) n1

/-- schemars/src/_private/mod.rs:357-427 (`flatten`). -/
def flatten (s other : Json) : Json :=
  match other with
  | .bool false => s
  | .bool true =>
    match s with
    | .obj m =>
      if !Obj.has m "additionalProperties" && !Obj.has m "unevaluatedProperties" then
        .obj (Obj.insert m
          (if containsImmediate m then "unevaluatedProperties" else "additionalProperties") (.bool true))
      else .obj m
    | s => s
  | .obj m2 =>
    match Schema.ensureObject s with
    | some m1 => .obj (flattenObjects m1 m2)
    | none => s
  | _ => s

/-! ## AllowUnknownProperties -/

/-- `schema.get(key).and_then(Value::as_bool) == Some(false)`. -/
def isFalseAt (m : List (String × Json)) (k : String) : Bool := Obj.get m k == some (.bool false)

/-- schemars/src/_private/mod.rs:155-162, one keyword. -/
def dropIfFalse (m : List (String × Json)) (k : String) : List (String × Json) :=
  if isFalseAt m k then Obj.remove m k else m

/-- schemars/src/_private/mod.rs:154-162. -/
def allowUnknownLocal (s : Json) : Json :=
  match s with
  | .obj m => .obj (dropIfFalse (dropIfFalse m "additionalProperties") "unevaluatedProperties")
  | s => s

/-- schemars/src/_private/mod.rs:153-166. -/
def allowUnknownStep (T : Json → Json) (s : Json) : Json := tsub immSlot T (allowUnknownLocal s)

/-- `AllowUnknownProperties` (schemars/src/_private/mod.rs:148-166). The local step touches no keyword that
is traversed, so it may also run after the traversal; `allowUnknown_eq` proves the equation with the order
of the code. -/
def allowUnknown (s : Json) : Json :=
  walk immSlot (fun _ _ => ()) (fun _ _ tr => allowUnknownLocal tr) () .one s

mutual
/-- `did_modify` after `AllowUnknownProperties::transform` (schemars/src/_private/mod.rs:148-166): some
visited schema has one of the keywords set to `false`. -/
def didModify : Slot → Json → Bool
  | .one, .obj m => isFalseAt m "additionalProperties" || isFalseAt m "unevaluatedProperties" ||
      didModifyEntries m
  | .list, .arr l => didModifyList l
  | _, _ => false
@[inherit_doc didModify] def didModifyList : List Json → Bool
  | [] => false
  | j :: l => didModify .one j || didModifyList l
@[inherit_doc didModify] def didModifyEntries : List (String × Json) → Bool
  | [] => false
  | (k, v) :: l => didModify (immSlot k) v || didModifyEntries l
end

/-- `did_modify` after `transform_immediate_subschemas(&mut transform, schema)`. -/
def didModifyBelow (s : Json) : Bool :=
  match s with
  | .obj m => didModifyEntries m
  | _ => false

/-! ## json_schema_for_flatten -/

/-- schemars/src/_private/mod.rs:118-140 (`remove_unit_variants`): the schema afterwards, and the removed
variants. -/
def removeUnitVariants (s : Json) : Json × Option (List Json) :=
  match s with
  | .obj m =>
    match (Obj.get m "type").bind Json.asStr? == some "string", Obj.get m "enum" with
    | true, some (.arr a) => (.obj (Obj.remove (Obj.remove m "enum") "type"), some a)
    | isString, _ =>
      -- `schema.remove("enum")` also takes away an `enum` that is not an array
      let m := if isString then Obj.remove m "enum" else m
      match Obj.get m "oneOf" with
      | some (.arr (.obj first :: rest)) =>
        match (Obj.get first "type").bind Json.asStr? == some "string", Obj.get first "enum" with
        | true, some (.arr a) => (.obj (Obj.insert m "oneOf" (.arr rest)), some a)
        | true, _ => (.obj (Obj.insert m "oneOf" (.arr (.obj (Obj.remove first "enum") :: rest))), none)
        | _, _ => (.obj m, none)
      | _ => (.obj m, none)
  | s => (s, none)

/-- schemars/src/_private/mod.rs:70-80: the object form of a unit variant. -/
def unitVariantObject (variant : String) : Json :=
  mkObj [("type", .str "object"), ("properties", mkObj [(variant, nullSchema)]),
    ("required", .arr [.str variant])]

/-- schemars/src/_private/mod.rs:59-82. -/
def expandUnitVariants (s : Json) : Json :=
  match removeUnitVariants s with
  | (s, some units) =>
    match Schema.ensureObject s with
    | some m => .obj (Obj.entryOr m "oneOf" (.arr []) fun v =>
        match v with
        | .arr l => .arr (l ++ (units.filterMap Json.asStr?).map unitVariantObject)
        | v => v)
    | none => s
  | (s, none) => s

/-- schemars/src/_private/mod.rs:84-109: what is done for an optional field. -/
def flattenOptional (s : Json) : Json :=
  let s1 := (Schema.remove s "required").1
  let s2 := match Schema.remove s1 "oneOf" with
    | (s', some oneOf) => flatten s' (.obj [("anyOf", .arr [.obj [("oneOf", oneOf)], .obj []])])
    | (s', none) => s'
  Schema.getMut s2 "anyOf" fun a =>
    match a with
    | .arr l => if l.contains (.obj []) then .arr l else .arr (l ++ [.obj []])
    | a => a

/-- schemars/src/_private/mod.rs:55-116 (the inner function of `json_schema_for_flatten`). -/
def flattenInner (s : Json) (isOptional : Bool) : Json :=
  let s1 := expandUnitVariants s
  allowUnknown (if isOptional then flattenOptional s1 else s1)

variable {τ : Type}

/-- schemars/src/_private/mod.rs:50-146 (`json_schema_for_flatten`). `base` is the type whose `json_schema`
is `T::_schemars_private_non_optional_json_schema` (`T` itself unless `T` is an `Option`). -/
def flattenProg (base : τ) (isOption required : Bool) (k : Json → Prog τ) : Prog τ :=
  .direct base fun s => k (flattenInner s (isOption && !required))

/-- schemars/src/_private/mod.rs:32-43: the condition for using the schema in place. -/
def inlineNewtype (inlineType inlineSettings : Bool) (s s' : Json) : Bool :=
  inlineType || inlineSettings || (Schema.get s' "type").bind Json.asStr? == some "null" ||
    (Schema.get s' "additionalProperties").bind Json.asBool? == some false ||
    (Schema.get s' "unevaluatedProperties").bind Json.asBool? == some false || didModifyBelow s

/-- schemars/src/_private/mod.rs:16-47 (`json_schema_for_internally_tagged_enum_newtype_variant`). -/
def internalNewtypeProg (t : τ) (inlineType : Bool) (k : Json → Prog τ) : Prog τ :=
  .direct t fun s =>
    let s' := tsub immSlot allowUnknown s
    .askSettings fun st =>
      if inlineNewtype inlineType st.inlineSubschemas s s' then k s' else .sub t k

end Verif
