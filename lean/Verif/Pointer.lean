import Verif.Json
import Verif.Encoding

/-!
# JSON pointers

`serde_json::Value::pointer` / `pointer_mut` (dependency, modelled from its source), and
`json_pointer_mut` from schemars/src/generate.rs.
-/

namespace Verif

/-- Un-escapes one reference token: `.replace("~1", "/").replace("~0", "~")`
(serde_json `Value::pointer`; also schemars/src/generate.rs:640). -/
def unescapeToken (t : List Char) : List Char := replace2 '~' '0' '~' (replace2 '~' '1' '/' t)

/-- Decimal digit value. -/
def decDigit (c : Char) : Option Nat :=
  if 48 ≤ c.toNat ∧ c.toNat ≤ 57 then some (c.toNat - 48) else none

/-- Accumulates decimal digits. -/
def decFold : List Char → Nat → Option Nat
  | [], acc => some acc
  | c :: t, acc => (decDigit c).bind fun d => decFold t (acc * 10 + d)

/-- serde_json's `parse_index`: rejects a leading `+` and a leading zero (except `"0"`), then parses a
`usize`. Simplified: no overflow (an index ≥ 2^64 is out of range of any list anyway). -/
def parseIndex (s : List Char) : Option Nat :=
  match s with
  | [] => none
  | c :: t => if c = '+' ∨ (c = '0' ∧ t ≠ []) then none else decFold s 0

/-- One step of the walk: the child of a value named by an (un-escaped) token. -/
def stepTok (j : Json) (t : List Char) : Option Json :=
  match j with
  | .obj m => Obj.get m (String.ofList t)
  | .arr l => (parseIndex t).bind fun i => l[i]?
  | _ => none

/-- The `try_fold` of `Value::pointer`. -/
def walkToks : Json → List (List Char) → Option Json
  | j, [] => some j
  | j, t :: r => (stepTok j t).bind fun v => walkToks v r

/-- The tokens of a pointer: `""` has none, otherwise it must start with `/`; the rest is split on `/`
and un-escaped. -/
def pointerToks (p : List Char) : Option (List (List Char)) :=
  match p with
  | [] => some []
  | c :: _ => if c = '/' then some ((splitChar '/' p).tail.map unescapeToken) else none

/-- `serde_json::Value::pointer`. -/
def valuePointer (j : Json) (p : List Char) : Option Json := (pointerToks p).bind (walkToks j)

/-- Writes through the mutable reference that `stepTok` would give. -/
def modifyTok (j : Json) (t : List Char) (f : Json → Json) : Json :=
  match j with
  | .obj m => .obj (Obj.modify m (String.ofList t) f)
  | .arr l =>
    match parseIndex t with
    | some i => .arr (l.modify i f)
    | none => j
  | j => j

/-- Writes through the reference obtained by walking the tokens. -/
def modifyToks : Json → List (List Char) → (Json → Json) → Json
  | j, [], f => f j
  | j, t :: r, f => modifyTok j t (fun v => modifyToks v r f)

/-- `serde_json::Value::pointer_mut` followed by replacing the referenced value by its image under `f`.
`none` when no value is referenced. -/
def valuePointerMut (j : Json) (p : List Char) (f : Json → Json) : Option Json :=
  match pointerToks p with
  | none => none
  | some ts => (walkToks j ts).map fun _ => modifyToks j ts f

/-- The loop of schemars/src/generate.rs:637-653 with `create_if_missing = true`, followed by the update
`f` on the object found. `none` when an existing value on the path is not an object. -/
def objAtMut : List (String × Json) → List String → (List (String × Json) → List (String × Json)) →
    Option (List (String × Json))
  | m, [], f => some (f m)
  | m, k :: r, f =>
    match Obj.get m k with
    | some (.obj n) => (objAtMut n r f).map fun n' => Obj.insert m k (.obj n')
    | some _ => none
    | none => (objAtMut [] r f).map fun n' => Obj.insert m k (.obj n')

/-- The path segments of schemars/src/generate.rs:632-642. The un-escaping is skipped when the segment
has no `~`; the model always applies it (same result). -/
def ptrMutSegments (p : List Char) : Option (List String) :=
  (stripPrefix '/' p).map fun rest =>
    if rest = [] then [] else (splitChar '/' rest).map (fun s => String.ofList (unescapeToken s))

/-- schemars/src/generate.rs:625-654 (`json_pointer_mut` with `create_if_missing = true`, the only way it
is called), followed by the update `f` on the referenced object.
Simplification: when the walk fails after having created some missing parents, Rust leaves those (empty)
parents behind. That cannot happen: once a parent is created, everything below it is missing too, so the
walk then succeeds (`objAtMut_nil_isSome`). -/
def jsonPointerMut (m : List (String × Json)) (p : List Char)
    (f : List (String × Json) → List (String × Json)) : Option (List (String × Json)) :=
  (ptrMutSegments p).bind fun segs => objAtMut m segs f

/-- schemars/src/generate.rs:614-618 (`definitions_path_stripped`). -/
def definitionsPathStripped (path : List Char) : List Char :=
  let p := (stripPrefix '#' path).getD path
  (stripSuffix '/' p).getD p

/-- schemars/src/generate.rs:589-604 (`add_definitions`). `target.append(&mut definitions)` inserts all
definitions into the target map. Failure to find the target leaves the schema unchanged. -/
def addDefinitions (path : List Char) (m defs : List (String × Json)) : List (String × Json) :=
  if defs = [] then m
  else (jsonPointerMut m (definitionsPathStripped path) (fun t => Obj.extend t defs)).getD m

/-- schemars/src/generate.rs:356-360: the text of the `$ref` for a definition name. -/
def refFor (path : List Char) (name : String) : String :=
  String.ofList ('#' :: definitionsPathStripped path ++ '/' :: encodeRefChars name.toList)

end Verif
