import Verif.Schema

/-!
# schemars/src/transform.rs: traversal of subschemas

`transform_subschemas` and `transform_immediate_subschemas` call a stateful transform on some values. They
are modelled for an arbitrary monad (`tsubM`), which covers any `&mut self` state, and for pure functions
(`tsub`). The built-in transforms call the traversal with themselves; `walk` is the structural recursion
that solves these recursive definitions.
-/

namespace Verif

/-- How the value of a keyword is traversed. -/
inductive Slot where
  /-- the value is a schema -/
  | one
  /-- the value is an array of schemas -/
  | list
  /-- the value is a schema or an array of schemas -/
  | items
  /-- the value is an object whose members are schemas -/
  | map
  /-- not traversed -/
  | skip
  deriving DecidableEq, Repr

/-- schemars/src/transform.rs:151-196: the match on the keyword in `transform_subschemas`. -/
def subSlot (key : String) : Slot :=
  match key with
  | "not" | "if" | "then" | "else" | "contains" | "additionalProperties" | "propertyNames"
  | "additionalItems" => .one
  | "allOf" | "anyOf" | "oneOf" | "prefixItems" => .list
  | "items" => .items
  | "properties" | "patternProperties" | "$defs" | "definitions" => .map
  | _ => .skip

/-- schemars/src/transform.rs:207-223: the match on the keyword in `transform_immediate_subschemas`. -/
def immSlot (key : String) : Slot :=
  match key with
  | "if" | "then" | "else" => .one
  | "allOf" | "anyOf" | "oneOf" => .list
  | _ => .skip

section Monadic
variable {m : Type → Type} [Monad m]

/-- schemars/src/transform.rs:160-162: `if let Ok(subschema) = value.try_into() { t.transform(subschema) }`. -/
def atSchemaM (t : Json → m Json) (v : Json) : m Json := if isSchema v then t v else pure v

/-- schemars/src/transform.rs:166-170: the loop over an array. -/
def atListM (t : Json → m Json) : List Json → m (List Json)
  | [] => pure []
  | v :: l => do
    let v' ← atSchemaM t v
    let l' ← atListM t l
    pure (v' :: l')

/-- schemars/src/transform.rs:188-192: the loop over the members of an object. -/
def atValsM (t : Json → m Json) : List (String × Json) → m (List (String × Json))
  | [] => pure []
  | (k, v) :: l => do
    let v' ← atSchemaM t v
    let l' ← atValsM t l
    pure ((k, v') :: l')

/-- schemars/src/transform.rs:152-195: the arms of the match. -/
def atSlotM (t : Json → m Json) : Slot → Json → m Json
  | .one, v => atSchemaM t v
  | .list, .arr l => do let l' ← atListM t l; pure (.arr l')
  | .items, .arr l => do let l' ← atListM t l; pure (.arr l')
  | .items, v => atSchemaM t v
  | .map, .obj o => do let o' ← atValsM t o; pure (.obj o')
  | _, v => pure v

/-- schemars/src/transform.rs:145: the loop over the entries of the schema. -/
def atEntriesM (slot : String → Slot) (t : Json → m Json) :
    List (String × Json) → m (List (String × Json))
  | [] => pure []
  | (k, v) :: l => do
    let v' ← atSlotM t (slot k) v
    let l' ← atEntriesM slot t l
    pure ((k, v') :: l')

/-- schemars/src/transform.rs:144-198 with `slot := subSlot`, and 202-225 with `slot := immSlot`. -/
def tsubM (slot : String → Slot) (t : Json → m Json) : Json → m Json
  | .obj o => do let o' ← atEntriesM slot t o; pure (.obj o')
  | s => pure s

end Monadic

/-! ## The pure case -/

/-- `atSchemaM` for a transform without state. -/
def atSchema (t : Json → Json) (v : Json) : Json := if isSchema v then t v else v

/-- `atSlotM` for a transform without state. -/
def atSlot (t : Json → Json) : Slot → Json → Json
  | .one, v => atSchema t v
  | .list, .arr l => .arr (l.map (atSchema t))
  | .items, .arr l => .arr (l.map (atSchema t))
  | .items, v => atSchema t v
  | .map, .obj o => .obj (o.map fun e => (e.1, atSchema t e.2))
  | _, v => v

/-- `tsubM` for a transform without state. -/
def tsub (slot : String → Slot) (t : Json → Json) : Json → Json
  | .obj o => .obj (o.map fun e => (e.1, atSlot t (slot e.1) e.2))
  | s => s

/-- The values that the traversal hands to the transform, in order. -/
def slotSubs : Slot → Json → List Json
  | .one, v => if isSchema v then [v] else []
  | .list, .arr l => l.filter isSchema
  | .items, .arr l => l.filter isSchema
  | .items, v => if isSchema v then [v] else []
  | .map, .obj o => (o.map Prod.snd).filter isSchema
  | _, _ => []

@[inherit_doc slotSubs]
def subs (slot : String → Slot) : Json → List Json
  | .obj o => o.flatMap fun e => slotSubs (slot e.1) e.2
  | _ => []

/-! ## Recursive transforms -/

section Walk
variable {ε : Type} (slot : String → Slot) (enter : ε → List (String × Json) → ε)
  (leave : ε → Json → Json → Json)

mutual
/-- Structural recursion over nested subschemas. `enter` computes the setting for the subschemas of an
object. `leave` gets the setting, the schema before the transform, and the schema with its subschemas
transformed. -/
def walk (e : ε) : Slot → Json → Json
  | .one, .obj o => leave e (.obj o) (.obj (walkEntries (enter e o) o))
  | .one, .bool b => leave e (.bool b) (.bool b)
  | .list, .arr l => .arr (walkList e l)
  | .items, .arr l => .arr (walkList e l)
  | .items, .obj o => leave e (.obj o) (.obj (walkEntries (enter e o) o))
  | .items, .bool b => leave e (.bool b) (.bool b)
  | .map, .obj o => .obj (walkVals e o)
  | _, j => j
@[inherit_doc walk] def walkList (e : ε) : List Json → List Json
  | [] => []
  | j :: l => walk e .one j :: walkList e l
@[inherit_doc walk] def walkVals (e : ε) : List (String × Json) → List (String × Json)
  | [] => []
  | (k, v) :: l => (k, walk e .one v) :: walkVals e l
@[inherit_doc walk] def walkEntries (e : ε) : List (String × Json) → List (String × Json)
  | [] => []
  | (k, v) :: l => (k, walk e (slot k) v) :: walkEntries e l
end
end Walk

end Verif
