import Verif.Json
import Mathlib.Data.List.Forall2

/-!
# Specification: what a serialized schema looks like
-/

namespace Verif.Spec

/-- Same JSON value up to the order of object entries (which JSON does not give meaning to). -/
inductive SameJson : Json → Json → Prop
  | null : SameJson .null .null
  | bool (b) : SameJson (.bool b) (.bool b)
  | num (n) : SameJson (.num n) (.num n)
  | str (s) : SameJson (.str s) (.str s)
  | arr {l l'} : List.Forall₂ SameJson l l' → SameJson (.arr l) (.arr l')
  | obj {m m' n} : Obj.keys m = Obj.keys n → List.Forall₂ (fun a b => SameJson a.2 b.2) m n → n.Perm m' →
      SameJson (.obj m) (.obj m')

mutual
/-- Reading a JSON text into `serde_json::Value`: objects become sorted maps. -/
def readBack : Json → Json
  | .arr l => .arr (readBackList l)
  | .obj m => .obj (Obj.ofList (readBackObj m))
  | j => j
@[inherit_doc readBack] def readBackList : List Json → List Json
  | [] => []
  | j :: t => readBack j :: readBackList t
@[inherit_doc readBack] def readBackObj : List (String × Json) → List (String × Json)
  | [] => []
  | (k, v) :: t => (k, readBack v) :: readBackObj t
end

/-- What a value in a schema document is: a schema (or something below it), a map whose values are
schemas, or plain data. -/
inductive Role
  | schema
  | schemaMap
  | data
  deriving DecidableEq

/-- The role of the value of a keyword. -/
def roleOf (key : String) : Role :=
  if key ∈ ["examples", "default"] ∨ "x-".toList <+: key.toList then .data
  else if key ∈ ["properties", "patternProperties", "dependentSchemas", "$defs", "definitions"] then
    .schemaMap
  else .schema

/-- The documented position of a keyword: the identifying ones first, definitions last. -/
def rank (key : String) : Nat :=
  match key with
  | "$id" => 0
  | "$schema" => 1
  | "title" => 2
  | "description" => 3
  | "type" => 4
  | "format" => 5
  | "properties" => 6
  | "$defs" => 8
  | "definitions" => 9
  | _ => 7

/-- `out` is the entry list `m` sorted by rank, entries of equal rank keeping their order. -/
def StableSorted (m out : List (String × Json)) : Prop :=
  out.Perm m ∧ out.Pairwise (fun a b => rank a.1 ≤ rank b.1) ∧
    ∀ r, out.filter (fun e => rank e.1 = r) = m.filter (fun e => rank e.1 = r)

/-- `SerSpec role j out`: `out` is the expected ordering of `j` in the given role. -/
inductive SerSpec : Role → Json → Json → Prop
  | data (j) : SerSpec .data j j
  | null {r} : SerSpec r .null .null
  | bool {r} (b) : SerSpec r (.bool b) (.bool b)
  | num {r} (n) : SerSpec r (.num n) (.num n)
  | str {r} (s) : SerSpec r (.str s) (.str s)
  | arr {r l l'} : r ≠ .data → List.Forall₂ (SerSpec .schema) l l' → SerSpec r (.arr l) (.arr l')
  | map {m m'} : Obj.keys m = Obj.keys m' → List.Forall₂ (fun a b => SerSpec .schema a.2 b.2) m m' →
      SerSpec .schemaMap (.obj m) (.obj m')
  | schema {m c out} : Obj.keys m = Obj.keys c →
      List.Forall₂ (fun a b => SerSpec (roleOf a.1) a.2 b.2) m c → StableSorted c out → SerSpec .schema (.obj m) (.obj out)

end Verif.Spec
