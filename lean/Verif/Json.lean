import Mathlib.Order.Basic

/-!
# JSON values and maps

Model of `serde_json::Value` and `serde_json::Map<String, Value>` (not part of /repo, but the
representation that `Schema(Value)` in schemars/src/schema.rs:64-66 wraps).
-/

namespace Verif

/-- `serde_json::Number`. Simplified: integers are unbounded, and a float is the exact rational it
denotes (rounding and textual form are not modelled; NaN and infinities cannot occur in JSON). -/
inductive JNum where
  | int (i : Int)
  | flt (q : Rat)
  deriving DecidableEq, Repr

/-- The mathematical value of a JSON number. -/
def JNum.val : JNum → Rat
  | .int i => i
  | .flt q => q

/-- `serde_json::Value`. An object is a list of entries; `Obj.insert` keeps it sorted by key, as the
default (non-`preserve_order`) `serde_json::Map` does. -/
inductive Json where
  | null
  | bool (b : Bool)
  | num (n : JNum)
  | str (s : String)
  | arr (l : List Json)
  | obj (m : List (String × Json))
  deriving Repr, Inhabited

namespace Json

/-- Induction principle for `Json` that gives the hypothesis for all direct children. -/
theorem ind {P : Json → Prop}
    (null : P .null) (bool : ∀ b, P (.bool b)) (num : ∀ n, P (.num n)) (str : ∀ s, P (.str s))
    (arr : ∀ l, (∀ x ∈ l, P x) → P (.arr l))
    (obj : ∀ m, (∀ e ∈ m, P e.2) → P (.obj m)) : ∀ j, P j := by
  intro j
  exact Json.rec (motive_1 := P) (motive_2 := fun l => ∀ x ∈ l, P x)
    (motive_3 := fun m => ∀ e ∈ m, P e.2) (motive_4 := fun e => P e.2)
    null bool num str arr obj
    (by simp)
    (by intro h t ih1 ih2 x hx; rcases List.mem_cons.1 hx with rfl | hx
        · exact ih1
        · exact ih2 x hx)
    (by simp)
    (by intro h t ih1 ih2 x hx; rcases List.mem_cons.1 hx with rfl | hx
        · exact ih1
        · exact ih2 x hx)
    (by intro k v h; exact h) j

mutual
/-- Boolean equality of JSON values (Rust `PartialEq for Value`, on the sorted representation). -/
def beq : Json → Json → Bool
  | .null, .null => true
  | .bool a, .bool b => a == b
  | .num a, .num b => decide (a = b)
  | .str a, .str b => decide (a = b)
  | .arr a, .arr b => beqList a b
  | .obj a, .obj b => beqObj a b
  | _, _ => false
/-- `beq` on element lists. -/
def beqList : List Json → List Json → Bool
  | [], [] => true
  | a :: s, b :: t => beq a b && beqList s t
  | _, _ => false
/-- `beq` on entry lists. -/
def beqObj : List (String × Json) → List (String × Json) → Bool
  | [], [] => true
  | (k, a) :: s, (k', b) :: t => decide (k = k') && beq a b && beqObj s t
  | _, _ => false
end

theorem beq_iff (a : Json) : ∀ b, beq a b = true ↔ a = b := by
  induction a using Json.ind with
  | null => intro b; cases b <;> simp [beq]
  | bool x => intro b; cases b <;> simp [beq]
  | num x => intro b; cases b <;> simp [beq]
  | str x => intro b; cases b <;> simp [beq]
  | arr l ih =>
    have key : ∀ l' : List Json, beqList l l' = true ↔ l = l' := by
      induction l with
      | nil => intro l'; cases l' <;> simp [beqList]
      | cons h t iht =>
        intro l'
        cases l' with
        | nil => simp [beqList]
        | cons h' t' =>
          have h1 := ih h (by simp) h'
          have h2 := iht (fun x hx => ih x (by simp [hx])) t'
          simp [beqList, h1, h2]
    intro b; cases b <;> simp [beq, key]
  | obj l ih =>
    have key : ∀ l' : List (String × Json), beqObj l l' = true ↔ l = l' := by
      induction l with
      | nil => intro l'; cases l' <;> simp [beqObj]
      | cons h t iht =>
        intro l'
        obtain ⟨k, v⟩ := h
        cases l' with
        | nil => simp [beqObj]
        | cons h' t' =>
          obtain ⟨k', v'⟩ := h'
          have h1 := ih (k, v) (by simp) v'
          have h2 := iht (fun x hx => ih x (by simp [hx])) t'
          simp only at h1
          simp [beqObj, h1, h2]
    intro b; cases b <;> simp [beq, key]

instance : DecidableEq Json := fun a b => decidable_of_iff _ (beq_iff a b)

/-- `Value::as_bool`. -/
def asBool? : Json → Option Bool
  | .bool b => some b
  | _ => none

/-- `Value::as_str`. -/
def asStr? : Json → Option String
  | .str s => some s
  | _ => none

end Json

/-! ## Maps -/

namespace Obj
variable {α : Type _}

/-- `Map::get`: the value of the first entry with the key. -/
def get : List (String × α) → String → Option α
  | [], _ => none
  | (k, v) :: t, q => if k = q then some v else get t q

/-- `Map::insert` on a `BTreeMap`: replaces the value of an existing key, otherwise inserts the entry
at its sorted position. The previous value (Rust's return value) is `get m k`. -/
def insert : List (String × α) → String → α → List (String × α)
  | [], k, v => [(k, v)]
  | (k', v') :: t, k, v =>
    if k' = k then (k, v) :: t
    else if k < k' then (k, v) :: (k', v') :: t
    else (k', v') :: insert t k v

/-- `Map::remove` (the map after removal; Rust's return value is `get m k`). -/
def remove (m : List (String × α)) (k : String) : List (String × α) :=
  m.filter (fun e => e.1 ≠ k)

/-- `Map::contains_key`. -/
def has (m : List (String × α)) (k : String) : Bool := (get m k).isSome

/-- `Map::get_mut` followed by a write: applies `f` to the value of the first entry with the key. -/
def modify : List (String × α) → String → (α → α) → List (String × α)
  | [], _, _ => []
  | (k, v) :: t, q, f => if k = q then (k, f v) :: t else (k, v) :: modify t q f

/-- The keys in map order. -/
def keys (m : List (String × α)) : List String := m.map Prod.fst

/-- `Map::append` / `extend`: inserts all entries of the second map into the first. -/
def extend (m : List (String × α)) (n : List (String × α)) : List (String × α) :=
  n.foldl (fun acc e => insert acc e.1 e.2) m

/-- Building a map from entries in order (`FromIterator`, `json!({...})`). -/
def ofList (n : List (String × α)) : List (String × α) := extend [] n

/-- The representation invariant of a `BTreeMap`: keys strictly increasing. -/
def Sorted (m : List (String × α)) : Prop := m.Pairwise (fun a b => a.1 < b.1)

end Obj

/-- Builds a JSON object from entries (the `json!({..})` macro). -/
def mkObj (n : List (String × Json)) : Json := .obj (Obj.ofList n)

/-- The object entry list contains only distinct keys, recursively. -/
inductive Json.WF : Json → Prop
  | null : WF .null
  | bool (b) : WF (.bool b)
  | num (n) : WF (.num n)
  | str (s) : WF (.str s)
  | arr (l) : (∀ x ∈ l, WF x) → WF (.arr l)
  | obj (m) : Obj.Sorted m → (∀ e ∈ m, WF e.2) → WF (.obj m)

end Verif
