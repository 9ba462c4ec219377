import Verif.Props.AcceptsPipelines
import Verif.Props.Reads

/-!
# C64 and C65: examples, and types whose schemas disagree with what serde reads
-/

namespace Verif
open Spec

/-- C64 in full, for the default settings: whatever the types, the root schema accepts every document that serde reads
as a value of the type and whose fields obey their validation attributes. -/
def C64_Full : Prop :=
  ∀ (τ : Type) (D : Dialect) (env : Env) (Γ : τ → TypeDef τ) (decl : τ → Decl τ) (I : TypeInfo τ) (w n : Nat)
    (q : Quirks τ) (t : τ) (r : Json) (g' : Gen τ), Modern D env → DecimalInputRx env → Declared Γ decl I →
    OptionsKnown decl I → rootSchemaFor Γ (run Γ n) t (Gen.new Settings.draft2020) = some (r, g') →
    Resolves D env r → ∀ j, j.WF → ReadIf w q (FieldObeys env) I.base decl t j → Valid D env r j

/-- C65 in full, for the default settings: whatever the types, serde reads every document that the root schema accepts.
All forms that serde reads are counted. -/
def C65_Full : Prop :=
  ∀ (τ : Type) (D : Dialect) (env : Env) (Γ : τ → TypeDef τ) (decl : τ → Decl τ) (I : TypeInfo τ) (w n : Nat)
    (t : τ) (r : Json) (g' : Gen τ), Modern D env → DecimalInputRx env → Declared Γ decl I →
    OptionsKnown decl I → rootSchemaFor Γ (run Γ n) t (Gen.new Settings.draft2020) = some (r, g') →
    Resolves D env r → ∀ j, j.WF → Valid D env r j → Read w { lax := true, lenient := true } I.base decl t j

open Classical in
/-- The regular expressions of schemars mean what they say. -/
noncomputable def inputEnv : Env where
  ref _ _ := R.pass
  rx p k := decide (p = "^\\d+$" ∧ Digits k.toList ∨ p = "^-?\\d+$" ∧ SignedDigits k.toList ∨
    p = "^-?\\d+(\\.\\d+)?$" ∧ DecimalText k ∨ p = "^-?\\d+(\\.\\d+)?([eE]\\d+)?$" ∧ (DecimalText k ∨ ScientificText k))
  kw _ _ _ := true

theorem modern_inputEnv (f : String → Json → R) : Modern draft2020 (inputEnv.withRef f) where
  refs := rfl
  items := rfl
  digits := ⟨fun k => by simp [Env.withRef, inputEnv], fun k => by simp [Env.withRef, inputEnv]⟩
  decimal s h := by simp [Env.withRef, inputEnv, h]

theorem input_inputEnv (f : String → Json → R) : DecimalInputRx (inputEnv.withRef f) := by
  intro s h
  simp [Env.withRef, inputEnv, h]

/-! ### The types of the examples -/

namespace Rd

/-- `()`, `u32`, `Option<u32>`, and the given types. -/
def decl (ds : List (Decl Nat)) : Nat → Decl Nat
  | 0 => .std (.simple "null")
  | 1 => .std (.int .u32)
  | 2 => .std (.option 1)
  | n + 3 => (ds[n]?).getD (.std (.simple "null"))

def info : TypeInfo Nat where
  unit := 0
  isOption t := t = 2
  base t := if t = 2 then 1 else t
  inline _ := true

/-- The types, all with `#[schemars(inline)]`. -/
def types (ds : List (Decl Nat)) (t : Nat) : TypeDef Nat := ⟨Nat.repr t, "T", true, bodyOf info (decl ds t)⟩

theorem declared (ds : List (Decl Nat)) : Declared (types ds) (decl ds) info where
  body _ := rfl
  ids t t' h := by
    have h : Nat.repr t = Nat.repr t' := h
    rw [repr_inj h]
  unit := rfl
  unitInline := rfl
  option t h := by
    obtain rfl : t = 2 := of_decide_eq_true h
    exact ⟨1, rfl, rfl⟩
  base t h := if_neg (of_decide_eq_false h)

/-- There is no option beside `Option<u32>`. -/
def NoOptions (ds : List (Decl Nat)) : Prop := ∀ d ∈ ds, ∀ u, d ≠ .std (.option u)

theorem options {ds : List (Decl Nat)} (h : NoOptions ds) : OptionsKnown (decl ds) info := by
  intro t u ht
  match t with
  | 0 => cases ht
  | 1 => cases ht
  | 2 => rfl
  | n + 3 =>
    exfalso
    have ht : (ds[n]?).getD (.std (.simple "null")) = .std (.option u) := ht
    cases hd : ds[n]? with
    | none => rw [hd] at ht; cases ht
    | some d => rw [hd] at ht; exact h d (List.mem_of_getElem? hd) u ht

/-- The field has no validation attributes. -/
def bare (f : Field Nat) : Bool :=
  match f.validation with
  | .mk none none none none none none none => true
  | _ => false

/-- No field has validation attributes. -/
def Bare (ds : List (Decl Nat)) : Prop := (ds.flatMap declFields).all bare = true

theorem bare_decl {ds : List (Decl Nat)} (h : Bare ds) (n : Nat) :
    ∀ f ∈ declFields ((ds[n]?).getD (.std (.simple "null"))), f.validation = .noAttrs := by
  have key : ∀ f, bare f = true → f.validation = .noAttrs := by
    intro f hf
    unfold bare at hf
    split at hf
    · assumption
    · cases hf
  cases hd : ds[n]? with
  | none => simp [declFields]
  | some d =>
    intro f hf
    exact key f (List.all_eq_true.1 h f (List.mem_flatMap.2 ⟨d, List.mem_of_getElem? hd, hf⟩))

theorem unvalidated {ds : List (Decl Nat)} (h : Bare ds) (t : Nat) :
    ∀ f ∈ declFields (decl ds t), f.validation = .noAttrs := by
  match t with
  | 0 => simp [decl, declFields]
  | 1 => simp [decl, declFields]
  | 2 => simp [decl, declFields]
  | n + 3 => exact bare_decl h n

/-- What refutes C64 for the type `3`. -/
theorem rejected {ds : List (Decl Nat)} {r : Json} {n : Nat} {j : Json} (q : Quirks Nat) (hds : NoOptions ds)
    (h : (rootSchemaFor (types ds) (run (types ds) n) 3 (Gen.new Settings.draft2020)).map Prod.fst = some r)
    (hr : ∀ v ∈ valuesIn r, refsHere v = []) (hj : j.WF) (hread : Read 64 q info.base (decl ds) 3 j)
    (hv : ∀ f, ¬ Valid draft2020 (inputEnv.withRef f) r j) (hn : Bare ds := by rfl) : ¬ C64_Full := by
  intro hC
  obtain ⟨⟨r', g'⟩, hg, rfl⟩ := Option.map_eq_some_iff.1 h
  obtain ⟨f, hf⟩ := resolves_plain (D := draft2020) (env := inputEnv) hr
  exact hv f (hC Nat _ _ _ _ _ _ n q 3 r' g' (modern_inputEnv f) (input_inputEnv f) (declared ds) (options hds) hg hf j hj
    (read_obeys (unvalidated hn) hread))

/-- What refutes C65 for the type `3`. -/
theorem accepted {ds : List (Decl Nat)} {r : Json} {n : Nat} {j : Json} (hds : NoOptions ds)
    (h : (rootSchemaFor (types ds) (run (types ds) n) 3 (Gen.new Settings.draft2020)).map Prod.fst = some r)
    (hr : ∀ v ∈ valuesIn r, refsHere v = []) (hj : j.WF)
    (hread : ¬ ReadDecl 64 { lax := true, lenient := true }
      (Read 64 { lax := true, lenient := true } info.base (decl ds))
      (ofType (Read 64 { lax := true, lenient := true } info.base (decl ds)) info.base) info.base (decl ds) (decl ds 3) j)
    (hv : ∀ f, Valid draft2020 (inputEnv.withRef f) r j) : ¬ C65_Full := by
  intro hC
  obtain ⟨⟨r', g'⟩, hg, rfl⟩ := Option.map_eq_some_iff.1 h
  obtain ⟨f, hf⟩ := resolves_plain (D := draft2020) (env := inputEnv) hr
  exact hread (read_iff.1 (hC Nat _ _ _ _ _ _ n 3 r' g' (modern_inputEnv f) (input_inputEnv f) (declared ds) (options hds)
    hg hf j hj (hv f)))

/-- A member of the type `t`. -/
def member (n : String) (t : Nat) : Field Nat := { name := ⟨n, n⟩, ty := t }

/-- A variant. -/
def variant (n : String) (fields : Fields Nat) : Variant Nat := { name := ⟨n, n⟩, fields := fields }

/-- `struct T { x: u32 }`. -/
def struct_ : List (Decl Nat) := [.derived { data := .struct (.struct [member "x" 1]) }]

/-- `enum T { A }`. -/
def unitEnum : List (Decl Nat) := [.derived { data := .enum .external [variant "A" .unit] }]

/-- `#[serde(tag = "t")] enum T { A, B }`. -/
def taggedEnum : List (Decl Nat) := [.derived { data := .enum (.internal "t") [variant "A" .unit, variant "B" .unit] }]

/-- `HashSet<u32>`. -/
def set_ : List (Decl Nat) := [.std (.set 1)]

/-- `#[serde(tag = "t", content = "c")] enum T { A(Option<u32>) }`. -/
def adjacentOption : List (Decl Nat) :=
  [.derived { data := .enum (.adjacent "t" "c") [variant "A" (.newtype (member "0" 2))] }]

/-- `#[serde(tag = "t", content = "c", deny_unknown_fields)] enum T { A }`. -/
def adjacentDeny : List (Decl Nat) :=
  [.derived { data := .enum (.adjacent "t" "c") [variant "A" .unit], denyUnknownFields := true }]

/-- `#[serde(tag = "t", content = "c")] enum T { A }`. -/
def adjacentOpen : List (Decl Nat) := [.derived { data := .enum (.adjacent "t" "c") [variant "A" .unit] }]

/-- `#[serde(tag = "t", deny_unknown_fields)] enum T { A }`. -/
def taggedDeny : List (Decl Nat) :=
  [.derived { data := .enum (.internal "t") [variant "A" .unit], denyUnknownFields := true }]

/-- `struct T { x: Inner }` with `/// doc` `#[serde(transparent)] struct Inner(Option<u32>);`. -/
def transparentOption : List (Decl Nat) :=
  [.derived { data := .struct (.struct [member "x" 4]) },
   .derived { data := .struct (.newtype (member "0" 2)), transparent := some (member "0" 2), common := { doc := some "doc" } }]

/-- `struct T { x: Inner }` with `#[serde(from = "Option<u32>")] struct Inner;`. -/
def fromOption : List (Decl Nat) :=
  [.derived { data := .struct (.struct [member "x" 4]) }, .derived { data := .struct .unit, fromTy := some 2 }]

/-- `struct T(u32, #[serde(default)] u32);`. -/
def tupleDefault : List (Decl Nat) :=
  [.derived { data := .struct (.tuple [member "0" 1, { member "1" 1 with hasDefault := true }]) }]

/-- `Decimal`. -/
def decimal : List (Decl Nat) := [.std .decimal]

/-- `Duration`. -/
def duration : List (Decl Nat) := [.std .duration]

/-- `Range<u32>`. -/
def range_ : List (Decl Nat) := [.std (.range 1)]

/-- `Result<u32, u32>`. -/
def result_ : List (Decl Nat) := [.std (.result 1 1)]

/-- `HashMap<u32, u32>`. -/
def map_ : List (Decl Nat) := [.std (.map 1 1)]

/-- `u32`. -/
def number : List (Decl Nat) := [.std (.int .u32)]

/-- `enum T { V(#[serde(skip_deserializing)] u32) }`. -/
def skippedContent : List (Decl Nat) :=
  [.derived { data := .enum .external [variant "V" (.newtype { member "0" 1 with skipDe := true })] }]

/-- A root schema. -/
def root (l : List (String × Json)) : Json := .obj (("$schema", .str meta2020) :: l)

/-- The schema of an object with these members. -/
def object (l : List (String × Json)) (req : List String) : List (String × Json) :=
  [("properties", .obj l), ("required", .arr (req.map .str)), ("type", .str "object")]

/-- The schema of a tag. -/
def tag (n : String) : Json := .obj [("const", .str n), ("type", .str "string")]

/-- The schema of `Option<u32>`. -/
def optionSchema (l : List (String × Json)) : Json :=
  .obj (l ++ [("format", .str "uint32"), ("minimum", .num (.int 0)), ("type", .arr [.str "integer", .str "null"])])

/-- The root schema of a struct with the member `x`. -/
def structRoot (x : Json) : Json :=
  root [("properties", .obj [("x", x)]), ("required", .arr [.str "x"]), ("title", .str "T"), ("type", .str "object")]

def enumRoot (l : List Json) : Json := root [("oneOf", .arr l), ("title", .str "T")]

theorem read_u32 {ds : List (Decl Nat)} {q : Quirks Nat} (x : Int) (h1 : 0 ≤ x) (h2 : x < 2 ^ 32) :
    Read 64 q info.base (decl ds) 1 (.num (.int x)) := read_intro ⟨x, rfl, h1, h2⟩

/-- Everything that serde reads, without attributes that the declarations do not have. -/
def lax : Quirks Nat := { lax := true, lenient := true }

theorem wf_one {k : String} {x : Json} (h : x.WF) : (Json.obj [(k, x)]).WF :=
  .obj _ (List.pairwise_singleton _ _) (by simp; exact h)

theorem wf_two {k l : String} {x y : Json} (hk : k < l) (h : x.WF) (h' : y.WF) : (Json.obj [(k, x), (l, y)]).WF :=
  .obj _ (by unfold Obj.Sorted; simp [hk]) (by simp; exact ⟨h, h'⟩)

theorem wf_three {k l m : String} {x y z : Json} (hk : k < l) (hl : l < m) (hm : k < m) (h : x.WF) (h' : y.WF) (h'' : z.WF) :
    (Json.obj [(k, x), (l, y), (m, z)]).WF :=
  .obj _ (by unfold Obj.Sorted; simp [hk, hl, hm]) (by simp; exact ⟨h, h', h''⟩)

theorem noOptions_derived {cs : List (Container Nat)} : NoOptions (cs.map .derived) := by
  rintro d hd u rfl
  obtain ⟨c, -, h⟩ := List.mem_map.1 hd
  cases h

end Rd

/-! ### Documents that serde reads and the schemas reject -/

open Rd

set_option maxRecDepth 10000 in
/-- C64 in full fails: serde reads a struct with named fields also from an array. -/
theorem C64_Full_false : ¬ C64_Full := by
  refine rejected (ds := struct_) (r := structRoot Ex.u32Schema) (n := 10) (j := .arr [.num (.int 1)]) lax
    (noOptions_derived (cs := [_])) (by rfl) (by decide) (.arr _ (by simp; exact .num _)) (read_intro (.inr ?_)) (fun f h => ?_)
  · refine ⟨rfl, rfl, ?_, _, rfl, .elem _ rfl (read_u32 1 (by decide) (by decide)) .nil⟩
    intro f hf _
    rw [List.mem_singleton.1 hf]; rfl
  · exact absurd (show false = true from h) (by decide)

set_option maxRecDepth 10000 in
/-- serde reads a unit variant also from an object with null. -/
theorem C64_unit_object : ¬ C64_Full := by
  refine rejected (ds := unitEnum)
    (r := root [("enum", .arr [.str "A"]), ("title", .str "T"), ("type", .str "string")]) (n := 10) (j := .obj [("A", .null)]) lax
    (noOptions_derived (cs := [_])) (by rfl) (by decide) (wf_one .null) (read_intro ⟨_, List.mem_singleton_self _, rfl, ?_⟩)
    (fun f h => ?_)
  · exact ⟨"A", List.mem_cons_self .., .inl ⟨⟨rfl, rfl⟩, .inr ⟨rfl, rfl⟩⟩⟩
  · exact absurd (show false = true from h) (by decide)

set_option maxRecDepth 10000 in
/-- The other names of a field, `#[serde(alias = "y")] x: u32`, are not in the schema. -/
theorem C64_alias : ¬ C64_Full := by
  refine rejected (ds := struct_) (r := structRoot Ex.u32Schema) (n := 10) (j := .obj [("y", .num (.int 1))])
    { aliases := fun _ => ["y"] }
    (noOptions_derived (cs := [_])) (by rfl) (by decide) (wf_one (.num _)) (read_intro (.inl ⟨_, rfl, readFields_own ?_ ?_ rfl⟩))
    (fun f h => ?_)
  · intro f hf _
    rw [List.mem_singleton.1 hf]; rfl
  · intro f hf _
    rw [List.mem_singleton.1 hf]
    refine .inl ⟨"y", List.mem_cons_of_mem _ (List.mem_singleton_self _), _, rfl, read_u32 1 (by decide) (by decide), ?_⟩
    intro m hm hne
    rw [Obj.get_cons, if_neg (Ne.symm hne)]; rfl
  · exact absurd (show false = true from h) (by decide)

set_option maxRecDepth 10000 in
/-- The tags that are read as a variant with `#[serde(other)]` are not in the schema. -/
theorem C64_other : ¬ C64_Full := by
  refine rejected (ds := taggedEnum)
    (r := enumRoot [.obj (object [("t", tag "A")] ["t"]), .obj (object [("t", tag "B")] ["t"])]) (n := 10)
    (j := .obj [("t", .str "Z")]) { other := fun v => v.name.de == "B" }
    (noOptions_derived (cs := [_])) (by rfl) (by decide) (wf_one (.str _))
    (read_intro ⟨variant "B" .unit, List.mem_cons_of_mem _ (List.mem_singleton_self _), rfl, "Z", .inl ⟨_, rfl, rfl, .inr ⟨rfl, ?_⟩⟩⟩)
    (fun f h => ?_)
  · intro v hv _
    simp only [List.mem_cons, List.not_mem_nil, or_false] at hv
    rcases hv with rfl | rfl <;> decide
  · exact absurd (show false = true from h) (by decide)

set_option maxRecDepth 10000 in
/-- serde reads a set also from an array in which an element occurs twice. -/
theorem C64_set : ¬ C64_Full := by
  refine rejected (ds := set_)
    (r := root [("items", Ex.u32Schema), ("title", .str "T"), ("type", .str "array"), ("uniqueItems", .bool true)]) (n := 10)
    (j := .arr [.num (.int 1), .num (.int 1)]) lax (fun d hd u h => ?_) (by rfl) (by decide)
    (.arr _ (by simp; exact .num _)) (read_intro ⟨_, rfl, ?_, .inl rfl⟩) (fun f h => ?_)
  · rw [List.mem_singleton.1 hd] at h; cases h
  · intro x hx
    have : x = .num (.int 1) := by simpa using hx
    rw [this]; exact read_u32 1 (by decide) (by decide)
  · exact absurd (show false = true from h) (by decide)

set_option maxRecDepth 10000 in
/-- serde reads the variant `A(Option<u32>)` of an adjacently tagged enum also without a content. -/
theorem C64_adjacent_option : ¬ C64_Full := by
  refine rejected (ds := adjacentOption)
    (r := enumRoot [.obj (object [("c", optionSchema []), ("t", tag "A")] ["t", "c"])]) (n := 10)
    (j := .obj [("t", .str "A")]) lax (noOptions_derived (cs := [_])) (by rfl) (by decide) (wf_one (.str _))
    (read_intro ⟨_, List.mem_singleton_self _, rfl, "A", .inl ⟨_, rfl, rfl, .inl ⟨List.mem_cons_self .., ?_, fun h => ?_⟩⟩⟩)
    (fun f h => ?_)
  · exact .inr (.inr ⟨rfl, rfl, rfl, _, rfl, .option rfl⟩)
  · cases h
  · exact absurd (show false = true from h) (by decide)

set_option maxRecDepth 10000 in
/-- serde reads a unit variant of an adjacently tagged enum also with the content null. -/
theorem C64_adjacent_null : ¬ C64_Full := by
  refine rejected (ds := adjacentDeny)
    (r := enumRoot [.obj (("additionalProperties", .bool false) :: object [("t", tag "A")] ["t"])]) (n := 10)
    (j := .obj [("c", .null), ("t", .str "A")]) lax (noOptions_derived (cs := [_])) (by rfl) (by decide)
    (wf_two (by decide) .null (.str _))
    (read_intro ⟨_, List.mem_singleton_self _, rfl, "A", .inl ⟨_, rfl, rfl, .inl ⟨List.mem_cons_self .., ?_, fun _ => ?_⟩⟩⟩)
    (fun f h => ?_)
  · exact .inl ⟨⟨rfl, rfl⟩, .inr ⟨rfl, rfl⟩⟩
  · intro e he
    simp only [List.mem_cons, List.not_mem_nil, or_false] at he
    rcases he with rfl | rfl
    · exact .inr rfl
    · exact .inl rfl
  · exact absurd (show false = true from h) (by decide)

set_option maxRecDepth 10000 in
/-- serde ignores further members for a unit variant of an internally tagged enum, also with `deny_unknown_fields`. -/
theorem C64_tagged_deny : ¬ C64_Full := by
  refine rejected (ds := taggedDeny)
    (r := enumRoot [.obj (("additionalProperties", .bool false) :: object [("t", tag "A")] ["t"])]) (n := 10)
    (j := .obj [("t", .str "A"), ("x", .null)]) lax (noOptions_derived (cs := [_])) (by rfl) (by decide)
    (wf_two (by decide) (.str _) .null)
    (read_intro ⟨_, List.mem_singleton_self _, rfl, "A", .inl ⟨_, rfl, rfl, .inl ⟨List.mem_cons_self .., .inl rfl⟩⟩⟩)
    (fun f h => ?_)
  exact absurd (show false = true from h) (by decide)

set_option maxRecDepth 10000 in
/-- A member whose type is a documented `transparent` struct around an `Option` is required by the schema, but serde
reads `None` if it is missing. -/
theorem C64_transparent_option : ¬ C64_Full := by
  refine rejected (ds := transparentOption) (r := structRoot (optionSchema [("description", .str "doc")])) (n := 10)
    (j := .obj []) lax (noOptions_derived (cs := [_, _])) (by rfl) (by decide) (.obj _ .nil (by simp))
    (read_intro (.inl ⟨_, rfl, readFields_own ?_ ?_ rfl⟩)) (fun f h => ?_)
  · intro f hf _
    rw [List.mem_singleton.1 hf]; rfl
  · intro f hf _
    rw [List.mem_singleton.1 hf]
    exact .inr ⟨fun n _ => rfl, .inr (.inr ⟨rfl, .transparent rfl rfl rfl rfl (.option (u := 1) rfl)⟩)⟩
  · exact absurd (show false = true from h) (by decide)

set_option maxRecDepth 10000 in
/-- A member whose type is read from an `Option` (`#[serde(from = "Option<u32>")]`) is required by the schema, but serde
reads it also if it is missing. -/
theorem C64_from_option : ¬ C64_Full := by
  refine rejected (ds := fromOption) (r := structRoot (optionSchema [])) (n := 10) (j := .obj []) lax
    (noOptions_derived (cs := [_, _])) (by rfl) (by decide) (.obj _ .nil (by simp))
    (read_intro (.inl ⟨_, rfl, readFields_own ?_ ?_ rfl⟩)) (fun f h => ?_)
  · intro f hf _
    rw [List.mem_singleton.1 hf]; rfl
  · intro f hf _
    rw [List.mem_singleton.1 hf]
    exact .inr ⟨fun n _ => rfl, .inr (.inr ⟨rfl, .source rfl rfl rfl rfl rfl (.option (u := 1) rfl)⟩)⟩
  · exact absurd (show false = true from h) (by decide)

set_option maxRecDepth 10000 in
/-- serde reads `struct T(u32, #[serde(default)] u32)` also from an array with one element. -/
theorem C64_tuple_default : ¬ C64_Full := by
  refine rejected (ds := tupleDefault) (r := root [("maxItems", .num (.int 2)), ("minItems", .num (.int 2)),
      ("prefixItems", .arr [Ex.u32Schema, Ex.u32Schema]), ("title", .str "T"), ("type", .str "array")]) (n := 10)
    (j := .arr [.num (.int 1)]) lax (noOptions_derived (cs := [_])) (by rfl) (by decide) (.arr _ (by simp; exact .num _))
    (read_intro ⟨_, rfl, .elem _ rfl (read_u32 1 (by decide) (by decide)) (.missing rfl rfl (.inr rfl) .nil)⟩) (fun f h => ?_)
  exact absurd (show false = true from h) (by decide)

set_option maxRecDepth 10000 in
/-- serde reads a newtype variant whose field has `skip_deserializing` from the name of the variant, but the schema
wants an object with the content. This is not about undocumented forms. -/
theorem C64_skipped_content : ¬ C64_Full := by
  refine rejected (ds := skippedContent) (r := enumRoot [.obj (("additionalProperties", .bool false) ::
      object [("V", .obj [("format", .str "uint32"), ("minimum", .num (.int 0)), ("readOnly", .bool true),
        ("type", .str "integer")])] ["V"])]) (n := 10) (j := .str "V") {}
    (noOptions_derived (cs := [_])) (by rfl) (by decide) (.str _)
    (read_intro ⟨_, List.mem_singleton_self _, rfl, "V", List.mem_cons_self .., .inl ⟨⟨rfl, rfl⟩, .inl rfl⟩⟩) (fun f h => ?_)
  exact absurd (show false = true from h) (by decide)

set_option maxRecDepth 10000 in
/-- `rust_decimal` reads numbers with negative exponents, which the pattern of the schema does not match. -/
theorem C64_decimal_exponent : ¬ C64_Full := by
  have hdig : ∀ {c : Char} {l : List Char}, Digits l → c ∈ l → ¬ (c < '0' ∨ '9' < c) := by
    intro c l h hc hlt
    have := h.2 c hc
    rcases hlt with h | h
    · exact absurd this.1 (Char.not_le.2 h)
    · exact absurd this.2 (Char.not_le.2 h)
  refine rejected (ds := decimal) (r := root [("pattern", .str "^-?\\d+(\\.\\d+)?([eE]\\d+)?$"), ("title", .str "T"),
      ("type", .arr [.str "string", .str "number"])]) (n := 10) (j := .str "1e-7") lax (fun d hd u h => ?_) (by rfl) (by decide)
    (.str _) (read_intro (.inr ⟨_, rfl, .inr (.inr ⟨rfl, ['1'], 'e', ['7'], rfl, ?_, .inl rfl, ?_⟩)⟩)) (fun f h => ?_)
  · rw [List.mem_singleton.1 hd] at h; cases h
  · exact ⟨[], ['1'], [], rfl, .inl rfl, ⟨by simp, by decide⟩, .inl rfl⟩
  · exact ⟨by simp, by decide⟩
  · have h : ((inputEnv.withRef f).rx "^-?\\d+(\\.\\d+)?([eE]\\d+)?$" "1e-7") = true := by
      unfold root at h
      rw [show (.obj [("$schema", .str meta2020), ("pattern", .str "^-?\\d+(\\.\\d+)?([eE]\\d+)?$"), ("title", .str "T"),
        ("type", .arr [.str "string", .str "number"])] : Json) = mkObj [("$schema", .str meta2020),
          ("pattern", .str "^-?\\d+(\\.\\d+)?([eE]\\d+)?$"), ("title", .str "T"),
          ("type", .arr [.str "string", .str "number"])] from rfl,
        valid_mkObj (by simp [Obj.keys]) (.inl rfl)] at h
      have := h _ (List.mem_cons_of_mem _ (List.mem_cons_self ..))
      rw [entryOk_simple (by decide)] at this
      exact this
    simp [Env.withRef, inputEnv] at h
    have small : ∀ {t : String}, DecimalText t → 'e' ∉ t.toList := by
      rintro t ⟨sign, whole, rest, e, hs, hw, hr⟩ hmem
      rw [e] at hmem
      simp only [List.mem_append] at hmem
      rcases hmem with (hmem | hmem) | hmem
      · rcases hs with rfl | rfl <;> simp at hmem
      · exact hdig hw hmem (by decide)
      · rcases hr with rfl | ⟨frac, rfl, hf⟩
        · cases hmem
        · rcases List.mem_cons.1 hmem with h | h
          · exact absurd h (by decide)
          · exact hdig hf h (by decide)
    rcases h with h | ⟨mantissa, e, digits, he, hm, -, hd⟩
    · exact small h (by decide)
    · have hm := small hm
      rw [String.toList_ofList] at hm
      rw [show "1e-7".toList = ['1', 'e', '-', '7'] from by decide] at he
      match mantissa, he with
      | [], he =>
        simp only [List.nil_append, List.cons.injEq] at he
        exact hdig hd (c := 'e') (he.2 ▸ List.mem_cons_self ..) (by decide)
      | [_], he =>
        simp only [List.cons_append, List.nil_append, List.cons.injEq] at he
        exact hdig hd (c := '-') (he.2.2 ▸ List.mem_cons_self ..) (by decide)
      | _ :: _ :: _, he =>
        simp only [List.cons_append, List.cons.injEq] at he
        exact hm (List.mem_cons_of_mem _ (he.2.1 ▸ List.mem_cons_self ..))

set_option maxRecDepth 10000 in
/-- serde reads `Duration` also from an array. -/
theorem C64_duration_array : ¬ C64_Full := by
  refine rejected (ds := duration) (r := root [("properties", .obj [("nanos", Ex.u32Schema), ("secs", .obj [
      ("format", .str "uint64"), ("minimum", .num (.int 0)), ("type", .str "integer")])]),
      ("required", .arr [.str "secs", .str "nanos"]), ("title", .str "T"), ("type", .str "object")]) (n := 10)
    (j := .arr [.num (.int 1), .num (.int 2)]) lax (fun d hd u h => ?_) (by rfl) (by decide)
    (.arr _ (by simp; exact ⟨.num _, .num _⟩))
    (read_intro (.inr ⟨rfl, _, _, rfl, ⟨1, rfl, by decide, by decide⟩, ⟨2, rfl, by decide, by decide⟩⟩)) (fun f h => ?_)
  · rw [List.mem_singleton.1 hd] at h; cases h
  · exact absurd (show false = true from h) (by decide)

/-! ### Documents that the schemas accept and serde does not read -/

set_option maxRecDepth 10000 in
/-- C65 in full fails: the schema of `u32` accepts 5000000000, since the format that bounds it is only an annotation. -/
theorem C65_Full_false : ¬ C65_Full := by
  refine accepted (ds := number) (r := root [("format", .str "uint32"), ("minimum", .num (.int 0)), ("title", .str "T"),
      ("type", .str "integer")]) (n := 10) (j := .num (.int 5000000000)) (fun d hd u h => ?_) (by rfl) (by decide) (.num _)
    ?_ (fun f => rfl)
  · rw [List.mem_singleton.1 hd] at h; cases h
  · rintro ⟨x, hx, -, h⟩
    cases hx
    exact absurd h (by decide)

set_option maxRecDepth 10000 in
/-- The schema of `u32` accepts `1.0`, which is an integer for JSON Schema and not for serde. -/
theorem C65_float : ¬ C65_Full := by
  refine accepted (ds := number) (r := root [("format", .str "uint32"), ("minimum", .num (.int 0)), ("title", .str "T"),
      ("type", .str "integer")]) (n := 10) (j := .num (.flt 1)) (fun d hd u h => ?_) (by rfl) (by decide) (.num _)
    ?_ (fun f => rfl)
  · rw [List.mem_singleton.1 hd] at h; cases h
  · rintro ⟨x, hx, -, h⟩
    cases hx

set_option maxRecDepth 10000 in
/-- The schema of `Result` accepts further members, serde does not. -/
theorem C65_result : ¬ C65_Full := by
  refine accepted (ds := result_) (r := enumRoot [.obj (object [("Ok", Ex.u32Schema)] ["Ok"]),
      .obj (object [("Err", Ex.u32Schema)] ["Err"])]) (n := 10) (j := .obj [("Ok", .num (.int 1)), ("x", .null)])
    (fun d hd u h => ?_) (by rfl) (by decide) (wf_two (by decide) (.num _) .null) ?_ (fun f => rfl)
  · rw [List.mem_singleton.1 hd] at h; cases h
  · rintro (⟨x, hx, -⟩ | ⟨x, hx, -⟩)
    · cases hx
    · simp at hx

set_option maxRecDepth 10000 in
/-- The schema of `Range` accepts further members, serde does not. -/
theorem C65_range : ¬ C65_Full := by
  refine accepted (ds := range_) (r := root [("properties", .obj [("end", Ex.u32Schema), ("start", Ex.u32Schema)]),
      ("required", .arr [.str "start", .str "end"]), ("title", .str "T"), ("type", .str "object")]) (n := 10)
    (j := .obj [("end", .num (.int 1)), ("start", .num (.int 0)), ("x", .null)])
    (fun d hd u h => ?_) (by rfl) (by decide) (wf_three (by decide) (by decide) (by decide) (.num _) (.num _) .null) ?_ (fun f => rfl)
  · rw [List.mem_singleton.1 hd] at h; cases h
  · rintro (⟨o, x, y, h, hp, -⟩ | ⟨-, x, y, h, -⟩)
    · cases h
      have := hp.length_eq
      simp at this
    · cases h

set_option maxRecDepth 10000 in
/-- The schema of a unit variant of an adjacently tagged enum accepts any content, serde only null. -/
theorem C65_adjacent_content : ¬ C65_Full := by
  refine accepted (ds := adjacentOpen) (r := enumRoot [.obj (object [("t", tag "A")] ["t"])]) (n := 10)
    (j := .obj [("c", .num (.int 1)), ("t", .str "A")])
    (noOptions_derived (cs := [_])) (by rfl) (by decide) (wf_two (by decide) (.num _) (.str _)) ?_ (fun f => rfl)
  rintro ⟨v, hv, -, h⟩
  rw [List.mem_singleton.1 hv] at h
  obtain ⟨n, h⟩ := h
  rcases h with ⟨o, ho, -, h | h⟩ | ⟨-, -, x, h, -⟩
  · cases ho
    rcases h.2.1 with ⟨-, h | ⟨-, h⟩⟩ | ⟨h, -⟩ | ⟨-, h, -⟩
    · cases h
    · cases h
    · exact h ⟨rfl, rfl⟩
    · cases h
  · exact absurd h.1 (by decide)
  · cases h

set_option maxRecDepth 10000 in
/-- The schema of a map with keys of the type `u32` accepts the key `007`, which serde does not read as a number. -/
theorem C65_map_key : ¬ C65_Full := by
  refine accepted (ds := map_) (r := root [("additionalProperties", .bool false), ("patternProperties", .obj [("^\\d+$",
      Ex.u32Schema)]), ("title", .str "T"), ("type", .str "object")]) (n := 10)
    (j := .obj [("007", .num (.int 1))]) (fun d hd u h => ?_) (by rfl) (by decide) (wf_one (.num _)) ?_ (fun f => ?_)
  · rw [List.mem_singleton.1 hd] at h; cases h
  · rintro ⟨o, ho, h⟩
    cases ho
    obtain ⟨⟨x, hx, h⟩, -⟩ := h _ (List.mem_singleton_self _)
    obtain ⟨x, rfl, h0, -⟩ := read_iff.1 h
    generalize hk : "007" = k at hx
    cases hx
    cases x with
    | negSucc n => exact absurd h0 (by simp)
    | ofNat n =>
      have hk : "007" = Nat.repr n := hk
      have := (parseIndex_iff "007".toList n).2 (by rw [hk])
      rw [show parseIndex "007".toList = none from by decide] at this
      cases this
  · have hrx : (inputEnv.withRef f).rx "^\\d+$" "007" = true := by
      simp [Env.withRef, inputEnv]
      exact ⟨by simp, by decide⟩
    have hu : Valid draft2020 (inputEnv.withRef f) Ex.u32Schema (.num (.int 1)) := rfl
    have key : Valid draft2020 (inputEnv.withRef f) (mkObj [("$schema", .str meta2020), ("additionalProperties", .bool false),
        ("patternProperties", .obj [("^\\d+$", Ex.u32Schema)]), ("title", .str "T"), ("type", .str "object")])
        (.obj [("007", .num (.int 1))]) := by
      refine (valid_mkObj (by simp [Obj.keys]) (.inl rfl)).2 fun e he => ?_
      simp only [List.mem_cons, List.not_mem_nil, or_false] at he
      rcases he with rfl | rfl | rfl | rfl | rfl
      · exact entryOk_annotation (k := "$schema") (by decide) _
      · intro e he hn
        rw [List.mem_singleton.1 he] at hn
        exact absurd (.inr ⟨_, List.mem_singleton_self _, hrx⟩) hn
      · intro e he p hp _
        rw [List.mem_singleton.1 he, List.mem_singleton.1 hp]
        exact hu
      · exact entryOk_annotation (k := "title") (by decide) _
      · exact .inl rfl
    exact key

/-! ### Examples -/

theorem documented {τ : Type} : Documented ({} : Quirks τ) := ⟨rfl, fun _ => rfl, fun _ => rfl, fun _ => rfl⟩

namespace NodeTy

/-- The root schema for reading: `next` may be missing. -/
def inputSchema : Json :=
  .obj [("$schema", .str meta2020),
    ("properties", .obj [
      ("next", .obj [("anyOf", .arr [.obj [("$ref", .str "#")], .obj [("type", .str "null")]])]),
      ("value", .obj [("format", .str "uint32"), ("minimum", .num (.int 0)), ("type", .str "integer")])]),
    ("required", .arr [.str "value"]), ("title", .str "Node"), ("type", .str "object")]

set_option maxRecDepth 10000 in
theorem generatesInput : ∃ g', rootSchemaFor types (run types 10) node (Gen.new Settings.draft2020) =
    some (inputSchema, g') ∧ g'.defs = [] := ⟨_, by rfl, by rfl⟩

theorem readable (t : NodeTy) (exact sw : Bool) : ReadOk exact sw decl info.base (decl t) := by
  cases t
  case node =>
    refine ⟨⟨rfl, by simp⟩, fun _ _ h => (by cases h), fun _ _ _ fields h => ?_, fun _ _ _ _ _ h => by cases h⟩
    cases h
    refine .inl (readFieldsOk_own ?_ ?_ (by decide)) <;> intro f hf _ <;> simp only [List.mem_cons, List.not_mem_nil, or_false] at hf
    · rcases hf with rfl | rfl <;> rfl
    · rcases hf with rfl | rfl <;> exact ⟨⟨rfl, by simp⟩, fun _ => rfl⟩
  all_goals exact fun _ => trivial

theorem optionsKnown : OptionsKnown decl info := by
  intro t u h
  cases t <;> first | rfl | cases h

/-- `Option<Node>` is read from the same document as `Node`, and `Node` only from members. -/
theorem grounded : Grounded info.base decl := by
  refine ⟨fun t => if t = next then 1 else 0, fun t u h => ?_⟩
  cases t
  case next => cases h; decide
  case node =>
    rcases h with h | ⟨_, h, -⟩ | h | ⟨_, h, -⟩ | ⟨_, h, f, hf, -, hfl, -⟩ <;> cases h
    simp at hf
    rcases hf with rfl | rfl <;> cases hfl
  all_goals exact h.elim

/-- The two theorems applied to the example: the schema accepts exactly what serde reads. -/
theorem exact : ∃ env, Modern draft2020 env ∧ Resolves draft2020 env inputSchema ∧ ∀ j, j.WF → SmallNumbers j →
    (Valid draft2020 env inputSchema j ↔ Read 64 {} info.base decl node j) := by
  obtain ⟨f, hf⟩ := resolves_self (D := draft2020) (env := inputEnv) (doc := inputSchema) (by decide)
  obtain ⟨g', h, hd⟩ := generatesInput
  refine ⟨_, modern_inputEnv f, hf, fun j hj hn => ⟨fun hv => ?_, fun hr => ?_⟩⟩
  · exact C65_root_partial (k := "$defs") (modern_inputEnv f) (by decide) documented
      declared optionsKnown grounded (fun t => readable t true _) h rfl rfl (.inl rfl) rfl (fun h => absurd hd h)
      (fun _ _ h => by rw [hd] at h; cases h) hf hj hn hv
  · exact C64_root_partial (k := "$defs") (modern_inputEnv f) (input_inputEnv f) documented
      declared optionsKnown (fun t => readable t false _) h rfl rfl (.inl rfl) rfl (fun h => absurd hd h)
      (fun _ _ h => by rw [hd] at h; cases h) hf hj (read_obeys unvalidated hr)

end NodeTy

namespace Rd

/-- A type with every form of enum:
`struct S { x: u32, #[serde(default)] y: Vec<bool> }`,
`enum E { A, B(u32), C { x: u32 }, D(u32, bool) }`,
`#[serde(tag = "t")] enum I { A, B(S), C { y: u32 } }`,
`#[serde(tag = "t", content = "c", deny_unknown_fields)] enum J { A, B(u32) }`,
`#[serde(untagged)] enum U { A(S), B(String) }`, and
`struct T { e: E, i: I, j: J, o: Option<u32>, u: U }`. -/
def forms : List (Decl Nat) :=
  [.derived { data := .struct (.struct [member "e" 7, member "i" 8, member "j" 9, member "o" 2, member "u" 10]) },
   .std (.simple "boolean"),
   .std (.seq 4),
   .derived { data := .struct (.struct [member "x" 1, { (member "y" 5) with hasDefault := true }]) },
   .derived { data := .enum .external [variant "A" .unit, variant "B" (.newtype (member "0" 1)),
     variant "C" (.struct [member "x" 1]), variant "D" (.tuple [member "0" 1, member "1" 4])] },
   .derived { data := .enum (.internal "t") [variant "A" .unit, variant "B" (.newtype (member "0" 6)),
     variant "C" (.struct [member "y" 1])] },
   .derived { data := .enum (.adjacent "t" "c") [variant "A" .unit, variant "B" (.newtype (member "0" 1))],
              denyUnknownFields := true },
   .derived { data := .enum .none [variant "A" (.newtype (member "0" 6)), variant "B" (.newtype (member "0" 11))] },
   .std (.simple "string")]

theorem fieldOk (exact : Bool) (n : String) (t : Nat) : InputField exact (member n t) :=
  ⟨⟨rfl, by simp [member]⟩, fun _ => rfl⟩

set_option maxRecDepth 10000 in
theorem forms_run : ∃ p, rootSchemaFor (types forms) (run (types forms) 10) 3 (Gen.new Settings.draft2020) = some p ∧
    (∀ v ∈ valuesIn p.1, refsHere v = []) ∧ p.2.defs = [] := by
  have h : (rootSchemaFor (types forms) (run (types forms) 10) 3 (Gen.new Settings.draft2020)).elim false
      (fun p => decide (∀ v ∈ valuesIn p.1, refsHere v = []) && decide (p.2.defs = [])) = true := by decide +kernel
  generalize rootSchemaFor (types forms) (run (types forms) 10) 3 (Gen.new Settings.draft2020) = x at h
  cases x with
  | none => cases h
  | some p =>
    rw [Option.elim_some, Bool.and_eq_true, decide_eq_true_eq, decide_eq_true_eq] at h
    exact ⟨p, rfl, h⟩

theorem forms_grounded : Grounded info.base (decl forms) := by
  refine ⟨fun t => if t = 2 ∨ t = 10 then 1 else 0, fun t u h => ?_⟩
  match t with
  | 0 | 1 | 4 | 5 | 11 => exact False.elim h
  | 2 => cases h; decide
  | 3 | 6 =>
    rcases h with h | ⟨_, h, -⟩ | h | ⟨_, h, -⟩ | ⟨_, h, f, hf, -, hfl, -⟩ <;> cases h
    simp [member] at hf
    aesop
  | 7 | 8 | 9 => rcases h with h | ⟨_, h, -⟩ | h | ⟨h, -⟩ <;> cases h
  | 10 =>
    rcases h with h | ⟨_, h, -⟩ | h | ⟨-, v, hv, h⟩
    · cases h
    · cases h
    · cases h
    · simp only [List.mem_cons, List.not_mem_nil, or_false] at hv
      rcases hv with rfl | rfl
      · rcases h with h | ⟨_, h, rfl⟩ | ⟨_, h, -⟩ <;> cases h; decide
      · rcases h with h | ⟨_, h, rfl⟩ | ⟨_, h, -⟩ <;> cases h; decide
  | n + 12 => exact False.elim h

theorem forms_readable (t : Nat) (exact sw : Bool) : ReadOk exact sw (decl forms) info.base (decl forms t) := by
  have struct_ : ∀ {fs : List (Field Nat)}, ReadFieldsOk exact sw (decl forms) info.base false fs → ReadOk exact sw (decl forms) info.base
      (.derived { data := .struct (.struct fs) }) :=
    fun h => ⟨⟨rfl, by simp⟩, fun _ _ h => (by cases h), fun _ _ _ _ e => (by cases e; exact .inl h), fun _ _ _ _ _ e => by cases e⟩
  have enum_ : ∀ {tag vs deny}, ReadEnumOk exact sw (decl forms) info.base tag vs deny → ReadOk exact sw (decl forms) info.base
      (.derived { data := .enum tag vs, denyUnknownFields := deny }) :=
    fun h => ⟨⟨rfl, by simp⟩, fun _ _ h => (by cases h), fun _ _ _ _ e => (by cases e), fun _ _ _ _ _ e => by cases e; exact h⟩
  have inner : ∀ deny, ReadFieldsOk exact sw (decl forms) info.base deny [member "x" 1, { (member "y" 5) with hasDefault := true }] := by
    intro deny
    refine readFieldsOk_own (by simp [member]) (fun f hf _ => ?_) (by decide)
    simp only [List.mem_cons, List.not_mem_nil, or_false] at hf
    rcases hf with rfl | rfl
    · exact fieldOk ..
    · exact ⟨⟨rfl, by simp [member]⟩, fun _ => rfl⟩
  have one : ∀ deny n t, ReadFieldsOk exact sw (decl forms) info.base deny [member n t] := fun deny n t => by
    refine readFieldsOk_own (by simp [member]) (fun f hf _ => ?_) (List.pairwise_singleton _ _)
    rw [List.mem_singleton.1 hf]; exact fieldOk ..
  have var : ∀ {deny} n {fields}, ReadContentOk exact sw (decl forms) info.base deny fields → (∀ f, fields = .newtype f → f.skipDe = false) →
      ReadVariantOk exact sw (decl forms) info.base deny (variant n fields) :=
    fun n _ h h' => ⟨⟨⟨rfl, by simp [variant]⟩, rfl, rfl, fun f _ e => h' f e⟩, fun _ => h⟩
  have unit_ : ∀ {deny} n, ReadVariantOk exact sw (decl forms) info.base deny (variant n .unit) := fun n => var n trivial (fun _ e => by cases e)
  have new : ∀ {deny} n t, ReadVariantOk exact sw (decl forms) info.base deny (variant n (.newtype (member "0" t))) := fun n t =>
    var n (fieldOk ..) (fun _ e => by cases e; rfl)
  match t with
  | 0 | 1 | 2 | 4 | 5 | 11 => exact fun _ => trivial
  | n + 12 => exact fun _ => trivial
  | 3 =>
    refine struct_ (readFieldsOk_own (by simp [member]) (fun f hf _ => ?_) (by decide))
    simp only [List.mem_cons, List.not_mem_nil, or_false] at hf
    rcases hf with rfl | rfl | rfl | rfl | rfl <;> exact fieldOk ..
  | 6 => exact struct_ (inner _)
  | 7 =>
    refine enum_ ⟨by simp, fun v hv => ?_, fun _ => by decide, fun _ h => (by cases h), fun _ _ h => by cases h⟩
    simp only [List.mem_cons, List.not_mem_nil, or_false] at hv
    rcases hv with rfl | rfl | rfl | rfl
    · exact unit_ _
    · exact new ..
    · exact var _ (.inl (one ..)) (fun _ e => by cases e)
    · refine var _ (fun f hf _ => ?_) (fun _ e => by cases e)
      simp only [List.mem_cons, List.not_mem_nil, or_false] at hf
      rcases hf with rfl | rfl <;> exact fieldOk ..
  | 8 =>
    refine enum_ ⟨by simp, fun v hv => ?_, fun _ => by decide, fun t h v hv => ?_, fun _ _ h => by cases h⟩
    · simp only [List.mem_cons, List.not_mem_nil, or_false] at hv
      rcases hv with rfl | rfl | rfl
      · exact unit_ _
      · exact new ..
      · exact var _ (.inl (one ..)) (fun _ e => by cases e)
    · cases h
      simp only [List.mem_cons, List.not_mem_nil, or_false] at hv
      rcases hv with rfl | rfl | rfl
      · trivial
      · exact ⟨rfl, _, _, _, _, rfl, ⟨rfl, rfl, rfl, rfl, ⟨rfl, by simp⟩⟩, inputNames_own (by simp [member]), by decide⟩
      · exact ⟨_, _, inputNames_own (by simp [member]), by decide⟩
  | 9 =>
    refine enum_ ⟨by simp, fun v hv => ?_, fun _ => by decide, fun _ h => (by cases h), fun t c h => ?_⟩
    · simp only [List.mem_cons, List.not_mem_nil, or_false] at hv
      rcases hv with rfl | rfl
      · exact unit_ _
      · exact new ..
    · cases h
      exact ⟨by decide, fun _ _ _ _ => rfl⟩
  | 10 =>
    refine enum_ ⟨by simp, fun v hv => ?_, fun h => absurd rfl h, fun _ h => (by cases h), fun _ _ h => by cases h⟩
    simp only [List.mem_cons, List.not_mem_nil, or_false] at hv
    rcases hv with rfl | rfl <;> exact new ..

/-- The two theorems applied to the example. -/
theorem forms_exact : ∃ r env, (∃ g', rootSchemaFor (types forms) (run (types forms) 10) 3 (Gen.new Settings.draft2020) =
    some (r, g')) ∧ Modern draft2020 env ∧ Resolves draft2020 env r ∧ ∀ j, j.WF → SmallNumbers j →
      (Valid draft2020 env r j ↔ Read 64 {} info.base (decl forms) 3 j) := by
  obtain ⟨⟨r, g'⟩, h, hr, hd⟩ := forms_run
  obtain ⟨f, hf⟩ := resolves_plain (D := draft2020) (env := inputEnv) hr
  have hopt : NoOptions forms := by
    intro d hd u h
    unfold forms at hd
    simp only [List.mem_cons, List.not_mem_nil, or_false] at hd
    rcases hd with rfl | rfl | rfl | rfl | rfl | rfl | rfl | rfl | rfl <;> cases h
  refine ⟨r, _, ⟨g', h⟩, modern_inputEnv f, hf, fun j hj hn => ⟨fun hv => ?_, fun hr => ?_⟩⟩
  · exact C65_root_partial (k := "$defs") (modern_inputEnv f) (by decide) documented (declared forms) (options hopt)
      forms_grounded (fun t => forms_readable t true _) h rfl rfl (.inl rfl) rfl (fun h => absurd hd h)
      (fun _ _ h => by rw [hd] at h; cases h) hf hj hn hv
  · exact C64_root_partial (k := "$defs") (modern_inputEnv f) (input_inputEnv f) documented (declared forms) (options hopt)
      (fun t => forms_readable t false _) h rfl rfl (.inl rfl) rfl (fun h => absurd hd h)
      (fun _ _ h => by rw [hd] at h; cases h) hf hj
      (read_obeys (unvalidated (by rfl)) hr)

/-! ### Validation attributes -/

/-- `struct T { #[schemars(range(max = 10))] x: u32 }`. -/
def ranged : List (Decl Nat) :=
  [.derived { data := .struct (.struct [{ member "x" 1 with validation := Ex.upToTen }]) }]

theorem ranged_readable (t : Nat) (sw : Bool) : ReadOk false sw (decl ranged) info.base (decl ranged t) := by
  match t with
  | 0 | 1 | 2 | _ + 4 => exact fun _ => trivial
  | 3 =>
    refine ⟨⟨rfl, by simp⟩, fun _ _ h => (by cases h), fun _ _ _ fields h => ?_, fun _ _ _ _ _ h => by cases h⟩
    cases h
    refine .inl (readFieldsOk_own (by simp [member]) (fun f hf _ => ?_) (List.pairwise_singleton _ _))
    rw [List.mem_singleton.1 hf]
    exact ⟨⟨rfl, by simp [member]⟩, fun h => by cases h⟩

/-- The root schema of `ranged`. -/
def rangedRoot : Json := structRoot (.obj [("format", .str "uint32"), ("maximum", .num (.int 10)),
  ("minimum", .num (.int 0)), ("type", .str "integer")])

set_option maxRecDepth 10000 in
theorem ranged_generates : ∃ g', rootSchemaFor (types ranged) (run (types ranged) 10) 3 (Gen.new Settings.draft2020) =
    some (rangedRoot, g') ∧ g'.defs = [] := ⟨_, by rfl, by rfl⟩

/-- `{ "x": 7 }` is read, and the value obeys. -/
theorem ranged_read (env : Env) : ReadIf 64 {} (FieldObeys env) info.base (decl ranged) 3 (.obj [("x", .num (.int 7))]) := by
  intro X hX
  refine hX 3 _ (.inl ⟨_, rfl, fun f hf _ _ => ?_, _, .pass (.inr rfl) .nil, fun h => by cases h⟩)
  rw [List.mem_singleton.1 hf]
  refine .inl ⟨"x", List.mem_cons_self .., _, rfl, ⟨hX 1 _ ⟨7, rfl, by decide, by decide⟩, ?_⟩, fun m hm hne => ?_⟩
  · refine ⟨fun _ h => (by cases h), fun _ h => (by cases h), fun l h => ?_, fun _ h => (by cases h), fun _ h => (by cases h),
      trivial⟩
    cases h
    refine ⟨fun v h => (by cases h), fun v h => ?_⟩
    cases h
    exact show simple env "maximum" (.num (.int 10)) (.num (.int 7)) = true from rfl
  · exact absurd (List.mem_singleton.1 hm) hne

/-- The theorem applied to the example. -/
example : ∃ env, Modern draft2020 env ∧ Resolves draft2020 env rangedRoot ∧
    Valid draft2020 env rangedRoot (.obj [("x", .num (.int 7))]) := by
  obtain ⟨f, hf⟩ := resolves_plain (D := draft2020) (env := inputEnv) (doc := rangedRoot) (by decide)
  obtain ⟨g', h, hd⟩ := ranged_generates
  exact ⟨_, modern_inputEnv f, hf, C64_root_partial (k := "$defs") (modern_inputEnv f) (input_inputEnv f) documented
    (declared _) (options (fun d hd u h => by rw [List.mem_singleton.1 hd] at h; cases h)) (fun t => ranged_readable t _) h
    rfl rfl (.inl rfl) rfl (fun h => absurd hd h) (fun _ _ h => by rw [hd] at h; cases h) hf (wf_one (.num _))
    (ranged_read _)⟩

/-- The condition that values obey the validation attributes is needed: serde, which does not know them, also reads a
value that the schema rejects. -/
theorem C64_validation : Read 64 {} info.base (decl ranged) 3 (.obj [("x", .num (.int 11))]) ∧
    ∀ f, ¬ Valid draft2020 (inputEnv.withRef f) rangedRoot (.obj [("x", .num (.int 11))]) := by
  refine ⟨read_intro (.inl ⟨_, rfl, fun f hf _ _ => ?_, _, .pass (.inr rfl) .nil, fun h => by cases h⟩), fun f h => ?_⟩
  · rw [List.mem_singleton.1 hf]
    exact .inl ⟨"x", List.mem_cons_self .., _, rfl, read_u32 11 (by decide) (by decide), fun m hm hne =>
      absurd (List.mem_singleton.1 hm) hne⟩
  · exact absurd (show false = true from h) (by decide)

/-- `struct T { #[schemars(range(max = 1000))] x: u8 }`. -/
def loose : List (Decl Nat) :=
  [.derived { data := .struct (.struct [{ member "x" 4 with
    validation := .mk none (some { max := some (.num (.int 1000)) }) none none none none none }]) }, .std (.int .u8)]

set_option maxRecDepth 10000 in
/-- A validation attribute replaces the bound of the type also by a weaker one, and the schema accepts what serde does not
read. -/
theorem C65_validation : ¬ C65_Full := by
  refine accepted (ds := loose) (r := structRoot (.obj [("format", .str "uint8"), ("maximum", .num (.int 1000)),
      ("minimum", .num (.int 0)), ("type", .str "integer")])) (n := 10) (j := .obj [("x", .num (.int 300))])
    (by simp [NoOptions, loose]) (by rfl) (by decide) (wf_one (.num _)) ?_ (fun f => rfl)
  rintro (⟨o, ho, h, -⟩ | ⟨-, -, -, l, h, -⟩)
  · cases ho
    rcases h _ (List.mem_singleton_self _) rfl rfl with ⟨n, hn, x, hx, h, -⟩ | ⟨h, -⟩
    · cases List.mem_singleton.1 hn
      cases hx
      obtain ⟨y, hy, -, h2⟩ := read_iff.1 h
      cases hy
      exact absurd h2 (by decide)
    · exact absurd (h "x" (List.mem_cons_self ..)) (by decide)
  · cases h

end Rd

end Verif
