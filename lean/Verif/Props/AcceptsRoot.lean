import Verif.Props.Accepts
import Verif.Lemmas.Resolve

/-!
# C45: generated root schemas accept what serde writes
-/

namespace Verif
open Spec

/-- C45 in full, for the default settings under the `Serialize` contract: whatever the types, the root schema accepts
every document that serde may write for a value of the type, if the values of fields obey the validation attributes. -/
def C45_Full : Prop :=
  ∀ (τ : Type) (D : Dialect) (env : Env) (Γ : τ → TypeDef τ) (decl : τ → Decl τ) (I : TypeInfo τ) (w n : Nat) (t : τ)
    (r : Json) (g' : Gen τ), Modern D env → Declared Γ decl I →
    rootSchemaFor Γ (run Γ n) t (Gen.new { Settings.draft2020 with contract := .serialize }) = some (r, g') →
    Resolves D env r → ∀ j, SerializedIf w (FieldObeys env) I.base decl t j → Valid D env r j

/-! ### An environment in which references are followed -/

open Classical in
/-- The regular expressions of schemars mean what they say. -/
noncomputable def digitEnv : Env where
  ref _ _ := R.pass
  rx p k := decide (p = "^\\d+$" ∧ Digits k.toList ∨ p = "^-?\\d+$" ∧ SignedDigits k.toList ∨
    p = "^-?\\d+(\\.\\d+)?$" ∧ DecimalText k)
  kw _ _ _ := true

theorem modern_digitEnv (f : String → Json → R) : Modern draft2020 (digitEnv.withRef f) where
  refs := rfl
  items := rfl
  digits := ⟨fun k => by simp [Env.withRef, digitEnv], fun k => by simp [Env.withRef, digitEnv]⟩
  decimal s h := by simp [Env.withRef, digitEnv, h]

/-- A document without references. -/
theorem resolves_plain {D : Dialect} {env : Env} {doc : Json} (h : ∀ v ∈ valuesIn doc, refsHere v = []) :
    ∃ f, Resolves D (env.withRef f) doc :=
  resolves_exists' (fun _ => 0) 1 (fun _ => Nat.one_pos) fun v hv r hr => by rw [h v hv] at hr; cases hr

/-- A document that refers to itself, with all the references applying to a part of the instance. -/
theorem resolves_self {D : Dialect} {env : Env} {doc : Json}
    (h : ∀ v ∈ valuesIn doc, ∀ r ∈ refsHere v, r = "#" ∧ v ≠ doc) : ∃ f, Resolves D (env.withRef f) doc := by
  refine resolves_exists' (fun v => if v = doc then 0 else 1) 2 (fun v => by split <;> omega) fun v hv r hr v' hv' => ?_
  obtain ⟨rfl, hne⟩ := h v hv r hr
  have h' : RefersTo doc "#" doc := ⟨[], [], .here _, rfl, rfl⟩
  rw [refersTo_unique hv' h', if_pos rfl, if_neg hne]
  omega

/-! ### A recursive type -/

/-- The types of an example: `struct Node { value: u32, next: Option<Box<Node>> }`. -/
inductive NodeTy where
  | unit | u32 | next | node
  deriving DecidableEq

namespace NodeTy

def info : TypeInfo NodeTy where
  unit := unit
  isOption t := t = next
  base t := if t = next then node else t
  inline t := t ≠ node

def decl : NodeTy → Decl NodeTy
  | unit => .std (.simple "null")
  | u32 => .std (.int .u32)
  | next => .std (.option node)
  | node => .derived { data := .struct (.struct [{ name := ⟨"value", "value"⟩, ty := u32 },
      { name := ⟨"next", "next"⟩, ty := next }]) }

def types : NodeTy → TypeDef NodeTy
  | unit => ⟨"null", "null", true, bodyOf info (decl unit)⟩
  | u32 => ⟨"uint32", "uint32", true, bodyOf info (decl u32)⟩
  | next => ⟨"Nullable_Node", "Nullable_Node", true, bodyOf info (decl next)⟩
  | node => ⟨"ex::Node", "Node", false, bodyOf info (decl node)⟩

theorem declared : Declared types decl info where
  body t := by cases t <;> rfl
  ids t t' h := by revert h; revert t t'; intro t t'; cases t <;> cases t' <;> first | (intro; rfl) | (intro h; exact absurd h (by decide))
  unit := rfl
  unitInline := rfl
  option t h := by cases t <;> first | exact absurd h (by decide) | exact ⟨node, rfl, rfl⟩
  base t h := by cases t <;> first | exact absurd h (by decide) | rfl

/-- The root schema. -/
def schema : Json :=
  .obj [("$schema", .str meta2020),
    ("properties", .obj [
      ("next", .obj [("anyOf", .arr [.obj [("$ref", .str "#")], .obj [("type", .str "null")]])]),
      ("value", .obj [("format", .str "uint32"), ("minimum", .num (.int 0)), ("type", .str "integer")])]),
    ("required", .arr [.str "value", .str "next"]), ("title", .str "Node"), ("type", .str "object")]

set_option maxRecDepth 10000 in
theorem generates : ∃ g', rootSchemaFor types (run types 10) node (Gen.new { Settings.draft2020 with contract := .serialize }) =
    some (schema, g') ∧ g'.defs = [] := ⟨_, by rfl, by rfl⟩

theorem ok (t : NodeTy) : DeclOk decl info (decl t) := by
  cases t
  case node =>
    refine ⟨⟨rfl, by simp⟩, fun _ _ h => (by cases h), fun _ _ _ => ⟨["value", "next"], ?_, by decide, ?_⟩⟩
    · exact .own rfl rfl (.own rfl rfl .nil)
    · intro f hf _
      simp only [List.mem_cons, List.not_mem_nil, or_false] at hf
      rcases hf with rfl | rfl <;> exact ⟨fun _ => ⟨rfl, by simp⟩, fun h => by cases h⟩
  all_goals trivial

/-- Two nodes. -/
def document : Json :=
  .obj [("next", .obj [("next", .null), ("value", .num (.int 2))]), ("value", .num (.int 1))]

theorem written : Serialized 64 info.base decl node document := by
  have hu : ∀ (n : Nat) (x : Int), 0 ≤ x → x < 2 ^ 32 → SerializedAt 64 anyValue info.base decl (n + 1) u32 (.num (.int x)) :=
    fun n x h1 h2 => ⟨.num _, x, rfl, h1, h2⟩
  have h0 : SerializedAt 64 anyValue info.base decl 2 node (.obj [("next", .null), ("value", .num (.int 2))]) := by
    refine ⟨?_, [("value", .num (.int 2)), ("next", .null)], ?_, _, rfl, .swap ..⟩
    · exact .obj _ (by unfold Obj.Sorted; decide) (by simp; exact ⟨.null, .num _⟩)
    · exact .member _ rfl rfl (hu 0 2 (by decide) (by decide)) trivial (.member _ rfl rfl ⟨.null, .inl rfl⟩ trivial .nil)
  refine ⟨4, ?_, [("value", .num (.int 1)), ("next", _)], ?_, _, rfl, .swap ..⟩
  · exact .obj _ (by unfold Obj.Sorted; decide) (by simp; exact ⟨h0.1, .num _⟩)
  · exact .member _ rfl rfl (hu 2 1 (by decide) (by decide)) trivial (.member _ rfl rfl ⟨h0.1, .inr h0⟩ trivial .nil)

theorem unvalidated (t : NodeTy) : ∀ f ∈ declFields (decl t), f.validation = .noAttrs := by
  cases t <;> simp [decl, declFields, allFields]

/-- The theorem applied to the example: references can be followed, and then the document is accepted. -/
example : ∃ env, Modern draft2020 env ∧ Resolves draft2020 env schema ∧ Valid draft2020 env schema document := by
  obtain ⟨f, hf⟩ := resolves_self (D := draft2020) (env := digitEnv) (doc := schema) (by decide)
  obtain ⟨g', h, hd⟩ := generates
  exact ⟨_, modern_digitEnv f, hf, C45_root_partial (k := "$defs") (modern_digitEnv f) declared (fun t => .inl (ok t)) h rfl rfl (.inl rfl) rfl
    (fun h => absurd hd h) (fun _ _ h => by rw [hd] at h; cases h) hf (serialized_obeys unvalidated written)⟩

end NodeTy

/-! ### A generic type, whose name is escaped in references -/

/-- The types of an example: `struct Wrap<T> { inner: T }` and `struct Pair { left: Wrap<u32>, right: Wrap<u32> }`. -/
inductive PairTy where
  | unit | u32 | wrap | pair
  deriving DecidableEq

namespace PairTy

def info : TypeInfo PairTy where
  unit := unit
  isOption _ := false
  base := id
  inline t := t = unit ∨ t = u32

def decl : PairTy → Decl PairTy
  | unit => .std (.simple "null")
  | u32 => .std (.int .u32)
  | wrap => .derived { data := .struct (.struct [{ name := ⟨"inner", "inner"⟩, ty := u32 }]) }
  | pair => .derived { data := .struct (.struct [{ name := ⟨"left", "left"⟩, ty := wrap },
      { name := ⟨"right", "right"⟩, ty := wrap }]) }

def types : PairTy → TypeDef PairTy
  | unit => ⟨"null", "null", true, bodyOf info (decl unit)⟩
  | u32 => ⟨"uint32", "uint32", true, bodyOf info (decl u32)⟩
  | wrap => ⟨"ex::Wrap<uint32>", "Wrap<uint32>", false, bodyOf info (decl wrap)⟩
  | pair => ⟨"ex::Pair", "Pair", false, bodyOf info (decl pair)⟩

theorem declared : Declared types decl info where
  body t := by cases t <;> rfl
  ids t t' h := by revert h; revert t t'; intro t t'; cases t <;> cases t' <;> first | (intro; rfl) | (intro h; exact absurd h (by decide))
  unit := rfl
  unitInline := rfl
  option t h := by cases t <;> exact absurd h (by decide)
  base t h := by cases t <;> rfl

def wrapSchema : Json :=
  .obj [("properties", .obj [("inner", .obj [("format", .str "uint32"), ("minimum", .num (.int 0)), ("type", .str "integer")])]),
    ("required", .arr [.str "inner"]), ("type", .str "object")]

/-- The root schema. -/
def schema : Json :=
  .obj [("$defs", .obj [("Wrap<uint32>", wrapSchema)]), ("$schema", .str meta2020),
    ("properties", .obj [("left", .obj [("$ref", .str "#/$defs/Wrap%3Cuint32%3E")]),
      ("right", .obj [("$ref", .str "#/$defs/Wrap%3Cuint32%3E")])]),
    ("required", .arr [.str "left", .str "right"]), ("title", .str "Pair"), ("type", .str "object")]

set_option maxRecDepth 10000 in
theorem generates : ∃ g', rootSchemaFor types (run types 10) pair (Gen.new { Settings.draft2020 with contract := .serialize }) =
    some (schema, g') ∧ g'.defs = [("Wrap<uint32>", wrapSchema)] := ⟨_, by rfl, by rfl⟩

theorem ok (t : PairTy) : DeclOk decl info (decl t) := by
  cases t
  case wrap =>
    refine ⟨⟨rfl, by simp⟩, fun _ _ h => (by cases h), fun _ _ _ => ⟨["inner"], ?_, by decide, ?_⟩⟩
    · exact .own rfl rfl .nil
    · intro f hf _
      simp only [List.mem_cons, List.not_mem_nil, or_false] at hf
      subst hf
      exact ⟨fun _ => ⟨rfl, by simp⟩, fun h => by cases h⟩
  case pair =>
    refine ⟨⟨rfl, by simp⟩, fun _ _ h => (by cases h), fun _ _ _ => ⟨["left", "right"], ?_, by decide, ?_⟩⟩
    · exact .own rfl rfl (.own rfl rfl .nil)
    · intro f hf _
      simp only [List.mem_cons, List.not_mem_nil, or_false] at hf
      rcases hf with rfl | rfl <;> exact ⟨fun _ => ⟨rfl, by simp⟩, fun h => by cases h⟩
  all_goals trivial

def document : Json :=
  .obj [("left", .obj [("inner", .num (.int 1))]), ("right", .obj [("inner", .num (.int 2))])]

theorem written : Serialized 64 info.base decl pair document := by
  have hw : ∀ x : Int, 0 ≤ x → x < 2 ^ 32 → SerializedAt 64 anyValue info.base decl 2 wrap (.obj [("inner", .num (.int x))]) := by
    intro x h1 h2
    refine ⟨?_, [("inner", .num (.int x))], ?_, _, rfl, .refl _⟩
    · exact .obj _ (by unfold Obj.Sorted; simp) (by simp; exact .num _)
    · exact .member _ rfl rfl ⟨.num _, x, rfl, h1, h2⟩ trivial .nil
  have h1 := hw 1 (by decide) (by decide)
  have h2 := hw 2 (by decide) (by decide)
  refine ⟨3, ?_, [("left", _), ("right", _)], ?_, _, rfl, .refl _⟩
  · exact .obj _ (by unfold Obj.Sorted; decide) (by simp; exact ⟨h1.1, h2.1⟩)
  · exact .member _ rfl rfl h1 trivial (.member _ rfl rfl h2 trivial .nil)

theorem unvalidated (t : PairTy) : ∀ f ∈ declFields (decl t), f.validation = .noAttrs := by
  cases t <;> simp [decl, declFields, allFields]

theorem refers : RefersTo schema "#/$defs/Wrap%3Cuint32%3E" wrapSchema := by
  have h := refersTo_definition (path := "/$defs") (segs := ["$defs"]) (name := "Wrap<uint32>") (doc := schema) (d := wrapSchema)
    (by rfl) (by decide) (by decide) (.member rfl (.member rfl (.here _)))
  rwa [show refFor "/$defs".toList "Wrap<uint32>" = "#/$defs/Wrap%3Cuint32%3E" by decide] at h

/-- The theorem applied to the example: the name of the definition is escaped in the references. -/
example : encodeRefName "Wrap<uint32>" ≠ "Wrap<uint32>" ∧
    ∃ env, Modern draft2020 env ∧ Resolves draft2020 env schema ∧ Valid draft2020 env schema document := by
  refine ⟨by decide, ?_⟩
  obtain ⟨f, hf⟩ := resolves_exists' (D := draft2020) (env := digitEnv) (doc := schema)
    (fun v => if refsHere v = [] then 0 else 1) 2 (fun v => by split <;> omega) fun v hv r hr v' hv' => by
      have h0 : ∀ v ∈ valuesIn schema, ∀ r ∈ refsHere v, r = "#/$defs/Wrap%3Cuint32%3E" := by decide
      rw [h0 v hv r hr] at hv'
      rw [refersTo_unique hv' refers, if_pos (by decide), if_neg (fun h => by rw [h] at hr; cases hr)]
      omega
  obtain ⟨g', h, hd⟩ := generates
  refine ⟨_, modern_digitEnv f, hf, C45_root_partial (k := "$defs") (modern_digitEnv f) declared (fun t => .inl (ok t)) h rfl rfl (.inl rfl) rfl
    (fun _ => ⟨_, .member rfl (.here _)⟩) (fun name d h => ?_) hf (serialized_obeys unvalidated written)⟩
  rw [hd] at h
  have : "Wrap<uint32>" = name := by
    simp [Obj.get] at h
    exact h.1
  subst this
  unfold PlainName
  decide

end PairTy

/-! ### Types whose schemas reject what serde writes -/

namespace Ex

def info : TypeInfo Nat where
  unit := 0
  isOption _ := false
  base := id
  inline _ := true

/-- `()`, `u32`, and the given derived types. -/
def decl (cs : List (Container Nat)) : Nat → Decl Nat
  | 0 => .std (.simple "null")
  | 1 => .std (.int .u32)
  | n + 2 => (cs[n]?).elim (.std (.simple "null")) .derived

/-- The types, all with `#[schemars(inline)]`. -/
def types (cs : List (Container Nat)) (t : Nat) : TypeDef Nat := ⟨Nat.repr t, "T", true, bodyOf info (decl cs t)⟩

theorem declared (cs : List (Container Nat)) : Declared (types cs) (decl cs) info where
  body _ := rfl
  ids t t' h := by
    have h : Nat.repr t = Nat.repr t' := h
    rw [repr_inj h]
  unit := rfl
  unitInline := rfl
  option _ h := by cases h
  base _ _ := rfl

theorem unvalidated {cs : List (Container Nat)} (hp : ∀ c ∈ cs, ∀ f ∈ declFields (.derived c), f.validation = .noAttrs)
    (t : Nat) : ∀ f ∈ declFields (decl cs t), f.validation = .noAttrs := by
  match t with
  | 0 => intro f hf; cases hf
  | 1 => intro f hf; cases hf
  | n + 2 =>
    show ∀ f ∈ declFields ((cs[n]?).elim (.std (.simple "null")) .derived), f.validation = .noAttrs
    cases hc : cs[n]? with
    | none => intro f hf; cases hf
    | some c => exact hp c (List.mem_of_getElem? hc)

/-- What refutes C45 for the type `2`: a document that serde writes and that the root schema rejects. -/
theorem refutes {cs : List (Container Nat)} {r : Json} {n : Nat} {j : Json}
    (hp : ∀ c ∈ cs, ∀ f ∈ declFields (.derived c), f.validation = .noAttrs)
    (h : (rootSchemaFor (types cs) (run (types cs) n) 2
      (Gen.new { Settings.draft2020 with contract := .serialize })).map Prod.fst = some r)
    (hr : ∀ v ∈ valuesIn r, refsHere v = []) (hj : Serialized 64 id (decl cs) 2 j)
    (hv : ∀ f, ¬ Valid draft2020 (digitEnv.withRef f) r j) : ¬ C45_Full := by
  intro hC
  obtain ⟨⟨r', g'⟩, hg, rfl⟩ := Option.map_eq_some_iff.1 h
  obtain ⟨f, hf⟩ := resolves_plain (D := draft2020) (env := digitEnv) hr
  exact hv f (hC Nat _ _ _ _ _ _ n 2 r' g' (modern_digitEnv f) (declared cs) hg hf j (serialized_obeys (unvalidated hp) hj))

/-- `struct T(u32, #[serde(skip_serializing_if = "...")] u32)`. -/
def tupleIf : List (Container Nat) :=
  [{ data := .struct (.tuple [{ name := ⟨"0", "0"⟩, ty := 1 }, { name := ⟨"1", "1"⟩, ty := 1, skipSerIf := true }]) }]

/-- `enum T { V(#[serde(skip_serializing)] u32) }`. -/
def skippedContent : List (Container Nat) :=
  [{ data := .enum .external [{ name := ⟨"V", "V"⟩, fields := .newtype { name := ⟨"0", "0"⟩, ty := 1, skipSer := true } }] }]

/-- `#[serde(tag = "t")] enum T { V(Inner) }` with `enum Inner { Unit }`. -/
def taggedUnit : List (Container Nat) :=
  [{ data := .enum (.internal "t") [{ name := ⟨"V", "V"⟩, fields := .newtype { name := ⟨"0", "0"⟩, ty := 3 } }] },
   { data := .enum .external [{ name := ⟨"Unit", "Unit"⟩, fields := .unit }] }]

/-- `struct T { #[serde(flatten, skip_serializing_if = "...")] inner: Inner }` with `struct Inner { x: u32 }`. -/
def flattenIf : List (Container Nat) :=
  [{ data := .struct (.struct [{ name := ⟨"inner", "inner"⟩, ty := 3, flatten := true, skipSerIf := true }]) },
   { data := .struct (.struct [{ name := ⟨"x", "x"⟩, ty := 1 }]) }]

/-- The schema of `u32`. -/
def u32Schema : Json := .obj [("format", .str "uint32"), ("minimum", .num (.int 0)), ("type", .str "integer")]

/-- The root schema of `tupleIf`. -/
def tupleIfSchema : Json :=
  .obj [("$schema", .str meta2020), ("maxItems", .num (.int 2)), ("minItems", .num (.int 2)),
    ("prefixItems", .arr [u32Schema, u32Schema]), ("title", .str "T"), ("type", .str "array")]

/-- The root schema of `skippedContent`. -/
def skippedContentSchema : Json :=
  .obj [("$schema", .str meta2020), ("oneOf", .arr [
      .obj [("additionalProperties", .bool false),
        ("properties", .obj [("V", .obj [("format", .str "uint32"), ("minimum", .num (.int 0)), ("type", .str "integer"),
          ("writeOnly", .bool true)])]),
        ("required", .arr [.str "V"]), ("type", .str "object")]]), ("title", .str "T")]

/-- The root schema of `taggedUnit`. -/
def taggedUnitSchema : Json :=
  .obj [("$schema", .str meta2020), ("oneOf", .arr [
      .obj [("enum", .arr [.str "Unit"]),
        ("properties", .obj [("t", .obj [("const", .str "V"), ("type", .str "string")])]),
        ("required", .arr [.str "t"]), ("type", .str "object")]]), ("title", .str "T")]

/-- The root schema of `flattenIf`. -/
def flattenIfSchema : Json :=
  .obj [("$schema", .str meta2020), ("properties", .obj [("x", u32Schema)]), ("required", .arr [.str "x"]),
    ("title", .str "T"), ("type", .str "object")]

theorem written_u32 (cs : List (Container Nat)) {n : Nat} (x : Int) (h1 : 0 ≤ x) (h2 : x < 2 ^ 32) :
    SerializedAt 64 anyValue id (decl cs) (n + 1) 1 (.num (.int x)) := ⟨.num _, x, rfl, h1, h2⟩

end Ex

set_option maxRecDepth 10000 in
/-- C45 in full fails: serde leaves out an element of a tuple struct with `skip_serializing_if`, but the schema wants
all the elements. -/
theorem C45_Full_false : ¬ C45_Full := by
  refine Ex.refutes (cs := Ex.tupleIf) (r := Ex.tupleIfSchema) (n := 10) (j := .arr [.num (.int 1)])
    (by simp [Ex.tupleIf, declFields, allFields]) (by rfl) (by decide)
    ⟨2, .arr _ (by simp; exact .num _), [.num (.int 1)], rfl, ?_⟩ (fun f h => ?_)
  · exact .elem _ rfl (Ex.written_u32 _ 1 (by decide) (by decide)) trivial (.leftOut rfl rfl .nil)
  · exact absurd (show false = true from h) (by decide)

set_option maxRecDepth 10000 in
/-- C45 fails for a newtype variant whose field has `skip_serializing`: serde writes the name of the variant, but the
schema wants an object with the content. -/
theorem C45_skipped_content : ¬ C45_Full := by
  refine Ex.refutes (cs := Ex.skippedContent) (r := Ex.skippedContentSchema) (n := 10) (j := .str "V")
    (by simp [Ex.skippedContent, declFields, allFields]) (by rfl) (by decide)
    ⟨1, .str _, _, List.mem_singleton_self _, rfl, .inl ⟨⟨rfl, rfl⟩, rfl⟩⟩ (fun f h => ?_)
  exact absurd (show false = true from h) (by decide)

set_option maxRecDepth 10000 in
/-- C45 fails for a newtype variant of an internally tagged enum that contains a unit variant of another enum: serde
writes `{"t": "V", "Unit": null}`, but the schema accepts nothing. -/
theorem C45_tagged_unit : ¬ C45_Full := by
  refine Ex.refutes (cs := Ex.taggedUnit) (r := Ex.taggedUnitSchema) (n := 10)
    (j := .obj [("Unit", .null), ("t", .str "V")]) (by simp [Ex.taggedUnit, declFields, allFields]) (by rfl) (by decide)
    ⟨2, .obj _ (by unfold Obj.Sorted; decide) (by simp; exact ⟨.null, .str _⟩), _, List.mem_singleton_self _, rfl,
      [("Unit", .null)], ?_, _, rfl, .swap ..⟩ (fun f h => ?_)
  · exact .unitVariant "Unit" _ (.self _) ⟨_, _, rfl, rfl⟩
      ⟨.str _, _, List.mem_singleton_self _, rfl, .inl ⟨⟨rfl, rfl⟩, rfl⟩⟩
  · exact absurd (show false = true from h) (by decide)

set_option maxRecDepth 10000 in
/-- C45 fails for a flattened struct with `skip_serializing_if`: serde leaves out its members, but the schema requires
them. -/
theorem C45_flatten_if : ¬ C45_Full := by
  refine Ex.refutes (cs := Ex.flattenIf) (r := Ex.flattenIfSchema) (n := 10) (j := .obj [])
    (by simp [Ex.flattenIf, declFields, allFields]) (by rfl) (by decide)
    ⟨1, .obj _ .nil (by simp), [], .leftOut rfl rfl .nil, [], rfl, .refl _⟩ (fun f h => ?_)
  exact absurd (show false = true from h) (by decide)

/-! ### Validation attributes -/

namespace Ex

/-- The attribute `range(max = 10)`. -/
def upToTen : ValidationAttrs := .mk none (some { max := some (.num (.int 10)) }) none none none none none

/-- `struct T { #[schemars(range(max = 10))] x: u32 }`. -/
def ranged : List (Container Nat) :=
  [{ data := .struct (.struct [{ name := ⟨"x", "x"⟩, ty := 1, validation := upToTen }]) }]

theorem ranged_ok (t : Nat) : DeclOk (decl ranged) info (decl ranged t) := by
  match t with
  | 0 | 1 | _ + 3 => trivial
  | 2 =>
    refine ⟨⟨rfl, by simp⟩, fun _ _ h => (by cases h), fun _ _ _ => ⟨["x"], .own rfl rfl .nil, by decide, ?_⟩⟩
    intro f hf _
    cases List.mem_singleton.1 hf
    exact ⟨fun _ => ⟨rfl, by simp⟩, fun h => by cases h⟩

/-- The root schema of `ranged`. -/
def rangedSchema : Json :=
  .obj [("$schema", .str meta2020), ("properties", .obj [("x", .obj [("format", .str "uint32"),
      ("maximum", .num (.int 10)), ("minimum", .num (.int 0)), ("type", .str "integer")])]),
    ("required", .arr [.str "x"]), ("title", .str "T"), ("type", .str "object")]

set_option maxRecDepth 10000 in
theorem ranged_generates : ∃ g', rootSchemaFor (types ranged) (run (types ranged) 10) 2
    (Gen.new { Settings.draft2020 with contract := .serialize }) = some (rangedSchema, g') ∧ g'.defs = [] :=
  ⟨_, by rfl, by rfl⟩

/-- `T { x }` is written, with a value as the attribute wants it if it is at most ten. -/
theorem ranged_written (env : Env) {x : Int} (h1 : 0 ≤ x) (h2 : x ≤ 10) :
    SerializedIf 64 (FieldObeys env) id (decl ranged) 2 (.obj [("x", .num (.int x))]) := by
  refine ⟨2, .obj _ (by unfold Obj.Sorted; simp) (by simp; exact .num _), [("x", .num (.int x))], ?_, _, rfl, .refl _⟩
  refine .member _ rfl rfl ⟨.num _, x, rfl, h1, show x < 2 ^ 32 by omega⟩ ?_ .nil
  refine ⟨fun _ h => (by cases h), fun _ h => (by cases h), fun l h => ?_, fun _ h => (by cases h), fun _ h => (by cases h),
    trivial⟩
  cases h
  refine ⟨fun v h => (by cases h), fun v h => ?_⟩
  cases h
  have : (x : Rat) ≤ ((10 : Int) : Rat) := Int.cast_le.2 h2
  simpa [simple, onNum, JNum.val] using this

/-- The theorem applied to the example. -/
example : ∃ env, Modern draft2020 env ∧ Resolves draft2020 env rangedSchema ∧
    Valid draft2020 env rangedSchema (.obj [("x", .num (.int 7))]) := by
  obtain ⟨f, hf⟩ := resolves_plain (D := draft2020) (env := digitEnv) (doc := rangedSchema) (by decide)
  obtain ⟨g', h, hd⟩ := ranged_generates
  exact ⟨_, modern_digitEnv f, hf, C45_root_partial (k := "$defs") (modern_digitEnv f) (declared _) (fun t => .inl (ranged_ok t)) h
    rfl rfl (.inl rfl) rfl (fun h => absurd hd h) (fun _ _ h => by rw [hd] at h; cases h) hf
    (ranged_written _ (by decide) (by decide))⟩

end Ex

/-- The condition that values obey the validation attributes is needed: serde, which does not know them, also writes a
value that the schema rejects. -/
theorem C45_validation : Serialized 64 id (Ex.decl Ex.ranged) 2 (.obj [("x", .num (.int 11))]) ∧
    ∀ f, ¬ Valid draft2020 (digitEnv.withRef f) Ex.rangedSchema (.obj [("x", .num (.int 11))]) := by
  refine ⟨⟨2, .obj _ (by unfold Obj.Sorted; simp) (by simp; exact .num _), [("x", .num (.int 11))], ?_, _, rfl, .refl _⟩,
    fun f h => ?_⟩
  · exact .member _ rfl rfl (Ex.written_u32 _ 11 (by decide) (by decide)) trivial .nil
  · exact absurd (show false = true from h) (by decide)

/-- The relation `Serialized` leaves out the floats that are not numbers: serde_json writes `null` for them, which the
schemas of `f32` and `f64` reject. -/
theorem C45_nonfinite (D : Dialect) (env : Env) (f : String) :
    stdBody (τ := Empty) (.formatted "number" f) = .ret (typeFormat "number" f) ∧
    ¬ Valid D env (typeFormat "number" f) .null := by
  refine ⟨rfl, fun h => ?_⟩
  have := (valid_typeFormat "number" f).1 h
  simp [typeMatch, typeName] at this

end Verif
