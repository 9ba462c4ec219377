import Verif.Props.AcceptsPipelines

/-!
# C45 for structs with flattened enums and maps
-/

namespace Verif
open Spec

namespace Ex

/-- `struct T { x: u32, #[serde(flatten)] e: E, #[serde(flatten)] k: K }` with `enum E { A, B(u32) }` and
`#[serde(tag = "t")] enum K { C, D { y: u32 } }`. -/
def flatEnums : List (Container Nat) :=
  [{ data := .struct (.struct [{ name := ⟨"x", "x"⟩, ty := 1 }, { name := ⟨"e", "e"⟩, ty := 3, flatten := true },
      { name := ⟨"k", "k"⟩, ty := 4, flatten := true }]) },
   { data := .enum .external [{ name := ⟨"A", "A"⟩, fields := .unit },
      { name := ⟨"B", "B"⟩, fields := .newtype { name := ⟨"0", "0"⟩, ty := 1 } }] },
   { data := .enum (.internal "t") [{ name := ⟨"C", "C"⟩, fields := .unit },
      { name := ⟨"D", "D"⟩, fields := .struct [{ name := ⟨"y", "y"⟩, ty := 1 }] }] }]

/-- The conditions hold. -/
theorem flatEnums_ok (t : Nat) : WideDecl (decl flatEnums) info (decl flatEnums t) := by
  have hu : ∀ n, FieldOk (τ := Nat) { name := n, ty := 1 } := fun n => ⟨rfl, by simp⟩
  have hunit : ∀ n, VariantOk (decl flatEnums) info { name := n, fields := .unit } := fun n =>
    ⟨⟨rfl, by simp⟩, rfl, fun f _ h => (by cases h), fun _ => trivial⟩
  have he : EnumOk (decl flatEnums) info .external [{ name := ⟨"A", "A"⟩, fields := .unit },
      { name := ⟨"B", "B"⟩, fields := .newtype { name := ⟨"0", "0"⟩, ty := 1 } }] := by
    refine ⟨by simp, fun v hv => ?_, fun _ h => (by cases h), fun _ _ h => (by cases h), fun _ _ => by decide⟩
    simp only [List.mem_cons, List.not_mem_nil, or_false] at hv
    rcases hv with rfl | rfl
    · exact hunit _
    · exact ⟨⟨rfl, by simp⟩, rfl, fun f _ h => (by cases h; rfl), fun _ => hu _⟩
  have hys : StructOk (decl flatEnums) info [{ name := ⟨"y", "y"⟩, ty := 1 }] ["y"] := by
    refine ⟨.own rfl rfl .nil, by decide, fun f hf _ => ?_⟩
    cases List.mem_singleton.1 hf
    exact ⟨fun _ => hu _, fun h => by cases h⟩
  have hk : EnumOk (decl flatEnums) info (.internal "t") [{ name := ⟨"C", "C"⟩, fields := .unit },
      { name := ⟨"D", "D"⟩, fields := .struct [{ name := ⟨"y", "y"⟩, ty := 1 }] }] := by
    refine ⟨by simp, fun v hv => ?_, fun t ht v hv _ => ?_, fun _ _ h => (by cases h), fun _ _ => by decide⟩
    · simp only [List.mem_cons, List.not_mem_nil, or_false] at hv
      rcases hv with rfl | rfl
      · exact hunit _
      · exact ⟨⟨rfl, by simp⟩, rfl, fun f _ h => (by cases h), fun _ => ⟨_, hys⟩⟩
    · cases ht
      simp only [List.mem_cons, List.not_mem_nil, or_false] at hv
      rcases hv with rfl | rfl
      · trivial
      · exact ⟨["y"], hys, by decide⟩
  match t with
  | 0 | 1 => exact .inl trivial
  | 2 =>
    refine .inr <| .inl ⟨_, _, rfl, ⟨rfl, rfl, rfl, rfl, ⟨rfl, by simp⟩⟩, rfl, [["x"], ["A", "B"], ["t", "y"]], ?_, by simp [List.Disjoint], ?_⟩
    · refine .own rfl rfl (.flat rfl rfl (.inr ?_) (.flat rfl rfl (.inr ?_) .nil))
      · refine ⟨_, _, _, rfl, ⟨rfl, rfl, rfl, rfl, ⟨rfl, by simp⟩⟩, he, by decide, fun v hv _ => ?_⟩
        simp only [List.mem_cons, List.not_mem_nil, or_false] at hv
        rcases hv with rfl | rfl
        · exact ⟨by decide, fun _ _ => rfl⟩
        · exact ⟨by decide, fun h => by cases h⟩
      · refine ⟨_, _, _, rfl, ⟨rfl, rfl, rfl, rfl, ⟨rfl, by simp⟩⟩, hk, by decide, by decide, fun v hv _ => ?_⟩
        simp only [List.mem_cons, List.not_mem_nil, or_false] at hv
        rcases hv with rfl | rfl
        · exact ⟨[], rfl, by decide, by decide⟩
        · exact ⟨["y"], hys, by decide, by decide⟩
    · intro f hf _
      simp only [List.mem_cons, List.not_mem_nil, or_false] at hf
      rcases hf with rfl | rfl | rfl
      · exact ⟨fun _ => hu _, fun h => by cases h⟩
      · exact ⟨fun h => (by cases h), fun _ h => by cases h⟩
      · exact ⟨fun h => (by cases h), fun _ h => by cases h⟩
  | 3 => exact .inl ⟨⟨rfl, by simp⟩, fun _ _ h => (by cases h), fun _ _ _ => he⟩
  | 4 => exact .inl ⟨⟨rfl, by simp⟩, fun _ _ h => (by cases h), fun _ _ _ => hk⟩
  | n + 5 => exact .inl trivial

/-- The schema of an object with one required member. -/
def oneMember (n : String) (s : Json) : Json :=
  .obj [("properties", .obj [(n, s)]), ("required", .arr [.str n]), ("type", .str "object")]

/-- The root schema of `flatEnums`. -/
def flatEnumsSchema : Json :=
  .obj [("$schema", .str meta2020), ("allOf", .arr [
      .obj [("oneOf", .arr [oneMember "B" u32Schema, oneMember "A" (.obj [("type", .str "null")])])],
      .obj [("oneOf", .arr [oneMember "t" (.obj [("const", .str "C"), ("type", .str "string")]),
        .obj [("properties", .obj [("t", .obj [("const", .str "D"), ("type", .str "string")]), ("y", u32Schema)]),
          ("required", .arr [.str "t", .str "y"]), ("type", .str "object")]])]]),
    ("properties", .obj [("x", u32Schema)]), ("required", .arr [.str "x"]), ("title", .str "T"), ("type", .str "object")]

/-- `T { x: 1, e: E::A, k: K::D { y: 2 } }`. -/
def flatEnumsDocument : Json :=
  .obj [("A", .null), ("t", .str "D"), ("x", .num (.int 1)), ("y", .num (.int 2))]

theorem flatEnums_written : Serialized 64 id (decl flatEnums) 2 flatEnumsDocument := by
  refine ⟨3, .obj _ (by unfold Obj.Sorted; decide) (by simp; exact ⟨.null, .str _, .num _, .num _⟩),
    [("x", .num (.int 1)), ("A", .null), ("t", .str "D"), ("y", .num (.int 2))], ?_, _, rfl, by decide⟩
  refine .member _ rfl rfl (written_u32 _ 1 (by decide) (by decide)) trivial (.flatten (p := [("A", .null)]) rfl rfl ?_
    (.flatten (p := [("t", .str "D"), ("y", .num (.int 2))]) rfl rfl ?_ .nil))
  · exact .unitVariant "A" _ (.self _) ⟨_, _, rfl, rfl⟩
      ⟨.str _, _, List.mem_cons_self .., rfl, .inl ⟨⟨rfl, rfl⟩, rfl⟩⟩
  · refine .obj _ ⟨.obj _ (by unfold Obj.Sorted; decide) (by simp; exact ⟨.str _, .num _⟩), _,
      List.mem_cons_of_mem _ (List.mem_cons_self ..), rfl, [("y", .num (.int 2))], ?_, _, rfl, .refl _⟩
    exact .member _ rfl rfl (written_u32 _ 2 (by decide) (by decide)) trivial .nil

/-- The theorem applied to the example. -/
example : ∃ env, Modern draft2020 env ∧ Resolves draft2020 env flatEnumsSchema ∧
    Valid draft2020 env flatEnumsSchema flatEnumsDocument := by
  obtain ⟨f, hf⟩ := resolves_plain (D := draft2020) (env := digitEnv) (doc := flatEnumsSchema) (by decide)
  obtain ⟨g', h, hd⟩ : ∃ g', rootSchemaFor (types flatEnums) (run (types flatEnums) 10) 2
      (Gen.new { Settings.draft2020 with contract := .serialize }) = some (flatEnumsSchema, g') ∧ g'.defs = [] :=
    generated (by decide +kernel)
  exact ⟨_, modern_digitEnv f, hf, C45_root_partial (k := "$defs") (modern_digitEnv f) (declared _) flatEnums_ok h rfl rfl
    (.inl rfl) rfl (fun h => absurd hd h) (fun _ _ h => by rw [hd] at h; cases h) hf
    (serialized_obeys (unvalidated (by simp [flatEnums, declFields, allFields])) flatEnums_written)⟩

/-- The same schema for the `draft07` settings. -/
def flatEnumsSchema07 : Json := Schema.put flatEnumsSchema "$schema" (.str metaDraft07)

theorem flatEnums_quiet (t : Nat) : QuietDecl (decl flatEnums t) := by
  have h0 : Quiet {} := fun e he => by cases he
  have hl : ∀ n, ∀ a ∈ List.replicate n ({} : CommonAttrs), Quiet a := fun n a ha => (List.eq_of_mem_replicate ha) ▸ h0
  intro a ha
  match t with
  | 0 | 1 => cases ha
  | 2 => exact hl 4 a ha
  | 3 => exact hl 4 a ha
  | 4 => exact hl 4 a ha
  | n + 5 => cases ha

/-- The theorem for the settings with transforms applied to the example. -/
example : ∃ env, Modern draft2020 env ∧ Resolves draft07 env flatEnumsSchema07 ∧
    Valid draft07 env flatEnumsSchema07 flatEnumsDocument := by
  obtain ⟨f, hf⟩ := resolves_self (D := draft07) (env := digitEnv) (doc := flatEnumsSchema07) (by decide)
  obtain ⟨g', h, hd⟩ : ∃ g', rootSchemaFor (types flatEnums) (run (types flatEnums) 10) 2
      (Gen.new { Settings.draft07 with contract := .serialize }) = some (flatEnumsSchema07, g') ∧ g'.defs = [] :=
    generated (by decide +kernel)
  exact ⟨_, modern_digitEnv f, hf, C45_draft07_partial (modern_digitEnv f) (declared _) flatEnums_ok flatEnums_quiet h
    (fun _ _ h => by rw [hd] at h; cases h) hf
    (serialized_obeys (unvalidated (by simp [flatEnums, declFields, allFields])) flatEnums_written)⟩

/-- `struct T { #[serde(flatten)] e: E }` with `enum E { /// A doc comment. A }`. -/
def flatDocumented : List (Container Nat) :=
  [{ data := .struct (.struct [{ name := ⟨"e", "e"⟩, ty := 3, flatten := true }]) },
   { data := .enum .external [{ name := ⟨"A", "A"⟩, fields := .unit, common := { doc := some "A doc comment." } }] }]

/-- `struct T { B: u32, #[serde(flatten)] e: E }` with `enum E { A, B(u32) }`. -/
def flatOverlap : List (Container Nat) :=
  [{ data := .struct (.struct [{ name := ⟨"B", "B"⟩, ty := 1 }, { name := ⟨"e", "e"⟩, ty := 3, flatten := true }]) },
   { data := .enum .external [{ name := ⟨"A", "A"⟩, fields := .unit },
      { name := ⟨"B", "B"⟩, fields := .newtype { name := ⟨"0", "0"⟩, ty := 1 } }] }]

/-- The root schema of `flatDocumented`. -/
def flatDocumentedSchema : Json :=
  .obj [("$schema", .str meta2020), ("oneOf", .arr [
      .obj [("const", .str "A"), ("description", .str "A doc comment."), ("type", .str "string")]]),
    ("title", .str "T"), ("type", .str "object")]

/-- The root schema of `flatOverlap`. -/
def flatOverlapSchema : Json :=
  .obj [("$schema", .str meta2020), ("oneOf", .arr [oneMember "B" u32Schema, oneMember "A" (.obj [("type", .str "null")])]),
    ("properties", .obj [("B", u32Schema)]), ("required", .arr [.str "B"]), ("title", .str "T"), ("type", .str "object")]

end Ex

/-- C45 fails for a flattened enum with a documented unit variant: serde writes `{"A": null}`, but the schema of the
variant, which is apart from those of the other unit variants, still wants a string. -/
theorem C45_flatten_documented : ¬ C45_Full := by
  refine Ex.refutes (cs := Ex.flatDocumented) (r := Ex.flatDocumentedSchema) (n := 10) (j := .obj [("A", .null)])
    (by simp [Ex.flatDocumented, declFields, allFields])
    (by decide +kernel) (by decide)
    ⟨2, .obj _ (by unfold Obj.Sorted; decide) (by simp; exact .null), [("A", .null)], ?_, _, rfl, .refl _⟩ (fun f h => ?_)
  · exact .flatten (p := [("A", .null)]) rfl rfl (.unitVariant "A" _ (.self _) ⟨_, _, rfl, rfl⟩
      ⟨.str _, _, List.mem_cons_self .., rfl, .inl ⟨⟨rfl, rfl⟩, rfl⟩⟩) .nil
  · exact absurd (show false = true from h) (by decide)

/-- C45 fails for a flattened enum with a variant that has the name of a field beside it: serde writes
`{"A": null, "B": 1}` for the other variant, but the schemas of both variants accept it. -/
theorem C45_flatten_overlap : ¬ C45_Full := by
  refine Ex.refutes (cs := Ex.flatOverlap) (r := Ex.flatOverlapSchema) (n := 10)
    (j := .obj [("A", .null), ("B", .num (.int 1))]) (by simp [Ex.flatOverlap, declFields, allFields])
    (by decide +kernel) (by decide)
    ⟨2, .obj _ (by unfold Obj.Sorted; decide) (by simp; exact ⟨.null, .num _⟩), [("B", .num (.int 1)), ("A", .null)], ?_,
      _, rfl, .swap ..⟩ (fun f h => ?_)
  · exact .member _ rfl rfl (Ex.written_u32 _ 1 (by decide) (by decide)) trivial (.flatten (p := [("A", .null)]) rfl rfl
      (.unitVariant "A" _ (.self _) ⟨_, _, rfl, rfl⟩
        ⟨.str _, _, List.mem_cons_self .., rfl, .inl ⟨⟨rfl, rfl⟩, rfl⟩⟩) .nil)
  · exact absurd (show false = true from h) (by decide)

/-! ### Flattened maps -/

namespace MapEx

/-- `()`, `u32`, the derived type `T`, `String`, `HashMap<String, u32>` and `HashMap<String, String>`. -/
def decl (c : Container Nat) : Nat → Decl Nat
  | 0 => .std (.simple "null")
  | 1 => .std (.int .u32)
  | 2 => .derived c
  | 3 => .std (.simple "string")
  | 4 => .std (.map 3 1)
  | 5 => .std (.map 3 3)
  | _ => .std (.simple "null")

/-- The types, all with `#[schemars(inline)]`. -/
def types (c : Container Nat) (t : Nat) : TypeDef Nat := ⟨Nat.repr t, "T", true, bodyOf Ex.info (decl c t)⟩

theorem declared (c : Container Nat) : Declared (types c) (decl c) Ex.info where
  body _ := rfl
  ids t t' h := by
    have h : Nat.repr t = Nat.repr t' := h
    rw [repr_inj h]
  unit := rfl
  unitInline := rfl
  option _ h := by cases h
  base _ _ := rfl

theorem unvalidated {c : Container Nat} (hp : ∀ f ∈ declFields (.derived c), f.validation = .noAttrs) (t : Nat) :
    ∀ f ∈ declFields (decl c t), f.validation = .noAttrs := by
  match t with
  | 2 => exact hp
  | 0 | 1 | 3 | 4 | 5 | _ + 6 => intro f hf; cases hf

theorem refutes {c : Container Nat} {r : Json} {n : Nat} {j : Json}
    (hp : ∀ f ∈ declFields (.derived c), f.validation = .noAttrs)
    (h : (rootSchemaFor (types c) (run (types c) n) 2
      (Gen.new { Settings.draft2020 with contract := .serialize })).map Prod.fst = some r)
    (hr : ∀ v ∈ valuesIn r, refsHere v = []) (hj : Serialized 64 id (decl c) 2 j)
    (hv : ∀ f, ¬ Valid draft2020 (digitEnv.withRef f) r j) : ¬ C45_Full := by
  intro hC
  obtain ⟨⟨r', g'⟩, hg, rfl⟩ := Option.map_eq_some_iff.1 h
  obtain ⟨f, hf⟩ := resolves_plain (D := draft2020) (env := digitEnv) hr
  exact hv f (hC Nat _ _ _ _ _ _ n 2 r' g' (modern_digitEnv f) (declared c) hg hf j (serialized_obeys (unvalidated hp) hj))

/-- What is written for a string. -/
theorem written_text (c : Container Nat) (s : String) : SerializedAt 64 anyValue id (decl c) 1 3 (.str s) :=
  ⟨.str _, .inr (.inr (.inl ⟨rfl, s, rfl⟩))⟩

/-- What is written for a map with one entry. -/
theorem written_text_map (c : Container Nat) (k s : String) : SerializedAt 64 anyValue id (decl c) 2 5 (.obj [(k, .str s)]) := by
  refine ⟨.obj _ (by unfold Obj.Sorted; simp) (by simp; exact .str _), _, rfl, fun e he => ?_⟩
  cases List.mem_singleton.1 he
  exact ⟨⟨.str k, .str k, written_text c k⟩, written_text c s⟩

/-- `struct T { x: u32, #[serde(flatten)] m: HashMap<String, String>, y: u32 }`. -/
def extra : Container Nat :=
  { data := .struct (.struct [{ name := ⟨"x", "x"⟩, ty := 1 }, { name := ⟨"m", "m"⟩, ty := 5, flatten := true },
      { name := ⟨"y", "y"⟩, ty := 1 }]) }

/-- The conditions hold. -/
theorem extra_ok (t : Nat) : WideDecl (decl extra) Ex.info (decl extra t) := by
  match t with
  | 0 | 1 | 3 | 4 | 5 => exact .inl trivial
  | 2 =>
    refine .inr (.inr ⟨_, [{ name := ⟨"x", "x"⟩, ty := 1 }], { name := ⟨"m", "m"⟩, ty := 5, flatten := true },
      [{ name := ⟨"y", "y"⟩, ty := 1 }], rfl, ⟨rfl, rfl, rfl, rfl, ⟨rfl, by simp [extra]⟩⟩, rfl,
      ⟨rfl, rfl, .inr ⟨3, 3, rfl, rfl⟩⟩, fun g hg _ => ?_, by decide⟩)
    simp only [List.cons_append, List.nil_append, List.mem_cons, List.not_mem_nil, or_false] at hg
    rcases hg with rfl | rfl <;> exact ⟨rfl, rfl, rfl, by simp⟩
  | n + 6 => exact .inl trivial

/-- The root schema of `extra`. -/
def extraSchema : Json :=
  .obj [("$schema", .str meta2020), ("additionalProperties", .obj [("type", .str "string")]),
    ("properties", .obj [("x", Ex.u32Schema), ("y", Ex.u32Schema)]), ("required", .arr [.str "x", .str "y"]),
    ("title", .str "T"), ("type", .str "object")]

/-- `T { x: 1, m: HashMap::from([("k", "v")]), y: 2 }`. -/
def extraDocument : Json := .obj [("k", .str "v"), ("x", .num (.int 1)), ("y", .num (.int 2))]

theorem u32_written (c : Container Nat) (k : Nat) (n : Int) (h0 : 0 ≤ n) (h1 : n < 2 ^ 32) :
    SerializedAt 64 anyValue id (decl c) (k + 1) 1 (.num (.int n)) := ⟨.num _, n, rfl, h0, h1⟩

theorem extra_written : Serialized 64 id (decl extra) 2 extraDocument := by
  refine ⟨3, .obj _ (by unfold Obj.Sorted; decide) (by simp; exact ⟨.str _, .num _, .num _⟩),
    [("x", .num (.int 1)), ("k", .str "v"), ("y", .num (.int 2))], ?_, _, rfl, by decide⟩
  exact .member _ rfl rfl (u32_written _ _ 1 (by decide) (by decide)) trivial (.flatten (p := [("k", .str "v")]) rfl rfl
    (.obj _ (written_text_map _ _ _)) (.member _ rfl rfl (u32_written _ _ 2 (by decide) (by decide)) trivial .nil))

/-- The theorem applied to the example. -/
example : ∃ env, Modern draft2020 env ∧ Resolves draft2020 env extraSchema ∧ Valid draft2020 env extraSchema extraDocument := by
  obtain ⟨f, hf⟩ := resolves_plain (D := draft2020) (env := digitEnv) (doc := extraSchema) (by decide)
  obtain ⟨g', h, hd⟩ : ∃ g', rootSchemaFor (types extra) (run (types extra) 10) 2
      (Gen.new { Settings.draft2020 with contract := .serialize }) = some (extraSchema, g') ∧ g'.defs = [] :=
    generated (by decide +kernel)
  exact ⟨_, modern_digitEnv f, hf, C45_root_partial (k := "$defs") (modern_digitEnv f) (declared _) extra_ok h rfl rfl
    (.inl rfl) rfl (fun h => absurd hd h) (fun _ _ h => by rw [hd] at h; cases h) hf
    (serialized_obeys (unvalidated (by simp [extra, declFields, allFields])) extra_written)⟩

/-- `struct T { #[serde(skip_serializing_if = "...")] x: u32, #[serde(flatten)] m: HashMap<String, String> }`. -/
def leftOut : Container Nat :=
  { data := .struct (.struct [{ name := ⟨"x", "x"⟩, ty := 1, skipSerIf := true },
      { name := ⟨"m", "m"⟩, ty := 5, flatten := true }]) }

def leftOutSchema : Json :=
  .obj [("$schema", .str meta2020), ("additionalProperties", .obj [("type", .str "string")]),
    ("properties", .obj [("x", Ex.u32Schema)]), ("title", .str "T"), ("type", .str "object")]

/-- `struct T { #[serde(flatten)] a: HashMap<String, u32>, #[serde(flatten)] b: HashMap<String, String> }`. -/
def twoMaps : Container Nat :=
  { data := .struct (.struct [{ name := ⟨"a", "a"⟩, ty := 4, flatten := true },
      { name := ⟨"b", "b"⟩, ty := 5, flatten := true }]) }

def twoMapsSchema : Json :=
  .obj [("$schema", .str meta2020), ("additionalProperties", Ex.u32Schema), ("title", .str "T"), ("type", .str "object")]

/-- `#[serde(deny_unknown_fields)] struct T { #[serde(flatten)] m: HashMap<String, String> }`. -/
def denied : Container Nat :=
  { denyUnknownFields := true
    data := .struct (.struct [{ name := ⟨"m", "m"⟩, ty := 5, flatten := true }]) }

def deniedSchema : Json :=
  .obj [("$schema", .str meta2020), ("additionalProperties", .bool false), ("title", .str "T"), ("type", .str "object")]

end MapEx

/-- C45 fails for a flattened map beside a field that may be left out: serde writes `{"x": "v"}` if the field `x` is left
out and the map has the key `x`. -/
theorem C45_flatten_left_out : ¬ C45_Full := by
  refine MapEx.refutes (c := MapEx.leftOut) (r := MapEx.leftOutSchema) (n := 10) (j := .obj [("x", .str "v")])
    (by simp [MapEx.leftOut, declFields, allFields])
    (by decide +kernel) (by decide)
    ⟨3, .obj _ (by unfold Obj.Sorted; decide) (by simp; exact .str _), [("x", .str "v")], ?_, _, rfl, .refl _⟩ (fun f h => ?_)
  · exact .leftOut rfl rfl (.flatten (p := [("x", .str "v")]) rfl rfl (.obj _ (MapEx.written_text_map _ _ _)) .nil)
  · exact absurd (show false = true from h) (by decide)

/-- C45 fails for two flattened maps: the schema for the values of the second one is lost. -/
theorem C45_flatten_two_maps : ¬ C45_Full := by
  refine MapEx.refutes (c := MapEx.twoMaps) (r := MapEx.twoMapsSchema) (n := 10) (j := .obj [("x", .str "v")])
    (by simp [MapEx.twoMaps, declFields, allFields])
    (by decide +kernel) (by decide)
    ⟨3, .obj _ (by unfold Obj.Sorted; decide) (by simp; exact .str _), [("x", .str "v")], ?_, _, rfl, .refl _⟩ (fun f h => ?_)
  · refine .flatten (p := []) rfl rfl (.obj _ ⟨.obj _ (by unfold Obj.Sorted; decide) (by simp), _, rfl, fun e he => by cases he⟩)
      (.flatten (p := [("x", .str "v")]) rfl rfl (.obj _ (MapEx.written_text_map _ _ _)) .nil)
  · exact absurd (show false = true from h) (by decide)

/-- C45 fails for a flattened map with `deny_unknown_fields`: the schema allows no member at all. (serde's documentation
says that this combination is not supported, but it compiles and writes the members.) -/
theorem C45_flatten_denied : ¬ C45_Full := by
  refine MapEx.refutes (c := MapEx.denied) (r := MapEx.deniedSchema) (n := 10) (j := .obj [("x", .str "v")])
    (by simp [MapEx.denied, declFields, allFields])
    (by decide +kernel) (by decide)
    ⟨3, .obj _ (by unfold Obj.Sorted; decide) (by simp; exact .str _), [("x", .str "v")], ?_, _, rfl, .refl _⟩ (fun f h => ?_)
  · exact .flatten (p := [("x", .str "v")]) rfl rfl (.obj _ (MapEx.written_text_map _ _ _)) .nil
  · exact absurd (show false = true from h) (by decide)

end Verif
