import Verif.Props.RoundTrip

/-!
# C74: examples, and types that are not read as they are written
-/

namespace Verif
open Spec

/-- C74 in full, for the default settings: whatever the types, the root schema accepts every document that serde may
write for a value of the type, if the values of fields obey the validation attributes. -/
def C74_Full : Prop :=
  ∀ (τ : Type) (D : Dialect) (env : Env) (Γ : τ → TypeDef τ) (decl : τ → Decl τ) (I : TypeInfo τ) (w n : Nat) (t : τ)
    (r : Json) (g' : Gen τ), Modern D env → DecimalInputRx env → Declared Γ decl I → OptionsKnown decl I →
    rootSchemaFor Γ (run Γ n) t (Gen.new Settings.draft2020) = some (r, g') → Resolves D env r →
    ∀ j, SerializedIf w (FieldObeys env) I.base decl t j → Valid D env r j

/-- Fields without attributes that tell writing from reading. -/
theorem twoWay_own {τ : Type} {q : Quirks τ} {base : τ → τ} {decl : τ → Decl τ} {cd deny : Bool} {fs : List (Field τ)}
    (h : ∀ f ∈ fs, f.flatten = false ∧ f.skipSer = false ∧ f.skipDe = false ∧ f.skipSerIf = false ∧ f.name.ser = f.name.de)
    (hn : fs.Pairwise fun f g => f.name.de ≠ g.name.de) : TwoWayFields q base decl cd deny fs where
  names f hf _ _ _ := (h f hf).2.2.2.2
  missing f hf _ h' := by
    obtain ⟨-, h1, -, h2, -⟩ := h f hf
    rw [h1, h2] at h'
    rcases h' with h' | h' <;> cases h'
  flat f hf h' := by rw [(h f hf).1] at h'; cases h'
  apart := by
    refine List.Pairwise.imp_of_mem (fun {f g} hf hg hne => ?_) hn
    obtain ⟨f1, -, f2, -⟩ := h f hf
    obtain ⟨g1, -, g2, -⟩ := h g hg
    simpa [claimed, f1, f2, g1, g2] using hne
  unread _ f hf _ := (h f hf).2.2.1

namespace NodeTy

theorem twoWay : AllTwoWay {} info.base decl := by
  intro t
  cases t
  case node =>
    refine fun _ _ => ⟨rfl, fun _ => twoWay_own (fun f hf => ?_) (by decide)⟩
    simp only [List.mem_cons, List.not_mem_nil, or_false] at hf
    rcases hf with rfl | rfl <;> exact ⟨rfl, rfl, rfl, rfl, rfl⟩
  all_goals trivial

/-- The theorem applied to the example: the schema under the `Deserialize` contract accepts all that serde writes, for
example two nodes. -/
example : ∃ env, Modern draft2020 env ∧ Resolves draft2020 env inputSchema ∧
    (∀ j, Serialized 64 info.base decl node j → Valid draft2020 env inputSchema j) ∧
    Valid draft2020 env inputSchema document := by
  obtain ⟨f, hf⟩ := resolves_self (D := draft2020) (env := inputEnv) (doc := inputSchema) (by decide)
  obtain ⟨g', h, hd⟩ := generatesInput
  have key : ∀ j, Serialized 64 info.base decl node j → Valid draft2020 (inputEnv.withRef f) inputSchema j := fun j hj =>
    C74_root_partial (k := "$defs") (modern_inputEnv f) (input_inputEnv f) documented declared optionsKnown
      (fun t => readable t false _) twoWay h rfl rfl (.inl rfl) rfl (fun h => absurd hd h)
      (fun _ _ h => by rw [hd] at h; cases h) hf (serialized_obeys unvalidated hj)
  exact ⟨_, modern_inputEnv f, hf, key, key _ written⟩

end NodeTy

namespace Rd

theorem forms_twoWay : AllTwoWay {} info.base (decl forms) := by
  have own : ∀ (n : String) (t : Nat), (member n t).flatten = false ∧ (member n t).skipSer = false ∧
      (member n t).skipDe = false ∧ (member n t).skipSerIf = false ∧ (member n t).name.ser = (member n t).name.de :=
    fun _ _ => ⟨rfl, rfl, rfl, rfl, rfl⟩
  have var : ∀ {tag deny} n {fields}, (∀ f, fields = .newtype f → f.skipSer = f.skipDe) →
      TwoWayContent {} info.base (decl forms) false deny fields →
      (∀ t, tag = .internal t → TwoWayTagged info.base (decl forms) (variant n fields)) →
      (∀ t c, tag = .adjacent t c → t ≠ c) → TwoWayVariant {} info.base (decl forms) tag deny (variant n fields) :=
    fun n _ h1 h2 h3 h4 => ⟨rfl, fun _ => rfl, h1, fun _ => h2, fun t e _ => h3 t e, h4⟩
  have one : ∀ deny n t, TwoWayContent {} info.base (decl forms) false deny (.struct [member n t]) := fun deny n t =>
    twoWay_own (fun f hf => by rw [List.mem_singleton.1 hf]; exact own ..) (List.pairwise_singleton _ _)
  have new : ∀ (n : String) (t : Nat) (f : Field Nat), Fields.newtype (member n t) = .newtype f → f.skipSer = f.skipDe := by
    intro n t f e; cases e; rfl
  intro t
  match t with
  | 0 | 1 | 2 | 4 | 5 | 11 => trivial
  | n + 12 => trivial
  | 3 =>
    refine fun _ _ => ⟨rfl, fun _ => twoWay_own (fun f hf => ?_) (by decide)⟩
    simp only [List.mem_cons, List.not_mem_nil, or_false] at hf
    rcases hf with rfl | rfl | rfl | rfl | rfl <;> exact own ..
  | 6 =>
    refine fun _ _ => ⟨rfl, fun _ => twoWay_own (fun f hf => ?_) (by decide)⟩
    simp only [List.mem_cons, List.not_mem_nil, or_false] at hf
    rcases hf with rfl | rfl
    · exact own ..
    · exact ⟨rfl, rfl, rfl, rfl, rfl⟩
  | 7 =>
    refine fun _ _ => ⟨rfl, fun _ v hv _ => ?_⟩
    simp only [List.mem_cons, List.not_mem_nil, or_false] at hv
    rcases hv with rfl | rfl | rfl | rfl
    · exact var _ (fun _ h => by cases h) trivial (fun _ h => by cases h) (fun _ _ h => by cases h)
    · exact var _ (new _ _) trivial (fun _ h => by cases h) (fun _ _ h => by cases h)
    · exact var _ (fun _ h => by cases h) (one ..) (fun _ h => by cases h) (fun _ _ h => by cases h)
    · refine var _ (fun _ h => by cases h) (fun f hf => ?_) (fun _ h => by cases h) (fun _ _ h => by cases h)
      simp only [List.mem_cons, List.not_mem_nil, or_false] at hf
      rcases hf with rfl | rfl <;> exact ⟨rfl, fun _ => rfl⟩
  | 8 =>
    refine fun _ _ => ⟨rfl, fun _ v hv _ => ?_⟩
    simp only [List.mem_cons, List.not_mem_nil, or_false] at hv
    rcases hv with rfl | rfl | rfl
    · exact var _ (fun _ h => by cases h) trivial (fun _ _ _ h => by cases h) (fun _ _ h => by cases h)
    · refine var _ (new _ _) trivial (fun _ _ f h _ => ?_) (fun _ _ h => by cases h)
      cases h
      exact .inl ⟨_, _, rfl, ⟨rfl, rfl, rfl, rfl⟩, rfl⟩
    · exact var _ (fun _ h => by cases h) (one ..) (fun _ _ _ h => by cases h) (fun _ _ h => by cases h)
  | 9 =>
    refine fun _ _ => ⟨rfl, fun _ v hv _ => ?_⟩
    simp only [List.mem_cons, List.not_mem_nil, or_false] at hv
    rcases hv with rfl | rfl
    · exact var _ (fun _ h => by cases h) trivial (fun _ h => by cases h) (fun _ _ h => by cases h; decide)
    · exact var _ (new _ _) trivial (fun _ h => by cases h) (fun _ _ h => by cases h; decide)
  | 10 =>
    refine fun _ _ => ⟨rfl, fun _ v hv _ => ?_⟩
    simp only [List.mem_cons, List.not_mem_nil, or_false] at hv
    rcases hv with rfl | rfl <;>
      exact var _ (new _ _) trivial (fun _ h => by cases h) (fun _ _ h => by cases h)

theorem forms_options : NoOptions forms := by
  intro d hd u h
  unfold forms at hd
  simp only [List.mem_cons, List.not_mem_nil, or_false] at hd
  rcases hd with rfl | rfl | rfl | rfl | rfl | rfl | rfl | rfl | rfl <;> cases h

/-- The theorem applied to a type with every form of enum. -/
example : ∃ r env, (∃ g', rootSchemaFor (types forms) (run (types forms) 10) 3 (Gen.new Settings.draft2020) =
    some (r, g')) ∧ Modern draft2020 env ∧ Resolves draft2020 env r ∧ ∀ j, Serialized 64 info.base (decl forms) 3 j →
      Valid draft2020 env r j := by
  obtain ⟨⟨r, g'⟩, h, hr, hd⟩ := forms_run
  obtain ⟨f, hf⟩ := resolves_plain (D := draft2020) (env := inputEnv) hr
  exact ⟨r, _, ⟨g', h⟩, modern_inputEnv f, hf, fun j hj => C74_root_partial (k := "$defs") (modern_inputEnv f)
    (input_inputEnv f) documented (declared forms) (options forms_options) (fun t => forms_readable t false _) forms_twoWay h
    rfl rfl (.inl rfl) rfl (fun h => absurd hd h) (fun _ _ h => by rw [hd] at h; cases h) hf
    (serialized_obeys (unvalidated (by rfl)) hj)⟩

/-! ### Flattened fields -/

/-- `struct S { x: u32 }`, `enum E { A, B(u32) }`, and
`struct T { #[serde(flatten)] s: S, #[serde(skip_deserializing)] n: u32, #[serde(flatten)] e: E }`. -/
def parts : List (Decl Nat) :=
  [.derived { data := .struct (.struct [{ member "s" 4 with flatten := true }, { member "n" 1 with skipDe := true },
     { member "e" 5 with flatten := true }]) },
   .derived { data := .struct (.struct [member "x" 1]) },
   .derived { data := .enum .external [variant "A" .unit, variant "B" (.newtype (member "0" 1))] }]

theorem parts_twoWay : AllTwoWay {} info.base (decl parts) := by
  intro t
  match t with
  | 0 | 1 | 2 => trivial
  | n + 6 => trivial
  | 3 =>
    refine fun _ _ => ⟨rfl, fun _ => ⟨?_, ?_, ?_, by decide, fun h => by cases h⟩⟩ <;>
      intro f hf <;> simp only [List.mem_cons, List.not_mem_nil, or_false] at hf
    · rcases hf with rfl | rfl | rfl <;> exact fun _ _ _ => rfl
    · rcases hf with rfl | rfl | rfl <;> exact fun _ h => by rcases h with h | h <;> cases h
    · rcases hf with rfl | rfl | rfl
      · refine fun _ => .inr ⟨rfl, rfl, ⟨_, rfl, ⟨rfl, rfl, rfl, rfl⟩, .inl ⟨_, rfl, fun g hg => ?_⟩⟩, .inl rfl,
          fun h => by cases h⟩
        rw [List.mem_singleton.1 hg]
        exact ⟨rfl, fun _ => ⟨rfl, rfl⟩⟩
      · exact fun h => by cases h
      · refine fun _ => .inr ⟨rfl, rfl, ⟨_, rfl, ⟨rfl, rfl, rfl, rfl⟩, .inr (.inl ⟨_, rfl, fun v hv => ?_⟩)⟩, .inl rfl,
          fun h => by cases h⟩
        simp only [List.mem_cons, List.not_mem_nil, or_false] at hv
        rcases hv with rfl | rfl <;> rfl
  | 4 =>
    refine fun _ _ => ⟨rfl, fun _ => twoWay_own (fun f hf => ?_) (List.pairwise_singleton _ _)⟩
    rw [List.mem_singleton.1 hf]
    exact ⟨rfl, rfl, rfl, rfl, rfl⟩
  | 5 =>
    refine fun _ _ => ⟨rfl, fun _ v hv _ => ?_⟩
    simp only [List.mem_cons, List.not_mem_nil, or_false] at hv
    rcases hv with rfl | rfl
    · exact ⟨rfl, fun _ => rfl, fun _ h => (by cases h), fun _ => trivial, fun _ h => (by cases h), fun _ _ h => by cases h⟩
    · exact ⟨rfl, fun _ => rfl, fun _ h => (by cases h; rfl), fun _ => trivial, fun _ h => (by cases h),
        fun _ _ h => by cases h⟩

/-- The theorem applied to the example: serde writes this document and reads it back. -/
example : Serialized 64 info.base (decl parts) 3 (.obj [("A", .null), ("n", .num (.int 1)), ("x", .num (.int 2))]) ∧
    Read 64 {} info.base (decl parts) 3 (.obj [("A", .null), ("n", .num (.int 1)), ("x", .num (.int 2))]) := by
  have hu : ∀ (n : Nat) (x : Int), 0 ≤ x → x < 2 ^ 32 →
      SerializedAt 64 anyValue info.base (decl parts) (n + 1) 1 (.num (.int x)) := fun n x h1 h2 => ⟨.num _, x, rfl, h1, h2⟩
  have hs : SerializedAt 64 anyValue info.base (decl parts) 2 4 (.obj [("x", .num (.int 2))]) :=
    ⟨wf_one (.num _), [("x", .num (.int 2))], .member _ rfl rfl (hu 0 2 (by decide) (by decide)) trivial .nil, _, rfl, .rfl⟩
  have he : SerializedAt 64 anyValue info.base (decl parts) 2 5 (.str "A") :=
    ⟨.str _, variant "A" .unit, by simp, rfl, .inl ⟨⟨rfl, rfl⟩, rfl⟩⟩
  have key : Serialized 64 info.base (decl parts) 3 (.obj [("A", .null), ("n", .num (.int 1)), ("x", .num (.int 2))]) := by
    refine ⟨3, wf_three (by decide) (by decide) (by decide) .null (.num _) (.num _),
      [("x", .num (.int 2))] ++ ("n", .num (.int 1)) :: ([("A", .null)] ++ []), ?_, _, rfl, ?_⟩
    · exact .flatten _ rfl rfl (.obj _ hs) (.member _ rfl rfl (hu 1 1 (by decide) (by decide)) trivial
        (.flatten _ rfl rfl (.unitVariant _ 5 (.self _) ⟨_, _, rfl, rfl⟩ he) .nil))
    · exact (List.reverse_perm _).symm
  exact ⟨key, readIf_any.1 (C74_read_partial documented parts_twoWay key)⟩

/-! ### Types that are not read as they are written -/

/-- What refutes C74 for the type `3`. -/
theorem refused {ds : List (Decl Nat)} {r : Json} {n : Nat} {j : Json} (hds : NoOptions ds)
    (h : (rootSchemaFor (types ds) (run (types ds) n) 3 (Gen.new Settings.draft2020)).map Prod.fst = some r)
    (hr : ∀ v ∈ valuesIn r, refsHere v = []) (hj : Serialized 64 info.base (decl ds) 3 j)
    (hv : ∀ f, ¬ Valid draft2020 (inputEnv.withRef f) r j) (hn : Bare ds := by rfl) : ¬ C74_Full := by
  intro hC
  obtain ⟨⟨r', g'⟩, hg, rfl⟩ := Option.map_eq_some_iff.1 h
  obtain ⟨f, hf⟩ := resolves_plain (D := draft2020) (env := inputEnv) hr
  exact hv f (hC Nat _ _ _ _ _ _ n 3 r' g' (modern_inputEnv f) (input_inputEnv f) (declared ds) (options hds) hg hf j
    (serialized_obeys (unvalidated hn) hj))

/-- `struct T { #[serde(skip_serializing_if = "…")] x: u32 }`. -/
def skippedIf : List (Decl Nat) :=
  [.derived { data := .struct (.struct [{ member "x" 1 with skipSerIf := true }]) }]

/-- `struct T { #[serde(rename(serialize = "y"))] x: u32 }`. -/
def renamed : List (Decl Nat) :=
  [.derived { data := .struct (.struct [{ member "x" 1 with name := { ser := "y", de := "x" } }]) }]

/-- `#[serde(deny_unknown_fields)] struct T { #[serde(skip_deserializing)] x: u32 }`. -/
def unread : List (Decl Nat) :=
  [.derived { data := .struct (.struct [{ member "x" 1 with skipDe := true }]), denyUnknownFields := true }]

/-- The schema of `u32`. -/
def u32Schema : Json := .obj [("format", .str "uint32"), ("minimum", .num (.int 0)), ("type", .str "integer")]

theorem wrote_u32 {ds : List (Decl Nat)} {n : Nat} (x : Int) (h1 : 0 ≤ x) (h2 : x < 2 ^ 32) :
    SerializedAt 64 anyValue info.base (decl ds) (n + 1) 1 (.num (.int x)) := ⟨.num _, x, rfl, h1, h2⟩

set_option maxRecDepth 10000 in
/-- C74 in full fails: serde leaves out a field with `skip_serializing_if`, but without a `default` the schema under the
`Deserialize` contract requires it. -/
theorem C74_Full_false : ¬ C74_Full := by
  refine refused (ds := skippedIf) (r := structRoot u32Schema) (n := 10) (j := .obj []) (noOptions_derived (cs := [_])) (by rfl)
    (by decide) ⟨1, .obj _ .nil (by simp), [], .leftOut rfl rfl .nil, _, rfl, .rfl⟩ (fun f h => ?_)
  exact absurd (show false = true from h) (by decide)

set_option maxRecDepth 10000 in
/-- C74 fails for a field with different names for writing and reading. -/
theorem C74_renamed : ¬ C74_Full := by
  refine refused (ds := renamed) (r := structRoot u32Schema) (n := 10) (j := .obj [("y", .num (.int 1))])
    (noOptions_derived (cs := [_])) (by rfl) (by decide) ⟨2, wf_one (.num _), [("y", .num (.int 1))],
      .member _ rfl rfl (wrote_u32 1 (by decide) (by decide)) trivial .nil, _, rfl, .rfl⟩ (fun f h => ?_)
  exact absurd (show false = true from h) (by decide)

set_option maxRecDepth 10000 in
/-- C74 fails for a field that is written but not read, if unknown members are denied. -/
theorem C74_unread : ¬ C74_Full := by
  refine refused (ds := unread) (r := root [("additionalProperties", .bool false), ("title", .str "T"), ("type", .str "object")])
    (n := 10) (j := .obj [("x", .num (.int 1))])
    (noOptions_derived (cs := [_])) (by rfl) (by decide) ⟨2, wf_one (.num _), [("x", .num (.int 1))],
      .member _ rfl rfl (wrote_u32 1 (by decide) (by decide)) trivial .nil, _, rfl, .rfl⟩ (fun f h => ?_)
  exact absurd (show false = true from h) (by decide)

end Rd

end Verif
