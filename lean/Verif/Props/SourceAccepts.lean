import Verif.Props.Source
import Verif.Props.Reads
import Verif.Props.AcceptsRoot

/-!
# C70: the schemas of programs in source form accept what serde writes and reads
-/

namespace Verif
open Spec

variable {τ σ V : Type}

/-- C70 in full, for writing: if all declarations of a program leave it to serde how values are written, then the root
schema that schemars makes from the program accepts every document that serde, from the same program, may write. There
are no validation attributes, which serde knows nothing of. -/
def C70_Full : Prop :=
  ∀ (τ σ V : Type) (S : Syntax τ) (C : Cases) (M : Meaning τ σ) (N : Values τ V) (src : σ → SrcDecl τ σ)
    (decl view : σ → Decl σ) (D : Dialect) (env : Env) (Γ : σ → TypeDef σ) (I : TypeInfo σ) (w n : Nat) (t : σ)
    (r : Json) (g' : Gen σ), (∀ t i, src t = .item i → LeftToSerde i) → (∀ t, Derives S C M N (src t) (decl t)) →
    (∀ t, Seen S C M.type .serialize (src t) (view t)) → (∀ t, WideDecl decl I (decl t)) →
    (∀ t, ∀ f ∈ declFields (decl t), f.validation = .noAttrs) → Modern D env → Declared Γ decl I →
    rootSchemaFor Γ (run Γ n) t (Gen.new { Settings.draft2020 with contract := .serialize }) = some (r, g') →
    Resolves D env r → ∀ j, Serialized w I.base view t j → Valid D env r j

theorem fields_strip_strip (f : Fields σ) : f.strip.strip = f.strip := by
  cases f with
  | unit => rfl
  | newtype f => rfl
  | tuple fs => exact congrArg Fields.tuple (by rw [List.map_map]; rfl)
  | struct fs => exact congrArg Fields.struct (by rw [List.map_map]; rfl)

theorem container_strip_strip (c : Container σ) : c.strip.strip = c.strip := by
  have hd : c.data.strip.strip = c.data.strip := by
    cases c.data with
    | struct f => exact congrArg DeriveData.struct (fields_strip_strip f)
    | enum tag vs =>
      refine congrArg (DeriveData.enum tag) ?_
      rw [List.map_map]
      refine List.map_congr_left fun v _ => ?_
      unfold Function.comp Variant.strip
      dsimp only
      rw [fields_strip_strip]
  have ht : (c.transparent.map Field.strip).map Field.strip = c.transparent.map Field.strip := by
    rw [Option.map_map]; rfl
  unfold Container.strip
  dsimp only
  rw [hd, ht]

section
variable {S : Syntax τ} {C : Cases} {M : Meaning τ σ} {N : Values τ V} {src : σ → SrcDecl τ σ}
  {decl view : σ → Decl σ} {base : σ → σ} {w : Nat}

theorem views_same {c : Contract} (hsrc : ∀ t i, src t = .item i → LeftToSerde i)
    (hc : c = .serialize → ∀ t i, src t = .item i → SameWays i ∧ Untagged i)
    (hd : ∀ t, Derives S C M N (src t) (decl t)) (hv : ∀ t, Seen S C M.type c (src t) (view t)) (t : σ) :
    (view t).strip = (decl t).strip := by
  have hd := hd t
  have hv := hv t
  cases hs : src t with
  | std s =>
    rw [hs] at hd hv
    rw [show decl t = _ from hd, show view t = _ from hv]
  | item i =>
    rw [hs] at hd hv
    obtain ⟨x, hx, hd⟩ := hd
    obtain ⟨a, ha, hv⟩ := hv
    have := C70_same (hsrc t i hs) hx ha fun h => hc h t i hs
    rw [hd, hv, ← this]
    exact congrArg Decl.derived (container_strip_strip _)

/-- C70, writing (`_partial`: without tagged structs, and `transparent` structs whose fields are not both written and
read; see `C70_Full`): serde writes, from the source of a program, the same documents as for the declarations that
schemars makes the schemas from. -/
theorem C70_written_partial (hsrc : ∀ t i, src t = .item i → LeftToSerde i ∧ SameWays i ∧ Untagged i)
    (hd : ∀ t, Derives S C M N (src t) (decl t)) (hv : ∀ t, Seen S C M.type .serialize (src t) (view t)) {t : σ}
    {j : Json} : Serialized w base view t j ↔ Serialized w base decl t j :=
  serialized_strip (views_same (fun t i h => (hsrc t i h).1) (fun _ t i h => (hsrc t i h).2) hd hv)

/-- C70, reading: serde reads, from the source of a program, the same documents as for the declarations that schemars
makes the schemas from. -/
theorem C70_read (hsrc : ∀ t i, src t = .item i → LeftToSerde i) (hd : ∀ t, Derives S C M N (src t) (decl t))
    (hv : ∀ t, Seen S C M.type .deserialize (src t) (view t)) {q : Quirks σ} (hq : Blind q) {t : σ} {j : Json} :
    Read w q base view t j ↔ Read w q base decl t j :=
  read_strip hq (views_same hsrc (fun h => by cases h) hd hv)

variable {D : Dialect} {env : Env} {Γ : σ → TypeDef σ} {I : TypeInfo σ}

/-- C70 (`_partial`: as `C70_written_partial` and `C45_root_partial`; see `C70_Full`): the root schema that schemars
makes from the source of a program accepts what serde, from the same source, may write. -/
theorem C70_accepts_partial (hsrc : ∀ t i, src t = .item i → LeftToSerde i ∧ SameWays i ∧ Untagged i)
    (hd : ∀ t, Derives S C M N (src t) (decl t)) (hv : ∀ t, Seen S C M.type .serialize (src t) (view t))
    (hM : Modern D env) (hG : Declared Γ decl I) (hok : ∀ t, WideDecl decl I (decl t))
    (hn : ∀ t, ∀ f ∈ declFields (decl t), f.validation = .noAttrs) {n : Nat} {t : σ}
    {st : Settings} {r : Json} {g' : Gen σ} (h : rootSchemaFor Γ (run Γ n) t (Gen.new st) = some (r, g'))
    (hst : st.transforms = []) (hser : st.contract = .serialize) {k : String} (hk : k = "$defs" ∨ k = "definitions")
    (hpath : PathDenotes st.definitionsPath [k]) (hfree : g'.defs ≠ [] → ∃ ds, At r [k] (.obj ds))
    (hplain : ∀ name d, Obj.get g'.defs name = some d → PlainName name) (hR : Resolves D env r) {j : Json}
    (hj : Serialized w I.base view t j) : Valid D env r j :=
  C45_root_partial hM hG hok h hst hser hk hpath hfree hplain hR
    (serialized_obeys hn ((C70_written_partial hsrc hd hv).1 hj))

/-- C70 (`_partial`: as `C64_root_partial`): the root schema that schemars makes from the source of a program accepts
what serde, from the same source, reads in a documented form. -/
theorem C70_readable_partial {q : Quirks σ} (hsrc : ∀ t i, src t = .item i → LeftToSerde i)
    (hd : ∀ t, Derives S C M N (src t) (decl t)) (hv : ∀ t, Seen S C M.type .deserialize (src t) (view t))
    (hM : Modern D env) (hx : DecimalInputRx env) (hq : Documented q) (hG : Declared Γ decl I)
    (ho : OptionsKnown decl I) (hok : ∀ t, ReadOk false q.lenient decl I.base (decl t))
    (hn : ∀ t, ∀ f ∈ declFields (decl t), f.validation = .noAttrs) {n : Nat} {t : σ}
    {st : Settings} {r : Json} {g' : Gen σ} (h : rootSchemaFor Γ (run Γ n) t (Gen.new st) = some (r, g'))
    (hst : st.transforms = []) (hde : st.contract = .deserialize) {k : String} (hk : k = "$defs" ∨ k = "definitions")
    (hpath : PathDenotes st.definitionsPath [k]) (hfree : g'.defs ≠ [] → ∃ ds, At r [k] (.obj ds))
    (hplain : ∀ name d, Obj.get g'.defs name = some d → PlainName name) (hR : Resolves D env r) {j : Json}
    (hj : j.WF) (hr : Read w q I.base view t j) : Valid D env r j :=
  C64_root_partial hM hx hq hG ho hok h hst hde hk hpath hfree hplain hR hj
    (read_obeys hn ((C70_read hsrc hd hv (documented_blind hq)).1 hr))

/-- C70 (`_partial`: as `C65_root_partial`): serde reads, from the source of a program, what the root schema accepts that
schemars makes from the same source. -/
theorem C70_reads_partial {q : Quirks σ} (hsrc : ∀ t i, src t = .item i → LeftToSerde i)
    (hd : ∀ t, Derives S C M N (src t) (decl t)) (hv : ∀ t, Seen S C M.type .deserialize (src t) (view t))
    (hM : Modern D env) (hw : 32 ≤ w) (hq : Documented q) (hG : Declared Γ decl I)
    (ho : OptionsKnown decl I) (hg : Grounded I.base decl) (hok : ∀ t, ReadOk true q.lenient decl I.base (decl t))
    {n : Nat} {t : σ}
    {st : Settings} {r : Json} {g' : Gen σ} (h : rootSchemaFor Γ (run Γ n) t (Gen.new st) = some (r, g'))
    (hst : st.transforms = []) (hde : st.contract = .deserialize) {k : String} (hk : k = "$defs" ∨ k = "definitions")
    (hpath : PathDenotes st.definitionsPath [k]) (hfree : g'.defs ≠ [] → ∃ ds, At r [k] (.obj ds))
    (hplain : ∀ name d, Obj.get g'.defs name = some d → PlainName name) (hR : Resolves D env r) {j : Json}
    (hj : j.WF) (hn : SmallNumbers j) (hv' : Valid D env r j) : Read w q I.base view t j :=
  (C70_read hsrc hd hv (documented_blind hq)).2
    (C65_root_partial hM hw hq hG ho hg hok h hst hde hk hpath hfree hplain hR hj hn hv')

end

/-! ### An example -/

namespace SourceEx
open AttrMetaEx ItemEx

/-- The types that the texts in the source name. -/
def names {σ : Type} (T : String → σ) (f : String → σ) : Meaning String σ where
  type := T
  function := f
  refVariant a _ := f a
  text _ := ""
  concat _ := ""
  json _ := none
  number _ := .null
  extension _ := .null
  transform _ j := j
  format s := s
  modulePath := "m"

def nodeMeaning : Meaning String NodeTy :=
  names (fun t => if t = "u32" then .u32 else if t = "Option<Box<Node>>" then .next else .node) fun _ => .unit

/-- `struct Node { #[serde(rename = "value")] v: u32, next: Option<Box<Node>> }`. -/
def node : SrcItem String (SrcAttrs String) where
  ident := "Node"
  attrs := [.schemars (some [flag "inline"])]
  data := .struct (.named
    [⟨"v", "u32", [.serde (some [text "rename" "value"])]⟩, ⟨"next", "Option<Box<Node>>", []⟩])

def program : NodeTy → SrcDecl String NodeTy
  | .unit => .std (.simple "null")
  | .u32 => .std (.int .u32)
  | .next => .std (.option .node)
  | .node => .item node

theorem undisturbed_nil : Undisturbed ([] : SrcAttrs String) := ⟨rfl, rfl, fun _ h => (by cases h), rfl⟩

theorem undisturbed_serde {l : List (MetaItem String)} (h : has replacing l = false) :
    Undisturbed [.serde (some l)] := by
  refine ⟨rfl, ?_, fun _ h => (by cases h), rfl⟩
  rw [show serdeOf [Attr.serde (some l)] = l ++ [] from rfl, List.append_nil]
  exact h

theorem node_left : LeftToSerde node where
  container := ⟨by decide, rfl, fun _ h => (by cases h), rfl⟩
  fields f hf := by
    rcases List.mem_cons.1 hf with rfl | hf
    · exact undisturbed_serde (by decide)
    · rw [List.mem_singleton.1 hf]
      exact undisturbed_nil
  variants v hv := by cases hv

theorem node_derives (t : NodeTy) : Derives lang cases nodeMeaning values (program t) (NodeTy.decl t) := by
  cases t
  case node => exact ⟨_, rfl, rfl⟩
  all_goals rfl

/-- C70 is not vacuous: what serde writes for the source is accepted. -/
example : ∃ (view : NodeTy → Decl NodeTy) (env : Env),
    (∀ t, Seen lang cases nodeMeaning.type .serialize (program t) (view t)) ∧ Resolves draft2020 env NodeTy.schema ∧
    Serialized 64 NodeTy.info.base view .node NodeTy.document ∧ Valid draft2020 env NodeTy.schema NodeTy.document := by
  obtain ⟨f, hf⟩ := resolves_self (D := draft2020) (env := digitEnv) (doc := NodeTy.schema) (by decide)
  obtain ⟨g', h, hd⟩ := NodeTy.generates
  have hsrc : ∀ t i, program t = .item i → LeftToSerde i ∧ SameWays i ∧ Untagged i := by
    intro t i h
    cases t
    case node => cases h; exact ⟨node_left, fun h => (by cases h), fun _ => rfl⟩
    all_goals cases h
  have hv : ∀ t, Seen lang cases nodeMeaning.type .serialize (program t) (NodeTy.decl t) := by
    intro t
    cases t
    case node => exact ⟨_, rfl, rfl⟩
    all_goals rfl
  have hw : Serialized 64 NodeTy.info.base NodeTy.decl .node NodeTy.document :=
    (C70_written_partial hsrc node_derives hv).2 NodeTy.written
  exact ⟨_, _, hv, hf, hw, C70_accepts_partial (k := "$defs") hsrc node_derives hv (modern_digitEnv f)
    NodeTy.declared (fun t => .inl (NodeTy.ok t)) NodeTy.unvalidated h rfl rfl (.inl rfl) rfl (fun h => absurd hd h)
    (fun _ _ h => by rw [hd] at h; cases h) hf hw⟩

/-! ### Declarations for which the schema rejects what serde writes -/

/-- `u32` is the type `1`. -/
def numbered : Meaning String Nat := names (fun t => if t = "u32" then 1 else 0) fun _ => 0

/-- `()`, `u32`, and one declaration. -/
def single (i : SrcItem String (SrcAttrs String)) : Nat → SrcDecl String Nat
  | 0 => .std (.simple "null")
  | 1 => .std (.int .u32)
  | 2 => .item i
  | _ + 3 => .std (.simple "null")

/-- What refutes C70 in full. -/
theorem refutes {i : SrcItem String (SrcAttrs String)} {c v : Container Nat} {r : Json} {n : Nat} {j : Json}
    (hi : LeftToSerde i) (hd : ∃ x, deriveItem lang cases numbered values i = some x ∧ x.container = c)
    (hv : ∃ a, serdeContainer lang cases serdeOf .serialize i = some a ∧ shape numbered.type .serialize a = v)
    (hok : WideDecl (Ex.decl [c]) Ex.info (.derived c))
    (hp : ∀ f ∈ declFields (.derived c), f.validation = .noAttrs)
    (h : (rootSchemaFor (Ex.types [c]) (run (Ex.types [c]) n) 2
      (Gen.new { Settings.draft2020 with contract := .serialize })).map Prod.fst = some r)
    (hr : ∀ v ∈ valuesIn r, refsHere v = []) (hj : Serialized 64 id (Ex.decl [v]) 2 j)
    (hn : ∀ f, ¬ Valid draft2020 (digitEnv.withRef f) r j) : ¬ C70_Full := by
  intro hC
  obtain ⟨⟨r', g'⟩, hg, rfl⟩ := Option.map_eq_some_iff.1 h
  obtain ⟨f, hf⟩ := resolves_plain (D := draft2020) (env := digitEnv) hr
  obtain ⟨x, hx, rfl⟩ := hd
  obtain ⟨a, ha, rfl⟩ := hv
  refine hn f (hC String Nat String lang cases numbered values (single i) (Ex.decl [x.container])
    (Ex.decl [shape numbered.type .serialize a]) _ _ _ _ 64 n 2 r' g' ?_ ?_ ?_ ?_ (Ex.unvalidated fun _ hc => List.mem_singleton.1 hc ▸ hp)
    (modern_digitEnv f) (Ex.declared _) hg hf j hj)
  · rintro (_ | _ | _ | t) k hk <;> cases hk
    exact hi
  · rintro (_ | _ | _ | t)
    · rfl
    · rfl
    · exact ⟨x, hx, rfl⟩
    · rfl
  · rintro (_ | _ | _ | t)
    · rfl
    · rfl
    · exact ⟨a, ha, rfl⟩
    · rfl
  · rintro (_ | _ | _ | t)
    · exact .inl trivial
    · exact .inl trivial
    · exact hok
    · exact .inl trivial

/-- `#[serde(tag = "t", deny_unknown_fields)] struct Sized {}`. -/
def tagged : SrcItem String (SrcAttrs String) where
  ident := "Sized"
  attrs := [.serde (some [text "tag" "t", flag "deny_unknown_fields"])]
  data := .struct (.named [])

/-- `#[serde(transparent)] struct Either { #[serde(skip_deserializing)] a: u32, #[serde(skip_serializing)] b: () }`. -/
def halves : SrcItem String (SrcAttrs String) where
  ident := "Either"
  attrs := [.serde (some [flag "transparent"])]
  data := .struct (.named
    [⟨"a", "u32", [.serde (some [flag "skip_deserializing"])]⟩, ⟨"b", "()", [.serde (some [flag "skip_serializing"])]⟩])

/-- What schemars makes of `tagged`. -/
def taggedContainer : Container Nat := { data := .struct (.struct []), denyUnknownFields := true }

/-- The fields of `halves`. -/
def halfA : Field Nat :=
  { name := ⟨"a", "a"⟩, ty := 1, skipDe := true, hasDefault := true, defaultValue := some (.str "u32::default()") }
def halfB : Field Nat := { name := ⟨"b", "b"⟩, ty := 0, skipSer := true }

/-- What schemars makes of `halves`. -/
def halvesContainer : Container Nat := { data := .struct (.struct [halfA, halfB]), transparent := some halfB }

def taggedSchema : Json :=
  .obj [("$schema", .str meta2020), ("additionalProperties", .bool false), ("title", .str "T"), ("type", .str "object")]

def halvesSchema : Json :=
  .obj [("$schema", .str meta2020), ("title", .str "T"), ("type", .str "null"), ("writeOnly", .bool true)]

end SourceEx

open SourceEx

set_option maxRecDepth 10000 in
/-- C70 in full fails for a struct with a tag and `deny_unknown_fields`: serde writes the tag, but `schemars_derive` does
not read the attribute on structs, and the schema rejects the member. -/
theorem C70_Full_false : ¬ C70_Full := by
  refine refutes (i := tagged) (c := taggedContainer) (r := taggedSchema) (n := 10) (j := .obj [("t", .str "Sized")]) ?_ ⟨_, rfl, rfl⟩
    ⟨_, rfl, rfl⟩ (.inl ?_) (by simp [taggedContainer, declFields, allFields]) (by rfl) (by decide) ?_ (fun f h => ?_)
  · exact ⟨undisturbed_serde (by decide), fun f h => (by cases h), fun v h => (by cases h)⟩
  · exact ⟨⟨rfl, by simp [taggedContainer]⟩, fun _ _ h => (by cases h), fun _ _ _ => ⟨[], .nil, by decide, fun f h => (by cases h)⟩⟩
  · refine ⟨1, .obj _ (by unfold Obj.Sorted; decide) (by simp; exact .str _), _, List.mem_singleton_self _, rfl, ?_⟩
    exact ⟨[], .nil, _, rfl, .refl _⟩
  · exact absurd (show false = true from h) (by decide)

set_option maxRecDepth 10000 in
/-- C70 in full fails for a `transparent` struct with a field that is only written, and one that is only read: serde
writes the one, but the schema, for either contract, is that of the other. -/
theorem C70_halves : ¬ C70_Full := by
  refine refutes (i := halves) (c := halvesContainer) (r := halvesSchema) (n := 10) (j := .num (.int 1)) ?_ ⟨_, rfl, rfl⟩
    ⟨_, rfl, rfl⟩ (.inl ?_) (by simp [halvesContainer, halfA, halfB, declFields, allFields]) (by rfl) (by decide) ?_
    (fun f h => ?_)
  · refine ⟨undisturbed_serde (by decide), fun f h => ?_, fun v h => (by cases h)⟩
    rcases List.mem_cons.1 h with rfl | h
    · exact undisturbed_serde (by decide)
    · rw [List.mem_singleton.1 h]
      exact undisturbed_serde (by decide)
  · refine ⟨⟨rfl, by simp [halvesContainer]⟩, fun _ f h => ?_, fun _ h _ => (by cases h)⟩
    cases h
    exact ⟨rfl, by simp [halfB]⟩
  · exact ⟨2, .num _, Ex.written_u32 _ 1 (by decide) (by decide), trivial⟩
  · exact absurd (show false = true from h) (by decide)

end Verif
