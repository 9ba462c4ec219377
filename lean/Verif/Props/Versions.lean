import Verif.Props.ReadsPipelines
import Verif.Props.RootDocument

/-!
# C80: documents for different settings accept the same

C45, C64 and C65 for all provided settings at once, with any choice about inlining and titles, and what follows from C64
and C65 for the documents of two such settings.
-/

namespace Verif
open Spec

/-- What the keywords of a version mean. -/
def Spec.Version.dialect : Version → Dialect
  | .draft07 => Verif.Spec.draft07
  | .draft2019 => Verif.Spec.draft2019
  | .draft2020 => Verif.Spec.draft2020
  | .openapi3 => openapi30

/-- The root schema `r` is made for the type `t` with the settings of a version for a contract, by a new generator, and
the environment follows its references. Names of definitions are plain, and there are none with OpenAPI 3.0. -/
structure Made {τ : Type} (Γ : τ → TypeDef τ) (v : Version) (c : Contract) (t : τ) (env : Env) (st : Settings) (r : Json) :
    Prop where
  settings : Configured v st
  contract : st.contract = c
  run : ∃ n g', rootSchemaFor Γ (run Γ n) t (Gen.new st) = some (r, g') ∧
    (∀ name d, Obj.get g'.defs name = some d → PlainName name) ∧ (v = .openapi3 → g'.defs = [])
  resolves : Resolves v.dialect env r

section
variable {τ : Type} {env : Env} {Γ : τ → TypeDef τ} {decl : τ → Decl τ} {I : TypeInfo τ} {w : Nat} {q : Quirks τ}
  {v : Version} {t : τ} {st : Settings} {r : Json}

/-- The transforms of the settings other than `openapi3` keep what tame schemas accept, and reach the definitions. -/
theorem version_keeps (env : Env) (hv : v ≠ .openapi3) (h : Configured v st) :
    ∃ k, (k = "$defs" ∨ k = "definitions") ∧ PathDenotes st.definitionsPath [k] ∧
      (∀ T ∈ st.transforms, ActsAt T k) ∧ (∀ T ∈ st.transforms, Preserves T) ∧
      ∀ s, IsSchema s → Everywhere visited (OnObj Tame) s →
        den v.dialect env (applyTransforms st.transforms s) = den draft2020 env s := by
  obtain ⟨h1, -, h3⟩ := h
  rw [h1, h3]
  cases v with
  | draft07 =>
    exact ⟨"definitions", .inr rfl, (by unfold PathDenotes; decide), draft07_actsAt, draft07_preserves, fun _ hs ht =>
      C58_draft07_partial env hs (Everywhere.imp ht fun _ hx m hm => (hx m hm).tuples)
        (Everywhere.imp ht fun _ hx m hm => (hx m hm).refs)⟩
  | draft2019 =>
    exact ⟨"$defs", .inl rfl, (by unfold PathDenotes; decide), draft2019_actsAt, draft2019_preserves, fun _ hs ht =>
      C58_draft2019_partial env hs (Everywhere.imp ht fun _ hx m hm => (hx m hm).tuples)⟩
  | draft2020 =>
    exact ⟨"$defs", .inl rfl, (by unfold PathDenotes; decide), (fun T hT => absurd hT (List.not_mem_nil)),
      (fun T hT => absurd hT (List.not_mem_nil)), fun _ _ _ => rfl⟩
  | openapi3 => exact absurd rfl hv

/-- C45 for all provided settings (`_partial` as `C45_root_partial`, and without definitions for OpenAPI 3.0). -/
theorem C45_versions_partial (hM : Modern draft2020 env) (hG : Declared Γ decl I) (hok : ∀ t, WideDecl decl I (decl t))
    (hq : ∀ t, QuietDecl (decl t)) (h : Made Γ v .serialize t env st r) {j : Json}
    (hj : SerializedIf w (FieldObeys env) I.base decl t j) : Valid v.dialect env r j := by
  obtain ⟨n, g', hrun, hplain, hnone⟩ := h.run
  by_cases hv : v = .openapi3
  · subst hv
    exact openapi_accepts hM hG hok hq hrun h.settings.2.2 h.contract (hnone rfl) h.resolves hj
  · obtain ⟨k, hk, hpath, hacts, hpres, hkeep⟩ := version_keeps env hv h.settings
    exact pipeline_accepts hM hG hok hq hrun h.contract hk hpath hacts hpres hkeep hplain h.resolves hj

/-- C64 for all provided settings (`_partial` as `C64_root_partial`, and without definitions for OpenAPI 3.0). -/
theorem C64_versions_partial (hM : Modern draft2020 env) (hx : DecimalInputRx env) (hq : Documented q)
    (hG : Declared Γ decl I) (ho : OptionsKnown decl I) (hok : ∀ t, ReadOk false q.lenient decl I.base (decl t))
    (hquiet : ∀ t, QuietDecl (decl t)) (h : Made Γ v .deserialize t env st r) {j : Json} (hj : j.WF)
    (hr : ReadIf w q (FieldObeys env) I.base decl t j) : Valid v.dialect env r j := by
  obtain ⟨n, g', hrun, hplain, hnone⟩ := h.run
  by_cases hv : v = .openapi3
  · subst hv
    exact openapi_accepts_read hM hx hq hG ho hok hquiet hrun h.settings.2.2 h.contract (hnone rfl) h.resolves hj hr
  · obtain ⟨k, hk, hpath, hacts, hpres, hkeep⟩ := version_keeps env hv h.settings
    exact pipeline_accepts_read hM hx hq hG ho hok hquiet hrun h.contract hk hpath hacts hpres hkeep hplain h.resolves hj hr

/-- C65 for all provided settings (`_partial` as `C65_root_partial`, and without definitions for OpenAPI 3.0). -/
theorem C65_versions_partial (hM : Modern draft2020 env) (hw : 32 ≤ w) (hq : Documented q)
    (hG : Declared Γ decl I) (ho : OptionsKnown decl I) (hg : Grounded I.base decl)
    (hok : ∀ t, ReadOk true q.lenient decl I.base (decl t)) (hquiet : ∀ t, QuietDecl (decl t))
    (h : Made Γ v .deserialize t env st r) {j : Json} (hj : j.WF) (hn : SmallNumbers j)
    (hv : Valid v.dialect env r j) : Read w q I.base decl t j := by
  obtain ⟨n, g', hrun, hplain, hnone⟩ := h.run
  by_cases hv' : v = .openapi3
  · subst hv'
    exact openapi_reads hM hw hq hG ho hg hok hquiet hrun h.settings.2.2 h.contract (hnone rfl) h.resolves hj hn hv
  · obtain ⟨k, hk, hpath, hacts, hpres, hkeep⟩ := version_keeps env hv' h.settings
    exact pipeline_reads hM hw hq hG ho hg hok hquiet hrun h.contract hk hpath hacts hpres hkeep hplain h.resolves hj hn hv

end

/-- C80 in full: the root schemas for one type, made with two of the provided settings for one contract (whether
subschemas are inlined or not), accept the same documents. It is false, see `C80_Full_false` and `C80_inline`. -/
def C80_Full : Prop :=
  ∀ (τ : Type) (Γ : τ → TypeDef τ) (decl : τ → Decl τ) (I : TypeInfo τ) (t : τ) (c : Contract) (v v' : Version)
    (st st' : Settings) (r r' : Json) (env env' : Env) (n n' : Nat) (g g' : Gen τ) (j : Json),
    Declared Γ decl I → Modern draft2020 env → Modern draft2020 env' → Configured v st → Configured v' st' →
    st.contract = c → st'.contract = c → rootSchemaFor Γ (run Γ n) t (Gen.new st) = some (r, g) →
    rootSchemaFor Γ (run Γ n') t (Gen.new st') = some (r', g') → Resolves v.dialect env r → Resolves v'.dialect env' r' →
    j.WF → (Valid v.dialect env r j ↔ Valid v'.dialect env' r' j)

/-- C80 (`_partial`: for the types of C64 and C65 without validation attributes, documents with small integers, plain
names of definitions, and for OpenAPI 3.0 without definitions): the root schemas of two of the provided settings for
reading, for any of the versions and any choice about inlining and titles, accept the same documents. -/
theorem C80_partial {τ : Type} {Γ : τ → TypeDef τ} {decl : τ → Decl τ} {I : TypeInfo τ} {q : Quirks τ} {t : τ}
    {v v' : Version} {env env' : Env} {st st' : Settings} {r r' : Json} (hM : Modern draft2020 env)
    (hM' : Modern draft2020 env') (hx : DecimalInputRx env) (hx' : DecimalInputRx env') (hq : Documented q)
    (hG : Declared Γ decl I) (ho : OptionsKnown decl I) (hg : Grounded I.base decl)
    (hok : ∀ exact t, ReadOk exact q.lenient decl I.base (decl t)) (hquiet : ∀ t, QuietDecl (decl t))
    (hval : ∀ t, ∀ f ∈ declFields (decl t), f.validation = .noAttrs)
    (h : Made Γ v .deserialize t env st r) (h' : Made Γ v' .deserialize t env' st' r') {j : Json} (hj : j.WF)
    (hn : SmallNumbers j) : Valid v.dialect env r j ↔ Valid v'.dialect env' r' j := by
  constructor
  · intro hv
    exact C64_versions_partial hM' hx' hq hG ho (hok false) hquiet h' hj
      (read_obeys hval (C65_versions_partial (w := 64) hM (by decide) hq hG ho hg (hok true) hquiet h hj hn hv))
  · intro hv
    exact C64_versions_partial hM hx hq hG ho (hok false) hquiet h hj
      (read_obeys hval (C65_versions_partial (w := 64) hM' (by decide) hq hG ho hg (hok true) hquiet h' hj hn hv))

/-- C80 fails for OpenAPI 3.0 with definitions, which are not transformed (see `C45_openapi3_false`). -/
theorem C80_Full_false : ¬ C80_Full := by
  intro h
  obtain ⟨⟨g, h1⟩, ⟨g', h2⟩, -, ⟨f, h3⟩, ⟨f', h4⟩, h5, h6⟩ := C45_openapi3_false
  refine h6 f' h4 ((h Nat Ex.wrappedTypes _ _ 2 .serialize .draft2020 .openapi3
    { Settings.draft2020 with contract := .serialize } { Settings.openapi3 with contract := .serialize } _ _ _ _ 10 10 g g' Ex.wrappedDoc
    Ex.declared_wrapped (modern_digitEnv f) (modern_digitEnv f') ⟨rfl, rfl, rfl⟩ ⟨rfl, rfl, rfl⟩ rfl rfl h1 h2 h3 h4
    (.obj _ (by unfold Obj.Sorted; decide) (by simp; exact .obj _ (by unfold Obj.Sorted; decide) (by simp; exact .str _)))).1 (h5 f h3))

/-! ## Inlining -/

/-- The types of the example. -/
inductive NamedKey
  | unit | bool | key | wrapper | map
  deriving DecidableEq

namespace NamedKey

def info : TypeInfo NamedKey where
  unit := unit
  isOption _ := false
  base t := t
  inline t := t ≠ key ∧ t ≠ wrapper

/-- `#[serde(rename = "a b")] enum Key { y }`, `struct Wrapper(Key)` and `BTreeMap<Wrapper, bool>`. -/
def decl : NamedKey → Decl NamedKey
  | unit => .std (.simple "null")
  | bool => .std (.simple "boolean")
  | key => .derived { data := .enum .external [{ name := ⟨"y", "y"⟩, fields := .unit }] }
  | wrapper => .derived { data := .struct (.newtype { name := ⟨"0", "0"⟩, ty := key }) }
  | map => .std (.map wrapper bool)

def types : NamedKey → TypeDef NamedKey
  | unit => ⟨"null", "null", true, bodyOf info (decl unit)⟩
  | bool => ⟨"boolean", "boolean", true, bodyOf info (decl bool)⟩
  | key => ⟨"ex::a b", "a b", false, bodyOf info (decl key)⟩
  | wrapper => ⟨"ex::Wrapper", "Wrapper", false, bodyOf info (decl wrapper)⟩
  | map => ⟨"Map<ex::Wrapper, boolean>", "Map_from_Wrapper_to_boolean", true, bodyOf info (decl map)⟩

theorem declared : Declared types decl info where
  body t := by cases t <;> rfl
  ids t t' h := by
    revert h; revert t t'; intro t t'
    cases t <;> cases t' <;> first | (intro; rfl) | (intro h; exact absurd h (by decide))
  unit := rfl
  unitInline := rfl
  option t h := by cases h
  base t h := rfl

/-- The schema of the key type. -/
def keySchema : Json := .obj [("enum", .arr [.str "y"]), ("type", .str "string")]

/-- The root schema with a definition. -/
def referring : Json :=
  .obj [("$defs", .obj [("a b", keySchema)]), ("$schema", .str meta2020),
    ("additionalProperties", .obj [("type", .str "boolean")]), ("title", .str "Map_from_Wrapper_to_boolean"),
    ("type", .str "object")]

/-- The root schema with the key type inlined. -/
def inlined : Json :=
  .obj [("$schema", .str meta2020), ("additionalProperties", .bool false),
    ("properties", .obj [("y", .obj [("type", .str "boolean")])]), ("title", .str "Map_from_Wrapper_to_boolean"),
    ("type", .str "object")]

theorem generates : (∃ g', rootSchemaFor types (run types 5) map (Gen.new Settings.draft2020) = some (referring, g') ∧
      g'.defs = [("a b", keySchema)]) ∧
    ∃ g', rootSchemaFor types (run types 5) map (Gen.new { Settings.draft2020 with inlineSubschemas := true }) =
      some (inlined, g') ∧ g'.defs = [] :=
  ⟨generated (by decide +kernel), generated (by decide +kernel)⟩

end NamedKey

/-- C80 fails for one version if subschemas are inlined with one of the settings: a map whose key type wraps a type with
a definition of an escaped name accepts all keys, since the definition is not found (`C43_escaped_ignored`), and inlined only the
names of the variants. -/
theorem C80_inline : (∃ g', rootSchemaFor NamedKey.types (run NamedKey.types 5) .map (Gen.new Settings.draft2020) =
      some (NamedKey.referring, g')) ∧
    (∃ g', rootSchemaFor NamedKey.types (run NamedKey.types 5) .map
      (Gen.new { Settings.draft2020 with inlineSubschemas := true }) = some (NamedKey.inlined, g')) ∧
    ∀ env, Valid draft2020 env NamedKey.referring (.obj [("x", .bool true)]) ∧
      ¬ Valid draft2020 env NamedKey.inlined (.obj [("x", .bool true)]) :=
  ⟨NamedKey.generates.1.imp fun _ h => h.1, NamedKey.generates.2.imp fun _ h => h.1, fun env => ⟨rfl, by
    intro h; cases h⟩⟩

/-! ## Examples -/

namespace NodeTy

/-- The hypotheses of `C80_partial` can be met: the schemas of the recursive list for draft 7 and OpenAPI 3.0. -/
example : ∃ env env' r r', Modern draft2020 env ∧ Modern draft2020 env' ∧
    Made types .draft07 .deserialize node env Settings.draft07 r ∧
    Made types .openapi3 .deserialize node env' Settings.openapi3 r' ∧
    ∀ j, j.WF → SmallNumbers j → (Valid draft07 env r j ↔ Valid openapi30 env' r' j) := by
  obtain ⟨f, hf⟩ := resolves_self (D := draft07) (env := inputEnv) (doc := inputFor metaDraft07 nullSchema) (by decide)
  obtain ⟨g, h, hd⟩ := generatesInput07
  obtain ⟨f', hf'⟩ := resolves_self (D := openapi30) (env := inputEnv) (doc := inputFor Settings.metaOpenapi3 null30)
    (by decide)
  obtain ⟨g', h', hd'⟩ := generatesInput30
  have m : Made types .draft07 .deserialize node (inputEnv.withRef f) Settings.draft07 (inputFor metaDraft07 nullSchema) :=
    ⟨⟨rfl, rfl, rfl⟩, rfl, ⟨10, g, h, (fun _ _ h => by rw [hd] at h; cases h), fun e => by cases e⟩, hf⟩
  have m' : Made types .openapi3 .deserialize node (inputEnv.withRef f') Settings.openapi3
      (inputFor Settings.metaOpenapi3 null30) :=
    ⟨⟨rfl, rfl, rfl⟩, rfl, ⟨10, g', h', (fun _ _ h => by rw [hd'] at h; cases h), fun _ => hd'⟩, hf'⟩
  exact ⟨_, _, _, _, modern_inputEnv f, modern_inputEnv f', m, m', fun j hj hn =>
    C80_partial (modern_inputEnv f) (modern_inputEnv f') (input_inputEnv f) (input_inputEnv f') documented declared
      optionsKnown grounded (fun exact t => readable t exact _) quiet unvalidated m m' hj hn⟩

end NodeTy

end Verif
