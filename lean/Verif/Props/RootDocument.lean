import Verif.Settings
import Verif.Spec.Preset
import Verif.Props.TransformedDefs
import Verif.Props.Infer

/-!
# C78: what the documents of the provided settings have at the top
-/

namespace Verif
open Spec Serde

/-- The settings that are provided for a version. -/
def preset : Version → Settings
  | .draft07 => .draft07
  | .draft2019 => .draft2019
  | .draft2020 => .draft2020
  | .openapi3 => .openapi3

/-- C78: the provided settings name the published meta-schema and the place of definitions. Without further calls they
are for deserialization, inline nothing and add no titles to variants. -/
theorem C78_settings (v : Version) :
    (preset v).metaSchema = some v.uri ∧ PathDenotes (preset v).definitionsPath v.place ∧
    (preset v).contract = .deserialize ∧ (preset v).inlineSubschemas = false ∧
    (preset v).untaggedEnumVariantTitles = false ∧ Settings.default = preset .draft2020 := by
  cases v <;> exact ⟨rfl, by unfold PathDenotes; decide, rfl, rfl, rfl, rfl⟩

/-- The provided settings for a version, for either contract and with any choice about inlining and titles. -/
def Configured (v : Version) (st : Settings) : Prop :=
  st.definitionsPath = (preset v).definitionsPath ∧ st.metaSchema = (preset v).metaSchema ∧
    st.transforms = (preset v).transforms

/-- C78: choosing a contract keeps everything else. -/
theorem C78_contract {v : Version} {st : Settings} (h : Configured v st) :
    Configured v st.forSerialize ∧ Configured v st.forDeserialize ∧
    st.forSerialize.contract = .serialize ∧ st.forDeserialize.contract = .deserialize ∧
    st.forSerialize.inlineSubschemas = st.inlineSubschemas ∧ st.forDeserialize.inlineSubschemas = st.inlineSubschemas ∧
    st.forSerialize.untaggedEnumVariantTitles = st.untaggedEnumVariantTitles ∧
    st.forDeserialize.untaggedEnumVariantTitles = st.untaggedEnumVariantTitles :=
  ⟨h, h, rfl, rfl, rfl, rfl, rfl, rfl⟩

/-- C78: a further transform is applied after those of the settings. -/
theorem C78_transform (st : Settings) (T : Json → Json) (s : Json) :
    applyTransforms (st.withTransform T).transforms s = T (applyTransforms st.transforms s) := by
  simp [Settings.withTransform, applyTransforms]

/-- Keywords that no transform of the provided settings touches. -/
def steady : List String := "$schema" :: "title" :: plainKeywords

theorem steady_actsAt {k : String} (hk : k ∈ steady) : ∀ v : Version, ∀ T ∈ (preset v).transforms, ActsAt T k := by
  have h1 : ∀ k ∈ steady, k ∉ ["unevaluatedProperties", "additionalProperties", "properties"] := by decide
  have h2 : ∀ k ∈ steady, k ∉ ["$ref", "allOf"] := by decide
  have h3 : ∀ k ∈ steady, k ∉ ["prefixItems", "items", "additionalItems"] := by decide
  have h4 : ∀ k ∈ steady, k ≠ "additionalProperties" := by decide
  have h5 : ∀ k ∈ steady, k ∉ ["nullable", "const", "type"] := by decide
  have h6 : ∀ k ∈ steady, k ∉ ["examples", "example"] := by decide
  have h7 : ∀ k ∈ steady, k ∉ ["const", "enum"] := by decide
  intro v T hT
  cases v with
  | draft07 =>
    simp only [preset, Settings.draft07, draft07Transforms, List.mem_cons, List.not_mem_nil, or_false] at hT
    rcases hT with rfl | rfl | rfl
    · exact replaceUneval_actsAt (h1 k hk)
    · exact removeRefSiblings_actsAt (h2 k hk)
    · exact replacePrefix_actsAt (h3 k hk)
  | draft2019 =>
    simp only [preset, Settings.draft2019, draft2019Transforms, List.mem_cons, List.not_mem_nil, or_false] at hT
    subst hT
    exact replacePrefix_actsAt (h3 k hk)
  | draft2020 => simp [preset, Settings.draft2020, draft2020Transforms] at hT
  | openapi3 =>
    simp only [preset, Settings.openapi3, openapi3Transforms, List.mem_cons, List.not_mem_nil, or_false] at hT
    rcases hT with rfl | rfl | rfl | rfl | rfl | rfl | rfl
    · exact replaceUneval_actsAt (h1 k hk)
    · exact replaceBool_actsAt _ (h4 k hk)
    · exact addNullable_actsAt _ (h5 k hk)
    · exact removeRefSiblings_actsAt (h2 k hk)
    · exact setSingleExample_actsAt (h6 k hk)
    · exact replaceConst_actsAt (h7 k hk)
    · exact replacePrefix_actsAt (h3 k hk)

theorem steady_get (v : Version) (m : List (String × Json)) :
    ∃ m', applyTransforms (preset v).transforms (.obj m) = .obj m' ∧ ∀ k ∈ steady, Obj.get m' k = Obj.get m k := by
  obtain ⟨m', h1, -⟩ := applyTransforms_skip (steady_actsAt (k := "title") (by decide) v) (by decide) m
  refine ⟨m', h1, fun k hk => ?_⟩
  obtain ⟨m2, e1, e2⟩ := applyTransforms_skip (steady_actsAt hk v)
    ((by decide : ∀ k ∈ steady, subSlot k = .skip) k hk) m
  rw [h1] at e1
  cases e1
  exact e2

/-- Where definitions go does not begin with one of the keywords. -/
theorem place_steady (v : Version) : ∃ seg rest, v.place = seg :: rest ∧ seg ∉ steady ∧ seg :: rest ≠ [""] := by
  cases v
  · exact ⟨"definitions", [], rfl, by decide, by decide⟩
  · exact ⟨"$defs", [], rfl, by decide, by decide⟩
  · exact ⟨"$defs", [], rfl, by decide, by decide⟩
  · exact ⟨"components", ["schemas"], rfl, by decide, by decide⟩

section
variable {τ : Type} {Γ : τ → TypeDef τ} {st : Settings}

/-- C78: the document for a type has the published meta-schema of the version, the title of the type's own schema or else
its name, and every keyword of the type's own schema whose value is not a schema. -/
theorem C78_root {v : Version} (hv : Configured v st) {n : Nat} {t : τ} {g g' : Gen τ} {s : Json} (hg : Hist Γ st g)
    (h : rootSchemaFor Γ (run Γ n) t g = some (s, g')) :
    ∃ m body own, s = .obj m ∧ Ran Γ t body ∧ Schema.ensureObject body = some own ∧
      Obj.get m "$schema" = some (.str v.uri) ∧
      Obj.get m "title" = some ((Obj.get own "title").getD (.str (Γ t).schemaName)) ∧
      ∀ k ∈ plainKeywords, Obj.get m k = Obj.get own k := by
  obtain ⟨hp, hm, ht⟩ := hv
  have hset := Hist.settings hg
  obtain ⟨c1, c2, -⟩ := C78_settings v
  obtain ⟨seg, rest, hplace, hseg, hne⟩ := place_steady v
  obtain ⟨body, own, pre, hran, hown, hs, htitle, hmeta, -, hkeep, -⟩ :=
    C32_root_partial (seg := seg) (rest := rest) (Hist.inv hg).sorted (by rw [hset, hp, ← hplace]; exact c2) hne
      (fun e => hseg (by rw [e]; decide)) (fun e => hseg (by rw [e]; decide)) h
  obtain ⟨m, e1, e2⟩ := steady_get v pre
  rw [hset, ht] at hs
  refine ⟨m, body, own, hs.trans e1, hran, hown, ?_, ?_, fun k hk => ?_⟩
  · rw [e2 _ (by decide)]
    exact hmeta _ (by rw [hset, hm, c1])
  · rw [e2 _ (by decide)]
    exact htitle
  · have hin : k ∈ steady := List.mem_cons_of_mem _ (List.mem_cons_of_mem _ hk)
    rw [e2 k hin]
    exact hkeep k ((by decide : ∀ k ∈ plainKeywords, k ≠ "title") k hk)
      ((by decide : ∀ k ∈ plainKeywords, k ≠ "$schema") k hk) (fun e => hseg (e ▸ hin))

/-- C78: `schema_for!` gives the document that `root_schema_for` gives with a new generator and the settings for
draft 2020-12. -/
theorem C78_schemaFor {n : Nat} {t : τ} {s : Json} :
    schemaForType Γ (run Γ n) t = some s ↔
      ∃ g', rootSchemaFor Γ (run Γ n) t (Gen.new (preset .draft2020)) = some (s, g') := by
  unfold schemaForType
  rw [C33_same, Option.map_eq_some_iff]
  constructor
  · rintro ⟨⟨s, g'⟩, h, rfl⟩; exact ⟨g', h⟩
  · rintro ⟨g', h⟩; exact ⟨_, h, rfl⟩

end

section
variable {τ : Type} {odd : Val → Option (List Char)}

theorem get_ensureObject {s : Json} {m : List (String × Json)} (h : Schema.ensureObject s = some m) :
    s = .obj m ∨ ∀ k, k ≠ "not" → Obj.get m k = none := by
  cases s with
  | obj n => simp only [Schema.ensureObject, Option.some.injEq] at h; exact .inl (by rw [h])
  | bool b =>
    refine .inr fun k hk => ?_
    cases b <;> cases h
    · rw [Obj.get_insert_ne _ _ (Ne.symm hk)]; rfl
    · rfl
  | _ => simp [Schema.ensureObject] at h

theorem examples_kept (ver : Version) {pre m : List (String × Json)} {j : Json}
    (hx : Obj.get pre "examples" = some (.arr [j])) (e : applyTransforms (preset ver).transforms (.obj pre) = .obj m) :
    Obj.get m (ver.exampleEntry j).1 = some (ver.exampleEntry j).2 := by
  have drafts : ∀ ts : List (Json → Json), (∀ T ∈ ts, ActsAt T "examples") → applyTransforms ts (.obj pre) = .obj m →
      Obj.get m "examples" = some (.arr [j]) := by
    intro ts hts e
    obtain ⟨m', e1, e2⟩ := applyTransforms_skip hts (by decide) pre
    rw [e] at e1
    cases e1
    rw [e2, hx]
  cases ver with
  | draft07 =>
    refine drafts draft07Transforms (fun T hT => ?_) e
    simp only [draft07Transforms, List.mem_cons, List.not_mem_nil, or_false] at hT
    rcases hT with rfl | rfl | rfl
    · exact replaceUneval_actsAt (by decide)
    · exact removeRefSiblings_actsAt (by decide)
    · exact replacePrefix_actsAt (by decide)
  | draft2019 =>
    refine drafts draft2019Transforms (fun T hT => ?_) e
    simp only [draft2019Transforms, List.mem_cons, List.not_mem_nil, or_false] at hT
    subst hT
    exact replacePrefix_actsAt (by decide)
  | draft2020 => exact drafts draft2020Transforms (fun T hT => by simp [draft2020Transforms] at hT) e
  | openapi3 =>
    obtain ⟨m1, a1, a2⟩ := applyTransforms_skip
      (ts := [replaceUneval, replaceBool true, addNullable ⟨true, true⟩, removeRefSiblings]) (k := "examples") (fun T hT => by
        simp only [List.mem_cons, List.not_mem_nil, or_false] at hT
        rcases hT with rfl | rfl | rfl | rfl
        · exact replaceUneval_actsAt (by decide)
        · exact replaceBool_actsAt _ (by decide)
        · exact addNullable_actsAt _ (by decide)
        · exact removeRefSiblings_actsAt (by decide)) (by decide) pre
    obtain ⟨m2, b1, -, b2, -⟩ := setSingleExampleLocal_get (m1.map (entryMap subSlot (postOrder setSingleExampleLocal)))
    have b1 : setSingleExample (.obj m1) = .obj m2 := by
      unfold setSingleExample
      rw [postOrder_eq _ (.obj m1), tsub_obj, b1]
    rw [get_entryMap, a2, hx] at b2
    obtain ⟨m3, c1, c2⟩ := applyTransforms_skip (ts := [replaceConst, replacePrefix]) (k := "example") (fun T hT => by
        simp only [List.mem_cons, List.not_mem_nil, or_false] at hT
        rcases hT with rfl | rfl
        · exact replaceConst_actsAt (by decide)
        · exact replacePrefix_actsAt (by decide)) (by decide) m2
    have hall : applyTransforms (preset .openapi3).transforms (.obj pre) =
        applyTransforms [replaceConst, replacePrefix] (setSingleExample (applyTransforms
          [replaceUneval, replaceBool true, addNullable ⟨true, true⟩, removeRefSiblings] (.obj pre))) := rfl
    rw [hall, a1, b1, c1] at e
    cases e
    show Obj.get _ "example" = some j
    rw [c2, b2]
    rfl

/-- C78: the document for a value has the published meta-schema of the version, the title of the value (and no other title
if its type has no name), and the value as its example. -/
theorem C78_value {ver : Version} {g : Gen τ} (hv : Configured ver g.settings) {v : Val} {s : Json}
    (h : rootSchemaForValue odd g v = some s) :
    ∃ m, s = .obj m ∧ Obj.get m "$schema" = some (.str ver.uri) ∧
      Obj.get m "title" = (valTitle v).map .str ∧
      ∀ j, toValue v = some j → Obj.get m (ver.exampleEntry j).1 = some (ver.exampleEntry j).2 := by
  obtain ⟨hp, hm, ht⟩ := hv
  unfold rootSchemaForValue at h
  simp only [Option.bind_eq_some_iff, Option.map_eq_some_iff] at h
  obtain ⟨s0, h0, m0, hm0, rfl⟩ := h
  obtain ⟨c1, c2, -⟩ := C78_settings ver
  obtain ⟨seg, rest, hplace, hseg, hne⟩ := place_steady ver
  have hex : seg ≠ "examples" := by
    intro e; subst e
    cases ver <;> simp [Version.place] at hplace
  have frame : ∀ k, k ≠ seg → Obj.get (addDefinitions g.settings.definitionsPath.toList
      (valueObject (toValue v) g.settings.metaSchema m0) g.defs) k =
      Obj.get (valueObject (toValue v) g.settings.metaSchema m0) k := by
    intro k hk
    have := C05_frame g.settings.definitionsPath (seg :: rest) [k]
      (valueObject (toValue v) g.settings.metaSchema m0) g.defs (by rw [hp, ← hplace]; exact c2) (by simp) hne
      (fun ⟨x, hx⟩ => hk (by simp at hx; exact hx.1.symm)) (fun ⟨x, hx⟩ => hk (by simp at hx; exact hx.1))
    refine Option.ext fun v => ?_
    rw [← At_singleton, ← At_singleton]
    exact this v
  generalize hpre : addDefinitions g.settings.definitionsPath.toList
    (valueObject (toValue v) g.settings.metaSchema m0) g.defs = pre at *
  obtain ⟨m, e1, e2⟩ := steady_get ver pre
  rw [ht]
  refine ⟨m, e1, ?_, ?_, ?_⟩
  · rw [e2 _ (by decide), frame _ (fun e => hseg (by rw [← e]; decide)), hm, c1]
    simp [valueObject]
  · rw [e2 _ (by decide), frame _ (fun e => hseg (by rw [← e]; decide)), valueObject_get _ _ _ (by decide)]
    obtain ⟨t1, t2, -⟩ := C39_titles h0
    rcases get_ensureObject hm0 with rfl | hnone
    · simpa using t1 m0 rfl
    · rw [hnone "title" (by decide)]
      cases hvt : valTitle v with
      | none => rfl
      | some n =>
        obtain ⟨m1, rfl⟩ := t2 rfl (by rw [hvt]; rfl)
        have := t1 m1 rfl
        simp only [Schema.ensureObject, Option.some.injEq] at hm0
        subst hm0
        rw [hnone "title" (by decide), hvt] at this
        simp at this
  · intro j hj
    have hx : Obj.get pre "examples" = some (.arr [j]) := by
      rw [frame _ (Ne.symm hex), hm, c1, hj]
      simp [valueObject, Obj.get_insert]
    exact examples_kept ver hx e1

/-- C78: `schema_for_value!` gives the document that `root_schema_for_value` gives with the settings for draft 2020-12. -/
theorem C78_schemaForValue (v : Val) :
    schemaForValue odd v = rootSchemaForValue odd (Gen.new (τ := Unit) (preset .draft2020)) v := rfl

end

/-! ### Examples -/

namespace Ex

/-- `struct Name(bool)` in the settings for OpenAPI. -/
example : rootSchemaForValue (fun _ => none) (Gen.new (τ := Unit) .openapi3) (.newtypeStruct "Name" (.bool true)) =
    some (mkObj [("$schema", .str "https://spec.openapis.org/oas/3.0/schema/2024-10-18#/definitions/Schema"),
      ("example", .bool true), ("title", .str "Name"), ("type", .str "boolean")]) := by decide +kernel

example : Configured .draft07 (preset .draft07).forSerialize := (C78_contract ⟨rfl, rfl, rfl⟩).1

example : ((rootSchemaFor constFam (run constFam 3) true (Gen.new (preset .draft2019).forSerialize)).bind
      fun r => Schema.ensureObject r.1).map (fun m => (Obj.get m "title", Obj.get m "$schema")) =
    some (some (.str "Outer"), some (.str Version.draft2019.uri)) := by decide +kernel

end Ex

/-- C78: an integer is written as an example exactly if `serde_json` has a number for it; the document of a greater or smaller
one has no example. -/
theorem C78_integers (odd : Val → Option (List Char)) (i : Int) :
    rootSchemaForValue odd (Gen.new .draft2020 : Gen τ) (.int i) = some (mkObj ([("$schema", .str meta2020), ("type", .str "integer")] ++
      if -9223372036854775808 ≤ i ∧ i ≤ 18446744073709551615 then [("examples", .arr [.num (.int i)])] else [])) := by
  have h : (-9223372036854775808 ≤ i ∧ i ≤ 18446744073709551615) ↔ -2 ^ 63 ≤ i ∧ i < 2 ^ 64 := by omega
  unfold rootSchemaForValue
  simp only [infer, toValue, Option.bind_some]
  by_cases hi : -2 ^ 63 ≤ i ∧ i < 2 ^ 64
  · rw [if_pos hi, if_pos (h.2 hi)]
    simp [Gen.new, Settings.draft2020, draft2020Transforms, applyTransforms, addDefinitions, valueObject, typeOnly, mkObj,
      Schema.ensureObject, Obj.ofList, Obj.extend, Obj.insert,
      show "examples" < "type" ↔ True by decide, show "$schema" < "examples" ↔ True by decide,
      show "type" < "$schema" ↔ False by decide, show "examples" < "$schema" ↔ False by decide]
  · rw [if_neg hi, if_neg (mt h.1 hi)]; rfl

end Verif
