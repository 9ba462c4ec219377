import Verif.Lemmas.TidyDerive
import Verif.Props.AcceptsRoot
import Verif.Props.TransformedDefs

/-!
# C45 for the settings with transforms

The root schemas of the `draft07`, `draft2019_09` and `openapi3` settings are transformed. What the transforms keep is
C58; here it is shown that the schemas of derived types satisfy the hypotheses of C58.
-/

namespace Verif
open Spec

section
variable {τ : Type} {env : Env} {Γ : τ → TypeDef τ} {decl : τ → Decl τ} {I : TypeInfo τ} {w : Nat}

theorem tidy_rootObject {m : List (String × Json)} (h : Tidy (.obj m)) (t : τ) (ms : Option String) :
    Tidy (.obj (rootObject Γ t ms m)) := by
  have h1 : ∀ {m : List (String × Json)} {k : String} (v : Json), Tidy (.obj m) → k ∈ notes →
      Tidy (.obj (Obj.insert m k v)) := fun v h hk => tidy_insert h (te_note hk v)
    (h.values.insert v ((by decide : ∀ k ∈ notes, k ∉ ["const", "enum", "type"]) _ hk))
  have h2 : ∀ m1, Tidy (.obj m1) →
      Tidy (.obj (match ms with | some ms => Obj.insert m1 "$schema" (.str ms) | none => m1)) := by
    intro m1 hm1
    cases ms with
    | none => exact hm1
    | some ms => exact h1 _ hm1 (by decide)
  unfold rootObject
  cases Obj.get m "title" with
  | some v => exact h2 m h
  | none => exact h2 _ (h1 _ h (by decide))

theorem Tidy.get_stray {m : List (String × Json)} (h : Tidy (.obj m)) {k : String} (hk : k ∈ strayKeys) :
    Obj.get m k = none := by
  cases hg : Obj.get m k with
  | none => rfl
  | some v => exact absurd hk (h.entries _ (Obj.get_mem hg)).1.stray

/-- The definitions are put into a document that has none. -/
theorem addDefinitions_tidy {path k : String} (hk : k = "$defs" ∨ k = "definitions") (hpath : PathDenotes path [k])
    {m defs : List (String × Json)} (hm : Tidy (.obj m)) (hs : Obj.Sorted defs) (hne : defs ≠ []) :
    addDefinitions path.toList m defs = Obj.insert m k (.obj defs) := by
  rw [addDefinitions_eq hpath (by simp) (by rcases hk with rfl | rfl <;> simp) hne]
  unfold objAtMut
  rw [hm.get_stray (by rcases hk with rfl | rfl <;> decide)]
  simp only [objAtMut, Option.map_some, Option.getD_some]
  congr 2
  refine Obj.ext_sorted (Obj.sorted_extend Obj.sorted_nil _) hs fun q => ?_
  rw [Obj.get_extend_nodup _ (Obj.sorted_nodup hs)]
  cases Obj.get defs q <;> rfl

theorem tame_document {k : String} (hk : k = "$defs" ∨ k = "definitions") {m defs : List (String × Json)}
    (hm : Tidy (.obj m)) (hd : ∀ e ∈ defs, Tidy e.2) : Everywhere visited (OnObj Tame) (.obj (Obj.insert m k (.obj defs))) := by
  have h0 := everywhere_iff.1 hm.everywhere
  refine everywhere_iff.2 ⟨onObj_obj.2 ((onObj_obj.1 h0.1).congr fun q hq => Obj.get_insert_ne _ _ ?_), fun x hx => ?_⟩
  · rintro rfl
    rcases hk with rfl | rfl <;> exact absurd hq (by decide)
  · simp only [subs, List.mem_flatMap] at hx
    obtain ⟨e, he, hx⟩ := hx
    rcases Obj.mem_insert he with rfl | he
    · have hslot : subSlot k = .map := by rcases hk with rfl | rfl <;> rfl
      simp only [hslot, slotSubs, List.mem_filter, List.mem_map] at hx
      obtain ⟨⟨e, he, rfl⟩, -⟩ := hx
      exact (hd e he).everywhere
    · refine h0.2 x ?_
      simp only [subs, List.mem_flatMap]
      exact ⟨e, he, hx⟩

/-- A list of transforms that keeps what tame schemas accept: the root schema accepts what the schema of the root type
does, if references are followed. -/
theorem pipeline_document_of {D : Dialect} (hM : Modern draft2020 env) (hΓ : ∀ t, NoRoot (Γ t).body) {n : Nat} {t : τ}
    {st : Settings} {r : Json} {g' : Gen τ} (h : rootSchemaFor Γ (run Γ n) t (Gen.new st) = some (r, g'))
    (htidy : ∀ k t' s,
      Produced ⟨Γ, st, g'.names, g'.defs, some ((Γ t).schemaId, st.contract)⟩ k t' s → Tidy s)
    {k : String} (hk : k = "$defs" ∨ k = "definitions") (hpath : PathDenotes st.definitionsPath [k])
    (hacts : ∀ T ∈ st.transforms, ActsAt T k) (hpres : ∀ T ∈ st.transforms, Preserves T)
    (hkeep : ∀ s, IsSchema s → Everywhere visited (OnObj Tame) s →
      den D env (applyTransforms st.transforms s) = den draft2020 env s)
    (hplain : ∀ name d, Obj.get g'.defs name = some d → PlainName name) (hR : Resolves D env r) :
    let W : World τ := ⟨Γ, st, g'.names, g'.defs, some ((Γ t).schemaId, st.contract)⟩
    ∃ body, Finished W n t body ∧
      (∀ name d, Obj.get g'.defs name = some d → env.ref (rawRef st.definitionsPath.toList name) = den draft2020 env d) ∧
      (Sch body → Follows draft2020 env W t body ∧ ∀ i, Valid D env r i ↔ Valid draft2020 env body i) := by
  have hsorted := (rootSchemaFor_kept (run_keeps Γ n) h).sorted Obj.sorted_nil
  obtain ⟨body, m, hm, hr, hbody, hdefs, hnames⟩ := root_world hΓ h
  have hk2 : '%' ∉ renderPointer [k] := by rcases hk with rfl | rfl <;> decide
  have hslot : subSlot k = .map := by rcases hk with rfl | rfl <;> rfl
  have hd : ∀ name d, Obj.get g'.defs name = some d → Tidy d := by
    intro name d hd
    obtain ⟨t', h1, -⟩ := hdefs name d hd
    exact htidy _ _ _ h1
  have hm' : Tidy (.obj m) := by
    obtain ⟨m', e, hs⟩ := (htidy _ _ _ hbody).ensureObject
    rw [hm] at e
    cases e; exact hs
  have hroot := tidy_rootObject (Γ := Γ) hm' t st.metaSchema
  have hdoc : Everywhere visited (OnObj Tame)
      (.obj (addDefinitions st.definitionsPath.toList (rootObject Γ t st.metaSchema m) g'.defs)) := by
    by_cases hne : g'.defs = []
    · rw [hne, C05_empty]; exact hroot.everywhere
    · rw [addDefinitions_tidy hk hpath hroot hsorted hne]
      exact tame_document hk hroot fun e he => hd e.1 e.2 (Obj.get_of_mem_sorted hsorted he)
  have hat : ∀ name d, Obj.get g'.defs name = some d → At r ([k] ++ [name]) (applyTransforms st.transforms d) := by
    intro name d hname
    have hne : g'.defs ≠ [] := by rintro e; rw [e] at hname; cases hname
    have hd' := hd name d hname
    rw [hr, addDefinitions_tidy hk hpath hroot hsorted hne]
    obtain ⟨m', ds', e1, e2, e3⟩ := applyTransforms_map hacts hpres hslot
      (Obj.get_insert_self (rootObject Γ t st.metaSchema m) k (.obj g'.defs))
    rw [e1]
    exact .member e2 (.member (e3 name d hname hd'.isSchema) (.here _))
  have href : ∀ name d, Obj.get g'.defs name = some d →
      env.ref (refFor st.definitionsPath.toList name) = den draft2020 env d := fun name d hname => by
    rw [← hkeep d (hd name d hname).isSchema (hd name d hname).everywhere]
    exact hR _ _ (refersTo_definition hpath hk2 (fun c hc => (hplain name d hname c hc).1) (hat name d hname))
  have hraw : ∀ name d, Obj.get g'.defs name = some d →
      env.ref (rawRef st.definitionsPath.toList name) = den draft2020 env d := fun name d hname => by
    rw [← hkeep d (hd name d hname).isSchema (hd name d hname).everywhere]
    exact hR _ _ (refersTo_raw hpath hk2 (hplain name d hname) (hat name d hname))
  have hall := hkeep _ (.obj _) hdoc
  have hself : env.ref "#" = den D env r := hR _ _ ⟨[], [], .here _, rfl, rfl⟩
  rw [hr] at hself ⊢
  rw [hall] at hself
  refine ⟨body, ⟨hbody, hdefs, hnames⟩, hraw, fun hsch => ?_⟩
  obtain ⟨h1, h2⟩ := root_body hM hm (fun _ ho _ => addDefinitions_annotation hM.refs hk hpath ho) hsch href hself
  refine ⟨h1, fun i => ?_⟩
  rw [← h2]
  unfold Valid
  rw [hall]

/-- The same for the `openapi3` settings, if there are no definitions. -/
theorem openapi_document_of (hM : Modern draft2020 env) (hΓ : ∀ t, NoRoot (Γ t).body) {n : Nat} {t : τ} {st : Settings}
    {r : Json} {g' : Gen τ} (h : rootSchemaFor Γ (run Γ n) t (Gen.new st) = some (r, g'))
    (hts : st.transforms = openapi3Transforms)
    (htidy : ∀ k t' s, Produced ⟨Γ, st, g'.names, g'.defs,
      some ((Γ t).schemaId, st.contract)⟩ k t' s → Tidy s) (hnone : g'.defs = []) (hR : Resolves openapi30 env r) :
    let W : World τ := ⟨Γ, st, g'.names, g'.defs, some ((Γ t).schemaId, st.contract)⟩
    ∃ body, Finished W n t body ∧
      (Sch body → Follows draft2020 env W t body ∧ ∀ i, Valid openapi30 env r i ↔ Valid draft2020 env body i) := by
  obtain ⟨body, m, hm, hr, hbody, hdefs, hnames⟩ := root_world hΓ h
  have hm' : Tidy (.obj m) := by
    obtain ⟨m', e, hs⟩ := (htidy _ _ _ hbody).ensureObject
    rw [hm] at e
    cases e; exact hs
  have hroot := tidy_rootObject (Γ := Γ) hm' t st.metaSchema
  have hall := C58_openapi3_partial env (.obj _) hroot.everywhere
  have hself : env.ref "#" = den openapi30 env r := hR _ _ ⟨[], [], .here _, rfl, rfl⟩
  have hno : ∀ name d, Obj.get g'.defs name ≠ some d := by intro name d hd; rw [hnone] at hd; cases hd
  have hr' := hr
  rw [hnone, C05_empty, hts] at hr'
  rw [hr'] at hself ⊢
  have hself := hself.trans hall
  refine ⟨body, ⟨hbody, hdefs, hnames⟩, fun hsch => ?_⟩
  obtain ⟨h1, h2⟩ := root_body (D := draft2020) (Γ := Γ) (t := t) (st := st)
    (names := g'.names) (defs := g'.defs) hM hm (fun o _ i => by rw [hnone, C05_empty]) hsch
    (fun name d hd => absurd hd (hno name d)) (by rw [hnone, C05_empty]; exact hself)
  refine ⟨h1, fun i => ?_⟩
  rw [← h2, hnone, C05_empty]
  unfold Valid
  exact Eq.congr (congrArg R.ok (congrFun hall i)) rfl

theorem pipeline_document {D : Dialect} (hM : Modern draft2020 env) (hG : Declared Γ decl I) {n : Nat} {t : τ}
    {st : Settings} {r : Json} {g' : Gen τ} (h : rootSchemaFor Γ (run Γ n) t (Gen.new st) = some (r, g'))
    (htidy : ∀ k t' s,
      Produced ⟨Γ, st, g'.names, g'.defs, some ((Γ t).schemaId, st.contract)⟩ k t' s → Tidy s)
    {k : String} (hk : k = "$defs" ∨ k = "definitions") (hpath : PathDenotes st.definitionsPath [k])
    (hacts : ∀ T ∈ st.transforms, ActsAt T k) (hpres : ∀ T ∈ st.transforms, Preserves T)
    (hkeep : ∀ s, IsSchema s → Everywhere visited (OnObj Tame) s →
      den D env (applyTransforms st.transforms s) = den draft2020 env s)
    (hplain : ∀ name d, Obj.get g'.defs name = some d → PlainName name) (hR : Resolves D env r) :
    let W : World τ := ⟨Γ, st, g'.names, g'.defs, some ((Γ t).schemaId, st.contract)⟩
    ∃ body, Finished W n t body ∧
      (∀ name d, Obj.get g'.defs name = some d → env.ref (rawRef st.definitionsPath.toList name) = den draft2020 env d) ∧
      (Sch body → Follows draft2020 env W t body ∧ ∀ i, Valid D env r i ↔ Valid draft2020 env body i) :=
  pipeline_document_of hM (fun t => by rw [hG.body]; exact noRoot_bodyOf _) h htidy hk hpath hacts hpres hkeep hplain hR

theorem openapi_document (hM : Modern draft2020 env) (hG : Declared Γ decl I) {n : Nat} {t : τ} {st : Settings} {r : Json}
    {g' : Gen τ} (h : rootSchemaFor Γ (run Γ n) t (Gen.new st) = some (r, g'))
    (hts : st.transforms = openapi3Transforms)
    (htidy : ∀ k t' s, Produced ⟨Γ, st, g'.names, g'.defs,
      some ((Γ t).schemaId, st.contract)⟩ k t' s → Tidy s) (hnone : g'.defs = []) (hR : Resolves openapi30 env r) :
    let W : World τ := ⟨Γ, st, g'.names, g'.defs, some ((Γ t).schemaId, st.contract)⟩
    ∃ body, Finished W n t body ∧
      (Sch body → Follows draft2020 env W t body ∧ ∀ i, Valid openapi30 env r i ↔ Valid draft2020 env body i) :=
  openapi_document_of hM (fun t => by rw [hG.body]; exact noRoot_bodyOf _) h hts htidy hnone hR

/-- A list of transforms that keeps what tame schemas accept keeps that root schemas accept what serde writes. -/
theorem pipeline_accepts {D : Dialect} (hM : Modern draft2020 env) (hG : Declared Γ decl I)
    (hok : ∀ t, WideDecl decl I (decl t)) (hq : ∀ t, QuietDecl (decl t)) {n : Nat} {t : τ} {st : Settings} {r : Json}
    {g' : Gen τ} (h : rootSchemaFor Γ (run Γ n) t (Gen.new st) = some (r, g')) (hser : st.contract = .serialize)
    {k : String} (hk : k = "$defs" ∨ k = "definitions") (hpath : PathDenotes st.definitionsPath [k])
    (hacts : ∀ T ∈ st.transforms, ActsAt T k) (hpres : ∀ T ∈ st.transforms, Preserves T)
    (hkeep : ∀ s, IsSchema s → Everywhere visited (OnObj Tame) s →
      den D env (applyTransforms st.transforms s) = den draft2020 env s)
    (hplain : ∀ name d, Obj.get g'.defs name = some d → PlainName name) (hR : Resolves D env r) {j : Json}
    (hj : SerializedIf w (FieldObeys env) I.base decl t j) : Valid D env r j := by
  obtain ⟨body, hW, hraw, hroot⟩ := pipeline_document hM hG h (fun _ _ _ hp => produced_tidy hG hok hq hser hp) hk hpath
    hacts hpres hkeep hplain hR
  obtain ⟨h1, h2⟩ := hroot (produced_nullable hM hG hok hser hraw hW.body).sch
  rw [h2]
  exact world_accepts hM hG hok hser hraw h1 hW hj

/-- C45 for the `draft07` settings. -/
theorem C45_draft07_partial (hM : Modern draft2020 env) (hG : Declared Γ decl I) (hok : ∀ t, WideDecl decl I (decl t))
    (hq : ∀ t, QuietDecl (decl t)) {n : Nat} {t : τ} {r : Json} {g' : Gen τ}
    (h : rootSchemaFor Γ (run Γ n) t (Gen.new { Settings.draft07 with contract := .serialize }) = some (r, g'))
    (hplain : ∀ name d, Obj.get g'.defs name = some d → PlainName name) (hR : Resolves draft07 env r)
    {j : Json} (hj : SerializedIf w (FieldObeys env) I.base decl t j) : Valid draft07 env r j :=
  pipeline_accepts hM hG hok hq h rfl (.inr rfl) (by unfold PathDenotes; decide) draft07_actsAt draft07_preserves
    (fun _ hs ht => C58_draft07_partial env hs (Everywhere.imp ht fun _ hx m hm => (hx m hm).tuples)
      (Everywhere.imp ht fun _ hx m hm => (hx m hm).refs)) hplain hR hj

/-- C45 for the `draft2019_09` settings. -/
theorem C45_draft2019_partial (hM : Modern draft2020 env) (hG : Declared Γ decl I) (hok : ∀ t, WideDecl decl I (decl t))
    (hq : ∀ t, QuietDecl (decl t)) {n : Nat} {t : τ} {r : Json} {g' : Gen τ}
    (h : rootSchemaFor Γ (run Γ n) t (Gen.new { Settings.draft2019 with contract := .serialize }) = some (r, g'))
    (hplain : ∀ name d, Obj.get g'.defs name = some d → PlainName name) (hR : Resolves draft2019 env r)
    {j : Json} (hj : SerializedIf w (FieldObeys env) I.base decl t j) : Valid draft2019 env r j :=
  pipeline_accepts hM hG hok hq h rfl (.inl rfl) (by unfold PathDenotes; decide) draft2019_actsAt draft2019_preserves
    (fun _ hs ht => C58_draft2019_partial env hs (Everywhere.imp ht fun _ hx m hm => (hx m hm).tuples)) hplain hR hj

/-- The same for the transforms of the `openapi3` settings, if there are no definitions. -/
theorem openapi_accepts (hM : Modern draft2020 env) (hG : Declared Γ decl I) (hok : ∀ t, WideDecl decl I (decl t))
    (hq : ∀ t, QuietDecl (decl t)) {n : Nat} {t : τ} {st : Settings} {r : Json} {g' : Gen τ}
    (h : rootSchemaFor Γ (run Γ n) t (Gen.new st) = some (r, g')) (hts : st.transforms = openapi3Transforms)
    (hser : st.contract = .serialize) (hnone : g'.defs = []) (hR : Resolves openapi30 env r) {j : Json}
    (hj : SerializedIf w (FieldObeys env) I.base decl t j) : Valid openapi30 env r j := by
  obtain ⟨body, hW, hroot⟩ := openapi_document hM hG h hts (fun _ _ _ hp => produced_tidy hG hok hq hser hp) hnone hR
  have hno : ∀ name d, Obj.get g'.defs name ≠ some d := by intro name d hd; rw [hnone] at hd; cases hd
  obtain ⟨h1, h2⟩ := hroot (produced_nullable hM hG hok hser (fun n d hd => absurd hd (hno n d)) hW.body).sch
  rw [h2]
  exact world_accepts hM hG hok hser (fun n d hd => absurd hd (hno n d)) h1 hW hj

/-- C45 for the `openapi3` settings, for types whose schemas need no definitions: the definitions of this list are not
transformed, see `C45_openapi3_false`. -/
theorem C45_openapi3_partial (hM : Modern draft2020 env) (hG : Declared Γ decl I) (hok : ∀ t, WideDecl decl I (decl t))
    (hq : ∀ t, QuietDecl (decl t)) {n : Nat} {t : τ} {r : Json} {g' : Gen τ}
    (h : rootSchemaFor Γ (run Γ n) t (Gen.new { Settings.openapi3 with contract := .serialize }) = some (r, g'))
    (hnone : g'.defs = []) (hR : Resolves openapi30 env r) {j : Json} (hj : SerializedIf w (FieldObeys env) I.base decl t j) :
    Valid openapi30 env r j :=
  openapi_accepts hM hG hok hq h rfl rfl hnone hR hj

/-! ### Examples -/

end

/-- The result of a run, without the state. -/
theorem generated {τ : Type} {o : Option (Json × Gen τ)} {s : Json} {defs : List (String × Json)}
    (h : o.map (fun x => (x.1, x.2.defs)) = some (s, defs)) : ∃ g', o = some (s, g') ∧ g'.defs = defs := by
  obtain ⟨⟨s', g'⟩, rfl, e⟩ := Option.map_eq_some_iff.1 h
  cases e
  exact ⟨g', rfl, rfl⟩

namespace NodeTy

theorem quiet (t : NodeTy) : QuietDecl (decl t) := by
  have h0 : Quiet {} := fun e he => by cases he
  intro a ha
  cases t with
  | node =>
    have ha : a ∈ [{}, {}, {}] := ha
    simp only [List.mem_cons, List.not_mem_nil, or_false, or_self] at ha
    exact ha ▸ h0
  | _ => cases ha

/-- The schema for settings with another meta-schema, and another way to write null. -/
def schemaFor (ms : String) (nil : Json) : Json :=
  .obj [("$schema", .str ms),
    ("properties", .obj [
      ("next", .obj [("anyOf", .arr [.obj [("$ref", .str "#")], nil])]),
      ("value", .obj [("format", .str "uint32"), ("minimum", .num (.int 0)), ("type", .str "integer")])]),
    ("required", .arr [.str "value", .str "next"]), ("title", .str "Node"), ("type", .str "object")]

theorem generates07 : ∃ g', rootSchemaFor types (run types 10) node (Gen.new { Settings.draft07 with contract := .serialize }) =
    some (schemaFor metaDraft07 nullSchema, g') ∧ g'.defs = [] := generated (by decide +kernel)

theorem generates2019 : ∃ g', rootSchemaFor types (run types 10) node (Gen.new { Settings.draft2019 with contract := .serialize }) =
    some (schemaFor meta2019 nullSchema, g') ∧ g'.defs = [] := generated (by decide +kernel)

/-- The schema for null in OpenAPI 3.0. -/
def null30 : Json := .obj [("enum", .arr [.null]), ("nullable", .bool true)]

theorem generates30 : ∃ g', rootSchemaFor types (run types 10) node (Gen.new { Settings.openapi3 with contract := .serialize }) =
    some (schemaFor Settings.metaOpenapi3 null30, g') ∧ g'.defs = [] := generated (by decide +kernel)

example : ∃ env, Modern draft2020 env ∧ Resolves draft07 env (schemaFor metaDraft07 nullSchema) ∧
    Valid draft07 env (schemaFor metaDraft07 nullSchema) document := by
  obtain ⟨f, hf⟩ := resolves_self (D := draft07) (env := digitEnv) (doc := schemaFor metaDraft07 nullSchema) (by decide)
  obtain ⟨g', h, hd⟩ := generates07
  exact ⟨_, modern_digitEnv f, hf, C45_draft07_partial (modern_digitEnv f) declared (fun t => .inl (ok t)) quiet h
    (fun _ _ h => by rw [hd] at h; cases h) hf (serialized_obeys unvalidated written)⟩

example : ∃ env, Modern draft2020 env ∧ Resolves draft2019 env (schemaFor meta2019 nullSchema) ∧
    Valid draft2019 env (schemaFor meta2019 nullSchema) document := by
  obtain ⟨f, hf⟩ := resolves_self (D := draft2019) (env := digitEnv) (doc := schemaFor meta2019 nullSchema) (by decide)
  obtain ⟨g', h, hd⟩ := generates2019
  exact ⟨_, modern_digitEnv f, hf, C45_draft2019_partial (modern_digitEnv f) declared (fun t => .inl (ok t)) quiet h
    (fun _ _ h => by rw [hd] at h; cases h) hf (serialized_obeys unvalidated written)⟩

example : ∃ env, Modern draft2020 env ∧ Resolves openapi30 env (schemaFor Settings.metaOpenapi3 null30) ∧
    Valid openapi30 env (schemaFor Settings.metaOpenapi3 null30) document := by
  obtain ⟨f, hf⟩ := resolves_self (D := openapi30) (env := digitEnv) (doc := schemaFor Settings.metaOpenapi3 null30) (by decide)
  obtain ⟨g', h, hd⟩ := generates30
  exact ⟨_, modern_digitEnv f, hf, C45_openapi3_partial (modern_digitEnv f) declared (fun t => .inl (ok t)) quiet h hd hf (serialized_obeys unvalidated written)⟩

end NodeTy

/-! ### The definitions of the `openapi3` settings -/

namespace Ex

/-- `struct Root { e: E }`, `#[serde(tag = "t")] enum E { A(X), B(X) }`, `struct X(Y)` and `struct Y {}`. -/
def wrapped : List (Container Nat) :=
  [{ data := .struct (.struct [{ name := ⟨"e", "e"⟩, ty := 3 }]) },
   { data := .enum (.internal "t") [{ name := ⟨"A", "A"⟩, fields := .newtype { name := ⟨"0", "0"⟩, ty := 4 } },
      { name := ⟨"B", "B"⟩, fields := .newtype { name := ⟨"0", "0"⟩, ty := 4 } }] },
   { data := .struct (.newtype { name := ⟨"0", "0"⟩, ty := 5 }) }, { data := .struct (.struct []) }]

/-- The types, not inlined. -/
def wrappedTypes (t : Nat) : TypeDef Nat :=
  ⟨Nat.repr t, (["Root", "E", "X", "Y"][t - 2]?).getD "T", t < 2, bodyOf info (decl wrapped t)⟩

theorem declared_wrapped : Declared wrappedTypes (decl wrapped) info where
  body _ := rfl
  ids t t' h := by
    have h : Nat.repr t = Nat.repr t' := h
    rw [repr_inj h]
  unit := rfl
  unitInline := rfl
  option _ h := by cases h
  base _ _ := rfl

/-- The schema of a variant. -/
def wrappedVariant (ref name : String) : Json :=
  .obj [("$ref", .str ref), ("properties", .obj [("t", .obj [("const", .str name), ("type", .str "string")])]),
    ("required", .arr [.str "t"]), ("type", .str "object")]

/-- The schema of `E`. -/
def wrappedE (path : String) : Json :=
  .obj [("oneOf", .arr [wrappedVariant (path ++ "/Y") "A", wrappedVariant (path ++ "/Y") "B"])]

/-- The definitions. -/
def wrappedDefs (path : String) : List (String × Json) := [("E", wrappedE path), ("Y", .obj [("type", .str "object")])]

/-- The document that serde writes for `Root { e: E::A(X(Y {})) }`. -/
def wrappedDoc : Json := .obj [("e", .obj [("t", .str "A")])]

theorem wrapped_written : Serialized 64 id (decl wrapped) 2 wrappedDoc := by
  have hY : SerializedAt 64 anyValue id (decl wrapped) 1 5 (.obj []) := ⟨.obj _ .nil (by simp), [], .nil, [], rfl, .refl _⟩
  have hX : SerializedAt 64 anyValue id (decl wrapped) 2 4 (.obj []) := ⟨.obj _ .nil (by simp), hY, trivial⟩
  have hE : SerializedAt 64 anyValue id (decl wrapped) 3 3 (.obj [("t", .str "A")]) :=
    ⟨.obj _ (by unfold Obj.Sorted; decide) (by simp; exact .str _), _, List.mem_cons_self .., rfl, [], .obj _ hX, _, rfl,
      .refl _⟩
  exact ⟨4, .obj _ (by unfold Obj.Sorted; decide) (by simp; exact hE.1), [("e", _)], .member _ rfl rfl hE trivial .nil, _, rfl,
    .refl _⟩

/-- The root schema for the `openapi3` settings. -/
def wrapped30 : Json :=
  .obj [("$schema", .str Settings.metaOpenapi3),
    ("components", .obj [("schemas", .obj (wrappedDefs "#/components/schemas"))]),
    ("properties", .obj [("e", .obj [("$ref", .str "#/components/schemas/E")])]), ("required", .arr [.str "e"]),
    ("title", .str "Root"), ("type", .str "object")]

/-- The root schema for the `draft2020_12` settings. -/
def wrapped2020 : Json :=
  .obj [("$defs", .obj (wrappedDefs "#/$defs")), ("$schema", .str meta2020),
    ("properties", .obj [("e", .obj [("$ref", .str "#/$defs/E")])]), ("required", .arr [.str "e"]),
    ("title", .str "Root"), ("type", .str "object")]

theorem wrapped_generates30 : ∃ g', rootSchemaFor wrappedTypes (run wrappedTypes 10) 2
    (Gen.new { Settings.openapi3 with contract := .serialize }) = some (wrapped30, g') ∧
      g'.defs = wrappedDefs "#/components/schemas" := generated (by decide +kernel)

theorem wrapped_generates2020 : ∃ g', rootSchemaFor wrappedTypes (run wrappedTypes 10) 2
    (Gen.new { Settings.draft2020 with contract := .serialize }) = some (wrapped2020, g') ∧
      g'.defs = wrappedDefs "#/$defs" := generated (by decide +kernel)

theorem wrapped_ref30 {name : String} {d : Json} (hn : ∀ c ∈ name.toList, 0x10 ≤ c.toNat)
    (h : Obj.get (wrappedDefs "#/components/schemas") name = some d) :
    RefersTo wrapped30 (refFor "/components/schemas".toList name) d :=
  refersTo_definition (segs := ["components", "schemas"]) (by unfold PathDenotes; decide) (by decide) hn
    (.member rfl (.member rfl (.member h (.here _))))

theorem wrapped_ref2020 {name : String} {d : Json} (hn : ∀ c ∈ name.toList, 0x10 ≤ c.toNat)
    (h : Obj.get (wrappedDefs "#/$defs") name = some d) : RefersTo wrapped2020 (refFor "/$defs".toList name) d :=
  refersTo_definition (segs := ["$defs"]) (by unfold PathDenotes; decide) (by decide) hn (.member rfl (.member h (.here _)))

/-- The environment can follow the references of the document. -/
theorem wrapped_resolves (D : Dialect) {doc : Json} {path : String}
    (hY : RefersTo doc (path ++ "/Y") (.obj [("type", .str "object")]))
    (hE : RefersTo doc (path ++ "/E") (wrappedE path))
    (hall : ∀ v ∈ valuesIn doc, ∀ r ∈ refsHere v, (r = path ++ "/Y" ∧ v ≠ .obj [("type", .str "object")]) ∨
      (r = path ++ "/E" ∧ v = .obj [("$ref", .str (path ++ "/E"))])) :
    ∃ f, Resolves D (digitEnv.withRef f) doc := by
  refine resolves_exists' (fun v => if v = .obj [("type", .str "object")] then 0 else
    if v = .obj [("$ref", .str (path ++ "/E"))] then 2 else 1) 3 (fun v => by split <;> [omega; (split <;> omega)])
    fun v hv r hr v' hv' => ?_
  rcases hall v hv r hr with ⟨rfl, hne⟩ | ⟨rfl, rfl⟩
  · rw [refersTo_unique hv' hY, if_pos rfl, if_neg hne]
    split <;> omega
  · rw [refersTo_unique hv' hE]
    simp [wrappedE]

end Ex

/-- C45 fails for the definitions of the `openapi3` settings: `Root { e: E::A(X(Y {})) }` is written as a document that
the root schema of the `draft2020_12` settings accepts, and that of the `openapi3` settings rejects. The definition of `E`
is not transformed, so the keywords beside `$ref`, which OpenAPI 3.0 ignores, do not tell the variants apart. -/
theorem C45_openapi3_false :
    (∃ g', rootSchemaFor Ex.wrappedTypes (run Ex.wrappedTypes 10) 2
      (Gen.new { Settings.draft2020 with contract := .serialize }) = some (Ex.wrapped2020, g')) ∧
    (∃ g', rootSchemaFor Ex.wrappedTypes (run Ex.wrappedTypes 10) 2
      (Gen.new { Settings.openapi3 with contract := .serialize }) = some (Ex.wrapped30, g')) ∧
    Serialized 64 id (Ex.decl Ex.wrapped) 2 Ex.wrappedDoc ∧
    (∃ f, Resolves draft2020 (digitEnv.withRef f) Ex.wrapped2020) ∧
    (∃ f, Resolves openapi30 (digitEnv.withRef f) Ex.wrapped30) ∧
    (∀ f, Resolves draft2020 (digitEnv.withRef f) Ex.wrapped2020 →
      Valid draft2020 (digitEnv.withRef f) Ex.wrapped2020 Ex.wrappedDoc) ∧
    (∀ f, Resolves openapi30 (digitEnv.withRef f) Ex.wrapped30 →
      ¬ Valid openapi30 (digitEnv.withRef f) Ex.wrapped30 Ex.wrappedDoc) := by
  have y30 := Ex.wrapped_ref30 (name := "Y") (by decide) rfl
  have e30 := Ex.wrapped_ref30 (name := "E") (by decide) rfl
  have y2020 := Ex.wrapped_ref2020 (name := "Y") (by decide) rfl
  have e2020 := Ex.wrapped_ref2020 (name := "E") (by decide) rfl
  refine ⟨Ex.wrapped_generates2020.imp fun _ h => h.1, Ex.wrapped_generates30.imp fun _ h => h.1, Ex.wrapped_written,
    Ex.wrapped_resolves _ (path := "#/$defs") y2020 e2020 (by decide +kernel),
    Ex.wrapped_resolves _ (path := "#/components/schemas") y30 e30 (by decide +kernel), fun f hf => ?_, fun f hf hv => ?_⟩
  · have hY : f "#/$defs/Y" (.obj [("t", .str "A")]) = _ := congrFun (hf _ _ y2020) _
    have hE : f "#/$defs/E" (.obj [("t", .str "A")]) = _ := congrFun (hf _ _ e2020) _
    have hY' : (f "#/$defs/Y" (.obj [("t", .str "A")])).ok = true := by rw [hY]; rfl
    have hE' : (f "#/$defs/E" (.obj [("t", .str "A")])).ok = true := by
      rw [hE]
      show (den draft2020 (digitEnv.withRef fun _ _ => f "#/$defs/Y" (.obj [("t", .str "A")])) (Ex.wrappedE "#/$defs")
        (.obj [("t", .str "A")])).ok = true
      revert hY'
      generalize f "#/$defs/Y" (.obj [("t", .str "A")]) = r
      rcases r with ⟨ok, ev⟩
      rintro (rfl : ok = true)
      rfl
    have hP : Valid draft2020 (digitEnv.withRef f) (.obj [("$ref", .str "#/$defs/E")]) (.obj [("t", .str "A")]) := by
      rw [valid_entries (.inl rfl) (by decide)]
      simp only [List.mem_cons, List.not_mem_nil, or_false, forall_eq]
      exact hE'
    unfold Ex.wrapped2020
    rw [valid_entries (.inl rfl) (by decide)]
    simp only [List.mem_cons, List.not_mem_nil, or_false, forall_eq_or_imp, forall_eq]
    refine ⟨entryOk_annotation (by decide) _, entryOk_annotation (by decide) _, fun e he s hs => ?_,
      (entryOk_simple (by decide) _).2 rfl, entryOk_annotation (by decide) _, .inl rfl⟩
    cases List.mem_singleton.1 he
    cases hs
    exact hP
  · have hY : f "#/components/schemas/Y" (.obj [("t", .str "A")]) = _ := congrFun (hf _ _ y30) _
    have hE : f "#/components/schemas/E" (.obj [("t", .str "A")]) = _ := congrFun (hf _ _ e30) _
    have hY' : (f "#/components/schemas/Y" (.obj [("t", .str "A")])).ok = true := by rw [hY]; rfl
    have hE' : (f "#/components/schemas/E" (.obj [("t", .str "A")])).ok = false := by
      rw [hE]
      show (den openapi30 (digitEnv.withRef fun _ _ => f "#/components/schemas/Y" (.obj [("t", .str "A")]))
        (Ex.wrappedE "#/components/schemas") (.obj [("t", .str "A")])).ok = false
      revert hY'
      generalize f "#/components/schemas/Y" (.obj [("t", .str "A")]) = r
      rcases r with ⟨ok, ev⟩
      rintro (rfl : ok = true)
      rfl
    have hv : Valid openapi30 (digitEnv.withRef f) (.obj [("$ref", .str "#/components/schemas/E")])
        (.obj [("t", .str "A")]) := by
      unfold Ex.wrapped30 at hv
      have h := (valid_entries (.inr rfl) (by decide)).1 hv
        ("properties", .obj [("e", .obj [("$ref", .str "#/components/schemas/E")])]) (by simp)
      exact (show ∀ e ∈ members Ex.wrappedDoc, ∀ s, Obj.get [("e", Json.obj [("$ref", .str "#/components/schemas/E")])] e.1 =
        some s → Valid openapi30 (digitEnv.withRef f) s e.2 from h) ("e", _) (List.mem_singleton.2 rfl) _ rfl
    have hv : (den openapi30 (digitEnv.withRef fun _ _ => f "#/components/schemas/E" (.obj [("t", .str "A")]))
      (.obj [("$ref", .str "#/components/schemas/E")]) (.obj [("t", .str "A")])).ok = true := hv
    revert hE' hv
    generalize f "#/components/schemas/E" (.obj [("t", .str "A")]) = r
    rcases r with ⟨ok, ev⟩
    rintro (rfl : ok = false) h
    exact absurd (show false = true from h) (by decide)

end Verif
