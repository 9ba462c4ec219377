import Verif.Props.ReadsRoot

/-!
# C64 and C65 for the settings with transforms

As for C45 (`Verif.Props.AcceptsPipelines`): the schemas made for reading are tidy, so the transforms of the `draft07`
and `draft2019_09` settings, and for documents without definitions those of `openapi3`, keep what they accept.
-/

namespace Verif
open Spec

section
variable {τ : Type} {env : Env} {Γ : τ → TypeDef τ} {decl : τ → Decl τ} {I : TypeInfo τ} {w : Nat} {q : Quirks τ}
  {A : Answers τ} {s : Json}

/-- The schema comes from a run of the body of `t` with tidy answers, that come from such runs themselves. -/
inductive TidyBody (decl : τ → Decl τ) (I : TypeInfo τ) : τ → Json → Prop where
  | intro {t s} (A : Answers τ) : Comes decl I A → (∀ t s, A.sub t s → Tidy s) →
      (∀ t s, A.direct t s → Tidy s) → (∀ t s, A.direct t s → TidyBody decl I t s) →
      Returns A (bodyOf I (decl t)) s → TidyBody decl I t s

theorem TidyBody.from {t : τ} (h : TidyBody decl I t s) : FromBody decl I t s := by
  obtain ⟨A, hA, -, -, -, h⟩ := h
  exact hA.from h

/-- The conditions on types, that may be flattened, and their annotations. -/
structure TidyStructs (decl : τ → Decl τ) : Prop where
  quiet : ∀ t c, decl t = .derived c → Quiet c.common
  fields : ∀ t c fs, decl t = .derived c → PlainInput c fs →
    (∀ f ∈ fs, f.skipDe = false → f.flatten = false → FieldOk f) ∧ (∀ f ∈ fs, Quiet f.common) ∧
    ∀ f ∈ c.common.mutators, Notes f

theorem inputParts_fieldOk {exact sw : Bool} {base : τ → τ} {fs : List (Field τ)} {nss : List (List String)}
    (h : InputParts exact sw decl base fs nss) :
    ∀ f ∈ fs, f.skipDe = false → f.flatten = false → FieldOk f := by
  induction h with
  | nil => exact fun f hf => by cases hf
  | skip h1 _ ih =>
    intro f hf h2 h3
    rcases List.mem_cons.1 hf with rfl | hf
    · rw [h1] at h2; cases h2
    · exact ih f hf h2 h3
  | own _ _ h1 _ ih =>
    intro f hf h2 h3
    rcases List.mem_cons.1 hf with rfl | hf
    · exact h1.1
    · exact ih f hf h2 h3
  | struct _ h1 _ _ _ _ _ _ ih =>
    intro f hf h2 h3
    rcases List.mem_cons.1 hf with rfl | hf
    · rw [h1] at h3; cases h3
    · exact ih f hf h2 h3
  | enum _ h1 _ _ _ _ _ ih =>
    intro f hf h2 h3
    rcases List.mem_cons.1 hf with rfl | hf
    · rw [h1] at h3; cases h3
    · exact ih f hf h2 h3

theorem tidyStructs {exact sw : Bool} {base : τ → τ} (hok : ∀ t, ReadOk exact sw decl base (decl t))
    (hq : ∀ t, QuietDecl (decl t)) : TidyStructs decl where
  quiet t c hd := by
    have h2 : QuietDecl (.derived c) := hd ▸ hq t
    exact h2 _ (List.mem_cons_self ..)
  fields t c fs hd hc := by
    have h1 : ReadContainerOk exact sw decl base c := by have := hok t; rwa [hd] at this
    have h2 : QuietDecl (.derived c) := hd ▸ hq t
    have h3 : StructInput exact sw decl base c.denyUnknownFields fs :=
      h1.struct hc.noWith hc.noTransparent hc.noFrom _ hc.data
    refine ⟨?_, fun f hf => h2 _ ?_, notes_common h1.common (h2 _ (List.mem_cons_self ..))⟩
    · rcases h3 with h3 | ⟨-, nss, h3, -⟩ | ⟨-, as, g, bs, rfl, hg, -, h3⟩
      · exact fun f hf h4 h5 => (h3.fields f hf h4 h5).1
      · exact inputParts_fieldOk h3
      · intro f hf h4 h5
        rcases List.mem_append.1 hf with hf | hf
        · exact (h3.fields f (List.mem_append_left _ hf) h4 h5).1
        rcases List.mem_cons.1 hf with rfl | hf
        · rw [hg.flat] at h5; cases h5
        · exact (h3.fields f (List.mem_append_right _ hf) h4 h5).1
    · simp only [declAttrs, hc.data]
      exact List.mem_append_right _ (List.mem_map_of_mem hf)

/-- The answers are tidy. -/
structure TidyAsked (decl : τ → Decl τ) (I : TypeInfo τ) (A : Answers τ) : Prop extends Comes decl I A where
  sub : ∀ t s, A.sub t s → Tidy s
  direct : ∀ t s, A.direct t s → Tidy s
  tidyRan : ∀ t s, A.direct t s → TidyBody decl I t s
  structs : TidyStructs decl

theorem tidyRead_field (hA : TidyAsked decl I A) {f : Field τ} (hf : FieldOk f) (hq : Quiet f.common)
    (h : Returns A (fieldProg I f false) s) : Tidy s := by
  unfold fieldProg at h
  rw [res_map] at h
  obtain ⟨s0, h0, rfl⟩ := h
  refine tidies_field hf hq ?_
  by_cases hr : f.required = true
  · simp only [hr, if_true] at h0
    obtain ⟨s1, h1, rfl⟩ := h0
    exact hA.direct _ _ h1
  · simp only [hr, if_false, Bool.false_eq_true] at h0
    obtain ⟨s1, h1, rfl⟩ := h0
    exact hA.sub _ _ h1

theorem neatRead_fields {fs : List (Field τ)} {ns ms : List String} (hn : InputNames decl I.base fs ns ms) :
    ∀ {A : Answers τ} {cd deny : Bool} {m0 p0 : List (String × Json)} {r0 : List String} {s : Json},
    TidyAsked decl I A → (∀ f ∈ fs, f.skipDe = false → f.flatten = false → FieldOk f) → (∀ f ∈ fs, Quiet f.common) →
    Neat m0 p0 r0 deny →
    Returns A (structFieldsProg I cd fs (.obj m0)) s → ∃ m p r, s = .obj m ∧ Neat m p r deny := by
  induction hn with
  | nil =>
    intro A cd deny m0 p0 r0 s _ _ _ h0 h
    cases h
    exact ⟨m0, p0, r0, rfl, h0⟩
  | @skip f fs ns ms hsk _ ih =>
    intro A cd deny m0 p0 r0 s hA hfs hqs h0 h
    exact ih hA (fun f hf => hfs f (List.mem_cons_of_mem _ hf)) (fun f hf => hqs f (List.mem_cons_of_mem _ hf)) h0
      (input_skip hA.de hsk h)
  | @own f fs ns ms hsk hfl _ ih =>
    intro A cd deny m0 p0 r0 s hA hfs hqs h0 h
    unfold structFieldsProg at h
    obtain ⟨s1, h1, h2⟩ := res_bind.1 h
    rw [returns_structField, if_pos (by rw [hA.de]; exact hsk)] at h1
    obtain ⟨s', h1, rfl⟩ := h1
    unfold FieldResult at h1
    unfold addField at h2
    rw [hfl] at h1 h2
    simp only [Bool.false_eq_true, if_false] at h1 h2
    obtain ⟨s2, h1, rfl⟩ := h1
    have ht := tidyRead_field hA (hfs f (List.mem_cons_self ..) hsk hfl) (hqs f (List.mem_cons_self ..)) h1
    obtain ⟨m1, e1, h3⟩ := h0.insertProperty (f.name.get A.settings.contract)
      (fieldOptional I cd f A.settings.contract) (tidy_insertDefault (f := f) cd ht)
    rw [e1] at h2
    exact ih hA (fun f hf => hfs f (List.mem_cons_of_mem _ hf)) (fun f hf => hqs f (List.mem_cons_of_mem _ hf)) h3 h2
  | @flat f fs ns ms c gs ns' ms' hsk hfl hd hc _ _ ihg ih =>
    intro A cd deny m0 p0 r0 s hA hfs hqs h0 h
    unfold structFieldsProg at h
    obtain ⟨s1, h1, h2⟩ := res_bind.1 h
    rw [returns_structField, if_pos (by rw [hA.de]; exact hsk)] at h1
    obtain ⟨s', h1, rfl⟩ := h1
    unfold addField at h2
    rw [hfl] at h2
    simp only [if_true] at h2
    obtain ⟨s2, hd2, rfl⟩ := returns_flattenField hfl h1
    obtain ⟨A', hc', hsub', hdir', hran', hb⟩ := hA.tidyRan _ _ hd2
    rw [hd] at hb
    obtain ⟨s3, hb3, rfl⟩ := input_container hc hc'.de hb
    obtain ⟨mi, ei, hi⟩ := neat_start c.denyUnknownFields
    unfold structProg at hb3
    rw [ei] at hb3
    obtain ⟨k1, k2, k3⟩ := hA.structs.fields _ _ _ hd hc
    obtain ⟨m3, p3, r3, rfl, hs3⟩ := ihg ⟨hc', hsub', hdir', hran', hA.structs⟩ k1 k2 hi hb3
    obtain ⟨m4, e4, hs4⟩ := hs3.annotate k3
    rw [e4] at h2
    obtain ⟨m5, e5, hs5⟩ := hs4.flattenInner (I.isOption f.ty && !f.required)
    rw [e5] at h2
    obtain ⟨m6, p6, e6, hs6⟩ := h0.flatten hs5
    rw [e6] at h2
    exact ih hA (fun f hf => hfs f (List.mem_cons_of_mem _ hf)) (fun f hf => hqs f (List.mem_cons_of_mem _ hf)) hs6 h2

theorem neatRead_type (hA : TidyAsked decl I A) {t : τ} {c : Container τ} {gs : List (Field τ)} {ns ms : List String}
    (hd : decl t = .derived c) (hc : PlainInput c gs) (hn : InputNames decl I.base gs ns ms) (h : A.direct t s) :
    ∃ m p r, s = .obj m ∧ Neat m p r c.denyUnknownFields := by
  obtain ⟨A', hc', hsub', hdir', hran', hb⟩ := hA.tidyRan _ _ h
  rw [hd] at hb
  obtain ⟨s3, hb3, rfl⟩ := input_container hc hc'.de hb
  obtain ⟨mi, ei, hi⟩ := neat_start c.denyUnknownFields
  unfold structProg at hb3
  rw [ei] at hb3
  obtain ⟨k1, k2, k3⟩ := hA.structs.fields _ _ _ hd hc
  obtain ⟨m3, p3, r3, rfl, hs3⟩ := neatRead_fields hn ⟨hc', hsub', hdir', hran', hA.structs⟩ k1 k2 hi hb3
  obtain ⟨m4, e4, hs4⟩ := hs3.annotate k3
  exact ⟨m4, p3, r3, e4, hs4⟩

/-- The schema of an enum, before annotations. -/
def ListedForm (m : List (String × Json)) : Prop :=
  Obj.get m "additionalProperties" = none ∧ Obj.get m "const" = none ∧
    (Obj.get m "enum" = none ∨ (Obj.get m "type" = some (.str "string") ∧ ∃ a, Obj.get m "enum" = some (.arr a)))

theorem listedForm_variants {unique : Bool} {first : Option (Prog τ)} {vs : List (Variant τ)} {f : Variant τ → Prog τ}
    (hr : ∀ v ∈ vs, v.refTy = none)
    (h : Returns A (variantSubschemas unique first (vs.map fun v => (v, f v))) s) : ∃ m, s = .obj m ∧ ListedForm m := by
  obtain ⟨l, es, -, -, -, rfl⟩ := returns_variants hr h
  split
  · exact ⟨_, rfl, by simp [Obj.get_cons, Obj.get_nil], by simp [Obj.get_cons, Obj.get_nil],
      .inl (by simp [Obj.get_cons, Obj.get_nil])⟩
  · exact ⟨_, rfl, by simp [Obj.get_cons, Obj.get_nil], by simp [Obj.get_cons, Obj.get_nil],
      .inl (by simp [Obj.get_cons, Obj.get_nil])⟩

theorem listedForm_enum {tag : TagType} {vs : List (Variant τ)} {deny : Bool} (hr : ∀ v ∈ vs, v.refTy = none)
    (hne : vs ≠ []) (h : Returns A (enumProg I tag vs deny) s) : ∃ m, s = .obj m ∧ ListedForm m := by
  unfold enumProg at h
  rw [if_neg (by rw [List.isEmpty_iff]; exact hne)] at h
  cases tag with
  | external =>
    simp only at h
    unfold externalEnumProg at h
    simp only at h
    split at h
    · unfold unitVariantsProg at h
      simp only [Returns] at h
      subst h
      have hg := get_ofList (l := [("type", .str "string"), ("enum", .arr ((((vs.filter Variant.listed).filter
        (fun x => x.included A.settings.contract)).map fun x => x.name.get A.settings.contract).map Json.str))])
        (by simp [Obj.keys])
      exact ⟨_, rfl, (hg _).trans rfl, (hg _).trans rfl, .inr ⟨(hg _).trans rfl, _, (hg _).trans rfl⟩⟩
    · exact listedForm_variants (fun v hv => hr v (List.mem_filter.1 hv).1) h
  | none => exact listedForm_variants hr h
  | internal t => exact listedForm_variants hr h
  | adjacent t c => exact listedForm_variants hr h

theorem ListedForm.annotate {m : List (String × Json)} (h : ListedForm m) {l : List (Json → Json)}
    (hl : ∀ f ∈ l, Notes f) : ∃ m', runMutators l (.obj m) = .obj m' ∧ ListedForm m' := by
  unfold runMutators
  induction l generalizing m with
  | nil => exact ⟨m, rfl, h⟩
  | cons f l ih =>
    have hl' : ∀ f ∈ l, Notes f := fun g hg => hl g (List.mem_cons_of_mem _ hg)
    rcases hl f (List.mem_cons_self ..) with ⟨k, hk, v, e⟩ | e
    · have hn : k ∉ ["additionalProperties", "const", "enum", "type"] :=
        (by decide : ∀ k ∈ notes, k ∉ ["additionalProperties", "const", "enum", "type"]) k hk
      simp only [List.mem_cons, List.not_mem_nil, or_false, not_or] at hn
      simp only [List.foldl_cons, e (.obj m)]
      refine ih ?_ hl'
      unfold ListedForm
      rw [Obj.get_insert_ne _ _ (by simp [hn]), Obj.get_insert_ne _ _ (by simp [hn]),
        Obj.get_insert_ne _ _ (by simp [hn]), Obj.get_insert_ne _ _ (by simp [hn])]
      exact h
    · simp only [List.foldl_cons, e (.obj m)]
      exact ih h hl'

theorem ListedForm.listed {m : List (String × Json)} (h : ListedForm m) (ht : Tidy (.obj m)) : Listed m := by
  obtain ⟨h1, h2, h3 | ⟨h3, a, h4⟩⟩ := h
  · refine .inl ⟨ht, fun k hk => ?_⟩
    simp only [List.mem_cons, List.not_mem_nil, or_false] at hk
    rcases hk with rfl | rfl | rfl <;> assumption
  · exact .inr ⟨ht, h1, h2, h3, a, h4⟩

theorem Neat.lax {m p : List (String × Json)} {r : List String} (h : Neat m p r false) : Lax m := by
  refine ⟨h.tidy, fun k hk => ?_⟩
  simp only [List.mem_cons, List.not_mem_nil, or_false] at hk
  rcases hk with rfl | rfl | rfl
  · exact h.shape.deny
  · exact h.shape.other _ (by decide) (by decide)
  · exact h.shape.other _ (by decide) (by decide)

theorem laxRead_fields (hA : TidyAsked decl I A) {exact sw cd : Bool} {fs : List (Field τ)} {nss : List (List String)}
    (hn : InputParts exact sw decl I.base fs nss) : ∀ {m0 : List (String × Json)} {s : Json},
    (∀ f ∈ fs, Quiet f.common) → Lax m0 → Returns A (structFieldsProg I cd fs (.obj m0)) s → Tidy s := by
  have step : ∀ {f : Field τ} {fs : List (Field τ)} {m0 : List (String × Json)} {s : Json}, f.skipDe = false →
      f.flatten = true → Lax m0 → (∀ s, A.direct (I.base f.ty) s →
        ∃ m, flattenInner s (I.isOption f.ty && !f.required) = .obj m ∧ Lax m) →
      Returns A (structFieldsProg I cd (f :: fs) (.obj m0)) s →
      ∃ m1, Lax m1 ∧ Returns A (structFieldsProg I cd fs (.obj m1)) s := by
    intro f fs m0 s hsk hfl h0 hflat h
    unfold structFieldsProg at h
    obtain ⟨s1, h1, h2⟩ := res_bind.1 h
    rw [returns_structField, if_pos (by rw [hA.de]; exact hsk)] at h1
    obtain ⟨s', h1, rfl⟩ := h1
    unfold addField at h2
    rw [hfl] at h2
    simp only [if_true] at h2
    obtain ⟨s2, hd2, rfl⟩ := returns_flattenField hfl h1
    obtain ⟨m3, e3, hs3⟩ := hflat s2 hd2
    rw [e3] at h2
    exact ⟨_, h0.flattenObjects hs3, h2⟩
  induction hn with
  | nil =>
    intro m0 s _ h0 h
    cases h
    exact h0.tidy
  | @skip f fs nss hsk _ ih =>
    intro m0 s hqs h0 h
    exact ih (fun f hf => hqs f (List.mem_cons_of_mem _ hf)) h0 (input_skip hA.de hsk h)
  | @own f fs nss hsk hfl hfok _ ih =>
    intro m0 s hqs h0 h
    unfold structFieldsProg at h
    obtain ⟨s1, h1, h2⟩ := res_bind.1 h
    rw [returns_structField, if_pos (by rw [hA.de]; exact hsk)] at h1
    obtain ⟨s', h1, rfl⟩ := h1
    unfold FieldResult at h1
    unfold addField at h2
    rw [hfl] at h1 h2
    simp only [Bool.false_eq_true, if_false] at h1 h2
    obtain ⟨s2, h1, rfl⟩ := h1
    have ht := tidyRead_field hA hfok.1 (hqs f (List.mem_cons_self ..)) h1
    obtain ⟨m1, e1, h3⟩ := h0.insertProperty (f.name.get A.settings.contract)
      (fieldOptional I cd f A.settings.contract) (tidy_insertDefault (f := f) cd ht)
    rw [e1] at h2
    exact ih (fun f hf => hqs f (List.mem_cons_of_mem _ hf)) h3 h2
  | @struct f fs nss c gs ns ms hsk hfl hd hc hns _ _ _ ih =>
    intro m0 s hqs h0 h
    obtain ⟨m1, h1, h2⟩ := step hsk hfl h0 (fun s hs => by
      obtain ⟨m, p, r, rfl, hm⟩ := neatRead_type hA hd hc hns hs
      obtain ⟨m', e, hm'⟩ := hm.flattenInner (I.isOption f.ty && !f.required)
      exact ⟨m', e, hm'.lax⟩) h
    exact ih (fun f hf => hqs f (List.mem_cons_of_mem _ hf)) h1 h2
  | @enum f fs nss ns c tag vs hsk hfl hd hc _ _ _ ih =>
    intro m0 s hqs h0 h
    obtain ⟨m1, h1, h2⟩ := step hsk hfl h0 (fun s hs => by
      obtain ⟨A', hA', hb⟩ := (hA.ran _ _ hs).run
      rw [hd] at hb
      obtain ⟨s0, hb0, rfl⟩ := enumInput_container hc hA'.de hb
      obtain ⟨m, rfl, hm⟩ := listedForm_enum (fun v hv => (hc.variants v hv).noRef) hc.nonempty hb0
      obtain ⟨m', e, hm'⟩ := hm.annotate (notes_common hc.common (hA.structs.quiet _ _ hd))
      have ht := hA.direct _ _ hs
      rw [e] at ht ⊢
      exact (hm'.listed ht).flattenInner _) h
    exact ih (fun f hf => hqs f (List.mem_cons_of_mem _ hf)) h1 h2

theorem tidyRead_tuple (hA : TidyAsked decl I A) {fs : List (Field τ)} (hok : ∀ f ∈ fs, f.skipDe = false → FieldOk f)
    (hq : ∀ f ∈ fs, Quiet f.common) (h : Returns A (tupleStructProg I fs) s) : Tidy s := by
  obtain ⟨ss, h1, rfl⟩ := returns_elems hA.de h
  have hss : ∀ x ∈ ss, Tidy x := by
    have hfs : ∀ f ∈ present fs .deserialize, FieldOk f ∧ Quiet f.common := by
      intro f hf
      rw [mem_readPresent] at hf
      exact ⟨hok f hf.1 hf.2, hq f hf.1⟩
    generalize present fs .deserialize = gs at h1 hfs
    clear h
    induction h1 with
    | nil => exact fun x hx => by cases hx
    | @cons f s gs ss hf _ ih =>
      intro x hx
      rcases List.mem_cons.1 hx with rfl | hx
      · exact tidyRead_field hA (hfs f (List.mem_cons_self ..)).1 (hfs f (List.mem_cons_self ..)).2 hf
      · exact ih (fun g hg => hfs g (List.mem_cons_of_mem _ hg)) x hx
  exact tidy_tupleStruct hss

theorem tidyRead_content (hA : TidyAsked decl I A) {cd deny : Bool} {exact sw : Bool} {fields : Fields τ}
    (hok : ReadContentOk exact sw decl I.base deny fields)
    (hq : ∀ a ∈ fieldsAttrs fields, Quiet a) (h : Returns A (contentProg I cd deny fields) s) : Tidy s := by
  cases fields with
  | unit =>
    obtain ⟨s1, h1, rfl⟩ := h
    exact hA.sub _ _ h1
  | newtype f => exact tidyRead_field hA hok.1 (hq _ (List.mem_singleton.2 rfl)) h
  | tuple fs => exact tidyRead_tuple hA (fun f hf hs => (hok f hf hs).1) (fun f hf => hq _ (List.mem_map_of_mem hf)) h
  | struct fs =>
    obtain ⟨mi, ei, hi⟩ := neat_start deny
    have h' : Returns A (structProg I fs cd deny) s := h
    unfold structProg at h'
    rw [ei] at h'
    rcases hok with hok | ⟨rfl, nss, hn, -⟩ | ⟨rfl, as, f, bs, rfl, hf, hbs, hok⟩
    · obtain ⟨ns, ms, hn, -⟩ := hok.names
      obtain ⟨m, p, r, rfl, hs⟩ := neatRead_fields hn hA (fun f hf h1 h2 => (hok.fields f hf h1 h2).1) (fun f hf => hq _ (List.mem_map_of_mem hf)) hi h'
      exact hs.tidy
    · exact laxRead_fields hA hn (fun f hf => hq _ (List.mem_map_of_mem hf)) hi.lax h'
    · obtain ⟨ns, ms, hn, -⟩ := hok.names
      obtain ⟨m, v, sf, hrun, rfl, hd, -, -, hv, -⟩ := rest_run (D := draft2020)
        (env := trivialEnv) hA.toComes hf hbs hn h
      unfold structProg at hrun
      rw [ei] at hrun
      have hqs : ∀ g ∈ as ++ bs, Quiet g.common := fun g hg => hq _ (List.mem_map_of_mem (by
        rcases List.mem_append.1 hg with h | h
        · exact List.mem_append_left _ h
        · exact List.mem_append_right _ (List.mem_cons_of_mem _ h)))
      obtain ⟨m', p, r, e, hs⟩ := neatRead_fields hn hA (fun f hf h1 h2 => (hok.fields f hf h1 h2).1) hqs hi hrun
      cases e
      unfold withRest
      split
      · exact hs.tidy
      · have ht : TidyEntry "additionalProperties" v := by
          rcases hv with rfl | rfl
          · exact te_one (by decide) (.bool _)
          · exact (hA.direct _ _ hd).entries _ (List.mem_cons_self ..)
        exact tidy_insert hs.tidy ht (hs.tidy.values.insert _ (by decide))

theorem tidyRead_variant (hA : TidyAsked decl I A) {exact sw deny : Bool} {v : Variant τ}
    (hv : ReadVariantOk exact sw decl I.base deny v)
    (hq : ∀ a ∈ fieldsAttrs v.fields, Quiet a) (h : Returns A (untaggedVariantProg I v deny false) s) : Tidy s := by
  cases hw : v.withTy with
  | some t =>
    unfold untaggedVariantProg at h
    simp only [Bool.false_eq_true, if_false, hw] at h
    obtain ⟨s1, h1, rfl⟩ := h
    exact hA.sub _ _ h1
  | none => exact tidyRead_content hA (hv.content hw) hq (returns_content hw h)

theorem tidyRead_untagged (hA : TidyAsked decl I A) {exact sw deny : Bool} {v : Variant τ}
    (hv : ReadVariantOk exact sw decl I.base deny v)
    (hq : ∀ a ∈ v.common :: fieldsAttrs v.fields, Quiet a) (h : Returns A (untaggedVariantProg I v deny true) s) :
    Tidy s := by
  unfold untaggedVariantProg at h
  simp only [if_true] at h
  obtain ⟨t, h1, h2⟩ := res_bind.1 h
  have h1' : Returns A (untaggedVariantProg I v deny false) t := by
    unfold untaggedVariantProg
    simp only [Bool.false_eq_true, if_false]
    exact h1
  have ht := tidyRead_variant hA hv (fun a ha => hq a (List.mem_cons_of_mem _ ha)) h1'
  simp only [Returns] at h2
  rw [h2]
  refine tidy_mutators (notes_common hv.common (hq _ (List.mem_cons_self ..))) ?_
  split
  · exact ht.note (by decide) _
  · exact ht

theorem tidyRead_internal (hA : TidyAsked decl I A) {exact sw deny : Bool} {v : Variant τ} {tag : String}
    (hv : ReadVariantOk exact sw decl I.base deny v)
    (hi : ReadInternalOk decl I.base tag v) (hq : ∀ a ∈ fieldsAttrs v.fields, Quiet a)
    (h : Returns A (internalVariantProg I v deny) s) : Tidy s := by
  unfold internalVariantProg at h
  unfold ReadInternalOk at hi
  cases hw : v.withTy with
  | some t =>
    rw [hw] at h
    obtain ⟨s1, h1, rfl⟩ := h
    exact hA.direct _ _ h1
  | none =>
    rw [hw] at h hi
    simp only at h hi
    have hc := hv.content hw
    cases hf : v.fields with
    | unit =>
      rw [hf] at h
      obtain ⟨s1, h1, rfl⟩ := h
      exact hA.sub _ _ h1
    | tuple fs => rw [hf] at hi; exact hi.elim
    | struct fs =>
      rw [hf] at h hc hq
      exact tidyRead_content (fields := .struct fs) (cd := false) (deny := deny) hA hc hq h
    | newtype f =>
      rw [hf] at h hi hc hq
      simp only at h hi
      unfold fieldProg at h
      rw [res_map] at h
      obtain ⟨s0, h0, rfl⟩ := h
      refine tidies_field hc.1 (hq _ (List.mem_singleton.2 rfl)) ?_
      unfold fieldType at hi
      by_cases hr : f.required = true
      · simp only [hr, if_true] at h0
        obtain ⟨s1, h1, rfl⟩ := h0
        exact hA.direct _ _ h1
      · simp only [hr, if_false, if_true, Bool.false_eq_true] at h0 hi
        obtain ⟨s1, h1, h2⟩ := h0
        have ht := hA.direct _ _ h1
        obtain ⟨c, fs, ns, ms, hd, hp, hn, htag⟩ := hi.2
        obtain ⟨m, p, r, rfl, hs, -, -, -⟩ := plain_shape hd hp hn htag (hA.ran _ _ h1)
        simp only [Returns, hs.tsub] at h2
        split at h2
        · cases h2; exact ht
        · obtain ⟨s2, h3, rfl⟩ := h2
          exact hA.sub _ _ h3

theorem tidyRead_enum (hA : TidyAsked decl I A) {exact sw : Bool} {tag : TagType} {vs : List (Variant τ)} {deny : Bool}
    (he : ReadEnumOk exact sw decl I.base tag vs deny) (hqv : ∀ v ∈ vs, ∀ a ∈ v.common :: fieldsAttrs v.fields, Quiet a)
    (h : Returns A (enumProg I tag vs deny) s) : Tidy s := by
  have hr : ∀ v ∈ vs, v.refTy = none := fun v hv => (he.variants v hv).noRef
  have hnote : ∀ v ∈ vs, ∀ f ∈ v.common.mutators, Notes f := fun v hv =>
    notes_common (he.variants v hv).common (hqv v hv _ (List.mem_cons_self ..))
  have hqf : ∀ v ∈ vs, ∀ a ∈ fieldsAttrs v.fields, Quiet a := fun v hv a ha => hqv v hv a (List.mem_cons_of_mem _ ha)
  unfold enumProg at h
  rw [if_neg (by rw [List.isEmpty_iff]; exact he.nonempty)] at h
  cases tag with
  | external =>
    simp only at h
    unfold externalEnumProg at h
    simp only at h
    split at h
    · exact tidy_units h
    · refine tidy_variants (fun v hv => hr v (List.mem_filter.1 hv).1) ?_ (fun v hv s hs => ?_) h
      · intro p s hp hs
        split at hp
        · cases hp
        · cases hp; exact tidy_units hs
      · have hv := (List.mem_filter.1 hv).1
        unfold externalVariantProg at hs
        split at hs
        · exact tidyRead_untagged hA (he.variants v hv) (hqv v hv) hs
        · split at hs
          · simp only [Returns] at hs
            subst hs
            exact tidy_mutators (hnote v hv) (tidy_tag _)
          · simp only [Returns] at hs
            obtain ⟨sub, h1, rfl⟩ := res_map.1 hs
            refine tidy_mutators (hnote v hv) (tidy_closed fun e he' => ?_)
            rw [List.mem_singleton.1 he']
            exact tidyRead_variant hA (he.variants v hv) (hqf v hv) h1
  | none =>
    exact tidy_variants hr (fun p s hp => by cases hp)
      (fun v hv s hs => tidyRead_untagged hA (he.variants v hv) (hqv v hv) hs) h
  | internal t =>
    refine tidy_variants hr (fun p s hp => by cases hp) (fun v hv s hs => ?_) h
    unfold internalTaggedProg at hs
    by_cases hu : v.untagged = true
    · rw [if_pos hu] at hs
      exact tidyRead_untagged hA (he.variants v hv) (hqv v hv) hs
    · rw [if_neg hu] at hs
      obtain ⟨s1, h2, h3⟩ := res_bind.1 hs
      simp only [Returns] at h3
      rw [h3]
      exact tidy_mutators (hnote v hv) (tidy_internalTag (tidyRead_internal hA (he.variants v hv)
        (he.internal t rfl v hv) (hqf v hv) h2) _ _ _)
  | adjacent t c =>
    refine tidy_variants hr (fun p s hp => by cases hp) (fun v hv s hs => ?_) h
    unfold adjacentTaggedProg at hs
    split at hs
    · exact tidyRead_untagged hA (he.variants v hv) (hqv v hv) hs
    · split at hs
      · simp only [Returns] at hs
        subst hs
        exact tidy_mutators (hnote v hv) (tidy_adjacent _ _ _ _ fun s hs => by cases hs)
      · simp only [Returns] at hs
        obtain ⟨sub, h1, rfl⟩ := res_map.1 hs
        refine tidy_mutators (hnote v hv) (tidy_adjacent _ _ _ _ fun s hs => ?_)
        cases hs
        exact tidyRead_variant hA (he.variants v hv) (hqf v hv) h1

/-- The schema of a type is tidy, if those of the types that it mentions are. -/
theorem tidyRead_body (hA : TidyAsked decl I A) {exact sw : Bool} {d : Decl τ} (hok : ReadOk exact sw decl I.base d)
    (hq : QuietDecl d) (h : Returns A (bodyOf I d) s) : Tidy s := by
  cases d with
  | std x => exact std_tidy hA.sub h
  | derived c =>
    have hok : ReadContainerOk exact sw decl I.base c := hok
    obtain ⟨s1, rfl, h1⟩ := container_prog hA.de (show Returns A (containerProg I c) s from h)
    refine tidy_mutators (notes_common hok.common (hq _ (List.mem_cons_self ..))) ?_
    cases hw : c.withTy with
    | some t => rw [hw] at h1; exact hA.direct _ _ h1
    | none =>
      cases ht : c.transparent with
      | some f =>
        rw [hw, ht] at h1
        refine tidyRead_field hA (hok.transparent hw f ht).1 (hq _ ?_) h1
        simp [declAttrs, ht]
      | none =>
        cases hfr : c.fromTy with
        | some t => rw [hw, ht, hfr] at h1; exact hA.direct _ _ h1
        | none =>
          rw [hw, ht, hfr] at h1
          have hq' : ∀ a ∈ dataAttrs c.data, Quiet a := fun a ha => hq a (List.mem_append_right _ ha)
          cases hd : c.data with
          | enum tag vs =>
            unfold dataProg at h1
            rw [hd] at h1 hq'
            exact tidyRead_enum hA (hok.enum hw ht hfr tag vs hd)
              (fun v hv a ha => hq' a (List.mem_flatMap.2 ⟨v, hv, ha⟩)) h1
          | struct fields =>
            simp only at h1
            rw [struct_prog hd] at h1
            rw [hd] at hq'
            exact tidyRead_content hA (hok.struct hw ht hfr fields hd) hq' h1

/-- The schemas of a run are tidy. -/
theorem level_tidyBody {W : World τ} {exact sw : Bool} (hG : Declared W.Γ decl I)
    (hok : ∀ t, ReadOk exact sw decl I.base (decl t))
    (hq : ∀ t, QuietDecl (decl t)) (hde : W.settings.contract = .deserialize) (k : Nat) :
    ∀ t s, Produced W k t s → Tidy s ∧ TidyBody decl I t s := by
  induction k with
  | zero => exact fun t s h => h.elim
  | succ k ih =>
    intro t s h
    have h : Returns (W.answers (Produced W k)) (W.Γ t).body s := h
    rw [hG.body] at h
    have hsub : ∀ t s, (W.answers (Produced W k)).sub t s → Tidy s := fun t s h => by
      rcases answers_ref h with h | ⟨r, rfl⟩
      · exact (ih t s h).1
      · exact tidy_newRef r
    exact ⟨tidyRead_body ⟨level_comes hG hde k, hsub, fun t s h => (ih t s h).1, fun t s h => (ih t s h).2, tidyStructs hok hq⟩ (hok t)
      (hq t) h, .intro _ (level_comes hG hde k) hsub (fun t s h => (ih t s h).1) (fun t s h => (ih t s h).2) h⟩

theorem level_tidy {W : World τ} {exact sw : Bool} (hG : Declared W.Γ decl I)
    (hok : ∀ t, ReadOk exact sw decl I.base (decl t))
    (hq : ∀ t, QuietDecl (decl t)) (hde : W.settings.contract = .deserialize) (k : Nat) :
    ∀ t s, Produced W k t s → Tidy s := fun t s h => (level_tidyBody hG hok hq hde k t s h).1

/-- Lists of transforms that keep what tame schemas accept keep C64. -/
theorem pipeline_accepts_read {D : Dialect} (hM : Modern draft2020 env) (hx : DecimalInputRx env) (hq : Documented q)
    (hG : Declared Γ decl I) (ho : OptionsKnown decl I) (hok : ∀ t, ReadOk false q.lenient decl I.base (decl t))
    (hquiet : ∀ t, QuietDecl (decl t)) {n : Nat} {t : τ} {st : Settings} {r : Json} {g' : Gen τ}
    (h : rootSchemaFor Γ (run Γ n) t (Gen.new st) = some (r, g')) (hde : st.contract = .deserialize)
    {k : String} (hk : k = "$defs" ∨ k = "definitions") (hpath : PathDenotes st.definitionsPath [k])
    (hacts : ∀ T ∈ st.transforms, ActsAt T k) (hpres : ∀ T ∈ st.transforms, Preserves T)
    (hkeep : ∀ s, IsSchema s → Everywhere visited (OnObj Tame) s →
      den D env (applyTransforms st.transforms s) = den draft2020 env s)
    (hplain : ∀ name d, Obj.get g'.defs name = some d → PlainName name) (hR : Resolves D env r) {j : Json}
    (hj : j.WF) (hr : ReadIf w q (FieldObeys env) I.base decl t j) : Valid D env r j := by
  obtain ⟨body, hW, hraw, hroot⟩ := pipeline_document hM hG h (level_tidy hG hok hquiet hde) hk hpath hacts hpres hkeep
    hplain hR
  obtain ⟨h1, h2⟩ := hroot (level_nullable hM.refs hG hok hde hraw _ _ _ hW.body).sch
  rw [h2]
  exact world_accepts_read hM hx hq hG ho hok hde hraw h1 hW hj hr

/-- Lists of transforms that keep what tame schemas accept keep C65. -/
theorem pipeline_reads {D : Dialect} (hM : Modern draft2020 env) (hw : 32 ≤ w) (hq : Documented q)
    (hG : Declared Γ decl I) (ho : OptionsKnown decl I) (hg : Grounded I.base decl)
    (hok : ∀ t, ReadOk true q.lenient decl I.base (decl t))
    (hquiet : ∀ t, QuietDecl (decl t)) {n : Nat} {t : τ} {st : Settings} {r : Json} {g' : Gen τ}
    (h : rootSchemaFor Γ (run Γ n) t (Gen.new st) = some (r, g')) (hde : st.contract = .deserialize)
    {k : String} (hk : k = "$defs" ∨ k = "definitions") (hpath : PathDenotes st.definitionsPath [k])
    (hacts : ∀ T ∈ st.transforms, ActsAt T k) (hpres : ∀ T ∈ st.transforms, Preserves T)
    (hkeep : ∀ s, IsSchema s → Everywhere visited (OnObj Tame) s →
      den D env (applyTransforms st.transforms s) = den draft2020 env s)
    (hplain : ∀ name d, Obj.get g'.defs name = some d → PlainName name) (hR : Resolves D env r) {j : Json}
    (hj : j.WF) (hn : SmallNumbers j) (hv : Valid D env r j) : Read w q I.base decl t j := by
  obtain ⟨body, hW, hraw, hroot⟩ := pipeline_document hM hG h (level_tidy hG hok hquiet hde) hk hpath hacts hpres hkeep
    hplain hR
  obtain ⟨h1, h2⟩ := hroot (level_nullable hM.refs hG hok hde hraw _ _ _ hW.body).sch
  rw [h2] at hv
  exact world_reads hM hw hq hG ho hg hok hde hraw h1 hW hj hn hv

/-- C64 for the `draft07` settings. -/
theorem C64_draft07_partial (hM : Modern draft2020 env) (hx : DecimalInputRx env) (hq : Documented q)
    (hG : Declared Γ decl I) (ho : OptionsKnown decl I) (hok : ∀ t, ReadOk false q.lenient decl I.base (decl t))
    (hquiet : ∀ t, QuietDecl (decl t)) {n : Nat} {t : τ} {r : Json} {g' : Gen τ}
    (h : rootSchemaFor Γ (run Γ n) t (Gen.new Settings.draft07) = some (r, g'))
    (hplain : ∀ name d, Obj.get g'.defs name = some d → PlainName name) (hR : Resolves draft07 env r)
    {j : Json} (hj : j.WF) (hr : ReadIf w q (FieldObeys env) I.base decl t j) : Valid draft07 env r j :=
  pipeline_accepts_read hM hx hq hG ho hok hquiet h rfl (.inr rfl) (by unfold PathDenotes; decide) draft07_actsAt draft07_preserves
    (fun _ hs ht => C58_draft07_partial env hs (Everywhere.imp ht fun _ hx m hm => (hx m hm).tuples)
      (Everywhere.imp ht fun _ hx m hm => (hx m hm).refs)) hplain hR hj hr

/-- C65 for the `draft07` settings. -/
theorem C65_draft07_partial (hM : Modern draft2020 env) (hw : 32 ≤ w) (hq : Documented q)
    (hG : Declared Γ decl I) (ho : OptionsKnown decl I) (hg : Grounded I.base decl)
    (hok : ∀ t, ReadOk true q.lenient decl I.base (decl t))
    (hquiet : ∀ t, QuietDecl (decl t)) {n : Nat} {t : τ} {r : Json} {g' : Gen τ}
    (h : rootSchemaFor Γ (run Γ n) t (Gen.new Settings.draft07) = some (r, g'))
    (hplain : ∀ name d, Obj.get g'.defs name = some d → PlainName name) (hR : Resolves draft07 env r)
    {j : Json} (hj : j.WF) (hn : SmallNumbers j) (hv : Valid draft07 env r j) : Read w q I.base decl t j :=
  pipeline_reads hM hw hq hG ho hg hok hquiet h rfl (.inr rfl) (by unfold PathDenotes; decide) draft07_actsAt draft07_preserves
    (fun _ hs ht => C58_draft07_partial env hs (Everywhere.imp ht fun _ hx m hm => (hx m hm).tuples)
      (Everywhere.imp ht fun _ hx m hm => (hx m hm).refs)) hplain hR hj hn hv

/-- C64 for the `draft2019_09` settings. -/
theorem C64_draft2019_partial (hM : Modern draft2020 env) (hx : DecimalInputRx env) (hq : Documented q)
    (hG : Declared Γ decl I) (ho : OptionsKnown decl I) (hok : ∀ t, ReadOk false q.lenient decl I.base (decl t))
    (hquiet : ∀ t, QuietDecl (decl t)) {n : Nat} {t : τ} {r : Json} {g' : Gen τ}
    (h : rootSchemaFor Γ (run Γ n) t (Gen.new Settings.draft2019) = some (r, g'))
    (hplain : ∀ name d, Obj.get g'.defs name = some d → PlainName name) (hR : Resolves draft2019 env r)
    {j : Json} (hj : j.WF) (hr : ReadIf w q (FieldObeys env) I.base decl t j) : Valid draft2019 env r j :=
  pipeline_accepts_read hM hx hq hG ho hok hquiet h rfl (.inl rfl) (by unfold PathDenotes; decide) draft2019_actsAt draft2019_preserves
    (fun _ hs ht => C58_draft2019_partial env hs (Everywhere.imp ht fun _ hx m hm => (hx m hm).tuples)) hplain hR hj hr

/-- C65 for the `draft2019_09` settings. -/
theorem C65_draft2019_partial (hM : Modern draft2020 env) (hw : 32 ≤ w) (hq : Documented q)
    (hG : Declared Γ decl I) (ho : OptionsKnown decl I) (hg : Grounded I.base decl)
    (hok : ∀ t, ReadOk true q.lenient decl I.base (decl t))
    (hquiet : ∀ t, QuietDecl (decl t)) {n : Nat} {t : τ} {r : Json} {g' : Gen τ}
    (h : rootSchemaFor Γ (run Γ n) t (Gen.new Settings.draft2019) = some (r, g'))
    (hplain : ∀ name d, Obj.get g'.defs name = some d → PlainName name) (hR : Resolves draft2019 env r)
    {j : Json} (hj : j.WF) (hn : SmallNumbers j) (hv : Valid draft2019 env r j) : Read w q I.base decl t j :=
  pipeline_reads hM hw hq hG ho hg hok hquiet h rfl (.inl rfl) (by unfold PathDenotes; decide) draft2019_actsAt draft2019_preserves
    (fun _ hs ht => C58_draft2019_partial env hs (Everywhere.imp ht fun _ hx m hm => (hx m hm).tuples)) hplain hR hj hn hv

/-- The same for the transforms of the `openapi3` settings, if there are no definitions. -/
theorem openapi_accepts_read (hM : Modern draft2020 env) (hx : DecimalInputRx env) (hq : Documented q)
    (hG : Declared Γ decl I) (ho : OptionsKnown decl I) (hok : ∀ t, ReadOk false q.lenient decl I.base (decl t))
    (hquiet : ∀ t, QuietDecl (decl t)) {n : Nat} {t : τ} {st : Settings} {r : Json} {g' : Gen τ}
    (h : rootSchemaFor Γ (run Γ n) t (Gen.new st) = some (r, g'))
    (hts : st.transforms = openapi3Transforms) (hde : st.contract = .deserialize)
    (hnone : g'.defs = []) (hR : Resolves openapi30 env r)
    {j : Json} (hj : j.WF) (hr : ReadIf w q (FieldObeys env) I.base decl t j) : Valid openapi30 env r j := by
  obtain ⟨body, hW, hroot⟩ := openapi_document hM hG h hts (level_tidy hG hok hquiet hde) hnone hR
  have hno : ∀ name d, Obj.get g'.defs name ≠ some d := by intro name d hd; rw [hnone] at hd; cases hd
  obtain ⟨h1, h2⟩ := hroot (level_nullable (D := draft2020) (env := env) hM.refs hG hok hde (fun n d hd => absurd hd (hno n d)) _ _ _
    hW.body).sch
  rw [h2]
  exact world_accepts_read hM hx hq hG ho hok hde (fun n d hd => absurd hd (hno n d)) h1 hW hj hr

/-- C64 for the `openapi3` settings, for types whose schemas need no definitions. -/
theorem C64_openapi3_partial (hM : Modern draft2020 env) (hx : DecimalInputRx env) (hq : Documented q)
    (hG : Declared Γ decl I) (ho : OptionsKnown decl I) (hok : ∀ t, ReadOk false q.lenient decl I.base (decl t))
    (hquiet : ∀ t, QuietDecl (decl t)) {n : Nat} {t : τ} {r : Json} {g' : Gen τ}
    (h : rootSchemaFor Γ (run Γ n) t (Gen.new Settings.openapi3) = some (r, g'))
    (hnone : g'.defs = []) (hR : Resolves openapi30 env r)
    {j : Json} (hj : j.WF) (hr : ReadIf w q (FieldObeys env) I.base decl t j) : Valid openapi30 env r j :=
  openapi_accepts_read hM hx hq hG ho hok hquiet h rfl rfl hnone hR hj hr

/-- C65 for the transforms of the `openapi3` settings, if there are no definitions. -/
theorem openapi_reads (hM : Modern draft2020 env) (hw : 32 ≤ w) (hq : Documented q)
    (hG : Declared Γ decl I) (ho : OptionsKnown decl I) (hg : Grounded I.base decl)
    (hok : ∀ t, ReadOk true q.lenient decl I.base (decl t))
    (hquiet : ∀ t, QuietDecl (decl t)) {n : Nat} {t : τ} {st : Settings} {r : Json} {g' : Gen τ}
    (h : rootSchemaFor Γ (run Γ n) t (Gen.new st) = some (r, g'))
    (hts : st.transforms = openapi3Transforms) (hde : st.contract = .deserialize)
    (hnone : g'.defs = []) (hR : Resolves openapi30 env r)
    {j : Json} (hj : j.WF) (hn : SmallNumbers j) (hv : Valid openapi30 env r j) : Read w q I.base decl t j := by
  obtain ⟨body, hW, hroot⟩ := openapi_document hM hG h hts (level_tidy hG hok hquiet hde) hnone hR
  have hno : ∀ name d, Obj.get g'.defs name ≠ some d := by intro name d hd; rw [hnone] at hd; cases hd
  obtain ⟨h1, h2⟩ := hroot (level_nullable (D := draft2020) (env := env) hM.refs hG hok hde (fun n d hd => absurd hd (hno n d)) _ _ _
    hW.body).sch
  rw [h2] at hv
  exact world_reads hM hw hq hG ho hg hok hde (fun n d hd => absurd hd (hno n d)) h1 hW hj hn hv

/-- C65 for the `openapi3` settings, for types whose schemas need no definitions. -/
theorem C65_openapi3_partial (hM : Modern draft2020 env) (hw : 32 ≤ w) (hq : Documented q)
    (hG : Declared Γ decl I) (ho : OptionsKnown decl I) (hg : Grounded I.base decl)
    (hok : ∀ t, ReadOk true q.lenient decl I.base (decl t))
    (hquiet : ∀ t, QuietDecl (decl t)) {n : Nat} {t : τ} {r : Json} {g' : Gen τ}
    (h : rootSchemaFor Γ (run Γ n) t (Gen.new Settings.openapi3) = some (r, g'))
    (hnone : g'.defs = []) (hR : Resolves openapi30 env r)
    {j : Json} (hj : j.WF) (hn : SmallNumbers j) (hv : Valid openapi30 env r j) : Read w q I.base decl t j :=
  openapi_reads hM hw hq hG ho hg hok hquiet h rfl rfl hnone hR hj hn hv

end

/-! ### Examples -/

namespace NodeTy

/-- The schema for reading, for settings with another meta-schema, and another way to write null. -/
def inputFor (ms : String) (nil : Json) : Json :=
  .obj [("$schema", .str ms),
    ("properties", .obj [
      ("next", .obj [("anyOf", .arr [.obj [("$ref", .str "#")], nil])]),
      ("value", .obj [("format", .str "uint32"), ("minimum", .num (.int 0)), ("type", .str "integer")])]),
    ("required", .arr [.str "value"]), ("title", .str "Node"), ("type", .str "object")]

theorem generatesInput07 : ∃ g', rootSchemaFor types (run types 10) node (Gen.new Settings.draft07) =
    some (inputFor metaDraft07 nullSchema, g') ∧ g'.defs = [] := generated (by decide +kernel)

theorem exact07 : ∃ env, Modern draft2020 env ∧ Resolves draft07 env (inputFor metaDraft07 nullSchema) ∧
    ∀ j, j.WF → SmallNumbers j → (Valid draft07 env (inputFor metaDraft07 nullSchema) j ↔ Read 64 {} info.base decl node j) := by
  obtain ⟨f, hf⟩ := resolves_self (D := draft07) (env := inputEnv) (doc := inputFor metaDraft07 nullSchema) (by decide)
  obtain ⟨g', h, hd⟩ := generatesInput07
  exact ⟨_, modern_inputEnv f, hf, fun j hj hn =>
    ⟨C65_draft07_partial (modern_inputEnv f) (by decide) documented declared optionsKnown grounded (fun t => readable t true _)
      quiet h (fun _ _ h => by rw [hd] at h; cases h) hf hj hn,
     fun hr => C64_draft07_partial (modern_inputEnv f) (input_inputEnv f) documented declared optionsKnown (fun t => readable t false _)
      quiet h (fun _ _ h => by rw [hd] at h; cases h) hf hj (read_obeys unvalidated hr)⟩⟩

theorem generatesInput2019 : ∃ g', rootSchemaFor types (run types 10) node (Gen.new Settings.draft2019) =
    some (inputFor meta2019 nullSchema, g') ∧ g'.defs = [] := generated (by decide +kernel)

theorem exact2019 : ∃ env, Modern draft2020 env ∧ Resolves draft2019 env (inputFor meta2019 nullSchema) ∧
    ∀ j, j.WF → SmallNumbers j → (Valid draft2019 env (inputFor meta2019 nullSchema) j ↔ Read 64 {} info.base decl node j) := by
  obtain ⟨f, hf⟩ := resolves_self (D := draft2019) (env := inputEnv) (doc := inputFor meta2019 nullSchema) (by decide)
  obtain ⟨g', h, hd⟩ := generatesInput2019
  exact ⟨_, modern_inputEnv f, hf, fun j hj hn =>
    ⟨C65_draft2019_partial (modern_inputEnv f) (by decide) documented declared optionsKnown grounded (fun t => readable t true _)
      quiet h (fun _ _ h => by rw [hd] at h; cases h) hf hj hn,
     fun hr => C64_draft2019_partial (modern_inputEnv f) (input_inputEnv f) documented declared optionsKnown (fun t => readable t false _)
      quiet h (fun _ _ h => by rw [hd] at h; cases h) hf hj (read_obeys unvalidated hr)⟩⟩

theorem generatesInput30 : ∃ g', rootSchemaFor types (run types 10) node (Gen.new Settings.openapi3) =
    some (inputFor Settings.metaOpenapi3 null30, g') ∧ g'.defs = [] := generated (by decide +kernel)

theorem exact30 : ∃ env, Modern draft2020 env ∧ Resolves openapi30 env (inputFor Settings.metaOpenapi3 null30) ∧
    ∀ j, j.WF → SmallNumbers j → (Valid openapi30 env (inputFor Settings.metaOpenapi3 null30) j ↔ Read 64 {} info.base decl node j) := by
  obtain ⟨f, hf⟩ := resolves_self (D := openapi30) (env := inputEnv) (doc := inputFor Settings.metaOpenapi3 null30) (by decide)
  obtain ⟨g', h, hd⟩ := generatesInput30
  exact ⟨_, modern_inputEnv f, hf, fun j hj hn =>
    ⟨C65_openapi3_partial (modern_inputEnv f) (by decide) documented declared optionsKnown grounded (fun t => readable t true _)
      quiet h hd hf hj hn,
     fun hr => C64_openapi3_partial (modern_inputEnv f) (input_inputEnv f) documented declared optionsKnown (fun t => readable t false _)
      quiet h hd hf hj (read_obeys unvalidated hr)⟩⟩

end NodeTy

end Verif
