import Verif.Lemmas.Pipeline
import Verif.Spec.Formats

/-!
# C22: RestrictFormats
-/

namespace Verif
open Spec

/-- The formats in force below the schemas `cs` when the formats `acc` are in force above. -/
def forceFrom (acc : List String) (cs : List Json) : List String :=
  cs.foldl (fun acc c => match decl c with | .known fs => fs | _ => acc) acc

theorem inForce_eq (cs : List Json) : inForce cs = forceFrom [] cs := by cases cs <;> rfl

theorem forceFrom_cons (acc : List String) (c : Json) (cs : List Json) :
    forceFrom acc (c :: cs) = forceFrom (match decl c with | .known fs => fs | _ => acc) cs := rfl

theorem definedFormats_eq : definedFormats = formats2019 := by decide
theorem definedFormats_drop : definedFormats.drop 2 = formats07 := by decide

theorem inferFormats_decl (c : FormatsCfg) (hc : c.inferFromMetaSchema = true) (e) (m : List (String × Json)) :
    inferFormats c e m = match decl (.obj m) with
      | .silent => some e
      | .unknown => none
      | .known fs => some (some fs) := by
  unfold inferFormats decl
  simp only [hc, Bool.true_and, Obj.has]
  cases hg : Obj.get m "$schema" with
  | none => simp
  | some v =>
    cases v with
    | str u =>
      by_cases h1 : u = "http://json-schema.org/draft-07/schema#"
      · subst h1; simp [Json.asStr?, metaDraft07, definedFormats_drop]
      · by_cases h2 : u = "https://json-schema.org/draft/2019-09/schema"
        · subst h2; simp [Json.asStr?, metaDraft07, meta2019, definedFormats_eq]
        · by_cases h3 : u = "https://json-schema.org/draft/2020-12/schema"
          · subst h3; simp [Json.asStr?, metaDraft07, meta2019, meta2020, definedFormats_eq]
          · simp [Json.asStr?, metaDraft07, meta2019, meta2020, h1, h2, h3]
    | _ => simp [Json.asStr?, metaDraft07, meta2019, meta2020]

theorem inferFormats_off (c : FormatsCfg) (hc : c.inferFromMetaSchema = false) (e) (m : List (String × Json)) :
    inferFormats c e m = some e := by simp [inferFormats, hc]

theorem dropFormat_eq (c : FormatsCfg) (e : Option (List String)) (m : List (String × Json)) :
    dropFormat c e m = withFormats (c.allowed ++ e.getD []) m := by
  unfold dropFormat withFormats
  cases hg : Obj.get m "format" with
  | none => rfl
  | some v =>
    cases v with
    | str f =>
      simp only [Option.bind_some, Json.asStr?]
      cases e with
      | none => by_cases h : f ∈ c.allowed <;> simp [h, Obj.remove]
      | some fs => by_cases h : f ∈ c.allowed <;> by_cases h2 : f ∈ fs <;> simp [h, h2, Obj.remove]
    | _ => rfl

theorem restrictFrom_preserves (c : FormatsCfg) (e) : Preserves (restrictFrom c e) := by
  intro s hs
  cases hs with
  | bool b => rw [restrictFrom_bool]; exact .bool b
  | obj m => rw [restrictFrom_eq]; split <;> exact .obj _

theorem stepTo_withFormats {a : List String} {m : List (String × Json)} {st : Step} {x : Json} :
    StepTo visited (.obj (withFormats a m)) st x ↔ StepTo visited (.obj m) st x := by
  have hg : ∀ k, k ≠ "format" → Obj.get (withFormats a m) k = Obj.get m k := by
    intro k hk
    unfold withFormats
    split
    · split
      · rfl
      · exact Obj.get_remove_ne m (Ne.symm hk)
    · rfl
  have hk : ∀ {s x}, StepTo visited s st x → st.keyword ≠ "format" := by
    intro s x h e
    have := stepTo_keyword h; rw [e] at this; revert this; decide
  exact ⟨fun h => stepTo_of_get h (hg _ (hk h)).symm, fun h => stepTo_of_get h (hg _ (hk h))⟩

/-- Whether the formats at a location may be touched. -/
def Spec.Stopped (infer : Bool) (cs : List Json) : Prop := infer = true ∧ Blocked cs

/-- The formats that stay at the end of the trail `cs`. -/
def Spec.kept (infer : Bool) (allowed : List String) (cs : List Json) : List String :=
  if infer then allowed ++ inForce cs else allowed

theorem restrict_locate (c : FormatsCfg) (hc : c.inferFromMetaSchema = true) {s x : Json} {p : List Step}
    {cs : List Json} (h : Trail visited s p cs x) (e : Option (List String)) :
    ∃ y, Locate visited (restrictFrom c e s) p y ∧
      (Blocked cs → y = x) ∧
      (¬ Blocked cs → ∀ m, x = .obj m → Frame visited (.obj (withFormats (c.allowed ++ forceFrom (e.getD []) cs) m)) y) ∧
      (∀ b, x = .bool b → y = x) := by
  have aux : ∀ {s x : Json} {p : List Step} {cs : List Json}, Trail visited s p cs x → Locate visited s p x := by
    intro s x p cs h
    induction h with
    | here h => exact .here h
    | step h1 h2 _ ih => exact .step h1 h2 ih
  induction h generalizing e with
  | here hs =>
    cases hs with
    | bool b =>
      rw [restrictFrom_bool]
      exact ⟨_, .here (.bool b), fun _ => rfl, (fun _ m hm => by cases hm), fun _ _ => rfl⟩
    | obj m =>
      rw [restrictFrom_eq, inferFormats_decl c hc]
      cases hd : decl (.obj m) with
      | silent =>
        refine ⟨_, .here (tsub_isSchema (.obj _)), ?_, ?_, (fun b hb => by cases hb)⟩
        · rintro ⟨c', hc', hu⟩; simp at hc'; subst hc'; rw [hd] at hu; cases hu
        · intro _ m' hm; cases hm
          rw [forceFrom_cons, hd]; simp only; rw [dropFormat_eq]; exact tsub_frame _ _
      | unknown =>
        refine ⟨_, .here (.obj m), fun _ => rfl, ?_, (fun b hb => by cases hb)⟩
        intro hb; exact absurd ⟨_, by simp, hd⟩ hb
      | known fs =>
        refine ⟨_, .here (tsub_isSchema (.obj _)), ?_, ?_, (fun b hb => by cases hb)⟩
        · rintro ⟨c', hc', hu⟩; simp at hc'; subst hc'; rw [hd] at hu; cases hu
        · intro _ m' hm; cases hm
          rw [forceFrom_cons, hd]; simp only; rw [dropFormat_eq]; exact tsub_frame _ _
  | @step s st x p cs y hst hx htr ih =>
    have : ∃ m, s = .obj m := by cases hst <;> exact ⟨_, rfl⟩
    obtain ⟨m, rfl⟩ := this
    rw [restrictFrom_eq, inferFormats_decl c hc]
    have go : ∀ e', (∀ hb : Blocked (.obj m :: cs), Blocked cs) →
        forceFrom (e.getD []) (.obj m :: cs) = forceFrom (e'.getD []) cs →
        ∃ y', Locate visited (tsub subSlot (restrictFrom c e') (.obj (dropFormat c e' m))) (st :: p) y' ∧
          (Blocked (.obj m :: cs) → y' = y) ∧
          (¬ Blocked (.obj m :: cs) → ∀ m', y = .obj m' →
            Frame visited (.obj (withFormats (c.allowed ++ forceFrom (e.getD []) (.obj m :: cs)) m')) y') ∧
          (∀ b, y = .bool b → y' = y) := by
      intro e' hbl hf
      obtain ⟨y', h1, h2, h3, h4⟩ := ih e'
      refine ⟨y', .step (x := restrictFrom c e' x) ?_ (restrictFrom_preserves c e' x hx) h1, fun hb => h2 (hbl hb), ?_, h4⟩
      · rw [dropFormat_eq]; exact tsub_step (stepTo_withFormats.2 hst) hx
      · intro hb m' hm; rw [hf]
        refine h3 (fun hb' => hb ?_) m' hm
        obtain ⟨c', hc', hu⟩ := hb'
        exact ⟨c', List.mem_cons_of_mem _ hc', hu⟩
    cases hd : decl (.obj m) with
    | silent =>
      refine go e ?_ (by rw [forceFrom_cons, hd])
      rintro ⟨c', hc', hu⟩
      rcases List.mem_cons.1 hc' with rfl | hc'
      · rw [hd] at hu; cases hu
      · exact ⟨c', hc', hu⟩
    | known fs =>
      refine go (some fs) ?_ (by rw [forceFrom_cons, hd]; rfl)
      rintro ⟨c', hc', hu⟩
      rcases List.mem_cons.1 hc' with rfl | hc'
      · rw [hd] at hu; cases hu
      · exact ⟨c', hc', hu⟩
    | unknown =>
      refine ⟨y, .step hst hx (aux htr), fun _ => rfl, ?_, fun _ _ => rfl⟩
      intro hb; exact absurd ⟨_, by simp, hd⟩ hb

theorem restrict_locate_off (c : FormatsCfg) (hc : c.inferFromMetaSchema = false) {s x : Json} {p : List Step}
    {cs : List Json} (h : Trail visited s p cs x) :
    ∃ y, Locate visited (restrictFrom c none s) p y ∧
      (∀ m, x = .obj m → Frame visited (.obj (withFormats c.allowed m)) y) ∧ (∀ b, x = .bool b → y = x) := by
  induction h with
  | here hs =>
    cases hs with
    | bool b =>
      rw [restrictFrom_bool]
      exact ⟨_, .here (.bool b), (fun m hm => by cases hm), fun _ _ => rfl⟩
    | obj m =>
      rw [restrictFrom_eq, inferFormats_off c hc]
      refine ⟨_, .here (tsub_isSchema (.obj _)), ?_, (fun b hb => by cases hb)⟩
      intro m' hm; cases hm
      simp only; rw [dropFormat_eq]; simp only [Option.getD_none, List.append_nil]; exact tsub_frame _ _
  | @step s st x p cs y hst hx htr ih =>
    have : ∃ m, s = .obj m := by cases hst <;> exact ⟨_, rfl⟩
    obtain ⟨m, rfl⟩ := this
    rw [restrictFrom_eq, inferFormats_off c hc]
    obtain ⟨y', h1, h2, h3⟩ := ih
    refine ⟨y', .step (x := restrictFrom c none x) ?_ (restrictFrom_preserves c none x hx) h1, h2, h3⟩
    simp only; rw [dropFormat_eq]; exact tsub_step (stepTo_withFormats.2 hst) hx

/-- C22: at every location of the input, RestrictFormats leaves a schema. It is the same as before if an
enclosing schema declares an unknown meta-schema (and the setting asks to look); otherwise it differs only by
the removal of a string `format` that is neither explicitly allowed nor defined by the nearest enclosing known
meta-schema, and in its direct subschemas (to which this theorem applies again). -/
theorem C22_restrict (c : FormatsCfg) {s x : Json} {p : List Step} {cs : List Json}
    (h : Trail visited s p cs x) :
    ∃ y, Locate visited (restrictFormats c s) p y ∧
      (Stopped c.inferFromMetaSchema cs → y = x) ∧
      (¬ Stopped c.inferFromMetaSchema cs → ∀ m, x = .obj m →
        Frame visited (.obj (withFormats (kept c.inferFromMetaSchema c.allowed cs) m)) y) ∧
      (∀ b, x = .bool b → y = x) := by
  unfold restrictFormats Stopped kept
  cases hc : c.inferFromMetaSchema with
  | true =>
    obtain ⟨y, h1, h2, h3, h4⟩ := restrict_locate c hc h none
    refine ⟨y, h1, fun h => h2 h.2, ?_, h4⟩
    intro hb m hm
    have := h3 (fun h => hb ⟨rfl, h⟩) m hm
    rw [inForce_eq]; simpa using this
  | false =>
    obtain ⟨y, h1, h2, h3⟩ := restrict_locate_off c hc h
    refine ⟨y, h1, (fun h => by cases h.1), fun _ m hm => by simpa using h2 m hm, h3⟩

/-- C22: no subschema appears that was not there before. -/
theorem C22_no_new (c : FormatsCfg) {s y : Json} {p : List Step} (hs : IsSchema s)
    (h : Locate visited (restrictFormats c s) p y) : ∃ x, Locate visited s p x := by
  unfold restrictFormats at h
  generalize (none : Option (List String)) = e at h
  induction p generalizing s e with
  | nil => exact ⟨s, .here hs⟩
  | cons st p ih =>
    cases h with
    | step hst hx hl =>
      cases hs with
      | bool b => rw [restrictFrom_bool] at hst; cases hst
      | obj m =>
        rw [restrictFrom_eq] at hst
        split at hst
        · exact ⟨_, .step hst hx hl⟩
        · rw [dropFormat_eq] at hst
          obtain ⟨x0, h1, h2, rfl⟩ := tsub_step_inv (restrictFrom_preserves c _) hst hx
          obtain ⟨x, hx'⟩ := ih h2 _ hl
          exact ⟨x, .step (stepTo_withFormats.1 h1) h2 hx'⟩

private def c22 : FormatsCfg := ⟨true, ["custom"]⟩
private def s22 : Json := .obj [("$schema", .str "https://json-schema.org/draft/2020-12/schema"),
  ("anyOf", .arr [.obj [("format", .str "uuid")],
    .obj [("$schema", .str "http://json-schema.org/draft-07/schema#"), ("format", .str "uuid")],
    .obj [("format", .str "custom")], .obj [("format", .str "other")],
    .obj [("$schema", .str "other"), ("format", .str "other")]])]
example : restrictFormats c22 s22 = .obj [("$schema", .str "https://json-schema.org/draft/2020-12/schema"),
  ("anyOf", .arr [.obj [("format", .str "uuid")],
    .obj [("$schema", .str "http://json-schema.org/draft-07/schema#")],
    .obj [("format", .str "custom")], .obj [],
    .obj [("$schema", .str "other"), ("format", .str "other")]])] := by decide
example : ∃ cs, Trail visited s22 [.idx "anyOf" 4] cs (.obj [("$schema", .str "other"), ("format", .str "other")]) ∧
    Stopped true cs :=
  ⟨_, .step (.idx (by rfl) (by decide) (by rfl)) (.obj _) (.here (.obj _)), rfl, _, List.mem_cons_of_mem _ List.mem_cons_self, by decide⟩

/-! ## C56 -/

/-- C56, the documentation of `infer_from_meta_schema` (schemars/src/transform.rs:600-604): if the meta-schema
cannot be determined because `$schema` is missing or unknown, no `format` is removed. It is false when
`$schema` is missing, see `C56_Full_false`. -/
def C56_Full : Prop :=
  ∀ (c : FormatsCfg) (s x y : Json) (p : List Step) (cs : List Json),
    c.inferFromMetaSchema = true → Trail visited s p cs x → Locate visited (restrictFormats c s) p y →
    (Blocked cs ∨ ∀ d ∈ cs, decl d = .silent) → ∀ m, x = .obj m →
    ∃ m', y = .obj m' ∧ Obj.get m' "format" = Obj.get m "format"

/-- C56: with an unknown `$schema` nothing is removed. What is missing for `C56_Full` is the case without any
`$schema`. -/
theorem C56_unknown_partial (c : FormatsCfg) {s x : Json} {p : List Step} {cs : List Json}
    (hc : c.inferFromMetaSchema = true) (h : Trail visited s p cs x) (hb : Blocked cs) :
    Locate visited (restrictFormats c s) p x := by
  obtain ⟨y, h1, h2, _⟩ := C22_restrict c h
  exact h2 ⟨hc, hb⟩ ▸ h1

/-- C56: a schema without `$schema` loses its formats, against the documentation. -/
theorem C56_Full_false : ¬ C56_Full := by
  intro h
  obtain ⟨m', hm, hg⟩ := h ⟨true, []⟩ (.obj [("format", .str "uuid")]) (.obj [("format", .str "uuid")]) (.obj []) []
    [.obj [("format", .str "uuid")]] rfl (.here (.obj _))
    (by have : restrictFormats ⟨true, []⟩ (.obj [("format", .str "uuid")]) = .obj [] := by decide
        rw [this]; exact .here (.obj _))
    (.inr (by intro d hd; simp at hd; subst hd; decide)) _ rfl
  cases hm; revert hg; decide

theorem frame_format {m : List (String × Json)} {y : Json} (h : Frame visited (.obj m) y) :
    ∃ m', y = .obj m' ∧ Obj.get m' "format" = Obj.get m "format" := by
  cases h with
  | @obj _ m' hk hv =>
    refine ⟨m', rfl, ?_⟩
    cases hg : Obj.get m "format" with
    | none => rw [Obj.get_eq_none, hk, ← Obj.get_eq_none]; exact hg
    | some v =>
      obtain ⟨v', hv', h⟩ := hv _ _ hg
      rw [hv']
      rcases h with h | ⟨h, _⟩ | ⟨h, _⟩ | ⟨h, _⟩
      · rw [h]
      · exact absurd h (by decide)
      · exact absurd h (by decide)
      · exact absurd h (by decide)
  | other _ h => exact absurd rfl (h m)

theorem withFormats_format (allowed : List String) (m : List (String × Json)) :
    Obj.get (withFormats allowed m) "format" = Obj.get m "format" ↔
      ∀ f, Obj.get m "format" = some (.str f) → f ∈ allowed := by
  unfold withFormats
  split
  · rename_i f hf
    split
    · rename_i ha
      simp only [true_iff]
      intro g hg
      rw [hf] at hg
      cases hg
      exact ha
    · rename_i ha
      have h : Obj.get (m.filter fun e => e.1 ≠ "format") "format" = none := by
        rw [Obj.get_eq_none]
        simp [Obj.keys]
      constructor
      · intro he
        rw [h, hf] at he
        simp at he
      · exact fun hall => absurd (hall f hf) ha
  · rename_i hne
    simp only [true_iff]
    exact fun f hf => absurd hf (hne f)

/-- C56: what is kept at a location, exactly. With an unknown `$schema` around it, everything. Otherwise a `format` is
kept if it is no string, is explicitly allowed, or belongs to the nearest known `$schema`; in particular, without any
`$schema` only those that are explicitly allowed are kept, and the claim holds exactly for them. -/
theorem C56_iff (c : FormatsCfg) {s x : Json} {p : List Step} {cs : List Json}
    (hc : c.inferFromMetaSchema = true) (h : Trail visited s p cs x) {m : List (String × Json)} (hx : x = .obj m) :
    ∃ m', Locate visited (restrictFormats c s) p (.obj m') ∧
      (Obj.get m' "format" = Obj.get m "format" ↔
        Blocked cs ∨ ∀ f, Obj.get m "format" = some (.str f) → f ∈ c.allowed ∨ f ∈ inForce cs) ∧
      ((∀ d ∈ cs, decl d = .silent) → inForce cs = []) := by
  have hin : (∀ d ∈ cs, decl d = .silent) → inForce cs = [] := by
    intro hs
    rw [inForce_eq]
    clear h
    induction cs with
    | nil => rfl
    | cons d cs ih =>
      rw [forceFrom_cons, hs d List.mem_cons_self]
      exact ih fun e he => hs e (List.mem_cons_of_mem _ he)
  obtain ⟨y, h1, h2, h3, -⟩ := C22_restrict c h
  by_cases hb : Blocked cs
  · have := h2 ⟨hc, hb⟩
    subst this hx
    exact ⟨m, h1, by simp [hb], hin⟩
  · obtain ⟨m', rfl, hf⟩ := frame_format (h3 (fun h => hb h.2) m hx)
    refine ⟨m', h1, ?_, hin⟩
    rw [hf, withFormats_format]
    simp only [hb, false_or, kept, hc, if_true, List.mem_append]

example : ∃ m', Locate visited (restrictFormats ⟨true, ["custom"]⟩ (.obj [("format", .str "custom")])) [] (.obj m') ∧
    Obj.get m' "format" = some (.str "custom") := by
  obtain ⟨m', h1, h2, -⟩ := C56_iff ⟨true, ["custom"]⟩ rfl (.here (.obj [("format", .str "custom")])) rfl
  exact ⟨m', h1, h2.2 (.inr fun f hf => by cases hf; simp)⟩

end Verif
