import Verif.Lemmas.TidyFlatten
import Verif.Props.Accepts

/-!
# The schemas of derived types are tidy
-/

namespace Verif
open Spec

variable {τ : Type}

/-! ## Attributes -/

/-- The attributes do not set `$defs` or `definitions`. -/
def Spec.Quiet (a : CommonAttrs) : Prop := ∀ e ∈ a.extensions, e.1 ≠ "$defs" ∧ e.1 ≠ "definitions"

/-- The attributes of the fields. -/
def fieldsAttrs : Fields τ → List CommonAttrs
  | .unit => []
  | .newtype f => [f.common]
  | .tuple fs => fs.map (·.common)
  | .struct fs => fs.map (·.common)

/-- The attributes of the data of a type. -/
def dataAttrs : DeriveData τ → List CommonAttrs
  | .struct fields => fieldsAttrs fields
  | .enum _ vs => vs.flatMap fun v => v.common :: fieldsAttrs v.fields

/-- All attributes in a declaration. -/
def declAttrs : Decl τ → List CommonAttrs
  | .std _ => []
  | .derived c => c.common :: (c.transparent.elim [] fun f => [f.common]) ++ dataAttrs c.data

/-- No attribute of the declaration sets `$defs` or `definitions`. -/
def Spec.QuietDecl (d : Verif.Decl τ) : Prop := ∀ a ∈ declAttrs d, Quiet a

/-- The mutator sets an annotation other than definitions, or does nothing. -/
def Notes (f : Json → Json) : Prop := (∃ k ∈ notes, ∃ v, ∀ s, f s = Schema.put s k v) ∨ ∀ s, f s = s

theorem Notes.annotates {f : Json → Json} (h : Notes f) : Annotates f := by
  rcases h with ⟨k, hk, v, h⟩ | h
  · exact .inl ⟨k, (List.mem_filter.1 hk).1, v, h⟩
  · exact .inr h

theorem notes_metadata {k : String} (hk : k ∈ notes) (v : String) :
    Notes fun s => insertMetadataIfNonempty s k v := by
  by_cases h : v = ""
  · right; intro s; simp [insertMetadataIfNonempty, h]
  · left; exact ⟨k, hk, .str v, fun s => by simp [insertMetadataIfNonempty, h]⟩

theorem notes_common {a : CommonAttrs} (h : Harmless a) (hq : Quiet a) : ∀ f ∈ a.mutators, Notes f := by
  intro f hf
  unfold CommonAttrs.mutators at hf
  rw [h.1, List.append_nil] at hf
  simp only [List.mem_append, List.mem_map] at hf
  rcases hf with (((hf | hf) | hf) | hf) | ⟨e, he, rfl⟩
  · cases ht : a.effectiveTitle with
    | none => simp [ht] at hf
    | some t =>
      simp only [ht, Option.elim_some, List.mem_singleton] at hf
      subst hf; exact notes_metadata (by decide) t
  · cases ht : a.effectiveDescription with
    | none => simp [ht] at hf
    | some t =>
      simp only [ht, Option.elim_some, List.mem_singleton] at hf
      subst hf; exact notes_metadata (by decide) t
  · split at hf
    · simp only [List.mem_singleton] at hf; subst hf
      exact .inl ⟨"deprecated", by decide, _, fun _ => rfl⟩
    · cases hf
  · split at hf
    · cases hf
    · simp only [List.mem_singleton] at hf; subst hf
      exact .inl ⟨"examples", by decide, _, fun _ => rfl⟩
  · refine .inl ⟨e.1, List.mem_filter.2 ⟨h.2 e he, ?_⟩, e.2, fun _ => rfl⟩
    have := hq e he
    simp [this.1, this.2]

theorem notes_field {f : Field τ} (hf : FreeField f) (hq : Quiet f.common) : ∀ g ∈ f.mutators, Notes g := by
  intro g hg
  unfold Field.mutators at hg
  rw [hf.2, noAttrs_mutators, List.append_nil] at hg
  simp only [List.mem_append] at hg
  rcases hg with (hg | hg) | hg
  · exact notes_common hf.1 hq g hg
  · split at hg
    · simp only [List.mem_singleton] at hg; subst hg
      exact .inl ⟨"readOnly", by decide, _, fun _ => rfl⟩
    · cases hg
  · split at hg
    · simp only [List.mem_singleton] at hg; subst hg
      exact .inl ⟨"writeOnly", by decide, _, fun _ => rfl⟩
    · cases hg

theorem Notes.tidy {f : Json → Json} (hf : Notes f) {s : Json} (h : Tidy s) : Tidy (f s) := by
  rcases hf with ⟨k, hk, v, e⟩ | e
  · rw [e]; exact h.note hk v
  · rw [e]; exact h

theorem tidy_run {l : List (Json → Json)} (hl : ∀ f ∈ l, ∀ s, Tidy s → Tidy (f s)) {s : Json} (h : Tidy s) :
    Tidy (runMutators l s) := by
  induction l generalizing s with
  | nil => exact h
  | cons f l ih => exact ih (fun g hg => hl g (List.mem_cons_of_mem _ hg)) (hl f (List.mem_cons_self ..) s h)

theorem tidy_mutators {l : List (Json → Json)} (hl : ∀ f ∈ l, Notes f) {s : Json} (h : Tidy s) : Tidy (runMutators l s) :=
  tidy_run (fun f hf _ hs => (hl f hf).tidy hs) h

/-! ## Validation attributes -/

theorem Tidy.validation {s : Json} (h : Tidy s) {k : String} (hk : k ∈ "format" :: boundKeys) (ty : String) (v : Json) :
    Tidy (insertValidation s ty k v) := by
  have h1 := (by decide : ∀ k ∈ "format" :: boundKeys, subSlot k = .skip ∧ k ∉ "$ref" :: "type" :: strayKeys ∧
    k ∉ ["const", "enum", "type"]) k hk
  unfold insertValidation
  split
  · exact h.put (te_skip v h1.1 h1.2.1) h1.2.2
  · exact h

theorem tidy_inner {s : Json} (h : Tidy s) {f : Json → Json} (hf : ∀ s, Tidy s → Tidy (f s)) :
    Tidy (applyInnerValidation s f) := by
  unfold applyInnerValidation Schema.getMut
  cases h with
  | bool b => exact .bool b
  | @obj m h1 h2 h3 h4 =>
    have h : Tidy (.obj m) := .obj h1 h2 h3 h4
    have hne : ∀ k, k ≠ "items" → Obj.get (Obj.modify m "items" fun t => if isSchema t = true then f t else t) k =
        Obj.get m k := by
      intro k hk; rw [Obj.get_modify, if_neg (Ne.symm hk)]
    have hv := (fineValues_get h1).1 h3
    refine tidy_of_get (Obj.sorted_modify h1 _ _) (fun k v hk => ?_) ?_ ?_
    · by_cases hi : k = "items"
      · subst hi
        rw [Obj.get_modify, if_pos rfl] at hk
        obtain ⟨t, ht, rfl⟩ := Option.map_eq_some_iff.1 hk
        have he := h.entry ht
        split
        · next hs =>
          refine te_items (hf t (he.2 t ?_))
          show t ∈ slotSubs .items t
          cases t <;> first | exact List.mem_singleton.2 rfl | cases hs
        · exact he
      · rw [hne k hi] at hk
        exact h.entry hk
    · rw [hne "const" (by decide), hne "enum" (by decide)]; exact hv.1
    · rw [hne "type" (by decide), hne "const" (by decide), hne "enum" (by decide)]; exact hv.2

theorem tidy_bounds {l : LengthOrRange} {ty suffix : String} (h1 : "min" ++ suffix ∈ boundKeys)
    (h2 : "max" ++ suffix ∈ boundKeys) : ∀ f ∈ lengthOrRangeMutators l ty suffix, ∀ s, Tidy s → Tidy (f s) := by
  intro f hf s hs
  unfold lengthOrRangeMutators at hf
  rcases List.mem_append.1 hf with hf | hf
  · cases hv : l.min.or l.equal with
    | none => rw [hv] at hf; cases hf
    | some v =>
      rw [hv] at hf
      simp only [Option.elim_some, List.mem_singleton] at hf
      subst hf
      exact hs.validation (List.mem_cons_of_mem _ h1) _ _
  · cases hv : l.max.or l.equal with
    | none => rw [hv] at hf; cases hf
    | some v =>
      rw [hv] at hf
      simp only [Option.elim_some, List.mem_singleton] at hf
      subst hf
      exact hs.validation (List.mem_cons_of_mem _ h2) _ _

theorem tidy_attrs : ∀ a : ValidationAttrs, ∀ f ∈ a.mutators, ∀ s, Tidy s → Tidy (f s)
  | .mk length range pattern regex contains format inner => by
    intro f hf s hs
    unfold ValidationAttrs.mutators at hf
    simp only [List.mem_append] at hf
    rcases hf with ((((hf | hf) | hf) | hf) | hf) | hf
    · cases length with
      | none => cases hf
      | some l =>
        rcases List.mem_append.1 hf with hf | hf
        · exact tidy_bounds (by decide) (by decide) f hf s hs
        · exact tidy_bounds (by decide) (by decide) f hf s hs
    · cases range with
      | none => cases hf
      | some l => exact tidy_bounds (by decide) (by decide) f hf s hs
    · cases hp : regex.or pattern with
      | none => rw [hp] at hf; cases hf
      | some p =>
        rw [hp] at hf
        simp only [Option.elim_some, List.mem_singleton] at hf
        subst hf
        exact hs.validation (by decide) _ _
    · cases contains with
      | none => cases hf
      | some c =>
        simp only [Option.elim_some, List.mem_singleton] at hf
        subst hf
        exact hs.validation (by decide) _ _
    · cases format with
      | none => cases hf
      | some c =>
        simp only [Option.elim_some, List.mem_singleton] at hf
        subst hf
        exact hs.put (te_skip _ (by decide) (by decide)) (by decide)
    · cases inner with
      | none => cases hf
      | some a =>
        simp only [List.mem_singleton] at hf
        subst hf
        exact tidy_inner hs fun s hs => tidy_run (tidy_attrs a) hs

theorem tidies_field {f : Field τ} (hf : FieldOk f) (hq : Quiet f.common) {s : Json} (h : Tidy s) :
    Tidy (runMutators f.mutators s) := by
  refine tidy_run (fun g hg s hs => ?_) h
  by_cases hv : g ∈ f.validation.mutators
  · exact tidy_attrs _ g hv s hs
  · have : g ∈ ({f with validation := .noAttrs} : Field τ).mutators := by
      unfold Field.mutators at hg ⊢
      simp only [List.mem_append] at hg ⊢
      rcases hg with ((hg | hg) | hg) | hg
      · exact .inl (.inl (.inl hg))
      · exact absurd hg hv
      · exact .inl (.inr hg)
      · exact .inr hg
    exact (notes_field (f := {f with validation := .noAttrs}) ⟨hf, rfl⟩ hq g this).tidy hs

/-! ## Structs -/

/-- The schema of a struct, with tidy properties. -/
structure Neat (m p : List (String × Json)) (r : List String) (deny : Bool) : Prop where
  shape : Shape m p r deny
  sorted : Obj.Sorted p
  props : ∀ e ∈ p, Tidy e.2
  defs : ∀ k, k = "$defs" ∨ k = "definitions" → Obj.get m k = none

theorem Neat.tidy {m p : List (String × Json)} {r : List String} {deny : Bool} (h : Neat m p r deny) : Tidy (.obj m) := by
  refine tidy_of_get h.shape.sorted (fun k v hk => ?_) ?_ ?_
  · by_cases ha : k ∈ annotations
    · refine te_note (List.mem_filter.2 ⟨ha, ?_⟩) v
      by_contra hno
      have : k = "$defs" ∨ k = "definitions" := by simpa [or_iff_not_imp_left] using hno
      rw [h.defs k this] at hk; cases hk
    · by_cases hb : k ∈ ["type", "properties", "required", "additionalProperties"]
      · simp only [List.mem_cons, List.not_mem_nil, or_false] at hb
        rcases hb with rfl | rfl | rfl | rfl
        · rw [h.shape.type] at hk; cases hk; exact te_type _
        · rcases h.shape.props with ⟨e, -⟩ | e <;> rw [e] at hk <;> cases hk
          exact te_map (by decide) h.props
        · exact te_skip _ (by decide) (by decide)
        · rw [h.shape.deny] at hk
          cases deny <;> cases hk
          exact te_one (by decide) (.bool _)
      · rw [h.shape.other k ha hb] at hk; cases hk
  · exact .inl (h.shape.other _ (by decide) (by decide))
  · intro _ _ _
    exact ⟨h.shape.other _ (by decide) (by decide), h.shape.other _ (by decide) (by decide)⟩

theorem Neat.annotate {m p : List (String × Json)} {r : List String} {deny : Bool} (h : Neat m p r deny)
    {l : List (Json → Json)} (hl : ∀ f ∈ l, Notes f) : ∃ m', runMutators l (.obj m) = .obj m' ∧ Neat m' p r deny := by
  obtain ⟨m', e, hs⟩ := h.shape.annotate fun f hf => (hl f hf).annotates
  refine ⟨m', e, hs, h.sorted, h.props, fun k hk => ?_⟩
  have ht := tidy_mutators hl h.tidy
  rw [e] at ht
  cases hg : Obj.get m' k with
  | none => rfl
  | some v =>
    exact absurd (by rcases hk with rfl | rfl <;> decide) (ht.entry hg).1.stray

theorem Neat.insertProperty {m p : List (String × Json)} {r : List String} {deny : Bool} (h : Neat m p r deny)
    (key : String) (opt : Bool) {s : Json} (hs : Tidy s) : ∃ m', insertObjectProperty (.obj m) key opt s = .obj m' ∧
      Neat m' (Obj.insert p key s) (r ++ if opt then [] else [key]) deny := by
  obtain ⟨m', e, h1⟩ := h.shape.insertProperty key opt s
  refine ⟨m', e, h1, Obj.sorted_insert h.sorted _ _, fun x hx => ?_, fun k hk => ?_⟩
  · rcases Obj.mem_insert hx with rfl | hx
    · exact hs
    · exact h.props x hx
  · obtain ⟨m'', e', -, -, -, h5⟩ := insertObjectProperty_obj h.shape.sorted h.shape.props h.shape.req key opt s
    rw [e] at e'
    cases e'
    rw [h5 k (by rcases hk with rfl | rfl <;> decide) (by rcases hk with rfl | rfl <;> decide)]
    exact h.defs k hk

theorem Neat.flatten {m1 p1 m2 p2 : List (String × Json)} {r1 r2 : List String} {deny : Bool}
    (h1 : Neat m1 p1 r1 deny) (h2 : Neat m2 p2 r2 false) :
    ∃ m p, Verif.flatten (.obj m1) (.obj m2) = .obj m ∧ Neat m p (r1 ++ r2) deny := by
  obtain ⟨m, p, e, hs, hp, hg⟩ := h1.shape.flatten h2.shape h1.sorted h2.sorted
  refine ⟨m, p, e, hs, hp, fun x hx => ?_, fun k hk => ?_⟩
  · have := Obj.get_of_mem_sorted hp hx
    rw [hg] at this
    cases h3 : Obj.get p2 x.1 with
    | some v => rw [h3] at this; cases this; exact h2.props _ (Obj.get_mem h3)
    | none => rw [h3] at this; exact h1.props _ (Obj.get_mem this)
  · have e : Json.obj (flattenObjects m1 m2) = .obj m := e
    cases e
    have hap2 : Obj.get m2 "additionalProperties" = none := h2.shape.deny
    have hn1 : normaliseUnevaluated m1 m2 = m1 := by
      unfold normaliseUnevaluated
      split
      · rw [h2.shape.noInPlace]
        simp [Obj.has, h2.shape.other "unevaluatedProperties" (by decide) (by decide)]
      · rfl
    rw [flattenObjects_eq, hn1, normalise_id hap2, get_mergeAll_plain (Obj.sorted_nodup h2.shape.sorted)
      (by rcases hk with rfl | rfl <;> decide) (by rcases hk with rfl | rfl <;> decide), h2.defs k hk]
    exact h1.defs k hk

theorem Neat.flattenInner {m p : List (String × Json)} {r : List String} {deny : Bool} (h : Neat m p r deny)
    (optional : Bool) : ∃ m', Verif.flattenInner (.obj m) optional = .obj m' ∧
      Neat m' p (if optional then [] else r) false := by
  obtain ⟨m', e, hs⟩ := h.shape.flattenInner optional
  refine ⟨m', e, hs, h.sorted, h.props, fun k hk => ?_⟩
  have hexp : expandUnitVariants (.obj m) = .obj m := by
    have : removeUnitVariants (.obj m) = (.obj m, none) := by
      unfold removeUnitVariants
      simp only
      rw [h.shape.type]
      have hb : ((some (Json.str "object")).bind Json.asStr? == some "string") = false := rfl
      rw [hb]
      simp only [Bool.false_eq_true, if_false, h.shape.other "oneOf" (by decide) (by decide)]
    unfold expandUnitVariants
    rw [this]
  have hopt : ∃ m1, (if optional then flattenOptional (.obj m) else .obj m) = .obj m1 ∧ Obj.get m1 k = none := by
    cases optional with
    | false => exact ⟨m, rfl, h.defs k hk⟩
    | true =>
      have hone : Obj.get (Obj.remove m "required") "oneOf" = none := by
        rw [Obj.get_remove_ne _ (by decide)]; exact h.shape.other _ (by decide) (by decide)
      refine ⟨_, by simp only [if_true]; unfold flattenOptional; simp only [Schema.remove, hone, Schema.getMut]; rfl, ?_⟩
      rw [Obj.get_modify, if_neg (by rcases hk with rfl | rfl <;> decide),
        Obj.get_remove_ne _ (by rcases hk with rfl | rfl <;> decide),
        Obj.get_remove_ne _ (by rcases hk with rfl | rfl <;> decide)]
      exact h.defs k hk
  obtain ⟨m1, e1, h1⟩ := hopt
  obtain ⟨m2, e2, -, hg, -⟩ := get_allowUnknown (m := m1)
  unfold Verif.flattenInner at e
  simp only at e
  rw [hexp, e1, e2] at e
  cases e
  rw [hg k (by rcases hk with rfl | rfl <;> decide), h1]; rfl

/-! ## Derived types -/

/-- The answers of the family are tidy. -/
structure TidyFamily (decl : τ → Decl τ) (I : TypeInfo τ) (F : Answers τ → Prop) : Prop where
  ser : ∀ A, F A → A.settings.contract = .serialize
  sub : ∀ A, F A → ∀ t s, A.sub t s → Tidy s
  direct : ∀ A, F A → ∀ t s, A.direct t s → Tidy s
  ran : ∀ A, F A → ∀ t s, A.direct t s → RanBody F I decl t s

section
variable {decl : τ → Decl τ} {I : TypeInfo τ} {F : Answers τ → Prop} {A : Answers τ} {s : Json}

theorem tidy_field (hF : TidyFamily decl I F) (hA : F A) {f : Field τ} (hf : FieldOk f) (hq : Quiet f.common)
    (h : Returns A (fieldProg I f false) s) : Tidy s := by
  unfold fieldProg at h
  rw [res_map] at h
  obtain ⟨s0, h0, rfl⟩ := h
  refine tidies_field hf hq ?_
  by_cases hr : f.required = true
  · simp only [hr, if_true] at h0
    obtain ⟨s1, h1, rfl⟩ := h0
    exact hF.direct A hA _ _ h1
  · simp only [hr, if_false, Bool.false_eq_true] at h0
    obtain ⟨s1, h1, rfl⟩ := h0
    exact hF.sub A hA _ _ h1

theorem neat_start (deny : Bool) : ∃ m, mkObj (("type", .str "object") ::
    if deny then [("additionalProperties", .bool false)] else []) = .obj m ∧ Neat m [] [] deny := by
  obtain ⟨m, e, h⟩ := shape_start deny
  refine ⟨m, e, h, .nil, fun x hx => (by cases hx), fun k hk => ?_⟩
  cases e
  cases deny <;> rcases hk with rfl | rfl <;> rfl

theorem tidy_insertDefault {f : Field τ} (cd : Bool) (h : Tidy s) : Tidy (insertDefault cd f s) := by
  unfold insertDefault
  split
  · exact h
  · split
    · exact h.note (by decide) _
    · exact h

theorem names_flat_derived {fs : List (Field τ)} {ns : List String} {base : τ → τ} (h : FieldNames decl base fs ns) :
    ∀ f ∈ fs, f.skipSer = false → f.flatten = true → ∃ c, decl (base f.ty) = .derived c := by
  induction h with
  | nil => intro f hf; cases hf
  | @skip f fs ns h1 _ ih =>
    intro g hg hs hl
    rcases List.mem_cons.1 hg with rfl | hg
    · rw [hs] at h1; cases h1
    · exact ih g hg hs hl
  | @own f fs ns h1 h2 _ ih =>
    intro g hg hs hl
    rcases List.mem_cons.1 hg with rfl | hg
    · rw [hl] at h2; cases h2
    · exact ih g hg hs hl
  | @flat f fs ns c gs ms h1 h2 hd _ _ _ _ ih =>
    intro g hg hs hl
    rcases List.mem_cons.1 hg with rfl | hg
    · exact ⟨c, hd⟩
    · exact ih g hg hs hl

/-- The fields of a plain struct of the program. -/
theorem plain_ok (hok : ∀ t, WideDecl decl I (decl t)) (hq : ∀ t, QuietDecl (decl t)) {t : τ} {c : Container τ}
    {gs : List (Field τ)} (hd : decl t = .derived c) (hc : PlainData c gs) {ns : List String}
    (hn : FieldNames decl I.base gs ns) : FieldsOk I gs ∧ (∀ f ∈ gs, Quiet f.common) ∧ ∀ f ∈ c.common.mutators, Notes f := by
  have h1 := hok t
  have h2 := hq t
  rw [hd] at h1 h2
  have h3 : FieldsOk I gs := by
    rcases h1 with h1 | ⟨c', fs, e, h1⟩ | ⟨c', as, f, bs, e, h1⟩
    · have h3 := h1.data hc.noWith hc.noTransparent hc.noInto
      rw [hc.data] at h3
      obtain ⟨ns, h3⟩ := h3
      exact h3.fields
    · cases e
      have e := h1.data.symm.trans hc.data
      cases e
      obtain ⟨-, -, -, h3⟩ := h1.wide
      exact h3
    · cases e
      have e := h1.data.symm.trans hc.data
      cases e
      obtain ⟨c', e⟩ := names_flat_derived hn f (by simp) h1.rest.1 h1.rest.2.1
      rcases h1.rest.2.2 with h | ⟨_, _, h, _⟩ <;> rw [e] at h <;> cases h
  refine ⟨h3, fun f hf => h2 _ ?_, notes_common hc.common (h2 _ (List.mem_cons_self ..))⟩
  simp only [declAttrs, hc.data]
  exact List.mem_append_right _ (List.mem_map_of_mem hf)

theorem neat_fields (hF : TidyFamily decl I F) (hok : ∀ t, WideDecl decl I (decl t)) (hq : ∀ t, QuietDecl (decl t))
    {fs : List (Field τ)} {ns : List String} (hn : FieldNames decl I.base fs ns) :
    ∀ {A : Answers τ} {cd deny : Bool} {m0 p0 : List (String × Json)} {r0 : List String} {s : Json}, F A →
    FieldsOk I fs → (∀ f ∈ fs, Quiet f.common) → Neat m0 p0 r0 deny →
    Returns A (structFieldsProg I cd fs (.obj m0)) s → ∃ m p r, s = .obj m ∧ Neat m p r deny := by
  induction hn with
  | nil =>
    intro A cd deny m0 p0 r0 s _ _ _ h0 h
    cases h
    exact ⟨m0, p0, r0, rfl, h0⟩
  | @skip f fs ns hsk _ ih =>
    intro A cd deny m0 p0 r0 s hA hfs hqs h0 h
    unfold structFieldsProg at h
    obtain ⟨s1, h1, h2⟩ := res_bind.1 h
    rw [returns_structField, if_neg (by rw [hF.ser A hA]; simp [NotSkipped, hsk])] at h1
    subst h1
    exact ih hA (fun f hf => hfs f (List.mem_cons_of_mem _ hf)) (fun f hf => hqs f (List.mem_cons_of_mem _ hf)) h0 h2
  | @own f fs ns hsk hfl _ ih =>
    intro A cd deny m0 p0 r0 s hA hfs hqs h0 h
    unfold structFieldsProg at h
    obtain ⟨s1, h1, h2⟩ := res_bind.1 h
    rw [returns_structField, if_pos (by rw [hF.ser A hA]; exact hsk)] at h1
    obtain ⟨s', h1, rfl⟩ := h1
    unfold FieldResult at h1
    unfold addField at h2
    rw [hfl] at h1 h2
    simp only [Bool.false_eq_true, if_false] at h1 h2
    obtain ⟨s2, h1, rfl⟩ := h1
    have ht := tidy_field hF hA ((hfs f (List.mem_cons_self ..) hsk).1 hfl) (hqs f (List.mem_cons_self ..)) h1
    obtain ⟨m1, e1, h3⟩ := h0.insertProperty (f.name.get A.settings.contract)
      (fieldOptional I cd f A.settings.contract) (tidy_insertDefault (f := f) cd ht)
    rw [e1] at h2
    exact ih hA (fun f hf => hfs f (List.mem_cons_of_mem _ hf)) (fun f hf => hqs f (List.mem_cons_of_mem _ hf)) h3 h2
  | @flat f fs ns c gs ms hsk hfl hd hc hgn _ ihg ih =>
    intro A cd deny m0 p0 r0 s hA hfs hqs h0 h
    unfold structFieldsProg at h
    obtain ⟨s1, h1, h2⟩ := res_bind.1 h
    rw [returns_structField, if_pos (by rw [hF.ser A hA]; exact hsk)] at h1
    obtain ⟨s', h1, rfl⟩ := h1
    unfold addField at h2
    rw [hfl] at h2
    simp only [if_true] at h2
    obtain ⟨s2, hd2, rfl⟩ := returns_flattenField hfl h1
    obtain ⟨A', hA', hb⟩ := hF.ran A hA _ _ hd2
    rw [hd] at hb
    obtain ⟨s3, hb3, rfl⟩ := plain_container hc (hF.ser A' hA') hb
    obtain ⟨mi, ei, hi⟩ := neat_start c.denyUnknownFields
    unfold structProg at hb3
    rw [ei] at hb3
    obtain ⟨k1, k2, k3⟩ := plain_ok hok hq hd hc hgn
    obtain ⟨m3, p3, r3, rfl, hs3⟩ := ihg hA' k1 k2 hi hb3
    obtain ⟨m4, e4, hs4⟩ := hs3.annotate k3
    rw [e4] at h2
    obtain ⟨m5, e5, hs5⟩ := hs4.flattenInner (I.isOption f.ty && !f.required)
    rw [e5] at h2
    obtain ⟨m6, p6, e6, hs6⟩ := h0.flatten hs5
    rw [e6] at h2
    exact ih hA (fun f hf => hfs f (List.mem_cons_of_mem _ hf)) (fun f hf => hqs f (List.mem_cons_of_mem _ hf)) hs6 h2

theorem tidy_struct (hF : TidyFamily decl I F) (hA : F A) (hok : ∀ t, WideDecl decl I (decl t))
    (hq : ∀ t, QuietDecl (decl t)) {cd deny : Bool} {fs : List (Field τ)} {ns : List String} (hs : StructOk decl I fs ns)
    (hqs : ∀ f ∈ fs, Quiet f.common) (h : Returns A (structProg I fs cd deny) s) :
    ∃ m p r, s = .obj m ∧ Neat m p r deny := by
  obtain ⟨mi, ei, hi⟩ := neat_start deny
  unfold structProg at h
  rw [ei] at h
  exact neat_fields hF hok hq hs.names hA hs.fields hqs hi h

/-- The schema of a struct type. -/
theorem neat_type (hF : TidyFamily decl I F) (hok : ∀ t, WideDecl decl I (decl t)) (hq : ∀ t, QuietDecl (decl t)) {t : τ}
    {ns : List String} (hn : TypeNames decl I.base t ns) (h : RanBody F I decl t s) :
    ∃ m p r deny, s = .obj m ∧ Neat m p r deny := by
  obtain ⟨c, gs, hd, hc, hg⟩ := hn
  obtain ⟨A', hA', hb⟩ := h
  rw [hd] at hb
  obtain ⟨s3, hb3, rfl⟩ := plain_container hc (hF.ser A' hA') hb
  obtain ⟨mi, ei, hi⟩ := neat_start c.denyUnknownFields
  unfold structProg at hb3
  rw [ei] at hb3
  obtain ⟨k1, k2, k3⟩ := plain_ok hok hq hd hc hg
  obtain ⟨m3, p3, r3, rfl, hs3⟩ := neat_fields hF hok hq hg hA' k1 k2 hi hb3
  obtain ⟨m4, e4, hs4⟩ := hs3.annotate k3
  exact ⟨m4, p3, r3, _, e4, hs4⟩

theorem tidy_tupleStruct {ss : List Json} (hss : ∀ x ∈ ss, Tidy x) : Tidy (tupleStructSchema ss) := by
  unfold tupleStructSchema
  split
  · refine tidy_lit ?_ ?_ <;>
      simp only [List.nil_append, List.cons_append, List.mem_cons, List.not_mem_nil, or_false, forall_eq_or_imp, forall_eq]
    · exact ⟨te_type _, te_plain _ (by decide)⟩
    · decide
  · refine tidy_lit ?_ ?_ <;>
      simp only [List.nil_append, List.cons_append, List.mem_cons, List.not_mem_nil, or_false, forall_eq_or_imp, forall_eq]
    · exact ⟨te_type _, te_list (by decide) hss, te_plain _ (by decide), te_plain _ (by decide)⟩
    · decide

theorem tidy_tuple (hF : TidyFamily decl I F) (hA : F A) {fs : List (Field τ)} (hok : TupleOk fs)
    (hq : ∀ f ∈ fs, Quiet f.common) (h : Returns A (tupleStructProg I fs) s) : Tidy s := by
  obtain ⟨ss, h1, rfl⟩ := returns_tuple (hF.ser A hA) h
  have hss : ∀ x ∈ ss, Tidy x := by
    have hfs : ∀ f ∈ present fs .serialize, FieldOk f ∧ Quiet f.common := by
      intro f hf
      unfold present at hf
      rw [List.mem_filter] at hf
      exact ⟨(hok f hf.1 (of_decide_eq_true hf.2)).1, hq f hf.1⟩
    generalize present fs .serialize = gs at h1 hfs
    clear h
    induction h1 with
    | nil => exact fun x hx => by cases hx
    | @cons f s gs ss hf _ ih =>
      intro x hx
      rcases List.mem_cons.1 hx with rfl | hx
      · exact tidy_field hF hA (hfs f (List.mem_cons_self ..)).1 (hfs f (List.mem_cons_self ..)).2 hf
      · exact ih (fun g hg => hfs g (List.mem_cons_of_mem _ hg)) x hx
  exact tidy_tupleStruct hss

theorem tidy_content (hF : TidyFamily decl I F) (hA : F A) (hok : ∀ t, WideDecl decl I (decl t))
    (hq : ∀ t, QuietDecl (decl t)) {v : Variant τ} {deny : Bool} (hv : VariantOk decl I v)
    (hqv : ∀ a ∈ fieldsAttrs v.fields, Quiet a) (h : Returns A (untaggedVariantProg I v deny false) s) : Tidy s := by
  unfold untaggedVariantProg at h
  simp only [Bool.false_eq_true, if_false] at h
  cases hw : v.withTy with
  | some t =>
    rw [hw] at h
    obtain ⟨s1, h1, rfl⟩ := h
    exact hF.sub A hA _ _ h1
  | none =>
    rw [hw] at h
    simp only at h
    have hc := hv.content hw
    cases hf : v.fields with
    | unit =>
      rw [hf] at h
      obtain ⟨s1, h1, rfl⟩ := h
      exact hF.sub A hA _ _ h1
    | newtype f =>
      rw [hf] at h hc hqv
      exact tidy_field hF hA hc (hqv _ (List.mem_singleton.2 rfl)) h
    | tuple fs =>
      rw [hf] at h hc hqv
      exact tidy_tuple hF hA hc (fun f hf => hqv _ (List.mem_map_of_mem hf)) h
    | struct fs =>
      rw [hf] at h hc hqv
      obtain ⟨ns, hc⟩ := hc
      obtain ⟨m, p, r, rfl, hs⟩ := tidy_struct hF hA hok hq hc (fun f hf => hqv _ (List.mem_map_of_mem hf)) h
      exact hs.tidy

theorem tidy_untagged (hF : TidyFamily decl I F) (hA : F A) (hok : ∀ t, WideDecl decl I (decl t))
    (hq : ∀ t, QuietDecl (decl t)) {v : Variant τ} {deny : Bool} (hv : VariantOk decl I v)
    (hqv : ∀ a ∈ v.common :: fieldsAttrs v.fields, Quiet a) (h : Returns A (untaggedVariantProg I v deny true) s) :
    Tidy s := by
  unfold untaggedVariantProg at h
  simp only [if_true] at h
  obtain ⟨t, h1, h2⟩ := res_bind.1 h
  have h1' : Returns A (untaggedVariantProg I v deny false) t := by
    unfold untaggedVariantProg
    simp only [Bool.false_eq_true, if_false]
    exact h1
  have ht := tidy_content hF hA hok hq hv (fun a ha => hqv a (List.mem_cons_of_mem _ ha)) h1'
  simp only [Returns] at h2
  rw [h2]
  refine tidy_mutators (notes_common hv.common (hqv _ (List.mem_cons_self ..))) ?_
  split
  · exact ht.note (by decide) _
  · exact ht

theorem tidy_internal (hF : TidyFamily decl I F) (hA : F A) (hok : ∀ t, WideDecl decl I (decl t))
    (hq : ∀ t, QuietDecl (decl t)) {v : Variant τ} {deny : Bool} {tag : String} (hv : VariantOk decl I v)
    (hi : InternalOk decl I tag v) (hqv : ∀ a ∈ fieldsAttrs v.fields, Quiet a)
    (h : Returns A (internalVariantProg I v deny) s) : Tidy s := by
  unfold internalVariantProg at h
  unfold InternalOk at hi
  cases hw : v.withTy with
  | some t =>
    rw [hw] at h
    obtain ⟨s1, h1, rfl⟩ := h
    exact hF.direct A hA _ _ h1
  | none =>
    rw [hw] at h hi
    simp only at h hi
    have hc := hv.content hw
    cases hf : v.fields with
    | unit =>
      rw [hf] at h
      obtain ⟨s1, h1, rfl⟩ := h
      exact hF.sub A hA _ _ h1
    | tuple fs => rw [hf] at hi; exact hi.elim
    | struct fs =>
      rw [hf] at h hc hqv
      obtain ⟨ns, hc⟩ := hc
      obtain ⟨m, p, r, rfl, hs⟩ := tidy_struct hF hA hok hq hc (fun f hf => hqv _ (List.mem_map_of_mem hf)) h
      exact hs.tidy
    | newtype f =>
      rw [hf] at h hi hc hqv
      simp only at h hi
      obtain ⟨-, ns, hn, -⟩ := hi
      unfold fieldProg at h
      rw [res_map] at h
      obtain ⟨s0, h0, rfl⟩ := h
      refine tidies_field (show FieldOk f from hc) (hqv _ (List.mem_singleton.2 rfl)) ?_
      unfold fieldType at hn
      by_cases hr : f.required = true
      · simp only [hr, if_true] at h0
        obtain ⟨s1, h1, rfl⟩ := h0
        exact hF.direct A hA _ _ h1
      · simp only [hr, if_false, if_true, Bool.false_eq_true] at h0 hn
        obtain ⟨s1, h1, h2⟩ := h0
        obtain ⟨m, p, r, d, rfl, hs⟩ := neat_type hF hok hq hn (hF.ran A hA _ _ h1)
        simp only [Returns, hs.shape.tsub] at h2
        split at h2
        · cases h2; exact hs.tidy
        · obtain ⟨s2, h3, rfl⟩ := h2
          exact hF.sub A hA _ _ h3

theorem tidy_variants {unique : Bool} {first : Option (Prog τ)} {vs : List (Variant τ)} {f : Variant τ → Prog τ}
    (hr : ∀ v ∈ vs, v.refTy = none) (h1 : ∀ p s, first = some p → Returns A p s → Tidy s)
    (h2 : ∀ v ∈ vs, ∀ s, Returns A (f v) s → Tidy s)
    (h : Returns A (variantSubschemas unique first (vs.map fun v => (v, f v))) s) : Tidy s := by
  obtain ⟨l, es, hl, e1, e2, rfl⟩ := returns_variants hr h
  have hall : ∀ x ∈ l ++ es.map Prod.snd, Tidy x := by
    intro x hx
    rcases List.mem_append.1 hx with hx | hx
    · rcases hl with ⟨-, rfl⟩ | ⟨p, s1, hp, hs, rfl⟩
      · cases hx
      · rw [List.mem_singleton.1 hx]; exact h1 p s1 hp hs
    · obtain ⟨e, he, rfl⟩ := List.mem_map.1 hx
      have : e.1 ∈ presentVariants vs A.settings.contract := e1 ▸ List.mem_map_of_mem he
      exact h2 e.1 (List.mem_filter.1 this).1 _ (e2 e he)
  split
  · exact tidy_single (k := "oneOf") (by decide) hall
  · exact tidy_single (k := "anyOf") (by decide) hall

theorem tidy_adjacent (tag content name : String) (deny : Bool) {sub : Option Json} (h : ∀ s, sub = some s → Tidy s) :
    Tidy (adjacentSchema tag content name deny sub) := by
  have hp : TidyEntry "properties" (mkObj ((tag, tagSchema name) :: sub.elim [] fun s => [(content, s)])) := by
    refine te_map (by decide) fun e he => ?_
    rcases List.mem_cons.1 (mem_of_ofList e he) with rfl | he
    · exact tidy_tag _
    · cases sub with
      | none => cases he
      | some s => rw [List.mem_singleton.1 he]; exact h s rfl
  unfold adjacentSchema
  cases deny
  all_goals
    refine tidy_lit ?_ ?_ <;> simp only [Bool.false_eq_true, if_false, if_true, List.append_nil, List.cons_append,
      List.nil_append, List.mem_cons, List.not_mem_nil, or_false, forall_eq_or_imp, forall_eq]
    rotate_left
    · decide
  · exact ⟨te_type _, hp, te_skip _ (by decide) (by decide)⟩
  · exact ⟨te_type _, hp, te_skip _ (by decide) (by decide), te_one (by decide) (.bool _)⟩

theorem tidy_units {us : List (Variant τ)} (h : Returns A (unitVariantsProg us) s) : Tidy s := by
  unfold unitVariantsProg at h
  simp only [Returns] at h
  rw [h]
  exact tidy_typed (by decide) (by decide) _

theorem tidy_enum (hF : TidyFamily decl I F) (hA : F A) (hok : ∀ t, WideDecl decl I (decl t))
    (hq : ∀ t, QuietDecl (decl t)) {tag : TagType} {vs : List (Variant τ)} {deny : Bool} (he : EnumOk decl I tag vs)
    (hqv : ∀ v ∈ vs, ∀ a ∈ v.common :: fieldsAttrs v.fields, Quiet a) (h : Returns A (enumProg I tag vs deny) s) :
    Tidy s := by
  have hr : ∀ v ∈ vs, v.refTy = none := fun v hv => (he.variants v hv).noRef
  have hnote : ∀ v ∈ vs, ∀ f ∈ v.common.mutators, Notes f := fun v hv =>
    notes_common (he.variants v hv).common (hqv v hv _ (List.mem_cons_self ..))
  have hqf : ∀ v ∈ vs, ∀ a ∈ fieldsAttrs v.fields, Quiet a := fun v hv a ha => hqv v hv a (List.mem_cons_of_mem _ ha)
  unfold enumProg at h
  rw [if_neg (by rw [List.isEmpty_iff]; exact he.nonempty)] at h
  cases tag with
  | external =>
    simp only at h
    unfold externalEnumProg at h
    simp only at h
    split at h
    · exact tidy_units h
    · refine tidy_variants (fun v hv => hr v (List.mem_filter.1 hv).1) ?_ (fun v hv s hs => ?_) h
      · intro p s hp hs
        split at hp
        · cases hp
        · cases hp; exact tidy_units hs
      · have hv := (List.mem_filter.1 hv).1
        unfold externalVariantProg at hs
        split at hs
        · exact tidy_untagged hF hA hok hq (he.variants v hv) (hqv v hv) hs
        · split at hs
          · simp only [Returns] at hs
            subst hs
            exact tidy_mutators (hnote v hv) (tidy_tag _)
          · simp only [Returns] at hs
            obtain ⟨sub, h1, rfl⟩ := res_map.1 hs
            refine tidy_mutators (hnote v hv) (tidy_closed fun e he' => ?_)
            rw [List.mem_singleton.1 he']
            exact tidy_content hF hA hok hq (he.variants v hv) (hqf v hv) h1
  | none =>
    exact tidy_variants hr (fun p s hp => by cases hp)
      (fun v hv s hs => tidy_untagged hF hA hok hq (he.variants v hv) (hqv v hv) hs) h
  | internal t =>
    refine tidy_variants hr (fun p s hp => by cases hp) (fun v hv s hs => ?_) h
    unfold internalTaggedProg at hs
    by_cases hu : v.untagged = true
    · rw [if_pos hu] at hs
      exact tidy_untagged hF hA hok hq (he.variants v hv) (hqv v hv) hs
    · rw [if_neg hu] at hs
      obtain ⟨s1, h2, h3⟩ := res_bind.1 hs
      simp only [Returns] at h3
      rw [h3]
      exact tidy_mutators (hnote v hv) (tidy_internalTag (tidy_internal hF hA hok hq (he.variants v hv)
        (he.internal t rfl v hv (by simpa using hu)) (hqf v hv) h2) _ _ _)
  | adjacent t c =>
    refine tidy_variants hr (fun p s hp => by cases hp) (fun v hv s hs => ?_) h
    unfold adjacentTaggedProg at hs
    split at hs
    · exact tidy_untagged hF hA hok hq (he.variants v hv) (hqv v hv) hs
    · split at hs
      · simp only [Returns] at hs
        subst hs
        exact tidy_mutators (hnote v hv) (tidy_adjacent _ _ _ _ fun s hs => by cases hs)
      · simp only [Returns] at hs
        obtain ⟨sub, h1, rfl⟩ := res_map.1 hs
        refine tidy_mutators (hnote v hv) (tidy_adjacent _ _ _ _ fun s hs => ?_)
        cases hs
        exact tidy_content hF hA hok hq (he.variants v hv) (hqf v hv) h1

/-! ### Structs with flattened enums -/

theorem Listed.annotate {m : List (String × Json)} (h : Listed m) {l : List (Json → Json)} (hl : ∀ f ∈ l, Notes f) :
    ∃ m', runMutators l (.obj m) = .obj m' ∧ Listed m' := by
  unfold runMutators
  induction l generalizing m with
  | nil => exact ⟨m, rfl, h⟩
  | cons f l ih =>
    have hl' : ∀ f ∈ l, Notes f := fun g hg => hl g (List.mem_cons_of_mem _ hg)
    rcases hl f (List.mem_cons_self ..) with ⟨k, hk, v, e⟩ | e
    · have hn : k ∉ ["additionalProperties", "const", "enum", "type"] :=
        (by decide : ∀ k ∈ notes, k ∉ ["additionalProperties", "const", "enum", "type"]) k hk
      have h' : Listed (Obj.insert m k v) := by
        simp only [List.mem_cons, List.not_mem_nil, or_false, not_or] at hn
        rcases h with h | ⟨h1, h2, h3, h4, a, h5⟩
        · exact .inl (h.insert (te_note hk v) (by simp [hn]))
        · refine .inr ⟨h1.note hk v, ?_, ?_, ?_, a, ?_⟩
          all_goals rw [Obj.get_insert_ne _ _ (by simp [hn])]; assumption
      simp only [List.foldl_cons, e (.obj m)]
      exact ih h' hl'
    · simp only [List.foldl_cons, e (.obj m)]
      exact ih h hl'

theorem listed_variants {unique : Bool} {first : Option (Prog τ)} {vs : List (Variant τ)} {f : Variant τ → Prog τ}
    (hr : ∀ v ∈ vs, v.refTy = none) (ht : Tidy s)
    (h : Returns A (variantSubschemas unique first (vs.map fun v => (v, f v))) s) : ∃ m, s = .obj m ∧ Listed m := by
  obtain ⟨l, es, -, -, -, rfl⟩ := returns_variants hr h
  split at ht
  · exact ⟨_, by rw [if_pos (by assumption)], .inl ⟨ht, by simp [Obj.get_cons, Obj.get_nil]⟩⟩
  · exact ⟨_, by rw [if_neg (by assumption)], .inl ⟨ht, by simp [Obj.get_cons, Obj.get_nil]⟩⟩

/-- The schema of an enum can be flattened. -/
theorem listed_enum {tag : TagType} {vs : List (Variant τ)} {deny : Bool} (he : EnumOk decl I tag vs) (ht : Tidy s)
    (h : Returns A (enumProg I tag vs deny) s) : ∃ m, s = .obj m ∧ Listed m := by
  have hr : ∀ v ∈ vs, v.refTy = none := fun v hv => (he.variants v hv).noRef
  unfold enumProg at h
  rw [if_neg (by rw [List.isEmpty_iff]; exact he.nonempty)] at h
  cases tag with
  | external =>
    simp only at h
    unfold externalEnumProg at h
    simp only at h
    split at h
    · unfold unitVariantsProg at h
      simp only [Returns] at h
      subst h
      have hg := get_ofList (l := [("type", .str "string"), ("enum", .arr ((((vs.filter Variant.listed).filter
        (fun x => x.included A.settings.contract)).map fun x => x.name.get A.settings.contract).map Json.str))])
        (by simp [Obj.keys])
      refine ⟨_, rfl, .inr ⟨ht, (hg _).trans ?_, (hg _).trans ?_, (hg _).trans ?_, ⟨_, (hg _).trans rfl⟩⟩⟩
      all_goals rfl
    · exact listed_variants (fun v hv => hr v (List.mem_filter.1 hv).1) ht h
  | none => exact listed_variants hr ht h
  | internal t => exact listed_variants hr ht h
  | adjacent t c => exact listed_variants hr ht h

/-- What is flattened into a struct. -/
theorem lax_flat (hF : TidyFamily decl I F) (hA : F A) (hok : ∀ t, WideDecl decl I (decl t))
    (hq : ∀ t, QuietDecl (decl t)) {t : τ} {ns : List String} (hn : FlatNames decl I t ns) (h : A.direct t s)
    (optional : Bool) : ∃ m, flattenInner s optional = .obj m ∧ Lax m := by
  rcases hn with hn | ⟨c, tag, vs, hd, hc, he, -, -⟩
  · obtain ⟨m, p, r, d, rfl, hs⟩ := neat_type hF hok hq hn (hF.ran A hA _ _ h)
    obtain ⟨m', e, hs'⟩ := hs.flattenInner optional
    refine ⟨m', e, hs'.tidy, fun k hk => ?_⟩
    simp only [List.mem_cons, List.not_mem_nil, or_false] at hk
    rcases hk with rfl | rfl | rfl
    · exact hs'.shape.deny
    · exact hs'.shape.other _ (by decide) (by decide)
    · exact hs'.shape.other _ (by decide) (by decide)
  · obtain ⟨A', hA', hb⟩ := hF.ran A hA _ _ h
    have h2 := hq t
    rw [hd] at hb h2
    obtain ⟨s0, hb0, rfl⟩ := enum_container hc (hF.ser A' hA') hb
    have ht : Tidy s0 := by
      refine tidy_enum hF hA' hok hq he (fun v hv a ha => h2 a ?_) hb0
      simp only [declAttrs, hc.data, dataAttrs]
      exact List.mem_cons_of_mem _ (List.mem_append_right _ (List.mem_flatMap.2 ⟨v, hv, ha⟩))
    obtain ⟨m, rfl, hm⟩ := listed_enum he ht hb0
    obtain ⟨m', e, hm'⟩ := hm.annotate (notes_common hc.common (h2 _ (List.mem_cons_self ..)))
    rw [e]
    exact hm'.flattenInner optional

theorem lax_fields (hF : TidyFamily decl I F) (hA : F A) (hok : ∀ t, WideDecl decl I (decl t))
    (hq : ∀ t, QuietDecl (decl t)) {cd : Bool} {fs : List (Field τ)} {nss : List (List String)} (hn : Parts decl I fs nss) :
    ∀ {m0 : List (String × Json)} {s : Json}, FieldsOk I fs → (∀ f ∈ fs, Quiet f.common) → Lax m0 →
    Returns A (structFieldsProg I cd fs (.obj m0)) s → Tidy s := by
  induction hn with
  | nil =>
    intro m0 s _ _ h0 h
    cases h
    exact h0.tidy
  | @skip f fs nss hsk _ ih =>
    intro m0 s hfs hqs h0 h
    unfold structFieldsProg at h
    obtain ⟨s1, h1, h2⟩ := res_bind.1 h
    rw [returns_structField, if_neg (by rw [hF.ser A hA]; simp [NotSkipped, hsk])] at h1
    subst h1
    exact ih (fun f hf => hfs f (List.mem_cons_of_mem _ hf)) (fun f hf => hqs f (List.mem_cons_of_mem _ hf)) h0 h2
  | @own f fs nss hsk hfl _ ih =>
    intro m0 s hfs hqs h0 h
    unfold structFieldsProg at h
    obtain ⟨s1, h1, h2⟩ := res_bind.1 h
    rw [returns_structField, if_pos (by rw [hF.ser A hA]; exact hsk)] at h1
    obtain ⟨s', h1, rfl⟩ := h1
    unfold FieldResult at h1
    unfold addField at h2
    rw [hfl] at h1 h2
    simp only [Bool.false_eq_true, if_false] at h1 h2
    obtain ⟨s2, h1, rfl⟩ := h1
    have ht := tidy_field hF hA ((hfs f (List.mem_cons_self ..) hsk).1 hfl) (hqs f (List.mem_cons_self ..)) h1
    obtain ⟨m1, e1, h3⟩ := h0.insertProperty (f.name.get A.settings.contract)
      (fieldOptional I cd f A.settings.contract) (tidy_insertDefault (f := f) cd ht)
    rw [e1] at h2
    exact ih (fun f hf => hfs f (List.mem_cons_of_mem _ hf)) (fun f hf => hqs f (List.mem_cons_of_mem _ hf)) h3 h2
  | @flat f fs ns nss hsk hfl hns _ ih =>
    intro m0 s hfs hqs h0 h
    unfold structFieldsProg at h
    obtain ⟨s1, h1, h2⟩ := res_bind.1 h
    rw [returns_structField, if_pos (by rw [hF.ser A hA]; exact hsk)] at h1
    obtain ⟨s', h1, rfl⟩ := h1
    unfold addField at h2
    rw [hfl] at h2
    simp only [if_true] at h2
    obtain ⟨s2, hd2, rfl⟩ := returns_flattenField hfl h1
    obtain ⟨m3, e3, hs3⟩ := lax_flat hF hA hok hq hns hd2 (I.isOption f.ty && !f.required)
    rw [e3] at h2
    exact ih (fun f hf => hfs f (List.mem_cons_of_mem _ hf)) (fun f hf => hqs f (List.mem_cons_of_mem _ hf))
      (h0.flattenObjects hs3) h2

theorem tidy_wide (hF : TidyFamily decl I F) (hA : F A) (hok : ∀ t, WideDecl decl I (decl t))
    (hq : ∀ t, QuietDecl (decl t)) {cd : Bool} {fs : List (Field τ)} (hw : WideOk decl I fs)
    (hqs : ∀ f ∈ fs, Quiet f.common) (h : Returns A (structProg I fs cd false) s) : Tidy s := by
  obtain ⟨mi, ei, hi⟩ := neat_start false
  unfold structProg at h
  rw [ei] at h
  obtain ⟨nss, hn, -, hfs⟩ := hw
  refine lax_fields hF hA hok hq hn hfs hqs ⟨hi.tidy, fun k hk => ?_⟩ h
  simp only [List.mem_cons, List.not_mem_nil, or_false] at hk
  rcases hk with rfl | rfl | rfl
  · exact hi.shape.deny
  · exact hi.shape.other _ (by decide) (by decide)
  · exact hi.shape.other _ (by decide) (by decide)

theorem tidy_mapStruct (hF : TidyFamily decl I F) (hA : F A) (hok : ∀ t, WideDecl decl I (decl t))
    (hq : ∀ t, QuietDecl (decl t)) {c : Container τ} {cd : Bool} {as bs : List (Field τ)} {f : Field τ}
    (hc : MapData decl I c as f bs) (hqs : ∀ g ∈ as ++ f :: bs, Quiet g.common)
    (h : Returns A (structProg I (as ++ f :: bs) cd false) s) : Tidy s := by
  have hown : ∀ g ∈ as ++ bs, g.skipSer = false → g.flatten = false := fun g hg hs => (hc.own g hg hs).1
  obtain ⟨m, v, hrun, rfl, hv⟩ := map_run hF.ran hA (hF.ser A hA) hc.rest hown h
  obtain ⟨mi, ei, hi⟩ := neat_start false
  unfold structProg at hrun
  rw [ei] at hrun
  have hfs : FieldsOk I (as ++ bs) := fun g hg hs =>
    ⟨fun _ => (hc.own g hg hs).2.2, fun h => by rw [hown g hg hs] at h; cases h⟩
  have hqs' : ∀ g ∈ as ++ bs, Quiet g.common := fun g hg => hqs g (by
    rcases List.mem_append.1 hg with h | h
    · exact List.mem_append_left _ h
    · exact List.mem_append_right _ (List.mem_cons_of_mem _ h))
  obtain ⟨m', p, r, e, hn⟩ := neat_fields hF hok hq (fieldNames_own hown) hA hfs hqs' hi hrun
  cases e
  unfold withRest
  split
  · exact hn.tidy
  · have ht : Tidy v := by
      rcases hv with rfl | ⟨k, t, A', -, hA', hs⟩
      · exact .bool _
      · exact hF.sub A' hA' _ _ hs
    exact tidy_insert hn.tidy (te_one (by decide) ht) (hn.tidy.values.insert _ (by decide))

/-- The schema of a type of the program is tidy, if those of the types that it mentions are. -/
theorem body_tidy (hF : TidyFamily decl I F) (hA : F A) (hok : ∀ t, WideDecl decl I (decl t))
    (hq : ∀ t, QuietDecl (decl t)) {t : τ} (h : Returns A (bodyOf I (decl t)) s) : Tidy s := by
  have h1 := hok t
  have h2 := hq t
  cases hd : decl t with
  | std x => rw [hd] at h; exact std_tidy (hF.sub A hA) h
  | derived c =>
    rw [hd] at h h1 h2
    have h : Returns A (containerProg I c) s := h
    rcases h1 with h1 | ⟨c', fs, e, hc⟩ | ⟨c', as, f, bs, e, hc⟩
    rotate_left
    rotate_left
    · cases e
      obtain ⟨s0, h0, rfl⟩ := plain_container hc.toPlainData (hF.ser A hA) h
      rw [hc.open_] at h0
      refine tidy_mutators (notes_common hc.common (h2 _ (List.mem_cons_self ..)))
        (tidy_mapStruct hF hA hok hq hc (fun f hf => h2 _ ?_) h0)
      simp only [declAttrs, hc.data]
      exact List.mem_append_right _ (List.mem_map_of_mem hf)
    rotate_left
    · cases e
      obtain ⟨s0, h0, rfl⟩ := plain_container hc.toPlainData (hF.ser A hA) h
      rw [hc.open_] at h0
      refine tidy_mutators (notes_common hc.common (h2 _ (List.mem_cons_self ..)))
        (tidy_wide hF hA hok hq hc.wide (fun f hf => h2 _ ?_) h0)
      simp only [declAttrs, hc.data]
      exact List.mem_append_right _ (List.mem_map_of_mem hf)
    have h1 : ContainerOk decl I c := h1
    unfold containerProg at h
    simp only at h
    obtain ⟨s1, h3, rfl⟩ := res_map.1 h
    refine tidy_mutators (notes_common h1.common (h2 _ (List.mem_cons_self ..))) ?_
    clear h
    have hser := hF.ser A hA
    have hdirect : ∀ {t : τ} {s1}, Returns A (.direct t .ret) s1 → Tidy s1 := by
      rintro t s1 ⟨s2, h2, rfl⟩
      exact hF.direct A hA _ _ h2
    cases hw : c.withTy with
    | some t => rw [hw] at h3; exact hdirect h3
    | none =>
      cases ht : c.transparent with
      | some f =>
        rw [hw, ht] at h3
        refine tidy_field hF hA (h1.transparent hw f ht) (h2 _ ?_) h3
        simp [declAttrs, ht]
      | none =>
        rw [hw, ht] at h3
        have hdata : c.intoTy = none → Returns A (dataProg I c) s1 → Tidy s1 := by
          intro hi h
          have hok' := h1.data hw ht hi
          have hq' : ∀ a ∈ dataAttrs c.data, Quiet a := fun a ha => h2 a (List.mem_append_right _ ha)
          unfold dataProg at h
          cases hd : c.data with
          | enum tag vs =>
            rw [hd] at h hok' hq'
            exact tidy_enum hF hA hok hq hok' (fun v hv a ha => hq' a (List.mem_flatMap.2 ⟨v, hv, ha⟩)) h
          | struct fields =>
            rw [hd] at h hok' hq'
            cases fields with
            | unit =>
              obtain ⟨s1, h1, rfl⟩ := h
              exact hF.sub A hA _ _ h1
            | newtype f => exact tidy_field hF hA hok' (hq' _ (List.mem_singleton.2 rfl)) h
            | tuple fs => exact tidy_tuple hF hA hok' (fun f hf => hq' _ (List.mem_map_of_mem hf)) h
            | struct fs =>
              obtain ⟨ns, hc⟩ := hok'
              obtain ⟨m, p, r, rfl, hs⟩ := tidy_struct hF hA hok hq hc (fun f hf => hq' _ (List.mem_map_of_mem hf)) h
              exact hs.tidy
        cases hi : c.intoTy with
        | some t =>
          rw [hi] at h3
          cases hfr : c.fromTy with
          | some u =>
            rw [hfr] at h3
            simp only [Returns, hser] at h3
            exact hdirect h3
          | none =>
            rw [hfr] at h3
            simp only [Returns, hser] at h3
            exact hdirect h3
        | none =>
          rw [hi] at h3
          refine hdata hi ?_
          cases hfr : c.fromTy with
          | some u =>
            rw [hfr] at h3
            simp only [Returns, hser] at h3
            exact h3
          | none => rw [hfr] at h3; exact h3

/-- The schemas of a run are tidy. -/
theorem produced_tidy {W : World τ} (hG : Declared W.Γ decl I) (hok : ∀ t, WideDecl decl I (decl t))
    (hq : ∀ t, QuietDecl (decl t)) (hser : W.settings.contract = .serialize) {m : Nat} :
    ∀ {t : τ} {s : Json}, Produced W m t s → Tidy s := by
  induction m using Nat.strongRecOn with
  | ind m ih =>
  intro t s h
  cases m with
  | zero => exact h.elim
  | succ m =>
    have h : Returns (W.answers (Produced W m)) (W.Γ t).body s := h
    rw [hG.body] at h
    let F : Answers τ → Prop := fun A => ∃ k, k ≤ m ∧ A = W.answers (Produced W k)
    have hF : TidyFamily decl I F := {
      ser := by rintro _ ⟨k, hk, rfl⟩; exact hser
      sub := by
        rintro _ ⟨k, hk, rfl⟩ t s h
        rcases answers_ref h with h | ⟨r, rfl⟩
        · exact ih k (Nat.lt_succ_of_le hk) h
        · exact tidy_newRef r
      direct := by rintro _ ⟨k, hk, rfl⟩ t s h; exact ih k (Nat.lt_succ_of_le hk) h
      ran := by
        rintro _ ⟨k, hk, rfl⟩ t s h
        cases k with
        | zero => exact h.elim
        | succ k => exact ⟨_, ⟨k, Nat.le_of_succ_le hk, rfl⟩, by rw [← hG.body]; exact h⟩ }
    exact body_tidy hF ⟨m, Nat.le_refl m, rfl⟩ hok hq h

end

end Verif
