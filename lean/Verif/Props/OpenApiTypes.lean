import Verif.Props.OpenApi
import Verif.Props.MetaValid
import Verif.TypeIds

/-!
# C82 for types: which types have schemas that OpenAPI 3.0 can express

`OasTypes` says which types these are. The proof follows the generator: each schema that is stored or returned is in the class
`OasPlan`, which `C82_partial` covers.
-/

namespace Verif
open Spec

variable {τ : Type}

/-! ## What is asked of a program -/

/-- A keyword of OpenAPI 3.0 that holds no schema, or one that is translated to such a keyword. -/
def Spec.OasPlain (k : String) : Prop :=
  k ∈ ["title", "multipleOf", "maximum", "exclusiveMaximum", "minimum", "exclusiveMinimum", "maxLength", "minLength", "pattern",
    "maxItems", "minItems", "uniqueItems", "maxProperties", "minProperties", "required", "enum", "description", "format",
    "default", "nullable", "discriminator", "readOnly", "writeOnly", "example", "externalDocs", "deprecated", "xml", "const",
    "examples"] ∨ Extension k

/-- The attributes write such keywords only. -/
structure Spec.AttrsOas (a : CommonAttrs) : Prop where
  extensions : ∀ e ∈ a.extensions, OasPlain e.1
  transforms : a.transforms = []

/-- There is no tuple. -/
def Spec.FieldsOas : Fields τ → Prop
  | .unit => True
  | .newtype f => AttrsOas f.common
  | .tuple fs => fs = []
  | .struct fs => ∀ f ∈ fs, AttrsOas f.common

def Spec.DataOas : DeriveData τ → Prop
  | .struct fields => FieldsOas fields
  | .enum _ vs => ∀ v ∈ vs, AttrsOas v.common ∧ FieldsOas v.fields

/-- The key type is that of strings. -/
def Spec.OasKey : Verif.Decl τ → Prop
  | .std (.simple t) => t = "string"
  | .std (.formatted t _) => t = "string"
  | .std .char => True
  | _ => False

/-- A standard type that OpenAPI 3.0 can express: no tuple, string keys, values of maps without bools (`deep`) or any, and
not those that are read in two ways. -/
def Spec.StdOas (decl : τ → Verif.Decl τ) (deep : τ → Prop) (c : Contract) : Std τ → Prop
  | .simple t => t ∈ oasTypes ∨ t = "null"
  | .formatted t _ => t ∈ oasTypes ∨ t = "null"
  | .tuple _ => False
  | .map k v => OasKey (decl k) ∧ (decl v = .std .value ∨ deep v)
  | .cString | .bytes _ | .decimal => c = .serialize
  | _ => True

/-- A standard type whose schema has no bools, given that its parameters have none. -/
def Spec.StdDeep (deep : τ → Prop) : Std τ → Prop
  | .value => False
  | .option t | .seq t | .set t | .array _ t | .bound t | .range t | .bytes t => deep t
  | .result t u | .either t u => deep t ∧ deep u
  | _ => True

/-- What is asked of a type. -/
def Spec.DeclOas (decl : τ → Verif.Decl τ) (deep : τ → Prop) (c : Contract) : Verif.Decl τ → Prop
  | .std x => StdOas decl deep c x
  | .derived d => AttrsOas d.common ∧ (∀ f, d.transparent = some f → AttrsOas f.common) ∧ DataOas d.data

/-- The types of a program. -/
structure Spec.OasTypes (Γ : τ → TypeDef τ) (decl : τ → Verif.Decl τ) (c : Contract) (deep : τ → Prop) : Prop where
  decls : ∀ t, DeclOas decl deep c (decl t)
  deep : ∀ t, deep t → (Γ t).inlineSchema = false ∨ ∃ x, decl t = .std x ∧ StdDeep deep x

theorem oasKind_plain {k : String} (h : OasPlain k) : oasKind k = .plain := by
  rcases h with h | ⟨r, h⟩
  · revert k; decide
  · have hne : ∀ s : String, s.toList.head? ≠ some 'x' → k ≠ s := by
      rintro s hs rfl; rw [h] at hs; exact hs rfl
    unfold oasKind
    rw [if_neg (hne _ (by decide)), if_neg (hne _ (by decide)),
      if_neg (not_or.2 ⟨hne _ (by decide), hne _ (by decide)⟩),
      if_neg (not_or.2 ⟨hne _ (by decide), not_or.2 ⟨hne _ (by decide), hne _ (by decide)⟩⟩), if_neg (hne _ (by decide)),
      if_neg (hne _ (by decide)), if_neg (hne _ (by decide)), if_pos (.inr (.inr (by rw [h]; rfl)))]

/-! ## Standard types -/

section
variable {c : Bool} {s : Json}

theorem pe_name {t : String} (h : t ∈ oasTypes) : PlanEntry c "type" (.str t) := pe_type (.inl ⟨t, h, rfl⟩)

theorem pe_types {t : String} (h : t ∈ oasTypes ∨ t = "null") : PlanEntry c "type" (.str t) :=
  pe_type (h.imp (fun h => ⟨t, h, rfl⟩) fun h => .inl (by rw [h]))

theorem pe_object {l : List (String × Json)} (h : ∀ e ∈ l, OasPlan c e.2) : PlanEntry c "properties" (mkObj l) := by
  refine pe_map fun e he => ?_
  rcases mem_of_extend e he with he | he
  · cases he
  · exact h e he

theorem plan_int (t : IntTy) : OasPlan c (intSchema t) := by
  have h1 : ∀ f lo hi, OasPlan c (rangedInt f lo hi) := by
    intro f lo hi
    refine plan_lit ?_; simp only [List.mem_cons, List.not_mem_nil, or_false, forall_eq_or_imp, forall_eq]
    exact ⟨pe_name (by decide), pe_plain (by decide) _, pe_plain (by decide) _, pe_plain (by decide) _⟩
  have h2 : ∀ f, OasPlan c (unsignedInt f) := by
    intro f
    refine plan_lit ?_; simp only [List.mem_cons, List.not_mem_nil, or_false, forall_eq_or_imp, forall_eq]
    exact ⟨pe_name (by decide), pe_plain (by decide) _, pe_plain (by decide) _⟩
  have h3 : ∀ f, OasPlan c (typeFormat "integer" f) := by
    intro f
    refine plan_lit ?_; simp only [List.mem_cons, List.not_mem_nil, or_false, forall_eq_or_imp, forall_eq]
    exact ⟨pe_name (by decide), pe_plain (by decide) _⟩
  cases t
  all_goals first
    | exact h1 _ _ _
    | exact h2 _
    | exact h3 _

theorem plan_object {l : List (String × Json)} (r : Json) (h : ∀ e ∈ l, OasPlan c e.2) :
    OasPlan c (mkObj [("type", .str "object"), ("properties", mkObj l), ("required", r)]) := by
  refine plan_lit ?_; simp only [List.mem_cons, List.not_mem_nil, or_false, forall_eq_or_imp, forall_eq]
  exact ⟨pe_name (by decide), pe_object h, pe_plain (by decide) _⟩

theorem plan_oneProperty (k : String) {s : Json} (h : OasPlan c s) : OasPlan c (oneProperty k s) :=
  plan_object _ fun e he => by rw [List.mem_singleton.1 he]; exact h

theorem plan_closedObject {l : List (String × Json)} (r : Json) (h : ∀ e ∈ l, OasPlan c e.2) :
    OasPlan c (mkObj [("type", .str "object"), ("properties", mkObj l), ("required", r), ("additionalProperties", .bool false)]) := by
  refine plan_lit ?_; simp only [List.mem_cons, List.not_mem_nil, or_false, forall_eq_or_imp, forall_eq]
  exact ⟨pe_name (by decide), pe_object h, pe_plain (by decide) _, pe_below (.inl ⟨_, rfl⟩)⟩

theorem plan_eitherSide (k : String) {s : Json} (h : OasPlan c s) : OasPlan c (eitherSide k s) := by
  refine plan_lit ?_; simp only [List.mem_cons, List.not_mem_nil, or_false, forall_eq_or_imp, forall_eq]
  exact ⟨pe_name (by decide), pe_object fun e he => by rw [List.mem_singleton.1 he]; exact h,
      pe_below (.inl ⟨_, rfl⟩), pe_plain (by decide) _⟩

theorem plan_choices {k : String} {l : List Json} (hk : k = "oneOf" ∨ k = "anyOf") (h : ∀ x ∈ l, OasPlan c x) :
    OasPlan c (.obj [(k, .arr l)]) :=
  plan_single (pe_schemas (by rcases hk with rfl | rfl <;> decide) h)

theorem plan_seq {s : Json} (h : OasPlan c s) : OasPlan c (seqSchema s) := by
  refine plan_lit ?_; simp only [List.mem_cons, List.not_mem_nil, or_false, forall_eq_or_imp, forall_eq]
  exact ⟨pe_name (by decide), pe_one (by decide) h⟩

theorem plan_time (a b : String) : OasPlan c (timeSchema a b) := by
  refine plan_lit ?_; simp only [List.mem_cons, List.not_mem_nil, or_false, forall_eq_or_imp, forall_eq]
  refine ⟨pe_name (by decide), pe_plain (by decide) _, pe_object ?_⟩
  simp only [List.mem_cons, List.not_mem_nil, or_false, forall_eq_or_imp, forall_eq]
  exact ⟨plan_int _, plan_int _⟩

/-- A key schema of a string. -/
def StringKey (ks : Json) : Prop := ∃ m, ks = .obj m ∧ Obj.get m "type" = some (.str "string") ∧
  (∀ k ∈ ["$ref", "anyOf", "pattern", "enum"], Obj.get m k = none)

theorem stringKey_lit {l : List (String × Json)} (hn : (Obj.keys l).Nodup) (ht : ("type", Json.str "string") ∈ l)
    (h : ∀ k ∈ ["$ref", "anyOf", "pattern", "enum"], k ∉ Obj.keys l) : StringKey (mkObj l) := by
  refine ⟨_, rfl, ?_, fun k hk => ?_⟩
  · rw [get_ofList hn]; exact Obj.get_of_mem_nodup hn ht
  · rw [get_ofList hn]; exact Obj.get_eq_none.2 (h k hk)

theorem stringKey_std {A : Answers τ} {decl : τ → Verif.Decl τ} {k : τ} {x : Std τ} (hk : OasKey (decl k))
    (hx : decl k = .std x) {s : Json} (h : Returns A (stdBody x) s) : StringKey s := by
  rw [hx] at hk
  cases x <;> first | exact hk.elim | skip
  all_goals cases h
  · cases hk
    exact stringKey_lit (by decide) (by decide) (by decide)
  · cases hk
    exact stringKey_lit (by simp [Obj.keys]) (by simp) (by simp [Obj.keys])
  · exact stringKey_lit (by decide) (by decide) (by decide)

theorem plan_map (path : List Char) (d : List (String × Json)) {ks vs : Json} (hk : StringKey ks)
    (h : (∃ b, vs = .bool b) ∨ OasPlan false vs) : OasPlan c (mapSchema path d ks vs) := by
  obtain ⟨m, rfl, h1, h2⟩ := hk
  have ho : keyOptions (.obj m) = some [m] := by unfold keyOptions; simp only [h2 "anyOf" (by decide)]
  have hf : followKeyRef path d m = m := by unfold followKeyRef; simp only [h2 "$ref" (by decide)]
  have hu : keyUse m = .any := by
    unfold keyUse
    simp only [h2 "pattern" (by decide), h2 "enum" (by decide), h1]
    rfl
  unfold mapSchema
  rw [ho]
  simp only [List.map_cons, List.map_nil, hf, hu]
  have hm : mapFrom [.any] vs = .obj [("additionalProperties", vs), ("type", .str "object")] := rfl
  rw [hm]
  refine plan_obj ?_
  simp only [List.mem_cons, List.not_mem_nil, or_false, forall_eq_or_imp, forall_eq]
  exact ⟨pe_below h, pe_name (by decide)⟩

/-- The schemas of standard types can be expressed. -/
theorem std_plan {A : Answers τ} {decl : τ → Verif.Decl τ} {deep need : τ → Prop}
    (hs : ∀ t s, need t → A.sub t s → OasPlan c s) (hx : StdOas decl deep A.settings.contract x)
    (hn : StdDeep need x ∨ x = .value ∧ c = true)
    (hkey : ∀ k v, x = .map k v → ∀ s, A.direct k s → StringKey s)
    (hval : ∀ k v, x = .map k v → ∀ s, A.sub v s → (∃ b, s = .bool b) ∨ OasPlan false s)
    (h : Returns A (stdBody x) s) : OasPlan c s := by
  cases x with
  | simple t =>
    cases h
    refine plan_lit ?_; simp only [List.mem_cons, List.not_mem_nil, or_false, forall_eq]
    exact pe_types hx
  | formatted t f =>
    cases h
    refine plan_lit ?_; simp only [List.mem_cons, List.not_mem_nil, or_false, forall_eq_or_imp, forall_eq]
    exact ⟨pe_types hx, pe_plain (by decide) _⟩
  | value =>
    cases h
    rcases hn with hn | ⟨-, rfl⟩
    · exact hn.elim
    · exact .bool _
  | option t =>
    obtain ⟨s1, h1, rfl⟩ := h
    exact plan_allowNull (hs t s1 (hn.resolve_right fun h => by cases h.1) h1)
  | int t => cases h; exact plan_int t
  | nonZero t =>
    cases h
    unfold nonZeroSchema
    split
    · exact (plan_int t).put (pe_one (by decide) (plan_lit (l := [("const", .num (.int 0))]) fun e he => by
        rw [List.mem_singleton.1 he]; exact pe_plain (by decide) _))
    · exact (plan_int t).put (pe_plain (by decide) _)
  | char =>
    cases h
    refine plan_lit ?_; simp only [List.mem_cons, List.not_mem_nil, or_false, forall_eq_or_imp, forall_eq]
    exact ⟨pe_name (by decide), pe_plain (by decide) _, pe_plain (by decide) _⟩
  | emptyArray =>
    cases h
    refine plan_lit ?_; simp only [List.mem_cons, List.not_mem_nil, or_false, forall_eq_or_imp, forall_eq]
    exact ⟨pe_name (by decide), pe_plain (by decide) _⟩
  | tuple l => exact hx.elim
  | map k v =>
    obtain ⟨ks, hk, vs, hv, d, _, rfl⟩ := h
    exact plan_map _ _ (hkey k v rfl ks hk) (hval k v rfl vs hv)
  | seq t => obtain ⟨s1, h1, rfl⟩ := h; exact plan_seq (hs _ _ (hn.resolve_right fun h => by cases h.1) h1)
  | set t =>
    obtain ⟨s1, h1, rfl⟩ := h
    refine plan_lit ?_; simp only [List.mem_cons, List.not_mem_nil, or_false, forall_eq_or_imp, forall_eq]
    exact ⟨pe_name (by decide), pe_plain (by decide) _, pe_one (by decide) (hs _ _ (hn.resolve_right fun h => by cases h.1) h1)⟩
  | array n t =>
    obtain ⟨s1, h1, rfl⟩ := h
    refine plan_lit ?_; simp only [List.mem_cons, List.not_mem_nil, or_false, forall_eq_or_imp, forall_eq]
    exact ⟨pe_name (by decide), pe_one (by decide) (hs _ _ (hn.resolve_right fun h => by cases h.1) h1), pe_plain (by decide) _,
      pe_plain (by decide) _⟩
  | range t =>
    obtain ⟨s1, h1, rfl⟩ := h
    have h1 := hs _ _ (hn.resolve_right fun h => by cases h.1) h1
    refine plan_object _ ?_
    simp only [List.mem_cons, List.not_mem_nil, or_false, forall_eq_or_imp, forall_eq]
    exact ⟨h1, h1⟩
  | duration => cases h; exact plan_time _ _
  | systemTime => cases h; exact plan_time _ _
  | result t e =>
    obtain ⟨s1, h1, s2, h2, rfl⟩ := h
    obtain ⟨n1, n2⟩ := hn.resolve_right fun h => by cases h.1
    refine plan_choices (.inl rfl) ?_
    simp only [List.mem_cons, List.not_mem_nil, or_false, forall_eq_or_imp, forall_eq]
    exact ⟨plan_oneProperty _ (hs _ _ n1 h1), plan_oneProperty _ (hs _ _ n2 h2)⟩
  | bound t =>
    obtain ⟨s1, h1, s2, h2, rfl⟩ := h
    have n1 := hn.resolve_right fun h => by cases h.1
    refine plan_choices (.inl rfl) ?_
    simp only [List.mem_cons, List.not_mem_nil, or_false, forall_eq_or_imp, forall_eq]
    exact ⟨plan_oneProperty _ (hs _ _ n1 h1), plan_oneProperty _ (hs _ _ n1 h2), plan_tag _⟩
  | either t e =>
    obtain ⟨s1, h1, s2, h2, rfl⟩ := h
    obtain ⟨n1, n2⟩ := hn.resolve_right fun h => by cases h.1
    refine plan_choices (.inl rfl) ?_
    simp only [List.mem_cons, List.not_mem_nil, or_false, forall_eq_or_imp, forall_eq]
    exact ⟨plan_eitherSide _ (hs _ _ n1 h1), plan_eitherSide _ (hs _ _ n2 h2)⟩
  | osString =>
    cases h
    refine plan_choices (.inl rfl) ?_
    simp only [List.mem_cons, List.not_mem_nil, or_false, forall_eq_or_imp, forall_eq]
    exact ⟨plan_oneProperty _ (plan_seq (plan_int _)), plan_oneProperty _ (plan_seq (plan_int _))⟩
  | bytes t =>
    obtain ⟨s1, h1, h⟩ := h
    simp only [Returns] at h
    subst h
    have hx : A.settings.contract = .serialize := hx
    rw [hx]
    refine plan_lit ?_; simp only [List.mem_cons, List.not_mem_nil, or_false, forall_eq_or_imp, forall_eq]
    exact ⟨pe_name (by decide), pe_one (by decide) (hs _ _ (hn.resolve_right fun h => by cases h.1) h1)⟩
  | cString =>
    simp only [stdBody, Returns] at h; subst h
    have hx : A.settings.contract = .serialize := hx
    rw [hx]
    refine plan_lit ?_; simp only [List.mem_cons, List.not_mem_nil, or_false, forall_eq_or_imp, forall_eq]
    refine ⟨pe_name (by decide), pe_one (by decide) (plan_lit ?_)⟩
    simp only [List.mem_cons, List.not_mem_nil, or_false, forall_eq_or_imp, forall_eq]
    exact ⟨pe_name (by decide), pe_plain (by decide) _, pe_plain (by decide) _⟩
  | decimal =>
    simp only [stdBody, Returns] at h; subst h
    have hx : A.settings.contract = .serialize := hx
    rw [hx]
    refine plan_lit ?_; simp only [List.mem_cons, List.not_mem_nil, or_false, forall_eq_or_imp, forall_eq]
    exact ⟨pe_name (by decide), pe_plain (by decide) _⟩

end

/-! ## Attributes -/

/-- The statement keeps schemas expressible. -/
def KeepsPlan (f : Json → Json) : Prop := ∀ c s, OasPlan c s → OasPlan c (f s)

theorem planKeeps_put {k : String} {v : Json} (he : ∀ c, PlanEntry c k v) : KeepsPlan fun s => Schema.put s k v :=
  fun c _ h => h.put (he c)

theorem planKeeps_plain {k : String} (hk : oasKind k = .plain) (v : Json) : KeepsPlan fun s => Schema.put s k v :=
  planKeeps_put fun _ => pe_plain hk v

theorem planKeeps_check (t : String) {k : String} (hk : oasKind k = .plain) (v : Json) :
    KeepsPlan fun s => insertValidation s t k v := by
  unfold insertValidation
  intro c s h
  simp only
  split
  · exact h.put (pe_plain hk v)
  · exact h

theorem planKeeps_run {l : List (Json → Json)} (hl : ∀ f ∈ l, KeepsPlan f) : KeepsPlan (runMutators l) := by
  intro c s h
  induction l generalizing s with
  | nil => exact h
  | cons f l ih =>
    exact ih (fun g hg => hl g (List.mem_cons_of_mem _ hg)) (f s) (hl f (List.mem_cons_self ..) c s h)

theorem planKeeps_metadata {k : String} (hk : oasKind k = .plain) (v : String) :
    KeepsPlan fun s => insertMetadataIfNonempty s k v := by
  intro c s h
  unfold insertMetadataIfNonempty
  split
  · exact h
  · exact h.put (pe_plain hk _)

theorem planKeeps_common {a : CommonAttrs} (h : AttrsOas a) : ∀ f ∈ a.mutators, KeepsPlan f := by
  intro f hf
  unfold CommonAttrs.mutators at hf
  simp only [List.mem_append, List.mem_map] at hf
  rcases hf with ((((hf | hf) | hf) | hf) | ⟨e, he, rfl⟩) | hf
  · cases ht : a.effectiveTitle with
    | none => simp [ht] at hf
    | some t =>
      simp only [ht, Option.elim_some, List.mem_singleton] at hf
      subst hf; exact planKeeps_metadata (by decide) t
  · cases ht : a.effectiveDescription with
    | none => simp [ht] at hf
    | some t =>
      simp only [ht, Option.elim_some, List.mem_singleton] at hf
      subst hf; exact planKeeps_metadata (by decide) t
  · split at hf
    · simp only [List.mem_singleton] at hf; subst hf
      exact planKeeps_plain (by decide) _
    · cases hf
  · split at hf
    · cases hf
    · simp only [List.mem_singleton] at hf; subst hf
      exact planKeeps_plain (by decide) _
  · exact planKeeps_plain (oasKind_plain (h.extensions e he)) _
  · rw [h.transforms] at hf; cases hf

theorem planKeeps_bounds {l : LengthOrRange} {t suffix : String} (h1 : oasKind ("min" ++ suffix) = .plain)
    (h2 : oasKind ("max" ++ suffix) = .plain) : ∀ f ∈ lengthOrRangeMutators l t suffix, KeepsPlan f := by
  intro f hf
  unfold lengthOrRangeMutators at hf
  rw [List.mem_append] at hf
  rcases hf with hf | hf
  · cases hv : l.min.or l.equal with
    | none => rw [hv] at hf; cases hf
    | some v =>
      rw [hv] at hf
      rw [List.mem_singleton.1 hf]
      exact planKeeps_check t h1 v
  · cases hv : l.max.or l.equal with
    | none => rw [hv] at hf; cases hf
    | some v =>
      rw [hv] at hf
      rw [List.mem_singleton.1 hf]
      exact planKeeps_check t h2 v

theorem planKeeps_inner {f : Json → Json} (hf : KeepsPlan f) : KeepsPlan fun s => applyInnerValidation s f := by
  intro c s h
  cases h with
  | bool t => exact .bool t
  | @obj c m h1 h2 h3 =>
    refine plan_modify (.obj h1 h2 h3) fun v hv => pe_one (by decide) ?_
    split
    · exact hf c v (hv.one (by decide))
    · exact hv.one (by decide)

theorem planKeeps_validation : ∀ {a : ValidationAttrs}, ∀ f ∈ a.mutators, KeepsPlan f
  | .mk length range pattern regex contains format inner => by
    intro f hf
    unfold ValidationAttrs.mutators at hf
    simp only [List.mem_append] at hf
    rcases hf with ((((hf | hf) | hf) | hf) | hf) | hf
    · cases length with
      | none => cases hf
      | some l =>
        rcases List.mem_append.1 hf with hf | hf
        · exact planKeeps_bounds (by decide) (by decide) f hf
        · exact planKeeps_bounds (by decide) (by decide) f hf
    · cases range with
      | none => cases hf
      | some l => exact planKeeps_bounds (by decide) (by decide) f hf
    · cases hp : regex.or pattern with
      | none => rw [hp] at hf; cases hf
      | some p =>
        rw [hp] at hf
        rw [List.mem_singleton.1 hf]
        exact planKeeps_check _ (by decide) _
    · cases contains with
      | none => cases hf
      | some p =>
        rw [List.mem_singleton.1 hf]
        exact planKeeps_check _ (by decide) _
    · cases format with
      | none => cases hf
      | some p =>
        rw [List.mem_singleton.1 hf]
        exact planKeeps_plain (by decide) _
    · cases inner with
      | none => cases hf
      | some a =>
        rw [List.mem_singleton.1 hf]
        exact planKeeps_inner (planKeeps_run planKeeps_validation)

theorem planKeeps_field {f : Field τ} (h : AttrsOas f.common) : ∀ g ∈ f.mutators, KeepsPlan g := by
  intro g hg
  unfold Field.mutators at hg
  simp only [List.mem_append] at hg
  rcases hg with ((hg | hg) | hg) | hg
  · exact planKeeps_common h g hg
  · exact planKeeps_validation g hg
  · split at hg
    · simp only [List.mem_singleton] at hg; subst hg
      exact planKeeps_plain (by decide) _
    · cases hg
  · split at hg
    · simp only [List.mem_singleton] at hg; subst hg
      exact planKeeps_plain (by decide) _
    · cases hg

/-! ## Flattening -/

theorem plan_unitVariant (c : Bool) (name : String) : OasPlan c (unitVariantObject name) :=
  plan_object _ fun e he => by rw [List.mem_singleton.1 he]; exact plan_null

theorem plan_removeUnits {c : Bool} {s : Json} (h : OasPlan c s) : OasPlan c (removeUnitVariants s).1 := by
  cases s with
  | obj m =>
    unfold removeUnitVariants
    simp only
    split
    · exact plan_remove (plan_remove h _) _
    · have hm : ∀ b : Bool, OasPlan c (.obj (if b = true then Obj.remove m "enum" else m)) := by
        intro b; split
        · exact plan_remove h _
        · exact h
      have hm := hm ((Obj.get m "type").bind Json.asStr? == some "string")
      split
      · next first rest ho =>
        obtain ⟨l, e, hl⟩ := (hm.entry ho).schemas (by decide)
        cases e
        split
        · exact plan_insert hm (pe_schemas (by decide) fun x hx => hl x (List.mem_cons_of_mem _ hx))
        · refine plan_insert hm (pe_schemas (by decide) fun x hx => ?_)
          rcases List.mem_cons.1 hx with rfl | hx
          · exact plan_remove (hl _ (List.mem_cons_self ..)) _
          · exact hl x (List.mem_cons_of_mem _ hx)
        · exact hm
      · exact hm
  | _ => exact h

theorem plan_expand {c : Bool} {s : Json} (h : OasPlan c s) : OasPlan c (expandUnitVariants s) := by
  have h1 := plan_removeUnits h
  unfold expandUnitVariants
  split
  · next s' units e =>
    rw [e] at h1
    obtain ⟨m, e', hm⟩ := OasPlan.ensureObject h1
    rw [e']
    refine plan_entryOr hm (pe_schemas (by decide) fun x hx => by cases hx) fun v hv => ?_
    obtain ⟨l, rfl, hl⟩ := hv.schemas (by decide)
    refine pe_schemas (by decide) fun x hx => ?_
    rcases List.mem_append.1 hx with hx | hx
    · exact hl x hx
    · obtain ⟨n, -, rfl⟩ := List.mem_map.1 hx
      exact plan_unitVariant c n
  · next s' e => rw [e] at h1; exact h1

theorem plan_removeKey {c : Bool} {s : Json} (h : OasPlan c s) (k : String) : OasPlan c (Schema.remove s k).1 := by
  cases s with
  | obj m => exact plan_remove h k
  | _ => exact h

theorem plan_addEmpty {c : Bool} {s : Json} (h : OasPlan c s) : OasPlan c (Schema.getMut s "anyOf" fun a =>
    match a with
    | .arr l => if l.contains (.obj []) then .arr l else .arr (l ++ [.obj []])
    | a => a) := by
  cases s with
  | obj m =>
    refine plan_modify h fun v hv => ?_
    obtain ⟨l, rfl, hl⟩ := hv.schemas (by decide)
    simp only
    split
    · exact hv
    · refine pe_schemas (by decide) fun x hx => ?_
      rcases List.mem_append.1 hx with hx | hx
      · exact hl x hx
      · rw [List.mem_singleton.1 hx]; exact plan_empty
  | _ => exact h

theorem plan_flattenOptional {s : Json} (h : OasPlan true s) : OasPlan true (flattenOptional s) := by
  unfold flattenOptional
  simp only
  have h1 := plan_removeKey h "required"
  generalize (Schema.remove s "required").1 = s1 at h1
  refine plan_addEmpty ?_
  have h2 := plan_removeKey h1 "oneOf"
  split
  · next s' o e =>
    rw [e] at h2
    refine plan_flatten h2 (plan_choices (.inr rfl) ?_)
    simp only [List.mem_cons, List.not_mem_nil, or_false, forall_eq_or_imp, forall_eq]
    refine ⟨plan_single ?_, plan_empty⟩
    cases s1 with
    | obj m => exact h1.entry (congrArg Prod.snd e)
    | _ => cases e
  · next s' e => rw [e] at h2; exact h2

theorem plan_flattenInner {s : Json} (h : OasPlan true s) (opt : Bool) : OasPlan true (flattenInner s opt) := by
  unfold flattenInner
  simp only
  refine plan_allowUnknown ?_
  split
  · exact plan_flattenOptional (plan_expand h)
  · exact plan_expand h

/-! ## Derived types -/

section
variable {I : TypeInfo τ} {A : Answers τ} {s : Json}

/-- The schemas of the types that are asked for can be expressed. -/
structure PlanAnswers (A : Answers τ) : Prop where
  sub : ∀ t s, A.sub t s → OasPlan true s
  direct : ∀ t s, A.direct t s → OasPlan true s

theorem plan_field (hA : PlanAnswers A) {f : Field τ} (hf : AttrsOas f.common) (i : Bool)
    (h : Returns A (fieldProg I f i) s) : OasPlan true s := by
  unfold fieldProg at h
  rw [res_map] at h
  obtain ⟨s0, h0, rfl⟩ := h
  refine planKeeps_run (planKeeps_field hf) _ _ ?_
  split at h0
  · obtain ⟨s1, h1, rfl⟩ := h0
    exact hA.direct _ _ h1
  · split at h0
    · obtain ⟨s1, h1, h2⟩ := h0
      simp only [Returns] at h2
      split at h2
      · cases h2; exact plan_allowUnknownBelow (hA.direct _ _ h1)
      · obtain ⟨s2, h3, rfl⟩ := h2
        exact hA.sub _ _ h3
    · obtain ⟨s1, h1, rfl⟩ := h0
      exact hA.sub _ _ h1

theorem plan_default {f : Field τ} (cd : Bool) (h : OasPlan true s) : OasPlan true (insertDefault cd f s) := by
  unfold insertDefault
  split
  · exact h
  · split
    · exact h.put (pe_plain (by decide) _)
    · exact h

theorem plan_start (deny : Bool) : OasPlan true (mkObj (("type", .str "object") ::
    if deny then [("additionalProperties", .bool false)] else [])) := by
  cases deny
  · exact plan_lit fun e he => by rw [List.mem_singleton.1 he]; exact pe_name (by decide)
  · refine plan_lit ?_
    simp only [if_true, List.mem_cons, List.not_mem_nil, or_false, forall_eq_or_imp, forall_eq]
    exact ⟨pe_name (by decide), pe_below (.inl ⟨_, rfl⟩)⟩

theorem plan_struct (hA : PlanAnswers A) {cd deny : Bool} {fs : List (Field τ)} (hfs : ∀ f ∈ fs, AttrsOas f.common)
    (h : Returns A (structProg I fs cd deny) s) : OasPlan true s := by
  replace h : Returns A (structFieldsProg I cd fs _) s := h
  have h0 := plan_start deny
  revert h h0
  generalize mkObj (("type", Json.str "object") :: if deny then [("additionalProperties", Json.bool false)] else []) = s0
  intro h h0
  obtain ⟨es, h1, h2, rfl⟩ := (returns_structFields fs).1 h
  have h3 : ∀ e ∈ es, AttrsOas e.1.common := by
    intro e he
    have : e.1 ∈ present fs A.settings.contract := h1 ▸ List.mem_map_of_mem he
    exact hfs _ (List.mem_filter.1 this).1
  clear h1 h
  induction es generalizing s0 with
  | nil => exact h0
  | cons e es ih =>
    refine ih _ ?_ (fun x hx => h2 x (List.mem_cons_of_mem _ hx)) (fun x hx => h3 x (List.mem_cons_of_mem _ hx))
    have hr := h2 e (List.mem_cons_self ..)
    have hs := h3 e (List.mem_cons_self ..)
    unfold addField
    by_cases hf : e.1.flatten = true
    · rw [if_pos hf]
      obtain ⟨s1, h4, h5⟩ := returns_flattenField hf hr
      rw [h5]
      exact plan_flatten h0 (plan_flattenInner (hA.direct _ _ h4) _)
    · rw [if_neg hf]
      unfold FieldResult at hr
      rw [if_neg hf] at hr
      obtain ⟨s1, h4, h5⟩ := hr
      rw [h5]
      exact plan_insertObjectProperty h0 _ _ (plan_default cd (plan_field hA hs false h4))

theorem plan_noTuple (h : Returns A (tupleStructProg I ([] : List (Field τ))) s) : OasPlan true s := by
  unfold tupleStructProg at h
  obtain ⟨ss, h1, h2⟩ := (res_collect _ _ _).1 h
  cases h2
  cases h1
  refine plan_lit ?_
  simp only [List.isEmpty_nil, if_true, List.nil_append, List.cons_append, List.mem_cons, List.not_mem_nil, or_false,
    forall_eq_or_imp, forall_eq]
  exact ⟨pe_name (by decide), pe_plain (by decide) _⟩

theorem plan_content (hA : PlanAnswers A) {v : Variant τ} {deny : Bool} (hv : FieldsOas v.fields)
    (h : Returns A (untaggedVariantProg I v deny false) s) : OasPlan true s := by
  unfold untaggedVariantProg at h
  simp only [Bool.false_eq_true, if_false] at h
  cases hw : v.withTy with
  | some t =>
    rw [hw] at h
    obtain ⟨s1, h1, rfl⟩ := h
    exact hA.sub _ _ h1
  | none =>
    rw [hw] at h
    simp only at h
    cases hf : v.fields with
    | unit =>
      rw [hf] at h
      obtain ⟨s1, h1, rfl⟩ := h
      exact hA.sub _ _ h1
    | newtype f => rw [hf] at h hv; exact plan_field hA hv false h
    | tuple fs => rw [hf] at h hv; cases hv; exact plan_noTuple h
    | struct fs => rw [hf] at h hv; exact plan_struct hA hv h

theorem plan_untagged (hA : PlanAnswers A) {v : Variant τ} {deny : Bool} (hv : AttrsOas v.common ∧ FieldsOas v.fields)
    (h : Returns A (untaggedVariantProg I v deny true) s) : OasPlan true s := by
  unfold untaggedVariantProg at h
  simp only [if_true] at h
  obtain ⟨t, h1, h2⟩ := res_bind.1 h
  have h1' : Returns A (untaggedVariantProg I v deny false) t := by
    unfold untaggedVariantProg
    simp only [Bool.false_eq_true, if_false]
    exact h1
  have ht := plan_content hA hv.2 h1'
  simp only [Returns] at h2
  rw [h2]
  refine planKeeps_run (planKeeps_common hv.1) _ _ ?_
  split
  · exact ht.put (pe_plain (by decide) _)
  · exact ht

theorem plan_internalVariant (hA : PlanAnswers A) {v : Variant τ} {deny : Bool} (hv : FieldsOas v.fields)
    (h : Returns A (internalVariantProg I v deny) s) : OasPlan true s := by
  unfold internalVariantProg at h
  cases hw : v.withTy with
  | some t =>
    rw [hw] at h
    obtain ⟨s1, h1, rfl⟩ := h
    exact hA.direct _ _ h1
  | none =>
    rw [hw] at h
    simp only at h
    cases hf : v.fields with
    | unit =>
      rw [hf] at h
      obtain ⟨s1, h1, rfl⟩ := h
      exact hA.sub _ _ h1
    | newtype f => rw [hf] at h hv; exact plan_field hA hv true h
    | tuple fs => rw [hf] at h hv; cases hv; exact plan_noTuple h
    | struct fs => rw [hf] at h hv; exact plan_struct hA hv h

theorem plan_adjacent (tag content name : String) (deny : Bool) {sub : Option Json}
    (h : ∀ s, sub = some s → OasPlan true s) : OasPlan true (adjacentSchema tag content name deny sub) := by
  have hp : PlanEntry true "properties" (mkObj ((tag, tagSchema name) :: sub.elim [] fun s => [(content, s)])) := by
    refine pe_object fun e he => ?_
    rcases List.mem_cons.1 he with rfl | he
    · exact plan_tag _
    · cases sub with
      | none => cases he
      | some s => rw [List.mem_singleton.1 he]; exact h s rfl
  unfold adjacentSchema
  cases deny
  all_goals
    refine plan_lit ?_; simp only [Bool.false_eq_true, if_false, if_true, List.append_nil, List.cons_append,
      List.nil_append, List.mem_cons, List.not_mem_nil, or_false, forall_eq_or_imp, forall_eq]
  · exact ⟨pe_name (by decide), hp, pe_plain (by decide) _⟩
  · exact ⟨pe_name (by decide), hp, pe_plain (by decide) _, pe_below (.inl ⟨_, rfl⟩)⟩

theorem plan_units (names : List String) : OasPlan true (unitVariantsSchema names) := by
  refine plan_lit ?_
  simp only [List.mem_cons, List.not_mem_nil, or_false, forall_eq_or_imp, forall_eq]
  exact ⟨pe_name (by decide), pe_plain (by decide) _⟩

/-- The schema of an enum, from those of the variants. -/
theorem plan_variants (hA : PlanAnswers A) {unique : Bool} {first : Option (Prog τ)} {vs : List (Variant τ × Prog τ)}
    (h1 : ∀ p s, first = some p → Returns A p s → OasPlan true s)
    (h2 : ∀ e ∈ vs, ∀ s, Returns A e.2 s → OasPlan true s)
    (h : Returns A (variantSubschemas unique first vs) s) : OasPlan true s := by
  unfold variantSubschemas at h
  obtain ⟨rs, h4, h5⟩ := (res_collect _ _ _).1 h
  clear h
  cases h5
  have hk : ∀ b : Bool, (if b = true then "oneOf" else "anyOf") = "oneOf" ∨ (if b = true then "oneOf" else "anyOf") = "anyOf" := by
    decide
  refine plan_choices (hk _) fun x hx => ?_
  have : ∃ p ∈ (first.elim [] (fun p => [((fun _ => true : Contract → Bool), p)]) ++
      vs.map fun e => (e.1.included, e.1.refTy.elim e.2 fun t => .sub t .ret)), Returns A p.2 x := by
    obtain ⟨i, hi, rfl⟩ := List.getElem_of_mem hx
    refine ⟨_, (List.mem_filter.1 (List.getElem_mem (h4.length_eq ▸ hi))).1, h4.get (h4.length_eq ▸ hi) hi⟩
  obtain ⟨p, hp, hx⟩ := this
  rcases List.mem_append.1 hp with hp | hp
  · cases first with
    | none => cases hp
    | some q => rw [List.mem_singleton.1 hp] at hx; exact h1 q x rfl hx
  · obtain ⟨e, he, rfl⟩ := List.mem_map.1 hp
    simp only at hx
    cases hr : e.1.refTy with
    | none => rw [hr] at hx; exact h2 e he _ hx
    | some t => rw [hr] at hx; obtain ⟨s1, k, rfl⟩ := hx; exact hA.sub _ _ k

theorem plan_enum (hA : PlanAnswers A) {tag : TagType} {vs : List (Variant τ)} {deny : Bool}
    (hv : ∀ v ∈ vs, AttrsOas v.common ∧ FieldsOas v.fields) (h : Returns A (enumProg I tag vs deny) s) : OasPlan true s := by
  unfold enumProg at h
  split at h
  · cases h; exact .bool _
  have plain : ∀ {f : Variant τ → Prog τ} {unique : Bool}, (∀ v ∈ vs, ∀ s, Returns A (f v) s → OasPlan true s) →
      Returns A (variantSubschemas unique none (vs.map fun v => (v, f v))) s → OasPlan true s := by
    intro f unique hf h
    refine plan_variants hA (vs := vs.map fun v => (v, f v)) (first := none) (fun p s hp => by cases hp)
      (fun e he s hs => ?_) h
    obtain ⟨v, hv', rfl⟩ := List.mem_map.1 he
    exact hf v hv' s hs
  cases tag with
  | external =>
    simp only at h
    unfold externalEnumProg at h
    simp only at h
    have hunits : ∀ {s l}, Returns A (unitVariantsProg l) s → OasPlan true s := by
      intro s l h
      unfold unitVariantsProg at h
      simp only [Returns] at h
      rw [h]
      exact plan_units _
    split at h
    · exact hunits h
    · refine plan_variants hA ?_ ?_ h
      · intro p s hp hs
        split at hp
        · cases hp
        · cases hp; exact hunits hs
      · intro e he s hs
        obtain ⟨v, hv', rfl⟩ := List.mem_map.1 he
        have hv' := (List.mem_filter.1 hv').1
        simp only at hs
        unfold externalVariantProg at hs
        split at hs
        · exact plan_untagged hA (hv v hv') hs
        · split at hs
          · simp only [Returns] at hs
            subst hs
            exact planKeeps_run (planKeeps_common (hv v hv').1) _ _ (plan_tag _)
          · simp only [Returns] at hs
            obtain ⟨sub, h1, rfl⟩ := res_map.1 hs
            refine planKeeps_run (planKeeps_common (hv v hv').1) _ _ (plan_closedObject _ fun e he' => ?_)
            rw [List.mem_singleton.1 he']
            exact plan_content hA (hv v hv').2 h1
  | none => exact plain (fun v hv' s hs => plan_untagged hA (hv v hv') hs) h
  | internal t =>
    refine plain (fun v hv' s hs => ?_) h
    unfold internalTaggedProg at hs
    split at hs
    · exact plan_untagged hA (hv v hv') hs
    · obtain ⟨s1, h2, h3⟩ := res_bind.1 hs
      simp only [Returns] at h3
      rw [h3]
      exact planKeeps_run (planKeeps_common (hv v hv').1) _ _ (plan_internalTag (plan_internalVariant hA (hv v hv').2 h2) _ _ _)
  | adjacent t c =>
    refine plain (fun v hv' s hs => ?_) h
    unfold adjacentTaggedProg at hs
    split at hs
    · exact plan_untagged hA (hv v hv') hs
    · split at hs
      · simp only [Returns] at hs
        subst hs
        exact planKeeps_run (planKeeps_common (hv v hv').1) _ _ (plan_adjacent _ _ _ _ fun s hs => by cases hs)
      · simp only [Returns] at hs
        obtain ⟨sub, h1, rfl⟩ := res_map.1 hs
        refine planKeeps_run (planKeeps_common (hv v hv').1) _ _ (plan_adjacent _ _ _ _ fun s hs => ?_)
        cases hs
        exact plan_content hA (hv v hv').2 h1

/-- The schema of a derived type can be expressed, if those of the types that it mentions can. -/
theorem plan_container (hA : PlanAnswers A) {decl : τ → Verif.Decl τ} {deep : τ → Prop} {k : Contract} {c : Container τ} (hd : DeclOas decl deep k (.derived c))
    (h : Returns A (bodyOf I (.derived c)) s) : OasPlan true s := by
  obtain ⟨h1, h2, h3⟩ := hd
  have h : Returns A (containerProg I c) s := h
  unfold containerProg at h
  simp only at h
  obtain ⟨s1, h4, rfl⟩ := res_map.1 h
  refine planKeeps_run (planKeeps_common h1) _ _ ?_
  have hdirect : ∀ {t : τ} {s1}, Returns A (.direct t .ret) s1 → OasPlan true s1 := by
    rintro t s1 ⟨s2, h2, rfl⟩
    exact hA.direct _ _ h2
  have hdata : Returns A (dataProg I c) s1 → OasPlan true s1 := by
    intro h
    unfold dataProg at h
    cases hd : c.data with
    | enum tag vs =>
      rw [hd] at h h3
      exact plan_enum hA h3 h
    | struct fields =>
      rw [hd] at h h3
      cases fields with
      | unit => exact (by obtain ⟨s1, h1, rfl⟩ := h; exact hA.sub _ _ h1)
      | newtype f => exact plan_field hA h3 false h
      | tuple fs => cases h3; exact plan_noTuple h
      | struct fs => exact plan_struct hA h3 h
  clear h
  split at h4
  · exact hdirect h4
  · next f _ ht => exact plan_field hA (h2 f ‹_›) false h4
  · simp only [Returns] at h4
    split at h4
    · exact hdirect h4
    · exact hdirect h4
  · simp only [Returns] at h4
    split at h4
    · exact hdirect h4
    · exact hdata h4
  · simp only [Returns] at h4
    split at h4
    · exact hdirect h4
    · exact hdata h4
  · exact hdata h4

end

/-! ## Runs of the generator -/

section
variable {Γ : τ → TypeDef τ} {decl : τ → Verif.Decl τ} {I : TypeInfo τ} {deep : τ → Prop} {st : Settings} {n : Nat}

/-- What holds for the schema of a type. -/
structure PlanFor (decl : τ → Verif.Decl τ) (deep : τ → Prop) (t : τ) (s : Json) : Prop where
  plan : OasPlan true s
  key : OasKey (decl t) → StringKey s
  value : decl t = .std .value → ∃ b, s = .bool b
  deep : ∀ x, decl t = .std x → StdDeep deep x → OasPlan false s

/-- The generator has these settings, and its definitions can be expressed. -/
def PlanGen (st : Settings) (g : Gen τ) : Prop := g.settings = st ∧ ∀ e ∈ g.defs, OasPlan true e.2

def RunsPlan (decl : τ → Verif.Decl τ) (deep : τ → Prop) (st : Settings)
    (R : τ → Gen τ → Option (Json × Gen τ)) : Prop :=
  ∀ t g s g', PlanGen st g → R t g = some (s, g') → PlanFor decl deep t s ∧ PlanGen st g'

theorem planGen_name {t : τ} {g : Gen τ} (h : PlanGen st g) : PlanGen st (nameFor Γ t g).2 := by
  unfold nameFor
  split
  · exact h
  · exact h

variable {R : τ → Gen τ → Option (Json × Gen τ)}

theorem plan_internal (hR : RunsPlan decl deep st R) {t : τ} {u : Uid} {g g' : Gen τ} {s : Json} (hg : PlanGen st g)
    (h : jsonSchemaInternal R t u g = some (s, g')) : PlanFor decl deep t s ∧ PlanGen st g' := by
  unfold jsonSchemaInternal at h
  obtain ⟨⟨s1, g2⟩, hr, he⟩ := Option.map_eq_some_iff.1 h
  simp only [Prod.mk.injEq] at he
  obtain ⟨rfl, rfl⟩ := he
  have h1 : PlanGen st (Gen.note { g with pending := if u ∉ g.pending then u :: g.pending else g.pending } (.enter t u)) := hg
  obtain ⟨h2, h3⟩ := hR _ _ _ _ h1 hr
  exact ⟨h2, h3⟩

/-- `subschema_for` returns a reference or the schema of the type. -/
theorem plan_sub (hi : st.inlineSubschemas = false) (hR : RunsPlan decl deep st R) {t : τ} {g g' : Gen τ} {s : Json}
    (hg : PlanGen st g) (h : subschemaFor Γ R t g = some (s, g')) :
    ((∃ r, s = Schema.newRef r) ∨ (Γ t).inlineSchema = true ∧ PlanFor decl deep t s) ∧ PlanGen st g' := by
  unfold subschemaFor at h
  simp only at h
  split at h
  · split at h
    · cases h; exact ⟨.inl ⟨_, rfl⟩, hg⟩
    · have h1 := planGen_name (Γ := Γ) (t := t) hg
      generalize nameFor Γ t g = p at h1 h
      split at h
      · cases h; exact ⟨.inl ⟨_, rfl⟩, h1⟩
      · obtain ⟨g3, h3, e⟩ := Option.map_eq_some_iff.1 h
        cases e
        refine ⟨.inl ⟨_, rfl⟩, ?_⟩
        unfold insertNewSubschemaFor at h3
        obtain ⟨⟨s1, g2⟩, h4, e⟩ := Option.map_eq_some_iff.1 h3
        simp only at e
        subst e
        obtain ⟨h5, h6⟩ := plan_internal hR (t := t) (g := { p.2.note _ with defs := Obj.insert p.2.defs p.1 (.bool false) })
          ⟨h1.1, fun e he => by
            rcases Obj.mem_insert he with rfl | he
            · exact .bool _
            · exact h1.2 e he⟩ h4
        refine ⟨h6.1, fun e he => ?_⟩
        rcases Obj.mem_insert he with rfl | he
        · exact h5.plan
        · exact h6.2 e he
  · next hc =>
    obtain ⟨h1, h2⟩ := plan_internal hR hg h
    refine ⟨.inr ⟨?_, h1⟩, h2⟩
    rw [hg.1, hi] at hc
    simpa using hc

theorem plan_root (hR : RunsPlan decl deep st R) {t : τ} {g g' : Gen τ} {s : Json}
    (hg : PlanGen st g) (h : rootSchemaFor Γ R t g = some (s, g')) : PlanGen st g' := by
  unfold rootSchemaFor at h
  obtain ⟨⟨s1, g1⟩, h1, h2⟩ := Option.bind_eq_some_iff.1 h
  obtain ⟨m, -, e⟩ := Option.map_eq_some_iff.1 h2
  simp only [Prod.mk.injEq] at e
  obtain ⟨-, rfl⟩ := e
  have h3 : PlanGen st (Gen.note { g with rootStack := uidOf Γ g t :: g.rootStack } (.rootEnter t (uidOf Γ g t))) := hg
  exact (plan_internal hR h3 h1).2

/-- What the generator answers. -/
def planAnswers (Γ : τ → TypeDef τ) (decl : τ → Verif.Decl τ) (deep : τ → Prop) (st : Settings) : Answers τ where
  sub t s := (∃ r, s = Schema.newRef r) ∨ (Γ t).inlineSchema = true ∧ PlanFor decl deep t s
  direct t s := PlanFor decl deep t s
  root _ _ := True
  settings := st
  defs _ := True

theorem exec_plan (hi : st.inlineSubschemas = false) (hR : RunsPlan decl deep st R) (p : Prog τ) :
    ∀ {g g' : Gen τ} {s : Json}, PlanGen st g → exec Γ R p g = some (s, g') →
      Returns (planAnswers Γ decl deep st) p s ∧ PlanGen st g' := by
  induction p with
  | ret s => intro g g' s' hg h; cases h; exact ⟨rfl, hg⟩
  | sub t f ih =>
    intro g g' s' hg h
    obtain ⟨⟨s1, g1⟩, h1, h2⟩ := Option.bind_eq_some_iff.1 h
    obtain ⟨h3, h4⟩ := plan_sub hi hR hg h1
    obtain ⟨h5, h6⟩ := ih s1 h4 h2
    exact ⟨⟨s1, h3, h5⟩, h6⟩
  | direct t f ih =>
    intro g g' s' hg h
    obtain ⟨⟨s1, g1⟩, h1, h2⟩ := Option.bind_eq_some_iff.1 h
    obtain ⟨h3, h4⟩ := hR _ _ _ _ hg h1
    obtain ⟨h5, h6⟩ := ih s1 h4 h2
    exact ⟨⟨s1, h3, h5⟩, h6⟩
  | root t f ih =>
    intro g g' s' hg h
    obtain ⟨⟨s1, g1⟩, h1, h2⟩ := Option.bind_eq_some_iff.1 h
    obtain ⟨h5, h6⟩ := ih s1 (plan_root hR hg h1) h2
    exact ⟨⟨s1, trivial, h5⟩, h6⟩
  | askSettings f ih =>
    intro g g' s' hg h
    have h : exec Γ R (f g.settings) g = some (s', g') := h
    rw [hg.1] at h
    exact ih _ hg h
  | askDefs f ih =>
    intro g g' s' hg h
    obtain ⟨h5, h6⟩ := ih _ hg h
    exact ⟨⟨g.defs, trivial, h5⟩, h6⟩

theorem planAnswers_ok : PlanAnswers (planAnswers Γ decl deep st) :=
  ⟨fun _ _ h => h.elim (fun ⟨r, e⟩ => e ▸ plan_newRef r) fun h => h.2.plan, fun _ _ h => h.plan⟩

/-- The schema of a type. -/
theorem plan_body (ht : OasTypes Γ decl st.contract deep) {t : τ} {s : Json}
    (h : Returns (planAnswers Γ decl deep st) (bodyOf I (decl t)) s) : PlanFor decl deep t s := by
  have hd := ht.decls t
  generalize hx : decl t = d at h hd
  cases d with
  | derived c => exact ⟨plan_container planAnswers_ok hd h, fun hk => by rw [hx] at hk; exact hk.elim,
      fun e => (by rw [hx] at e; cases e), fun x e => by rw [hx] at e; cases e⟩
  | std x =>
    have hkey : ∀ k v, x = .map k v → ∀ s, (planAnswers Γ decl deep st).direct k s → StringKey s := by
      rintro k v rfl s hs
      exact hs.key hd.1
    have hdeep : ∀ t s, deep t → (planAnswers Γ decl deep st).sub t s → OasPlan false s := by
      rintro t s h1 (⟨r, rfl⟩ | ⟨h2, h3⟩)
      · exact plan_newRef r
      · rcases ht.deep t h1 with h4 | ⟨y, h4, h5⟩
        · rw [h4] at h2; cases h2
        · exact h3.deep y h4 h5
    have hval : ∀ k v, x = .map k v → ∀ s, (planAnswers Γ decl deep st).sub v s → (∃ b, s = .bool b) ∨ OasPlan false s := by
      rintro k v rfl s hs
      rcases hd.2 with h1 | h1
      · rcases hs with ⟨r, rfl⟩ | ⟨-, h3⟩
        · exact .inr (plan_newRef r)
        · exact .inl (h3.value h1)
      · exact .inr (hdeep v s h1 hs)
    refine ⟨std_plan (need := fun _ => True) (fun t s _ h => planAnswers_ok.sub t s h) hd ?_ hkey hval h,
      fun hk => stringKey_std hk hx h, fun e => ?_, fun y e hy => ?_⟩
    · cases x <;> first | exact .inr ⟨rfl, rfl⟩ | exact .inl trivial | exact .inl ⟨trivial, trivial⟩
    · rw [hx] at e; cases e
      cases h; exact ⟨_, rfl⟩
    · rw [hx] at e; cases e
      exact std_plan (need := deep) hdeep hd (.inl hy) hkey hval h

theorem runs_plan (hb : ∀ t, (Γ t).body = bodyOf I (decl t)) (ht : OasTypes Γ decl st.contract deep)
    (hi : st.inlineSubschemas = false) (n : Nat) : RunsPlan decl deep st (run Γ n) := by
  induction n with
  | zero => intro t g s g' _ h; cases h
  | succ n ih =>
    intro t g s g' hg h
    have h : exec Γ (run Γ n) (Γ t).body g = some (s, g') := h
    obtain ⟨h1, h2⟩ := exec_plan hi ih _ hg h
    rw [hb] at h1
    exact ⟨plan_body ht h1, h2⟩

theorem hist_plan (hb : ∀ t, (Γ t).body = bodyOf I (decl t)) (ht : OasTypes Γ decl st.contract deep)
    (hi : st.inlineSubschemas = false) {g : Gen τ} (h : Hist Γ st g) : PlanGen st g := by
  induction h with
  | new => exact ⟨rfl, fun e he => by cases he⟩
  | take _ ih => exact ⟨ih.1, fun e he => by cases he⟩
  | call _ hc ih =>
    cases hc with
    | sub h => exact (plan_sub hi (runs_plan hb ht hi _) ih h).2
    | direct h => exact (runs_plan hb ht hi _ _ _ _ _ ih h).2
    | root h => exact plan_root (runs_plan hb ht hi _) ih h

/-- C82 for types (`_partial`: see `OasTypes`; in full this is `C82_Full`, which is false): with the `openapi3` settings, the
subschemas for the types are schemas of OpenAPI 3.0 after the transforms, and so are the definitions, as `take_definitions(true)`
returns them, whatever has been generated before. -/
theorem C82_types_partial (hb : ∀ t, (Γ t).body = bodyOf I (decl t)) (ht : OasTypes Γ decl st.contract deep)
    (hT : st.transforms = openapi3Transforms) (hi : st.inlineSubschemas = false) {g : Gen τ} (h : Hist Γ st g) :
    (∀ e ∈ (takeDefinitions g true).1, Oas30 e.2) ∧
      ∀ n t s g', subschemaFor Γ (run Γ n) t g = some (s, g') → Oas30 (applyTransforms st.transforms s) := by
  have hg := hist_plan hb ht hi h
  refine ⟨fun e he => ?_, fun n t s g' hs => ?_⟩
  · obtain ⟨e0, he0, rfl⟩ := List.mem_map.1 he
    have h0 := hg.2 e0 he0
    have hs : isSchema e0.2 = true := by
      obtain ⟨k, v⟩ := e0
      cases h0.isSchema <;> rfl
    simp only [hs, if_true]
    rw [hg.1, hT]
    exact C82_partial h0.stage
  · rw [hT]
    refine C82_partial (OasPlan.stage (c := true) ?_)
    rcases (plan_sub hi (runs_plan hb ht hi n) hg hs).1 with ⟨r, rfl⟩ | ⟨-, h1⟩
    · exact plan_newRef r
    · exact h1.plan

end

/-- C82 fails for decimals (and in the same way for `CString` and `Bytes`) when they are read: `type` is an array. -/
theorem C82_decimal : ((subschemaFor (fun _ : Unit => ⟨"Decimal", "Decimal", true, stdBody .decimal⟩)
      (run (fun _ : Unit => ⟨"Decimal", "Decimal", true, stdBody .decimal⟩) 2) () (Gen.new .openapi3)).map fun r =>
        applyTransforms openapi3Transforms r.1) = some (decimalSchema .deserialize) ∧
    ¬ Oas30 (decimalSchema .deserialize) := by
  refine ⟨by decide +kernel, fun h => ?_⟩
  cases h with
  | reference r h => exact no_reference (by decide) h
  | schema keys type =>
    obtain ⟨t, -, e⟩ := type _ (by decide +kernel : _ = some (Json.arr [.str "string", .str "number"]))
    cases e

/-- C82 fails for the type `Schema`, for reading and for writing: the definition that is made for it has an array as `type`,
and the transforms would not change that. -/
theorem C82_schema : ((subschemaFor (Ty.typeDef fun _ => ⟨[], [], 0, 0, fun _ _ => [], false, fun _ _ => .ret .null⟩)
      (run (Ty.typeDef fun _ => ⟨[], [], 0, 0, fun _ _ => [], false, fun _ _ => .ret .null⟩) 2) (.fixed .schema)
      (Gen.new .openapi3)).map fun r => (r.1, r.2.defs)) =
      some (Schema.newRef "#/components/schemas/Schema", [("Schema", Schema.selfSchema.getD .null)]) ∧
    ¬ Oas30 (Schema.selfSchema.getD .null) ∧ ¬ Oas30 (applyTransforms openapi3Transforms (Schema.selfSchema.getD .null)) := by
  have h : ¬ Oas30 (Schema.selfSchema.getD .null) := fun h => by
    cases h with
    | reference r h => exact no_reference (by decide) h
    | schema keys type =>
      obtain ⟨t, -, e⟩ := type _ (by decide +kernel : _ = some (Json.arr [.str "object", .str "boolean"]))
      cases e
  refine ⟨by decide +kernel, h, ?_⟩
  rw [show applyTransforms openapi3Transforms (Schema.selfSchema.getD .null) = Schema.selfSchema.getD .null by decide +kernel]
  exact h

/-! ### Examples -/

namespace Pets

/-- `i32`, `String`, `()`, `Value`, `Vec<Value>`, `BTreeMap<String, Value>`, `Pet`, `Option<Kind>`, `Kind`,
`BTreeMap<String, Vec<Pet>>`, `Vec<Pet>`, with

    /// A pet.
    struct Pet {
        #[schemars(extend("x-order" = 1), range(min = 0))] age: i32,
        kind: Option<Kind>,
        notes: Vec<Value>,
        #[serde(flatten)] extra: BTreeMap<String, Value>,
    }
    #[serde(deny_unknown_fields)] enum Kind { Cat, Fish(i32), Bird { name: String } }
-/
inductive PetTy where
  | num | text | unit | any | anys | extra | pet | option | kind | byName | pets

open PetTy

def decl : PetTy → Verif.Decl PetTy
  | num => .std (.int .i32)
  | text => .std (.simple "string")
  | unit => .std (.simple "null")
  | any => .std .value
  | anys => .std (.seq any)
  | extra => .std (.map text any)
  | option => .std (.option kind)
  | byName => .std (.map text pets)
  | pets => .std (.seq pet)
  | pet => .derived { common := { doc := some "A pet." }
                      data := .struct (.struct [
                        { name := ⟨"age", "age"⟩, ty := num, common := { extensions := [("x-order", .num (.int 1))] }
                          validation := .mk none (some { min := some (.num (.int 0)) }) none none none none none },
                        { name := ⟨"kind", "kind"⟩, ty := option },
                        { name := ⟨"notes", "notes"⟩, ty := anys },
                        { name := ⟨"extra", "extra"⟩, ty := extra, flatten := true }]) }
  | kind => .derived { denyUnknownFields := true
                       data := .enum .external [{ name := ⟨"Cat", "Cat"⟩, fields := .unit },
                         { name := ⟨"Fish", "Fish"⟩, fields := .newtype { name := ⟨"0", "0"⟩, ty := num } },
                         { name := ⟨"Bird", "Bird"⟩, fields := .struct [{ name := ⟨"name", "name"⟩, ty := text }] }] }

def info : TypeInfo PetTy :=
  ⟨unit, fun t => match t with
    | option => true
    | _ => false,
   fun t => match t with
    | option => kind
    | t => t, fun _ => false⟩

def types (t : PetTy) : TypeDef PetTy where
  schemaId := match t with
    | pet => "Pet"
    | kind => "Kind"
    | _ => ""
  schemaName := match t with
    | pet => "Pet"
    | kind => "Kind"
    | _ => ""
  inlineSchema := match t with
    | pet | kind => false
    | _ => true
  body := bodyOf info (decl t)

theorem plainAttrs : AttrsOas {} := ⟨fun e he => (by cases he), rfl⟩

/-- They can be expressed in OpenAPI 3.0. -/
theorem oas (c : Contract) : OasTypes types decl c fun t => t = pets ∨ t = pet := by
  refine ⟨fun t => ?_, fun t ht => ?_⟩
  · cases t with
    | text => exact .inl (by decide)
    | unit => exact .inr rfl
    | extra => exact ⟨rfl, .inl rfl⟩
    | byName => exact ⟨rfl, .inr (.inl rfl)⟩
    | pet =>
      refine ⟨⟨fun e he => (by cases he), rfl⟩, fun f hf => (by cases hf), ?_⟩
      simp only [DataOas, FieldsOas, List.mem_cons, List.not_mem_nil, or_false, forall_eq_or_imp, forall_eq]
      refine ⟨⟨fun e he => ?_, rfl⟩, plainAttrs, plainAttrs, plainAttrs⟩
      rw [List.mem_singleton.1 he]
      exact .inr ⟨"order".toList, rfl⟩
    | kind =>
      refine ⟨plainAttrs, fun f hf => (by cases hf), ?_⟩
      simp only [DataOas, List.mem_cons, List.not_mem_nil, or_false, forall_eq_or_imp, forall_eq]
      refine ⟨⟨plainAttrs, trivial⟩, ⟨plainAttrs, plainAttrs⟩, plainAttrs, ?_⟩
      simp only [FieldsOas, List.mem_cons, List.not_mem_nil, or_false, forall_eq]
      exact plainAttrs
    | _ => trivial
  · rcases ht with rfl | rfl
    · exact .inr ⟨_, rfl, .inr rfl⟩
    · exact .inl rfl

/-- The definition of `Pet` after the transforms. -/
def petSchema : Json := mkObj [("additionalProperties", .bool true), ("description", .str "A pet."), ("type", .str "object"),
  ("properties", mkObj [
    ("age", mkObj [("format", .str "int32"), ("minimum", .num (.int 0)), ("type", .str "integer"),
      ("x-order", .num (.int 1))]),
    ("kind", mkObj [("anyOf", .arr [Schema.newRef "#/components/schemas/Kind", mkObj [("enum", .arr [.null]), ("nullable", .bool true)]])]),
    ("notes", mkObj [("items", mkObj []), ("type", .str "array")])]),
  ("required", .arr [.str "age", .str "notes"])]

end Pets

open Pets in
/-- `Pet` becomes a definition, which can be expressed. -/
example : Oas30 petSchema := by
  have h : ((subschemaFor types (run types 9) .byName (Gen.new .openapi3)).map fun r =>
      Obj.get (takeDefinitions r.2 true).1 "Pet") = some (some petSchema) := by decide +kernel
  obtain ⟨⟨s, g⟩, h1, h2⟩ := Option.map_eq_some_iff.1 h
  exact (C82_types_partial (I := info) (fun _ => rfl) (oas _) rfl rfl (.call .new (.sub h1))).1 _ (Obj.get_mem h2)

end Verif
