import Verif.Lemmas.MetaValidDerive
import Verif.Lemmas.MetaValidTransforms
import Verif.Lemmas.TidyDerive
import Verif.Props.AcceptsPipelines

/-!
# C61: generated schemas are valid according to the meta-schema
-/

namespace Verif
open Spec

variable {τ : Type} {b : Bool}

/-! ## What is asked of a program -/

/-- The transform keeps schemas valid. -/
def Spec.KeepsValid (b : Bool) (f : Json → Json) : Prop :=
  ∀ s, MetaValid .every b s → Expandable s → MetaValid .every b (f s) ∧ Expandable (f s)

/-- The values in the attributes are right for the keywords they are written to. -/
structure Spec.AttrsSuit (b : Bool) (a : CommonAttrs) : Prop where
  extensions : ∀ e ∈ a.extensions, MetaEntry .every b e.1 e.2 ∧ e.1 ∉ ["type", "enum", "oneOf"]
  transforms : ∀ f ∈ a.transforms, KeepsValid b f

/-- The bounds in a `length` attribute are counts. -/
def Spec.LengthSuits (l : LengthOrRange) : Prop :=
  ∀ v, l.min = some v ∨ l.max = some v ∨ l.equal = some v → Suits false .count v

/-- The bounds in a `range` attribute are numbers. -/
def Spec.RangeSuits (l : LengthOrRange) : Prop :=
  ∀ v, l.min = some v ∨ l.max = some v ∨ l.equal = some v → Suits false .number v

/-- The values in the validation attributes are right for the keywords they are written to. -/
def Spec.ValidationSuits : ValidationAttrs → Prop
  | .mk length range _ _ _ _ inner => (∀ l, length = some l → LengthSuits l) ∧ (∀ r, range = some r → RangeSuits r) ∧
    match inner with
    | some a => ValidationSuits a
    | none => True

/-- The attributes of a field suit. -/
def Spec.FieldSuits (b : Bool) (f : Field τ) : Prop := AttrsSuit b f.common ∧ ValidationSuits f.validation

/-- The attributes of the fields suit. -/
def Spec.FieldsSuit (b : Bool) : Fields τ → Prop
  | .unit => True
  | .newtype f => FieldSuits b f
  | .tuple fs => ∀ f ∈ fs, FieldSuits b f
  | .struct fs => ∀ f ∈ fs, FieldSuits b f

/-- The attributes suit. -/
def Spec.DataSuits (b : Bool) : DeriveData τ → Prop
  | .struct fields => FieldsSuit b fields
  | .enum _ vs => ∀ v ∈ vs, AttrsSuit b v.common ∧ FieldsSuit b v.fields

/-- What is asked of a standard type: the model has types that do not exist. -/
def Spec.StdSuits : Std τ → Prop
  | .simple t => t ∈ typeNames
  | .formatted t _ => t ∈ typeNames
  | .tuple l => l ≠ []
  | _ => True

/-- What is asked of a type. -/
def Spec.DeclSuits (b : Bool) : Verif.Decl τ → Prop
  | .std x => StdSuits x
  | .derived d => AttrsSuit b d.common ∧ (∀ f, d.transparent = some f → FieldSuits b f) ∧ DataSuits b d.data

/-- An enum with variants has one that is not skipped under the contract. -/
def Spec.HasVariant (c : Contract) : Verif.Decl τ → Prop
  | .std _ => True
  | .derived d => match d.data with
    | .struct _ => True
    | .enum _ vs => vs ≠ [] → ∃ v ∈ vs, v.included c = true

/-- No fields are flattened, and the names of those that are not skipped under the contract differ. -/
def Spec.FieldNamesDiffer (c : Contract) : Fields τ → Prop
  | .struct fs => (∀ f ∈ present fs c, f.flatten = false) ∧ ((present fs c).map fun f => f.name.get c).Nodup
  | _ => True

/-- Under the contract, what the internal tag is added to does not have its name. -/
def Spec.TagApart (c : Contract) (tag : String) (v : Variant τ) : Prop :=
  v.withTy = none ∧ match v.fields with
    | .unit => True
    | .struct fs => ∀ f ∈ present fs c, f.name.get c ≠ tag
    | _ => False

/-- The names that a schema requires differ. -/
def Spec.NamesDiffer (c : Contract) : Verif.Decl τ → Prop
  | .std _ => True
  | .derived d => match d.data with
    | .struct fields => FieldNamesDiffer c fields
    | .enum tag vs => (∀ v ∈ vs, FieldNamesDiffer c v.fields) ∧ match tag with
      | .internal t => ∀ v ∈ vs, v.untagged = false → TagApart c t v
      | .adjacent t content => t ≠ content
      | _ => True

/-! ## Standard types -/

theorem proper_int (t : IntTy) : Proper b (intSchema t) := by
  have h1 : ∀ f lo hi, Proper b (rangedInt f lo hi) := by
    intro f lo hi
    refine proper_lit ?_ ?_ <;> simp only [List.mem_cons, List.not_mem_nil, or_false, forall_eq_or_imp, forall_eq]
    · exact ⟨me_type (by decide), me_text rfl _, me_number rfl _, me_number rfl _⟩
    · decide
  have h2 : ∀ f, Proper b (unsignedInt f) := by
    intro f
    refine proper_lit ?_ ?_ <;> simp only [List.mem_cons, List.not_mem_nil, or_false, forall_eq_or_imp, forall_eq]
    · exact ⟨me_type (by decide), me_text rfl _, me_number rfl _⟩
    · decide
  have h3 : ∀ f, Proper b (typeFormat "integer" f) := by
    intro f
    refine proper_lit ?_ ?_ <;> simp only [List.mem_cons, List.not_mem_nil, or_false, forall_eq_or_imp, forall_eq]
    · exact ⟨me_type (by decide), me_text rfl _⟩
    · decide
  cases t
  all_goals first
    | exact h1 _ _ _
    | exact h2 _
    | exact h3 _

theorem me_object {k : String} {l : List (String × Json)} (hk : kindOf .every k = .schemaMap)
    (h : ∀ e ∈ l, MetaValid .every b e.2) : MetaEntry .every b k (mkObj l) := by
  refine me_map hk fun e he => ?_
  rcases mem_of_extend e he with he | he
  · cases he
  · exact h e he

theorem proper_object {l : List (String × Json)} {r : List String} (hr : r.Nodup) (h : ∀ e ∈ l, MetaValid .every b e.2) :
    Proper b (mkObj [("type", .str "object"), ("properties", mkObj l), ("required", .arr (r.map .str))]) := by
  refine proper_lit ?_ ?_ <;> simp only [List.mem_cons, List.not_mem_nil, or_false, forall_eq_or_imp, forall_eq]
  · exact ⟨me_type (by decide), me_object rfl h, me_required fun _ => hr⟩
  · decide

theorem proper_oneProperty (k : String) {s : Json} (h : MetaValid .every b s) : Proper b (oneProperty k s) :=
  proper_object (r := [k]) (List.nodup_singleton k) fun e he => by rw [List.mem_singleton.1 he]; exact h

theorem proper_closed {l : List (String × Json)} {r : List String} (hr : r.Nodup) (h : ∀ e ∈ l, MetaValid .every b e.2) :
    Proper b (mkObj [("type", .str "object"), ("properties", mkObj l), ("required", .arr (r.map .str)),
      ("additionalProperties", .bool false)]) := by
  refine proper_lit ?_ ?_ <;> simp only [List.mem_cons, List.not_mem_nil, or_false, forall_eq_or_imp, forall_eq]
  · exact ⟨me_type (by decide), me_object rfl h, me_required (fun _ => hr), me_schema rfl (.bool _)⟩
  · decide

theorem proper_eitherSide (k : String) {s : Json} (h : MetaValid .every b s) : Proper b (eitherSide k s) := by
  refine proper_lit ?_ ?_ <;> simp only [List.mem_cons, List.not_mem_nil, or_false, forall_eq_or_imp, forall_eq]
  · exact ⟨me_type (by decide), me_object rfl fun e he => by rw [List.mem_singleton.1 he]; exact h,
      me_schema rfl (.bool _), me_required (l := [k]) fun _ => List.nodup_singleton k⟩
  · decide

theorem proper_tag (name : String) : Proper b (tagSchema name) := by
  refine ⟨mv_tag name, exp_lit ?_⟩
  simp only [List.mem_cons, List.not_mem_nil, or_false, forall_eq_or_imp, forall_eq]
  decide

theorem proper_choices {k : String} {l : List Json} (hk : k = "oneOf" ∨ k = "anyOf") (h0 : l ≠ [])
    (h : ∀ x ∈ l, MetaValid .every b x) (hc : ChoicesListNames (.arr l)) : Proper b (.obj [(k, .arr l)]) := by
  refine ⟨mv_single (me_schemas (by rcases hk with rfl | rfl <;> rfl) h0 h), exp_obj (lists_noEnum ?_) fun e he _ => ?_⟩
  · rcases hk with rfl | rfl <;> rfl
  · rw [List.mem_singleton.1 he]; exact hc

theorem proper_oneOf {l : List Json} (h0 : l ≠ []) (h : ∀ x ∈ l, Proper b x) : Proper b (mkObj [("oneOf", .arr l)]) :=
  proper_choices (.inl rfl) h0 (fun x hx => (h x hx).1) (choices_all fun x hx => (h x hx).2.1)

theorem proper_seq {s : Json} (h : MetaValid .every b s) : Proper b (seqSchema s) := by
  refine proper_lit ?_ ?_ <;> simp only [List.mem_cons, List.not_mem_nil, or_false, forall_eq_or_imp, forall_eq]
  · exact ⟨me_type (by decide), me_schema rfl h⟩
  · decide

theorem proper_time {x y : String} (hxy : x ≠ y) : Proper b (timeSchema x y) := by
  refine proper_lit ?_ ?_ <;> simp only [List.mem_cons, List.not_mem_nil, or_false, forall_eq_or_imp, forall_eq]
  · refine ⟨me_type (by decide), me_required (l := [x, y]) (fun _ => by simpa using hxy), me_object rfl ?_⟩
    simp only [List.mem_cons, List.not_mem_nil, or_false, forall_eq_or_imp, forall_eq]
    exact ⟨(proper_int _).1, (proper_int _).1⟩
  · decide

theorem me_contract (c : Contract) : MetaEntry .every b "type" (match c with
    | .deserialize => .arr [.str "array", .str "string"]
    | .serialize => .str "array") := by
  cases c with
  | serialize => exact me_type (by decide)
  | deserialize => exact me_types (l := ["array", "string"]) (by decide) (by decide) (by decide)

theorem proper_map (path : List Char) (d : List (String × Json)) (ks : Json) {vs : Json}
    (h : MetaValid .every b vs) : Proper b (mapSchema path d ks vs) := by
  unfold mapSchema
  split
  · unfold mapFrom
    simp only
    have h0 : ∀ v, MetaValid .every b v → Proper b (.obj [("additionalProperties", v), ("type", .str "object")]) := by
      intro v hv
      refine ⟨mv_obj ?_, exp_noOneOf (lists_noEnum rfl) rfl⟩
      simp only [List.mem_cons, List.not_mem_nil, or_false, forall_eq_or_imp, forall_eq]
      exact ⟨me_schema rfl hv, me_type (by decide)⟩
    have hap : ∀ t : Bool, MetaValid .every b (if t = true then vs else .bool false) := by
      intro t; split
      · exact h
      · exact .bool _
    have hins : ∀ {m : List (String × Json)} {k : String} (names : List String), Proper b (.obj m) →
        k = "properties" ∨ k = "patternProperties" → Proper b (.obj (Obj.insert m k (.obj (sameFor names vs)))) :=
      fun names hm hk => ⟨mv_insert hm.1 (me_map (by rcases hk with rfl | rfl <;> rfl) fun e he => by
        rw [(mem_sameFor.1 he).2]; exact h), hm.2.insert _ (by rcases hk with rfl | rfl <;> decide)⟩
    split <;> split
    · exact h0 _ (hap _)
    · exact hins _ (h0 _ (hap _)) (.inr rfl)
    · exact hins _ (h0 _ (hap _)) (.inl rfl)
    · exact hins _ (hins _ (h0 _ (hap _)) (.inr rfl)) (.inl rfl)
  · refine proper_lit ?_ ?_ <;> simp only [List.mem_cons, List.not_mem_nil, or_false, forall_eq_or_imp, forall_eq]
    · exact ⟨me_schema rfl h, me_type (by decide)⟩
    · decide

/-- The schemas of standard types are valid. -/
theorem std_proper {A : Answers τ} {s : Json} (hs : ∀ t s, A.sub t s → Proper b s) {x : Std τ} (hx : StdSuits x)
    (h : Returns A (stdBody x) s) : Proper b s := by
  cases x with
  | simple t =>
    cases h
    refine proper_lit ?_ ?_ <;> simp only [List.mem_cons, List.not_mem_nil, or_false, forall_eq]
    · exact me_type hx
    · decide
  | formatted t f =>
    cases h
    refine proper_lit ?_ ?_ <;> simp only [List.mem_cons, List.not_mem_nil, or_false, forall_eq_or_imp, forall_eq]
    · exact ⟨me_type hx, me_text rfl _⟩
    · decide
  | value => cases h; exact ⟨.bool _, exp_bool _⟩
  | option t => obtain ⟨s1, h1, rfl⟩ := h; exact proper_allowNull (hs t s1 h1)
  | int t => cases h; exact proper_int t
  | nonZero t =>
    cases h
    unfold nonZeroSchema
    split
    · exact (proper_int t).put (me_schema rfl (mv_lit (l := [("const", .num (.int 0))]) fun e he => by
        rw [List.mem_singleton.1 he]; exact me_any rfl _)) (by decide)
    · exact (proper_int t).put (me_number rfl _) (by decide)
  | char =>
    cases h
    refine proper_lit ?_ ?_ <;> simp only [List.mem_cons, List.not_mem_nil, or_false, forall_eq_or_imp, forall_eq]
    · exact ⟨me_type (by decide), me_count rfl 1, me_count rfl 1⟩
    · decide
  | emptyArray =>
    cases h
    refine proper_lit ?_ ?_ <;> simp only [List.mem_cons, List.not_mem_nil, or_false, forall_eq_or_imp, forall_eq]
    · exact ⟨me_type (by decide), me_count rfl 0⟩
    · decide
  | tuple l =>
    obtain ⟨ss, h1, rfl⟩ := returns_subAll h
    refine proper_lit ?_ ?_ <;> simp only [List.mem_cons, List.not_mem_nil, or_false, forall_eq_or_imp, forall_eq]
    · have h0 : ss ≠ [] := by
        have hx : l ≠ [] := hx
        rintro rfl
        cases h1
        exact hx rfl
      refine ⟨me_type (by decide), me_schemas rfl h0 ?_, me_count rfl _, me_count rfl _⟩
      clear h hx h0
      induction h1 with
      | nil => exact fun x hx => by cases hx
      | cons hx _ ih =>
        intro x hx'
        rcases List.mem_cons.1 hx' with rfl | hx'
        · exact (hs _ _ hx).1
        · exact ih x hx'
    · decide
  | map k v => obtain ⟨ks, _, vs, hv, d, _, rfl⟩ := h; exact proper_map _ _ _ (hs _ _ hv).1
  | seq t => obtain ⟨s1, h1, rfl⟩ := h; exact proper_seq (hs _ _ h1).1
  | set t =>
    obtain ⟨s1, h1, rfl⟩ := h
    refine proper_lit ?_ ?_ <;> simp only [List.mem_cons, List.not_mem_nil, or_false, forall_eq_or_imp, forall_eq]
    · exact ⟨me_type (by decide), me_flag rfl _, me_schema rfl (hs _ _ h1).1⟩
    · decide
  | array n t =>
    obtain ⟨s1, h1, rfl⟩ := h
    refine proper_lit ?_ ?_ <;> simp only [List.mem_cons, List.not_mem_nil, or_false, forall_eq_or_imp, forall_eq]
    · exact ⟨me_type (by decide), me_schema rfl (hs _ _ h1).1, me_count rfl _, me_count rfl _⟩
    · decide
  | range t =>
    obtain ⟨s1, h1, rfl⟩ := h
    refine proper_object (r := ["start", "end"]) (by decide) ?_
    simp only [List.mem_cons, List.not_mem_nil, or_false, forall_eq_or_imp, forall_eq]
    exact ⟨(hs _ _ h1).1, (hs _ _ h1).1⟩
  | duration => cases h; exact proper_time (by decide)
  | systemTime => cases h; exact proper_time (by decide)
  | result t e =>
    obtain ⟨s1, h1, s2, h2, rfl⟩ := h
    refine proper_oneOf (by simp) ?_
    simp only [List.mem_cons, List.not_mem_nil, or_false, forall_eq_or_imp, forall_eq]
    exact ⟨proper_oneProperty _ (hs _ _ h1).1, proper_oneProperty _ (hs _ _ h2).1⟩
  | bound t =>
    obtain ⟨s1, h1, s2, h2, rfl⟩ := h
    refine proper_oneOf (by simp) ?_
    simp only [List.mem_cons, List.not_mem_nil, or_false, forall_eq_or_imp, forall_eq]
    exact ⟨proper_oneProperty _ (hs _ _ h1).1, proper_oneProperty _ (hs _ _ h2).1, proper_tag _⟩
  | either t e =>
    obtain ⟨s1, h1, s2, h2, rfl⟩ := h
    refine proper_oneOf (by simp) ?_
    simp only [List.mem_cons, List.not_mem_nil, or_false, forall_eq_or_imp, forall_eq]
    exact ⟨proper_eitherSide _ (hs _ _ h1).1, proper_eitherSide _ (hs _ _ h2).1⟩
  | osString =>
    cases h
    refine proper_oneOf (by simp) ?_
    simp only [List.mem_cons, List.not_mem_nil, or_false, forall_eq_or_imp, forall_eq]
    exact ⟨proper_oneProperty _ (proper_seq (proper_int _).1).1, proper_oneProperty _ (proper_seq (proper_int _).1).1⟩
  | bytes t =>
    obtain ⟨s1, h1, h⟩ := h
    simp only [Returns] at h
    subst h
    refine proper_lit ?_ ?_ <;> simp only [List.mem_cons, List.not_mem_nil, or_false, forall_eq_or_imp, forall_eq]
    · exact ⟨me_contract _, me_schema rfl (hs _ _ h1).1⟩
    · decide
  | cString =>
    simp only [stdBody, Returns] at h; subst h
    refine proper_lit ?_ ?_ <;> simp only [List.mem_cons, List.not_mem_nil, or_false, forall_eq_or_imp, forall_eq]
    · refine ⟨me_contract _, me_schema rfl (mv_lit ?_)⟩
      simp only [List.mem_cons, List.not_mem_nil, or_false, forall_eq_or_imp, forall_eq]
      exact ⟨me_type (by decide), me_number rfl _, me_number rfl _⟩
    · decide
  | decimal =>
    simp only [stdBody, Returns] at h; subst h
    cases A.settings.contract
    all_goals
      unfold decimalSchema
      refine proper_lit ?_ ?_ <;> simp only [List.mem_cons, List.not_mem_nil, or_false, forall_eq_or_imp, forall_eq]
      rotate_left
      · decide
      refine ⟨?_, me_text rfl _⟩
    · exact me_types (l := ["string", "number"]) (by decide) (by decide) (by decide)
    · exact me_type (by decide)

/-! ## Attributes -/

/-- The statement keeps schemas valid. -/
def Safe (b : Bool) (f : Json → Json) : Prop := ∀ s, Proper b s → Proper b (f s)

/-- The same, also for schemas that cannot be flattened. -/
def SafeAll (b : Bool) (f : Json → Json) : Prop :=
  (∀ s, MetaValid .every b s → MetaValid .every b (f s)) ∧ Safe b f

theorem keepsAll_put {k : String} {v : Json} (he : MetaEntry .every b k v)
    (hk : k ∉ ["type", "enum", "oneOf"]) : SafeAll b fun s => Schema.put s k v :=
  ⟨fun _ h => h.put he, fun _ h => h.put he hk⟩

theorem keepsAll_validation (t : String) {k : String} {v : Json} (he : MetaEntry .every b k v)
    (hk : k ∉ ["type", "enum", "oneOf"]) : SafeAll b fun s => insertValidation s t k v := by
  unfold insertValidation
  refine ⟨fun s h => ?_, fun s h => ?_⟩ <;> simp only <;> split
  · exact h.put he
  · exact h
  · exact h.put he hk
  · exact h

theorem keeps_run {l : List (Json → Json)} (hl : ∀ f ∈ l, Safe b f) : Safe b (runMutators l) := by
  intro s h
  induction l generalizing s with
  | nil => exact h
  | cons f l ih =>
    exact ih (fun g hg => hl g (List.mem_cons_of_mem _ hg)) (f s) (hl f (List.mem_cons_self ..) s h)

theorem keeps_runAll {l : List (Json → Json)} (hl : ∀ f ∈ l, SafeAll b f) {s : Json} (h : MetaValid .every b s) :
    MetaValid .every b (runMutators l s) := by
  induction l generalizing s with
  | nil => exact h
  | cons f l ih =>
    exact ih (fun g hg => hl g (List.mem_cons_of_mem _ hg)) ((hl f (List.mem_cons_self ..)).1 s h)

theorem keeps_metadata {k : String} (hk : kindOf .every k = .text) (hk' : k ∉ ["type", "enum", "oneOf"])
    (v : String) : Safe b fun s => insertMetadataIfNonempty s k v := by
  intro s h
  unfold insertMetadataIfNonempty
  split
  · exact h
  · exact h.put (me_text hk v) hk'

theorem keeps_common {a : CommonAttrs} (h : AttrsSuit b a) : ∀ f ∈ a.mutators, Safe b f := by
  intro f hf
  unfold CommonAttrs.mutators at hf
  simp only [List.mem_append, List.mem_map] at hf
  rcases hf with ((((hf | hf) | hf) | hf) | ⟨e, he, rfl⟩) | hf
  · cases ht : a.effectiveTitle with
    | none => simp [ht] at hf
    | some t =>
      simp only [ht, Option.elim_some, List.mem_singleton] at hf
      subst hf; exact keeps_metadata rfl (by decide) t
  · cases ht : a.effectiveDescription with
    | none => simp [ht] at hf
    | some t =>
      simp only [ht, Option.elim_some, List.mem_singleton] at hf
      subst hf; exact keeps_metadata rfl (by decide) t
  · split at hf
    · simp only [List.mem_singleton] at hf; subst hf
      exact (keepsAll_put (me_flag rfl true) (by decide)).2
    · cases hf
  · split at hf
    · cases hf
    · simp only [List.mem_singleton] at hf; subst hf
      exact (keepsAll_put (me_list rfl _) (by decide)).2
  · exact (keepsAll_put (h.extensions e he).1 (h.extensions e he).2).2
  · exact fun s hs => h.transforms f hf s hs.1 hs.2

theorem keeps_bounds {l : LengthOrRange} {t suffix : String} {kind : Kind}
    (h : ∀ v, l.min = some v ∨ l.max = some v ∨ l.equal = some v → Suits false kind v)
    (hn : ∀ v, nested kind v = []) (hb : ∀ v, Suits false kind v → Suits b kind v) (h1 : kindOf .every ("min" ++ suffix) = kind)
    (h2 : kindOf .every ("max" ++ suffix) = kind) (h3 : "min" ++ suffix ∉ ["type", "enum", "oneOf"])
    (h4 : "max" ++ suffix ∉ ["type", "enum", "oneOf"]) : ∀ f ∈ lengthOrRangeMutators l t suffix, SafeAll b f := by
  have he : ∀ {k v}, kindOf .every k = kind → Suits false kind v → MetaEntry .every b k v := by
    intro k v hk hv
    unfold MetaEntry
    rw [hk, hn]
    exact ⟨hb v hv, fun x hx => by cases hx⟩
  intro f hf
  unfold lengthOrRangeMutators at hf
  rw [List.mem_append] at hf
  rcases hf with hf | hf
  · cases hv : l.min.or l.equal with
    | none => rw [hv] at hf; cases hf
    | some v =>
      rw [hv] at hf
      rw [List.mem_singleton.1 hf]
      refine keepsAll_validation t (he h1 (h v ?_)) h3
      rcases Option.or_eq_some_iff.1 hv with hv | hv
      · exact .inl hv
      · exact .inr (.inr hv.2)
  · cases hv : l.max.or l.equal with
    | none => rw [hv] at hf; cases hf
    | some v =>
      rw [hv] at hf
      rw [List.mem_singleton.1 hf]
      refine keepsAll_validation t (he h2 (h v ?_)) h4
      rcases Option.or_eq_some_iff.1 hv with hv | hv
      · exact .inr (.inl hv)
      · exact .inr (.inr hv.2)

theorem keepsAll_inner {f : Json → Json} (hf : ∀ s, MetaValid .every b s → MetaValid .every b (f s)) :
    SafeAll b fun s => applyInnerValidation s f := by
  have key : ∀ m, MetaValid .every b (.obj m) →
      MetaValid .every b (.obj (Obj.modify m "items" fun i => if isSchema i then f i else i)) := by
    intro m h
    refine mv_modify h fun v hv => me_schema rfl ?_
    split
    · exact hf v (hv.schema rfl)
    · exact hv.schema rfl
  refine ⟨fun s h => ?_, fun s h => ?_⟩
  · cases h with
    | bool t => exact .bool t
    | obj h1 h2 => exact key _ (.obj h1 h2)
  · cases h.1 with
    | bool t => exact h
    | @obj m h1 h2 =>
      refine ⟨key m h.1, exp_obj (lists_obj ?_) fun e he hk => ?_⟩
      · intro a1 a2 a3
        rw [Obj.get_modify, if_neg (by decide)] at a1 a3
        exact h.2.1 m rfl a1 a2 a3
      · rcases Obj.mem_modify he with he | ⟨v, hv, rfl⟩
        · exact h.2.2 m rfl e he hk
        · exact absurd hk (by simp)

theorem keeps_validation : ∀ {a : ValidationAttrs}, ValidationSuits a → ∀ f ∈ a.mutators, SafeAll b f
  | .mk length range pattern regex contains format inner => by
    intro h f hf
    unfold ValidationSuits at h
    obtain ⟨h1, h2, h3⟩ := h
    unfold ValidationAttrs.mutators at hf
    simp only [List.mem_append] at hf
    rcases hf with ((((hf | hf) | hf) | hf) | hf) | hf
    · cases length with
      | none => cases hf
      | some l =>
        rcases List.mem_append.1 hf with hf | hf
        · exact keeps_bounds (b := b) (h1 l rfl) (fun v => by cases v <;> rfl) (fun _ h => h) rfl rfl (by decide) (by decide) f hf
        · exact keeps_bounds (b := b) (h1 l rfl) (fun v => by cases v <;> rfl) (fun _ h => h) rfl rfl (by decide) (by decide) f hf
    · cases range with
      | none => cases hf
      | some l => exact keeps_bounds (b := b) (h2 l rfl) (fun v => by cases v <;> rfl) (fun _ h => h) rfl rfl (by decide) (by decide) f hf
    · cases hp : regex.or pattern with
      | none => rw [hp] at hf; cases hf
      | some p =>
        rw [hp] at hf
        rw [List.mem_singleton.1 hf]
        exact keepsAll_validation _ (me_text rfl p) (by decide)
    · cases contains with
      | none => cases hf
      | some p =>
        rw [List.mem_singleton.1 hf]
        exact keepsAll_validation _ (me_text rfl _) (by decide)
    · cases format with
      | none => cases hf
      | some p =>
        rw [List.mem_singleton.1 hf]
        exact keepsAll_put (me_text rfl _) (by decide)
    · cases inner with
      | none => cases hf
      | some a =>
        rw [List.mem_singleton.1 hf]
        exact keepsAll_inner fun s hs => keeps_runAll (keeps_validation h3) hs

theorem keeps_field {f : Field τ} (h : FieldSuits b f) : ∀ g ∈ f.mutators, Safe b g := by
  intro g hg
  unfold Field.mutators at hg
  simp only [List.mem_append] at hg
  rcases hg with ((hg | hg) | hg) | hg
  · exact keeps_common h.1 g hg
  · exact (keeps_validation h.2 g hg).2
  · split at hg
    · simp only [List.mem_singleton] at hg; subst hg
      exact (keepsAll_put (me_flag rfl true) (by decide)).2
    · cases hg
  · split at hg
    · simp only [List.mem_singleton] at hg; subst hg
      exact (keepsAll_put (me_flag rfl true) (by decide)).2
    · cases hg

/-! ## Derived types -/

section
variable {I : TypeInfo τ} {A : Answers τ} {s : Json}

/-- The schemas of the types that are asked for are valid. -/
structure ProperAnswers (b : Bool) (I : TypeInfo τ) (A : Answers τ) : Prop where
  sub : ∀ t s, A.sub t s → Proper b s
  direct : ∀ t s, A.direct t s → Proper b s
  unit : ∀ s, A.sub I.unit s → ∀ k, NotRequired s k

theorem proper_field (hA : ProperAnswers b I A) {f : Field τ} (hf : FieldSuits b f) (i : Bool)
    (h : Returns A (fieldProg I f i) s) : Proper b s := by
  unfold fieldProg at h
  rw [res_map] at h
  obtain ⟨s0, h0, rfl⟩ := h
  refine keeps_run (keeps_field hf) _ ?_
  split at h0
  · obtain ⟨s1, h1, rfl⟩ := h0
    exact hA.direct _ _ h1
  · split at h0
    · obtain ⟨s1, h1, h2⟩ := h0
      simp only [Returns] at h2
      split at h2
      · cases h2; exact proper_allowUnknownBelow (hA.direct _ _ h1)
      · obtain ⟨s2, h3, rfl⟩ := h2
        exact hA.sub _ _ h3
    · obtain ⟨s1, h1, rfl⟩ := h0
      exact hA.sub _ _ h1

theorem proper_default {f : Field τ} (cd : Bool) (h : Proper b s) : Proper b (insertDefault cd f s) := by
  unfold insertDefault
  split
  · exact h
  · split
    · exact h.put (me_any rfl _) (by decide)
    · exact h

theorem struct_start (deny : Bool) : StructLike b (mkObj (("type", .str "object") ::
    if deny then [("additionalProperties", .bool false)] else [])) := by
  cases deny
  · refine structLike (mv_obj ?_) (good_none rfl) rfl
    exact fun e he => by rw [List.mem_singleton.1 he]; exact me_type (by decide)
  · refine structLike (mv_lit ?_) (good_none rfl) rfl
    simp only [if_true, List.mem_cons, List.not_mem_nil, or_false, forall_eq_or_imp, forall_eq]
    exact ⟨me_type (by decide), me_schema rfl (.bool _)⟩

theorem struct_fields (hA : ProperAnswers b I A) {cd : Bool} {fs : List (Field τ)} (hfs : ∀ f ∈ fs, FieldSuits b f) {s0 : Json}
    (h0 : StructLike b s0) (hn : b = true → FieldNamesDiffer A.settings.contract (.struct fs) ∧ ∀ k, NotRequired s0 k)
    (h : Returns A (structFieldsProg I cd fs s0) s) :
    StructLike b s ∧ (b = true → ∀ k, (∀ f ∈ present fs A.settings.contract, f.name.get A.settings.contract ≠ k) →
      NotRequired s k) := by
  obtain ⟨es, h1, h2, rfl⟩ := (returns_structFields fs).1 h
  have h3 : ∀ e ∈ es, FieldSuits b e.1 := by
    intro e he
    have : e.1 ∈ present fs A.settings.contract := h1 ▸ List.mem_map_of_mem he
    exact hfs _ (List.mem_filter.1 this).1
  have h4 : b = true → (∀ e ∈ es, e.1.flatten = false) ∧ (es.map fun e => e.1.name.get A.settings.contract).Nodup ∧
      ∀ e ∈ es, NotRequired s0 (e.1.name.get A.settings.contract) := by
    intro hb
    obtain ⟨⟨k1, k2⟩, k3⟩ := hn hb
    rw [← h1] at k1 k2
    refine ⟨fun e he => k1 _ (List.mem_map_of_mem he), ?_, fun e _ => k3 _⟩
    rw [List.map_map] at k2
    exact k2
  have h5 : b = true → ∀ k, NotRequired s0 k := fun hb => (hn hb).2
  rw [← h1]
  suffices hs : StructLike b (es.foldl (addField I cd A.settings.contract) s0) ∧ (b = true → ∀ k, NotRequired s0 k →
      (∀ e ∈ es, e.1.name.get A.settings.contract ≠ k) →
      NotRequired (es.foldl (addField I cd A.settings.contract) s0) k) from
    ⟨hs.1, fun hb k hk => hs.2 hb k (h5 hb k) fun e he => hk _ (List.mem_map_of_mem he)⟩
  clear h1 h hn h5
  induction es generalizing s0 with
  | nil => exact ⟨h0, fun _ k hk _ => hk⟩
  | cons e es ih =>
    have hr := h2 e (List.mem_cons_self ..)
    have hs := h3 e (List.mem_cons_self ..)
    rw [List.foldl_cons]
    by_cases hf : e.1.flatten = true
    · have hb : b = false := by
        cases b with
        | false => rfl
        | true => rw [(h4 rfl).1 e (List.mem_cons_self ..)] at hf; cases hf
      subst hb
      refine ⟨(ih ?_ (fun x hx => h2 x (List.mem_cons_of_mem _ hx)) (fun x hx => h3 x (List.mem_cons_of_mem _ hx))
        fun hb => by cases hb).1, fun hb => by cases hb⟩
      unfold addField
      rw [if_pos hf]
      obtain ⟨s1, h4, h5⟩ := returns_flattenField hf hr
      rw [h5]
      exact h0.flatten (flattens_inner (hA.direct _ _ h4) _)
    · have hadd : addField I cd A.settings.contract s0 e = insertObjectProperty s0 (e.1.name.get A.settings.contract)
          (fieldOptional I cd e.1 A.settings.contract) e.2 := by
        unfold addField
        rw [if_neg hf]
      rw [hadd]
      unfold FieldResult at hr
      rw [if_neg hf] at hr
      obtain ⟨s1, h6, h7⟩ := hr
      have hstep := h0.insertProperty (e.1.name.get A.settings.contract) (fieldOptional I cd e.1 A.settings.contract)
        (proper_default (f := e.1) cd (proper_field hA hs false h6)).1
        fun hb => (h4 hb).2.2 e (List.mem_cons_self ..)
      rw [← h7] at hstep
      obtain ⟨k1, k2⟩ := ih hstep (fun x hx => h2 x (List.mem_cons_of_mem _ hx))
        (fun x hx => h3 x (List.mem_cons_of_mem _ hx)) fun hb => by
          obtain ⟨j1, j2, j3⟩ := h4 hb
          rw [List.map_cons, List.nodup_cons] at j2
          refine ⟨fun x hx => j1 x (List.mem_cons_of_mem _ hx), j2.2, fun x hx => ?_⟩
          refine notRequired_property (j3 x (List.mem_cons_of_mem _ hx)) fun e' => j2.1 ?_
          rw [← e']
          exact List.mem_map_of_mem (f := fun e => e.1.name.get A.settings.contract) hx
      exact ⟨k1, fun hb k hk hne => k2 hb k (notRequired_property hk (Ne.symm (hne e (List.mem_cons_self ..))))
        fun x hx => hne x (List.mem_cons_of_mem _ hx)⟩

theorem notRequired_start (deny : Bool) (k : String) : NotRequired (mkObj (("type", .str "object") ::
    if deny then [("additionalProperties", .bool false)] else [])) k := by
  intro m l e hr
  cases deny <;> cases e <;> cases hr

theorem proper_struct (hA : ProperAnswers b I A) {cd deny : Bool} {fs : List (Field τ)} (hfs : ∀ f ∈ fs, FieldSuits b f)
    (hn : b = true → FieldNamesDiffer A.settings.contract (.struct fs)) (h : Returns A (structProg I fs cd deny) s) :
    Proper b s := (struct_fields hA hfs (struct_start deny) (fun hb => ⟨hn hb, notRequired_start deny⟩) h).1.proper

theorem proper_tuple (hA : ProperAnswers b I A) {fs : List (Field τ)} (hfs : ∀ f ∈ fs, FieldSuits b f)
    (h : Returns A (tupleStructProg I fs) s) : Proper b s := by
  unfold tupleStructProg at h
  obtain ⟨ss, h1, h2⟩ := (res_collect _ _ _).1 h
  cases h2
  have hss : ∀ x ∈ ss, MetaValid .every b x := by
    have hall : ∀ e ∈ (fs.map fun f => (f.included, fieldProg I f false)).filter fun e => e.1 A.settings.contract,
        ∀ s, Returns A e.2 s → Proper b s := by
      intro e he s hs
      obtain ⟨f, hf, rfl⟩ := List.mem_map.1 (List.mem_filter.1 he).1
      exact proper_field hA (hfs f hf) false hs
    clear h
    generalize (fs.map fun f => (f.included, fieldProg I f false)).filter _ = l at h1 hall
    induction h1 with
    | nil => exact fun x hx => by cases hx
    | cons hx _ ih =>
      intro x hx'
      rcases List.mem_cons.1 hx' with rfl | hx'
      · exact (hall _ (List.mem_cons_self ..) _ hx).1
      · exact ih (fun e he => hall e (List.mem_cons_of_mem _ he)) x hx'
  unfold tupleStructSchema
  split
  · refine proper_lit ?_ ?_ <;>
      simp only [List.nil_append, List.cons_append, List.mem_cons, List.not_mem_nil, or_false, forall_eq_or_imp, forall_eq]
    · exact ⟨me_type (by decide), me_count rfl _⟩
    · decide
  · next h0 =>
    refine proper_lit ?_ ?_ <;>
      simp only [List.nil_append, List.cons_append, List.mem_cons, List.not_mem_nil, or_false, forall_eq_or_imp, forall_eq]
    · exact ⟨me_type (by decide), me_schemas rfl (fun e => h0 (by rw [e]; rfl)) hss, me_count rfl _, me_count rfl _⟩
    · decide

theorem proper_content (hA : ProperAnswers b I A) {v : Variant τ} {deny : Bool} (hv : FieldsSuit b v.fields)
    (hn : b = true → FieldNamesDiffer A.settings.contract v.fields)
    (h : Returns A (untaggedVariantProg I v deny false) s) : Proper b s := by
  unfold untaggedVariantProg at h
  simp only [Bool.false_eq_true, if_false] at h
  cases hw : v.withTy with
  | some t =>
    rw [hw] at h
    obtain ⟨s1, h1, rfl⟩ := h
    exact hA.sub _ _ h1
  | none =>
    rw [hw] at h
    simp only at h
    cases hf : v.fields with
    | unit =>
      rw [hf] at h
      obtain ⟨s1, h1, rfl⟩ := h
      exact hA.sub _ _ h1
    | newtype f => rw [hf] at h hv; exact proper_field hA hv false h
    | tuple fs => rw [hf] at h hv; exact proper_tuple hA hv h
    | struct fs => rw [hf] at h hv hn; exact proper_struct hA hv hn h

theorem proper_untagged (hA : ProperAnswers b I A) {v : Variant τ} {deny : Bool} (hv : AttrsSuit b v.common ∧ FieldsSuit b v.fields)
    (hn : b = true → FieldNamesDiffer A.settings.contract v.fields)
    (h : Returns A (untaggedVariantProg I v deny true) s) : Proper b s := by
  unfold untaggedVariantProg at h
  simp only [if_true] at h
  obtain ⟨t, h1, h2⟩ := res_bind.1 h
  have h1' : Returns A (untaggedVariantProg I v deny false) t := by
    unfold untaggedVariantProg
    simp only [Bool.false_eq_true, if_false]
    exact h1
  have ht := proper_content hA hv.2 hn h1'
  simp only [Returns] at h2
  rw [h2]
  refine keeps_run (keeps_common hv.1) _ ?_
  split
  · exact ht.put (me_text rfl _) (by decide)
  · exact ht

theorem proper_internalVariant (hA : ProperAnswers b I A) {v : Variant τ} {deny : Bool} (hv : FieldsSuit b v.fields)
    (hn : b = true → FieldNamesDiffer A.settings.contract v.fields)
    (h : Returns A (internalVariantProg I v deny) s) : Proper b s := by
  unfold internalVariantProg at h
  cases hw : v.withTy with
  | some t =>
    rw [hw] at h
    obtain ⟨s1, h1, rfl⟩ := h
    exact hA.direct _ _ h1
  | none =>
    rw [hw] at h
    simp only at h
    cases hf : v.fields with
    | unit =>
      rw [hf] at h
      obtain ⟨s1, h1, rfl⟩ := h
      exact hA.sub _ _ h1
    | newtype f => rw [hf] at h hv; exact proper_field hA hv true h
    | tuple fs => rw [hf] at h hv; exact proper_tuple hA hv h
    | struct fs => rw [hf] at h hv hn; exact proper_struct hA hv hn h

/-- The internal tag is a new name. -/
theorem notRequired_variant (hA : ProperAnswers true I A) {v : Variant τ} {deny : Bool} (hv : FieldsSuit true v.fields)
    (hn : FieldNamesDiffer A.settings.contract v.fields) {tag : String} (ht : TagApart A.settings.contract tag v)
    (h : Returns A (internalVariantProg I v deny) s) : NotRequired s tag := by
  unfold internalVariantProg at h
  obtain ⟨hw, ht⟩ := ht
  rw [hw] at h
  simp only at h
  cases hf : v.fields with
  | unit =>
    rw [hf] at h
    obtain ⟨s1, h1, rfl⟩ := h
    exact hA.unit _ h1 _
  | newtype f => rw [hf] at ht; exact ht.elim
  | tuple fs => rw [hf] at ht; exact ht.elim
  | struct fs =>
    rw [hf] at h hv hn ht
    exact (struct_fields hA hv (struct_start deny) (fun _ => ⟨hn, notRequired_start deny⟩) h).2 rfl _ ht

theorem proper_adjacent (tag content name : String) (deny : Bool) {sub : Option Json}
    (h : ∀ s, sub = some s → MetaValid .every b s) (hn : b = true → tag ≠ content) : Proper b (adjacentSchema tag content name deny sub) := by
  have hp : MetaEntry .every b "properties" (mkObj ((tag, tagSchema name) :: sub.elim [] fun s => [(content, s)])) := by
    refine me_object rfl fun e he => ?_
    rcases List.mem_cons.1 he with rfl | he
    · exact mv_tag _
    · cases sub with
      | none => cases he
      | some s => rw [List.mem_singleton.1 he]; exact h s rfl
  have hr : MetaEntry .every b "required" (.arr (.str tag :: sub.elim [] fun _ => [.str content])) := by
    cases sub with
    | none => exact me_required (l := [tag]) fun _ => List.nodup_singleton tag
    | some s => exact me_required (l := [tag, content]) fun hb => by simpa using hn hb
  unfold adjacentSchema
  cases deny
  all_goals
    refine proper_lit ?_ ?_ <;> simp only [Bool.false_eq_true, if_false, if_true, List.append_nil, List.cons_append,
      List.nil_append, List.mem_cons, List.not_mem_nil, or_false, forall_eq_or_imp, forall_eq]
    rotate_left
    · decide
  · exact ⟨me_type (by decide), hp, hr⟩
  · exact ⟨me_type (by decide), hp, hr, me_schema rfl (.bool _)⟩

theorem mv_units (names : List String) : MetaValid .every b (unitVariantsSchema names) := by
  refine mv_lit ?_
  simp only [List.mem_cons, List.not_mem_nil, or_false, forall_eq_or_imp, forall_eq]
  exact ⟨me_type (by decide), me_enum _⟩

theorem proper_units {names : List String} (h : names ≠ []) : Proper b (unitVariantsSchema names) := by
  refine ⟨mv_units _, exp_noOneOf (lists_obj ?_) (get_lit_none (by simp))⟩
  intro _ a ha
  rw [get_ofList (by simp [Obj.keys])] at ha
  have ha : Json.arr (names.map .str) = .arr a := Option.some.inj ha
  cases ha
  cases names with
  | nil => exact absurd rfl h
  | cons n _ => exact ⟨n, List.mem_cons_self ..⟩

/-- The schema of an enum, from those of the variants. -/
theorem proper_variants (hA : ProperAnswers b I A) {unique : Bool} {first : Option (Prog τ)} {vs : List (Variant τ × Prog τ)}
    (h1 : ∀ p s, first = some p → Returns A p s → MetaValid .every b s ∧
      ((∀ e ∈ vs, e.1.included A.settings.contract = false) → ListsNames s))
    (h2 : ∀ e ∈ vs, ∀ s, Returns A e.2 s → Proper b s)
    (h3 : first.isSome ∨ ∃ e ∈ vs, e.1.included A.settings.contract = true)
    (h : Returns A (variantSubschemas unique first vs) s) : Proper b s := by
  unfold variantSubschemas at h
  obtain ⟨rs, h4, h5⟩ := (res_collect _ _ _).1 h
  clear h
  cases h5
  rw [List.filter_append] at h4
  have hrest : ∀ {l : List (Variant τ × Prog τ)} {rs : List Json}, (∀ e ∈ l, e ∈ vs) →
      List.Forall₂ (fun (e : (Contract → Bool) × Prog τ) s => Returns A e.2 s)
        ((l.map fun e => (e.1.included, e.1.refTy.elim e.2 fun t => .sub t .ret)).filter
          fun e => e.1 A.settings.contract) rs →
      (∀ x ∈ rs, Proper b x) ∧ (rs = [] → ∀ e ∈ l, e.1.included A.settings.contract = false) := by
    intro l
    induction l with
    | nil => intro rs _ h; cases h; exact ⟨fun x hx => (by cases hx), fun _ e he => by cases he⟩
    | cons e l ih =>
      intro rs hl h
      simp only [List.map_cons, List.filter_cons] at h
      by_cases hi : e.1.included A.settings.contract = true
      · rw [if_pos hi] at h
        cases h with
        | @cons _ s _ rs hs hr =>
          obtain ⟨k1, -⟩ := ih (fun x hx => hl x (List.mem_cons_of_mem _ hx)) hr
          refine ⟨fun x hx => ?_, fun e => by cases e⟩
          rcases List.mem_cons.1 hx with rfl | hx
          · simp only at hs
            cases hr' : e.1.refTy with
            | none => rw [hr'] at hs; exact h2 e (hl e (List.mem_cons_self ..)) _ hs
            | some t => rw [hr'] at hs; obtain ⟨s1, k, rfl⟩ := hs; exact hA.sub _ _ k
          · exact k1 x hx
      · rw [if_neg hi] at h
        obtain ⟨k1, k2⟩ := ih (fun x hx => hl x (List.mem_cons_of_mem _ hx)) h
        refine ⟨k1, fun hrs x hx => ?_⟩
        rcases List.mem_cons.1 hx with rfl | hx
        · simpa using hi
        · exact k2 hrs x hx
  have hk : ∀ b : Bool, (if b = true then "oneOf" else "anyOf") = "oneOf" ∨ (if b = true then "oneOf" else "anyOf") = "anyOf" := by
    decide
  cases first with
  | none =>
    simp only [Option.elim_none, List.filter_nil, List.nil_append] at h4
    obtain ⟨k1, k2⟩ := hrest (fun e he => he) h4
    refine proper_choices (hk _) (fun h0 => ?_) (fun x hx => (k1 x hx).1) (choices_all fun x hx => (k1 x hx).2.1)
    rcases h3 with h3 | ⟨e, he, hi⟩
    · cases h3
    · rw [k2 h0 e he] at hi; cases hi
  | some p =>
    simp only [Option.elim_some, List.filter_cons, List.filter_nil, if_true, List.cons_append, List.nil_append] at h4
    cases h4 with
    | @cons _ s1 _ rs hs hr =>
      obtain ⟨k1, k2⟩ := hrest (fun e he => he) hr
      obtain ⟨k3, k4⟩ := h1 p s1 rfl hs
      refine proper_choices (hk _) (by simp) (fun x hx => ?_) fun x rest e => ?_
      · rcases List.mem_cons.1 hx with rfl | hx
        · exact k3
        · exact (k1 x hx).1
      · cases e
        exact ⟨fun e => k4 (k2 e), fun y hy => (k1 y hy).2.1⟩

theorem proper_enum (hA : ProperAnswers b I A) {tag : TagType} {vs : List (Variant τ)} {deny : Bool}
    (hv : ∀ v ∈ vs, AttrsSuit b v.common ∧ FieldsSuit b v.fields)
    (hn : b = true → (∀ v ∈ vs, FieldNamesDiffer A.settings.contract v.fields) ∧ match tag with
      | .internal t => ∀ v ∈ vs, v.untagged = false → TagApart A.settings.contract t v
      | .adjacent t content => t ≠ content
      | _ => True) (hact : vs ≠ [] → ∃ v ∈ vs, v.included A.settings.contract = true)
    (h : Returns A (enumProg I tag vs deny) s) : Proper b s := by
  unfold enumProg at h
  split at h
  · cases h; exact ⟨.bool _, exp_bool _⟩
  next h0 =>
  obtain ⟨w, hw, hwi⟩ := hact fun e => h0 (by rw [e]; rfl)
  have plain : ∀ {f : Variant τ → Prog τ} {unique : Bool}, (∀ v ∈ vs, ∀ s, Returns A (f v) s → Proper b s) →
      Returns A (variantSubschemas unique none (vs.map fun v => (v, f v))) s → Proper b s := by
    intro f unique hf h
    refine proper_variants hA (vs := vs.map fun v => (v, f v)) (first := none) (fun p s hp => by cases hp)
      (fun e he s hs => ?_) (.inr ⟨(w, f w), List.mem_map_of_mem (f := fun v => (v, f v)) hw, hwi⟩) h
    obtain ⟨v, hv', rfl⟩ := List.mem_map.1 he
    exact hf v hv' s hs
  cases tag with
  | external =>
    simp only at h
    unfold externalEnumProg at h
    simp only at h
    have hunits : ∀ {s}, (∃ v ∈ vs.filter Variant.listed, v.included A.settings.contract = true) →
        Returns A (unitVariantsProg (vs.filter Variant.listed)) s → Proper b s := by
      rintro s ⟨v, hv, hvi⟩ h
      unfold unitVariantsProg at h
      simp only [Returns] at h
      rw [h]
      refine proper_units fun e => ?_
      rw [List.map_eq_nil_iff, List.filter_eq_nil_iff] at e
      exact e v hv hvi
    split at h
    · next hc =>
      refine hunits ⟨w, List.mem_filter.2 ⟨hw, ?_⟩, hwi⟩ h
      rw [List.isEmpty_iff, List.filter_eq_nil_iff] at hc
      simpa using hc w hw
    · refine proper_variants hA ?_ ?_ ?_ h
      · intro p s hp hs
        split at hp
        · cases hp
        · cases hp
          refine ⟨?_, fun hno => ?_⟩
          · unfold unitVariantsProg at hs
            simp only [Returns] at hs
            rw [hs]
            exact mv_units _
          · refine (hunits ⟨w, List.mem_filter.2 ⟨hw, ?_⟩, hwi⟩ hs).2.1
            by_contra hl
            have := hno (w, externalVariantProg I w deny) (List.mem_map_of_mem (List.mem_filter.2 ⟨hw, by simpa using hl⟩))
            rw [show w.included A.settings.contract = true from hwi] at this
            cases this
      · intro e he s hs
        obtain ⟨v, hv', rfl⟩ := List.mem_map.1 he
        have hv' := (List.mem_filter.1 hv').1
        simp only at hs
        unfold externalVariantProg at hs
        split at hs
        · exact proper_untagged hA (hv v hv') (fun hb => (hn hb).1 v hv') hs
        · split at hs
          · simp only [Returns] at hs
            subst hs
            exact keeps_run (keeps_common (hv v hv').1) _ (proper_tag _)
          · simp only [Returns] at hs
            obtain ⟨sub, h1, rfl⟩ := res_map.1 hs
            refine keeps_run (keeps_common (hv v hv').1) _ (proper_closed (List.nodup_singleton (v.name.get A.settings.contract)) fun e he' => ?_)
            rw [List.mem_singleton.1 he']
            exact (proper_content hA (hv v hv').2 (fun hb => (hn hb).1 v hv') h1).1
      · by_cases hu : (vs.filter Variant.listed).isEmpty = true
        · right
          refine ⟨(w, externalVariantProg I w deny), List.mem_map_of_mem (List.mem_filter.2 ⟨hw, ?_⟩), hwi⟩
          rw [List.isEmpty_iff, List.filter_eq_nil_iff] at hu
          simpa using hu w hw
        · left
          rw [if_neg hu]; rfl
  | none => exact plain (fun v hv' s hs => proper_untagged hA (hv v hv') (fun hb => (hn hb).1 v hv') hs) h
  | internal t =>
    refine plain (fun v hv' s hs => ?_) h
    unfold internalTaggedProg at hs
    split at hs
    · exact proper_untagged hA (hv v hv') (fun hb => (hn hb).1 v hv') hs
    · next hu =>
      obtain ⟨s1, h2, h3⟩ := res_bind.1 hs
      simp only [Returns] at h3
      rw [h3]
      refine keeps_run (keeps_common (hv v hv').1) _ (proper_internalTag (proper_internalVariant hA (hv v hv').2
        (fun hb => (hn hb).1 v hv') h2) _ _ _ fun hb => ?_)
      subst hb
      exact notRequired_variant hA (hv v hv').2 ((hn rfl).1 v hv') ((hn rfl).2 v hv' (by simpa using hu)) h2
  | adjacent t c =>
    refine plain (fun v hv' s hs => ?_) h
    unfold adjacentTaggedProg at hs
    split at hs
    · exact proper_untagged hA (hv v hv') (fun hb => (hn hb).1 v hv') hs
    · split at hs
      · simp only [Returns] at hs
        subst hs
        exact keeps_run (keeps_common (hv v hv').1) _ (proper_adjacent _ _ _ _ (fun s hs => by cases hs) fun hb => (hn hb).2)
      · simp only [Returns] at hs
        obtain ⟨sub, h1, rfl⟩ := res_map.1 hs
        refine keeps_run (keeps_common (hv v hv').1) _ (proper_adjacent _ _ _ _ (fun s hs => ?_) fun hb => (hn hb).2)
        cases hs
        exact (proper_content hA (hv v hv').2 (fun hb => (hn hb).1 v hv') h1).1

/-- The schema of a type is valid, if those of the types that it mentions are. -/
theorem body_proper (hA : ProperAnswers b I A) {d : Verif.Decl τ} (hd : DeclSuits b d)
    (hv : HasVariant A.settings.contract d) (hn : b = true → NamesDiffer A.settings.contract d) (h : Returns A (bodyOf I d) s) : Proper b s := by
  cases d with
  | std x => exact std_proper hA.sub hd h
  | derived c =>
    obtain ⟨h1, h2, h3⟩ := hd
    have h : Returns A (containerProg I c) s := h
    unfold containerProg at h
    simp only at h
    obtain ⟨s1, h4, rfl⟩ := res_map.1 h
    refine keeps_run (keeps_common h1) _ ?_
    have hdirect : ∀ {t : τ} {s1}, Returns A (.direct t .ret) s1 → Proper b s1 := by
      rintro t s1 ⟨s2, h2, rfl⟩
      exact hA.direct _ _ h2
    have hdata : Returns A (dataProg I c) s1 → Proper b s1 := by
      intro h
      unfold dataProg at h
      cases hd : c.data with
      | enum tag vs =>
        unfold HasVariant at hv
        simp only [hd] at hv
        unfold NamesDiffer at hn
        simp only [hd] at hn
        rw [hd] at h h3
        exact proper_enum hA h3 hn hv h
      | struct fields =>
        unfold NamesDiffer at hn
        simp only [hd] at hn
        rw [hd] at h h3
        cases fields with
        | unit => exact (by obtain ⟨s1, h1, rfl⟩ := h; exact hA.sub _ _ h1)
        | newtype f => exact proper_field hA h3 false h
        | tuple fs => exact proper_tuple hA h3 h
        | struct fs => exact proper_struct hA h3 hn h
    clear h
    split at h4
    · exact hdirect h4
    · next f _ ht => exact proper_field hA (h2 f ‹_›) false h4
    · simp only [Returns] at h4
      split at h4
      · exact hdirect h4
      · exact hdirect h4
    · simp only [Returns] at h4
      split at h4
      · exact hdirect h4
      · exact hdata h4
    · simp only [Returns] at h4
      split at h4
      · exact hdirect h4
      · exact hdata h4
    · exact hdata h4

/-- The schemas of a run are valid. -/
theorem produced_proper {W : World τ} {decl : τ → Verif.Decl τ} (hG : Declared W.Γ decl I)
    (hd : ∀ t, DeclSuits b (decl t)) (hv : ∀ t, HasVariant W.settings.contract (decl t))
    (hn : b = true → ∀ t, NamesDiffer W.settings.contract (decl t)) {m : Nat} : ∀ {t : τ} {s : Json}, Produced W m t s → Proper b s := by
  induction m with
  | zero => intro t s h; exact h.elim
  | succ m ih =>
    intro t s h
    have h : Returns (W.answers (Produced W m)) (W.Γ t).body s := h
    rw [hG.body] at h
    refine body_proper ⟨fun t s h => ?_, fun t s h => ih h, fun s h k => ?_⟩ (hd t) (hv t) (fun hb => hn hb t) h
    · rcases answers_ref h with h | ⟨r, rfl⟩
      · exact ih h
      · exact proper_newRef r
    · rcases answers_ref h with h | ⟨r, rfl⟩
      · cases m with
        | zero => exact h.elim
        | succ m =>
          have h : Returns (W.answers (Produced W m)) (W.Γ I.unit).body s := h
          rw [hG.body, hG.unit] at h
          cases h
          intro m l e hr
          cases e
          cases hr
      · intro m l e hr
        cases e
        cases hr

/-! ## Documents -/

theorem mv_rootObject {Γ : τ → TypeDef τ} (t : τ) (meta? : Option String) {m : List (String × Json)}
    (h : MetaValid .every b (.obj m)) : MetaValid .every b (.obj (rootObject Γ t meta? m)) := by
  have h1 : MetaValid .every b (.obj (match Obj.get m "title" with
      | some _ => m
      | none => Obj.insert m "title" (.str (Γ t).schemaName))) := by
    split
    · exact h
    · exact mv_insert h (me_text rfl _)
  unfold rootObject
  simp only
  cases meta? with
  | none => exact h1
  | some ms => exact mv_insert h1 (me_text rfl _)

/-- Where definitions may be: under a keyword for schemas, or anywhere under a keyword that the meta-schemas do not
know. -/
def Spec.PathSuits (segs : List String) : Prop :=
  (∃ k, segs = [k] ∧ kindOf .every k = .schemaMap) ∨ ∃ k rest, segs = k :: rest ∧ k ≠ "" ∧ kindOf .every k = .any

theorem mv_objAtMut {segs : List String} (hseg : PathSuits segs) {m m' defs : List (String × Json)}
    (h : MetaValid .every b (.obj m)) (hdefs : ∀ e ∈ defs, MetaValid .every b e.2)
    (hm : objAtMut m segs (fun t => Obj.extend t defs) = some m') : MetaValid .every b (.obj m') := by
  rcases hseg with ⟨k, rfl, hk⟩ | ⟨k, rest, rfl, -, hk⟩
  · unfold objAtMut at hm
    have hx : ∀ {p : List (String × Json)}, (∀ e ∈ p, MetaValid .every b e.2) →
        MetaEntry .every b k (.obj (Obj.extend p defs)) := fun hp => me_map hk fun e he => by
      rcases mem_of_extend e he with he | he
      · exact hp e he
      · exact hdefs e he
    split at hm
    · next p hp =>
      obtain ⟨p', e, hp'⟩ := (h.entry hp).members hk
      cases e
      cases hm
      exact mv_insert h (hx hp')
    · cases hm
    · cases hm
      exact mv_insert h (hx fun e he => by cases he)
  · unfold objAtMut at hm
    split at hm
    · obtain ⟨n, -, rfl⟩ := Option.map_eq_some_iff.1 hm
      exact mv_insert h (me_any hk _)
    · cases hm
    · obtain ⟨n, -, rfl⟩ := Option.map_eq_some_iff.1 hm
      exact mv_insert h (me_any hk _)

theorem mv_addDefinitions {path : String} {segs : List String} (hpath : PathDenotes path segs) (hseg : PathSuits segs)
    {m defs : List (String × Json)} (h : MetaValid .every b (.obj m)) (hdefs : ∀ e ∈ defs, MetaValid .every b e.2) :
    MetaValid .every b (.obj (addDefinitions path.toList m defs)) := by
  by_cases hne : defs = []
  · rw [hne]
    simpa [addDefinitions] using h
  · rw [addDefinitions_eq hpath (by rcases hseg with ⟨k, rfl, -⟩ | ⟨k, rest, rfl, -⟩ <;> simp) ?_ hne]
    · cases hm : objAtMut m segs fun t => Obj.extend t defs with
      | none => exact h
      | some m' => exact mv_objAtMut hseg h hdefs hm
    · rintro rfl
      rcases hseg with ⟨k, e, hk⟩ | ⟨k, rest, e, h0, hk⟩
      · cases e; cases hk
      · cases e; exact h0 rfl

/-- The document before the transforms of the settings, and its definitions. -/
theorem root_proper {Γ : τ → TypeDef τ} {decl : τ → Verif.Decl τ} (hG : Declared Γ decl I) {st : Settings}
    (hd : ∀ t, DeclSuits b (decl t)) (hv : ∀ t, HasVariant st.contract (decl t))
    (hn : b = true → ∀ t, NamesDiffer st.contract (decl t)) {segs : List String}
    (hpath : PathDenotes st.definitionsPath segs) (hseg : PathSuits segs) {n : Nat} {t : τ} {r : Json} {g' : Gen τ}
    (h : rootSchemaFor Γ (run Γ n) t (Gen.new st) = some (r, g')) :
    (∃ s, r = applyTransforms st.transforms s ∧ MetaValid .every b s) ∧
      ∀ e ∈ g'.defs, MetaValid .every b e.2 := by
  have hsorted := (rootSchemaFor_kept (run_keeps Γ n) h).sorted Obj.sorted_nil
  obtain ⟨body, m, hm, hr, hbody, hdefs, -⟩ := root_world (fun t => by rw [hG.body]; exact noRoot_bodyOf _) h
  have h1 : ∀ e ∈ g'.defs, MetaValid .every b e.2 := by
    intro e he
    obtain ⟨t', h1, -⟩ := hdefs e.1 e.2 (Obj.get_of_mem_sorted hsorted he)
    exact (produced_proper hG hd hv hn h1).1
  refine ⟨⟨_, hr, mv_addDefinitions hpath hseg (mv_rootObject _ _ ?_) h1⟩, h1⟩
  obtain ⟨m', e, hs⟩ := (produced_proper hG hd hv hn hbody).1.ensureObject
  rw [hm] at e
  cases e; exact hs

end

/-! ## C61 -/

/-- C61, in full: whatever the types, the document that is generated with the settings for 2020-12 is valid
according to the meta-schema of 2020-12. -/
def C61_Full : Prop :=
  ∀ (τ : Type) (Γ : τ → TypeDef τ) (decl : τ → Verif.Decl τ) (I : TypeInfo τ) (c : Contract) (n : Nat) (t : τ) (r : Json)
    (g' : Gen τ), Declared Γ decl I → (∀ t, DeclSuits true (decl t)) →
    rootSchemaFor Γ (run Γ n) t (Gen.new { Settings.draft2020 with contract := c }) = some (r, g') →
    MetaValid .draft2020 true r

section
variable {Γ : τ → TypeDef τ} {decl : τ → Verif.Decl τ} {I : TypeInfo τ} {c : Contract} {n : Nat} {t : τ} {r : Json}
  {g' : Gen τ} {b : Bool}

/-- C61 for settings without transforms: the document and its definitions are valid according to the meta-schema of
each version. Names in `required` differ if those in the program do. Missing: for other programs they may be repeated,
and enums that have only skipped variants are excluded. -/
theorem C61_partial {st : Settings} (hG : Declared Γ decl I) (hd : ∀ t, DeclSuits b (decl t))
    (hv : ∀ t, HasVariant st.contract (decl t)) (hn : b = true → ∀ t, NamesDiffer st.contract (decl t))
    (htr : st.transforms = []) {segs : List String}
    (hpath : PathDenotes st.definitionsPath segs) (hseg : PathSuits segs)
    (h : rootSchemaFor Γ (run Γ n) t (Gen.new st) = some (r, g')) (d : Draft) :
    MetaValid d b r ∧ ∀ e ∈ g'.defs, MetaValid d b e.2 := by
  obtain ⟨⟨s, rfl, hs⟩, h2⟩ := root_proper hG hd hv hn hpath hseg h
  rw [htr]
  exact ⟨hs.milder, fun e he => (h2 e he).milder⟩

/-- C61 for the `draft2020_12` settings. -/
theorem C61_draft2020_partial (hG : Declared Γ decl I) (hd : ∀ t, DeclSuits b (decl t)) (hv : ∀ t, HasVariant c (decl t))
    (hn : b = true → ∀ t, NamesDiffer c (decl t))
    (h : rootSchemaFor Γ (run Γ n) t (Gen.new { Settings.draft2020 with contract := c }) = some (r, g')) :
    MetaValid .draft2020 b r :=
  (C61_partial hG hd hv hn rfl (segs := ["$defs"]) (show PathDenotes "/$defs" _ by unfold PathDenotes; decide) (.inl ⟨_, rfl, rfl⟩) h _).1

/-- C61 for the `draft2019_09` settings. -/
theorem C61_draft2019_partial (hG : Declared Γ decl I) (hd : ∀ t, DeclSuits b (decl t)) (hv : ∀ t, HasVariant c (decl t))
    (hn : b = true → ∀ t, NamesDiffer c (decl t))
    (h : rootSchemaFor Γ (run Γ n) t (Gen.new { Settings.draft2019 with contract := c }) = some (r, g')) :
    MetaValid .draft2019 b r := by
  obtain ⟨⟨s, rfl, hs⟩, -⟩ := root_proper hG hd hv hn (segs := ["$defs"]) (show PathDenotes "/$defs" _ by unfold PathDenotes; decide)
    (.inl ⟨_, rfl, rfl⟩) h
  exact mv_draft2019 hs

/-- C61 for the `draft07` settings. -/
theorem C61_draft07_partial (hG : Declared Γ decl I) (hd : ∀ t, DeclSuits b (decl t)) (hv : ∀ t, HasVariant c (decl t))
    (hn : b = true → ∀ t, NamesDiffer c (decl t))
    (h : rootSchemaFor Γ (run Γ n) t (Gen.new { Settings.draft07 with contract := c }) = some (r, g')) :
    MetaValid .draft07 b r := by
  obtain ⟨⟨s, rfl, hs⟩, -⟩ := root_proper hG hd hv hn (segs := ["definitions"]) (show PathDenotes "/definitions" _ by unfold PathDenotes; decide)
    (.inl ⟨_, rfl, rfl⟩) h
  exact mv_draft07 hs

end

/-! ### Examples and counterexamples -/

theorem attrsSuit_none : AttrsSuit b {} := ⟨fun e he => (by cases he), fun f hf => by cases hf⟩

theorem fieldSuits_plain {f : Field τ} (h1 : f.common = {}) (h2 : f.validation = .noAttrs) : FieldSuits b f := by
  refine ⟨h1 ▸ attrsSuit_none, ?_⟩
  rw [h2]
  exact ⟨fun _ h => (by cases h), fun _ h => (by cases h), trivial⟩

/-- No attributes that matter. -/
def plainFields : Fields τ → Prop
  | .unit => True
  | .newtype f => f.common = {} ∧ f.validation = .noAttrs
  | .tuple fs => ∀ f ∈ fs, f.common = {} ∧ f.validation = .noAttrs
  | .struct fs => ∀ f ∈ fs, f.common = {} ∧ f.validation = .noAttrs

theorem fieldsSuit_plain {fs : Fields τ} (h : plainFields fs) : FieldsSuit b fs := by
  cases fs with
  | unit => trivial
  | newtype f => exact fieldSuits_plain h.1 h.2
  | tuple fs => exact fun f hf => fieldSuits_plain (h f hf).1 (h f hf).2
  | struct fs => exact fun f hf => fieldSuits_plain (h f hf).1 (h f hf).2

theorem dataSuits_plain {fs : Fields τ} (h : plainFields fs) : DataSuits b (.struct fs) := fieldsSuit_plain h

namespace Ex

/-- What is asked of the given types is asked of all. -/
theorem suits {cs : List (Container Nat)} (h : ∀ c ∈ cs, c.common = {} ∧ c.transparent = none ∧ DataSuits b c.data)
    (t : Nat) : DeclSuits b (decl cs t) := by
  match t with
  | 0 => exact (by decide : "null" ∈ typeNames)
  | 1 => trivial
  | n + 2 =>
    show DeclSuits b ((cs[n]?).elim (.std (.simple "null")) .derived)
    cases hc : cs[n]? with
    | none => exact (by decide : "null" ∈ typeNames)
    | some c =>
      obtain ⟨h1, h2, h3⟩ := h c (List.mem_of_getElem? hc)
      exact ⟨h1 ▸ attrsSuit_none, fun f hf => (by rw [h2] at hf; cases hf), h3⟩

theorem hasVariants {cs : List (Container Nat)} {c : Contract} (h : ∀ d ∈ cs, HasVariant c (.derived d)) (t : Nat) :
    HasVariant c (decl cs t) := by
  match t with
  | 0 => trivial
  | 1 => trivial
  | n + 2 =>
    show HasVariant c ((cs[n]?).elim (.std (.simple "null")) .derived)
    cases hc : cs[n]? with
    | none => trivial
    | some d => exact h d (List.mem_of_getElem? hc)

/-- `struct T { a: u32, #[serde(flatten)] e: E, p: P }`, `enum E { A, B(u32), C { x: u32 }, #[serde(skip)] D(u32) }`
and `struct P(u32, u32)`. -/
def mixed : List (Container Nat) :=
  [{ data := .struct (.struct [{ name := ⟨"a", "a"⟩, ty := 1 }, { name := ⟨"e", "e"⟩, ty := 3, flatten := true },
      { name := ⟨"p", "p"⟩, ty := 4 }]) },
   { data := .enum .external [{ name := ⟨"A", "A"⟩, fields := .unit },
      { name := ⟨"B", "B"⟩, fields := .newtype { name := ⟨"0", "0"⟩, ty := 1 } },
      { name := ⟨"C", "C"⟩, fields := .struct [{ name := ⟨"x", "x"⟩, ty := 1 }] },
      { name := ⟨"D", "D"⟩, fields := .newtype { name := ⟨"0", "0"⟩, ty := 1 }, skipSer := true, skipDe := true }] },
   { data := .struct (.tuple [{ name := ⟨"0", "0"⟩, ty := 1 }, { name := ⟨"1", "1"⟩, ty := 1 }]) }]

theorem mixed_suits : ∀ c ∈ mixed, c.common = {} ∧ c.transparent = none ∧ DataSuits b c.data := by
  intro c hc
  rcases List.mem_cons.1 hc with rfl | hc
  · exact ⟨rfl, rfl, dataSuits_plain (by simp [plainFields])⟩
  rcases List.mem_cons.1 hc with rfl | hc
  · refine ⟨rfl, rfl, ?_⟩
    simp only [DataSuits, List.mem_cons, List.not_mem_nil, or_false, forall_eq_or_imp, forall_eq]
    exact ⟨⟨attrsSuit_none, trivial⟩, ⟨attrsSuit_none, fieldsSuit_plain ⟨rfl, rfl⟩⟩,
      ⟨attrsSuit_none, fieldsSuit_plain (by simp [plainFields])⟩, attrsSuit_none, fieldsSuit_plain ⟨rfl, rfl⟩⟩
  · rw [List.mem_singleton.1 hc]
    exact ⟨rfl, rfl, dataSuits_plain (by simp [plainFields])⟩

theorem mixed_variants (c : Contract) : ∀ d ∈ mixed, HasVariant c (.derived d) := by
  simp only [mixed, List.mem_cons, List.not_mem_nil, or_false, forall_eq_or_imp, forall_eq]
  exact ⟨trivial, fun _ => ⟨_, List.mem_cons_self .., rfl⟩, trivial⟩

/-- An alternative of the enum, as a part of the struct. -/
def alternative (name : String) (s : Json) : Json :=
  .obj [("properties", .obj [(name, s)]), ("required", .arr [.str name]), ("type", .str "object")]

/-- The root schema for `T` with the given meta-schema and the keyword for the items of a tuple. -/
def mixedSchema (ms items : String) : Json :=
  .obj [("$schema", .str ms),
    ("oneOf", .arr [alternative "B" u32Schema, alternative "C" (alternative "x" u32Schema),
      alternative "A" (.obj [("type", .str "null")])]),
    ("properties", .obj [("a", u32Schema), ("p", mkObj [(items, .arr [u32Schema, u32Schema]),
      ("maxItems", .num (.int 2)), ("minItems", .num (.int 2)), ("type", .str "array")])]),
    ("required", .arr [.str "a", .str "p"]), ("title", .str "T"), ("type", .str "object")]

theorem mixed_generates : ∃ g', rootSchemaFor (types mixed) (run (types mixed) 10) 2
    (Gen.new { Settings.draft2020 with contract := .serialize }) = some (mixedSchema meta2020 "prefixItems", g') ∧
      g'.defs = [] := generated (by decide +kernel)

theorem mixed_generates07 : ∃ g', rootSchemaFor (types mixed) (run (types mixed) 10) 2
    (Gen.new { Settings.draft07 with contract := .serialize }) = some (mixedSchema metaDraft07 "items", g') ∧
      g'.defs = [] := generated (by decide +kernel)

theorem mixed_generates2019 : ∃ g', rootSchemaFor (types mixed) (run (types mixed) 10) 2
    (Gen.new { Settings.draft2019 with contract := .serialize }) = some (mixedSchema meta2019 "items", g') ∧
      g'.defs = [] := generated (by decide +kernel)

example : MetaValid .draft2020 false (mixedSchema meta2020 "prefixItems") := by
  obtain ⟨g', h, -⟩ := mixed_generates
  exact C61_draft2020_partial (declared _) (suits mixed_suits) (hasVariants (mixed_variants _)) (fun hb => by cases hb) h

example : MetaValid .draft2019 false (mixedSchema meta2019 "items") := by
  obtain ⟨g', h, -⟩ := mixed_generates2019
  exact C61_draft2019_partial (declared _) (suits mixed_suits) (hasVariants (mixed_variants _)) (fun hb => by cases hb) h

example : MetaValid .draft07 false (mixedSchema metaDraft07 "items") := by
  obtain ⟨g', h, -⟩ := mixed_generates07
  exact C61_draft07_partial (declared _) (suits mixed_suits) (hasVariants (mixed_variants _)) (fun hb => by cases hb) h

/-- `struct T { a: u32, e: E, f: F }`, `#[serde(tag = "t")] enum E { A, B { x: u32 } }` and
`#[serde(tag = "t", content = "c")] enum F { A, B(u32) }`. -/
def tagged : List (Container Nat) :=
  [{ data := .struct (.struct [{ name := ⟨"a", "a"⟩, ty := 1 }, { name := ⟨"e", "e"⟩, ty := 3 }, { name := ⟨"f", "f"⟩, ty := 4 }]) },
   { data := .enum (.internal "t") [{ name := ⟨"A", "A"⟩, fields := .unit },
      { name := ⟨"B", "B"⟩, fields := .struct [{ name := ⟨"x", "x"⟩, ty := 1 }] }] },
   { data := .enum (.adjacent "t" "c") [{ name := ⟨"A", "A"⟩, fields := .unit },
      { name := ⟨"B", "B"⟩, fields := .newtype { name := ⟨"0", "0"⟩, ty := 1 } }] }]

theorem tagged_suits : ∀ c ∈ tagged, c.common = {} ∧ c.transparent = none ∧ DataSuits b c.data := by
  intro c hc
  rcases List.mem_cons.1 hc with rfl | hc
  · exact ⟨rfl, rfl, dataSuits_plain (by simp [plainFields])⟩
  rcases List.mem_cons.1 hc with rfl | hc
  · refine ⟨rfl, rfl, ?_⟩
    simp only [DataSuits, List.mem_cons, List.not_mem_nil, or_false, forall_eq_or_imp, forall_eq]
    exact ⟨⟨attrsSuit_none, trivial⟩, attrsSuit_none, fieldsSuit_plain (by simp [plainFields])⟩
  · rw [List.mem_singleton.1 hc]
    refine ⟨rfl, rfl, ?_⟩
    simp only [DataSuits, List.mem_cons, List.not_mem_nil, or_false, forall_eq_or_imp, forall_eq]
    exact ⟨⟨attrsSuit_none, trivial⟩, attrsSuit_none, fieldsSuit_plain ⟨rfl, rfl⟩⟩

theorem tagged_variants (c : Contract) : ∀ d ∈ tagged, HasVariant c (.derived d) := by
  simp only [tagged, List.mem_cons, List.not_mem_nil, or_false, forall_eq_or_imp, forall_eq]
  exact ⟨trivial, fun _ => ⟨_, List.mem_cons_self .., rfl⟩, fun _ => ⟨_, List.mem_cons_self .., rfl⟩⟩

theorem tagged_names : ∀ d ∈ tagged, NamesDiffer .serialize (.derived d) := by
  intro d hd
  rcases List.mem_cons.1 hd with rfl | hd
  · exact ⟨by decide, by decide⟩
  rcases List.mem_cons.1 hd with rfl | hd
  · simp only [NamesDiffer, List.mem_cons, List.not_mem_nil, or_false, forall_eq_or_imp, forall_eq]
    exact ⟨⟨trivial, by decide, by decide⟩, fun _ => ⟨rfl, trivial⟩, fun _ => ⟨rfl, by decide⟩⟩
  · rw [List.mem_singleton.1 hd]
    simp only [NamesDiffer, List.mem_cons, List.not_mem_nil, or_false, forall_eq_or_imp, forall_eq]
    exact ⟨⟨trivial, trivial⟩, by decide⟩

theorem namesDiffer {cs : List (Container Nat)} {c : Contract} (h : ∀ d ∈ cs, NamesDiffer c (.derived d)) (t : Nat) :
    NamesDiffer c (decl cs t) := by
  match t with
  | 0 => trivial
  | 1 => trivial
  | n + 2 =>
    show NamesDiffer c ((cs[n]?).elim (.std (.simple "null")) .derived)
    cases hc : cs[n]? with
    | none => trivial
    | some d => exact h d (List.mem_of_getElem? hc)

/-- The hypotheses of C61 for distinct names can be met. -/
example : ∃ r, (∃ g', rootSchemaFor (types tagged) (run (types tagged) 10) 2
    (Gen.new { Settings.draft2020 with contract := .serialize }) = some (r, g')) ∧ MetaValid .draft2020 true r := by
  have h : (rootSchemaFor (types tagged) (run (types tagged) 10) 2
      (Gen.new { Settings.draft2020 with contract := .serialize })).isSome = true := by decide +kernel
  obtain ⟨⟨r, g'⟩, h⟩ := Option.isSome_iff_exists.1 h
  exact ⟨r, ⟨g', h⟩, C61_draft2020_partial (declared _) (suits tagged_suits) (hasVariants (tagged_variants _))
    (fun _ => namesDiffer tagged_names) h⟩

/-- `enum T { #[serde(skip)] A(u32) }`. -/
def allSkipped : List (Container Nat) :=
  [{ data := .enum .external
      [{ name := ⟨"A", "A"⟩, fields := .newtype { name := ⟨"0", "0"⟩, ty := 1 }, skipSer := true, skipDe := true }] }]

/-- The root schema of an enum without variants left. -/
def noAlternatives : Json := .obj [("$schema", .str meta2020), ("oneOf", .arr []), ("title", .str "T")]

theorem allSkipped_generates : ∃ g', rootSchemaFor (types allSkipped) (run (types allSkipped) 10) 2
    (Gen.new { Settings.draft2020 with contract := .serialize }) = some (noAlternatives, g') ∧
      g'.defs = [] := generated (by decide +kernel)

theorem allSkipped_suits : ∀ c ∈ allSkipped, c.common = {} ∧ c.transparent = none ∧ DataSuits b c.data := by
  intro c hc
  rw [List.mem_singleton.1 hc]
  refine ⟨rfl, rfl, ?_⟩
  simp only [DataSuits, List.mem_cons, List.not_mem_nil, or_false, forall_eq]
  exact ⟨attrsSuit_none, fieldsSuit_plain ⟨rfl, rfl⟩⟩

theorem not_valid_noAlternatives (d : Draft) (b : Bool) : ¬ MetaValid d b noAlternatives := by
  intro h
  obtain ⟨l, e, h0, -⟩ := (h.entry (k := "oneOf") rfl).schemas (by cases d <;> rfl)
  cases e
  exact h0 rfl

/-- `struct T { a: u32, #[serde(flatten)] i: I }` and `struct I { a: u32 }`. -/
def repeated : List (Container Nat) :=
  [{ data := .struct (.struct [{ name := ⟨"a", "a"⟩, ty := 1 }, { name := ⟨"i", "i"⟩, ty := 3, flatten := true }]) },
   { data := .struct (.struct [{ name := ⟨"a", "a"⟩, ty := 1 }]) }]

/-- The root schema with a name that is required twice. -/
def twice (tag : String) (s : Json) : Json :=
  .obj [("$schema", .str meta2020), ("properties", .obj [(tag, s)]), ("required", .arr [.str tag, .str tag]),
    ("title", .str "T"), ("type", .str "object")]

theorem repeated_generates : ∃ g', rootSchemaFor (types repeated) (run (types repeated) 10) 2
    (Gen.new { Settings.draft2020 with contract := .serialize }) = some (twice "a" u32Schema, g') ∧
      g'.defs = [] := generated (by decide +kernel)

theorem repeated_suits : ∀ c ∈ repeated, c.common = {} ∧ c.transparent = none ∧ DataSuits b c.data := by
  intro c hc
  rcases List.mem_cons.1 hc with rfl | hc
  · exact ⟨rfl, rfl, dataSuits_plain (by simp [plainFields])⟩
  · rw [List.mem_singleton.1 hc]
    exact ⟨rfl, rfl, dataSuits_plain (by simp [plainFields])⟩

theorem repeated_variants (c : Contract) : ∀ d ∈ repeated, HasVariant c (.derived d) := by
  simp only [repeated, List.mem_cons, List.not_mem_nil, or_false, forall_eq_or_imp, forall_eq]
  exact ⟨trivial, trivial⟩

theorem not_valid_twice (d : Draft) (tag : String) (s : Json) : ¬ MetaValid d true (twice tag s) := by
  intro h
  obtain ⟨l, e, hn⟩ := (h.entry (k := "required") rfl).required
  have hl : l = [tag, tag] := by
    have e : [Json.str tag, .str tag] = l.map .str := Json.arr.inj e
    match l, e with
    | [_, _], rfl => rfl
  rw [hl] at hn
  simpa using hn rfl

end Ex

/-- C61 does not hold in full: an enum whose variants are all skipped gets `"oneOf": []`. -/
theorem C61_Full_false : ¬ C61_Full := by
  intro h
  obtain ⟨g', h1, -⟩ := Ex.allSkipped_generates
  exact Ex.not_valid_noAlternatives _ _ (h Nat _ _ _ _ _ _ _ g' (Ex.declared _) (Ex.suits Ex.allSkipped_suits) h1)

/-- C61 does not hold in full for types without such enums: names in `required` can be repeated. -/
theorem C61_repeated : ∃ (cs : List (Container Nat)) (r : Json) (g' : Gen Nat),
    rootSchemaFor (Ex.types cs) (run (Ex.types cs) 10) 2 (Gen.new { Settings.draft2020 with contract := .serialize }) =
      some (r, g') ∧ (∀ t, DeclSuits true (Ex.decl cs t)) ∧ (∀ t, HasVariant .serialize (Ex.decl cs t)) ∧
      ¬ MetaValid .draft2020 true r := by
  obtain ⟨g', h, -⟩ := Ex.repeated_generates
  exact ⟨Ex.repeated, _, g', h, Ex.suits Ex.repeated_suits, Ex.hasVariants (Ex.repeated_variants _), Ex.not_valid_twice _ _ _⟩

end Verif
