import Verif.Spec.ItemAttrs
import Verif.Props.Settled
import Verif.Props.Annotations

/-!
# The annotations in a declaration (C72)
-/

namespace Verif
open Spec

section
variable {τ σ V : Type} {S : Syntax τ} {ps : Parsers τ} {C : Cases} {M : Meaning τ σ} {N : Values τ V}

theorem deriveField_reads {a : SrcAttrs τ} {m : List (MetaItem τ) × FieldMeta τ}
    (hval : ∀ i ∈ validateOf a, i.negated = false) (e : ok? (deriveField ps a) = some m) :
    FieldReads ps (schemarsOf a) (effective a) (validateOf a) (gardeOf a) m.2 := by
  obtain ⟨p1, p2, p3, p4⟩ := plain_parts a
  have e := ok_of e
  unfold deriveField at e
  dsimp only at e
  rw [p1, p2, p3, p4, validateItems_eq, gardeItems_eq] at e
  split at e
  · cases e
  · split at e
    · cases e
    · rename_i he
      cases e
      exact C62_field ps _ _ _ _ hval (not_not.1 he)

theorem deriveVariant_reads {a : SrcAttrs τ} {m : List (MetaItem τ) × VariantMeta τ}
    (e : ok? (deriveVariant ps a) = some m) : VariantReads ps (schemarsOf a) (effective a) m.2 := by
  obtain ⟨p1, p2, p3, p4⟩ := plain_parts a
  have e := ok_of e
  unfold deriveVariant at e
  dsimp only at e
  rw [p1, p2] at e
  split at e
  · cases e
  · split at e
    · cases e
    · rename_i he
      cases e
      exact C62_variant ps _ _ (not_not.1 he)

theorem deriveContainer_reads {a : SrcAttrs τ} {isEnum : Bool} {m : List (MetaItem τ) × ContainerMeta τ}
    (e : ok? (deriveContainer ps isEnum a) = some m) : ContainerReads ps isEnum (schemarsOf a) (effective a) m.2 := by
  obtain ⟨p1, p2, p3, p4⟩ := plain_parts a
  have e := ok_of e
  unfold deriveContainer at e
  dsimp only at e
  rw [p1, p2] at e
  split at e
  · cases e
  · split at e
    · cases e
    · rename_i he
      cases e
      exact C62_container ps _ _ _ (not_not.1 he)

theorem common_says {a : SrcAttrs τ} {l : List (MetaItem τ)} {c : CommonMeta τ} (h : CommonReads l c) :
    CommonSays M a l (commonOf M a c) := by
  refine ⟨⟨_, h.title, rfl⟩, ⟨_, h.description, rfl⟩, ?_, ?_, ?_, ?_, ?_⟩
  · rw [← h.examples]; rfl
  · rw [← h.extensions]; rfl
  · rw [← h.transforms]; rfl
  · show isDeprecated a = true ↔ _
    unfold isDeprecated
    rw [List.any_eq_true]
    constructor
    · rintro ⟨x, hx, e⟩
      split at e
      · exact hx
      · cases e
    · exact fun hx => ⟨_, hx, rfl⟩
  · intro hM lines hl
    have := C62_doc a lines hl
    show (getDoc a).map M.concat = _
    cases hg : getDoc a with
    | none =>
      rw [hg] at this
      split
      · rfl
      · rw [if_neg (by assumption)] at this
        cases this
    | some x =>
      rw [hg] at this
      split
      · rw [if_pos (by assumption)] at this
        cases this
      · rw [if_neg (by assumption)] at this
        exact congrArg some (hM _ _ (Option.some.inj this))

theorem formatOf_eq : formatOf = formatFor := by
  funext f
  cases f <;> rfl

theorem bounds_of (l : Option (LengthMeta τ)) : Bounds M l (l.map (lengthOf M)) := by
  cases l with
  | none => trivial
  | some l => exact ⟨rfl, rfl, rfl⟩

theorem evaluates : ∀ m : ValidationMeta τ, Evaluates M m (validationOf M m)
  | ⟨s, none⟩ => by
    unfold validationOf
    rw [formatOf_eq]
    exact .mk (m := ⟨s, none⟩) (bounds_of _) (bounds_of _) ⟨fun _ => rfl, fun _ => rfl⟩
      (fun x y e => by cases e)
  | ⟨s, some v⟩ => by
    unfold validationOf
    rw [formatOf_eq]
    have ih := evaluates v
    exact .mk (m := ⟨s, some v⟩) (bounds_of _) (bounds_of _) ⟨(fun e => by cases e), (fun e => by cases e)⟩
      (fun x y e1 e2 => by cases e1; cases e2; exact ih)

theorem typeForSchema_eq : typeForSchema M = chosen M := by
  funext w
  cases w <;> rfl

theorem any_of (l : List (MetaItem τ)) (n : List String) : l.any (setsOne n) = (l.find? (setsOne n)).isSome := by
  rw [Bool.eq_iff_iff, List.find?_isSome, List.any_eq_true]

theorem firstAmong_one {β : Type} {l : List (MetaItem τ)} {n : List String} {R : MetaItem τ → β → Prop}
    {x : Option β} (h : FirstAmong [(l, n, R)] x) : x.isSome = l.any (setsOne n) := by
  rw [any_of]
  unfold FirstAmong at h
  cases hl : l.find? (setsOne n) with
  | some i =>
    rw [hl] at h
    obtain ⟨b, rfl, _⟩ := h
    rfl
  | none =>
    rw [hl] at h
    cases (show x = none from h)
    rfl

/-- Whether something counts, in terms of the items. -/
theorem firstAmong_two {β : Type} {l m : List (MetaItem τ)} {n k : List String} {R Q : MetaItem τ → β → Prop}
    {x : Option β} (h : FirstAmong [(l, n, R), (m, k, Q)] x) :
    x.isSome = (l.any (setsOne n) || m.any (setsOne k)) := by
  unfold FirstAmong at h
  rw [any_of]
  cases hl : l.find? (setsOne n) with
  | some i =>
    rw [hl] at h
    obtain ⟨b, rfl, _⟩ := h
    rfl
  | none =>
    rw [hl] at h
    exact firstAmong_one h

theorem field_says {v : Option V} {f : SerdeField τ (SrcAttrs τ)} {r : Field σ × Bool}
    (hval : ∀ i ∈ validateOf f.original.attrs, i.negated = false)
    (h : fieldFromSerde ps M N v f = some r) :
    FieldSays ps M f.original r.1 ∧ r.2 = ((schemarsOf f.original.attrs).any (setsOne ["with", "schema_with"]) ||
      (effective f.original.attrs).any (setsOne ["with"])) := by
  obtain ⟨m, hm, rfl⟩ := Option.map_eq_some_iff.1 h
  have H := deriveField_reads hval hm
  refine ⟨⟨common_says H.common, ⟨_, H.validation, rfl, evaluates _⟩, ⟨_, H.withAttr, ?_⟩⟩,
    firstAmong_two H.withAttr⟩
  rw [← typeForSchema_eq]

theorem fields_say {v : Option V} {fs : SerdeFields τ (SrcAttrs τ)} {x : Fields σ}
    (hval : ∀ f ∈ fs.list.map (·.original), ∀ i ∈ validateOf f.attrs, i.negated = false)
    (h : fieldsFromSerde ps M N v fs = some x) :
    List.Forall₂ (FieldSays ps M) (fs.list.map (·.original)) (allFields x) := by
  have H := fieldsFromSerde_list h
  rw [show x.list = allFields x by cases x <;> rfl] at H
  revert hval
  generalize fs.list = l at H
  generalize allFields x = m at H
  intro hval
  induction H with
  | nil => exact .nil
  | cons hx _ ih =>
    obtain ⟨r, hr, rfl⟩ := hx
    exact .cons (field_says (hval _ (List.mem_cons_self ..)) hr).1 (ih fun f hf => hval f (List.mem_cons_of_mem _ hf))

theorem variant_says {ident : String} {refs : Bool} {v : SerdeVariant τ (SrcAttrs τ)} {x : Variant σ}
    (hfrom : v.fields.list.map (·.original) = fieldList v.original.fields)
    (hval : ∀ f ∈ fieldList v.original.fields, ∀ i ∈ validateOf f.attrs, i.negated = false)
    (h : variantFromSerde ps M N ident refs v = some x) : VariantSays ps M ident refs v.original x := by
  obtain ⟨m, hm, h⟩ := Option.bind_eq_some_iff.1 h
  obtain ⟨fs, hfs, rfl⟩ := Option.map_eq_some_iff.1 h
  have H := deriveVariant_reads hm
  refine ⟨common_says H.common, ⟨_, H.withAttr, ?_⟩, rfl, ?_⟩
  · rw [← typeForSchema_eq]
  · rw [← hfrom] at hval ⊢
    exact fields_say hval hfs

theorem variants_say {ident : String} {refs : Bool} {ws : List (SerdeVariant τ (SrcAttrs τ))} {r : List (Variant σ)}
    (hfrom : ∀ w ∈ ws, w.fields.list.map (·.original) = fieldList w.original.fields)
    (hval : ∀ w ∈ ws, ∀ f ∈ fieldList w.original.fields, ∀ i ∈ validateOf f.attrs, i.negated = false)
    (h : mapAll (variantFromSerde ps M N ident refs) ws = some r) :
    List.Forall₂ (VariantSays ps M ident refs) (ws.map (·.original)) r := by
  replace h := mapAll_some.1 h
  induction h with
  | nil => exact .nil
  | cons hx _ ih =>
    exact .cons (variant_says (hfrom _ (List.mem_cons_self ..)) (hval _ (List.mem_cons_self ..)) hx)
      (ih (fun w hw => hfrom w (List.mem_cons_of_mem _ hw)) fun w hw => hval w (List.mem_cons_of_mem _ hw))

/-- C72: what is derived for a declaration has the annotations, the validation and the types that the attributes in
effect say. The hypothesis excludes `#[validate(!email)]`, which validator rejects. -/
theorem C72 (item : SrcItem τ (SrcAttrs τ)) (hval : ∀ a ∈ attrLists item, ∀ i ∈ validateOf a, i.negated = false)
    (d : DeriveInput σ) (h : deriveItem S C M N item = some d) : ItemSays S M item d := by
  have hid := C68_id S C M N item d h
  obtain ⟨c, hc, h⟩ := Option.bind_eq_some_iff.1 h
  obtain ⟨m, hm, h⟩ := Option.bind_eq_some_iff.1 h
  obtain ⟨dd, hdd, h⟩ := Option.bind_eq_some_iff.1 h
  obtain ⟨t, ht, rfl⟩ := Option.map_eq_some_iff.1 h
  have hfrom := container_from hc
  have H := deriveContainer_reads hm
  have hf : ∀ f ∈ srcFields item.data, ∀ i ∈ validateOf f.attrs, i.negated = false :=
    fun f hf => hval _ (mem_fieldAttrs hf)
  refine ⟨common_says H.common, ?_, ⟨_, H.withAttr, ?_, ?_⟩, ?_, hid, ?_⟩
  · have hrefs : m.2.slots.refVariants = (schemarsOf item.attrs).any (setsOne ["_unstable_ref_variants"]) := by
      have := firstAmong_one H.refVariants
      rw [← this]
      cases m.2.slots.refVariants <;> rfl
    rw [← hrefs]
    unfold dataFromSerde at hdd
    obtain ⟨a, _, _, hdata, _⟩ := serdeContainer_some hc
    cases hi : item.data with
    | struct s =>
      rw [hi] at hdata
      obtain ⟨fs, hfs, e⟩ := Option.map_eq_some_iff.1 hdata
      rw [← e] at hdd
      obtain ⟨r, hr, rfl⟩ := Option.map_eq_some_iff.1 hdd
      have e1 := hfrom.fields fs e.symm
      show List.Forall₂ _ (fieldList s) (allFields r)
      rw [show fieldList s = srcFields item.data by rw [hi]; cases s <;> rfl, ← e1]
      rw [← e1] at hf
      exact fields_say hf hr
    | enum vs =>
      rw [hi] at hdata
      obtain ⟨ws, hws, e⟩ := Option.map_eq_some_iff.1 hdata
      rw [← e] at hdd
      obtain ⟨r, hr, rfl⟩ := Option.map_eq_some_iff.1 hdd
      obtain ⟨e1, e2⟩ := hfrom.variants ws e.symm
      show List.Forall₂ _ vs r
      have e3 : variantList item.data = vs := by rw [hi]; rfl
      rw [← e3, ← e1]
      have hv : ∀ w ∈ ws, ∀ f ∈ fieldList w.original.fields, ∀ i ∈ validateOf f.attrs, i.negated = false := by
        intro w hw f hf
        exact hval _ ((mem_variantAttrs (e1 ▸ List.mem_map_of_mem hw)).2 _ hf)
      rw [hfrom.original] at hr
      exact variants_say e2 hv hr
  · rw [← typeForSchema_eq]
  · show isFunction m.2.slots.withAttr = true ↔ _
    cases m.2.slots.withAttr with
    | none => simp [isFunction]
    | some w => cases w <;> simp [isFunction]
  · have := firstAmong_two H.inline
    show m.2.slots.inline = _
    rw [List.any_append, ← this]
    cases m.2.slots.inline <;> rfl
  · intro f hft
    unfold transparentFromSerde at ht
    split at ht
    · cases ht
      cases hft
    · rename_i g hg
      obtain ⟨r, hr, rfl⟩ := Option.map_eq_some_iff.1 ht
      cases hft
      obtain ⟨fs, e, hgf⟩ := hfrom.transparent g hg
      have hgs : g.original ∈ srcFields item.data := by
        rw [← hfrom.fields fs e]
        exact List.mem_map_of_mem hgf
      exact ⟨_, hgs, field_says (hf _ hgs) hr⟩

/-! ### What is in the schemas -/

theorem firstOf_eq {names : List String} {l : List (MetaItem τ)} {x y : Option (MetaExpr τ)}
    (h1 : FirstOf names HasValue l x) (h2 : FirstOf names HasValue l y) : x = y := by
  unfold FirstOf at h1 h2
  cases hf : l.find? (setsOne names) with
  | none =>
    rw [hf] at h1 h2
    exact Eq.trans h1 (Eq.symm h2)
  | some i =>
    rw [hf] at h1 h2
    obtain ⟨b, rfl, hb⟩ := h1
    obtain ⟨c, rfl, hc⟩ := h2
    have := hb.2.symm.trans hc.2
    cases this
    rfl

theorem firstOf_none {names : List String} {l : List (MetaItem τ)} {x : Option (MetaExpr τ)}
    (h : FirstOf names HasValue l x) (hn : l.any (setsOne names) = false) : x = none := by
  unfold FirstOf at h
  rw [any_of] at hn
  cases hf : l.find? (setsOne names) with
  | none =>
    rw [hf] at h
    exact h
  | some i =>
    rw [hf] at hn
    cases hn

/-- C72: what is written in the source is what the annotations say in C67. -/
theorem C72_written (hM : Concats M) {attrs : SrcAttrs τ} {l : List (MetaItem τ)} {c : CommonAttrs}
    (h : CommonSays M attrs l c) {k : String} {v : Json} (hw : SourceSays M attrs l k v) : Says c k v := by
  have notExt : ∀ {k}, (∀ e ∈ l.flatMap extensionsOf, e.1 ≠ k) → NotExtended c k := by
    intro k hk e he
    rw [h.extensions] at he
    obtain ⟨x, hx, rfl⟩ := List.mem_map.1 he
    exact hk x hx
  have doc : ∀ {lines : List String} {t d : List Char}, docsOf attrs = lines.map .str →
      Splits (String.intercalate "\n" (lines.map docText)).toList t d → (t ≠ [] ∨ d ≠ []) →
      c.doc = some (String.intercalate "\n" (lines.map docText)) := by
    intro lines t d hl hs hne
    rw [h.doc hM lines hl, if_neg]
    rintro rfl
    have e : getTitleAndDescription [] = some ([], []) := by decide +kernel
    have e1 := C53_iff.2 hs
    rw [show (String.intercalate "\n" (([] : List String).map docText)).toList = [] from rfl, e] at e1
    cases e1
    exact hne.elim (fun h => h rfl) fun h => h rfl
  cases hw with
  | @extend a k x b e hb =>
    refine .extend (l := a.map fun e => (e.1, M.extension e.2)) (r := b.map fun e => (e.1, M.extension e.2)) ?_ ?_
    · rw [h.extensions, e, List.map_append]; rfl
    · intro e he
      obtain ⟨y, hy, rfl⟩ := List.mem_map.1 he
      exact hb y hy
  | text hk he hf hne =>
    rcases hk with rfl | rfl
    · obtain ⟨y, hy, e⟩ := h.title
      rw [firstOf_eq hy hf] at e
      exact .title (notExt he) (.inl e) hne
    · obtain ⟨y, hy, e⟩ := h.description
      rw [firstOf_eq hy hf] at e
      exact .description (notExt he) (.inl e) hne
  | docTitle he ha hl hs hne =>
    obtain ⟨y, hy, e⟩ := h.title
    rw [firstOf_none hy ha] at e
    exact .title (notExt he) (.inr ⟨e, _, _, doc hl hs (.inl hne), by rw [String.toList_ofList]; exact hs⟩)
      (fun e => hne (by simpa using congrArg String.toList e))
  | docDescription he ha hl hs hne =>
    obtain ⟨y, hy, e⟩ := h.description
    rw [firstOf_none hy ha] at e
    exact .description (notExt he) (.inr ⟨e, _, _, doc hl hs (.inr hne), by rw [String.toList_ofList]; exact hs⟩)
      (fun e => hne (by simpa using congrArg String.toList e))
  | deprecated he hd => exact .deprecated (notExt he) (h.deprecated.2 hd)
  | examples he hne =>
    have := Says.examples (notExt he) (by rw [h.examples]; simpa using hne)
    rw [h.examples, List.filterMap_map] at this
    exact this

theorem no_transforms {attrs : SrcAttrs τ} {l : List (MetaItem τ)} {c : CommonAttrs} (h : CommonSays M attrs l c)
    (hl : has ["transform"] l = false) : c.transforms = [] := by
  rw [h.transforms, List.map_eq_nil_iff, List.filter_eq_nil_iff]
  intro x hx
  obtain ⟨i, hi, e⟩ := List.mem_filterMap.1 hx
  unfold valueOf at e
  split at e
  · rename_i hs
    have := List.any_eq_false.1 hl i hi
    unfold setsOne at hs
    simp_all
  · cases e

/-- C72: what is written at a struct or enum is in the schema that is generated for it. -/
theorem C72_run (hM : Concats M) {item : SrcItem τ (SrcAttrs τ)}
    (hval : ∀ a ∈ attrLists item, ∀ i ∈ validateOf a, i.negated = false) {d : DeriveInput σ}
    (h : deriveItem S C M N item = some d)
    (hno : ∀ a ∈ attrLists item, has ["transform"] (schemarsOf a ++ effective a) = false)
    {Γ : σ → TypeDef σ} (hΓ : TypedFamily Γ) {I : TypeInfo σ} {t : σ} (hc : (Γ t).body = containerProg I d.container)
    {n : Nat} {g g' : Gen σ} {r : Json} (hg : Inv g) (hr : run Γ n t g = some (r, g')) {k : String} {v : Json}
    (hk : SourceSays M item.attrs (schemarsOf item.attrs ++ effective item.attrs) k v) : Schema.get r k = some v := by
  have H := C72 item hval d h
  refine C67_run hΓ hc (fun f hf => ?_) (no_transforms H.common (hno _ (List.mem_cons_self ..))) hg hr _ _
    (C72_written hM H.common hk)
  have : ∃ s ∈ srcFields item.data, FieldSays S.toParsers M s f := by
    rcases hf with hf | hf
    · have hd := H.data
      rw [hf] at hd
      cases e : item.data with
      | enum vs => rw [e] at hd; exact hd.elim
      | struct s =>
        rw [e] at hd
        have hd : List.Forall₂ (FieldSays S.toParsers M) (fieldList s) [f] := hd
        cases hl : fieldList s with
        | nil => rw [hl] at hd; cases hd
        | cons x l =>
          rw [hl] at hd
          cases hd with
          | cons hx _ =>
            refine ⟨x, ?_, hx⟩
            rw [show srcFields (.struct s) = fieldList s by cases s <;> rfl, hl]
            exact List.mem_cons_self ..
    · obtain ⟨s, hs, hx, _⟩ := H.transparent f hf
      exact ⟨s, hs, hx⟩
  obtain ⟨s, hs, hx⟩ := this
  exact typed_nil (no_transforms hx.common (hno _ (mem_fieldAttrs hs)))

/-- C72: what is written at a field is in the schema that is generated for it. The keywords in `fieldKeys` may be
changed by validation attributes. -/
theorem C72_field (hM : Concats M) {A : Answers σ} (hA : Answered A) {I : TypeInfo σ} {s : SrcField τ (SrcAttrs τ)}
    {f : Field σ} (hs : FieldSays ps M s f) (hno : has ["transform"] (schemarsOf s.attrs ++ effective s.attrs) = false)
    {r : Json} (h : Returns A (fieldProg I f false) r) {k : String} {v : Json} (hkeys : k ∉ fieldKeys)
    (hk : SourceSays M s.attrs (schemarsOf s.attrs ++ effective s.attrs) k v) : Schema.get r k = some v := by
  obtain ⟨x, _, _, hc⟩ := C67_field hA (no_transforms hs.common hno) h
  exact (hc.carries k hkeys).1 v (C72_written hM hs.common hk)

/-- C72: what is written at a field of a struct is in the schema of its property. -/
theorem C72_property (hM : Concats M) {A : Answers σ} (hA : Answered A) {I : TypeInfo σ}
    {s : SrcField τ (SrcAttrs τ)} {f : Field σ} {fs : List (Field σ)} {cd deny : Bool} {r : Json}
    (hsep : Separate A I (present fs A.settings.contract)) (h : Returns A (structProg I fs cd deny) r)
    (hf : f ∈ present fs A.settings.contract) (hfl : f.flatten = false) (hs : FieldSays ps M s f)
    (hno : has ["transform"] (schemarsOf s.attrs ++ effective s.attrs) = false) :
    ∃ p, propertyAt r (f.name.get A.settings.contract) = some p ∧ ∀ k v, k ∉ fieldKeys →
      SourceSays M s.attrs (schemarsOf s.attrs ++ effective s.attrs) k v → Schema.get p k = some v := by
  obtain ⟨x, p, _, hp, hc⟩ := C67_fields_partial hA hsep h hf hfl (no_transforms hs.common hno)
  exact ⟨p, hp, fun k v hkeys hk => (hc.carries k hkeys).1 v (C72_written hM hs.common hk)⟩

end

namespace ItemAttrsEx
open AttrMetaEx ItemEx

def sense : Meaning String Unit where
  type _ := ()
  function _ := ()
  refVariant _ _ := ()
  text x := match x with | .str s => s | .other s => s
  concat l := (concatText l).getD ""
  json x := match x with | .str s => some (.str s) | .other _ => none
  number _ := .num (.int 1)
  extension s := .str s
  transform _ j := j
  format s := s
  modulePath := "m"

theorem concats : Concats sense := by
  intro l s h
  show (concatText l).getD "" = s
  rw [h]; rfl

/-- `/// About notes. #[deprecated] #[schemars(title = "A note", inline)] struct Note(#[serde(with = "String")]
#[validate(length(min = 1))] Text)`. -/
def note : SrcItem String (SrcAttrs String) where
  ident := "Note"
  attrs := [.other (.doc (.str " About notes.")), .other .deprecated,
    .schemars (some [text "title" "A note", flag "inline"])]
  data := .struct (.unnamed
    [⟨"0", "Text", [.serde (some [text "with" "String"]), .other (.validate (some [args "length" [value "min" "1"]]))]⟩])

/-- What is derived. -/
def derived : DeriveInput Unit := (deriveItem lang cases sense values note).get (by decide +kernel)

theorem derived_eq : deriveItem lang cases sense values note = some derived := (Option.some_get _).symm

theorem valid : ∀ a ∈ attrLists note, ∀ i ∈ validateOf a, i.negated = false := by
  intro a ha
  simp only [attrLists, note, srcFields, variantList, List.map_cons, List.map_nil, List.flatMap_nil, List.append_nil,
    List.mem_cons, List.not_mem_nil, or_false] at ha
  rcases ha with rfl | rfl
  · intro i hi; cases hi
  · intro i hi
    cases List.mem_singleton.1 hi
    rfl

example : ItemSays lang sense note derived := C72 note valid derived derived_eq

example : [derived.inline, derived.withFunction, derived.container.common.deprecated] = [true, false, true] ∧
    derived.schemaId = "m::Note" := by
  decide +kernel

theorem no_transform : ∀ a ∈ attrLists note, has ["transform"] (schemarsOf a ++ effective a) = false := by
  intro a ha
  simp only [attrLists, note, srcFields, variantList, List.map_cons, List.map_nil, List.flatMap_nil, List.append_nil,
    List.mem_cons, List.not_mem_nil, or_false] at ha
  rw [← serdeItems_process]
  rcases ha with rfl | rfl <;> decide +kernel

def types : Unit → TypeDef Unit := fun _ =>
  { schemaName := "T", schemaId := "T", inlineSchema := false, body := containerProg An.info derived.container }

theorem typed {f : Field Unit} (hf : derived.container.data = .struct (.newtype f) ∨
    derived.container.transparent = some f) : Typed f.common := by
  have h1 : (match derived.container.data with
    | .struct (.newtype f) => f.common.transforms.isEmpty
    | _ => false) = true := by decide +kernel
  have h2 : derived.container.transparent.isNone = true := by decide +kernel
  rcases hf with hf | hf
  · rw [hf] at h1
    exact typed_nil (List.isEmpty_iff.1 h1)
  · rw [hf] at h2
    cases h2

theorem typed_types : TypedFamily types :=
  fun _ _ _ hA h => schema_container (I := An.info) hA (fun _ => typed) (typed_nil (no_transforms
    (C72 note valid derived derived_eq).common (no_transform _ (List.mem_cons_self ..)))) h

theorem note_extensions : (schemarsOf note.attrs ++ effective note.attrs).flatMap extensionsOf = [] := by
  rw [← serdeItems_process]; decide +kernel

/-- The title, and the description from the doc comment. -/
example {n : Nat} {g : Gen Unit} {r : Json} (h : run types n () (Gen.new Settings.draft2020) = some (r, g)) :
    Schema.get r "title" = some (.str "A note") ∧ Schema.get r "description" = some (.str "About notes.") ∧
    Schema.get r "deprecated" = some (.bool true) := by
  have R := fun k v => C72_run concats valid derived_eq no_transform typed_types (I := An.info) (t := ()) rfl
    (Inv.new _) h (k := k) (v := v)
  have hx : ∀ k, ∀ e ∈ (schemarsOf note.attrs ++ effective note.attrs).flatMap extensionsOf, e.1 ≠ k := by
    intro k e he
    rw [note_extensions] at he
    cases he
  refine ⟨R _ _ ?_, R _ _ ?_, R _ _ (.deprecated (hx _) ?_)⟩
  · refine .text (M := sense) (x := .str "A note") (.inl rfl) (hx _) ?_ (by decide)
    rw [← serdeItems_process]
    exact ⟨_, rfl, rfl, rfl⟩
  · refine .docDescription (M := sense) (lines := [" About notes."]) (t := []) (d := "About notes.".toList) (hx _) ?_
      rfl (C53_iff.1 (by decide +kernel)) (by decide)
    rw [← serdeItems_process]
    decide +kernel
  · exact List.mem_cons_of_mem _ (List.mem_cons_self ..)

example : (run types 5 () (Gen.new Settings.draft2020)).isSome = true := by decide +kernel

end ItemAttrsEx

end Verif
