import Verif.Lemmas.AttrMeta
import Verif.Props.DeriveAttrs

/-!
# C62, C63: the items of the attributes
-/

namespace Verif

section
variable {τ : Type}

/-! ## C62: what the items mean -/

/-- C62: if no error is reported about the attributes of a field, then each setting is what the first item with its
name says, and schemars comes before serde, validator and garde. This includes the items in `inner(…)`, to every depth.
The hypothesis excludes `#[validate(!email)]`, which validator rejects. -/
theorem C62_field (ps : Parsers τ) (schemars serde validate garde : List (MetaItem τ))
    (hval : ∀ i ∈ validate, i.negated = false) (h : (fieldMeta ps schemars serde validate garde).2 = []) :
    Spec.FieldReads ps schemars serde validate garde (fieldMeta ps schemars serde validate garde).1 :=
  field_reads ps schemars serde validate garde hval h

/-- C62 for variants. -/
theorem C62_variant (ps : Parsers τ) (schemars serde : List (MetaItem τ))
    (h : (variantMeta ps schemars serde).2 = []) :
    Spec.VariantReads ps schemars serde (variantMeta ps schemars serde).1 :=
  variant_reads ps schemars serde h

/-- C62 for containers. -/
theorem C62_container (ps : Parsers τ) (isEnum : Bool) (schemars serde : List (MetaItem τ))
    (h : (containerMeta ps isEnum schemars serde).2 = []) :
    Spec.ContainerReads ps isEnum schemars serde (containerMeta ps isEnum schemars serde).1 :=
  container_reads ps isEnum schemars serde h

/-- C62: the items of a schemars attribute of a field are accepted exactly when each of them is well formed and nothing
is set twice. Keywords of serde are for serde to check. Items with `!` are considered in C63. -/
theorem C62_field_errors (ps : Parsers τ) (schemars : List (MetaItem τ))
    (hpos : ∀ i ∈ schemars, Spec.Positive i ∨ Spec.isNamed Spec.serdeWords i = true) :
    (fieldMeta ps schemars [] [] []).2 = [] ↔
      (∀ i ∈ schemars, Spec.FieldItemOk ps i) ∧ (schemars.flatMap Spec.fieldSettings).Nodup :=
  field_strict ps schemars hpos

/-- C62 for variants: which items are accepted, also with `!`. -/
theorem C62_variant_errors (ps : Parsers τ) (schemars : List (MetaItem τ)) :
    (variantMeta ps schemars []).2 = [] ↔
      (∀ i ∈ schemars, Spec.VariantItemOk ps i) ∧ (schemars.flatMap Spec.variantSettings).Nodup :=
  variant_strict ps schemars

/-- C62 for containers: which items are accepted. -/
theorem C62_container_errors (ps : Parsers τ) (isEnum : Bool) (schemars : List (MetaItem τ))
    (hpos : ∀ i ∈ schemars, i.negated = false ∨
      Spec.isNamed Spec.serdeWords i = true ∧ Spec.isNamed ["rename"] i = false) :
    (containerMeta ps isEnum schemars []).2 = [] ↔
      (∀ i ∈ schemars, Spec.ContainerItemOk ps isEnum i) ∧ (schemars.flatMap Spec.containerSettings).Nodup :=
  container_strict ps isEnum schemars hpos

/-- Whether the items of a field are accepted does not depend on their order. -/
theorem C62_field_order (ps : Parsers τ) (l m : List (MetaItem τ)) (hp : l.Perm m)
    (hpos : ∀ i ∈ l, Spec.Positive i ∨ Spec.isNamed Spec.serdeWords i = true) :
    (fieldMeta ps l [] [] []).2 = [] ↔ (fieldMeta ps m [] [] []).2 = [] := by
  rw [field_strict ps l hpos, field_strict ps m fun i hi => hpos i (hp.mem_iff.2 hi), (hp.flatMap_right _).nodup_iff]
  simp only [hp.mem_iff]

/-- Whether the items of a container are accepted does not depend on their order. -/
theorem C62_container_order (ps : Parsers τ) (isEnum : Bool) (l m : List (MetaItem τ)) (hp : l.Perm m)
    (hpos : ∀ i ∈ l, i.negated = false ∨
      Spec.isNamed Spec.serdeWords i = true ∧ Spec.isNamed ["rename"] i = false) :
    (containerMeta ps isEnum l []).2 = [] ↔ (containerMeta ps isEnum m []).2 = [] := by
  rw [container_strict ps isEnum l hpos, container_strict ps isEnum m fun i hi => hpos i (hp.mem_iff.2 hi),
    (hp.flatMap_right _).nodup_iff]
  simp only [hp.mem_iff]

/-! ### Doc comments -/

theorem docLines_eq (attrs : List (Attr (MetaBody τ) (OtherAttr τ))) : docLines attrs = Spec.docsOf attrs := by
  induction attrs with
  | nil => rfl
  | cons a r ih =>
    cases a with
    | other o => cases o <;> simp [docLines, Spec.docsOf, ih]
    | _ => simp [docLines, Spec.docsOf, ih]

theorem docLine_str (s : String) : (docLine (.str s) : MetaExpr τ) = .str (Spec.docText s) := by
  unfold docLine Spec.docText
  cases h : s.toList with
  | nil => simp only [h]; rfl
  | cons c r =>
    simp only [h]
    by_cases hc : c = ' '
    · subst hc; rfl
    · rw [if_neg (by simpa using hc)]
      split
      · rename_i heq; exact absurd (List.cons.inj heq).1 hc
      · rfl

theorem intercalate_cons_text (x : String) (l : List String) :
    String.intercalate "\n" (x :: l) = x ++ l.foldr (fun y r => "\n" ++ y ++ r) "" := by
  induction l generalizing x with
  | nil => simp
  | cons y l ih =>
    rw [String.intercalate_cons_cons, ih y]
    simp [String.append_assoc]

theorem validateItems_eq (attrs : List (Attr (MetaBody τ) (OtherAttr τ))) : validateItems attrs = Spec.validateOf attrs := by
  induction attrs with
  | nil => rfl
  | cons a l ih =>
    unfold Spec.validateOf at ih ⊢
    rw [List.flatMap_cons, ← ih]
    match a with
    | .serde _ | .schemars _ | .other (.validate none) | .other (.validate (some _)) | .other (.garde _)
    | .other (.doc _) | .other .deprecated | .other .other => rfl

theorem gardeItems_eq (attrs : List (Attr (MetaBody τ) (OtherAttr τ))) : gardeItems attrs = Spec.gardeOf attrs := by
  induction attrs with
  | nil => rfl
  | cons a l ih =>
    unfold Spec.gardeOf at ih ⊢
    rw [List.flatMap_cons, ← ih]
    match a with
    | .serde _ | .schemars _ | .other (.garde none) | .other (.garde (some _)) | .other (.validate _)
    | .other (.doc _) | .other .deprecated | .other .other => rfl

/-- C62: the documentation is the lines of the doc comments, each without one space at its start, joined by line
breaks. There is none if there are no doc comments. -/
theorem C62_doc (attrs : List (Attr (MetaBody τ) (OtherAttr τ))) (lines : List String)
    (h : Spec.docsOf attrs = lines.map .str) :
    (getDoc attrs).map Spec.concatText =
      if lines = [] then none else some (some (String.intercalate "\n" (lines.map Spec.docText))) := by
  unfold getDoc
  rw [docLines_eq, h]
  cases lines with
  | nil => rfl
  | cons x l =>
    simp only [List.map_cons, Option.map_some, docLine_str]
    rw [if_neg (by simp)]
    congr 1
    have : ∀ l : List String, Spec.concatText (τ := τ) ((l.map MetaExpr.str).flatMap fun y => [.str "\n", docLine y]) =
        some ((l.map Spec.docText).foldr (fun y r => "\n" ++ y ++ r) "") := by
      intro l
      induction l with
      | nil => rfl
      | cons y l ih =>
        simp only [List.map_cons, List.flatMap_cons, docLine_str, List.cons_append, List.nil_append, Spec.concatText, ih,
          Option.map_some, List.foldr_cons, String.append_assoc]
    rw [intercalate_cons_text]
    simp only [Spec.concatText, this, Option.map_some]

/-! ## C63: unsetting attributes of serde -/

/-- The attribute without the serde items with this name, and without the schemars items that unset it. -/
def Spec.withoutKeyword (k : String) :
    Attr (MetaBody τ) (OtherAttr τ) → Attr (MetaBody τ) (OtherAttr τ)
  | .serde (some l) => .serde (some (l.filter fun i => decide (i.ident ≠ some k)))
  | .schemars (some l) => .schemars (some (l.filter fun i => !(i.negated && decide (i.ident = some k))))
  | a => a

theorem runItems_skip {σ : Type} {step : MetaItem τ → σ → Option (σ × List MetaError)} {drop : MetaItem τ → Bool}
    (h : ∀ i, drop i = true → ∀ s, step i s = none) (l : List (MetaItem τ)) (s : σ) :
    (runItems step (l.filter fun i => !drop i) s).1 = (runItems step l s).1 ∧
    (runItems step (l.filter fun i => !drop i) s).2.1 = (runItems step l s).2.1 := by
  induction l generalizing s with
  | nil => exact ⟨rfl, rfl⟩
  | cons i l ih =>
    cases hd : drop i with
    | true =>
      rw [List.filter_cons_of_neg (by simp [hd]), runItems_none (h i hd s)]
      exact ih s
    | false =>
      rw [List.filter_cons_of_pos (by simp [hd])]
      cases hs : step i s with
      | none => rw [runItems_none hs, runItems_none hs]; exact ih s
      | some r =>
        obtain ⟨s1, e1⟩ := r
        rw [runItems_some hs, runItems_some hs]
        simp only [(ih s1).1, (ih s1).2]
        exact ⟨trivial, trivial⟩

theorem skip_of {σ : Type} {step : MetaItem τ → σ → Option (σ × List MetaError)} {names : List String}
    (h : Handles step (Spec.isNamed names)) {drop : MetaItem τ → Bool}
    (hd : ∀ i, drop i = true → Spec.isNamed names i = false) : ∀ i, drop i = true → ∀ s, step i s = none := by
  intro i hi s
  have := h i s
  rw [hd i hi] at this
  exact Option.not_isSome_iff_eq_none.1 (by simp [this])

theorem filter_comm (l : List (MetaItem τ)) (p q : MetaItem τ → Bool) :
    (l.filter p).filter q = (l.filter q).filter p := by
  rw [List.filter_filter, List.filter_filter]
  congr 1
  funext i
  exact Bool.and_comm _ _

theorem unknown_skip {drop : MetaItem τ → Bool} (hd : ∀ i, drop i = true → Spec.isNamed Spec.serdeWords i = true)
    (l : List (MetaItem τ)) :
    unknownErrors .schemars (l.filter fun i => !drop i) = unknownErrors .schemars l := by
  unfold unknownErrors
  rw [if_pos rfl, if_pos rfl, filter_comm, List.filter_eq_self.2]
  intro i hi
  have h1 := (List.mem_filter.1 hi).2
  cases h : drop i with
  | false => rfl
  | true =>
    have := hd i h
    rw [serdeWords_eq] at h1
    unfold Spec.isNamed at this
    rw [this] at h1
    cases h1

/-- Items of schemars attributes that are keywords of serde do not matter for the other attributes of a field. -/
theorem C63_field_ignored (ps : Parsers τ) (sch ser val gar : List (MetaItem τ)) (drop : MetaItem τ → Bool)
    (hd : ∀ i, drop i = true → Spec.isNamed Spec.serdeWords i = true) :
    fieldMeta ps (sch.filter fun i => !drop i) ser val gar = fieldMeta ps sch ser val gar := by
  have hn : ∀ names : List String, (∀ n ∈ Spec.serdeWords, names.contains n = false) →
      ∀ i, drop i = true → Spec.isNamed names i = false := fun names h i hi => isNamed_disjoint h (hd i hi)
  have c := fun l s => runItems_skip (skip_of (handles_common ps .schemars) (hn _ (by decide))) l s
  have v := fun l s => runItems_skip (skip_of (handles_validation ps .schemars) (hn _ (by decide))) l s
  have w := fun l s => runItems_skip (skip_of (handles_with ps .schemars) (hn _ (by decide))) l s
  rw [fieldMeta_eq, fieldMeta_eq]
  simp only [filter_comm _ (fun i => !drop i), (c _ _).1, (c _ _).2, (v _ _).1, (v _ _).2, (w _ _).1, (w _ _).2,
    unknown_skip hd]

theorem C63_variant_ignored (ps : Parsers τ) (sch ser : List (MetaItem τ)) (drop : MetaItem τ → Bool)
    (hd : ∀ i, drop i = true → Spec.isNamed Spec.serdeWords i = true) :
    variantMeta ps (sch.filter fun i => !drop i) ser = variantMeta ps sch ser := by
  have hn : ∀ names : List String, (∀ n ∈ Spec.serdeWords, names.contains n = false) →
      ∀ i, drop i = true → Spec.isNamed names i = false := fun names h i hi => isNamed_disjoint h (hd i hi)
  have c := fun l s => runItems_skip (skip_of (handles_common ps .schemars) (hn _ (by decide))) l s
  have w := fun l s => runItems_skip (skip_of (handles_with ps .schemars) (hn _ (by decide))) l s
  rw [variantMeta_eq, variantMeta_eq]
  simp only [filter_comm _ (fun i => !drop i), (c _ _).1, (c _ _).2, (w _ _).1, (w _ _).2, unknown_skip hd]

theorem C63_container_ignored (ps : Parsers τ) (isEnum : Bool) (sch ser : List (MetaItem τ)) (drop : MetaItem τ → Bool)
    (hd : ∀ i, drop i = true → Spec.isNamed Spec.serdeWords i = true)
    (hr : ∀ i, drop i = true → Spec.isNamed ["rename"] i = false) :
    containerMeta ps isEnum (sch.filter fun i => !drop i) ser = containerMeta ps isEnum sch ser := by
  have hn : ∀ names : List String, (∀ n ∈ Spec.serdeWords, names.contains n = false) →
      ∀ i, drop i = true → Spec.isNamed names i = false := fun names h i hi => isNamed_disjoint h (hd i hi)
  have hc : ∀ i, drop i = true → Spec.isNamed (containerNames .schemars) i = false := by
    intro i hi
    have h1 := hd i hi
    have h2 := hr i hi
    unfold Spec.isNamed at h1 h2 ⊢
    cases hid : i.ident with
    | none => rfl
    | some n =>
      rw [hid] at h1 h2
      have : ∀ k ∈ Spec.serdeWords, ["rename"].contains k = false → (containerNames .schemars).contains k = false := by
        decide
      exact this n (by simpa using h1) h2
  have c := fun l s => runItems_skip (skip_of (handles_common ps .schemars) (hn _ (by decide))) l s
  have w := fun l s => runItems_skip (skip_of (handles_container ps isEnum .schemars) hc) l s
  rw [containerMeta_eq, containerMeta_eq]
  simp only [filter_comm _ (fun i => !drop i), (c _ _).1, (c _ _).2, (w _ _).1, (w _ _).2, unknown_skip hd]

theorem kept_filter {α : Type} {P Q : AttrItem α → Prop} {f : AttrItem α → Bool} {l x : List (AttrItem α)}
    (h : Spec.Kept P l x) (h1 : ∀ i ∈ l, f i = true → (P i ↔ Q i)) (h2 : ∀ i ∈ l, f i = false → ¬ P i) :
    Spec.Kept Q (l.filter f) x := by
  induction h with
  | nil => exact .nil
  | @keep a l l' hp _ ih =>
    have ih := ih (fun i hi => h1 i (.tail _ hi)) (fun i hi => h2 i (.tail _ hi))
    cases hf : f a with
    | true => rw [List.filter_cons_of_pos hf]; exact .keep ((h1 a (.head _) hf).1 hp) ih
    | false => exact absurd hp (h2 a (.head _) hf)
  | @drop a l l' hp _ ih =>
    have ih := ih (fun i hi => h1 i (.tail _ hi)) (fun i hi => h2 i (.tail _ hi))
    cases hf : f a with
    | true => rw [List.filter_cons_of_pos hf]; exact .drop (fun hq => hp ((h1 a (.head _) hf).2 hq)) ih
    | false => rw [List.filter_cons_of_neg (by simp [hf])]; exact ih

theorem schemarsOf_without (k : String) (attrs : List (Attr (MetaBody τ) (OtherAttr τ))) :
    Spec.schemarsOf (attrs.map (Spec.withoutKeyword k)) =
      (Spec.schemarsOf attrs).filter fun i => !(i.negated && decide (i.ident = some k)) := by
  unfold Spec.schemarsOf
  induction attrs with
  | nil => rfl
  | cons a r ih =>
    rw [List.map_cons, List.flatMap_cons, List.flatMap_cons, List.filter_append, ih]
    congr 1
    cases a with
    | schemars o => cases o <;> rfl
    | serde o => cases o <;> rfl
    | other => rfl

theorem serdeOf_without (k : String) (attrs : List (Attr (MetaBody τ) (OtherAttr τ))) :
    Spec.serdeOf (attrs.map (Spec.withoutKeyword k)) =
      (Spec.serdeOf attrs).filter fun i => decide (i.ident ≠ some k) := by
  unfold Spec.serdeOf
  induction attrs with
  | nil => rfl
  | cons a r ih =>
    rw [List.map_cons, List.flatMap_cons, List.flatMap_cons, List.filter_append, ih]
    congr 1
    cases a with
    | schemars o => cases o <;> rfl
    | serde o => cases o <;> rfl
    | other => rfl

/-- Unsetting a keyword has the effect of removing it from the serde attributes. -/
theorem effective_without {k : String} {attrs : List (Attr (MetaBody τ) (OtherAttr τ))} {eff : List (MetaItem τ)}
    (hk : ∃ i ∈ Spec.schemarsOf attrs, Spec.Unsets i k)
    (h : Spec.Effective attrs eff) : Spec.Effective (attrs.map (Spec.withoutKeyword k)) eff := by
  obtain ⟨a, b, rfl, h1, h2⟩ := h
  have hsets : ∀ j, (∃ i ∈ Spec.schemarsOf (attrs.map (Spec.withoutKeyword k)), Spec.Sets i j) ↔
      ∃ i ∈ Spec.schemarsOf attrs, Spec.Sets i j := by
    intro j
    rw [schemarsOf_without]
    constructor
    · rintro ⟨i, hi, hs⟩
      exact ⟨i, List.mem_of_mem_filter hi, hs⟩
    · rintro ⟨i, hi, hs⟩
      exact ⟨i, List.mem_filter.2 ⟨hi, by simp [hs.2.1]⟩, hs⟩
  have hunsets : ∀ j, j ≠ k → ((∃ i ∈ Spec.schemarsOf (attrs.map (Spec.withoutKeyword k)), Spec.Unsets i j) ↔
      ∃ i ∈ Spec.schemarsOf attrs, Spec.Unsets i j) := by
    intro j hj
    rw [schemarsOf_without]
    constructor
    · rintro ⟨i, hi, hs⟩
      exact ⟨i, List.mem_of_mem_filter hi, hs⟩
    · rintro ⟨i, hi, hs⟩
      exact ⟨i, List.mem_filter.2 ⟨hi, by simp [hs.1, hj]⟩, hs⟩
  refine ⟨a, b, rfl, ?_, ?_⟩
  · rw [schemarsOf_without]
    refine kept_filter h1 (fun i _ _ => Iff.rfl) ?_
    rintro i _ hf ⟨j, hs⟩
    simp [hs.2.1] at hf
  · rw [serdeOf_without]
    refine kept_filter h2 ?_ ?_
    · intro i _ hf
      unfold Spec.Survives Spec.Overridden
      apply exists_congr
      intro j
      apply and_congr_right
      intro hid
      have hj : j ≠ k := by
        rintro rfl
        simp [hid] at hf
      rw [hsets j, hunsets j hj, hsets "skip"]
    · rintro i _ hf ⟨j, hid, _, ho⟩
      have hj : j = k := by
        simp [hid] at hf
        exact hf
      subst hj
      exact ho (.inr (.inl hk))

theorem processAttrs_parts (attrs : List (Attr (MetaBody τ) (OtherAttr τ))) (eff : List (MetaItem τ))
    (he : Spec.Effective attrs eff) :
    (schemarsItems (processAttrs attrs).1).1 = Spec.schemarsOf attrs ∧ serdeItems (processAttrs attrs).1 = eff ∧
    validateItems (processAttrs attrs).1 = validateItems attrs ∧ gardeItems (processAttrs attrs).1 = gardeItems attrs := by
  obtain ⟨eff', he', h⟩ := C54 attrs
  obtain rfl := C54_unique he he'
  rw [h]
  have hser : ∀ l : List (Attr (MetaBody τ) (OtherAttr τ)), serdeItems (l.filter fun a => !a.isSerde) = [] := by
    intro l
    induction l with
    | nil => rfl
    | cons a l ih =>
      cases a with
      | serde => rw [List.filter_cons_of_neg (by exact Bool.false_ne_true)]; exact ih
      | _ => rw [List.filter_cons_of_pos (by rfl)]; simp only [serdeItems, ih]
  have happ : ∀ l m : List (Attr (MetaBody τ) (OtherAttr τ)), serdeItems (l ++ m) = serdeItems l ++ serdeItems m := by
    intro l m; simp [serdeItems_eq, Spec.serdeOf]
  have hval : ∀ l : List (Attr (MetaBody τ) (OtherAttr τ)),
      validateItems ((l.filter fun a => !a.isSerde) ++ if eff = [] then [] else [.serde (some eff)]) =
        validateItems l := by
    intro l
    induction l with
    | nil => simp only [List.filter_nil, List.nil_append]; split <;> rfl
    | cons a l ih =>
      cases a with
      | serde => rw [List.filter_cons_of_neg (by exact Bool.false_ne_true), ih]; simp only [validateItems]
      | schemars => rw [List.filter_cons_of_pos (by rfl), List.cons_append]; simp only [ih, validateItems]
      | other o =>
        rw [List.filter_cons_of_pos (by rfl), List.cons_append]
        cases o with
        | validate m => cases m <;> simp only [validateItems, ih]
        | _ => simp only [validateItems, ih]
  have hgar : ∀ l : List (Attr (MetaBody τ) (OtherAttr τ)),
      gardeItems ((l.filter fun a => !a.isSerde) ++ if eff = [] then [] else [.serde (some eff)]) =
        gardeItems l := by
    intro l
    induction l with
    | nil => simp only [List.filter_nil, List.nil_append]; split <;> rfl
    | cons a l ih =>
      cases a with
      | serde => rw [List.filter_cons_of_neg (by exact Bool.false_ne_true), ih]; simp only [gardeItems]
      | schemars => rw [List.filter_cons_of_pos (by rfl), List.cons_append]; simp only [ih, gardeItems]
      | other o =>
        rw [List.filter_cons_of_pos (by rfl), List.cons_append]
        cases o with
        | garde m => cases m <;> simp only [gardeItems, ih]
        | _ => simp only [gardeItems, ih]
  refine ⟨?_, ?_, hval attrs, hgar attrs⟩
  · rw [schemarsItems_fst]
    have : ∀ l m : List (Attr (MetaBody τ) (OtherAttr τ)),
        Spec.schemarsOf (l ++ m) = Spec.schemarsOf l ++ Spec.schemarsOf m := by
      intro l m; simp [Spec.schemarsOf]
    rw [this, schemarsOf_others]
    split <;> simp [Spec.schemarsOf]
  · rw [happ, hser]
    split
    · rename_i h; simp [serdeItems, h]
    · simp [serdeItems]

theorem validate_without (k : String) (attrs : List (Attr (MetaBody τ) (OtherAttr τ))) :
    validateItems (attrs.map (Spec.withoutKeyword k)) = validateItems attrs ∧
    gardeItems (attrs.map (Spec.withoutKeyword k)) = gardeItems attrs := by
  induction attrs with
  | nil => exact ⟨rfl, rfl⟩
  | cons a r ih =>
    obtain ⟨ih1, ih2⟩ := ih
    cases a with
    | serde o => cases o <;> simp [Spec.withoutKeyword, validateItems, gardeItems, ih1, ih2]
    | schemars o => cases o <;> simp [Spec.withoutKeyword, validateItems, gardeItems, ih1, ih2]
    | other o =>
      cases o with
      | validate m => cases m <;> simp [Spec.withoutKeyword, validateItems, gardeItems, ih1, ih2]
      | garde m => cases m <;> simp [Spec.withoutKeyword, validateItems, gardeItems, ih1, ih2]
      | _ => simp [Spec.withoutKeyword, validateItems, gardeItems, ih1, ih2]

theorem errors_without {k : String} {attrs : List (Attr (MetaBody τ) (OtherAttr τ))}
    (h : (processAttrs attrs).2 = []) : (processAttrs (attrs.map (Spec.withoutKeyword k))).2 = [] := by
  rw [C54_errors] at h ⊢
  obtain ⟨h1, h2, h3⟩ := h
  refine ⟨?_, ?_, ?_⟩
  · intro hm
    obtain ⟨a, ha, he⟩ := List.mem_map.1 hm
    cases a with
    | serde o => cases o <;> cases he
    | other o => cases he
    | schemars o =>
      cases o with
      | none => exact h1 ha
      | some l => cases he
  · rw [schemarsOf_without]
    unfold unsetKeywords at h2 ⊢
    exact h2.sublist (List.Sublist.filterMap _ List.filter_sublist)
  · rintro j ⟨i, hi, hu⟩
    rw [schemarsOf_without] at hi
    obtain ⟨hi, hf⟩ := List.mem_filter.1 hi
    have hj : j ≠ k := by
      rintro rfl
      simp [hu.1, hu.2] at hf
    obtain ⟨h4, i', hi', hid⟩ := h3 j ⟨i, hi, hu⟩
    constructor
    · rintro ⟨i2, hi2, hs⟩
      rw [schemarsOf_without] at hi2
      exact h4 ⟨i2, List.mem_of_mem_filter hi2, hs⟩
    · rw [serdeOf_without]
      exact ⟨i', List.mem_filter.2 ⟨hi', by simp [hid, hj]⟩, hid⟩

theorem unset_named {k : String} (hk : k ∈ Spec.serdeWords) (i : MetaItem τ)
    (h : (i.negated && decide (i.ident = some k)) = true) : Spec.isNamed Spec.serdeWords i = true := by
  simp only [Bool.and_eq_true, decide_eq_true_eq] at h
  rw [isNamed_of h.2]
  simpa using hk

/-- C63: `#[schemars(!k)]` on a field has the same effect as removing `k` from the serde attributes, for every keyword
of serde that schemars passes on. -/
theorem C63_field (ps : Parsers τ) (k : String) (hk : k ∈ Spec.serdeWords)
    (attrs : List (Attr (MetaBody τ) (OtherAttr τ))) (hu : ∃ i ∈ Spec.schemarsOf attrs, Spec.Unsets i k)
    (he : (processAttrs attrs).2 = []) :
    deriveField ps attrs = deriveField ps (attrs.map (Spec.withoutKeyword k)) := by
  obtain ⟨eff, heff, _⟩ := C54 attrs
  obtain ⟨a1, a2, a3, a4⟩ := processAttrs_parts attrs eff heff
  obtain ⟨b1, b2, b3, b4⟩ := processAttrs_parts _ eff (effective_without hu heff)
  unfold deriveField
  simp only [he, errors_without he, a1, a2, a3, a4, b1, b2, b3, b4, schemarsOf_without, (validate_without k attrs).1,
    (validate_without k attrs).2]
  rw [C63_field_ignored ps _ _ _ _ (fun i => i.negated && decide (i.ident = some k)) (unset_named hk)]

/-- C63 for variants. -/
theorem C63_variant (ps : Parsers τ) (k : String) (hk : k ∈ Spec.serdeWords)
    (attrs : List (Attr (MetaBody τ) (OtherAttr τ))) (hu : ∃ i ∈ Spec.schemarsOf attrs, Spec.Unsets i k)
    (he : (processAttrs attrs).2 = []) :
    deriveVariant ps attrs = deriveVariant ps (attrs.map (Spec.withoutKeyword k)) := by
  obtain ⟨eff, heff, _⟩ := C54 attrs
  obtain ⟨a1, a2, _⟩ := processAttrs_parts attrs eff heff
  obtain ⟨b1, b2, _⟩ := processAttrs_parts _ eff (effective_without hu heff)
  unfold deriveVariant
  simp only [he, errors_without he, a1, a2, b1, b2, schemarsOf_without]
  rw [C63_variant_ignored ps _ _ (fun i => i.negated && decide (i.ident = some k)) (unset_named hk)]

/-- C63 for containers, except for `rename`. -/
theorem C63_container (ps : Parsers τ) (isEnum : Bool) (k : String) (hk : k ∈ Spec.serdeWords) (hr : k ≠ "rename")
    (attrs : List (Attr (MetaBody τ) (OtherAttr τ))) (hu : ∃ i ∈ Spec.schemarsOf attrs, Spec.Unsets i k)
    (he : (processAttrs attrs).2 = []) :
    deriveContainer ps isEnum attrs = deriveContainer ps isEnum (attrs.map (Spec.withoutKeyword k)) := by
  obtain ⟨eff, heff, _⟩ := C54 attrs
  obtain ⟨a1, a2, _⟩ := processAttrs_parts attrs eff heff
  obtain ⟨b1, b2, _⟩ := processAttrs_parts _ eff (effective_without hu heff)
  unfold deriveContainer
  simp only [he, errors_without he, a1, a2, b1, b2, schemarsOf_without]
  rw [C63_container_ignored ps isEnum _ _ (fun i => i.negated && decide (i.ident = some k)) (unset_named hk)]
  intro i hi
  simp only [Bool.and_eq_true, decide_eq_true_eq] at hi
  rw [isNamed_of hi.2]
  simpa using hr

/-! ### What cannot be unset -/

theorem runItems_error {σ : Type} {step : MetaItem τ → σ → Option (σ × List MetaError)} {i : MetaItem τ}
    (h : ∀ s, ∃ s' e, step i s = some (s', e) ∧ e ≠ []) {l : List (MetaItem τ)} (hi : i ∈ l) (s : σ) :
    (runItems step l s).2.1 ≠ [] := by
  induction l generalizing s with
  | nil => cases hi
  | cons j l ih =>
    rcases List.mem_cons.1 hi with rfl | hi
    · obtain ⟨s', e, hs, he⟩ := h s
      rw [runItems_some hs]
      intro h0
      exact he (List.append_eq_nil_iff.1 h0).1
    · cases hs : step j s with
      | none => rw [runItems_none hs]; exact ih hi s
      | some r =>
        obtain ⟨s1, e1⟩ := r
        rw [runItems_some hs]
        intro h0
        exact ih hi s1 (List.append_eq_nil_iff.1 h0).2

/-- `!with` and `!schema_with` are always reported. -/
theorem with_unset_error (ps : Parsers τ) (k : String) (hk : k = "with" ∨ k = "schema_with") (i : MetaItem τ)
    (hi : Spec.Unsets i k) (w : Option (WithMeta τ)) :
    ∃ s' e, handled (withMeta ps .schemars) i w = some (s', e) ∧ e ≠ [] := by
  obtain ⟨h1, h2⟩ := hi
  unfold handled
  rw [h1]
  rcases hk with rfl | rfl
  · refine ⟨_, _, rfl, ?_⟩
    rcases w with _ | _ | _ <;>
      simp [parseString, requireString, h2, reportIf]
  · refine ⟨_, _, rfl, ?_⟩
    rcases w with _ | _ | _ <;>
      simp [parseString, requireString, h2, reportIf]

/-- The keywords for which `!` is always an error, on fields and variants. -/
theorem unset_unknown {k : String} (hk : k ∉ schemarsKeywords) {i : MetaItem τ} (hi : i.ident = some k)
    {l : List (MetaItem τ)} (hl : i ∈ l) : unknownErrors .schemars l ≠ [] := by
  unfold unknownErrors
  rw [if_pos rfl]
  intro h
  have : i ∈ l.filter fun i => !(i.ident.any fun k => schemarsKeywords.contains k) :=
    List.mem_filter.2 ⟨hl, by simpa [hi] using hk⟩
  rw [List.map_eq_nil_iff.1 h] at this
  cases this

theorem not_named_of {names : List String} {i : MetaItem τ} {k : String} (h : i.ident = some k)
    (hk : names.contains k = false) : (!Spec.isNamed names i) = true := by
  rw [isNamed_of h, hk]; rfl

/-- `!with` and `!serialize_with` cannot be used on a field, whatever else there is. -/
theorem C63_field_with (ps : Parsers τ) (k : String) (hk : k = "with" ∨ k = "serialize_with")
    (attrs : List (Attr (MetaBody τ) (OtherAttr τ))) (hu : ∃ i ∈ Spec.schemarsOf attrs, Spec.Unsets i k) :
    ∃ e, deriveField ps attrs = .error e := by
  obtain ⟨i, hi, hu⟩ := hu
  obtain ⟨eff, heff, _⟩ := C54 attrs
  obtain ⟨a1, a2, a3, a4⟩ := processAttrs_parts attrs eff heff
  unfold deriveField
  simp only [a1, a2, a3, a4]
  split
  · exact ⟨_, rfl⟩
  · rw [if_pos]
    · exact ⟨_, rfl⟩
    · rw [fieldMeta_eq]
      intro h
      simp only [List.append_eq_nil_iff] at h
      rcases hk with rfl | rfl
      · refine runItems_error (fun s => with_unset_error ps "with" (.inl rfl) i hu s) ?_ none h.1.1.2
        exact List.mem_filter.2 ⟨List.mem_filter.2 ⟨hi, not_named_of hu.1 (by decide)⟩,
          not_named_of hu.1 (by decide)⟩
      · refine unset_unknown (k := "serialize_with") (by decide) hu.1 ?_ h.2
        exact List.mem_filter.2 ⟨List.mem_filter.2 ⟨List.mem_filter.2 ⟨hi, not_named_of hu.1 (by decide)⟩,
          not_named_of hu.1 (by decide)⟩, not_named_of hu.1 (by decide)⟩

/-- `!with` and `!serialize_with` cannot be used on a variant. -/
theorem C63_variant_with (ps : Parsers τ) (k : String) (hk : k = "with" ∨ k = "serialize_with")
    (attrs : List (Attr (MetaBody τ) (OtherAttr τ))) (hu : ∃ i ∈ Spec.schemarsOf attrs, Spec.Unsets i k) :
    ∃ e, deriveVariant ps attrs = .error e := by
  obtain ⟨i, hi, hu⟩ := hu
  obtain ⟨eff, heff, _⟩ := C54 attrs
  obtain ⟨a1, a2, _⟩ := processAttrs_parts attrs eff heff
  unfold deriveVariant
  simp only [a1, a2]
  split
  · exact ⟨_, rfl⟩
  · rw [if_pos]
    · exact ⟨_, rfl⟩
    · rw [variantMeta_eq]
      intro h
      simp only [List.append_eq_nil_iff] at h
      rcases hk with rfl | rfl
      · refine runItems_error (fun s => with_unset_error ps "with" (.inl rfl) i hu s) ?_ none h.1.1.2
        exact List.mem_filter.2 ⟨hi, not_named_of hu.1 (by decide)⟩
      · refine unset_unknown (k := "serialize_with") (by decide) hu.1 ?_ h.2
        exact List.mem_filter.2 ⟨List.mem_filter.2 ⟨hi, not_named_of hu.1 (by decide)⟩,
          not_named_of hu.1 (by decide)⟩

theorem container_unset_error (ps : Parsers τ) (isEnum : Bool) (k : String) (hk : k = "with" ∨ k = "rename")
    (i : MetaItem τ) (hi : Spec.Unsets i k) (a : ContainerSlots τ) :
    ∃ s' e, handled (containerSlotMeta ps isEnum .schemars) i a = some (s', e) ∧ e ≠ [] := by
  obtain ⟨h1, h2⟩ := hi
  unfold handled
  rw [h1]
  rcases hk with rfl | rfl
  · refine ⟨_, _, rfl, ?_⟩
    rcases a.withAttr with _ | _ | _ <;>
      simp [parseString, requireString, h2, reportIf]
  · simp only [Option.bind_some, containerSlotMeta, if_neg (show ¬ "rename" = "crate" by decide), true_and,
      if_true]
    cases h : a.renameFormat with
    | none => exact ⟨_, _, rfl, by simp [requireString, h2]⟩
    | some x => exact ⟨_, _, rfl, by simp [reportIf]⟩

/-- `!with` and `!rename` cannot be used on a container. -/
theorem C63_container_with (ps : Parsers τ) (isEnum : Bool) (k : String)
    (hk : k = "with" ∨ k = "serialize_with" ∨ k = "rename")
    (attrs : List (Attr (MetaBody τ) (OtherAttr τ))) (hu : ∃ i ∈ Spec.schemarsOf attrs, Spec.Unsets i k) :
    ∃ e, deriveContainer ps isEnum attrs = .error e := by
  obtain ⟨i, hi, hu⟩ := hu
  obtain ⟨eff, heff, _⟩ := C54 attrs
  obtain ⟨a1, a2, _⟩ := processAttrs_parts attrs eff heff
  unfold deriveContainer
  simp only [a1, a2]
  split
  · exact ⟨_, rfl⟩
  · rw [if_pos]
    · exact ⟨_, rfl⟩
    · rw [containerMeta_eq]
      intro h
      simp only [List.append_eq_nil_iff] at h
      rcases hk with rfl | rfl | rfl
      · refine runItems_error (fun s => container_unset_error ps isEnum _ (.inl rfl) i hu s) ?_ _ h.1.1.2
        exact List.mem_filter.2 ⟨hi, not_named_of hu.1 (by decide)⟩
      · refine unset_unknown (k := "serialize_with") (by decide) hu.1 ?_ h.2
        exact List.mem_filter.2 ⟨List.mem_filter.2 ⟨hi, not_named_of hu.1 (by decide)⟩,
          not_named_of hu.1 (by decide)⟩
      · refine runItems_error (fun s => container_unset_error ps isEnum _ (.inr rfl) i hu s) ?_ _ h.1.1.2
        exact List.mem_filter.2 ⟨hi, not_named_of hu.1 (by decide)⟩

/-- C62: a second format is an error that names the first one, as it is written in attributes; the first one stays. -/
theorem C62_exclusive (ps : Parsers τ) {n n' : String} {f f' : FormatMeta} (h : (n, f) ∈ Spec.formats) (h' : (n', f') ∈ Spec.formats)
    (hne : n ≠ n') (item : MetaItem τ) (v : ValidationSlots τ) (hv : v.format = some f) :
    slotMeta ps .schemars n' item v = some (v, [.exclusive item.ident n]) := by
  unfold slotMeta
  rw [(fromAttrStr_iff n' f').2 h']
  simp only [handleFormat, hv]
  simp only [Spec.formats, List.mem_cons, List.not_mem_nil, or_false, Prod.mk.injEq] at h h'
  rcases h with ⟨rfl, rfl⟩ | ⟨rfl, rfl⟩ | ⟨rfl, rfl⟩ | ⟨rfl, rfl⟩ | ⟨rfl, rfl⟩ <;>
    rcases h' with ⟨rfl, rfl⟩ | ⟨rfl, rfl⟩ | ⟨rfl, rfl⟩ | ⟨rfl, rfl⟩ | ⟨rfl, rfl⟩ <;>
    first
      | exact absurd rfl hne
      | rfl

/-- C62: only one of `pattern`, `regex` and `contains` may be used; a second one is an error that names the first. -/
theorem C62_exclusive_patterns (ps : Parsers τ) {n n' : String} (item : MetaItem τ) (v : ValidationSlots τ)
    (h : (n, v.pattern.isSome, v.regex.isSome, v.contains.isSome) ∈
      [("pattern", true, false, false), ("regex", false, true, false), ("contains", false, false, true)])
    (h' : n' ∈ ["pattern", "regex", "contains"]) (hne : n ≠ n') :
    slotMeta ps .schemars n' item v = some (v, [.exclusive item.ident n]) := by
  simp only [List.mem_cons, List.not_mem_nil, or_false, Prod.mk.injEq] at h h'
  rcases h with ⟨rfl, h1, h2, h3⟩ | ⟨rfl, h1, h2, h3⟩ | ⟨rfl, h1, h2, h3⟩ <;> rcases h' with rfl | rfl | rfl <;>
    first
      | exact absurd rfl hne
      | simp [slotMeta, FormatMeta.fromAttrStr, h1, h2, h3, reportIf]

end

/-! ## Examples -/

namespace AttrMetaEx

/-- Every text parses as a type, a path and an expression, except for the empty one. -/
def parsers : Parsers String where
  type s := if s = "" then none else some s
  path s := if s = "" then none else some s
  expr s := if s = "" then none else some (.other s)

def flag (name : String) : MetaItem String := ⟨some name, false, .path⟩
def unset (name : String) : MetaItem String := ⟨some name, true, .path⟩
def value (name text : String) : MetaItem String := ⟨some name, false, .nameValue (.other text)⟩
def text (name text : String) : MetaItem String := ⟨some name, false, .nameValue (.str text)⟩
def args (name : String) (l : List (MetaItem String)) : MetaItem String := ⟨some name, false, .list (some l) none none true⟩

/-- C62 is not vacuous: items of all kinds of attributes. -/
example : (fieldMeta parsers
    [value "title" "A", flag "email", args "length" [value "min" "1"], args "inner" [flag "url"]]
    [text "with" "T", value "title" "B"] [args "length" [value "min" "2"], args "range" [value "max" "9"]]
    [flag "required", args "inner" [flag "ip", flag "required"]]).2 = [] := by decide +kernel

example : (variantMeta parsers [value "description" "d", text "schema_with" "f"] [text "with" "T"]).2 = [] := by
  decide +kernel

example : (containerMeta parsers true
    [text "rename" "N", flag "inline", flag "_unstable_ref_variants", text "crate" "c"] [text "with" "T"]).2 = [] := by
  decide +kernel

/-- The kinds of errors about the items of a field: something is set twice, it is not well formed, or it is unknown. -/
example : (fieldMeta parsers [flag "email", flag "url"] [] [] []).2 = [.exclusive (some "url") "email"] ∧
    (fieldMeta parsers [args "inner" [flag "email"], args "inner" [flag "email"]] [] [] []).2 =
      [.duplicate (some "email")] ∧
    (fieldMeta parsers [flag "title"] [] [] []).2 = [.expectedValue .schemars (some "title")] ∧
    (fieldMeta parsers [flag "tilte"] [] [] []).2 = [.unknown (some "tilte")] ∧
    (fieldMeta parsers [text "title" "A", text "rename" "x"] [] [] []).2 = [] := by decide +kernel

/-- `C62_exclusive` is not vacuous. -/
example : slotMeta parsers .schemars "ipv4" (flag "ipv4") { format := some .ip } =
    some ({ format := some .ip }, [.exclusive (some "ipv4") "ip"]) :=
  C62_exclusive parsers (f := .ip) (f' := .ipv4) (by decide) (by decide) (by decide) _ _ rfl

/-- `C62_exclusive_patterns` is not vacuous. -/
example : slotMeta parsers .schemars "contains" (flag "contains") { pattern := some (.other "p") } =
    some ({ pattern := some (.other "p") }, [.exclusive (some "contains") "pattern"]) :=
  C62_exclusive_patterns parsers _ _ (by decide) (by decide) (by decide)

/-- The hypothesis of `C62_field_errors`. -/
example : ∀ i ∈ [flag "email", args "inner" [flag "url"], unset "default"],
    Spec.Positive i ∨ Spec.isNamed Spec.serdeWords i = true := by
  have hf : ∀ n, Spec.Positive (flag n) := fun n => .mk rfl fun l _ h => by
    obtain ⟨_, _, _, _, h⟩ := h
    cases h
  simp only [List.forall_mem_cons]
  refine ⟨.inl (hf _), .inl (.mk rfl fun l _ h => ?_), .inr (by decide), fun _ h => absurd h List.not_mem_nil⟩
  obtain ⟨_, _, _, _, h⟩ := h
  injection h with h
  injection h with h
  subst h
  simp only [List.forall_mem_cons]
  exact ⟨hf _, fun _ h => absurd h List.not_mem_nil⟩

example : getDoc (τ := String) [.other (.doc (.str " First")), .other .deprecated, .other (.doc (.str "")),
      .other (.doc (.str "  Second"))] =
    some [.str "First", .str "\n", .str "", .str "\n", .str " Second"] := by decide +kernel

/-- C63 is not vacuous: `#[serde(default, flatten)] #[schemars(!default, title = A)]`. -/
def unsetDefault : List (Attr (MetaBody String) (OtherAttr String)) :=
  [.serde (some [flag "default", flag "flatten"]), .schemars (some [unset "default", value "title" "A"])]

example : (processAttrs unsetDefault).2 = [] := by decide +kernel

example : ∃ i ∈ Spec.schemarsOf unsetDefault, Spec.Unsets i "default" :=
  ⟨unset "default", .head _, rfl, rfl⟩

/-- Without `!`, the item of serde counts. -/
example : (deriveField parsers unsetDefault).toOption.map (·.1.map (·.ident)) = some [some "flatten"] ∧
    (deriveField parsers [.serde (some [flag "default", flag "flatten"])]).toOption.map (·.1.map (·.ident)) =
      some [some "default", some "flatten"] := by decide +kernel

/-- Finding: `!with` does not make schemars ignore `#[serde(with = "…")]`, it is an error. -/
example : deriveField parsers [.serde (some [text "with" "T"]), .schemars (some [unset "with"])] |>.toOption.isNone := by
  decide +kernel

/-- Finding: `!rename` on a container is an error. -/
example : deriveContainer parsers false [.serde (some [text "rename" "T"]), .schemars (some [unset "rename"])]
    |>.toOption.isNone := by
  decide +kernel

/-- Finding: a string that is no expression is accepted as `transform`, and has no effect. -/
example : (fieldMeta parsers [text "transform" ""] [] [] []).2 = [] ∧
    (fieldMeta parsers [text "transform" ""] [] [] []).1.common.transforms = [] := by decide +kernel

/-- Finding: `inner(required)` is accepted; it sets a field that nothing reads for `inner`. -/
example : (fieldMeta parsers [args "inner" [flag "required"]] [] [] []).2 = [] ∧
    (fieldMeta parsers [args "inner" [flag "required"]] [] [] []).1.validation.inner.map (·.slots.required) =
      some true := by decide +kernel

/-- Finding: keywords of serde are accepted in `inner(…)`, and have no effect. -/
example : (fieldMeta parsers [args "inner" [text "rename" "x"]] [] [] []).2 = [] ∧
    (fieldMeta parsers [args "inner" [text "rename" "x"]] [] [] []).1.validation.inner.map (·.slots) = some {} := by
  decide +kernel

/-- Finding: `inner(!email, email)` is accepted, `inner(email, !email)` is not. This is why C62 considers items
without `!`. -/
example : (fieldMeta parsers [args "inner" [unset "email", flag "email"]] [] [] []).2 = [] ∧
    (fieldMeta parsers [args "inner" [flag "email", unset "email"]] [] [] []).2 = [.duplicate (some "email")] := by
  decide +kernel

/-- Finding: `#[validate(email(message = …))]` is accepted, `#[validate(required(message = …))]` is not. -/
example : (fieldMeta parsers [] [] [args "email" [text "message" "m"]] []).2 = [] ∧
    (fieldMeta parsers [] [] [args "required" [text "message" "m"]] []).2 =
      [.unexpectedValue .validate (some "required")] := by
  decide +kernel

end AttrMetaEx

end Verif
