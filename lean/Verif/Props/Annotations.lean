import Verif.Spec.Annotations
import Verif.Props.Enum

/-!
# C67: what attributes say is in the schema
-/

namespace Verif
open Spec

variable {τ : Type}

/-! ### The statements made from the attributes -/

/-- The value for a keyword apart from `extend`. -/
def saidPlain (a : CommonAttrs) (k : String) : Option Json :=
  if k = "title" then (a.effectiveTitle.filter (· ≠ "")).map .str
  else if k = "description" then (a.effectiveDescription.filter (· ≠ "")).map .str
  else if k = "deprecated" then (if a.deprecated then some (.bool true) else none)
  else if k = "examples" then (if a.examples.isEmpty then none else some (.arr (a.examples.filterMap id)))
  else none

/-- The value for a keyword in a list of entries, the last one first. -/
def lastOf (l : List (String × Json)) (k : String) : Option Json := (l.reverse.find? (·.1 == k)).map (·.2)

theorem lastOf_cons (e : String × Json) (l : List (String × Json)) (k : String) :
    lastOf (e :: l) k = (lastOf l k).or (if e.1 = k then some e.2 else none) := by
  unfold lastOf
  rw [List.reverse_cons, List.find?_append]
  by_cases h : e.1 = k
  · cases h' : l.reverse.find? (·.1 == k) <;> simp [h]
  · cases h' : l.reverse.find? (·.1 == k) <;> simp [h]

theorem lastOf_eq_some {l : List (String × Json)} {k : String} {v : Json} :
    lastOf l k = some v ↔ ∃ x y, l = x ++ (k, v) :: y ∧ ∀ e ∈ y, e.1 ≠ k := by
  induction l with
  | nil => simp [lastOf]
  | cons e l ih =>
    rw [lastOf_cons]
    constructor
    · intro h
      cases hl : lastOf l k with
      | some w =>
        rw [hl] at h
        obtain ⟨x, y, rfl, hy⟩ := ih.1 (hl.trans h)
        exact ⟨e :: x, y, rfl, hy⟩
      | none =>
        rw [hl, Option.none_or] at h
        by_cases he : e.1 = k
        · rw [if_pos he] at h
          cases h
          refine ⟨[], l, by rw [← he]; rfl, fun q hq hqk => ?_⟩
          unfold lastOf at hl
          rw [Option.map_eq_none_iff, List.find?_eq_none] at hl
          exact hl q (List.mem_reverse.2 hq) (by simpa using hqk)
        · rw [if_neg he] at h; cases h
    · rintro ⟨x, y, h, hy⟩
      cases x with
      | nil =>
        cases h
        have : lastOf l k = none := by
          unfold lastOf
          rw [Option.map_eq_none_iff, List.find?_eq_none]
          intro q hq
          simpa using hy q (List.mem_reverse.1 hq)
        rw [this]; simp
      | cons q x =>
        cases h
        rw [ih.2 ⟨x, y, rfl, hy⟩]; rfl

theorem lastOf_eq_none {a : CommonAttrs} {k : String} : lastOf a.extensions k = none ↔ NotExtended a k := by
  unfold lastOf NotExtended
  rw [Option.map_eq_none_iff, List.find?_eq_none]
  simp

theorem splitDoc_iff {doc : String} : ∃ t d, CommonAttrs.splitDoc doc = (t, d) ∧
    ∀ t' d', Splits doc.toList t' d' ↔ t' = t.toList ∧ d' = d.toList := by
  obtain ⟨t, d, h, hs⟩ := C53 doc.toList
  refine ⟨String.ofList t, String.ofList d, by unfold CommonAttrs.splitDoc; rw [h], fun t' d' => ?_⟩
  rw [String.toList_ofList, String.toList_ofList]
  constructor
  · intro h'; obtain ⟨rfl, rfl⟩ := hs.unique h'; exact ⟨rfl, rfl⟩
  · rintro ⟨rfl, rfl⟩; exact hs

theorem titleIs_iff {a : CommonAttrs} {t : String} : TitleIs a t ↔ a.effectiveTitle = some t := by
  unfold TitleIs CommonAttrs.effectiveTitle
  cases a.title with
  | some x => simp
  | none =>
    cases h : a.doc with
    | none => simp
    | some doc =>
      obtain ⟨t', d', e, hs⟩ := splitDoc_iff (doc := doc)
      simp only [Option.none_or, Option.map_some, e, Option.some.injEq]
      constructor
      · rintro (h | ⟨-, doc', d, rfl, h⟩)
        · cases h
        · exact (String.toList_inj.1 ((hs _ _).1 h).1).symm
      · rintro rfl
        exact .inr ⟨trivial, doc, d'.toList, rfl, (hs _ _).2 ⟨rfl, rfl⟩⟩

theorem descriptionIs_iff {a : CommonAttrs} {t : String} : DescriptionIs a t ↔ a.effectiveDescription = some t := by
  unfold DescriptionIs CommonAttrs.effectiveDescription
  cases a.description with
  | some x => simp
  | none =>
    cases h : a.doc with
    | none => simp
    | some doc =>
      obtain ⟨t', d', e, hs⟩ := splitDoc_iff (doc := doc)
      simp only [Option.none_or, Option.map_some, e, Option.some.injEq]
      constructor
      · rintro (h | ⟨-, doc', d, rfl, h⟩)
        · cases h
        · exact (String.toList_inj.1 ((hs _ _).1 h).2).symm
      · rintro rfl
        exact .inr ⟨trivial, doc, t'.toList, rfl, (hs _ _).2 ⟨rfl, rfl⟩⟩

theorem says_iff {a : CommonAttrs} {k : String} {v : Json} :
    Says a k v ↔ (lastOf a.extensions k).or (saidPlain a k) = some v := by
  constructor
  · intro h
    cases h with
    | extend h hr => rw [lastOf_eq_some.2 ⟨_, _, h, hr⟩]; rfl
    | title hn ht hne => rw [lastOf_eq_none.2 hn]; simp [saidPlain, titleIs_iff.1 ht, hne]
    | description hn ht hne => rw [lastOf_eq_none.2 hn]; simp [saidPlain, descriptionIs_iff.1 ht, hne]
    | deprecated hn h => rw [lastOf_eq_none.2 hn]; simp [saidPlain, h]
    | examples hn h => rw [lastOf_eq_none.2 hn]; simp [saidPlain, h]
  · intro h
    cases hl : lastOf a.extensions k with
    | some w =>
      rw [hl] at h
      cases h
      obtain ⟨x, y, e, hy⟩ := lastOf_eq_some.1 hl
      exact .extend e hy
    | none =>
      rw [hl, Option.none_or] at h
      have hn := lastOf_eq_none.1 hl
      unfold saidPlain at h
      split at h
      · next e =>
        subst e
        rw [Option.map_eq_some_iff] at h
        obtain ⟨t, ht, rfl⟩ := h
        rw [Option.filter_eq_some_iff] at ht
        exact .title hn (titleIs_iff.2 ht.1) (by simpa using ht.2)
      · split at h
        · next e =>
          subst e
          rw [Option.map_eq_some_iff] at h
          obtain ⟨t, ht, rfl⟩ := h
          rw [Option.filter_eq_some_iff] at ht
          exact .description hn (descriptionIs_iff.2 ht.1) (by simpa using ht.2)
        · split at h
          · next e =>
            subst e
            split at h
            · next hd => cases h; exact .deprecated hn hd
            · cases h
          · split at h
            · next e =>
              subst e
              split at h
              · cases h
              · next hd => cases h; exact .examples hn (by simpa using hd)
            · cases h

/-- Each keyword has at most one value. -/
theorem Spec.Says.unique {a : CommonAttrs} {k : String} {v w : Json} (h : Says a k v) (h' : Says a k w) : v = w := by
  rw [says_iff] at h h'
  exact Option.some.inj (h.symm.trans h')

/-- The schema `false` has another keyword after it is made an object. -/
def Clear (s : Json) (k : String) : Prop := IsSchema s ∧ (s = .bool false → k ≠ "not")

theorem get_put {s : Json} {q : String} (h : Clear s q) (k : String) (v : Json) :
    Schema.get (Schema.put s k v) q = (if k = q then some v else Schema.get s q) ∧ Clear (Schema.put s k v) q := by
  obtain ⟨hs, hb⟩ := h
  cases hs with
  | obj m =>
    refine ⟨?_, .obj _, fun h => (by cases h)⟩
    show Obj.get (Obj.insert m k v) q = _
    by_cases e : k = q
    · subst e; rw [if_pos rfl, Obj.get_insert_self]
    · rw [if_neg e, Obj.get_insert_ne _ _ e]; rfl
  | bool b =>
    cases b with
    | true =>
      refine ⟨?_, .obj _, fun h => (by cases h)⟩
      show Obj.get (Obj.insert [] k v) q = _
      by_cases e : k = q
      · subst e; rw [if_pos rfl, Obj.get_insert_self]
      · rw [if_neg e, Obj.get_insert_ne _ _ e]; rfl
    | false =>
      refine ⟨?_, .obj _, fun h => (by cases h)⟩
      show Obj.get (Obj.insert (Obj.insert [] "not" (.obj [])) k v) q = _
      by_cases e : k = q
      · subst e; rw [if_pos rfl, Obj.get_insert_self]
      · rw [if_neg e, Obj.get_insert_ne _ _ e, Obj.get_insert_ne _ _ (Ne.symm (hb rfl))]; rfl

/-- A list of statements that together set a keyword to the value, if there is one. -/
def Sets1 (l : List (Json → Json)) (q : String) (x : Option Json) : Prop :=
  ∀ s, IsSchema s → IsSchema (runMutators l s) ∧ (∀ v, x = some v → Schema.get (runMutators l s) q = some v) ∧
    (x = none → Clear s q → Schema.get (runMutators l s) q = Schema.get s q ∧ Clear (runMutators l s) q)

theorem clear_of_get {s : Json} {q : String} {v : Json} (hs : IsSchema s) (h : Schema.get s q = some v) : Clear s q :=
  ⟨hs, fun e => by subst e; cases h⟩

theorem Sets1.append {l l' : List (Json → Json)} {q : String} {x y : Option Json} (h : Sets1 l q x) (h' : Sets1 l' q y) :
    Sets1 (l ++ l') q (y.or x) := by
  intro s hs
  rw [runMutators_append]
  obtain ⟨h1, h2, h3⟩ := h s hs
  obtain ⟨k1, k2, k3⟩ := h' _ h1
  refine ⟨k1, fun v hv => ?_, fun hn hc => ?_⟩
  · cases y with
    | some w => cases hv; exact k2 _ rfl
    | none =>
      have hv := h2 v hv
      rw [(k3 rfl (clear_of_get h1 hv)).1, hv]
  · rw [Option.or_eq_none_iff] at hn
    obtain ⟨e1, e2⟩ := h3 hn.2 hc
    obtain ⟨e3, e4⟩ := k3 hn.1 e2
    exact ⟨e3.trans e1, e4⟩

theorem sets1_nil (q : String) : Sets1 [] q none := fun _ hs => ⟨hs, fun _ h => (by cases h), fun _ hc => ⟨rfl, hc⟩⟩

theorem get_put_self {s : Json} (hs : IsSchema s) (k : String) (v : Json) : Schema.get (Schema.put s k v) k = some v := by
  cases hs with
  | obj m => exact Obj.get_insert_self _ _ _
  | bool b => cases b <;> exact Obj.get_insert_self _ _ _

theorem sets1_put (k q : String) (v : Json) : Sets1 [fun s => Schema.put s k v] q (if k = q then some v else none) := by
  intro s hs
  refine ⟨put_preserves hs k v, fun w hw => ?_, fun hn hc => ?_⟩
  · split at hw
    · next e => cases hw; subst e; exact get_put_self hs k v
    · cases hw
  · split at hn
    · cases hn
    · next e =>
      obtain ⟨h1, h2⟩ := get_put hc k v
      rw [if_neg e] at h1
      exact ⟨h1, h2⟩

theorem sets1_meta (k q : String) (o : Option String) :
    Sets1 (o.elim [] fun t => [fun s => insertMetadataIfNonempty s k t]) q
      (if k = q then (o.filter (· ≠ "")).map .str else none) := by
  cases o with
  | none =>
    have := sets1_nil q
    simpa using this
  | some t =>
    by_cases ht : t = ""
    · subst ht
      have : (if k = q then ((some "").filter (· ≠ "")).map Json.str else none) = none := by
        simp [Option.filter]
      rw [this]
      exact sets1_nil q
    · have e : (Option.elim (some t) [] fun t => [fun s => insertMetadataIfNonempty s k t]) =
          [fun s => Schema.put s k (.str t)] := by
        show [fun s => insertMetadataIfNonempty s k t] = _
        unfold insertMetadataIfNonempty; simp only [if_neg ht]
      have e' : ((some t).filter (· ≠ "")).map Json.str = some (.str t) := by simp [Option.filter, ht]
      rw [e, e']
      exact sets1_put k q _

theorem sets1_extend (l : List (String × Json)) (q : String) :
    Sets1 (l.map fun e s => Schema.put s e.1 e.2) q (lastOf l q) := by
  induction l with
  | nil => exact sets1_nil q
  | cons e l ih => rw [lastOf_cons]; exact (sets1_put e.1 q e.2).append ih

theorem sets1_mutators {a : CommonAttrs} (h : a.transforms = []) (q : String) :
    Sets1 a.mutators q ((lastOf a.extensions q).or (saidPlain a q)) := by
  unfold CommonAttrs.mutators
  rw [h, List.append_nil]
  have h3 : Sets1 (if a.deprecated then [fun s => Schema.put s "deprecated" (.bool true)] else []) q
      (if "deprecated" = q then (if a.deprecated then some (.bool true) else none) else none) := by
    cases a.deprecated
    · have := sets1_nil q; simpa using this
    · exact sets1_put "deprecated" q (.bool true)
  have h4 : Sets1 (if a.examples.isEmpty then []
        else [fun s => Schema.put s "examples" (.arr (a.examples.filterMap id))]) q
      (if "examples" = q then (if a.examples.isEmpty then none else some (.arr (a.examples.filterMap id))) else none) := by
    cases a.examples.isEmpty
    · exact sets1_put "examples" q _
    · have := sets1_nil q; simpa using this
  have := ((((sets1_meta "title" q a.effectiveTitle).append (sets1_meta "description" q a.effectiveDescription)).append
    h3).append h4).append (sets1_extend a.extensions q)
  have e : ((if "examples" = q then (if a.examples.isEmpty then none else some (.arr (a.examples.filterMap id)))
        else none : Option Json).or
      ((if "deprecated" = q then (if a.deprecated then some (.bool true) else none) else none : Option Json).or
        ((if "description" = q then (a.effectiveDescription.filter (· ≠ "")).map .str else none : Option Json).or
          (if "title" = q then (a.effectiveTitle.filter (· ≠ "")).map .str else none)))) = saidPlain a q := by
    unfold saidPlain
    by_cases h1 : q = "title"
    · subst h1; simp
    · by_cases h2 : q = "description"
      · subst h2; simp
      · by_cases h3 : q = "deprecated"
        · subst h3; simp
        · by_cases h4 : q = "examples"
          · subst h4; simp
          · simp [h1, h2, h3, h4, Ne.symm h1, Ne.symm h2, Ne.symm h3, Ne.symm h4]
  rw [e] at this
  exact this

/-- C67: the statements made from the attributes set what the attributes say, and nothing else. -/
theorem C67_attributes {a : CommonAttrs} (h : a.transforms = []) {s : Json} (hs : IsSchema s) :
    Carries [] a s (runMutators a.mutators s) := by
  intro k _
  obtain ⟨-, h1, h2⟩ := sets1_mutators h k s hs
  refine ⟨fun v hv => h1 v (says_iff.1 hv), fun hn hb => (h2 ?_ ⟨hs, hb⟩).1⟩
  cases e : (lastOf a.extensions k).or (saidPlain a k) with
  | none => rfl
  | some v => exact absurd (says_iff.2 e) (hn v)

/-! ### Containers -/

namespace Spec

/-- The transforms return schemas. -/
def Typed (a : CommonAttrs) : Prop := ∀ f ∈ a.transforms, ∀ s, IsSchema s → IsSchema (f s)

/-- The generator answers with schemas. -/
structure Answered (A : Answers τ) : Prop where
  sub : ∀ t s, A.sub t s → IsSchema s
  direct : ∀ t s, A.direct t s → IsSchema s

/-- The keywords that validation attributes set. -/
def validationKeys : List String :=
  ["minLength", "maxLength", "minItems", "maxItems", "minimum", "maximum", "pattern", "format", "items"]

/-- The keywords that are set for a field apart from what the attributes say. -/
def fieldKeys : List String := validationKeys ++ ["readOnly", "writeOnly", "default"]

/-- The schema that a field starts with. -/
def FieldStart (A : Answers τ) (I : TypeInfo τ) (f : Field τ) (s : Json) : Prop :=
  if f.required then A.direct (I.base f.ty) s else A.sub f.ty s

end Spec

theorem schema_run {l : List (Json → Json)} (h : ∀ f ∈ l, ∀ s, IsSchema s → IsSchema (f s)) {s : Json} (hs : IsSchema s) :
    IsSchema (runMutators l s) := by
  induction l generalizing s with
  | nil => exact hs
  | cons f l ih => exact ih (fun g hg => h g (by simp [hg])) (h f (by simp) s hs)

theorem schema_mutators {a : CommonAttrs} (h : Typed a) {s : Json} (hs : IsSchema s) :
    IsSchema (runMutators a.mutators s) := by
  have e : a.mutators = ({ a with transforms := [] } : CommonAttrs).mutators ++ a.transforms := by
    unfold CommonAttrs.mutators; simp; rfl
  rw [e, runMutators_append]
  exact schema_run h (sets1_mutators (a := { a with transforms := [] }) rfl "" s hs).1

theorem sets1_validation_one {ty k q : String} (v : Json) (h : k ≠ q) :
    Sets1 [fun s => insertValidation s ty k v] q none := by
  intro s hs
  have hp := sets1_put k q v s hs
  rw [if_neg h] at hp
  have e : runMutators [fun s => insertValidation s ty k v] s = insertValidation s ty k v := rfl
  rw [e]
  unfold insertValidation
  split
  · exact hp
  · exact sets1_nil q s hs

theorem sets1_lengthOrRange {l : LengthOrRange} {ty suffix q : String} (h1 : "min" ++ suffix ≠ q)
    (h2 : "max" ++ suffix ≠ q) : Sets1 (lengthOrRangeMutators l ty suffix) q none := by
  unfold lengthOrRangeMutators
  refine Sets1.append (x := none) (y := none) ?_ ?_
  · cases l.min.or l.equal with
    | none => exact sets1_nil q
    | some v => exact sets1_validation_one v h1
  · cases l.max.or l.equal with
    | none => exact sets1_nil q
    | some v => exact sets1_validation_one v h2

/-- Validation attributes set no other keywords. -/
theorem sets1_validation (a : ValidationAttrs) {q : String} (hq : q ∉ validationKeys) : Sets1 a.mutators q none := by
  obtain ⟨length, range, pattern, regex, contains, format, inner⟩ := a
  have hk : ∀ k ∈ validationKeys, k ≠ q := fun k hk e => hq (e ▸ hk)
  unfold ValidationAttrs.mutators
  refine Sets1.append (x := none) (y := none) (Sets1.append (x := none) (y := none)
    (Sets1.append (x := none) (y := none) (Sets1.append (x := none) (y := none) (Sets1.append (x := none) (y := none)
      ?_ ?_) ?_) ?_) ?_) ?_
  · cases length with
    | none => exact sets1_nil q
    | some l =>
      exact Sets1.append (x := none) (y := none) (sets1_lengthOrRange (hk _ (by decide)) (hk _ (by decide)))
        (sets1_lengthOrRange (hk _ (by decide)) (hk _ (by decide)))
  · cases range with
    | none => exact sets1_nil q
    | some l => exact sets1_lengthOrRange (hk _ (by decide)) (hk _ (by decide))
  · cases regex.or pattern with
    | none => exact sets1_nil q
    | some p => exact sets1_validation_one _ (hk _ (by decide))
  · cases contains with
    | none => exact sets1_nil q
    | some c => exact sets1_validation_one _ (hk _ (by decide))
  · cases format with
    | none => exact sets1_nil q
    | some f =>
      have := sets1_put "format" q (.str f.schemaStr)
      rw [if_neg (hk _ (by decide))] at this
      exact this
  · cases inner with
    | none => exact sets1_nil q
    | some a =>
      intro s hs
      refine ⟨getMut_preserves hs _ _, fun v hv => (by cases hv), fun _ hc => ?_⟩
      cases hs with
      | bool b => exact ⟨rfl, hc⟩
      | obj m =>
        refine ⟨?_, .obj _, fun e => (by cases e)⟩
        show Obj.get (Obj.modify m "items" _) q = Obj.get m q
        rw [Obj.get_modify, if_neg (hk _ (by decide))]

theorem sets1_flag (b : Bool) {k q : String} (h : k ≠ q) (v : Json) :
    Sets1 (if b then [fun s => Schema.put s k v] else []) q none := by
  cases b
  · exact sets1_nil q
  · have := sets1_put k q v
    rw [if_neg h] at this
    exact this

theorem sets1_field {f : Field τ} (h : f.common.transforms = []) {q : String} (hq : q ∉ fieldKeys) :
    Sets1 f.mutators q ((lastOf f.common.extensions q).or (saidPlain f.common q)) := by
  have hk : ∀ k ∈ fieldKeys, k ≠ q := fun k hk e => hq (e ▸ hk)
  unfold Field.mutators
  exact Sets1.append (y := none) (Sets1.append (y := none) (Sets1.append (y := none) (sets1_mutators h q)
    (sets1_validation _ fun hv => hq (List.mem_append_left _ hv))) (sets1_flag _ (hk _ (by decide)) _))
      (sets1_flag _ (hk _ (by decide)) _)

theorem schema_field {f : Field τ} (h : Typed f.common) {s : Json} (hs : IsSchema s) :
    IsSchema (runMutators f.mutators s) := by
  unfold Field.mutators
  rw [runMutators_append, runMutators_append, runMutators_append]
  have h1 := (sets1_validation f.validation (q := "") (by decide) _ (schema_mutators h hs)).1
  exact (sets1_flag f.skipSer (k := "writeOnly") (q := "") (by decide) _ _
    (sets1_flag f.skipDe (k := "readOnly") (q := "") (by decide) _ _ h1).1).1

theorem schema_fieldProg {A : Answers τ} (hA : Answered A) {I : TypeInfo τ} {f : Field τ} (hf : Typed f.common)
    {r : Json} (h : Returns A (fieldProg I f false) r) : IsSchema r := by
  unfold fieldProg at h
  obtain ⟨s, hs, rfl⟩ := res_map.1 h
  refine schema_field hf ?_
  split at hs
  · obtain ⟨x, hx, rfl⟩ := hs; exact hA.direct _ _ hx
  · rw [if_neg (by decide)] at hs
    obtain ⟨x, hx, rfl⟩ := hs; exact hA.sub _ _ hx

theorem obj_addFields {I : TypeInfo τ} {cd : Bool} {c : Contract} (es : List (Field τ × Json)) (m : List (String × Json)) :
    ∃ m', es.foldl (addField I cd c) (.obj m) = .obj m' := by
  induction es generalizing m with
  | nil => exact ⟨m, rfl⟩
  | cons e es ih =>
    have : ∃ m1, addField I cd c (.obj m) e = .obj m1 := by
      unfold addField
      split
      · unfold flatten
        split
        · exact ⟨m, rfl⟩
        · simp only; split <;> exact ⟨_, rfl⟩
        · exact ⟨_, rfl⟩
        · exact ⟨m, rfl⟩
      · exact ⟨_, rfl⟩
    obtain ⟨m1, h1⟩ := this
    rw [List.foldl_cons, h1]
    exact ih m1

theorem schema_struct {A : Answers τ} {I : TypeInfo τ} {fs : List (Field τ)} {cd deny : Bool} {r : Json}
    (h : Returns A (structProg I fs cd deny) r) : IsSchema r := by
  unfold structProg at h
  obtain ⟨es, -, -, rfl⟩ := (returns_structFields fs).1 h
  obtain ⟨m', e⟩ := obj_addFields (I := I) (cd := cd) (c := A.settings.contract) es
    (Obj.ofList (("type", Json.str "object") :: if deny then [("additionalProperties", .bool false)] else []))
  exact (show _ = Json.obj m' from e) ▸ .obj m'

theorem schema_tuple {A : Answers τ} {I : TypeInfo τ} {fs : List (Field τ)} {r : Json}
    (h : Returns A (tupleStructProg I fs) r) : IsSchema r := by
  unfold tupleStructProg at h
  obtain ⟨rs, -, h⟩ := (res_collect _ _ _).1 h
  cases h
  exact .obj _

theorem schema_variants {A : Answers τ} {unique : Bool} {first : Option (Prog τ)} {vs : List (Variant τ × Prog τ)}
    {r : Json} (h : Returns A (variantSubschemas unique first vs) r) : IsSchema r := by
  unfold variantSubschemas at h
  obtain ⟨rs, -, h⟩ := (res_collect _ _ _).1 h
  cases h
  exact .obj _

theorem schema_enum {A : Answers τ} {I : TypeInfo τ} {tag : TagType} {vs : List (Variant τ)} {deny : Bool} {r : Json}
    (h : Returns A (enumProg I tag vs deny) r) : IsSchema r := by
  unfold enumProg at h
  split at h
  · cases h; exact .bool _
  · cases tag with
    | external =>
      simp only [externalEnumProg] at h
      split at h
      · cases h; exact .obj _
      · exact schema_variants h
    | none => exact schema_variants h
    | internal t => exact schema_variants h
    | adjacent t c => exact schema_variants h

theorem schema_data {A : Answers τ} (hA : Answered A) {I : TypeInfo τ} {c : Container τ}
    (hf : ∀ f, c.data = .struct (.newtype f) → Typed f.common) {r : Json} (h : Returns A (dataProg I c) r) :
    IsSchema r := by
  unfold dataProg at h
  split at h
  · obtain ⟨x, hx, rfl⟩ := h; exact hA.sub _ _ hx
  · next f e => exact schema_fieldProg hA (hf f e) h
  · exact schema_tuple h
  · exact schema_struct h
  · exact schema_enum h

/-- The schema of a container before its attributes. -/
theorem schema_inner {A : Answers τ} (hA : Answered A) {I : TypeInfo τ} {c : Container τ}
    (hf : ∀ f, c.data = .struct (.newtype f) ∨ c.transparent = some f → Typed f.common) {s : Json}
    (hs : Returns A (match c.withTy, c.transparent, c.fromTy, c.intoTy with
      | some t, _, _, _ => .direct t .ret
      | none, some f, _, _ => fieldProg I f false
      | none, none, some from_, some into => .askSettings fun st =>
        if st.contract == .deserialize then .direct from_ .ret else .direct into .ret
      | none, none, some from_, none => .askSettings fun st =>
        if st.contract == .deserialize then .direct from_ .ret else dataProg I c
      | none, none, none, some into => .askSettings fun st =>
        if st.contract == .serialize then .direct into .ret else dataProg I c
      | none, none, none, none => dataProg I c : Prog τ) s) : IsSchema s := by
  have hd : ∀ {s}, Returns A (dataProg I c) s → IsSchema s := schema_data hA fun f e => hf f (.inl e)
  have direct : ∀ {t s}, Returns A (.direct t .ret) s → IsSchema s := by
    rintro t s ⟨x, hx, rfl⟩; exact hA.direct _ _ hx
  split at hs
  · exact direct hs
  · next f e _ => exact schema_fieldProg hA (hf f (.inr ‹_›)) hs
  · simp only [Returns] at hs; split at hs <;> exact direct hs
  · simp only [Returns] at hs; split at hs
    · exact direct hs
    · exact hd hs
  · simp only [Returns] at hs; split at hs
    · exact direct hs
    · exact hd hs
  · exact hd hs

theorem schema_container {A : Answers τ} (hA : Answered A) {I : TypeInfo τ} {c : Container τ}
    (hf : ∀ f, c.data = .struct (.newtype f) ∨ c.transparent = some f → Typed f.common) (hc : Typed c.common) {r : Json}
    (h : Returns A (containerProg I c) r) : IsSchema r := by
  unfold containerProg at h
  obtain ⟨s, hs, rfl⟩ := res_map.1 h
  exact schema_mutators hc (schema_inner hA hf hs)

/-- C67 for a container: its schema has what its attributes say, and is otherwise the schema without them. -/
theorem C67_container {A : Answers τ} (hA : Answered A) {I : TypeInfo τ} {c : Container τ}
    (hf : ∀ f, c.data = .struct (.newtype f) ∨ c.transparent = some f → Typed f.common)
    (ht : c.common.transforms = []) {r : Json} (h : Returns A (containerProg I c) r) :
    ∃ s, Returns A (containerProg I { c with common := {} }) s ∧ Carries [] c.common s r := by
  unfold containerProg at h
  obtain ⟨s, hs, rfl⟩ := res_map.1 h
  exact ⟨s, res_map.2 ⟨s, hs, rfl⟩, C67_attributes ht (schema_inner hA hf hs)⟩

/-- C67 for a `Serialize_repr` enum. -/
theorem C67_repr {A : Answers τ} {values : List Int} {a : CommonAttrs} (ht : a.transforms = []) {r : Json}
    (h : Returns A (reprProg values a) r) : Carries [] a (reprSchema values) r := by
  cases h
  exact C67_attributes ht (.obj _)

/-! ### Fields -/

/-- The keywords for a field that is not read or not written. -/
theorem field_access {f : Field τ} {s : Json} (hs : IsSchema (runMutators (f.common.mutators ++ f.validation.mutators) s)) :
    (f.skipDe = true → Schema.get (runMutators f.mutators s) "readOnly" = some (.bool true)) ∧
    (f.skipSer = true → Schema.get (runMutators f.mutators s) "writeOnly" = some (.bool true)) := by
  unfold Field.mutators
  rw [runMutators_append, runMutators_append]
  generalize runMutators (f.common.mutators ++ f.validation.mutators) s = x at *
  have h1 : IsSchema (runMutators (if f.skipDe then [fun s => Schema.put s "readOnly" (.bool true)] else []) x) :=
    (sets1_flag f.skipDe (k := "readOnly") (q := "") (by decide) _ _ hs).1
  constructor
  · intro h
    have h2 := sets1_flag f.skipSer (k := "writeOnly") (q := "readOnly") (by decide) (.bool true) _ h1
    rw [h] at h1 h2 ⊢
    have h3 := get_put_self hs "readOnly" (.bool true)
    rw [(h2.2.2 rfl (clear_of_get h1 h3)).1]
    exact h3
  · intro h
    rw [h]
    exact get_put_self h1 _ _

theorem schema_common {f : Field τ} (h : Typed f.common) {s : Json} (hs : IsSchema s) :
    IsSchema (runMutators (f.common.mutators ++ f.validation.mutators) s) := by
  rw [runMutators_append]
  exact (sets1_validation f.validation (q := "") (by decide) _ (schema_mutators h hs)).1

theorem typed_nil {a : CommonAttrs} (h : a.transforms = []) : Typed a := by
  unfold Typed; rw [h]; intro f hf; cases hf

namespace Spec

/-- The schema of the field has what its attributes say. Apart from these and the keywords of other attributes, it is
the schema `s` of its type. A field that is not deserialized is read-only, one that is not serialized write-only. -/
structure FieldCarries (f : Field τ) (s r : Json) : Prop where
  carries : Carries fieldKeys f.common s r
  readOnly : f.skipDe = true → Schema.get r "readOnly" = some (.bool true)
  writeOnly : f.skipSer = true → Schema.get r "writeOnly" = some (.bool true)
  never : r = .bool false → s = .bool false

end Spec

/-- C67 for a field. -/
theorem C67_field {A : Answers τ} (hA : Answered A) {I : TypeInfo τ} {f : Field τ} (ht : f.common.transforms = [])
    {r : Json} (h : Returns A (fieldProg I f false) r) : ∃ s, FieldStart A I f s ∧ IsSchema r ∧ FieldCarries f s r := by
  have hr := schema_fieldProg hA (typed_nil ht) h
  unfold fieldProg at h
  obtain ⟨s, hs, rfl⟩ := res_map.1 h
  have h1 : FieldStart A I f s ∧ IsSchema s := by
    unfold FieldStart
    split at hs
    · next e => obtain ⟨x, hx, rfl⟩ := hs; rw [if_pos e]; exact ⟨hx, hA.direct _ _ hx⟩
    · next e =>
      rw [if_neg (by decide)] at hs
      obtain ⟨x, hx, rfl⟩ := hs; rw [if_neg e]; exact ⟨hx, hA.sub _ _ hx⟩
  obtain ⟨h2, h3⟩ := field_access (f := f) (schema_common (typed_nil ht) h1.2)
  have h4 : runMutators f.mutators s = .bool false → s = .bool false := by
    intro e
    by_contra hne
    obtain ⟨-, k1, k2⟩ := sets1_field ht (q := "not") (by decide) s h1.2
    cases hv : (lastOf f.common.extensions "not").or (saidPlain f.common "not") with
    | none => exact (k2 hv ⟨h1.2, fun e => absurd e hne⟩).2.2 e rfl
    | some v => have := k1 v hv; rw [e] at this; cases this
  refine ⟨s, h1.1, hr, ⟨fun k hk => ?_, h2, h3, h4⟩⟩
  obtain ⟨-, k1, k2⟩ := sets1_field ht hk s h1.2
  refine ⟨fun v hv => k1 v (says_iff.1 hv), fun hn hb => (k2 ?_ ⟨h1.2, hb⟩).1⟩
  cases e : (lastOf f.common.extensions k).or (saidPlain f.common k) with
  | none => rfl
  | some v => exact absurd (says_iff.2 e) (hn v)

theorem FieldCarries.default {f : Field τ} {s r : Json} (hr : IsSchema r) (h : FieldCarries f s r) (cd : Bool) :
    FieldCarries f s (insertDefault cd f r) := by
  unfold insertDefault
  split
  · exact h
  · split
    · next d _ =>
      have key : ∀ k v, k ≠ "default" → Schema.get r k = some v → Schema.get (Schema.put r "default" d) k = some v := by
        intro k v hk hv
        rw [(get_put (clear_of_get hr hv) "default" d).1, if_neg (Ne.symm hk), hv]
      refine ⟨fun k hk => ⟨fun v hv => key k v (fun e => hk (e ▸ by decide)) ((h.carries k hk).1 v hv), fun hn hb => ?_⟩,
        fun e => key _ _ (by decide) (h.readOnly e), fun e => key _ _ (by decide) (h.writeOnly e), fun e => ?_⟩
      · rw [← (h.carries k hk).2 hn hb, (get_put ⟨hr, fun e => hb (h.never e)⟩ "default" d).1,
          if_neg fun e : "default" = k => hk (e ▸ by decide)]
      · cases hr with
        | obj m => cases e
        | bool b => cases b <;> cases e
    · exact h

/-! ### Structs -/

theorem propertyAt_obj (m : List (String × Json)) (n : String) :
    propertyAt (.obj m) n = Obj.get (members ((Obj.get m "properties").getD .null)) n := by
  unfold propertyAt Schema.get
  simp only
  cases Obj.get m "properties" with
  | none => rfl
  | some v => cases v <;> rfl

theorem propertyAt_insert {m : List (String × Json)} (h : Kinds m) (key : String) (opt : Bool) (sub : Json) (n : String) :
    propertyAt (insertObjectProperty (.obj m) key opt sub) n = if key = n then some sub else propertyAt (.obj m) n := by
  obtain ⟨p, hp, e⟩ : ∃ p, members ((Obj.get m "properties").getD .null) = p ∧
      Obj.entryOr m "properties" (.obj []) (insertMember key sub) =
        Obj.insert m "properties" (.obj (Obj.insert p key sub)) := by
    unfold Obj.entryOr
    cases e : Obj.get m "properties" with
    | none => exact ⟨[], rfl, rfl⟩
    | some v =>
      obtain ⟨p, rfl, -⟩ := h.maps _ (by decide) _ e
      exact ⟨p, rfl, rfl⟩
  have hg : ∀ m', Obj.get m' "properties" = some (.obj (Obj.insert p key sub)) →
      propertyAt (.obj m') n = if key = n then some sub else propertyAt (.obj m) n := by
    intro m' hm'
    rw [propertyAt_obj, propertyAt_obj, hm', hp]
    show Obj.get (Obj.insert p key sub) n = _
    by_cases hk : key = n
    · subst hk; rw [if_pos rfl, Obj.get_insert_self]
    · rw [if_neg hk, Obj.get_insert_ne _ _ hk]
  unfold insertObjectProperty Schema.ensureObject
  simp only
  rw [e]
  cases opt with
  | true => exact hg _ (Obj.get_insert_self _ _ _)
  | false =>
    refine hg _ ?_
    simp only [Bool.false_eq_true, if_false]
    have : ∃ v, Obj.entryOr (Obj.insert m "properties" (.obj (Obj.insert p key sub))) "required" (.arr [])
        (pushElem (.str key)) = Obj.insert (Obj.insert m "properties" (.obj (Obj.insert p key sub))) "required" v := by
      unfold Obj.entryOr
      exact ⟨_, rfl⟩
    obtain ⟨v, e⟩ := this
    rw [e, Obj.get_insert_ne _ _ (by decide), Obj.get_insert_self]

theorem propertyAt_none {s : Json} {n : String} (h : ¬ Declares s n) : propertyAt s n = none := by
  cases s with
  | obj m =>
    rw [propertyAt_obj]
    cases e : Obj.get (members ((Obj.get m "properties").getD .null)) n with
    | none => rfl
    | some x => exact absurd ⟨m, x, rfl, e⟩ h
  | _ => rfl

theorem propertyAt_flatten {m : List (String × Json)} (h : Kinds m) {s : Json} (hs : Regular s) {n : String}
    (hn : ¬ Declares s n) : propertyAt (flatten (.obj m) s) n = propertyAt (.obj m) n := by
  rcases hs with ⟨m2, rfl, h2⟩ | ⟨b, rfl⟩
  · obtain ⟨m', e, hp⟩ := C49_properties h h2
    have h0 := propertyAt_none hn
    rw [propertyAt_obj] at h0
    rw [e, propertyAt_obj, propertyAt_obj, hp, h0]; rfl
  · cases b with
    | false => rfl
    | true =>
      unfold flatten
      simp only
      split
      · rw [propertyAt_obj, propertyAt_obj, Obj.get_insert_ne]
        split <;> decide
      · rfl

theorem propertyAt_addFields {I : TypeInfo τ} {cd : Bool} {c : Contract} {n : String} (es : List (Field τ × Json))
    (hf : ∀ e ∈ es, e.1.flatten = true → Regular e.2 ∧ ¬ Declares e.2 n)
    (hn : ∀ e ∈ es, e.1.flatten = false → e.1.name.get c ≠ n) {m : List (String × Json)} (h : Kinds m) :
    propertyAt (es.foldl (addField I cd c) (.obj m)) n = propertyAt (.obj m) n := by
  induction es generalizing m with
  | nil => rfl
  | cons e es ih =>
    obtain ⟨m1, e1, k1, -⟩ := addFields_regular (I := I) (cd := cd) (c := c) [e]
      (fun x hx => by rw [List.mem_singleton.1 hx]; exact fun hx => (hf e (by simp) hx).1) h
    rw [List.foldl_cons]
    simp only [List.foldl_cons, List.foldl_nil] at e1
    rw [e1, ih (fun x hx => hf x (by simp [hx])) (fun x hx => hn x (by simp [hx])) k1, ← e1]
    unfold addField
    by_cases hfl : e.1.flatten = true
    · rw [if_pos hfl]
      exact propertyAt_flatten h (hf e (by simp) hfl).1 (hf e (by simp) hfl).2
    · rw [if_neg hfl, propertyAt_insert h, if_neg (hn e (by simp) (by simpa using hfl))]

theorem kinds_start (deny : Bool) : ∃ m, mkObj (("type", Json.str "object") ::
    if deny then [("additionalProperties", .bool false)] else []) = .obj m ∧ Kinds m := by
  have h : ∀ k ∈ ["properties", "patternProperties", "required", "allOf", "nullable"],
      Obj.get (Obj.ofList (("type", Json.str "object") :: if deny then [("additionalProperties", .bool false)] else [])) k =
        none := by cases deny <;> decide
  refine ⟨_, rfl, ⟨Obj.sorted_ofList _, fun k hk v hv => ?_, fun k hk v hv => ?_, h _ (by decide)⟩⟩
  · rw [h k (by clear hv; revert k; decide)] at hv; cases hv
  · rw [h k (by clear hv; revert k; decide)] at hv; cases hv

namespace Spec

/-- The fields of a struct do not get into each other's way: the names of those that are not flattened are distinct,
and not declared by the schema of a flattened one. -/
structure Separate (A : Answers τ) (I : TypeInfo τ) (fs : List (Field τ)) : Prop where
  names : ((fs.filter fun f => !f.flatten).map fun f => f.name.get A.settings.contract).Nodup
  apart : ∀ f ∈ fs, f.flatten = true → ∀ s, Returns A (flattenProg (I.base f.ty) (I.isOption f.ty) f.required .ret) s →
    Regular s ∧ ∀ g ∈ fs, g.flatten = false → ¬ Declares s (g.name.get A.settings.contract)

end Spec

/-- C67 for the fields of a struct or struct variant that are not flattened: the schema of the member carries what the
attributes of the field say. (Missing from `C67_Full`: flattened fields, see `C67_flattened`.) -/
theorem C67_fields_partial {A : Answers τ} (hA : Answered A) {I : TypeInfo τ} {fs : List (Field τ)} {cd deny : Bool} {r : Json}
    (hs : Separate A I (present fs A.settings.contract)) (h : Returns A (structProg I fs cd deny) r) {f : Field τ}
    (hf : f ∈ present fs A.settings.contract) (hfl : f.flatten = false) (ht : f.common.transforms = []) :
    ∃ s p, FieldStart A I f s ∧ propertyAt r (f.name.get A.settings.contract) = some p ∧ FieldCarries f s p := by
  unfold structProg at h
  obtain ⟨es, e1, e2, rfl⟩ := (returns_structFields fs).1 h
  obtain ⟨m, hm, hk⟩ := kinds_start deny
  rw [hm]
  rw [← e1] at hf hs
  obtain ⟨e, he, rfl⟩ := List.mem_map.1 hf
  obtain ⟨l, r, rfl⟩ := List.append_of_mem he
  have hreg : ∀ x ∈ l ++ e :: r, x.1.flatten = true → Regular x.2 ∧ ¬ Declares x.2 (e.1.name.get A.settings.contract) := by
    intro x hx hxf
    have h1 := e2 x hx
    unfold FieldResult at h1
    rw [if_pos hxf] at h1
    obtain ⟨h2, h3⟩ := hs.apart x.1 (List.mem_map_of_mem hx) hxf x.2 h1
    exact ⟨h2, h3 e.1 (List.mem_map_of_mem he) hfl⟩
  obtain ⟨m1, h1, k1, -⟩ := addFields_regular (I := I) (cd := cd) (c := A.settings.contract) l
    (fun x hx hxf => (hreg x (by simp [hx]) hxf).1) hk
  rw [List.foldl_append, h1, List.foldl_cons]
  obtain ⟨m2, h2, k2, -⟩ := addFields_regular (I := I) (cd := cd) (c := A.settings.contract) [e]
    (fun x hx hxf => (hreg x (by rw [List.mem_singleton.1 hx]; simp) hxf).1) k1
  simp only [List.foldl_cons, List.foldl_nil] at h2
  have hres := e2 e he
  unfold FieldResult at hres
  rw [if_neg (by simp [hfl])] at hres
  obtain ⟨s0, hs0, hs1⟩ := hres
  obtain ⟨s, k3, k4, k5⟩ := C67_field hA ht hs0
  refine ⟨s, e.2, k3, ?_, hs1 ▸ FieldCarries.default k4 k5 cd⟩
  rw [h2, propertyAt_addFields r (fun x hx => hreg x (by simp [hx])) (fun x hx hxf => ?_) k2, ← h2]
  · unfold addField
    rw [if_neg (by simp [hfl]), propertyAt_insert k1, if_pos rfl]
  · have hn := hs.names
    rw [List.map_append, List.map_cons, List.filter_append, List.filter_cons_of_pos (by simp [hfl]), List.map_append,
      List.map_cons, List.nodup_append] at hn
    have := (List.nodup_cons.1 hn.2.1).1
    intro e'
    exact this (e' ▸ List.mem_map.2 ⟨x.1, List.mem_filter.2 ⟨List.mem_map_of_mem hx, by simp [hxf]⟩, rfl⟩)

/-- C67 for the fields of a tuple struct or tuple variant: the schemas of the elements carry what their attributes say. -/
theorem C67_tuple {A : Answers τ} (hA : Answered A) {I : TypeInfo τ} {fs : List (Field τ)} {r : Json}
    (h : Returns A (tupleStructProg I fs) r) :
    ∃ es : List (Field τ × Json), es.map Prod.fst = present fs A.settings.contract ∧
      (es ≠ [] → Schema.get r "prefixItems" = some (.arr (es.map Prod.snd))) ∧
      ∀ e ∈ es, e.1.common.transforms = [] → ∃ s, FieldStart A I e.1 s ∧ FieldCarries e.1 s e.2 := by
  unfold tupleStructProg at h
  obtain ⟨rs, h1, h2⟩ := (res_collect _ _ _).1 h
  cases h2
  have e1 : ((fs.map fun f => (f.included, fieldProg I f false)).filter fun e => e.1 A.settings.contract) =
      (present fs A.settings.contract).map fun f => (f.included, fieldProg I f false) := by
    rw [List.filter_map]
    unfold present
    congr 1
    exact List.filter_congr fun f _ => included_eq f _
  rw [e1, List.forall₂_map_left_iff] at h1
  obtain ⟨es, h1, h2, h3⟩ := forall₂_pairs h1
  refine ⟨es, h1, fun hne => ?_, fun e he ht => ?_⟩
  · have : rs.isEmpty = false := by
      rw [← h2]
      cases es with
      | nil => exact absurd rfl hne
      | cons => rfl
    unfold tupleStructSchema mkObj Schema.get
    rw [this, h2]
    simp only [Bool.false_eq_true, if_false]
    rw [get_ofList (by simp [Obj.keys])]
    rfl
  · obtain ⟨s, k1, -, k2⟩ := C67_field hA ht (h3 e he)
    exact ⟨s, k1, k2⟩

/-! ### Variants -/

namespace Spec

/-- The schema of an enum has a schema for each variant of the list, in order, after those in `first`. -/
def Alternatives (r : Json) (first : List Json) (es : List (Variant τ × Json)) : Prop :=
  ∃ key, key ∈ ["oneOf", "anyOf"] ∧ r = .obj [(key, .arr (first ++ es.map Prod.snd))]

/-- No attribute says anything. -/
def Silent (a : CommonAttrs) : Prop := (∀ k v, ¬ Says a k v) ∧ a.transforms = []

/-- The field in a newtype variant has transforms that return schemas. -/
def ContentTyped (v : Variant τ) : Prop := ∀ f, v.fields = .newtype f → Typed f.common

end Spec

theorem silent_of_default {a : CommonAttrs} (h : a.isDefault = true) : Silent a := by
  unfold CommonAttrs.isDefault at h
  simp only [Bool.and_eq_true, Option.isNone_iff_eq_none, Bool.not_eq_true', List.isEmpty_iff] at h
  obtain ⟨⟨⟨⟨⟨⟨h1, h2⟩, h3⟩, h4⟩, h5⟩, h6⟩, h7⟩ := h
  refine ⟨fun k v hv => ?_, h7⟩
  rw [says_iff] at hv
  simp [h6, lastOf, saidPlain, CommonAttrs.effectiveTitle, CommonAttrs.effectiveDescription, h1, h2, h3, h4, h5] at hv

theorem shows_run {a : CommonAttrs} (ht : a.transforms = []) {s : Json} (hs : IsSchema s) :
    Shows a (runMutators a.mutators s) := fun k v hv => (C67_attributes ht hs k (by simp)).1 v hv

theorem schema_untagged {A : Answers τ} (hA : Answered A) {I : TypeInfo τ} {v : Variant τ} (hv : ContentTyped v)
    {deny : Bool} {r : Json} (h : Returns A (untaggedVariantProg I v deny false) r) : IsSchema r := by
  unfold untaggedVariantProg at h
  simp only [Bool.false_eq_true, if_false] at h
  split at h
  · obtain ⟨x, hx, rfl⟩ := h; exact hA.sub _ _ hx
  · split at h
    · obtain ⟨x, hx, rfl⟩ := h; exact hA.sub _ _ hx
    · next f e => exact schema_fieldProg hA (hv f e) h
    · exact schema_tuple h
    · exact schema_struct h

/-- C67 for a variant without a tag. -/
theorem shows_untagged {A : Answers τ} (hA : Answered A) {I : TypeInfo τ} {v : Variant τ} (hv : ContentTyped v)
    (ht : v.common.transforms = []) {deny : Bool} {r : Json} (h : Returns A (untaggedVariantProg I v deny true) r) :
    Shows v.common r := by
  have e : untaggedVariantProg I v deny true = (untaggedVariantProg I v deny false).bind fun s => .askSettings fun st =>
      .ret (runMutators v.common.mutators
        (if v.common.title.isNone && st.untaggedEnumVariantTitles then
          Schema.put s "title" (.str (v.name.get st.contract)) else s)) := by
    unfold untaggedVariantProg
    simp only [if_true, Bool.false_eq_true, if_false]
  rw [e] at h
  obtain ⟨s, hs, h⟩ := res_bind.1 h
  cases h
  have := schema_untagged hA hv hs
  refine shows_run ht ?_
  split
  · exact put_preserves this _ _
  · exact this

theorem shows_external {A : Answers τ} (hA : Answered A) {I : TypeInfo τ} {v : Variant τ} (hv : ContentTyped v)
    (ht : v.common.transforms = []) {deny : Bool} {r : Json} (h : Returns A (externalVariantProg I v deny) r) :
    Shows v.common r := by
  unfold externalVariantProg at h
  split at h
  · exact shows_untagged hA hv ht h
  · split at h
    · cases h; exact shows_run ht (.obj _)
    · obtain ⟨s, -, rfl⟩ := res_map.1 (show Returns A (Prog.map _ _) r from h)
      exact shows_run ht (.obj _)

theorem shows_adjacent {A : Answers τ} (hA : Answered A) {I : TypeInfo τ} {v : Variant τ} (hv : ContentTyped v)
    (ht : v.common.transforms = []) {tag key : String} {deny : Bool} {r : Json}
    (h : Returns A (adjacentTaggedProg I tag key v deny) r) : Shows v.common r := by
  unfold adjacentTaggedProg at h
  split at h
  · exact shows_untagged hA hv ht h
  · split at h
    · cases h; exact shows_run ht (.obj _)
    · obtain ⟨s, -, rfl⟩ := res_map.1 (show Returns A (Prog.map _ _) r from h)
      exact shows_run ht (.obj _)

theorem schema_internalNewtype {A : Answers τ} (hA : Answered A) {t : τ} {inl : Bool} {r : Json}
    (h : Returns A (internalNewtypeProg t inl .ret) r) : IsSchema r := by
  unfold internalNewtypeProg at h
  simp only [Returns] at h
  obtain ⟨s, hs, h⟩ := h
  split at h
  · cases h; exact tsub_isSchema (hA.direct _ _ hs)
  · obtain ⟨x, hx, rfl⟩ := h; exact hA.sub _ _ hx

theorem schema_internal {A : Answers τ} (hA : Answered A) {I : TypeInfo τ} {v : Variant τ} (hv : ContentTyped v)
    {deny : Bool} {r : Json} (h : Returns A (internalVariantProg I v deny) r) : IsSchema r := by
  unfold internalVariantProg at h
  split at h
  · obtain ⟨x, hx, rfl⟩ := h; exact hA.direct _ _ hx
  · split at h
    · obtain ⟨x, hx, rfl⟩ := h; exact hA.sub _ _ hx
    · next f e =>
      unfold fieldProg at h
      obtain ⟨s, hs, rfl⟩ := res_map.1 h
      refine schema_field (hv f e) ?_
      split at hs
      · obtain ⟨x, hx, rfl⟩ := hs; exact hA.direct _ _ hx
      · exact schema_internalNewtype hA hs
    · exact schema_tuple h
    · exact schema_struct h

theorem shows_internal {A : Answers τ} (hA : Answered A) {I : TypeInfo τ} {v : Variant τ} (hv : ContentTyped v)
    (ht : v.common.transforms = []) {tag : String} {deny : Bool} {r : Json}
    (h : Returns A (internalTaggedProg I tag v deny) r) : Shows v.common r := by
  unfold internalTaggedProg at h
  split at h
  · exact shows_untagged hA hv ht h
  · obtain ⟨s, hs, h⟩ := res_bind.1 h
    cases h
    refine shows_run ht ?_
    have := schema_internal hA hv hs
    unfold applyInternalTag
    cases this with
    | obj m => exact .obj _
    | bool b => cases b <;> exact .obj _

/-- C67 for the variants of an enum: each variant that is not skipped either has attributes that say nothing, or has a
schema of its own in the list of alternatives, with what its attributes say. -/
theorem C67_variants {A : Answers τ} (hA : Answered A) {I : TypeInfo τ} {tag : TagType} {vs : List (Variant τ)}
    {deny : Bool} (hr : ∀ v ∈ vs, v.refTy = none) (hv : ∀ v ∈ vs, ContentTyped v) {r : Json}
    (h : Returns A (enumProg I tag vs deny) r) :
    ∃ (first : List Json) (es : List (Variant τ × Json)), (es = [] ∨ Alternatives r first es) ∧
      (es.map Prod.fst).Sublist vs ∧
      (∀ e ∈ es, e.1.common.transforms = [] → Shows e.1.common e.2) ∧
      ∀ v ∈ vs, VariantPresent v A.settings.contract → v ∈ es.map Prod.fst ∨ Silent v.common := by
  have key : ∀ {unique : Bool} {first : Option (Prog τ)} {ws : List (Variant τ)} {f : Variant τ → Prog τ},
      Returns A (variantSubschemas unique first (ws.map fun v => (v, f v))) r → ws.Sublist vs →
      (∀ v ∈ ws, v.common.transforms = [] → ∀ s, Returns A (f v) s → Shows v.common s) →
      ∃ (first : List Json) (es : List (Variant τ × Json)), (es = [] ∨ Alternatives r first es) ∧
        (es.map Prod.fst).Sublist vs ∧
        (∀ e ∈ es, e.1.common.transforms = [] → Shows e.1.common e.2) ∧
        ∀ v ∈ ws, VariantPresent v A.settings.contract → v ∈ es.map Prod.fst := by
    intro unique first ws f h hsub hs
    obtain ⟨l, es, -, e1, e2, e3⟩ := returns_variants (fun v hv => hr v (hsub.subset hv)) h
    refine ⟨l, es, .inr ⟨_, ?_, e3⟩, ?_, fun e he ht => ?_, fun v hv hp => ?_⟩
    · split <;> decide
    · rw [e1]; exact List.filter_sublist.trans hsub
    · have : e.1 ∈ ws := (List.mem_filter.1 (e1 ▸ List.mem_map_of_mem he)).1
      exact hs e.1 this ht e.2 (e2 e he)
    · rw [e1]; exact List.mem_filter.2 ⟨hv, by simpa using hp⟩
  have all : ∀ {unique : Bool} {first : Option (Prog τ)} {f : Variant τ → Prog τ},
      Returns A (variantSubschemas unique first (vs.map fun v => (v, f v))) r →
      (∀ v ∈ vs, v.common.transforms = [] → ∀ s, Returns A (f v) s → Shows v.common s) →
      ∃ (first : List Json) (es : List (Variant τ × Json)), (es = [] ∨ Alternatives r first es) ∧
        (es.map Prod.fst).Sublist vs ∧ (∀ e ∈ es, e.1.common.transforms = [] → Shows e.1.common e.2) ∧
        ∀ v ∈ vs, VariantPresent v A.settings.contract → v ∈ es.map Prod.fst ∨ Silent v.common := by
    intro unique first f h hs
    obtain ⟨l, es, h1, h2, h3, h4⟩ := key h (List.Sublist.refl _) hs
    exact ⟨l, es, h1, h2, h3, fun v hv hp => .inl (h4 v hv hp)⟩
  unfold enumProg at h
  split at h
  · next e => rw [List.isEmpty_iff] at e; subst e; exact ⟨[], [], .inl rfl, .slnil, by simp, by simp⟩
  · cases tag with
    | none => exact all h fun v hm ht s hs => shows_untagged hA (hv v hm) ht hs
    | internal t => exact all h fun v hm ht s hs => shows_internal hA (hv v hm) ht hs
    | adjacent t c => exact all h fun v hm ht s hs => shows_adjacent hA (hv v hm) ht hs
    | external =>
      have listed : ∀ v : Variant τ, v.listed = true → Silent v.common := by
        intro v hl
        unfold Variant.listed at hl
        simp only [Bool.and_eq_true] at hl
        exact silent_of_default hl.1.1.2.1
      simp only [externalEnumProg] at h
      split at h
      · next e =>
        rw [List.isEmpty_iff] at e
        refine ⟨[], [], .inl rfl, List.nil_sublist _, by simp, fun v hm _ => .inr (listed v ?_)⟩
        cases hl : v.listed with
        | true => rfl
        | false =>
          have : v ∈ vs.filter fun v => !v.listed := List.mem_filter.2 ⟨hm, by simp [hl]⟩
          rw [e] at this; cases this
      · obtain ⟨l, es, h1, h2, h3, h4⟩ := key h List.filter_sublist
          fun v hm ht s hs => shows_external hA (hv v (List.mem_filter.1 hm).1) ht hs
        refine ⟨l, es, h1, h2, h3, fun v hm hp => ?_⟩
        cases hl : v.listed with
        | true => exact .inr (listed v hl)
        | false => exact .inl (h4 v (List.mem_filter.2 ⟨hm, by simp [hl]⟩) hp)

/-! ### Runs of the generator -/

/-- The answers in runs with the given number of calls. -/
def answersAt (Γ : τ → TypeDef τ) (n : Nat) (st : Settings) : Answers τ where
  sub t s := ∃ g g', Inv g ∧ g.settings = st ∧ subschemaFor Γ (run Γ n) t g = some (s, g')
  direct t s := ∃ g g', Inv g ∧ g.settings = st ∧ run Γ n t g = some (s, g')
  root _ _ := True
  settings := st
  defs _ := True

theorem exec_answersAt {Γ : τ → TypeDef τ} {n : Nat} (p : Prog τ) : ∀ {g g' : Gen τ} {s : Json}, Inv g →
    exec Γ (run Γ n) p g = some (s, g') → Returns (answersAt Γ n g.settings) p s := by
  induction p with
  | ret s => intro g g' s' _ h; cases h; rfl
  | sub t f ih =>
    intro g g' s' hg h
    obtain ⟨⟨s1, g1⟩, h1, h2⟩ := Option.bind_eq_some_iff.1 h
    obtain ⟨_, hp⟩ := subschemaFor_post (run_good Γ n) hg h1
    have := ih s1 hp.inv h2
    rw [hp.settings] at this
    exact ⟨s1, ⟨g, g1, hg, rfl, h1⟩, this⟩
  | direct t f ih =>
    intro g g' s' hg h
    obtain ⟨⟨s1, g1⟩, h1, h2⟩ := Option.bind_eq_some_iff.1 h
    obtain ⟨_, hp⟩ := (run_good Γ n _ _ _ _ hg h1).2
    have := ih s1 hp.inv h2
    rw [hp.settings] at this
    exact ⟨s1, ⟨g, g1, hg, rfl, h1⟩, this⟩
  | root t f ih =>
    intro g g' s' hg h
    obtain ⟨⟨s1, g1⟩, h1, h2⟩ := Option.bind_eq_some_iff.1 h
    obtain ⟨_, hp⟩ := rootSchemaFor_post (run_good Γ n) hg h1
    have := ih s1 hp.inv h2
    rw [hp.settings] at this
    exact ⟨s1, trivial, this⟩
  | askSettings f ih => intro g g' s' hg h; exact ih _ hg h
  | askDefs f ih => intro g g' s' hg h; exact ⟨g.defs, trivial, ih _ hg h⟩

namespace Spec

/-- The implementations return schemas, as `fn json_schema(_) -> Schema` says. -/
def TypedFamily (Γ : τ → TypeDef τ) : Prop :=
  ∀ t (A : Answers τ) r, Answered A → Returns A (Γ t).body r → IsSchema r

end Spec

theorem schema_sub {Γ : τ → TypeDef τ} {n : Nat}
    (hn : ∀ t g s g', Inv g → run Γ n t g = some (s, g') → IsSchema s) {t : τ} {g g' : Gen τ} {s : Json} (hg : Inv g)
    (h : subschemaFor Γ (run Γ n) t g = some (s, g')) : IsSchema s := by
  unfold subschemaFor at h
  simp only at h
  split at h
  · split at h
    · cases h; exact .obj _
    · split at h
      · cases h; exact .obj _
      · obtain ⟨g3, -, e⟩ := Option.map_eq_some_iff.1 h
        cases e; exact .obj _
  · unfold jsonSchemaInternal at h
    obtain ⟨⟨s1, g2⟩, hr, he⟩ := Option.map_eq_some_iff.1 h
    simp only [Prod.mk.injEq] at he
    obtain ⟨rfl, -⟩ := he
    refine hn _ _ _ _ ?_ hr
    refine ⟨hg.ids, hg.vals, hg.used, hg.sorted, fun v => ?_, hg.roots⟩
    simp only [Gen.note, openOf, List.mem_cons]
    by_cases hp : uidOf Γ g t ∈ g.pending
    · rw [if_neg (by simpa using hp), hg.pend v]
      constructor
      · exact .inr
      · rintro (rfl | h)
        · exact (hg.pend _).1 hp
        · exact h
    · rw [if_pos hp, List.mem_cons, hg.pend v]

theorem schema_runs {Γ : τ → TypeDef τ} (hΓ : TypedFamily Γ) (n : Nat) : ∀ t g s g', Inv g → run Γ n t g = some (s, g') →
    IsSchema s := by
  induction n with
  | zero => intro t g s g' _ h; cases h
  | succ n ih =>
    intro t g s g' hg h
    refine hΓ t (answersAt Γ n g.settings) s ⟨?_, ?_⟩ (exec_answersAt _ hg h)
    · rintro t s ⟨g, g', hg, -, h⟩; exact schema_sub ih hg h
    · rintro t s ⟨g, g', hg, -, h⟩; exact ih t g s g' hg h

/-- In runs with typed implementations, the generator answers with schemas. -/
theorem answered_runs {Γ : τ → TypeDef τ} (hΓ : TypedFamily Γ) (st : Settings) : Answered (runAnswers Γ st) := by
  refine ⟨?_, ?_⟩
  · rintro t s ⟨n, g, g', hg, -, h⟩; exact schema_sub (schema_runs hΓ n) hg h
  · rintro t s ⟨n, g, g', hg, -, h⟩; exact schema_runs hΓ n t g s g' hg h

/-- C67 for a run of the generator: the schema of a derived type has what its attributes say. -/
theorem C67_run {Γ : τ → TypeDef τ} (hΓ : TypedFamily Γ) {I : TypeInfo τ} {t : τ} {c : Container τ}
    (hc : (Γ t).body = containerProg I c)
    (hf : ∀ f, c.data = .struct (.newtype f) ∨ c.transparent = some f → Typed f.common)
    (ht : c.common.transforms = []) {n : Nat} {g g' : Gen τ} {r : Json} (hg : Inv g)
    (h : run Γ n t g = some (r, g')) : Shows c.common r := by
  have h1 := run_returns hg h
  rw [hc] at h1
  obtain ⟨s, -, h2⟩ := C67_container (answered_runs hΓ g.settings) hf ht h1
  exact fun k v hv => (h2 k (by simp)).1 v hv

/-! ### What is not in the schema -/

/-- The claim in full for the fields of a struct: what the attributes of a field say is in the schema of the struct or
in one of its subschemas. -/
def C67_Full : Prop :=
  ∀ (τ : Type) (A : Answers τ) (I : TypeInfo τ) (fs : List (Field τ)) (r : Json), Answered A →
    Returns A (structProg I fs false false) r → ∀ f ∈ present fs A.settings.contract, f.common.transforms = [] →
      ∀ k v, Says f.common k v → ∃ x, Reach standard r x ∧ Schema.get x k = some v

/-- Nothing is made of the attributes of a flattened field, apart from `required`. -/
theorem C67_flattened (I : TypeInfo τ) (cd : Bool) {f : Field τ} (hf : f.flatten = true) (a : CommonAttrs)
    (w : ValidationAttrs) (s : Json) :
    structFieldProg I cd { f with common := a, validation := w } s = structFieldProg I cd f s := by
  unfold structFieldProg
  simp only [hf, if_true]
  rfl

namespace An

/-- All types have the schema. -/
def answers (s : Json) : Answers Unit where
  sub _ x := x = s
  direct _ x := x = s
  root _ x := x = s
  settings := Settings.draft2020
  defs _ := True

def info : TypeInfo Unit := ⟨(), fun _ => false, id, fun _ => false⟩

theorem answered (m : List (String × Json)) : Answered (answers (.obj m)) where
  sub t s h := by cases h; exact .obj _
  direct t s h := by cases h; exact .obj _

theorem describes (d : String) (h : d ≠ "") : Says { description := some d } "description" (.str d) :=
  .description (by intro e he; cases he) (.inl rfl) h

/-- `#[serde(flatten)]` on a field with a doc comment. -/
def flattenedField : Field Unit :=
  { name := ⟨"a", "a"⟩, ty := (), flatten := true, common := { description := some "about a" } }

theorem flattened_result : Returns (answers (.obj [("type", .str "object")])) (structProg info [flattenedField] false false)
    (.obj [("type", .str "object")]) := by
  refine ⟨_, rfl, ?_⟩
  rfl

end An

/-- The doc comment of a flattened field is nowhere in the schema. -/
theorem C67_Full_false : ¬ C67_Full := by
  intro h
  obtain ⟨x, hx, hd⟩ := h Unit _ An.info [An.flattenedField] _ (An.answered _) An.flattened_result An.flattenedField
    (List.mem_singleton.2 rfl) rfl _ _ (An.describes _ (by decide))
  cases hx with
  | self => cases hd
  | step h _ =>
    cases h with
    | one h hk _ => cases List.mem_singleton.1 h; exact absurd hk (by decide)
    | list h _ _ _ => cases List.mem_singleton.1 h
    | map h _ _ _ => cases List.mem_singleton.1 h

/-- A struct without attributes gets the description of a flattened one. -/
theorem C67_inherited : Returns (An.answers (.obj [("description", .str "the inner one"), ("type", .str "object")]))
    (containerProg An.info { data := .struct (.struct [An.flattenedField]) })
    (.obj [("description", .str "the inner one"), ("type", .str "object")]) := by
  refine ⟨_, rfl, ?_⟩
  show _ = _
  decide +kernel

/-- `#[serde(default)] #[schemars(extend("default" = 5))] a: i32`. -/
def An.defaulted : Field Unit where
  name := ⟨"a", "a"⟩
  ty := ()
  hasDefault := true
  defaultValue := some (.num (.int 0))
  common := { extensions := [("default", .num (.int 5))] }

/-- `#[schemars(extend("default" = 5))]` on a field with `#[serde(default)]` is replaced by the default. -/
theorem C67_default : ∃ (f : Field Unit) (r : Json), f.common.transforms = [] ∧
    Says f.common "default" (.num (.int 5)) ∧
    Returns (An.answers (.obj [("type", .str "integer")])) (structProg An.info [f] false false) r ∧
    propertyAt r "a" = some (.obj [("default", .num (.int 0)), ("type", .str "integer")]) := by
  refine ⟨An.defaulted, _, rfl, .extend (l := []) (r := []) rfl (by simp), ⟨_, rfl, rfl⟩, ?_⟩
  decide +kernel

/-! ### Examples -/

namespace An

/-- `#[deprecated] #[schemars(extend("x" = 1))] a: i32`, only deserialized. -/
def field : Field Unit :=
  { name := ⟨"a", "a"⟩, ty := (), skipSer := true, common := { deprecated := true, extensions := [("x", .num (.int 1))] } }

example : ∃ s p, FieldStart (answers (.obj [("type", .str "integer")])) info field s ∧
    propertyAt (.obj [("properties", .obj [("a", .obj [("deprecated", .bool true), ("type", .str "integer"),
      ("writeOnly", .bool true), ("x", .num (.int 1))])]), ("required", .arr [.str "a"]), ("type", .str "object")]) "a" =
      some p ∧ FieldCarries field s p := by
  refine C67_fields_partial (answered _) (fs := [field]) (cd := false) (deny := false) ⟨?_, ?_⟩ ⟨_, rfl, ?_⟩ (f := field) ?_ rfl rfl
  · exact List.nodup_singleton _
  · intro f hf hfl
    rw [List.mem_singleton.1 hf] at hfl; cases hfl
  · show _ = _
    decide +kernel
  · exact List.mem_singleton.2 rfl

/-- `enum T { A, #[doc = "about b"] B }`. -/
def variants : List (Variant Unit) :=
  [{ name := ⟨"A", "A"⟩, fields := .unit }, { name := ⟨"B", "B"⟩, fields := .unit, common := { doc := some "about b" } }]

theorem variants_result : Returns (answers (.obj [])) (enumProg info .external variants false)
    (.obj [("oneOf", .arr [.obj [("enum", .arr [.str "A"]), ("type", .str "string")],
      .obj [("const", .str "B"), ("description", .str "about b"), ("type", .str "string")]])]) := by
  show _ = _
  decide +kernel

example : ∃ (first : List Json) (es : List (Variant Unit × Json)),
    (es = [] ∨ Alternatives (.obj [("oneOf", .arr [.obj [("enum", .arr [.str "A"]), ("type", .str "string")],
      .obj [("const", .str "B"), ("description", .str "about b"), ("type", .str "string")]])]) first es) ∧
      (es.map Prod.fst).Sublist variants ∧
      (∀ e ∈ es, e.1.common.transforms = [] → Shows e.1.common e.2) ∧
      ∀ v ∈ variants, VariantPresent v .deserialize → v ∈ es.map Prod.fst ∨ Silent v.common := by
  have h : ∀ v ∈ variants, v.refTy = none ∧ v.fields = .unit := by
    intro v hv
    simp only [variants, List.mem_cons, List.not_mem_nil, or_false] at hv
    rcases hv with rfl | rfl <;> exact ⟨rfl, rfl⟩
  refine C67_variants (answered _) (fun v hv => (h v hv).1) (fun v hv f e => ?_) variants_result
  rw [(h v hv).2] at e; cases e

/-- A struct with a title. -/
def titled : Container Unit where
  data := .struct (.struct [field])
  common := { title := some "A title" }

theorem titled_typed : ∀ f, titled.data = .struct (.newtype f) ∨ titled.transparent = some f → Typed f.common := by
  rintro f (hf | hf) <;> cases hf

/-- The family of this struct. -/
def types : Unit → TypeDef Unit := fun _ =>
  { schemaName := "T", schemaId := "T", inlineSchema := false, body := containerProg info titled }

theorem types_typed : TypedFamily types :=
  fun _ _ _ hA h => schema_container (c := titled) hA titled_typed (typed_nil rfl) h

theorem titled_says : Says titled.common "title" (.str "A title") :=
  .title (by intro e he; cases he) (.inl rfl) (by decide)

example {n : Nat} {g : Gen Unit} {r : Json} (h : run types n () (Gen.new Settings.draft2020) = some (r, g)) :
    Schema.get r "title" = some (.str "A title") :=
  C67_run types_typed (c := titled) rfl titled_typed rfl (Inv.new _) h _ _ titled_says

example : (run types 5 () (Gen.new Settings.draft2020)).isSome = true := by decide +kernel

example {r : Json} (h : Returns (answers (.bool true)) (reprProg [1, 2] { deprecated := true }) r) :
    Schema.get r "deprecated" = some (.bool true) ∧ Schema.get r "type" = some (.str "integer") := by
  have := C67_repr rfl h
  refine ⟨(this "deprecated" (by simp)).1 _ (.deprecated (by intro e he; cases he) rfl), ?_⟩
  rw [(this "type" (by simp)).2 ?_ (fun e => by cases e)]
  · decide +kernel
  · intro v hv
    rw [says_iff] at hv
    exact absurd hv (by simp [lastOf, saidPlain])

example {r : Json} (h : Returns (answers (.obj [])) (tupleStructProg info [field]) r) :
    ∃ es : List (Field Unit × Json), es.map Prod.fst = [field] ∧
      (es ≠ [] → Schema.get r "prefixItems" = some (.arr (es.map Prod.snd))) ∧
      ∀ e ∈ es, e.1.common.transforms = [] → ∃ s, FieldStart (answers (.obj [])) info e.1 s ∧ FieldCarries e.1 s e.2 :=
  C67_tuple (answered _) h

end An

end Verif
