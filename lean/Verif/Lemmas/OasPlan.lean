import Verif.Spec.OpenApi
import Verif.Props.FlattenInner
import Verif.Lemmas.Derive
import Verif.Lemmas.MetaValid
import Verif.Impls

/-!
# Schemas that can be expressed in OpenAPI 3.0, by their entries
-/

namespace Verif
open Spec

/-- What the value of a keyword is. -/
inductive OasKind where
  | plain | text | types | one | many | props | below | closed | never
deriving DecidableEq

def oasKind (k : String) : OasKind :=
  if k = "type" then .types
  else if k = "$ref" then .text
  else if k = "not" ∨ k = "items" then .one
  else if k = "allOf" ∨ k = "anyOf" ∨ k = "oneOf" then .many
  else if k = "properties" then .props
  else if k = "additionalProperties" then .below
  else if k = "unevaluatedProperties" then .closed
  else if k ∈ oasKeywords ∨ k ∈ ["const", "examples"] ∨ k.toList.take 2 = ['x', '-'] then .plain
  else .never

def planShape (c : Bool) : OasKind → Json → Prop
  | .text, v => ∃ s, v = .str s
  | .types, v => (∃ t ∈ oasTypes, v = .str t) ∨ OasNull v
  | .many, v => ∃ l, v = .arr l
  | .props, v => ∃ p, v = .obj p
  | .closed, _ => c = true
  | .never, _ => False
  | _, _ => True

/-- The subschemas in it. -/
def planNested : OasKind → Json → List Json
  | .one, v => [v]
  | .many, .arr l => l
  | .props, .obj p => p.map (·.2)
  | _, _ => []

/-- The subschema in it that allows no bools below. -/
def planBelow : OasKind → Json → List Json
  | .below, .bool _ => []
  | .closed, .bool _ => []
  | .below, v => [v]
  | .closed, v => [v]
  | _, _ => []

/-- `OasStage`, for all entries. -/
inductive OasPlan : Bool → Json → Prop
  | bool (b : Bool) : OasPlan true (.bool b)
  | obj {c : Bool} {m : List (String × Json)} (shape : ∀ e ∈ m, planShape c (oasKind e.1) e.2)
      (nested : ∀ e ∈ m, ∀ x ∈ planNested (oasKind e.1) e.2, OasPlan c x)
      (below : ∀ e ∈ m, ∀ x ∈ planBelow (oasKind e.1) e.2, OasPlan false x) : OasPlan c (.obj m)

def PlanEntry (c : Bool) (k : String) (v : Json) : Prop :=
  planShape c (oasKind k) v ∧ (∀ x ∈ planNested (oasKind k) v, OasPlan c x) ∧ ∀ x ∈ planBelow (oasKind k) v, OasPlan false x

section
variable {c : Bool}

theorem plan_obj {m : List (String × Json)} (h : ∀ e ∈ m, PlanEntry c e.1 e.2) : OasPlan c (.obj m) :=
  .obj (fun e he => (h e he).1) (fun e he => (h e he).2.1) fun e he => (h e he).2.2

theorem OasPlan.entries {m : List (String × Json)} (h : OasPlan c (.obj m)) : ∀ e ∈ m, PlanEntry c e.1 e.2 := by
  cases h with
  | obj h1 h2 h3 => exact fun e he => ⟨h1 e he, h2 e he, h3 e he⟩

theorem OasPlan.entry {m : List (String × Json)} (h : OasPlan c (.obj m)) {k : String} {v : Json}
    (hk : Obj.get m k = some v) : PlanEntry c k v := h.entries (k, v) (Obj.get_mem hk)

theorem OasPlan.isSchema {s : Json} (h : OasPlan c s) : IsSchema s := by
  cases h with
  | bool b => exact .bool b
  | obj => exact .obj _

/-! ## Entries -/

theorem pe_one {k : String} {v : Json} (hk : oasKind k = .one) (h : OasPlan c v) : PlanEntry c k v := by
  unfold PlanEntry; rw [hk]
  exact ⟨trivial, fun x hx => by rw [List.mem_singleton.1 hx]; exact h, fun x hx => by cases hx⟩

theorem pe_schemas {k : String} {l : List Json} (hk : oasKind k = .many) (h : ∀ x ∈ l, OasPlan c x) :
    PlanEntry c k (.arr l) := by
  unfold PlanEntry; rw [hk]
  exact ⟨⟨l, rfl⟩, h, fun x hx => by cases hx⟩

theorem pe_map {p : List (String × Json)} (h : ∀ e ∈ p, OasPlan c e.2) : PlanEntry c "properties" (.obj p) := by
  unfold PlanEntry; rw [show oasKind "properties" = .props by decide]
  refine ⟨⟨p, rfl⟩, fun x hx => ?_, fun x hx => by cases hx⟩
  obtain ⟨e, he, rfl⟩ := List.mem_map.1 hx
  exact h e he

theorem pe_ref (t : String) : PlanEntry c "$ref" (.str t) := by
  unfold PlanEntry; rw [show oasKind "$ref" = .text by decide]
  exact ⟨⟨t, rfl⟩, fun x hx => (by cases hx), fun x hx => by cases hx⟩

theorem pe_plain {k : String} (hk : oasKind k = .plain) (v : Json) : PlanEntry c k v := by
  unfold PlanEntry; rw [hk]
  exact ⟨trivial, fun x hx => (by cases hx), fun x hx => by cases hx⟩

theorem pe_type {v : Json} (h : (∃ t ∈ oasTypes, v = .str t) ∨ OasNull v) : PlanEntry c "type" v := by
  unfold PlanEntry; rw [show oasKind "type" = .types by decide]
  exact ⟨h, fun x hx => (by cases hx), fun x hx => by cases hx⟩

theorem pe_below {v : Json} (h : (∃ b, v = .bool b) ∨ OasPlan false v) : PlanEntry c "additionalProperties" v := by
  unfold PlanEntry; rw [show oasKind "additionalProperties" = .below by decide]
  refine ⟨trivial, fun x hx => (by cases hx), fun x hx => ?_⟩
  rcases h with ⟨b, rfl⟩ | h
  · cases hx
  · cases h with
    | obj h1 h2 h3 => rw [List.mem_singleton.1 hx]; exact .obj h1 h2 h3

theorem pe_closed {v : Json} (h : (∃ b, v = .bool b) ∨ OasPlan false v) : PlanEntry true "unevaluatedProperties" v := by
  unfold PlanEntry; rw [show oasKind "unevaluatedProperties" = .closed by decide]
  refine ⟨rfl, fun x hx => (by cases hx), fun x hx => ?_⟩
  rcases h with ⟨b, rfl⟩ | h
  · cases hx
  · cases h with
    | obj h1 h2 h3 => rw [List.mem_singleton.1 hx]; exact .obj h1 h2 h3

theorem PlanEntry.types {v : Json} (h : PlanEntry c "type" v) : (∃ t ∈ oasTypes, v = .str t) ∨ OasNull v := by
  unfold PlanEntry at h; rw [show oasKind "type" = .types by decide] at h
  exact h.1

theorem PlanEntry.one {k : String} {v : Json} (hk : oasKind k = .one) (h : PlanEntry c k v) : OasPlan c v := by
  unfold PlanEntry at h; rw [hk] at h
  exact h.2.1 v (List.mem_singleton.2 rfl)

theorem PlanEntry.schemas {k : String} {v : Json} (hk : oasKind k = .many) (h : PlanEntry c k v) :
    ∃ l, v = .arr l ∧ ∀ x ∈ l, OasPlan c x := by
  unfold PlanEntry at h; rw [hk] at h
  obtain ⟨⟨l, rfl⟩, h2, -⟩ := h
  exact ⟨l, rfl, h2⟩

theorem PlanEntry.members {v : Json} (h : PlanEntry c "properties" v) : ∃ p, v = .obj p ∧ ∀ e ∈ p, OasPlan c e.2 := by
  unfold PlanEntry at h; rw [show oasKind "properties" = .props by decide] at h
  obtain ⟨⟨p, rfl⟩, h2, -⟩ := h
  exact ⟨p, rfl, fun e he => h2 _ (List.mem_map_of_mem he)⟩

theorem PlanEntry.below {v : Json} (h : PlanEntry c "additionalProperties" v) : (∃ b, v = .bool b) ∨ OasPlan false v := by
  unfold PlanEntry at h; rw [show oasKind "additionalProperties" = .below by decide] at h
  cases v with
  | bool b => exact .inl ⟨b, rfl⟩
  | _ => exact .inr (h.2.2 _ (List.mem_singleton.2 rfl))

/-! ## Building -/

theorem plan_insert {m : List (String × Json)} (h : OasPlan c (.obj m)) {k : String} {v : Json}
    (he : PlanEntry c k v) : OasPlan c (.obj (Obj.insert m k v)) := by
  refine plan_obj fun e hx => ?_
  rcases Obj.mem_insert hx with rfl | hx
  · exact he
  · exact h.entries e hx

theorem plan_remove {m : List (String × Json)} (h : OasPlan c (.obj m)) (k : String) :
    OasPlan c (.obj (Obj.remove m k)) := plan_obj fun e hx => h.entries e (Obj.mem_remove.1 hx).1

theorem plan_modify {m : List (String × Json)} (h : OasPlan c (.obj m)) {k : String} {f : Json → Json}
    (hf : ∀ v, PlanEntry c k v → PlanEntry c k (f v)) : OasPlan c (.obj (Obj.modify m k f)) := by
  refine plan_obj fun e hx => ?_
  rcases Obj.mem_modify hx with hx | ⟨v, hv, rfl⟩
  · exact h.entries e hx
  · exact hf v (h.entries _ hv)

theorem plan_entryOr {m : List (String × Json)} (h : OasPlan c (.obj m)) {k : String} {v : Json} {f : Json → Json}
    (hd : PlanEntry c k v) (hf : ∀ v, PlanEntry c k v → PlanEntry c k (f v)) :
    OasPlan c (.obj (Obj.entryOr m k v f)) := by
  refine plan_insert h (hf _ ?_)
  cases hg : Obj.get m k with
  | none => exact hd
  | some v => exact h.entry hg

/-- A literal schema. -/
theorem plan_lit {l : List (String × Json)} (h : ∀ e ∈ l, PlanEntry c e.1 e.2) : OasPlan c (mkObj l) := by
  refine plan_obj fun e he => ?_
  rcases mem_of_extend e he with he | he
  · cases he
  · exact h e he

theorem plan_empty : OasPlan c (.obj []) := plan_obj fun e he => by cases he

theorem plan_single {k : String} {v : Json} (h : PlanEntry c k v) : OasPlan c (.obj [(k, v)]) :=
  plan_obj fun e he => by rw [List.mem_singleton.1 he]; exact h

theorem OasPlan.ensureObject {s : Json} (h : OasPlan c s) :
    ∃ m, Schema.ensureObject s = some m ∧ OasPlan c (.obj m) := by
  cases h with
  | obj h1 h2 h3 => exact ⟨_, rfl, .obj h1 h2 h3⟩
  | bool t =>
    cases t with
    | true => exact ⟨_, rfl, plan_empty⟩
    | false => exact ⟨_, rfl, plan_single (pe_one (by decide) plan_empty)⟩

theorem OasPlan.put {s : Json} (h : OasPlan c s) {k : String} {v : Json} (he : PlanEntry c k v) :
    OasPlan c (Schema.put s k v) := by
  obtain ⟨m, e, hm⟩ := h.ensureObject
  unfold Schema.put
  rw [e]
  exact plan_insert hm he

theorem plan_null : OasPlan c nullSchema := plan_single (pe_type (.inr (.inl rfl)))

theorem plan_newRef (r : String) : OasPlan c (Schema.newRef r) := plan_single (pe_ref r)

/-! ## `allow_null` -/

theorem pe_allowNullType {v : Json} (h : PlanEntry c "type" v) : PlanEntry c "type" (allowNullType v) := by
  rcases h.types with ⟨t, ht, rfl⟩ | rfl | ⟨l, rfl, hn, hl⟩
  · unfold allowNullType
    simp only
    split
    · exact h
    · next hne =>
      refine pe_type (.inr (.inr ⟨_, rfl, by simp, .inr ⟨t, ht, ?_⟩⟩))
      simp [hne]
  · exact h
  · unfold allowNullType
    simp only
    rw [if_pos (List.contains_iff_mem.2 hn)]
    exact h

theorem pe_enum (l : List Json) : PlanEntry c "enum" (.arr l) := pe_plain (by decide) _

theorem plan_allowNullConst {m : List (String × Json)} (h : OasPlan c (.obj m)) :
    OasPlan c (.obj (allowNullConst m)) := by
  unfold allowNullConst
  split
  · exact plan_remove h _
  · exact plan_insert (plan_remove h _) (pe_enum _)
  · refine plan_modify h fun v hv => ?_
    unfold allowNullEnum
    split
    · split
      · exact hv
      · exact pe_enum _
    · exact hv

theorem plan_allowNull {s : Json} (h : OasPlan c s) : OasPlan c (allowNull s) := by
  cases s with
  | bool t =>
    cases t with
    | true => exact h
    | false => exact plan_null
  | obj m =>
    unfold allowNull
    simp only
    split
    · exact h
    · split
      · refine plan_single (pe_schemas (by decide) fun x hx => ?_)
        simp only [List.mem_cons, List.not_mem_nil, or_false] at hx
        rcases hx with rfl | rfl
        · exact h
        · exact plan_null
      · exact plan_allowNullConst (plan_modify h fun v => pe_allowNullType)
  | _ => cases h

/-! ## Properties and tags -/

theorem pe_insertMember {v : Json} (h : PlanEntry c "properties" v) (k : String) {s : Json} (hs : OasPlan c s) :
    PlanEntry c "properties" (insertMember k s v) := by
  obtain ⟨p, rfl, hp⟩ := h.members
  refine pe_map fun e he => ?_
  rcases Obj.mem_insert he with rfl | he
  · exact hs
  · exact hp e he

theorem pe_noProperties : PlanEntry c "properties" (.obj []) := pe_map fun e he => by cases he

theorem pe_required (v : Json) : PlanEntry c "required" v := pe_plain (by decide) v

theorem plan_insertObjectProperty {s : Json} (h : OasPlan c s) (key : String) (opt : Bool) {sub : Json}
    (hs : OasPlan c sub) : OasPlan c (insertObjectProperty s key opt sub) := by
  obtain ⟨m, e, hm⟩ := h.ensureObject
  unfold insertObjectProperty
  rw [e]
  simp only
  have h1 := plan_entryOr hm pe_noProperties (f := insertMember key sub) fun v hv => pe_insertMember hv key hs
  split
  · exact h1
  · exact plan_entryOr h1 (pe_required _) fun v _ => pe_required _

theorem plan_tag (name : String) : OasPlan c (tagSchema name) := by
  refine plan_lit ?_
  simp only [List.mem_cons, List.not_mem_nil, or_false, forall_eq_or_imp, forall_eq]
  exact ⟨pe_type (.inl ⟨"string", by decide, rfl⟩), pe_plain (by decide) _⟩

theorem plan_internalTag {s : Json} (h : OasPlan c s) (tag name : String) (deny : Bool) :
    OasPlan c (applyInternalTag s tag name deny) := by
  obtain ⟨m, e, hm⟩ := h.ensureObject
  unfold applyInternalTag
  rw [e]
  simp only
  have h1 := plan_insert hm (pe_type (.inl ⟨"object", by decide, rfl⟩))
  have h2 := plan_entryOr h1 pe_noProperties (f := insertMember tag (tagSchema name))
    fun v hv => pe_insertMember hv tag (plan_tag name)
  have h3 := plan_entryOr h2 (pe_required (.arr [])) (f := unshiftElem (.str tag)) fun v _ => pe_required _
  split
  · exact plan_entryOr h3 (pe_below (.inl ⟨_, rfl⟩)) fun _ hv => hv
  · exact h3

/-! ## `flatten` -/

theorem plan_flattenPlain {m : List (String × Json)} (h : OasPlan c (.obj m)) {k : String} {v : Json}
    (he : PlanEntry c k v) : OasPlan c (.obj (flattenPlain m k v)) := by
  unfold flattenPlain
  split
  · exact plan_insert h he
  · next v1 hg =>
    have h1 := h.entry hg
    split
    · next hk =>
      split
      · next a1 a2 =>
        refine plan_insert h ?_
        rcases hk with rfl | rfl
        · exact pe_required _
        · obtain ⟨l1, e1, h1⟩ := h1.schemas (by decide)
          obtain ⟨l2, e2, h2⟩ := he.schemas (by decide)
          cases e1; cases e2
          refine pe_schemas (by decide) fun x hx => ?_
          rcases List.mem_append.1 hx with hx | hx
          · exact h1 x hx
          · exact h2 x hx
      · exact h
    · split
      · next hk =>
        split
        · next o1 o2 =>
          rcases hk with rfl | rfl
          · refine plan_insert h (pe_map fun e hx => ?_)
            obtain ⟨p1, e1, h1⟩ := h1.members
            obtain ⟨p2, e2, h2⟩ := he.members
            cases e1; cases e2
            rcases mem_of_extend e hx with hx | hx
            · exact h1 e hx
            · exact h2 e hx
          · exact (show False from he.1).elim
        · exact h
      · exact h

theorem plan_flattenProperty {m : List (String × Json)} (h : OasPlan c (.obj m)) {k : String} {v : Json}
    (he : PlanEntry c k v) : OasPlan c (.obj (flattenProperty m k v)) := by
  unfold flattenProperty
  split
  · next v1 hg =>
    split
    · next hk =>
      refine plan_flattenPlain (plan_remove h _) (pe_schemas (by decide) fun x hx => ?_)
      simp only [List.mem_cons, List.not_mem_nil, or_false] at hx
      rcases hx with rfl | rfl
      · exact plan_single (h.entry hg)
      · exact plan_single he
    · exact plan_flattenPlain h he
  · exact plan_flattenPlain h he

theorem plan_normalise {m1 : List (String × Json)} (h : OasPlan true (.obj m1)) (m2 : List (String × Json)) :
    OasPlan true (.obj (normaliseUnevaluated m1 m2)) := by
  unfold normaliseUnevaluated
  split
  · next ap hg =>
    split
    · exact plan_insert (plan_remove h _) (pe_closed (h.entry hg).below)
    · exact h
  · exact h

theorem plan_flattenObjects {m1 m2 : List (String × Json)} (h1 : OasPlan true (.obj m1))
    (h2 : OasPlan true (.obj m2)) : OasPlan true (.obj (flattenObjects m1 m2)) := by
  unfold flattenObjects
  simp only
  have h3 := plan_normalise h1 m2
  have h4 := (plan_normalise h2 (normaliseUnevaluated m1 m2)).entries
  generalize normaliseUnevaluated m1 m2 = n1 at h3 h4
  generalize normaliseUnevaluated m2 n1 = n2 at h4
  induction n2 generalizing n1 with
  | nil => exact h3
  | cons e l ih =>
    exact ih _ (plan_flattenProperty h3 (h4 e (List.mem_cons_self ..))) fun e he => h4 e (List.mem_cons_of_mem _ he)

theorem plan_flatten {s o : Json} (h1 : OasPlan true s) (h2 : OasPlan true o) :
    OasPlan true (flatten s o) := by
  cases o with
  | bool t =>
    cases t with
    | false => exact h1
    | true =>
      unfold flatten
      simp only
      split
      · split
        · split
          · exact plan_insert h1 (pe_closed (.inl ⟨_, rfl⟩))
          · exact plan_insert h1 (pe_below (.inl ⟨_, rfl⟩))
        · exact h1
      · exact h1
  | obj m2 =>
    obtain ⟨m, e, hm⟩ := h1.ensureObject
    unfold flatten
    simp only [e]
    exact plan_flattenObjects hm h2
  | _ => cases h2

/-! ## `AllowUnknownProperties` -/

theorem plan_drop {m : List (String × Json)} (h : OasPlan c (.obj m)) (k : String) :
    OasPlan c (.obj (dropIfFalse m k)) := by
  unfold dropIfFalse
  split
  · exact plan_remove h k
  · exact h

theorem immSlot_oas (k : String) : (immSlot k = .one ∧ (oasKind k = .one ∨ oasKind k = .never)) ∨
    (immSlot k = .list ∧ (oasKind k = .many ∨ oasKind k = .never)) ∨ immSlot k = .skip := by
  unfold immSlot
  split
  any_goals exact .inl ⟨rfl, by decide⟩
  any_goals exact .inr (.inl ⟨rfl, by decide⟩)
  exact .inr (.inr rfl)

/-- A function that keeps schemas may be applied to the immediate subschemas. -/
theorem plan_imm {T : Json → Json} {m : List (String × Json)} (h : OasPlan c (.obj m))
    (hT : ∀ e ∈ m, ∀ x ∈ planNested (oasKind e.1) e.2, OasPlan c (T x)) : OasPlan c (tsub immSlot T (.obj m)) := by
  refine plan_obj fun e0 he0 => ?_
  obtain ⟨e, he, rfl⟩ := List.mem_map.1 he0
  have h1 := h.entries e he
  have h2 := hT e he
  have hnever : oasKind e.1 ≠ .never := fun hk => by
    have := h1.1; rw [hk] at this; exact this
  simp only
  rcases immSlot_oas e.1 with ⟨hs, hk⟩ | ⟨hs, hk⟩ | hs
  · have hk := hk.resolve_right hnever
    rw [hs]
    refine pe_one hk ?_
    show OasPlan c (atSchema T e.2)
    unfold atSchema
    rw [hk] at h2
    split
    · exact h2 _ (List.mem_singleton.2 rfl)
    · exact h1.one hk
  · have hk := hk.resolve_right hnever
    rw [hs]
    obtain ⟨l, e1, h3⟩ := h1.schemas hk
    rw [e1]
    refine pe_schemas hk fun x hx => ?_
    obtain ⟨y, hy, rfl⟩ := List.mem_map.1 hx
    rw [hk, e1] at h2
    unfold atSchema
    split
    · exact h2 y hy
    · exact h3 y hy
  · rw [hs, atSlot_skip]
    exact h1

theorem plan_allowUnknown {s : Json} (h : OasPlan c s) : OasPlan c (allowUnknown s) := by
  induction h with
  | bool t => rw [allowUnknown_eq (.bool t)]; exact .bool t
  | @obj c m h1 h2 h3 ih _ =>
    rw [allowUnknown_eq (.obj m)]
    refine plan_imm (plan_drop (plan_drop (.obj h1 h2 h3) _) _) fun e he => ih e ?_
    have hd : ∀ {m : List (String × Json)} {k}, e ∈ dropIfFalse m k → e ∈ m := by
      intro m k he
      unfold dropIfFalse at he
      split at he
      · exact (Obj.mem_remove.1 he).1
      · exact he
    exact hd (hd he)

theorem plan_allowUnknownBelow {s : Json} (h : OasPlan c s) : OasPlan c (tsub immSlot allowUnknown s) := by
  cases h with
  | bool t => exact .bool t
  | obj h1 h2 h3 => exact plan_imm (.obj h1 h2 h3) fun e he x hx => plan_allowUnknown (h2 e he x hx)

/-! ## Stages -/

theorem oasKind_cases {k : String} (h : oasKind k ≠ .never) : k ∈ oasKeywords ∨ Extension k ∨ k ∈ ["const", "examples", "$ref"] ∨
    k = "unevaluatedProperties" := by
  unfold oasKind at h
  by_cases h1 : k = "type"
  · subst h1; exact .inl (by decide)
  rw [if_neg h1] at h
  by_cases h2 : k = "$ref"
  · subst h2; exact .inr (.inr (.inl (by decide)))
  rw [if_neg h2] at h
  by_cases h3 : k = "not" ∨ k = "items"
  · rcases h3 with rfl | rfl <;> exact .inl (by decide)
  rw [if_neg h3] at h
  by_cases h4 : k = "allOf" ∨ k = "anyOf" ∨ k = "oneOf"
  · rcases h4 with rfl | rfl | rfl <;> exact .inl (by decide)
  rw [if_neg h4] at h
  by_cases h5 : k = "properties"
  · subst h5; exact .inl (by decide)
  rw [if_neg h5] at h
  by_cases h6 : k = "additionalProperties"
  · subst h6; exact .inl (by decide)
  rw [if_neg h6] at h
  by_cases h7 : k = "unevaluatedProperties"
  · exact .inr (.inr (.inr h7))
  rw [if_neg h7] at h
  by_cases h8 : k ∈ oasKeywords ∨ k ∈ ["const", "examples"] ∨ k.toList.take 2 = ['x', '-']
  · rcases h8 with h8 | h8 | h8
    · exact .inl h8
    · exact .inr (.inr (.inl ((by decide : ∀ k ∈ ["const", "examples"], k ∈ ["const", "examples", "$ref"]) k h8)))
    · refine .inr (.inl ⟨k.toList.drop 2, ?_⟩)
      rw [← List.take_append_drop 2 k.toList, h8]
      simp
  · rw [if_neg h8] at h; exact absurd rfl h

theorem OasPlan.stage {s : Json} (h : OasPlan c s) : OasStage ["const", "examples", "$ref"] true true true c s := by
  induction h with
  | bool b => exact .bool b
  | @obj c m h1 h2 h3 i2 i3 =>
    have hm : ∀ {k v}, Obj.get m k = some v → (k, v) ∈ m := fun h => Obj.get_mem h
    have one : ∀ k ∈ ["not", "items"], oasKind k = .one := by decide
    have many : ∀ k ∈ ["allOf", "anyOf", "oneOf"], oasKind k = .many := by decide
    refine .obj ⟨fun k v hk => ?_, fun ty ht => ?_, fun r hr => ⟨?_, fun h => by cases h⟩⟩ (fun v hv => ⟨rfl, ?_⟩) (fun v hv hn => ?_)
      (fun k hk v hv => i2 _ (hm hv) v (by rw [one k hk]; exact List.mem_singleton.2 rfl)) (fun k hk v hv => ?_)
      (fun k hk l hl x hx => i2 _ (hm hl) x (by rw [many k hk]; exact hx)) (fun v hv => ?_)
      (fun p hp e he => i2 _ (hm hp) e.2 (List.mem_map_of_mem he)) (fun v hv hn => ?_)
    · refine oasKind_cases fun hk' => ?_
      have := h1 _ (hm hk)
      rw [hk'] at this; exact this
    · exact (h1 _ (hm ht)).imp id fun h => ⟨rfl, h⟩
    · exact h1 _ (hm hr)
    · exact h1 _ (hm hv)
    · refine i3 _ (hm hv) v ?_
      cases v with
      | bool b => exact absurd rfl (hn b)
      | _ => exact List.mem_singleton.2 rfl
    · have := h1 _ (hm hv); rw [many k hk] at this; exact this
    · exact h1 _ (hm hv)
    · refine i3 _ (hm hv) v ?_
      cases v with
      | bool b => exact absurd rfl (hn b)
      | _ => exact List.mem_singleton.2 rfl

end

end Verif
