import Verif.Props.PipelineValid
import Verif.Props.AcceptsEnum

/-!
# Schemas whose meaning all the transforms of the built-in settings keep

`Tidy` implies `Tame` at the schema and all its subschemas. It is kept by everything that generated implementations
do to schemas.
-/

namespace Verif
open Spec

/-- Keywords that no implementation uses (`unevaluatedProperties` only occurs when enums are flattened). -/
def strayKeys : List String :=
  ["unevaluatedProperties", "dependentSchemas", "additionalItems", "nullable", "$defs", "definitions"]

/-- What a tidy schema may have as an entry. -/
structure FineEntry (k : String) (v : Json) : Prop where
  stray : k ∉ strayKeys
  items : k = "items" → ∀ l, v ≠ .arr l
  prefixItems : k = "prefixItems" → ∃ l, v = .arr l
  ref : k = "$ref" → ∃ t, v = .str t
  allOf : k = "allOf" → ∃ l, v = .arr l
  type : k = "type" → ∀ l, v = .arr l → l ≠ [] ∧ ∀ t ∈ l, ∃ n, t = .str n

/-- Not both `const` and `enum`, and none of them beside a type that only has null. -/
structure FineValues (m : List (String × Json)) : Prop where
  const : (∀ e ∈ m, e.1 ≠ "const") ∨ ∀ e ∈ m, e.1 ≠ "enum"
  null : ∀ e ∈ m, e.1 = "type" → OnlyNull e.2 → ∀ e' ∈ m, e'.1 ≠ "const" ∧ e'.1 ≠ "enum"

/-- A schema with the conditions above, and tidy subschemas. -/
inductive Tidy : Json → Prop
  | bool (b) : Tidy (.bool b)
  | obj {m} : Obj.Sorted m → (∀ e ∈ m, FineEntry e.1 e.2) → FineValues m →
      (∀ e ∈ m, ∀ x ∈ slotSubs (subSlot e.1) e.2, Tidy x) → Tidy (.obj m)

/-- An entry of a tidy schema. -/
def TidyEntry (k : String) (v : Json) : Prop := FineEntry k v ∧ ∀ x ∈ slotSubs (subSlot k) v, Tidy x

theorem tidy_obj {m : List (String × Json)} (hs : Obj.Sorted m) (h : ∀ e ∈ m, TidyEntry e.1 e.2)
    (hv : FineValues m) : Tidy (.obj m) := .obj hs (fun e he => (h e he).1) hv fun e he => (h e he).2

theorem Tidy.entries {m : List (String × Json)} (h : Tidy (.obj m)) : ∀ e ∈ m, TidyEntry e.1 e.2 := by
  cases h with
  | obj _ h1 _ h2 => exact fun e he => ⟨h1 e he, h2 e he⟩

theorem Tidy.values {m : List (String × Json)} (h : Tidy (.obj m)) : FineValues m := by cases h; assumption

theorem Tidy.sorted {m : List (String × Json)} (h : Tidy (.obj m)) : Obj.Sorted m := by cases h; assumption

theorem Tidy.entry {m : List (String × Json)} (h : Tidy (.obj m)) {k : String} {v : Json} (hk : Obj.get m k = some v) :
    TidyEntry k v := h.entries (k, v) (Obj.get_mem hk)

theorem Tidy.sch {s : Json} (h : Tidy s) : Sch s := by
  cases h with
  | bool b => exact .bool b
  | obj hs => exact .obj hs

theorem Tidy.isSchema {s : Json} (h : Tidy s) : IsSchema s := h.sch.isSchema

theorem Tidy.notArr {s : Json} (h : Tidy s) (l : List Json) : s ≠ .arr l := by rintro rfl; cases h

theorem tidy_tame {m : List (String × Json)} (h : ∀ e ∈ m, FineEntry e.1 e.2) (hv : FineValues m) : Tame m := by
  have hf : ∀ {k v}, Obj.get m k = some v → FineEntry k v := fun hk => h _ (Obj.get_mem hk)
  have hno : ∀ k, k ∈ strayKeys → Obj.get m k = none := by
    intro k hk
    cases hg : Obj.get m k with
    | none => rfl
    | some v => exact absurd hk (hf hg).stray
  have habs : ∀ k, (∀ e ∈ m, e.1 ≠ k) → Obj.get m k = none := by
    intro k hk
    cases hg : Obj.get m k with
    | none => rfl
    | some v => exact absurd rfl (hk _ (Obj.get_mem hg))
  refine ⟨⟨hno _ (by decide), hno _ (by decide), fun l e => (hf e).items rfl l rfl, fun p e => (hf e).prefixItems rfl,
    hno _ (by decide)⟩, ⟨fun r e => (hf e).ref rfl, fun a e => (hf e).allOf rfl⟩,
    ⟨by rw [hno _ (by decide)]; simp, fun l e => ((hf e).type rfl l rfl).2, fun ty e ho => ?_⟩, ?_⟩
  · have := hv.null _ (Obj.get_mem e) rfl ho
    exact ⟨habs _ fun e he => (this e he).1, habs _ fun e he => (this e he).2⟩
  · exact plainConst_of (hv.const.imp (habs _) (habs _))

theorem Tidy.everywhere {s : Json} (h : Tidy s) : Everywhere visited (OnObj Tame) s := by
  induction h with
  | bool b => exact everywhere_bool.2 onObj_bool
  | @obj m _ h1 hv _ ih =>
    refine everywhere_iff.2 ⟨onObj_obj.2 (tidy_tame h1 hv), fun x hx => ?_⟩
    simp only [subs, List.mem_flatMap] at hx
    obtain ⟨e, he, hx⟩ := hx
    exact ih e he x hx

/-! ## Entries -/

theorem te_skip {k : String} (v : Json) (hk : subSlot k = .skip) (hs : k ∉ "$ref" :: "type" :: strayKeys) :
    TidyEntry k v := by
  simp only [List.mem_cons, not_or] at hs
  refine ⟨⟨hs.2.2, ?_, ?_, fun e => absurd e hs.1, ?_, fun e => absurd e hs.2.1⟩, ?_⟩
  any_goals (rintro rfl; exact absurd hk (by decide))
  intro x hx
  rw [hk] at hx
  cases v <;> cases hx

theorem te_type (t : String) : TidyEntry "type" (.str t) :=
  ⟨⟨by decide, by simp, by simp, by simp, by simp, fun _ l h => by cases h⟩, fun x hx => by cases hx⟩

theorem te_types {l : List Json} (h0 : l ≠ []) (h : ∀ t ∈ l, ∃ n, t = .str n) : TidyEntry "type" (.arr l) :=
  ⟨⟨by decide, by simp, by simp, by simp, by simp, fun _ l h' => by cases h'; exact ⟨h0, h⟩⟩, fun x hx => by cases hx⟩

theorem te_ref (r : String) : TidyEntry "$ref" (.str r) :=
  ⟨⟨by decide, by simp, by simp, fun _ => ⟨r, rfl⟩, by simp, by simp⟩, fun x hx => by cases hx⟩

theorem te_one {k : String} {s : Json} (hk : k ∈ ["not", "if", "then", "else", "contains", "additionalProperties", "propertyNames"])
    (h : Tidy s) : TidyEntry k s := by
  have hk' : k ∉ "items" :: "prefixItems" :: "$ref" :: "allOf" :: "type" :: strayKeys ∧ subSlot k = .one :=
    (by decide : ∀ k ∈ ["not", "if", "then", "else", "contains", "additionalProperties", "propertyNames"],
      k ∉ "items" :: "prefixItems" :: "$ref" :: "allOf" :: "type" :: strayKeys ∧ subSlot k = .one) k hk
  obtain ⟨h1, h2⟩ := hk'
  simp only [List.mem_cons, not_or] at h1
  refine ⟨⟨h1.2.2.2.2.2, fun e => absurd e h1.1, fun e => absurd e h1.2.1, fun e => absurd e h1.2.2.1,
    fun e => absurd e h1.2.2.2.1, fun e => absurd e h1.2.2.2.2.1⟩, fun x hx => ?_⟩
  rw [h2, slotSubs_one] at hx
  split at hx
  · cases List.mem_singleton.1 hx; exact h
  · cases hx

theorem te_items {s : Json} (h : Tidy s) : TidyEntry "items" s := by
  refine ⟨⟨by decide, fun _ => h.notArr, by simp, by simp, by simp, by simp⟩, fun x hx => ?_⟩
  have hx : x ∈ slotSubs .items s := hx
  cases h with
  | bool b => cases List.mem_singleton.1 hx; exact .bool b
  | obj h1 h2 h3 h4 => cases List.mem_singleton.1 hx; exact .obj h1 h2 h3 h4

theorem te_list {k : String} {l : List Json} (hk : k ∈ ["allOf", "anyOf", "oneOf", "prefixItems"])
    (h : ∀ x ∈ l, Tidy x) : TidyEntry k (.arr l) := by
  have hk' : k ∉ "items" :: "$ref" :: "type" :: strayKeys ∧ subSlot k = .list :=
    (by decide : ∀ k ∈ ["allOf", "anyOf", "oneOf", "prefixItems"],
      k ∉ "items" :: "$ref" :: "type" :: strayKeys ∧ subSlot k = .list) k hk
  obtain ⟨h1, h2⟩ := hk'
  simp only [List.mem_cons, not_or] at h1
  refine ⟨⟨h1.2.2.2, fun e => absurd e h1.1, fun _ => ⟨l, rfl⟩, fun e => absurd e h1.2.1, fun _ => ⟨l, rfl⟩,
    fun e => absurd e h1.2.2.1⟩, fun x hx => ?_⟩
  rw [h2] at hx
  exact h x (List.mem_of_mem_filter hx)

theorem te_map {k : String} {p : List (String × Json)} (hk : k ∈ ["properties", "patternProperties"])
    (h : ∀ e ∈ p, Tidy e.2) : TidyEntry k (.obj p) := by
  have hk' : k ∉ "items" :: "prefixItems" :: "$ref" :: "allOf" :: "type" :: strayKeys ∧ subSlot k = .map :=
    (by decide : ∀ k ∈ ["properties", "patternProperties"],
      k ∉ "items" :: "prefixItems" :: "$ref" :: "allOf" :: "type" :: strayKeys ∧ subSlot k = .map) k hk
  obtain ⟨h1, h2⟩ := hk'
  simp only [List.mem_cons, not_or] at h1
  refine ⟨⟨h1.2.2.2.2.2, fun e => absurd e h1.1, fun e => absurd e h1.2.1, fun e => absurd e h1.2.2.1,
    fun e => absurd e h1.2.2.2.1, fun e => absurd e h1.2.2.2.2.1⟩, fun x hx => ?_⟩
  rw [h2] at hx
  have hx := List.mem_of_mem_filter (p := isSchema) hx
  obtain ⟨e, he, rfl⟩ := List.mem_map.1 hx
  exact h e he

theorem TidyEntry.members {k : String} {p : List (String × Json)} (hk : subSlot k = .map) (h : TidyEntry k (.obj p)) :
    ∀ e ∈ p, IsSchema e.2 → Tidy e.2 := by
  intro e he hs
  refine h.2 _ ?_
  rw [hk]
  exact List.mem_filter.2 ⟨List.mem_map_of_mem he, isSchema_iff.2 hs⟩

/-! ## Values -/

theorem FineValues.none {m : List (String × Json)} (h : ∀ e ∈ m, e.1 ≠ "const" ∧ e.1 ≠ "enum") : FineValues m :=
  ⟨.inl fun e he => (h e he).1, fun _ _ _ _ e' he' => h e' he'⟩

theorem FineValues.subset {m l : List (String × Json)} (h : FineValues l) (hm : ∀ e ∈ m, e ∈ l) : FineValues m :=
  ⟨h.const.imp (fun h e he => h e (hm e he)) (fun h e he => h e (hm e he)),
    fun e he h1 h2 e' he' => h.null e (hm e he) h1 h2 e' (hm e' he')⟩

theorem mem_of_ofList {l : List (String × Json)} : ∀ e ∈ Obj.ofList l, e ∈ l := by
  suffices h : ∀ (l m : List (String × Json)) e, e ∈ l.foldl (fun m e => Obj.insert m e.1 e.2) m → e ∈ m ∨ e ∈ l by
    intro e he
    rcases h l [] e he with h | h
    · cases h
    · exact h
  intro l
  induction l with
  | nil => exact fun m e he => .inl he
  | cons a l ih =>
    intro m e he
    rcases ih _ e he with h | h
    · rcases Obj.mem_insert h with h | h
      · exact .inr (by simp [h])
      · exact .inl h
    · exact .inr (List.mem_cons_of_mem _ h)

theorem tidy_mkObj {l : List (String × Json)} (h : ∀ e ∈ l, TidyEntry e.1 e.2) (hv : FineValues l) : Tidy (mkObj l) :=
  tidy_obj (Obj.sorted_ofList l) (fun e he => h e (mem_of_ofList e he)) (hv.subset mem_of_ofList)

theorem tidy_insert {m : List (String × Json)} (h : Tidy (.obj m)) {k : String} {v : Json} (he : TidyEntry k v)
    (hv : FineValues (Obj.insert m k v)) : Tidy (.obj (Obj.insert m k v)) := by
  refine tidy_obj (Obj.sorted_insert h.sorted k v) (fun e hx => ?_) hv
  rcases Obj.mem_insert hx with rfl | hx
  · exact he
  · exact h.entries e hx

theorem FineValues.insert {m : List (String × Json)} (h : FineValues m) {k : String} (v : Json)
    (hk : k ∉ ["const", "enum", "type"]) : FineValues (Obj.insert m k v) := by
  simp only [List.mem_cons, List.not_mem_nil, or_false, not_or] at hk
  refine ⟨h.const.imp (fun h e he => ?_) (fun h e he => ?_), fun e he h1 h2 e' he' => ?_⟩
  · rcases Obj.mem_insert he with rfl | he
    · exact hk.1
    · exact h e he
  · rcases Obj.mem_insert he with rfl | he
    · exact hk.2.1
    · exact h e he
  · rcases Obj.mem_insert he with rfl | he
    · exact absurd h1 hk.2.2
    · rcases Obj.mem_insert he' with rfl | he'
      · exact ⟨hk.1, hk.2.1⟩
      · exact h.null e he h1 h2 e' he'

theorem fineValues_get {m : List (String × Json)} (hs : Obj.Sorted m) : FineValues m ↔
    (Obj.get m "const" = none ∨ Obj.get m "enum" = none) ∧
    ∀ ty, Obj.get m "type" = some ty → OnlyNull ty → Obj.get m "const" = none ∧ Obj.get m "enum" = none := by
  have hk : ∀ k, (∀ e ∈ m, e.1 ≠ k) ↔ Obj.get m k = none := by
    intro k
    constructor
    · intro h
      cases hg : Obj.get m k with
      | none => rfl
      | some v => exact absurd rfl (h _ (Obj.get_mem hg))
    · rintro h e he rfl
      rw [Obj.get_of_mem_sorted hs he] at h
      cases h
  constructor
  · intro h
    refine ⟨h.const.imp (hk _).1 (hk _).1, fun ty ht ho => ?_⟩
    have := h.null _ (Obj.get_mem ht) rfl ho
    exact ⟨(hk _).1 fun e he => (this e he).1, (hk _).1 fun e he => (this e he).2⟩
  · rintro ⟨h1, h2⟩
    refine ⟨h1.imp (hk _).2 (hk _).2, fun e he ht ho e' he' => ?_⟩
    have := h2 e.2 (by rw [← ht]; exact Obj.get_of_mem_sorted hs he) ho
    exact ⟨(hk _).2 this.1 e' he', (hk _).2 this.2 e' he'⟩

/-! ## Operations -/

theorem Tidy.ensureObject {s : Json} (h : Tidy s) : ∃ m, Schema.ensureObject s = some m ∧ Tidy (.obj m) := by
  have h0 : Tidy (.obj []) := tidy_obj .nil (fun e he => by cases he) (.none fun e he => by cases he)
  cases h with
  | obj h1 h2 h3 h4 => exact ⟨_, rfl, .obj h1 h2 h3 h4⟩
  | bool b =>
    cases b with
    | true => exact ⟨_, rfl, h0⟩
    | false =>
      refine ⟨_, rfl, tidy_obj (List.pairwise_singleton _ _) (fun e he => ?_) (.none fun e he => ?_)⟩
      · rw [List.mem_singleton.1 he]; exact te_one (by decide) h0
      · rw [List.mem_singleton.1 he]; decide

theorem Tidy.put {s : Json} (h : Tidy s) {k : String} {v : Json} (he : TidyEntry k v)
    (hk : k ∉ ["const", "enum", "type"]) : Tidy (Schema.put s k v) := by
  obtain ⟨m, e, hm⟩ := h.ensureObject
  unfold Schema.put
  rw [e]
  exact tidy_insert hm he (hm.values.insert v hk)

/-- The annotations without definitions. -/
def notes : List String := annotations.filter fun k => k ∉ ["$defs", "definitions"]

theorem te_note {k : String} (hk : k ∈ notes) (v : Json) : TidyEntry k v :=
  have h := (by decide : ∀ k ∈ notes, subSlot k = .skip ∧ k ∉ "$ref" :: "type" :: strayKeys) k hk
  te_skip v h.1 h.2

theorem Tidy.note {s : Json} (h : Tidy s) {k : String} (hk : k ∈ notes) (v : Json) : Tidy (Schema.put s k v) :=
  h.put (te_note hk v) ((by decide : ∀ k ∈ notes, k ∉ ["const", "enum", "type"]) k hk)

theorem tidy_null : Tidy nullSchema := tidy_mkObj (l := [("type", .str "null")])
  (fun e he => by rw [List.mem_singleton.1 he]; exact te_type _) (.none fun e he => by rw [List.mem_singleton.1 he]; decide)

theorem tidy_newRef (r : String) : Tidy (Schema.newRef r) := tidy_mkObj (l := [("$ref", .str r)])
  (fun e he => by rw [List.mem_singleton.1 he]; exact te_ref _)
  (.none fun e he => by rw [List.mem_singleton.1 he]; exact (by decide : "$ref" ≠ "const" ∧ "$ref" ≠ "enum"))

theorem tidy_single {k : String} {l : List Json} (hk : k ∈ ["allOf", "anyOf", "oneOf"]) (h : ∀ x ∈ l, Tidy x) :
    Tidy (.obj [(k, .arr l)]) := by
  refine tidy_obj (List.pairwise_singleton _ _) (fun e he => ?_) (.none fun e he => ?_)
  · rw [List.mem_singleton.1 he]
    exact te_list ((by decide : ∀ k ∈ ["allOf", "anyOf", "oneOf"], k ∈ ["allOf", "anyOf", "oneOf", "prefixItems"]) k hk) h
  · rw [List.mem_singleton.1 he]
    exact (by decide : ∀ k ∈ ["allOf", "anyOf", "oneOf"], k ≠ "const" ∧ k ≠ "enum") k hk

/-! ### `allow_null` -/

theorem te_allowNullType {v : Json} (h : TidyEntry "type" v) : TidyEntry "type" (allowNullType v) := by
  unfold allowNullType
  split
  · next l =>
    split
    · exact h
    · obtain ⟨-, h2⟩ := h.1.type rfl l rfl
      refine te_types (by simp) fun t ht => ?_
      rcases List.mem_append.1 ht with ht | ht
      · exact h2 t ht
      · exact ⟨_, List.mem_singleton.1 ht⟩
  · split
    · exact h
    · refine te_types (by simp) fun t ht => ?_
      simp only [List.mem_cons, List.not_mem_nil, or_false] at ht
      rcases ht with rfl | rfl <;> exact ⟨_, rfl⟩
  · exact h

theorem onlyNull_allowNullType {v : Json} (h : TidyEntry "type" v) (ho : OnlyNull (allowNullType v)) : OnlyNull v := by
  unfold allowNullType at ho
  split at ho
  · next l =>
    split at ho
    · exact ho
    · next hc =>
      exfalso
      obtain ⟨h1, -⟩ := h.1.type rfl l rfl
      rcases ho with ho | ⟨l', e, -, ho⟩
      · cases ho
      · cases e
        cases l with
        | nil => exact h1 rfl
        | cons a l =>
          have := ho a (by simp)
          subst this
          exact hc (by simp)
  · next s =>
    split at ho
    · exact ho
    · next hs =>
      exfalso
      rcases ho with ho | ⟨l', e, -, ho⟩
      · cases ho
      · cases e
        have := ho (.str s) (by simp)
        exact hs (Json.str.inj this)
  · exact ho

theorem te_values {k : String} (hk : k ∈ ["const", "enum"]) (v : Json) : TidyEntry k v :=
  have h := (by decide : ∀ k ∈ ["const", "enum"], subSlot k = .skip ∧ k ∉ "$ref" :: "type" :: strayKeys) k hk
  te_skip v h.1 h.2

theorem tidy_of_get {m : List (String × Json)} (hs : Obj.Sorted m) (h : ∀ k v, Obj.get m k = some v → TidyEntry k v)
    (h1 : Obj.get m "const" = none ∨ Obj.get m "enum" = none)
    (h2 : ∀ ty, Obj.get m "type" = some ty → OnlyNull ty → Obj.get m "const" = none ∧ Obj.get m "enum" = none) :
    Tidy (.obj m) :=
  tidy_obj hs (fun e he => h e.1 e.2 (Obj.get_of_mem_sorted hs he)) ((fineValues_get hs).2 ⟨h1, h2⟩)

theorem tidy_allowNullConst {m : List (String × Json)} (h : Tidy (.obj m)) : Tidy (.obj (allowNullConst m)) := by
  have hs := h.sorted
  obtain ⟨hv1, hv2⟩ := (fineValues_get hs).1 h.values
  unfold allowNullConst
  have hrm : ∀ k v, Obj.get (Obj.remove m "const") k = some v → Obj.get m k = some v := by
    intro k v hk
    by_cases e : "const" = k
    · subst e; rw [Obj.get_remove_self] at hk; cases hk
    · rwa [Obj.get_remove_ne _ e] at hk
  split
  · refine tidy_of_get (Obj.sorted_remove hs _) (fun k v hk => h.entry (hrm k v hk)) (.inl (Obj.get_remove_self _ _)) ?_
    intro ty ht ho
    refine ⟨Obj.get_remove_self _ _, ?_⟩
    rw [Obj.get_remove_ne _ (by decide)]
    exact (hv2 ty (hrm _ _ ht) ho).2
  · next c _ hc =>
    refine tidy_of_get (Obj.sorted_insert (Obj.sorted_remove hs _) _ _) (fun k v hk => ?_) (.inl ?_) ?_
    · rw [Obj.get_insert] at hk
      split at hk
      · next e => subst e; exact te_values (by decide) _
      · exact h.entry (hrm k v hk)
    · rw [Obj.get_insert_ne _ _ (by decide), Obj.get_remove_self]
    · intro ty ht ho
      rw [Obj.get_insert_ne _ _ (by decide)] at ht
      have := (hv2 ty (hrm _ _ ht) ho).1
      rw [hc] at this; cases this
  · next hc =>
    refine tidy_of_get (Obj.sorted_modify hs _ _) (fun k v hk => ?_) (.inl ?_) ?_
    · rw [Obj.get_modify] at hk
      split at hk
      · next e => subst e; exact te_values (by decide) _
      · exact h.entry hk
    · rw [Obj.get_modify, if_neg (by decide)]; exact hc
    · intro ty ht ho
      rw [Obj.get_modify, if_neg (by decide)] at ht
      have := hv2 ty ht ho
      rw [Obj.get_modify, if_neg (by decide), Obj.get_modify, if_pos rfl, this.2]
      exact ⟨this.1, rfl⟩

theorem tidy_allowNull {s : Json} (h : Tidy s) : Tidy (allowNull s) := by
  cases s with
  | bool b => cases b with
    | true => exact .bool _
    | false => exact tidy_null
  | obj m =>
    unfold allowNull
    simp only
    split
    · exact h
    · split
      · refine tidy_single (by decide) fun x hx => ?_
        simp only [List.mem_cons, List.not_mem_nil, or_false] at hx
        rcases hx with rfl | rfl
        · exact h
        · exact tidy_null
      · have hs := h.sorted
        obtain ⟨hv1, hv2⟩ := (fineValues_get hs).1 h.values
        apply tidy_allowNullConst
        refine tidy_of_get (Obj.sorted_modify hs _ _) (fun k v hk => ?_) ?_ ?_
        · rw [Obj.get_modify] at hk
          split at hk
          · next e =>
            subst e
            obtain ⟨v', hv', rfl⟩ := Option.map_eq_some_iff.1 hk
            exact te_allowNullType (h.entry hv')
          · exact h.entry hk
        · rw [Obj.get_modify, if_neg (by decide), Obj.get_modify, if_neg (by decide)]; exact hv1
        · intro ty ht ho
          rw [Obj.get_modify, if_pos rfl] at ht
          obtain ⟨v', hv', rfl⟩ := Option.map_eq_some_iff.1 ht
          rw [Obj.get_modify, if_neg (by decide), Obj.get_modify, if_neg (by decide)]
          exact hv2 v' hv' (onlyNull_allowNullType (h.entry hv') ho)
  | _ => cases h

/-! ### Internal tags -/

theorem not_onlyNull {t : String} (h : t ≠ "null") : ¬ OnlyNull (.str t) := by
  rintro (e | ⟨l, e, -⟩)
  · exact h (Json.str.inj e)
  · cases e

/-- A literal schema. -/
theorem tidy_lit {l : List (String × Json)} (h : ∀ e ∈ l, TidyEntry e.1 e.2) (hc : ∀ e ∈ l, e.1 ≠ "const" ∧ e.1 ≠ "enum") :
    Tidy (mkObj l) := tidy_mkObj h (.none hc)

/-- A literal schema with a type and values. -/
theorem tidy_typed {t k : String} (ht : t ≠ "null") (hk : k ∈ ["const", "enum"]) (v : Json) :
    Tidy (mkObj [("type", .str t), (k, v)]) := by
  have hk' := (by decide : ∀ k ∈ ["const", "enum"], k ≠ "type" ∧ (k ≠ "const" ∨ k ≠ "enum")) k hk
  refine tidy_mkObj (fun e he => ?_) ⟨?_, fun e he h1 h2 => ?_⟩
  · simp only [List.mem_cons, List.not_mem_nil, or_false] at he
    rcases he with rfl | rfl
    · exact te_type _
    · exact te_values hk _
  · refine hk'.2.imp (fun h e he => ?_) (fun h e he => ?_)
    all_goals
      simp only [List.mem_cons, List.not_mem_nil, or_false] at he
      rcases he with rfl | rfl
      · show "type" ≠ _; decide
      · exact h
  · simp only [List.mem_cons, List.not_mem_nil, or_false] at he
    rcases he with rfl | rfl
    · exact absurd h2 (not_onlyNull ht)
    · exact absurd h1 hk'.1

theorem tidy_tag (name : String) : Tidy (tagSchema name) := tidy_typed (by decide) (by decide) _

theorem te_insertMember {v : Json} (h : TidyEntry "properties" v) (k : String) {s : Json} (hs : Tidy s) :
    TidyEntry "properties" (insertMember k s v) := by
  unfold insertMember
  split
  · next p =>
    refine ⟨⟨by decide, by simp, by simp, by simp, by simp, by simp⟩, fun x hx => ?_⟩
    obtain ⟨hx, hi⟩ := List.mem_filter.1 (show x ∈ ((Obj.insert p k s).map Prod.snd).filter isSchema from hx)
    obtain ⟨e, he, rfl⟩ := List.mem_map.1 hx
    rcases Obj.mem_insert he with rfl | he
    · exact hs
    · exact h.members rfl e he (isSchema_iff.1 hi)
  · exact h

theorem tidy_internalTag {s : Json} (h : Tidy s) (tag name : String) (deny : Bool) :
    Tidy (applyInternalTag s tag name deny) := by
  obtain ⟨m, e, hm⟩ := h.ensureObject
  unfold applyInternalTag
  rw [e]
  simp only
  have hs := hm.sorted
  have h1 : Tidy (.obj (Obj.insert m "type" (.str "object"))) := by
    refine tidy_insert hm (te_type _) ((fineValues_get (Obj.sorted_insert hs _ _)).2 ⟨?_, fun ty ht ho => ?_⟩)
    · rw [Obj.get_insert_ne _ _ (by decide), Obj.get_insert_ne _ _ (by decide)]
      exact ((fineValues_get hs).1 hm.values).1
    · rw [Obj.get_insert_self] at ht
      cases ht
      exact absurd ho (not_onlyNull (by decide))
  have hent : ∀ {m : List (String × Json)} (k : String) (d : Json) (f : Json → Json), Tidy (.obj m) → TidyEntry k d →
      k ∉ ["const", "enum", "type"] → (∀ v, TidyEntry k v → TidyEntry k (f v)) → Tidy (.obj (Obj.entryOr m k d f)) := by
    intro m k d f hm hd hk hf
    refine tidy_insert hm (hf _ ?_) (hm.values.insert _ hk)
    cases hg : Obj.get m k with
    | none => exact hd
    | some v => exact hm.entry hg
  have h2 := hent "properties" (.obj []) (insertMember tag (tagSchema name)) h1
    (te_map (by decide) (fun e he => by cases he)) (by decide) fun v hv => te_insertMember hv tag (tidy_tag name)
  have h3 := hent "required" (.arr []) (unshiftElem (.str tag)) h2 (te_skip _ (by decide) (by decide)) (by decide)
    fun v _ => te_skip _ (by decide) (by decide)
  split
  · exact hent _ _ _ h3 (te_one (by decide) (.bool _)) (by decide) fun _ hv => hv
  · exact h3

/-! ### Standard types -/

theorem te_same {k : String} (hk : k ∈ ["properties", "patternProperties"]) {names : List String} {v : Json}
    (h : Tidy v) : TidyEntry k (.obj (sameFor names v)) :=
  te_map hk fun e he => by rw [(mem_sameFor.1 he).2]; exact h

theorem tidy_map (path : List Char) (d : List (String × Json)) (ks : Json) {vs : Json} (h : Tidy vs) :
    Tidy (mapSchema path d ks vs) := by
  unfold mapSchema
  split
  · unfold mapFrom
    simp only
    have h0 : ∀ v, Tidy v → Tidy (.obj [("additionalProperties", v), ("type", .str "object")]) := by
      intro v hv
      refine tidy_obj (by unfold Obj.Sorted; simp) (fun e he => ?_) (.none fun e he => ?_)
      · simp only [List.mem_cons, List.not_mem_nil, or_false] at he
        rcases he with rfl | rfl
        · exact te_one (k := "additionalProperties") (by decide) hv
        · exact te_type _
      · simp only [List.mem_cons, List.not_mem_nil, or_false] at he
        rcases he with rfl | rfl
        · exact (by decide : "additionalProperties" ≠ "const" ∧ "additionalProperties" ≠ "enum")
        · decide
    have hap : ∀ b : Bool, Tidy (if b = true then vs else .bool false) := by
      intro b; split
      · exact h
      · exact .bool _
    have hins : ∀ {m : List (String × Json)} {k : String} (names : List String), Tidy (.obj m) →
        k ∈ ["properties", "patternProperties"] → Tidy (.obj (Obj.insert m k (.obj (sameFor names vs)))) :=
      fun names hm hk => tidy_insert hm (te_same hk h) (hm.values.insert _
        ((by decide : ∀ k ∈ ["properties", "patternProperties"], k ∉ ["const", "enum", "type"]) _ hk))
    split <;> split
    · exact h0 _ (hap _)
    · exact hins _ (h0 _ (hap _)) (by decide)
    · exact hins _ (h0 _ (hap _)) (by decide)
    · exact hins _ (hins _ (h0 _ (hap _)) (by decide)) (by decide)
  · refine tidy_lit ?_ ?_
    · simp only [List.mem_cons, List.not_mem_nil, or_false, forall_eq_or_imp, forall_eq]
      exact ⟨te_one (by decide) h, te_type _⟩
    · simp only [List.mem_cons, List.not_mem_nil, or_false, forall_eq_or_imp, forall_eq]
      decide

theorem tidy_int (t : IntTy) : Tidy (intSchema t) := by
  have hsk : ∀ {k : String} (v : Json), k ∈ ["format", "minimum", "maximum"] → TidyEntry k v := fun v hk =>
    have h := (by decide : ∀ k ∈ ["format", "minimum", "maximum"], subSlot k = .skip ∧ k ∉ "$ref" :: "type" :: strayKeys) _ hk
    te_skip v h.1 h.2
  have h1 : ∀ f lo hi, Tidy (rangedInt f lo hi) := by
    intro f lo hi
    refine tidy_lit ?_ ?_
    · simp only [List.mem_cons, List.not_mem_nil, or_false, forall_eq_or_imp, forall_eq]
      exact ⟨te_type _, hsk _ (by decide), hsk _ (by decide), hsk _ (by decide)⟩
    · simp only [List.mem_cons, List.not_mem_nil, or_false, forall_eq_or_imp, forall_eq]
      decide
  have h2 : ∀ f, Tidy (unsignedInt f) := by
    intro f
    refine tidy_lit ?_ ?_
    · simp only [List.mem_cons, List.not_mem_nil, or_false, forall_eq_or_imp, forall_eq]
      exact ⟨te_type _, hsk _ (by decide), hsk _ (by decide)⟩
    · simp only [List.mem_cons, List.not_mem_nil, or_false, forall_eq_or_imp, forall_eq]
      decide
  have h3 : ∀ f, Tidy (typeFormat "integer" f) := by
    intro f
    refine tidy_lit ?_ ?_
    · simp only [List.mem_cons, List.not_mem_nil, or_false, forall_eq_or_imp, forall_eq]
      exact ⟨te_type _, hsk _ (by decide)⟩
    · simp only [List.mem_cons, List.not_mem_nil, or_false, forall_eq_or_imp, forall_eq]
      decide
  cases t
  all_goals first
    | exact h1 _ _ _
    | exact h2 _
    | exact h3 _

theorem tidy_object {l : List (String × Json)} {r : Json} (h : ∀ e ∈ l, Tidy e.2) :
    Tidy (mkObj [("type", .str "object"), ("properties", mkObj l), ("required", r)]) := by
  refine tidy_lit ?_ ?_
  · simp only [List.mem_cons, List.not_mem_nil, or_false, forall_eq_or_imp, forall_eq]
    exact ⟨te_type _, te_map (by decide) fun e he => h e (mem_of_ofList e he), te_skip _ (by decide) (by decide)⟩
  · simp only [List.mem_cons, List.not_mem_nil, or_false, forall_eq_or_imp, forall_eq]
    decide

theorem tidy_oneProperty (k : String) {s : Json} (h : Tidy s) : Tidy (oneProperty k s) :=
  tidy_object fun e he => by rw [List.mem_singleton.1 he]; exact h

theorem tidy_oneOf {l : List Json} (h : ∀ x ∈ l, Tidy x) : Tidy (mkObj [("oneOf", .arr l)]) :=
  tidy_single (k := "oneOf") (by decide) h

theorem tidy_seq {s : Json} (h : Tidy s) : Tidy (seqSchema s) := by
  refine tidy_lit ?_ ?_
  · simp only [List.mem_cons, List.not_mem_nil, or_false, forall_eq_or_imp, forall_eq]
    exact ⟨te_type _, te_items h⟩
  · simp only [List.mem_cons, List.not_mem_nil, or_false, forall_eq_or_imp, forall_eq]
    decide

theorem tidy_time (a b : String) : Tidy (timeSchema a b) := by
  refine tidy_lit ?_ ?_ <;> simp only [List.mem_cons, List.not_mem_nil, or_false, forall_eq_or_imp, forall_eq]
  · refine ⟨te_type _, te_skip _ (by decide) (by decide), te_map (by decide) fun e he => ?_⟩
    have he := mem_of_ofList e he
    simp only [List.mem_cons, List.not_mem_nil, or_false] at he
    rcases he with rfl | rfl
    exacts [tidy_int .u64, tidy_int .u32]
  · decide

theorem tidy_closed {l : List (String × Json)} {r : Json} (h : ∀ e ∈ l, Tidy e.2) :
    Tidy (mkObj [("type", .str "object"), ("properties", mkObj l), ("required", r), ("additionalProperties", .bool false)]) := by
  refine tidy_lit ?_ ?_
  · simp only [List.mem_cons, List.not_mem_nil, or_false, forall_eq_or_imp, forall_eq]
    exact ⟨te_type _, te_map (by decide) fun e he => h e (mem_of_ofList e he), te_skip _ (by decide) (by decide),
      te_one (by decide) (.bool _)⟩
  · simp only [List.mem_cons, List.not_mem_nil, or_false, forall_eq_or_imp, forall_eq]
    decide

theorem tidy_eitherSide (k : String) {s : Json} (h : Tidy s) : Tidy (eitherSide k s) := by
  refine tidy_lit ?_ ?_
  · simp only [List.mem_cons, List.not_mem_nil, or_false, forall_eq_or_imp, forall_eq]
    exact ⟨te_type _, te_map (by decide) fun e he => by rw [List.mem_singleton.1 (mem_of_ofList e he)]; exact h,
      te_one (by decide) (.bool _), te_skip _ (by decide) (by decide)⟩
  · simp only [List.mem_cons, List.not_mem_nil, or_false, forall_eq_or_imp, forall_eq]
    decide

theorem te_plain {k : String} (v : Json)
    (hk : k ∈ ["format", "pattern", "minItems", "maxItems", "minLength", "maxLength", "uniqueItems", "minimum", "maximum"]) :
    TidyEntry k v :=
  have h := (by decide : ∀ k ∈ ["format", "pattern", "minItems", "maxItems", "minLength", "maxLength", "uniqueItems",
    "minimum", "maximum"], subSlot k = .skip ∧ k ∉ "$ref" :: "type" :: strayKeys) _ hk
  te_skip v h.1 h.2

theorem te_contract (c : Contract) : TidyEntry "type" (match c with
    | .deserialize => .arr [.str "array", .str "string"]
    | .serialize => .str "array") := by
  cases c with
  | serialize => exact te_type _
  | deserialize =>
    refine te_types (by simp) fun t ht => ?_
    simp only [List.mem_cons, List.not_mem_nil, or_false] at ht
    rcases ht with rfl | rfl <;> exact ⟨_, rfl⟩

/-- The schemas of standard types are tidy. -/
theorem std_tidy {τ : Type} {A : Answers τ} {s : Json} (hs : ∀ t s, A.sub t s → Tidy s) {x : Std τ}
    (h : Returns A (stdBody x) s) : Tidy s := by
  cases x with
  | simple t =>
    cases h
    refine tidy_lit ?_ ?_ <;> simp only [List.mem_cons, List.not_mem_nil, or_false, forall_eq]
    · exact te_type t
    · decide
  | formatted t f =>
    cases h
    refine tidy_lit ?_ ?_ <;> simp only [List.mem_cons, List.not_mem_nil, or_false, forall_eq_or_imp, forall_eq]
    · exact ⟨te_type t, te_plain _ (by decide)⟩
    · decide
  | value => cases h; exact .bool _
  | option t => obtain ⟨s1, h1, rfl⟩ := h; exact tidy_allowNull (hs t s1 h1)
  | int t => cases h; exact tidy_int t
  | nonZero t =>
    cases h
    unfold nonZeroSchema
    split
    · refine (tidy_int t).put (te_one (by decide) (tidy_mkObj (fun e he => ?_) ⟨.inr fun e he => ?_, fun e he => ?_⟩)) (by decide)
      all_goals rw [List.mem_singleton.1 he]
      · exact te_values (by decide) _
      · decide
      · intro h; exact absurd h (by decide)
    · exact (tidy_int t).put (te_plain _ (by decide)) (by decide)
  | char =>
    cases h
    refine tidy_lit ?_ ?_ <;> simp only [List.mem_cons, List.not_mem_nil, or_false, forall_eq_or_imp, forall_eq]
    · exact ⟨te_type _, te_plain _ (by decide), te_plain _ (by decide)⟩
    · decide
  | emptyArray =>
    cases h
    refine tidy_lit ?_ ?_ <;> simp only [List.mem_cons, List.not_mem_nil, or_false, forall_eq_or_imp, forall_eq]
    · exact ⟨te_type _, te_plain _ (by decide)⟩
    · decide
  | tuple l =>
    obtain ⟨ss, h1, rfl⟩ := returns_subAll h
    refine tidy_lit ?_ ?_ <;> simp only [List.mem_cons, List.not_mem_nil, or_false, forall_eq_or_imp, forall_eq]
    · refine ⟨te_type _, te_list (by decide) ?_, te_plain _ (by decide), te_plain _ (by decide)⟩
      clear h
      induction h1 with
      | nil => exact fun x hx => by cases hx
      | cons hx _ ih =>
        intro x hx'
        rcases List.mem_cons.1 hx' with rfl | hx'
        · exact hs _ _ hx
        · exact ih x hx'
    · decide
  | map k v => obtain ⟨ks, _, vs, hv, d, _, rfl⟩ := h; exact tidy_map _ _ _ (hs _ _ hv)
  | seq t => obtain ⟨s1, h1, rfl⟩ := h; exact tidy_seq (hs _ _ h1)
  | set t =>
    obtain ⟨s1, h1, rfl⟩ := h
    refine tidy_lit ?_ ?_ <;> simp only [List.mem_cons, List.not_mem_nil, or_false, forall_eq_or_imp, forall_eq]
    · exact ⟨te_type _, te_plain _ (by decide), te_items (hs _ _ h1)⟩
    · decide
  | array n t =>
    obtain ⟨s1, h1, rfl⟩ := h
    refine tidy_lit ?_ ?_ <;> simp only [List.mem_cons, List.not_mem_nil, or_false, forall_eq_or_imp, forall_eq]
    · exact ⟨te_type _, te_items (hs _ _ h1), te_plain _ (by decide), te_plain _ (by decide)⟩
    · decide
  | range t =>
    obtain ⟨s1, h1, rfl⟩ := h
    refine tidy_object ?_
    simp only [List.mem_cons, List.not_mem_nil, or_false, forall_eq_or_imp, forall_eq]
    exact ⟨hs _ _ h1, hs _ _ h1⟩
  | duration => cases h; exact tidy_time _ _
  | systemTime => cases h; exact tidy_time _ _
  | result t e =>
    obtain ⟨s1, h1, s2, h2, rfl⟩ := h
    refine tidy_oneOf ?_
    simp only [List.mem_cons, List.not_mem_nil, or_false, forall_eq_or_imp, forall_eq]
    exact ⟨tidy_oneProperty _ (hs _ _ h1), tidy_oneProperty _ (hs _ _ h2)⟩
  | bound t =>
    obtain ⟨s1, h1, s2, h2, rfl⟩ := h
    refine tidy_oneOf ?_
    simp only [List.mem_cons, List.not_mem_nil, or_false, forall_eq_or_imp, forall_eq]
    exact ⟨tidy_oneProperty _ (hs _ _ h1), tidy_oneProperty _ (hs _ _ h2), tidy_tag _⟩
  | either t e =>
    obtain ⟨s1, h1, s2, h2, rfl⟩ := h
    refine tidy_oneOf ?_
    simp only [List.mem_cons, List.not_mem_nil, or_false, forall_eq_or_imp, forall_eq]
    exact ⟨tidy_eitherSide _ (hs _ _ h1), tidy_eitherSide _ (hs _ _ h2)⟩
  | osString =>
    cases h
    refine tidy_oneOf ?_
    simp only [List.mem_cons, List.not_mem_nil, or_false, forall_eq_or_imp, forall_eq]
    exact ⟨tidy_oneProperty _ (tidy_seq (tidy_int _)), tidy_oneProperty _ (tidy_seq (tidy_int _))⟩
  | bytes t =>
    obtain ⟨s1, h1, h⟩ := h
    simp only [Returns] at h
    subst h
    refine tidy_lit ?_ ?_ <;> simp only [List.mem_cons, List.not_mem_nil, or_false, forall_eq_or_imp, forall_eq]
    · exact ⟨te_contract _, te_items (hs _ _ h1)⟩
    · decide
  | cString =>
    simp only [stdBody, Returns] at h; subst h
    refine tidy_lit ?_ ?_ <;> simp only [List.mem_cons, List.not_mem_nil, or_false, forall_eq_or_imp, forall_eq]
    · refine ⟨te_contract _, te_items (tidy_lit ?_ ?_)⟩ <;>
        simp only [List.mem_cons, List.not_mem_nil, or_false, forall_eq_or_imp, forall_eq]
      · exact ⟨te_type _, te_plain _ (by decide), te_plain _ (by decide)⟩
      · decide
    · decide
  | decimal =>
    simp only [stdBody, Returns] at h; subst h
    cases A.settings.contract
    all_goals
      unfold decimalSchema
      refine tidy_lit ?_ ?_ <;> simp only [List.mem_cons, List.not_mem_nil, or_false, forall_eq_or_imp, forall_eq]
      rotate_left
      · decide
      refine ⟨?_, te_plain _ (by decide)⟩
    · exact te_types (by simp) fun t ht => by
        simp only [List.mem_cons, List.not_mem_nil, or_false] at ht
        rcases ht with rfl | rfl <;> exact ⟨_, rfl⟩
    · exact te_type _

end Verif
