import Verif.Lemmas.Tidy
import Verif.Props.AcceptsFlatten

/-!
# Flattening keeps schemas tidy
-/

namespace Verif
open Spec

/-- The schema is tidy, and has none of the keywords that do not mix with others when it is flattened. -/
structure Lax (m : List (String × Json)) : Prop where
  tidy : Tidy (.obj m)
  free : ∀ k ∈ ["additionalProperties", "const", "enum"], Obj.get m k = none

theorem absent_iff {m : List (String × Json)} {k : String} : Obj.get m k = none ↔ ∀ e ∈ m, e.1 ≠ k := by
  rw [Obj.get_eq_none]
  constructor
  · rintro h e he rfl
    exact h (List.mem_map_of_mem he)
  · intro h hk
    obtain ⟨e, he, rfl⟩ := List.mem_map.1 hk
    exact h e he rfl

theorem lax_of {m : List (String × Json)} (hs : Obj.Sorted m) (h : ∀ e ∈ m, TidyEntry e.1 e.2)
    (hf : ∀ k ∈ ["additionalProperties", "const", "enum"], Obj.get m k = none) : Lax m := by
  refine ⟨tidy_obj hs h (.none fun e he => ?_), hf⟩
  exact ⟨absent_iff.1 (hf _ (by decide)) e he, absent_iff.1 (hf _ (by decide)) e he⟩

theorem Lax.insert {m : List (String × Json)} (h : Lax m) {k : String} {v : Json} (he : TidyEntry k v)
    (hk : k ∉ ["additionalProperties", "const", "enum"]) : Lax (Obj.insert m k v) := by
  refine lax_of (Obj.sorted_insert h.tidy.sorted _ _) (fun e hx => ?_) fun q hq => ?_
  · rcases Obj.mem_insert hx with rfl | hx
    · exact he
    · exact h.tidy.entries e hx
  · rw [Obj.get_insert_ne _ _ (by rintro rfl; exact hk hq)]
    exact h.free q hq

theorem Lax.remove {m : List (String × Json)} (h : Lax m) (k : String) : Lax (Obj.remove m k) := by
  refine lax_of (Obj.sorted_remove h.tidy.sorted _) (fun e hx => h.tidy.entries e (Obj.mem_remove.1 hx).1) fun q hq => ?_
  rw [absent_iff]
  exact fun e hx => absent_iff.1 (h.free q hq) e (Obj.mem_remove.1 hx).1

/-! ### `flatten` -/

theorem te_append {l1 l2 : List Json} (h1 : TidyEntry "allOf" (.arr l1)) (h2 : TidyEntry "allOf" (.arr l2)) :
    TidyEntry "allOf" (.arr (l1 ++ l2)) := by
  refine ⟨⟨by decide, by simp, by simp, by simp, fun _ => ⟨_, rfl⟩, by simp⟩, fun x hx => ?_⟩
  have hx : x ∈ (l1 ++ l2).filter isSchema := hx
  rw [List.filter_append] at hx
  rcases List.mem_append.1 hx with hx | hx
  · exact h1.2 x hx
  · exact h2.2 x hx

theorem mem_extend_cases {α : Type} {l m : List (String × α)} : ∀ e ∈ Obj.extend m l, e ∈ m ∨ e ∈ l := by
  unfold Obj.extend
  induction l generalizing m with
  | nil => exact fun e he => .inl he
  | cons a l ih =>
    intro e he
    rcases ih e he with h | h
    · rcases Obj.mem_insert h with h | h
      · exact .inr (by simp [h])
      · exact .inl h
    · exact .inr (List.mem_cons_of_mem _ h)

theorem te_extend {k : String} (hk : k = "properties" ∨ k = "patternProperties") {o1 o2 : List (String × Json)}
    (h1 : TidyEntry k (.obj o1)) (h2 : TidyEntry k (.obj o2)) : TidyEntry k (.obj (Obj.extend o1 o2)) := by
  have hs : subSlot k = .map := by rcases hk with rfl | rfl <;> rfl
  refine ⟨⟨h1.1.stray, ?_, ?_, ?_, ?_, ?_⟩, fun x hx => ?_⟩
  any_goals (rintro rfl; exact absurd hk (by decide))
  rw [hs] at hx
  obtain ⟨hx, hi⟩ := List.mem_filter.1 (show x ∈ ((Obj.extend o1 o2).map Prod.snd).filter isSchema from hx)
  obtain ⟨e, he, rfl⟩ := List.mem_map.1 hx
  rcases mem_extend_cases e he with he | he
  · exact h1.members hs e he (isSchema_iff.1 hi)
  · exact h2.members hs e he (isSchema_iff.1 hi)

theorem Lax.flattenPlain {m : List (String × Json)} (h : Lax m) {k : String} {v : Json} (he : TidyEntry k v)
    (hk : k ∉ ["additionalProperties", "const", "enum"]) : Lax (flattenPlain m k v) := by
  unfold Verif.flattenPlain
  split
  · exact h.insert he hk
  · next v1 hg =>
    have h1 := h.tidy.entry hg
    split
    · next hk' =>
      split
      · refine h.insert ?_ hk
        rcases hk' with rfl | rfl
        · exact te_skip _ (by decide) (by decide)
        · exact te_append h1 he
      · exact h
    · split
      · next hk' =>
        split
        · exact h.insert (te_extend hk' h1 he) hk
        · exact h
      · exact h

theorem tidy_one {k : String} {v : Json} (h : TidyEntry k v) (hk : k ≠ "const" ∧ k ≠ "enum") : Tidy (.obj [(k, v)]) := by
  refine tidy_obj (List.pairwise_singleton _ _) (fun e he => ?_) (.none fun e he => ?_)
  · rw [List.mem_singleton.1 he]; exact h
  · rw [List.mem_singleton.1 he]; exact hk

theorem Lax.flattenProperty {m : List (String × Json)} (h : Lax m) {k : String} {v : Json} (he : TidyEntry k v)
    (hk : k ∉ ["additionalProperties", "const", "enum"]) : Lax (flattenProperty m k v) := by
  unfold Verif.flattenProperty
  split
  · next v1 hg =>
    split
    · next hk' =>
      refine (h.remove k).flattenPlain (te_list (by decide) fun x hx => ?_) (by decide)
      have hne : k ≠ "const" ∧ k ≠ "enum" := by rcases hk' with rfl | rfl <;> decide
      simp only [List.mem_cons, List.not_mem_nil, or_false] at hx
      rcases hx with rfl | rfl
      · exact tidy_one (h.tidy.entry hg) hne
      · exact tidy_one he hne
    · exact h.flattenPlain he hk
  · exact h.flattenPlain he hk

theorem Lax.flattenObjects {m1 m2 : List (String × Json)} (h1 : Lax m1) (h2 : Lax m2) : Lax (flattenObjects m1 m2) := by
  unfold Verif.flattenObjects
  simp only
  rw [normalise_id (h1.free _ (by decide)), normalise_id (h2.free _ (by decide))]
  have h3 : ∀ e ∈ m2, TidyEntry e.1 e.2 ∧ e.1 ∉ ["additionalProperties", "const", "enum"] := fun e he =>
    ⟨h2.tidy.entries e he, fun hk => absent_iff.1 (h2.free _ hk) e he rfl⟩
  clear h2
  induction m2 generalizing m1 with
  | nil => exact h1
  | cons e l ih =>
    have := h3 e (List.mem_cons_self ..)
    exact ih (h1.flattenProperty this.1 this.2) fun e he => h3 e (List.mem_cons_of_mem _ he)

/-! ### `AllowUnknownProperties` -/

theorem immSlot_sub (k : String) : (immSlot k = .one ∧ k ∈ ["if", "then", "else"]) ∨
    (immSlot k = .list ∧ k ∈ ["allOf", "anyOf", "oneOf"]) ∨ immSlot k = .skip := by
  unfold immSlot
  split
  any_goals exact .inl ⟨rfl, by decide⟩
  any_goals exact .inr (.inl ⟨rfl, by decide⟩)
  exact .inr (.inr rfl)

theorem te_atSlot {T : Json → Json} {k : String} {v : Json} (h : TidyEntry k v)
    (hT : ∀ x ∈ slotSubs (subSlot k) v, Tidy (T x)) :
    TidyEntry k (atSlot T (immSlot k) v) := by
  rcases immSlot_sub k with ⟨hs, hk⟩ | ⟨hs, hk⟩ | hs
  · rw [hs]
    show TidyEntry k (atSchema T v)
    unfold atSchema
    split
    · next hi =>
      refine te_one ((by decide : ∀ k ∈ ["if", "then", "else"],
        k ∈ ["not", "if", "then", "else", "contains", "additionalProperties", "propertyNames"]) k hk) (hT v ?_)
      have : subSlot k = .one := (by decide : ∀ k ∈ ["if", "then", "else"], subSlot k = .one) k hk
      rw [this, slotSubs_one, if_pos hi]
      exact List.mem_singleton.2 rfl
    · exact h
  · rw [hs]
    have hsub : subSlot k = .list := (by decide : ∀ k ∈ ["allOf", "anyOf", "oneOf"], subSlot k = .list) k hk
    cases v with
    | arr l =>
      have hne : k ∉ "items" :: "$ref" :: "type" :: strayKeys :=
        (by decide : ∀ k ∈ ["allOf", "anyOf", "oneOf"], k ∉ "items" :: "$ref" :: "type" :: strayKeys) k hk
      simp only [List.mem_cons, not_or] at hne
      refine ⟨⟨hne.2.2.2, fun e => absurd e hne.1, fun _ => ⟨_, rfl⟩, fun e => absurd e hne.2.1, fun _ => ⟨_, rfl⟩,
        fun e => absurd e hne.2.2.1⟩, fun x hx => ?_⟩
      rw [hsub] at hx
      have hx : x ∈ (l.map (atSchema T)).filter isSchema := hx
      obtain ⟨hx, hi⟩ := List.mem_filter.1 hx
      obtain ⟨y, hy, rfl⟩ := List.mem_map.1 hx
      unfold atSchema at hi ⊢
      split at hi
      · next hyi =>
        rw [if_pos hyi]
        refine hT y ?_
        rw [hsub]
        exact List.mem_filter.2 ⟨hy, hyi⟩
      · next hyi => exact absurd hi hyi
    | _ => exact h
  · rw [hs, atSlot_skip]; exact h

theorem mem_dropIfFalse {m : List (String × Json)} {k : String} {e : String × Json} (h : e ∈ dropIfFalse m k) : e ∈ m := by
  unfold dropIfFalse at h
  split at h
  · exact (Obj.mem_remove.1 h).1
  · exact h

theorem sorted_dropIfFalse {m : List (String × Json)} (h : Obj.Sorted m) (k : String) : Obj.Sorted (dropIfFalse m k) := by
  unfold dropIfFalse
  split
  · exact Obj.sorted_remove h _
  · exact h

theorem tidy_allowUnknown {s : Json} (h : Tidy s) : Tidy (allowUnknown s) := by
  induction h with
  | bool b => rw [allowUnknown_eq (.bool b)]; exact .bool b
  | @obj m h1 h2 h3 h4 ih =>
    rw [allowUnknown_eq (.obj m)]
    have hm : Tidy (.obj m) := .obj h1 h2 h3 h4
    have hs := sorted_dropIfFalse (sorted_dropIfFalse h1 "additionalProperties") "unevaluatedProperties"
    show Tidy (.obj ((dropIfFalse (dropIfFalse m "additionalProperties") "unevaluatedProperties").map
      fun e => (e.1, atSlot allowUnknown (immSlot e.1) e.2)))
    have hmem : ∀ e ∈ dropIfFalse (dropIfFalse m "additionalProperties") "unevaluatedProperties", e ∈ m :=
      fun e he => mem_dropIfFalse (mem_dropIfFalse he)
    generalize dropIfFalse (dropIfFalse m "additionalProperties") "unevaluatedProperties" = m' at hs hmem
    refine tidy_obj (List.pairwise_map.2 hs) (fun e0 he0 => ?_) ⟨?_, ?_⟩
    · obtain ⟨e, he, rfl⟩ := List.mem_map.1 he0
      exact te_atSlot (hm.entries e (hmem e he)) (ih e (hmem e he))
    · refine h3.const.imp (fun h e0 he0 => ?_) (fun h e0 he0 => ?_)
      · obtain ⟨e, he, rfl⟩ := List.mem_map.1 he0
        exact h e (hmem e he)
      · obtain ⟨e, he, rfl⟩ := List.mem_map.1 he0
        exact h e (hmem e he)
    · intro e0 he0 hk ho e1 he1
      obtain ⟨e, he, rfl⟩ := List.mem_map.1 he0
      obtain ⟨e', he', rfl⟩ := List.mem_map.1 he1
      have hk : e.1 = "type" := hk
      have ho : OnlyNull (atSlot allowUnknown (immSlot e.1) e.2) := ho
      rw [hk, show immSlot "type" = .skip from rfl, atSlot_skip] at ho
      exact h3.null e (hmem e he) hk ho e' (hmem e' he')

theorem Lax.allowUnknown {m : List (String × Json)} (h : Lax m) : ∃ m', allowUnknown (.obj m) = .obj m' ∧ Lax m' := by
  have ht := tidy_allowUnknown h.tidy
  rw [allowUnknown_eq (.obj m)] at ht
  refine ⟨(dropIfFalse (dropIfFalse m "additionalProperties") "unevaluatedProperties").map
      fun (e : String × Json) => (e.1, atSlot Verif.allowUnknown (immSlot e.1) e.2), allowUnknown_eq (.obj m), ht,
    fun k hk => ?_⟩
  rw [absent_iff]
  intro e0 he0
  obtain ⟨e, he, rfl⟩ := List.mem_map.1 he0
  exact absent_iff.1 (h.free k hk) e (mem_dropIfFalse (mem_dropIfFalse he))

/-! ### `json_schema_for_flatten` -/

theorem tidy_unitVariant (name : String) : Tidy (unitVariantObject name) := by
  refine tidy_lit ?_ (by simp)
  simp only [List.mem_cons, List.not_mem_nil, or_false, forall_eq_or_imp, forall_eq]
  refine ⟨te_type _, te_map (by decide) fun e he => ?_, te_skip _ (by decide) (by decide)⟩
  rw [List.mem_singleton.1 (mem_of_ofList e he)]
  exact tidy_null

theorem te_alternatives {l : List Json} (h : TidyEntry "oneOf" (.arr l)) (units : List Json) :
    TidyEntry "oneOf" (.arr (l ++ (units.filterMap Json.asStr?).map unitVariantObject)) := by
  refine ⟨⟨by decide, by simp, by simp, by simp, by simp, by simp⟩, fun x hx => ?_⟩
  have hx : x ∈ (l ++ (units.filterMap Json.asStr?).map unitVariantObject).filter isSchema := hx
  rw [List.filter_append] at hx
  rcases List.mem_append.1 hx with hx | hx
  · exact h.2 x hx
  · obtain ⟨n, -, rfl⟩ := List.mem_map.1 (List.mem_filter.1 hx).1
    exact tidy_unitVariant n

theorem Lax.addUnits {m : List (String × Json)} (h : Lax m) (units : List Json) :
    Lax (Obj.entryOr m "oneOf" (.arr []) fun v =>
      match v with
      | .arr l => .arr (l ++ (units.filterMap Json.asStr?).map unitVariantObject)
      | v => v) := by
  unfold Obj.entryOr
  refine h.insert ?_ (by decide)
  have hv : TidyEntry "oneOf" ((Obj.get m "oneOf").getD (.arr [])) := by
    cases hg : Obj.get m "oneOf" with
    | none => exact te_list (by decide) fun x hx => by cases hx
    | some v => exact h.tidy.entry hg
  generalize (Obj.get m "oneOf").getD (.arr []) = v at hv
  cases v with
  | arr l => exact te_alternatives hv units
  | _ => exact hv

/-- What an enum has before it is flattened: alternatives, or the names of its variants. -/
def Listed (m : List (String × Json)) : Prop :=
  Lax m ∨ Tidy (.obj m) ∧ Obj.get m "additionalProperties" = none ∧ Obj.get m "const" = none ∧
    Obj.get m "type" = some (.str "string") ∧ ∃ a, Obj.get m "enum" = some (.arr a)

theorem Lax.removeUnits {m : List (String × Json)} (h : Lax m) :
    ∃ m' u, removeUnitVariants (.obj m) = (.obj m', u) ∧ Lax m' := by
  have he : Obj.get m "enum" = none := h.free _ (by decide)
  have hrest : ∃ m' u, (match Obj.get m "oneOf" with
      | some (.arr (.obj first :: rest)) =>
        match (Obj.get first "type").bind Json.asStr? == some "string", Obj.get first "enum" with
        | true, some (.arr a) => (Json.obj (Obj.insert m "oneOf" (.arr rest)), some a)
        | true, _ => (.obj (Obj.insert m "oneOf" (.arr (.obj (Obj.remove first "enum") :: rest))), none)
        | _, _ => (.obj m, none)
      | _ => (.obj m, none)) = (.obj m', u) ∧ Lax m' := by
    split
    · next first rest ho =>
      have hv := h.tidy.entry ho
      have hall : ∀ x ∈ Json.obj first :: rest, IsSchema x → Tidy x := fun x hx hi =>
        hv.2 x (List.mem_filter.2 ⟨hx, isSchema_iff.2 hi⟩)
      split
      · next a _ _ =>
        refine ⟨_, _, rfl, h.insert ⟨⟨by decide, by simp, by simp, by simp, by simp, by simp⟩, fun x hx => ?_⟩ (by decide)⟩
        obtain ⟨hx, hi⟩ := List.mem_filter.1 (show x ∈ rest.filter isSchema from hx)
        exact hall x (List.mem_cons_of_mem _ hx) (isSchema_iff.1 hi)
      · refine ⟨_, _, rfl, h.insert ⟨⟨by decide, by simp, by simp, by simp, by simp, by simp⟩, fun x hx => ?_⟩ (by decide)⟩
        obtain ⟨hx, hi⟩ := List.mem_filter.1 (show x ∈ (Json.obj (Obj.remove first "enum") :: rest).filter isSchema from hx)
        rcases List.mem_cons.1 hx with rfl | hx
        · have h1 := hall _ (List.mem_cons_self ..) (.obj first)
          exact tidy_obj (Obj.sorted_remove h1.sorted _) (fun e he => h1.entries e (Obj.mem_remove.1 he).1)
            (h1.values.subset fun e he => (Obj.mem_remove.1 he).1)
        · exact hall x (List.mem_cons_of_mem _ hx) (isSchema_iff.1 hi)
      · exact ⟨m, none, rfl, h⟩
    · exact ⟨m, none, rfl, h⟩
  unfold removeUnitVariants
  simp only [he, Obj.remove_of_get_none he, ite_self]
  cases (Obj.get m "type").bind Json.asStr? == some "string" with
  | true => exact hrest
  | false => exact hrest

theorem Listed.expand {m : List (String × Json)} (h : Listed m) :
    ∃ m', expandUnitVariants (.obj m) = .obj m' ∧ Lax m' := by
  unfold expandUnitVariants
  rcases h with h | ⟨ht, h1, h2, h3, a, h4⟩
  · obtain ⟨m', u, e, hm⟩ := h.removeUnits
    rw [e]
    cases u with
    | none => exact ⟨m', rfl, hm⟩
    | some us => exact ⟨_, rfl, hm.addUnits us⟩
  · have hr : removeUnitVariants (.obj m) = (.obj (Obj.remove (Obj.remove m "enum") "type"), some a) := by
      unfold removeUnitVariants
      simp only [h3, h4]
      rfl
    have hm : Lax (Obj.remove (Obj.remove m "enum") "type") := by
      refine lax_of (Obj.sorted_remove (Obj.sorted_remove ht.sorted _) _)
        (fun e he => ht.entries e (Obj.mem_remove.1 (Obj.mem_remove.1 he).1).1) fun k hk => ?_
      rw [Obj.get_remove_ne _ ((by decide : ∀ k ∈ ["additionalProperties", "const", "enum"], "type" ≠ k) k hk)]
      simp only [List.mem_cons, List.not_mem_nil, or_false] at hk
      rcases hk with rfl | rfl | rfl
      · rw [Obj.get_remove_ne _ (by decide)]; exact h1
      · rw [Obj.get_remove_ne _ (by decide)]; exact h2
      · exact Obj.get_remove_self ..
    rw [hr]
    exact ⟨_, rfl, hm.addUnits a⟩

theorem tidy_empty : Tidy (.obj []) := tidy_obj .nil (fun e he => by cases he) (.none fun e he => by cases he)

theorem Lax.optional {m : List (String × Json)} (h : Lax m) : ∃ m', flattenOptional (.obj m) = .obj m' ∧ Lax m' := by
  have hpush : ∀ {m : List (String × Json)}, Lax m → Lax (Obj.modify m "anyOf" fun a =>
      match a with
      | .arr l => if l.contains (.obj []) then .arr l else .arr (l ++ [.obj []])
      | a => a) := by
    intro m h
    refine lax_of (Obj.sorted_modify h.tidy.sorted _ _) (fun e he => ?_) fun k hk => ?_
    · rcases Obj.mem_modify he with he | ⟨v, hv, rfl⟩
      · exact h.tidy.entries e he
      · have hv := h.tidy.entries _ hv
        cases v with
        | arr l =>
          simp only
          split
          · exact hv
          · refine ⟨⟨by decide, by simp, by simp, by simp, by simp, by simp⟩, fun x hx => ?_⟩
            have hx : x ∈ (l ++ [Json.obj []]).filter isSchema := hx
            rw [List.filter_append] at hx
            rcases List.mem_append.1 hx with hx | hx
            · exact hv.2 x hx
            · rw [List.mem_singleton.1 (List.mem_filter.1 hx).1]; exact tidy_empty
        | _ => exact hv
    · rw [Obj.get_modify, if_neg (by rintro rfl; exact absurd hk (by decide))]
      exact h.free k hk
  have h1 := h.remove "required"
  unfold flattenOptional
  simp only [Schema.remove]
  cases ho : Obj.get (Obj.remove m "required") "oneOf" with
  | none => exact ⟨_, rfl, hpush (h1.remove _)⟩
  | some v =>
    have h3 : Lax [("anyOf", .arr [.obj [("oneOf", v)], .obj []])] := by
      refine lax_of (List.pairwise_singleton _ _) (fun e he => ?_) fun k hk => ?_
      · rw [List.mem_singleton.1 he]
        refine te_list (k := "anyOf") (by decide) fun x hx => ?_
        simp only [List.mem_cons, List.not_mem_nil, or_false] at hx
        rcases hx with rfl | rfl
        · exact tidy_one (h1.tidy.entry ho) (by decide)
        · exact tidy_empty
      · simp only [List.mem_cons, List.not_mem_nil, or_false] at hk
        rcases hk with rfl | rfl | rfl <;> rfl
    exact ⟨_, rfl, hpush ((h1.remove _).flattenObjects h3)⟩

/-- What is flattened into a struct. -/
theorem Listed.flattenInner {m : List (String × Json)} (h : Listed m) (optional : Bool) :
    ∃ m', flattenInner (.obj m) optional = .obj m' ∧ Lax m' := by
  obtain ⟨m1, e1, h1⟩ := h.expand
  unfold Verif.flattenInner
  simp only
  rw [e1]
  cases optional with
  | false => exact h1.allowUnknown
  | true =>
    obtain ⟨m2, e2, h2⟩ := h1.optional
    simp only [if_true]
    rw [e2]
    exact h2.allowUnknown

/-- A property of an object. -/
theorem Lax.insertProperty {m : List (String × Json)} (h : Lax m) (key : String) (opt : Bool) {s : Json} (hs : Tidy s) :
    ∃ m', insertObjectProperty (.obj m) key opt s = .obj m' ∧ Lax m' := by
  have h1 : Lax (Obj.entryOr m "properties" (.obj []) (insertMember key s)) := by
    refine h.insert (te_insertMember ?_ key hs) (by decide)
    cases hg : Obj.get m "properties" with
    | none => exact te_map (by decide) fun e he => by cases he
    | some v => exact h.tidy.entry hg
  unfold insertObjectProperty
  cases opt with
  | true => exact ⟨_, rfl, h1⟩
  | false => exact ⟨_, rfl, h1.insert (te_skip _ (by decide) (by decide)) (by decide)⟩

end Verif
