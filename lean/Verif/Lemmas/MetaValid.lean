import Verif.Spec.MetaSchema
import Verif.Props.FlattenInner
import Verif.Lemmas.Derive
import Verif.Impls

/-!
# What implementations do to schemas keeps them valid according to the meta-schema
-/

namespace Verif
open Spec

section
variable {d : Draft} {b : Bool}

theorem mv_obj {m : List (String × Json)} (h : ∀ e ∈ m, MetaEntry d b e.1 e.2) : MetaValid d b (.obj m) :=
  .obj (fun e he => (h e he).1) fun e he => (h e he).2

theorem Spec.MetaValid.entries {m : List (String × Json)} (h : MetaValid d b (.obj m)) : ∀ e ∈ m, MetaEntry d b e.1 e.2 := by
  cases h with
  | obj h1 h2 => exact fun e he => ⟨h1 e he, h2 e he⟩

theorem Spec.MetaValid.entry {m : List (String × Json)} (h : MetaValid d b (.obj m)) {k : String} {v : Json}
    (hk : Obj.get m k = some v) : MetaEntry d b k v := h.entries (k, v) (Obj.get_mem hk)

theorem Spec.MetaValid.isSchema {s : Json} (h : MetaValid d b s) : IsSchema s := by
  cases h with
  | bool b => exact .bool b
  | obj => exact .obj _

/-! ## Entries -/

theorem me_schema {k : String} {v : Json} (hk : kindOf d k = .schema) (h : MetaValid d b v) : MetaEntry d b k v := by
  unfold MetaEntry; rw [hk]
  exact ⟨trivial, fun x hx => by rw [List.mem_singleton.1 hx]; exact h⟩

theorem me_schemas {k : String} {l : List Json} (hk : kindOf d k = .schemas) (h0 : l ≠ [])
    (h : ∀ x ∈ l, MetaValid d b x) : MetaEntry d b k (.arr l) := by
  unfold MetaEntry; rw [hk]
  exact ⟨⟨l, rfl, h0⟩, h⟩

theorem me_map {k : String} {p : List (String × Json)} (hk : kindOf d k = .schemaMap)
    (h : ∀ e ∈ p, MetaValid d b e.2) : MetaEntry d b k (.obj p) := by
  unfold MetaEntry; rw [hk]
  refine ⟨⟨p, rfl⟩, fun x hx => ?_⟩
  obtain ⟨e, he, rfl⟩ := List.mem_map.1 hx
  exact h e he

theorem me_text {k : String} (hk : kindOf d k = .text) (t : String) : MetaEntry d b k (.str t) := by
  unfold MetaEntry; rw [hk]
  exact ⟨⟨t, rfl⟩, fun x hx => by cases hx⟩

theorem me_flag {k : String} (hk : kindOf d k = .flag) (t : Bool) : MetaEntry d b k (.bool t) := by
  unfold MetaEntry; rw [hk]
  exact ⟨⟨t, rfl⟩, fun x hx => by cases hx⟩

theorem me_list {k : String} (hk : kindOf d k = .list) (l : List Json) : MetaEntry d b k (.arr l) := by
  unfold MetaEntry; rw [hk]
  exact ⟨⟨l, rfl⟩, fun x hx => by cases hx⟩

theorem me_any {k : String} (hk : kindOf d k = .any) (v : Json) : MetaEntry d b k v := by
  unfold MetaEntry; rw [hk]
  exact ⟨trivial, fun x hx => by cases v <;> cases hx⟩

theorem me_number {k : String} (hk : kindOf d k = .number) (n : JNum) : MetaEntry d b k (.num n) := by
  unfold MetaEntry; rw [hk]
  exact ⟨⟨n, rfl⟩, fun x hx => by cases hx⟩

theorem me_count {k : String} (hk : kindOf d k = .count) (n : Nat) : MetaEntry d b k (.num (.int n)) := by
  unfold MetaEntry; rw [hk]
  refine ⟨⟨_, rfl, ?_, rfl⟩, fun x hx => by cases hx⟩
  show (0 : Rat) ≤ ((n : Int) : Rat)
  exact_mod_cast Int.natCast_nonneg n

theorem me_type {t : String} (ht : t ∈ typeNames) : MetaEntry d b "type" (.str t) := by
  have hk : kindOf d "type" = .types := by cases d <;> rfl
  unfold MetaEntry; rw [hk]
  exact ⟨.inl ⟨t, ht, rfl⟩, fun x hx => by cases hx⟩

theorem me_types {l : List String} (h0 : l ≠ []) (hn : l.Nodup) (ht : ∀ t ∈ l, t ∈ typeNames) :
    MetaEntry d b "type" (.arr (l.map .str)) := by
  have hk : kindOf d "type" = .types := by cases d <;> rfl
  unfold MetaEntry; rw [hk]
  exact ⟨.inr ⟨l, rfl, h0, hn, ht⟩, fun x hx => by cases hx⟩

theorem me_required {l : List String} (hn : b = true → l.Nodup) : MetaEntry d b "required" (.arr (l.map .str)) := by
  have hk : kindOf d "required" = .names := by cases d <;> rfl
  unfold MetaEntry; rw [hk]
  exact ⟨⟨l, rfl, hn⟩, fun x hx => by cases hx⟩

theorem Spec.MetaEntry.required {v : Json} (h : MetaEntry d b "required" v) :
    ∃ l : List String, v = .arr (l.map .str) ∧ (b = true → l.Nodup) := by
  have hk : kindOf d "required" = .names := by cases d <;> rfl
  unfold MetaEntry at h; rw [hk] at h
  exact h.1

theorem Spec.MetaEntry.schema {k : String} {v : Json} (hk : kindOf d k = .schema) (h : MetaEntry d b k v) :
    MetaValid d b v := by
  unfold MetaEntry at h; rw [hk] at h
  exact h.2 v (List.mem_singleton.2 rfl)

theorem Spec.MetaEntry.schemas {k : String} {v : Json} (hk : kindOf d k = .schemas) (h : MetaEntry d b k v) :
    ∃ l, v = .arr l ∧ l ≠ [] ∧ ∀ x ∈ l, MetaValid d b x := by
  unfold MetaEntry at h; rw [hk] at h
  obtain ⟨⟨l, rfl, h0⟩, h2⟩ := h
  exact ⟨l, rfl, h0, h2⟩

theorem Spec.MetaEntry.members {k : String} {v : Json} (hk : kindOf d k = .schemaMap) (h : MetaEntry d b k v) :
    ∃ p, v = .obj p ∧ ∀ e ∈ p, MetaValid d b e.2 := by
  unfold MetaEntry at h; rw [hk] at h
  obtain ⟨⟨p, rfl⟩, h2⟩ := h
  exact ⟨p, rfl, fun e he => h2 _ (List.mem_map_of_mem he)⟩

theorem Spec.MetaEntry.types {v : Json} (h : MetaEntry d b "type" v) : (∃ t ∈ typeNames, v = .str t) ∨
    ∃ l : List String, v = .arr (l.map .str) ∧ l ≠ [] ∧ l.Nodup ∧ ∀ t ∈ l, t ∈ typeNames := by
  have hk : kindOf d "type" = .types := by cases d <;> rfl
  unfold MetaEntry at h; rw [hk] at h
  exact h.1

theorem Spec.MetaEntry.same {k k' : String} {v : Json} (hk : kindOf d k = kindOf d k') (h : MetaEntry d b k v) :
    MetaEntry d b k' v := by
  unfold MetaEntry at h ⊢; rw [← hk]; exact h

/-! ## Building -/

theorem mv_insert {m : List (String × Json)} (h : MetaValid d b (.obj m)) {k : String} {v : Json}
    (he : MetaEntry d b k v) : MetaValid d b (.obj (Obj.insert m k v)) := by
  refine mv_obj fun e hx => ?_
  rcases Obj.mem_insert hx with rfl | hx
  · exact he
  · exact h.entries e hx

theorem mv_remove {m : List (String × Json)} (h : MetaValid d b (.obj m)) (k : String) :
    MetaValid d b (.obj (Obj.remove m k)) := mv_obj fun e hx => h.entries e (Obj.mem_remove.1 hx).1

theorem mv_modify {m : List (String × Json)} (h : MetaValid d b (.obj m)) {k : String} {f : Json → Json}
    (hf : ∀ v, MetaEntry d b k v → MetaEntry d b k (f v)) : MetaValid d b (.obj (Obj.modify m k f)) := by
  refine mv_obj fun e hx => ?_
  rcases Obj.mem_modify hx with hx | ⟨v, hv, rfl⟩
  · exact h.entries e hx
  · exact hf v (h.entries _ hv)

theorem mv_entryOr {m : List (String × Json)} (h : MetaValid d b (.obj m)) {k : String} {v : Json} {f : Json → Json}
    (hd : MetaEntry d b k v) (hf : ∀ v, MetaEntry d b k v → MetaEntry d b k (f v)) :
    MetaValid d b (.obj (Obj.entryOr m k v f)) := by
  refine mv_insert h (hf _ ?_)
  cases hg : Obj.get m k with
  | none => exact hd
  | some v => exact h.entry hg

theorem mem_of_extend {α : Type} {l m : List (String × α)} : ∀ e ∈ Obj.extend m l, e ∈ m ∨ e ∈ l := by
  unfold Obj.extend
  induction l generalizing m with
  | nil => exact fun e he => .inl he
  | cons a l ih =>
    intro e he
    rcases ih e he with h | h
    · rcases Obj.mem_insert h with h | h
      · exact .inr (by simp [h])
      · exact .inl h
    · exact .inr (List.mem_cons_of_mem _ h)

/-- A literal schema. -/
theorem mv_lit {l : List (String × Json)} (h : ∀ e ∈ l, MetaEntry d b e.1 e.2) : MetaValid d b (mkObj l) := by
  refine mv_obj fun e he => ?_
  rcases mem_of_extend e he with he | he
  · cases he
  · exact h e he

theorem mv_empty : MetaValid d b (.obj []) := mv_obj fun e he => by cases he

theorem mv_single {k : String} {v : Json} (h : MetaEntry d b k v) : MetaValid d b (.obj [(k, v)]) :=
  mv_obj fun e he => by rw [List.mem_singleton.1 he]; exact h

theorem Spec.MetaValid.ensureObject {s : Json} (h : MetaValid d b s) :
    ∃ m, Schema.ensureObject s = some m ∧ MetaValid d b (.obj m) := by
  cases h with
  | obj h1 h2 => exact ⟨_, rfl, .obj h1 h2⟩
  | bool t =>
    cases t with
    | true => exact ⟨_, rfl, mv_empty⟩
    | false => exact ⟨_, rfl, mv_single (me_schema (by cases d <;> rfl) mv_empty)⟩

theorem Spec.MetaValid.put {s : Json} (h : MetaValid d b s) {k : String} {v : Json} (he : MetaEntry d b k v) :
    MetaValid d b (Schema.put s k v) := by
  obtain ⟨m, e, hm⟩ := h.ensureObject
  unfold Schema.put
  rw [e]
  exact mv_insert hm he

theorem mv_null : MetaValid d b nullSchema := mv_single (me_type (by decide))

theorem mv_newRef (r : String) : MetaValid d b (Schema.newRef r) := mv_single (me_text (by cases d <;> rfl) r)

/-! ## `allow_null` -/

theorem me_allowNullType {v : Json} (h : MetaEntry d b "type" v) : MetaEntry d b "type" (allowNullType v) := by
  rcases h.types with ⟨t, ht, rfl⟩ | ⟨l, rfl, h0, hn, ht⟩
  · unfold allowNullType
    simp only
    split
    · exact h
    · next hne =>
      refine me_types (l := [t, "null"]) (by simp) ?_ ?_
      · simp [hne]
      · simp only [List.mem_cons, List.not_mem_nil, or_false]
        rintro x (rfl | rfl)
        · exact ht
        · decide
  · unfold allowNullType
    simp only
    split
    · exact h
    · next hc =>
      have hc' : "null" ∉ l := by
        intro hm
        exact hc (by rw [List.contains_iff_mem]; exact List.mem_map_of_mem hm)
      have := me_types (d := d) (b := b) (l := l ++ ["null"]) (by simp) ?_ ?_
      · simpa using this
      · rw [List.nodup_append]
        refine ⟨hn, by simp, ?_⟩
        rintro x hx y hy rfl
        exact hc' (List.mem_singleton.1 hy ▸ hx)
      · intro t' h'
        rcases List.mem_append.1 h' with h' | h'
        · exact ht t' h'
        · rw [List.mem_singleton.1 h']; decide

theorem me_enum (l : List Json) : MetaEntry d b "enum" (.arr l) := me_list (by cases d <;> rfl) l

theorem mv_allowNullConst {m : List (String × Json)} (h : MetaValid d b (.obj m)) :
    MetaValid d b (.obj (allowNullConst m)) := by
  unfold allowNullConst
  split
  · exact mv_remove h _
  · exact mv_insert (mv_remove h _) (me_enum _)
  · refine mv_modify h fun v hv => ?_
    unfold allowNullEnum
    split
    · split
      · exact hv
      · exact me_enum _
    · exact hv

theorem mv_allowNull {s : Json} (h : MetaValid d b s) : MetaValid d b (allowNull s) := by
  cases s with
  | bool t =>
    cases t with
    | true => exact .bool _
    | false => exact mv_null
  | obj m =>
    unfold allowNull
    simp only
    split
    · exact h
    · split
      · refine mv_single (me_schemas (by cases d <;> rfl) (by simp) fun x hx => ?_)
        simp only [List.mem_cons, List.not_mem_nil, or_false] at hx
        rcases hx with rfl | rfl
        · exact h
        · exact mv_null
      · exact mv_allowNullConst (mv_modify h fun v => me_allowNullType)
  | _ => cases h

/-! ## Properties and tags -/

theorem me_insertMember {v : Json} (h : MetaEntry d b "properties" v) (k : String) {s : Json} (hs : MetaValid d b s) :
    MetaEntry d b "properties" (insertMember k s v) := by
  obtain ⟨p, rfl, hp⟩ := h.members (by cases d <;> rfl)
  refine me_map (by cases d <;> rfl) fun e he => ?_
  rcases Obj.mem_insert he with rfl | he
  · exact hs
  · exact hp e he

theorem me_noProperties : MetaEntry d b "properties" (.obj []) := me_map (by cases d <;> rfl) fun e he => by cases he

theorem me_noRequired : MetaEntry d b "required" (.arr []) := me_required (l := []) fun _ => .nil

/-- The name is not required. -/
def NotRequired (s : Json) (k : String) : Prop :=
  ∀ m l, s = .obj m → Obj.get m "required" = some (.arr l) → Json.str k ∉ l

theorem me_push {v : Json} (h : MetaEntry d b "required" v) (k : String) (hk : b = true → ∀ l, v = .arr l → Json.str k ∉ l) :
    MetaEntry d b "required" (pushElem (.str k) v) := by
  obtain ⟨l, rfl, hn⟩ := h.required
  have := me_required (d := d) (b := b) (l := l ++ [k]) fun hb => by
    refine List.nodup_append.2 ⟨hn hb, List.nodup_singleton k, ?_⟩
    intro a ha c hc e
    cases List.mem_singleton.1 hc
    exact hk hb _ rfl (List.mem_map.2 ⟨k, e ▸ ha, rfl⟩)
  simpa [pushElem] using this

theorem me_unshift {v : Json} (h : MetaEntry d b "required" v) (k : String) (hk : b = true → ∀ l, v = .arr l → Json.str k ∉ l) :
    MetaEntry d b "required" (unshiftElem (.str k) v) := by
  obtain ⟨l, rfl, hn⟩ := h.required
  exact me_required (d := d) (b := b) (l := k :: l) fun hb =>
    List.nodup_cons.2 ⟨fun hm => hk hb _ rfl (List.mem_map.2 ⟨k, hm, rfl⟩), hn hb⟩

/-- The value of `required` before something is added to it. -/
theorem required_before {m : List (String × Json)} {k : String} (hk : NotRequired (.obj m) k) :
    ∀ l, (Obj.get m "required").getD (.arr []) = .arr l → Json.str k ∉ l := by
  intro l hl
  cases hr : Obj.get m "required" with
  | none => rw [hr] at hl; cases hl; simp
  | some v => rw [hr] at hl; subst hl; exact hk m l rfl hr

theorem NotRequired.ensureObject {s : Json} {k : String} (h : NotRequired s k) {m : List (String × Json)}
    (hm : Schema.ensureObject s = some m) : NotRequired (.obj m) k := by
  cases s with
  | obj m' => cases hm; exact h
  | bool t =>
    cases t <;> cases hm <;> intro m l e hr <;> cases e <;> cases hr
  | _ => cases hm

theorem notRequired_insert {m : List (String × Json)} {k q : String} {v : Json} (hq : q ≠ "required")
    (h : NotRequired (.obj m) k) : NotRequired (.obj (Obj.insert m q v)) k := by
  intro m' l e hr
  cases e
  rw [Obj.get_insert_ne _ _ hq] at hr
  exact h m l rfl hr

/-- `mv_entryOr` for `required`. -/
theorem mv_entryRequired {m : List (String × Json)} (h : MetaValid d b (.obj m)) {f : Json → Json}
    (hf : MetaEntry d b "required" ((Obj.get m "required").getD (.arr [])) →
      MetaEntry d b "required" (f ((Obj.get m "required").getD (.arr [])))) :
    MetaValid d b (.obj (Obj.entryOr m "required" (.arr []) f)) := by
  refine mv_insert h (hf ?_)
  cases hg : Obj.get m "required" with
  | none => exact me_noRequired
  | some v => exact h.entry hg

theorem mv_insertObjectProperty {s : Json} (h : MetaValid d b s) (key : String) (opt : Bool) {sub : Json}
    (hs : MetaValid d b sub) (hk : b = true → NotRequired s key) : MetaValid d b (insertObjectProperty s key opt sub) := by
  obtain ⟨m, e, hm⟩ := h.ensureObject
  unfold insertObjectProperty
  rw [e]
  simp only
  have h1 := mv_entryOr hm me_noProperties (f := insertMember key sub) fun v hv => me_insertMember hv key hs
  split
  · exact h1
  · exact mv_entryRequired h1 fun hv => me_push hv key fun hb =>
      required_before (notRequired_insert (by decide) ((hk hb).ensureObject e))

theorem notRequired_property {s sub : Json} {k key : String} {opt : Bool} (h : NotRequired s k) (hk : k ≠ key) :
    NotRequired (insertObjectProperty s key opt sub) k := by
  unfold insertObjectProperty
  cases he : Schema.ensureObject s with
  | none => exact h
  | some m =>
    simp only
    have h1 : NotRequired (.obj (Obj.entryOr m "properties" (.obj []) (insertMember key sub))) k :=
      notRequired_insert (by decide) (h.ensureObject he)
    split
    · exact h1
    · generalize Obj.entryOr m "properties" (.obj []) (insertMember key sub) = m1 at h1
      intro m' l e hr
      cases e
      unfold Obj.entryOr at hr
      rw [Obj.get_insert_self] at hr
      have h2 := required_before h1
      generalize (Obj.get m1 "required").getD (.arr []) = v at hr h2
      cases v with
      | arr l' =>
        simp only [pushElem, Option.some.injEq, Json.arr.injEq] at hr
        subst hr
        intro hm
        rcases List.mem_append.1 hm with hm | hm
        · exact h2 l' rfl hm
        · simp only [List.mem_singleton, Json.str.injEq] at hm
          exact hk hm
      | _ => simp [pushElem] at hr

theorem mv_tag (name : String) : MetaValid d b (tagSchema name) := by
  refine mv_lit ?_
  simp only [List.mem_cons, List.not_mem_nil, or_false, forall_eq_or_imp, forall_eq]
  exact ⟨me_type (by decide), me_any (by cases d <;> rfl) _⟩

theorem mv_internalTag {s : Json} (h : MetaValid d b s) (tag name : String) (deny : Bool)
    (hk : b = true → NotRequired s tag) : MetaValid d b (applyInternalTag s tag name deny) := by
  obtain ⟨m, e, hm⟩ := h.ensureObject
  unfold applyInternalTag
  rw [e]
  simp only
  have h1 := mv_insert hm (me_type (t := "object") (by decide))
  have h2 := mv_entryOr h1 me_noProperties (f := insertMember tag (tagSchema name))
    fun v hv => me_insertMember hv tag (mv_tag name)
  have h3 := mv_entryRequired h2 (f := unshiftElem (.str tag)) fun hv => me_unshift hv tag fun hb =>
    required_before (notRequired_insert (by decide) (notRequired_insert (by decide) ((hk hb).ensureObject e)))
  split
  · exact mv_entryOr h3 (me_schema (by cases d <;> rfl) (.bool _)) fun _ hv => hv
  · exact h3

/-! ## `flatten` -/

theorem mv_flattenPlain {m : List (String × Json)} (h : MetaValid d false (.obj m)) {k : String} {v : Json}
    (he : MetaEntry d false k v) : MetaValid d false (.obj (flattenPlain m k v)) := by
  unfold flattenPlain
  split
  · exact mv_insert h he
  · next v1 hg =>
    have h1 := h.entry hg
    split
    · next hk =>
      split
      · next a1 a2 =>
        refine mv_insert h ?_
        rcases hk with rfl | rfl
        · obtain ⟨l1, e1, -⟩ := h1.required
          obtain ⟨l2, e2, -⟩ := he.required
          cases e1; cases e2
          rw [← List.map_append]
          exact me_required (fun h => by cases h)
        · obtain ⟨l1, e1, h0, h1⟩ := h1.schemas (by cases d <;> rfl)
          obtain ⟨l2, e2, -, h2⟩ := he.schemas (by cases d <;> rfl)
          cases e1; cases e2
          refine me_schemas (by cases d <;> rfl) (by simp [h0]) fun x hx => ?_
          rcases List.mem_append.1 hx with hx | hx
          · exact h1 x hx
          · exact h2 x hx
      · exact h
    · split
      · next hk =>
        have hk' : kindOf d k = .schemaMap := by rcases hk with rfl | rfl <;> cases d <;> rfl
        split
        · next o1 o2 =>
          refine mv_insert h (me_map hk' fun e hx => ?_)
          obtain ⟨p1, e1, h1⟩ := h1.members hk'
          obtain ⟨p2, e2, h2⟩ := he.members hk'
          cases e1; cases e2
          rcases mem_of_extend e hx with hx | hx
          · exact h1 e hx
          · exact h2 e hx
        · exact h
      · exact h

theorem mv_flattenProperty {m : List (String × Json)} (h : MetaValid d false (.obj m)) {k : String} {v : Json}
    (he : MetaEntry d false k v) : MetaValid d false (.obj (flattenProperty m k v)) := by
  unfold flattenProperty
  split
  · next v1 hg =>
    split
    · next hk =>
      refine mv_flattenPlain (mv_remove h _) (me_schemas (by cases d <;> rfl) (by simp) fun x hx => ?_)
      simp only [List.mem_cons, List.not_mem_nil, or_false] at hx
      rcases hx with rfl | rfl
      · exact mv_single (h.entry hg)
      · exact mv_single he
    · exact mv_flattenPlain h he
  · exact mv_flattenPlain h he

theorem mv_normalise {m1 : List (String × Json)} (h : MetaValid .every b (.obj m1)) (m2 : List (String × Json)) :
    MetaValid .every b (.obj (normaliseUnevaluated m1 m2)) := by
  unfold normaliseUnevaluated
  split
  · next ap hg =>
    split
    · exact mv_insert (mv_remove h _) ((h.entry hg).same (k := "additionalProperties") rfl)
    · exact h
  · exact h

theorem mv_flattenObjects {m1 m2 : List (String × Json)} (h1 : MetaValid .every false (.obj m1))
    (h2 : MetaValid .every false (.obj m2)) : MetaValid .every false (.obj (flattenObjects m1 m2)) := by
  unfold flattenObjects
  simp only
  have h3 := mv_normalise h1 m2
  have h4 := (mv_normalise h2 (normaliseUnevaluated m1 m2)).entries
  generalize normaliseUnevaluated m1 m2 = n1 at h3 h4
  generalize normaliseUnevaluated m2 n1 = n2 at h4
  induction n2 generalizing n1 with
  | nil => exact h3
  | cons e l ih =>
    exact ih _ (mv_flattenProperty h3 (h4 e (List.mem_cons_self ..))) fun e he => h4 e (List.mem_cons_of_mem _ he)

theorem mv_flatten {s o : Json} (h1 : MetaValid .every false s) (h2 : MetaValid .every false o) :
    MetaValid .every false (flatten s o) := by
  cases o with
  | bool t =>
    cases t with
    | false => exact h1
    | true =>
      unfold flatten
      simp only
      split
      · split
        · split
          · exact mv_insert h1 (me_schema rfl (.bool _))
          · exact mv_insert h1 (me_schema rfl (.bool _))
        · exact h1
      · exact h1
  | obj m2 =>
    obtain ⟨m, e, hm⟩ := h1.ensureObject
    unfold flatten
    simp only [e]
    exact mv_flattenObjects hm h2
  | _ => cases h2

/-! ## `AllowUnknownProperties` -/

theorem mv_drop {m : List (String × Json)} (h : MetaValid d b (.obj m)) (k : String) :
    MetaValid d b (.obj (dropIfFalse m k)) := by
  unfold dropIfFalse
  split
  · exact mv_remove h k
  · exact h

theorem immSlot_kind (k : String) : (immSlot k = .one ∧ ∀ d, kindOf d k = .schema) ∨
    (immSlot k = .list ∧ ∀ d, kindOf d k = .schemas) ∨ immSlot k = .skip := by
  unfold immSlot
  split
  any_goals (refine .inl ⟨rfl, fun d => ?_⟩; cases d <;> rfl)
  any_goals (refine .inr (.inl ⟨rfl, fun d => ?_⟩); cases d <;> rfl)
  exact .inr (.inr rfl)

/-- A function that keeps schemas valid may be applied to the immediate subschemas. -/
theorem mv_imm {T : Json → Json} {m : List (String × Json)} (h : MetaValid d b (.obj m))
    (hT : ∀ e ∈ m, ∀ x ∈ nested (kindOf d e.1) e.2, MetaValid d b (T x)) : MetaValid d b (tsub immSlot T (.obj m)) := by
  refine mv_obj fun e0 he0 => ?_
  obtain ⟨e, he, rfl⟩ := List.mem_map.1 he0
  have h1 := h.entries e he
  have h2 := hT e he
  simp only
  rcases immSlot_kind e.1 with ⟨hs, hk⟩ | ⟨hs, hk⟩ | hs
  · rw [hs]
    refine me_schema (hk d) ?_
    show MetaValid d b (atSchema T e.2)
    unfold atSchema
    rw [hk d] at h2
    split
    · exact h2 _ (List.mem_singleton.2 rfl)
    · exact h1.schema (hk d)
  · rw [hs]
    obtain ⟨l, e1, h0, h3⟩ := h1.schemas (hk d)
    rw [e1]
    refine me_schemas (hk d) (by simpa using h0) fun x hx => ?_
    obtain ⟨y, hy, rfl⟩ := List.mem_map.1 hx
    rw [hk d, e1] at h2
    unfold atSchema
    split
    · exact h2 y hy
    · exact h3 y hy
  · rw [hs, atSlot_skip]
    exact h1

theorem mv_allowUnknown {s : Json} (h : MetaValid d b s) : MetaValid d b (allowUnknown s) := by
  induction h with
  | bool t => rw [allowUnknown_eq (.bool t)]; exact .bool t
  | @obj m h1 h2 ih =>
    rw [allowUnknown_eq (.obj m)]
    refine mv_imm (mv_drop (mv_drop (.obj h1 h2) _) _) fun e he => ih e ?_
    have hd : ∀ {m : List (String × Json)} {k}, e ∈ dropIfFalse m k → e ∈ m := by
      intro m k he
      unfold dropIfFalse at he
      split at he
      · exact (Obj.mem_remove.1 he).1
      · exact he
    exact hd (hd he)

theorem mv_allowUnknownBelow {s : Json} (h : MetaValid d b s) : MetaValid d b (tsub immSlot allowUnknown s) := by
  cases h with
  | bool t => exact .bool t
  | obj h1 h2 => exact mv_imm (.obj h1 h2) fun e he x hx => mv_allowUnknown (h2 e he x hx)

end

end Verif
