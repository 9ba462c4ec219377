import Verif.Lemmas.MetaValid
import Verif.Lemmas.World
import Verif.Props.Accepts

/-!
# The schemas of standard and derived types are valid according to the meta-schema
-/

namespace Verif
open Spec

/-! ## Schemas that can be flattened -/

theorem lists_obj {m : List (String × Json)} (h : Obj.get m "type" = some (.str "string") →
    ∀ a, Obj.get m "enum" = some (.arr a) → ∃ n, Json.str n ∈ a) : ListsNames (.obj m) := by
  rintro m' e
  cases e
  exact h

theorem lists_noEnum {m : List (String × Json)} (h : Obj.get m "enum" = none) : ListsNames (.obj m) :=
  lists_obj fun _ a e => by rw [h] at e; cases e

theorem lists_type {m : List (String × Json)} {v : Json} (h : Obj.get m "type" = some v) (hv : v ≠ .str "string") :
    ListsNames (.obj m) := lists_obj fun e => by rw [h] at e; cases e; exact absurd rfl hv

/-- What the alternatives of a schema must satisfy. -/
def GoodChoices (m : List (String × Json)) : Prop := ∀ e ∈ m, e.1 = "oneOf" → ChoicesListNames e.2

theorem good_none {m : List (String × Json)} (h : Obj.get m "oneOf" = none) : GoodChoices m := by
  intro e he hk
  have := Obj.get_eq_none.1 h
  exact absurd (hk ▸ List.mem_map_of_mem he) this

theorem GoodChoices.get {m : List (String × Json)} (h : GoodChoices m) {v : Json} (hv : Obj.get m "oneOf" = some v) :
    ChoicesListNames v := h _ (Obj.get_mem hv) rfl

theorem GoodChoices.insert {m : List (String × Json)} (h : GoodChoices m) {k : String} {v : Json}
    (hv : k = "oneOf" → ChoicesListNames v) : GoodChoices (Obj.insert m k v) := by
  intro e he hk
  rcases Obj.mem_insert he with rfl | he
  · exact hv hk
  · exact h e he hk

theorem GoodChoices.remove {m : List (String × Json)} (h : GoodChoices m) (k : String) : GoodChoices (Obj.remove m k) :=
  fun e he => h e (Obj.mem_remove.1 he).1

theorem exp_obj {m : List (String × Json)} (h1 : ListsNames (.obj m)) (h2 : GoodChoices m) : Expandable (.obj m) :=
  ⟨h1, fun m' e => by cases e; exact h2⟩

theorem exp_noOneOf {m : List (String × Json)} (h1 : ListsNames (.obj m)) (h2 : Obj.get m "oneOf" = none) :
    Expandable (.obj m) := exp_obj h1 (good_none h2)

theorem exp_bool (b : Bool) : Expandable (.bool b) := ⟨fun m e => (by cases e), fun m e => by cases e⟩

theorem get_lit_none {l : List (String × Json)} {k : String} (h : ∀ e ∈ l, e.1 ≠ k) : Obj.get (Obj.ofList l) k = none := by
  cases hg : Obj.get (Obj.ofList l) k with
  | none => rfl
  | some v =>
    rcases mem_of_extend _ (Obj.get_mem hg) with he | he
    · cases he
    · exact absurd rfl (h _ he)

theorem lists_lit {l : List (String × Json)} (h : ∀ e ∈ l, e.1 ≠ "enum") : ListsNames (mkObj l) :=
  lists_noEnum (get_lit_none h)

theorem exp_lit {l : List (String × Json)} (h : ∀ e ∈ l, e.1 ≠ "enum" ∧ e.1 ≠ "oneOf") : Expandable (mkObj l) :=
  exp_noOneOf (lists_lit fun e he => (h e he).1) (get_lit_none fun e he => (h e he).2)

theorem choices_all {l : List Json} (h : ∀ x ∈ l, ListsNames x) : ChoicesListNames (.arr l) := by
  intro x rest e
  cases e
  exact ⟨fun _ => h x (List.mem_cons_self ..), fun y hy => h y (List.mem_cons_of_mem _ hy)⟩

theorem Spec.Expandable.insert {m : List (String × Json)} (h : Expandable (.obj m)) {k : String} (v : Json)
    (hk : k ∉ ["type", "enum", "oneOf"]) : Expandable (.obj (Obj.insert m k v)) := by
  simp only [List.mem_cons, List.not_mem_nil, or_false, not_or] at hk
  refine exp_obj (lists_obj ?_) ((show GoodChoices m from h.2 m rfl).insert fun e => absurd e hk.2.2)
  rw [Obj.get_insert_ne _ _ hk.1, Obj.get_insert_ne _ _ hk.2.1]
  exact h.1 m rfl

variable {b : Bool}

/-- Valid according to the meta-schema (names in `required` may repeat unless the parameter says otherwise), and can be
flattened. -/
def Proper (b : Bool) (s : Json) : Prop := MetaValid .every b s ∧ Expandable s

theorem Proper.isSchema {s : Json} (h : Proper b s) : IsSchema s := h.1.isSchema

theorem Proper.ensureObject {s : Json} (h : Proper b s) : ∃ m, Schema.ensureObject s = some m ∧ Proper b (.obj m) := by
  obtain ⟨m, e, hm⟩ := h.1.ensureObject
  refine ⟨m, e, hm, ?_⟩
  cases h.isSchema with
  | obj m => cases e; exact h.2
  | bool t => cases t <;> cases e <;> exact exp_noOneOf (lists_noEnum rfl) rfl

theorem Proper.put {s : Json} (h : Proper b s) {k : String} {v : Json} (he : MetaEntry .every b k v)
    (hk : k ∉ ["type", "enum", "oneOf"]) : Proper b (Schema.put s k v) := by
  obtain ⟨m, e, hm⟩ := h.ensureObject
  unfold Schema.put
  rw [e]
  exact ⟨mv_insert hm.1 he, hm.2.insert v hk⟩

theorem proper_null : Proper b nullSchema := ⟨mv_null, exp_noOneOf (lists_noEnum rfl) rfl⟩

theorem proper_newRef (r : String) : Proper b (Schema.newRef r) := ⟨mv_newRef r, exp_noOneOf (lists_noEnum rfl) rfl⟩

theorem proper_lit {l : List (String × Json)} (h : ∀ e ∈ l, MetaEntry .every b e.1 e.2)
    (hk : ∀ e ∈ l, e.1 ≠ "enum" ∧ e.1 ≠ "oneOf") : Proper b (mkObj l) := ⟨mv_lit h, exp_lit hk⟩

/-! ### `allow_null` -/

theorem allowNullType_ne {v : Json} : allowNullType v ≠ .str "string" := by
  unfold allowNullType
  split
  · split <;> simp
  · split
    · next h => rw [h]; simp
    · simp
  · next h1 h2 => exact fun e => h2 _ e

theorem proper_allowNull {s : Json} (h : Proper b s) : Proper b (allowNull s) := by
  refine ⟨mv_allowNull h.1, ?_⟩
  cases h.isSchema with
  | bool t =>
    cases t with
    | true => exact exp_bool _
    | false => exact (proper_null (b := b)).2
  | obj m =>
    unfold allowNull
    simp only
    split
    · exact h.2
    · split
      · exact exp_noOneOf (lists_noEnum rfl) rfl
      · next hc =>
        have hone : Obj.get m "oneOf" = none := by
          unfold containsImmediate at hc
          cases hg : Obj.get m "oneOf" with
          | none => rfl
          | some v => simp [Obj.has, hg] at hc
        have hty : ∀ m' : List (String × Json), Obj.get m' "type" = (Obj.get m "type").map allowNullType →
            Obj.get m' "oneOf" = none → Expandable (.obj m') := by
          intro m' h1 h2
          refine exp_noOneOf (lists_obj fun e => ?_) h2
          rw [h1] at e
          obtain ⟨v, -, e⟩ := Option.map_eq_some_iff.1 e
          exact absurd e allowNullType_ne
        have h1 : Obj.get (Obj.modify m "type" allowNullType) "type" = (Obj.get m "type").map allowNullType := by
          rw [Obj.get_modify, if_pos rfl]
        have h2 : Obj.get (Obj.modify m "type" allowNullType) "oneOf" = none := by
          rw [Obj.get_modify, if_neg (by decide)]; exact hone
        unfold allowNullConst
        split
        · exact hty _ (by rw [Obj.get_remove_ne _ (by decide)]; exact h1)
            (by rw [Obj.get_remove_ne _ (by decide)]; exact h2)
        · exact hty _ (by rw [Obj.get_insert_ne _ _ (by decide), Obj.get_remove_ne _ (by decide)]; exact h1)
            (by rw [Obj.get_insert_ne _ _ (by decide), Obj.get_remove_ne _ (by decide)]; exact h2)
        · exact hty _ (by rw [Obj.get_modify, if_neg (by decide)]; exact h1)
            (by rw [Obj.get_modify, if_neg (by decide)]; exact h2)

/-! ### `AllowUnknownProperties` -/

theorem get_allowUnknown_plain {m : List (String × Json)} : ∃ m', allowUnknown (.obj m) = .obj m' ∧
    (∀ k ∈ ["type", "enum"], Obj.get m' k = Obj.get m k) ∧
    Obj.get m' "oneOf" = (Obj.get m "oneOf").map (atSlot allowUnknown .list) := by
  obtain ⟨m', e, -, h, -⟩ := get_allowUnknown (m := m)
  refine ⟨m', e, fun k hk => ?_, h "oneOf" (by decide)⟩
  have hk' := (by decide : ∀ k ∈ ["type", "enum"], k ∉ restKeys ∧ immSlot k = .skip) k hk
  rw [h k hk'.1, hk'.2]
  cases Obj.get m k with
  | none => rfl
  | some v => simp [atSlot_skip]

theorem lists_allowUnknown {s : Json} (hs : IsSchema s) (h : ListsNames s) : ListsNames (allowUnknown s) := by
  cases hs with
  | bool t => rw [allowUnknown_eq (.bool t)]; exact h
  | obj m =>
    obtain ⟨m', e, h1, -⟩ := get_allowUnknown_plain (m := m)
    rw [e]
    refine lists_obj ?_
    rw [h1 "type" (by decide), h1 "enum" (by decide)]
    exact h m rfl

theorem choices_map {v : Json} (h : ChoicesListNames v) : ChoicesListNames (atSlot allowUnknown .list v) := by
  have hx : ∀ x, ListsNames x → ListsNames (atSchema allowUnknown x) := by
    intro x hx
    unfold atSchema
    split
    · next hs => exact lists_allowUnknown (isSchema_iff.1 hs) hx
    · exact hx
  cases v with
  | arr l =>
    intro y rest e
    cases l with
    | nil => cases e
    | cons x l =>
      have e : Json.arr (atSchema allowUnknown x :: l.map (atSchema allowUnknown)) = .arr (y :: rest) := e
      cases e
      obtain ⟨h1, h2⟩ := h x l rfl
      refine ⟨fun h0 => hx x (h1 (by simpa using h0)), fun z hz => ?_⟩
      obtain ⟨z0, hz0, rfl⟩ := List.mem_map.1 hz
      exact hx z0 (h2 z0 hz0)
  | _ => exact h

theorem proper_allowUnknownBelow {s : Json} (h : Proper b s) : Proper b (tsub immSlot allowUnknown s) := by
  refine ⟨mv_allowUnknownBelow h.1, ?_⟩
  cases h.isSchema with
  | bool t => exact h.2
  | obj m =>
    have hget : ∀ k, Obj.get (m.map fun e => (e.1, atSlot allowUnknown (immSlot e.1) e.2)) k =
        (Obj.get m k).map (atSlot allowUnknown (immSlot k)) := fun k => Obj.get_map m (fun k => atSlot allowUnknown (immSlot k)) k
    show Expandable (.obj (m.map _))
    refine exp_obj (lists_obj ?_) fun e0 he hk => ?_
    · rw [hget, hget]
      intro h1 a h2
      have h3 : ∀ {k v}, immSlot k = .skip → (Obj.get m k).map (atSlot allowUnknown (immSlot k)) = some v →
          Obj.get m k = some v := by
        intro k v hk e
        rw [hk] at e
        obtain ⟨v', e1, e2⟩ := Option.map_eq_some_iff.1 e
        rw [atSlot_skip] at e2
        rw [e1, e2]
      exact h.2.1 m rfl (h3 rfl h1) a (h3 rfl h2)
    · obtain ⟨e, he', rfl⟩ := List.mem_map.1 he
      have hk : e.1 = "oneOf" := hk
      simp only [hk]
      exact choices_map (h.2.2 m rfl e he' hk)

/-! ### Flattening -/

/-- What is flattened into a struct. -/
def Flattens (s : Json) : Prop := MetaValid .every false s ∧ ∀ m, s = .obj m → GoodChoices m

theorem flattens_obj {m : List (String × Json)} (h1 : MetaValid .every false (.obj m)) (h2 : GoodChoices m) :
    Flattens (.obj m) := ⟨h1, fun m' e => by cases e; exact h2⟩

theorem Proper.flattens {s : Json} (h : Proper false s) : Flattens s := ⟨h.1, h.2.2⟩

theorem mv_unitVariant (name : String) : MetaValid .every false (unitVariantObject name) := by
  refine mv_lit ?_
  simp only [List.mem_cons, List.not_mem_nil, or_false, forall_eq_or_imp, forall_eq]
  refine ⟨me_type (by decide), me_map rfl fun e he => ?_, me_required (l := [name]) fun h => by cases h⟩
  rcases mem_of_extend e he with he | he
  · cases he
  · rw [List.mem_singleton.1 he]; exact mv_null

theorem lists_unitVariant (name : String) : ListsNames (unitVariantObject name) := by
  refine lists_lit ?_
  simp only [List.mem_cons, List.not_mem_nil, or_false, forall_eq_or_imp, forall_eq]
  decide

theorem choices_append {l l' : List Json} (h : ChoicesListNames (.arr l)) (h' : ∀ x ∈ l', ListsNames x) :
    ChoicesListNames (.arr (l ++ l')) := by
  cases l with
  | nil => exact choices_all h'
  | cons x l =>
    obtain ⟨h1, h2⟩ := h x l rfl
    intro y rest e
    cases e
    refine ⟨fun h0 => h1 (List.append_eq_nil_iff.1 h0).1, fun z hz => ?_⟩
    rcases List.mem_append.1 hz with hz | hz
    · exact h2 z hz
    · exact h' z hz

theorem insert_twice (m : List (String × Json)) (k : String) (a b : Json) :
    Obj.insert (Obj.insert m k a) k b = Obj.insert m k b := by
  induction m with
  | nil => simp [Obj.insert]
  | cons e t ih =>
    obtain ⟨k', v'⟩ := e
    by_cases h1 : k' = k
    · simp [Obj.insert, h1]
    · by_cases h2 : k < k'
      · simp [Obj.insert, h1, h2]
      · simp [Obj.insert, h1, h2, ih]

/-- Alternatives for names are added to the alternatives there are. -/
theorem flattens_add {m : List (String × Json)} {units l : List Json} (hm : Flattens (.obj m))
    (hv : ∀ x ∈ l, MetaValid .every false x) (hc : ChoicesListNames (.arr l))
    (hne : l ≠ [] ∨ ∃ n, Json.str n ∈ units) :
    Flattens (.obj (Obj.insert m "oneOf" (.arr (l ++ (units.filterMap Json.asStr?).map unitVariantObject)))) := by
  refine flattens_obj (mv_insert hm.1 (me_schemas rfl ?_ fun x hx => ?_)) ((hm.2 m rfl).insert fun _ => ?_)
  · intro h0
    obtain ⟨h1, h2⟩ := List.append_eq_nil_iff.1 h0
    rcases hne with h | ⟨n, hn⟩
    · exact h h1
    · have : n ∈ units.filterMap Json.asStr? := List.mem_filterMap.2 ⟨_, hn, rfl⟩
      rw [List.map_eq_nil_iff.1 h2] at this
      cases this
  · rcases List.mem_append.1 hx with hx | hx
    · exact hv x hx
    · obtain ⟨n, -, rfl⟩ := List.mem_map.1 hx
      exact mv_unitVariant n
  · refine choices_append hc fun x hx => ?_
    obtain ⟨n, -, rfl⟩ := List.mem_map.1 hx
    exact lists_unitVariant n

theorem asStr_string {m : List (String × Json)} {k t : String} (h : ((Obj.get m k).bind Json.asStr? == some t) = true) :
    Obj.get m k = some (.str t) := by
  have h := eq_of_beq h
  obtain ⟨v, e, hv⟩ := Option.bind_eq_some_iff.1 h
  rw [e]
  cases v <;> cases hv
  rfl

theorem enum_list {m : List (String × Json)} (h : MetaValid .every false (.obj m)) {v : Json}
    (hv : Obj.get m "enum" = some v) : ∃ a, v = .arr a := (h.entry hv).1

theorem flattens_expand {s : Json} (h : Proper false s) : Flattens (expandUnitVariants s) := by
  cases h.isSchema with
  | bool t => exact h.flattens
  | obj m =>
    have hrest : (if ((Obj.get m "type").bind Json.asStr? == some "string") = true then Obj.remove m "enum" else m) = m →
        (((Obj.get m "type").bind Json.asStr? == some "string") = false ∨ Obj.get m "enum" = none) →
        Flattens (expandUnitVariants (.obj m)) := by
      intro hm hn
      have hrm : removeUnitVariants (.obj m) = (match Obj.get m "oneOf" with
          | some (.arr (.obj first :: rest)) =>
            match (Obj.get first "type").bind Json.asStr? == some "string", Obj.get first "enum" with
            | true, some (.arr a) => (.obj (Obj.insert m "oneOf" (.arr rest)), some a)
            | true, _ => (.obj (Obj.insert m "oneOf" (.arr (.obj (Obj.remove first "enum") :: rest))), none)
            | _, _ => (.obj m, none)
          | _ => (.obj m, none)) := by
        unfold removeUnitVariants
        simp only
        split
        · next h1 h2 =>
          rcases hn with hn | hn
          · rw [hn] at h1; cases h1
          · rw [hn] at h2; cases h2
        · rw [hm]
          rfl
      unfold expandUnitVariants
      rw [hrm]
      cases ho : Obj.get m "oneOf" with
      | none => exact h.flattens
      | some v =>
        obtain ⟨l, rfl, h0, hl⟩ := (h.1.entry ho).schemas rfl
        cases l with
        | nil => exact absurd rfl h0
        | cons x rest =>
          have hx := hl x (List.mem_cons_self ..)
          have hg : GoodChoices m := h.2.2 m rfl
          obtain ⟨c1, c2⟩ := hg.get ho x rest rfl
          cases hx.isSchema with
          | bool t => exact h.flattens
          | obj first =>
            simp only
            cases hs : ((Obj.get first "type").bind Json.asStr? == some "string") with
            | false => exact h.flattens
            | true =>
              cases he : Obj.get first "enum" with
              | none =>
                simp only
                rw [Obj.remove_of_get_none he]
                exact flattens_obj (mv_insert h.1 (h.1.entry ho)) (hg.insert fun _ => hg.get ho)
              | some v =>
                obtain ⟨a, rfl⟩ := enum_list hx he
                simp only [Schema.ensureObject, Obj.entryOr, Obj.get_insert_self, Option.getD_some, insert_twice]
                refine flattens_add h.flattens (fun y hy => hl y (List.mem_cons_of_mem _ hy)) (choices_all c2) ?_
                cases rest with
                | cons y rest => exact .inl (by simp)
                | nil => exact .inr (c1 rfl first rfl (asStr_string hs) a he)
    cases hs : ((Obj.get m "type").bind Json.asStr? == some "string") with
    | false => exact hrest (by rw [hs]; rfl) (.inl hs)
    | true =>
      cases he : Obj.get m "enum" with
      | none => exact hrest (by rw [Obj.remove_of_get_none he, ite_self]) (.inr he)
      | some v =>
        obtain ⟨a, rfl⟩ := enum_list h.1 he
        have hrm : removeUnitVariants (.obj m) = (.obj (Obj.remove (Obj.remove m "enum") "type"), some a) := by
          unfold removeUnitVariants
          simp only [hs, he]
        unfold expandUnitVariants
        rw [hrm]
        simp only [Schema.ensureObject, Obj.entryOr]
        have hg : GoodChoices m := h.2.2 m rfl
        have hm := flattens_obj (mv_remove (mv_remove h.1 "enum") "type") ((hg.remove "enum").remove "type")
        have hget : Obj.get (Obj.remove (Obj.remove m "enum") "type") "oneOf" = Obj.get m "oneOf" := by
          rw [Obj.get_remove_ne _ (by decide), Obj.get_remove_ne _ (by decide)]
        rw [hget]
        have hn := h.2.1 m rfl (asStr_string hs) a he
        cases ho : Obj.get m "oneOf" with
        | none => exact flattens_add (l := []) hm (fun x hx => by cases hx) (fun x r e => by cases e) (.inr hn)
        | some v =>
          obtain ⟨l, rfl, h0, hl⟩ := (h.1.entry ho).schemas rfl
          exact flattens_add hm hl (hg.get ho) (.inr hn)

theorem choices_flattenPlain {m : List (String × Json)} {k : String} {v : Json} (hm : GoodChoices m)
    (hv : k = "oneOf" → ChoicesListNames v) : GoodChoices (flattenPlain m k v) := by
  unfold flattenPlain
  split
  · exact hm.insert hv
  · split
    · next hk =>
      split
      · exact hm.insert fun e => by subst e; rcases hk with hk | hk <;> exact absurd hk (by decide)
      · exact hm
    · split
      · next hk =>
        split
        · exact hm.insert fun e => by subst e; rcases hk with hk | hk <;> exact absurd hk (by decide)
        · exact hm
      · exact hm

theorem choices_flattenProperty {m : List (String × Json)} {k : String} {v : Json} (hm : GoodChoices m)
    (hv : k = "oneOf" → ChoicesListNames v) : GoodChoices (flattenProperty m k v) := by
  unfold flattenProperty
  split
  · split
    · exact choices_flattenPlain (hm.remove k) (fun e => absurd e (by decide))
    · exact choices_flattenPlain hm hv
  · exact choices_flattenPlain hm hv

theorem get_normalise_other (m1 m2 : List (String × Json)) {k : String} (h1 : "additionalProperties" ≠ k)
    (h2 : "unevaluatedProperties" ≠ k) : Obj.get (normaliseUnevaluated m1 m2) k = Obj.get m1 k := by
  unfold normaliseUnevaluated
  split
  · split
    · rw [Obj.get_insert_ne _ _ h2, Obj.get_remove_ne _ h1]
    · rfl
  · rfl

theorem mem_normalise_other {m1 m2 : List (String × Json)} {e : String × Json} (h : e ∈ normaliseUnevaluated m1 m2) :
    e ∈ m1 ∨ e.1 = "unevaluatedProperties" := by
  unfold normaliseUnevaluated at h
  split at h
  · split at h
    · rcases Obj.mem_insert h with rfl | h
      · exact .inr rfl
      · exact .inl (Obj.mem_remove.1 h).1
    · exact .inl h
  · exact .inl h

theorem type_flattenProperty {m : List (String × Json)} {ty : Json} (hm : Obj.get m "type" = some ty) (k : String) (v : Json) :
    Obj.get (flattenProperty m k v) "type" = some ty := by
  have hp : ∀ {m : List (String × Json)} (k : String) (v : Json), Obj.get m "type" = some ty →
      Obj.get (flattenPlain m k v) "type" = some ty := by
    intro m k v hm
    have hi : ∀ u, k ≠ "type" → Obj.get (Obj.insert m k u) "type" = some ty :=
      fun u hk => by rw [Obj.get_insert_ne _ _ hk]; exact hm
    unfold flattenPlain
    split
    · next hg => exact hi _ (by rintro rfl; rw [hm] at hg; cases hg)
    · split
      · next hk =>
        split
        · exact hi _ (by rcases hk with rfl | rfl <;> decide)
        · exact hm
      · split
        · next hk =>
          split
          · exact hi _ (by rcases hk with rfl | rfl <;> decide)
          · exact hm
        · exact hm
  unfold flattenProperty
  split
  · split
    · next hk =>
      exact hp _ _ (by rw [Obj.get_remove_ne _ (by rcases hk with rfl | rfl <;> decide)]; exact hm)
    · exact hp _ _ hm
  · exact hp _ _ hm

theorem choices_flattenObjects {m1 m2 : List (String × Json)} (h1 : GoodChoices m1) (h2 : GoodChoices m2) :
    GoodChoices (flattenObjects m1 m2) := by
  unfold flattenObjects
  simp only
  have hn : ∀ {m1 : List (String × Json)} (m2), GoodChoices m1 → GoodChoices (normaliseUnevaluated m1 m2) := by
    intro m1 m2 h e he hk
    rcases mem_normalise_other he with he | he
    · exact h e he hk
    · rw [hk] at he; exact absurd he (by decide)
  have h3 := hn m2 h1
  have h4 := hn (normaliseUnevaluated m1 m2) h2
  generalize normaliseUnevaluated m1 m2 = n1 at h3 h4
  generalize normaliseUnevaluated m2 n1 = n2 at h4
  induction n2 generalizing n1 with
  | nil => exact h3
  | cons e l ih =>
    exact ih _ (choices_flattenProperty h3 (h4 e (List.mem_cons_self ..))) fun e he => h4 e (List.mem_cons_of_mem _ he)

theorem type_flattenObjects {m1 : List (String × Json)} {ty : Json} (h : Obj.get m1 "type" = some ty)
    (m2 : List (String × Json)) : Obj.get (flattenObjects m1 m2) "type" = some ty := by
  unfold flattenObjects
  simp only
  have h3 : Obj.get (normaliseUnevaluated m1 m2) "type" = some ty := by
    rw [get_normalise_other _ _ (by decide) (by decide)]; exact h
  generalize normaliseUnevaluated m1 m2 = n1 at h3
  generalize normaliseUnevaluated m2 n1 = n2
  induction n2 generalizing n1 with
  | nil => exact h3
  | cons e l ih => exact ih _ (type_flattenProperty h3 _ _)

theorem flattens_remove {s : Json} (h : Flattens s) (k : String) : Flattens (Schema.remove s k).1 := by
  cases h.1.isSchema with
  | bool t => exact h
  | obj m => exact flattens_obj (mv_remove h.1 k) ((h.2 m rfl).remove k)

theorem flattens_optional {s : Json} (h : Flattens s) : Flattens (flattenOptional s) := by
  have h1 := flattens_remove h "required"
  unfold flattenOptional
  simp only
  generalize (Schema.remove s "required").1 = s1 at h1
  have hpush : ∀ {s2 : Json}, Flattens s2 → Flattens (Schema.getMut s2 "anyOf" fun a =>
      match a with
      | .arr l => if l.contains (.obj []) then .arr l else .arr (l ++ [.obj []])
      | a => a) := by
    intro s2 h2
    cases h2.1.isSchema with
    | bool t => exact h2
    | obj m =>
      refine flattens_obj (mv_modify h2.1 fun v hv => ?_) fun e he hk => ?_
      · obtain ⟨l, rfl, h0, hl⟩ := hv.schemas rfl
        simp only
        split
        · exact hv
        · refine me_schemas rfl (by simp) fun x hx => ?_
          rcases List.mem_append.1 hx with hx | hx
          · exact hl x hx
          · rw [List.mem_singleton.1 hx]; exact mv_empty
      · rcases Obj.mem_modify he with he | ⟨v, -, rfl⟩
        · exact h2.2 m rfl e he hk
        · exact absurd hk (show ¬ "anyOf" = "oneOf" by decide)
  apply hpush
  cases h1.1.isSchema with
  | bool t => exact h1
  | obj m =>
    simp only [Schema.remove]
    have hg : GoodChoices m := h1.2 m rfl
    cases ho : Obj.get m "oneOf" with
    | none => exact flattens_obj (mv_remove h1.1 _) (hg.remove _)
    | some v =>
      have h3 : MetaValid .every false (.obj [("anyOf", .arr [.obj [("oneOf", v)], .obj []])]) := by
        refine mv_single (me_schemas rfl (by simp) fun x hx => ?_)
        simp only [List.mem_cons, List.not_mem_nil, or_false] at hx
        rcases hx with rfl | rfl
        · exact mv_single (h1.1.entry ho)
        · exact mv_empty
      exact flattens_obj (mv_flattenObjects (mv_remove h1.1 _) h3)
        (choices_flattenObjects (hg.remove _) (good_none rfl))

theorem flattens_allowUnknown {s : Json} (h : Flattens s) : Flattens (allowUnknown s) := by
  refine ⟨mv_allowUnknown h.1, fun m' e => ?_⟩
  cases h.1.isSchema with
  | bool t => rw [allowUnknown_eq (.bool t)] at e; cases e
  | obj m =>
    rw [allowUnknown_eq (.obj m)] at e
    have e : Json.obj ((dropIfFalse (dropIfFalse m "additionalProperties") "unevaluatedProperties").map
      fun e => (e.1, atSlot allowUnknown (immSlot e.1) e.2)) = .obj m' := e
    cases e
    intro e0 he hk
    obtain ⟨e, he', rfl⟩ := List.mem_map.1 he
    have hk : e.1 = "oneOf" := hk
    have hd : ∀ {m : List (String × Json)} {k}, e ∈ dropIfFalse m k → e ∈ m := by
      intro m k he
      unfold dropIfFalse at he
      split at he
      · exact (Obj.mem_remove.1 he).1
      · exact he
    simp only [hk]
    exact choices_map (h.2 m rfl e (hd (hd he')) hk)

theorem flattens_inner {s : Json} (h : Proper false s) (optional : Bool) : Flattens (flattenInner s optional) := by
  unfold flattenInner
  simp only
  have h1 := flattens_expand h
  refine flattens_allowUnknown ?_
  split
  · exact flattens_optional h1
  · exact h1

/-- The schema of a struct. -/
structure StructLike (b : Bool) (s : Json) : Prop where
  proper : Proper b s
  type : ∃ m, s = .obj m ∧ Obj.get m "type" = some (.str "object")

theorem structLike {m : List (String × Json)} (h1 : MetaValid .every b (.obj m)) (h2 : GoodChoices m)
    (h3 : Obj.get m "type" = some (.str "object")) : StructLike b (.obj m) :=
  ⟨⟨h1, exp_obj (lists_type h3 (by simp)) h2⟩, m, rfl, h3⟩

theorem StructLike.flatten {s o : Json} (h : StructLike false s) (ho : Flattens o) : StructLike false (Verif.flatten s o) := by
  obtain ⟨h1, m, rfl, h2⟩ := h
  have hmv := mv_flatten h1.1 ho.1
  have hg : GoodChoices m := h1.2.2 m rfl
  cases ho.1.isSchema with
  | bool t =>
    cases t with
    | false => exact ⟨h1, m, rfl, h2⟩
    | true =>
      unfold Verif.flatten at hmv ⊢
      simp only at hmv ⊢
      split
      · next hc =>
        rw [if_pos hc] at hmv
        refine structLike hmv (hg.insert fun e => ?_) ?_
        · split at e <;> exact absurd e (by decide)
        · rw [Obj.get_insert_ne _ _ (by split <;> decide)]; exact h2
      · exact ⟨h1, m, rfl, h2⟩
  | obj m2 =>
    exact structLike hmv (choices_flattenObjects hg (ho.2 m2 rfl)) (type_flattenObjects h2 m2)

theorem StructLike.insertProperty {s sub : Json} (h : StructLike b s) (key : String) (opt : Bool)
    (hs : MetaValid .every b sub) (hk : b = true → NotRequired s key) :
    StructLike b (insertObjectProperty s key opt sub) := by
  obtain ⟨h1, m, rfl, h2⟩ := h
  have hmv := mv_insertObjectProperty h1.1 key opt hs hk
  have hg : GoodChoices m := h1.2.2 m rfl
  unfold insertObjectProperty at hmv ⊢
  simp only [Schema.ensureObject] at hmv ⊢
  split
  · next hc =>
    rw [if_pos hc] at hmv
    refine structLike hmv (hg.insert fun e => absurd e (by decide)) ?_
    unfold Obj.entryOr
    rw [Obj.get_insert_ne _ _ (by decide)]; exact h2
  · next hc =>
    rw [if_neg hc] at hmv
    refine structLike hmv ((hg.insert fun e => absurd e (by decide)).insert fun e => absurd e (by decide)) ?_
    unfold Obj.entryOr
    rw [Obj.get_insert_ne _ _ (by decide), Obj.get_insert_ne _ _ (by decide)]; exact h2

theorem proper_internalTag {s : Json} (h : Proper b s) (tag name : String) (deny : Bool)
    (hk : b = true → NotRequired s tag) : Proper b (applyInternalTag s tag name deny) := by
  have hmv := mv_internalTag h.1 tag name deny hk
  obtain ⟨m, e, hm⟩ := h.ensureObject
  have hg : GoodChoices m := hm.2.2 m rfl
  refine ⟨hmv, ?_⟩
  unfold applyInternalTag
  rw [e]
  simp only
  have h1 : GoodChoices (Obj.insert m "type" (.str "object")) := hg.insert fun e => absurd e (by decide)
  split
  · refine exp_obj (lists_type (v := .str "object") ?_ (by simp)) (((h1.insert fun e => absurd e (by decide)).insert
      fun e => absurd e (by decide)).insert fun e => absurd e (by decide))
    unfold Obj.entryOr
    rw [Obj.get_insert_ne _ _ (by decide), Obj.get_insert_ne _ _ (by decide), Obj.get_insert_ne _ _ (by decide),
      Obj.get_insert_self]
  · refine exp_obj (lists_type (v := .str "object") ?_ (by simp)) ((h1.insert fun e => absurd e (by decide)).insert
      fun e => absurd e (by decide))
    unfold Obj.entryOr
    rw [Obj.get_insert_ne _ _ (by decide), Obj.get_insert_ne _ _ (by decide), Obj.get_insert_self]

end Verif
