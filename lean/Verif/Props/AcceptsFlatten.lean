import Verif.Props.AcceptsEnum

/-!
# Structs with flattened enums accept what serde writes

The names of the members that each field may write are kept apart (`Parts`). The schema that has been made for some
of the fields accepts the whole object at any time, as each flattened schema looks at the members of its own part.
-/

namespace Verif
open Spec

variable {τ : Type}

/-! ### Schemas of objects with alternatives -/

/-- The keywords of the schema of a struct with flattened enums. -/
def partKeys : List String := ["type", "properties", "required", "allOf", "anyOf", "oneOf"]

/-- The schema says of an object which members it has, has alternatives, and says nothing else. -/
structure Part (m p : List (String × Json)) (r : List String) : Prop where
  sorted : Obj.Sorted m
  type : Obj.get m "type" = none ∨ Obj.get m "type" = some (.str "object")
  props : PropsAre m p
  propsSorted : Obj.Sorted p
  req : ReqAre m r
  lists : ∀ v, Obj.get m "allOf" = some v → ∃ l, v = .arr l
  other : ∀ k, k ∉ annotations → k ∉ partKeys → Obj.get m k = none

section
variable {D : Dialect} {env : Env} {m p m1 p1 m2 p2 : List (String × Json)} {r r1 r2 : List String} {s : Json}

theorem Shape.part (h : Shape m p r false) (hp : Obj.Sorted p) : Part m p r where
  sorted := h.sorted
  type := .inr h.type
  props := h.props
  propsSorted := hp
  req := h.req
  lists := by rw [h.other _ (by decide) (by decide)]; intro v hv; cases hv
  other := by
    intro k hk hk'
    by_cases ha : k = "additionalProperties"
    · subst ha; exact h.deny
    · refine h.other k hk fun hm => ?_
      simp only [List.mem_cons, List.not_mem_nil, or_false] at hm
      rcases hm with rfl | rfl | rfl | rfl
      · exact hk' (by decide)
      · exact hk' (by decide)
      · exact hk' (by decide)
      · exact ha rfl

theorem Part.kinds (h : Part m p r) : Kinds m where
  sorted := h.sorted
  maps := by
    intro k hk v hv
    simp only [List.mem_cons, List.not_mem_nil, or_false] at hk
    rcases hk with rfl | rfl
    · rcases h.props with ⟨e, -⟩ | e
      · rw [e] at hv; cases hv
      · rw [e] at hv; cases hv; exact ⟨p, rfl, h.propsSorted⟩
    · rw [h.other _ (by decide) (by decide)] at hv; cases hv
  lists := by
    intro k hk v hv
    simp only [List.mem_cons, List.not_mem_nil, or_false] at hk
    rcases hk with rfl | rfl
    · rcases h.req with ⟨e, -⟩ | e
      · rw [e] at hv; cases hv
      · rw [e] at hv; cases hv; exact ⟨_, rfl⟩
    · exact h.lists v hv
  noNullable := h.other _ (by decide) (by decide)

theorem Part.noRest (h : Part m p r) : ∀ k ∈ restKeys, Obj.get m k = none := fun k hk =>
  h.other k ((by decide : ∀ k ∈ restKeys, k ∉ annotations) k hk) ((by decide : ∀ k ∈ restKeys, k ∉ partKeys) k hk)

theorem Part.noRef (h : Part m p r) : Obj.get m "$ref" = none := h.other _ (by decide) (by decide)

theorem PropsAre.members (h : PropsAre m p) : members ((Obj.get m "properties").getD .null) = p := by
  rcases h with ⟨h, rfl⟩ | h <;> rw [h] <;> rfl

/-- Two schemas that declare different names are compatible. -/
theorem Part.compatible (h1 : Part m1 p1 r1) (h2 : Part m2 p2 r2)
    (hd : ∀ n a b, Obj.get p1 n = some a → Obj.get p2 n ≠ some b) : Compatible m1 m2 where
  left := h1.kinds
  right := h2.kinds
  same := by
    intro k hc hr ha a b e1 e2
    by_cases hk : k = "type"
    · subst hk
      rcases h1.type with h | h <;> rw [h] at e1 <;> cases e1
      rcases h2.type with h | h <;> rw [h] at e2 <;> cases e2
      rfl
    · have : k ∉ partKeys := by
        intro hm
        unfold partKeys at hm
        unfold combinedKeys at hc
        simp only [List.mem_cons, List.not_mem_nil, or_false, not_or] at hm hc
        rcases hm with h | h | h | h | h | h
        · exact hk h
        · exact hc.2.1 h
        · exact hc.1 h
        · exact hc.2.2.2.1 h
        · exact hc.2.2.2.2.1 h
        · exact hc.2.2.2.2.2 h
      rw [h1.other k ha this] at e1; cases e1
  names := by
    intro k hk n a b e1 e2
    simp only [List.mem_cons, List.not_mem_nil, or_false] at hk
    rcases hk with rfl | rfl
    · rw [h1.props.members] at e1
      rw [h2.props.members] at e2
      exact absurd e2 (hd n a b e1)
    · rw [h1.other _ (by decide) (by decide)] at e1; cases e1
  linked := .inl fun k hk => h1.other k ((by decide : ∀ k ∈ linkedKeys, k ∉ annotations) k hk)
    ((by decide : ∀ k ∈ linkedKeys, k ∉ partKeys) k hk)

/-- Both schemas are flattened to their conjunction, which is a schema of the same kind. -/
theorem Part.flatten (h1 : Part m1 p1 r1) (h2 : Part m2 p2 r2) (ht : Obj.get m1 "type" = some (.str "object"))
    (hd : ∀ n a b, Obj.get p1 n = some a → Obj.get p2 n ≠ some b) :
    ∃ m p, Verif.flatten (.obj m1) (.obj m2) = .obj m ∧ Part m p (r1 ++ r2) ∧
      Obj.get m "type" = some (.str "object") ∧ (∀ n, Obj.get p n = (Obj.get p2 n).or (Obj.get p1 n)) ∧
      ∀ i, Valid D env (.obj m) i ↔ Valid D env (.obj m1) i ∧ Valid D env (.obj m2) i := by
  have hc := h1.compatible h2 hd
  have hv := fun i => C49_conjunction (D := D) (env := env) (i := i) hc (.inr h1.noRef) (.inr h2.noRef) h1.noRest h2.noRest
  have hnd := Obj.sorted_nodup h2.sorted
  have hg := fun q (ha : q ≠ "allOf") (hq : q ∉ altKeys) => get_mergeAll_plain (m := m1) hnd ha hq
  have hfl : Verif.flatten (.obj m1) (.obj m2) = .obj (mergeAll m1 m2) := by
    show Json.obj (flattenObjects m1 m2) = _
    rw [flattenObjects_eq, normalise_id (h1.noRest _ (by decide)), normalise_id (h2.noRest _ (by decide))]
  obtain ⟨p, hp, hps, hpg⟩ : ∃ p, PropsAre (mergeAll m1 m2) p ∧ Obj.Sorted p ∧
      ∀ n, Obj.get p n = (Obj.get p2 n).or (Obj.get p1 n) := by
    unfold PropsAre
    rw [hg _ (by decide) (by decide)]
    rcases h1.props with ⟨e1, rfl⟩ | e1 <;> rcases h2.props with ⟨e2, rfl⟩ | e2 <;> rw [e1, e2]
    · exact ⟨[], .inl ⟨rfl, rfl⟩, h1.propsSorted, fun n => rfl⟩
    · exact ⟨p2, .inr rfl, h2.propsSorted, fun n => by cases Obj.get p2 n <;> rfl⟩
    · exact ⟨p1, .inr rfl, h1.propsSorted, fun n => rfl⟩
    · refine ⟨Obj.extend p1 p2, .inr ?_, Obj.sorted_extend h1.propsSorted _, fun n => ?_⟩
      · simp only [Option.elim_some]; rw [mergeValue_map (by decide)]
      · rw [Obj.get_extend_nodup _ (Obj.sorted_nodup h2.propsSorted)]
        cases Obj.get p2 n <;> rfl
  have hty : Obj.get (mergeAll m1 m2) "type" = some (.str "object") := by
    rw [hg _ (by decide) (by decide), ht]
    rcases h2.type with h | h <;> rw [h] <;> rfl
  refine ⟨mergeAll m1 m2, p, hfl, ⟨sorted_mergeAll h1.sorted, .inr hty, hp, hps, ?_, ?_, ?_⟩, hty, hpg, ?_⟩
  · unfold ReqAre
    rw [hg _ (by decide) (by decide)]
    rcases h1.req with ⟨e1, rfl⟩ | e1 <;> rcases h2.req with ⟨e2, rfl⟩ | e2 <;> rw [e1, e2]
    · left; exact ⟨rfl, rfl⟩
    · right; rfl
    · right; rw [List.append_nil]; rfl
    · right; simp [mergeValue]
  · obtain ⟨l1, hl1⟩ := arrAt_of_kinds h1.kinds (k := "allOf") (by decide)
    intro v hv
    rcases mergeAll_allOf hnd hl1 fun v hv => h2.lists v hv with ⟨h, -⟩ | h
    · rw [h] at hv; cases hv
    · rw [h] at hv; cases hv; exact ⟨_, rfl⟩
  · intro k hk hk'
    have ha : k ≠ "allOf" := by rintro rfl; exact hk' (by decide)
    have hq : k ∉ altKeys := fun h => hk' ((by decide : ∀ k ∈ altKeys, k ∈ partKeys) k h)
    rw [hg k ha hq, h1.other k hk hk', h2.other k hk hk']; rfl
  · intro i
    rw [← hfl]; exact hv i

/-- A field is added to the schema. -/
theorem Part.insertProperty (h : Part m p r) (ht : Obj.get m "type" = some (.str "object")) (key : String) (opt : Bool)
    (sub : Json) : ∃ m', insertObjectProperty (.obj m) key opt sub = .obj m' ∧
      Part m' (Obj.insert p key sub) (r ++ if opt then [] else [key]) ∧ Obj.get m' "type" = some (.str "object") ∧
      ∀ o, Valid D env (.obj m) (.obj o) → (opt = false → ∃ x, Obj.get o key = some x) →
        (∀ x, (key, x) ∈ o → Valid D env sub x) → Valid D env (.obj m') (.obj o) := by
  obtain ⟨m', h1, h2, h3, h4, h5⟩ := insertObjectProperty_obj h.sorted h.props h.req key opt sub
  have hty : Obj.get m' "type" = some (.str "object") := by rw [h5 _ (by decide) (by decide)]; exact ht
  have hP : Part m' (Obj.insert p key sub) (r ++ if opt then [] else [key]) := by
    refine ⟨h2, .inr hty, h3, Obj.sorted_insert h.propsSorted _ _, h4, ?_, ?_⟩
    · rw [h5 _ (by decide) (by decide)]; exact h.lists
    · intro k ha hk
      rw [h5 k (by rintro rfl; exact hk (by decide)) (by rintro rfl; exact hk (by decide))]
      exact h.other k ha hk
  refine ⟨m', h1, hP, hty, fun o hv hreq hsub => ?_⟩
  rw [valid_get (.inr h.noRef) h.sorted] at hv
  rw [valid_get (.inr hP.noRef) h2]
  intro k v hk
  by_cases hkp : k = "properties"
  · subst hkp
    rcases h3 with ⟨e, -⟩ | e <;> rw [e] at hk <;> cases hk
    rw [entryOk_properties]
    intro e he s hs
    change Obj.get (Obj.insert p key sub) e.1 = some s at hs
    rw [Obj.get_insert] at hs
    split at hs
    · next hke => cases hs; exact hsub e.2 (hke ▸ he)
    · rcases h.props with ⟨e', rfl⟩ | e'
      · cases hs
      · have := hv _ _ e'
        rw [entryOk_properties] at this
        exact this e he s hs
  by_cases hkr : k = "required"
  · subst hkr
    rcases h4 with ⟨e, -⟩ | e <;> rw [e] at hk <;> cases hk
    rw [List.map_append, entryOk_required_append]
    constructor
    · rcases h.req with ⟨e', rfl⟩ | e'
      · rw [entryOk_simple (by decide)]; rfl
      · have := hv _ _ e'
        rw [entryOk_simple (by decide)] at this ⊢
        exact this
    · rw [entryOk_simple (by decide)]
      cases opt with
      | true => rfl
      | false =>
        obtain ⟨x, hx⟩ := hreq rfl
        simp [simple, requiredOk, hasMember, members, Obj.has, hx]
  · rw [h5 k hkp hkr] at hk
    have := hv k v hk
    by_cases ha : k ∈ annotations
    · exact entryOk_annotation ha v
    by_cases hty' : k = "type"
    · subst hty'
      rw [entryOk_typeCongr (m' := m)]
      · exact this
      · rw [h5 _ (by decide) (by decide)]
    · have hpk : k ∈ partKeys := by
        by_contra hc
        rw [h.other k ha hc] at hk; cases hk
      rw [entryOk_free (m' := m) ((by decide : ∀ k ∈ partKeys, k ∉ linkedKeys) k hpk)
        ((by decide : ∀ k ∈ partKeys, k ∉ restKeys) k hpk) hty']
      exact this

/-! ### Opened schemas -/

/-- The object `o` has the members `q`, and of the names `ns` no others. -/
def Grows (ns : List String) (q o : List (String × Json)) : Prop := (∀ e ∈ q, e ∈ o) ∧ ∀ e ∈ o, e.1 ∈ ns → e ∈ q

theorem Shape.allowUnknown {deny : Bool} (h : Shape m p r deny) :
    ∃ m', Verif.allowUnknown (.obj m) = .obj m' ∧ Shape m' p r false := by
  obtain ⟨m', e, hs⟩ := h.flattenInner false
  refine ⟨m', ?_, hs⟩
  rw [← e]
  have : expandUnitVariants (.obj m) = .obj m := by
    have : removeUnitVariants (.obj m) = (.obj m, none) := by
      unfold removeUnitVariants
      simp only
      rw [h.type]
      have hb : ((some (Json.str "object")).bind Json.asStr? == some "string") = false := rfl
      rw [hb]
      simp only [Bool.false_eq_true, if_false, h.other "oneOf" (by decide) (by decide)]
    unfold expandUnitVariants
    rw [this]
  unfold Verif.flattenInner
  simp only [this, Bool.false_eq_true, if_false]

/-- A struct that does not know the further members. -/
theorem Shape.grow {deny : Bool} {ns : List String} {q o : List (String × Json)} (h : Shape m p r deny)
    (h2 : Shape m2 p r false) (hp : ∀ n x, Obj.get p n = some x → n ∈ ns) (hg : Grows ns q o) (ho : Obj.Sorted o)
    (hv : Valid D env (.obj m) (.obj q)) : Valid D env (.obj m2) (.obj o) := by
  rw [h.valid] at hv
  rw [h2.valid]
  obtain ⟨q', e, hv1, hv2, -⟩ := hv
  cases e
  refine ⟨o, rfl, fun n hn => ?_, fun e he s hs => ?_, fun h => by cases h⟩
  · obtain ⟨x, hx⟩ := hv1 n hn
    exact ⟨x, Obj.get_of_mem_sorted ho (hg.1 _ (Obj.get_mem hx))⟩
  · exact hv2 e (hg.2 e he (hp _ _ hs)) s hs

theorem oneOf_family {ps : List (String × Json)} {n : String} {i : Json} (hn : (ps.map Prod.fst).Nodup)
    (hx : ∀ e ∈ ps, Valid D env e.2 i → e.1 = n) (hv : ∃ e ∈ ps, Valid D env e.2 i) :
    Valid D env (.obj [("oneOf", .arr (ps.map Prod.snd))]) i := by
  rw [valid_oneOf_exclusive]
  · obtain ⟨e, he, hv⟩ := hv
    exact ⟨e.2, List.mem_map_of_mem he, hv⟩
  · rw [List.pairwise_map]
    exact pairwise_of_names (P := fun e : String × Json => Valid D env e.2 i) hn fun a ha b hb h1 h2 =>
      (hx a ha h1).trans (hx b hb h2).symm

/-- A schema with only these alternatives. -/
structure OnlyOneOf (m : List (String × Json)) (l : List Json) : Prop where
  sorted : Obj.Sorted m
  oneOf : Obj.get m "oneOf" = some (.arr l)
  other : ∀ k, k ∉ annotations → k ≠ "oneOf" → Obj.get m k = none

theorem OnlyOneOf.valid {l : List Json} {i : Json} (h : OnlyOneOf m l) :
    Valid D env (.obj m) i ↔ Valid D env (.obj [("oneOf", .arr l)]) i := by
  rw [valid_single (by decide), valid_get (.inr (h.other _ (by decide) (by decide))) h.sorted]
  constructor
  · intro hv
    exact (entryOk_free (by decide) (by decide) (by decide)).1 (hv _ _ h.oneOf)
  · intro hv k v hk
    by_cases ha : k ∈ annotations
    · exact entryOk_annotation ha v
    · by_cases ho : k = "oneOf"
      · subst ho
        rw [h.oneOf] at hk; cases hk
        exact (entryOk_free (by decide) (by decide) (by decide)).1 hv
      · rw [h.other k ha ho] at hk; cases hk

theorem OnlyOneOf.part {l : List Json} (h : OnlyOneOf m l) : Part m [] [] where
  sorted := h.sorted
  type := .inl (h.other _ (by decide) (by decide))
  props := .inl ⟨h.other _ (by decide) (by decide), rfl⟩
  propsSorted := .nil
  req := .inl ⟨h.other _ (by decide) (by decide), rfl⟩
  lists := by rw [h.other _ (by decide) (by decide)]; intro v hv; cases hv
  other := fun k hk hk' => h.other k hk (by rintro rfl; exact hk' (by decide))

theorem OnlyOneOf.allowUnknown {l : List Json} (h : OnlyOneOf m l) :
    ∃ m', Verif.allowUnknown (.obj m) = .obj m' ∧ OnlyOneOf m' (l.map (atSchema Verif.allowUnknown)) := by
  obtain ⟨m', e, hs, hg, hr⟩ := get_allowUnknown (m := m)
  refine ⟨m', e, hs h.sorted, ?_, fun k hk ho => ?_⟩
  · rw [hg _ (by decide), h.oneOf]; rfl
  · by_cases hkr : k ∈ restKeys
    · rw [hr k hkr, h.other k hk ho]; simp
    · rw [hg k hkr, h.other k hk ho]; rfl

theorem OnlyOneOf.annotate {l : List Json} (h : OnlyOneOf m l) {fs : List (Json → Json)} (hf : ∀ f ∈ fs, Annotates f) :
    ∃ m', runMutators fs (.obj m) = .obj m' ∧ OnlyOneOf m' l := by
  obtain ⟨m', e, hs, hg⟩ := runMutators_get hf h.sorted
  exact ⟨m', e, hs, by rw [hg _ (by decide)]; exact h.oneOf, fun k hk ho => by rw [hg k hk]; exact h.other k hk ho⟩

theorem filterMap_names (names : List String) : (names.map Json.str).filterMap Json.asStr? = names := by
  rw [List.filterMap_map]
  exact List.filterMap_some

/-- The unit variants become objects, after the other alternatives. -/
theorem OnlyOneOf.expandUnits {names : List String} {l : List Json}
    (h : OnlyOneOf m (unitVariantsSchema names :: l)) :
    ∃ m', expandUnitVariants (.obj m) = .obj m' ∧ OnlyOneOf m' (l ++ names.map unitVariantObject) := by
  have hu : ∃ first, unitVariantsSchema names = .obj first ∧ Obj.get first "type" = some (.str "string") ∧
      Obj.get first "enum" = some (.arr (names.map .str)) :=
    ⟨_, rfl, get_ofList (by simp [Obj.keys]) _, get_ofList (by simp [Obj.keys]) _⟩
  obtain ⟨first, ef, h1, h2⟩ := hu
  have ht : Obj.get m "type" = none := h.other _ (by decide) (by decide)
  have hr : removeUnitVariants (.obj m) = (.obj (Obj.insert m "oneOf" (.arr l)), some (names.map .str)) := by
    unfold removeUnitVariants
    have hb : ((none : Option Json).bind Json.asStr? == some "string") = false := rfl
    simp only [ht, hb, Bool.false_eq_true, if_false]
    rw [h.oneOf, ef]
    simp only
    rw [h1, h2]; rfl
  have hx : expandUnitVariants (.obj m) = .obj (Obj.insert (Obj.insert m "oneOf" (.arr l)) "oneOf"
      (.arr (l ++ names.map unitVariantObject))) := by
    unfold expandUnitVariants
    rw [hr]
    simp only [Schema.ensureObject, Obj.entryOr]
    rw [Obj.get_insert_self, filterMap_names]; rfl
  refine ⟨_, hx, Obj.sorted_insert (Obj.sorted_insert h.sorted _ _) _ _, Obj.get_insert_self _ _ _, fun k hk ho => ?_⟩
  rw [Obj.get_insert_ne _ _ (Ne.symm ho), Obj.get_insert_ne _ _ (Ne.symm ho)]
  exact h.other k hk ho

/-- Alternatives that are objects are left as they are. -/
theorem OnlyOneOf.expandNone {l : List Json} (h : OnlyOneOf m l)
    (hl : ∀ a ∈ l, ∃ x, a = .obj x ∧ Obj.get x "type" = some (.str "object")) :
    expandUnitVariants (.obj m) = .obj m := by
  have ht : Obj.get m "type" = none := h.other _ (by decide) (by decide)
  have : removeUnitVariants (.obj m) = (.obj m, none) := by
    unfold removeUnitVariants
    have hb : ((none : Option Json).bind Json.asStr? == some "string") = false := rfl
    simp only [ht, hb, Bool.false_eq_true, if_false, h.oneOf]
    cases l with
    | nil => rfl
    | cons a l =>
      obtain ⟨x, rfl, hx⟩ := hl a (List.mem_cons_self ..)
      have hb : ((some (Json.str "object")).bind Json.asStr? == some "string") = false := rfl
      simp only [hx, hb]
  unfold expandUnitVariants
  rw [this]

/-- An enum of listed variants. -/
theorem expand_listed {names : List String} (hs : Obj.Sorted m) (ht : Obj.get m "type" = some (.str "string"))
    (he : Obj.get m "enum" = some (.arr (names.map .str)))
    (hk : ∀ k, k ∉ annotations → k ≠ "type" → k ≠ "enum" → Obj.get m k = none) :
    ∃ m', expandUnitVariants (.obj m) = .obj m' ∧ OnlyOneOf m' (names.map unitVariantObject) := by
  have hone : Obj.get m "oneOf" = none := hk _ (by decide) (by decide) (by decide)
  have hx : expandUnitVariants (.obj m) =
      .obj (Obj.insert (Obj.remove (Obj.remove m "enum") "type") "oneOf" (.arr (names.map unitVariantObject))) := by
    have hr : removeUnitVariants (.obj m) =
        (.obj (Obj.remove (Obj.remove m "enum") "type"), some (names.map .str)) := by
      unfold removeUnitVariants
      simp only
      rw [ht, he]; rfl
    unfold expandUnitVariants
    rw [hr]
    simp only [Schema.ensureObject, Obj.entryOr]
    rw [Obj.get_remove_ne _ (by decide), Obj.get_remove_ne _ (by decide), hone, filterMap_names]; rfl
  refine ⟨_, hx, Obj.sorted_insert (Obj.sorted_remove (Obj.sorted_remove hs _) _) _ _, Obj.get_insert_self _ _ _,
    fun k ha ho => ?_⟩
  rw [Obj.get_insert_ne _ _ (Ne.symm ho)]
  by_cases e2 : "type" = k
  · subst e2; exact Obj.get_remove_self _ _
  rw [Obj.get_remove_ne _ e2]
  by_cases e3 : "enum" = k
  · subst e3; exact Obj.get_remove_self _ _
  rw [Obj.get_remove_ne _ e3]
  exact hk k ha (Ne.symm e2) (Ne.symm e3)

/-- An optional enum requires nothing. -/
theorem Spec.Plain.optionalPart (h : Plain m) (hp : ∀ k ∈ ["properties", "patternProperties"], Obj.get m k = none) :
    ∃ m', Verif.flattenInner (.obj m) true = .obj m' ∧ Part m' [] [] ∧ ∀ o, Valid D env (.obj m') (.obj o) := by
  have hv : ∀ o, Valid D env (Verif.flattenInner (.obj m) true) (.obj o) := by
    intro o
    refine C50_optional h fun e _ hn => ?_
    rcases hn with hn | ⟨p, hpm, -⟩
    · rw [memb_none m (hp _ (by decide))] at hn; cases hn
    · rw [memb_none m (hp _ (by decide))] at hpm; cases hpm
  obtain ⟨m1, e1, h1⟩ := h.expand
  obtain ⟨m2, e2, h2⟩ := h1.optional
  obtain ⟨m3, e3, hs, hg, hr⟩ := get_allowUnknown (m := m2)
  have e : Verif.flattenInner (.obj m) true = .obj m3 := by
    unfold Verif.flattenInner
    simp only [if_true]
    rw [e1, e2, e3]
  have hnone : ∀ k, Obj.get m2 k = none → k ∉ restKeys → Obj.get m3 k = none := by
    intro k hk hkr
    rw [hg k hkr, hk]; rfl
  have hkeys : ∀ k, k ∉ annotations → k ∉ ["type", "anyOf"] → Obj.get m3 k = none := by
    intro k ha hk
    by_cases hkr : k ∈ restKeys
    · rw [hr k hkr]
      rcases h2.rest k hkr with e | e <;> rw [e] <;> simp
    · refine hnone k ?_ hkr
      by_cases hn : k ∈ ["properties", "patternProperties"]
      · rw [h2.names k hn]; exact hp k hn
      · cases e : Obj.get m2 k with
        | none => rfl
        | some w =>
          rcases h2.keys k w e with h' | h'
          · exact absurd h' ha
          · simp only [restKeys, List.mem_cons, List.not_mem_nil, or_false, not_or] at h' hkr hk hn
            rcases h' with h' | h' | h' | h' | h' | h' <;> simp_all
  refine ⟨m3, e, ⟨hs h2.sorted, ?_, .inl ⟨hkeys _ (by decide) (by decide), rfl⟩, .nil,
    .inl ⟨hkeys _ (by decide) (by decide), rfl⟩, ?_, fun k ha hk => hkeys k ha ?_⟩, fun o => e ▸ hv o⟩
  · rw [hg _ (by decide)]
    rcases h2.type with h | h <;> rw [h]
    · exact .inl rfl
    · exact .inr rfl
  · rw [hkeys _ (by decide) (by decide)]; intro v hv; cases hv
  · exact fun h => hk ((by decide : ∀ k ∈ ["type", "anyOf"], k ∈ partKeys) k h)

theorem OnlyOneOf.plain {l : List Json} (h : OnlyOneOf m l) : Plain m where
  sorted := h.sorted
  keys := by
    intro k v hk
    by_cases ha : k ∈ annotations
    · exact .inl ha
    · by_cases ho : k = "oneOf"
      · subst ho; exact .inr (by decide)
      · rw [h.other k ha ho] at hk; cases hk
  type := .inl (h.other _ (by decide) (by decide))
  enum := by
    rw [h.other "type" (by decide) (by decide), h.other "enum" (by decide) (by decide)]
    simp
  enumArr := by rw [h.other "enum" (by decide) (by decide)]; intro v hv; cases hv
  oneKind := .inl (h.other _ (by decide) (by decide))
  anyOfArr := by rw [h.other "anyOf" (by decide) (by decide)]; intro v hv; cases hv
  rest := fun k hk => .inl (h.other k ((by decide : ∀ k ∈ restKeys, k ∉ annotations) k hk)
    ((by decide : ∀ k ∈ restKeys, k ≠ "oneOf") k hk))

theorem plain_listed {names : List Json} (hs : Obj.Sorted m) (ht : Obj.get m "type" = some (.str "string"))
    (he : Obj.get m "enum" = some (.arr names))
    (hk : ∀ k, k ∉ annotations → k ≠ "type" → k ≠ "enum" → Obj.get m k = none) : Plain m where
  sorted := hs
  keys := by
    intro k v hv
    by_cases ha : k ∈ annotations
    · exact .inl ha
    · by_cases ho : k = "type"
      · subst ho; exact .inr (by decide)
      · by_cases ho' : k = "enum"
        · subst ho'; exact .inr (by decide)
        · rw [hk k ha ho ho'] at hv; cases hv
  type := .inr (.inr ht)
  enum := by rw [ht, he]; simp
  enumArr := by rw [he]; intro v hv; cases hv; exact ⟨_, rfl⟩
  oneKind := .inl (hk _ (by decide) (by decide) (by decide))
  anyOfArr := by rw [hk "anyOf" (by decide) (by decide) (by decide)]; intro v hv; cases hv
  rest := fun k hk' => .inl (hk k ((by decide : ∀ k ∈ restKeys, k ∉ annotations) k hk')
    ((by decide : ∀ k ∈ restKeys, k ≠ "type") k hk') ((by decide : ∀ k ∈ restKeys, k ≠ "enum") k hk'))

end

section
variable {D : Dialect} {env : Env} {S : τ → Json → Prop} {decl : τ → Decl τ} {I : TypeInfo τ}
  {F : Answers τ → Prop} {A : Answers τ} {s : Json}

/-! ### Flattened enums -/

/-- An enum whose schema is derived from its variants. -/
structure Spec.PlainEnum (c : Container τ) (tag : TagType) (vs : List (Variant τ)) : Prop where
  data : c.data = .enum tag vs
  noWith : c.withTy = none
  noTransparent : c.transparent = none
  noInto : c.intoTy = none
  common : Harmless c.common

/-- The names of the members that are written beside the tag. -/
def Spec.InternalNames (decl : τ → Decl τ) (I : TypeInfo τ) (v : Variant τ) (ms : List String) : Prop :=
  match v.withTy with
  | some t => TypeNames decl I.base t ms
  | none => match v.fields with
    | .unit => ms = []
    | .newtype f => TypeNames decl I.base (fieldType I.base f) ms
    | .tuple _ => False
    | .struct fs => StructOk decl I fs ms

/-- The names of the members that are written for the variants of a flattened enum. A unit variant of an externally
tagged enum must have no attributes (nor a doc comment), as the schema is wrong otherwise (`C45_flatten_documented`). -/
def Spec.VariantNames (decl : τ → Decl τ) (I : TypeInfo τ) (vs : List (Variant τ)) (ns : List String) : TagType → Prop
  | .external => ∀ v ∈ vs, v.skipSer = false → v.name.ser ∈ ns ∧
      (v.isUnit = true → v.withTy = none → v.common.isDefault = true)
  | .adjacent t c => t ∈ ns ∧ c ∈ ns
  | .internal t => t ∈ ns ∧ ∀ v ∈ vs, v.skipSer = false →
      ∃ ms, InternalNames decl I v ms ∧ t ∉ ms ∧ ∀ n ∈ ms, n ∈ ns
  | .none => False

/-- The names of the members that are written for a flattened enum. -/
def Spec.EnumNames (decl : τ → Decl τ) (I : TypeInfo τ) (t : τ) (ns : List String) : Prop :=
  ∃ c tag vs, decl t = .derived c ∧ PlainEnum c tag vs ∧ EnumOk decl I tag vs ∧ (∀ v ∈ vs, v.untagged = false) ∧
    VariantNames decl I vs ns tag

theorem enum_container {c : Container τ} {tag : TagType} {vs : List (Variant τ)} (hc : PlainEnum c tag vs)
    (hser : A.settings.contract = .serialize) (h : Returns A (containerProg I c) s) :
    ∃ s0, Returns A (enumProg I tag vs c.denyUnknownFields) s0 ∧ s = runMutators c.common.mutators s0 := by
  unfold containerProg at h
  rw [hc.noWith, hc.noTransparent, hc.noInto] at h
  have hd : dataProg I c = enumProg I tag vs c.denyUnknownFields := by
    unfold dataProg; rw [hc.data]
  cases hf : c.fromTy with
  | none =>
    rw [hf] at h
    simp only at h
    rw [res_map, hd] at h
    exact h
  | some t =>
    rw [hf] at h
    simp only at h
    rw [res_map] at h
    obtain ⟨s0, h0, rfl⟩ := h
    simp only [Returns, hser] at h0
    rw [hd] at h0
    exact ⟨s0, h0, rfl⟩

/-- The members are written for the variant. -/
def Adds (P : Json → Prop) (q : List (String × Json)) : Prop :=
  ((Json.obj q).WF ∧ P (.obj q)) ∨ (∃ n, q = [(n, .null)] ∧ P (.str n)) ∨ (q = [] ∧ P .null)

/-- The schema of an enum in the form that it has after the unit variants are replaced, and what its alternatives
accept once they allow unknown members. -/
def Alternatives (D : Dialect) (env : Env) (W : List (String × Json) → Prop) (ns : List String) (s : Json) : Prop :=
  ∃ (m m1 ps : List (String × Json)), s = .obj m ∧ Plain m ∧ (∀ k ∈ ["properties", "patternProperties"], Obj.get m k = none) ∧
    expandUnitVariants (.obj m) = .obj m1 ∧ OnlyOneOf m1 (ps.map Prod.snd) ∧
    (ps.map Prod.fst).Nodup ∧
    ∀ q, W q → ∀ o, Grows ns q o → (Json.obj o).WF →
      (∃ n, ∀ e ∈ ps, Valid D env (atSchema allowUnknown e.2) (.obj o) → e.1 = n) ∧
      ∃ e ∈ ps, Valid D env (atSchema allowUnknown e.2) (.obj o)

/-- An enum that is flattened. -/
theorem Alternatives.flatten {W : List (String × Json) → Prop} {ns : List String} (h : Alternatives D env W ns s)
    (optional : Bool) : ∃ m, flattenInner s optional = .obj m ∧ Part m [] [] ∧
      (optional = true → ∀ o, Valid D env (.obj m) (.obj o)) ∧
      ∀ q o, W q → Grows ns q o → (Json.obj o).WF → Valid D env (.obj m) (.obj o) := by
  obtain ⟨m, m1, ps, rfl, hp, hnp, e1, h1, hn, hv⟩ := h
  cases optional with
  | true =>
    obtain ⟨m', e, hpart, hval⟩ := hp.optionalPart (D := D) (env := env) hnp
    exact ⟨m', e, hpart, fun _ => hval, fun _ o _ _ _ => hval o⟩
  | false =>
    obtain ⟨m2, e2, h2⟩ := h1.allowUnknown
    refine ⟨m2, ?_, h2.part, fun h => (by cases h), fun q o hq hg ho => ?_⟩
    · unfold flattenInner
      simp only [Bool.false_eq_true, if_false]
      rw [e1, e2]
    · rw [h2.valid]
      obtain ⟨⟨n, hx⟩, e, he, hve⟩ := hv q hq o hg ho
      have := oneOf_family (D := D) (env := env) (i := .obj o) (n := n)
        (ps := ps.map fun e => (e.1, atSchema allowUnknown e.2)) (by rw [List.map_map]; exact hn) ?_ ?_
      · rw [List.map_map] at this ⊢; exact this
      · intro e' he'
        obtain ⟨e'', he'', rfl⟩ := List.mem_map.1 he'
        exact hx e'' he''
      · exact ⟨_, List.mem_map_of_mem he, hve⟩

theorem sorted_of_wf {o : List (String × Json)} (h : (Json.obj o).WF) : Obj.Sorted o := by cases h; assumption

theorem external_shape {deny : Bool} {v : Variant τ} (hu : v.untagged = false) (hc : Harmless v.common)
    (hb : ¬ (v.isUnit && v.withTy.isNone) = true) (h : Returns A (externalVariantProg I v deny) s) :
    ∃ m sub, s = .obj m ∧
      Shape m [(v.name.get A.settings.contract, sub)] [v.name.get A.settings.contract] true := by
  unfold externalVariantProg at h
  rw [hu] at h
  simp only [Bool.false_eq_true, if_false] at h
  rw [if_neg hb] at h
  simp only [Returns] at h
  obtain ⟨sub, h1, rfl⟩ := res_map.1 h
  obtain ⟨m, e, hm⟩ := shape_external (v.name.get A.settings.contract) sub
  obtain ⟨m', e', hm'⟩ := hm.annotate hc.annotates
  exact ⟨m', sub, by rw [e, e'], hm'⟩

theorem adjacent_shape {deny : Bool} {tag key : String} (hne : tag ≠ key) {v : Variant τ} (hu : v.untagged = false)
    (hc : Harmless v.common) (h : Returns A (adjacentTaggedProg I tag key v deny) s) :
    ∃ m p r, s = .obj m ∧ Shape m p (tag :: r) deny ∧
      Obj.get p tag = some (tagSchema (v.name.get A.settings.contract)) ∧
      ∀ k x, Obj.get p k = some x → k = tag ∨ k = key := by
  have key' : ∀ sub, s = runMutators v.common.mutators (adjacentSchema tag key (v.name.get A.settings.contract) deny sub) →
      ∃ m p r, s = .obj m ∧ Shape m p (tag :: r) deny ∧
        Obj.get p tag = some (tagSchema (v.name.get A.settings.contract)) ∧
        ∀ k x, Obj.get p k = some x → k = tag ∨ k = key := by
    rintro sub rfl
    obtain ⟨m, p, e, hm, h1, -, h3⟩ := shape_adjacent hne (v.name.get A.settings.contract) deny sub
    obtain ⟨m', e', hm'⟩ := hm.annotate hc.annotates
    refine ⟨m', p, _, by rw [e, e'], hm', h1, fun k x hk => ?_⟩
    by_contra hk'
    rw [not_or] at hk'
    rw [h3 k hk'.1 hk'.2] at hk; cases hk
  unfold adjacentTaggedProg at h
  rw [hu] at h
  simp only [Bool.false_eq_true, if_false] at h
  split at h
  · simp only [Returns] at h
    exact key' none h
  · simp only [Returns] at h
    obtain ⟨sub, -, rfl⟩ := res_map.1 h
    exact key' (some sub) rfl

/-- An alternative with a tag. -/
theorem Shape.tag {m p : List (String × Json)} {r : List String} {deny : Bool} {tag name : String} {i : Json}
    (h : Shape m p (tag :: r) deny) (ht : Obj.get p tag = some (tagSchema name)) (hv : Valid D env (.obj m) i) :
    Tagged tag name i := by
  rw [h.valid] at hv
  obtain ⟨o, rfl, h1, h2, -⟩ := hv
  obtain ⟨x, hx⟩ := h1 tag (List.mem_cons_self ..)
  have := h2 _ (Obj.get_mem hx) _ ht
  rw [valid_tagSchema] at this
  exact ⟨o, rfl, by rw [hx]; exact congrArg _ this⟩

/-- The members that are written for some variant. -/
def VariantAdds (env : Env) (S : τ → Json → Prop) (I : TypeInfo τ) (decl : τ → Decl τ) (tag : TagType) (vs : List (Variant τ))
    (q : List (String × Json)) : Prop :=
  ∃ v ∈ vs, v.skipSer = false ∧ Adds (EncEnum S (FieldObeys env) I.base decl tag v) q

theorem external_adds {v : Variant τ} {q : List (String × Json)} (hv : VariantOk decl I v) (hu : v.untagged = false)
    (h : Adds (EncEnum S (FieldObeys env) I.base decl .external v) q) :
    ((v.isUnit && v.withTy.isNone) = true ∧ q = [(v.name.ser, .null)]) ∨
    (¬ (v.isUnit && v.withTy.isNone) = true ∧ (∃ x, q = [(v.name.ser, x)]) ∧ (Json.obj q).WF ∧
      EncEnum S (FieldObeys env) I.base decl .external v (.obj q)) := by
  rcases h with ⟨hw, h⟩ | ⟨n, rfl, h⟩ | ⟨rfl, h⟩
  · have h' := h
    unfold EncEnum at h
    rw [hu] at h
    simp only [Bool.false_eq_true, if_false] at h
    rw [bare_iff hv] at h
    rcases h with ⟨-, h⟩ | ⟨hb, x, h, -⟩
    · cases h
    · cases h
      exact .inr ⟨hb, ⟨x, rfl⟩, hw, h'⟩
  · unfold EncEnum at h
    rw [hu] at h
    simp only [Bool.false_eq_true, if_false] at h
    rw [bare_iff hv] at h
    rcases h with ⟨hb, h⟩ | ⟨hb, x, h, -⟩
    · cases h; exact .inl ⟨hb, rfl⟩
    · cases h
  · unfold EncEnum at h
    rw [hu] at h
    simp only [Bool.false_eq_true, if_false] at h
    rcases h with ⟨-, h⟩ | ⟨-, x, h, -⟩ <;> cases h

theorem valid_unitObject {n : String} {o : List (String × Json)} (ho : (Json.obj o).WF) :
    Valid D env (unitVariantObject n) (.obj o) ↔ Obj.get o n = some .null := by
  refine (valid_oneProperty (D := D) (env := env) (k := n) (s := nullSchema) ho).trans ?_
  unfold HasMember
  constructor
  · rintro ⟨o', x, e, hx, hv⟩
    cases e
    rw [valid_nullSchema] at hv
    rw [hx, hv]
  · intro hx
    exact ⟨o, .null, rfl, hx, valid_nullSchema.2 rfl⟩

theorem atSchema_unit (n : String) : atSchema allowUnknown (unitVariantObject n) = unitVariantObject n := by
  rw [atSchema, if_pos (show isSchema (unitVariantObject n) = true from rfl)]; exact allowUnknown_unit n

/-- The schema of an enum in the form that it has after the unit variants are replaced. -/
def EnumForm (s : Json) (l : List Json) : Prop :=
  ∃ m m1, s = .obj m ∧ Plain m ∧ (∀ k ∈ ["properties", "patternProperties"], Obj.get m k = none) ∧
    expandUnitVariants (.obj m) = .obj m1 ∧ OnlyOneOf m1 l

/-- An enum in this form that is flattened. -/
theorem EnumForm.flatten {l : List Json} (h : EnumForm s l) (optional : Bool) :
    ∃ m, flattenInner s optional = .obj m ∧ Part m [] [] ∧ (optional = true → ∀ o, Valid D env (.obj m) (.obj o)) ∧
      (optional = false → ∀ i, Valid D env (.obj m) i ↔
        Valid D env (.obj [("oneOf", .arr (l.map (atSchema allowUnknown)))]) i) := by
  obtain ⟨m, m1, rfl, hp, hnp, e1, h1⟩ := h
  cases optional with
  | true =>
    obtain ⟨m', e, hpart, hval⟩ := hp.optionalPart (D := D) (env := env) hnp
    exact ⟨m', e, hpart, fun _ => hval, fun h => by cases h⟩
  | false =>
    obtain ⟨m2, e2, h2⟩ := h1.allowUnknown
    refine ⟨m2, ?_, h2.part, fun h => (by cases h), fun _ i => h2.valid⟩
    unfold flattenInner
    simp only [Bool.false_eq_true, if_false]
    rw [e1, e2]

theorem mem_variants {vs : List (Variant τ)} {c : Contract} {v : Variant τ} :
    v ∈ presentVariants vs c ↔ v ∈ vs ∧ VariantPresent v c := by
  unfold presentVariants
  rw [List.mem_filter, decide_eq_true_eq]

/-- The schema of an externally tagged enum whose unit variants have no attributes: the schemas of the variants with
content, and objects for the unit variants once these are replaced. -/
theorem external_form {vs : List (Variant τ)} {deny : Bool} (hne : vs ≠ []) (hr : ∀ v ∈ vs, v.refTy = none)
    (hu : ∀ v ∈ vs, v.untagged = false) (hc : ∀ v ∈ vs, Harmless v.common)
    (hdef : ∀ v ∈ vs, VariantPresent v A.settings.contract → v.isUnit = true → v.withTy = none →
      v.common.isDefault = true) {l : List (Json → Json)} (hl : ∀ f ∈ l, Annotates f)
    (h : Returns A (enumProg I .external vs deny) s) :
    ∃ (U : List (Variant τ)) (es : List (Variant τ × Json)), U = presentVariants (vs.filter Variant.listed) A.settings.contract ∧
      es.map Prod.fst = presentVariants (vs.filter fun v => !v.listed) A.settings.contract ∧
      (∀ e ∈ es, e.1 ∈ vs ∧ VariantPresent e.1 A.settings.contract ∧ ¬ (e.1.isUnit && e.1.withTy.isNone) = true ∧
        Returns A (externalVariantProg I e.1 deny) e.2) ∧
      EnumForm (runMutators l s) (es.map Prod.snd ++
        (U.map fun v => v.name.get A.settings.contract).map unitVariantObject) ∧
      Sch s ∧ ∀ q, Valid D env s (.obj q) ↔ Valid D env (.obj [("oneOf", .arr (es.map Prod.snd))]) (.obj q) := by
  unfold enumProg at h
  rw [if_neg (by rw [List.isEmpty_iff]; exact hne)] at h
  simp only at h
  unfold externalEnumProg at h
  simp only at h
  generalize hU : presentVariants (vs.filter Variant.listed) A.settings.contract = U at *
  have hunits : ∀ s, Returns A (unitVariantsProg (vs.filter Variant.listed)) s →
      s = unitVariantsSchema (U.map fun v => v.name.get A.settings.contract) := by
    intro s hs
    unfold unitVariantsProg at hs
    simp only [Returns] at hs
    rw [hs, ← hU]
    unfold presentVariants
    congr 2
    exact List.filter_congr fun v _ => variant_included_eq v _
  have hno : ∀ q, ¬ Valid D env (unitVariantsSchema (U.map fun v => v.name.get A.settings.contract)) (.obj q) := by
    intro q hv
    rw [valid_unitVariants] at hv
    obtain ⟨n, -, h⟩ := hv
    cases h
  have hbody : ∀ e : Variant τ × Json, e.1 ∈ presentVariants (vs.filter fun v => !v.listed) A.settings.contract →
      e.1 ∈ vs ∧ VariantPresent e.1 A.settings.contract ∧ ¬ (e.1.isUnit && e.1.withTy.isNone) = true := by
    intro e he
    rw [mem_variants, List.mem_filter] at he
    refine ⟨he.1.1, he.2, fun hb => ?_⟩
    simp only [Bool.and_eq_true] at hb
    have hd := hdef e.1 he.1.1 he.2 hb.1 (by simpa using hb.2)
    have hnl := he.1.2
    unfold Variant.listed at hnl
    rw [hb.1, hb.2, hd, hu e.1 he.1.1, hr e.1 he.1.1] at hnl
    simp at hnl
  by_cases hx : (vs.filter fun v => !v.listed).isEmpty = true
  · rw [if_pos hx] at h
    rw [hunits s h]
    refine ⟨U, [], rfl, by rw [List.isEmpty_iff.1 hx]; rfl, by simp, ?_, sch_mkObj _, fun q => ?_⟩
    rotate_left
    · refine iff_of_false (hno q) ?_
      rw [valid_oneOf_exclusive (by exact .nil)]
      rintro ⟨_, h, -⟩
      cases h
    obtain ⟨m, e, hs, hg⟩ := runMutators_get hl (m := Obj.ofList [("type", .str "string"),
      ("enum", .arr ((U.map fun v => v.name.get A.settings.contract).map .str))]) (Obj.sorted_ofList _)
    have ht : Obj.get m "type" = some (.str "string") := by
      rw [hg _ (by decide)]; exact get_ofList (by simp [Obj.keys]) _
    have he : Obj.get m "enum" = some (.arr ((U.map fun v => v.name.get A.settings.contract).map .str)) := by
      rw [hg _ (by decide)]; exact get_ofList (by simp [Obj.keys]) _
    have hk : ∀ k, k ∉ annotations → k ≠ "type" → k ≠ "enum" → Obj.get m k = none := by
      intro k ha h1 h2
      rw [hg k ha, get_ofList (by simp [Obj.keys]), Obj.get_cons, if_neg (Ne.symm h1), Obj.get_cons, if_neg (Ne.symm h2)]
      rfl
    obtain ⟨m1, e1, h1⟩ := expand_listed hs ht he hk
    refine ⟨m, m1, e, plain_listed hs ht he hk, fun k hk' => hk k ?_ ?_ ?_, e1, h1⟩
    · exact (by decide : ∀ k ∈ ["properties", "patternProperties"], k ∉ annotations) k hk'
    · exact (by decide : ∀ k ∈ ["properties", "patternProperties"], k ≠ "type") k hk'
    · exact (by decide : ∀ k ∈ ["properties", "patternProperties"], k ≠ "enum") k hk'
  · rw [if_neg hx] at h
    obtain ⟨l0, es, hl0, e1, e2, rfl⟩ := returns_variants (fun v hv => hr v (List.mem_filter.1 hv).1) h
    have hany : (vs.filter fun v => !v.listed).any (·.untagged) = false := by
      rw [List.any_eq_false]
      intro v hv
      rw [hu v (List.mem_filter.1 hv).1]; simp
    simp only [hany, Bool.not_false, Bool.and_self, if_true]
    have hes : ∀ e ∈ es, e.1 ∈ vs ∧ VariantPresent e.1 A.settings.contract ∧
        ¬ (e.1.isUnit && e.1.withTy.isNone) = true := fun e he => hbody e (e1 ▸ List.mem_map_of_mem he)
    refine ⟨U, es, rfl, e1, fun e he => ⟨(hes e he).1, (hes e he).2.1, (hes e he).2.2, e2 e he⟩, ?_,
      .obj (List.pairwise_singleton _ _), fun q => ?_⟩
    rotate_left
    · have hl0' : ∀ a ∈ l0, ¬ Valid D env a (.obj q) := by
        split at hl0
        · rcases hl0 with ⟨-, rfl⟩ | ⟨p, s1, h0, -⟩
          · exact fun a ha => by cases ha
          · cases h0
        · rcases hl0 with ⟨h0, -⟩ | ⟨p, s1, h0, h1, rfl⟩
          · cases h0
          · cases h0
            intro a ha
            rw [List.mem_singleton.1 ha, hunits s1 h1]
            exact hno q
      rw [valid_single (by decide), valid_single (by decide)]
      show (l0 ++ es.map Prod.snd).countP _ = 1 ↔ (es.map Prod.snd).countP _ = 1
      rw [List.countP_append, (List.countP_eq_zero (l := l0)).2 hl0', Nat.zero_add]
    have hone : OnlyOneOf [("oneOf", .arr (l0 ++ es.map Prod.snd))] (l0 ++ es.map Prod.snd) :=
      ⟨List.pairwise_singleton _ _, rfl, fun k _ hk => by rw [Obj.get_cons, if_neg (Ne.symm hk)]; rfl⟩
    obtain ⟨m, e, hm⟩ := hone.annotate hl
    have hnp : ∀ k ∈ ["properties", "patternProperties"], Obj.get m k = none := fun k hk =>
      hm.other k ((by decide : ∀ k ∈ ["properties", "patternProperties"], k ∉ annotations) k hk)
        ((by decide : ∀ k ∈ ["properties", "patternProperties"], k ≠ "oneOf") k hk)
    have hobj : ∀ a ∈ es.map Prod.snd, ∃ x, a = .obj x ∧ Obj.get x "type" = some (.str "object") := by
      intro a ha
      obtain ⟨e, he, rfl⟩ := List.mem_map.1 ha
      obtain ⟨h1, -, h3⟩ := hes e he
      obtain ⟨m', sub, es', hs⟩ := external_shape (hu _ h1) (hc _ h1) h3 (e2 e he)
      exact ⟨m', es', hs.type⟩
    by_cases hUe : (vs.filter Variant.listed).isEmpty = true
    · rw [if_pos hUe] at hl0
      have hU0 : U = [] := by rw [← hU, List.isEmpty_iff.1 hUe]; rfl
      rcases hl0 with ⟨-, rfl⟩ | ⟨p, s1, h0, -⟩
      · refine ⟨m, m, e, hm.plain, hnp, hm.expandNone (by simpa using hobj), ?_⟩
        rw [hU0]
        simpa using hm
      · cases h0
    · rw [if_neg hUe] at hl0
      rcases hl0 with ⟨h0, -⟩ | ⟨p, s1, h0, h1, rfl⟩
      · cases h0
      · cases h0
        rw [hunits s1 h1] at hm
        obtain ⟨m1, e3, hm1⟩ := hm.expandUnits
        refine ⟨m, m1, ?_, hm.plain, hnp, e3, hm1⟩
        exact e

/-- Externally tagged enums. -/
theorem external_alternatives (hM : Modern D env) (hF : Sound D env S decl I F) (hA : F A) {vs : List (Variant τ)}
    {deny : Bool} {ns : List String} (hok : EnumOk decl I .external vs) (hu : ∀ v ∈ vs, v.untagged = false)
    (hns : VariantNames decl I vs ns .external) {l : List (Json → Json)} (hl : ∀ f ∈ l, Annotates f)
    (h : Returns A (enumProg I .external vs deny) s) :
    Alternatives D env (VariantAdds env S I decl .external vs) ns (runMutators l s) := by
  have hser := hF.ser A hA
  have hr : ∀ v ∈ vs, v.refTy = none := fun v hv => (hok.variants v hv).noRef
  have hname : ∀ v : Variant τ, v.name.get A.settings.contract = v.name.ser := fun v => by rw [hser]; rfl
  obtain ⟨U, es, hU, e1, hes', ⟨m, m1, hm, hp, hnp, hx, ho⟩, -, -⟩ := external_form (D := D) (env := env) hok.nonempty hr hu
    (fun v hv => (hok.variants v hv).common) (fun v hv hp => (hns v hv (by rw [hser] at hp; exact hp)).2) hl h
  rw [hser] at hU e1
  simp only [hname] at ho
  have hUm : ∀ v ∈ U, v ∈ vs ∧ v.skipSer = false ∧ v.listed = true := by
    intro v hv
    rw [hU, presentVariants_ser, List.mem_filter, List.mem_filter] at hv
    exact ⟨hv.1.1, by simpa using hv.2, hv.1.2⟩
  have hsplit : (U ++ presentVariants (vs.filter fun v => !v.listed) .serialize).Perm
      (presentVariants vs .serialize) := by
    rw [hU]
    unfold presentVariants
    rw [← List.filter_append]
    exact (List.filter_append_perm _ vs).filter _
  have hnd : ((presentVariants vs .serialize).map fun v => v.name.ser).Nodup := by
    rw [presentVariants_ser]; exact hok.names (by simp) hu
  have e2 : ∀ e ∈ es, Returns A (externalVariantProg I e.1 deny) e.2 := fun e he => (hes' e he).2.2.2
  have hes : ∀ e ∈ es, e.1 ∈ vs ∧ e.1.skipSer = false ∧ ¬ (e.1.isUnit && e.1.withTy.isNone) = true := by
    intro e he
    have : e.1 ∈ presentVariants (vs.filter fun v => !v.listed) .serialize := e1 ▸ List.mem_map_of_mem he
    rw [presentVariants_ser, List.mem_filter, List.mem_filter] at this
    have hsk : e.1.skipSer = false := by simpa using this.2
    refine ⟨this.1.1, hsk, fun hb => ?_⟩
    simp only [Bool.and_eq_true] at hb
    have hd := (hns e.1 this.1.1 hsk).2 hb.1 (by simpa using hb.2)
    have hnl := this.1.2
    unfold Variant.listed at hnl
    rw [hb.1, hb.2, hd, hu e.1 this.1.1, hr e.1 this.1.1] at hnl
    simp at hnl
  refine ⟨m, m1, es.map (fun e => (e.1.name.ser, e.2)) ++ (U.map fun v => v.name.ser).map fun n =>
    (n, unitVariantObject n), hm, hp, hnp, hx, ?_, ?_, ?_⟩
  · rw [List.map_append, List.map_map, List.map_map]
    exact ho
  · rw [List.map_append, List.map_map, List.map_map]
    have h1 := (List.perm_append_comm.trans hsplit).map fun v : Variant τ => v.name.ser
    rw [List.map_append, ← e1, List.map_map] at h1
    rw [show (U.map fun v => v.name.ser).map (Prod.fst ∘ fun n => (n, unitVariantObject n)) =
      U.map fun v => v.name.ser from (List.map_congr_left fun _ _ => rfl).trans (List.map_id _)]
    exact h1.nodup_iff.2 hnd
  · rintro q ⟨v, hv, hsk, hq⟩ o hg ho
    have hso := sorted_of_wf ho
    have hqf := external_adds (hok.variants v hv) (hu v hv) hq
    have hq1 : ∃ x, q = [(v.name.ser, x)] := by
      rcases hqf with ⟨-, h⟩ | ⟨-, h, -⟩
      · exact ⟨_, h⟩
      · exact h
    obtain ⟨x, rfl⟩ := hq1
    have honly : ∀ u ∈ vs, u.skipSer = false → ∀ y, Obj.get o u.name.ser = some y → u.name.ser = v.name.ser := by
      intro u hu' hsu y hy
      have := hg.2 _ (Obj.get_mem hy) (hns u hu' hsu).1
      rw [List.mem_singleton] at this
      exact congrArg Prod.fst this
    constructor
    · refine ⟨v.name.ser, fun e he hve => ?_⟩
      rcases List.mem_append.1 he with he | he
      · obtain ⟨e', he', rfl⟩ := List.mem_map.1 he
        obtain ⟨hmem, hsk', hb⟩ := hes e' he'
        obtain ⟨m', sub, es', hs⟩ := external_shape (hu _ hmem) (hok.variants _ hmem).common hb (e2 e' he')
        obtain ⟨m'', e'', hs'⟩ := hs.allowUnknown
        simp only at hve ⊢
        rw [es'] at hve
        change Valid D env (allowUnknown (.obj m')) (.obj o) at hve
        rw [e'', hs'.valid] at hve
        obtain ⟨o', eo, h1, -⟩ := hve
        cases eo
        obtain ⟨y, hy⟩ := h1 _ (List.mem_singleton.2 rfl)
        rw [hname] at hy
        exact honly _ hmem hsk' y hy
      · obtain ⟨n, hn, rfl⟩ := List.mem_map.1 he
        obtain ⟨u, hu', rfl⟩ := List.mem_map.1 hn
        simp only [atSchema_unit] at hve ⊢
        rw [valid_unitObject ho] at hve
        exact honly u (hUm u hu').1 (hUm u hu').2.1 _ hve
    · rcases hqf with ⟨hb, hq'⟩ | ⟨hb, -, hwf, henc⟩
      · cases hq'
        have hl' : v.listed = true := by
          simp only [Bool.and_eq_true] at hb
          unfold Variant.listed
          rw [hb.1, hb.2, (hns v hv hsk).2 hb.1 (by simpa using hb.2), hu v hv, hr v hv]; rfl
        have hvU : v ∈ U := by
          rw [hU, presentVariants_ser, List.mem_filter, List.mem_filter]
          exact ⟨⟨hv, hl'⟩, by simp [hsk]⟩
        refine ⟨(v.name.ser, unitVariantObject v.name.ser), List.mem_append_right _ ?_, ?_⟩
        · exact List.mem_map.2 ⟨_, List.mem_map_of_mem hvU, rfl⟩
        · simp only [atSchema_unit]
          rw [valid_unitObject ho]
          exact Obj.get_of_mem_sorted hso (hg.1 _ (List.mem_singleton.2 rfl))
      · have hnl : ¬ v.listed = true := by
          intro hl'
          unfold Variant.listed at hl'
          simp only [Bool.and_eq_true] at hl'
          exact hb (by simp [hl'.1.1.1, hl'.1.1.2.2])
        have hvc : v ∈ presentVariants (vs.filter fun v => !v.listed) .serialize := by
          rw [presentVariants_ser, List.mem_filter, List.mem_filter]
          exact ⟨⟨hv, by simp [hnl]⟩, by simp [hsk]⟩
        rw [← e1] at hvc
        obtain ⟨e, he, rfl⟩ := List.mem_map.1 hvc
        refine ⟨(e.1.name.ser, e.2), List.mem_append_left _ (List.mem_map_of_mem he), ?_⟩
        obtain ⟨m', sub, es', hs⟩ := external_shape (hu _ hv) (hok.variants _ hv).common hb (e2 e he)
        obtain ⟨m'', e'', hs'⟩ := hs.allowUnknown
        obtain ⟨content, hcont, hval⟩ :=
          external_variant (D := D) (env := env) (hu _ hv) (hok.variants _ hv).common (e2 e he)
        have hvq : Valid D env e.2 (.obj [(e.1.name.ser, x)]) := by
          rw [hval _ hwf, hname]
          exact content_external hM hF hA (hok.variants _ hv) (hu _ hv) hcont hwf henc
        simp only
        rw [es'] at hvq ⊢
        change Valid D env (allowUnknown (.obj m')) (.obj o)
        rw [e'']
        refine hs.grow hs' (fun n y hn => ?_) hg hso hvq
        rw [Obj.get_cons] at hn
        split at hn
        · next hk => rw [← hk, hname]; exact (hns _ hv hsk).1
        · cases hn

/-- Enums with a tag. -/
theorem tagged_alternatives {vs : List (Variant τ)} {es : List (Variant τ × Json)} {tag : String} {kind : TagType}
    {ns : List String} (hnd : ((presentVariants vs .serialize).map fun v => v.name.ser).Nodup)
    (e1 : es.map Prod.fst = presentVariants vs .serialize)
    (hobj : ∀ e ∈ es, ∃ m, e.2 = .obj m ∧ Obj.get m "type" = some (.str "object") ∧
      ∀ i, Valid D env (allowUnknown (.obj m)) i → Tagged tag e.1.name.ser i)
    (htag : ∀ v ∈ vs, v.skipSer = false → ∀ q, Adds (EncEnum S (FieldObeys env) I.base decl kind v) q →
      (tag, Json.str v.name.ser) ∈ q)
    (hacc : ∀ e ∈ es, e.1 ∈ vs → e.1.skipSer = false → ∀ q, Adds (EncEnum S (FieldObeys env) I.base decl kind e.1) q → ∀ o,
      Grows ns q o → (Json.obj o).WF → Valid D env (atSchema allowUnknown e.2) (.obj o))
    {l : List (Json → Json)} (hl : ∀ f ∈ l, Annotates f) :
    Alternatives D env (VariantAdds env S I decl kind vs) ns (runMutators l (.obj [("oneOf", .arr (es.map Prod.snd))])) := by
  have hone : OnlyOneOf [("oneOf", .arr (es.map Prod.snd))] (es.map Prod.snd) :=
    ⟨List.pairwise_singleton _ _, rfl, fun k _ hk => by rw [Obj.get_cons, if_neg (Ne.symm hk)]; rfl⟩
  obtain ⟨m, e, hm⟩ := hone.annotate hl
  refine ⟨m, m, es.map fun e => (e.1.name.ser, e.2), e, hm.plain, fun k hk => ?_, hm.expandNone ?_, ?_, ?_, ?_⟩
  · exact hm.other k ((by decide : ∀ k ∈ ["properties", "patternProperties"], k ∉ annotations) k hk)
      ((by decide : ∀ k ∈ ["properties", "patternProperties"], k ≠ "oneOf") k hk)
  · intro a ha
    obtain ⟨e, he, rfl⟩ := List.mem_map.1 ha
    obtain ⟨m, h1, h2, -⟩ := hobj e he
    exact ⟨m, h1, h2⟩
  · rw [List.map_map]; exact hm
  · rw [← e1, List.map_map] at hnd
    rw [List.map_map]; exact hnd
  · rintro q ⟨v, hv, hsk, hq⟩ o hg ho
    have hso := sorted_of_wf ho
    have ht : Obj.get o tag = some (.str v.name.ser) :=
      Obj.get_of_mem_sorted hso (hg.1 _ (htag v hv hsk q hq))
    constructor
    · refine ⟨v.name.ser, fun e he hve => ?_⟩
      obtain ⟨e', he', rfl⟩ := List.mem_map.1 he
      obtain ⟨m, h1, -, h3⟩ := hobj e' he'
      simp only at hve ⊢
      rw [h1] at hve
      obtain ⟨o', eo, h4⟩ := h3 _ hve
      cases eo
      rw [ht] at h4
      injection h4 with h4
      injection h4 with h4
      exact h4.symm
    · have hvp := mem_present hv hsk
      rw [← e1] at hvp
      obtain ⟨e, he, rfl⟩ := List.mem_map.1 hvp
      exact ⟨_, List.mem_map_of_mem he, hacc e he hv hsk q hq o hg ho⟩

theorem tagged_schemas {vs : List (Variant τ)} {f : Variant τ → Prog τ} {c : Contract} (hser : A.settings.contract = c)
    (hr : ∀ v ∈ vs, v.refTy = none) (hu : ∀ v ∈ vs, v.untagged = false)
    (h : Returns A (variantSubschemas true none (vs.map fun v => (v, f v))) s) :
    ∃ es : List (Variant τ × Json), es.map Prod.fst = presentVariants vs c ∧
      (∀ e ∈ es, e.1 ∈ vs ∧ VariantPresent e.1 c ∧ Returns A (f e.1) e.2) ∧
      s = .obj [("oneOf", .arr (es.map Prod.snd))] := by
  obtain ⟨l, es, hl, e1, e2, rfl⟩ := returns_variants hr h
  have hany : vs.any (·.untagged) = false := by
    rw [List.any_eq_false]
    intro v hv
    rw [hu v hv]; simp
  rcases hl with ⟨-, rfl⟩ | ⟨p, s, h0, -⟩
  · rw [hser] at e1
    refine ⟨es, e1, fun e he => ?_, by simp [hany]⟩
    have : e.1 ∈ presentVariants vs c := e1 ▸ List.mem_map_of_mem he
    rw [mem_variants] at this
    exact ⟨this.1, this.2, e2 e he⟩
  · cases h0

/-- Adjacently tagged enums. -/
theorem adjacent_alternatives (hM : Modern D env) (hF : Sound D env S decl I F) (hA : F A) {vs : List (Variant τ)}
    {deny : Bool} {ns : List String} {tag key : String} (hok : EnumOk decl I (.adjacent tag key) vs)
    (hu : ∀ v ∈ vs, v.untagged = false) (hns : tag ∈ ns ∧ key ∈ ns) {l : List (Json → Json)}
    (hl : ∀ f ∈ l, Annotates f) (h : Returns A (enumProg I (.adjacent tag key) vs deny) s) :
    Alternatives D env (VariantAdds env S I decl (.adjacent tag key) vs) ns (runMutators l s) := by
  have hser := hF.ser A hA
  have hname : ∀ v : Variant τ, v.name.get A.settings.contract = v.name.ser := fun v => by rw [hser]; rfl
  have hne := hok.adjacent _ _ rfl
  unfold enumProg at h
  rw [if_neg (by rw [List.isEmpty_iff]; exact hok.nonempty)] at h
  simp only at h
  obtain ⟨es, e1, e2, rfl⟩ := tagged_schemas hser (fun v hv => (hok.variants v hv).noRef) hu h
  have henc : ∀ v ∈ vs, ∀ q, Adds (EncEnum S (FieldObeys env) I.base decl (.adjacent tag key) v) q →
      (Json.obj q).WF ∧ EncEnum S (FieldObeys env) I.base decl (.adjacent tag key) v (.obj q) ∧ (tag, Json.str v.name.ser) ∈ q := by
    intro v hv q hq
    rcases hq with ⟨hw, h⟩ | ⟨n, rfl, h⟩ | ⟨rfl, h⟩
    · refine ⟨hw, h, ?_⟩
      unfold EncEnum at h
      rw [hu v hv] at h
      simp only [Bool.false_eq_true, if_false] at h
      rcases h with ⟨-, h⟩ | ⟨-, o, x, y, h, hp, rfl, -⟩
      · cases h; exact List.mem_singleton.2 rfl
      · cases h; exact hp.mem_iff.2 (by simp)
    · unfold EncEnum at h
      rw [hu v hv] at h
      simp only [Bool.false_eq_true, if_false] at h
      rcases h with ⟨-, h⟩ | ⟨-, o, x, y, h, -⟩ <;> cases h
    · unfold EncEnum at h
      rw [hu v hv] at h
      simp only [Bool.false_eq_true, if_false] at h
      rcases h with ⟨-, h⟩ | ⟨-, o, x, y, h, -⟩ <;> cases h
  refine tagged_alternatives (tag := tag) ?_ e1 ?_ ?_ ?_ hl
  · rw [presentVariants_ser]; exact hok.names (by simp) hu
  · intro e he
    obtain ⟨hmem, hsk, hret⟩ := e2 e he
    obtain ⟨m, p, r, h1, hs, ht, -⟩ := adjacent_shape hne (hu _ hmem) (hok.variants _ hmem).common hret
    obtain ⟨m', e', hs'⟩ := hs.allowUnknown
    refine ⟨m, h1, hs.type, fun i hi => ?_⟩
    rw [e'] at hi
    rw [← hname]
    exact hs'.tag ht hi
  · exact fun v hv _ q hq => (henc v hv q hq).2.2
  · intro e he hmem hsk q hq o hg ho
    obtain ⟨-, -, hret⟩ := e2 e he
    obtain ⟨hwf, hen, -⟩ := henc _ hmem q hq
    obtain ⟨m, p, r, h1, hs, ht, hk⟩ := adjacent_shape hne (hu _ hmem) (hok.variants _ hmem).common hret
    obtain ⟨m', e', hs'⟩ := hs.allowUnknown
    obtain ⟨content, hcont, hval⟩ := adjacent_variant (D := D) (env := env) hne (hu _ hmem)
      (hok.variants _ hmem).common hret
    have hvq : Valid D env e.2 (.obj q) := by
      rw [hval _ hwf, hname]
      exact content_adjacent hM hF hA (hok.variants _ hmem) (hu _ hmem) hcont hwf hen
    rw [h1] at hvq ⊢
    change Valid D env (allowUnknown (.obj m)) (.obj o)
    rw [e']
    refine hs.grow hs' (fun n x hn => ?_) hg (sorted_of_wf ho) hvq
    rcases hk n x hn with rfl | rfl
    · exact hns.1
    · exact hns.2

theorem allowUnknown_id {m : List (String × Json)} (hs : Obj.Sorted m)
    (hone : ∀ k ∈ inPlace.one, Obj.get m k = none) (hlist : ∀ k ∈ inPlace.list, Obj.get m k = none)
    (hrest : ∀ k ∈ restKeys, Obj.get m k = none) : allowUnknown (.obj m) = .obj m := by
  obtain ⟨m', e, hs', hg, hr⟩ := get_allowUnknown (m := m)
  rw [e]
  congr 1
  refine Obj.ext_sorted (hs' hs) hs fun k => ?_
  by_cases hkr : k ∈ restKeys
  · rw [hr k hkr, hrest k hkr]; simp
  · rw [hg k hkr]
    rcases immSlot_cases k with ⟨hk, -⟩ | ⟨hk, -⟩ | ⟨_, _, h⟩
    · rw [hone k hk]; rfl
    · rw [hlist k hk]; rfl
    · rw [h]
      cases Obj.get m k with
      | none => rfl
      | some v => exact congrArg some (atSlot_skip v)

/-- The schema of a variant of an internally tagged enum, once it allows unknown members, accepts only objects with the
tag, and what is written for the variant. -/
def Opened (D : Dialect) (env : Env) (S : τ → Json → Prop) (I : TypeInfo τ) (decl : τ → Decl τ) (ns : List String)
    (tag name : String) (v : Variant τ) (s : Json) : Prop :=
  ∃ m, s = .obj m ∧ Obj.get m "type" = some (.str "object") ∧
    (∀ i, Valid D env (allowUnknown (.obj m)) i → Tagged tag name i) ∧
    ∀ q0 q o, EncTagged S (FieldObeys env) I.base decl v q0 → (Json.obj q).WF → q.Perm ((tag, .str name) :: q0) → Grows ns q o →
      (Json.obj o).WF → Valid D env (allowUnknown (.obj m)) (.obj o)

/-- A variant of an internally tagged enum, once it allows unknown members. -/
theorem internal_opened (hM : Modern D env) (hF : Sound D env S decl I F) (hA : F A) {v : Variant τ} {deny : Bool}
    {tag name : String} {ms ns : List String} (hv : VariantOk decl I v) (hi : InternalOk decl I tag v)
    (hn : InternalNames decl I v ms) (htag : tag ∉ ms) (hms : ∀ n ∈ ms, n ∈ ns) (htns : tag ∈ ns)
    (h : Returns A (internalVariantProg I v deny) s) {l : List (Json → Json)} (hl : ∀ f ∈ l, Annotates f) :
    Opened D env S I decl ns tag name v (runMutators l (applyInternalTag s tag name deny)) := by
  obtain ⟨hreg, hacc⟩ := internal_accepts hM hF hA hv hi h
  -- the schema of a struct
  have hshape : ∀ {m p : List (String × Json)} {r : List String} {d : Bool},
      applyInternalTag s tag name deny = .obj m → Shape m p (tag :: r) d →
      Obj.get p tag = some (tagSchema name) → (∀ n x, Obj.get p n = some x → n ∈ ns) →
      Opened D env S I decl ns tag name v (runMutators l (applyInternalTag s tag name deny)) := by
    intro m p r d he hs ht hk
    obtain ⟨m1, e1, hs1⟩ := hs.annotate hl
    obtain ⟨m2, e2, hs2⟩ := hs1.allowUnknown
    refine ⟨m1, by rw [he, e1], hs1.type, fun i hi => ?_, fun q0 q o hq0 hq hp hg ho => ?_⟩
    · rw [e2] at hi
      exact hs2.tag ht hi
    · rw [e2]
      have := hacc name q0 q hq0 hq hp
      rw [he] at this
      exact hs.grow hs2 hk hg (sorted_of_wf ho) this
  have hshape' : ∀ {m p : List (String × Json)} {r : List String} {d : Bool}, s = .obj m → Shape m p r d →
      (∀ n, (∃ x, Obj.get p n = some x) ↔ n ∈ ms) →
      Opened D env S I decl ns tag name v (runMutators l (applyInternalTag s tag name deny)) := by
    intro m p r d he hs hk
    obtain ⟨m', e', hs'⟩ := shape_internal hs tag name deny
    refine hshape (he ▸ e') hs' (Obj.get_insert_self _ _ _) fun n x hnx => ?_
    rw [Obj.get_insert] at hnx
    split at hnx
    · next hk' => rw [← hk']; exact htns
    · exact hms n ((hk n).1 ⟨x, hnx⟩)
  have htype : ∀ {t : τ} {s1 : Json} {l1 : List (Json → Json)}, TypeNames decl I.base t ms → RanBody F I decl t s1 →
      (∀ f ∈ l1, Annotates f) → s = runMutators l1 s1 →
      Opened D env S I decl ns tag name v (runMutators l (applyInternalTag s tag name deny)) := by
    intro t s1 l1 hn hran hl1 he
    obtain ⟨c, m, p, r, -, rfl, hs, hps, hk⟩ := type_shape hF hn hran
    obtain ⟨m', e, hs'⟩ := hs.annotate hl1
    exact hshape' (he.trans e) hs' hk
  unfold internalVariantProg at h
  unfold InternalNames at hn
  cases hw : v.withTy with
  | some t =>
    rw [hw] at h hn
    simp only at h hn
    obtain ⟨s1, h1, rfl⟩ := h
    exact htype (l1 := []) hn (hF.ran A hA _ _ h1) (fun f hf => by cases hf) rfl
  | none =>
    rw [hw] at h hn
    simp only at h hn
    have hc := hv.content hw
    cases hf : v.fields with
    | unit =>
      rw [hf] at h
      obtain ⟨s1, h1, rfl⟩ := h
      obtain ⟨m, e, hs⟩ := shape_internalUnit tag name deny
      refine hshape (by rw [hF.unit A hA _ h1, e]) hs (by rw [Obj.get_cons, if_pos rfl]) fun n x hnx => ?_
      rw [Obj.get_cons] at hnx
      split at hnx
      · next hk' => rw [← hk']; exact htns
      · cases hnx
    | tuple fs => rw [hf] at hn; exact hn.elim
    | struct fs =>
      rw [hf] at h hn
      simp only at h hn
      obtain ⟨m, p, r, rfl, hs, hps, hk, -⟩ := struct_accepts hF hA hn h
      exact hshape' rfl hs hk
    | newtype f =>
      rw [hf] at h hn hc
      simp only at h hn
      have hnone : f.validation = .noAttrs := by
        unfold InternalOk at hi
        rw [hw, hf] at hi
        exact hi.1
      have hann := field_annotates ⟨show FieldOk f from hc, hnone⟩
      unfold fieldProg at h
      rw [res_map] at h
      obtain ⟨s0, h0, rfl⟩ := h
      unfold fieldType at hn
      by_cases hr : f.required = true
      · simp only [hr, if_true] at h0 hn
        obtain ⟨s1, h1, rfl⟩ := h0
        exact htype hn (hF.ran A hA _ _ h1) hann rfl
      · simp only [hr, if_false, if_true, Bool.false_eq_true] at h0 hn
        obtain ⟨s1, h1, h2⟩ := h0
        obtain ⟨c, m, p, r, hd, rfl, hs, hps, hk⟩ := type_shape hF hn (hF.ran A hA _ _ h1)
        simp only [Returns, hs.tsub] at h2
        split at h2
        · cases h2
          exact htype hn (hF.ran A hA _ _ h1) hann rfl
        · next hinl =>
          obtain ⟨s2, h3, rfl⟩ := h2
          rcases hF.ranSub A hA _ _ h3 with hran | ⟨r', rfl, hex⟩
          · exact htype hn hran hann rfl
          · obtain ⟨mr, er, hkr, hnone⟩ := ref_kinds hann r'
            have hrestr : ∀ k ∈ restKeys, Obj.get mr k = none := fun k hk =>
              hnone k ((by decide : ∀ k ∈ restKeys, k ∉ annotations) k hk)
                ((by decide : ∀ k ∈ restKeys, k ≠ "$ref") k hk)
            obtain ⟨m', props, req, e', -, -, -, hre⟩ := retagged hkr tag name deny
            obtain ⟨m'', e'', hs'', hg''⟩ := runMutators_get hl hre.sorted
            have hid : allowUnknown (.obj m'') = .obj m'' := by
              refine allowUnknown_id hs'' (fun k hk => ?_) (fun k hk => ?_) fun k hk => ?_
              · rw [hg'' k ((by decide : ∀ k ∈ inPlace.one, k ∉ annotations) k hk),
                  hre.other k ((by decide : ∀ k ∈ inPlace.one,
                    k ∉ ["type", "properties", "required", "additionalProperties"]) k hk)]
                exact hnone k ((by decide : ∀ k ∈ inPlace.one, k ∉ annotations) k hk)
                  ((by decide : ∀ k ∈ inPlace.one, k ≠ "$ref") k hk)
              · rw [hg'' k ((by decide : ∀ k ∈ inPlace.list, k ∉ annotations) k hk),
                  hre.other k ((by decide : ∀ k ∈ inPlace.list,
                    k ∉ ["type", "properties", "required", "additionalProperties"]) k hk)]
                exact hnone k ((by decide : ∀ k ∈ inPlace.list, k ∉ annotations) k hk)
                  ((by decide : ∀ k ∈ inPlace.list, k ≠ "$ref") k hk)
              · rw [hg'' k ((by decide : ∀ k ∈ restKeys, k ∉ annotations) k hk)]
                simp only [restKeys, List.mem_cons, List.not_mem_nil, or_false] at hk
                rcases hk with rfl | rfl
                · rw [hre.additional, if_neg (fun hc => by rw [hnone _ (by decide) (by decide)] at hc; cases hc.2)]
                  exact hrestr _ (by decide)
                · rw [hre.other _ (by decide)]; exact hrestr _ (by decide)
            have hval : ∀ i, Valid D env (.obj m'') i ↔ Valid D env (applyInternalTag (.obj mr) tag name deny) i := by
              intro i
              rw [← e'', runMutators_valid hl (.obj hre.sorted), e']
            have hvalr : ∀ i, Valid D env (.obj mr) i ↔ Valid D env (Schema.newRef r') i := by
              intro i
              rw [← er, runMutators_valid hann (sch_newRef r')]
            refine ⟨m'', by rw [er, e', e''], ?_, fun i hi => ?_, fun q0 q o hq0 hq hp hg ho => ?_⟩
            · rw [hg'' _ (by decide)]; exact hre.type
            · rw [hid, hval] at hi
              exact C48_tagged (.inl ⟨mr, rfl, hkr⟩) (.inl hM.refs) hi
            · rw [hid, hval, C48_internal_open hkr (.inl hM.refs) hrestr
                (.inl (hnone _ (by decide) (by decide))) ?_ ho]
              · have hso := sorted_of_wf ho
                refine ⟨⟨o, rfl, Obj.get_of_mem_sorted hso (hg.1 _ (hp.mem_iff.2 (List.mem_cons_self ..)))⟩, ?_⟩
                unfold EncTagged at hq0
                simp only [hw, written_eq hv hw, hf] at hq0
                unfold fieldType at hq0
                simp only [hr, if_false, Bool.false_eq_true] at hq0
                have hq1 := members_type hF.toSerdeFacts hn hq0
                obtain ⟨v', hr', hran⟩ := hex _ hq1
                obtain ⟨c', m1, p1, req1, hd', rfl, hs1, -, hk1⟩ := type_shape hF hn hran
                rw [hd] at hd'
                cases hd'
                have hdeny : c.denyUnknownFields = false := by
                  cases hdn : c.denyUnknownFields with
                  | false => rfl
                  | true =>
                    exfalso
                    apply hinl
                    have := hs.deny
                    rw [hdn] at this
                    unfold inlineNewtype
                    simp only [Schema.get, this]
                    simp [Json.asBool?]
                rw [hdeny] at hs1
                have hv1 := hF.sub A hA _ _ h3 _ hq1
                rw [valid_newRef hM.refs hr'] at hv1
                rw [hvalr, valid_newRef hM.refs hr']
                refine hs1.grow (ns := ms) hs1 (fun n x hnx => (hk1 n).1 ⟨x, hnx⟩) ⟨fun e he => ?_, fun e he hem => ?_⟩ hso hv1
                · exact hg.1 e (hp.mem_iff.2 (List.mem_cons_of_mem _ he))
                · rcases List.mem_cons.1 (hp.mem_iff.1 (hg.2 e he (hms _ hem))) with rfl | h
                  · exact absurd hem htag
                  · exact h
              · rintro ⟨m1, x, e1, h1⟩
                cases e1
                rw [hnone "properties" (by decide) (by decide)] at h1
                cases h1

/-- Internally tagged enums. -/
theorem internal_alternatives (hM : Modern D env) (hF : Sound D env S decl I F) (hA : F A) {vs : List (Variant τ)}
    {deny : Bool} {ns : List String} {tag : String} (hok : EnumOk decl I (.internal tag) vs)
    (hu : ∀ v ∈ vs, v.untagged = false) (hns : VariantNames decl I vs ns (.internal tag)) {l : List (Json → Json)}
    (hl : ∀ f ∈ l, Annotates f) (h : Returns A (enumProg I (.internal tag) vs deny) s) :
    Alternatives D env (VariantAdds env S I decl (.internal tag) vs) ns (runMutators l s) := by
  have hser := hF.ser A hA
  have hname : ∀ v : Variant τ, v.name.get A.settings.contract = v.name.ser := fun v => by rw [hser]; rfl
  unfold enumProg at h
  rw [if_neg (by rw [List.isEmpty_iff]; exact hok.nonempty)] at h
  simp only at h
  obtain ⟨es, e1, e2, rfl⟩ := tagged_schemas hser (fun v hv => (hok.variants v hv).noRef) hu h
  have henc : ∀ v ∈ vs, ∀ q, Adds (EncEnum S (FieldObeys env) I.base decl (.internal tag) v) q →
      (Json.obj q).WF ∧ ∃ q0, EncTagged S (FieldObeys env) I.base decl v q0 ∧ q.Perm ((tag, .str v.name.ser) :: q0) := by
    intro v hv q hq
    rcases hq with ⟨hw, h⟩ | ⟨n, rfl, h⟩ | ⟨rfl, h⟩
    · refine ⟨hw, ?_⟩
      unfold EncEnum at h
      rw [hu v hv] at h
      simp only [Bool.false_eq_true, if_false] at h
      obtain ⟨q0, hq0, q', e, hp⟩ := h
      cases e
      exact ⟨q0, hq0, hp⟩
    · unfold EncEnum at h
      rw [hu v hv] at h
      simp only [Bool.false_eq_true, if_false] at h
      obtain ⟨q0, hq0, q', e, hp⟩ := h
      cases e
    · unfold EncEnum at h
      rw [hu v hv] at h
      simp only [Bool.false_eq_true, if_false] at h
      obtain ⟨q0, hq0, q', e, hp⟩ := h
      cases e
  have hopen : ∀ e ∈ es, ∃ m, e.2 = .obj m ∧ Obj.get m "type" = some (.str "object") ∧
      (∀ i, Valid D env (allowUnknown (.obj m)) i → Tagged tag e.1.name.ser i) ∧
      ∀ q0 q o, EncTagged S (FieldObeys env) I.base decl e.1 q0 → (Json.obj q).WF → q.Perm ((tag, .str e.1.name.ser) :: q0) →
        Grows ns q o → (Json.obj o).WF → Valid D env (allowUnknown (.obj m)) (.obj o) := by
    intro e he
    obtain ⟨hmem, hsk, hret⟩ := e2 e he
    obtain ⟨ms, hms, htag, hsub⟩ := hns.2 _ hmem hsk
    unfold internalTaggedProg at hret
    rw [hu _ hmem] at hret
    simp only [Bool.false_eq_true, if_false] at hret
    obtain ⟨s1, h2, h3⟩ := res_bind.1 hret
    simp only [Returns] at h3
    rw [hname] at h3
    rw [h3]
    exact internal_opened hM hF hA (hok.variants _ hmem) (hok.internal tag rfl _ hmem (hu _ hmem)) hms htag hsub
      hns.1 h2 (hok.variants _ hmem).common.annotates
  refine tagged_alternatives (tag := tag) ?_ e1 ?_ ?_ ?_ hl
  · rw [presentVariants_ser]; exact hok.names (by simp) hu
  · intro e he
    obtain ⟨m, h1, h2, h3, -⟩ := hopen e he
    exact ⟨m, h1, h2, h3⟩
  · intro v hv _ q hq
    obtain ⟨-, q0, -, hp⟩ := henc v hv q hq
    exact hp.mem_iff.2 (List.mem_cons_self ..)
  · intro e he hmem _ q hq o hg ho
    obtain ⟨m, h1, -, -, h4⟩ := hopen e he
    obtain ⟨hwf, q0, hq0, hp⟩ := henc _ hmem q hq
    rw [h1]
    exact h4 q0 q o hq0 hwf hp hg ho

/-- What is written for an enum is written for one of its variants. -/
theorem enum_adds (hS : SerdeFacts S (FieldObeys env) decl I) {t : τ} {c : Container τ} {tag : TagType} {vs : List (Variant τ)}
    (hd : decl t = .derived c) (hc : PlainEnum c tag vs) {q : List (String × Json)} (h : Adds (S t) q) :
    VariantAdds env S I decl tag vs q := by
  have key : ∀ j, S t j → ∃ v ∈ vs, v.skipSer = false ∧ EncEnum S (FieldObeys env) I.base decl tag v j := by
    intro j hj
    have := hS.derived t c hd j hj
    unfold EncContainer at this
    rw [hc.noWith, hc.noTransparent, hc.noInto, hc.data] at this
    exact this
  rcases h with ⟨hw, h⟩ | ⟨n, rfl, h⟩ | ⟨rfl, h⟩
  · obtain ⟨v, h1, h2, h3⟩ := key _ h
    exact ⟨v, h1, h2, .inl ⟨hw, h3⟩⟩
  · obtain ⟨v, h1, h2, h3⟩ := key _ h
    exact ⟨v, h1, h2, .inr (.inl ⟨n, rfl, h3⟩)⟩
  · obtain ⟨v, h1, h2, h3⟩ := key _ h
    exact ⟨v, h1, h2, .inr (.inr ⟨rfl, h3⟩)⟩

theorem type_names_of (hS : SerdeFacts S (FieldObeys env) decl I) {t : τ} {ms : List String} {p : List (String × Json)}
    (hn : TypeNames decl I.base t ms) (h : S t (.obj p)) : ∀ e ∈ p, e.1 ∈ ms := by
  obtain ⟨p', e', hp⟩ := hS.names _ _ hn _ h
  cases e'
  exact hp

/-- The members that are written for an enum have the names. -/
theorem enum_names_of (hS : SerdeFacts S (FieldObeys env) decl I) {t : τ} {ns : List String} (hn : EnumNames decl I t ns)
    {q : List (String × Json)} (h : Adds (S t) q) : ∀ e ∈ q, e.1 ∈ ns := by
  obtain ⟨c, tag, vs, hd, hc, hok, hu, hns⟩ := hn
  obtain ⟨v, hv, hsk, hq⟩ := enum_adds hS hd hc h
  cases tag with
  | external =>
    have : ∃ x, q = [(v.name.ser, x)] := by
      rcases external_adds (hok.variants v hv) (hu v hv) hq with ⟨-, h⟩ | ⟨-, h, -⟩
      · exact ⟨_, h⟩
      · exact h
    obtain ⟨x, rfl⟩ := this
    intro e he
    rw [List.mem_singleton.1 he]
    exact (hns v hv hsk).1
  | adjacent tag key =>
    have key' : ∀ j, EncEnum S (FieldObeys env) I.base decl (.adjacent tag key) v j → ∃ q, j = .obj q ∧ ∀ e ∈ q, e.1 ∈ ns := by
      intro j h
      unfold EncEnum at h
      rw [hu v hv] at h
      simp only [Bool.false_eq_true, if_false] at h
      rcases h with ⟨-, rfl⟩ | ⟨-, o, x, y, rfl, hp, -⟩
      · refine ⟨_, rfl, fun e he => ?_⟩
        rw [List.mem_singleton.1 he]; exact hns.1
      · refine ⟨_, rfl, fun e he => ?_⟩
        have := hp.mem_iff.1 he
        simp only [List.mem_cons, List.not_mem_nil, or_false] at this
        rcases this with rfl | rfl
        · exact hns.1
        · exact hns.2
    rcases hq with ⟨-, h⟩ | ⟨n, -, h⟩ | ⟨-, h⟩
    · obtain ⟨q, e, h⟩ := key' _ h
      cases e; exact h
    · obtain ⟨q, e, h⟩ := key' _ h; cases e
    · obtain ⟨q, e, h⟩ := key' _ h; cases e
  | internal tag =>
    have key' : ∀ j, EncEnum S (FieldObeys env) I.base decl (.internal tag) v j → ∃ q, j = .obj q ∧ ∀ e ∈ q, e.1 ∈ ns := by
      intro j h
      unfold EncEnum at h
      rw [hu v hv] at h
      simp only [Bool.false_eq_true, if_false] at h
      obtain ⟨q0, hq0, q', rfl, hp⟩ := h
      refine ⟨q', rfl, fun e he => ?_⟩
      rcases List.mem_cons.1 (hp.mem_iff.1 he) with rfl | he
      · exact hns.1
      · obtain ⟨ms, hms, -, hsub⟩ := hns.2 v hv hsk
        refine hsub _ ?_
        unfold EncTagged at hq0
        unfold InternalNames at hms
        cases hw : v.withTy with
        | some t =>
          rw [hw] at hq0 hms
          exact type_names_of hS hms (members_type hS hms hq0) e he
        | none =>
          rw [hw] at hq0 hms
          simp only [written_eq (hok.variants v hv) hw] at hq0 hms
          cases hf : v.fields with
          | unit =>
            rw [hf] at hq0
            simp only at hq0
            rw [hq0] at he; cases he
          | newtype f =>
            rw [hf] at hq0 hms
            exact type_names_of hS hms (members_type hS hms hq0) e he
          | tuple fs => rw [hf] at hms; exact hms.elim
          | struct fs =>
            rw [hf] at hq0 hms
            exact enc_names hS hq0 hms.names e he
    rcases hq with ⟨-, h⟩ | ⟨n, -, h⟩ | ⟨-, h⟩
    · obtain ⟨q, e, h⟩ := key' _ h
      cases e; exact h
    · obtain ⟨q, e, h⟩ := key' _ h; cases e
    · obtain ⟨q, e, h⟩ := key' _ h; cases e
  | none => exact hns.elim

/-! ### Structs with flattened structs and enums -/

/-- The names of the members that are written for a flattened type. -/
def Spec.FlatNames (decl : τ → Decl τ) (I : TypeInfo τ) (t : τ) (ns : List String) : Prop :=
  TypeNames decl I.base t ns ∨ EnumNames decl I t ns

theorem flat_names_of (hS : SerdeFacts S (FieldObeys env) decl I) {t : τ} {ns : List String} (hn : FlatNames decl I t ns)
    {q : List (String × Json)} (h : Adds (S t) q) : ∀ e ∈ q, e.1 ∈ ns := by
  rcases hn with hn | hn
  · rcases h with ⟨-, h⟩ | ⟨n, -, h⟩ | ⟨-, h⟩
    · exact type_names_of hS hn h
    · obtain ⟨p, e, -⟩ := hS.names _ _ hn _ h; cases e
    · obtain ⟨p, e, -⟩ := hS.names _ _ hn _ h; cases e
  · exact enum_names_of hS hn h

/-- The schema of a flattened type. -/
theorem flat_part (hM : Modern D env) (hF : Sound D env S decl I F) (hA : F A) {t : τ} {ns : List String}
    (hn : FlatNames decl I t ns) (h : A.direct t s) (optional : Bool) :
    ∃ m p r, flattenInner s optional = .obj m ∧ Part m p r ∧ (∀ n x, Obj.get p n = some x → n ∈ ns) ∧
      (optional = true → ∀ o, (∀ e ∈ o, e.1 ∉ ns) → Valid D env (.obj m) (.obj o)) ∧
      ∀ q o, Adds (S t) q → Grows ns q o → (Json.obj o).WF → Valid D env (.obj m) (.obj o) := by
  rcases hn with hn | ⟨c, tag, vs, hd, hc, hok, hu, hns⟩
  · obtain ⟨c, m, p, r, -, rfl, hs, hps, hk⟩ := type_shape hF hn (hF.ran A hA _ _ h)
    obtain ⟨m', e', hs'⟩ := hs.flattenInner optional
    refine ⟨m', p, _, e', hs'.part hps, fun n x hx => (hk n).1 ⟨x, hx⟩, fun ho o hno => ?_, fun q o hq hg ho => ?_⟩
    · rw [hs'.valid]
      refine ⟨o, rfl, fun n hn => ?_, fun e he s hs => absurd ((hk e.1).1 ⟨s, hs⟩) (hno e he), fun h => (by cases h)⟩
      rw [ho] at hn; cases hn
    · have hq' : S t (.obj q) := by
        rcases hq with ⟨-, h⟩ | ⟨n, -, h⟩ | ⟨-, h⟩
        · exact h
        · obtain ⟨p, e, -⟩ := hF.names _ _ hn _ h; cases e
        · obtain ⟨p, e, -⟩ := hF.names _ _ hn _ h; cases e
      have hv := hF.direct A hA _ _ h _ hq'
      rw [hs.valid] at hv
      rw [hs'.valid]
      obtain ⟨q', e, hv1, hv2, -⟩ := hv
      cases e
      refine ⟨o, rfl, fun n hn => ?_, fun e he s hs => ?_, fun h => (by cases h)⟩
      · split at hn
        · cases hn
        · obtain ⟨x, hx⟩ := hv1 n hn
          exact ⟨x, Obj.get_of_mem_sorted (sorted_of_wf ho) (hg.1 _ (Obj.get_mem hx))⟩
      · exact hv2 e (hg.2 e he ((hk e.1).1 ⟨s, hs⟩)) s hs
  · obtain ⟨A', hA', hb⟩ := hF.ran A hA _ _ h
    rw [hd] at hb
    obtain ⟨s0, hb0, rfl⟩ := enum_container hc (hF.ser A' hA') hb
    have halt : Alternatives D env (VariantAdds env S I decl tag vs) ns (runMutators c.common.mutators s0) := by
      cases tag with
      | external => exact external_alternatives hM hF hA' hok hu hns hc.common.annotates hb0
      | adjacent t k => exact adjacent_alternatives hM hF hA' hok hu hns hc.common.annotates hb0
      | internal t => exact internal_alternatives hM hF hA' hok hu hns hc.common.annotates hb0
      | none => exact hns.elim
    obtain ⟨m, e, hp, h1, h2⟩ := halt.flatten optional
    exact ⟨m, [], [], e, hp, fun n x hx => (by cases hx), fun ho o _ => h1 ho o, fun q o hq hg ho =>
      h2 q o (enum_adds hF.toSerdeFacts hd hc hq) hg ho⟩

/-- The names of the members that each field of a struct may write. -/
inductive Spec.Parts (decl : τ → Decl τ) (I : TypeInfo τ) : List (Field τ) → List (List String) → Prop where
  | nil : Parts decl I [] []
  | skip {f fs nss} : f.skipSer = true → Parts decl I fs nss → Parts decl I (f :: fs) nss
  | own {f fs nss} : f.skipSer = false → f.flatten = false → Parts decl I fs nss →
      Parts decl I (f :: fs) ([f.name.ser] :: nss)
  | flat {f fs ns nss} : f.skipSer = false → f.flatten = true → FlatNames decl I (I.base f.ty) ns →
      Parts decl I fs nss → Parts decl I (f :: fs) (ns :: nss)

/-- The conditions on a struct with flattened structs and enums: no two fields write members of the same name. -/
def Spec.WideOk (decl : τ → Decl τ) (I : TypeInfo τ) (fs : List (Field τ)) : Prop :=
  ∃ nss, Parts decl I fs nss ∧ nss.Pairwise List.Disjoint ∧ FieldsOk I fs

theorem members_adds (hS : SerdeFacts S (FieldObeys env) decl I) {f : Field τ} {p : List (String × Json)}
    (h : Members S I.base decl (fieldType I.base f) p) :
    Adds (S (I.base f.ty)) p ∨ (p = [] ∧ I.isOption f.ty = true ∧ f.required = false) := by
  have key : ∀ j, S (fieldType I.base f) j → S (I.base f.ty) j ∨ (j = .null ∧ I.isOption f.ty = true ∧ f.required = false) := by
    intro j hj
    unfold fieldType at hj
    by_cases hr : f.required = true
    · rw [if_pos hr] at hj; exact .inl hj
    · rw [if_neg hr] at hj
      by_cases ho : I.isOption f.ty = true
      · rcases hS.option _ ho j hj with h | h
        · exact .inr ⟨h, ho, by simpa using hr⟩
        · exact .inl h
      · rw [hS.base _ (by simpa using ho)]; exact .inl hj
  cases h with
  | obj p h =>
    rcases key _ h with h | ⟨h, _⟩
    · exact .inl (.inl ⟨hS.wf _ _ h, h⟩)
    · cases h
  | null h =>
    rcases key _ h with h | ⟨h, ho⟩
    · exact .inl (.inr (.inr ⟨rfl, h⟩))
    · exact .inr ⟨rfl, ho⟩
  | unitVariant n _ _ _ h =>
    rcases key _ h with h | ⟨h, _⟩
    · exact .inl (.inr (.inl ⟨n, rfl, h⟩))
    · cases h

theorem wide_names (hS : SerdeFacts S (FieldObeys env) decl I) {fs : List (Field τ)} {o : List (String × Json)}
    (h : EncFields S (FieldObeys env) I.base decl fs o) : ∀ {nss : List (List String)}, Parts decl I fs nss → ∀ e ∈ o, e.1 ∈ nss.flatten := by
  induction h with
  | nil => intro ns _ e he; cases he
  | @skip f fs o hsk _ ih =>
    intro ns hn
    cases hn with
    | skip _ hn => exact ih hn
    | own hsk' => rw [hsk] at hsk'; cases hsk'
    | flat hsk' => rw [hsk] at hsk'; cases hsk'
  | @leftOut f fs o hsk _ _ ih =>
    intro ns hn e he
    cases hn with
    | skip hsk' => rw [hsk] at hsk'; cases hsk'
    | own _ _ hn => rw [List.flatten_cons]; exact List.mem_append_right _ (ih hn e he)
    | flat _ _ _ hn => rw [List.flatten_cons]; exact List.mem_append_right _ (ih hn e he)
  | @member f fs o x hsk hfl _ _ _ ih =>
    intro ns hn e he
    cases hn with
    | skip hsk' => rw [hsk] at hsk'; cases hsk'
    | own _ _ hn =>
      rw [List.flatten_cons]
      rcases List.mem_cons.1 he with rfl | he
      · exact List.mem_append_left _ (List.mem_singleton.2 rfl)
      · exact List.mem_append_right _ (ih hn e he)
    | flat _ hfl' => rw [hfl] at hfl'; cases hfl'
  | @flatten f fs o p hsk hfl hm _ ih =>
    intro ns hn e he
    cases hn with
    | skip hsk' => rw [hsk] at hsk'; cases hsk'
    | own _ hfl' => rw [hfl] at hfl'; cases hfl'
    | flat _ _ ht hn =>
      rw [List.flatten_cons]
      rcases List.mem_append.1 he with he | he
      · refine List.mem_append_left _ ?_
        rcases members_adds hS hm with h | ⟨rfl, _⟩
        · exact flat_names_of hS ht h e he
        · cases he
      · exact List.mem_append_right _ (ih hn e he)

theorem disjoint_parts {ns : List String} {nss : List (List String)} (h : (ns :: nss).Pairwise List.Disjoint) {n : String}
    (hn : n ∈ ns) : n ∉ nss.flatten := by
  intro hf
  obtain ⟨ms, hms, hnm⟩ := List.mem_flatten.1 hf
  exact (List.pairwise_cons.1 h).1 ms hms hn hnm

theorem flatten_step (hM : Modern D env) (hF : Sound D env S decl I F) (hA : F A) {cd : Bool} {f : Field τ}
    {fs : List (Field τ)} {ns : List String} {m0 p0 : List (String × Json)} {r0 : List String}
    (hsk : f.skipSer = false) (hfl : f.flatten = true) (hn : FlatNames decl I (I.base f.ty) ns) (h0 : Part m0 p0 r0)
    (ht : Obj.get m0 "type" = some (.str "object")) (hp : ∀ n x, Obj.get p0 n = some x → n ∉ ns)
    (h : Returns A (structFieldsProg I cd (f :: fs) (.obj m0)) s) :
    ∃ m p r, Part m p r ∧ Obj.get m "type" = some (.str "object") ∧
      (∀ n x, Obj.get p n = some x → n ∈ ns ∨ ∃ y, Obj.get p0 n = some y) ∧
      Returns A (structFieldsProg I cd fs (.obj m)) s ∧
      ∀ o, Valid D env (.obj m0) (.obj o) → (Json.obj o).WF →
        ((∃ q, Adds (S (I.base f.ty)) q ∧ Grows ns q o) ∨
          (I.isOption f.ty = true ∧ f.required = false ∧ ∀ e ∈ o, e.1 ∉ ns)) → Valid D env (.obj m) (.obj o) := by
  unfold structFieldsProg at h
  obtain ⟨s1, h1, h2⟩ := res_bind.1 h
  rw [returns_structField, if_pos (by rw [hF.ser A hA]; exact hsk)] at h1
  obtain ⟨s', h1, rfl⟩ := h1
  unfold addField at h2
  rw [hfl] at h2
  simp only [if_true] at h2
  obtain ⟨s2, hd2, rfl⟩ := returns_flattenField hfl h1
  obtain ⟨m3, p3, r3, e3, hs3, hk3, hopt, hacc⟩ := flat_part hM hF hA hn hd2 (I.isOption f.ty && !f.required)
  rw [e3] at h2
  obtain ⟨m, p, e, hpart, htype, hg, hval⟩ := h0.flatten (D := D) (env := env) hs3 ht
    fun n a b h1 h2 => hp n a h1 (hk3 n b h2)
  rw [e] at h2
  refine ⟨m, p, _, hpart, htype, fun n x hx => ?_, h2, fun o hv ho hq => (hval _).2 ⟨hv, ?_⟩⟩
  · rw [hg] at hx
    cases h3 : Obj.get p3 n with
    | none => rw [h3] at hx; exact .inr ⟨x, hx⟩
    | some y => exact .inl (hk3 n y h3)
  · rcases hq with ⟨q, hq, hgr⟩ | ⟨h1, h2, h3⟩
    · exact hacc q o hq hgr ho
    · exact hopt (by simp [h1, h2]) o h3

theorem own_step (hF : Sound D env S decl I F) (hA : F A) {cd : Bool} {f : Field τ}
    {fs : List (Field τ)} {m0 p0 : List (String × Json)} {r0 : List String}
    (hsk : f.skipSer = false) (hfl : f.flatten = false) (hok : FieldOk f) (h0 : Part m0 p0 r0)
    (ht : Obj.get m0 "type" = some (.str "object"))
    (h : Returns A (structFieldsProg I cd (f :: fs) (.obj m0)) s) :
    ∃ m p r, Part m p r ∧ Obj.get m "type" = some (.str "object") ∧
      (∀ n x, Obj.get p n = some x → n = f.name.ser ∨ ∃ y, Obj.get p0 n = some y) ∧
      Returns A (structFieldsProg I cd fs (.obj m)) s ∧
      ∀ o, Valid D env (.obj m0) (.obj o) → Obj.Sorted o → (f.skipSerIf = false → ∃ x, (f.name.ser, x) ∈ o) →
        (∀ x, (f.name.ser, x) ∈ o → S (fieldType I.base f) x ∧ FieldObeys env f x) → Valid D env (.obj m) (.obj o) := by
  unfold structFieldsProg at h
  obtain ⟨s1, h1, h2⟩ := res_bind.1 h
  rw [returns_structField, if_pos (by rw [hF.ser A hA]; exact hsk)] at h1
  obtain ⟨s', h1, rfl⟩ := h1
  unfold FieldResult at h1
  rw [hfl] at h1
  simp only [Bool.false_eq_true, if_false] at h1
  obtain ⟨s2, h1, rfl⟩ := h1
  obtain ⟨hsch, hacc⟩ := field_accepts hF hA hok h1
  unfold addField at h2
  rw [hfl] at h2
  simp only [Bool.false_eq_true, if_false] at h2
  have hname : f.name.get A.settings.contract = f.name.ser := by rw [hF.ser A hA]; rfl
  obtain ⟨m, e, hpart, htype, hval⟩ := h0.insertProperty (D := D) (env := env) ht f.name.ser
    (fieldOptional I cd f A.settings.contract) (insertDefault cd f s2)
  rw [hname, e] at h2
  refine ⟨m, _, _, hpart, htype, fun n x hx => ?_, h2, fun o hv ho hreq hx => hval o hv (fun hopt => ?_) fun x hm => ?_⟩
  · rw [Obj.get_insert] at hx
    split at hx
    · next hk => exact .inl hk.symm
    · exact .inr ⟨x, hx⟩
  · rw [fieldOptional_eq, hF.ser A hA] at hopt
    have hm : Mandatory I.isOption cd f .serialize := by simpa using hopt
    obtain ⟨x, hx⟩ := hreq hm
    exact ⟨x, Obj.get_of_mem_sorted ho hx⟩
  · rw [valid_insertDefault hsch.sch]
    exact hacc _ (hx x hm).1 (hx x hm).2

/-- The form of the schema of the struct. -/
theorem wide_shape (hM : Modern D env) (hF : Sound D env S decl I F) (hA : F A) {cd : Bool} {fs : List (Field τ)}
    {nss : List (List String)} (hn : Parts decl I fs nss) : ∀ {m0 p0 : List (String × Json)} {r0 : List String} {s : Json},
    nss.Pairwise List.Disjoint → FieldsOk I fs → Part m0 p0 r0 → Obj.get m0 "type" = some (.str "object") →
    (∀ n x, Obj.get p0 n = some x → n ∉ nss.flatten) → Returns A (structFieldsProg I cd fs (.obj m0)) s →
    ∃ m p r, s = .obj m ∧ Part m p r ∧ Obj.get m "type" = some (.str "object") := by
  induction hn with
  | nil =>
    intro m0 p0 r0 s _ _ h0 ht _ h
    cases h
    exact ⟨m0, p0, r0, rfl, h0, ht⟩
  | @skip f fs nss hsk _ ih =>
    intro m0 p0 r0 s hd hok h0 ht hp h
    unfold structFieldsProg at h
    obtain ⟨s1, h1, h2⟩ := res_bind.1 h
    rw [returns_structField, if_neg (by rw [hF.ser A hA]; simp [NotSkipped, hsk])] at h1
    subst h1
    exact ih hd (fun f hf => hok f (List.mem_cons_of_mem _ hf)) h0 ht hp h2
  | @own f fs nss hsk hfl _ ih =>
    intro m0 p0 r0 s hd hok h0 ht hp h
    obtain ⟨m, p, r, h1, h2, h3, h4, -⟩ := own_step hF hA hsk hfl ((hok f (List.mem_cons_self ..) hsk).1 hfl) h0 ht h
    refine ih (List.pairwise_cons.1 hd).2 (fun f hf => hok f (List.mem_cons_of_mem _ hf)) h1 h2 (fun n x hx => ?_) h4
    rcases h3 n x hx with rfl | ⟨y, hy⟩
    · exact disjoint_parts hd (List.mem_singleton.2 rfl)
    · intro hm
      exact hp n y hy (by rw [List.flatten_cons]; exact List.mem_append_right _ hm)
  | @flat f fs ns nss hsk hfl hn _ ih =>
    intro m0 p0 r0 s hd hok h0 ht hp h
    obtain ⟨m, p, r, h1, h2, h3, h4, -⟩ := flatten_step hM hF hA hsk hfl hn h0 ht
      (fun n x hx hm => hp n x hx (by rw [List.flatten_cons]; exact List.mem_append_left _ hm)) h
    refine ih (List.pairwise_cons.1 hd).2 (fun f hf => hok f (List.mem_cons_of_mem _ hf)) h1 h2 (fun n x hx => ?_) h4
    rcases h3 n x hx with h' | ⟨y, hy⟩
    · exact disjoint_parts hd h'
    · intro hm
      exact hp n y hy (by rw [List.flatten_cons]; exact List.mem_append_right _ hm)

/-- The schema of the struct accepts the object with the members. -/
theorem wide_fields_accept (hM : Modern D env) (hF : Sound D env S decl I F) (hA : F A) {cd : Bool}
    {o : List (String × Json)} (ho : (Json.obj o).WF) {fs : List (Field τ)} {o0 : List (String × Json)}
    (h : EncFields S (FieldObeys env) I.base decl fs o0) :
    ∀ {nss : List (List String)} {m0 p0 : List (String × Json)} {r0 : List String} {s : Json},
    Parts decl I fs nss → nss.Pairwise List.Disjoint → FieldsOk I fs → (∀ e ∈ o0, e ∈ o) →
    (∀ e ∈ o, e.1 ∈ nss.flatten → e ∈ o0) → Part m0 p0 r0 → Obj.get m0 "type" = some (.str "object") →
    (∀ n x, Obj.get p0 n = some x → n ∉ nss.flatten) → Valid D env (.obj m0) (.obj o) →
    Returns A (structFieldsProg I cd fs (.obj m0)) s → Valid D env s (.obj o) := by
  have hso := sorted_of_wf ho
  induction h with
  | nil =>
    intro nss m0 p0 r0 s _ _ _ _ _ _ _ _ hv h
    cases h; exact hv
  | @skip f fs o0 hsk _ ih =>
    intro nss m0 p0 r0 s hn hd hok hsub hcov h0 ht hp hv h
    cases hn with
    | own hsk' => rw [hsk] at hsk'; cases hsk'
    | flat hsk' => rw [hsk] at hsk'; cases hsk'
    | skip _ hn =>
      unfold structFieldsProg at h
      obtain ⟨s1, h1, h2⟩ := res_bind.1 h
      rw [returns_structField, if_neg (by rw [hF.ser A hA]; simp [NotSkipped, hsk])] at h1
      subst h1
      exact ih hn hd (fun f hf => hok f (List.mem_cons_of_mem _ hf)) hsub hcov h0 ht hp hv h2
  | @leftOut f fs o0 hsk hif henc ih =>
    intro nss m0 p0 r0 s hn hd hok hsub hcov h0 ht hp hv h
    have hok' : FieldsOk I fs := fun f hf => hok f (List.mem_cons_of_mem _ hf)
    cases hn with
    | skip hsk' => rw [hsk] at hsk'; cases hsk'
    | @own _ _ nss _ hfl hn =>
      have hcov' : ∀ e ∈ o, e.1 ∈ nss.flatten → e ∈ o0 := fun e he hm =>
        hcov e he (by rw [List.flatten_cons]; exact List.mem_append_right _ hm)
      have hno : ∀ x, (f.name.ser, x) ∉ o := fun x hx =>
        disjoint_parts hd (List.mem_singleton.2 rfl) (wide_names hF.toSerdeFacts henc hn _
          (hcov _ hx (by rw [List.flatten_cons]; exact List.mem_append_left _ (List.mem_singleton.2 rfl))))
      obtain ⟨m, p, r, h1, h2, h3, h4, h5⟩ := own_step hF hA hsk hfl ((hok f (List.mem_cons_self ..) hsk).1 hfl) h0 ht h
      refine ih hn (List.pairwise_cons.1 hd).2 hok' hsub hcov' h1 h2 (fun n x hx => ?_)
        (h5 o hv hso (fun h => by rw [hif] at h; cases h) fun x hx => absurd hx (hno x)) h4
      rcases h3 n x hx with rfl | ⟨y, hy⟩
      · exact disjoint_parts hd (List.mem_singleton.2 rfl)
      · intro hm
        exact hp n y hy (by rw [List.flatten_cons]; exact List.mem_append_right _ hm)
    | @flat _ _ ns nss _ hfl hfn hn =>
      have hcov' : ∀ e ∈ o, e.1 ∈ nss.flatten → e ∈ o0 := fun e he hm =>
        hcov e he (by rw [List.flatten_cons]; exact List.mem_append_right _ hm)
      have hopt := (hok f (List.mem_cons_self ..) hsk).2 hfl hif
      have hno : ∀ e ∈ o, e.1 ∉ ns := fun e he hm =>
        disjoint_parts hd hm (wide_names hF.toSerdeFacts henc hn _
          (hcov _ he (by rw [List.flatten_cons]; exact List.mem_append_left _ hm)))
      obtain ⟨m, p, r, h1, h2, h3, h4, h5⟩ := flatten_step hM hF hA hsk hfl hfn h0 ht
        (fun n x hx hm => hp n x hx (by rw [List.flatten_cons]; exact List.mem_append_left _ hm)) h
      refine ih hn (List.pairwise_cons.1 hd).2 hok' hsub hcov' h1 h2 (fun n x hx => ?_)
        (h5 o hv ho (.inr ⟨hopt.1, hopt.2, hno⟩)) h4
      rcases h3 n x hx with h' | ⟨y, hy⟩
      · exact disjoint_parts hd h'
      · intro hm
        exact hp n y hy (by rw [List.flatten_cons]; exact List.mem_append_right _ hm)
  | @member f fs o0 x hsk hfl hx hkx henc ih =>
    intro nss m0 p0 r0 s hn hd hok hsub hcov h0 ht hp hv h
    have hok' : FieldsOk I fs := fun f hf => hok f (List.mem_cons_of_mem _ hf)
    cases hn with
    | skip hsk' => rw [hsk] at hsk'; cases hsk'
    | flat _ hfl' => rw [hfl] at hfl'; cases hfl'
    | @own _ _ nss _ _ hn =>
      have hcov' : ∀ e ∈ o, e.1 ∈ nss.flatten → e ∈ o0 := fun e he hm => by
        rcases List.mem_cons.1 (hcov e he (by rw [List.flatten_cons]; exact List.mem_append_right _ hm)) with rfl | h
        · exact absurd hm (disjoint_parts hd (List.mem_singleton.2 rfl))
        · exact h
      obtain ⟨m, p, r, h1, h2, h3, h4, h5⟩ := own_step hF hA hsk hfl ((hok f (List.mem_cons_self ..) hsk).1 hfl) h0 ht h
      refine ih hn (List.pairwise_cons.1 hd).2 hok' (fun e he => hsub e (List.mem_cons_of_mem _ he)) hcov' h1 h2
        (fun n x hx => ?_) (h5 o hv hso (fun _ => ⟨x, hsub _ (List.mem_cons_self ..)⟩) fun y hy => ?_) h4
      · rcases h3 n x hx with rfl | ⟨y, hy⟩
        · exact disjoint_parts hd (List.mem_singleton.2 rfl)
        · intro hm
          exact hp n y hy (by rw [List.flatten_cons]; exact List.mem_append_right _ hm)
      · have e1 := Obj.get_of_mem_sorted hso hy
        rw [Obj.get_of_mem_sorted hso (hsub _ (List.mem_cons_self ..))] at e1
        cases e1; exact ⟨hx, hkx⟩
  | @flatten f fs o0 q hsk hfl hm henc ih =>
    intro nss m0 p0 r0 s hn hd hok hsub hcov h0 ht hp hv h
    have hok' : FieldsOk I fs := fun f hf => hok f (List.mem_cons_of_mem _ hf)
    cases hn with
    | skip hsk' => rw [hsk] at hsk'; cases hsk'
    | own _ hfl' => rw [hfl] at hfl'; cases hfl'
    | @flat _ _ ns nss _ _ hfn hn =>
      have hq := members_adds hF.toSerdeFacts hm
      have hqn : ∀ e ∈ q, e.1 ∈ ns := by
        rcases hq with h | ⟨rfl, -⟩
        · exact flat_names_of hF.toSerdeFacts hfn h
        · intro e he; cases he
      have hcov' : ∀ e ∈ o, e.1 ∈ nss.flatten → e ∈ o0 := fun e he hm => by
        rcases List.mem_append.1 (hcov e he (by rw [List.flatten_cons]; exact List.mem_append_right _ hm)) with h | h
        · exact absurd hm (disjoint_parts hd (hqn e h))
        · exact h
      have hgr : Grows ns q o := by
        refine ⟨fun e he => hsub e (List.mem_append_left _ he), fun e he hen => ?_⟩
        rcases List.mem_append.1 (hcov e he (by rw [List.flatten_cons]; exact List.mem_append_left _ hen)) with h | h
        · exact h
        · exact absurd (wide_names hF.toSerdeFacts henc hn e h) (disjoint_parts hd hen)
      obtain ⟨m, p, r, h1, h2, h3, h4, h5⟩ := flatten_step hM hF hA hsk hfl hfn h0 ht
        (fun n x hx hm => hp n x hx (by rw [List.flatten_cons]; exact List.mem_append_left _ hm)) h
      refine ih hn (List.pairwise_cons.1 hd).2 hok' (fun e he => hsub e (List.mem_append_right _ he)) hcov' h1 h2
        (fun n x hx => ?_) (h5 o hv ho ?_) h4
      · rcases h3 n x hx with h' | ⟨y, hy⟩
        · exact disjoint_parts hd h'
        · intro hm
          exact hp n y hy (by rw [List.flatten_cons]; exact List.mem_append_right _ hm)
      · rcases hq with h | ⟨rfl, ho1, ho2⟩
        · exact .inl ⟨q, h, hgr⟩
        · refine .inr ⟨ho1, ho2, fun e he hen => ?_⟩
          cases hgr.2 e he hen

theorem Part.nullable {m p : List (String × Json)} {r : List String} (h : Part m p r)
    (ht : Obj.get m "type" = some (.str "object")) : Nullable D env (.obj m) := by
  refine ⟨.obj h.sorted, nullIfTyped_of (by decide) ht, ?_⟩
  by_cases hin : ∃ k ∈ ["allOf", "anyOf", "oneOf"], ∃ v, Obj.get m k = some v
  · obtain ⟨k, hk, v, hv⟩ := hin
    exact .typed m k v _ hk hv ht
  · refine .own m fun k v hk => ?_
    by_cases ha : k ∈ annotations
    · exact .inr (.inr (.inl (List.mem_append_left _ ha)))
    · have hp : k ∈ partKeys := by
        by_contra hc
        rw [h.other k ha hc] at hk; cases hk
      have hni : k ∉ ["allOf", "anyOf", "oneOf"] := fun hm => hin ⟨k, hm, v, hk⟩
      unfold partKeys at hp
      simp only [List.mem_cons, List.not_mem_nil, or_false, not_or] at hp hni
      rcases hp with rfl | rfl | rfl | h | h | h
      · exact .inl rfl
      · exact .inr (.inr (.inl (by decide)))
      · exact .inr (.inr (.inl (by decide)))
      · exact absurd h hni.1
      · exact absurd h hni.2.1
      · exact absurd h hni.2.2

/-- The schema of a struct with flattened structs and enums accepts what serde writes for it. -/
theorem wide_accepts (hM : Modern D env) (hF : Sound D env S decl I F) (hA : F A) {cd : Bool} {fs : List (Field τ)}
    (hok : WideOk decl I fs) (h : Returns A (structProg I fs cd false) s) :
    Nullable D env s ∧ ∀ o o', EncFields S (FieldObeys env) I.base decl fs o → o'.Perm o → (Json.obj o').WF → Valid D env s (.obj o') := by
  obtain ⟨nss, hn, hd, hfs⟩ := hok
  obtain ⟨mi, ei, hi⟩ := shape_start false
  unfold structProg at h
  rw [ei] at h
  have hp : ∀ n x, Obj.get ([] : List (String × Json)) n = some x → n ∉ nss.flatten := fun n x h => by cases h
  obtain ⟨m, p, r, rfl, hpart, ht⟩ := wide_shape hM hF hA hn hd hfs (hi.part .nil) hi.type hp h
  refine ⟨hpart.nullable ht, fun o o' henc hperm hwf => ?_⟩
  refine wide_fields_accept hM hF hA hwf henc hn hd hfs (fun e he => hperm.mem_iff.2 he)
    (fun e he _ => hperm.mem_iff.1 he) (hi.part .nil) hi.type hp ?_ h
  rw [hi.valid]
  exact ⟨o', rfl, fun n hn => (by cases hn), fun e _ s hs => (by cases hs), fun h => (by cases h)⟩

/-- A derived struct with flattened structs and enums. serde does not support `deny_unknown_fields` for it. -/
structure Spec.WideData (decl : τ → Decl τ) (I : TypeInfo τ) (c : Container τ) (fs : List (Field τ)) : Prop extends
    PlainData c fs where
  open_ : c.denyUnknownFields = false
  wide : WideOk decl I fs

end

end Verif
