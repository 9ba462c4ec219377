import Verif.Props.Flatten

/-!
# C50: what is done with the schema of a flattened field
-/

namespace Verif
open Spec

/-! ### AllowUnknownProperties -/

theorem allowUnknown_obj (m : List (String × Json)) :
    allowUnknown (.obj m) = allowUnknownLocal (tsub immSlot allowUnknown (.obj m)) := by
  unfold allowUnknown; rw [walk_obj]

theorem allowUnknown_bool (b : Bool) : allowUnknown (.bool b) = .bool b := by
  unfold allowUnknown; rw [walk_bool]; rfl

/-- `tsub` changes no keyword that it does not traverse. -/
theorem get_tsub {slot : String → Slot} {t : Json → Json} (m : List (String × Json)) (k : String) :
    Obj.get (m.map fun e => (e.1, atSlot t (slot e.1) e.2)) k = (Obj.get m k).map (atSlot t (slot k)) := by
  induction m with
  | nil => rfl
  | cons e m ih =>
    rw [List.map_cons, Obj.get_cons, Obj.get_cons]
    by_cases h : e.1 = k
    · rw [if_pos h, if_pos h, h]; rfl
    · rw [if_neg h, if_neg h, ih]

theorem dropIfFalse_map {m : List (String × Json)} {k : String} {f : String → Json → Json} (hf : ∀ v, f k v = v) :
    dropIfFalse (m.map fun e => (e.1, f e.1 e.2)) k = (dropIfFalse m k).map fun e => (e.1, f e.1 e.2) := by
  have hg : Obj.get (m.map fun e => (e.1, f e.1 e.2)) k = Obj.get m k := by
    induction m with
    | nil => rfl
    | cons e m ih =>
      rw [List.map_cons, Obj.get_cons, Obj.get_cons, ih]
      by_cases h : e.1 = k
      · rw [if_pos h, if_pos h, h, hf]
      · rw [if_neg h, if_neg h]
  unfold dropIfFalse isFalseAt
  rw [hg]
  split
  · unfold Obj.remove; rw [List.filter_map]; rfl
  · rfl

/-- The equation of the code: first the schema, then its in-place subschemas. -/
theorem allowUnknown_eq {s : Json} (h : IsSchema s) : allowUnknown s = allowUnknownStep allowUnknown s := by
  cases h with
  | bool b => rw [allowUnknown_bool]; rfl
  | obj m =>
    rw [allowUnknown_obj]
    unfold allowUnknownStep allowUnknownLocal
    simp only [tsub]
    rw [dropIfFalse_map (f := fun k v => atSlot allowUnknown (immSlot k) v) fun v => atSlot_skip v,
      dropIfFalse_map (f := fun k v => atSlot allowUnknown (immSlot k) v) fun v => atSlot_skip v]

theorem allowUnknown_preserves : Preserves allowUnknown := by
  intro s h
  rw [allowUnknown_eq h]
  cases h with
  | obj m => exact .obj _
  | bool b => exact .bool _

namespace Spec

/-- The schema does not deny members without a name of their own. -/
def NoDenial (s : Json) : Prop := ∀ k ∈ restKeys, ∀ m, s = .obj m → Obj.get m k ≠ some (.bool false)

end Spec

theorem get_dropIfFalse (m : List (String × Json)) (k q : String) :
    Obj.get (dropIfFalse m k) q = if k = q ∧ Obj.get m k = some (.bool false) then none else Obj.get m q := by
  unfold dropIfFalse isFalseAt
  by_cases h : Obj.get m k = some (.bool false)
  · rw [h]
    simp only [BEq.rfl, if_true, and_true]
    rw [Obj.get_remove]
  · have : (Obj.get m k == some (.bool false)) = false := by simpa using h
    rw [this]; simp [h]

theorem allowUnknownLocal_noDenial (s : Json) : NoDenial (allowUnknownLocal s) := by
  intro k hk m hm
  cases s <;> simp only [allowUnknownLocal] at hm <;> cases hm
  rw [get_dropIfFalse, get_dropIfFalse, get_dropIfFalse]
  simp only [restKeys, List.mem_cons, List.not_mem_nil, or_false] at hk
  rcases hk with rfl | rfl
  · simp
  · simp

theorem mem_subs_imm {s x : Json} : x ∈ subs immSlot s ↔ DirectSub inPlace s x := by
  constructor
  · intro h
    cases s with
    | obj m =>
      simp only [subs, List.mem_flatMap] at h
      obtain ⟨e, he, hx⟩ := h
      rcases immSlot_cases e.1 with ⟨hk, e1⟩ | ⟨hk, e1⟩ | ⟨_, _, e1⟩ <;> rw [e1] at hx
      · rw [slotSubs_one] at hx
        split at hx
        · next hs => simp only [List.mem_singleton] at hx; subst hx; exact .one he hk (isSchema_iff.1 hs)
        · cases hx
      · obtain ⟨k, v⟩ := e
        cases v <;> simp only [slotSubs, List.not_mem_nil] at hx
        rw [List.mem_filter] at hx
        exact .list he hk hx.1 (isSchema_iff.1 hx.2)
      · cases e.2 <;> cases hx
    | _ => cases h
  · intro h
    cases h with
    | one hm hk hx =>
      simp only [subs, List.mem_flatMap]
      refine ⟨_, hm, ?_⟩
      have : ∀ k, k ∈ inPlace.one → immSlot k = .one := by decide
      simp only
      rw [this _ hk, slotSubs_one, if_pos (isSchema_iff.2 hx)]
      exact List.mem_singleton.2 rfl
    | list hm hk hl hx =>
      simp only [subs, List.mem_flatMap]
      refine ⟨_, hm, ?_⟩
      have : ∀ k, k ∈ inPlace.list → immSlot k = .list := by decide
      simp only
      rw [this _ hk]
      exact List.mem_filter.2 ⟨hl, isSchema_iff.2 hx⟩
    | map _ hk => exact absurd hk (by simp [inPlace])

theorem subs_dropIfFalse {m : List (String × Json)} {k : String} (hk : immSlot k = .skip) :
    subs immSlot (.obj (dropIfFalse m k)) = subs immSlot (.obj m) := by
  have h : subs immSlot (.obj (Obj.remove m k)) = subs immSlot (.obj m) := by
    simp only [subs, Obj.remove]
    induction m with
    | nil => rfl
    | cons e m ih =>
      rw [List.flatMap_cons, ← ih, List.filter_cons]
      split
      · rw [List.flatMap_cons]
      · next h =>
        have : e.1 = k := by simpa using h
        rw [this, hk]
        cases e.2 <;> rfl
  unfold dropIfFalse
  split
  · exact h
  · rfl

theorem subs_allowUnknown {s : Json} (h : IsSchema s) :
    subs immSlot (allowUnknown s) = (subs immSlot s).map allowUnknown := by
  rw [allowUnknown_eq h]
  unfold allowUnknownStep
  rw [subs_tsub allowUnknown_preserves]
  cases h with
  | bool b => rfl
  | obj m =>
    unfold allowUnknownLocal
    simp only
    rw [subs_dropIfFalse rfl, subs_dropIfFalse rfl]

/-- `AllowUnknownProperties` leaves no denial at an in-place position. -/
theorem C50_allow_unknown {s : Json} (h : IsSchema s) : Everywhere inPlace NoDenial (allowUnknown s) := by
  suffices ∀ n s, sizeOf s < n → IsSchema s → Everywhere inPlace NoDenial (allowUnknown s) from
    this _ s (Nat.lt_succ_self _) h
  intro n
  induction n with
  | zero => intro s h; omega
  | succ n ih =>
    intro s hn hs y hy
    cases hy with
    | self =>
      cases hs with
      | bool b => rw [allowUnknown_bool]; intro k _ m hm; cases hm
      | obj m => rw [allowUnknown_obj]; exact allowUnknownLocal_noDenial _
    | step hd hr =>
      rw [← mem_subs_imm, subs_allowUnknown hs, List.mem_map] at hd
      obtain ⟨x, hx, rfl⟩ := hd
      exact ih x (by have := sizeOf_subs hx; omega) (subs_isSchema hx) _ hr

/-- `AllowUnknownProperties` changes no other keyword. -/
theorem get_allowUnknown {m : List (String × Json)} :
    ∃ m', allowUnknown (.obj m) = .obj m' ∧ (Obj.Sorted m → Obj.Sorted m') ∧
      (∀ k, k ∉ restKeys → Obj.get m' k = (Obj.get m k).map (atSlot allowUnknown (immSlot k))) ∧
      ∀ k ∈ restKeys, Obj.get m' k = if Obj.get m k = some (.bool false) then none else Obj.get m k := by
  rw [allowUnknown_eq (.obj m)]
  refine ⟨_, rfl, ?_, ?_, ?_⟩
  · intro hs
    have hd : ∀ {m : List (String × Json)} k, Obj.Sorted m → Obj.Sorted (dropIfFalse m k) := by
      intro m k h; unfold dropIfFalse; split
      · exact Obj.sorted_remove h _
      · exact h
    have := hd "unevaluatedProperties" (hd "additionalProperties" hs)
    unfold Obj.Sorted at this ⊢
    rw [List.pairwise_map]
    exact this
  · intro k hk
    simp only [restKeys, List.mem_cons, List.not_mem_nil, or_false, not_or] at hk
    rw [get_tsub, get_dropIfFalse, if_neg (fun h => hk.2 h.1.symm), get_dropIfFalse, if_neg (fun h => hk.1 h.1.symm)]
  · intro k hk
    have hsl := (by decide : ∀ k ∈ restKeys, immSlot k = .skip) k hk
    rw [get_tsub, hsl, get_dropIfFalse, get_dropIfFalse, get_dropIfFalse]
    have : ∀ (o : Option Json), o.map (atSlot allowUnknown .skip) = o := by
      intro o; cases o <;> simp [atSlot_skip]
    rw [this]
    simp only [restKeys, List.mem_cons, List.not_mem_nil, or_false] at hk
    rcases hk with rfl | rfl <;> simp

/-! ### Steps before -/

theorem removeUnit_isSchema {s : Json} (h : IsSchema s) : IsSchema (removeUnitVariants s).1 := by
  cases h with
  | bool b => exact .bool b
  | obj m =>
    unfold removeUnitVariants
    simp only
    split
    · exact .obj _
    · split
      · split <;> exact .obj _
      · exact .obj _

theorem expandUnit_isSchema {s : Json} (h : IsSchema s) : IsSchema (expandUnitVariants s) := by
  have hr := removeUnit_isSchema h
  unfold expandUnitVariants
  split
  · next s' units he =>
    rw [he] at hr
    cases hr with
    | obj m => exact .obj _
    | bool b => cases b <;> exact .obj _
  · next s' he => rw [he] at hr; exact hr

theorem flatten_isSchema {s o : Json} (h : IsSchema s) : IsSchema (flatten s o) := by
  unfold flatten
  split
  · exact h
  · split
    · split <;> exact .obj _
    · exact h
  · split
    · exact .obj _
    · exact h
  · exact h

theorem flattenOptional_isSchema {s : Json} (h : IsSchema s) : IsSchema (flattenOptional s) := by
  have h1 : IsSchema (Schema.remove s "required").1 := remove_preserves h _
  unfold flattenOptional
  simp only
  refine getMut_preserves ?_ _ _
  have h2 := remove_preserves h1 "oneOf"
  split
  · next s' oneOf he => rw [he] at h2; exact flatten_isSchema h2
  · next s' he => rw [he] at h2; exact h2

/-- C50: the schema of a flattened field does not deny further members, at any in-place position. -/
theorem C50_in_place {s : Json} (h : IsSchema s) (isOptional : Bool) :
    Everywhere inPlace NoDenial (flattenInner s isOptional) := by
  unfold flattenInner
  refine C50_allow_unknown ?_
  split
  · exact flattenOptional_isSchema (expandUnit_isSchema h)
  · exact expandUnit_isSchema h

/-- The denial below two in-place keywords is removed; the one in a property stays. -/
example : flattenInner (.obj [("oneOf", .arr [.obj [("allOf", .arr [.obj [("additionalProperties", .bool false)]]),
    ("properties", .obj [("a", .obj [("additionalProperties", .bool false)])])]])]) false =
    .obj [("oneOf", .arr [.obj [("allOf", .arr [.obj []]),
      ("properties", .obj [("a", .obj [("additionalProperties", .bool false)])])]])] := by rfl

/-- The denial in the target of a reference is not reached. -/
theorem C50_reference_unchanged (r : String) (isOptional : Bool) :
    flattenInner (.obj [("$ref", .str r)]) isOptional = .obj [("$ref", .str r)] := by
  cases isOptional <;> rfl

/-! ### Optional fields -/

namespace Spec

/-- A schema of a struct, or of an enum: no keywords but those listed; not alternatives of two kinds; and
a denial of further members as the only restriction of those. -/
structure Plain (m : List (String × Json)) : Prop where
  sorted : Obj.Sorted m
  keys : ∀ k v, Obj.get m k = some v → k ∈ annotations ∨ k ∈ ["type", "properties", "patternProperties", "required",
    "additionalProperties", "unevaluatedProperties", "oneOf", "anyOf", "enum"]
  type : Obj.get m "type" = none ∨ Obj.get m "type" = some (.str "object") ∨
    Obj.get m "type" = some (.str "string")
  enum : Obj.get m "type" = some (.str "string") ↔ ∃ l, Obj.get m "enum" = some (.arr l)
  enumArr : ∀ v, Obj.get m "enum" = some v → ∃ l, v = .arr l
  oneKind : Obj.get m "anyOf" = none ∨ (Obj.get m "oneOf" = none ∧ Obj.get m "enum" = none)
  anyOfArr : ∀ v, Obj.get m "anyOf" = some v → ∃ l, v = .arr l
  rest : ∀ k ∈ restKeys, Obj.get m k = none ∨ Obj.get m k = some (.bool false)

end Spec

/-- What is left of `Plain` after the unit variants have been replaced. -/
structure Plain1 (m m1 : List (String × Json)) : Prop where
  sorted : Obj.Sorted m1
  keys : ∀ k v, Obj.get m1 k = some v → k ∈ annotations ∨ k ∈ ["type", "properties", "patternProperties", "required",
    "additionalProperties", "unevaluatedProperties", "oneOf", "anyOf"]
  type : Obj.get m1 "type" = none ∨ Obj.get m1 "type" = some (.str "object")
  oneKind : Obj.get m1 "anyOf" = none ∨ Obj.get m1 "oneOf" = none
  anyOfArr : ∀ v, Obj.get m1 "anyOf" = some v → ∃ l, v = .arr l
  rest : ∀ k ∈ restKeys, Obj.get m1 k = none ∨ Obj.get m1 k = some (.bool false)
  names : ∀ k ∈ ["properties", "patternProperties"], Obj.get m1 k = Obj.get m k

/-- A change of `oneOf`. -/
theorem Plain1.setOneOf {m m1 : List (String × Json)} (h : Plain1 m m1) (ha : Obj.get m1 "anyOf" = none) (v : Json) :
    Plain1 m (Obj.insert m1 "oneOf" v) where
  sorted := Obj.sorted_insert h.sorted _ _
  keys := by
    intro k w hk
    by_cases e : "oneOf" = k
    · subst e; exact .inr (by decide)
    · rw [Obj.get_insert_ne _ _ e] at hk; exact h.keys k w hk
  type := by rw [Obj.get_insert_ne _ _ (by decide)]; exact h.type
  oneKind := .inl (by rw [Obj.get_insert_ne _ _ (by decide)]; exact ha)
  anyOfArr := by rw [Obj.get_insert_ne _ _ (by decide)]; exact h.anyOfArr
  rest := by
    intro k hk
    rw [Obj.get_insert_ne _ _ ((by decide : ∀ k ∈ restKeys, "oneOf" ≠ k) k hk)]; exact h.rest k hk
  names := by
    intro k hk
    rw [Obj.get_insert_ne _ _ ((by decide : ∀ k ∈ ["properties", "patternProperties"], "oneOf" ≠ k) k hk)]
    exact h.names k hk

theorem Spec.Plain.expand {m : List (String × Json)} (h : Plain m) :
    ∃ m1, expandUnitVariants (.obj m) = .obj m1 ∧ Plain1 m m1 := by
  by_cases hstr : Obj.get m "type" = some (.str "string")
  · obtain ⟨l, hl⟩ := h.enum.1 hstr
    have hany : Obj.get m "anyOf" = none := h.oneKind.resolve_right fun x => by rw [x.2] at hl; cases hl
    have hr : removeUnitVariants (.obj m) = (.obj (Obj.remove (Obj.remove m "enum") "type"), some l) := by
      unfold removeUnitVariants
      simp only
      rw [hstr, hl]; rfl
    have h0 : Plain1 m (Obj.remove (Obj.remove m "enum") "type") := by
      have hg : ∀ k, "type" ≠ k → "enum" ≠ k → Obj.get (Obj.remove (Obj.remove m "enum") "type") k = Obj.get m k := by
        intro k h1 h2
        rw [Obj.get_remove_ne _ h1, Obj.get_remove_ne _ h2]
      refine ⟨Obj.sorted_remove (Obj.sorted_remove h.sorted _) _, ?_, .inl (Obj.get_remove_self _ _), .inl ?_, ?_,
        ?_, ?_⟩
      · intro k v hk
        by_cases e1 : "type" = k
        · subst e1; rw [Obj.get_remove_self] at hk; cases hk
        by_cases e2 : "enum" = k
        · subst e2; rw [Obj.get_remove_ne _ e1, Obj.get_remove_self] at hk; cases hk
        rw [hg k e1 e2] at hk
        rcases h.keys k v hk with h' | h'
        · exact .inl h'
        · right
          simp only [List.mem_cons, List.not_mem_nil, or_false] at h' ⊢
          rcases h' with h' | h' | h' | h' | h' | h' | h' | h' | h' <;> simp [h']
          exact absurd h'.symm e2
      · rw [hg _ (by decide) (by decide)]; exact hany
      · rw [hg _ (by decide) (by decide), hany]; intro v hv; cases hv
      · intro k hk
        have := (by decide : ∀ k ∈ restKeys, "type" ≠ k ∧ "enum" ≠ k) k hk
        rw [hg k this.1 this.2]; exact h.rest k hk
      · intro k hk
        have := (by decide : ∀ k ∈ ["properties", "patternProperties"], "type" ≠ k ∧ "enum" ≠ k) k hk
        exact hg k this.1 this.2
    refine ⟨_, by unfold expandUnitVariants; rw [hr]; rfl, ?_⟩
    exact h0.setOneOf (by rw [Obj.get_remove_ne _ (by decide), Obj.get_remove_ne _ (by decide)]; exact hany) _
  · have hen : Obj.get m "enum" = none := by
      cases e : Obj.get m "enum" with
      | none => rfl
      | some v => obtain ⟨l, rfl⟩ := h.enumArr v e; exact absurd (h.enum.2 ⟨l, e⟩) hstr
    have h0 : Plain1 m m := by
      refine ⟨h.sorted, ?_, ?_, h.oneKind.imp_right And.left, h.anyOfArr, h.rest, fun k _ => rfl⟩
      · intro k v hk
        rcases h.keys k v hk with h' | h'
        · exact .inl h'
        · right
          simp only [List.mem_cons, List.not_mem_nil, or_false] at h' ⊢
          rcases h' with h' | h' | h' | h' | h' | h' | h' | h' | h' <;> simp [h']
          subst h'; rw [hen] at hk; cases hk
      · rcases h.type with h' | h' | h'
        · exact .inl h'
        · exact .inr h'
        · exact absurd h' hstr
    have hfalse : ((Obj.get m "type").bind Json.asStr? == some "string") = false := by
      rcases h0.type with h' | h' <;> rw [h'] <;> decide
    unfold expandUnitVariants removeUnitVariants
    simp only [hfalse, Bool.false_eq_true, if_false]
    split
    · next s' units he =>
      split at he
      · next hone =>
        have hany : Obj.get m "anyOf" = none := h0.oneKind.resolve_right fun x => by rw [x] at hone; cases hone
        split at he
        · cases he
          refine ⟨_, rfl, ?_⟩
          exact (h0.setOneOf hany _).setOneOf (by rw [Obj.get_insert_ne _ _ (by decide)]; exact hany) _
        · cases he
        · cases he
      · cases he
    · next s' he =>
      split at he
      · next hone =>
        have hany : Obj.get m "anyOf" = none := h0.oneKind.resolve_right fun x => by rw [x] at hone; cases hone
        split at he
        · cases he
        · cases he; exact ⟨_, rfl, h0.setOneOf hany _⟩
        · cases he; exact ⟨_, rfl, h0⟩
      · cases he; exact ⟨_, rfl, h0⟩

/-- What `flattenOptional` leaves. -/
structure Plain2 (m m1 : List (String × Json)) : Prop where
  sorted : Obj.Sorted m1
  keys : ∀ k v, Obj.get m1 k = some v → k ∈ annotations ∨ k ∈ ["type", "properties", "patternProperties",
    "additionalProperties", "unevaluatedProperties", "anyOf"]
  type : Obj.get m1 "type" = none ∨ Obj.get m1 "type" = some (.str "object")
  anyOf : ∀ v, Obj.get m1 "anyOf" = some v → ∃ l, v = .arr l ∧ Json.obj [] ∈ l
  rest : ∀ k ∈ restKeys, Obj.get m1 k = none ∨ Obj.get m1 k = some (.bool false)
  names : ∀ k ∈ ["properties", "patternProperties"], Obj.get m1 k = Obj.get m k

theorem Plain1.optional {m m1 : List (String × Json)} (h : Plain1 m m1) :
    ∃ m2, flattenOptional (.obj m1) = .obj m2 ∧ Plain2 m m2 := by
  unfold flattenOptional
  simp only [Schema.remove]
  rw [Obj.get_remove_ne _ (by decide)]
  cases hone : Obj.get m1 "oneOf" with
  | none =>
    simp only [Schema.getMut]
    refine ⟨_, rfl, ?_⟩
    have hg : ∀ k, "required" ≠ k → "anyOf" ≠ k → ∀ f, Obj.get (Obj.modify (Obj.remove (Obj.remove m1 "required") "oneOf") "anyOf" f) k
        = Obj.get m1 k := by
      intro k h1 h2 f
      rw [Obj.get_modify, if_neg h2]
      by_cases e : "oneOf" = k
      · subst e; rw [Obj.get_remove_self, hone]
      · rw [Obj.get_remove_ne _ e, Obj.get_remove_ne _ h1]
    refine ⟨Obj.sorted_modify (Obj.sorted_remove (Obj.sorted_remove h.sorted _) _) _ _, ?_, ?_, ?_, ?_, ?_⟩
    · intro k v hk
      by_cases e1 : "anyOf" = k
      · subst e1; exact .inr (by decide)
      by_cases e2 : "required" = k
      · subst e2
        rw [Obj.get_modify, if_neg (by decide), Obj.get_remove_ne _ (by decide), Obj.get_remove_self] at hk
        cases hk
      rw [hg k e2 e1] at hk
      rcases h.keys k v hk with h' | h'
      · exact .inl h'
      · right
        simp only [List.mem_cons, List.not_mem_nil, or_false] at h' ⊢
        rcases h' with h' | h' | h' | h' | h' | h' | h' | h' <;> simp [h']
        · exact absurd h'.symm e2
        · subst h'; rw [hone] at hk; cases hk
    · rw [hg _ (by decide) (by decide)]; exact h.type
    · intro v hv
      rw [Obj.get_modify, if_pos rfl, Obj.get_remove_ne _ (by decide), Obj.get_remove_ne _ (by decide)] at hv
      cases ha : Obj.get m1 "anyOf" with
      | none => rw [ha] at hv; cases hv
      | some w =>
        obtain ⟨l, rfl⟩ := h.anyOfArr w ha
        rw [ha] at hv
        simp only [Option.map_some, Option.some.injEq] at hv
        subst hv
        split
        · next hc => exact ⟨l, rfl, List.contains_iff_mem.1 hc⟩
        · exact ⟨_, rfl, by simp⟩
    · intro k hk
      have := (by decide : ∀ k ∈ restKeys, "required" ≠ k ∧ "anyOf" ≠ k) k hk
      rw [hg k this.1 this.2]; exact h.rest k hk
    · intro k hk
      have := (by decide : ∀ k ∈ ["properties", "patternProperties"], "required" ≠ k ∧ "anyOf" ≠ k) k hk
      rw [hg k this.1 this.2]; exact h.names k hk
  | some v =>
    have hany : Obj.get m1 "anyOf" = none := h.oneKind.resolve_right fun x => by rw [x] at hone; cases hone
    simp only
    generalize hA : Json.arr [Json.obj [("oneOf", v)], Json.obj []] = A
    generalize hn : Obj.remove (Obj.remove m1 "required") "oneOf" = m3
    have hg3 : ∀ k, "required" ≠ k → "oneOf" ≠ k → Obj.get m3 k = Obj.get m1 k := by
      intro k h1 h2
      rw [← hn, Obj.get_remove_ne _ h2, Obj.get_remove_ne _ h1]
    have hr3 : Obj.get m3 "required" = none := by
      rw [← hn, Obj.get_remove_ne _ (by decide), Obj.get_remove_self]
    have ho3 : Obj.get m3 "oneOf" = none := by rw [← hn, Obj.get_remove_self]
    have hs3 : Obj.Sorted m3 := by rw [← hn]; exact Obj.sorted_remove (Obj.sorted_remove h.sorted _) _
    have hf : flatten (.obj m3) (.obj [("anyOf", A)]) =
        .obj (Obj.insert (normaliseUnevaluated m3 [("anyOf", A)]) "anyOf" A) := by
      have ha : Obj.get (normaliseUnevaluated m3 [("anyOf", A)]) "anyOf" = none := by
        rw [get_normalise (by decide), hg3 _ (by decide) (by decide), hany]
      show Json.obj (flattenObjects m3 [("anyOf", A)]) = _
      rw [flattenObjects_eq, normalise_id (m1 := [("anyOf", A)]) rfl]
      unfold mergeAll
      simp only [List.foldl_cons, List.foldl_nil]
      unfold flattenProperty flattenPlain
      rw [ha]
    rw [hf]
    simp only [Schema.getMut]
    have hm : Obj.modify (Obj.insert (normaliseUnevaluated m3 [("anyOf", A)]) "anyOf" A) "anyOf" (fun a =>
        match a with
        | .arr l => if l.contains (.obj []) then .arr l else .arr (l ++ [.obj []])
        | a => a) = Obj.insert (normaliseUnevaluated m3 [("anyOf", A)]) "anyOf" A := by
      refine Obj.ext_sorted (Obj.sorted_modify (Obj.sorted_insert (sorted_normalise hs3 _) _ _) _ _)
        (Obj.sorted_insert (sorted_normalise hs3 _) _ _) fun k => ?_
      rw [Obj.get_modify]
      split
      · next e => subst e; rw [Obj.get_insert_self, ← hA]; rfl
      · rfl
    refine ⟨_, congrArg Json.obj hm, ?_⟩
    have hg4 : ∀ k, k ∉ restKeys → "anyOf" ≠ k → Obj.get (Obj.insert (normaliseUnevaluated m3 [("anyOf", A)]) "anyOf" A) k =
        Obj.get m3 k := by
      intro k h1 h2
      rw [Obj.get_insert_ne _ _ h2, get_normalise h1]
    refine ⟨Obj.sorted_insert (sorted_normalise hs3 _) _ _, ?_, ?_, ?_, ?_, ?_⟩
    · intro k w hk
      by_cases e1 : "anyOf" = k
      · subst e1; exact .inr (by decide)
      by_cases e2 : k ∈ restKeys
      · right
        exact (by decide : ∀ k ∈ restKeys, k ∈ ["type", "properties", "patternProperties",
          "additionalProperties", "unevaluatedProperties", "anyOf"]) k e2
      rw [hg4 k e2 e1] at hk
      by_cases e3 : "required" = k
      · subst e3; rw [hr3] at hk; cases hk
      by_cases e4 : "oneOf" = k
      · subst e4; rw [ho3] at hk; cases hk
      rw [hg3 k e3 e4] at hk
      rcases h.keys k w hk with h' | h'
      · exact .inl h'
      · right
        simp only [List.mem_cons, List.not_mem_nil, or_false] at h' ⊢
        rcases h' with h' | h' | h' | h' | h' | h' | h' | h' <;> simp [h']
        · exact absurd h'.symm e3
        · exact absurd h'.symm e4
    · rw [hg4 _ (by decide) (by decide), hg3 _ (by decide) (by decide)]; exact h.type
    · intro w hw
      rw [Obj.get_insert_self] at hw
      cases hw
      exact ⟨_, hA.symm, by simp⟩
    · intro k hk
      have hr := (by decide : ∀ k ∈ restKeys, "required" ≠ k ∧ "oneOf" ≠ k ∧ "anyOf" ≠ k) k hk
      rw [Obj.get_insert_ne _ _ hr.2.2]
      have h3 : ∀ k ∈ restKeys, Obj.get m3 k = none ∨ Obj.get m3 k = some (.bool false) := by
        intro k hk
        have hr := (by decide : ∀ k ∈ restKeys, "required" ≠ k ∧ "oneOf" ≠ k) k hk
        rw [hg3 k hr.1 hr.2]; exact h.rest k hk
      unfold normaliseUnevaluated
      rcases h3 "additionalProperties" (by decide) with e | e
      · rw [e]; exact h3 k hk
      · rw [e]
        simp only
        split
        · by_cases e1 : "unevaluatedProperties" = k
          · subst e1; rw [Obj.get_insert_self]; exact .inr rfl
          · rw [Obj.get_insert_ne _ _ e1]
            by_cases e2 : "additionalProperties" = k
            · subst e2; rw [Obj.get_remove_self]; exact .inl rfl
            · rw [Obj.get_remove_ne _ e2]; exact h3 k hk
        · exact h3 k hk
    · intro k hk
      have := (by decide : ∀ k ∈ ["properties", "patternProperties"], k ∉ restKeys ∧ "anyOf" ≠ k ∧
        "required" ≠ k ∧ "oneOf" ≠ k) k hk
      rw [hg4 k this.1 this.2.1, hg3 k this.2.2.1 this.2.2.2]; exact h.names k hk

/-- C50: an optional flattened struct or enum requires nothing: it accepts every object that has none of its
members. -/
theorem C50_optional {D : Dialect} {env : Env} {m o : List (String × Json)} (h : Plain m)
    (ho : ∀ e ∈ o, ¬ Named env m e.1) : Valid D env (flattenInner (.obj m) true) (.obj o) := by
  obtain ⟨m1, e1, h1⟩ := h.expand
  obtain ⟨m2, e2, h2⟩ := h1.optional
  obtain ⟨m3, e3, hs, hg, hr⟩ := get_allowUnknown (m := m2)
  unfold flattenInner
  simp only [if_true]
  rw [e1, e2, e3]
  have hs3 := hs h2.sorted
  have hskip : ∀ k, k ∉ restKeys → immSlot k = .skip → Obj.get m3 k = Obj.get m2 k := by
    intro k hk hsl
    rw [hg k hk, hsl]
    cases Obj.get m2 k <;> simp [atSlot_skip]
  have hannImm : ∀ k ∈ annotations, k ∉ restKeys ∧ immSlot k = .skip := by decide
  have hkeys : ∀ k v, Obj.get m3 k = some v → k ∈ annotations ∨ k ∈ ["type", "properties", "patternProperties",
      "anyOf"] := by
    intro k v hk
    by_cases hkr : k ∈ restKeys
    · rw [hr k hkr] at hk
      split at hk
      · cases hk
      · next hne => rcases h2.rest k hkr with e | e
                    · rw [e] at hk; cases hk
                    · exact absurd e hne
    rw [hg k hkr] at hk
    cases e : Obj.get m2 k with
    | none => rw [e] at hk; cases hk
    | some w =>
      rcases h2.keys k w e with h' | h'
      · exact .inl h'
      · right
        simp only [restKeys, List.mem_cons, List.not_mem_nil, or_false, not_or] at h' hkr ⊢
        rcases h' with h' | h' | h' | h' | h' | h' <;> simp_all
  have hnr : Obj.get m3 "$ref" = none := by
    cases e : Obj.get m3 "$ref" with
    | none => rfl
    | some v => exact absurd (hkeys _ v e) (by decide)
  have hnames : ∀ k ∈ ["properties", "patternProperties"], Obj.get m3 k = Obj.get m k := by
    intro k hk
    have := (by decide : ∀ k ∈ ["properties", "patternProperties"], k ∉ restKeys ∧ immSlot k = .skip) k hk
    rw [hskip k this.1 this.2]; exact h2.names k hk
  rw [valid_get (.inr hnr) hs3]
  intro k v hk
  rcases hkeys k v hk with h' | h'
  · exact entryOk_annotation h' v
  · simp only [List.mem_cons, List.not_mem_nil, or_false] at h'
    rcases h' with rfl | rfl | rfl | rfl
    · rw [hskip _ (by decide) (by decide)] at hk
      rcases h2.type with e | e <;> rw [e] at hk <;> cases hk
      exact .inl rfl
    · intro e he s hs
      refine absurd (.inl ?_) (ho e he)
      rw [hnames _ (by decide)] at hk
      unfold memb Obj.has
      rw [hk]
      show (Obj.get (members v) e.1).isSome = true
      rw [hs]; rfl
    · intro e he p hp hrx
      refine absurd (.inr ⟨p, ?_, hrx⟩) (ho e he)
      rw [hnames _ (by decide)] at hk
      unfold memb
      rw [hk]
      exact hp
    · rw [hg _ (by decide)] at hk
      cases e : Obj.get m2 "anyOf" with
      | none => rw [e] at hk; cases hk
      | some w =>
        obtain ⟨l, rfl, hl⟩ := h2.anyOf w e
        rw [e] at hk
        simp only [Option.map_some, Option.some.injEq] at hk
        have : v = .arr (l.map (atSchema allowUnknown)) := by rw [← hk]; rfl
        subst this
        refine ⟨.obj [], List.mem_map.2 ⟨_, hl, rfl⟩, ?_⟩
        exact valid_emptySchema

/-- The hypothesis of `C50_optional` holds for the schema of a struct, an enum of unit variants, and other enums. -/
example : Plain [("additionalProperties", .bool false), ("properties", .obj [("a", .bool true)]),
    ("required", .arr [.str "a"]), ("type", .str "object")] := by
  refine ⟨by unfold Obj.Sorted; decide, ?_, .inr (.inl rfl), ?_, ?_, .inl rfl, ?_, ?_⟩
  · intro k v h
    right
    have := Obj.get_mem h
    simp only [List.mem_cons, Prod.mk.injEq, List.not_mem_nil, or_false] at this
    rcases this with ⟨rfl, _⟩ | ⟨rfl, _⟩ | ⟨rfl, _⟩ | ⟨rfl, _⟩ <;> decide
  · exact ⟨fun h => absurd h (by decide), fun ⟨l, h⟩ => by cases h⟩
  · intro v h; cases h
  · intro v h; cases h
  · intro k hk
    simp only [restKeys, List.mem_cons, List.not_mem_nil, or_false] at hk
    rcases hk with rfl | rfl
    · exact .inr rfl
    · exact .inl rfl

/-- C50 for optional fields in full: every schema of an object requires nothing afterwards. -/
def C50_optional_Full : Prop :=
  ∀ (D : Dialect) (env : Env) (m o : List (String × Json)), Obj.Sorted m → Obj.get m "type" = some (.str "object") →
    D.refSiblings = true → (∃ i, Valid D env (.obj m) i) → (∀ e ∈ o, ¬ Named env m e.1) →
    Valid D env (flattenInner (.obj m) true) (.obj o)

/-- The schema of a struct that flattens two enums has `allOf`, in which the required names stay. -/
theorem C50_two_enums : flattenInner (.obj [("allOf", .arr [.obj [("oneOf", .arr [.obj [("required", .arr [.str "a"])]])],
      .obj [("oneOf", .arr [.obj [("required", .arr [.str "b"])]])]]), ("type", .str "object")]) true =
    .obj [("allOf", .arr [.obj [("oneOf", .arr [.obj [("required", .arr [.str "a"])]])],
      .obj [("oneOf", .arr [.obj [("required", .arr [.str "b"])]])]]), ("type", .str "object")] := by rfl

/-- The schema of a struct that flattens a tagged and an untagged enum: only the tagged one becomes optional. -/
theorem C50_two_kinds : flattenInner (.obj [("anyOf", .arr [.obj [("required", .arr [.str "a"])]]),
      ("oneOf", .arr [.obj [("required", .arr [.str "b"])]]), ("type", .str "object")]) true =
    .obj [("allOf", .arr [.obj [("anyOf", .arr [.obj [("required", .arr [.str "a"])]])],
      .obj [("anyOf", .arr [.obj [("oneOf", .arr [.obj [("required", .arr [.str "b"])]])], .obj []])]]),
      ("type", .str "object")] := by rfl

theorem C50_optional_full_fails : ¬ C50_optional_Full := by
  intro h
  have := h draft2020 trivialEnv [("allOf", .arr [.obj [("oneOf", .arr [.obj [("required", .arr [.str "a"])]])],
      .obj [("oneOf", .arr [.obj [("required", .arr [.str "b"])]])]]), ("type", .str "object")] []
    (by unfold Obj.Sorted; decide) rfl rfl ⟨.obj [("a", .null), ("b", .null)], by unfold Valid; decide⟩
    (fun e he => by cases he)
  rw [C50_two_enums] at this
  exact absurd this (by unfold Valid; decide)

/-! ### Unit variants -/

/-- Exactly one element of a list without duplicates. -/
theorem countP_eq_one {α : Type} {l : List α} (hl : l.Nodup) {p : α → Bool} :
    l.countP p = 1 ↔ ∃ x ∈ l, p x = true ∧ ∀ y ∈ l, p y = true → y = x := by
  induction l with
  | nil => simp
  | cons a l ih =>
    rw [List.nodup_cons] at hl
    rw [List.countP_cons]
    by_cases ha : p a = true
    · rw [if_pos ha]
      have : l.countP p + 1 = 1 ↔ ∀ y ∈ l, ¬ p y = true := by
        rw [← List.countP_eq_zero]; omega
      rw [this]
      constructor
      · intro h
        refine ⟨a, by simp, ha, ?_⟩
        intro y hy hp
        rcases List.mem_cons.1 hy with rfl | hy
        · rfl
        · exact absurd hp (h y hy)
      · rintro ⟨x, hx, hp, hu⟩ y hy hpy
        have e1 := hu a (by simp) ha
        have e2 := hu y (by simp [hy]) hpy
        rw [e2, ← e1] at hy
        exact hl.1 hy
    · rw [if_neg ha, Nat.add_zero, ih hl.2]
      constructor
      · rintro ⟨x, hx, hp, hu⟩
        refine ⟨x, by simp [hx], hp, ?_⟩
        intro y hy hpy
        rcases List.mem_cons.1 hy with rfl | hy
        · exact absurd hpy ha
        · exact hu y hy hpy
      · rintro ⟨x, hx, hp, hu⟩
        rcases List.mem_cons.1 hx with rfl | hx
        · exact absurd hp ha
        · exact ⟨x, hx, hp, fun y hy => hu y (by simp [hy])⟩

theorem allowUnknown_unit (n : String) : allowUnknown (unitVariantObject n) = unitVariantObject n := by
  unfold unitVariantObject
  show allowUnknown (.obj (Obj.ofList _)) = _
  rw [allowUnknown_eq (.obj _)]
  simp [allowUnknownStep, allowUnknownLocal, dropIfFalse, isFalseAt, mkObj, Obj.ofList, Obj.extend, Obj.insert, tsub,
    Obj.get, immSlot, atSlot]

/-- C50: a flattened enum of unit variants accepts the objects with exactly one of the names as a member that
is null. -/
theorem C50_units {D : Dialect} {env : Env} {m : List (String × Json)} (hm : Obj.Sorted m) {names : List String}
    (hn : names.Nodup) (ht : Obj.get m "type" = some (.str "string"))
    (he : Obj.get m "enum" = some (.arr (names.map .str)))
    (hk : ∀ k v, Obj.get m k = some v → k ∈ annotations ∨ k = "type" ∨ k = "enum") {i : Json} (hi : i.WF) :
    Valid D env (flattenInner (.obj m) false) i ↔
      ∃ o n, i = .obj o ∧ n ∈ names ∧ Obj.get o n = some .null ∧
        ∀ n' ∈ names, Obj.get o n' = some .null → n' = n := by
  have hone : Obj.get m "oneOf" = none := by
    cases e : Obj.get m "oneOf" with
    | none => rfl
    | some v => exact absurd (hk _ v e) (by decide)
  have hx : expandUnitVariants (.obj m) =
      .obj (Obj.insert (Obj.remove (Obj.remove m "enum") "type") "oneOf" (.arr (names.map unitVariantObject))) := by
    have hr : removeUnitVariants (.obj m) =
        (.obj (Obj.remove (Obj.remove m "enum") "type"), some (names.map .str)) := by
      unfold removeUnitVariants
      simp only
      rw [ht, he]; rfl
    unfold expandUnitVariants
    rw [hr]
    simp only [Schema.ensureObject, Obj.entryOr]
    rw [Obj.get_remove_ne _ (by decide), Obj.get_remove_ne _ (by decide), hone]
    have : (names.map Json.str).filterMap Json.asStr? = names := by
      rw [List.filterMap_map]
      exact List.filterMap_some
    rw [this]; rfl
  unfold flattenInner
  simp only [Bool.false_eq_true, if_false]
  rw [hx]
  generalize hm1 : Obj.insert (Obj.remove (Obj.remove m "enum") "type") "oneOf" (.arr (names.map unitVariantObject)) = m1
  obtain ⟨m2, e2, hs, hg, hr⟩ := get_allowUnknown (m := m1)
  rw [e2]
  have hs1 : Obj.Sorted m1 := by
    rw [← hm1]; exact Obj.sorted_insert (Obj.sorted_remove (Obj.sorted_remove hm _) _) _ _
  have hk1 : ∀ k v, Obj.get m1 k = some v → k ∈ annotations ∨ k = "oneOf" := by
    intro k v h
    rw [← hm1] at h
    by_cases e1 : "oneOf" = k
    · exact .inr e1.symm
    rw [Obj.get_insert_ne _ _ e1] at h
    by_cases e2 : "type" = k
    · subst e2; rw [Obj.get_remove_self] at h; cases h
    rw [Obj.get_remove_ne _ e2] at h
    by_cases e3 : "enum" = k
    · subst e3; rw [Obj.get_remove_self] at h; cases h
    rw [Obj.get_remove_ne _ e3] at h
    rcases hk k v h with h' | h' | h'
    · exact .inl h'
    · exact absurd h'.symm e2
    · exact absurd h'.symm e3
  have hk2 : ∀ k v, Obj.get m2 k = some v → k ∈ annotations ∨ k = "oneOf" := by
    intro k v h
    by_cases hkr : k ∈ restKeys
    · rw [hr k hkr] at h
      split at h
      · cases h
      · exact hk1 k v h
    · rw [hg k hkr] at h
      cases e : Obj.get m1 k with
      | none => rw [e] at h; cases h
      | some w => exact hk1 k w e
  have hone2 : Obj.get m2 "oneOf" = some (.arr (names.map unitVariantObject)) := by
    rw [hg _ (by decide), ← hm1, Obj.get_insert_self]
    show some (Json.arr (List.map (atSchema allowUnknown) (names.map unitVariantObject))) = _
    rw [List.map_map]
    congr 2
    refine List.map_congr_left fun n _ => ?_
    show atSchema allowUnknown (unitVariantObject n) = _
    rw [atSchema, if_pos (show isSchema (unitVariantObject n) = true from rfl)]; exact allowUnknown_unit n
  have hnr : Obj.get m2 "$ref" = none := by
    cases e : Obj.get m2 "$ref" with
    | none => rfl
    | some v => exact absurd (hk2 _ v e) (by decide)
  rw [valid_get (.inr hnr) (hs hs1)]
  have hunit : ∀ n, (den D env (unitVariantObject n) i).ok = true ↔ ∃ o, i = .obj o ∧ Obj.get o n = some .null := by
    intro n
    refine (valid_oneProperty (D := D) (env := env) (k := n) (s := nullSchema) hi).trans ?_
    unfold HasMember
    constructor
    · rintro ⟨o, x, rfl, hx, hv⟩
      have : x = .null := by
        have := (valid_typeOnly_iff _).1 (show Valid D env (typeOnly "null") x from hv)
        revert this
        cases x <;> simp [typeMatch, typeName]
      exact ⟨o, rfl, this ▸ hx⟩
    · rintro ⟨o, rfl, hx⟩
      exact ⟨o, .null, rfl, hx, (valid_typeOnly_iff _).2 rfl⟩
  have hcount : (names.map unitVariantObject).countP (fun s => (den D env s i).ok) = 1 ↔
      ∃ o n, i = .obj o ∧ n ∈ names ∧ Obj.get o n = some .null ∧
        ∀ n' ∈ names, Obj.get o n' = some .null → n' = n := by
    rw [List.countP_map, countP_eq_one hn]
    constructor
    · rintro ⟨n, hn, hp, hu⟩
      obtain ⟨o, rfl, ho⟩ := (hunit n).1 hp
      exact ⟨o, n, rfl, hn, ho, fun n' hn' ho' => hu n' hn' ((hunit n').2 ⟨o, rfl, ho'⟩)⟩
    · rintro ⟨o, n, rfl, hn, ho, hu⟩
      refine ⟨n, hn, (hunit n).2 ⟨o, rfl, ho⟩, fun n' hn' hp => ?_⟩
      obtain ⟨o', eo, ho'⟩ := (hunit n').1 hp
      cases eo
      exact hu n' hn' ho'
  constructor
  · intro h
    exact hcount.1 (h _ _ hone2)
  · intro h k v hk
    rcases hk2 k v hk with h' | rfl
    · exact entryOk_annotation h' v
    · rw [hone2] at hk; cases hk
      exact hcount.2 h

/-- C50: the unit variants of an enum that also has others become objects at the end of `oneOf`. -/
theorem C50_units_mixed {m first : List (String × Json)} {names : List String} {rest : List Json}
    (ht : (Obj.get m "type").bind Json.asStr? ≠ some "string")
    (ho : Obj.get m "oneOf" = some (.arr (.obj first :: rest)))
    (h1 : Obj.get first "type" = some (.str "string")) (h2 : Obj.get first "enum" = some (.arr (names.map .str))) :
    ∃ m', flattenInner (.obj m) false = .obj m' ∧ Obj.get m' "oneOf" =
      some (.arr (rest.map (atSchema allowUnknown) ++ names.map unitVariantObject)) := by
  have hr : removeUnitVariants (.obj m) = (.obj (Obj.insert m "oneOf" (.arr rest)), some (names.map .str)) := by
    have hf : ((Obj.get m "type").bind Json.asStr? == some "string") = false := by simpa using ht
    unfold removeUnitVariants
    simp only [hf, Bool.false_eq_true, if_false]
    rw [ho]
    simp only
    rw [h1, h2]; rfl
  have hx : expandUnitVariants (.obj m) = .obj (Obj.insert (Obj.insert m "oneOf" (.arr rest)) "oneOf"
      (.arr (rest ++ names.map unitVariantObject))) := by
    unfold expandUnitVariants
    rw [hr]
    simp only [Schema.ensureObject, Obj.entryOr]
    rw [Obj.get_insert_self]
    have : (names.map Json.str).filterMap Json.asStr? = names := by
      rw [List.filterMap_map]
      exact List.filterMap_some
    rw [this]; rfl
  unfold flattenInner
  simp only [Bool.false_eq_true, if_false]
  rw [hx]
  obtain ⟨m2, e2, -, hg, -⟩ := get_allowUnknown (m := Obj.insert (Obj.insert m "oneOf" (.arr rest)) "oneOf"
      (.arr (rest ++ names.map unitVariantObject)))
  refine ⟨m2, e2, ?_⟩
  rw [hg _ (by decide), Obj.get_insert_self]
  show some (Json.arr (List.map (atSchema allowUnknown) (rest ++ names.map unitVariantObject))) = _
  rw [List.map_append, List.map_map]
  congr 3
  refine List.map_congr_left fun n _ => ?_
  show atSchema allowUnknown (unitVariantObject n) = _
  rw [atSchema, if_pos (show isSchema (unitVariantObject n) = true from rfl)]; exact allowUnknown_unit n

example : flattenInner (.obj [("enum", .arr [.str "A", .str "B"]), ("type", .str "string")]) false =
    .obj [("oneOf", .arr [unitVariantObject "A", unitVariantObject "B"])] := by rfl

example : flattenInner (.obj [("oneOf", .arr [.obj [("enum", .arr [.str "A"]), ("type", .str "string")],
    newExternalVariant "B" (.bool true)])]) false =
    .obj [("oneOf", .arr [.obj [("properties", .obj [("B", .bool true)]), ("required", .arr [.str "B"]),
      ("type", .str "object")], unitVariantObject "A"])] := by rfl

/-- The hypotheses of `C50_units` hold for an enum with the variants `A` and `B`. -/
example {i : Json} (hi : i.WF) : Valid draft2020 trivialEnv
    (flattenInner (.obj [("enum", .arr [.str "A", .str "B"]), ("type", .str "string")]) false) i ↔
      ∃ o n, i = .obj o ∧ n ∈ ["A", "B"] ∧ Obj.get o n = some .null ∧
        ∀ n' ∈ ["A", "B"], Obj.get o n' = some .null → n' = n :=
  C50_units (by unfold Obj.Sorted; decide) (by decide) rfl rfl (fun k v h => by
    have := Obj.get_mem h
    simp only [List.mem_cons, Prod.mk.injEq, List.not_mem_nil, or_false] at this
    rcases this with ⟨rfl, _⟩ | ⟨rfl, _⟩ <;> simp) hi

end Verif
