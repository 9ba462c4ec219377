import Verif.ValidationAttrs
import Verif.Props.Impls

/-!
# C51: validation attributes
-/

namespace Verif

namespace Spec

/-- The `type` of the schema includes the type `ty`. -/
def TypeIncludes (s : Json) (ty : String) : Prop :=
  ∃ m t, s = .obj m ∧ Obj.get m "type" = some t ∧ (t = .str ty ∨ ∃ l, t = .arr l ∧ Json.str ty ∈ l)

/-- The schema is one for which a validation of values of type `ty` makes sense: integers are numbers. -/
def Concerns (s : Json) (ty : String) : Prop :=
  TypeIncludes s ty ∨ (ty = "number" ∧ TypeIncludes s "integer")

/-- The bounds that are there already are implied by the new one. -/
def Tightens (env : Env) (m : List (String × Json)) (k : String) (v : Json) : Prop :=
  ∀ old, Obj.get m k = some old → ∀ x, simple env k v x = true → simple env k old x = true

end Spec

open Spec

variable {D : Dialect} {env : Env} {i : Json}

theorem hasType_iff (s : Json) (ty : String) : Schema.hasType s ty = true ↔ TypeIncludes s ty := by
  unfold Schema.hasType TypeIncludes
  cases s with
  | obj m =>
    simp only [Schema.get, Json.obj.injEq]
    cases hg : Obj.get m "type" with
    | none =>
      simp only [Bool.false_eq_true, false_iff]
      rintro ⟨m', t, rfl, ht, _⟩
      rw [hg] at ht; cases ht
    | some t =>
      constructor
      · intro h
        refine ⟨m, t, rfl, hg, ?_⟩
        cases t with
        | arr l =>
          simp only [List.any_eq_true, beq_iff_eq] at h
          obtain ⟨x, hx, rfl⟩ := h
          exact .inr ⟨l, rfl, hx⟩
        | str x => simp only [beq_iff_eq] at h; exact .inl (by rw [h])
        | _ => simp at h
      · rintro ⟨m', t', rfl, ht, h⟩
        rw [hg, Option.some.injEq] at ht
        subst ht
        rcases h with rfl | ⟨l, rfl, hl⟩
        · simp
        · simpa using hl
  | _ => simp [Schema.get]

theorem concerns_iff (s : Json) (ty : String) :
    (Schema.hasType s ty || (ty == "number" && Schema.hasType s "integer")) = true ↔ Concerns s ty := by
  rw [Bool.or_eq_true, Bool.and_eq_true, hasType_iff, hasType_iff, beq_iff_eq]
  rfl

theorem Spec.TypeIncludes.obj {s : Json} {ty : String} (h : TypeIncludes s ty) : ∃ m, s = .obj m := by
  obtain ⟨m, _, h, _⟩ := h
  exact ⟨m, h⟩

theorem Spec.Concerns.obj {s : Json} {ty : String} (h : Concerns s ty) : ∃ m, s = .obj m := by
  rcases h with h | ⟨_, h⟩ <;> exact h.obj

/-- C51: the keyword is set if the type fits, and nothing else is changed. -/
theorem C51_sets {s : Json} {ty : String} (h : Concerns s ty) (k : String) (v : Json) :
    ∃ m, s = .obj m ∧ insertValidation s ty k v = .obj (Obj.insert m k v) := by
  obtain ⟨m, rfl⟩ := h.obj
  refine ⟨m, rfl, ?_⟩
  unfold insertValidation
  rw [if_pos ((concerns_iff _ _).2 h)]
  rfl

/-- C51: nothing is changed if the type does not fit. -/
theorem C51_unchanged {s : Json} {ty : String} (h : ¬ Concerns s ty) (k : String) (v : Json) :
    insertValidation s ty k v = s := by
  unfold insertValidation
  rw [if_neg (fun hc => h ((concerns_iff _ _).1 hc))]

/-- The keyword is set iff the type fits, for a value that is not there already. -/
theorem C51_iff {s : Json} {ty k : String} {v : Json} (h : Schema.get s k ≠ some v) :
    Schema.get (insertValidation s ty k v) k = some v ↔ Concerns s ty := by
  constructor
  · intro hg
    by_contra hc
    rw [C51_unchanged hc] at hg
    exact h hg
  · intro hc
    obtain ⟨m, rfl, hm⟩ := C51_sets hc k v
    rw [hm]
    exact Obj.get_insert_self _ _ _

theorem simpleKeys_context : ∀ k ∈ simpleKeys, ∀ c ∈ contextKeys, c ≠ k := by decide

/-- C51: exactly the instances that are valid without the keyword and meet the bound are accepted. -/
theorem C51_overwrites {m : List (String × Json)} {ty k : String} {v : Json} (hk : k ∈ simpleKeys)
    (hm : Obj.Sorted m) (hr : D.refSiblings = true ∨ Obj.get m "$ref" = none) (h : Concerns (.obj m) ty) :
    Valid D env (insertValidation (.obj m) ty k v) i ↔
      Valid D env (.obj (Obj.remove m k)) i ∧ simple env k v i = true := by
  obtain ⟨m', hm', he⟩ := C51_sets h k v
  cases hm'
  rw [he, valid_insert (simpleKeys_context k hk) hm hr, entryOk_simple hk]

theorem valid_simple_split {m : List (String × Json)} {k : String} {old : Json} (hk : k ∈ simpleKeys)
    (hm : Obj.Sorted m) (hr : D.refSiblings = true ∨ Obj.get m "$ref" = none) (ho : Obj.get m k = some old) :
    Valid D env (.obj m) i ↔ Valid D env (.obj (Obj.remove m k)) i ∧ simple env k old i = true := by
  have hctx := simpleKeys_context k hk
  have hins : Obj.insert m k old = m := by
    apply Obj.ext_sorted (Obj.sorted_insert hm _ _) hm
    intro q
    by_cases h : k = q
    · subst h; rw [Obj.get_insert_self, ho]
    · rw [Obj.get_insert_ne _ _ h]
  have := valid_insert (D := D) (env := env) (i := i) hctx hm hr old
  rw [hins] at this
  rw [this, entryOk_simple hk]

/-- The full semantic part of C51. -/
def C51_Full (D : Dialect) (env : Env) : Prop :=
  ∀ (m : List (String × Json)) (ty k : String) (v i : Json), k ∈ simpleKeys → Obj.Sorted m →
    (Valid D env (insertValidation (.obj m) ty k v) i ↔
      Valid D env (.obj m) i ∧ (Concerns (.obj m) ty → simple env k v i = true))

/-- C51: the schema accepts exactly the previously accepted instances that meet the bound, provided that a bound
that is overwritten is implied by the new one. Missing: bounds that are replaced by looser ones, and siblings of
`$ref` where they are ignored (`C51_full_fails`). -/
theorem C51_partial {m : List (String × Json)} {ty k : String} {v : Json} (hk : k ∈ simpleKeys)
    (hm : Obj.Sorted m) (hr : D.refSiblings = true ∨ Obj.get m "$ref" = none) (ht : Tightens env m k v) :
    Valid D env (insertValidation (.obj m) ty k v) i ↔
      Valid D env (.obj m) i ∧ (Concerns (.obj m) ty → simple env k v i = true) := by
  by_cases h : Concerns (.obj m) ty
  · rw [C51_overwrites hk hm hr h]
    simp only [h, true_implies]
    cases ho : Obj.get m k with
    | none => rw [Obj.remove_of_get_none ho]
    | some old =>
      rw [valid_simple_split hk hm hr ho]
      constructor
      · rintro ⟨h1, h2⟩; exact ⟨⟨h1, ht old ho i h2⟩, h2⟩
      · rintro ⟨⟨h1, _⟩, h2⟩; exact ⟨h1, h2⟩
  · rw [C51_unchanged h]
    simp [h]

/-- `range(max = 1000)` on a `u8` replaces the bound 255: the schema accepts 300, which it did not before. -/
theorem C51_full_fails (env : Env) : ¬ C51_Full draft2020 env := by
  intro h
  have := (h [("maximum", .num (.int 255)), ("minimum", .num (.int 0)), ("type", .str "integer")] "number" "maximum"
    (.num (.int 1000)) (.num (.int 300)) (by decide) (by unfold Obj.Sorted; decide)).1
  have h1 : Valid draft2020 env (insertValidation (.obj [("maximum", .num (.int 255)), ("minimum", .num (.int 0)),
      ("type", .str "integer")]) "number" "maximum" (.num (.int 1000))) (.num (.int 300)) := by
    unfold Valid; rfl
  have h2 : (den draft2020 env (.obj [("maximum", .num (.int 255)), ("minimum", .num (.int 0)),
      ("type", .str "integer")]) (.num (.int 300))).ok = false := by rfl
  have h3 := (this h1).1
  unfold Valid at h3
  rw [h2] at h3
  cases h3

/-- Before draft 2019-09 the siblings of `$ref` are ignored, and so is the bound. -/
theorem C51_ref_ignores : ¬ C51_Full draft07 trivialEnv := by
  intro h
  have h1 : Valid draft07 trivialEnv (insertValidation (.obj [("$ref", .str "#/definitions/A"),
      ("type", .str "string")]) "string" "minLength" (.num (.int 1))) (.str "") := by
    unfold Valid; rfl
  have := ((h [("$ref", .str "#/definitions/A"), ("type", .str "string")] "string" "minLength" (.num (.int 1)) (.str "")
    (by decide) (by unfold Obj.Sorted; decide)).1 h1).2
    (.inl ⟨_, _, rfl, rfl, .inl rfl⟩)
  revert this
  simp only [simple, onLen, strLen, JNum.val, imp_false]
  decide

/-! ## `inner(...)` -/

theorem valid_get {m : List (String × Json)} (h : D.refSiblings = true ∨ Obj.get m "$ref" = none)
    (hm : Obj.Sorted m) :
    Valid D env (.obj m) i ↔ ∀ k v, Obj.get m k = some v → EntryOk D env m i k v := by
  rw [valid_entries h (Obj.sorted_nodup hm)]
  constructor
  · intro he k v hg
    exact he (k, v) (Obj.get_mem hg)
  · rintro he ⟨k, v⟩ hkv
    exact he k v (Obj.get_of_mem_sorted hm hkv)

/-- Changing the schema of the items. -/
theorem valid_modify_items {m : List (String × Json)} {s : Json} {f : Json → Json} {P : Json → Prop}
    (hm : Obj.Sorted m) (hr : D.refSiblings = true ∨ Obj.get m "$ref" = none)
    (hp : Obj.get m "prefixItems" = none) (hg : Obj.get m "items" = some s) (hs : IsSchema s)
    (hfs : IsSchema (f s)) (hf : ∀ x, Valid D env (f s) x ↔ Valid D env s x ∧ P x) :
    Valid D env (.obj (Obj.modify m "items" f)) i ↔ Valid D env (.obj m) i ∧ ∀ x ∈ elems i, P x := by
  have hne : ∀ k, k ≠ "items" → Obj.get (Obj.modify m "items" f) k = Obj.get m k := by
    intro k hk; rw [Obj.get_modify, if_neg (Ne.symm hk)]
  have hself : Obj.get (Obj.modify m "items" f) "items" = some (f s) := by rw [Obj.get_modify, if_pos rfl, hg]; rfl
  have hcongr : ∀ k v, EntryOk D env (Obj.modify m "items" f) i k v ↔ EntryOk D env m i k v := by
    intro k v
    apply entryOk_congr_items
    · intro k _ hk; exact hne k hk
    · intro ss
      rw [hself, hg]
      constructor
      · intro h
        rw [Option.some.injEq] at h
        rw [h] at hfs; cases hfs
      · intro h
        rw [Option.some.injEq] at h
        rw [h] at hs; cases hs
  rw [valid_get (by rw [hne "$ref" (by decide)]; exact hr) (Obj.sorted_modify hm _ _), valid_get hr hm]
  simp only [hcongr]
  have hitems := fun t (ht : IsSchema t) => entryOk_items (D := D) (env := env) (i := i) (m := m) ht hp
  constructor
  · intro h
    have h1 := (hitems _ hfs).1 (h "items" _ hself)
    refine ⟨?_, fun x hx => ((hf x).1 (h1 x hx)).2⟩
    intro k v hkv
    by_cases hk : k = "items"
    · subst hk
      rw [hg, Option.some.injEq] at hkv
      subst hkv
      exact (hitems _ hs).2 fun x hx => ((hf x).1 (h1 x hx)).1
    · exact h k v (by rw [hne k hk]; exact hkv)
  · rintro ⟨h, hP⟩ k v hkv
    by_cases hk : k = "items"
    · subst hk
      rw [hself, Option.some.injEq] at hkv
      subst hkv
      exact (hitems _ hfs).2 fun x hx => (hf x).2 ⟨(hitems _ hs).1 (h "items" _ hg) x hx, hP x hx⟩
    · rw [hne k hk] at hkv
      exact h k v hkv

/-- `apply_inner_validation`: the validation applies to every element, if the schema has a schema for all
elements. -/
theorem C51_inner {m : List (String × Json)} {s : Json} {f : Json → Json} {P : Json → Prop}
    (hm : Obj.Sorted m) (hr : D.refSiblings = true ∨ Obj.get m "$ref" = none)
    (hp : Obj.get m "prefixItems" = none) (hg : Obj.get m "items" = some s) (hs : IsSchema s)
    (hfs : IsSchema (f s)) (hf : ∀ x, Valid D env (f s) x ↔ Valid D env s x ∧ P x) :
    Valid D env (applyInnerValidation (.obj m) f) i ↔ Valid D env (.obj m) i ∧ ∀ x ∈ elems i, P x := by
  unfold applyInnerValidation Schema.getMut
  have hb : isSchema s = true := by cases hs <;> rfl
  apply valid_modify_items hm hr hp hg hs
  · simp only [hb, if_true]; exact hfs
  · simp only [hb, if_true]; exact hf

/-- Without a schema for the elements nothing is changed. -/
theorem C51_inner_unchanged {s : Json} {f : Json → Json}
    (h : ∀ t, Schema.get s "items" = some t → ¬ IsSchema t) : applyInnerValidation s f = s := by
  unfold applyInnerValidation Schema.getMut
  cases s with
  | obj m =>
    simp only [Schema.get] at h
    rw [Json.obj.injEq]
    induction m with
    | nil => rfl
    | cons e m ih =>
      obtain ⟨k, v⟩ := e
      rw [Obj.modify]
      rw [Obj.get_cons] at h
      by_cases hk : k = "items"
      · rw [if_pos hk]
        rw [if_pos hk] at h
        have := h v rfl
        have hb : isSchema v = false := by
          cases v with
          | obj m => exact absurd (.obj m) this
          | bool b => exact absurd (.bool b) this
          | _ => rfl
        simp [hb]
      · rw [if_neg hk]
        rw [if_neg hk] at h
        rw [ih h]
  | _ => rfl

/-! ## All validation attributes of a field -/

namespace Spec

/-- The bound `v` for the keyword `k`, if there is one, is met by the instances of schemas of type `ty`. -/
def MeetsBound (env : Env) (s : Json) (ty k : String) (v : Option Json) (i : Json) : Prop :=
  ∀ x, v = some x → Concerns s ty → simple env k x i = true

/-- The instance meets the bounds of the attributes. -/
def Meets (env : Env) : ValidationAttrs → Json → Json → Prop
  | .mk length range pattern regex contains _ inner, s, i =>
    MeetsBound env s "string" "minLength" (length.bind fun l => l.min.or l.equal) i ∧
    MeetsBound env s "string" "maxLength" (length.bind fun l => l.max.or l.equal) i ∧
    MeetsBound env s "array" "minItems" (length.bind fun l => l.min.or l.equal) i ∧
    MeetsBound env s "array" "maxItems" (length.bind fun l => l.max.or l.equal) i ∧
    MeetsBound env s "number" "minimum" (range.bind fun l => l.min.or l.equal) i ∧
    MeetsBound env s "number" "maximum" (range.bind fun l => l.max.or l.equal) i ∧
    MeetsBound env s "string" "pattern" (((regex.or pattern).or
      (contains.map fun c => String.ofList (regexEscape c.toList))).map .str) i ∧
    match inner with
    | none => True
    | some a => ∀ t, Schema.get s "items" = some t → IsSchema t → ∀ x ∈ elems i, Meets env a t x

/-- The attributes and the schema are such that no bound of the schema is lost. -/
def Fits (D : Dialect) (env : Env) : ValidationAttrs → Json → Prop
  | .mk length range pattern regex contains _ inner, s =>
    ∃ m, s = .obj m ∧ Obj.Sorted m ∧ (D.refSiblings = true ∨ Obj.get m "$ref" = none) ∧
    (∀ v ∈ length.bind fun l => l.min.or l.equal, Tightens env m "minLength" v ∧ Tightens env m "minItems" v) ∧
    (∀ v ∈ length.bind fun l => l.max.or l.equal, Tightens env m "maxLength" v ∧ Tightens env m "maxItems" v) ∧
    (∀ v ∈ range.bind fun l => l.min.or l.equal, Tightens env m "minimum" v) ∧
    (∀ v ∈ range.bind fun l => l.max.or l.equal, Tightens env m "maximum" v) ∧
    (∀ v ∈ (regex.or pattern).or (contains.map fun c => String.ofList (regexEscape c.toList)),
      Tightens env m "pattern" (.str v)) ∧
    (regex.or pattern = none ∨ contains = none) ∧
    match inner with
    | none => True
    | some a => Obj.get m "prefixItems" = none ∧
      ∀ t, Obj.get m "items" = some t → IsSchema t → Fits D env a t

end Spec

/-- The keywords that are written. -/
def boundKeys : List String :=
  ["minLength", "maxLength", "minItems", "maxItems", "minimum", "maximum", "pattern"]

/-- `s'` is `s` with entries for keys of `W` written, and accepts the instances of `s` that satisfy `P`. -/
structure Written (D : Dialect) (env : Env) (m : List (String × Json)) (W : List String) (P : Json → Prop)
    (s' : Json) : Prop where
  ex : ∃ m', s' = .obj m' ∧ Obj.Sorted m' ∧ ∀ k, k ∉ W → Obj.get m' k = Obj.get m k
  valid : ∀ i, Valid D env s' i ↔ Valid D env (.obj m) i ∧ P i

theorem typeIncludes_congr {m m' : List (String × Json)} (h : Obj.get m "type" = Obj.get m' "type") (ty : String) :
    TypeIncludes (.obj m) ty ↔ TypeIncludes (.obj m') ty := by
  unfold TypeIncludes
  simp only [Json.obj.injEq]
  constructor
  · rintro ⟨_, t, rfl, ht, h2⟩; exact ⟨_, t, rfl, h ▸ ht, h2⟩
  · rintro ⟨_, t, rfl, ht, h2⟩; exact ⟨_, t, rfl, h ▸ ht, h2⟩

theorem concerns_congr {m m' : List (String × Json)} (h : Obj.get m "type" = Obj.get m' "type") (ty : String) :
    Concerns (.obj m) ty ↔ Concerns (.obj m') ty := by
  unfold Concerns
  rw [typeIncludes_congr h, typeIncludes_congr h]

variable {m : List (String × Json)} {W : List String} {P : Json → Prop} {s' : Json}

theorem Written.bound (h : Written D env m W P s') (hr : D.refSiblings = true ∨ Obj.get m "$ref" = none)
    (hW : "type" ∉ W ∧ "$ref" ∉ W) {ty k : String} (hk : k ∈ simpleKeys) (hkW : k ∉ W) (v : Option Json)
    (ht : ∀ x ∈ v, Tightens env m k x) :
    Written D env m (k :: W) (fun i => P i ∧ MeetsBound env (.obj m) ty k v i)
      (runMutators (v.elim [] fun x => [fun s => insertValidation s ty k x]) s') := by
  obtain ⟨⟨m', rfl, hs, hget⟩, hv⟩ := h
  cases v with
  | none =>
    refine ⟨⟨m', rfl, hs, fun q hq => hget q fun h => hq (List.mem_cons_of_mem _ h)⟩, ?_⟩
    intro i
    rw [and_iff_left (show MeetsBound env (.obj m) ty k none i from fun x hx => by cases hx)]
    exact hv i
  | some x =>
    change Written D env m (k :: W) _ (insertValidation (.obj m') ty k x)
    have hr' : D.refSiblings = true ∨ Obj.get m' "$ref" = none := by rw [hget _ hW.2]; exact hr
    have hc : Concerns (.obj m') ty ↔ Concerns (.obj m) ty := concerns_congr (hget _ hW.1) ty
    constructor
    · by_cases hcc : Concerns (.obj m') ty
      · obtain ⟨m'', hm'', he⟩ := C51_sets hcc k x
        cases hm''
        refine ⟨_, he, Obj.sorted_insert hs _ _, ?_⟩
        intro q hq
        rw [List.mem_cons, not_or] at hq
        rw [Obj.get_insert_ne _ _ (Ne.symm hq.1), hget q hq.2]
      · rw [C51_unchanged hcc]
        exact ⟨m', rfl, hs, fun q hq => hget q fun h => hq (List.mem_cons_of_mem _ h)⟩
    · intro i
      rw [C51_partial hk hs hr' (fun old ho => ht x rfl old (by rw [← hget _ hkW]; exact ho)), hv i, hc]
      unfold MeetsBound
      simp only [Option.some.injEq, forall_eq', and_assoc]

theorem runMutators_append (a b : List (Json → Json)) (s : Json) :
    runMutators (a ++ b) s = runMutators b (runMutators a s) := by
  unfold runMutators; rw [List.foldl_append]

theorem lengthOrRange_bind (l : Option LengthOrRange) (ty suffix : String) :
    (l.elim [] fun l => lengthOrRangeMutators l ty suffix) =
    ((l.bind fun l => l.min.or l.equal).elim [] fun x =>
      [fun s => insertValidation s ty ("min" ++ suffix) x]) ++
    ((l.bind fun l => l.max.or l.equal).elim [] fun x =>
      [fun s => insertValidation s ty ("max" ++ suffix) x]) := by
  cases l <;> rfl

/-- The schema after all validation attributes accepts exactly the instances that it accepted before and that
meet the bounds, including those for the elements of arrays. -/
theorem C51_attrs {a : ValidationAttrs} {s : Json} (h : Fits D env a s) :
    IsSchema (runMutators a.mutators s) ∧
    ∀ i, Valid D env (runMutators a.mutators s) i ↔ Valid D env s i ∧ Meets env a s i := by
  match a, h with
  | .mk length range pattern regex contains format inner, h =>
    unfold Fits at h
    obtain ⟨m, rfl, hm, hr, hminL, hmaxL, hmin, hmax, hpat, hexc, hin⟩ := h
    have w0 : Written D env m [] (fun _ => True) (.obj m) := ⟨⟨m, rfl, hm, fun _ _ => rfl⟩, by simp⟩
    have w1 := w0.bound hr (by simp) (ty := "string") (k := "minLength") (by decide) (by simp) _
      fun x hx => (hminL x hx).1
    have w2 := w1.bound hr (by decide) (ty := "string") (k := "maxLength") (by decide) (by decide) _
      fun x hx => (hmaxL x hx).1
    have w3 := w2.bound hr (by decide) (ty := "array") (k := "minItems") (by decide) (by decide) _
      fun x hx => (hminL x hx).2
    have w4 := w3.bound hr (by decide) (ty := "array") (k := "maxItems") (by decide) (by decide) _
      fun x hx => (hmaxL x hx).2
    have w5 := w4.bound hr (by decide) (ty := "number") (k := "minimum") (by decide) (by decide) _ hmin
    have w6 := w5.bound hr (by decide) (ty := "number") (k := "maximum") (by decide) (by decide) _ hmax
    have w7 := w6.bound hr (by decide) (ty := "string") (k := "pattern") (by decide) (by decide)
      (((regex.or pattern).or (contains.map fun c => String.ofList (regexEscape c.toList))).map .str)
      (by
        intro x hx
        obtain ⟨y, hy, rfl⟩ := Option.map_eq_some_iff.1 hx
        exact hpat y hy)
    have e1 : (ValidationAttrs.mk length range pattern regex contains format inner).mutators =
        ((length.bind fun l => l.min.or l.equal).elim [] fun x =>
          [fun s => insertValidation s "string" "minLength" x]) ++
        (((length.bind fun l => l.max.or l.equal).elim [] fun x =>
          [fun s => insertValidation s "string" "maxLength" x]) ++
        (((length.bind fun l => l.min.or l.equal).elim [] fun x =>
          [fun s => insertValidation s "array" "minItems" x]) ++
        (((length.bind fun l => l.max.or l.equal).elim [] fun x =>
          [fun s => insertValidation s "array" "maxItems" x]) ++
        (((range.bind fun l => l.min.or l.equal).elim [] fun x =>
          [fun s => insertValidation s "number" "minimum" x]) ++
        (((range.bind fun l => l.max.or l.equal).elim [] fun x =>
          [fun s => insertValidation s "number" "maximum" x]) ++
        (((((regex.or pattern).or (contains.map fun c => String.ofList (regexEscape c.toList))).map Json.str).elim [] fun x =>
          [fun s => insertValidation s "string" "pattern" x]) ++
        ((format.elim [] fun f => [fun s => Schema.put s "format" (.str f.schemaStr)]) ++
        (inner.elim [] fun a => [fun s => applyInnerValidation s (runMutators a.mutators)])))))))) := by
      conv => lhs; unfold ValidationAttrs.mutators
      have hl : (length.elim [] fun l => lengthOrRangeMutators l "string" "Length" ++
            lengthOrRangeMutators l "array" "Items") =
          (length.elim [] fun l => lengthOrRangeMutators l "string" "Length") ++
            (length.elim [] fun l => lengthOrRangeMutators l "array" "Items") := by
        cases length <;> rfl
      have hp : ((regex.or pattern).elim [] fun p => [fun s => insertValidation s "string" "pattern" (.str p)]) ++
          (contains.elim [] fun c => [fun s => mustContain s c]) =
          ((((regex.or pattern).or (contains.map fun c => String.ofList (regexEscape c.toList))).map Json.str).elim []
            fun x => [fun s => insertValidation s "string" "pattern" x]) := by
        rcases hexc with he | he
        · rw [he]
          cases contains <;> rfl
        · rw [he]
          cases regex.or pattern <;> rfl
      rw [hl, lengthOrRange_bind, lengthOrRange_bind, lengthOrRange_bind, ← hp]
      simp only [List.append_assoc]
      cases inner with
      | none => rfl
      | some a =>
        simp only [Option.elim_some, show "min" ++ "Length" = "minLength" from rfl,
          show "max" ++ "Length" = "maxLength" from rfl, show "min" ++ "Items" = "minItems" from rfl,
          show "max" ++ "Items" = "maxItems" from rfl, show "min" ++ "imum" = "minimum" from rfl,
          show "max" ++ "imum" = "maximum" from rfl]
    rw [e1]
    simp only [runMutators_append]
    revert w7
    generalize runMutators _ (runMutators _ (runMutators _ (runMutators _ (runMutators _ (runMutators _
      (runMutators _ (Json.obj m))))))) = s7
    intro w7
    obtain ⟨⟨m7, rfl, hs7, hg7⟩, hv7⟩ := w7
    have w8 : ∃ m8, runMutators (format.elim [] fun f => [fun s => Schema.put s "format" (.str f.schemaStr)])
          (.obj m7) = .obj m8 ∧ Obj.Sorted m8 ∧
        (∀ k, k ∉ "format" :: boundKeys → Obj.get m8 k = Obj.get m k) ∧
        ∀ i, Valid D env (.obj m8) i ↔ Valid D env (.obj m7) i := by
      have hb : ∀ k, k ∉ "format" :: boundKeys → Obj.get m7 k = Obj.get m k := by
        intro k hk
        refine hg7 k ?_
        intro hc
        apply hk
        exact (by decide : ∀ k ∈ (["pattern", "maximum", "minimum", "maxItems", "minItems", "maxLength",
          "minLength"] : List String), k ∈ "format" :: boundKeys) k hc
      cases format with
      | none => exact ⟨m7, rfl, hs7, hb, fun i => Iff.rfl⟩
      | some f =>
        refine ⟨Obj.insert m7 "format" (.str f.schemaStr), rfl, Obj.sorted_insert hs7 _ _, ?_, ?_⟩
        · intro k hk
          rw [Obj.get_insert_ne _ _ (fun h => hk (by rw [← h]; simp)), hb k hk]
        · intro i
          apply valid_insert_annotation (by decide) hs7
          rw [hg7 _ (by decide)]
          exact hr
    obtain ⟨m8, he8, hs8, hg8, hv8⟩ := w8
    rw [he8]
    cases inner with
    | none =>
      refine ⟨.obj m8, ?_⟩
      intro i
      change Valid D env (.obj m8) i ↔ _
      rw [hv8, hv7]
      unfold Meets
      simp only [true_and, and_true, and_assoc]
    | some a' =>
      change IsSchema (applyInnerValidation (.obj m8) (runMutators a'.mutators)) ∧ _
      refine ⟨.obj _, ?_⟩
      intro i
      change Valid D env (applyInnerValidation (.obj m8) (runMutators a'.mutators)) i ↔ _
      obtain ⟨hpre, hitems⟩ := hin
      have hg : ∀ t, Obj.get m8 "items" = some t → Obj.get m "items" = some t := by
        intro t ht; rw [← hg8 _ (by decide)]; exact ht
      have hval : Valid D env (applyInnerValidation (.obj m8) (runMutators a'.mutators)) i ↔
          Valid D env (.obj m8) i ∧
            ∀ t, Obj.get m "items" = some t → IsSchema t → ∀ x ∈ elems i, Meets env a' t x := by
        by_cases hex : ∃ t, Obj.get m "items" = some t ∧ IsSchema t
        · obtain ⟨t, ht, hst⟩ := hex
          obtain ⟨hs1, hv1⟩ := C51_attrs (hitems t ht hst)
          rw [C51_inner (P := Meets env a' t) hs8 (by rw [hg8 _ (by decide)]; exact hr)
            (by rw [hg8 _ (by decide)]; exact hpre) (by rw [hg8 _ (by decide)]; exact ht) hst hs1 hv1]
          apply and_congr_right
          intro _
          constructor
          · intro h t' ht' _
            rw [ht, Option.some.injEq] at ht'
            subst ht'
            exact h
          · intro h; exact h t ht hst
        · rw [C51_inner_unchanged (s := .obj m8) (fun t ht hst => hex ⟨t, hg t ht, hst⟩)]
          refine (and_iff_left ?_).symm
          intro t ht hst
          exact absurd ⟨t, ht, hst⟩ hex
      rw [hval, hv8, hv7]
      conv => rhs; unfold Meets
      simp only [true_and, and_assoc]
      exact Iff.rfl

/-- `#[schemars(length(min = 1), inner(range(min = 3)))] Vec<u64>`. -/
example : Fits draft2020 trivialEnv
    (.mk (some ⟨some (.num (.int 1)), none, none⟩) none none none none none
      (some (.mk none (some ⟨some (.num (.int 3)), none, none⟩) none none none none none)))
    (.obj [("items", .obj [("format", .str "uint64"), ("minimum", .num (.int 0)), ("type", .str "integer")]),
      ("type", .str "array")]) := by
  refine ⟨_, rfl, by unfold Obj.Sorted; decide, .inl rfl, ?_, ?_, ?_, ?_, ?_, .inl rfl, rfl, ?_⟩
  · intro v hv
    exact ⟨fun _ h => by simp [Obj.get] at h, fun _ h => by simp [Obj.get] at h⟩
  · simp
  · simp
  · simp
  · simp
  · intro t ht _
    simp only [Obj.get, if_true, Option.some.injEq] at ht
    subst ht
    refine ⟨_, rfl, by unfold Obj.Sorted; decide, .inl rfl, by simp, by simp, ?_, by simp, by simp, .inl rfl, trivial⟩
    intro v hv old ho x
    have hv' : v = .num (.int 3) := by simpa using hv.symm
    have ho' : old = .num (.int 0) := by
      have : Obj.get [("format", Json.str "uint64"), ("minimum", .num (.int 0)), ("type", .str "integer")] "minimum" =
        some (.num (.int 0)) := rfl
      rw [this] at ho; exact (Option.some.inj ho).symm
    subst hv' ho'
    cases x with
    | num n =>
      simp only [simple, onNum]
      intro h
      exact decide_eq_true (Rat.le_trans (b := ((3 : Int) : Rat)) (by decide) (of_decide_eq_true h))
    | _ => simp [simple, onNum]

end Verif
