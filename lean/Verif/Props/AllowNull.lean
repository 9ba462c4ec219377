import Verif.Private
import Verif.Lemmas.SemEval

/-!
# C41: `Option<T>` adds exactly null
-/

namespace Verif
open Spec

/-- The keywords that `allow_null` may change in place. -/
def ownNullKeys : List String := ["type", "const", "enum"]

/-- The full claim: the schema of `Option<T>` accepts null and what the schema of `T` accepts. -/
def C41_Full : Prop := ∀ (D : Dialect) (env : Env) (s i : Json), IsSchema s →
  (∀ m, s = .obj m → Obj.Sorted m) → (Valid D env (allowNull s) i ↔ i = .null ∨ Valid D env s i)

/-- The schema is nothing but an `anyOf` that contains a schema whose `type` mentions null. -/
def LoneNullAnyOf (m : List (String × Json)) : Prop :=
  ∃ l, m = [("anyOf", .arr l)] ∧ ∃ x ∈ l, Schema.hasType x "null" = true

/-- The schema has a keyword that applies a schema in place. -/
def HasInPlace (m : List (String × Json)) : Prop :=
  ∃ k ∈ ["if", "allOf", "anyOf", "oneOf", "$ref"], ∃ v, Obj.get m k = some v

/-- When `allow_null` is exact:
* a lone `anyOf` with a member of type null accepts null;
* any schema with an applicator in place;
* otherwise only `type`, `const` and `enum` may keep null out, `const` and `enum` are not used together,
  and `const: null` comes with `type: "null"`. -/
def NullReady (D : Dialect) (env : Env) (m : List (String × Json)) : Prop :=
  (LoneNullAnyOf m → Valid D env (.obj m) .null) ∧
  (¬ HasInPlace m →
    Valid D env (.obj (m.filter fun e => !ownNullKeys.contains e.1)) .null ∧
    (Obj.get m "const" = none ∨ Obj.get m "enum" = none) ∧
    (Obj.get m "const" = some .null → Obj.get m "type" = some (.str "null")))

section
variable {D : Dialect} {env : Env} {m : List (String × Json)} {i : Json}

theorem containsImmediate_iff : containsImmediate m = true ↔ HasInPlace m := by
  unfold containsImmediate HasInPlace
  rw [List.any_eq_true]
  apply exists_congr; intro k
  apply and_congr_right; intro _
  unfold Obj.has
  rw [Option.isSome_iff_exists]

theorem allowsNullAlready_iff : allowsNullAlready m = true ↔ LoneNullAnyOf m := by
  unfold allowsNullAlready LoneNullAnyOf
  constructor
  · intro h
    rw [Bool.and_eq_true, decide_eq_true_eq] at h
    obtain ⟨h1, h2⟩ := h
    obtain ⟨⟨k, v⟩, rfl⟩ := List.length_eq_one_iff.1 h1
    by_cases hk : k = "anyOf"
    · subst hk
      cases v with
      | arr l =>
        simp only [Obj.get_cons, if_true, List.any_eq_true, isNullSchema, Bool.and_eq_true] at h2
        obtain ⟨x, hx, _, h3⟩ := h2
        exact ⟨l, rfl, x, hx, h3⟩
      | _ => simp [Obj.get_cons] at h2
    · simp [hk, Obj.get] at h2
  · rintro ⟨l, rfl, x, hx, h⟩
    have hs : isSchema x = true := by cases x <;> simp [Schema.hasType, Schema.get] at h; rfl
    simp only [List.length_singleton, decide_true, Bool.true_and, Obj.get_cons, if_true, List.any_eq_true]
    exact ⟨x, hx, by simp [isNullSchema, hs, h]⟩

theorem typeName_null_iff (i : Json) : typeName "null" i = true ↔ i = .null := by
  cases i <;> simp [typeName]

theorem valid_nullSchema : Valid D env nullSchema i ↔ i = .null := by
  unfold nullSchema
  rw [valid_entries (.inr rfl) (by simp [Obj.keys])]
  simp only [List.mem_singleton, forall_eq, EntryOk, typeMatch, typeName_null_iff]
  constructor
  · rintro (h | ⟨_, _, h⟩) <;> exact h
  · exact .inl

theorem typeMatch_allowNull (ty : Json) : typeMatch (allowNullType ty) i = true ↔
    i = .null ∨ typeMatch ty i = true := by
  cases ty with
  | arr l =>
    by_cases h : (l.contains (.str "null")) = true
    · simp only [allowNullType, h, if_true]
      refine ⟨.inr, ?_⟩
      rintro (rfl | h')
      · unfold typeMatch
        rw [List.any_eq_true]
        exact ⟨.str "null", by simpa using h, rfl⟩
      · exact h'
    · simp only [allowNullType, h, if_false, Bool.false_eq_true]
      simp only [typeMatch, List.any_append, List.any_cons, List.any_nil, Bool.or_false, Bool.or_eq_true,
        typeMember, typeName_null_iff]
      exact or_comm
  | str t =>
    by_cases h : t = "null"
    · subst h
      simp [allowNullType, typeMatch, typeName_null_iff]
    · simp only [allowNullType, h, if_false]
      simp only [typeMatch, List.any_cons, List.any_nil, Bool.or_false, Bool.or_eq_true, typeMember, typeName_null_iff]
      exact or_comm
  | _ => simp [allowNullType, typeMatch]

theorem jeq_null_iff (i : Json) : jeq .null i = true ↔ i = .null := by
  cases i <;> simp [jeq, canon]

/-- Validity without an applicator in place, as far as `allow_null` cares. -/
theorem valid_ownNull (hm : Obj.Sorted m) (href : Obj.get m "$ref" = none) : Valid D env (.obj m) i ↔
    Valid D env (.obj (m.filter fun e => !ownNullKeys.contains e.1)) i ∧
    (∀ t, Obj.get m "type" = some t → typeMatch t i = true ∨
      (D.nullable = true ∧ Obj.get m "nullable" = some (.bool true) ∧ i = .null)) ∧
    (∀ c, Obj.get m "const" = some c → jeq c i = true) ∧
    (∀ l, Obj.get m "enum" = some (.arr l) → ∃ x ∈ l, jeq x i = true) := by
  have hn := Obj.sorted_nodup hm
  rw [valid_filter (p := fun k => !ownNullKeys.contains k) (by decide) (.inr href) hn]
  apply and_congr_right; intro _
  constructor
  · intro h
    have hk : ∀ k ∈ ownNullKeys, ∀ v, Obj.get m k = some v → EntryOk D env m i k v := by
      intro k hk v hv
      exact h (k, v) (Obj.get_mem hv) (by
        have : ∀ k ∈ ownNullKeys, (!ownNullKeys.contains k) = false := by decide
        exact this k hk)
    refine ⟨fun t ht => hk "type" (by decide) t ht, fun c hc => ?_, fun l hl => ?_⟩
    · exact (entryOk_simple (k := "const") (by decide) c).1 (hk "const" (by decide) c hc)
    · have := (entryOk_simple (k := "enum") (by decide) _).1 (hk "enum" (by decide) _ hl)
      simpa [simple] using this
  · rintro ⟨h1, h2, h3⟩ ⟨k, v⟩ he hk
    have hg := Obj.get_of_mem_nodup hn he
    have hk' : k ∈ ownNullKeys := by simpa using hk
    simp only [ownNullKeys, List.mem_cons, List.not_mem_nil, or_false] at hk'
    rcases hk' with rfl | rfl | rfl
    · exact h1 v hg
    · exact (entryOk_simple (k := "const") (by decide) v).2 (h2 v hg)
    · refine (entryOk_simple (k := "enum") (by decide) v).2 ?_
      cases v with
      | arr l => simpa [simple] using h3 l hg
      | _ => rfl

/-- What `allow_null` does to a schema without an applicator in place. -/
structure OwnNullFacts (m m' : List (String × Json)) : Prop where
  sorted : Obj.Sorted m'
  type : Obj.get m' "type" = (Obj.get m "type").map allowNullType
  const : Obj.get m' "const" = none
  other : ∀ k, k ∉ ownNullKeys → Obj.get m' k = Obj.get m k
  filter : m'.filter (fun e => !ownNullKeys.contains e.1) = m.filter fun e => !ownNullKeys.contains e.1
  enum : Obj.get m' "enum" = match Obj.get m "const" with
    | some .null => Obj.get m "enum"
    | some c => some (.arr [c, .null])
    | none => (Obj.get m "enum").map allowNullEnum

theorem ownNullFacts (hm : Obj.Sorted m) :
    OwnNullFacts m (allowNullConst (Obj.modify m "type" allowNullType)) := by
  have hcget : Obj.get (Obj.modify m "type" allowNullType) "const" = Obj.get m "const" := by
    rw [Obj.get_modify]; simp
  have heget : Obj.get (Obj.modify m "type" allowNullType) "enum" = Obj.get m "enum" := by
    rw [Obj.get_modify]; simp
  refine ⟨?_, ?_, ?_, ?_, ?_, ?_⟩
  · have h0 := Obj.sorted_modify hm "type" allowNullType
    unfold allowNullConst
    split
    · exact Obj.sorted_remove h0 _
    · exact Obj.sorted_insert (Obj.sorted_remove h0 _) _ _
    · exact Obj.sorted_modify h0 _ _
  · unfold allowNullConst
    split <;> simp [Obj.get_insert, Obj.get_remove, Obj.get_modify]
  · unfold allowNullConst
    split
    · simp
    · simp [Obj.get_insert]
    · next h => rw [Obj.get_modify]; simpa using h
  · intro k hk
    simp only [ownNullKeys, List.mem_cons, List.not_mem_nil, or_false, not_or] at hk
    obtain ⟨a, b, c⟩ := hk
    unfold allowNullConst
    split <;> simp [Obj.get_insert, Obj.get_remove, Obj.get_modify, Ne.symm a, Ne.symm b, Ne.symm c]
  · have h0 : (Obj.modify m "type" allowNullType).filter (fun e => !ownNullKeys.contains e.1) =
        m.filter fun e => !ownNullKeys.contains e.1 :=
      filter_modify (p := fun k => !ownNullKeys.contains k) (by decide) _
    unfold allowNullConst
    split
    · rw [filter_remove (p := fun k => !ownNullKeys.contains k) (by decide), h0]
    · rw [filter_insert (p := fun k => !ownNullKeys.contains k) (by decide),
        filter_remove (p := fun k => !ownNullKeys.contains k) (by decide), h0]
    · rw [filter_modify (p := fun k => !ownNullKeys.contains k) (by decide), h0]
  · unfold allowNullConst
    rw [hcget]
    cases Obj.get m "const" with
    | none => simp only [Obj.get_modify, if_true, heget]
    | some c =>
      cases c <;> first
        | (rw [Obj.get_remove_ne _ (by decide)]; exact heget)
        | rw [Obj.get_insert, if_pos rfl]

theorem allowNull_own (hm : Obj.Sorted m) (href : Obj.get m "$ref" = none)
    (hrest : Valid D env (.obj (m.filter fun e => !ownNullKeys.contains e.1)) .null)
    (hce : Obj.get m "const" = none ∨ Obj.get m "enum" = none)
    (hcn : Obj.get m "const" = some .null → Obj.get m "type" = some (.str "null")) :
    Valid D env (.obj (allowNullConst (Obj.modify m "type" allowNullType))) i ↔
      i = .null ∨ Valid D env (.obj m) i := by
  obtain ⟨hsort, htype, hconst, hother, hfilter, henum'⟩ := ownNullFacts hm
  generalize allowNullConst (Obj.modify m "type" allowNullType) = m' at *
  have hnl : Obj.get m' "nullable" = Obj.get m "nullable" := hother _ (by decide)
  have href' : Obj.get m' "$ref" = none := by rw [← href]; exact hother _ (by decide)
  have htypeOk : (∀ t, Obj.get m' "type" = some t → typeMatch t i = true ∨
      (D.nullable = true ∧ Obj.get m' "nullable" = some (.bool true) ∧ i = .null)) ↔
      i = .null ∨ ∀ t, Obj.get m "type" = some t → typeMatch t i = true ∨
        (D.nullable = true ∧ Obj.get m "nullable" = some (.bool true) ∧ i = .null) := by
    rw [htype, hnl]
    cases Obj.get m "type" with
    | none => simp
    | some t =>
      simp only [Option.map_some, Option.some.injEq, forall_eq', typeMatch_allowNull]
      constructor
      · rintro ((h | h) | ⟨_, _, h⟩)
        · exact .inl h
        · exact .inr (.inl h)
        · exact .inl h
      · rintro (h | h | h)
        · exact .inl (.inl h)
        · exact .inl (.inr h)
        · exact .inr h
  rw [valid_ownNull hsort href', valid_ownNull hm href, hfilter, htypeOk, hconst]
  have henum : (∀ l, Obj.get m' "enum" = some (.arr l) → ∃ x ∈ l, jeq x i = true) ↔
      i = .null ∨ Obj.get m "const" = some .null ∨
        ((∀ c, Obj.get m "const" = some c → jeq c i = true) ∧
         ∀ l, Obj.get m "enum" = some (.arr l) → ∃ x ∈ l, jeq x i = true) := by
    rw [henum']
    cases hc : Obj.get m "const" with
    | none =>
      simp only [reduceCtorEq, false_or, false_imp_iff, implies_true, true_and]
      cases Obj.get m "enum" with
      | none => simp
      | some e =>
        cases e with
        | arr l =>
          simp only [Option.map_some, Option.some.injEq, allowNullEnum, Json.arr.injEq, forall_eq']
          by_cases hl : l.contains .null = true
          · simp only [hl, if_true, Json.arr.injEq, forall_eq']
            refine ⟨.inr, ?_⟩
            rintro (rfl | h)
            · exact ⟨.null, by simpa using hl, rfl⟩
            · exact h
          · simp only [hl, if_false, Json.arr.injEq, forall_eq', List.mem_append, List.mem_singleton,
              Bool.false_eq_true]
            constructor
            · rintro ⟨x, hx | rfl, h⟩
              · exact .inr ⟨x, hx, h⟩
              · exact .inl ((jeq_null_iff i).1 h)
            · rintro (rfl | ⟨x, hx, h⟩)
              · exact ⟨.null, .inr rfl, rfl⟩
              · exact ⟨x, .inl hx, h⟩
        | _ => simp [allowNullEnum]
    | some c =>
      have hen : Obj.get m "enum" = none := by
        rcases hce with h | h
        · rw [h] at hc; cases hc
        · exact h
      by_cases hcnull : c = .null
      · subst hcnull
        simp [hen]
      · have e : ∀ X : Option Json, X = some (.arr [c, .null]) →
            ((∀ l, X = some (.arr l) → ∃ x ∈ l, jeq x i = true) ↔
              i = .null ∨ some c = some .null ∨ ((∀ c', some c = some c' → jeq c' i = true) ∧
                ∀ l, Obj.get m "enum" = some (.arr l) → ∃ x ∈ l, jeq x i = true)) := by
          rintro _ rfl
          simp only [Option.some.injEq, Json.arr.injEq, forall_eq', List.mem_cons, List.not_mem_nil, or_false,
            exists_eq_or_imp, exists_eq_left, hcnull, false_or, hen, reduceCtorEq, false_imp_iff, implies_true,
            and_true, jeq_null_iff]
          exact or_comm
        apply e
        cases c <;> first | exact absurd rfl hcnull | rfl
  rw [henum]
  constructor
  · rintro ⟨h1, h2, _, h3⟩
    rcases h3 with h3 | h3 | ⟨h3, h4⟩
    · exact .inl h3
    · have := hcn h3
      rcases h2 with h2 | h2
      · exact .inl h2
      · rcases h2 _ this with h | ⟨_, _, h⟩
        · exact .inl ((typeName_null_iff i).1 h)
        · exact .inl h
    · rcases h2 with h2 | h2
      · exact .inl h2
      · exact .inr ⟨h1, h2, h3, h4⟩
  · rintro (rfl | ⟨h1, h2, h3, h4⟩)
    · exact ⟨hrest, .inl rfl, by simp, .inl rfl⟩
    · exact ⟨h1, .inr h2, by simp, .inr (.inr ⟨h3, h4⟩)⟩

/-- **C41**, proved for the schemas that are `NullReady`. Missing from `C41_Full`: schemas in which another
keyword than `type`, `const` and `enum` rejects null, those with both `const` and `enum`, those with
`const: null` and no `type: "null"`, and a lone `anyOf` whose members of type null reject null; for them
the claim can fail (`C41_Full_false`). -/
theorem C41_partial {s : Json} (hs : IsSchema s) (hsort : ∀ m, s = .obj m → Obj.Sorted m)
    (hr : ∀ m, s = .obj m → NullReady D env m) :
    Valid D env (allowNull s) i ↔ i = .null ∨ Valid D env s i := by
  cases hs with
  | bool b =>
    cases b with
    | true => simp [allowNull, Valid, den, R.pass]
    | false =>
      rw [show allowNull (.bool false) = nullSchema from rfl, valid_nullSchema]
      simp [Valid, den, R.fail]
  | obj m =>
    obtain ⟨hr1, hr2⟩ := hr m rfl
    have hm := hsort m rfl
    unfold allowNull
    by_cases h1 : allowsNullAlready m = true
    · simp only [h1, if_true]
      refine ⟨.inr, ?_⟩
      rintro (rfl | h)
      · exact hr1 (allowsNullAlready_iff.1 h1)
      · exact h
    · simp only [h1, if_false, Bool.false_eq_true]
      by_cases h2 : containsImmediate m = true
      · simp only [h2, if_true]
        rw [valid_entries (.inr rfl) (by simp [Obj.keys])]
        simp only [forall_eq, EntryOk, List.mem_cons, List.not_mem_nil, or_false,
          exists_eq_or_imp, exists_eq_left, valid_nullSchema]
        exact or_comm
      · simp only [h2, if_false, Bool.false_eq_true]
        have hip : ¬ HasInPlace m := fun h => h2 (containsImmediate_iff.2 h)
        obtain ⟨hrest, hce, hcn⟩ := hr2 hip
        have href : Obj.get m "$ref" = none := by
          rw [Option.eq_none_iff_forall_ne_some]
          exact fun v hv => hip ⟨"$ref", by simp, v, hv⟩
        exact allowNull_own hm href hrest hce hcn

/-- What `T` accepts, `Option<T>` accepts, for all inner schemas. -/
theorem C41_mono {s : Json} (hsort : ∀ m, s = .obj m → Obj.Sorted m) (hv : Valid D env s i) :
    Valid D env (allowNull s) i := by
  cases s with
  | bool b => cases b with
    | true => exact hv
    | false => simp [Valid, den, R.fail] at hv
  | obj m =>
    have hm := hsort m rfl
    by_cases h1 : allowsNullAlready m = true
    · simp only [allowNull, h1, if_true]; exact hv
    · by_cases h2 : containsImmediate m = true
      · simp only [allowNull, h1, h2, if_true, if_false, Bool.false_eq_true]
        rw [valid_entries (.inr rfl) (by simp [Obj.keys])]
        simp only [forall_eq, EntryOk, List.mem_cons, List.not_mem_nil, or_false, exists_eq_or_imp]
        exact .inl hv
      · simp only [allowNull, h1, h2, if_false, Bool.false_eq_true]
        have href : Obj.get m "$ref" = none := by
          rw [Option.eq_none_iff_forall_ne_some]
          exact fun v hv => h2 (containsImmediate_iff.2 ⟨"$ref", by simp, v, hv⟩)
        obtain ⟨hsort', htype, hconst, hother, hfilter, henum⟩ := ownNullFacts hm
        generalize allowNullConst (Obj.modify m "type" allowNullType) = m' at *
        rw [valid_ownNull hm href] at hv
        rw [valid_ownNull hsort' (by rw [hother _ (by decide)]; exact href), hfilter, htype, hconst,
          hother "nullable" (by decide)]
        obtain ⟨v1, v2, v3, v4⟩ := hv
        refine ⟨v1, ?_, by simp, ?_⟩
        · cases ht : Obj.get m "type" with
          | none => simp
          | some t =>
            simp only [Option.map_some, Option.some.injEq, forall_eq', typeMatch_allowNull]
            rcases v2 t ht with h | h
            · exact .inl (.inr h)
            · exact .inr h
        · intro l hl
          rw [henum] at hl
          cases hc : Obj.get m "const" with
          | none =>
            rw [hc] at hl
            cases he : Obj.get m "enum" with
            | none => rw [he] at hl; cases hl
            | some e =>
              rw [he] at hl
              cases e with
              | arr l' =>
                obtain ⟨x, hx, hj⟩ := v4 l' he
                refine ⟨x, ?_, hj⟩
                simp only [Option.map_some, allowNullEnum, Option.some.injEq] at hl
                split at hl <;> cases hl
                · exact hx
                · exact List.mem_append_left _ hx
              | _ => simp [allowNullEnum] at hl
          | some c =>
            rw [hc] at hl
            by_cases hn : c = .null
            · subst hn; exact v4 l hl
            · have : l = [c, .null] := by
                cases c <;> first | exact absurd rfl hn | exact ((Json.arr.inj (Option.some.inj hl)).symm)
              subst this
              exact ⟨c, by simp, v3 c hc⟩
  | _ => exact hv

/-- For every type that is not inlined, the schema of `Option<T>` is exact. -/
theorem C41_ref (r : String) : Valid D env (allowNull (Schema.newRef r)) i ↔
    i = .null ∨ Valid D env (Schema.newRef r) i := by
  refine C41_partial (.obj _) ?_ ?_
  · rintro m ⟨⟩; exact Obj.sorted_insert Obj.sorted_nil _ _
  · rintro m ⟨⟩
    refine ⟨?_, fun h => absurd ⟨"$ref", by simp, .str r, rfl⟩ h⟩
    rintro ⟨l, h, _⟩
    simp [Obj.insert] at h

/-! ## Nested options -/

theorem allowNullType_idem (t : Json) : allowNullType (allowNullType t) = allowNullType t := by
  cases t with
  | arr l =>
    by_cases h : (l.contains (.str "null")) = true
    · simp only [allowNullType, h, if_true]
    · simp only [allowNullType, h, if_false, Bool.false_eq_true]
      simp
  | str t =>
    by_cases h : t = "null"
    · simp [allowNullType, h]
    · simp only [allowNullType, h, if_false]
      rw [if_pos (by simp)]
  | _ => rfl

theorem allowNullEnum_idem (e : Json) : allowNullEnum (allowNullEnum e) = allowNullEnum e := by
  cases e with
  | arr l =>
    by_cases h : l.contains .null = true
    · simp only [allowNullEnum, h, if_true]
    · simp only [allowNullEnum, h, if_false, Bool.false_eq_true]
      simp
  | _ => rfl

/-- `Option<Option<T>>` has the schema of `Option<T>`, unless that of `T` has `const: null` beside an
`enum`. -/
theorem C41_nested {s : Json} (hsort : ∀ m, s = .obj m → Obj.Sorted m)
    (hce : Schema.get s "const" = some .null → Schema.get s "enum" = none) :
    allowNull (allowNull s) = allowNull s := by
  cases s with
  | obj m =>
    have hm := hsort m rfl
    have e0 : ∀ n, allowsNullAlready n = true → allowNull (.obj n) = .obj n := by
      intro n h; simp only [allowNull, h, if_true]
    by_cases h1 : allowsNullAlready m = true
    · rw [e0 m h1, e0 m h1]
    · by_cases h2 : containsImmediate m = true
      · have : allowNull (.obj m) = .obj [("anyOf", .arr [.obj m, nullSchema])] := by
          simp only [allowNull, h1, h2, if_true, if_false, Bool.false_eq_true]
        rw [this]
        exact e0 _ (allowsNullAlready_iff.2 ⟨_, rfl, nullSchema, by simp, rfl⟩)
      · have e1 : ∀ n, allowsNullAlready n ≠ true → containsImmediate n ≠ true → allowNull (.obj n) =
            .obj (allowNullConst (Obj.modify n "type" allowNullType)) := by
          intro n h1 h2; simp only [allowNull, h1, h2, if_false, Bool.false_eq_true]
        rw [e1 m h1 h2]
        obtain ⟨hsort', htype, hconst, hother, _, henum'⟩ := ownNullFacts hm
        generalize allowNullConst (Obj.modify m "type" allowNullType) = m' at *
        have h2' : containsImmediate m' ≠ true := by
          intro h
          obtain ⟨k, hk, v, hv⟩ := containsImmediate_iff.1 h
          rw [hother k ((by decide : ∀ k ∈ ["if", "allOf", "anyOf", "oneOf", "$ref"], k ∉ ownNullKeys) k hk)] at hv
          exact h2 (containsImmediate_iff.2 ⟨k, hk, v, hv⟩)
        have h1' : allowsNullAlready m' ≠ true := by
          intro h
          obtain ⟨l, h, _⟩ := allowsNullAlready_iff.1 h
          exact h2' (containsImmediate_iff.2 ⟨"anyOf", by simp, .arr l, by rw [h]; rfl⟩)
        rw [e1 m' h1' h2']
        congr 1
        have hc' : Obj.get (Obj.modify m' "type" allowNullType) "const" = none := by
          rw [Obj.get_modify]; simpa using hconst
        have hun : allowNullConst (Obj.modify m' "type" allowNullType) =
            Obj.modify (Obj.modify m' "type" allowNullType) "enum" allowNullEnum := by
          unfold allowNullConst; rw [hc']
        rw [hun]
        apply Obj.ext_sorted (Obj.sorted_modify (Obj.sorted_modify hsort' _ _) _ _) hsort'
        intro k
        rw [Obj.get_modify, Obj.get_modify]
        by_cases ht : "type" = k
        · subst ht
          simp only [htype, if_true, Option.map_map]
          have : allowNullType ∘ allowNullType = allowNullType := funext allowNullType_idem
          rw [this]; simp
        · rw [if_neg ht]
          by_cases he : "enum" = k
          · subst he
            rw [if_pos rfl]
            have : Obj.get m' "enum" = none ∨ ∃ v, Obj.get m' "enum" = some (allowNullEnum v) := by
              rw [henum']
              cases hc : Obj.get m "const" with
              | none => cases Obj.get m "enum" with
                | none => exact .inl rfl
                | some v => exact .inr ⟨v, rfl⟩
              | some c =>
                by_cases hn : c = .null
                · subst hn
                  exact .inl (hce hc)
                · refine .inr ⟨.arr [c, .null], ?_⟩
                  cases c <;> first | exact absurd rfl hn | simp [allowNullEnum]
            rcases this with h | ⟨v, h⟩
            · rw [h]; rfl
            · rw [h, Option.map_some, allowNullEnum_idem]
          · rw [if_neg he]
  | bool b => cases b <;> rfl
  | _ => rfl

end

/-! ## Witnesses -/

/-- `C41_Full` fails: allowing null in `{"const": null}` gives `{}`, which accepts everything. -/
theorem C41_Full_false : ¬ C41_Full := by
  intro h
  have := (h draft2020 trivialEnv (.obj [("const", .null)]) (.bool true) (.obj _)
    (by rintro m ⟨⟩; exact List.pairwise_singleton _ _)).1 (by unfold Valid; rfl)
  rcases this with h | h
  · cases h
  · revert h; unfold Valid; decide

/-- Other keywords may keep null out: `{"not": {"type": "null"}}` is not changed at all. -/
theorem C41_rejects_null : ∃ s, IsSchema s ∧ allowNull s = s ∧ ¬ Valid draft2020 trivialEnv s .null :=
  ⟨.obj [("not", nullSchema)], .obj _, rfl, by unfold Valid; decide⟩

/-- With both `const` and `enum`, the `enum` is lost: `1` becomes valid. -/
theorem C41_const_enum : ∃ s, IsSchema s ∧ ¬ Valid draft2020 trivialEnv s (.num (.int 1)) ∧
    Valid draft2020 trivialEnv (allowNull s) (.num (.int 1)) :=
  ⟨.obj [("const", .num (.int 1)), ("enum", .arr [.num (.int 2)])], .obj _, by unfold Valid; decide,
    by unfold Valid; decide⟩

/-- An instance of `C41_partial` that changes `type` and `enum`. -/
example (i : Json) : Valid draft2020 trivialEnv
      (allowNull (.obj [("enum", .arr [.str "a"]), ("type", .str "string")])) i ↔
    i = .null ∨ Valid draft2020 trivialEnv (.obj [("enum", .arr [.str "a"]), ("type", .str "string")]) i := by
  refine C41_partial (.obj _) ?_ ?_
  · rintro m ⟨⟩; unfold Obj.Sorted; decide
  · rintro m ⟨⟩
    refine ⟨?_, fun _ => ⟨by unfold Valid; decide, .inl (by decide), by decide⟩⟩
    rintro ⟨l, h, _⟩
    simp at h

example : allowNull (.obj [("const", .str "a"), ("type", .str "string")]) =
    .obj [("enum", .arr [.str "a", .null]), ("type", .arr [.str "string", .str "null"])] := by decide

end Verif
