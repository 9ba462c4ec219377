import Verif.Props.AllowNull

/-!
# C41: exactly which instances and schemas

What `Option<T>` accepts, for every schema of `T`, and for which schemas that is null and what `T` accepts.
-/

namespace Verif
open Spec

/-- The instance has a type that the schema wants. -/
def TypeFits (D : Dialect) (m : List (String × Json)) (i : Json) : Prop :=
  ∀ t, Obj.get m "type" = some t → typeMatch t i = true ∨
    (D.nullable = true ∧ Obj.get m "nullable" = some (.bool true) ∧ i = .null)

/-- The instance is one of the values in `enum`. -/
def EnumFits (m : List (String × Json)) (i : Json) : Prop :=
  ∀ l, Obj.get m "enum" = some (.arr l) → ∃ x ∈ l, jeq x i = true

/-- The keywords of the schema other than `type`, `const` and `enum` accept the instance. -/
def RestFits (D : Dialect) (env : Env) (m : List (String × Json)) (i : Json) : Prop :=
  Valid D env (.obj (m.filter fun e => !ownNullKeys.contains e.1)) i

/-- The values that are left by `const` and `enum`: null is added; but a `const` null is only dropped, and a `const`
replaces the `enum`. -/
def ValuesAfter (m : List (String × Json)) (i : Json) : Prop :=
  (Obj.get m "const" = none → i = .null ∨ EnumFits m i) ∧
  (Obj.get m "const" = some .null → EnumFits m i) ∧
  (∀ c, c ≠ .null → Obj.get m "const" = some c → i = .null ∨ jeq c i = true)

/-- The schemas for which `allow_null` adds null and nothing else:
* a lone `anyOf` with a member of type null accepts null;
* otherwise, without a schema that is applied in place, the other keywords accept null, a `const` null comes with an
  `enum` that accepts null and is not the only thing that keeps other values out, and the value of another `const` is
  in the `enum`, if there is one and if nothing else keeps it out. -/
def NullExact (D : Dialect) (env : Env) (m : List (String × Json)) : Prop :=
  (LoneNullAnyOf m → Valid D env (.obj m) .null) ∧
  (¬ HasInPlace m →
    RestFits D env m .null ∧ (Obj.get m "const" = some .null → EnumFits m .null) ∧
    ∀ i, i ≠ .null → RestFits D env m i → TypeFits D m i →
      (Obj.get m "const" = some .null → ¬ EnumFits m i) ∧
      (∀ c, c ≠ .null → Obj.get m "const" = some c → jeq c i = true → EnumFits m i))

section
variable {D : Dialect} {env : Env} {m : List (String × Json)} {i : Json}

theorem not_loneNullAnyOf (h : ¬ HasInPlace m) : ¬ LoneNullAnyOf m := by
  rintro ⟨l, rfl, -⟩
  exact h ⟨"anyOf", by simp, .arr l, rfl⟩

theorem valuesAfter_iff {m' : List (String × Json)} (hf : OwnNullFacts m m') : EnumFits m' i ↔ ValuesAfter m i := by
  unfold EnumFits ValuesAfter
  rw [hf.enum]
  cases hc : Obj.get m "const" with
  | none =>
    simp only [forall_const, reduceCtorEq, false_imp_iff, implies_true, and_true]
    unfold EnumFits
    cases Obj.get m "enum" with
    | none => simp
    | some e =>
      cases e with
      | arr l =>
        simp only [Option.map_some, Option.some.injEq, allowNullEnum, Json.arr.injEq, forall_eq']
        by_cases hl : l.contains .null = true
        · simp only [hl, if_true, Json.arr.injEq, forall_eq']
          refine ⟨.inr, ?_⟩
          rintro (rfl | h)
          · exact ⟨.null, by simpa using hl, rfl⟩
          · exact h
        · simp only [hl, if_false, Json.arr.injEq, forall_eq', List.mem_append, List.mem_singleton, Bool.false_eq_true]
          constructor
          · rintro ⟨x, hx | rfl, h⟩
            · exact .inr ⟨x, hx, h⟩
            · exact .inl ((jeq_null_iff i).1 h)
          · rintro (rfl | ⟨x, hx, h⟩)
            · exact ⟨.null, .inr rfl, rfl⟩
            · exact ⟨x, .inl hx, h⟩
      | _ => simp [allowNullEnum]
  | some c =>
    by_cases hn : c = .null
    · subst hn
      simp only [reduceCtorEq, false_imp_iff, true_and, forall_const, Option.some.injEq]
      exact ⟨fun h => ⟨h, fun c h1 h2 => absurd h2.symm h1⟩, fun h => h.1⟩
    · have e : ∀ X : Option Json, X = some (.arr [c, .null]) →
          ((∀ l, X = some (.arr l) → ∃ x ∈ l, jeq x i = true) ↔ i = .null ∨ jeq c i = true) := by
        rintro _ rfl
        simp only [Option.some.injEq, Json.arr.injEq, forall_eq', List.mem_cons, List.not_mem_nil, or_false,
          exists_eq_or_imp, exists_eq_left, jeq_null_iff]
        exact or_comm
      rw [e _ (by cases c <;> first | exact absurd rfl hn | rfl)]
      simp only [reduceCtorEq, false_imp_iff, true_and, Option.some.injEq]
      exact ⟨fun h => ⟨fun h' => absurd h' hn, fun c' _ h' => h' ▸ h⟩, fun h => h.2 c hn rfl⟩

/-- C41, what `Option<T>` accepts if no schema is applied in place in that of `T`. -/
theorem C41_exact (hm : Obj.Sorted m) (hip : ¬ HasInPlace m) : Valid D env (allowNull (.obj m)) i ↔
    RestFits D env m i ∧ (i = .null ∨ TypeFits D m i) ∧ ValuesAfter m i := by
  have h1 : ¬ allowsNullAlready m = true := fun h => not_loneNullAnyOf hip (allowsNullAlready_iff.1 h)
  have h2 : ¬ containsImmediate m = true := fun h => hip (containsImmediate_iff.1 h)
  have href : Obj.get m "$ref" = none := by
    rw [Option.eq_none_iff_forall_ne_some]
    exact fun v hv => hip ⟨"$ref", by simp, v, hv⟩
  simp only [allowNull, h1, h2, if_false, Bool.false_eq_true]
  have hf := ownNullFacts hm
  generalize allowNullConst (Obj.modify m "type" allowNullType) = m' at *
  have href' : Obj.get m' "$ref" = none := by rw [← href]; exact hf.other _ (by decide)
  rw [valid_ownNull hf.sorted href', hf.filter, hf.type, hf.const, hf.other "nullable" (by decide)]
  have htype : (∀ t, (Obj.get m "type").map allowNullType = some t → typeMatch t i = true ∨
      (D.nullable = true ∧ Obj.get m "nullable" = some (.bool true) ∧ i = .null)) ↔ i = .null ∨ TypeFits D m i := by
    unfold TypeFits
    cases Obj.get m "type" with
    | none => simp
    | some t =>
      simp only [Option.map_some, Option.some.injEq, forall_eq', typeMatch_allowNull]
      constructor
      · rintro ((h | h) | ⟨_, _, h⟩)
        · exact .inl h
        · exact .inr (.inl h)
        · exact .inl h
      · rintro (h | h | h)
        · exact .inl (.inl h)
        · exact .inl (.inr h)
        · exact .inr h
  rw [htype, ← valuesAfter_iff hf]
  simp only [reduceCtorEq, false_imp_iff, implies_true, true_and]
  rfl

/-- C41, when a schema is applied in place: null is added, unless the schema is a lone `anyOf` with a member of type
null, which is not changed. -/
theorem C41_exact_inPlace (hip : HasInPlace m) : Valid D env (allowNull (.obj m)) i ↔
    (¬ LoneNullAnyOf m ∧ i = .null) ∨ Valid D env (.obj m) i := by
  have h2 : containsImmediate m = true := containsImmediate_iff.2 hip
  by_cases h1 : LoneNullAnyOf m
  · simp only [allowNull, allowsNullAlready_iff.2 h1, if_true, h1, not_true, false_and, false_or]
  · have h1' : ¬ allowsNullAlready m = true := fun h => h1 (allowsNullAlready_iff.1 h)
    simp only [allowNull, h1', h2, if_true, h1, not_false_iff, true_and, Bool.false_eq_true, if_false]
    rw [valid_entries (.inr rfl) (by simp [Obj.keys])]
    simp only [forall_eq, EntryOk, List.mem_cons, List.not_mem_nil, or_false, exists_eq_or_imp, exists_eq_left,
      valid_nullSchema]
    exact or_comm

/-- C41: `Option<T>` accepts null and what `T` accepts exactly for the schemas that are `NullExact`. -/
theorem C41_iff {s : Json} (hs : IsSchema s) (hsort : ∀ m, s = .obj m → Obj.Sorted m) :
    (∀ i, Valid D env (allowNull s) i ↔ i = .null ∨ Valid D env s i) ↔ ∀ m, s = .obj m → NullExact D env m := by
  cases hs with
  | bool b =>
    refine ⟨fun _ m h => (by cases h), fun _ i => ?_⟩
    exact C41_partial (.bool b) (fun m h => by cases h) (fun m h => by cases h)
  | obj m =>
    have hm := hsort m rfl
    simp only [Json.obj.injEq, forall_eq']
    by_cases hip : HasInPlace m
    · constructor
      · intro h
        refine ⟨fun hl => ?_, fun h' => absurd hip h'⟩
        rcases (C41_exact_inPlace hip).1 ((h .null).2 (.inl rfl)) with h | h
        · exact absurd hl h.1
        · exact h
      · intro h i
        rw [C41_exact_inPlace hip]
        by_cases hl : LoneNullAnyOf m
        · simp only [hl, not_true, false_and, false_or]
          refine ⟨.inr, ?_⟩
          rintro (rfl | h')
          · exact h.1 hl
          · exact h'
        · simp only [hl, not_false_iff, true_and]
    · have href : Obj.get m "$ref" = none := by
        rw [Option.eq_none_iff_forall_ne_some]
        exact fun v hv => hip ⟨"$ref", by simp, v, hv⟩
      have hv : ∀ i, Valid D env (.obj m) i ↔ RestFits D env m i ∧ TypeFits D m i ∧
          (∀ c, Obj.get m "const" = some c → jeq c i = true) ∧ EnumFits m i := fun i => valid_ownNull hm href
      constructor
      · intro h
        refine ⟨fun hl => absurd hl (not_loneNullAnyOf hip), fun _ => ?_⟩
        obtain ⟨h1, -, -, h2, -⟩ := (C41_exact hm hip).1 ((h .null).2 (.inl rfl))
        refine ⟨h1, h2, fun i hne hr ht => ⟨fun hc he => ?_, fun c hcn hc hj => ?_⟩⟩
        · have hva : ValuesAfter m i := by
            refine ⟨fun _ => .inr he, fun _ => he, fun c h1 h2 => ?_⟩
            rw [hc] at h2
            cases h2
            exact absurd rfl h1
          have := (h i).1 ((C41_exact hm hip).2 ⟨hr, .inr ht, hva⟩)
          rcases this with h | h
          · exact hne h
          · exact hne ((jeq_null_iff i).1 (((hv i).1 h).2.2.1 _ hc))
        · have hva : ValuesAfter m i := by
            refine ⟨fun h => ?_, fun h => ?_, fun c' _ h => ?_⟩ <;> rw [hc] at h <;> cases h
            · exact absurd rfl hcn
            · exact .inr hj
          have := (h i).1 ((C41_exact hm hip).2 ⟨hr, .inr ht, hva⟩)
          rcases this with h | h
          · exact absurd h hne
          · exact ((hv i).1 h).2.2.2
      · rintro ⟨-, h⟩ i
        obtain ⟨h1, h2, h3⟩ := h hip
        rw [C41_exact hm hip, hv i]
        constructor
        · rintro ⟨r, t, v1, v2, v3⟩
          by_cases hn : i = .null
          · exact .inl hn
          · have t := t.resolve_left hn
            obtain ⟨n1, n2⟩ := h3 i hn r t
            refine .inr ⟨r, t, fun c hc => ?_, ?_⟩
            · by_cases hcn : c = .null
              · subst hcn
                exact absurd (v2 hc) (n1 hc)
              · exact (v3 c hcn hc).resolve_left hn
            · cases hc : Obj.get m "const" with
              | none => exact (v1 hc).resolve_left hn
              | some c =>
                by_cases hcn : c = .null
                · subst hcn
                  exact v2 hc
                · exact n2 c hcn hc ((v3 c hcn hc).resolve_left hn)
        · rintro (rfl | ⟨r, t, c, e⟩)
          · exact ⟨h1, .inl rfl, fun _ => .inl rfl, h2, fun _ _ _ => .inl rfl⟩
          · exact ⟨r, .inr t, fun _ => .inr e, fun _ => e, fun c' _ h => .inr (c c' h)⟩

end

/-- `{"const": null}` is not among them: `Option<T>` accepts everything. -/
example : ¬ NullExact draft2020 trivialEnv [("const", .null)] := by
  rintro ⟨-, h⟩
  have hip : ¬ HasInPlace [("const", .null)] := by
    rintro ⟨k, hk, v, hv⟩
    simp at hk
    rcases hk with rfl | rfl | rfl | rfl | rfl <;> cases hv
  exact ((h hip).2.2 (.bool true) (by decide) (by unfold RestFits Valid; rfl) (fun t h => by cases h)).1 rfl
    (fun l h => by cases h)

/-- `{"const": 1, "enum": [1, 2]}` is. -/
example : NullExact draft2020 trivialEnv [("const", .num (.int 1)), ("enum", .arr [.num (.int 1), .num (.int 2)])] := by
  refine ⟨fun ⟨l, h, _⟩ => (by simp at h), fun _ => ⟨(by unfold RestFits Valid; rfl), fun h => (by cases h),
    fun i _ _ _ => ⟨fun h => (by cases h), fun c _ hc hj l hl => ?_⟩⟩⟩
  cases hc
  cases hl
  exact ⟨_, List.mem_cons_self .., hj⟩

end Verif
