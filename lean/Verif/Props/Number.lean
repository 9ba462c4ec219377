import Verif.Number

/-!
# C85: turning a value into a schema never panics
-/

namespace Verif

namespace Spec

/-- The value is a bool or an object. -/
def SchemaValue (v : NValue α) : Prop := (∃ b, v = .bool b) ∨ ∃ m, v = .object m

/-- The value of a number. -/
def NumberIs : Number → Rat → Prop
  | .posInt n, q => q = ((n.toNat : Int) : Rat)
  | .negInt i, q => q = (i.toInt : Rat)
  | .float f, q => q = f
  | .text (.whole true n), q => q = ((-(n : Int) : Int) : Rat)
  | .text (.whole false n), q => q = ((n : Int) : Rat)
  | .text (.other r), q => q = r

/-- The error says what the value is. -/
def ErrorNames : Unexpected → NValue α → Prop
  | .unit, v => v = .null
  | .unsigned n, v => ∃ x, v = .number x ∧ NumberIs x ((n : Int) : Rat)
  | .signed i, v => ∃ x, v = .number x ∧ NumberIs x (i : Rat)
  | .float q, v => ∃ x, v = .number x ∧ NumberIs x q
  | .str s, v => v = .string s
  | .seq, v => ∃ l, v = .array l

/-- A number whose text denotes a value that is no finite `f64`, not even after rounding: `2 ^ 1024 - 2 ^ 970` or more,
or the negative of that. -/
def TooLarge (n : Number) : Prop :=
  ∃ t, n = .text t ∧ ∃ q, NumberIs n q ∧
    (((2 ^ 1024 - 2 ^ 970 : Int) : Rat) ≤ q ∨ q ≤ -((2 ^ 1024 - 2 ^ 970 : Int) : Rat))

end Spec
open Spec

theorem isText (t : NumText) (q : Rat) : NumberIs (.text t) q ↔ q = Number.textValue t := by
  rcases t with ⟨_ | _, n⟩ | r <;> rfl

theorem unexpectedNumber_none (n : Number) : unexpectedNumber n = none ↔ TooLarge n := by
  have hl : ((2 ^ 1024 - 2 ^ 970 : Int) : Rat) = (Number.f64Limit : Rat) := rfl
  unfold unexpectedNumber
  constructor
  · intro h
    cases n with
    | posInt n => simp [Number.asU64] at h
    | negInt i => simp [Number.asU64, Number.asI64] at h
    | float q => simp [Number.asU64, Number.asI64, Number.asF64] at h
    | text t =>
      refine ⟨t, rfl, _, (isText t _).2 rfl, ?_⟩
      rw [hl]
      revert h
      cases (Number.text t).asU64 with
      | some u => simp
      | none =>
        cases (Number.text t).asI64 with
        | some u => simp
        | none =>
          simp only [Number.asF64]
          intro hnone
          have hn : ¬ (Number.textValue t < (Number.f64Limit : Rat) ∧ -(Number.f64Limit : Rat) < Number.textValue t) := by
            intro hn
            simp [hn] at hnone
          · by_cases h1 : Number.textValue t < (Number.f64Limit : Rat)
            · exact .inr (Rat.not_lt.1 fun h2 => hn ⟨h1, h2⟩)
            · exact .inl (Rat.not_lt.1 h1)
  · rintro ⟨t, rfl, q, hq, h⟩
    rw [isText] at hq
    subst hq
    rw [hl] at h
    have h3 : (Number.text t).asF64 = none := by
      simp only [Number.asF64]
      rw [if_neg]
      rintro ⟨h1, h2⟩
      exact h.elim (fun h => Rat.not_lt.2 h h1) (fun h => Rat.not_lt.2 h h2)
    have key : ∀ i : Int, Number.textValue t = (i : Rat) → -(2 ^ 63) ≤ i → i < 2 ^ 64 → False := by
      intro i e h1 h2
      rw [e, ← Rat.intCast_neg, Rat.intCast_le_intCast, Rat.intCast_le_intCast] at h
      have hb : (2 : Int) ^ 64 ≤ Number.f64Limit := by decide +kernel
      have hb' : -Number.f64Limit < -(2 : Int) ^ 63 := by decide +kernel
      rcases h with h | h
      · exact absurd (Int.lt_of_lt_of_le h2 (Int.le_trans hb h)) (Int.lt_irrefl _)
      · exact absurd (Int.lt_of_le_of_lt h1 (Int.lt_of_le_of_lt h hb')) (Int.lt_irrefl _)
    rcases t with ⟨_ | _, n⟩ | r
    · have hn : ¬ n < 2 ^ 64 := fun hn => key n rfl (by omega) (by omega)
      have hn' : ¬ n < 2 ^ 63 := by omega
      have h1 : (Number.text (.whole false n)).asU64 = none := by simp only [Number.asU64, hn, and_false, if_false]
      have h2 : (Number.text (.whole false n)).asI64 = none := by
        simp only [Number.asI64, hn', Bool.false_eq_true, false_and, and_false, if_false]
      simp only [h1, h2, h3]
    · have hn : ¬ n ≤ 2 ^ 63 := fun hn => key (-n) rfl (by omega) (by omega)
      have h1 : (Number.text (.whole true n)).asU64 = none := by
        simp only [Number.asU64, Bool.true_eq_false, false_and, if_false]
      have h2 : (Number.text (.whole true n)).asI64 = none := by
        simp only [Number.asI64, hn, Bool.true_eq_false, false_and, and_false, if_false]
      simp only [h1, h2, h3]
    · simp only [Number.asU64, Number.asI64, h3]

/-- C85 in full: turning a value into a schema never panics. -/
def C85_Full : Prop := ∀ v : NValue Json, Schema.validateValue v ≠ .panic

/-- C85: it panics exactly for the numbers that are too large for `f64`; these only exist with the feature
`arbitrary_precision`. -/
theorem C85_iff (v : NValue α) : Schema.validateValue v = .panic ↔ ∃ n, v = .number n ∧ TooLarge n := by
  constructor
  · intro h
    cases v with
    | number n =>
      refine ⟨n, rfl, (unexpectedNumber_none n).1 ?_⟩
      unfold Schema.validateValue at h
      cases hu : unexpectedNumber n with
      | none => rfl
      | some u => simp [hu] at h
    | _ => simp [Schema.validateValue] at h
  · rintro ⟨n, rfl, h⟩
    simp [Schema.validateValue, (unexpectedNumber_none n).2 h]

/-- C85: without the feature, nothing panics. -/
theorem C85_partial {v : NValue α} (h : ∀ t, v ≠ .number (.text t)) : Schema.validateValue v ≠ .panic := by
  intro hp
  obtain ⟨n, rfl, t, rfl, -⟩ := (C85_iff v).1 hp
  exact h t rfl

/-- C85: a value is taken exactly if it is a bool or an object. -/
theorem C85_ok (v : NValue α) : Schema.validateValue v = .ok ↔ SchemaValue v := by
  cases v with
  | number n =>
    simp only [Schema.validateValue, SchemaValue, reduceCtorEq, exists_false, or_self, iff_false]
    cases unexpectedNumber n <;> simp
  | _ => simp [Schema.validateValue, SchemaValue]

/-- C85: the simpler `Schema.validate` of the other files takes the same values. -/
theorem C85_validate (v : NValue Json) : Schema.validate v.toJson = true ↔ Schema.validateValue v = .ok := by
  rw [C85_ok]
  cases v with
  | number n => cases n <;> simp [NValue.toJson, Schema.validate, SchemaValue]
  | _ => simp [NValue.toJson, Schema.validate, SchemaValue]

theorem validate_number {n : Number} {u : Unexpected}
    (h : Schema.validateValue (.number n : NValue α) = .invalidType u) : unexpectedNumber n = some u := by
  unfold Schema.validateValue at h
  cases hu : unexpectedNumber n with
  | none => simp [hu] at h
  | some w => simp [hu] at h; rw [h]

theorem number_cases {n : Number} {u : Unexpected} (h : unexpectedNumber n = some u) :
    (∃ w, u = .unsigned w ∧ n.asU64 = some w) ∨ (∃ i, u = .signed i ∧ n.asU64 = none ∧ n.asI64 = some i) ∨
      ∃ q, u = .float q ∧ n.asU64 = none ∧ n.asI64 = none ∧ n.asF64 = some q := by
  unfold unexpectedNumber at h
  cases h1 : n.asU64 with
  | some w => simp only [h1] at h; cases h; exact .inl ⟨w, rfl, rfl⟩
  | none =>
    cases h2 : n.asI64 with
    | some i => simp only [h1, h2] at h; cases h; exact .inr (.inl ⟨i, rfl, rfl, rfl⟩)
    | none =>
      cases h3 : n.asF64 with
      | some q => simp only [h1, h2, h3] at h; cases h; exact .inr (.inr ⟨q, rfl, rfl, rfl, rfl⟩)
      | none => simp only [h1, h2, h3] at h; cases h

theorem asU64_is {n : Number} {w : Nat} (h : n.asU64 = some w) : NumberIs n ((w : Int) : Rat) := by
  cases n with
  | posInt m => cases h; rfl
  | negInt i => cases h
  | float q => cases h
  | text t =>
    rcases t with ⟨_ | _, m⟩ | r
    · simp only [Number.asU64] at h
      split at h
      · cases h; rfl
      · cases h
    · simp [Number.asU64] at h
    · cases h

theorem asI64_is {n : Number} {i : Int} (h : n.asI64 = some i) : NumberIs n (i : Rat) := by
  cases n with
  | posInt m =>
    simp only [Number.asI64] at h
    split at h
    · cases h; rfl
    · cases h
  | negInt i => cases h; rfl
  | float q => cases h
  | text t =>
    rcases t with ⟨_ | _, m⟩ | r
    · simp only [Number.asI64, Bool.false_eq_true, false_and, if_false] at h
      split at h
      · cases h; rfl
      · cases h
    · simp only [Number.asI64, Bool.true_eq_false, false_and, if_false] at h
      split at h
      · cases h; rfl
      · cases h
    · cases h

theorem asF64_is {n : Number} {q : Rat} (h : n.asF64 = some q) : NumberIs n q := by
  cases n with
  | posInt m => cases h; rfl
  | negInt i => cases h; rfl
  | float q => cases h; rfl
  | text t =>
    simp only [Number.asF64] at h
    split at h
    · cases h; exact (isText t _).2 rfl
    · cases h

/-- C85: the error says what the value is. -/
theorem C85_error {v : NValue α} {u : Unexpected} (h : Schema.validateValue v = .invalidType u) : ErrorNames u v := by
  cases v with
  | null => cases h; rfl
  | bool b => cases h
  | string s => cases h; rfl
  | array l => cases h; exact ⟨l, rfl⟩
  | object m => cases h
  | number n =>
    rcases number_cases (validate_number h) with ⟨w, rfl, h1⟩ | ⟨i, rfl, -, h1⟩ | ⟨q, rfl, -, -, h1⟩
    · exact ⟨n, rfl, asU64_is h1⟩
    · exact ⟨n, rfl, asI64_is h1⟩
    · exact ⟨n, rfl, asF64_is h1⟩

/-- C85: a number is called signed only if it is negative, or written as `-0`. (The numbers that `serde_json` keeps as
negative integers are negative.) -/
theorem C85_signed {n : Number} (hn : ∀ i, n = .negInt i → i.toInt < 0) {i : Int}
    (h : Schema.validateValue (.number n : NValue α) = .invalidType (.signed i)) :
    i < 0 ∨ n = .text (.whole true 0) := by
  rcases number_cases (validate_number h) with ⟨w, e, -⟩ | ⟨j, e, h1, h2⟩ | ⟨q, e, -⟩
  · cases e
  · cases e
    cases n with
    | posInt m => simp [Number.asU64] at h1
    | negInt j => cases h2; exact .inl (hn j rfl)
    | float q => cases h2
    | text t =>
      rcases t with ⟨_ | _, m⟩ | r
      · simp only [Number.asU64, true_and] at h1
        simp only [Number.asI64, Bool.false_eq_true, false_and, if_false, true_and] at h2
        split at h2
        · next hm => exact absurd (by omega) (show ¬ m < 2 ^ 64 from fun hm' => by simp [hm'] at h1)
        · cases h2
      · simp only [Number.asI64, true_and, Bool.true_eq_false, false_and, if_false] at h2
        split at h2
        · cases h2
          by_cases hm : m = 0
          · exact .inr (by rw [hm])
          · exact .inl (by omega)
        · cases h2
      · cases h2
  · cases e

/-- C85: a number is called a float only if it is one, or is written with a fraction or an exponent, or is an integer
outside `i64` and `u64`. -/
theorem C85_float {n : Number} {q : Rat}
    (h : Schema.validateValue (.number n : NValue α) = .invalidType (.float q)) :
    n = .float q ∨ n = .text (.other q) ∨
      ∃ i : Int, q = (i : Rat) ∧ (i < -(2 ^ 63) ∨ 2 ^ 64 ≤ i) ∧ ∃ minus m, n = .text (.whole minus m) := by
  rcases number_cases (validate_number h) with ⟨w, e, -⟩ | ⟨j, e, -⟩ | ⟨q, e, h1, h2, h3⟩
  · cases e
  · cases e
  · cases e
    have h4 := asF64_is h3
    cases n with
    | posInt m => cases h1
    | negInt j => cases h2
    | float q => cases h4; exact .inl rfl
    | text t =>
      rcases t with ⟨_ | _, m⟩ | r
      · refine .inr (.inr ⟨m, h4, .inr ?_, _, _, rfl⟩)
        simp only [Number.asU64, true_and] at h1
        have : ¬ m < 2 ^ 64 := fun hm => by simp [hm] at h1
        omega
      · refine .inr (.inr ⟨-m, h4, .inl ?_, _, _, rfl⟩)
        simp only [Number.asI64, true_and] at h2
        have : ¬ m ≤ 2 ^ 63 := fun hm => by simp [hm] at h2
        omega
      · cases h4; exact .inr (.inl rfl)

/-- The hypotheses of `C85_signed` and `C85_float`. -/
example : Schema.validateValue (.number (.negInt (-5)) : NValue Json) = .invalidType (.signed (-5)) ∧
    Schema.validateValue (.number (.text (.other 1)) : NValue Json) = .invalidType (.float 1) := by decide +kernel

/-- The hypothesis of `C85_partial` and `C85_error`. -/
example : Schema.validateValue (.number (.posInt 5) : NValue Json) = .invalidType (.unsigned 5) := by decide +kernel

/-- `1e400` is a number that is too large: with the feature `arbitrary_precision`, reading it as a schema panics. -/
theorem C85_Full_false : ¬ C85_Full := by
  intro h
  refine h (.number (.text (.other ((10 ^ 400 : Int) : Rat)))) ((C85_iff _).2 ⟨_, rfl, _, rfl, _, rfl, .inl ?_⟩)
  rw [Rat.intCast_le_intCast]
  decide +kernel

/-- C85: so a transform panics at the place of a subschema exactly if there is such a number, or a schema on which the
transform itself panics. -/
theorem C85_visit (t : NValue α → Option (NValue α)) (v : NValue α) : visitValue t v = none ↔
    (∃ n, v = .number n ∧ TooLarge n) ∨ SchemaValue v ∧ t v = none := by
  rw [← C85_iff, ← C85_ok]
  unfold visitValue Schema.tryFromValue
  cases Schema.validateValue v <;> simp

/-- C85: otherwise values that are no schemas stay as they are. -/
theorem C85_visit_other (t : NValue α → Option (NValue α)) {v : NValue α} (h : ¬ SchemaValue v)
    (hn : ∀ n, v = .number n → ¬ TooLarge n) : visitValue t v = some v := by
  have h1 : Schema.validateValue v ≠ .panic := fun hp => by
    obtain ⟨n, e, hl⟩ := (C85_iff v).1 hp
    exact hn n e hl
  have h2 : Schema.validateValue v ≠ .ok := fun ho => h ((C85_ok v).1 ho)
  unfold visitValue Schema.tryFromValue
  cases hv : Schema.validateValue v with
  | ok => exact absurd hv h2
  | invalidType u => rfl
  | panic => exact absurd hv h1

/-- The hypotheses of `C85_visit_other`. -/
example : ¬ SchemaValue (.null : NValue Json) ∧ ∀ n, (.null : NValue Json) = .number n → ¬ TooLarge n :=
  ⟨by simp [SchemaValue], by simp⟩

end Verif
