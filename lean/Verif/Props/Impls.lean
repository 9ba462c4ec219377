import Verif.Impls
import Verif.Lemmas.SemEval
import Mathlib.Data.List.Forall2

/-!
# C40, C42, C44: integers, sequences and core types
-/

namespace Verif
open Spec

section
variable {D : Dialect} {env : Env} {i : Json}

/-! ## Reading off the validity of literals -/

theorem typeMatch_object : typeMatch (.str "object") i = true ↔ ∃ m, i = .obj m := by
  cases i <;> simp [typeMatch, typeName]
theorem typeMatch_array : typeMatch (.str "array") i = true ↔ ∃ l, i = .arr l := by
  cases i <;> simp [typeMatch, typeName]
theorem typeMatch_string : typeMatch (.str "string") i = true ↔ ∃ s, i = .str s := by
  cases i <;> simp [typeMatch, typeName]
theorem typeMatch_integer : typeMatch (.str "integer") i = true ↔ ∃ x : JNum, ∃ n : Int, i = .num x ∧ x.val = n := by
  cases i with
  | num x =>
    simp only [typeMatch, typeName, beq_iff_eq, Json.num.injEq, exists_and_left, exists_eq_left']
    constructor
    · intro h
      exact ⟨x.val.num, Rat.ext (by simp) (by simpa using h)⟩
    · rintro ⟨n, hn⟩
      rw [hn]; rfl
  | _ => simp [typeMatch, typeName]

/-- `type` without `nullable`. -/
theorem entryOk_type {m : List (String × Json)} (h : Obj.get m "nullable" = none) (v : Json) :
    EntryOk D env m i "type" v ↔ typeMatch v i = true := by
  unfold EntryOk
  rw [h]
  simp

theorem entryOk_format {m : List (String × Json)} (v : Json) : EntryOk D env m i "format" v ↔ True :=
  iff_true_intro (entryOk_annotation (by decide) v)

theorem entryOk_minimum {m : List (String × Json)} (a : Int) : EntryOk D env m i "minimum" (.num (.int a)) ↔
    ∀ x : JNum, i = .num x → (a : Rat) ≤ x.val := by
  rw [entryOk_simple (by decide)]
  cases i with
  | num x =>
    simp only [simple, onNum, Json.num.injEq, forall_eq']
    exact decide_eq_true_iff
  | _ => simp [simple, onNum]

theorem entryOk_maximum {m : List (String × Json)} (a : Int) : EntryOk D env m i "maximum" (.num (.int a)) ↔
    ∀ x : JNum, i = .num x → x.val ≤ (a : Rat) := by
  rw [entryOk_simple (by decide)]
  cases i with
  | num x =>
    simp only [simple, onNum, Json.num.injEq, forall_eq']
    exact decide_eq_true_iff
  | _ => simp [simple, onNum]

theorem entryOk_minItems {m : List (String × Json)} (a : Nat) : EntryOk D env m i "minItems" (.num (.int a)) ↔
    ∀ l, i = .arr l → a ≤ l.length := by
  rw [entryOk_simple (by decide)]
  cases i <;> simp [simple, onLen, arrLen, JNum.val, Rat.intCast_natCast, Rat.natCast_le_natCast]

theorem entryOk_maxItems {m : List (String × Json)} (a : Nat) : EntryOk D env m i "maxItems" (.num (.int a)) ↔
    ∀ l, i = .arr l → l.length ≤ a := by
  rw [entryOk_simple (by decide)]
  cases i <;> simp [simple, onLen, arrLen, JNum.val, Rat.intCast_natCast, Rat.natCast_le_natCast]

/-- The number is an integer. -/
theorem rat_le_int {x : JNum} {n : Int} (h : x.val = n) (a : Int) : (a : Rat) ≤ x.val ↔ a ≤ n := by
  rw [h, Rat.intCast_le_intCast]
theorem int_le_rat {x : JNum} {n : Int} (h : x.val = n) (a : Int) : x.val ≤ (a : Rat) ↔ n ≤ a := by
  rw [h, Rat.intCast_le_intCast]

end

/-! ## C40: integers -/

/-- The width in bits; `w` is the width of pointers. -/
def Spec.bits (w : Nat) : IntTy → Nat
  | .i8 | .u8 => 8
  | .i16 | .u16 => 16
  | .i32 | .u32 => 32
  | .i64 | .u64 => 64
  | .i128 | .u128 => 128
  | .isize | .usize => w

/-- A value of the type. -/
def Spec.Holds (w : Nat) (t : IntTy) (n : Int) : Prop :=
  if t ∈ [IntTy.i8, .i16, .i32, .i64, .i128, .isize] then
    -2 ^ (bits w t - 1) ≤ n ∧ n < 2 ^ (bits w t - 1)
  else 0 ≤ n ∧ n < 2 ^ bits w t

/-- The schema says more than the sign. -/
def Spec.Bounded (t : IntTy) : Prop := t ∈ [IntTy.i8, .i16, .u8, .u16]

/-- The integer types without a sign. -/
def Spec.Unsigned (t : IntTy) : Prop := t ∈ [IntTy.u8, .u16, .u32, .u64, .u128, .usize]

/-- A JSON number that is an integer (`1.0` counts). -/
def Spec.IsInt (i : Json) (n : Int) : Prop := ∃ x : JNum, i = .num x ∧ x.val = n

section
variable {D : Dialect} {env : Env} {i : Json}

theorem valid_rangedInt (f : String) (lo hi : Int) :
    Valid D env (rangedInt f lo hi) i ↔ ∃ n, IsInt i n ∧ lo ≤ n ∧ n ≤ hi := by
  unfold rangedInt
  rw [valid_mkObj (by simp [Obj.keys]) (.inr rfl)]
  simp only [List.mem_cons, List.not_mem_nil, or_false, forall_eq_or_imp, forall_eq]
  rw [entryOk_type rfl, entryOk_format, entryOk_minimum, entryOk_maximum, typeMatch_integer]
  constructor
  · rintro ⟨⟨x, n, rfl, hn⟩, -, h1, h2⟩
    exact ⟨n, ⟨x, rfl, hn⟩, (rat_le_int hn lo).1 (h1 x rfl), (int_le_rat hn hi).1 (h2 x rfl)⟩
  · rintro ⟨n, ⟨x, rfl, hn⟩, h1, h2⟩
    refine ⟨⟨x, n, rfl, hn⟩, trivial, ?_, ?_⟩
    · rintro y hy; cases hy; exact (rat_le_int hn lo).2 h1
    · rintro y hy; cases hy; exact (int_le_rat hn hi).2 h2

/-- `unsignedInt` with another minimum. -/
def unsignedFrom (f : String) (lo : Int) : Json :=
  mkObj [("type", .str "integer"), ("format", .str f), ("minimum", .num (.int lo))]

theorem isInt_unique {n k : Int} (h : IsInt i n) (h' : IsInt i k) : n = k := by
  obtain ⟨x, rfl, hx⟩ := h
  obtain ⟨y, hy, hy'⟩ := h'
  cases hy
  exact Rat.intCast_inj.1 (hx.symm.trans hy')

theorem jeq_zero : simple env "const" (.num (.int 0)) i = true ↔ IsInt i 0 := by
  cases i with
  | num x =>
    simp only [simple, jeq, canon, beq_iff_eq, Json.num.injEq, JNum.flt.injEq, IsInt, exists_eq_left']
    exact eq_comm
  | _ => simp [simple, jeq, canon, IsInt]

theorem valid_unsignedFrom (f : String) (lo : Int) :
    Valid D env (unsignedFrom f lo) i ↔ ∃ n, IsInt i n ∧ lo ≤ n := by
  unfold unsignedFrom
  rw [valid_mkObj (by simp [Obj.keys]) (.inr rfl)]
  simp only [List.mem_cons, List.not_mem_nil, or_false, forall_eq_or_imp, forall_eq]
  rw [entryOk_type rfl, entryOk_format, entryOk_minimum, typeMatch_integer]
  constructor
  · rintro ⟨⟨x, n, rfl, hn⟩, -, h1⟩
    exact ⟨n, ⟨x, rfl, hn⟩, (rat_le_int hn lo).1 (h1 x rfl)⟩
  · rintro ⟨n, ⟨x, rfl, hn⟩, h1⟩
    refine ⟨⟨x, n, rfl, hn⟩, trivial, ?_⟩
    rintro y hy; cases hy; exact (rat_le_int hn lo).2 h1

theorem valid_unsignedInt (f : String) : Valid D env (unsignedInt f) i ↔ ∃ n, IsInt i n ∧ 0 ≤ n :=
  valid_unsignedFrom f 0

theorem valid_typeFormat (t f : String) : Valid D env (typeFormat t f) i ↔ typeMatch (.str t) i = true := by
  unfold typeFormat
  rw [valid_mkObj (by simp [Obj.keys]) (.inr rfl)]
  simp only [List.mem_cons, List.not_mem_nil, or_false, forall_eq_or_imp, forall_eq]
  rw [entryOk_type rfl, entryOk_format, and_true]

theorem valid_typeOnly_iff (t : String) : Valid D env (typeOnly t) i ↔ typeMatch (.str t) i = true := by
  unfold typeOnly
  rw [valid_mkObj (by simp [Obj.keys]) (.inr rfl)]
  simp only [List.mem_cons, List.not_mem_nil, or_false, forall_eq]
  rw [entryOk_type rfl]

/-- C40: which instances the schema of an integer type accepts. -/
theorem C40_exact (w : Nat) (t : IntTy) : Valid D env (intSchema t) i ↔
    ∃ n, IsInt i n ∧ (Bounded t → Holds w t n) ∧ (Unsigned t → 0 ≤ n) := by
  cases t <;>
    simp [intSchema, valid_rangedInt, valid_unsignedInt, valid_typeFormat, typeMatch_integer, Bounded, Unsigned,
      Holds, bits, IsInt, -exists_and_right, -exists_and_left] <;> try exact exists_comm
  all_goals
    refine exists_congr fun n => and_congr_right fun _ => ?_
    omega

/-- C40: every value of the type is accepted. -/
theorem C40_accepts (w : Nat) (t : IntTy) (n : Int) (h : Holds w t n) :
    Valid D env (intSchema t) (.num (.int n)) := by
  rw [C40_exact w]
  refine ⟨n, ⟨_, rfl, rfl⟩, fun _ => h, fun hu => ?_⟩
  unfold Holds at h
  rw [if_neg] at h
  · exact h.1
  · unfold Unsigned at hu
    revert hu; cases t <;> decide

/-- C40: NonZero types reject zero in addition. -/
theorem C40_nonZero (t : IntTy) : Valid D env (nonZeroSchema t) i ↔
    Valid D env (intSchema t) i ∧ ¬ IsInt i 0 := by
  have hz : (schemaLike (mkObj [("const", .num (.int 0))]) = true →
      ¬ Valid D env (mkObj [("const", .num (.int 0))]) i) ↔ ¬ IsInt i 0 := by
    rw [valid_mkObj (by simp [Obj.keys]) (.inr rfl)]
    simp only [List.mem_cons, List.not_mem_nil, or_false, forall_eq]
    rw [entryOk_simple (by decide), jeq_zero]
    exact ⟨fun h => h rfl, fun h _ => h⟩
  by_cases hs : t.signed = true
  · unfold nonZeroSchema
    rw [if_pos hs, ← hz]
    obtain ⟨l, hl, hr⟩ : ∃ l, intSchema t = .obj (Obj.ofList l) ∧
        ∀ k ∈ ["$ref", "not"], Obj.get (Obj.ofList l) k = none := by
      revert hs
      cases t <;> intro hs <;> first | exact absurd hs (by decide) | exact ⟨_, rfl, by decide⟩
    rw [hl]
    show Valid D env (.obj (Obj.insert _ _ _)) i ↔ _
    rw [valid_insert (by decide) (Obj.sorted_ofList l) (.inr (hr _ (by simp))),
      Obj.remove_of_get_none (hr _ (by simp))]
    rfl
  · have key : ∀ f hi, (Valid D env (rangedInt f 1 hi) i ↔ Valid D env (rangedInt f 0 hi) i ∧ ¬ IsInt i 0) := by
      intro f hi
      rw [valid_rangedInt, valid_rangedInt]
      constructor
      · rintro ⟨n, hn, h1, h2⟩
        exact ⟨⟨n, hn, by omega, h2⟩, fun h0 => by have := isInt_unique hn h0; omega⟩
      · rintro ⟨⟨n, hn, h1, h2⟩, h0⟩
        refine ⟨n, hn, ?_, h2⟩
        have : n ≠ 0 := by rintro rfl; exact h0 hn
        omega
    have key2 : ∀ f, (Valid D env (unsignedFrom f 1) i ↔ Valid D env (unsignedInt f) i ∧ ¬ IsInt i 0) := by
      intro f
      rw [valid_unsignedFrom, valid_unsignedInt]
      constructor
      · rintro ⟨n, hn, h1⟩
        exact ⟨⟨n, hn, by omega⟩, fun h0 => by have := isInt_unique hn h0; omega⟩
      · rintro ⟨⟨n, hn, h1⟩, h0⟩
        refine ⟨n, hn, ?_⟩
        have : n ≠ 0 := by rintro rfl; exact h0 hn
        omega
    have e8 : nonZeroSchema .u8 = rangedInt "uint8" 1 255 := by decide
    have e16 : nonZeroSchema .u16 = rangedInt "uint16" 1 65535 := by decide
    have e : ∀ t ∈ [IntTy.u32, .u64, .u128, .usize], nonZeroSchema t = unsignedFrom t.format 1 := by decide
    cases t with
    | u8 => rw [e8]; exact key "uint8" 255
    | u16 => rw [e16]; exact key "uint16" 65535
    | u32 => rw [e .u32 (by decide)]; exact key2 _
    | u64 => rw [e .u64 (by decide)]; exact key2 _
    | u128 => rw [e .u128 (by decide)]; exact key2 _
    | usize => rw [e .usize (by decide)]; exact key2 _
    | _ => exact absurd rfl hs

/-- 8- and 16-bit types: the exact range. -/
example : Valid draft2020 trivialEnv (intSchema .i8) (.num (.int (-128))) ∧
    ¬ Valid draft2020 trivialEnv (intSchema .i8) (.num (.int 128)) ∧
    ¬ Valid draft2020 trivialEnv (intSchema .u64) (.num (.int (-1))) ∧
    ¬ Valid draft2020 trivialEnv (nonZeroSchema .i64) (.num (.int 0)) := by unfold Valid; decide
example : Holds 64 .usize (2 ^ 64 - 1) ∧ Holds 64 .i128 (-2 ^ 127) ∧ ¬ Holds 64 .u8 256 := by
  unfold Holds bits; decide

end

/-! ## C42: sequences, sets, arrays and tuples -/

section
variable {D : Dialect} {env : Env} {i : Json}

/-- `items` with a schema, without `prefixItems`. -/
theorem entryOk_items {m : List (String × Json)} {s : Json} (hs : IsSchema s)
    (hp : Obj.get m "prefixItems" = none) :
    EntryOk D env m i "items" s ↔ ∀ x ∈ elems i, Valid D env s x := by
  unfold EntryOk
  rw [hp]
  by_cases h : D.prefixItems = true
  · simp [h, elems]
  · simp only [h, Bool.false_eq_true, if_false]
    cases hs <;> rfl

theorem entryOk_unique {m : List (String × Json)} : EntryOk D env m i "uniqueItems" (.bool true) ↔
    ∀ l, i = .arr l → l.Pairwise fun a b => jeq a b = false := by
  rw [entryOk_simple (by decide)]
  cases i with
  | arr l =>
    simp only [simple, Json.arr.injEq, forall_eq']
    induction l with
    | nil => simp [distinct]
    | cons a l ih => simp [distinct, ih]
  | _ => simp [simple]

theorem entryOk_prefixItems {m : List (String × Json)} {l : List Json} (hp : D.prefixItems = true) :
    EntryOk D env m i "prefixItems" (.arr l) ↔
      ∀ (n : Nat) s x, l[n]? = some s → (elems i)[n]? = some x → Valid D env s x := by
  unfold EntryOk
  simp [hp, elems]

/-- C42: `Vec<T>`, slices, `VecDeque<T>`, `LinkedList<T>`, `BinaryHeap<T>`. -/
theorem C42_seq {s : Json} (hs : IsSchema s) : Valid D env (seqSchema s) i ↔
    ∃ l, i = .arr l ∧ ∀ x ∈ l, Valid D env s x := by
  unfold seqSchema
  rw [valid_mkObj (by simp [Obj.keys]) (.inr rfl)]
  simp only [List.mem_cons, List.not_mem_nil, or_false, forall_eq_or_imp, forall_eq]
  rw [entryOk_type rfl, typeMatch_array, entryOk_items hs rfl]
  constructor
  · rintro ⟨⟨l, rfl⟩, h⟩; exact ⟨l, rfl, h⟩
  · rintro ⟨l, rfl, h⟩; exact ⟨⟨l, rfl⟩, h⟩

/-- C42: `BTreeSet<T>` and `HashSet<T>`: elements are distinct as JSON values. -/
theorem C42_set {s : Json} (hs : IsSchema s) : Valid D env (setSchema s) i ↔
    ∃ l, i = .arr l ∧ (∀ x ∈ l, Valid D env s x) ∧ l.Pairwise fun a b => jeq a b = false := by
  unfold setSchema
  rw [valid_mkObj (by simp [Obj.keys]) (.inr rfl)]
  simp only [List.mem_cons, List.not_mem_nil, or_false, forall_eq_or_imp, forall_eq]
  rw [entryOk_type rfl, typeMatch_array, entryOk_items hs rfl, entryOk_unique]
  constructor
  · rintro ⟨⟨l, rfl⟩, h, h'⟩; exact ⟨l, rfl, h', h l rfl⟩
  · rintro ⟨l, rfl, h, h'⟩
    exact ⟨⟨l, rfl⟩, fun _ e => by cases e; exact h', h⟩

/-- C42: `[T; n]`. -/
theorem C42_array {s : Json} (hs : IsSchema s) (n : Nat) : Valid D env (arraySchema n s) i ↔
    ∃ l, i = .arr l ∧ l.length = n ∧ ∀ x ∈ l, Valid D env s x := by
  unfold arraySchema
  rw [valid_mkObj (by simp [Obj.keys]) (.inr rfl)]
  simp only [List.mem_cons, List.not_mem_nil, or_false, forall_eq_or_imp, forall_eq]
  rw [entryOk_type rfl, typeMatch_array, entryOk_items hs rfl, entryOk_minItems, entryOk_maxItems]
  constructor
  · rintro ⟨⟨l, rfl⟩, h, h1, h2⟩
    exact ⟨l, rfl, Nat.le_antisymm (h2 l rfl) (h1 l rfl), h⟩
  · rintro ⟨l, rfl, hn, h⟩
    exact ⟨⟨l, rfl⟩, h, fun _ e => by cases e; omega, fun _ e => by cases e; omega⟩

/-- C42: `[T; 0]`. -/
theorem C42_emptyArray : Valid D env emptyArraySchema i ↔ i = .arr [] := by
  unfold emptyArraySchema
  rw [valid_mkObj (by simp [Obj.keys]) (.inr rfl)]
  simp only [List.mem_cons, List.not_mem_nil, or_false, forall_eq_or_imp, forall_eq]
  rw [entryOk_type rfl, typeMatch_array, show Json.num (.int 0) = Json.num (.int (0 : Nat)) from rfl,
    entryOk_maxItems]
  constructor
  · rintro ⟨⟨l, rfl⟩, h⟩
    rw [List.length_eq_zero_iff.1 (Nat.le_zero.1 (h l rfl))]
  · rintro rfl
    exact ⟨⟨_, rfl⟩, fun _ e => by cases e; simp⟩

theorem forall₂_get {ss l : List Json} (R : Json → Json → Prop) (hl : l.length = ss.length) :
    (∀ (n : Nat) s x, ss[n]? = some s → l[n]? = some x → R s x) ↔ List.Forall₂ R ss l := by
  induction ss generalizing l with
  | nil =>
    obtain rfl : l = [] := by simpa using hl
    simp
  | cons s ss ih =>
    cases l with
    | nil => simp at hl
    | cons x l =>
      rw [List.forall₂_cons, ← ih (by simpa using hl)]
      constructor
      · intro h
        exact ⟨h 0 s x rfl rfl, fun n => h (n + 1)⟩
      · rintro ⟨h0, h⟩ n
        cases n with
        | zero => rintro _ _ ⟨⟩ ⟨⟩; exact h0
        | succ n => exact h n

/-- C42: tuples, in a dialect with `prefixItems` (the schema as generated; for the others the `prefixItems`
are transformed, see `C19_valid_partial`). -/
theorem C42_tuple (hp : D.prefixItems = true) (ss : List Json) : Valid D env (tupleImpl ss) i ↔
    ∃ l, i = .arr l ∧ List.Forall₂ (Valid D env) ss l := by
  unfold tupleImpl
  rw [valid_mkObj (by simp [Obj.keys]) (.inr rfl)]
  simp only [List.mem_cons, List.not_mem_nil, or_false, forall_eq_or_imp, forall_eq]
  rw [entryOk_type rfl, typeMatch_array, entryOk_prefixItems hp, entryOk_minItems, entryOk_maxItems]
  constructor
  · rintro ⟨⟨l, rfl⟩, h, h1, h2⟩
    exact ⟨l, rfl, (forall₂_get _ (Nat.le_antisymm (h2 l rfl) (h1 l rfl))).1 h⟩
  · rintro ⟨l, rfl, h⟩
    have hn := h.length_eq
    exact ⟨⟨l, rfl⟩, (forall₂_get _ hn.symm).2 h, fun _ e => by cases e; omega, fun _ e => by cases e; omega⟩

example : IsSchema (intSchema .u8) := by exact .obj _
example : Valid draft2020 trivialEnv (tupleImpl [intSchema .u8, typeOnly "string"])
      (.arr [.num (.int 1), .str "a"]) ∧
    ¬ Valid draft2020 trivialEnv (tupleImpl [intSchema .u8, typeOnly "string"])
      (.arr [.num (.int 1), .str "a", .null]) ∧
    ¬ Valid draft2020 trivialEnv (setSchema (intSchema .u8)) (.arr [.num (.int 1), .num (.flt 1)]) ∧
    ¬ Valid draft2020 trivialEnv (arraySchema 2 (intSchema .u8)) (.arr [.num (.int 1)]) := by unfold Valid; decide

end

/-! ## C44: core enums and ranges -/

section
variable {D : Dialect} {env : Env} {i : Json}

theorem entryOk_required {m : List (String × Json)} (l : List String) :
    EntryOk D env m i "required" (.arr (l.map .str)) ↔
      ∀ o, i = .obj o → ∀ k ∈ l, ∃ x, Obj.get o k = some x := by
  rw [entryOk_simple (by decide)]
  cases i with
  | obj o =>
    simp [simple, requiredOk, hasMember, members, Obj.has, Option.isSome_iff_exists, List.all_map]
  | _ => simp [simple, requiredOk]

/-- `properties` in terms of lookups. -/
theorem entryOk_properties {m p : List (String × Json)} : EntryOk D env m i "properties" (.obj p) ↔
    ∀ e ∈ members i, ∀ s, Obj.get p e.1 = some s → Valid D env s e.2 := by
  unfold EntryOk
  simp [members]

/-- An object schema with required properties accepts the objects that have them with valid values. -/
theorem valid_allRequired {ps : List (String × Json)} (hn : (Obj.keys ps).Nodup) (hi : i.WF) :
    Valid D env (mkObj [("type", .str "object"), ("properties", mkObj ps),
      ("required", .arr ((Obj.keys ps).map .str))]) i ↔
    ∃ o, i = .obj o ∧ ∀ e ∈ ps, ∃ x, Obj.get o e.1 = some x ∧ Valid D env e.2 x := by
  rw [valid_mkObj (by simp [Obj.keys]) (.inr rfl)]
  simp only [List.mem_cons, List.not_mem_nil, or_false, forall_eq_or_imp, forall_eq]
  rw [entryOk_type rfl, typeMatch_object]
  show _ ∧ EntryOk D env _ i "properties" (.obj (Obj.ofList ps)) ∧ _ ↔ _
  rw [entryOk_properties, entryOk_required]
  constructor
  · rintro ⟨⟨o, rfl⟩, h, h'⟩
    refine ⟨o, rfl, fun e he => ?_⟩
    obtain ⟨x, hx⟩ := h' o rfl e.1 (List.mem_map_of_mem he)
    exact ⟨x, hx, h (e.1, x) (Obj.get_mem hx) e.2 (by rw [get_ofList hn]; exact Obj.get_of_mem_nodup hn he)⟩
  · rintro ⟨o, rfl, h⟩
    have ho : Obj.Sorted o := by cases hi with | obj _ h _ => exact h
    refine ⟨⟨o, rfl⟩, ?_, ?_⟩
    · intro e he s hs
      rw [get_ofList hn] at hs
      obtain ⟨x, hx, hv⟩ := h (e.1, s) (Obj.get_mem hs)
      have := Obj.get_of_mem_sorted ho (q := e.1) (v := e.2) he
      rw [hx] at this
      cases this
      exact hv
    · rintro _ ⟨⟩ k hk
      obtain ⟨e, he, rfl⟩ := List.mem_map.1 hk
      obtain ⟨x, hx, -⟩ := h e he
      exact ⟨x, hx⟩

/-- The instance is an object with a valid member of this name. -/
def Spec.HasMember (D : Dialect) (env : Env) (k : String) (s i : Json) : Prop :=
  ∃ o x, i = .obj o ∧ Obj.get o k = some x ∧ Valid D env s x

theorem valid_oneProperty {k : String} {s : Json} (hi : i.WF) :
    Valid D env (oneProperty k s) i ↔ HasMember D env k s i := by
  have := valid_allRequired (D := D) (env := env) (ps := [(k, s)]) (by simp [Obj.keys]) hi
  unfold oneProperty
  refine this.trans ?_
  unfold HasMember
  constructor
  · rintro ⟨o, rfl, h⟩
    obtain ⟨x, hx⟩ := h (k, s) (by simp)
    exact ⟨o, x, rfl, hx⟩
  · rintro ⟨o, x, rfl, hx⟩
    refine ⟨o, rfl, ?_⟩
    intro e he
    obtain rfl : e = (k, s) := by simpa using he
    exact ⟨x, hx⟩

/-- `oneOf` alone. -/
theorem valid_oneOf {l : List Json} : Valid D env (mkObj [("oneOf", .arr l)]) i ↔
    l.countP (fun s => (den D env s i).ok) = 1 := by
  rw [valid_mkObj (by simp [Obj.keys]) (.inr rfl)]
  simp only [List.mem_cons, List.not_mem_nil, or_false, forall_eq]
  rfl

theorem valid_oneOf_two {a b : Json} : Valid D env (mkObj [("oneOf", .arr [a, b])]) i ↔
    (Valid D env a i ∧ ¬ Valid D env b i) ∨ (¬ Valid D env a i ∧ Valid D env b i) := by
  rw [valid_oneOf]
  unfold Valid
  cases h : (den D env a i).ok <;> cases h' : (den D env b i).ok <;> simp [*]

/-- C44: `Result`, exactly. -/
theorem C44_result {ok err : Json} (hi : i.WF) : Valid D env (resultSchema ok err) i ↔
    (HasMember D env "Ok" ok i ∧ ¬ HasMember D env "Err" err i) ∨
    (¬ HasMember D env "Ok" ok i ∧ HasMember D env "Err" err i) := by
  unfold resultSchema
  rw [valid_oneOf_two, valid_oneProperty hi, valid_oneProperty hi]

/-- An object with one member. -/
theorem hasMember_single {k k' : String} {s x : Json} :
    HasMember D env k s (.obj [(k', x)]) ↔ k' = k ∧ Valid D env s x := by
  unfold HasMember
  constructor
  · rintro ⟨o, y, ho, hy, hv⟩
    cases ho
    rw [Obj.get_cons] at hy
    by_cases h : k' = k
    · rw [if_pos h] at hy; cases hy; exact ⟨h, hv⟩
    · rw [if_neg h] at hy; cases hy
  · rintro ⟨rfl, hv⟩
    exact ⟨_, x, rfl, by rw [Obj.get_cons, if_pos rfl], hv⟩

theorem hasMember_obj {k : String} {s : Json} (h : HasMember D env k s i) : ∃ o, i = .obj o := by
  obtain ⟨o, _, rfl, _⟩ := h; exact ⟨o, rfl⟩

/-- C44: `Result`, for objects with one member. -/
theorem C44_result_single {ok err : Json} (k : String) (x : Json) (hx : x.WF) :
    Valid D env (resultSchema ok err) (.obj [(k, x)]) ↔
      (k = "Ok" ∧ Valid D env ok x) ∨ (k = "Err" ∧ Valid D env err x) := by
  have hi : (Json.obj [(k, x)]).WF := .obj _ (List.pairwise_singleton _ _) (by simpa using hx)
  rw [C44_result hi, hasMember_single, hasMember_single]
  constructor
  · rintro (⟨h, -⟩ | ⟨-, h⟩)
    · exact .inl h
    · exact .inr h
  · rintro (⟨rfl, h⟩ | ⟨rfl, h⟩)
    · exact .inl ⟨⟨rfl, h⟩, fun h => absurd h.1 (by decide)⟩
    · exact .inr ⟨fun h => absurd h.1 (by decide), rfl, h⟩

theorem valid_unbounded : Valid D env (mkObj [("type", .str "string"), ("const", .str "Unbounded")]) i ↔
    i = .str "Unbounded" := by
  rw [valid_mkObj (by simp [Obj.keys]) (.inr rfl)]
  simp only [List.mem_cons, List.not_mem_nil, or_false, forall_eq_or_imp, forall_eq]
  rw [entryOk_type rfl, typeMatch_string, entryOk_simple (by decide)]
  constructor
  · rintro ⟨⟨s, rfl⟩, h⟩
    simp only [simple, jeq, canon, beq_iff_eq, Json.str.injEq] at h
    rw [← h]
  · rintro rfl
    exact ⟨⟨_, rfl⟩, by simp [simple, jeq, canon]⟩

/-- C44: `Bound`, exactly. -/
theorem C44_bound {s : Json} (hi : i.WF) : Valid D env (boundSchema s s) i ↔
    (HasMember D env "Included" s i ∧ ¬ HasMember D env "Excluded" s i) ∨
    (¬ HasMember D env "Included" s i ∧ HasMember D env "Excluded" s i) ∨ i = .str "Unbounded" := by
  unfold boundSchema
  rw [valid_oneOf, ← valid_oneProperty hi, ← valid_oneProperty hi, ← valid_unbounded (D := D) (env := env)]
  have hx : Valid D env (mkObj [("type", .str "string"), ("const", .str "Unbounded")]) i →
      ¬ Valid D env (oneProperty "Included" s) i ∧ ¬ Valid D env (oneProperty "Excluded" s) i := by
    rw [valid_unbounded, valid_oneProperty hi, valid_oneProperty hi]
    rintro rfl
    exact ⟨fun h => (by obtain ⟨o, h⟩ := hasMember_obj h; cases h),
      fun h => (by obtain ⟨o, h⟩ := hasMember_obj h; cases h)⟩
  revert hx
  unfold Valid
  cases h : (den D env (oneProperty "Included" s) i).ok <;>
    cases h' : (den D env (oneProperty "Excluded" s) i).ok <;>
    cases h'' : (den D env (mkObj [("type", .str "string"), ("const", .str "Unbounded")]) i).ok <;>
    simp [*]

/-- C44: `Bound`, for objects with one member. -/
theorem C44_bound_single {s : Json} (k : String) (x : Json) (hx : x.WF) :
    Valid D env (boundSchema s s) (.obj [(k, x)]) ↔ (k = "Included" ∨ k = "Excluded") ∧ Valid D env s x := by
  have hi : (Json.obj [(k, x)]).WF := .obj _ (List.pairwise_singleton _ _) (by simpa using hx)
  rw [C44_bound hi, hasMember_single, hasMember_single]
  constructor
  · rintro (⟨h, -⟩ | ⟨-, h⟩ | h)
    · exact ⟨.inl h.1, h.2⟩
    · exact ⟨.inr h.1, h.2⟩
    · cases h
  · rintro ⟨rfl | rfl, h⟩
    · exact .inl ⟨⟨rfl, h⟩, fun h => absurd h.1 (by decide)⟩
    · exact .inr (.inl ⟨fun h => absurd h.1 (by decide), rfl, h⟩)

/-- C44: `Range` and `RangeInclusive`. -/
theorem C44_range {s : Json} (hi : i.WF) : Valid D env (rangeSchema s) i ↔
    HasMember D env "start" s i ∧ HasMember D env "end" s i := by
  have := valid_allRequired (D := D) (env := env) (ps := [("start", s), ("end", s)]) (by simp [Obj.keys]) hi
  refine this.trans ?_
  constructor
  · rintro ⟨o, rfl, h⟩
    obtain ⟨x, hx⟩ := h ("start", s) (by simp)
    obtain ⟨y, hy⟩ := h ("end", s) (by simp)
    exact ⟨⟨o, x, rfl, hx⟩, ⟨o, y, rfl, hy⟩⟩
  · rintro ⟨⟨o, x, rfl, hx⟩, ⟨o', y, ho, hy⟩⟩
    cases ho
    refine ⟨o, rfl, ?_⟩
    simp only [List.mem_cons, List.not_mem_nil, or_false, forall_eq_or_imp, forall_eq]
    exact ⟨⟨x, hx⟩, ⟨y, hy⟩⟩

/-- The instance is an object with a non-negative integer of this name. -/
def Spec.HasNat (k : String) (i : Json) : Prop :=
  ∃ o x n, i = .obj o ∧ Obj.get o k = some x ∧ IsInt x n ∧ 0 ≤ n

/-- The order of the entries of a literal does not matter. -/
theorem mkObj_perm {l l' : List (String × Json)} (h : l.Perm l') (hn : (Obj.keys l).Nodup) :
    mkObj l = mkObj l' := by
  have hn' : (Obj.keys l').Nodup := (h.map Prod.fst).nodup_iff.1 hn
  unfold mkObj
  congr 1
  refine Obj.ext_sorted (Obj.sorted_ofList l) (Obj.sorted_ofList l') fun k => ?_
  rw [get_ofList hn, get_ofList hn']
  cases hg : Obj.get l' k with
  | some v => exact Obj.get_of_mem_nodup hn (h.mem_iff.2 (Obj.get_mem hg))
  | none =>
    rw [Obj.get_eq_none] at hg ⊢
    exact fun hk => hg ((h.map Prod.fst).mem_iff.1 hk)

theorem timeSchema_eq (secs nanos : String) : timeSchema secs nanos =
    mkObj [("type", .str "object"), ("properties", mkObj [(secs, intSchema .u64), (nanos, intSchema .u32)]),
      ("required", .arr ((Obj.keys [(secs, intSchema .u64), (nanos, intSchema .u32)]).map .str))] :=
  mkObj_perm (.cons _ (.swap _ _ _)) (by simp [Obj.keys])

/-- C44: `Duration` and `SystemTime`. -/
theorem C44_time {secs nanos : String} (h : secs ≠ nanos) (hi : i.WF) :
    Valid D env (timeSchema secs nanos) i ↔ HasNat secs i ∧ HasNat nanos i := by
  have := valid_allRequired (D := D) (env := env) (ps := [(secs, intSchema .u64), (nanos, intSchema .u32)])
    (by simp [Obj.keys, h]) hi
  rw [timeSchema_eq]
  refine this.trans ?_
  simp only [List.mem_cons, List.not_mem_nil, or_false, forall_eq_or_imp, forall_eq]
  show (∃ o, i = .obj o ∧ (∃ x, Obj.get o secs = some x ∧ Valid D env (unsignedInt _) x) ∧
    (∃ x, Obj.get o nanos = some x ∧ Valid D env (unsignedInt _) x)) ↔ _
  simp only [valid_unsignedInt]
  constructor
  · rintro ⟨o, rfl, ⟨x, hx, n, hn⟩, ⟨y, hy, k, hk⟩⟩
    exact ⟨⟨o, x, n, rfl, hx, hn⟩, ⟨o, y, k, rfl, hy, hk⟩⟩
  · rintro ⟨⟨o, x, n, rfl, hx, hn⟩, ⟨o', y, k, ho, hy, hk⟩⟩
    cases ho
    exact ⟨o, rfl, ⟨x, hx, n, hn⟩, ⟨y, hy, k, hk⟩⟩

/-- C44: `Duration`. -/
theorem C44_duration (hi : i.WF) : Valid D env (timeSchema "secs" "nanos") i ↔
    HasNat "secs" i ∧ HasNat "nanos" i := C44_time (by decide) hi
/-- C44: `SystemTime`. -/
theorem C44_systemTime (hi : i.WF) : Valid D env (timeSchema "secs_since_epoch" "nanos_since_epoch") i ↔
    HasNat "secs_since_epoch" i ∧ HasNat "nanos_since_epoch" i := C44_time (by decide) hi

/-- The full claim for `Result`: nothing but an object with exactly the right variant key is accepted. -/
def C44_Full : Prop := ∀ (D : Dialect) (env : Env) (ok err i : Json), IsSchema ok → IsSchema err → i.WF →
  (Valid D env (resultSchema ok err) i ↔
    (∃ x, i = .obj [("Ok", x)] ∧ Valid D env ok x) ∨ (∃ x, i = .obj [("Err", x)] ∧ Valid D env err x))

/-- C44 fails: `{"Ok": 1, "extra": null}` is accepted (serde rejects it), since other members are not
excluded. -/
theorem C44_Full_false : ¬ C44_Full := by
  intro h
  have := (h draft2020 trivialEnv (intSchema .u8) (typeOnly "string")
    (.obj [("Ok", .num (.int 1)), ("extra", .null)]) (.obj _) (.obj _)
    (.obj _ (by unfold Obj.Sorted; decide) (by
      simp only [List.mem_cons, List.not_mem_nil, or_false, forall_eq_or_imp, forall_eq]
      exact ⟨.num _, .null⟩))).1 (by unfold Valid; decide)
  rcases this with ⟨x, hx, -⟩ | ⟨x, hx, -⟩ <;> simp at hx

/-- Also an object with both keys is accepted, when one payload is invalid. -/
example : Valid draft2020 trivialEnv (resultSchema (intSchema .u8) (typeOnly "string"))
    (.obj [("Err", .null), ("Ok", .num (.int 1))]) := by unfold Valid; decide

end
end Verif
