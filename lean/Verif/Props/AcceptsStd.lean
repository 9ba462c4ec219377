import Verif.Lemmas.World
import Verif.Spec.Serde
import Verif.Lemmas.Obeys
import Verif.Props.NullReady
import Verif.Props.EnumInternal

/-!
# The schemas of standard types accept what serde writes
-/

namespace Verif
open Spec

variable {τ : Type}

/-- The body of a declaration. -/
def bodyOf (I : TypeInfo τ) : Decl τ → Prog τ
  | .std x => stdBody x
  | .derived c => containerProg I c

/-- What the regular expression for decimal numbers means. -/
def Spec.DecimalRx (env : Env) : Prop := ∀ s, DecimalText s → env.rx "^-?\\d+(\\.\\d+)?$" s = true

/-- The type is a struct with named fields, without attributes that replace its schema. -/
structure Spec.PlainData (c : Container τ) (fs : List (Field τ)) : Prop where
  data : c.data = .struct (.struct fs)
  noWith : c.withTy = none
  noTransparent : c.transparent = none
  noInto : c.intoTy = none
  common : Harmless c.common

/-- The names of the members that are written for the fields of a struct, including those of flattened structs. -/
inductive Spec.FieldNames (decl : τ → Decl τ) (base : τ → τ) : List (Field τ) → List String → Prop where
  | nil : FieldNames decl base [] []
  | skip {f fs ns} : f.skipSer = true → FieldNames decl base fs ns → FieldNames decl base (f :: fs) ns
  | own {f fs ns} : f.skipSer = false → f.flatten = false → FieldNames decl base fs ns →
      FieldNames decl base (f :: fs) (f.name.ser :: ns)
  | flat {f fs ns c gs ms} : f.skipSer = false → f.flatten = true → decl (base f.ty) = .derived c →
      PlainData c gs → FieldNames decl base gs ms → FieldNames decl base fs ns →
      FieldNames decl base (f :: fs) (ms ++ ns)

/-- The names of the members that are written for a struct. -/
def Spec.TypeNames (decl : τ → Decl τ) (base : τ → τ) (t : τ) (ns : List String) : Prop :=
  ∃ c fs, decl t = .derived c ∧ PlainData c fs ∧ FieldNames decl base fs ns

/-- What is used of the relation between types and documents. -/
structure SerdeFacts (S : τ → Json → Prop) (K : Field τ → Json → Prop) (decl : τ → Decl τ) (I : TypeInfo τ) : Prop where
  wf : ∀ t j, S t j → j.WF
  names : ∀ t ns, TypeNames decl I.base t ns → ∀ j, S t j → ∃ p, j = .obj p ∧ ∀ e ∈ p, e.1 ∈ ns
  option : ∀ t, I.isOption t = true → ∀ j, S t j → j = .null ∨ S (I.base t) j
  derived : ∀ t c, decl t = .derived c → ∀ j, S t j → EncContainer S K I.base decl c j
  base : ∀ t, I.isOption t = false → I.base t = t
  map : ∀ t k v, decl t = .std (.map k v) → ∀ j, S t j → ∃ o, j = .obj o ∧ ∀ e ∈ o, S v e.2

/-- The schema comes from a run of the body of `t`, with some answers of the family. -/
def RanBody (F : Answers τ → Prop) (I : TypeInfo τ) (decl : τ → Decl τ) (t : τ) (s : Json) : Prop :=
  ∃ A, F A ∧ Returns A (bodyOf I (decl t)) s

/-- The answers of the family accept what serde writes (as described by `S`), under the `Serialize` contract. -/
structure Sound (D : Dialect) (env : Env) (S : τ → Json → Prop) (decl : τ → Decl τ) (I : TypeInfo τ)
    (F : Answers τ → Prop) : Prop extends SerdeFacts S (FieldObeys env) decl I where
  refs : D.refSiblings = true
  ser : ∀ A, F A → A.settings.contract = .serialize
  nullSub : ∀ A, F A → ∀ t s, A.sub t s → Nullable D env s
  nullDirect : ∀ A, F A → ∀ t s, A.direct t s → Nullable D env s
  sub : ∀ A, F A → ∀ t s, A.sub t s → ∀ j, S t j → Valid D env s j
  direct : ∀ A, F A → ∀ t s, A.direct t s → ∀ j, S t j → Valid D env s j
  unit : ∀ A, F A → ∀ s, A.sub I.unit s → s = nullSchema
  defs : ∀ A, F A → ∀ d, A.defs d → ∀ n m, Obj.get d n = some (.obj m) →
    env.ref (rawRef A.settings.definitionsPath.toList n) = den D env (.obj m)
  ran : ∀ A, F A → ∀ t s, A.direct t s → RanBody F I decl t s
  ranSub : ∀ A, F A → ∀ t s, A.sub t s → RanBody F I decl t s ∨
    ∃ r, s = Schema.newRef r ∧ ∀ j, S t j →
      ∃ v, (∀ i, (env.ref r i).ok = true ↔ Valid D env v i) ∧ RanBody F I decl t v

/-- What is assumed of the dialect and the regular expressions. -/
structure Spec.Modern (D : Dialect) (env : Env) : Prop where
  refs : D.refSiblings = true
  items : D.prefixItems = true
  digits : DigitRx env
  decimal : DecimalRx env

section
variable {D : Dialect} {env : Env} {S : τ → Json → Prop} {decl : τ → Decl τ} {I : TypeInfo τ}
  {F : Answers τ → Prop} {A : Answers τ} {w : Nat} {j s : Json}

theorem Sound.schSub (hF : Sound D env S decl I F) : ∀ A, F A → ∀ t s, A.sub t s → Sch s :=
  fun A hA t s h => (hF.nullSub A hA t s h).sch

theorem Sound.schDirect (hF : Sound D env S decl I F) : ∀ A, F A → ∀ t s, A.direct t s → Sch s :=
  fun A hA t s h => (hF.nullDirect A hA t s h).sch

theorem encSimple_type {t : String} (h : EncSimple t j) : typeMatch (.str t) j = true := by
  unfold EncSimple at h
  rcases h with ⟨rfl, rfl⟩ | ⟨rfl, b, rfl⟩ | ⟨rfl, s, rfl⟩ | ⟨rfl, x, rfl⟩ | ⟨rfl, n, rfl⟩ | ⟨rfl, o, rfl⟩ | ⟨rfl, l, rfl⟩
  · rfl
  · rfl
  · rfl
  · rfl
  · exact typeMatch_integer.2 ⟨_, n, rfl, rfl⟩
  · rfl
  · rfl

theorem encUnsigned_int {b : Nat} (h : EncUnsigned b j) : ∃ n : Int, IsInt j n ∧ 0 ≤ n ∧ n < 2 ^ b := by
  obtain ⟨n, rfl, h⟩ := h
  exact ⟨n, ⟨_, rfl, rfl⟩, h⟩

theorem twoMembers_get {a b : String} {P Q : Json → Prop} (hj : j.WF) (h : TwoMembers a b P Q j) :
    ∃ o x y, j = .obj o ∧ Obj.get o a = some x ∧ Obj.get o b = some y ∧ P x ∧ Q y := by
  obtain ⟨o, x, y, rfl, hp, hx, hy⟩ := h
  have hs : Obj.Sorted o := by cases hj; assumption
  exact ⟨o, x, y, rfl, Obj.get_of_mem_sorted hs (hp.mem_iff.2 (by simp)),
    Obj.get_of_mem_sorted hs (hp.mem_iff.2 (by simp)), hx, hy⟩

theorem valid_eitherSide {k : String} (hj : j.WF) :
    Valid D env (eitherSide k s) j ↔ ∃ x, j = .obj [(k, x)] ∧ Valid D env s x := by
  rw [← valid_external hj]
  have : eitherSide k s = newExternalVariant k s := by
    unfold eitherSide newExternalVariant
    refine mkObj_perm ?_ (by simp [Obj.keys])
    exact .cons _ (.cons _ (.swap _ _ _))
  rw [this]

theorem valid_char (c : Char) : Valid D env charSchema (.str (String.ofList [c])) := by
  unfold charSchema
  rw [valid_mkObj (by simp [Obj.keys]) (.inr rfl)]
  simp only [List.mem_cons, List.not_mem_nil, or_false, forall_eq_or_imp, forall_eq]
  rw [entryOk_type rfl, typeMatch_string, entryOk_simple (by decide), entryOk_simple (by decide)]
  refine ⟨⟨_, rfl⟩, ?_, ?_⟩ <;> simp [simple, onLen, strLen, JNum.val]

theorem returns_subAll {l : List τ} {k : List Json → Prog τ} {r : Json} (h : Returns A (subAll l k) r) :
    ∃ ss, List.Forall₂ A.sub l ss ∧ Returns A (k ss) r := by
  induction l generalizing k with
  | nil => exact ⟨[], .nil, h⟩
  | cons t l ih =>
    obtain ⟨s, hs, h⟩ := h
    obtain ⟨ss, h1, h2⟩ := ih h
    exact ⟨s :: ss, .cons hs h1, h2⟩

/-- What is used of the answers for a standard type. -/
structure StdSound (D : Dialect) (env : Env) (S : τ → Json → Prop) (A : Answers τ) : Prop where
  wf : ∀ t j, S t j → j.WF
  nullSub : ∀ t s, A.sub t s → Nullable D env s
  sub : ∀ t s, A.sub t s → ∀ j, S t j → Valid D env s j
  direct : ∀ t s, A.direct t s → ∀ j, S t j → Valid D env s j
  defs : ∀ d, A.defs d → ∀ n m, Obj.get d n = some (.obj m) →
    env.ref (rawRef A.settings.definitionsPath.toList n) = den D env (.obj m)

/-- The schema of the type depends on the contract. -/
def twoFaced : Std τ → Bool
  | .cString => true
  | .bytes _ => true
  | .decimal => true
  | _ => false

/-- The schema of a standard type accepts what serde writes for it. -/
theorem std_accepts_of (hM : Modern D env) (hS : StdSound D env S A) {x : Std τ}
    (hc : twoFaced x = true → A.settings.contract = .serialize)
    (h : Returns A (stdBody x) s) (hj : j.WF) (he : EncStd w S x j) : Valid D env s j := by
  cases x with
  | simple t => cases h; exact (valid_typeOnly_iff t).2 (encSimple_type he)
  | formatted t f => cases h; exact (valid_typeFormat t f).2 (encSimple_type he)
  | int t =>
    cases h
    obtain ⟨n, rfl, hn⟩ := he
    exact C40_accepts w t n hn
  | nonZero t =>
    cases h
    obtain ⟨n, rfl, hn, h0⟩ := he
    refine (C40_nonZero t).2 ⟨C40_accepts w t n hn, ?_⟩
    intro h
    exact h0 (isInt_unique ⟨_, rfl, rfl⟩ h)
  | char =>
    cases h
    obtain ⟨c, rfl⟩ := he
    exact valid_char c
  | value => cases h; rfl
  | option t =>
    obtain ⟨s1, h1, rfl⟩ := h
    rcases he with rfl | he
    · exact (hS.nullSub t s1 h1).valid
    · refine C41_mono ?_ (hS.sub t s1 h1 j he)
      rintro m rfl
      cases (hS.nullSub t _ h1).sch; assumption
  | seq t =>
    obtain ⟨s1, h1, rfl⟩ := h
    obtain ⟨l, rfl, hl⟩ := he
    exact (C42_seq (hS.nullSub t s1 h1).sch.isSchema).2 ⟨l, rfl, fun x hx => hS.sub t s1 h1 x (hl x hx)⟩
  | set t =>
    obtain ⟨s1, h1, rfl⟩ := h
    obtain ⟨l, rfl, hl, hd⟩ := he
    exact (C42_set (hS.nullSub t s1 h1).sch.isSchema).2 ⟨l, rfl, fun x hx => hS.sub t s1 h1 x (hl x hx), hd⟩
  | emptyArray => cases h; exact C42_emptyArray.2 he
  | array n t =>
    obtain ⟨s1, h1, rfl⟩ := h
    obtain ⟨l, rfl, hn, hl⟩ := he
    exact (C42_array (hS.nullSub t s1 h1).sch.isSchema n).2 ⟨l, rfl, hn, fun x hx => hS.sub t s1 h1 x (hl x hx)⟩
  | tuple ts =>
    obtain ⟨ss, h1, rfl⟩ := returns_subAll h
    obtain ⟨l, rfl, hl⟩ := he
    refine (C42_tuple hM.items ss).2 ⟨l, rfl, ?_⟩
    clear h hj hc
    induction h1 generalizing l with
    | nil => cases hl; exact .nil
    | @cons t s ts ss ht _ ih =>
      cases hl with
      | cons h1 h2 => exact .cons (hS.sub t s ht _ h1) (ih _ h2)
  | map k v =>
    obtain ⟨ks, h1, vs, h2, d, h3, rfl⟩ := h
    obtain ⟨o, rfl, ho⟩ := he
    refine C43_accepts_during hM.refs hM.digits (hS.defs d h3) ks vs o fun e he => ?_
    obtain ⟨⟨x, hx, hk⟩, hv⟩ := ho e he
    exact ⟨⟨x, hx, hS.direct k ks h1 x hk⟩, hS.sub v vs h2 _ hv⟩
  | result t e =>
    obtain ⟨s1, h1, s2, h2, rfl⟩ := h
    rcases he with ⟨x, rfl, hx⟩ | ⟨x, rfl, hx⟩
    · exact (C44_result_single _ x (hS.wf _ _ hx)).2 (.inl ⟨rfl, hS.sub t s1 h1 x hx⟩)
    · exact (C44_result_single _ x (hS.wf _ _ hx)).2 (.inr ⟨rfl, hS.sub e s2 h2 x hx⟩)
  | bound t =>
    obtain ⟨s1, h1, s2, h2, rfl⟩ := h
    unfold boundSchema
    rw [valid_oneOf]
    have hu : Valid D env (mkObj [("type", .str "string"), ("const", .str "Unbounded")]) j ↔ j = .str "Unbounded" :=
      valid_unbounded
    have hin : Valid D env (oneProperty "Included" s1) j ↔ HasMember D env "Included" s1 j := valid_oneProperty hj
    have hex : Valid D env (oneProperty "Excluded" s2) j ↔ HasMember D env "Excluded" s2 j := valid_oneProperty hj
    rw [List.countP_cons, List.countP_cons, List.countP_cons, List.countP_nil]
    unfold Valid at hu hin hex
    rcases he with rfl | ⟨x, rfl, hx⟩ | ⟨x, rfl, hx⟩
    · rw [if_pos (hu.2 rfl), if_neg (fun h => by obtain ⟨o, x, e, -⟩ := hex.1 h; cases e),
        if_neg (fun h => by obtain ⟨o, x, e, -⟩ := hin.1 h; cases e)]
    · rw [hasMember_single] at hin hex
      rw [if_pos (hin.2 ⟨rfl, hS.sub t s1 h1 x hx⟩), if_neg (fun h => absurd (hex.1 h).1 (by decide)),
        if_neg (fun h => by cases hu.1 h)]
    · rw [hasMember_single] at hin hex
      rw [if_pos (hex.2 ⟨rfl, hS.sub t s2 h2 x hx⟩), if_neg (fun h => absurd (hin.1 h).1 (by decide)),
        if_neg (fun h => by cases hu.1 h)]
  | range t =>
    obtain ⟨s1, h1, rfl⟩ := h
    obtain ⟨o, x, y, rfl, hx, hy, hxv, hyv⟩ := twoMembers_get hj he
    exact (C44_range hj).2 ⟨⟨o, x, rfl, hx, hS.sub t s1 h1 x hxv⟩, ⟨o, y, rfl, hy, hS.sub t s1 h1 y hyv⟩⟩
  | duration =>
    cases h
    obtain ⟨o, x, y, rfl, hx, hy, hxv, hyv⟩ := twoMembers_get hj he
    obtain ⟨n, hn, hn0, -⟩ := encUnsigned_int hxv
    obtain ⟨k, hk, hk0, -⟩ := encUnsigned_int hyv
    exact (C44_duration hj).2 ⟨⟨o, x, n, rfl, hx, hn, hn0⟩, ⟨o, y, k, rfl, hy, hk, hk0⟩⟩
  | systemTime =>
    cases h
    obtain ⟨o, x, y, rfl, hx, hy, hxv, hyv⟩ := twoMembers_get hj he
    obtain ⟨n, hn, hn0, -⟩ := encUnsigned_int hxv
    obtain ⟨k, hk, hk0, -⟩ := encUnsigned_int hyv
    exact (C44_systemTime hj).2 ⟨⟨o, x, n, rfl, hx, hn, hn0⟩, ⟨o, y, k, rfl, hy, hk, hk0⟩⟩
  | either l r =>
    obtain ⟨s1, h1, s2, h2, rfl⟩ := h
    unfold eitherSchema
    rw [valid_oneOf_two, valid_eitherSide hj, valid_eitherSide hj]
    rcases he with ⟨x, rfl, hx⟩ | ⟨x, rfl, hx⟩
    · refine .inl ⟨⟨x, rfl, hS.sub l s1 h1 x hx⟩, ?_⟩
      rintro ⟨y, hy, -⟩; simp at hy
    · refine .inr ⟨?_, ⟨x, rfl, hS.sub r s2 h2 x hx⟩⟩
      rintro ⟨y, hy, -⟩; simp at hy
  | osString =>
    cases h
    unfold osStringSchema
    rw [valid_oneOf_two, valid_oneProperty hj, valid_oneProperty hj]
    rcases he with ⟨x, rfl, l, rfl, hl⟩ | ⟨x, rfl, l, rfl, hl⟩
    · rw [hasMember_single, hasMember_single]
      refine .inl ⟨⟨rfl, (C42_seq (.obj _)).2 ⟨l, rfl, fun y hy => ?_⟩⟩, fun h => absurd h.1 (by decide)⟩
      obtain ⟨n, hn, h0, h1⟩ := encUnsigned_int (hl y hy)
      exact (valid_rangedInt _ 0 255).2 ⟨n, hn, h0, by omega⟩
    · rw [hasMember_single, hasMember_single]
      refine .inr ⟨fun h => absurd h.1 (by decide), ⟨rfl, (C42_seq (.obj _)).2 ⟨l, rfl, fun y hy => ?_⟩⟩⟩
      obtain ⟨n, hn, h0, h1⟩ := encUnsigned_int (hl y hy)
      exact (valid_rangedInt _ 0 65535).2 ⟨n, hn, h0, by omega⟩
  | cString =>
    simp only [stdBody, Returns] at h
    subst h
    rw [hc rfl]
    obtain ⟨l, rfl, hl⟩ := he
    have : cStringSchema .serialize = seqSchema (mkObj [("type", .str "integer"), ("minimum", .num (.int 1)),
        ("maximum", .num (.int 255))]) := rfl
    rw [this, C42_seq (show Sch _ from sch_mkObj _).isSchema]
    refine ⟨l, rfl, fun y hy => ?_⟩
    obtain ⟨n, rfl, h1, h2⟩ := hl y hy
    rw [valid_mkObj (by simp [Obj.keys]) (.inr rfl)]
    simp only [List.mem_cons, List.not_mem_nil, or_false, forall_eq_or_imp, forall_eq]
    rw [entryOk_type rfl, entryOk_minimum, entryOk_maximum, typeMatch_integer]
    refine ⟨⟨_, n, rfl, rfl⟩, ?_, ?_⟩
    · rintro x ⟨⟩; exact Rat.intCast_le_intCast.2 h1
    · rintro x ⟨⟩; exact Rat.intCast_le_intCast.2 h2
  | bytes u8 =>
    obtain ⟨s1, h1, h2⟩ := h
    simp only [Returns] at h2
    subst h2
    rw [hc rfl]
    obtain ⟨l, rfl, hl⟩ := he
    exact (C42_seq (hS.nullSub u8 s1 h1).sch.isSchema).2 ⟨l, rfl, fun x hx => hS.sub u8 s1 h1 x (hl x hx)⟩
  | decimal =>
    simp only [stdBody, Returns] at h
    subst h
    rw [hc rfl]
    obtain ⟨t, rfl, ht⟩ := he
    unfold decimalSchema
    simp only
    rw [valid_mkObj (by simp [Obj.keys]) (.inr rfl)]
    simp only [List.mem_cons, List.not_mem_nil, or_false, forall_eq_or_imp, forall_eq]
    rw [entryOk_type rfl, typeMatch_string, entryOk_simple (by decide)]
    exact ⟨⟨t, rfl⟩, hM.decimal t ht⟩

theorem Sound.std (hF : Sound D env S decl I F) (hA : F A) : StdSound D env S A where
  wf := hF.wf
  nullSub := hF.nullSub A hA
  sub := hF.sub A hA
  direct := hF.direct A hA
  defs := hF.defs A hA

/-- The schema of a standard type accepts what serde writes for it. -/
theorem std_accepts (hM : Modern D env) (hF : Sound D env S decl I F) (hA : F A) {x : Std τ}
    (h : Returns A (stdBody x) s) (hj : j.WF) (he : EncStd w S x j) : Valid D env s j :=
  std_accepts_of hM (hF.std hA) (fun _ => hF.ser A hA) h hj he

theorem sch_ensure {m : List (String × Json)} (h : Obj.Sorted m) : Sch (.obj m) := .obj h

theorem nullable_mkObj {l : List (String × Json)} (ht : Schema.hasType (mkObj l) "null" = false)
    (hk : ∀ e ∈ l, e.1 = "type" ∨ e.1 = "enum" ∨ e.1 ∈ nullBlind) : Nullable D env (mkObj l) := by
  refine nullable_own (Obj.sorted_ofList l) ht fun k v h => ?_
  exact hk _ (mem_of_mem_ofList (Obj.get_mem h))

theorem nullable_lit {l : List (String × Json)} (hn : (Obj.keys l).Nodup)
    (ht : Schema.hasType (.obj l) "null" = false)
    (hk : ∀ e ∈ l, e.1 = "type" ∨ e.1 = "enum" ∨ e.1 ∈ nullBlind) : Nullable D env (mkObj l) := by
  refine nullable_mkObj ?_ hk
  unfold Schema.hasType mkObj at *
  simp only [Schema.get] at *
  rw [get_ofList hn]
  exact ht

theorem nullable_oneOf {l : Json} : Nullable D env (mkObj [("oneOf", l)]) where
  sch := sch_mkObj _
  typed := fun h => by cases h
  form := .oneOf [("oneOf", l)] l (by rw [Obj.get_cons, if_pos rfl])

theorem nullable_int (t : IntTy) : Nullable D env (intSchema t) := by
  cases t <;> exact nullable_mkObj rfl (by decide)

theorem nullable_nonZero (t : IntTy) : Nullable D env (nonZeroSchema t) := by
  obtain ⟨m, e, hm, ht, hk⟩ : ∃ m, intSchema t = .obj m ∧ Obj.Sorted m ∧
      Obj.get m "type" = some (.str "integer") ∧ ∀ e ∈ m, e.1 = "type" ∨ e.1 ∈ nullBlind := by
    cases t <;> exact ⟨_, rfl, Obj.sorted_ofList _, rfl, by decide⟩
  unfold nonZeroSchema
  rw [e]
  split
  · refine ⟨.obj (Obj.sorted_insert hm _ _), fun h => ?_, .own (Obj.insert m "not" (mkObj [("const", .num (.int 0))])) ?_⟩
    · unfold Schema.put Schema.ensureObject Schema.hasType at h
      simp only [Schema.get] at h
      rw [Obj.get_insert_ne _ _ (by decide), ht] at h
      exact absurd h (by decide)
    · intro k v h
      rw [Obj.get_insert] at h
      split at h
      · next e =>
        cases h
        refine .inr (.inr (.inr ⟨e.symm, rfl, ?_⟩))
        show ¬ Valid D env (.obj [("const", .num (.int 0))]) .null
        rw [valid_single (by decide), entryOk_simple (by decide)]
        rw [show simple env "const" (.num (.int 0)) .null = false from rfl]
        decide
      · rcases hk _ (Obj.get_mem h) with h | h
        · exact .inl h
        · exact .inr (.inr (.inl h))
  · refine nullable_own (Obj.sorted_insert hm _ _) ?_ fun k v h => ?_
    · unfold Schema.hasType
      simp only [Schema.get]
      rw [Obj.get_insert_ne _ _ (by decide), ht]
      rfl
    · rw [Obj.get_insert] at h
      split at h
      · next e => subst e; exact .inr (.inr (by decide))
      · rcases hk _ (Obj.get_mem h) with h | h
        · exact .inl h
        · exact .inr (.inr h)

theorem nullable_map (path : List Char) (d : List (String × Json)) (ks vs : Json) :
    Nullable D env (mapSchema path d ks vs) := by
  obtain ⟨m, e, hm, ht, hk⟩ : ∃ m, mapSchema path d ks vs = .obj m ∧ Obj.Sorted m ∧
      Obj.get m "type" = some (.str "object") ∧ ∀ k v, Obj.get m k = some v → k = "type" ∨ k ∈ nullBlind := by
    unfold mapSchema
    split
    · unfold mapFrom
      simp only
      have h0 : ∀ v : Json, Obj.Sorted [("additionalProperties", v), ("type", .str "object")] := by
        intro v; unfold Obj.Sorted; simp
      have hg : ∀ (x : Json) k v, Obj.get [("additionalProperties", x), ("type", .str "object")] k = some v →
          k = "type" ∨ k ∈ nullBlind := by
        intro x k v h
        simp only [Obj.get_cons] at h
        split at h
        · next e => subst e; exact .inr (by decide)
        · split at h
          · next e => exact .inl e.symm
          · cases h
      have hins : ∀ (m : List (String × Json)) q x, q ∈ nullBlind →
          (∀ k v, Obj.get m k = some v → k = "type" ∨ k ∈ nullBlind) →
          ∀ k v, Obj.get (Obj.insert m q x) k = some v → k = "type" ∨ k ∈ nullBlind := by
        intro m q x hq hm k v h
        rw [Obj.get_insert] at h
        split at h
        · next e => exact .inr (e ▸ hq)
        · exact hm k v h
      split <;> split
      · exact ⟨_, rfl, h0 _, rfl, hg _⟩
      · exact ⟨_, rfl, Obj.sorted_insert (h0 _) _ _, by rw [Obj.get_insert_ne _ _ (by decide)]; rfl,
          hins _ _ _ (by decide) (hg _)⟩
      · exact ⟨_, rfl, Obj.sorted_insert (h0 _) _ _, by rw [Obj.get_insert_ne _ _ (by decide)]; rfl,
          hins _ _ _ (by decide) (hg _)⟩
      · exact ⟨_, rfl, Obj.sorted_insert (Obj.sorted_insert (h0 _) _ _) _ _,
          by rw [Obj.get_insert_ne _ _ (by decide), Obj.get_insert_ne _ _ (by decide)]; rfl,
          hins _ _ _ (by decide) (hins _ _ _ (by decide) (hg _))⟩
    · refine ⟨_, rfl, Obj.sorted_ofList _, by rw [get_ofList (by simp [Obj.keys])]; simp [Obj.get_cons], fun k v h => ?_⟩
      have := mem_of_mem_ofList (Obj.get_mem h)
      simp only [List.mem_cons, List.not_mem_nil, or_false, Prod.mk.injEq] at this
      rcases this with ⟨rfl, -⟩ | ⟨rfl, -⟩
      · exact .inr (by decide)
      · exact .inl rfl
  rw [e]
  refine nullable_own hm ?_ fun k v h => (hk k v h).imp id .inr
  unfold Schema.hasType
  simp only [Schema.get, ht]
  rfl

/-- The schema of a standard type is one that `allow_null` works on. -/
theorem std_nullable (hs : ∀ t s, A.sub t s → Nullable D env s) {x : Std τ} (h : Returns A (stdBody x) s) :
    Nullable D env s := by
  cases x with
  | simple t =>
    cases h
    refine ⟨sch_mkObj _, fun h => (valid_typeOnly_iff t).2 ?_, .own [("type", .str t)] fun k v h => ?_⟩
    · have : t = "null" := by simpa [typeOnly, mkObj, Obj.ofList, Obj.extend, Obj.insert, Schema.hasType, Schema.get,
        Obj.get_cons] using h
      subst this; rfl
    · rw [Obj.get_cons] at h
      split at h
      · next e => exact .inl e.symm
      · cases h
  | formatted t f =>
    cases h
    refine ⟨sch_mkObj _, fun h => (valid_typeFormat t f).2 ?_,
      .own (Obj.ofList [("type", .str t), ("format", .str f)]) fun k v h => ?_⟩
    · have : t = "null" := by simpa [typeFormat, mkObj, Obj.ofList, Obj.extend, Obj.insert, Schema.hasType, Schema.get,
        Obj.get_cons] using h
      subst this; rfl
    · have := mem_of_mem_ofList (Obj.get_mem h)
      simp only [List.mem_cons, List.not_mem_nil, or_false, Prod.mk.injEq] at this
      rcases this with ⟨rfl, -⟩ | ⟨rfl, -⟩
      · exact .inl rfl
      · exact .inr (.inr (.inl (by decide)))
  | value =>
    cases h
    exact { sch := .bool true, typed := fun h => (by cases h), form := .any }
  | option t => obtain ⟨s1, h1, rfl⟩ := h; exact (hs t s1 h1).allowNull
  | int t => cases h; exact nullable_int t
  | nonZero t => cases h; exact nullable_nonZero t
  | char => cases h; exact nullable_mkObj rfl (by decide)
  | emptyArray => cases h; exact nullable_mkObj rfl (by decide)
  | tuple l =>
    obtain ⟨ss, h1, rfl⟩ := returns_subAll h
    refine nullable_lit (by simp [Obj.keys]) (by simp [Schema.hasType, Schema.get, Obj.get_cons]) ?_
    simp only [List.mem_cons, List.not_mem_nil, or_false, forall_eq_or_imp, forall_eq]
    decide
  | map k v => obtain ⟨ks, _, vs, _, d, _, rfl⟩ := h; exact nullable_map _ _ _ _
  | seq t =>
    obtain ⟨s1, _, rfl⟩ := h
    refine nullable_lit (by simp [Obj.keys]) (by simp [Schema.hasType, Schema.get, Obj.get_cons]) ?_
    simp only [List.mem_cons, List.not_mem_nil, or_false, forall_eq_or_imp, forall_eq]
    decide
  | set t =>
    obtain ⟨s1, _, rfl⟩ := h
    refine nullable_lit (by simp [Obj.keys]) (by simp [Schema.hasType, Schema.get, Obj.get_cons]) ?_
    simp only [List.mem_cons, List.not_mem_nil, or_false, forall_eq_or_imp, forall_eq]
    decide
  | array n t =>
    obtain ⟨s1, _, rfl⟩ := h
    refine nullable_lit (by simp [Obj.keys]) (by simp [Schema.hasType, Schema.get, Obj.get_cons]) ?_
    simp only [List.mem_cons, List.not_mem_nil, or_false, forall_eq_or_imp, forall_eq]
    decide
  | range t =>
    obtain ⟨s1, _, rfl⟩ := h
    refine nullable_lit (by simp [Obj.keys]) (by simp [Schema.hasType, Schema.get, Obj.get_cons]) ?_
    simp only [List.mem_cons, List.not_mem_nil, or_false, forall_eq_or_imp, forall_eq]
    decide
  | duration => cases h; exact nullable_mkObj rfl (by decide)
  | systemTime => cases h; exact nullable_mkObj rfl (by decide)
  | result t e => obtain ⟨s1, _, s2, _, rfl⟩ := h; exact nullable_oneOf
  | bound t => obtain ⟨s1, _, s2, _, rfl⟩ := h; exact nullable_oneOf
  | either t e => obtain ⟨s1, _, s2, _, rfl⟩ := h; exact nullable_oneOf
  | osString => cases h; exact nullable_oneOf
  | bytes t =>
    obtain ⟨s1, _, h⟩ := h
    simp only [Returns] at h
    subst h
    refine nullable_lit (by simp [Obj.keys])
      (by cases A.settings.contract <;> simp [Schema.hasType, Schema.get, Obj.get_cons]) ?_
    simp only [List.mem_cons, List.not_mem_nil, or_false, forall_eq_or_imp, forall_eq]
    decide
  | cString =>
    simp only [stdBody, Returns] at h; subst h
    refine nullable_lit (by simp [Obj.keys])
      (by cases A.settings.contract <;> simp [Schema.hasType, Schema.get, Obj.get_cons]) ?_
    simp only [List.mem_cons, List.not_mem_nil, or_false, forall_eq_or_imp, forall_eq]
    decide
  | decimal =>
    simp only [stdBody, Returns] at h; subst h
    cases A.settings.contract <;> exact nullable_mkObj rfl (by decide)

end

end Verif
