import Verif.Lemmas.GeneratorCongr
import Verif.Props.SchemaType
import Verif.Props.TypeIds
import Verif.Props.Patterns
import Verif.Props.Accepts

/-!
# C83: the schemas of the crate's own types accept exactly the documents of these types
-/

namespace Verif
open Spec

namespace Spec

/-- A document of an integer type: the range of types with up to 16 bits, and the sign. -/
def IntDoc (t : IntTy) (j : Json) : Prop :=
  ∃ n, IsInt j n ∧ (Bounded t → Holds 64 t n) ∧ (Unsigned t → 0 ≤ n)

/-- A text. -/
def TextDoc (j : Json) : Prop := ∃ s, j = .str s

/-- An array of documents. -/
def ListDoc (P : Json → Prop) (j : Json) : Prop := ∃ l, j = .arr l ∧ ∀ x ∈ l, P x

/-- An object with a member of this name. -/
def Member (k : String) (P : Json → Prop) (j : Json) : Prop := ∃ o x, j = .obj o ∧ Obj.get o k = some x ∧ P x

/-- Exactly one of the two. -/
def OneOf (p q : Prop) : Prop := (p ∧ ¬ q) ∨ (¬ p ∧ q)

/-- The documents of the types without params. Formats are not checked. -/
def FixedDoc (c : Contract) : Fixed → Json → Prop
  | .bool, j => ∃ b, j = .bool b
  | .unit, j => j = .null
  | .f32, j | .f64, j | .number, j => ∃ x, j = .num x
  | .int t, j => IntDoc t j
  | .nonZero t, j => IntDoc t j ∧ ¬ IsInt j 0
  | .char, j => ∃ a : Char, j = .str (String.ofList [a])
  | .value, _ => True
  | .duration, j => HasNat "secs" j ∧ HasNat "nanos" j
  | .systemTime, j => HasNat "secs_since_epoch" j ∧ HasNat "nanos_since_epoch" j
  | .osString, j => OneOf (Member "Unix" (ListDoc (IntDoc .u8)) j) (Member "Windows" (ListDoc (IntDoc .u16)) j)
  | .cString, j => ListDoc (fun x => ∃ n, IsInt x n ∧ 1 ≤ n ∧ n ≤ 255) j ∨ c = .deserialize ∧ TextDoc j
  | .bytes, j => ListDoc (IntDoc .u8) j ∨ c = .deserialize ∧ TextDoc j
  | .decimal, j => match c with
    | .serialize => ∃ s, j = .str s ∧ DecimalText s
    | .deserialize => (∃ x, j = .num x) ∨ ∃ s, j = .str s ∧ (DecimalText s ∨ ScientificText s)
  | .weekday, j => ∃ d ∈ ["Mon", "Tue", "Wed", "Thu", "Fri", "Sat", "Sun"], j = .str d
  | .timeDelta, j => ∃ secs nanos n k, j = .arr [secs, nanos] ∧ IsInt secs n ∧ IsInt nanos k ∧ 0 ≤ k ∧ k < 1000000000
  | .semver, j => ∃ s, j = .str s ∧ SemVerText s.toList
  | .schema, j => (∃ o, j = .obj o) ∨ ∃ b, j = .bool b
  | .string, j | .ipv4, j | .ipv6, j | .ip, j | .chronoDate, j | .chronoDateTime, j | .chronoTime, j
  | .chronoZoned, j | .jiffSignedDuration, j | .jiffSpan, j | .jiffTimestamp, j | .jiffZoned, j | .jiffDate, j
  | .jiffTime, j | .jiffDateTime, j | .url, j | .uuid, j => TextDoc j

/-- The texts that are keys of a map with this key type. -/
def KeyText (c : Contract) : Ty → String → Prop
  | .fixed (.int t), s => (Unsigned t → Digits s.toList) ∧ (¬ Unsigned t → SignedDigits s.toList)
  | .fixed (.nonZero _), s => SignedDigits s.toList
  | .fixed .decimal, s => c = .serialize → DecimalText s
  | .fixed .weekday, s => s ∈ ["Mon", "Tue", "Wed", "Thu", "Fri", "Sat", "Sun"]
  | .fixed .semver, s => SemVerText s.toList
  | _, _ => True

mutual
/-- The documents of a type. -/
def Doc (c : Contract) : Ty → Json → Prop
  | .fixed f, j => FixedDoc c f j
  | .option t, j => j = .null ∨ Doc c t j
  | .seq t, j => ListDoc (Doc c t) j
  | .set t, j => ListDoc (Doc c t) j ∧ ∀ l, j = .arr l → l.Pairwise fun a b => jeq a b = false
  | .emptyArray, j => j = .arr []
  | .array n t, j => ListDoc (Doc c t) j ∧ ∀ l, j = .arr l → l.length = n
  | .arrayVec n t, j => ListDoc (Doc c t) j ∧ ∀ l, j = .arr l → l.length ≤ n
  | .tuple ts, j => ∃ l, j = .arr l ∧ Docs c ts l
  | .map k v, j => ∃ o, j = .obj o ∧ ∀ e ∈ o, KeyText c k e.1 ∧ Doc c v e.2
  | .result t e, j => OneOf (Member "Ok" (Doc c t) j) (Member "Err" (Doc c e) j)
  | .bound t, j => OneOf (Member "Included" (Doc c t) j) (Member "Excluded" (Doc c t) j) ∨ j = .str "Unbounded"
  | .range t, j => Member "start" (Doc c t) j ∧ Member "end" (Doc c t) j
  | .either l r, j => (∃ x, j = .obj [("Left", x)] ∧ Doc c l x) ∨ ∃ x, j = .obj [("Right", x)] ∧ Doc c r x
  | .derived _ _ _, _ => False
/-- One document of each type. -/
def Docs (c : Contract) : List Ty → List Json → Prop
  | [], l => l = []
  | t :: ts, l => ∃ x r, l = x :: r ∧ Doc c t x ∧ Docs c ts r
end

mutual
/-- The type is made of types of the crate only; tuples have elements. -/
def Crate (vec : Bool) : Ty → Prop
  | .fixed _ | .emptyArray => True
  | .arrayVec _ t => vec = true ∧ Crate vec t
  | .option t | .seq t | .set t | .array _ t | .bound t | .range t => Crate vec t
  | .map a b | .result a b | .either a b => Crate vec a ∧ Crate vec b
  | .tuple l => l ≠ [] ∧ CrateAll vec l
  | .derived _ _ _ => False
def CrateAll (vec : Bool) : List Ty → Prop
  | [] => True
  | t :: l => Crate vec t ∧ CrateAll vec l
end

/-- The types that the type is directly made of. (The schema of `Bytes` has that of `u8`.) -/
def kids : Ty → List Ty
  | .fixed .bytes => [.fixed (.int .u8)]
  | .option t | .seq t | .set t | .array _ t | .arrayVec _ t | .bound t | .range t => [t]
  | .map a b | .result a b | .either a b => [a, b]
  | .tuple l => l
  | _ => []

/-- The types that a type is made of, with itself. -/
inductive PartOf (root : Ty) : Ty → Prop
  | self : PartOf root root
  | kid {t u : Ty} : PartOf root t → u ∈ kids t → PartOf root u

end Spec

/-! ### Types of the crate -/

section
variable {P : Nat → IdDecl}

mutual
theorem crate_legal : ∀ t, Crate false t → Legal P t ∧ PlainIds t
  | .fixed _, _ | .emptyArray, _ => ⟨trivial, trivial⟩
  | .arrayVec _ _, h => by cases h.1
  | .option t, h | .seq t, h | .set t, h | .array _ t, h | .bound t, h | .range t, h => crate_legal t h
  | .map a b, h | .result a b, h | .either a b, h =>
    ⟨⟨(crate_legal a h.1).1, (crate_legal b h.2).1⟩, ⟨(crate_legal a h.1).2, (crate_legal b h.2).2⟩⟩
  | .tuple l, h => ⟨⟨h.1, (crate_legalAll l h.2).1⟩, (crate_legalAll l h.2).2⟩
  | .derived _ _ _, h => h.elim
theorem crate_legalAll : ∀ l, CrateAll false l → LegalAll P l ∧ PlainIdsAll l
  | [], _ => ⟨trivial, trivial⟩
  | t :: l, h => ⟨⟨(crate_legal t h.1).1, (crate_legalAll l h.2).1⟩, ⟨(crate_legal t h.1).2, (crate_legalAll l h.2).2⟩⟩
end

/-- Induction over the types of the crate. -/
theorem crate_induction {v : Bool} {M : Ty → Prop} (fixed : ∀ f, M (.fixed f)) (emptyArray : M .emptyArray)
    (option : ∀ t, M t → M (.option t)) (seq : ∀ t, M t → M (.seq t)) (set : ∀ t, M t → M (.set t))
    (array : ∀ n t, M t → M (.array n t)) (arrayVec : v = true → ∀ n t, M t → M (.arrayVec n t))
    (tuple : ∀ l, l ≠ [] → (∀ t ∈ l, M t) → M (.tuple l)) (map : ∀ a b, M a → M b → M (.map a b))
    (result : ∀ a b, M a → M b → M (.result a b)) (bound : ∀ t, M t → M (.bound t)) (range : ∀ t, M t → M (.range t))
    (either : ∀ a b, M a → M b → M (.either a b)) (t : Ty) (h : Crate v t) : M t := by
  refine Ty.rec (motive_1 := fun t => Crate v t → M t) (motive_2 := fun l => CrateAll v l → ∀ t ∈ l, M t)
    (fun f _ => fixed f) (fun t ih h => option t (ih h)) (fun t ih h => seq t (ih h)) (fun t ih h => set t (ih h))
    (fun _ => emptyArray) (fun n t ih h => array n t (ih h)) (fun n t ih h => arrayVec h.1 n t (ih h.2))
    (fun l ih h => tuple l h.1 (ih h.2)) (fun a b iha ihb h => map a b (iha h.1) (ihb h.2))
    (fun a b iha ihb h => result a b (iha h.1) (ihb h.2)) (fun t ih h => bound t (ih h)) (fun t ih h => range t (ih h))
    (fun a b iha ihb h => either a b (iha h.1) (ihb h.2)) (fun _ _ _ _ h => h.elim) (fun _ _ h => nomatch h)
    (fun t l iht ihl h u hu => ?_) t h
  rcases List.mem_cons.1 hu with rfl | hu
  · exact iht h.1
  · exact ihl h.2 u hu

theorem crate_same (P' : Nat → IdDecl) (t : Ty) (h : Crate false t) : Ty.id P t = Ty.id P' t := by
  refine crate_induction (M := fun t => Ty.id P t = Ty.id P' t) ?_ ?_ ?_ ?_ ?_ ?_ ?_ ?_ ?_ ?_
    ?_ ?_ ?_ t h
  case refine_7 => exact fun h => nomatch h
  case refine_8 =>
    intro l hne hl
    have h1 : Ty.ids P l = Ty.ids P' l := by
      clear hne
      induction l with
      | nil => simp only [Ty.ids]
      | cons t l ih => simp only [Ty.ids, hl t (.head _), ih fun u hu => hl u (.tail _ hu)]
    simp only [Ty.id, h1]
  all_goals
    intros
    simp_all only [Ty.id]

/-- Ids tell the types of the crate apart. -/
theorem crate_inj {t t' : Ty} (h : Crate false t) (h' : Crate false t') (e : Ty.id P t = Ty.id P t') : t = t' := by
  rw [crate_same IdEx.distinct t h, crate_same IdEx.distinct t' h'] at e
  have h1 := crate_legal (P := IdEx.distinct) t h
  have h2 := crate_legal (P := IdEx.distinct) t' h'
  exact (C59_partial IdEx.distinct_paths h1.1 h2.1 h1.2 h2.2 (congrArg String.ofList e)).1

theorem crateAll_mem {v : Bool} {l : List Ty} (h : CrateAll v l) : ∀ t ∈ l, Crate v t := by
  induction l with
  | nil => exact fun _ h => nomatch h
  | cons a l ih =>
    intro t ht
    rcases List.mem_cons.1 ht with rfl | ht
    · exact h.1
    · exact ih h.2 t ht

theorem crate_weaken (t : Ty) (h : Crate false t) : Crate true t := by
  refine crate_induction (v := false) (M := Crate true) (fun _ => trivial) trivial (fun _ h => h) (fun _ h => h) (fun _ h => h) (fun _ _ h => h)
    (fun h => nomatch h) (fun l hne hl => ⟨hne, ?_⟩) (fun _ _ h h' => ⟨h, h'⟩) (fun _ _ h h' => ⟨h, h'⟩) (fun _ h => h) (fun _ h => h)
    (fun _ _ h h' => ⟨h, h'⟩) t h
  clear hne
  induction l with
  | nil => trivial
  | cons t l ih => exact ⟨hl t (.head _), ih fun u hu => hl u (.tail _ hu)⟩

theorem crate_kids {t u : Ty} (h : Crate true t) (hu : u ∈ Spec.kids t) : Crate true u := by
  cases t with
  | fixed f => cases f <;> simp only [Spec.kids, List.not_mem_nil, List.mem_singleton] at hu; subst hu; trivial
  | emptyArray => cases hu
  | derived d cs l => exact h.elim
  | arrayVec n t => cases List.mem_singleton.1 hu; exact h.2
  | tuple l => exact crateAll_mem h.2 u hu
  | map a b | result a b | either a b =>
    simp only [Spec.kids, List.mem_cons, List.not_mem_nil, or_false] at hu
    rcases hu with rfl | rfl
    · exact h.1
    · exact h.2
  | _ => cases List.mem_singleton.1 hu; exact h

theorem asksOnly_subAll {Q : Ty → Prop} {l : List Ty} (hl : ∀ t ∈ l, Q t) {k : List Json → Prog Ty}
    (hk : ∀ r, AsksOnly Q (k r)) : AsksOnly Q (subAll l k) := by
  induction l generalizing k with
  | nil => exact hk []
  | cons t l ih => exact ⟨hl t (.head _), fun s => ih (fun t ht => hl t (.tail _ ht)) fun r => hk _⟩

/-- Types of the crate, with all types that they are made of, that are told apart by their ids. -/
structure Crates (P : Nat → IdDecl) where
  S : Ty → Prop
  root : Ty
  mem : S root
  crate : ∀ t, S t → Crate true t
  kids : ∀ t, S t → ∀ u ∈ Spec.kids t, S u
  inj : ∀ t t', S t → S t' → Ty.id P t = Ty.id P t' → t = t'

/-- The bodies of these types ask only for such types. -/
theorem crate_asks (C : Crates P) (t : Ty) (h : C.S t) : AsksOnly C.S (Ty.body P t) := by
  have hk := C.kids t h
  have hc := C.crate t h
  cases t with
  | fixed f =>
    cases f <;> first
      | trivial
      | exact fun _ => trivial
      | exact ⟨hk _ (.head _), fun _ _ => trivial⟩
  | option t => exact ⟨hk t (.head _), fun _ => trivial⟩
  | seq t => exact ⟨hk t (.head _), fun _ => trivial⟩
  | set t => exact ⟨hk t (.head _), fun _ => trivial⟩
  | emptyArray => trivial
  | array n t => exact ⟨hk t (.head _), fun _ => trivial⟩
  | arrayVec n t => exact ⟨hk t (.head _), fun _ => trivial⟩
  | tuple l => exact asksOnly_subAll hk fun _ => trivial
  | map k v => exact ⟨hk k (.head _), fun _ => ⟨hk v (.tail _ (.head _)), fun _ _ _ => trivial⟩⟩
  | result a b => exact ⟨hk a (.head _), fun _ => ⟨hk b (.tail _ (.head _)), fun _ => trivial⟩⟩
  | bound t => exact ⟨hk t (.head _), fun _ => ⟨hk t (.head _), fun _ => trivial⟩⟩
  | range t => exact ⟨hk t (.head _), fun _ => trivial⟩
  | either a b => exact ⟨hk a (.head _), fun _ => ⟨hk b (.tail _ (.head _)), fun _ => trivial⟩⟩
  | derived d cs l => exact hc.elim

theorem crate_noRoot (t : Ty) (h : Crate true t) : NoRoot (Ty.body P t) := by
  cases t with
  | fixed f =>
    cases f <;> simp only [Ty.body, Ty.fixedBody] <;> first
      | exact noRoot_std _
      | trivial
  | arrayVec n t => exact fun _ => trivial
  | derived d cs l => exact h.elim
  | _ => simp only [Ty.body]; exact noRoot_std _

open Classical in
/-- The type, if it is one of these. -/
noncomputable def crateOf (C : Crates P) (t : Ty) : Ty := if C.S t then t else C.root

theorem crateOf_mem (C : Crates P) (t : Ty) : C.S (crateOf C t) := by
  unfold crateOf
  split
  · assumption
  · exact C.mem

theorem crateOf_crate (C : Crates P) (t : Ty) : Crate true (crateOf C t) := C.crate _ (crateOf_mem C t)

theorem crateOf_self {C : Crates P} {t : Ty} (h : C.S t) : crateOf C t = t := by unfold crateOf; rw [if_pos h]

/-- These types, and one of them in place of all others. -/
noncomputable def crateDef (C : Crates P) (t : Ty) : TypeDef Ty := Ty.typeDef P (crateOf C t)

theorem crateDef_root {C : Crates P} {t : Ty} (h : C.S t) (n : Nat) (g : Gen Ty) :
    rootSchemaFor (Ty.typeDef P) (run (Ty.typeDef P) n) t g = rootSchemaFor (crateDef C) (run (crateDef C) n) t g := by
  have hΓ : ∀ t, C.S t → Ty.typeDef P t = crateDef C t := fun t h => by unfold crateDef; rw [crateOf_self h]
  exact rootSchemaFor_congr (hΓ t h) (run_congr hΓ (fun t h => crate_asks C t h) n t h) g

variable (P) in
/-- The types of the crate without `ArrayVec`. -/
def Crates.plain : Crates P where
  S := Crate false
  root := .fixed .unit
  mem := trivial
  crate t h := crate_weaken t h
  kids t h u hu := by
    cases t with
    | fixed f => cases f <;> simp only [Spec.kids, List.not_mem_nil, List.mem_singleton] at hu; subst hu; trivial
    | emptyArray => cases hu
    | derived d cs l => exact h.elim
    | arrayVec n t => cases h.1
    | tuple l => exact crateAll_mem h.2 u hu
    | map a b | result a b | either a b =>
      simp only [Spec.kids, List.mem_cons, List.not_mem_nil, or_false] at hu
      rcases hu with rfl | rfl
      · exact h.1
      · exact h.2
    | _ => cases List.mem_singleton.1 hu; exact h
  inj _ _ h h' e := crate_inj h h' e

variable (P) in
/-- The parts of a type, if their ids tell them apart. -/
def Crates.parts (t : Ty) (hc : Crate true t)
    (hid : ∀ u u', PartOf t u → PartOf t u' → Ty.id P u = Ty.id P u' → u = u') : Crates P where
  S := PartOf t
  root := t
  mem := .self
  crate u h := by
    induction h with
    | self => exact hc
    | kid _ hu ih => exact crate_kids ih hu
  kids u h u' hu := .kid h hu
  inj u u' h h' e := hid u u' h h' e

end

/-! ### Plain forms of schemas -/

/-- There are no definitions in the schema, and `anyOf` is only used to allow null. -/
structure Tame (s : Json) : Prop where
  defs : ∀ m, s = .obj m → Obj.get m "$defs" = none ∧ Obj.get m "definitions" = none
  anyOf : ∀ m v, s = .obj m → Obj.get m "anyOf" = some v → ∃ m', v = .arr [.obj m', nullSchema]

theorem tame_of {m : List (String × Json)} (h : ∀ k v, Obj.get m k = some v → k ∉ ["$defs", "definitions", "anyOf"]) :
    Tame (.obj m) where
  defs := by
    rintro m' ⟨⟩
    constructor
    all_goals
      cases e : Obj.get m _ with
      | none => rfl
      | some v => exact absurd (by simp) (h _ v e)
  anyOf := by
    rintro m' v ⟨⟩ e
    exact absurd (by simp) (h _ v e)

theorem tame_lit {l : List (String × Json)} (h : ∀ e ∈ l, e.1 ∉ ["$defs", "definitions", "anyOf"]) : Tame (mkObj l) :=
  tame_of fun _ _ hk => h _ (mem_of_mem_ofList (Obj.get_mem hk))

theorem tame_ref (r : String) : Tame (Schema.newRef r) := tame_lit (l := [("$ref", .str r)]) (by simp)

theorem tame_nonZero (t : IntTy) : Tame (nonZeroSchema t) := by
  have h : ∀ t, ∃ m, intSchema t = .obj m ∧ ∀ e ∈ m, e.1 ∉ ["$defs", "definitions", "anyOf"] := by
    intro t
    cases t <;> exact ⟨_, rfl, by decide⟩
  obtain ⟨m, e, hm⟩ := h t
  have hins : ∀ k x, k ∉ ["$defs", "definitions", "anyOf"] → Tame (.obj (Obj.insert m k x)) := by
    intro k x hk
    refine tame_of fun k' v h => ?_
    rw [Obj.get_insert] at h
    split at h
    · next e => exact e ▸ hk
    · exact hm _ (Obj.get_mem h)
  unfold nonZeroSchema
  rw [e]
  split
  · exact hins _ _ (by decide)
  · exact hins _ _ (by decide)

theorem tame_map (path : List Char) (d : List (String × Json)) (ks vs : Json) : Tame (mapSchema path d ks vs) := by
  have h : ∀ uses, Tame (mapFrom uses vs) := by
    intro uses
    rw [mapFrom_eq]
    refine tame_of fun k v h => ?_
    rw [get_mapEntries] at h
    simp only [List.mem_cons, List.not_mem_nil, or_false]
    rintro (rfl | rfl | rfl) <;> simp at h
  cases hk : keyOptions ks with
  | none => rw [mapSchema_none hk]; exact h _
  | some os => rw [mapSchema_some hk]; exact h _

theorem get_nullConst {m : List (String × Json)} {k : String} (h1 : k ≠ "const") (h2 : k ≠ "enum") :
    Obj.get (allowNullConst m) k = Obj.get m k := by
  unfold allowNullConst
  split
  · exact Obj.get_remove_ne _ h1.symm
  · rw [Obj.get_insert_ne _ _ h2.symm, Obj.get_remove_ne _ h1.symm]
  · rw [Obj.get_modify, if_neg h2.symm]

/-- The members of a schema that `allow_null` changes in place. -/
theorem get_nullOwn {m : List (String × Json)} {k : String} (h1 : k ≠ "const") (h2 : k ≠ "enum") (h3 : k ≠ "type") :
    Obj.get (allowNullConst (Obj.modify m "type" allowNullType)) k = Obj.get m k := by
  rw [get_nullConst h1 h2, Obj.get_modify, if_neg h3.symm]

theorem tame_allowNull {s : Json} (h : Tame s) : Tame (allowNull s) := by
  cases s with
  | obj m =>
    unfold allowNull
    simp only
    split
    · exact h
    split
    · refine ⟨?_, ?_⟩
      · rintro m' ⟨⟩; exact ⟨rfl, rfl⟩
      · rintro m' v ⟨⟩ hv
        rw [Obj.get_cons, if_pos rfl] at hv
        cases hv
        exact ⟨m, rfl⟩
    · refine ⟨?_, ?_⟩
      · rintro m' ⟨⟩
        rw [get_nullOwn (by decide) (by decide) (by decide), get_nullOwn (by decide) (by decide) (by decide)]
        exact h.defs m rfl
      · rintro m' v ⟨⟩ hv
        rw [get_nullOwn (by decide) (by decide) (by decide)] at hv
        exact h.anyOf m v rfl hv
  | bool b =>
    cases b
    · exact tame_lit (l := [("type", .str "null")]) (by simp)
    · exact h
  | _ => exact h

/-! ### Keys of maps -/

section
variable {D : Dialect} {env : Env} {i : Json} {path : List Char} {defs : List (String × Json)}

/-- The key schema allows every key. -/
def AnyKey (path : List Char) (defs : List (String × Json)) (ks : Json) : Prop :=
  ∀ os, keyOptions ks = some os → ∃ o ∈ os, keyUse (followKeyRef path defs o) = .any

theorem valid_anyKey {ks : Json} (h : AnyKey path defs ks) (vs : Json) :
    Valid D env (mapSchema path defs ks vs) i ↔ ∃ o, i = .obj o ∧ ∀ e ∈ o, True ∧ Valid D env vs e.2 := by
  have key : ∀ uses, KeyUse.any ∈ uses → (Valid D env (mapFrom uses vs) i ↔
      ∃ o, i = .obj o ∧ ∀ e ∈ o, True ∧ Valid D env vs e.2) := by
    intro uses hu
    rw [valid_mapFrom]
    simp [Covered, hu]
  cases hk : keyOptions ks with
  | none => rw [mapSchema_none hk]; exact key _ (by simp)
  | some os =>
    rw [mapSchema_some hk]
    obtain ⟨o, ho, hu⟩ := h os hk
    exact key _ (List.mem_map.2 ⟨o, ho, hu⟩)

theorem keyUse_any {o : List (String × Json)} (h1 : Obj.get o "type" ≠ some (.str "string"))
    (h2 : Obj.get o "type" ≠ some (.str "integer")) : keyUse o = .any := by
  have h : ∀ t, Obj.get o "type" ≠ some (.str t) → (Obj.get o "type").bind Json.asStr? ≠ some t := by
    intro t ht e
    obtain ⟨v, hv, hv'⟩ := Option.bind_eq_some_iff.1 e
    cases v with
    | str s => cases hv'; exact ht hv
    | _ => cases hv'
  unfold keyUse
  simp only [h _ h1, h _ h2, if_false]

theorem follow_lone {m : List (String × Json)} (h : Obj.get m "$ref" = none) : followKeyRef path defs m = m := by
  unfold followKeyRef; simp only [h]

theorem anyKey_obj {m : List (String × Json)} (h : LoneKey m) (hu : keyUse m = .any) : AnyKey path defs (.obj m) := by
  intro os ho
  unfold keyOptions at ho
  simp only [h.1] at ho
  cases ho
  exact ⟨m, .head _, by rw [follow_lone h.2, hu]⟩

/-- A literal schema without alternatives, whose type is not that of a text or an integer. -/
theorem anyKey_lit {l : List (String × Json)} (hn : (Obj.keys l).Nodup)
    (hl : Obj.get l "anyOf" = none ∧ Obj.get l "$ref" = none) (h1 : Obj.get l "type" ≠ some (.str "string"))
    (h2 : Obj.get l "type" ≠ some (.str "integer")) : AnyKey path defs (mkObj l) :=
  anyKey_obj ⟨by rw [get_ofList hn]; exact hl.1, by rw [get_ofList hn]; exact hl.2⟩
    (keyUse_any (by rw [get_ofList hn]; exact h1) (by rw [get_ofList hn]; exact h2))

theorem anyKey_map (p : List Char) (d : List (String × Json)) (ks vs : Json) :
    AnyKey path defs (mapSchema p d ks vs) := by
  have h : ∀ uses, AnyKey path defs (mapFrom uses vs) := by
    intro uses
    rw [mapFrom_eq]
    refine anyKey_obj ⟨?_, ?_⟩ (keyUse_any ?_ ?_) <;> rw [get_mapEntries] <;> simp
  cases hk : keyOptions ks with
  | none => rw [mapSchema_none hk]; exact h _
  | some os => rw [mapSchema_some hk]; exact h _

theorem anyKey_null : keyUse (followKeyRef path defs [("type", .str "null")]) = .any :=
  keyUse_any (by simp [followKeyRef, Obj.get_cons]) (by simp [followKeyRef, Obj.get_cons])

theorem anyKey_alternative {m m' : List (String × Json)} (h : Obj.get m "anyOf" = some (.arr [.obj m', nullSchema])) :
    AnyKey path defs (.obj m) := by
  intro os ho
  unfold keyOptions at ho
  simp only [h, nullSchema, allObjects, Option.map_some, Option.getD_some] at ho
  cases ho
  exact ⟨_, .tail _ (.head _), anyKey_null⟩

/-- The keys that are options are any texts. -/
theorem anyKey_option {s : Json} (h : Tame s) : AnyKey path defs (allowNull s) := by
  cases s with
  | obj m =>
    have hl : ¬ containsImmediate m = true → LoneKey m := by
      intro hi
      have hi := fun h => hi (containsImmediate_iff.2 h)
      constructor
      · cases e : Obj.get m "anyOf" with
        | none => rfl
        | some v => exact absurd ⟨_, by simp, v, e⟩ hi
      · cases e : Obj.get m "$ref" with
        | none => rfl
        | some v => exact absurd ⟨_, by simp, v, e⟩ hi
    unfold allowNull
    simp only
    split
    · next ha =>
      obtain ⟨l, rfl, -⟩ := allowsNullAlready_iff.1 ha
      obtain ⟨m', e⟩ := h.anyOf _ (.arr l) rfl (by rw [Obj.get_cons, if_pos rfl])
      rw [e]
      exact anyKey_alternative (m' := m') rfl
    split
    · exact anyKey_alternative (m' := m) rfl
    · next hc =>
      obtain ⟨h1, h2⟩ := hl hc
      refine anyKey_obj ⟨?_, ?_⟩ ?_
      · rw [get_nullOwn (by decide) (by decide) (by decide)]; exact h1
      · rw [get_nullOwn (by decide) (by decide) (by decide)]; exact h2
      · have ht : ∀ t, t ≠ "null" →
            Obj.get (allowNullConst (Obj.modify m "type" allowNullType)) "type" ≠ some (.str t) := by
          intro t hn e
          rw [get_nullConst (by decide) (by decide), Obj.get_modify, if_pos rfl] at e
          obtain ⟨v, hv, e⟩ := Option.map_eq_some_iff.1 e
          unfold allowNullType at e
          split at e
          · split at e <;> cases e
          · split at e
            · next hs => cases e; exact hn hs
            · cases e
          · next hs => exact hs _ e
        exact keyUse_any (ht _ (by decide)) (ht _ (by decide))
  | bool b =>
    cases b
    · intro os ho
      cases ho
      exact ⟨_, .head _, anyKey_null⟩
    · exact fun os ho => nomatch ho
  | _ => exact fun os ho => nomatch ho

end

/-! ### The types without params -/

section
variable {D : Dialect} {env : Env} {P : Nat → IdDecl} {c : Contract}

/-- As the schema of the keys of a map, the schema allows exactly the key texts of the type. -/
def KeysExact (D : Dialect) (env : Env) (c : Contract) (t : Ty) (s : Json) : Prop :=
  ∀ path defs vs i, Valid D env (mapSchema path defs s vs) i ↔
    ∃ o, i = .obj o ∧ ∀ e ∈ o, KeyText c t e.1 ∧ Valid D env vs e.2

theorem keys_typeOnly {t : Ty} (h : ∀ s, KeyText c t s = True) (ty : String) (hi : ty ≠ "integer") :
    KeysExact D env c t (typeOnly ty) := by
  intro path defs vs i
  simp only [h]
  refine valid_anyKey (anyKey_obj ⟨by simp [Obj.ofList, Obj.extend, Obj.insert, Obj.get_cons],
    by simp [Obj.ofList, Obj.extend, Obj.insert, Obj.get_cons]⟩ ?_) vs
  by_cases hs : ty = "string"
  · subst hs; rfl
  · exact keyUse_any (by simpa [Obj.ofList, Obj.extend, Obj.insert, Obj.get_cons])
      (by simpa [Obj.ofList, Obj.extend, Obj.insert, Obj.get_cons])

theorem keys_typeFormat {t : Ty} (h : ∀ s, KeyText c t s = True) (ty f : String) (hi : ty ≠ "integer") :
    KeysExact D env c t (typeFormat ty f) := by
  intro path defs vs i
  simp only [h]
  have hg : ∀ k, Obj.get (Obj.ofList [("type", Json.str ty), ("format", Json.str f)]) k =
      Obj.get [("type", Json.str ty), ("format", Json.str f)] k := fun k => get_ofList (by simp [Obj.keys]) k
  refine valid_anyKey (anyKey_obj ⟨(hg _).trans (by simp [Obj.get_cons]), (hg _).trans (by simp [Obj.get_cons])⟩ ?_) vs
  by_cases hs : ty = "string"
  · unfold keyUse; simp only [hg]; simp [Obj.get_cons, hs, Json.asStr?]
  · exact keyUse_any (by rw [hg]; simpa [Obj.get_cons]) (by rw [hg]; simpa [Obj.get_cons])

theorem keys_lit {t : Ty} (h : ∀ s, KeyText c t s = True) {l : List (String × Json)} (hn : (Obj.keys l).Nodup)
    (hl : Obj.get l "anyOf" = none ∧ Obj.get l "$ref" = none) (h1 : Obj.get l "type" ≠ some (.str "string"))
    (h2 : Obj.get l "type" ≠ some (.str "integer")) : KeysExact D env c t (mkObj l) := by
  intro path defs vs i
  simp only [h]
  exact valid_anyKey (anyKey_lit hn hl h1 h2) vs

theorem keys_int (hM : Modern D env) (t : IntTy) : KeysExact D env c (.fixed (.int t)) (intSchema t) := by
  intro path defs vs i
  have key : ∀ m, LoneKey m → Obj.get m "type" = some (.str "integer") →
      (Obj.get m "minimum" = some (.num (.int 0)) ↔ Unsigned t) →
      (Valid D env (mapSchema path defs (.obj m) vs) i ↔
        ∃ o, i = .obj o ∧ ∀ e ∈ o, KeyText c (.fixed (.int t)) e.1 ∧ Valid D env vs e.2) := by
    intro m h1 h2 h3
    rw [C43_integer hM.digits h1 vs h2]
    simp only [KeyText]
    refine exists_congr fun o => and_congr_right fun _ => forall_congr' fun e => imp_congr_right fun _ =>
      and_congr_left fun _ => ?_
    by_cases hu : Unsigned t
    · rw [if_pos (h3.2 hu)]; simp [hu]
    · rw [if_neg fun h => hu (h3.1 h)]; simp [hu]
  cases t <;> refine key _ ⟨rfl, rfl⟩ rfl ?_ <;> unfold Unsigned <;> decide

theorem keys_nonZero (hM : Modern D env) (t : IntTy) : KeysExact D env c (.fixed (.nonZero t)) (nonZeroSchema t) := by
  intro path defs vs i
  have key : ∀ m, LoneKey m → Obj.get m "type" = some (.str "integer") →
      ¬ Obj.get m "minimum" = some (.num (.int 0)) →
      (Valid D env (mapSchema path defs (.obj m) vs) i ↔
        ∃ o, i = .obj o ∧ ∀ e ∈ o, KeyText c (.fixed (.nonZero t)) e.1 ∧ Valid D env vs e.2) := by
    intro m h1 h2 h3
    rw [C43_integer hM.digits h1 vs h2]
    simp only [h3, KeyText, if_false]
  cases t <;> refine key _ ⟨rfl, rfl⟩ rfl ?_ <;> decide

theorem keys_patterned {t : Ty} {p : String} (h : ∀ s, env.rx p s = true ↔ KeyText c t s) :
    KeysExact D env c t (mkObj [("type", .str "string"), ("pattern", .str p)]) := by
  intro path defs vs i
  have hg : ∀ k, Obj.get (Obj.ofList [("type", Json.str "string"), ("pattern", Json.str p)]) k =
      Obj.get [("type", Json.str "string"), ("pattern", Json.str p)] k := fun k => get_ofList (by simp [Obj.keys]) k
  simp only [← h]
  exact C43_pattern ⟨(hg _).trans (by simp [Obj.get_cons]), (hg _).trans (by simp [Obj.get_cons])⟩ p vs
    ((hg _).trans (by simp [Obj.get_cons])) ((hg _).trans (by simp [Obj.get_cons]))

/-- Texts or arrays. -/
theorem valid_arrayOrText {s : Json} (hs : IsSchema s) (i : Json) :
    Valid D env (bytesSchema c s) i ↔ ListDoc (Valid D env s) i ∨ c = .deserialize ∧ TextDoc i := by
  unfold bytesSchema
  rw [valid_mkObj (by simp [Obj.keys]) (.inr rfl)]
  simp only [List.mem_cons, List.not_mem_nil, or_false, forall_eq_or_imp, forall_eq]
  rw [entryOk_type rfl, entryOk_items hs rfl]
  cases c <;> simp only [typeMatch_two, typeMatch_array, typeMatch_string, ListDoc, TextDoc]
  · cases i <;> simp [elems]
  · cases i <;> simp [elems]

theorem valid_byte (i : Json) : Valid D env (mkObj [("type", .str "integer"), ("minimum", .num (.int 1)),
    ("maximum", .num (.int 255))]) i ↔ ∃ n, IsInt i n ∧ 1 ≤ n ∧ n ≤ 255 := by
  rw [valid_mkObj (by simp [Obj.keys]) (.inr rfl)]
  simp only [List.mem_cons, List.not_mem_nil, or_false, forall_eq_or_imp, forall_eq]
  rw [entryOk_type rfl, typeMatch_integer, entryOk_minimum, entryOk_maximum]
  constructor
  · rintro ⟨⟨x, n, rfl, hx⟩, h1, h2⟩
    exact ⟨n, ⟨x, rfl, hx⟩, (rat_le_int hx 1).1 (h1 x rfl), (int_le_rat hx 255).1 (h2 x rfl)⟩
  · rintro ⟨n, ⟨x, rfl, hx⟩, h1, h2⟩
    exact ⟨⟨x, n, rfl, hx⟩, by rintro _ ⟨⟩; exact (rat_le_int hx 1).2 h1, by rintro _ ⟨⟩; exact (int_le_rat hx 255).2 h2⟩

/-- The schema of a type without params accepts exactly the documents of the type. -/
theorem fixed_exact {A : Answers Ty} (hrx : FixedRx env) (hM : Modern D env) (hc : A.settings.contract = c) {f : Fixed} {s : Json}
    (hu8 : f = .bytes → ∀ s, A.sub (.fixed (.int .u8)) s → s = intSchema .u8) (h : Returns A (Ty.body P (.fixed f)) s) :
    (∀ j, j.WF → (Valid D env s j ↔ Doc c (.fixed f) j)) ∧ KeysExact D env c (.fixed f) s := by
  have text : ∀ {j : Json}, typeMatch (.str "string") j = true ↔ TextDoc j := typeMatch_string
  have number : ∀ {j : Json}, typeMatch (.str "number") j = true ↔ ∃ x, j = .num x := by
    intro j; cases j <;> simp [typeMatch, typeName]
  have int : ∀ t (j : Json), Valid D env (intSchema t) j ↔ IntDoc t j := fun t j => C40_exact 64 t
  have sch : ∀ t, IsSchema (intSchema t) := fun t => (nullable_int (D := D) (env := env) t).sch.isSchema
  have member : ∀ t k (j : Json), HasMember D env k (seqSchema (intSchema t)) j ↔ Member k (ListDoc (IntDoc t)) j := by
    intro t k j
    unfold HasMember Member ListDoc
    simp only [C42_seq (sch t), int]
  simp only [Doc]
  cases f <;> simp only [Ty.body, Ty.fixedBody, stdBody, Returns] at h <;> simp only [FixedDoc]
  case int t =>
    cases h
    exact ⟨fun j _ => int t j, keys_int hM t⟩
  case nonZero t =>
    cases h
    exact ⟨fun j _ => by rw [C40_nonZero, int], keys_nonZero hM t⟩
  case bool =>
    cases h
    exact ⟨fun j _ => by rw [valid_typeOnly_iff]; cases j <;> simp [typeMatch, typeName],
      keys_typeOnly (fun _ => rfl) _ (by decide)⟩
  case unit =>
    cases h
    exact ⟨fun j _ => by rw [valid_typeOnly_iff]; cases j <;> simp [typeMatch, typeName],
      keys_typeOnly (fun _ => rfl) _ (by decide)⟩
  case char =>
    cases h
    refine ⟨fun j _ => ⟨char_reads, fun ⟨a, e⟩ => e ▸ valid_char a⟩, fun path defs vs i => ?_⟩
    refine valid_anyKey (anyKey_obj ⟨rfl, rfl⟩ rfl) vs
  case value =>
    cases h
    exact ⟨fun j _ => by simp [Valid, den, R.pass], fun path defs vs i => valid_anyKey (by nofun) vs⟩
  case duration =>
    cases h
    exact ⟨fun j hj => C44_duration hj,
      keys_lit (fun _ => rfl) (by simp [Obj.keys]) (by simp [Obj.get_cons]) (by simp [Obj.get_cons]) (by simp [Obj.get_cons])⟩
  case systemTime =>
    cases h
    exact ⟨fun j hj => C44_systemTime hj,
      keys_lit (fun _ => rfl) (by simp [Obj.keys]) (by simp [Obj.get_cons]) (by simp [Obj.get_cons]) (by simp [Obj.get_cons])⟩
  case osString =>
    cases h
    refine ⟨fun j hj => ?_,
      keys_lit (fun _ => rfl) (by simp [Obj.keys]) (by simp [Obj.get_cons]) (by simp [Obj.get_cons]) (by simp [Obj.get_cons])⟩
    unfold osStringSchema OneOf
    rw [valid_oneOf_two, valid_oneProperty hj, valid_oneProperty hj, member, member]
  case cString =>
    cases h
    rw [hc]
    refine ⟨fun j hj => ?_,
      keys_lit (fun _ => rfl) (by simp [Obj.keys]) (by simp [Obj.get_cons]) (by cases c <;> simp [Obj.get_cons])
        (by cases c <;> simp [Obj.get_cons])⟩
    have e : cStringSchema c = bytesSchema c (mkObj [("type", .str "integer"), ("minimum", .num (.int 1)),
      ("maximum", .num (.int 255))]) := by cases c <;> rfl
    rw [e, valid_arrayOrText (sch_mkObj _).isSchema]
    simp only [ListDoc, valid_byte]
  case bytes =>
    obtain ⟨s1, h1, rfl⟩ := h
    rw [hc, hu8 rfl s1 h1]
    refine ⟨fun j hj => ?_,
      keys_lit (fun _ => rfl) (by simp [Obj.keys]) (by simp [Obj.get_cons]) (by cases c <;> simp [Obj.get_cons])
        (by cases c <;> simp [Obj.get_cons])⟩
    rw [valid_arrayOrText (sch .u8)]
    simp only [ListDoc, int]
  case decimal =>
    cases h
    rw [hc]
    cases c
    · exact ⟨fun j _ => (C76_decimal_schema hrx j).2, fun path defs vs i => by
        simp only [KeyText, reduceCtorEq, false_implies]
        exact valid_anyKey (anyKey_obj ⟨rfl, rfl⟩ rfl) vs⟩
    · refine ⟨fun j _ => (C76_decimal_schema hrx j).1, keys_patterned fun s => ?_⟩
      simp only [KeyText, true_implies]
      exact (fixedRx_at hrx 2 rfl (by rw [C76_texts]; rfl) s).trans (C76_decimal s)
  case weekday =>
    cases h
    refine ⟨fun j _ => C76_weekday j, fun path defs vs i => ?_⟩
    exact C43_enum ⟨rfl, rfl⟩ ["Mon", "Tue", "Wed", "Thu", "Fri", "Sat", "Sun"] vs rfl rfl rfl
  case timeDelta =>
    cases h
    exact ⟨fun j _ => C76_timeDelta hM.items j,
      keys_lit (fun _ => rfl) (by simp [Obj.keys]) (by simp [Obj.get_cons]) (by simp [Obj.get_cons]) (by simp [Obj.get_cons])⟩
  case semver =>
    cases h
    exact ⟨fun j _ => C76_semver_schema hrx j, keys_patterned fun s =>
      (fixedRx_at hrx 4 rfl (by rw [C76_texts]; rfl) s).trans (C76_semver _)⟩
  case schema =>
    cases h
    refine ⟨fun j _ => ?_,
      keys_lit (fun _ => rfl) (by simp [Obj.keys]) (by simp [Obj.get_cons]) (by simp [Obj.get_cons]) (by simp [Obj.get_cons])⟩
    obtain ⟨s, hs, hv⟩ := C81_reads D env j
    rw [hs]
    refine hv.trans ?_
    cases j <;> simp [Schema.tryFrom, Schema.validate]
  case string =>
    cases h
    exact ⟨fun j _ => by rw [valid_typeOnly_iff, text], keys_typeOnly (fun _ => rfl) _ (by decide)⟩
  case number =>
    cases h
    exact ⟨fun j _ => by rw [valid_typeOnly_iff, number], keys_typeOnly (fun _ => rfl) _ (by decide)⟩
  case f32 | f64 =>
    cases h
    exact ⟨fun j _ => by rw [valid_typeFormat, number], keys_typeFormat (fun _ => rfl) _ _ (by decide)⟩
  all_goals
    cases h
    exact ⟨fun j _ => by rw [valid_typeFormat, text], keys_typeFormat (fun _ => rfl) _ _ (by decide)⟩

/-! ### Runs -/

variable {W : World Ty} {C : Crates P}

theorem crate_body (hΓ : W.Γ = crateDef C) (t : Ty) : (W.Γ t).body = Ty.body P (crateOf C t) := by rw [hΓ]; rfl

theorem crate_nullable (hΓ : W.Γ = crateDef C) : ∀ k t s, Produced W k t s → Nullable D env s := by
  intro k
  induction k with
  | zero => exact fun _ _ h => h.elim
  | succ k ih =>
    intro t s h
    have h : Returns (W.answers (Produced W k)) (W.Γ t).body s := h
    rw [crate_body hΓ] at h
    have hc := crateOf_crate C t
    generalize crateOf C t = t' at h hc
    have hs : ∀ t s, (W.answers (Produced W k)).sub t s → Nullable D env s := by
      intro t s h
      rcases answers_ref h with h | ⟨r, rfl⟩
      · exact ih t s h
      · exact nullable_ref r
    cases t' with
    | fixed f =>
      cases f <;> simp only [Ty.body, Ty.fixedBody] at h <;> first
        | exact std_nullable hs h
        | skip
      case weekday =>
        cases h
        refine nullable_own (Obj.sorted_ofList _) rfl fun k v h => ?_
        have := mem_of_mem_ofList (Obj.get_mem h)
        simp only [List.mem_cons, List.not_mem_nil, or_false, Prod.mk.injEq] at this
        rcases this with ⟨rfl, -⟩ | ⟨rfl, -⟩
        · exact .inl rfl
        · exact .inr (.inl rfl)
      case timeDelta => cases h; exact nullable_mkObj rfl (by decide)
      case semver =>
        cases h
        refine nullable_lit (by simp [Obj.keys]) (by simp [Schema.hasType, Schema.get, Obj.get_cons]) ?_
        simp only [List.mem_cons, List.not_mem_nil, or_false, forall_eq_or_imp, forall_eq]
        decide
      case schema => cases h; exact nullable_mkObj rfl (by decide)
    | arrayVec n t =>
      obtain ⟨s1, h1, rfl⟩ := h
      refine nullable_lit (by simp [Obj.keys]) (by simp [Schema.hasType, Schema.get, Obj.get_cons]) ?_
      simp only [List.mem_cons, List.not_mem_nil, or_false, forall_eq_or_imp, forall_eq]
      decide
    | derived d cs l => exact hc.elim
    | _ => simp only [Ty.body] at h; exact std_nullable hs h

/-- `Bound`, for two schemas. -/
theorem valid_bound {s s' i : Json} (hi : i.WF) : Valid D env (boundSchema s s') i ↔
    OneOf (HasMember D env "Included" s i) (HasMember D env "Excluded" s' i) ∨ i = .str "Unbounded" := by
  unfold boundSchema OneOf
  rw [valid_oneOf, ← valid_oneProperty hi, ← valid_oneProperty hi, ← valid_unbounded (D := D) (env := env)]
  have hx : Valid D env (mkObj [("type", .str "string"), ("const", .str "Unbounded")]) i →
      ¬ Valid D env (oneProperty "Included" s) i ∧ ¬ Valid D env (oneProperty "Excluded" s') i := by
    rw [valid_unbounded, valid_oneProperty hi, valid_oneProperty hi]
    rintro rfl
    exact ⟨fun h => (by obtain ⟨o, h⟩ := hasMember_obj h; cases h),
      fun h => (by obtain ⟨o, h⟩ := hasMember_obj h; cases h)⟩
  revert hx
  unfold Valid
  cases h : (den D env (oneProperty "Included" s) i).ok <;>
    cases h' : (den D env (oneProperty "Excluded" s') i).ok <;>
    cases h'' : (den D env (mkObj [("type", .str "string"), ("const", .str "Unbounded")]) i).ok <;>
    simp [*]

/-- The schema accepts exactly these documents. -/
def Accepts (D : Dialect) (env : Env) (s : Json) (Q : Json → Prop) : Prop := ∀ j : Json, j.WF → (Valid D env s j ↔ Q j)

theorem accepts_list {s : Json} {Q : Json → Prop} (h : Accepts D env s Q) {j : Json} (hj : j.WF) :
    (∃ l, j = .arr l ∧ ∀ x ∈ l, Valid D env s x) ↔ ListDoc Q j := by
  refine exists_congr fun l => and_congr_right ?_
  rintro rfl
  cases hj with
  | arr _ hl => exact forall_congr' fun x => imp_congr_right fun hx => h x (hl x hx)

theorem accepts_member {s : Json} {Q : Json → Prop} (h : Accepts D env s Q) (k : String) {j : Json} (hj : j.WF) :
    HasMember D env k s j ↔ Member k Q j := by
  refine exists_congr fun o => exists_congr fun x => and_congr_right ?_
  rintro rfl
  cases hj with
  | obj _ _ hl => exact and_congr_right fun hx => h x (hl _ (Obj.get_mem hx))

theorem accepts_all {ts : List Ty} {ss : List Json} (h : List.Forall₂ (fun t s => Accepts D env s (Doc c t)) ts ss)
    {l : List Json} (hl : ∀ x ∈ l, x.WF) : List.Forall₂ (Valid D env) ss l ↔ Docs c ts l := by
  induction h generalizing l with
  | nil => simp [Docs]
  | cons h1 _ ih =>
    simp only [Docs]
    constructor
    · rintro (_ | ⟨h2, h3⟩)
      exact ⟨_, _, rfl, (h1 _ (hl _ (.head _))).1 h2, (ih fun x hx => hl x (.tail _ hx)).1 h3⟩
    · rintro ⟨x, r, rfl, h2, h3⟩
      exact .cons ((h1 x (hl x (.head _))).2 h2) ((ih fun x hx => hl x (.tail _ hx)).2 h3)

/-- The schemas of a run have plain forms. -/
theorem crate_tame (hΓ : W.Γ = crateDef C) : ∀ k t s, Produced W k t s → Tame s := by
  intro k
  induction k with
  | zero => exact fun _ _ h => h.elim
  | succ k ih =>
    intro t s h
    have h : Returns (W.answers (Produced W k)) (W.Γ t).body s := h
    rw [crate_body hΓ] at h
    have hc := crateOf_crate C t
    generalize crateOf C t = t' at h hc
    have hs : ∀ {t s}, (W.answers (Produced W k)).sub t s → Tame s := by
      intro t s h
      rcases answers_ref h with h | ⟨r, rfl⟩
      · exact ih t s h
      · exact tame_ref r
    cases t' with
    | fixed f =>
      cases f <;> simp only [Ty.body, Ty.fixedBody, stdBody, Returns] at h
      case int t => cases h; cases t <;> exact tame_lit (by simp)
      case nonZero t => cases h; exact tame_nonZero t
      case value => cases h; exact ⟨nofun, nofun⟩
      case decimal => cases h; unfold decimalSchema; split <;> exact tame_lit (by simp)
      case bytes => obtain ⟨s1, h1, rfl⟩ := h; exact tame_lit (by simp)
      all_goals
        cases h
        exact tame_lit (by simp)
    | option t => obtain ⟨s1, h1, rfl⟩ := h; exact tame_allowNull (hs h1)
    | emptyArray => cases h; exact tame_lit (by simp)
    | seq t => obtain ⟨s1, h1, rfl⟩ := h; exact tame_lit (by simp)
    | set t => obtain ⟨s1, h1, rfl⟩ := h; exact tame_lit (by simp)
    | array n t => obtain ⟨s1, h1, rfl⟩ := h; exact tame_lit (by simp)
    | arrayVec n t => obtain ⟨s1, h1, rfl⟩ := h; exact tame_lit (by simp)
    | tuple l => obtain ⟨ss, h1, rfl⟩ := returns_subAll h; exact tame_lit (by simp)
    | map k v => obtain ⟨ks, _, vs, _, d, _, rfl⟩ := h; exact tame_map _ _ _ _
    | result t e => obtain ⟨s1, _, s2, _, rfl⟩ := h; exact tame_lit (by simp)
    | bound t => obtain ⟨s1, _, s2, _, rfl⟩ := h; exact tame_lit (by simp)
    | range t => obtain ⟨s1, h1, rfl⟩ := h; exact tame_lit (by simp)
    | either t e => obtain ⟨s1, _, s2, _, rfl⟩ := h; exact tame_lit (by simp)
    | derived d cs l => exact hc.elim

/-- The schemas of a run accept exactly the documents of the types. -/
theorem crate_exact (hrx : FixedRx env) (hM : Modern D env) (hΓ : W.Γ = crateDef C) {root : Ty} {body : Json} {N : Nat}
    (hF : Finished W N root body) (hR : Follows D env W root body) (t : Ty) (hc : C.S t) :
    ∀ k s, Produced W k t s → Accepts D env s (Doc W.settings.contract t) ∧
      KeysExact D env W.settings.contract t s := by
  have ran : ∀ {t}, C.S t → ∀ {k s}, Produced W k t s →
      ∃ k, Returns (W.answers (Produced W k)) (Ty.body P t) s := by
    intro t hc k s h
    cases k with
    | zero => exact h.elim
    | succ k =>
      have h : Returns (W.answers (Produced W k)) (W.Γ t).body s := h
      rw [crate_body hΓ, crateOf_self hc] at h
      exact ⟨k, h⟩
  have same : ∀ {t t' k s}, W.uid t' = W.uid t → Produced W k t' s → Produced W k t s := by
    intro t t' k s hu h
    have hid : String.ofList (Ty.id P (crateOf C t')) = String.ofList (Ty.id P (crateOf C t)) := by
      have := congrArg Prod.fst hu
      unfold World.uid at this
      rw [hΓ] at this
      exact this
    have he := C.inj _ _ (crateOf_mem C t') (crateOf_mem C t) (String.ofList_injective hid)
    cases k with
    | zero => exact h.elim
    | succ k =>
      show Returns (W.answers (Produced W k)) (W.Γ t).body s
      rw [crate_body hΓ, ← he, ← crate_body hΓ]
      exact h
  have sub : ∀ {t}, (∀ k s, Produced W k t s → Accepts D env s (Doc W.settings.contract t) ∧
      KeysExact D env W.settings.contract t s) → ∀ {k s}, (W.answers (Produced W k)).sub t s →
      IsSchema s ∧ Nullable D env s ∧ Tame s ∧ Accepts D env s (Doc W.settings.contract t) := by
    intro t ih k s h
    have target : ∀ {r k v}, (∀ i, (env.ref r i).ok = true ↔ Valid D env v i) → Produced W k t v →
        IsSchema (Schema.newRef r) ∧ Nullable D env (Schema.newRef r) ∧ Tame (Schema.newRef r) ∧
          Accepts D env (Schema.newRef r) (Doc W.settings.contract t) := by
      intro r k v hr hv
      exact ⟨.obj _, nullable_ref r, tame_ref r, fun j hj => (valid_newRef hM.refs hr).trans ((ih k v hv).1 j hj)⟩
    rcases h with ⟨-, h⟩ | ⟨-, ⟨n, hn, ⟨d, hd⟩, rfl⟩ | ⟨hr, rfl⟩⟩
    · have hn := crate_nullable (D := D) (env := env) hΓ k t s h
      exact ⟨hn.sch.isSchema, hn, crate_tame hΓ k t s h, (ih k s h).1⟩
    · obtain ⟨t', h1, h2⟩ := hF.defs n d hd
      exact target (fun i => by rw [hR.defs n d hd]; rfl) (same (hF.names _ _ _ h2 hn) h1)
    · exact target hR.self (same (Option.some.inj (hR.root.symm.trans hr)) hF.body)
  have lit : ∀ {t : Ty} {l : List (String × Json)}, (∀ s, KeyText W.settings.contract t s = True) →
      (Obj.keys l).Nodup → (∀ e ∈ l, e.1 ∉ ["$defs", "definitions", "anyOf"]) →
      Obj.get l "$ref" = none → Obj.get l "type" ≠ some (.str "string") → Obj.get l "type" ≠ some (.str "integer") →
      Accepts D env (mkObj l) (Doc W.settings.contract t) →
      Accepts D env (mkObj l) (Doc W.settings.contract t) ∧
        KeysExact D env W.settings.contract t (mkObj l) := by
    intro t l hk hn hl hr h1 h2 ha
    refine ⟨ha, keys_lit hk hn ⟨?_, hr⟩ h1 h2⟩
    rw [Obj.get_eq_none]
    intro hm
    obtain ⟨e, he, hm⟩ := List.mem_map.1 hm
    exact hl e he (by rw [hm]; simp)
  refine crate_induction (M := fun t => C.S t → ∀ k s, Produced W k t s →
    Accepts D env s (Doc W.settings.contract t) ∧ KeysExact D env W.settings.contract t s) ?_ ?_ ?_ ?_ ?_ ?_ ?_ ?_ ?_ ?_
    ?_ ?_ ?_ t (C.crate t hc) hc
  case refine_1 =>
    intro f hc k s h
    obtain ⟨k, h⟩ := ran hc h
    refine fixed_exact hrx hM rfl (fun hf s h => ?_) h
    have hu : C.S (.fixed (.int .u8)) := C.kids _ hc _ (by rw [hf]; exact .head _)
    rcases h with ⟨-, h⟩ | ⟨h, -⟩
    · obtain ⟨k, h⟩ := ran hu h
      exact h
    · rw [hΓ] at h
      have : Ty.inline P (crateOf C (.fixed (.int .u8))) = false := h
      rw [crateOf_self hu] at this
      cases this
  case refine_2 =>
    intro hc k s h
    obtain ⟨k, h⟩ := ran hc h
    cases h
    exact lit (fun _ => rfl) (by simp [Obj.keys]) (by simp) rfl (by simp [Obj.get_cons]) (by simp [Obj.get_cons])
      fun j _ => C42_emptyArray
  case refine_3 =>
    intro t ih hc k s h
    obtain ⟨k, h⟩ := ran hc h
    obtain ⟨s1, h1, rfl⟩ := h
    obtain ⟨-, hn, ht, ha⟩ := sub (ih (C.kids _ hc _ (.head _))) h1
    refine ⟨fun j hj => ?_, fun path defs vs i => valid_anyKey (anyKey_option ht) vs⟩
    rw [hn.exact, ha j hj]
    rfl
  case refine_4 =>
    intro t ih hc k s h
    obtain ⟨k, h⟩ := ran hc h
    obtain ⟨s1, h1, rfl⟩ := h
    obtain ⟨hs, -, -, ha⟩ := sub (ih (C.kids _ hc _ (.head _))) h1
    refine lit (fun _ => rfl) (by simp [Obj.keys]) (by simp) rfl (by simp [Obj.get_cons]) (by simp [Obj.get_cons])
      fun j hj => ?_
    exact (C42_seq hs).trans (accepts_list ha hj)
  case refine_5 =>
    intro t ih hc k s h
    obtain ⟨k, h⟩ := ran hc h
    obtain ⟨s1, h1, rfl⟩ := h
    obtain ⟨hs, -, -, ha⟩ := sub (ih (C.kids _ hc _ (.head _))) h1
    refine lit (fun _ => rfl) (by simp [Obj.keys]) (by simp) rfl (by simp [Obj.get_cons]) (by simp [Obj.get_cons])
      fun j hj => ?_
    refine (C42_set hs).trans ?_
    simp only [Doc, ← accepts_list ha hj]
    constructor
    · rintro ⟨l, rfl, h1, h2⟩; exact ⟨⟨l, rfl, h1⟩, by rintro _ ⟨⟩; exact h2⟩
    · rintro ⟨⟨l, rfl, h1⟩, h2⟩; exact ⟨l, rfl, h1, h2 l rfl⟩
  case refine_6 =>
    intro n t ih hc k s h
    obtain ⟨k, h⟩ := ran hc h
    obtain ⟨s1, h1, rfl⟩ := h
    obtain ⟨hs, -, -, ha⟩ := sub (ih (C.kids _ hc _ (.head _))) h1
    refine lit (fun _ => rfl) (by simp [Obj.keys]) (by simp) rfl (by simp [Obj.get_cons]) (by simp [Obj.get_cons])
      fun j hj => ?_
    refine (C42_array hs n).trans ?_
    simp only [Doc, ← accepts_list ha hj]
    constructor
    · rintro ⟨l, rfl, h1, h2⟩; exact ⟨⟨l, rfl, h2⟩, by rintro _ ⟨⟩; exact h1⟩
    · rintro ⟨⟨l, rfl, h1⟩, h2⟩; exact ⟨l, rfl, h2 l rfl, h1⟩
  case refine_7 =>
    intro _ n t ih hc k s h
    obtain ⟨k, h⟩ := ran hc h
    obtain ⟨s1, h1, rfl⟩ := h
    obtain ⟨hs, -, -, ha⟩ := sub (ih (C.kids _ hc _ (.head _))) h1
    refine lit (fun _ => rfl) (by simp [Obj.keys]) (by simp) rfl (by simp [Obj.get_cons]) (by simp [Obj.get_cons])
      fun j hj => ?_
    rw [valid_mkObj (by simp [Obj.keys]) (.inr rfl)]
    simp only [List.mem_cons, List.not_mem_nil, or_false, forall_eq_or_imp, forall_eq]
    rw [entryOk_type rfl, typeMatch_array, entryOk_items hs rfl, entryOk_maxItems]
    simp only [Doc, ← accepts_list ha hj]
    constructor
    · rintro ⟨⟨l, rfl⟩, h1, h2⟩; exact ⟨⟨l, rfl, h1⟩, h2⟩
    · rintro ⟨⟨l, rfl, h1⟩, h2⟩; exact ⟨⟨l, rfl⟩, h1, h2⟩
  case refine_8 =>
    intro l hne ih hc k s h0
    obtain ⟨k, h⟩ := ran hc h0
    obtain ⟨ss, h1, rfl⟩ := returns_subAll h
    refine lit (fun _ => rfl) (by simp [Obj.keys]) (by simp) rfl (by simp [Obj.get_cons]) (by simp [Obj.get_cons])
      fun j hj => ?_
    refine (C42_tuple hM.items ss).trans ?_
    simp only [Doc]
    refine exists_congr fun l' => and_congr_right ?_
    rintro rfl
    cases hj with
    | arr _ hl =>
      refine accepts_all ?_ hl
      have := C.kids _ hc
      simp only [kids] at this
      clear hc h hne h0
      induction h1 with
      | nil => exact .nil
      | cons h1 _ ih' =>
        have h2 := (sub (ih _ (.head _) (this _ (.head _))) h1).2.2.2
        exact .cons h2 (ih' (fun t ht => ih t (.tail _ ht)) fun t ht => this t (.tail _ ht))
  case refine_9 =>
    intro a b iha ihb hc k s h
    obtain ⟨k, h⟩ := ran hc h
    obtain ⟨ks, h1, vs, h2, d, hd, rfl⟩ := h
    obtain ⟨-, -, -, hv⟩ := sub (ihb (C.kids _ hc _ (.tail _ (.head _)))) h2
    refine ⟨fun j hj => ?_, fun path defs vs' i => ?_⟩
    · rw [(iha (C.kids _ hc _ (.head _)) _ ks h1).2]
      simp only [Doc]
      refine exists_congr fun o => and_congr_right ?_
      rintro rfl
      cases hj with
      | obj _ _ hl => exact forall_congr' fun e => imp_congr_right fun he => and_congr_right fun _ => hv _ (hl e he)
    · exact valid_anyKey (anyKey_map _ _ _ _) vs'
  case refine_10 =>
    intro a b iha ihb hc k s h
    obtain ⟨k, h⟩ := ran hc h
    obtain ⟨s1, h1, s2, h2, rfl⟩ := h
    have ha := (sub (iha (C.kids _ hc _ (.head _))) h1).2.2.2
    have hb := (sub (ihb (C.kids _ hc _ (.tail _ (.head _)))) h2).2.2.2
    refine lit (fun _ => rfl) (by simp [Obj.keys]) (by simp) rfl (by simp [Obj.get_cons]) (by simp [Obj.get_cons])
      fun j hj => ?_
    refine (C44_result hj).trans ?_
    rw [accepts_member ha _ hj, accepts_member hb _ hj]
    rfl
  case refine_11 =>
    intro t ih hc k s h
    obtain ⟨k, h⟩ := ran hc h
    obtain ⟨s1, h1, s2, h2, rfl⟩ := h
    have ha := (sub (ih (C.kids _ hc _ (.head _))) h1).2.2.2
    have hb := (sub (ih (C.kids _ hc _ (.head _))) h2).2.2.2
    refine lit (fun _ => rfl) (by simp [Obj.keys]) (by simp) rfl (by simp [Obj.get_cons]) (by simp [Obj.get_cons])
      fun j hj => ?_
    refine (valid_bound hj).trans ?_
    rw [accepts_member ha _ hj, accepts_member hb _ hj]
    rfl
  case refine_12 =>
    intro t ih hc k s h
    obtain ⟨k, h⟩ := ran hc h
    obtain ⟨s1, h1, rfl⟩ := h
    have ha := (sub (ih (C.kids _ hc _ (.head _))) h1).2.2.2
    refine lit (fun _ => rfl) (by simp [Obj.keys]) (by simp) rfl (by simp [Obj.get_cons]) (by simp [Obj.get_cons])
      fun j hj => ?_
    refine (C44_range hj).trans ?_
    rw [accepts_member ha _ hj, accepts_member ha _ hj]
    rfl
  case refine_13 =>
    intro a b iha ihb hc k s h
    obtain ⟨k, h⟩ := ran hc h
    obtain ⟨s1, h1, s2, h2, rfl⟩ := h
    have ha := (sub (iha (C.kids _ hc _ (.head _))) h1).2.2.2
    have hb := (sub (ihb (C.kids _ hc _ (.tail _ (.head _)))) h2).2.2.2
    refine lit (fun _ => rfl) (by simp [Obj.keys]) (by simp) rfl (by simp [Obj.get_cons]) (by simp [Obj.get_cons])
      fun j hj => ?_
    have hw : ∀ {k x}, j = .obj [(k, x)] → x.WF := by
      rintro k x rfl
      cases hj with
      | obj _ _ hl => exact hl _ (.head _)
    have h1 : (∃ x, j = .obj [("Left", x)] ∧ Valid D env s1 x) ↔ ∃ x, j = .obj [("Left", x)] ∧ Doc W.settings.contract a x :=
      exists_congr fun x => and_congr_right fun e => ha x (hw e)
    have h2 : (∃ x, j = .obj [("Right", x)] ∧ Valid D env s2 x) ↔ ∃ x, j = .obj [("Right", x)] ∧ Doc W.settings.contract b x :=
      exists_congr fun x => and_congr_right fun e => hb x (hw e)
    refine valid_oneOf_two.trans ?_
    rw [valid_eitherSide hj, valid_eitherSide hj, h1, h2]
    simp only [Doc]
    constructor
    · rintro (⟨h, -⟩ | ⟨-, h⟩)
      · exact .inl h
      · exact .inr h
    · rintro (h | h)
      · refine .inl ⟨h, ?_⟩
        obtain ⟨x, rfl, -⟩ := h
        rintro ⟨y, e, -⟩
        simp at e
      · refine .inr ⟨?_, h⟩
        obtain ⟨x, rfl, -⟩ := h
        rintro ⟨y, e, -⟩
        simp at e

/-! ### Names -/

/-- Characters without a meaning in references. -/
def PlainChars (l : List Char) : Prop := ∀ c ∈ l, 0x10 ≤ c.toNat ∧ c ≠ '%' ∧ c ≠ '~' ∧ c ≠ '/'

theorem PlainChars.append {l l' : List Char} (h : PlainChars l) (h' : PlainChars l') : PlainChars (l ++ l') := by
  intro c hc
  rcases List.mem_append.1 hc with hc | hc
  · exact h c hc
  · exact h' c hc

theorem plain_fill {a b c : String} {x y : List Char} (ha : PlainChars a.toList) (hb : PlainChars b.toList)
    (hc : PlainChars c.toList) (hx : PlainChars x) (hy : PlainChars y) : PlainChars (Ty.fill a x b y c) :=
  (((ha.append hx).append hb).append hy).append hc

theorem plain_num (n : Nat) : PlainChars (Nat.repr n).toList := by
  intro c hc
  have h := (digits_repr n).2 c hc
  refine ⟨Nat.le_trans (by decide) h.1, ?_, ?_, ?_⟩ <;> rintro rfl <;> revert h <;> decide

theorem plain_join {s : List Char} (hs : PlainChars s) {l : List (List Char)} (hl : ∀ x ∈ l, PlainChars x) :
    PlainChars (Ty.join s l) := by
  induction l with
  | nil => exact nofun
  | cons a l ih =>
    cases l with
    | nil => exact hl a (.head _)
    | cons b l => exact ((hl a (.head _)).append hs).append (ih fun x hx => hl x (.tail _ hx))

/-- The names of the crate's types have no characters with a meaning in references. -/
theorem crate_plain (t : Ty) (h : Crate true t) : PlainChars (Ty.name P t) := by
  refine crate_induction (M := fun t => PlainChars (Ty.name P t)) ?_ ?_ ?_ ?_ ?_ ?_ ?_ ?_ ?_ ?_ ?_ ?_ ?_ t h
  case refine_1 =>
    intro f
    show PlainChars f.name.toList
    unfold PlainChars
    cases f with
    | int t => cases t <;> decide
    | nonZero t => cases t <;> decide
    | _ => decide
  case refine_2 => show PlainChars "EmptyArray".toList; unfold PlainChars; decide
  case refine_7 =>
    intro _ n t ih
    exact plain_fill (a := "Array_up_to_size_") (b := "_of_") (c := "") (by unfold PlainChars; decide)
      (by unfold PlainChars; decide) nofun (plain_num n) ih
  case refine_8 =>
    intro l hne hl
    clear hne
    refine plain_fill (a := "Tuple_of_") (b := "") (c := "") (by unfold PlainChars; decide) nofun nofun
      (plain_join (s := "_and_".toList) (l := Ty.names P l) (by unfold PlainChars; decide) ?_) nofun
    induction l with
    | nil => exact nofun
    | cons t l ih =>
      intro x hx
      rcases List.mem_cons.1 (show x ∈ Ty.name P t :: Ty.names P l from hx) with rfl | hx
      · exact hl t (.head _)
      · exact ih (fun t ht => hl t (.tail _ ht)) x hx
  case refine_3 =>
    intro t ih
    exact plain_fill (a := "Nullable_") (b := "") (c := "") (by unfold PlainChars; decide) nofun nofun ih nofun
  case refine_4 =>
    intro t ih
    exact plain_fill (a := "Array_of_") (b := "") (c := "") (by unfold PlainChars; decide) nofun nofun ih nofun
  case refine_5 =>
    intro t ih
    exact plain_fill (a := "Set_of_") (b := "") (c := "") (by unfold PlainChars; decide) nofun nofun ih nofun
  case refine_6 =>
    intro n t ih
    exact plain_fill (a := "Array_size_") (b := "_of_") (c := "") (by unfold PlainChars; decide)
      (by unfold PlainChars; decide) nofun (plain_num n) ih
  case refine_9 =>
    intro a b iha ihb
    show PlainChars (if Ty.id P a = "string".toList then Ty.fill "Map_of_" (Ty.name P b) "" [] ""
      else Ty.fill "Map_from_" (Ty.name P a) "_to_" (Ty.name P b) "")
    split
    · exact plain_fill (by unfold PlainChars; decide) nofun nofun ihb nofun
    · exact plain_fill (by unfold PlainChars; decide) (by unfold PlainChars; decide) nofun iha ihb
  case refine_10 =>
    intro a b iha ihb
    exact plain_fill (a := "Result_of_") (b := "_or_") (c := "") (by unfold PlainChars; decide)
      (by unfold PlainChars; decide) nofun iha ihb
  case refine_11 =>
    intro t ih
    exact plain_fill (a := "Bound_of_") (b := "") (c := "") (by unfold PlainChars; decide) nofun nofun ih nofun
  case refine_12 =>
    intro t ih
    exact plain_fill (a := "Range_of_") (b := "") (c := "") (by unfold PlainChars; decide) nofun nofun ih nofun
  case refine_13 =>
    intro a b iha ihb
    exact plain_fill (a := "Either_") (b := "_or_") (c := "") (by unfold PlainChars; decide)
      (by unfold PlainChars; decide) nofun iha ihb

theorem crate_fact (c : Contract) : NameFact (crateDef C) c fun names _ => ∀ e ∈ names, PlainName e.2 := by
  have hΓ : ∀ t, PlainName (crateDef C t).schemaName := fun t => by
    show PlainName (String.ofList (Ty.name P (crateOf C t)))
    unfold PlainName
    rw [String.toList_ofList]
    exact crate_plain _ (crateOf_crate C t)
  intro t names used hq _ e he
  rcases List.mem_cons.1 he with rfl | he
  · show PlainName (freshName used (crateDef C t).schemaName)
    unfold freshName
    by_cases h : (crateDef C t).schemaName ∈ used
    · rw [if_pos h]
      obtain ⟨j, _, h2, _⟩ := freshFrom_form used (crateDef C t).schemaName (used.length + 1) 2
      rw [h2]
      unfold PlainName
      rw [String.toList_append]
      exact PlainChars.append (hΓ t) (plain_num j)
    · rw [if_neg h]; exact hΓ t
  · exact hq e he

end

section
variable {D : Dialect} {env : Env} {P : Nat → IdDecl}

/-- The full claim, with `ArrayVec`. -/
def C83_Full : Prop := ∀ (D : Dialect) (env : Env) (P : Nat → IdDecl) (n : Nat) (t : Ty) (st : Settings) (r : Json) (g' : Gen Ty),
  FixedRx env → D.refSiblings = true → D.prefixItems = true → Crate true t →
  rootSchemaFor (Ty.typeDef P) (run (Ty.typeDef P) n) t (Gen.new st) = some (r, g') → st.transforms = [] →
  PathDenotes st.definitionsPath ["$defs"] → Resolves D env r →
  ∀ j : Json, j.WF → (Valid D env r j ↔ Doc st.contract t j)

/-- C83 for a set of types with different ids. -/
theorem crates_accept (C : Crates P) (hrx : FixedRx env) (hr : D.refSiblings = true) (hp : D.prefixItems = true) {n : Nat} {t : Ty}
    (hc : C.S t) {st : Settings} {r : Json} {g' : Gen Ty}
    (h : rootSchemaFor (Ty.typeDef P) (run (Ty.typeDef P) n) t (Gen.new st) = some (r, g')) (hst : st.transforms = [])
    {k : String} (hk : k = "$defs" ∨ k = "definitions") (hpath : PathDenotes st.definitionsPath [k])
    (hR : Resolves D env r) {j : Json} (hj : j.WF) : Valid D env r j ↔ Doc st.contract t j := by
  have hM := (C76_assumed hrx hr hp).1
  rw [crateDef_root hc] at h
  have hroot : ∀ t, NoRoot (crateDef C t).body := fun t => crate_noRoot _ (crateOf_crate C t)
  have hinv := (rootSchemaFor_kept (run_keeps (crateDef C) n) h).sorted Obj.sorted_nil
  obtain ⟨body, m, hm, hr', hbody, hdefs, hnames⟩ := root_world hroot h
  have hplain : ∀ name d, Obj.get g'.defs name = some d → PlainName name := by
    intro name d hd
    obtain ⟨t', -, h2⟩ := hdefs name d hd
    exact rootSchemaFor_fact (run_fact (crate_fact _) n) rfl (by intro e he; cases he) h _ h2
  have hfree : g'.defs ≠ [] → ∃ ds, At r [k] (.obj ds) := by
    intro hne
    have hk1 : [k] ≠ [""] := by rcases hk with rfl | rfl <;> simp
    have hg : Obj.get (rootObject (crateDef C) t st.metaSchema m) k = none := by
      have h1 : Obj.get m k = none := by
        have ht := crate_tame (W := ⟨crateDef C, st, g'.names, g'.defs, some ((crateDef C t).schemaId, st.contract)⟩)
          rfl n t body hbody
        cases body with
        | obj m' =>
          cases hm
          rcases hk with rfl | rfl
          · exact (ht.defs m rfl).1
          · exact (ht.defs m rfl).2
        | bool b => cases b <;> cases hm <;> rcases hk with rfl | rfl <;> rfl
        | _ => cases hm
      have h2 : k ≠ "title" ∧ k ≠ "$schema" := by rcases hk with rfl | rfl <;> decide
      unfold rootObject
      simp only
      split <;> split <;> simp only [Obj.get_insert_ne _ _ h2.1.symm, Obj.get_insert_ne _ _ h2.2.symm, h1]
    obtain ⟨ds, h1, -⟩ := C05_target st.definitionsPath [k] _ g'.defs hpath (by simp) hk1 (by
      intro p w hp hpre hw
      cases p with
      | nil => exact absurd rfl hp
      | cons k' p =>
        simp only [List.cons_prefix_cons, List.prefix_nil] at hpre
        obtain ⟨rfl, rfl⟩ := hpre
        cases hw with
        | member h1 h2 => rw [hg] at h1; cases h1) (Obj.sorted_nodup hinv) hne
    rw [hr', hst]
    exact ⟨ds, h1⟩
  obtain ⟨body, hF, hraw, hdoc⟩ := root_document_of hM hroot h hst hk hpath hfree hplain hR
  obtain ⟨h1, h2⟩ := hdoc (crate_nullable (D := D) (env := env) rfl n t body hF.body).sch
  rw [h2]
  exact (crate_exact hrx hM rfl hF h1 t hc n body hF.body).1 j hj

/-- C83 (`_partial`: without `ArrayVec`, see `C83_Full`, which is false): the root schema of a type that is made of
types of the crate only accepts exactly the documents of the type, for settings without transforms, if references are
followed and the patterns mean what ECMA-262 says. -/
theorem C83_partial (hrx : FixedRx env) (hr : D.refSiblings = true) (hp : D.prefixItems = true) {n : Nat} {t : Ty}
    (hc : Crate false t) {st : Settings} {r : Json} {g' : Gen Ty}
    (h : rootSchemaFor (Ty.typeDef P) (run (Ty.typeDef P) n) t (Gen.new st) = some (r, g')) (hst : st.transforms = [])
    {k : String} (hk : k = "$defs" ∨ k = "definitions") (hpath : PathDenotes st.definitionsPath [k])
    (hR : Resolves D env r) {j : Json} (hj : j.WF) : Valid D env r j ↔ Doc st.contract t j :=
  crates_accept (.plain P) hrx hr hp hc h hst hk hpath hR hj

/-- C83 with `ArrayVec` (`_partial`: if ids tell the parts of the type apart). -/
theorem C83_ids_partial (hrx : FixedRx env) (hr : D.refSiblings = true) (hp : D.prefixItems = true) {n : Nat} {t : Ty}
    (hc : Crate true t) (hid : ∀ u u', PartOf t u → PartOf t u' → Ty.id P u = Ty.id P u' → u = u')
    {st : Settings} {r : Json} {g' : Gen Ty}
    (h : rootSchemaFor (Ty.typeDef P) (run (Ty.typeDef P) n) t (Gen.new st) = some (r, g')) (hst : st.transforms = [])
    {k : String} (hk : k = "$defs" ∨ k = "definitions") (hpath : PathDenotes st.definitionsPath [k])
    (hR : Resolves D env r) {j : Json} (hj : j.WF) : Valid D env r j ↔ Doc st.contract t j :=
  crates_accept (.parts P t hc hid) hrx hr hp .self h hst hk hpath hR hj

end

end Verif
