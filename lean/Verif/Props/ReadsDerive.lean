import Verif.Props.AcceptsMap
import Verif.Props.ReadsStd

/-!
# The schemas of derived types and what serde reads

The conditions on declarations, and structs whose flattened fields are structs.
-/

namespace Verif
open Spec

variable {τ : Type}

/-! ## The conditions on declarations -/

/-- The type is a struct with named fields, without attributes that replace its schema. -/
structure Spec.PlainInput (c : Container τ) (fs : List (Field τ)) : Prop where
  data : c.data = .struct (.struct fs)
  noWith : c.withTy = none
  noTransparent : c.transparent = none
  noFrom : c.fromTy = none
  common : Harmless c.common

/-- The names that the fields are read under: those of the struct itself, and those of flattened structs. -/
inductive Spec.InputNames (decl : τ → Decl τ) (base : τ → τ) : List (Field τ) → List String → List String → Prop where
  | nil : InputNames decl base [] [] []
  | skip {f fs ns ms} : f.skipDe = true → InputNames decl base fs ns ms → InputNames decl base (f :: fs) ns ms
  | own {f fs ns ms} : f.skipDe = false → f.flatten = false → InputNames decl base fs ns ms →
      InputNames decl base (f :: fs) (f.name.de :: ns) ms
  | flat {f fs ns ms c gs ns' ms'} : f.skipDe = false → f.flatten = true → decl (base f.ty) = .derived c →
      PlainInput c gs → InputNames decl base gs ns' ms' → InputNames decl base fs ns ms →
      InputNames decl base (f :: fs) ns ((ns' ++ ms') ++ ms)

/-- The conditions on a field that is not flattened. With `exact`, it must have no validation attributes, as serde does
not check them. -/
def Spec.InputField (exact : Bool) (f : Field τ) : Prop := FieldOk f ∧ (exact = true → f.validation = .noAttrs)

/-- The conditions on the fields of a struct: the flattened fields are structs or options of structs, and all names are
distinct. serde reads an optional flattened field whatever its members are,
which is counted with `sw`; the schema accepts more than it reads without that, and less with it. With `exact`,
flattened structs that have flattened fields themselves must not meet `deny_unknown_fields`, which they violate. -/
structure Spec.ReadFieldsOk (exact sw : Bool) (decl : τ → Decl τ) (base : τ → τ) (deny : Bool) (fs : List (Field τ)) :
    Prop where
  fields : ∀ f ∈ fs, f.skipDe = false → f.flatten = false → InputField exact f
  names : ∃ ns ms, InputNames decl base fs ns ms ∧ (ns ++ ms).Nodup
  option : ∀ f ∈ fs, f.skipDe = false → f.flatten = true → f.required = false → ∀ u, decl f.ty = .std (.option u) →
    sw = exact
  nested : exact = true → ∀ f ∈ fs, f.skipDe = false → f.flatten = true → ∀ c gs, decl (base f.ty) = .derived c →
    PlainInput c gs → (∃ g ∈ gs, g.skipDe = false ∧ g.flatten = true) → deny = false ∧ c.denyUnknownFields = false

/-- The conditions on a variant that do not concern its content. -/
structure Spec.VariantInput (v : Variant τ) : Prop where
  common : Harmless v.common
  noRef : v.refTy = none
  tagged : v.untagged = false
  full : ∀ f, v.withTy = none → v.fields = .newtype f → f.skipDe = false

/-- An enum whose schema is derived from its variants. -/
structure Spec.PlainInputEnum (c : Container τ) (tag : TagType) (vs : List (Variant τ)) : Prop where
  data : c.data = .enum tag vs
  noWith : c.withTy = none
  noTransparent : c.transparent = none
  noFrom : c.fromTy = none
  common : Harmless c.common
  nonempty : vs ≠ []
  variants : ∀ v ∈ vs, VariantInput v
  names : ((presentVariants vs .deserialize).map fun v => v.name.de).Nodup

/-- The type is a struct with named fields, that are read under these names. -/
def Spec.BesideNames (exact : Bool) (decl : τ → Decl τ) (base : τ → τ) (t : τ) (ms : List String) : Prop :=
  ∃ c fs ns' ms', decl t = .derived c ∧ PlainInput c fs ∧ InputNames decl base fs ns' ms' ∧ ms = ns' ++ ms' ∧
    (exact = true → c.denyUnknownFields = false)

/-- The names of the members that are read beside the tag. With `exact`, the variant must not deny other members: serde
would see those of the other fields of the struct that the enum is flattened into. -/
def Spec.InputTagged (exact : Bool) (decl : τ → Decl τ) (base : τ → τ) (deny : Bool) (v : Variant τ)
    (ms : List String) : Prop :=
  match v.withTy with
  | some t => BesideNames exact decl base t ms
  | none => match v.fields with
    | .unit => ms = [] ∧ (exact = true → deny = false)
    | .newtype f => FreeField f ∧ BesideNames exact decl base (fieldType base f) ms
    | .tuple _ => False
    | .struct fs => (∃ ns' ms', InputNames decl base fs ns' ms' ∧ ms = ns' ++ ms') ∧ (exact = true → deny = false)

/-- The names of the members that are read for the variants of a flattened enum. A unit variant of an externally tagged
enum must have no attributes (nor a doc comment), as the schema is wrong otherwise; and serde reads such an enum from one
of several members that name variants, which is counted with `sw`: the schema accepts more than it reads without that,
and less with it. With `exact`, an adjacently tagged enum must have no unit variants, as their schemas allow every
content. -/
def Spec.InputVariants (exact sw : Bool) (decl : τ → Decl τ) (base : τ → τ) (deny : Bool) (vs : List (Variant τ))
    (ns : List String) : TagType → Prop
  | .external => (∀ v ∈ vs, v.skipDe = false → v.name.de ∈ ns ∧
      (v.isUnit = true → v.withTy = none → v.common.isDefault = true)) ∧ sw = exact
  | .adjacent t c => t ≠ c ∧ t ∈ ns ∧ c ∈ ns ∧ (exact = true → ∀ v ∈ vs, v.skipDe = false → ¬ hollow v)
  | .internal t => t ∈ ns ∧ ∀ v ∈ vs, v.skipDe = false →
      ∃ ms, InputTagged exact decl base deny v ms ∧ ∀ n ∈ ms, n ∈ ns
  | .none => False

/-- The names that the fields of a struct are read under, where flattened fields are structs or enums, or options of
them: one list for each field. -/
inductive Spec.InputParts (exact sw : Bool) (decl : τ → Decl τ) (base : τ → τ) :
    List (Field τ) → List (List String) → Prop where
  | nil : InputParts exact sw decl base [] []
  | skip {f fs nss} : f.skipDe = true → InputParts exact sw decl base fs nss →
      InputParts exact sw decl base (f :: fs) nss
  | own {f fs nss} : f.skipDe = false → f.flatten = false → InputField exact f → InputParts exact sw decl base fs nss →
      InputParts exact sw decl base (f :: fs) ([f.name.de] :: nss)
  | struct {f fs nss c gs ns ms} : f.skipDe = false → f.flatten = true → decl (base f.ty) = .derived c →
      PlainInput c gs → InputNames decl base gs ns ms →
      (f.required = false → ∀ u, decl f.ty = .std (.option u) → sw = exact) →
      (exact = true → (∃ g ∈ gs, g.skipDe = false ∧ g.flatten = true) → c.denyUnknownFields = false) →
      InputParts exact sw decl base fs nss → InputParts exact sw decl base (f :: fs) ((ns ++ ms) :: nss)
  | enum {f fs nss ns c tag vs} : f.skipDe = false → f.flatten = true → decl (base f.ty) = .derived c →
      PlainInputEnum c tag vs → InputVariants exact sw decl base c.denyUnknownFields vs ns tag →
      (f.required = false → ∀ u, decl f.ty = .std (.option u) → exact = true → sw = true) →
      InputParts exact sw decl base fs nss → InputParts exact sw decl base (f :: fs) (ns :: nss)

/-- The conditions on the fields of a struct that may have flattened enums: the names of the fields are distinct, and
other members are not denied. -/
def Spec.WideInput (exact sw : Bool) (decl : τ → Decl τ) (base : τ → τ) (deny : Bool) (fs : List (Field τ)) : Prop :=
  deny = false ∧ ∃ nss, InputParts exact sw decl base fs nss ∧ nss.Pairwise List.Disjoint

/-- The type has a schema of its own that is not `false`, since it is a standard type, a struct with named fields, a tuple
struct, or an enum with variants. -/
def Spec.Solid : Decl τ → Prop
  | .std _ => True
  | .derived c => Harmless c.common ∧ c.withTy = none ∧ c.transparent = none ∧ c.fromTy = none ∧ match c.data with
    | .struct (.newtype _) => False
    | .struct _ => True
    | .enum _ vs => vs ≠ []

/-- A flattened map (or `serde_json::Value`), which gets the members that the other fields leave. serde reads an optional
one whatever they are, which is counted with `sw` and not in the schema. With `exact`, the schema of the values must not
be `false`, as it is dropped then. -/
structure Spec.RestInput (exact sw : Bool) (decl : τ → Decl τ) (base : τ → τ) (f : Field τ) : Prop where
  present : f.skipDe = false
  flat : f.flatten = true
  type : decl (base f.ty) = .std .value ∨
    ∃ k v, decl (base f.ty) = .std (.map k v) ∧ TextKey (decl k) ∧ (exact = true → Solid (decl v))
  option : f.required = false → ∀ u, decl f.ty = .std (.option u) → exact = true ∨ sw = false

/-- The conditions on the fields of a struct with a flattened map. The fields after it are fields of the struct itself. The
other fields must satisfy the conditions for structs that deny unknown members: the map gets what these would deny. -/
def Spec.MapInput (exact sw : Bool) (decl : τ → Decl τ) (base : τ → τ) (deny : Bool) (fs : List (Field τ)) : Prop :=
  deny = false ∧ ∃ as f bs, fs = as ++ f :: bs ∧ RestInput exact sw decl base f ∧
    (∀ g ∈ bs, g.skipDe = false → g.flatten = false) ∧ ReadFieldsOk exact sw decl base true (as ++ bs)

/-- The conditions on the fields of a struct: one of the three kinds. -/
def Spec.StructInput (exact sw : Bool) (decl : τ → Decl τ) (base : τ → τ) (deny : Bool) (fs : List (Field τ)) : Prop :=
  ReadFieldsOk exact sw decl base deny fs ∨ WideInput exact sw decl base deny fs ∨ MapInput exact sw decl base deny fs

/-- The conditions on the contents of a struct or variant. -/
def Spec.ReadContentOk (exact sw : Bool) (decl : τ → Decl τ) (base : τ → τ) (deny : Bool) : Fields τ → Prop
  | .unit => True
  | .newtype f => InputField exact f
  | .tuple fs => ∀ f ∈ fs, f.skipDe = false → InputField exact f
  | .struct fs => StructInput exact sw decl base deny fs

/-- The conditions on a variant. -/
structure Spec.ReadVariantOk (exact sw : Bool) (decl : τ → Decl τ) (base : τ → τ) (deny : Bool) (v : Variant τ) :
    Prop extends VariantInput v where
  content : v.withTy = none → ReadContentOk exact sw decl base deny v.fields

/-- The type is a struct with named fields, none of which has this name. -/
def Spec.ReadBesideTag (decl : τ → Decl τ) (base : τ → τ) (tag : String) (t : τ) : Prop :=
  ∃ c fs ns ms, decl t = .derived c ∧ PlainInput c fs ∧ InputNames decl base fs ns ms ∧ tag ∉ ns ++ ms

/-- The conditions on a variant of an internally tagged enum: what is read beside the tag is nothing, or a struct
without a member of that name, for a field without validation attributes. -/
def Spec.ReadInternalOk (decl : τ → Decl τ) (base : τ → τ) (tag : String) (v : Variant τ) : Prop :=
  match v.withTy with
  | some t => ReadBesideTag decl base tag t
  | none => match v.fields with
    | .unit => True
    | .newtype f => f.validation = .noAttrs ∧ ReadBesideTag decl base tag (fieldType base f)
    | .tuple _ => False
    | .struct fs => ∃ ns ms, InputNames decl base fs ns ms ∧ tag ∉ ns ++ ms

/-- The conditions on an enum. With `exact`, a unit variant of an adjacently tagged enum must deny unknown members,
since its schema allows every content. -/
structure Spec.ReadEnumOk (exact sw : Bool) (decl : τ → Decl τ) (base : τ → τ) (tag : TagType)
    (vs : List (Variant τ)) (deny : Bool) : Prop where
  nonempty : vs ≠ []
  variants : ∀ v ∈ vs, ReadVariantOk exact sw decl base deny v
  names : tag ≠ .none → ((presentVariants vs .deserialize).map fun v => v.name.de).Nodup
  internal : ∀ t, tag = .internal t → ∀ v ∈ vs, ReadInternalOk decl base t v
  adjacent : ∀ t c, tag = .adjacent t c → t ≠ c ∧ (exact = true → ∀ v ∈ vs, hollow v → deny = true)

/-- The conditions on a derived type. -/
structure Spec.ReadContainerOk (exact sw : Bool) (decl : τ → Decl τ) (base : τ → τ) (c : Container τ) : Prop where
  common : Harmless c.common
  transparent : c.withTy = none → ∀ f, c.transparent = some f → InputField exact f
  struct : c.withTy = none → c.transparent = none → c.fromTy = none → ∀ fields, c.data = .struct fields →
    ReadContentOk exact sw decl base c.denyUnknownFields fields
  enum : c.withTy = none → c.transparent = none → c.fromTy = none → ∀ tag vs, c.data = .enum tag vs →
    ReadEnumOk exact sw decl base tag vs c.denyUnknownFields

/-- The conditions on a type. -/
def Spec.ReadOk (exact sw : Bool) (decl : τ → Decl τ) (base : τ → τ) : Decl τ → Prop
  | .std x => exact = true → ExactStd decl x
  | .derived c => ReadContainerOk exact sw decl base c

section
variable {D : Dialect} {env : Env} {P : τ → Json → Prop} {decl : τ → Decl τ} {I : TypeInfo τ}
  {A : Answers τ} {w : Nat} {q : Quirks τ} {j s : Json} {b : Bool}

/-! ## Fields -/

/-- The schema of a field is an answer for its type, with annotations and what the validation attributes ask. -/
theorem returns_field (hA : Asked D env decl I A) {f : Field τ} {exact : Bool} (hf : InputField exact f)
    (h : Returns A (fieldProg I f false) s) :
    Nullable D env s ∧ ∃ s0, (A.sub (fieldType I.base f) s0 ∨ A.direct (fieldType I.base f) s0) ∧
      (∀ i, Valid D env s0 i → FieldObeys env f i → Valid D env s i) ∧
      (exact = true → ∀ i, Valid D env s i → Valid D env s0 i ∧ FieldObeys env f i) := by
  unfold fieldProg at h
  rw [res_map] at h
  obtain ⟨s0, h0, rfl⟩ := h
  have key : A.sub (fieldType I.base f) s0 ∨ A.direct (fieldType I.base f) s0 := by
    unfold fieldType
    by_cases hr : f.required = true
    · simp only [hr, if_true] at h0 ⊢
      obtain ⟨s1, h1, rfl⟩ := h0
      exact .inr h1
    · simp only [hr, if_false, Bool.false_eq_true] at h0 ⊢
      obtain ⟨s1, h1, rfl⟩ := h0
      exact .inl h1
  have hnull : Nullable D env s0 := key.elim (hA.nullSub _ _) (hA.nullDirect _ _)
  have hR := Restricts.run (field_restricts (env := env) hA.refs hf.1)
  refine ⟨hR.nullable (obeys_null _) _ hnull, s0, key, fun i hv ho => hR.valid _ hnull.sch.isSchema _ ho hv,
    fun he i hv => ?_⟩
  have hfree : FreeField f := ⟨hf.1, hf.2 he⟩
  refine ⟨(runMutators_valid (field_annotates hfree) hnull.sch).1 hv, ?_⟩
  unfold FieldObeys
  rw [hfree.2]
  exact obeys_noAttrs i

theorem field_way (hA : Asked D env decl I A) {f : Field τ} (hf : InputField b f)
    (h : Returns A (fieldProg I f false) s) {x : Json} (hx : MatchesAt D env b P A (fieldType I.base f) x) :
    Way b (Valid D env s x) (FieldRead (FieldObeys env) P I.base f x) := by
  obtain ⟨-, s0, h0, h1, h2⟩ := returns_field hA hf h
  have hx := hx s0 h0
  cases b with
  | true => exact fun hv => ⟨hx (h2 rfl x hv).1, (h2 rfl x hv).2⟩
  | false => exact fun hv => h1 x (hx hv.1) hv.2

/-! ## Structs -/

theorem namesOf_documented (hq : Documented q) (f : Field τ) : namesOf q f = [f.name.de] := by
  unfold namesOf; rw [hq.aliases]

theorem variantNames_documented (hq : Documented q) (v : Variant τ) : variantNames q v = [v.name.de] := by
  unfold variantNames; rw [hq.variantAliases]

/-- For the documented forms, `None` is read from nothing for the types that are declared as options. -/
theorem missingOk_iff (hq : Documented q) {base : τ → τ} {t : τ} :
    MissingOk q base decl t ↔ ∃ u, decl t = .std (.option u) := by
  constructor
  · intro h
    cases h with
    | option h => exact ⟨_, h⟩
    | transparent h => rw [hq.lax] at h; cases h
    | source h => rw [hq.lax] at h; cases h
  · rintro ⟨u, h⟩; exact .option h

theorem mandatory_iff (hq : Documented q) (hopt : ∀ t, I.isOption t = true ↔ ∃ u, decl t = .std (.option u)) {cd : Bool}
    {f : Field τ} : Mandatory I.isOption cd f .deserialize ↔ ¬ MayMiss q I.base decl cd f := by
  unfold Mandatory MayMiss
  rw [missingOk_iff hq, ← hopt]
  cases cd <;> cases f.hasDefault <;> cases f.required <;> cases I.isOption f.ty <;> simp

theorem mem_readPresent {fs : List (Field τ)} {f : Field τ} : f ∈ present fs .deserialize ↔ f ∈ fs ∧ f.skipDe = false := by
  unfold present
  rw [List.mem_filter, decide_eq_true_eq]
  rfl

/-- At the document itself. -/
theorem Ready.under (h : Ready D env b P decl I A j) : Under b j j := ⟨h.wf, h.numbers, Nat.le_refl _⟩

theorem size_sublist {o o' : List (String × Json)} (h : o'.Sublist o) : sizeOf o' ≤ sizeOf o := by
  induction h with
  | slnil => exact Nat.le_refl _
  | cons a _ ih => simp only [List.cons.sizeOf_spec]; omega
  | cons_cons a _ ih => simp only [List.cons.sizeOf_spec]; omega

/-- At some of the members. -/
theorem Ready.part {o o' : List (String × Json)} (h : Ready D env b P decl I A (.obj o)) (hs : o'.Sublist o) :
    Under b (.obj o) (.obj o') where
  wf := by
    cases h.wf with
    | obj _ h1 h2 => exact .obj _ (h1.sublist hs) fun e he => h2 e (hs.subset he)
  numbers hb := by
    cases h.numbers hb with
    | obj _ h => exact .obj _ fun e he => h e (hs.subset he)
  size := by
    have := size_sublist hs
    simp; exact this

/-! ### The names of flattened structs -/

theorem inputNames_own {base : τ → τ} {fs : List (Field τ)} (h : ∀ f ∈ fs, f.skipDe = false → f.flatten = false) :
    InputNames decl base fs ((present fs .deserialize).map fun f => f.name.de) [] := by
  induction fs with
  | nil => exact .nil
  | cons f fs ih =>
    have ih := ih fun g hg => h g (List.mem_cons_of_mem _ hg)
    cases hs : f.skipDe with
    | true =>
      have : present (f :: fs) .deserialize = present fs .deserialize := by
        unfold present; rw [List.filter_cons, if_neg (by simp [NotSkipped, hs])]
      rw [this]; exact .skip hs ih
    | false =>
      have : present (f :: fs) .deserialize = f :: present fs .deserialize := by
        unfold present; rw [List.filter_cons, if_pos (by simp [NotSkipped, hs])]
      rw [this]; exact .own hs (h f List.mem_cons_self hs) ih

/-- The names of the struct itself. -/
theorem inputNames_mem {base : τ → τ} {fs : List (Field τ)} {ns ms : List String} (h : InputNames decl base fs ns ms)
    {n : String} : n ∈ ns ↔ ∃ f ∈ fs, f.skipDe = false ∧ f.flatten = false ∧ n = f.name.de := by
  induction h with
  | nil => simp
  | skip hs _ ih => rw [ih]; simp [hs]
  | own hs hfl _ ih => rw [List.mem_cons, ih]; simp [hs, hfl]
  | flat hs hfl _ _ _ _ _ ih => rw [ih]; simp [hfl]

/-- The conditions for a struct without flattened fields. -/
theorem readFieldsOk_own {exact sw deny : Bool} {base : τ → τ} {fs : List (Field τ)}
    (hflat : ∀ f ∈ fs, f.skipDe = false → f.flatten = false) (hok : ∀ f ∈ fs, f.skipDe = false → InputField exact f)
    (hn : ((present fs .deserialize).map fun f => f.name.de).Nodup) : ReadFieldsOk exact sw decl base deny fs where
  fields f hf hs _ := hok f hf hs
  names := ⟨_, [], inputNames_own hflat, by simpa using hn⟩
  option f hf hs h := absurd h (by simp [hflat f hf hs])
  nested _ f hf hs h := absurd h (by simp [hflat f hf hs])

/-- Without flattened fields, there are no names of flattened structs. -/
theorem inputNames_none {base : τ → τ} {fs : List (Field τ)} {ns ms : List String} (h : InputNames decl base fs ns ms)
    (hf : ∀ f ∈ fs, f.skipDe = false → f.flatten = false) : ms = [] := by
  induction h with
  | nil => rfl
  | skip _ _ ih => exact ih fun f h => hf f (List.mem_cons_of_mem _ h)
  | own _ _ _ ih => exact ih fun f h => hf f (List.mem_cons_of_mem _ h)
  | flat hs hfl => rw [hf _ List.mem_cons_self hs] at hfl; cases hfl

theorem input_container {c : Container τ} {fs : List (Field τ)} (hc : PlainInput c fs)
    (hde : A.settings.contract = .deserialize) (h : Returns A (containerProg I c) s) :
    ∃ s0, Returns A (structProg I fs c.hasDefault c.denyUnknownFields) s0 ∧ s = runMutators c.common.mutators s0 := by
  unfold containerProg at h
  rw [hc.noWith, hc.noTransparent, hc.noFrom] at h
  simp only at h
  obtain ⟨s1, h1, rfl⟩ := res_map.1 h
  have h3 : Returns A (dataProg I c) s1 := by
    cases hi : c.intoTy with
    | none => rw [hi] at h1; exact h1
    | some u => rw [hi] at h1; simp only [Returns, hde] at h1; exact h1
  unfold dataProg at h3
  rw [hc.data] at h3
  exact ⟨s1, h3, rfl⟩

/-! ### One field after the other -/

theorem flattened_none {R : τ → Json → Prop} {base : τ → τ} {fs : List (Field τ)} {o : List (String × Json)}
    (h : ∀ f ∈ fs, f.skipDe = false → f.flatten = false) : ReadFlattened q R base decl fs o o := by
  induction fs with
  | nil => exact .nil
  | cons f fs ih =>
    refine .pass ?_ (ih fun g hg => h g (List.mem_cons_of_mem _ hg))
    cases hs : f.skipDe with
    | true => exact .inl rfl
    | false => exact .inr (h f List.mem_cons_self hs)

/-- A struct without flattened fields is read from the members of its fields. -/
theorem readFields_own {R : τ → Json → Prop} {F : Field τ → Json → Prop} {base : τ → τ} {cd deny : Bool}
    {fs : List (Field τ)}
    {o : List (String × Json)} (hflat : ∀ f ∈ fs, f.skipDe = false → f.flatten = false)
    (h : ∀ f ∈ fs, f.skipDe = false → ReadMember q F base decl cd f o) (hd : deny = false) :
    ReadFields q R F base decl cd deny fs o :=
  ⟨fun f hf hs _ => h f hf hs, _, flattened_none hflat, fun h => absurd h (by simp [hd])⟩


theorem input_skip {f : Field τ} {fs : List (Field τ)} {cd : Bool} {s0 : Json} (hde : A.settings.contract = .deserialize)
    (hs : f.skipDe = true) (h : Returns A (structFieldsProg I cd (f :: fs) s0) s) :
    Returns A (structFieldsProg I cd fs s0) s := by
  unfold structFieldsProg at h
  obtain ⟨s1, h1, h2⟩ := res_bind.1 h
  rw [returns_structField, if_neg (by rw [hde]; simp [NotSkipped, hs])] at h1
  subst h1
  exact h2

theorem input_own {f : Field τ} {fs : List (Field τ)} {cd deny : Bool} {m0 p0 : List (String × Json)} {r0 : List String}
    (hde : A.settings.contract = .deserialize) (hs : f.skipDe = false) (hfl : f.flatten = false)
    (h0 : Shape m0 p0 r0 deny) (h : Returns A (structFieldsProg I cd (f :: fs) (.obj m0)) s) :
    ∃ s2 m1, Returns A (fieldProg I f false) s2 ∧
      Shape m1 (Obj.insert p0 f.name.de (insertDefault cd f s2))
        (r0 ++ if Mandatory I.isOption cd f .deserialize then [f.name.de] else []) deny ∧
      Returns A (structFieldsProg I cd fs (.obj m1)) s := by
  unfold structFieldsProg at h
  obtain ⟨s1, h1, h2⟩ := res_bind.1 h
  rw [returns_structField, if_pos (by rw [hde]; exact hs)] at h1
  obtain ⟨s', h1, rfl⟩ := h1
  unfold FieldResult at h1
  rw [hfl] at h1
  simp only [Bool.false_eq_true, if_false] at h1
  obtain ⟨s2, h1, rfl⟩ := h1
  unfold addField at h2
  rw [hfl] at h2
  simp only [Bool.false_eq_true, if_false] at h2
  obtain ⟨m1, e1, h3⟩ := h0.insertProperty (f.name.get A.settings.contract)
    (fieldOptional I cd f A.settings.contract) (insertDefault cd f s2)
  rw [e1] at h2
  have hname : f.name.get A.settings.contract = f.name.de := by rw [hde]; rfl
  rw [hname, fieldOptional_eq, hde] at h3
  refine ⟨s2, m1, h1, ?_, h2⟩
  by_cases hm : Mandatory I.isOption cd f .deserialize
  · simpa [hm] using h3
  · simpa [hm] using h3

/-- The schema of a struct: the names that it mentions. -/
def Mentions (p : List (String × Json)) (r : List String) (N : String → Prop) : Prop :=
  (∀ n, (∃ x, Obj.get p n = some x) ↔ N n) ∧ ∀ n ∈ r, N n

theorem input_flat {f : Field τ} {fs : List (Field τ)} {cd deny : Bool} {m0 p0 : List (String × Json)} {r0 : List String}
    (hde : A.settings.contract = .deserialize) (hs : f.skipDe = false) (hfl : f.flatten = true) {d3 : Bool}
    {N : String → Prop} (hin : ∀ s, A.direct (I.base f.ty) s →
      ∃ m p r, s = .obj m ∧ Shape m p r d3 ∧ Obj.Sorted p ∧ Mentions p r N)
    (h0 : Shape m0 p0 r0 deny) (hp0 : Obj.Sorted p0) (h : Returns A (structFieldsProg I cd (f :: fs) (.obj m0)) s) :
    ∃ m3 p3 r3 m1 p1, A.direct (I.base f.ty) (.obj m3) ∧ Shape m3 p3 r3 d3 ∧ Obj.Sorted p3 ∧ Mentions p3 r3 N ∧
      Shape m1 p1 (r0 ++ if (I.isOption f.ty && !f.required) = true then [] else r3) deny ∧ Obj.Sorted p1 ∧
      (∀ n, Obj.get p1 n = (Obj.get p3 n).or (Obj.get p0 n)) ∧
      Returns A (structFieldsProg I cd fs (.obj m1)) s := by
  unfold structFieldsProg at h
  obtain ⟨s1, h1, h2⟩ := res_bind.1 h
  rw [returns_structField, if_pos (by rw [hde]; exact hs)] at h1
  obtain ⟨s', h1, rfl⟩ := h1
  unfold addField at h2
  rw [hfl] at h2
  simp only [if_true] at h2
  obtain ⟨s2, hd2, rfl⟩ := returns_flattenField hfl h1
  obtain ⟨m3, p3, r3, rfl, hs3, hp3, hm3⟩ := hin s2 hd2
  obtain ⟨m5, e5, hs5⟩ := hs3.flattenInner (I.isOption f.ty && !f.required)
  simp only [e5] at h2
  obtain ⟨m6, p6, e6, hs6, hp6, hg6⟩ := h0.flatten hs5 hp0 hp3
  rw [e6] at h2
  exact ⟨m3, p3, r3, m6, p6, hd2, hs3, hp3, hm3, hs6, hp6, hg6, h2⟩

/-- The schema of a struct, and the names that it mentions. -/
theorem input_shape {fs : List (Field τ)} {ns ms : List String}
    (hn : InputNames decl I.base fs ns ms) : ∀ {A : Answers τ} {cd deny : Bool} {m0 p0 : List (String × Json)}
    {r0 : List String} {s : Json} {N : String → Prop}, A.settings.contract = .deserialize →
    (∀ t s, A.direct t s → FromBody decl I t s) → Shape m0 p0 r0 deny → Obj.Sorted p0 → Mentions p0 r0 N →
    Returns A (structFieldsProg I cd fs (.obj m0)) s →
    ∃ m p r, s = .obj m ∧ Shape m p r deny ∧ Obj.Sorted p ∧ Mentions p r fun n => N n ∨ n ∈ ns ++ ms := by
  induction hn with
  | nil =>
    intro A cd deny m0 p0 r0 s N _ _ h0 hp hN h
    cases h
    exact ⟨m0, p0, r0, rfl, h0, hp, fun n => by simp [hN.1 n], fun n hn => .inl (hN.2 n hn)⟩
  | skip hsk _ ih =>
    intro A cd deny m0 p0 r0 s N hde hran h0 hp hN h
    exact ih hde hran h0 hp hN (input_skip hde hsk h)
  | @own f fs ns ms hsk hfl _ ih =>
    intro A cd deny m0 p0 r0 s N hde hran h0 hp hN h
    obtain ⟨s2, m1, -, h1, h2⟩ := input_own hde hsk hfl h0 h
    have hN' : Mentions (Obj.insert p0 f.name.de (insertDefault cd f s2))
        (r0 ++ if Mandatory I.isOption cd f .deserialize then [f.name.de] else []) (fun n => N n ∨ n = f.name.de) := by
      refine ⟨fun n => ?_, fun n hn => ?_⟩
      · by_cases e : f.name.de = n
        · subst e; rw [Obj.get_insert_self]; simp
        · rw [Obj.get_insert_ne _ _ e, hN.1]; simp [Ne.symm e]
      · rcases List.mem_append.1 hn with hn | hn
        · exact .inl (hN.2 n hn)
        · split at hn
          · exact .inr (List.mem_singleton.1 hn)
          · cases hn
    obtain ⟨m, p, r, e, hs, hps, hk1, hk2⟩ := ih hde hran h1 (Obj.sorted_insert hp _ _) hN' h2
    refine ⟨m, p, r, e, hs, hps, fun n => ?_, fun n hn => ?_⟩
    · rw [hk1]; simp [or_assoc]
    · have := hk2 n hn
      simp only [List.cons_append, List.mem_cons] at this ⊢
      rwa [or_assoc] at this
  | @flat f fs ns ms c gs ns' ms' hsk hfl hd hc _ _ ihg ih =>
    intro A cd deny m0 p0 r0 s N hde hran h0 hp hN h
    obtain ⟨m3, p3, r3, m1, p1, -, -, -, hm3, h1, hp1, hg1, h2⟩ := input_flat hde hsk hfl (d3 := c.denyUnknownFields)
      (N := fun n => n ∈ ns' ++ ms') (fun s hs => by
        obtain ⟨A', ⟨hde', hran', -, -⟩, hb⟩ := (hran _ _ hs).run
        rw [hd] at hb
        obtain ⟨s3, hb3, rfl⟩ := input_container hc hde' hb
        obtain ⟨mi, ei, hi⟩ := shape_start c.denyUnknownFields
        unfold structProg at hb3
        rw [ei] at hb3
        obtain ⟨m3, p3, r3, rfl, hs3, hps3, hk3⟩ := ihg (N := fun _ => False) hde' hran' hi List.Pairwise.nil
          ⟨fun n => by simp, fun n hn => by cases hn⟩ hb3
        obtain ⟨m4, e4, hs4⟩ := hs3.annotate hc.common.annotates
        exact ⟨m4, p3, r3, e4, hs4, hps3, fun n => by rw [hk3.1]; simp, fun n hn => (hk3.2 n hn).resolve_left id⟩) h0 hp h
    have hN' : Mentions p1 (r0 ++ if (I.isOption f.ty && !f.required) = true then [] else r3)
        (fun n => N n ∨ n ∈ ns' ++ ms') := by
      refine ⟨fun n => ?_, fun n hn => ?_⟩
      · have e3 := hm3.1 n
        have e0 := hN.1 n
        simp only at e3 ⊢
        rw [hg1, ← e3, ← e0]
        cases Obj.get p3 n <;> simp
      · rcases List.mem_append.1 hn with hn | hn
        · exact .inl (hN.2 n hn)
        · split at hn
          · cases hn
          · exact .inr (hm3.2 n hn)
    obtain ⟨m, p, r, e, hs, hps, hk1, hk2⟩ := ih hde hran h1 hp1 hN' h2
    have key : ∀ n, ((N n ∨ n ∈ ns' ++ ms') ∨ n ∈ ns ++ ms) ↔ (N n ∨ n ∈ ns ++ ((ns' ++ ms') ++ ms)) := by
      intro n
      simp only [List.mem_append]
      constructor
      · rintro ((h | h) | (h | h))
        · exact .inl h
        · exact .inr (.inr (.inl h))
        · exact .inr (.inl h)
        · exact .inr (.inr (.inr h))
      · rintro (h | h | h | h)
        · exact .inl (.inl h)
        · exact .inr (.inl h)
        · exact .inl (.inr h)
        · exact .inr (.inr h)
    exact ⟨m, p, r, e, hs, hps, fun n => by rw [hk1]; exact key n, fun n hn => (key n).1 (hk2 n hn)⟩

theorem input_struct {fs : List (Field τ)} {ns ms : List String} (hn : InputNames decl I.base fs ns ms) {cd deny : Bool}
    (hde : A.settings.contract = .deserialize) (hran : ∀ t s, A.direct t s → FromBody decl I t s)
    (h : Returns A (structProg I fs cd deny) s) :
    ∃ m p r, s = .obj m ∧ Shape m p r deny ∧ Obj.Sorted p ∧ Mentions p r fun n => n ∈ ns ++ ms := by
  obtain ⟨mi, ei, hi⟩ := shape_start deny
  unfold structProg at h
  rw [ei] at h
  obtain ⟨m, p, r, rfl, hs, hps, hk⟩ := input_shape (N := fun _ => False) hn hde hran hi List.Pairwise.nil
    ⟨fun n => by simp, fun n hn => by cases hn⟩ h
  exact ⟨m, p, r, rfl, hs, hps, fun n => by rw [hk.1]; simp, fun n hn => (hk.2 n hn).resolve_left id⟩

/-- The schema of a struct type, and the names that it mentions. -/
theorem input_type {t : τ} {c : Container τ} {fs : List (Field τ)} {ns ms : List String} (hd : decl t = .derived c)
    (hc : PlainInput c fs) (hn : InputNames decl I.base fs ns ms) (h : FromBody decl I t s) :
    ∃ m p r, s = .obj m ∧ Shape m p r c.denyUnknownFields ∧ Obj.Sorted p ∧ Mentions p r fun n => n ∈ ns ++ ms := by
  obtain ⟨A, ⟨hde, hran, -, -⟩, h⟩ := h.run
  rw [hd] at h
  obtain ⟨s3, h3, rfl⟩ := input_container hc hde h
  obtain ⟨m, p, r, rfl, hs, hp, hk⟩ := input_struct hn hde hran h3
  obtain ⟨m', e, hs'⟩ := hs.annotate hc.common.annotates
  exact ⟨m', p, r, e, hs', hp, hk⟩

/-! ### What flattened fields are read from -/

theorem share_plain {t : τ} {c : Container τ} {gs : List (Field τ)} (hd : decl t = .derived c) (hc : PlainInput c gs) :
    share q decl t = if gs.any fun f => !f.skipDe && f.flatten then .all
      else .named ((gs.filter fun f => !f.skipDe).flatMap (namesOf q)) := by
  unfold share
  rw [hd]
  simp only [hc.noWith, hc.noTransparent, hc.noFrom, hc.data]

/-- What a flattened struct asks for. -/
theorem wants_plain (hq : Documented q) {base : τ → τ} {t : τ} {c : Container τ} {gs : List (Field τ)} {ns ms : List String}
    (hd : decl t = .derived c) (hc : PlainInput c gs) (hn : InputNames decl base gs ns ms) :
    (wants q decl t = none ∧ ∃ g ∈ gs, g.skipDe = false ∧ g.flatten = true) ∨
    ∃ l, wants q decl t = some l ∧ ∀ n, n ∈ l ↔ n ∈ ns ++ ms := by
  unfold wants
  rw [share_plain hd hc]
  by_cases ha : (gs.any fun f => !f.skipDe && f.flatten) = true
  · rw [if_pos ha]
    obtain ⟨g, hg, h⟩ := List.any_eq_true.1 ha
    exact .inl ⟨rfl, g, hg, by simpa using h⟩
  · rw [if_neg ha]
    have hno : ∀ f ∈ gs, f.skipDe = false → f.flatten = false := by
      intro f hf hs
      cases hfl : f.flatten with
      | false => rfl
      | true => exact absurd (List.any_eq_true.2 ⟨f, hf, by simp [hs, hfl]⟩) ha
    refine .inr ⟨_, rfl, fun n => ?_⟩
    rw [inputNames_none hn hno, List.append_nil, inputNames_mem hn, List.mem_flatMap]
    refine exists_congr fun f => ?_
    rw [namesOf_documented hq, List.mem_singleton, List.mem_filter]
    constructor
    · rintro ⟨⟨h1, h2⟩, h3⟩
      have h2 : f.skipDe = false := by simpa using h2
      exact ⟨h1, h2, hno f h1 h2, h3⟩
    · rintro ⟨h1, h2, -, h3⟩
      exact ⟨⟨h1, by simp [h2]⟩, h3⟩

theorem seen_sublist {t : τ} {o : List (String × Json)} : (seen q decl t o).Sublist o := by
  unfold seen; split
  · exact .refl _
  · exact List.filter_sublist

theorem leave_sublist {t : τ} {o : List (String × Json)} : (leave q decl t o).Sublist o := by
  unfold leave; split
  · exact .refl _
  · exact List.filter_sublist

section
variable {base : τ → τ} {t : τ} {c : Container τ} {gs : List (Field τ)} {ns ms : List String} {o : List (String × Json)}
  {e : String × Json}

theorem mem_seen (hq : Documented q) (hd : decl t = .derived c) (hc : PlainInput c gs) (hn : InputNames decl base gs ns ms)
    (he : e ∈ o) (hk : e.1 ∈ ns ++ ms) : e ∈ seen q decl t o := by
  unfold seen
  rcases wants_plain hq hd hc hn with ⟨h, -⟩ | ⟨l, h, hl⟩
  · rw [h]; exact he
  · rw [h]; exact List.mem_filter.2 ⟨he, by simpa using (hl _).2 hk⟩

theorem seen_name (hq : Documented q) (hd : decl t = .derived c) (hc : PlainInput c gs) (hn : InputNames decl base gs ns ms)
    (hno : ¬ ∃ g ∈ gs, g.skipDe = false ∧ g.flatten = true) (he : e ∈ seen q decl t o) : e.1 ∈ ns ++ ms := by
  unfold seen at he
  rcases wants_plain hq hd hc hn with ⟨h, h'⟩ | ⟨l, h, hl⟩
  · exact absurd h' hno
  · rw [h] at he; exact (hl _).1 (by simpa using (List.mem_filter.1 he).2)

theorem mem_leave (hq : Documented q) (hd : decl t = .derived c) (hc : PlainInput c gs) (hn : InputNames decl base gs ns ms)
    (he : e ∈ o) (hk : e.1 ∉ ns ++ ms) : e ∈ leave q decl t o := by
  unfold leave
  rcases wants_plain hq hd hc hn with ⟨h, -⟩ | ⟨l, h, hl⟩
  · rw [h]; exact he
  · rw [h]; exact List.mem_filter.2 ⟨he, by simpa using fun h => hk ((hl _).1 h)⟩

theorem leave_name (hq : Documented q) (hd : decl t = .derived c) (hc : PlainInput c gs) (hn : InputNames decl base gs ns ms)
    (hno : ¬ ∃ g ∈ gs, g.skipDe = false ∧ g.flatten = true) (he : e ∈ leave q decl t o) : e.1 ∉ ns ++ ms := by
  unfold leave at he
  rcases wants_plain hq hd hc hn with ⟨h, h'⟩ | ⟨l, h, hl⟩
  · exact absurd h' hno
  · rw [h] at he
    have := (List.mem_filter.1 he).2
    intro hk
    simp [(hl _).2 hk] at this

end

/-- A flattened field is read, or it is `None`. -/
def FlatOk (q : Quirks τ) (P : τ → Json → Prop) (base : τ → τ) (decl : τ → Decl τ) (f : Field τ)
    (o : List (String × Json)) : Prop :=
  P (base f.ty) (.obj (seen q decl (base f.ty) o)) ∨
  (f.required = false ∧ (∃ u, decl f.ty = .std (.option u)) ∧ (seen q decl (base f.ty) o = [] ∨ q.lenient = true))

theorem flattened_pass {base : τ → τ} {f : Field τ} {fs : List (Field τ)} {o o' : List (String × Json)}
    (h : f.skipDe = true ∨ f.flatten = false) :
    ReadFlattened q P base decl (f :: fs) o o' ↔ ReadFlattened q P base decl fs o o' := by
  constructor
  · intro hr
    cases hr with
    | pass _ hr => exact hr
    | part h1 h2 => rcases h with h | h <;> simp_all
    | one h1 h2 => rcases h with h | h <;> simp_all
    | none h1 h2 => rcases h with h | h <;> simp_all
  · exact .pass h

theorem flattened_struct {base : τ → τ} {f : Field τ} {fs : List (Field τ)} {o o' : List (String × Json)}
    {c : Container τ} {gs : List (Field τ)} (hs : f.skipDe = false) (hfl : f.flatten = true)
    (hd : decl (base f.ty) = .derived c) (hc : PlainInput c gs) :
    ReadFlattened q P base decl (f :: fs) o o' ↔
      FlatOk q P base decl f o ∧ ReadFlattened q P base decl fs (leave q decl (base f.ty) o) o' := by
  constructor
  · intro hr
    cases hr with
    | pass h => rw [hs, hfl] at h; simp at h
    | part _ _ h hr =>
      refine ⟨.inl (h.resolve_right ?_), hr⟩
      rintro (h | ⟨c', h, -, -, -, h'⟩)
      · rw [hd] at h; cases h
      · rw [hd] at h; cases h; rw [hc.data] at h'; cases h'
    | one _ _ h =>
      rw [share_plain hd hc] at h
      split at h <;> cases h
    | none _ _ h1 h2 h3 hr => exact ⟨.inr ⟨h1, ⟨_, h2⟩, h3⟩, hr⟩
  · rintro ⟨h | ⟨h1, ⟨u, h2⟩, h3⟩, hr⟩
    · exact .part hs hfl (.inl h) hr
    · exact .none hs hfl h1 h2 h3 hr

/-- What is taken away by flattened structs has one of their names. -/
theorem flattened_taken (hq : Documented q) {base : τ → τ} {fs : List (Field τ)} {ns ms : List String}
    (hn : InputNames decl base fs ns ms) : ∀ {o left : List (String × Json)}, ReadFlattened q P base decl fs o left →
    ∀ e ∈ o, e ∈ left ∨ e.1 ∈ ms := by
  induction hn with
  | nil => intro o left h; cases h; exact fun e he => .inl he
  | skip hs _ ih => intro o left h; exact ih ((flattened_pass (.inl hs)).1 h)
  | own _ hfl _ ih => intro o left h; exact ih ((flattened_pass (.inr hfl)).1 h)
  | @flat f fs ns ms c gs ns' ms' hs hfl hd hc hg _ _ ih =>
    intro o left h e he
    by_cases hk : e.1 ∈ ns' ++ ms'
    · exact .inr (List.mem_append_left _ hk)
    · exact (ih ((flattened_struct hs hfl hd hc).1 h).2 e (mem_leave hq hd hc hg he hk)).imp id
        (List.mem_append_right _)

/-- What is left was there before, and if no flattened struct has flattened fields, it has none of their names. -/
theorem flattened_left (hq : Documented q) {base : τ → τ} {fs : List (Field τ)} {ns ms : List String}
    (hn : InputNames decl base fs ns ms) : ∀ {o left : List (String × Json)}, ReadFlattened q P base decl fs o left →
    (∀ f ∈ fs, f.skipDe = false → f.flatten = true → ∀ c gs, decl (base f.ty) = .derived c → PlainInput c gs →
      ¬ ∃ g ∈ gs, g.skipDe = false ∧ g.flatten = true) → ∀ e ∈ left, e ∈ o ∧ e.1 ∉ ms := by
  induction hn with
  | nil => intro o left h _; cases h; exact fun e he => ⟨he, by simp⟩
  | skip hs _ ih =>
    intro o left h hno
    exact ih ((flattened_pass (.inl hs)).1 h) fun f hf => hno f (List.mem_cons_of_mem _ hf)
  | own _ hfl _ ih =>
    intro o left h hno
    exact ih ((flattened_pass (.inr hfl)).1 h) fun f hf => hno f (List.mem_cons_of_mem _ hf)
  | @flat f fs ns ms c gs ns' ms' hs hfl hd hc hg _ _ ih =>
    intro o left h hno e he
    obtain ⟨h1, h2⟩ := ih ((flattened_struct hs hfl hd hc).1 h).2 (fun f hf => hno f (List.mem_cons_of_mem _ hf)) e he
    have h3 := leave_name hq hd hc hg (hno f List.mem_cons_self hs hfl c gs hd hc) h1
    exact ⟨leave_sublist.subset h1, fun hk => (List.mem_append.1 hk).elim h3 h2⟩

/-! ### What the schema of a struct accepts -/

theorem satisfies_own {p0 : List (String × Json)} {r0 : List String} {o : List (String × Json)} {n : String} {s1 : Json}
    {mand : Prop} [Decidable mand] (ho : Obj.Sorted o) (hfresh : Obj.get p0 n = none) :
    Satisfies D env (Obj.insert p0 n s1) (r0 ++ if mand then [n] else []) o ↔
      Satisfies D env p0 r0 o ∧ ((∃ x, Obj.get o n = some x ∧ Valid D env s1 x) ∨ (Obj.get o n = none ∧ ¬ mand)) := by
  constructor
  · rintro ⟨h1, h2⟩
    refine ⟨⟨fun k hk => h1 k (List.mem_append_left _ hk), fun e he s hs => h2 e he s ?_⟩, ?_⟩
    · rw [Obj.get_insert_ne _ _ (by rintro rfl; rw [hfresh] at hs; cases hs)]; exact hs
    · cases hg : Obj.get o n with
      | some x => exact .inl ⟨x, rfl, h2 (n, x) (Obj.get_mem hg) s1 (Obj.get_insert_self ..)⟩
      | none =>
        refine .inr ⟨rfl, fun hm => ?_⟩
        obtain ⟨x, hx⟩ := h1 n (List.mem_append_right _ (by rw [if_pos hm]; exact List.mem_singleton_self _))
        rw [Obj.get_of_mem_sorted ho hx] at hg; cases hg
  · rintro ⟨⟨h1, h2⟩, h3⟩
    constructor
    · intro k hk
      rcases List.mem_append.1 hk with hk | hk
      · exact h1 k hk
      · split at hk
        · next hm =>
          rw [List.mem_singleton.1 hk]
          rcases h3 with ⟨x, hx, -⟩ | ⟨-, h⟩
          · exact ⟨x, Obj.get_mem hx⟩
          · exact absurd hm h
        · cases hk
    · intro e he s hs
      rw [Obj.get_insert] at hs
      split at hs
      · next hk =>
        cases hs
        obtain ⟨k, y⟩ := e
        have hk : n = k := hk
        subst hk
        have := Obj.get_of_mem_sorted ho he
        rcases h3 with ⟨x, hx, hv⟩ | ⟨hx, -⟩
        · rw [this] at hx; cases hx; exact hv
        · rw [this] at hx; cases hx
      · exact h2 e he s hs

theorem satisfies_flat {p0 p1 p3 : List (String × Json)} {r0 r3 : List String} {o : List (String × Json)}
    (hg : ∀ n, Obj.get p1 n = (Obj.get p3 n).or (Obj.get p0 n)) (hdis : ∀ n x, Obj.get p3 n = some x → Obj.get p0 n = none) :
    Satisfies D env p1 (r0 ++ r3) o ↔ Satisfies D env p0 r0 o ∧ Satisfies D env p3 r3 o := by
  constructor
  · rintro ⟨h1, h2⟩
    refine ⟨⟨fun k hk => h1 k (List.mem_append_left _ hk), fun e he s hs => h2 e he s ?_⟩,
      fun k hk => h1 k (List.mem_append_right _ hk), fun e he s hs => h2 e he s ?_⟩
    · rw [hg]
      cases h3 : Obj.get p3 e.1 with
      | none => exact hs
      | some x => rw [hdis _ _ h3] at hs; cases hs
    · rw [hg, hs]; rfl
  · rintro ⟨⟨h1, h2⟩, h3, h4⟩
    refine ⟨fun k hk => (List.mem_append.1 hk).elim (h1 k) (h3 k), fun e he s hs => ?_⟩
    rw [hg] at hs
    cases h : Obj.get p3 e.1 with
    | none => rw [h] at hs; exact h2 e he s hs
    | some x => rw [h] at hs; cases hs; exact h4 e he _ h

/-- The schema of a flattened struct, as part of another schema. -/
theorem flat_way (hq : Documented q) (hopt : ∀ t, I.isOption t = true ↔ ∃ u, decl t = .std (.option u)) {f : Field τ}
    {c : Container τ} {gs : List (Field τ)} {ns ms : List String} (hd : decl (I.base f.ty) = .derived c)
    (hc : PlainInput c gs) (hn : InputNames decl I.base gs ns ms) {m3 p3 : List (String × Json)} {r3 : List String}
    (h3 : Shape m3 p3 r3 c.denyUnknownFields) (hm : Mentions p3 r3 fun n => n ∈ ns ++ ms)
    {o rest : List (String × Json)} (ho : Obj.Sorted o) (hsub : rest.Sublist o) (hcov : ∀ e ∈ o, e.1 ∈ ns ++ ms → e ∈ rest)
    (hoption : f.required = false → ∀ u, decl f.ty = .std (.option u) → q.lenient = b)
    (hnested : b = true → (∃ g ∈ gs, g.skipDe = false ∧ g.flatten = true) → c.denyUnknownFields = false)
    (hway : Way b (Valid D env (.obj m3) (.obj (seen q decl (I.base f.ty) rest)))
      (P (I.base f.ty) (.obj (seen q decl (I.base f.ty) rest)))) :
    Way b (Satisfies D env p3 (if (I.isOption f.ty && !f.required) = true then [] else r3) o)
      (FlatOk q P I.base decl f rest) := by
  have hso : (seen q decl (I.base f.ty) rest).Sublist o := seen_sublist.trans hsub
  have hin : ∀ e ∈ o, e.1 ∈ ns ++ ms → e ∈ seen q decl (I.base f.ty) rest := fun e he hk =>
    mem_seen hq hd hc hn (hcov e he hk) hk
  have hsorted : Obj.Sorted (seen q decl (I.base f.ty) rest) := ho.sublist hso
  -- what the schema of the struct says about its members
  have h1 : Valid D env (.obj m3) (.obj (seen q decl (I.base f.ty) rest)) → Satisfies D env p3 r3 o := by
    rw [h3.valid]
    rintro ⟨o', e, hv1, hv2, -⟩
    cases e
    refine ⟨fun n hn => ?_, fun e he s hs => hv2 e (hin e he ((hm.1 _).1 ⟨s, hs⟩)) s hs⟩
    obtain ⟨x, hx⟩ := hv1 n hn
    exact ⟨x, hso.subset (Obj.get_mem hx)⟩
  have h2 : b = true → Satisfies D env p3 r3 o → Valid D env (.obj m3) (.obj (seen q decl (I.base f.ty) rest)) := by
    rintro hb ⟨hv1, hv2⟩
    rw [h3.valid]
    refine ⟨_, rfl, fun n hn => ?_, fun e he => hv2 e (hso.subset he), fun hdeny e he => ?_⟩
    · obtain ⟨x, hx⟩ := hv1 n hn
      exact ⟨x, Obj.get_of_mem_sorted hsorted (hin _ hx (hm.2 n hn))⟩
    · refine (hm.1 _).2 (seen_name hq hd hc hn (fun hne => ?_) he)
      rw [hnested hb hne] at hdeny; cases hdeny
  by_cases hop : (I.isOption f.ty && !f.required) = true
  · rw [if_pos hop]
    simp only [Bool.and_eq_true, Bool.not_eq_true'] at hop
    obtain ⟨u, hu⟩ := (hopt _).1 hop.1
    have hsw := hoption hop.2 u hu
    cases b with
    | true => exact fun _ => .inr ⟨hop.2, ⟨u, hu⟩, .inr hsw⟩
    | false =>
      rintro (h | ⟨-, -, h⟩)
      · exact ⟨fun n hn => by (cases hn), (h1 (hway h)).2⟩
      · rw [hsw] at h
        refine ⟨fun n hn => by (cases hn), fun e he s hs => ?_⟩
        have := hin e he ((hm.1 _).1 ⟨s, hs⟩)
        rw [h.resolve_right (by simp)] at this; cases this
  · rw [if_neg hop]
    have hflat : FlatOk q P I.base decl f rest ↔ P (I.base f.ty) (.obj (seen q decl (I.base f.ty) rest)) := by
      refine ⟨fun h => h.resolve_right ?_, .inl⟩
      rintro ⟨hr, hu, -⟩
      exact hop (by simp [(hopt _).2 hu, hr])
    cases b with
    | true => exact fun h => hflat.2 (hway (h2 rfl h))
    | false => exact fun h => h1 (hway (hflat.1 h))

/-- The schema of the fields of a struct and what is read for them. -/
theorem fields_way (hA : Asked D env decl I A) (hq : Documented q)
    (hopt : ∀ t, I.isOption t = true ↔ ∃ u, decl t = .std (.option u)) {cd deny : Bool} {o : List (String × Json)}
    (ho : Obj.Sorted o) (hm : ∀ e ∈ o, ∀ t, MatchesAt D env b P A t e.2) {fs : List (Field τ)} {ns ms : List String}
    (hn : InputNames decl I.base fs ns ms) : ∀ {m0 p0 : List (String × Json)} {r0 : List String} {s : Json}
    {rest : List (String × Json)}, (ns ++ ms).Nodup →
    (∀ f ∈ fs, f.skipDe = false → f.flatten = false → InputField b f) →
    (∀ f ∈ fs, f.skipDe = false → f.flatten = true → f.required = false → ∀ u, decl f.ty = .std (.option u) →
      q.lenient = b) →
    (b = true → ∀ f ∈ fs, f.skipDe = false → f.flatten = true → ∀ c gs, decl (I.base f.ty) = .derived c →
      PlainInput c gs → (∃ g ∈ gs, g.skipDe = false ∧ g.flatten = true) → c.denyUnknownFields = false) →
    (∀ f ∈ fs, f.skipDe = false → f.flatten = true → ∀ x, x.Sublist o → MatchesAt D env b P A (I.base f.ty) (.obj x)) →
    Shape m0 p0 r0 deny → Obj.Sorted p0 → (∀ n ∈ ns ++ ms, Obj.get p0 n = none) →
    rest.Sublist o → (∀ e ∈ o, e.1 ∈ ms → e ∈ rest) → Returns A (structFieldsProg I cd fs (.obj m0)) s →
    ∃ m p r, s = .obj m ∧ Shape m p r deny ∧ Obj.Sorted p ∧
      Way b (Satisfies D env p r o) (Satisfies D env p0 r0 o ∧
        (∀ f ∈ fs, f.skipDe = false → f.flatten = false → ReadMember q (FieldRead (FieldObeys env) P I.base) I.base decl cd f o) ∧
        ∃ left, ReadFlattened q P I.base decl fs rest left) := by
  induction hn with
  | nil =>
    intro m0 p0 r0 s rest _ _ _ _ _ h0 hp _ _ _ h
    cases h
    refine ⟨m0, p0, r0, rfl, h0, hp, Way.of_iff ?_⟩
    exact ⟨fun h => ⟨h, fun f hf => by (cases hf), rest, .nil⟩, fun h => h.1⟩
  | @skip f fs ns ms hsk _ ih =>
    intro m0 p0 r0 s rest hnd h1 h2 h3 h4 h0 hp hfr hsub hcov h
    have tl : ∀ {g}, g ∈ fs → g ∈ f :: fs := List.mem_cons_of_mem _
    obtain ⟨m, p, r, e, hs, hps, hw⟩ := ih hnd (fun g hg => h1 g (tl hg)) (fun g hg => h2 g (tl hg))
      (fun hb g hg => h3 hb g (tl hg)) (fun g hg => h4 g (tl hg)) h0 hp hfr hsub hcov (input_skip hA.de hsk h)
    refine ⟨m, p, r, e, hs, hps, hw.congr Iff.rfl ?_⟩
    refine and_congr_right fun _ => and_congr ?_ (exists_congr fun left => flattened_pass (.inl hsk))
    simp [hsk]
  | @own f fs ns ms hsk hfl _ ih =>
    intro m0 p0 r0 s rest hnd h1 h2 h3 h4 h0 hp hfr hsub hcov h
    have tl : ∀ {g}, g ∈ fs → g ∈ f :: fs := List.mem_cons_of_mem _
    obtain ⟨s2, m1, hf, h5, h6⟩ := input_own hA.de hsk hfl h0 h
    have hfok := h1 f List.mem_cons_self hsk hfl
    rw [List.cons_append, List.nodup_cons] at hnd
    obtain ⟨m, p, r, e, hs, hps, hw⟩ := ih hnd.2 (fun g hg => h1 g (tl hg)) (fun g hg => h2 g (tl hg))
      (fun hb g hg => h3 hb g (tl hg)) (fun g hg => h4 g (tl hg)) h5 (Obj.sorted_insert hp _ _) (fun n hn => by
        rw [Obj.get_insert_ne _ _ (by rintro rfl; exact hnd.1 hn)]
        exact hfr n (List.mem_cons_of_mem _ hn)) hsub hcov h6
    refine ⟨m, p, r, e, hs, hps, hw.trans ?_⟩
    have hfn : Obj.get p0 f.name.de = none := hfr _ (List.mem_cons_self ..)
    have key : Way b ((∃ x, Obj.get o f.name.de = some x ∧ Valid D env (insertDefault cd f s2) x) ∨
        (Obj.get o f.name.de = none ∧ ¬ Mandatory I.isOption cd f .deserialize)) (ReadMember q (FieldRead (FieldObeys env) P I.base) I.base decl cd f o) := by
      have hrm : ReadMember q (FieldRead (FieldObeys env) P I.base) I.base decl cd f o ↔
          (∃ x, Obj.get o f.name.de = some x ∧ FieldRead (FieldObeys env) P I.base f x) ∨
          (Obj.get o f.name.de = none ∧ MayMiss q I.base decl cd f) := by
        unfold ReadMember
        simp only [namesOf_documented hq, List.mem_singleton, exists_eq_left, forall_eq]
        simp
      refine Way.congr (Way.or (Way.ex fun x => Way.and_left fun hx => ?_) (Way.of_iff ?_)) Iff.rfl hrm
      · have hnull := (returns_field hA hfok hf).1
        exact (field_way hA hfok hf (hm _ (Obj.get_mem hx) _)).congr (valid_insertDefault hnull.sch) Iff.rfl
      · rw [mandatory_iff hq hopt, not_not]
    refine Way.congr (Way.and (Way.and (Way.of_iff Iff.rfl) key) (Way.of_iff Iff.rfl))
      (and_congr (satisfies_own ho hfn) Iff.rfl) ?_
    rw [and_assoc]
    refine and_congr_right fun _ => ?_
    rw [← and_assoc]
    refine and_congr ?_ (exists_congr fun left => flattened_pass (.inr hfl))
    simp [hsk, hfl]
  | @flat f fs ns ms c gs ns' ms' hsk hfl hd hc hg _ _ ih =>
    intro m0 p0 r0 s rest hnd h1 h2 h3 h4 h0 hp hfr hsub hcov h
    have tl : ∀ {g}, g ∈ fs → g ∈ f :: fs := List.mem_cons_of_mem _
    obtain ⟨m3, p3, r3, m1, p1, hd3, hs3, hp3, hm3, h5, hp1, hg1, h6⟩ := input_flat hA.de hsk hfl
      (fun s hs => input_type hd hc hg (hA.ran _ _ hs)) h0 hp h
    have hin : ∀ n, n ∈ ns' ++ ms' → n ∈ ns ++ ((ns' ++ ms') ++ ms) := fun n hn =>
      List.mem_append_right _ (List.mem_append_left _ hn)
    have hdis : ∀ n ∈ ns ++ ms, n ∉ ns' ++ ms' := by
      intro n hn hn'
      obtain ⟨-, ha, hb⟩ := List.nodup_append.1 hnd
      rcases List.mem_append.1 hn with h | h
      · exact hb n h n (List.mem_append_left _ hn') rfl
      · exact (List.nodup_append.1 ha).2.2 n hn' n h rfl
    have hnd' : (ns ++ ms).Nodup := hnd.sublist (List.Sublist.append (.refl _) (List.sublist_append_right _ _))
    have hw3 := flat_way (b := b) (P := P) (D := D) (env := env) hq hopt hd hc hg hs3 hm3 ho hsub
      (fun e he hk => hcov e he (List.mem_append_left _ hk)) (h2 f List.mem_cons_self hsk hfl)
      (fun hb hne => h3 hb f List.mem_cons_self hsk hfl c gs hd hc hne)
      (h4 f List.mem_cons_self hsk hfl _ (seen_sublist.trans hsub) _ (.inr hd3))
    obtain ⟨m, p, r, e, hs, hps, hw⟩ := ih (rest := leave q decl (I.base f.ty) rest) hnd' (fun g hg => h1 g (tl hg))
      (fun g hg => h2 g (tl hg)) (fun hb g hg => h3 hb g (tl hg)) (fun g hg => h4 g (tl hg)) h5 hp1 (fun n hn => by
        rw [hg1, hfr n (by
          rcases List.mem_append.1 hn with h | h
          · exact List.mem_append_left _ h
          · exact List.mem_append_right _ (List.mem_append_right _ h))]
        cases h7 : Obj.get p3 n with
        | none => rfl
        | some x => exact absurd ((hm3.1 n).1 ⟨x, h7⟩) (hdis n hn)) (leave_sublist.trans hsub) (fun e he hk =>
          mem_leave hq hd hc hg (hcov e he (List.mem_append_right _ hk))
            (hdis _ (List.mem_append_right _ hk))) h6
    refine ⟨m, p, r, e, hs, hps, hw.trans ?_⟩
    refine Way.congr (Way.and (Way.and (Way.of_iff Iff.rfl) hw3) (Way.of_iff Iff.rfl)) (and_congr
      (satisfies_flat hg1 fun n x hx => hfr n (hin n ((hm3.1 n).1 ⟨x, hx⟩))) Iff.rfl) ?_
    rw [and_assoc]
    refine and_congr_right fun _ => ?_
    simp only [flattened_struct hsk hfl hd hc, exists_and_left]
    rw [← and_assoc, ← and_assoc, and_comm (a := FlatOk q P I.base decl f rest)]
    refine and_congr (and_congr ?_ Iff.rfl) Iff.rfl
    simp [hfl]

theorem unclaimed_sublist {fs : List (Field τ)} {o : List (String × Json)} : (unclaimed q fs o).Sublist o :=
  List.filter_sublist

theorem mem_unclaimed (hq : Documented q) {base : τ → τ} {fs : List (Field τ)} {ns ms : List String}
    (hn : InputNames decl base fs ns ms) {o : List (String × Json)} {e : String × Json} :
    e ∈ unclaimed q fs o ↔ e ∈ o ∧ e.1 ∉ ns := by
  unfold unclaimed
  rw [List.mem_filter, inputNames_mem hn]
  refine and_congr_right fun _ => ?_
  simp only [namesOf_documented hq]
  simp

/-- The schema of a struct and the members that are read for it. -/
theorem struct_way (hA : Asked D env decl I A) (hq : Documented q)
    (hopt : ∀ t, I.isOption t = true ↔ ∃ u, decl t = .std (.option u)) {cd deny : Bool} {fs : List (Field τ)}
    (hok : ReadFieldsOk b q.lenient decl I.base deny fs) (h : Returns A (structProg I fs cd deny) s) :
    (∀ i, Valid D env s i → ∃ o, i = .obj o) ∧
    ∀ o, Obj.Sorted o → (∀ e ∈ o, ∀ t, MatchesAt D env b P A t e.2) →
      (∀ f ∈ fs, f.skipDe = false → f.flatten = true → ∀ x, x.Sublist o →
        MatchesAt D env b P A (I.base f.ty) (.obj x)) →
      Way b (Valid D env s (.obj o)) (ReadFields q P (FieldRead (FieldObeys env) P I.base) I.base decl cd deny fs o) := by
  obtain ⟨ns, ms, hn, hnd⟩ := hok.names
  obtain ⟨m, p, r, rfl, hs, hps, hk⟩ := input_struct hn hA.de hA.ran h
  refine ⟨fun i hi => ?_, fun o ho hm hflat => ?_⟩
  · obtain ⟨o, rfl, -⟩ := hs.valid.1 hi; exact ⟨o, rfl⟩
  obtain ⟨mi, ei, hi⟩ := shape_start deny
  unfold structProg at h
  rw [ei] at h
  obtain ⟨m', p', r', e, hs', hps', hw⟩ := fields_way (q := q) (rest := unclaimed q fs o) hA hq hopt ho hm hn hnd
    hok.fields hok.option (fun hb f hf h1 h2 c gs h3 h4 h5 => (hok.nested hb f hf h1 h2 c gs h3 h4 h5).2) hflat hi
    List.Pairwise.nil (fun n _ => rfl) unclaimed_sublist (fun e he hk => (mem_unclaimed hq hn).2 ⟨he, fun hk' =>
      (List.nodup_append.1 hnd).2.2 _ hk' _ hk rfl⟩) h
  cases e
  have hstart : Satisfies D env [] [] o := ⟨fun n hn => by (cases hn), fun e _ s hs => by cases hs⟩
  have hval : Valid D env (.obj m) (.obj o) ↔ Satisfies D env p' r' o ∧ (deny = true → ∀ e ∈ o, e.1 ∈ ns ++ ms) := by
    rw [hs'.valid, ← propsAre_unique hs.props hs'.props]
    constructor
    · rintro ⟨o', e, h1, h2, h3⟩
      cases e
      refine ⟨⟨fun n hn => ?_, h2⟩, fun hd e he => (hk.1 _).1 (h3 hd e he)⟩
      obtain ⟨x, hx⟩ := h1 n hn
      exact ⟨x, Obj.get_mem hx⟩
    · rintro ⟨⟨h1, h2⟩, h3⟩
      refine ⟨o, rfl, fun n hn => ?_, h2, fun hd e he => (hk.1 _).2 (h3 hd e he)⟩
      obtain ⟨x, hx⟩ := h1 n hn
      exact ⟨x, Obj.get_of_mem_sorted ho hx⟩
  cases b with
  | false =>
    rintro ⟨h1, left, h2, h3⟩
    refine hval.2 ⟨hw ⟨hstart, h1, left, h2⟩, fun hd e he => ?_⟩
    by_cases hke : e.1 ∈ ns
    · exact List.mem_append_left _ hke
    · have := flattened_taken hq hn h2 e ((mem_unclaimed hq hn).2 ⟨he, hke⟩)
      rw [h3 hd] at this
      exact List.mem_append_right _ (this.resolve_left (by simp))
  | true =>
    intro hv
    obtain ⟨hsat, hdeny⟩ := hval.1 hv
    obtain ⟨-, h1, left, h2⟩ := hw hsat
    refine ⟨h1, left, h2, fun hd => ?_⟩
    rw [List.eq_nil_iff_forall_not_mem]
    intro e he
    obtain ⟨h3, h4⟩ := flattened_left hq hn h2 (fun f hf h1 h2 c gs h3 h4 h5 => by
      have := (hok.nested rfl f hf h1 h2 c gs h3 h4 h5).1
      rw [hd] at this; cases this) e he
    obtain ⟨h5, h6⟩ := (mem_unclaimed hq hn).1 h3
    exact (List.mem_append.1 (hdeny hd e h5)).elim h6 h4

/-! ## Variants -/

theorem readAs_eq {v : Variant τ} (hv : VariantInput v) (hw : v.withTy = none) : readAs v = v.fields := by
  unfold readAs
  cases hf : v.fields with
  | newtype f => simp [hv.full f hw hf]
  | _ => rfl

theorem hollow_iff {v : Variant τ} (hv : VariantInput v) : hollow v ↔ (v.isUnit && v.withTy.isNone) = true := by
  unfold hollow
  cases hw : v.withTy with
  | some t => simp
  | none =>
    rw [readAs_eq hv hw]
    unfold Variant.isUnit
    cases v.fields <;> simp

end

end Verif
