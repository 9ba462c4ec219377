import Verif.Lemmas.Derive
import Verif.Props.FlattenInner

/-!
# C46, C47: derived structs
-/

namespace Verif
open Spec

variable {τ : Type}

namespace Spec

/-- The field must be there: a serialized value has it unless serialization is skipped on a condition; for
deserialization it is needed if there is no default, and the type is no `Option` or the field is marked as
required. -/
def Mandatory (isOption : τ → Bool) (containerDefault : Bool) (f : Field τ) : Contract → Prop
  | .serialize => f.skipSerIf = false
  | .deserialize => containerDefault = false ∧ f.hasDefault = false ∧ (f.required = true ∨ isOption f.ty = false)

instance (isOption : τ → Bool) (cd : Bool) (f : Field τ) (c : Contract) :
    Decidable (Mandatory isOption cd f c) := by
  cases c <;> unfold Mandatory <;> infer_instance

/-- The field is not skipped under the contract. -/
def NotSkipped (f : Field τ) : Contract → Prop
  | .serialize => f.skipSer = false
  | .deserialize => f.skipDe = false

instance (f : Field τ) (c : Contract) : Decidable (NotSkipped f c) := by
  cases c <;> unfold NotSkipped <;> infer_instance

/-- The fields that are not skipped under the contract. -/
def present (fs : List (Field τ)) (c : Contract) : List (Field τ) := fs.filter fun f => decide (NotSkipped f c)

/-- `n` is declared in `properties`. -/
def Declares (s : Json) (n : String) : Prop :=
  ∃ m x, s = .obj m ∧ Obj.get (members ((Obj.get m "properties").getD .null)) n = some x

/-- The elements of `required`. -/
def requires (s : Json) : List Json :=
  match s with
  | .obj m => elems ((Obj.get m "required").getD .null)
  | _ => []

end Spec

theorem included_iff (f : Field τ) (c : Contract) : f.included c = true ↔ NotSkipped f c := by
  unfold Field.included contractCheck NotSkipped
  cases f.skipDe <;> cases f.skipSer <;> cases c <;> simp

theorem included_eq (f : Field τ) (c : Contract) : f.included c = decide (NotSkipped f c) := by
  by_cases h : NotSkipped f c
  · simp [h, included_iff]
  · simp only [h, decide_false]
    have : ¬ f.included c = true := fun hc => h ((included_iff f c).1 hc)
    simpa using this

/-- The condition in the code, by cases. -/
theorem fieldOptional_iff (I : TypeInfo τ) (cd : Bool) (f : Field τ) (c : Contract) :
    fieldOptional I cd f c = true ↔ ¬ Mandatory I.isOption cd f c := by
  unfold fieldOptional Mandatory
  cases cd <;> cases f.hasDefault <;> cases f.skipSerIf <;> cases f.required <;> cases I.isOption f.ty <;>
    cases c <;> simp

theorem fieldOptional_eq (I : TypeInfo τ) (cd : Bool) (f : Field τ) (c : Contract) :
    fieldOptional I cd f c = !decide (Mandatory I.isOption cd f c) := by
  by_cases h : Mandatory I.isOption cd f c
  · have : ¬ fieldOptional I cd f c = true := fun hc => (fieldOptional_iff I cd f c).1 hc h
    simp [h, Bool.eq_false_iff.2 this]
  · simp [h, (fieldOptional_iff I cd f c).2 h]

/-- The result for a field: the schema of the property, or the schema to be flattened. -/
def FieldResult (A : Answers τ) (I : TypeInfo τ) (cd : Bool) (f : Field τ) (s : Json) : Prop :=
  if f.flatten then Returns A (flattenProg (I.base f.ty) (I.isOption f.ty) f.required .ret) s
  else ∃ s0, Returns A (fieldProg I f false) s0 ∧ s = insertDefault cd f s0

/-- Adds the result for a field to the schema. -/
def addField (I : TypeInfo τ) (cd : Bool) (c : Contract) (acc : Json) (e : Field τ × Json) : Json :=
  if e.1.flatten then flatten acc e.2
  else insertObjectProperty acc (e.1.name.get c) (fieldOptional I cd e.1 c) e.2

theorem returns_structField {A : Answers τ} {I : TypeInfo τ} {cd : Bool} {f : Field τ} {s r : Json} :
    Returns A (structFieldProg I cd f s) r ↔
      if NotSkipped f A.settings.contract then
        ∃ s', FieldResult A I cd f s' ∧ r = addField I cd A.settings.contract s (f, s')
      else r = s := by
  unfold structFieldProg FieldResult addField
  simp only [Returns]
  by_cases h : NotSkipped f A.settings.contract
  · rw [if_pos h, if_pos ((included_iff f _).2 h)]
    by_cases hf : f.flatten = true
    · simp only [hf, if_true, flattenProg, Returns]
      constructor
      · rintro ⟨s1, h1, h2⟩; exact ⟨_, ⟨s1, h1, rfl⟩, h2⟩
      · rintro ⟨_, ⟨s1, h1, rfl⟩, h2⟩; exact ⟨s1, h1, h2⟩
    · simp only [hf, if_false, Bool.false_eq_true]
      rw [res_bind]
      simp only [Returns]
      constructor
      · rintro ⟨s1, h1, h2⟩; exact ⟨_, ⟨s1, h1, rfl⟩, h2⟩
      · rintro ⟨_, ⟨s1, h1, rfl⟩, h2⟩; exact ⟨s1, h1, h2⟩
  · rw [if_neg h, if_neg (fun hc => h ((included_iff f _).1 hc))]
    rfl

/-- The result of the statements for the fields. -/
theorem returns_structFields {A : Answers τ} {I : TypeInfo τ} {cd : Bool} (fs : List (Field τ)) {s r : Json} :
    Returns A (structFieldsProg I cd fs s) r ↔
      ∃ es : List (Field τ × Json), es.map Prod.fst = present fs A.settings.contract ∧
        (∀ e ∈ es, FieldResult A I cd e.1 e.2) ∧ r = es.foldl (addField I cd A.settings.contract) s := by
  induction fs generalizing s with
  | nil =>
    simp only [structFieldsProg, Returns, present, List.filter_nil]
    constructor
    · rintro rfl; exact ⟨[], rfl, by simp, rfl⟩
    · rintro ⟨es, h, _, rfl⟩
      have : es = [] := List.map_eq_nil_iff.1 h
      subst this; rfl
  | cons f fs ih =>
    rw [structFieldsProg, res_bind]
    simp only [returns_structField, ih]
    by_cases h : NotSkipped f A.settings.contract
    · simp only [h, if_true]
      have hp : present (f :: fs) A.settings.contract = f :: present fs A.settings.contract := by
        unfold present; rw [List.filter_cons_of_pos (by simpa using h)]
      rw [hp]
      constructor
      · rintro ⟨s1, ⟨s', h1, rfl⟩, es, e1, e2, rfl⟩
        refine ⟨(f, s') :: es, by simp [e1], ?_, rfl⟩
        intro e he
        rcases List.mem_cons.1 he with rfl | he
        · exact h1
        · exact e2 e he
      · rintro ⟨es, e1, e2, rfl⟩
        cases es with
        | nil => cases e1
        | cons e es =>
          simp only [List.map_cons, List.cons.injEq] at e1
          obtain ⟨rfl, e1⟩ := e1
          exact ⟨_, ⟨e.2, e2 e (by simp), rfl⟩, es, e1, fun x hx => e2 x (by simp [hx]), rfl⟩
    · simp only [h, if_false]
      have hp : present (f :: fs) A.settings.contract = present fs A.settings.contract := by
        unfold present; rw [List.filter_cons_of_neg (by simpa using h)]
      rw [hp]
      constructor
      · rintro ⟨s1, rfl, h⟩; exact h
      · intro h; exact ⟨s, rfl, h⟩

/-! ### Without flattened fields -/

/-- The names and schemas of the fields. -/
def properties (c : Contract) (es : List (Field τ × Json)) : List (String × Json) :=
  es.map fun e => (e.1.name.get c, e.2)

/-- The names of the mandatory fields. -/
def mandatoryNames (isOption : τ → Bool) (cd : Bool) (c : Contract) (fs : List (Field τ)) : List String :=
  (fs.filter fun f => decide (Mandatory isOption cd f c)).map fun f => f.name.get c

theorem shape_addFields {I : TypeInfo τ} {cd : Bool} {c : Contract} (es : List (Field τ × Json))
    (hf : ∀ e ∈ es, e.1.flatten = false) {m props : List (String × Json)} {req : List String} {deny : Bool}
    (h : Shape m props req deny) :
    ∃ m', es.foldl (addField I cd c) (.obj m) = .obj m' ∧
      Shape m' (Obj.extend props (properties c es)) (req ++ mandatoryNames I.isOption cd c (es.map Prod.fst)) deny := by
  induction es generalizing m props req with
  | nil => exact ⟨m, rfl, by simpa [properties, mandatoryNames, Obj.extend] using h⟩
  | cons e es ih =>
    have h1 : addField I cd c (.obj m) e =
        insertObjectProperty (.obj m) (e.1.name.get c) (fieldOptional I cd e.1 c) e.2 := by
      unfold addField; rw [hf e (by simp)]; simp
    obtain ⟨m1, e1, h2⟩ := h.insertProperty (e.1.name.get c) (fieldOptional I cd e.1 c) e.2
    rw [List.foldl_cons, h1, e1]
    obtain ⟨m', e2, h3⟩ := ih (fun x hx => hf x (by simp [hx])) h2
    refine ⟨m', e2, ?_⟩
    have hr : req ++ mandatoryNames I.isOption cd c ((e :: es).map Prod.fst) =
        req ++ (if fieldOptional I cd e.1 c = true then [] else [e.1.name.get c]) ++
          mandatoryNames I.isOption cd c (es.map Prod.fst) := by
      rw [fieldOptional_eq]
      unfold mandatoryNames
      rw [List.map_cons, List.filter_cons]
      by_cases hm : Mandatory I.isOption cd e.1 c <;> simp [hm]
    rw [hr]
    exact h3

/-- A struct without flattened fields. -/
theorem returns_struct {A : Answers τ} {I : TypeInfo τ} {cd deny : Bool} {fs : List (Field τ)} {r : Json}
    (hf : ∀ f ∈ fs, NotSkipped f A.settings.contract → f.flatten = false) (h : Returns A (structProg I fs cd deny) r) :
    ∃ es : List (Field τ × Json), es.map Prod.fst = present fs A.settings.contract ∧
      (∀ e ∈ es, ∃ s, Returns A (fieldProg I e.1 false) s ∧ e.2 = insertDefault cd e.1 s) ∧
      ∃ m, r = .obj m ∧ Shape m (Obj.ofList (properties A.settings.contract es))
        (mandatoryNames I.isOption cd A.settings.contract (present fs A.settings.contract)) deny := by
  unfold structProg at h
  obtain ⟨es, e1, e2, rfl⟩ := (returns_structFields fs).1 h
  have hfl : ∀ e ∈ es, e.1.flatten = false := by
    intro e he
    have : e.1 ∈ present fs A.settings.contract := by rw [← e1]; exact List.mem_map_of_mem he
    unfold present at this
    rw [List.mem_filter] at this
    exact hf _ this.1 (by simpa using this.2)
  have h0 : Shape (Obj.ofList (("type", .str "object") :: if deny then [("additionalProperties", .bool false)] else []))
      [] [] deny := by
    refine shape_mkObj ?_ ?_ (.inl ⟨?_, rfl⟩) (.inl ⟨?_, rfl⟩) ?_ ?_ <;> cases deny <;>
      first | rfl | simp [Obj.keys]
  obtain ⟨m, h1, h2⟩ := shape_addFields (I := I) (cd := cd) (c := A.settings.contract) es hfl h0
  refine ⟨es, e1, ?_, m, h1, ?_⟩
  · intro e he
    have := e2 e he
    unfold FieldResult at this
    rw [hfl e he] at this
    exact this
  · rw [List.nil_append, e1] at h2; exact h2

/-- The result for a struct: the properties are the fields that are present, and the required ones are the
mandatory ones. -/
def StructResult (A : Answers τ) (I : TypeInfo τ) (cd deny : Bool) (fs : List (Field τ))
    (es : List (Field τ × Json)) (r : Json) : Prop :=
  es.map Prod.fst = present fs A.settings.contract ∧
  (∀ e ∈ es, ∃ s, Returns A (fieldProg I e.1 false) s ∧ e.2 = insertDefault cd e.1 s) ∧
  ∃ m, r = .obj m ∧ Shape m (Obj.ofList (properties A.settings.contract es))
    (mandatoryNames I.isOption cd A.settings.contract (present fs A.settings.contract)) deny

section
variable {D : Dialect} {env : Env} {A : Answers τ} {I : TypeInfo τ} {cd deny : Bool} {fs : List (Field τ)}
  {es : List (Field τ × Json)} {r : Json}

theorem StructResult.names (h : StructResult A I cd deny fs es r) :
    (∀ n, Declares r n ↔ ∃ f ∈ fs, NotSkipped f A.settings.contract ∧ f.name.get A.settings.contract = n) ∧
    requires r = ((fs.filter fun f => NotSkipped f A.settings.contract ∧
      Mandatory I.isOption cd f A.settings.contract).map fun f => .str (f.name.get A.settings.contract)) := by
  obtain ⟨e1, -, m, rfl, hs⟩ := h
  constructor
  · intro n
    have hp : members ((Obj.get m "properties").getD .null) = Obj.ofList (properties A.settings.contract es) := by
      have := hs.props.memb
      unfold memb at this
      rw [← this]
      cases Obj.get m "properties" <;> rfl
    have hd : Declares (.obj m) n ↔ n ∈ Obj.keys (properties A.settings.contract es) := by
      constructor
      · rintro ⟨m', x, hm, hx⟩
        cases hm
        rw [hp] at hx
        unfold Obj.ofList at hx
        rw [Obj.get_extend] at hx
        have : Obj.get (properties A.settings.contract es).reverse n = some x := by
          cases hg : Obj.get (properties A.settings.contract es).reverse n with
          | none => rw [hg] at hx; cases hx
          | some y => rw [hg] at hx; exact hx
        have := List.mem_map_of_mem (f := Prod.fst) (Obj.get_mem this)
        unfold Obj.keys
        simpa using this
      · intro hk
        have : n ∈ Obj.keys (properties A.settings.contract es).reverse := by
          unfold Obj.keys at hk ⊢; simpa using hk
        obtain ⟨x, hx⟩ := Obj.mem_keys.1 this
        refine ⟨m, x, rfl, ?_⟩
        rw [hp]
        unfold Obj.ofList
        rw [Obj.get_extend, hx]; rfl
    rw [hd]
    have hk : Obj.keys (properties A.settings.contract es) =
        (present fs A.settings.contract).map fun f => f.name.get A.settings.contract := by
      rw [← e1]; unfold Obj.keys properties; simp
    rw [hk]
    unfold present
    simp only [List.mem_map, List.mem_filter, decide_eq_true_eq, and_assoc]
  · unfold requires
    simp only
    have : elems ((Obj.get m "required").getD .null) =
        (mandatoryNames I.isOption cd A.settings.contract (present fs A.settings.contract)).map .str := by
      rcases hs.req with ⟨h1, h2⟩ | h1
      · rw [h1, h2]; rfl
      · rw [h1]; rfl
    rw [this]
    unfold mandatoryNames present
    rw [List.filter_filter, List.map_map]
    congr 1
    refine List.filter_congr fun f _ => ?_
    rw [Bool.decide_and, Bool.and_comm]

theorem StructResult.valid (h : StructResult A I cd deny fs es r)
    (hn : ((present fs A.settings.contract).map fun f => f.name.get A.settings.contract).Nodup) (i : Json) :
    Valid D env r i ↔ ∃ o, i = .obj o ∧
      (∀ f ∈ present fs A.settings.contract, Mandatory I.isOption cd f A.settings.contract →
        ∃ x, Obj.get o (f.name.get A.settings.contract) = some x) ∧
      (∀ e ∈ es, ∀ x ∈ o, x.1 = e.1.name.get A.settings.contract → Valid D env e.2 x.2) ∧
      (deny = true → ∀ x ∈ o, ∃ f ∈ present fs A.settings.contract, x.1 = f.name.get A.settings.contract) := by
  obtain ⟨e1, -, m, rfl, hs⟩ := h
  have hk : Obj.keys (properties A.settings.contract es) =
      (present fs A.settings.contract).map fun f => f.name.get A.settings.contract := by
    rw [← e1]; unfold Obj.keys properties; simp
  have hnk : (Obj.keys (properties A.settings.contract es)).Nodup := by rw [hk]; exact hn
  rw [hs.valid]
  unfold Conforms
  refine exists_congr fun o => and_congr_right fun _ => and_congr ?_ (and_congr ?_ ?_)
  · unfold mandatoryNames
    simp only [List.mem_map, List.mem_filter, decide_eq_true_eq]
    constructor
    · intro h f hf hm; exact h _ ⟨f, ⟨hf, hm⟩, rfl⟩
    · rintro h n ⟨f, ⟨hf, hm⟩, rfl⟩; exact h f hf hm
  · constructor
    · intro h e he x hx hxe
      refine h x hx e.2 ?_
      rw [get_ofList hnk, hxe]
      exact Obj.get_of_mem_nodup hnk (List.mem_map.2 ⟨e, he, rfl⟩)
    · intro h x hx s hg
      rw [get_ofList hnk] at hg
      obtain ⟨e, he, hee⟩ := List.mem_map.1 (Obj.get_mem hg)
      simp only [Prod.mk.injEq] at hee
      have := h e he x hx hee.1.symm
      rw [hee.2] at this; exact this
  · refine imp_congr_right fun _ => forall_congr' fun x => imp_congr_right fun _ => ?_
    have : (∃ s, Obj.get (Obj.ofList (properties A.settings.contract es)) x.1 = some s) ↔
        x.1 ∈ Obj.keys (properties A.settings.contract es) := by
      rw [get_ofList hnk]; exact Obj.mem_keys.symm
    rw [this, hk]
    simp only [List.mem_map]
    exact ⟨fun ⟨f, h1, h2⟩ => ⟨f, h1, h2.symm⟩, fun ⟨f, h1, h2⟩ => ⟨f, h1, h2.symm⟩⟩

end

/-- C46: the properties are the fields that are not skipped under the contract, and the required ones are those
that are mandatory under the contract. -/
theorem C46_struct {A : Answers τ} {I : TypeInfo τ} {cd deny : Bool} {fs : List (Field τ)} {r : Json}
    (hf : ∀ f ∈ fs, NotSkipped f A.settings.contract → f.flatten = false) (h : Returns A (structProg I fs cd deny) r) :
    (∀ n, Declares r n ↔ ∃ f ∈ fs, NotSkipped f A.settings.contract ∧ f.name.get A.settings.contract = n) ∧
    requires r = ((fs.filter fun f => NotSkipped f A.settings.contract ∧
      Mandatory I.isOption cd f A.settings.contract).map fun f => .str (f.name.get A.settings.contract)) := by
  obtain ⟨es, hs⟩ := returns_struct hf h
  exact StructResult.names hs

/-- C47: a struct accepts the objects that have the mandatory fields, and whose fields are valid; with
`deny_unknown_fields` only those that have no other members. -/
theorem C47_struct {D : Dialect} {env : Env} {A : Answers τ} {I : TypeInfo τ} {cd deny : Bool} {fs : List (Field τ)}
    {r : Json} (hf : ∀ f ∈ fs, NotSkipped f A.settings.contract → f.flatten = false)
    (hn : ((present fs A.settings.contract).map fun f => f.name.get A.settings.contract).Nodup)
    (h : Returns A (structProg I fs cd deny) r) :
    ∃ es : List (Field τ × Json), es.map Prod.fst = present fs A.settings.contract ∧
      (∀ e ∈ es, ∃ s, Returns A (fieldProg I e.1 false) s ∧ e.2 = insertDefault cd e.1 s) ∧
      ∀ i, Valid D env r i ↔ ∃ o, i = .obj o ∧
        (∀ f ∈ present fs A.settings.contract, Mandatory I.isOption cd f A.settings.contract →
          ∃ x, Obj.get o (f.name.get A.settings.contract) = some x) ∧
        (∀ e ∈ es, ∀ x ∈ o, x.1 = e.1.name.get A.settings.contract → Valid D env e.2 x.2) ∧
        (deny = true → ∀ x ∈ o, ∃ f ∈ present fs A.settings.contract, x.1 = f.name.get A.settings.contract) := by
  obtain ⟨es, hs⟩ := returns_struct hf h
  exact ⟨es, hs.1, hs.2.1, StructResult.valid hs hn⟩

/-! ### The container -/

/-- The container is a struct with named fields, none of which is flattened, and its attributes only annotate. -/
structure PlainStruct (c : Container τ) (fs : List (Field τ)) : Prop where
  data : c.data = .struct (.struct fs)
  noWith : c.withTy = none
  noTransparent : c.transparent = none
  noFrom : c.fromTy = none
  noInto : c.intoTy = none
  common : Harmless c.common
  noFlatten : ∀ f ∈ fs, f.flatten = false

theorem returns_container {A : Answers τ} {I : TypeInfo τ} {c : Container τ} {fs : List (Field τ)} {r : Json}
    (hc : PlainStruct c fs) (h : Returns A (containerProg I c) r) :
    ∃ es, StructResult A I c.hasDefault c.denyUnknownFields fs es r := by
  unfold containerProg at h
  rw [hc.noWith, hc.noTransparent, hc.noFrom, hc.noInto] at h
  simp only at h
  rw [res_map] at h
  obtain ⟨s, h1, rfl⟩ := h
  unfold dataProg at h1
  rw [hc.data] at h1
  simp only at h1
  obtain ⟨es, e1, e2, m, rfl, hs⟩ := returns_struct (fun f hf _ => hc.noFlatten f hf) h1
  obtain ⟨m', e3, hs'⟩ := hs.annotate hc.common.annotates
  exact ⟨es, e1, e2, m', e3, hs'⟩

/-- C46 for a run of the generator. -/
theorem C46_run {Γ : τ → TypeDef τ} {I : TypeInfo τ} {t : τ} {c : Container τ} {fs : List (Field τ)}
    (hc : PlainStruct c fs) (ht : (Γ t).body = containerProg I c) {n : Nat} {g g' : Gen τ} {r : Json} (hg : Inv g)
    (h : run Γ n t g = some (r, g')) :
    (∀ n, Declares r n ↔ ∃ f ∈ fs, NotSkipped f g.settings.contract ∧ f.name.get g.settings.contract = n) ∧
    requires r = ((fs.filter fun f => NotSkipped f g.settings.contract ∧
      Mandatory I.isOption c.hasDefault f g.settings.contract).map fun f => .str (f.name.get g.settings.contract)) := by
  have := run_returns hg h
  rw [ht] at this
  obtain ⟨es, hs⟩ := returns_container hc this
  exact StructResult.names hs

/-- C47 for a run of the generator. -/
theorem C47_run {D : Dialect} {env : Env} {Γ : τ → TypeDef τ} {I : TypeInfo τ} {t : τ} {c : Container τ}
    {fs : List (Field τ)} (hc : PlainStruct c fs) (ht : (Γ t).body = containerProg I c) {n : Nat} {g g' : Gen τ}
    {r : Json} (hg : Inv g)
    (hn : ((present fs g.settings.contract).map fun f => f.name.get g.settings.contract).Nodup)
    (h : run Γ n t g = some (r, g')) :
    ∃ es : List (Field τ × Json), es.map Prod.fst = present fs g.settings.contract ∧
      (∀ e ∈ es, ∃ s, Returns (runAnswers Γ g.settings) (fieldProg I e.1 false) s ∧
        e.2 = insertDefault c.hasDefault e.1 s) ∧
      ∀ i, Valid D env r i ↔ ∃ o, i = .obj o ∧
        (∀ f ∈ present fs g.settings.contract, Mandatory I.isOption c.hasDefault f g.settings.contract →
          ∃ x, Obj.get o (f.name.get g.settings.contract) = some x) ∧
        (∀ e ∈ es, ∀ x ∈ o, x.1 = e.1.name.get g.settings.contract → Valid D env e.2 x.2) ∧
        (c.denyUnknownFields = true → ∀ x ∈ o, ∃ f ∈ present fs g.settings.contract,
          x.1 = f.name.get g.settings.contract) := by
  have := run_returns hg h
  rw [ht] at this
  obtain ⟨es, hs⟩ := returns_container hc this
  exact ⟨es, hs.1, hs.2.1, StructResult.valid hs hn⟩

/-- The default that is put into the schema of a property does not matter. -/
theorem valid_insertDefault {D : Dialect} {env : Env} {cd : Bool} {f : Field τ} {s i : Json} (hs : Sch s) :
    Valid D env (insertDefault cd f s) i ↔ Valid D env s i := by
  unfold insertDefault
  split
  · rfl
  · split
    · exact valid_put_annotation hs (by decide) _
    · rfl

/-! ### With flattened fields -/

theorem kinds_mergeAll {m1 m2 : List (String × Json)} (h1 : Kinds m1) (h2 : Kinds m2) : Kinds (mergeAll m1 m2) where
  sorted := sorted_mergeAll h1.sorted
  maps := by
    intro k hk v hv
    have ha : k ≠ "allOf" := by rintro rfl; exact absurd hk (by decide)
    have hq : k ∉ altKeys := (by decide : ∀ k ∈ ["properties", "patternProperties"], k ∉ altKeys) k hk
    rw [get_mergeAll_plain (Obj.sorted_nodup h2.sorted) ha hq] at hv
    cases e2 : Obj.get m2 k with
    | none => rw [e2] at hv; exact h1.maps k hk v hv
    | some v2 =>
      obtain ⟨p2, rfl, hp2⟩ := h2.maps k hk _ e2
      cases e1 : Obj.get m1 k with
      | none =>
        rw [e2, e1] at hv
        cases hv; exact ⟨p2, rfl, hp2⟩
      | some v1 =>
        obtain ⟨p1, rfl, hp1⟩ := h1.maps k hk _ e1
        rw [e2, e1] at hv
        simp only [Option.elim_some, mergeValue_map hk] at hv
        cases hv
        exact ⟨_, rfl, Obj.sorted_extend hp1 _⟩
  lists := by
    intro k hk v hv
    simp only [List.mem_cons, List.not_mem_nil, or_false] at hk
    rcases hk with rfl | rfl
    · rw [get_mergeAll_plain (Obj.sorted_nodup h2.sorted) (by decide) (by decide)] at hv
      cases e2 : Obj.get m2 "required" with
      | none => rw [e2] at hv; exact h1.lists _ (by decide) v hv
      | some v2 =>
        obtain ⟨l2, rfl⟩ := h2.lists _ (by decide) _ e2
        cases e1 : Obj.get m1 "required" with
        | none => rw [e2, e1] at hv; cases hv; exact ⟨l2, rfl⟩
        | some v1 =>
          obtain ⟨l1, rfl⟩ := h1.lists _ (by decide) _ e1
          rw [e2, e1] at hv
          cases hv
          exact ⟨_, rfl⟩
    · obtain ⟨l1, hl1⟩ := arrAt_of_kinds h1 (k := "allOf") (by decide)
      have := mergeAll_allOf (Obj.sorted_nodup h2.sorted) hl1 (h2.lists "allOf" (by decide))
      rcases this with ⟨e, _⟩ | e
      · rw [e] at hv; cases hv
      · rw [e] at hv; cases hv; exact ⟨_, rfl⟩
  noNullable := by
    rw [get_mergeAll_plain (Obj.sorted_nodup h2.sorted) (by decide) (by decide), h1.noNullable, h2.noNullable]
    rfl

theorem kinds_flatten {m1 m2 : List (String × Json)} (h1 : Kinds m1) (h2 : Kinds m2) :
    Kinds (flattenObjects m1 m2) := by
  rw [flattenObjects_eq]; exact kinds_mergeAll (h1.normalise _) (h2.normalise _)

namespace Spec

/-- A schema whose `properties`, `required` etc. have values of the right kind. -/
def Regular (s : Json) : Prop := (∃ m, s = .obj m ∧ Kinds m) ∨ ∃ b, s = .bool b

end Spec

theorem regular_flatten {m1 : List (String × Json)} (h1 : Kinds m1) {s : Json} (h2 : Regular s) :
    ∃ m, flatten (.obj m1) s = .obj m ∧ Kinds m ∧ (∀ n, Declares (.obj m) n ↔ Declares (.obj m1) n ∨ Declares s n) ∧
      requires (.obj m) = requires (.obj m1) ++ requires s := by
  have hb : ∀ b n, ¬ Declares (.bool b) n := by rintro b n ⟨m, x, h, _⟩; cases h
  rcases h2 with ⟨m2, rfl, h2⟩ | ⟨b, rfl⟩
  · refine ⟨flattenObjects m1 m2, rfl, kinds_flatten h1 h2, fun n => ?_, ?_⟩
    · obtain ⟨m, e, hp⟩ := C49_properties h1 h2
      have e' : flattenObjects m1 m2 = m := by injection e
      unfold Declares
      constructor
      · rintro ⟨m', x, hm, hx⟩
        cases hm
        rw [e', hp] at hx
        cases hg : Obj.get (members ((Obj.get m2 "properties").getD .null)) n with
        | none => rw [hg] at hx; exact .inl ⟨m1, x, rfl, hx⟩
        | some y => exact .inr ⟨m2, y, rfl, hg⟩
      · rintro (⟨m', x, hm, hx⟩ | ⟨m', x, hm, hx⟩)
        · cases hm
          cases hg : Obj.get (members ((Obj.get m2 "properties").getD .null)) n with
          | none => exact ⟨_, x, rfl, by rw [e', hp, hg]; exact hx⟩
          | some y => exact ⟨_, y, rfl, by rw [e', hp, hg]; rfl⟩
        · cases hm
          exact ⟨_, x, rfl, by rw [e', hp, hx]; rfl⟩
    · obtain ⟨m, e, hp⟩ := C49_required h1 h2
      have e' : flattenObjects m1 m2 = m := by injection e
      unfold requires
      simp only
      rw [e', hp]
  · have key : ∃ m, flatten (.obj m1) (.bool b) = .obj m ∧ Kinds m ∧
        ∀ k, k ∉ restKeys → Obj.get m k = Obj.get m1 k := by
      cases b with
      | false => exact ⟨m1, rfl, h1, fun _ _ => rfl⟩
      | true =>
        unfold flatten
        simp only
        split
        · generalize hq : (if containsImmediate m1 = true then "unevaluatedProperties" else "additionalProperties") = q
          have hq' : q ∈ restKeys := by rw [← hq]; split <;> decide
          have hg : ∀ k, k ∉ restKeys → Obj.get (Obj.insert m1 q (.bool true)) k = Obj.get m1 k := by
            intro k hk
            exact Obj.get_insert_ne _ _ (by rintro rfl; exact hk hq')
          refine ⟨_, rfl, ⟨Obj.sorted_insert h1.sorted _ _, ?_, ?_, ?_⟩, hg⟩
          · intro k hk v hv
            rw [hg k ((by decide : ∀ k ∈ ["properties", "patternProperties"], k ∉ restKeys) k hk)] at hv
            exact h1.maps k hk v hv
          · intro k hk v hv
            rw [hg k ((by decide : ∀ k ∈ ["required", "allOf"], k ∉ restKeys) k hk)] at hv
            exact h1.lists k hk v hv
          · rw [hg _ (by decide)]; exact h1.noNullable
        · exact ⟨m1, rfl, h1, fun _ _ => rfl⟩
    obtain ⟨m, e, hk, hg⟩ := key
    refine ⟨m, e, hk, fun n => ?_, ?_⟩
    · unfold Declares
      constructor
      · rintro ⟨m', x, hm, hx⟩
        cases hm
        rw [hg _ (by decide)] at hx
        exact .inl ⟨m1, x, rfl, hx⟩
      · rintro (⟨m', x, hm, hx⟩ | ⟨m', x, hm, _⟩)
        · cases hm
          exact ⟨m, x, rfl, by rw [hg _ (by decide)]; exact hx⟩
        · cases hm
    · unfold requires
      simp only
      rw [hg _ (by decide), List.append_nil]

theorem kinds_insertProperty {m : List (String × Json)} (h : Kinds m) (key : String) (opt : Bool) (sub : Json) :
    ∃ m', insertObjectProperty (.obj m) key opt sub = .obj m' ∧ Kinds m' ∧
      (∀ n, Declares (.obj m') n ↔ Declares (.obj m) n ∨ n = key) ∧
      requires (.obj m') = requires (.obj m) ++ if opt then [] else [.str key] := by
  obtain ⟨p, hp, hps⟩ : ∃ p, PropsAre m p ∧ Obj.Sorted p := by
    cases e : Obj.get m "properties" with
    | none => exact ⟨[], .inl ⟨e, rfl⟩, .nil⟩
    | some v =>
      obtain ⟨p, rfl, hs⟩ := h.maps _ (by decide) _ e
      exact ⟨p, .inr e, hs⟩
  have hmp : members ((Obj.get m "properties").getD .null) = p := by
    have := hp.memb; unfold memb at this; rw [← this]; cases Obj.get m "properties" <;> rfl
  unfold insertObjectProperty Schema.ensureObject
  simp only
  rw [hp.insert]
  generalize hm1 : Obj.insert m "properties" (.obj (Obj.insert p key sub)) = m1
  have hg1 : ∀ k, k ≠ "properties" → Obj.get m1 k = Obj.get m k := by
    intro k hk; rw [← hm1]; exact Obj.get_insert_ne _ _ (Ne.symm hk)
  have hk1 : Kinds m1 := by
    refine ⟨by rw [← hm1]; exact Obj.sorted_insert h.sorted _ _, ?_, ?_, ?_⟩
    · intro k hk v hv
      by_cases e : k = "properties"
      · subst e
        rw [← hm1, Obj.get_insert_self] at hv
        cases hv
        exact ⟨_, rfl, Obj.sorted_insert hps _ _⟩
      · rw [hg1 k e] at hv; exact h.maps k hk v hv
    · intro k hk v hv
      rw [hg1 k (by rintro rfl; exact absurd hk (by decide))] at hv
      exact h.lists k hk v hv
    · rw [hg1 _ (by decide)]; exact h.noNullable
  have hd1 : ∀ {m2 : List (String × Json)}, Obj.get m2 "properties" = Obj.get m1 "properties" →
      ∀ n, Declares (.obj m2) n ↔ Declares (.obj m) n ∨ n = key := by
    intro m2 hm2 n
    have hmp1 : members ((Obj.get m2 "properties").getD .null) = Obj.insert p key sub := by
      rw [hm2, ← hm1, Obj.get_insert_self]; rfl
    unfold Declares
    constructor
    · rintro ⟨m', x, e, hx⟩
      cases e
      rw [hmp1] at hx
      by_cases hn : key = n
      · exact .inr hn.symm
      · rw [Obj.get_insert_ne _ _ hn] at hx
        exact .inl ⟨m, x, rfl, by rw [hmp]; exact hx⟩
    · rintro (⟨m', x, e, hx⟩ | rfl)
      · cases e
        rw [hmp] at hx
        by_cases hn : key = n
        · subst hn; exact ⟨m2, sub, rfl, by rw [hmp1, Obj.get_insert_self]⟩
        · exact ⟨m2, x, rfl, by rw [hmp1, Obj.get_insert_ne _ _ hn]; exact hx⟩
      · exact ⟨m2, sub, rfl, by rw [hmp1, Obj.get_insert_self]⟩
  cases opt with
  | true =>
    rw [if_pos rfl]
    refine ⟨m1, rfl, hk1, hd1 rfl, ?_⟩
    unfold requires
    simp only
    rw [hg1 _ (by decide)]; simp
  | false =>
    simp only [Bool.false_eq_true, if_false]
    have hr : ∃ l, Obj.entryOr m1 "required" (.arr []) (pushElem (.str key)) =
        Obj.insert m1 "required" (.arr (l ++ [.str key])) ∧ requires (.obj m) = l := by
      unfold Obj.entryOr requires
      simp only
      rw [hg1 _ (by decide)]
      cases e : Obj.get m "required" with
      | none => exact ⟨[], rfl, rfl⟩
      | some v =>
        obtain ⟨l, rfl⟩ := h.lists "required" (by decide) _ e
        exact ⟨l, rfl, rfl⟩
    obtain ⟨l, e1, e2⟩ := hr
    rw [e1]
    refine ⟨_, rfl, ?_, hd1 (Obj.get_insert_ne _ _ (by decide)), ?_⟩
    · refine ⟨Obj.sorted_insert hk1.sorted _ _, ?_, ?_, ?_⟩
      · intro k hk v hv
        rw [Obj.get_insert_ne _ _ (by rintro rfl; exact absurd hk (by decide))] at hv
        exact hk1.maps k hk v hv
      · intro k hk v hv
        by_cases e : "required" = k
        · subst e; rw [Obj.get_insert_self] at hv; cases hv; exact ⟨_, rfl⟩
        · rw [Obj.get_insert_ne _ _ e] at hv; exact hk1.lists k hk v hv
      · rw [Obj.get_insert_ne _ _ (by decide)]; exact hk1.noNullable
    · rw [e2]
      unfold requires
      simp only
      rw [Obj.get_insert_self]; rfl

theorem addFields_regular {I : TypeInfo τ} {cd : Bool} {c : Contract} (es : List (Field τ × Json))
    (hf : ∀ e ∈ es, e.1.flatten = true → Regular e.2) {m : List (String × Json)} (h : Kinds m) :
    ∃ m', es.foldl (addField I cd c) (.obj m) = .obj m' ∧ Kinds m' ∧
      (∀ n, Declares (.obj m') n ↔ Declares (.obj m) n ∨
        ∃ e ∈ es, if e.1.flatten then Declares e.2 n else e.1.name.get c = n) ∧
      requires (.obj m') = requires (.obj m) ++ es.flatMap fun e =>
        if e.1.flatten then requires e.2
        else if Mandatory I.isOption cd e.1 c then [.str (e.1.name.get c)] else [] := by
  induction es generalizing m with
  | nil => exact ⟨m, rfl, h, by simp, by simp⟩
  | cons e es ih =>
    have h1 : ∃ m1, addField I cd c (.obj m) e = .obj m1 ∧ Kinds m1 ∧
        (∀ n, Declares (.obj m1) n ↔ Declares (.obj m) n ∨
          if e.1.flatten then Declares e.2 n else e.1.name.get c = n) ∧
        requires (.obj m1) = requires (.obj m) ++ if e.1.flatten then requires e.2
          else if Mandatory I.isOption cd e.1 c then [.str (e.1.name.get c)] else [] := by
      unfold addField
      by_cases hfl : e.1.flatten = true
      · simp only [hfl, if_true]
        exact regular_flatten h (hf e (by simp) hfl)
      · simp only [hfl, if_false, Bool.false_eq_true]
        obtain ⟨m', e1, e2, e3, e4⟩ := kinds_insertProperty h (e.1.name.get c) (fieldOptional I cd e.1 c) e.2
        refine ⟨m', e1, e2, ?_, ?_⟩
        · intro n; rw [e3]; exact or_congr_right eq_comm
        · rw [e4, fieldOptional_eq]
          by_cases hm : Mandatory I.isOption cd e.1 c <;> simp [hm]
    obtain ⟨m1, e1, k1, d1, r1⟩ := h1
    rw [List.foldl_cons, e1]
    obtain ⟨m2, e2, k2, d2, r2⟩ := ih (fun x hx => hf x (by simp [hx])) k1
    refine ⟨m2, e2, k2, fun n => ?_, ?_⟩
    · rw [d2, d1]
      simp only [List.mem_cons, exists_eq_or_imp, or_assoc]
    · rw [r2, r1, List.append_assoc, List.flatMap_cons]

/-- C46 with flattened fields: these contribute the names that their schema declares and requires. -/
theorem C46_flatten {A : Answers τ} {I : TypeInfo τ} {cd deny : Bool} {fs : List (Field τ)} {r : Json}
    (h : Returns A (structProg I fs cd deny) r) :
    ∃ es : List (Field τ × Json), es.map Prod.fst = present fs A.settings.contract ∧
      (∀ e ∈ es, FieldResult A I cd e.1 e.2) ∧
      ((∀ e ∈ es, e.1.flatten = true → Regular e.2) →
        (∀ n, Declares r n ↔ ∃ e ∈ es, if e.1.flatten then Declares e.2 n
          else e.1.name.get A.settings.contract = n) ∧
        requires r = es.flatMap fun e => if e.1.flatten then requires e.2
          else if Mandatory I.isOption cd e.1 A.settings.contract then [.str (e.1.name.get A.settings.contract)]
          else []) := by
  unfold structProg at h
  obtain ⟨es, e1, e2, rfl⟩ := (returns_structFields fs).1 h
  refine ⟨es, e1, e2, fun hf => ?_⟩
  generalize hm : Obj.ofList (("type", Json.str "object") ::
    if deny then [("additionalProperties", .bool false)] else []) = m
  have hg : ∀ k, k ≠ "type" → k ≠ "additionalProperties" → Obj.get m k = none := by
    intro k h1 h2
    rw [← hm, get_ofList (by cases deny <;> simp [Obj.keys])]
    cases deny
    · rw [Obj.get_cons, if_neg (Ne.symm h1)]; rfl
    · rw [Obj.get_cons, if_neg (Ne.symm h1)]
      simp only [if_true]
      rw [Obj.get_cons, if_neg (Ne.symm h2)]; rfl
  have hk : Kinds m := by
    refine ⟨by rw [← hm]; exact Obj.sorted_ofList _, ?_, ?_, hg _ (by decide) (by decide)⟩
    · intro k hk v hv
      rw [hg k (by rintro rfl; exact absurd hk (by decide)) (by rintro rfl; exact absurd hk (by decide))] at hv
      cases hv
    · intro k hk v hv
      rw [hg k (by rintro rfl; exact absurd hk (by decide)) (by rintro rfl; exact absurd hk (by decide))] at hv
      cases hv
  obtain ⟨m', h1, _, h2, h3⟩ := addFields_regular (I := I) (cd := cd) (c := A.settings.contract) es hf hk
  have he : (mkObj (("type", Json.str "object") :: if deny then [("additionalProperties", .bool false)] else [])) =
      .obj m := by rw [← hm]; rfl
  rw [he, h1]
  constructor
  · intro n
    rw [h2]
    constructor
    · rintro (⟨m0, x, e, hx⟩ | h)
      · cases e
        rw [hg _ (by decide) (by decide)] at hx
        cases hx
      · exact h
    · exact .inr
  · rw [h3]
    unfold requires
    simp only
    rw [hg _ (by decide) (by decide)]; rfl

/-! ### Examples -/

/-- A struct with four fields: `a` is an `Option`, `b` has a default, `c` is only deserialized, and `d` is only
serialized, and not always. The type is `true` for an `Option`. -/
private def exampleFields : List (Field Bool) :=
  [{ name := ⟨"a", "A"⟩, ty := true }, { name := ⟨"b", "b"⟩, ty := false, hasDefault := true },
    { name := ⟨"c", "c"⟩, ty := false, skipSer := true },
    { name := ⟨"d", "d"⟩, ty := false, skipDe := true, skipSerIf := true }]

private def exampleInfo : TypeInfo Bool := ⟨false, id, id, id⟩

private def exampleAnswers (c : Contract) : Answers Bool where
  sub _ s := s = .bool true
  direct _ s := s = .bool true
  root _ s := s = .bool true
  settings := { Settings.draft2020 with contract := c }
  defs _ := True

example : Returns (exampleAnswers .serialize) (structProg exampleInfo exampleFields false true)
    (.obj [("additionalProperties", .bool false),
      ("properties", .obj [("a", .bool true), ("b", .bool true), ("d", .obj [("readOnly", .bool true)])]),
      ("required", .arr [.str "a", .str "b"]), ("type", .str "object")]) :=
  ⟨_, rfl, _, rfl, _, rfl, rfl⟩

example : Returns (exampleAnswers .deserialize) (structProg exampleInfo exampleFields false true)
    (.obj [("additionalProperties", .bool false),
      ("properties", .obj [("A", .bool true), ("b", .bool true), ("c", .obj [("writeOnly", .bool true)])]),
      ("required", .arr [.str "c"]), ("type", .str "object")]) :=
  ⟨_, rfl, _, rfl, _, rfl, rfl⟩

example : ∀ f ∈ exampleFields, NotSkipped f .serialize → f.flatten = false := by
  unfold exampleFields; simp

example : ((present exampleFields .serialize).map fun f => f.name.get .serialize).Nodup := by decide

end Verif
