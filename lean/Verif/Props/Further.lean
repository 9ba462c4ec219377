import Verif.Props.FlattenInner
import Verif.Props.Struct
import Verif.Props.Validation
import Verif.Props.Impls

/-!
# Further statements about derived schemas

Smaller statements that belong to C44, C47, C48, C51 and C53. Each is about a choice of the code that the main theorems
of the property leave open.
-/

open Verif.Spec

namespace Verif

variable {τ : Type}

/-! ## Newtype variants of internally tagged enums -/

theorem didModifyList_iff {l : List Json} : didModifyList l = true ↔ ∃ x ∈ l, didModify .one x = true := by
  induction l with
  | nil => simp [didModifyList]
  | cons a l ih => simp [didModifyList, ih]

theorem didModifyEntries_iff {m : List (String × Json)} :
    didModifyEntries m = true ↔ ∃ e ∈ m, didModify (immSlot e.1) e.2 = true := by
  induction m with
  | nil => simp [didModifyEntries]
  | cons a m ih => obtain ⟨k, v⟩ := a; simp [didModifyEntries, ih]

theorem didModify_schema {x : Json} (h : didModify .one x = true) : IsSchema x := by
  cases x with
  | obj m => exact .obj m
  | _ => simp [didModify] at h

theorem didModifyBelow_subs {s : Json} : didModifyBelow s = true ↔ ∃ x ∈ subs immSlot s, didModify .one x = true := by
  cases s with
  | obj m =>
    simp only [didModifyBelow, didModifyEntries_iff, subs, List.mem_flatMap]
    constructor
    · rintro ⟨e, he, h⟩
      rcases immSlot_cases e.1 with ⟨hk, e1⟩ | ⟨hk, e1⟩ | ⟨_, _, e1⟩ <;> rw [e1] at h
      · refine ⟨e.2, ⟨e, he, ?_⟩, h⟩
        rw [e1, slotSubs_one, if_pos (isSchema_iff.2 (didModify_schema h))]
        exact List.mem_singleton.2 rfl
      · cases hv : e.2 with
        | arr l =>
          rw [hv] at h
          simp only [didModify, didModifyList_iff] at h
          obtain ⟨x, hx, h⟩ := h
          refine ⟨x, ⟨e, he, ?_⟩, h⟩
          rw [e1, hv]
          exact List.mem_filter.2 ⟨hx, isSchema_iff.2 (didModify_schema h)⟩
        | _ => rw [hv] at h; simp [didModify] at h
      · cases hv : e.2 <;> rw [hv] at h <;> simp [didModify] at h
    · rintro ⟨x, ⟨e, he, hx⟩, h⟩
      refine ⟨e, he, ?_⟩
      rcases immSlot_cases e.1 with ⟨hk, e1⟩ | ⟨hk, e1⟩ | ⟨_, _, e1⟩ <;> rw [e1] at hx ⊢
      · rw [slotSubs_one] at hx
        split at hx
        · rw [← List.mem_singleton.1 hx]; exact h
        · cases hx
      · cases hv : e.2 with
        | arr l =>
          rw [hv] at hx
          simp only [didModify, didModifyList_iff]
          exact ⟨x, (List.mem_filter.1 hx).1, h⟩
        | _ => rw [hv] at hx; cases hx
      · cases hv : e.2 <;> rw [hv] at hx <;> cases hx
  | _ => simp [didModifyBelow, subs]

theorem not_noDenial {m : List (String × Json)} : ¬ NoDenial (.obj m) ↔
    (isFalseAt m "additionalProperties" || isFalseAt m "unevaluatedProperties") = true := by
  unfold NoDenial isFalseAt
  simp only [restKeys, List.mem_cons, List.not_mem_nil, or_false, forall_eq_or_imp, forall_eq, Json.obj.injEq,
    forall_eq', Bool.or_eq_true, beq_iff_eq]
  constructor
  · intro h
    by_cases h1 : Obj.get m "additionalProperties" = some (.bool false)
    · exact .inl h1
    · exact .inr (Classical.not_not.1 fun h2 => h ⟨h1, h2⟩)
  · rintro (h | h) ⟨h1, h2⟩
    · exact h1 h
    · exact h2 h

/-- `did_modify` is set exactly if some schema at an in-place position denies members. -/
theorem didModify_iff {s : Json} (hs : IsSchema s) : didModify .one s = true ↔ ¬ Everywhere inPlace NoDenial s := by
  suffices ∀ n s, sizeOf s < n → IsSchema s → (didModify .one s = true ↔ ¬ Everywhere inPlace NoDenial s) from
    this _ s (Nat.lt_succ_self _) hs
  intro n
  induction n with
  | zero => intro s h; omega
  | succ n ih =>
    intro s hn hs
    cases hs with
    | bool b =>
      refine iff_of_false (by simp [didModify]) (Classical.not_not.2 fun x hx => ?_)
      cases hx with
      | self => intro k _ m hm; cases hm
      | step hd _ => cases hd
    | obj m =>
      have e : didModify .one (.obj m) = (isFalseAt m "additionalProperties" ||
          isFalseAt m "unevaluatedProperties" || didModifyBelow (.obj m)) := by simp [didModify, didModifyBelow]
      rw [e, Bool.or_eq_true, ← not_noDenial, didModifyBelow_subs]
      constructor
      · rintro (h | ⟨x, hx, h⟩) hall
        · exact h (hall _ (.self _))
        · refine (ih x (by have := sizeOf_subs hx; omega) (subs_isSchema hx)).1 h fun y hy => ?_
          exact hall y (.step (mem_subs_imm.1 hx) hy)
      · intro h
        refine Classical.or_iff_not_imp_left.2 fun h1 => Classical.byContradiction fun h2 => h fun y hy => ?_
        cases hy with
        | self => exact Classical.not_not.1 h1
        | step hd hr =>
          have hx := mem_subs_imm.2 hd
          refine Classical.byContradiction fun h3 => h2 ⟨_, hx, ?_⟩
          exact (ih _ (by have := sizeOf_subs hx; omega) (subs_isSchema hx)).2 fun hall => h3 (hall _ hr)

/-- A schema below `s` at an in-place position denies members. -/
def Spec.DeniesBelow (s : Json) : Prop := ∃ x, DirectSub inPlace s x ∧ ¬ Everywhere inPlace NoDenial x

theorem didModifyBelow_iff {s : Json} : didModifyBelow s = true ↔ DeniesBelow s := by
  rw [didModifyBelow_subs]
  constructor
  · rintro ⟨x, hx, h⟩
    exact ⟨x, mem_subs_imm.1 hx, (didModify_iff (subs_isSchema hx)).1 h⟩
  · rintro ⟨x, hx, h⟩
    have hx := mem_subs_imm.2 hx
    exact ⟨x, hx, (didModify_iff (subs_isSchema hx)).2 h⟩

/-- C48: for a newtype variant of an internally tagged enum, a reference is used only if neither the schema of the type
nor a schema at an in-place position denies members (such as the tag) and the type is not `null`. Otherwise, its schema
is used in place, and only its top level may deny members. -/
theorem C48_newtype {A : Answers τ} {t : τ} {inl : Bool} {r : Json} (h : Returns A (internalNewtypeProg t inl .ret) r) :
    ∃ s, A.direct t s ∧
      ((r = tsub immSlot allowUnknown s ∧ ∀ x, DirectSub inPlace r x → Everywhere inPlace NoDenial x) ∨
        A.sub t r ∧ inl = false ∧ A.settings.inlineSubschemas = false ∧ Everywhere inPlace NoDenial s ∧
          Schema.get s "type" ≠ some (.str "null")) := by
  unfold internalNewtypeProg at h
  simp only [Returns] at h
  obtain ⟨s, hs, h⟩ := h
  refine ⟨s, hs, ?_⟩
  split at h
  · simp only [Returns] at h
    subst h
    refine .inl ⟨rfl, fun x hx => ?_⟩
    have hx := mem_subs_imm.2 hx
    rw [subs_tsub allowUnknown_preserves, List.mem_map] at hx
    obtain ⟨y, hy, rfl⟩ := hx
    exact C50_allow_unknown (subs_isSchema hy)
  · next hn =>
    obtain ⟨s2, h2, h3⟩ := h
    simp only [Returns] at h3
    subst h3
    unfold inlineNewtype at hn
    simp only [Bool.or_eq_true, not_or, Bool.not_eq_true, beq_eq_false_iff_ne] at hn
    obtain ⟨⟨⟨⟨⟨h1, h4⟩, h5⟩, h6⟩, h7⟩, h8⟩ := hn
    have h8 : ¬ DeniesBelow s := fun h => by rw [← didModifyBelow_iff, h8] at h; cases h
    have hg : ∀ k, immSlot k = .skip → Schema.get (tsub immSlot allowUnknown s) k = Schema.get s k := by
      intro k hk
      cases s with
      | obj m =>
        simp only [tsub, Schema.get]
        rw [Obj.get_map (f := fun k v => atSlot allowUnknown (immSlot k) v), hk]
        cases Obj.get m k with
        | none => rfl
        | some v => exact congrArg some (atSlot_skip v)
      | _ => rfl
    rw [hg _ rfl] at h5 h6 h7
    refine .inr ⟨h2, h1, h4, fun y hy => ?_, fun hn => h5 (by rw [hn]; rfl)⟩
    cases hy with
    | self =>
      intro k hk m hm hf
      subst hm
      simp only [restKeys, List.mem_cons, List.not_mem_nil, or_false] at hk
      simp only [Schema.get] at h6 h7
      rcases hk with rfl | rfl
      · exact h6 (by rw [hf]; rfl)
      · exact h7 (by rw [hf]; rfl)
    | step hd hr => exact Classical.byContradiction fun hne => h8 ⟨_, hd, fun hall => hne (hall _ hr)⟩

/-- A struct with a flattened part that denies members: the schema is used in place. -/
example {A : Answers Unit} (h : A.direct () (.obj [("allOf", .arr [.obj [("additionalProperties", .bool false)]])])) :
    Returns A (internalNewtypeProg () false .ret) (.obj [("allOf", .arr [.obj []])]) := by
  refine ⟨_, h, ?_⟩
  have e : ∀ b, inlineNewtype false b (.obj [("allOf", .arr [.obj [("additionalProperties", .bool false)]])])
    (.obj [("allOf", .arr [.obj []])]) = true := by decide
  show Returns A (if inlineNewtype false A.settings.inlineSubschemas _ (.obj [("allOf", .arr [.obj []])]) then _ else _) _
  rw [e]
  rfl

/-! ## Enums with `JsonSchema_repr` -/

section
variable {D : Dialect} {env : Env} {i : Json}

/-- C48 for `JsonSchema_repr`: exactly the discriminants are accepted. -/
theorem C48_repr (values : List Int) : Valid D env (reprSchema values) i ↔ ∃ n ∈ values, IsInt i n := by
  unfold reprSchema
  rw [valid_mkObj (by simp [Obj.keys]) (.inr rfl)]
  simp only [List.mem_cons, List.not_mem_nil, or_false, forall_eq_or_imp, forall_eq]
  rw [entryOk_type rfl, typeMatch_integer, entryOk_simple (by decide)]
  have hj : ∀ n : Int, jeq (.num (.int n)) i = true ↔ IsInt i n := by
    intro n
    cases i with
    | num x =>
      simp only [jeq, canon, beq_iff_eq, Json.num.injEq, JNum.flt.injEq, IsInt, exists_eq_left']
      exact eq_comm
    | _ => simp [jeq, canon, IsInt]
  have he : simple env "enum" (.arr (values.map fun v => .num (.int v))) i = true ↔ ∃ n ∈ values, IsInt i n := by
    simp only [simple, List.any_map, List.any_eq_true, Function.comp_apply, hj]
  rw [he]
  constructor
  · exact fun h => h.2
  · rintro ⟨n, hn, h⟩
    obtain ⟨x, rfl, hx⟩ := h
    exact ⟨⟨x, n, rfl, hx⟩, n, hn, x, rfl, hx⟩

/-- The schema also names the type, so that its readers need not look at the values. -/
theorem C48_repr_type (values : List Int) : Schema.get (reprSchema values) "type" = some (.str "integer") := by
  unfold reprSchema mkObj Schema.get
  simp only
  rw [get_ofList (by simp [Obj.keys])]
  rfl

example : Valid D env (reprSchema [0, 7]) (.num (.int 7)) := (C48_repr _).2 ⟨7, by simp, _, rfl, rfl⟩
example : ¬ Valid D env (reprSchema [0, 7]) (.num (.int 1)) := by
  rw [C48_repr]
  rintro ⟨n, hn, x, hx, hy⟩
  cases hx
  have : (1 : Int) = n := Rat.intCast_inj.1 hy
  subst this
  simp at hn

/-! ## Decimals -/

/-- C44: on deserialization, decimals are strings with the pattern, or any numbers. -/
theorem C44_decimal : Valid D env (decimalSchema .deserialize) i ↔
    (∃ x, i = .num x) ∨ ∃ t, i = .str t ∧ env.rx "^-?\\d+(\\.\\d+)?([eE]\\d+)?$" t = true := by
  unfold decimalSchema
  simp only
  rw [valid_mkObj (by simp [Obj.keys]) (.inr rfl)]
  simp only [List.mem_cons, List.not_mem_nil, or_false, forall_eq_or_imp, forall_eq]
  rw [entryOk_type rfl, entryOk_simple (by decide)]
  cases i <;> simp [typeMatch, typeMember, typeName, simple]

end

/-! ## Standard types with a definition of their own -/

/-- C44: exactly these standard types get a definition of their own; a schema that refers to any other one has its
schema in place. -/
theorem C44_named (x : Std τ) : stdInline x = false ↔
    (∃ t e, x = .result t e) ∨ (∃ t, x = .bound t) ∨ (∃ t, x = .range t) ∨ x = .duration ∨ x = .systemTime ∨
      x = .osString ∨ x = .cString ∨ ∃ t, x = .bytes t := by
  cases x <;> simp [stdInline]

/-! ## Defaults -/

/-- C47: a property has the default value of the field as `default` exactly if there is one, the field is serialized, and
the value can be. Other keywords are as they were. -/
theorem C47_default (cd : Bool) (f : Field τ) {m : List (String × Json)} (hm : Obj.get m "default" = none) :
    Schema.get (insertDefault cd f (.obj m)) "default" =
      (if f.skipSer = false ∧ (f.hasDefault = true ∨ cd = true) then f.defaultValue else none) ∧
    ∀ k, k ≠ "default" → Schema.get (insertDefault cd f (.obj m)) k = Obj.get m k := by
  unfold insertDefault
  by_cases h : f.skipSer = false ∧ (f.hasDefault = true ∨ cd = true)
  · rw [if_pos h, if_neg (by obtain ⟨h1, h2⟩ := h; rw [h1]; rcases h2 with h2 | h2 <;> simp [h2])]
    cases hd : f.defaultValue with
    | none => exact ⟨hm, fun k _ => rfl⟩
    | some d => exact ⟨Obj.get_insert_self _ _ _, fun k hk => Obj.get_insert_ne _ _ hk.symm⟩
  · rw [if_neg h, if_pos]
    · exact ⟨hm, fun k _ => rfl⟩
    · cases h1 : f.skipSer <;> cases h2 : f.hasDefault <;> cases h3 : cd <;> simp_all

example : Schema.get (insertDefault false { name := ⟨"a", "a"⟩, ty := (), hasDefault := true, defaultValue := some .null }
    (.obj [("type", .str "null")])) "default" = some .null := (C47_default _ _ rfl).1

/-! ## Titles and formats -/

theorem run_metadata (x : Option String) (k : String) (m : List (String × Json)) :
    ∃ m', runMutators (x.elim [] fun t => [fun s => insertMetadataIfNonempty s k t]) (.obj m) = .obj m' ∧
      (Obj.get m k = none → Obj.get m' k = (x.filter (· ≠ "")).map .str) ∧ ∀ q, q ≠ k → Obj.get m' q = Obj.get m q := by
  cases x with
  | none => exact ⟨m, rfl, fun h => h, fun _ _ => rfl⟩
  | some t =>
    by_cases ht : t = ""
    · refine ⟨m, by simp [runMutators, insertMetadataIfNonempty, ht], fun h => by simp [ht, h], fun _ _ => rfl⟩
    · refine ⟨Obj.insert m k (.str t), by simp [runMutators, insertMetadataIfNonempty, ht]; rfl, fun _ => ?_, fun q hq => ?_⟩
      · simp [Obj.get_insert_self, ht]
      · exact Obj.get_insert_ne _ _ hq.symm

theorem run_put (b : Bool) (k : String) (v : Json) (m : List (String × Json)) :
    ∃ m', runMutators (if b then [fun s => Schema.put s k v] else []) (.obj m) = .obj m' ∧
      ∀ q, q ≠ k → Obj.get m' q = Obj.get m q := by
  cases b with
  | false => exact ⟨m, rfl, fun _ _ => rfl⟩
  | true => exact ⟨Obj.insert m k v, rfl, fun q hq => Obj.get_insert_ne _ _ hq.symm⟩

/-- C53: the `title` attribute replaces the title from the doc comment, `description` the description, each without
regard to the other. -/
theorem C53_attributes (a : CommonAttrs) (h : a.transforms = [] ∧ a.extensions = []) {m : List (String × Json)}
    (hm : Obj.get m "title" = none ∧ Obj.get m "description" = none) :
    ∃ m', runMutators a.mutators (.obj m) = .obj m' ∧
      Obj.get m' "title" = (((a.title.or (a.doc.map fun d => (CommonAttrs.splitDoc d).1)).filter (· ≠ "")).map .str) ∧
      Obj.get m' "description" = (((a.description.or (a.doc.map fun d => (CommonAttrs.splitDoc d).2)).filter (· ≠ "")).map .str) := by
  unfold CommonAttrs.mutators
  rw [h.1, h.2]
  simp only [List.map_nil, List.append_nil, runMutators_append]
  obtain ⟨m1, e1, h1, k1⟩ := run_metadata a.effectiveTitle "title" m
  obtain ⟨m2, e2, h2, k2⟩ := run_metadata a.effectiveDescription "description" m1
  obtain ⟨m3, e3, k3⟩ := run_put a.deprecated "deprecated" (.bool true) m2
  obtain ⟨m4, e4, k4⟩ := run_put (!a.examples.isEmpty) "examples" (.arr (a.examples.filterMap id)) m3
  refine ⟨m4, ?_, ?_, ?_⟩
  · rw [e1, e2, e3, ← e4]
    cases a.examples.isEmpty <;> rfl
  · rw [k4 _ (by decide), k3 _ (by decide), k2 _ (by decide), h1 hm.1]
    rfl
  · rw [k4 _ (by decide), k3 _ (by decide), h2 (by rw [k1 _ (by decide)]; exact hm.2)]
    rfl

example : ∃ m', runMutators (CommonAttrs.mutators { title := some "A", doc := some "# B\nC" }) (.obj []) = .obj m' ∧
    Obj.get m' "title" = some (.str "A") := by
  obtain ⟨m', h1, h2, -⟩ := C53_attributes { title := some "A", doc := some "# B\nC" } ⟨rfl, rfl⟩ (m := []) ⟨rfl, rfl⟩
  exact ⟨m', h1, h2⟩

/-- The name of each format, as `format = …` on a field is documented. -/
def Spec.formatNames : List (AttrFormat × String) :=
  [(.email, "email"), (.uri, "uri"), (.ip, "ip"), (.ipv4, "ipv4"), (.ipv6, "ipv6")]

/-- C51: the `format` attributes set `format` to their name, whatever the type of the schema is, and nothing else. -/
theorem C51_format {f : AttrFormat} {name : String} (h : (f, name) ∈ formatNames) (m : List (String × Json)) :
    runMutators (ValidationAttrs.mk none none none none none (some f) none).mutators (.obj m) =
      .obj (Obj.insert m "format" (.str name)) := by
  simp only [formatNames, List.mem_cons, List.not_mem_nil, or_false, Prod.mk.injEq] at h
  rcases h with ⟨rfl, rfl⟩ | ⟨rfl, rfl⟩ | ⟨rfl, rfl⟩ | ⟨rfl, rfl⟩ | ⟨rfl, rfl⟩ <;> rfl

/-- There are no other formats. -/
theorem formatNames_all (f : AttrFormat) : ∃ name, (f, name) ∈ formatNames := by
  cases f <;> simp [formatNames]

end Verif
