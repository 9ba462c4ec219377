import Verif.Props.Struct

/-!
# C48: derived enums
-/

namespace Verif
open Spec

variable {τ : Type}

/-! ### Alternatives -/

section
variable {D : Dialect} {env : Env} {i : Json}

theorem countP_one_of_pairwise {α : Type} {p : α → Bool} {l : List α}
    (h : l.Pairwise fun a b => ¬ (p a = true ∧ p b = true)) : l.countP p = 1 ↔ ∃ a ∈ l, p a = true := by
  induction l with
  | nil => simp
  | cons a l ih =>
    rw [List.pairwise_cons] at h
    rw [List.countP_cons]
    by_cases ha : p a = true
    · have : l.countP p = 0 := List.countP_eq_zero.2 fun b hb hpb => h.1 b hb ⟨ha, hpb⟩
      rw [if_pos ha, this]
      simp [ha]
    · rw [if_neg ha, Nat.add_zero, ih h.2]
      simp [ha]

/-- `oneOf` with alternatives that exclude each other. -/
theorem valid_oneOf_exclusive {l : List Json} (h : l.Pairwise fun a b => ¬ (Valid D env a i ∧ Valid D env b i)) :
    Valid D env (.obj [("oneOf", .arr l)]) i ↔ ∃ s ∈ l, Valid D env s i := by
  rw [valid_single (by decide)]
  exact countP_one_of_pairwise h

theorem valid_anyOf_iff {l : List Json} :
    Valid D env (.obj [("anyOf", .arr l)]) i ↔ ∃ s ∈ l, Valid D env s i := by
  rw [valid_single (by decide)]; rfl

end

namespace Spec

/-- The variant is not skipped under the contract. -/
def VariantPresent (v : Variant τ) : Contract → Prop
  | .serialize => v.skipSer = false
  | .deserialize => v.skipDe = false

instance (v : Variant τ) (c : Contract) : Decidable (VariantPresent v c) := by
  cases c <;> unfold VariantPresent <;> infer_instance

/-- The variants that are not skipped under the contract. -/
def presentVariants (vs : List (Variant τ)) (c : Contract) : List (Variant τ) :=
  vs.filter fun v => decide (VariantPresent v c)

end Spec

theorem variant_included_iff (v : Variant τ) (c : Contract) : v.included c = true ↔ VariantPresent v c := by
  unfold Variant.included contractCheck VariantPresent
  cases v.skipDe <;> cases v.skipSer <;> cases c <;> simp

theorem variant_included_eq (v : Variant τ) (c : Contract) : v.included c = decide (VariantPresent v c) := by
  by_cases h : VariantPresent v c
  · simp [h, variant_included_iff]
  · simp only [h, decide_false]
    have : ¬ v.included c = true := fun hc => h ((variant_included_iff v c).1 hc)
    simpa using this

theorem forall₂_pairs {α : Type} {P : α → Json → Prop} {l : List α} {ss : List Json} (h : List.Forall₂ P l ss) :
    ∃ es : List (α × Json), es.map Prod.fst = l ∧ es.map Prod.snd = ss ∧ ∀ e ∈ es, P e.1 e.2 := by
  induction h with
  | nil => exact ⟨[], rfl, rfl, by simp⟩
  | @cons a s l ss h1 _ ih =>
    obtain ⟨es, e1, e2, e3⟩ := ih
    refine ⟨(a, s) :: es, by simp [e1], by simp [e2], ?_⟩
    intro e he
    rcases List.mem_cons.1 he with rfl | he
    · exact h1
    · exact e3 e he

/-- The result for the variants of an enum. -/
theorem returns_variants {A : Answers τ} {unique : Bool} {first : Option (Prog τ)} {vs : List (Variant τ)}
    {f : Variant τ → Prog τ} {r : Json} (hr : ∀ v ∈ vs, v.refTy = none)
    (h : Returns A (variantSubschemas unique first (vs.map fun v => (v, f v))) r) :
    ∃ (l : List Json) (es : List (Variant τ × Json)),
      ((first = none ∧ l = []) ∨ ∃ p s, first = some p ∧ Returns A p s ∧ l = [s]) ∧
      es.map Prod.fst = presentVariants vs A.settings.contract ∧ (∀ e ∈ es, Returns A (f e.1) e.2) ∧
      r = .obj [(if unique && !vs.any (·.untagged) then "oneOf" else "anyOf", .arr (l ++ es.map Prod.snd))] := by
  unfold variantSubschemas at h
  obtain ⟨rs, h1, h2⟩ := (res_collect _ _ _).1 h
  rw [List.filter_append] at h1
  have key : ∀ {rs}, List.Forall₂ (fun (e : (Contract → Bool) × Prog τ) s => Returns A e.2 s)
      (((vs.map fun v => (v, f v)).map fun e => (e.1.included, e.1.refTy.elim e.2 fun t => .sub t .ret)).filter
        fun e => e.1 A.settings.contract) rs →
      ∃ es : List (Variant τ × Json), es.map Prod.fst = presentVariants vs A.settings.contract ∧
        es.map Prod.snd = rs ∧ ∀ e ∈ es, Returns A (f e.1) e.2 := by
    intro rs hrs
    have e1 : (((vs.map fun v => (v, f v)).map fun e => (e.1.included, e.1.refTy.elim e.2 fun t => .sub t .ret)).filter
        fun e => e.1 A.settings.contract) =
        (presentVariants vs A.settings.contract).map fun v => (v.included, f v) := by
      rw [List.map_map, List.filter_map]
      unfold presentVariants
      have : (vs.filter ((fun e : (Contract → Bool) × Prog τ => e.1 A.settings.contract) ∘
          ((fun e : Variant τ × Prog τ => (e.1.included, e.1.refTy.elim e.2 fun t => .sub t .ret)) ∘
            fun v => (v, f v)))) = vs.filter fun v => decide (VariantPresent v A.settings.contract) := by
        refine List.filter_congr fun v _ => ?_
        exact variant_included_eq v _
      rw [this]
      refine List.map_congr_left fun v hv => ?_
      simp only [Function.comp]
      rw [hr v (List.mem_filter.1 hv).1]; rfl
    rw [e1, List.forall₂_map_left_iff] at hrs
    obtain ⟨es, h1, h2, h3⟩ := forall₂_pairs hrs
    exact ⟨es, h1, h2, h3⟩
  have hkey : (unique && !(vs.map fun v => (v, f v)).any fun e => e.1.untagged) =
      (unique && !vs.any (·.untagged)) := by
    rw [List.any_map]; rfl
  simp only [Returns] at h2
  rw [hkey] at h2
  cases first with
  | none =>
    obtain ⟨es, e1, e2, e3⟩ := key h1
    exact ⟨[], es, .inl ⟨rfl, rfl⟩, e1, e3, by rw [h2, ← e2]; rfl⟩
  | some p =>
    simp only [Option.elim_some, List.filter_cons, List.filter_nil, if_true] at h1
    cases h1 with
    | cons hs h1 =>
      obtain ⟨es, e1, e2, e3⟩ := key h1
      exact ⟨[_], es, .inr ⟨p, _, rfl, hs, rfl⟩, e1, e3, by rw [h2, ← e2]; rfl⟩

/-! ### External tags -/

namespace Spec

/-- What the schema of a variant with this content accepts in an externally tagged enum: the name of the
variant, or an object with the name as its only member. -/
def ExternalEnc (D : Dialect) (env : Env) (name : String) (content : Option Json) (i : Json) : Prop :=
  match content with
  | none => i = .str name
  | some s => ∃ x, i = .obj [(name, x)] ∧ Valid D env s x

/-- What the schema of a variant accepts in an adjacently tagged enum: an object with the name of the variant as
the tag, and the content as another member. -/
def AdjacentEnc (D : Dialect) (env : Env) (tag contentKey : String) (deny : Bool) (name : String)
    (content : Option Json) (i : Json) : Prop :=
  ∃ o, i = .obj o ∧ Obj.get o tag = some (.str name) ∧
    match content with
    | none => deny = true → ∀ e ∈ o, e.1 = tag
    | some s => (∃ x, Obj.get o contentKey = some x ∧ Valid D env s x) ∧
        (deny = true → ∀ e ∈ o, e.1 = tag ∨ e.1 = contentKey)

end Spec

/-- The schema of what the variant holds; a unit variant holds nothing. -/
def Content (A : Answers τ) (I : TypeInfo τ) (deny : Bool) (v : Variant τ) (content : Option Json) : Prop :=
  if v.isUnit && v.withTy.isNone then content = none
  else ∃ s, Returns A (untaggedVariantProg I v deny false) s ∧ content = some s

section
variable {D : Dialect} {env : Env} {i : Json}

theorem valid_tagSchema {n : String} : Valid D env (tagSchema n) i ↔ i = .str n := by
  unfold tagSchema
  rw [valid_mkObj (by simp [Obj.keys]) (.inr rfl)]
  simp only [List.mem_cons, List.not_mem_nil, or_false, forall_eq_or_imp, forall_eq]
  rw [entryOk_type rfl, typeMatch_string, entryOk_simple (by decide)]
  constructor
  · rintro ⟨⟨x, rfl⟩, h⟩
    simp only [simple, jeq, canon, beq_iff_eq, Json.str.injEq] at h
    rw [h]
  · rintro rfl
    exact ⟨⟨n, rfl⟩, by simp [simple, jeq, canon]⟩

theorem valid_unitVariants {names : List String} :
    Valid D env (unitVariantsSchema names) i ↔ ∃ n ∈ names, i = .str n := by
  unfold unitVariantsSchema
  rw [valid_mkObj (by simp [Obj.keys]) (.inr rfl)]
  simp only [List.mem_cons, List.not_mem_nil, or_false, forall_eq_or_imp, forall_eq]
  rw [entryOk_type rfl, typeMatch_string, entryOk_simple (by decide)]
  constructor
  · rintro ⟨⟨n, rfl⟩, h⟩
    refine ⟨n, ?_, rfl⟩
    simpa [simple, jeq, canon] using h
  · rintro ⟨n, hn, rfl⟩
    exact ⟨⟨n, rfl⟩, by simpa [simple, jeq, canon] using hn⟩

theorem sch_mkObj (l : List (String × Json)) : Sch (mkObj l) := .obj (Obj.sorted_ofList l)

theorem shape_external (n : String) (s : Json) :
    ∃ m, newExternalVariant n s = .obj m ∧ Shape m [(n, s)] [n] true := by
  refine ⟨_, rfl, shape_mkObj (by simp [Obj.keys]) rfl (.inr rfl) (.inr rfl) rfl ?_⟩
  simp

theorem valid_external {n : String} {s : Json} (hi : i.WF) :
    Valid D env (newExternalVariant n s) i ↔ ∃ x, i = .obj [(n, x)] ∧ Valid D env s x := by
  obtain ⟨m, e, hs⟩ := shape_external n s
  rw [e, hs.valid]
  unfold Conforms
  constructor
  · rintro ⟨o, rfl, h1, h2, h3⟩
    obtain ⟨x, hx⟩ := h1 n (by simp)
    have hsort : Obj.Sorted o := by cases hi; assumption
    have hall : ∀ e ∈ o, e.1 = n := by
      intro e he
      obtain ⟨t, ht⟩ := h3 rfl e he
      by_contra hne
      rw [Obj.get_cons, if_neg (fun h => hne h.symm)] at ht
      cases ht
    have hv : Valid D env s x := h2 (n, x) (Obj.get_mem hx) s (by rw [Obj.get_cons, if_pos rfl])
    refine ⟨x, ?_, hv⟩
    congr 1
    refine Obj.ext_sorted hsort (List.pairwise_singleton _ _) fun k => ?_
    by_cases hk : n = k
    · subst hk; rw [hx, Obj.get_cons, if_pos rfl]
    · rw [Obj.get_cons, if_neg hk]
      show _ = none
      rw [Obj.get_eq_none]
      intro hc
      obtain ⟨e, he, rfl⟩ := List.mem_map.1 hc
      exact hk (hall e he).symm
  · rintro ⟨x, rfl, hv⟩
    refine ⟨_, rfl, ?_, ?_, ?_⟩
    · intro k hk
      simp only [List.mem_singleton] at hk
      subst hk; exact ⟨x, by rw [Obj.get_cons, if_pos rfl]⟩
    · intro e he t ht
      simp only [List.mem_singleton] at he
      subst he
      rw [Obj.get_cons, if_pos rfl] at ht
      cases ht; exact hv
    · intro _ e he
      simp only [List.mem_singleton] at he
      subst he; exact ⟨s, by rw [Obj.get_cons, if_pos rfl]⟩

/-- One variant that is not listed by name. -/
theorem external_variant {A : Answers τ} {I : TypeInfo τ} {deny : Bool} {v : Variant τ} {s : Json}
    (hu : v.untagged = false) (hc : Harmless v.common) (h : Returns A (externalVariantProg I v deny) s) :
    ∃ content, Content A I deny v content ∧
      ∀ i, i.WF → (Valid D env s i ↔ ExternalEnc D env (v.name.get A.settings.contract) content i) := by
  unfold externalVariantProg at h
  rw [hu] at h
  simp only [Bool.false_eq_true, if_false] at h
  unfold Content
  by_cases hunit : (v.isUnit && v.withTy.isNone) = true
  · rw [if_pos hunit] at h
    simp only [hunit, if_true]
    simp only [Returns] at h
    subst h
    refine ⟨none, rfl, fun i _ => ?_⟩
    rw [runMutators_valid hc.annotates (show Sch (newUnitVariant _) from sch_mkObj _)]
    exact valid_tagSchema
  · rw [if_neg hunit] at h
    simp only [hunit, if_false, Bool.false_eq_true]
    simp only [Returns] at h
    obtain ⟨sub, h1, rfl⟩ := res_map.1 h
    refine ⟨some sub, ⟨sub, h1, rfl⟩, fun i hi => ?_⟩
    rw [runMutators_valid hc.annotates (show Sch (newExternalVariant _ _) from sch_mkObj _)]
    exact valid_external hi

/-- Different names exclude each other. -/
theorem externalEnc_name {n n' : String} {c c' : Option Json} (h : ExternalEnc D env n c i)
    (h' : ExternalEnc D env n' c' i) : n = n' := by
  cases c with
  | none =>
    cases h
    cases c' with
    | none => cases h'; rfl
    | some _ => obtain ⟨x, h', _⟩ := h'; cases h'
  | some s =>
    obtain ⟨x, rfl, _⟩ := h
    cases c' with
    | none => cases h'
    | some _ => obtain ⟨x', h', _⟩ := h'; cases h'; rfl

/-- Choice for the elements of a list. -/
theorem list_choice {α β : Type} {P : α → β → Prop} {l : List α} (h : ∀ a ∈ l, ∃ b, P a b) :
    ∃ l' : List (α × β), l'.map Prod.fst = l ∧ ∀ e ∈ l', P e.1 e.2 := by
  induction l with
  | nil => exact ⟨[], rfl, by simp⟩
  | cons a l ih =>
    obtain ⟨b, hb⟩ := h a (by simp)
    obtain ⟨l', h1, h2⟩ := ih fun x hx => h x (by simp [hx])
    refine ⟨(a, b) :: l', by simp [h1], ?_⟩
    intro e he
    rcases List.mem_cons.1 he with rfl | he
    · exact hb
    · exact h2 e he

/-- Alternatives that are told apart by a name. -/
theorem pairwise_of_names {α : Type} {l : List α} {P : α → Prop} {name : α → String} (hn : (l.map name).Nodup)
    (hx : ∀ a ∈ l, ∀ b ∈ l, P a → P b → name a = name b) : l.Pairwise fun a b => ¬ (P a ∧ P b) := by
  have h1 : l.Pairwise fun a b => name a ≠ name b := List.pairwise_map.1 hn
  refine List.Pairwise.imp_of_mem ?_ h1
  intro a b ha hb hne hab
  exact hne (hx a ha b hb hab.1 hab.2)

theorem nodup_names_eq {α : Type} {l : List α} {name : α → String} (hn : (l.map name).Nodup) {a b : α}
    (ha : a ∈ l) (hb : b ∈ l) (h : name a = name b) : a = b := by
  induction l with
  | nil => cases ha
  | cons c l ih =>
    rw [List.map_cons, List.nodup_cons] at hn
    rcases List.mem_cons.1 ha with ha | ha <;> rcases List.mem_cons.1 hb with hb | hb
    · rw [ha, hb]
    · exact absurd (List.mem_map.2 ⟨b, hb, by rw [← h, ha]⟩) hn.1
    · exact absurd (List.mem_map.2 ⟨a, ha, by rw [h, hb]⟩) hn.1
    · exact ih hn.2 ha hb

/-- C48, external tags: an instance is accepted iff it is the encoding of a variant, and it is not the encoding
of two. -/
theorem C48_external {A : Answers τ} {I : TypeInfo τ} {deny : Bool} {vs : List (Variant τ)} {r : Json}
    (hu : ∀ v ∈ vs, v.untagged = false) (hr : ∀ v ∈ vs, v.refTy = none) (hc : ∀ v ∈ vs, Harmless v.common)
    (hn : ((presentVariants vs A.settings.contract).map fun v => v.name.get A.settings.contract).Nodup)
    (h : Returns A (enumProg I .external vs deny) r) :
    ∃ es : List (Variant τ × Option Json), (es.map Prod.fst).Perm (presentVariants vs A.settings.contract) ∧
      (∀ e ∈ es, Content A I deny e.1 e.2) ∧
      (∀ i, i.WF → (Valid D env r i ↔ ∃ e ∈ es, ExternalEnc D env (e.1.name.get A.settings.contract) e.2 i)) ∧
      ∀ i, ∀ e ∈ es, ∀ e' ∈ es, ExternalEnc D env (e.1.name.get A.settings.contract) e.2 i →
        ExternalEnc D env (e'.1.name.get A.settings.contract) e'.2 i → e = e' := by
  have hexcl : ∀ es : List (Variant τ × Option Json), (es.map Prod.fst).Perm (presentVariants vs A.settings.contract) →
      ∀ i, ∀ e ∈ es, ∀ e' ∈ es, ExternalEnc D env (e.1.name.get A.settings.contract) e.2 i →
        ExternalEnc D env (e'.1.name.get A.settings.contract) e'.2 i → e = e' := by
    intro es hp i e he e' he' h1 h2
    refine nodup_names_eq (name := fun e : Variant τ × Option Json => e.1.name.get A.settings.contract) ?_ he he'
      (externalEnc_name h1 h2)
    have := (hp.map fun v => v.name.get A.settings.contract).nodup_iff.2 hn
    rwa [List.map_map] at this
  have hlisted : ∀ v : Variant τ, v.listed = true → Content A I deny v none := by
    intro v hv
    unfold Variant.listed at hv
    unfold Content
    simp only [Bool.and_eq_true] at hv
    rw [if_pos (by simp [hv.1.1.1, hv.1.1.2.2])]
  unfold enumProg at h
  by_cases he : vs.isEmpty = true
  · rw [if_pos he] at h
    have : vs = [] := List.isEmpty_iff.1 he
    subst this
    cases h
    refine ⟨[], .nil, by simp, fun i _ => ?_, by simp⟩
    constructor
    · intro hv; cases hv
    · rintro ⟨e, he, _⟩; cases he
  rw [if_neg he] at h
  simp only at h
  unfold externalEnumProg at h
  simp only at h
  -- the listed variants
  generalize hU : presentVariants (vs.filter Variant.listed) A.settings.contract = U at *
  have hUl : ∀ v ∈ U, v.listed = true := by
    intro v hv
    rw [← hU] at hv
    unfold presentVariants at hv
    exact (List.mem_filter.1 (List.mem_filter.1 hv).1).2
  have hunits : ∀ s, Returns A (unitVariantsProg (vs.filter Variant.listed)) s → ∀ i,
      (Valid D env s i ↔ ∃ e ∈ U.map fun v => (v, (none : Option Json)),
        ExternalEnc D env (e.1.name.get A.settings.contract) e.2 i) := by
    intro s hs i
    unfold unitVariantsProg at hs
    simp only [Returns] at hs
    rw [hs, valid_unitVariants]
    have : (vs.filter Variant.listed).filter (fun v => v.included A.settings.contract) = U := by
      rw [← hU]; unfold presentVariants
      exact List.filter_congr fun v _ => variant_included_eq v _
    rw [this]
    simp only [List.mem_map]
    constructor
    · rintro ⟨n, ⟨v, hv, rfl⟩, rfl⟩; exact ⟨_, ⟨v, hv, rfl⟩, rfl⟩
    · rintro ⟨_, ⟨v, hv, rfl⟩, h⟩; exact ⟨_, ⟨v, hv, rfl⟩, h⟩
  have hsplit : (U ++ presentVariants (vs.filter fun v => !v.listed) A.settings.contract).Perm
      (presentVariants vs A.settings.contract) := by
    rw [← hU]
    unfold presentVariants
    rw [← List.filter_append]
    exact (List.filter_append_perm _ vs).filter _
  by_cases hx : (vs.filter fun v => !v.listed).isEmpty = true
  · rw [if_pos hx] at h
    rw [List.isEmpty_iff.1 hx] at hsplit
    have hp : ((U.map fun v => (v, (none : Option Json))).map Prod.fst).Perm
        (presentVariants vs A.settings.contract) := by
      rw [List.map_map]
      simpa [presentVariants, Function.comp_def] using hsplit
    refine ⟨U.map fun v => (v, none), hp, ?_, fun i _ => hunits r h i, hexcl _ hp⟩
    intro e he
    obtain ⟨v, hv, rfl⟩ := List.mem_map.1 he
    exact hlisted v (hUl v hv)
  rw [if_neg hx] at h
  have hsub : ∀ v ∈ vs.filter (fun v => !v.listed), v ∈ vs := fun v hv => (List.mem_filter.1 hv).1
  obtain ⟨l, es, hl, e1, e2, rfl⟩ := returns_variants (fun v hv => hr v (hsub v hv)) h
  have hany : (vs.filter fun v => !v.listed).any (·.untagged) = false := by
    rw [List.any_eq_false]
    intro v hv; rw [hu v (hsub v hv)]; simp
  have hes : ∀ e ∈ es, e.1 ∈ vs := by
    intro e he
    have : e.1 ∈ presentVariants (vs.filter fun v => !v.listed) A.settings.contract := by
      rw [← e1]; exact List.mem_map_of_mem he
    exact hsub _ (List.mem_filter.1 this).1
  obtain ⟨es', e3, e4⟩ := list_choice (fun e he =>
    external_variant (D := D) (env := env) (hu e.1 (hes e he)) (hc e.1 (hes e he)) (e2 e he))
  have hfst : es'.map (fun x => x.1.1) = presentVariants (vs.filter fun v => !v.listed) A.settings.contract := by
    rw [← e1, ← e3, List.map_map]; rfl
  have hp : (((U.map fun v => (v, (none : Option Json))) ++ es'.map fun x => (x.1.1, x.2)).map Prod.fst).Perm
      (presentVariants vs A.settings.contract) := by
    rw [List.map_append, List.map_map, List.map_map]
    have : es'.map (Prod.fst ∘ fun x => (x.1.1, x.2)) =
        presentVariants (vs.filter fun v => !v.listed) A.settings.contract := hfst
    rw [this]
    simpa [Function.comp_def] using hsplit
  refine ⟨_, hp, ?_, fun i hi => ?_, hexcl _ hp⟩
  · intro e he
    rcases List.mem_append.1 he with he | he
    · obtain ⟨v, hv, rfl⟩ := List.mem_map.1 he
      exact hlisted v (hUl v hv)
    · obtain ⟨x, hx, rfl⟩ := List.mem_map.1 he
      exact (e4 x hx).1
  have hkey : (if (true && !(vs.filter fun v => !v.listed).any (·.untagged)) = true then "oneOf" else "anyOf") =
      "oneOf" := by rw [hany]; rfl
  rw [hkey]
  have hsnd : es.map Prod.snd = es'.map fun x => x.1.2 := by rw [← e3, List.map_map]; rfl
  rw [hsnd]
  have hnU : ((U ++ presentVariants (vs.filter fun v => !v.listed) A.settings.contract).map
      fun v => v.name.get A.settings.contract).Nodup :=
    (hsplit.map fun v => v.name.get A.settings.contract).nodup_iff.2 hn
  rw [List.map_append, List.nodup_append] at hnU
  have hpw : (es'.map fun x => x.1.2).Pairwise fun a b => ¬ (Valid D env a i ∧ Valid D env b i) := by
    rw [List.pairwise_map]
    refine pairwise_of_names (name := fun x => x.1.1.name.get A.settings.contract) ?_ ?_
    · rw [← hfst, List.map_map] at hnU; exact hnU.2.1
    · intro a ha b hb h1 h2
      exact externalEnc_name (((e4 a ha).2 i hi).1 h1) (((e4 b hb).2 i hi).1 h2)
  have hmem : (∃ s ∈ es'.map fun x => x.1.2, Valid D env s i) ↔
      ∃ e ∈ es'.map fun x => (x.1.1, x.2), ExternalEnc D env (e.1.name.get A.settings.contract) e.2 i := by
    simp only [List.mem_map]
    constructor
    · rintro ⟨_, ⟨x, hx, rfl⟩, hv⟩
      exact ⟨_, ⟨x, hx, rfl⟩, ((e4 x hx).2 i hi).1 hv⟩
    · rintro ⟨_, ⟨x, hx, rfl⟩, hv⟩
      exact ⟨_, ⟨x, hx, rfl⟩, ((e4 x hx).2 i hi).2 hv⟩
  rcases hl with ⟨hfirst, rfl⟩ | ⟨p, s, hfirst, hs, rfl⟩
  · have hU0 : U = [] := by
      have : (vs.filter Variant.listed).isEmpty = true := by
        by_contra hne
        rw [if_neg hne] at hfirst; cases hfirst
      rw [← hU, List.isEmpty_iff.1 this]; rfl
    rw [hU0, List.map_nil, List.nil_append, List.nil_append, valid_oneOf_exclusive hpw]
    exact hmem
  · have hp' : p = unitVariantsProg (vs.filter Variant.listed) := by
      split at hfirst
      · cases hfirst
      · injection hfirst with h; exact h.symm
    rw [hp'] at hs
    have hs' := hunits s hs i
    rw [List.singleton_append, valid_oneOf_exclusive (List.pairwise_cons.2 ⟨?_, hpw⟩)]
    · simp only [List.mem_cons, List.mem_append, or_and_right, exists_or, exists_eq_left]
      rw [hs', hmem]
    · intro b hb hboth
      obtain ⟨e, he, h1⟩ := hs'.1 hboth.1
      obtain ⟨v, hv, rfl⟩ := List.mem_map.1 he
      obtain ⟨x, hx, rfl⟩ := List.mem_map.1 hb
      have h2 := ((e4 x hx).2 i hi).1 hboth.2
      refine hnU.2.2 _ (List.mem_map_of_mem hv) _ (List.mem_map.2 ⟨x.1.1, ?_, rfl⟩) (externalEnc_name h1 h2)
      rw [← hfst]; exact List.mem_map.2 ⟨x, hx, rfl⟩

/-! ### Adjacent tags -/

theorem shape_adjacent {tag key : String} (hne : tag ≠ key) (name : String) (deny : Bool) (sub : Option Json) :
    ∃ m props, adjacentSchema tag key name deny sub = .obj m ∧
      Shape m props (tag :: sub.elim [] fun _ => [key]) deny ∧
      Obj.get props tag = some (tagSchema name) ∧ Obj.get props key = sub ∧
      ∀ k, k ≠ tag → k ≠ key → Obj.get props k = none := by
  have hn : (Obj.keys ((tag, tagSchema name) :: sub.elim [] fun s => [(key, s)])).Nodup := by
    cases sub <;> simp [Obj.keys, hne]
  refine ⟨_, Obj.ofList ((tag, tagSchema name) :: sub.elim [] fun s => [(key, s)]), rfl, ?_, ?_, ?_, ?_⟩
  · refine shape_mkObj ?_ ?_ ?_ ?_ ?_ ?_
    · cases deny <;> simp [Obj.keys]
    · rfl
    · exact .inr rfl
    · refine .inr ?_
      cases sub <;> rfl
    · cases deny <;> rfl
    · cases deny <;> simp
  · rw [get_ofList hn, Obj.get_cons, if_pos rfl]
  · rw [get_ofList hn, Obj.get_cons, if_neg hne]
    cases sub with
    | none => rfl
    | some s => exact (Obj.get_cons _ _ _ _).trans (if_pos rfl)
  · intro k h1 h2
    rw [get_ofList hn, Obj.get_cons, if_neg (Ne.symm h1)]
    cases sub with
    | none => rfl
    | some s => exact (Obj.get_cons _ _ _ _).trans (if_neg (Ne.symm h2))

theorem valid_adjacent {tag key : String} (hne : tag ≠ key) {name : String} {deny : Bool} {sub : Option Json}
    (hi : i.WF) :
    Valid D env (adjacentSchema tag key name deny sub) i ↔ AdjacentEnc D env tag key deny name sub i := by
  obtain ⟨m, props, e, hs, h1, h2, h3⟩ := shape_adjacent hne name deny sub
  rw [e, hs.valid]
  unfold Conforms AdjacentEnc
  refine exists_congr fun o => and_congr_right fun ho => ?_
  subst ho
  have hsort : Obj.Sorted o := by cases hi; assumption
  constructor
  · rintro ⟨hreq, hprops, hdeny⟩
    obtain ⟨x, hx⟩ := hreq tag (by simp)
    have hxv := hprops _ (Obj.get_mem hx) _ h1
    rw [valid_tagSchema] at hxv
    refine ⟨by rw [hx]; exact congrArg _ hxv, ?_⟩
    cases sub with
    | none =>
      intro hd e he
      obtain ⟨t, ht⟩ := hdeny hd e he
      by_contra hc
      by_cases hk : e.1 = key
      · rw [hk, h2] at ht; cases ht
      · rw [h3 _ hc hk] at ht; cases ht
    | some s =>
      obtain ⟨y, hy⟩ := hreq key (by simp)
      refine ⟨⟨y, hy, hprops _ (Obj.get_mem hy) _ h2⟩, ?_⟩
      intro hd e he
      obtain ⟨t, ht⟩ := hdeny hd e he
      by_contra hc
      rw [not_or] at hc
      rw [h3 _ hc.1 hc.2] at ht; cases ht
  · rintro ⟨ht, hc⟩
    refine ⟨?_, ?_, ?_⟩
    · intro n hn
      rcases List.mem_cons.1 hn with rfl | hn
      · exact ⟨_, ht⟩
      · cases sub with
        | none => cases hn
        | some s =>
          simp only [Option.elim_some, List.mem_singleton] at hn
          subst hn
          obtain ⟨⟨x, hx, _⟩, _⟩ := hc
          exact ⟨x, hx⟩
    · intro e he s hse
      have hg := Obj.get_of_mem_sorted hsort he
      by_cases hk1 : e.1 = tag
      · rw [hk1, h1] at hse; cases hse
        rw [hk1, ht] at hg
        rw [valid_tagSchema]; injection hg with hg; exact hg.symm
      · by_cases hk2 : e.1 = key
        · rw [hk2, h2] at hse; subst hse
          obtain ⟨⟨x, hx, hv⟩, _⟩ := hc
          rw [hk2, hx] at hg; injection hg with hg; rw [← hg]; exact hv
        · rw [h3 _ hk1 hk2] at hse; cases hse
    · intro hd x hx
      cases sub with
      | none => rw [hc hd x hx]; exact ⟨_, h1⟩
      | some s =>
        rcases hc.2 hd x hx with h | h <;> rw [h]
        · exact ⟨_, h1⟩
        · exact ⟨_, h2⟩

theorem adjacentEnc_name {tag key : String} {deny : Bool} {n n' : String} {c c' : Option Json}
    (h : AdjacentEnc D env tag key deny n c i) (h' : AdjacentEnc D env tag key deny n' c' i) : n = n' := by
  obtain ⟨o, rfl, h1, -⟩ := h
  obtain ⟨o', e, h2, -⟩ := h'
  injection e with e; subst e
  rw [h1] at h2; injection h2 with h2; injection h2

theorem adjacent_variant {A : Answers τ} {I : TypeInfo τ} {deny : Bool} {tag key : String} (hne : tag ≠ key)
    {v : Variant τ} {s : Json} (hu : v.untagged = false) (hc : Harmless v.common)
    (h : Returns A (adjacentTaggedProg I tag key v deny) s) :
    ∃ content, Content A I deny v content ∧ ∀ i, i.WF →
      (Valid D env s i ↔ AdjacentEnc D env tag key deny (v.name.get A.settings.contract) content i) := by
  unfold adjacentTaggedProg at h
  rw [hu] at h
  simp only [Bool.false_eq_true, if_false] at h
  unfold Content
  by_cases hunit : (v.isUnit && v.withTy.isNone) = true
  · rw [if_pos hunit] at h
    simp only [hunit, if_true]
    simp only [Returns] at h
    subst h
    refine ⟨none, rfl, fun i hi => ?_⟩
    rw [runMutators_valid hc.annotates (show Sch (adjacentSchema _ _ _ _ _) from sch_mkObj _)]
    exact valid_adjacent hne hi
  · rw [if_neg hunit] at h
    simp only [hunit, if_false, Bool.false_eq_true]
    simp only [Returns] at h
    obtain ⟨sub, h1, rfl⟩ := res_map.1 h
    refine ⟨some sub, ⟨sub, h1, rfl⟩, fun i hi => ?_⟩
    rw [runMutators_valid hc.annotates (show Sch (adjacentSchema _ _ _ _ _) from sch_mkObj _)]
    exact valid_adjacent hne hi

/-- Alternatives that are told apart by the names of the variants. -/
theorem valid_tagged {c : Contract} {vs : List (Variant τ)} {es : List (Variant τ × Json)}
    (h1 : es.map Prod.fst = presentVariants vs c) (hn : ((presentVariants vs c).map fun v => v.name.get c).Nodup)
    (hx : ∀ e ∈ es, ∀ e' ∈ es, Valid D env e.2 i → Valid D env e'.2 i → e.1.name.get c = e'.1.name.get c) :
    Valid D env (.obj [("oneOf", .arr (es.map Prod.snd))]) i ↔ ∃ e ∈ es, Valid D env e.2 i := by
  rw [valid_oneOf_exclusive]
  · constructor
    · rintro ⟨s, hs, hv⟩
      obtain ⟨e, he, rfl⟩ := List.mem_map.1 hs
      exact ⟨e, he, hv⟩
    · rintro ⟨e, he, hv⟩
      exact ⟨_, List.mem_map_of_mem he, hv⟩
  · rw [List.pairwise_map]
    refine pairwise_of_names (name := fun e : Variant τ × Json => e.1.name.get c) ?_ hx
    rw [← h1, List.map_map] at hn; exact hn

/-- C48, adjacent tags: an instance is accepted iff it is the encoding of a variant, and it is not the encoding
of two. -/
theorem C48_adjacent {A : Answers τ} {I : TypeInfo τ} {deny : Bool} {tag key : String} (hne : tag ≠ key)
    {vs : List (Variant τ)} {r : Json}
    (hu : ∀ v ∈ vs, v.untagged = false) (hr : ∀ v ∈ vs, v.refTy = none) (hc : ∀ v ∈ vs, Harmless v.common)
    (hn : ((presentVariants vs A.settings.contract).map fun v => v.name.get A.settings.contract).Nodup)
    (h : Returns A (enumProg I (.adjacent tag key) vs deny) r) :
    ∃ es : List (Variant τ × Option Json), es.map Prod.fst = presentVariants vs A.settings.contract ∧
      (∀ e ∈ es, Content A I deny e.1 e.2) ∧
      (∀ i, i.WF → (Valid D env r i ↔
        ∃ e ∈ es, AdjacentEnc D env tag key deny (e.1.name.get A.settings.contract) e.2 i)) ∧
      ∀ i, ∀ e ∈ es, ∀ e' ∈ es, AdjacentEnc D env tag key deny (e.1.name.get A.settings.contract) e.2 i →
        AdjacentEnc D env tag key deny (e'.1.name.get A.settings.contract) e'.2 i → e = e' := by
  unfold enumProg at h
  by_cases he : vs.isEmpty = true
  · rw [if_pos he] at h
    have : vs = [] := List.isEmpty_iff.1 he
    subst this
    cases h
    refine ⟨[], rfl, by simp, fun i _ => ?_, by simp⟩
    constructor
    · intro hv; cases hv
    · rintro ⟨e, he, _⟩; cases he
  rw [if_neg he] at h
  simp only at h
  obtain ⟨l, es, hl, e1, e2, rfl⟩ := returns_variants hr h
  have hl' : l = [] := by
    rcases hl with ⟨_, h⟩ | ⟨p, s, h, _⟩
    · exact h
    · cases h
  subst hl'
  have hany : vs.any (·.untagged) = false := by
    rw [List.any_eq_false]
    intro v hv; rw [hu v hv]; simp
  have hes : ∀ e ∈ es, e.1 ∈ vs := by
    intro e he
    have : e.1 ∈ presentVariants vs A.settings.contract := by
      rw [← e1]; exact List.mem_map_of_mem he
    exact (List.mem_filter.1 this).1
  obtain ⟨es', e3, e4⟩ := list_choice (fun e he =>
    adjacent_variant (D := D) (env := env) hne (hu e.1 (hes e he)) (hc e.1 (hes e he)) (e2 e he))
  have hfst : (es'.map fun x => (x.1.1, x.2)).map Prod.fst = presentVariants vs A.settings.contract := by
    rw [← e1, ← e3, List.map_map, List.map_map]; rfl
  refine ⟨es'.map fun x => (x.1.1, x.2), hfst, ?_, fun i hi => ?_, ?_⟩
  · intro e he
    obtain ⟨x, hx, rfl⟩ := List.mem_map.1 he
    exact (e4 x hx).1
  · rw [hany]
    simp only [Bool.not_false, Bool.and_true, if_true, List.nil_append]
    rw [valid_tagged e1 hn]
    · rw [← e3]
      simp only [List.mem_map]
      constructor
      · rintro ⟨_, ⟨x, hx, rfl⟩, hv⟩
        exact ⟨_, ⟨x, hx, rfl⟩, ((e4 x hx).2 i hi).1 hv⟩
      · rintro ⟨_, ⟨x, hx, rfl⟩, hv⟩
        exact ⟨_, ⟨x, hx, rfl⟩, ((e4 x hx).2 i hi).2 hv⟩
    · rw [← e3]
      intro e he e' he' h1 h2
      obtain ⟨x, hx, rfl⟩ := List.mem_map.1 he
      obtain ⟨y, hy, rfl⟩ := List.mem_map.1 he'
      exact adjacentEnc_name (((e4 x hx).2 i hi).1 h1) (((e4 y hy).2 i hi).1 h2)
  · intro i e he e' he' h1 h2
    refine nodup_names_eq (name := fun e : Variant τ × Option Json => e.1.name.get A.settings.contract) ?_ he he'
      (adjacentEnc_name h1 h2)
    rw [← hfst, List.map_map] at hn; exact hn

/-! ### No tags -/

/-- What an untagged variant gets on top of its content. -/
theorem untagged_variant {A : Answers τ} {I : TypeInfo τ} {deny : Bool} {v : Variant τ} {s : Json}
    (hc : Harmless v.common) (hs : ∀ t, Returns A (untaggedVariantProg I v deny false) t → Sch t)
    (h : Returns A (untaggedVariantProg I v deny true) s) :
    ∃ t, Returns A (untaggedVariantProg I v deny false) t ∧ ∀ i, Valid D env s i ↔ Valid D env t i := by
  unfold untaggedVariantProg at h
  simp only [if_true] at h
  obtain ⟨t, h1, h2⟩ := res_bind.1 h
  have h1' : Returns A (untaggedVariantProg I v deny false) t := by
    unfold untaggedVariantProg
    simp only [Bool.false_eq_true, if_false]
    exact h1
  refine ⟨t, h1', fun i => ?_⟩
  have ht := hs t h1'
  simp only [Returns] at h2
  rw [h2]
  split
  · rw [runMutators_valid hc.annotates (ht.put _ _), valid_put_annotation ht (by decide)]
  · rw [runMutators_valid hc.annotates ht]

/-- C48, no tags: an instance is accepted iff it is valid against the content of a variant. -/
theorem C48_untagged {A : Answers τ} {I : TypeInfo τ} {deny : Bool} {vs : List (Variant τ)} {r : Json}
    (hr : ∀ v ∈ vs, v.refTy = none) (hc : ∀ v ∈ vs, Harmless v.common)
    (hs : ∀ v ∈ vs, ∀ t, Returns A (untaggedVariantProg I v deny false) t → Sch t)
    (h : Returns A (enumProg I .none vs deny) r) :
    ∃ es : List (Variant τ × Json), es.map Prod.fst = presentVariants vs A.settings.contract ∧
      (∀ e ∈ es, Returns A (untaggedVariantProg I e.1 deny false) e.2) ∧
      ∀ i, Valid D env r i ↔ ∃ e ∈ es, Valid D env e.2 i := by
  unfold enumProg at h
  by_cases he : vs.isEmpty = true
  · rw [if_pos he] at h
    have : vs = [] := List.isEmpty_iff.1 he
    subst this
    cases h
    refine ⟨[], rfl, by simp, fun i => ?_⟩
    constructor
    · intro hv; cases hv
    · rintro ⟨e, he, _⟩; cases he
  rw [if_neg he] at h
  simp only at h
  obtain ⟨l, es, hl, e1, e2, rfl⟩ := returns_variants hr h
  have hl' : l = [] := by
    rcases hl with ⟨_, h⟩ | ⟨p, s, h, _⟩
    · exact h
    · cases h
  subst hl'
  have hes : ∀ e ∈ es, e.1 ∈ vs := by
    intro e he
    have : e.1 ∈ presentVariants vs A.settings.contract := by
      rw [← e1]; exact List.mem_map_of_mem he
    exact (List.mem_filter.1 this).1
  obtain ⟨es', e3, e4⟩ := list_choice (fun e he =>
    untagged_variant (D := D) (env := env) (hc e.1 (hes e he)) (hs e.1 (hes e he)) (e2 e he))
  refine ⟨es'.map fun x => (x.1.1, x.2), ?_, ?_, fun i => ?_⟩
  · rw [← e1, ← e3, List.map_map, List.map_map]; rfl
  · intro e he
    obtain ⟨x, hx, rfl⟩ := List.mem_map.1 he
    exact (e4 x hx).1
  · simp only [Bool.false_and, Bool.false_eq_true, if_false, List.nil_append]
    rw [valid_anyOf_iff, ← e3]
    simp only [List.mem_map]
    constructor
    · rintro ⟨_, ⟨_, ⟨x, hx, rfl⟩, rfl⟩, hv⟩
      exact ⟨_, ⟨x, hx, rfl⟩, ((e4 x hx).2 i).1 hv⟩
    · rintro ⟨_, ⟨x, hx, rfl⟩, hv⟩
      exact ⟨_, ⟨_, ⟨x, hx, rfl⟩, rfl⟩, ((e4 x hx).2 i).2 hv⟩

end

/-! ### Examples -/

/-- `enum E { A, B(T) }`, where `T` has a string schema. -/
def enum48 : List (Variant Unit) :=
  [{ name := ⟨"A", "A"⟩, fields := .unit }, { name := ⟨"B", "B"⟩, fields := .newtype { name := ⟨"0", "0"⟩, ty := () } }]

def answers48 : Answers Unit :=
  ⟨fun _ s => s = typeOnly "string", fun _ s => s = typeOnly "string", fun _ _ => True, .draft2020, fun _ => True⟩

def info48 : TypeInfo Unit := ⟨(), fun _ => false, id, fun _ => false⟩

theorem enum48_ok : (∀ v ∈ enum48, v.untagged = false) ∧ (∀ v ∈ enum48, v.refTy = none) ∧ (∀ v ∈ enum48, Harmless v.common) ∧
    ((presentVariants enum48 answers48.settings.contract).map fun v => v.name.get answers48.settings.contract).Nodup := by
  refine ⟨by simp [enum48], by simp [enum48], ?_, by decide⟩
  simp only [enum48, List.mem_cons, List.not_mem_nil, or_false, forall_eq_or_imp, forall_eq]
  exact ⟨⟨rfl, fun e he => by cases he⟩, rfl, fun e he => by cases he⟩

example : ∃ es : List (Variant Unit × Option Json), (∀ e ∈ es, Content answers48 info48 false e.1 e.2) ∧
    ∀ i, i.WF → (Valid D env (.obj [("oneOf", .arr [unitVariantsSchema ["A"], newExternalVariant "B" (typeOnly "string")])]) i ↔
      ∃ e ∈ es, ExternalEnc D env (e.1.name.get .deserialize) e.2 i) := by
  obtain ⟨h1, h2, h3, h4⟩ := enum48_ok
  obtain ⟨es, -, h5, h6, -⟩ := C48_external (A := answers48) (I := info48) (deny := false) (D := D) (env := env) h1 h2 h3 h4
    (r := .obj [("oneOf", .arr [unitVariantsSchema ["A"], newExternalVariant "B" (typeOnly "string")])]) ⟨_, rfl, rfl⟩
  exact ⟨es, h5, h6⟩

example : ∃ es : List (Variant Unit × Option Json), (∀ e ∈ es, Content answers48 info48 false e.1 e.2) ∧
    ∀ i, i.WF → (Valid D env (.obj [("oneOf", .arr [adjacentSchema "t" "c" "A" false none,
        adjacentSchema "t" "c" "B" false (some (typeOnly "string"))])]) i ↔
      ∃ e ∈ es, AdjacentEnc D env "t" "c" false (e.1.name.get .deserialize) e.2 i) := by
  obtain ⟨h1, h2, h3, h4⟩ := enum48_ok
  obtain ⟨es, -, h5, h6, -⟩ := C48_adjacent (A := answers48) (I := info48) (deny := false) (D := D) (env := env) (tag := "t")
    (key := "c") (by decide) h1 h2 h3 h4
    (r := .obj [("oneOf", .arr [adjacentSchema "t" "c" "A" false none,
        adjacentSchema "t" "c" "B" false (some (typeOnly "string"))])]) ⟨_, rfl, rfl⟩
  exact ⟨es, h5, h6⟩

/-- Here the schema of the unit variant is that of the only type, too. -/
example : ∃ es : List (Variant Unit × Json), (∀ e ∈ es, Returns answers48 (untaggedVariantProg info48 e.1 false false) e.2) ∧
    ∀ i, (Valid D env (.obj [("anyOf", .arr [typeOnly "string", typeOnly "string"])]) i ↔ ∃ e ∈ es, Valid D env e.2 i) := by
  obtain ⟨h1, h2, h3, h4⟩ := enum48_ok
  have hs : ∀ v ∈ enum48, ∀ t, Returns answers48 (untaggedVariantProg info48 v false false) t → Sch t := by
    simp only [enum48, List.mem_cons, List.not_mem_nil, or_false, forall_eq_or_imp, forall_eq]
    refine ⟨?_, ?_⟩ <;> rintro t ⟨s, rfl, rfl⟩ <;> exact sch_mkObj _
  obtain ⟨es, -, h5, h6⟩ := C48_untagged (A := answers48) (I := info48) (deny := false) (D := D) (env := env) h2 h3 hs
    (r := .obj [("anyOf", .arr [typeOnly "string", typeOnly "string"])]) ⟨_, rfl, _, rfl, rfl⟩
  exact ⟨es, h5, h6⟩

end Verif
