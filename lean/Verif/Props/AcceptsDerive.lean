import Verif.Props.AcceptsStd

/-!
# The schemas of derived types accept what serde writes
-/

namespace Verif
open Spec

variable {τ : Type}

/-! ### Structs, with flattened structs -/

theorem get_mergeAll_allOf {m l : List (String × Json)} (h : ∀ e ∈ l, e.1 ∉ "allOf" :: altKeys) :
    Obj.get (mergeAll m l) "allOf" = Obj.get m "allOf" := by
  induction l generalizing m with
  | nil => rfl
  | cons e l ih =>
    have h1 := h e (by simp)
    show Obj.get (mergeAll (flattenProperty m e.1 e.2) l) "allOf" = _
    rw [ih fun x hx => h x (by simp [hx]), flattenProperty_plain (fun hk => h1 (by simp [hk])),
      get_flattenPlain_ne (fun hk => h1 (by simp [← hk]))]

theorem Shape.noInPlace {m props : List (String × Json)} {req : List String} {deny : Bool}
    (h : Shape m props req deny) : containsImmediate m = false := by
  unfold containsImmediate
  rw [List.any_eq_false]
  intro k hk
  have := h.other k ((by decide : ∀ k ∈ ["if", "allOf", "anyOf", "oneOf", "$ref"], k ∉ annotations) k hk)
    ((by decide : ∀ k ∈ ["if", "allOf", "anyOf", "oneOf", "$ref"],
      k ∉ ["type", "properties", "required", "additionalProperties"]) k hk)
  rw [Bool.not_eq_true]
  simp [Obj.has, this]

/-- Two schemas of structs are flattened to the schema of a struct. -/
theorem Shape.flatten {m1 p1 m2 p2 : List (String × Json)} {r1 r2 : List String} {deny : Bool}
    (h1 : Shape m1 p1 r1 deny) (h2 : Shape m2 p2 r2 false) (hs1 : Obj.Sorted p1) (hs2 : Obj.Sorted p2) :
    ∃ m p, Verif.flatten (.obj m1) (.obj m2) = .obj m ∧ Shape m p (r1 ++ r2) deny ∧ Obj.Sorted p ∧
      ∀ n, Obj.get p n = (Obj.get p2 n).or (Obj.get p1 n) := by
  have hu2 : Obj.get m2 "unevaluatedProperties" = none := h2.other _ (by decide) (by decide)
  have hap2 : Obj.get m2 "additionalProperties" = none := h2.deny
  have hn1 : normaliseUnevaluated m1 m2 = m1 := by
    unfold normaliseUnevaluated
    split
    · rw [h2.noInPlace]; simp [Obj.has, hu2]
    · rfl
  have hnd := Obj.sorted_nodup h2.sorted
  have hg := fun q (ha : q ≠ "allOf") (hq : q ∉ altKeys) => get_mergeAll_plain (m := m1) hnd ha hq
  obtain ⟨p, hp, hps, hpg⟩ : ∃ p, PropsAre (mergeAll m1 m2) p ∧ Obj.Sorted p ∧
      ∀ n, Obj.get p n = (Obj.get p2 n).or (Obj.get p1 n) := by
    unfold PropsAre
    rw [hg _ (by decide) (by decide)]
    rcases h1.props with ⟨e1, rfl⟩ | e1 <;> rcases h2.props with ⟨e2, rfl⟩ | e2 <;> rw [e1, e2]
    · exact ⟨[], .inl ⟨rfl, rfl⟩, hs1, fun n => rfl⟩
    · exact ⟨p2, .inr rfl, hs2, fun n => by cases Obj.get p2 n <;> rfl⟩
    · exact ⟨p1, .inr rfl, hs1, fun n => rfl⟩
    · refine ⟨Obj.extend p1 p2, .inr ?_, Obj.sorted_extend hs1 _, fun n => ?_⟩
      · simp only [Option.elim_some]; rw [mergeValue_map (by decide)]
      · rw [Obj.get_extend_nodup _ (Obj.sorted_nodup hs2)]
        cases Obj.get p2 n <;> rfl
  refine ⟨flattenObjects m1 m2, p, rfl, ?_, hps, hpg⟩
  rw [flattenObjects_eq, hn1, normalise_id hap2]
  refine ⟨sorted_mergeAll h1.sorted, ?_, hp, ?_, ?_, ?_⟩
  · rw [hg _ (by decide) (by decide), h1.type, h2.type]; rfl
  · unfold ReqAre
    rw [hg _ (by decide) (by decide)]
    rcases h1.req with ⟨e1, rfl⟩ | e1 <;> rcases h2.req with ⟨e2, rfl⟩ | e2 <;> rw [e1, e2]
    · left; exact ⟨rfl, rfl⟩
    · right; rfl
    · right; rw [List.append_nil]; rfl
    · right; simp [mergeValue]
  · rw [hg _ (by decide) (by decide), hap2]; exact h1.deny
  · intro k hk hk'
    have e1 := h1.other k hk hk'
    have e2 := h2.other k hk hk'
    by_cases ha : k = "allOf"
    · subst ha
      rw [get_mergeAll_allOf, e1]
      intro e he hk
      have := h2.other e.1 ((by decide : ∀ k ∈ "allOf" :: altKeys, k ∉ annotations) _ hk)
        ((by decide : ∀ k ∈ "allOf" :: altKeys, k ∉ ["type", "properties", "required", "additionalProperties"]) _ hk)
      rw [Obj.get_of_mem_nodup hnd he] at this; cases this
    · by_cases hq : k ∈ altKeys
      · rw [get_mergeAll_alt hnd hq, e1, e2]; rfl
      · rw [hg _ ha hq, e1, e2]; rfl

/-- What is done to the schema of a struct before it is flattened. -/
theorem Shape.flattenInner {m p : List (String × Json)} {r : List String} {deny : Bool}
    (h : Shape m p r deny) (optional : Bool) :
    ∃ m', Verif.flattenInner (.obj m) optional = .obj m' ∧ Shape m' p (if optional then [] else r) false := by
  have hexp : expandUnitVariants (.obj m) = .obj m := by
    have : removeUnitVariants (.obj m) = (.obj m, none) := by
      unfold removeUnitVariants
      simp only
      rw [h.type]
      have hb : ((some (Json.str "object")).bind Json.asStr? == some "string") = false := rfl
      rw [hb]
      simp only [Bool.false_eq_true, if_false, h.other "oneOf" (by decide) (by decide)]
    unfold expandUnitVariants
    rw [this]
  have hopt : ∃ m1, (if optional then flattenOptional (.obj m) else .obj m) = .obj m1 ∧
      Shape m1 p (if optional then [] else r) deny := by
    cases optional with
    | false => exact ⟨m, rfl, h⟩
    | true =>
      have hg : ∀ k, "required" ≠ k → Obj.get (Obj.remove m "required") k = Obj.get m k :=
        fun k hk => Obj.get_remove_ne _ hk
      have hone : Obj.get (Obj.remove m "required") "oneOf" = none := by
        rw [hg _ (by decide)]; exact h.other _ (by decide) (by decide)
      have hany : Obj.get (Obj.remove m "required") "anyOf" = none := by
        rw [hg _ (by decide)]; exact h.other _ (by decide) (by decide)
      refine ⟨Obj.remove m "required", ?_, Obj.sorted_remove h.sorted _, ?_, ?_, ?_, ?_, ?_⟩
      · simp only [if_true]
        unfold flattenOptional
        simp only [Schema.remove, Schema.getMut, hone]
        rw [Obj.remove_of_get_none hone]
        congr 1
        refine Obj.ext_sorted (Obj.sorted_modify (Obj.sorted_remove h.sorted _) _ _)
          (Obj.sorted_remove h.sorted _) fun k => ?_
        rw [Obj.get_modify]
        split
        · next hk => rw [← hk, hany]; rfl
        · rfl
      · rw [hg _ (by decide)]; exact h.type
      · exact h.props.congr (hg _ (by decide))
      · left; exact ⟨Obj.get_remove_self _ _, rfl⟩
      · rw [hg _ (by decide)]; exact h.deny
      · intro k hk hk'
        rw [hg _ (by rintro rfl; exact hk' (by decide))]; exact h.other k hk hk'
  obtain ⟨m1, e1, h1⟩ := hopt
  obtain ⟨m', e2, hs, hg, hr⟩ := get_allowUnknown (m := m1)
  refine ⟨m', ?_, hs h1.sorted, ?_, ?_, ?_, ?_, ?_⟩
  · unfold Verif.flattenInner
    simp only
    rw [hexp, e1, e2]
  · rw [hg _ (by decide), h1.type]; rfl
  · have : Obj.get m' "properties" = Obj.get m1 "properties" := by
      rw [hg _ (by decide)]
      cases Obj.get m1 "properties" with
      | none => rfl
      | some v => exact congrArg some (atSlot_skip v)
    exact h1.props.congr this
  · have : Obj.get m' "required" = Obj.get m1 "required" := by
      rw [hg _ (by decide)]
      cases Obj.get m1 "required" with
      | none => rfl
      | some v => exact congrArg some (atSlot_skip v)
    exact h1.req.congr this
  · rw [hr _ (by decide), h1.deny]
    cases deny <;> simp
  · intro k hk hk'
    by_cases hkr : k ∈ restKeys
    · rw [hr k hkr, h1.other k hk hk']; simp
    · rw [hg k hkr, h1.other k hk hk']; rfl

section
variable {D : Dialect} {env : Env} {S : τ → Json → Prop} {decl : τ → Decl τ} {I : TypeInfo τ}
  {F : Answers τ → Prop} {A : Answers τ} {w : Nat} {j s : Json}

theorem plain_container {c : Container τ} {fs : List (Field τ)} (hc : PlainData c fs)
    (hser : A.settings.contract = .serialize) (h : Returns A (containerProg I c) s) :
    ∃ s0, Returns A (structProg I fs c.hasDefault c.denyUnknownFields) s0 ∧ s = runMutators c.common.mutators s0 := by
  unfold containerProg at h
  rw [hc.noWith, hc.noTransparent, hc.noInto] at h
  have hd : dataProg I c = structProg I fs c.hasDefault c.denyUnknownFields := by
    unfold dataProg; rw [hc.data]
  cases hf : c.fromTy with
  | none =>
    rw [hf] at h
    simp only at h
    rw [res_map, hd] at h
    exact h
  | some t =>
    rw [hf] at h
    simp only at h
    rw [res_map] at h
    obtain ⟨s0, h0, rfl⟩ := h
    simp only [Returns, hser] at h0
    rw [hd] at h0
    exact ⟨s0, h0, rfl⟩

theorem shape_start (deny : Bool) : ∃ m, mkObj (("type", .str "object") ::
    if deny then [("additionalProperties", .bool false)] else []) = .obj m ∧ Shape m [] [] deny := by
  refine ⟨_, rfl, shape_mkObj ?_ ?_ ?_ ?_ ?_ ?_⟩
  · cases deny <;> simp [Obj.keys]
  · rfl
  · left; cases deny <;> exact ⟨rfl, rfl⟩
  · left; cases deny <;> exact ⟨rfl, rfl⟩
  · cases deny <;> rfl
  · cases deny <;> simp

theorem returns_flattenField {f : Field τ} {cd : Bool} {r : Json} (hf : f.flatten = true) (h : FieldResult A I cd f r) :
    ∃ s, A.direct (I.base f.ty) s ∧ r = flattenInner s (I.isOption f.ty && !f.required) := by
  unfold FieldResult at h
  rw [if_pos hf] at h
  exact h

/-- The schema of a struct, and the names that it declares. -/
theorem names_shape (hF : Sound D env S decl I F) {fs : List (Field τ)} {ns : List String}
    (hn : FieldNames decl I.base fs ns) : ∀ {A : Answers τ} {cd deny : Bool} {m0 p0 : List (String × Json)}
    {r0 : List String} {s : Json}, F A → Shape m0 p0 r0 deny → Obj.Sorted p0 →
    Returns A (structFieldsProg I cd fs (.obj m0)) s →
    ∃ m p r, s = .obj m ∧ Shape m p r deny ∧ Obj.Sorted p ∧
      ∀ n, (∃ x, Obj.get p n = some x) ↔ (∃ x, Obj.get p0 n = some x) ∨ n ∈ ns := by
  induction hn with
  | nil =>
    intro A cd deny m0 p0 r0 s _ h0 hp h
    cases h
    exact ⟨m0, p0, r0, rfl, h0, hp, by simp⟩
  | @skip f fs ns hsk _ ih =>
    intro A cd deny m0 p0 r0 s hA h0 hp h
    unfold structFieldsProg at h
    obtain ⟨s1, h1, h2⟩ := res_bind.1 h
    rw [returns_structField, if_neg (by rw [hF.ser A hA]; simp [NotSkipped, hsk])] at h1
    subst h1
    exact ih hA h0 hp h2
  | @own f fs ns hsk hfl _ ih =>
    intro A cd deny m0 p0 r0 s hA h0 hp h
    unfold structFieldsProg at h
    obtain ⟨s1, h1, h2⟩ := res_bind.1 h
    rw [returns_structField, if_pos (by rw [hF.ser A hA]; exact hsk)] at h1
    obtain ⟨s', -, rfl⟩ := h1
    unfold addField at h2
    rw [hfl] at h2
    simp only [Bool.false_eq_true, if_false] at h2
    obtain ⟨m1, e1, h1⟩ := h0.insertProperty (f.name.get A.settings.contract)
      (fieldOptional I cd f A.settings.contract) s'
    rw [e1] at h2
    obtain ⟨m, p, r, e, hs, hps, hk⟩ := ih hA h1 (Obj.sorted_insert hp _ _) h2
    refine ⟨m, p, r, e, hs, hps, fun n => ?_⟩
    rw [hk]
    have hname : f.name.get A.settings.contract = f.name.ser := by rw [hF.ser A hA]; rfl
    rw [hname, List.mem_cons]
    by_cases e : f.name.ser = n
    · subst e
      rw [Obj.get_insert_self]
      simp
    · rw [Obj.get_insert_ne _ _ e]
      simp [Ne.symm e]
  | @flat f fs ns c gs ms hsk hfl hd hc _ _ ihg ih =>
    intro A cd deny m0 p0 r0 s hA h0 hp h
    unfold structFieldsProg at h
    obtain ⟨s1, h1, h2⟩ := res_bind.1 h
    rw [returns_structField, if_pos (by rw [hF.ser A hA]; exact hsk)] at h1
    obtain ⟨s', h1, rfl⟩ := h1
    unfold addField at h2
    rw [hfl] at h2
    simp only [if_true] at h2
    obtain ⟨s2, hd2, rfl⟩ := returns_flattenField hfl h1
    obtain ⟨A', hA', hb⟩ := hF.ran A hA _ _ hd2
    rw [hd] at hb
    obtain ⟨s3, hb3, rfl⟩ := plain_container hc (hF.ser A' hA') hb
    obtain ⟨mi, ei, hi⟩ := shape_start c.denyUnknownFields
    unfold structProg at hb3
    rw [ei] at hb3
    obtain ⟨m3, p3, r3, rfl, hs3, hps3, hk3⟩ := ihg hA' hi List.Pairwise.nil hb3
    obtain ⟨m4, e4, hs4⟩ := hs3.annotate hc.common.annotates
    rw [e4] at h2
    obtain ⟨m5, e5, hs5⟩ := hs4.flattenInner (I.isOption f.ty && !f.required)
    rw [e5] at h2
    obtain ⟨m6, p6, e6, hs6, hps6, hg6⟩ := h0.flatten hs5 hp hps3
    rw [e6] at h2
    obtain ⟨m, p, r, e, hs, hps, hk⟩ := ih hA hs6 hps6 h2
    refine ⟨m, p, r, e, hs, hps, fun n => ?_⟩
    rw [hk, hg6, List.mem_append]
    have := hk3 n
    simp only [Obj.get_nil, reduceCtorEq, exists_false, false_or] at this
    rw [← this]
    cases Obj.get p3 n <;> simp

/-- The schema of a struct type, and the names that it declares. -/
theorem type_shape (hF : Sound D env S decl I F) {t : τ} {ns : List String} (hn : TypeNames decl I.base t ns)
    (h : RanBody F I decl t s) :
    ∃ c m p r, decl t = .derived c ∧ s = .obj m ∧ Shape m p r c.denyUnknownFields ∧ Obj.Sorted p ∧
      ∀ n, (∃ x, Obj.get p n = some x) ↔ n ∈ ns := by
  obtain ⟨c, gs, hd, hc, hg⟩ := hn
  obtain ⟨A', hA', hb⟩ := h
  rw [hd] at hb
  obtain ⟨s3, hb3, rfl⟩ := plain_container hc (hF.ser A' hA') hb
  obtain ⟨mi, ei, hi⟩ := shape_start c.denyUnknownFields
  unfold structProg at hb3
  rw [ei] at hb3
  obtain ⟨m3, p3, r3, rfl, hs3, hps3, hk3⟩ := names_shape hF hg hA' hi List.Pairwise.nil hb3
  obtain ⟨m4, e4, hs4⟩ := hs3.annotate hc.common.annotates
  refine ⟨c, m4, p3, r3, hd, e4, hs4, hps3, fun n => ?_⟩
  rw [hk3]; simp

/-- A field whose attributes other than those for validation do not restrict its schema further. -/
def Spec.FieldOk (f : Field τ) : Prop := Harmless f.common

/-- A field whose attributes do not restrict its schema further. -/
def Spec.FreeField (f : Field τ) : Prop := Harmless f.common ∧ f.validation = .noAttrs

theorem noAttrs_mutators : ValidationAttrs.noAttrs.mutators = [] := rfl

theorem field_annotates {f : Field τ} (hf : FreeField f) : ∀ g ∈ f.mutators, Annotates g := by
  intro g hg
  unfold Field.mutators at hg
  rw [hf.2, noAttrs_mutators, List.append_nil] at hg
  simp only [List.mem_append] at hg
  rcases hg with (hg | hg) | hg
  · exact hf.1.annotates g hg
  · split at hg
    · simp only [List.mem_singleton] at hg; subst hg
      exact .inl ⟨"readOnly", by decide, _, fun _ => rfl⟩
    · cases hg
  · split at hg
    · simp only [List.mem_singleton] at hg; subst hg
      exact .inl ⟨"writeOnly", by decide, _, fun _ => rfl⟩
    · cases hg

/-- The schema of a field keeps what obeys its attributes. -/
theorem field_restricts (hr : D.refSiblings = true) {f : Field τ} (hf : FieldOk f) :
    ∀ g ∈ f.mutators, Restricts D env (FieldObeys env f) g := by
  have key : ∀ g, Annotates g → Restricts D env (FieldObeys env f) g := fun g hg => .annotates hr hg
  intro g hg
  unfold Field.mutators at hg
  simp only [List.mem_append] at hg
  rcases hg with ((hg | hg) | hg) | hg
  · exact key g (hf.annotates g hg)
  · exact restricts_attrs hr _ g hg
  · split at hg
    · simp only [List.mem_singleton] at hg; subst hg
      exact key _ (.inl ⟨"readOnly", by decide, _, fun _ => rfl⟩)
    · cases hg
  · split at hg
    · simp only [List.mem_singleton] at hg; subst hg
      exact key _ (.inl ⟨"writeOnly", by decide, _, fun _ => rfl⟩)
    · cases hg

/-- The schema of a field accepts what serde writes for it. -/
theorem field_accepts (hF : Sound D env S decl I F) (hA : F A) {f : Field τ} (hf : FieldOk f)
    (h : Returns A (fieldProg I f false) s) :
    Nullable D env s ∧ ∀ x, S (fieldType I.base f) x → FieldObeys env f x → Valid D env s x := by
  unfold fieldProg at h
  rw [res_map] at h
  obtain ⟨s0, h0, rfl⟩ := h
  have key : Nullable D env s0 ∧ ∀ x, S (fieldType I.base f) x → Valid D env s0 x := by
    unfold fieldType
    by_cases hr : f.required = true
    · simp only [hr, if_true] at h0 ⊢
      obtain ⟨s1, h1, rfl⟩ := h0
      exact ⟨hF.nullDirect A hA _ _ h1, hF.direct A hA _ _ h1⟩
    · simp only [hr, if_false, Bool.false_eq_true] at h0 ⊢
      obtain ⟨s1, h1, rfl⟩ := h0
      exact ⟨hF.nullSub A hA _ _ h1, hF.sub A hA _ _ h1⟩
  have hR := Restricts.run (field_restricts (env := env) hF.refs hf)
  exact ⟨hR.nullable (obeys_null _) _ key.1, fun x hx hk => hR.valid _ key.1.sch.isSchema x hk (key.2 x hx)⟩

theorem members_struct (hS : SerdeFacts S (FieldObeys env) decl I) {f : Field τ} {ms : List String} {p : List (String × Json)}
    (hn : TypeNames decl I.base (I.base f.ty) ms) (h : Members S I.base decl (fieldType I.base f) p) :
    S (I.base f.ty) (.obj p) ∨ (p = [] ∧ I.isOption f.ty = true ∧ f.required = false) := by
  have key : ∀ j, S (fieldType I.base f) j → S (I.base f.ty) j ∨ (j = .null ∧ I.isOption f.ty = true ∧ f.required = false) := by
    intro j hj
    unfold fieldType at hj
    by_cases hr : f.required = true
    · rw [if_pos hr] at hj; exact .inl hj
    · rw [if_neg hr] at hj
      by_cases ho : I.isOption f.ty = true
      · rcases hS.option _ ho j hj with h | h
        · exact .inr ⟨h, ho, by simpa using hr⟩
        · exact .inl h
      · rw [hS.base _ (by simpa using ho)]; exact .inl hj
  cases h with
  | obj p h =>
    rcases key _ h with h | ⟨h, _⟩
    · exact .inl h
    · cases h
  | null h =>
    rcases key _ h with h | ⟨h, ho⟩
    · obtain ⟨p, e, -⟩ := hS.names _ _ hn _ h; cases e
    · exact .inr ⟨rfl, ho⟩
  | unitVariant n _ _ _ h =>
    rcases key _ h with h | ⟨h, _⟩
    · obtain ⟨p, e, -⟩ := hS.names _ _ hn _ h; cases e
    · cases h

/-- The members that are written for a struct have the names of its fields. -/
theorem enc_names (hS : SerdeFacts S (FieldObeys env) decl I) {fs : List (Field τ)} {o : List (String × Json)}
    (h : EncFields S (FieldObeys env) I.base decl fs o) : ∀ {ns : List String}, FieldNames decl I.base fs ns → ∀ e ∈ o, e.1 ∈ ns := by
  induction h with
  | nil => intro ns _ e he; cases he
  | @skip f fs o hsk _ ih =>
    intro ns hn
    cases hn with
    | skip _ hn => exact ih hn
    | own hsk' => rw [hsk] at hsk'; cases hsk'
    | flat hsk' => rw [hsk] at hsk'; cases hsk'
  | @leftOut f fs o hsk _ _ ih =>
    intro ns hn e he
    cases hn with
    | skip hsk' => rw [hsk] at hsk'; cases hsk'
    | own _ _ hn => exact List.mem_cons_of_mem _ (ih hn e he)
    | flat _ _ _ _ _ hn => exact List.mem_append_right _ (ih hn e he)
  | @member f fs o x hsk hfl _ _ _ ih =>
    intro ns hn e he
    cases hn with
    | skip hsk' => rw [hsk] at hsk'; cases hsk'
    | own _ _ hn =>
      rcases List.mem_cons.1 he with rfl | he
      · exact List.mem_cons_self ..
      · exact List.mem_cons_of_mem _ (ih hn e he)
    | flat _ hfl' => rw [hfl] at hfl'; cases hfl'
  | @flatten f fs o p hsk hfl hm _ ih =>
    intro ns hn e he
    cases hn with
    | skip hsk' => rw [hsk] at hsk'; cases hsk'
    | own _ hfl' => rw [hfl] at hfl'; cases hfl'
    | @flat _ _ ns c gs ms _ _ hd hc hg hn =>
      have ht : TypeNames decl I.base (I.base f.ty) ms := ⟨c, gs, hd, hc, hg⟩
      rcases List.mem_append.1 he with he | he
      · refine List.mem_append_left _ ?_
        rcases members_struct hS ht hm with h | ⟨rfl, _⟩
        · obtain ⟨p', e', hp⟩ := hS.names _ _ ht _ h
          cases e'
          exact hp e he
        · cases he
      · exact List.mem_append_right _ (ih hn e he)

/-- The attributes of the fields of a struct are harmless, and a flattened field is left out only if it is an
`Option`. -/
def Spec.FieldsOk (I : TypeInfo τ) (fs : List (Field τ)) : Prop :=
  ∀ f ∈ fs, f.skipSer = false → (f.flatten = false → FieldOk f) ∧
    (f.flatten = true → f.skipSerIf = true → I.isOption f.ty = true ∧ f.required = false)

/-- The object has the required members, and its members are valid where they are declared. -/
def Satisfies (D : Dialect) (env : Env) (p : List (String × Json)) (r : List String) (o : List (String × Json)) : Prop :=
  (∀ n ∈ r, ∃ x, (n, x) ∈ o) ∧ ∀ e ∈ o, ∀ s, Obj.get p e.1 = some s → Valid D env s e.2

theorem fields_accept (hF : Sound D env S decl I F) (hA : F A) {cd deny : Bool} {o : List (String × Json)}
    {fs : List (Field τ)} {o0 : List (String × Json)} (h : EncFields S (FieldObeys env) I.base decl fs o0) :
    ∀ {ns : List String} {m0 p0 : List (String × Json)} {r0 : List String} {s : Json},
    FieldNames decl I.base fs ns → ns.Nodup → FieldsOk I fs → (∀ e ∈ o0, e ∈ o) → (∀ e ∈ o, e.1 ∈ ns → e ∈ o0) →
    Shape m0 p0 r0 deny → Obj.Sorted p0 → Satisfies D env p0 r0 o →
    Returns A (structFieldsProg I cd fs (.obj m0)) s →
    ∃ m p r, s = .obj m ∧ Shape m p r deny ∧ Obj.Sorted p ∧ Satisfies D env p r o := by
  -- a flattened field
  have flat : ∀ {f : Field τ} {fs : List (Field τ)} {ms : List String} {m0 p0 : List (String × Json)}
      {r0 : List String} {s : Json}, f.skipSer = false → f.flatten = true →
      TypeNames decl I.base (I.base f.ty) ms →
      ((∃ q, S (I.base f.ty) (.obj q) ∧ (∀ e ∈ q, e ∈ o) ∧ ∀ e ∈ o, e.1 ∈ ms → e ∈ q) ∨
        (I.isOption f.ty = true ∧ f.required = false ∧ ∀ e ∈ o, e.1 ∉ ms)) →
      Shape m0 p0 r0 deny → Obj.Sorted p0 → Satisfies D env p0 r0 o →
      Returns A (structFieldsProg I cd (f :: fs) (.obj m0)) s →
      ∃ m p r, Shape m p r deny ∧ Obj.Sorted p ∧ Satisfies D env p r o ∧
        Returns A (structFieldsProg I cd fs (.obj m)) s := by
    intro f fs ms m0 p0 r0 s hsk hfl ht hq h0 hp hg h
    unfold structFieldsProg at h
    obtain ⟨s1, h1, h2⟩ := res_bind.1 h
    rw [returns_structField, if_pos (by rw [hF.ser A hA]; exact hsk)] at h1
    obtain ⟨s', h1, rfl⟩ := h1
    unfold addField at h2
    rw [hfl] at h2
    simp only [if_true] at h2
    obtain ⟨s2, hd2, rfl⟩ := returns_flattenField hfl h1
    obtain ⟨c3, m3, p3, r3, -, rfl, hs3, hps3, hk3⟩ := type_shape hF ht (hF.ran A hA _ _ hd2)
    obtain ⟨m5, e5, hs5⟩ := hs3.flattenInner (I.isOption f.ty && !f.required)
    simp only [e5] at h2
    obtain ⟨m6, p6, e6, hs6, hps6, hg6⟩ := h0.flatten hs5 hp hps3
    rw [e6] at h2
    refine ⟨m6, p6, _, hs6, hps6, ?_, h2⟩
    have hin : Satisfies D env p3 (if (I.isOption f.ty && !f.required) = true then [] else r3) o := by
      rcases hq with ⟨q, hSq, hqo, hoq⟩ | ⟨ho, hr, hno⟩
      · have hv := hF.direct A hA _ _ hd2 _ hSq
        rw [hs3.valid] at hv
        obtain ⟨q', e, hv1, hv2, -⟩ := hv
        cases e
        constructor
        · intro n hn
          split at hn
          · cases hn
          · obtain ⟨x, hx⟩ := hv1 n hn
            exact ⟨x, hqo _ (Obj.get_mem hx)⟩
        · intro e he s hs
          exact hv2 e (hoq e he ((hk3 e.1).1 ⟨s, hs⟩)) s hs
      · constructor
        · intro n hn
          rw [ho, hr] at hn
          simp at hn
        · intro e he s hs
          exact absurd ((hk3 e.1).1 ⟨s, hs⟩) (hno e he)
    constructor
    · intro n hn
      rcases List.mem_append.1 hn with hn | hn
      · exact hg.1 n hn
      · exact hin.1 n hn
    · intro e he s hs
      rw [hg6] at hs
      cases h3 : Obj.get p3 e.1 with
      | none => rw [h3] at hs; exact hg.2 e he s hs
      | some s3 =>
        rw [h3] at hs
        cases hs
        exact hin.2 e he _ h3
  -- a field of the struct
  have own : ∀ {f : Field τ} {fs : List (Field τ)} {m0 p0 : List (String × Json)} {r0 : List String} {s : Json},
      f.skipSer = false → f.flatten = false → FieldOk f → (f.skipSerIf = false → ∃ x, (f.name.ser, x) ∈ o) →
      (∀ x, (f.name.ser, x) ∈ o → S (fieldType I.base f) x ∧ FieldObeys env f x) →
      Shape m0 p0 r0 deny → Obj.Sorted p0 → Satisfies D env p0 r0 o →
      Returns A (structFieldsProg I cd (f :: fs) (.obj m0)) s →
      ∃ m p r, Shape m p r deny ∧ Obj.Sorted p ∧ Satisfies D env p r o ∧
        Returns A (structFieldsProg I cd fs (.obj m)) s := by
    intro f fs m0 p0 r0 s hsk hfl hok hreq hval h0 hp hg h
    unfold structFieldsProg at h
    obtain ⟨s1, h1, h2⟩ := res_bind.1 h
    rw [returns_structField, if_pos (by rw [hF.ser A hA]; exact hsk)] at h1
    obtain ⟨s', h1, rfl⟩ := h1
    unfold FieldResult at h1
    rw [hfl] at h1
    simp only [Bool.false_eq_true, if_false] at h1
    obtain ⟨s2, h1, rfl⟩ := h1
    obtain ⟨hsch, hacc⟩ := field_accepts hF hA hok h1
    unfold addField at h2
    rw [hfl] at h2
    simp only [Bool.false_eq_true, if_false] at h2
    obtain ⟨m1, e1, h1⟩ := h0.insertProperty (f.name.get A.settings.contract)
      (fieldOptional I cd f A.settings.contract) (insertDefault cd f s2)
    rw [e1] at h2
    refine ⟨m1, _, _, h1, Obj.sorted_insert hp _ _, ?_, h2⟩
    have hname : f.name.get A.settings.contract = f.name.ser := by rw [hF.ser A hA]; rfl
    rw [hname, fieldOptional_eq, hF.ser A hA]
    constructor
    · intro n hn
      rcases List.mem_append.1 hn with hn | hn
      · exact hg.1 n hn
      · by_cases hm : Mandatory I.isOption cd f .serialize
        · simp only [hm, decide_true, Bool.not_true, Bool.false_eq_true, if_false, List.mem_singleton] at hn
          subst hn
          exact hreq hm
        · simp [hm] at hn
    · intro e he s hs
      rw [Obj.get_insert] at hs
      split at hs
      · next hk =>
        cases hs
        rw [valid_insertDefault hsch.sch]
        have := hval e.2 (by rw [hk]; exact he)
        exact hacc _ this.1 this.2
      · exact hg.2 e he s hs
  induction h with
  | nil =>
    intro ns m0 p0 r0 s _ _ _ _ _ h0 hp hg h
    cases h
    exact ⟨m0, p0, r0, rfl, h0, hp, hg⟩
  | @skip f fs o0 hsk _ ih =>
    intro ns m0 p0 r0 s hn hnd hok hsub hcov h0 hp hg h
    cases hn with
    | own hsk' => rw [hsk] at hsk'; cases hsk'
    | flat hsk' => rw [hsk] at hsk'; cases hsk'
    | skip _ hn =>
      unfold structFieldsProg at h
      obtain ⟨s1, h1, h2⟩ := res_bind.1 h
      rw [returns_structField, if_neg (by rw [hF.ser A hA]; simp [NotSkipped, hsk])] at h1
      subst h1
      exact ih hn hnd (fun f hf => hok f (List.mem_cons_of_mem _ hf)) hsub hcov h0 hp hg h2
  | @leftOut f fs o0 hsk hif henc ih =>
    intro ns m0 p0 r0 s hn hnd hok hsub hcov h0 hp hg h
    have hok' : FieldsOk I fs := fun f hf => hok f (List.mem_cons_of_mem _ hf)
    cases hn with
    | skip hsk' => rw [hsk] at hsk'; cases hsk'
    | @own _ _ ns _ hfl hn =>
      rw [List.nodup_cons] at hnd
      have hno : ∀ x, (f.name.ser, x) ∉ o := fun x hx =>
        hnd.1 (enc_names hF.toSerdeFacts henc hn _ (hcov _ hx (List.mem_cons_self ..)))
      obtain ⟨m, p, r, h1, h2, h3, h4⟩ := own hsk hfl ((hok f (List.mem_cons_self ..) hsk).1 hfl)
        (fun h => by rw [hif] at h; cases h) (fun x hx => absurd hx (hno x)) h0 hp hg h
      exact ih hn hnd.2 hok' hsub (fun e he hk => hcov e he (List.mem_cons_of_mem _ hk)) h1 h2 h3 h4
    | @flat _ _ ns c gs ms _ hfl hd hc hgs hn =>
      rw [List.nodup_append] at hnd
      have ho := (hok f (List.mem_cons_self ..) hsk).2 hfl hif
      have hno : ∀ e ∈ o, e.1 ∉ ms := fun e he hk =>
        hnd.2.2 _ hk _ (enc_names hF.toSerdeFacts henc hn _ (hcov e he (List.mem_append_left _ hk))) rfl
      obtain ⟨m, p, r, h1, h2, h3, h4⟩ := flat hsk hfl ⟨c, gs, hd, hc, hgs⟩ (.inr ⟨ho.1, ho.2, hno⟩) h0 hp hg h
      exact ih hn hnd.2.1 hok' hsub (fun e he hk => hcov e he (List.mem_append_right _ hk)) h1 h2 h3 h4
  | @member f fs o0 x hsk hfl hx hkx henc ih =>
    intro ns m0 p0 r0 s hn hnd hok hsub hcov h0 hp hg h
    have hok' : FieldsOk I fs := fun f hf => hok f (List.mem_cons_of_mem _ hf)
    cases hn with
    | skip hsk' => rw [hsk] at hsk'; cases hsk'
    | flat _ hfl' => rw [hfl] at hfl'; cases hfl'
    | @own _ _ ns _ _ hn =>
      rw [List.nodup_cons] at hnd
      have hrest : ∀ e ∈ o0, e.1 ≠ f.name.ser := fun e he hk =>
        hnd.1 (hk ▸ enc_names hF.toSerdeFacts henc hn e he)
      obtain ⟨m, p, r, h1, h2, h3, h4⟩ := own hsk hfl ((hok f (List.mem_cons_self ..) hsk).1 hfl)
        (fun _ => ⟨x, hsub _ (List.mem_cons_self ..)⟩) (fun y hy => by
          rcases List.mem_cons.1 (hcov _ hy (List.mem_cons_self ..)) with h | h
          · cases h; exact ⟨hx, hkx⟩
          · exact absurd rfl (hrest _ h)) h0 hp hg h
      refine ih hn hnd.2 hok' (fun e he => hsub e (List.mem_cons_of_mem _ he)) (fun e he hk => ?_) h1 h2 h3 h4
      rcases List.mem_cons.1 (hcov e he (List.mem_cons_of_mem _ hk)) with h | h
      · rw [h] at hk; exact absurd hk hnd.1
      · exact h
  | @flatten f fs o0 q hsk hfl hm henc ih =>
    intro ns m0 p0 r0 s hn hnd hok hsub hcov h0 hp hg h
    have hok' : FieldsOk I fs := fun f hf => hok f (List.mem_cons_of_mem _ hf)
    cases hn with
    | skip hsk' => rw [hsk] at hsk'; cases hsk'
    | own _ hfl' => rw [hfl] at hfl'; cases hfl'
    | @flat _ _ ns c gs ms _ _ hd hc hgs hn =>
      rw [List.nodup_append] at hnd
      have ht : TypeNames decl I.base (I.base f.ty) ms := ⟨c, gs, hd, hc, hgs⟩
      have hin : ∀ e ∈ o, e.1 ∈ ms → e ∈ q := fun e he hk => by
        rcases List.mem_append.1 (hcov e he (List.mem_append_left _ hk)) with h | h
        · exact h
        · exact absurd rfl (hnd.2.2 _ hk _ (enc_names hF.toSerdeFacts henc hn e h))
      have hq := members_struct hF.toSerdeFacts ht hm
      obtain ⟨m, p, r, h1, h2, h3, h4⟩ := flat hsk hfl ht (by
        rcases hq with hq | ⟨rfl, ho⟩
        · exact .inl ⟨q, hq, fun e he => hsub e (List.mem_append_left _ he), hin⟩
        · exact .inr ⟨ho.1, ho.2, fun e he hk => absurd (hin e he hk) (by simp)⟩) h0 hp hg h
      refine ih hn hnd.2.1 hok' (fun e he => hsub e (List.mem_append_right _ he)) (fun e he hk => ?_) h1 h2 h3 h4
      rcases List.mem_append.1 (hcov e he (List.mem_append_right _ hk)) with h | h
      · rcases hq with hq | ⟨rfl, _⟩
        · obtain ⟨q', e', hp⟩ := hF.names _ _ ht _ hq
          cases e'
          exact absurd rfl (hnd.2.2 _ (hp e h) _ hk)
        · cases h
      · exact h

/-- The fields of a struct have distinct names, and attributes that do not restrict the schema further. -/
structure Spec.StructOk (decl : τ → Decl τ) (I : TypeInfo τ) (fs : List (Field τ)) (ns : List String) : Prop where
  names : FieldNames decl I.base fs ns
  nodup : ns.Nodup
  fields : FieldsOk I fs

theorem propsAre_unique {m p p' : List (String × Json)} (h : PropsAre m p) (h' : PropsAre m p') : p = p' := by
  rcases h with ⟨h, rfl⟩ | h <;> rcases h' with ⟨h', rfl⟩ | h' <;> rw [h] at h'
  · cases h'
  · cases h'
  · injection h' with h'; injection h'

/-- The schema of a struct accepts what serde writes for it. -/
theorem struct_accepts (hF : Sound D env S decl I F) (hA : F A) {cd deny : Bool} {fs : List (Field τ)}
    {ns : List String} (hok : StructOk decl I fs ns) (h : Returns A (structProg I fs cd deny) s) :
    ∃ m p r, s = .obj m ∧ Shape m p r deny ∧ Obj.Sorted p ∧ (∀ n, (∃ x, Obj.get p n = some x) ↔ n ∈ ns) ∧
      ∀ o o', EncFields S (FieldObeys env) I.base decl fs o → o'.Perm o → Obj.Sorted o' → Valid D env s (.obj o') := by
  obtain ⟨mi, ei, hi⟩ := shape_start deny
  unfold structProg at h
  rw [ei] at h
  obtain ⟨m, p, r, rfl, hs, hps, hk⟩ := names_shape hF hok.names hA hi List.Pairwise.nil h
  have hk' : ∀ n, (∃ x, Obj.get p n = some x) ↔ n ∈ ns := fun n => by rw [hk]; simp
  refine ⟨m, p, r, rfl, hs, hps, hk', fun o o' henc hperm hsort => ?_⟩
  obtain ⟨m', p', r', e, hs', hps', hsat⟩ := fields_accept hF hA (o := o') henc hok.names hok.nodup hok.fields
    (fun e he => hperm.mem_iff.2 he) (fun e he _ => hperm.mem_iff.1 he) hi List.Pairwise.nil
    ⟨fun n (hn : n ∈ []) => absurd hn (by simp), fun e _ s (hs : Obj.get [] e.1 = some s) => by cases hs⟩ h
  cases e
  rw [hs'.valid]
  refine ⟨o', rfl, fun n hn => ?_, hsat.2, fun _ e he => ?_⟩
  · obtain ⟨x, hx⟩ := hsat.1 n hn
    exact ⟨x, Obj.get_of_mem_sorted hsort hx⟩
  · rw [← propsAre_unique hs.props hs'.props]
    exact (hk' _).2 (enc_names hF.toSerdeFacts henc hok.names e (hperm.mem_iff.1 he))

/-! ### Tuple structs -/

/-- The attributes of the elements are harmless, and none is left out depending on its value. -/
def Spec.TupleOk (fs : List (Field τ)) : Prop :=
  ∀ f ∈ fs, f.skipSer = false → FieldOk f ∧ f.skipSerIf = false

theorem enc_elems {fs : List (Field τ)} {l : List Json} (hok : TupleOk fs) (h : EncElems S (FieldObeys env) I.base fs l) :
    List.Forall₂ (fun f x => S (fieldType I.base f) x ∧ FieldObeys env f x) (present fs .serialize) l := by
  induction h with
  | nil => exact .nil
  | @skip f fs l hsk _ ih =>
    have : present (f :: fs) .serialize = present fs .serialize := by
      unfold present; rw [List.filter_cons, if_neg (by simp [NotSkipped, hsk])]
    rw [this]; exact ih fun g hg => hok g (List.mem_cons_of_mem _ hg)
  | @leftOut f fs l hsk hif _ _ =>
    have := (hok f (List.mem_cons_self ..) hsk).2
    rw [hif] at this; cases this
  | @elem f fs l x hsk hx hkx _ ih =>
    have : present (f :: fs) .serialize = f :: present fs .serialize := by
      unfold present; rw [List.filter_cons, if_pos (by simp [NotSkipped, hsk])]
    rw [this]; exact .cons ⟨hx, hkx⟩ (ih fun g hg => hok g (List.mem_cons_of_mem _ hg))

/-- What the schema of a tuple struct accepts. -/
theorem valid_tupleStruct (hp : D.prefixItems = true) (ss : List Json) : Valid D env (tupleStructSchema ss) j ↔
    ∃ l, j = .arr l ∧ List.Forall₂ (Valid D env) ss l := by
  cases ss with
  | cons a ss => exact C42_tuple hp (a :: ss)
  | nil =>
    rw [show tupleStructSchema [] = emptyArraySchema from rfl, C42_emptyArray]
    constructor
    · rintro rfl; exact ⟨[], rfl, .nil⟩
    · rintro ⟨l, rfl, h⟩; cases h; rfl

theorem returns_tuple (hser : A.settings.contract = .serialize) {fs : List (Field τ)}
    (h : Returns A (tupleStructProg I fs) s) :
    ∃ ss, List.Forall₂ (fun f s => Returns A (fieldProg I f false) s) (present fs .serialize) ss ∧
      s = tupleStructSchema ss := by
  unfold tupleStructProg at h
  rw [res_collect] at h
  obtain ⟨ss, h1, h2⟩ := h
  refine ⟨ss, ?_, h2⟩
  rw [hser, List.filter_map, List.forall₂_map_left_iff] at h1
  have : present fs .serialize = fs.filter ((fun e : (Contract → Bool) × Prog τ => e.1 .serialize) ∘
      fun f => (f.included, fieldProg I f false)) := by
    unfold present
    apply List.filter_congr
    intro f _
    simp only [Function.comp_apply]
    rw [included_eq]
  rw [this]; exact h1

theorem nullable_tuple (ss : List Json) : Nullable D env (tupleStructSchema ss) := by
  unfold tupleStructSchema
  cases ss with
  | nil => exact nullable_mkObj rfl (by decide)
  | cons a ss =>
    refine nullable_lit (by simp [Obj.keys]) (by simp [Schema.hasType, Schema.get, Obj.get_cons]) ?_
    simp only [List.isEmpty_cons, Bool.false_eq_true, if_false, List.cons_append, List.nil_append, List.mem_cons,
      List.not_mem_nil, or_false, forall_eq_or_imp, forall_eq]
    decide

theorem Shape.nullable {m p : List (String × Json)} {r : List String} {deny : Bool} (h : Shape m p r deny) :
    Nullable D env (.obj m) := by
  refine nullable_own h.sorted ?_ fun k v hk => ?_
  · unfold Schema.hasType
    simp only [Schema.get, h.type]
    rfl
  · by_cases ha : k ∈ annotations
    · exact .inr (.inr (List.mem_append_left _ ha))
    · by_cases hb : k ∈ ["type", "properties", "required", "additionalProperties"]
      · exact (by decide : ∀ k ∈ ["type", "properties", "required", "additionalProperties"],
          k = "type" ∨ k = "enum" ∨ k ∈ nullBlind) k hb
      · rw [h.other k ha hb] at hk; cases hk

theorem tuple_accepts (hM : Modern D env) (hF : Sound D env S decl I F) (hA : F A) {fs : List (Field τ)}
    (hok : TupleOk fs) (h : Returns A (tupleStructProg I fs) s) :
    Nullable D env s ∧ ∀ l, EncElems S (FieldObeys env) I.base fs l → Valid D env s (.arr l) := by
  obtain ⟨ss, h1, rfl⟩ := returns_tuple (hF.ser A hA) h
  refine ⟨nullable_tuple ss, fun l hl => ?_⟩
  rw [valid_tupleStruct hM.items]
  refine ⟨l, rfl, ?_⟩
  have h2 := enc_elems hok hl
  have hfs : ∀ f ∈ present fs .serialize, FieldOk f := by
    intro f hf
    unfold present at hf
    rw [List.mem_filter] at hf
    exact (hok f hf.1 (of_decide_eq_true hf.2)).1
  generalize present fs .serialize = gs at h1 h2 hfs
  clear h hl
  induction h1 generalizing l with
  | nil => cases h2; exact .nil
  | @cons f s gs ss hf _ ih =>
    cases h2 with
    | cons hx h2 =>
      exact .cons ((field_accepts hF hA (hfs f (List.mem_cons_self ..)) hf).2 _ hx.1 hx.2)
        (ih _ h2 fun g hg => hfs g (List.mem_cons_of_mem _ hg))

/-! ### The contents of variants -/

/-- The conditions on the fields of a struct or variant. -/
def Spec.ContentOk (decl : τ → Decl τ) (I : TypeInfo τ) : Fields τ → Prop
  | .unit => True
  | .newtype f => FieldOk f
  | .tuple fs => TupleOk fs
  | .struct fs => ∃ ns, StructOk decl I fs ns

/-- The conditions on a variant. -/
structure Spec.VariantOk (decl : τ → Decl τ) (I : TypeInfo τ) (v : Variant τ) : Prop where
  common : Harmless v.common
  noRef : v.refTy = none
  written : ∀ f, v.withTy = none → v.fields = .newtype f → f.skipSer = false
  content : v.withTy = none → ContentOk decl I v.fields

theorem written_eq {v : Variant τ} (hv : VariantOk decl I v) (hw : v.withTy = none) : written v = v.fields := by
  unfold Spec.written
  cases hf : v.fields with
  | newtype f => simp [hv.written f hw hf]
  | _ => rfl

theorem bare_iff {v : Variant τ} (hv : VariantOk decl I v) :
    bare v ↔ (v.isUnit && v.withTy.isNone) = true := by
  unfold bare
  cases hw : v.withTy with
  | some t => simp
  | none =>
    rw [written_eq hv hw]
    unfold Variant.isUnit
    cases v.fields <;> simp

theorem content_accepts (hM : Modern D env) (hF : Sound D env S decl I F) (hA : F A) {v : Variant τ} {deny : Bool}
    (hv : VariantOk decl I v) (h : Returns A (untaggedVariantProg I v deny false) s) :
    Nullable D env s ∧ ∀ j, j.WF → EncVariant S (FieldObeys env) I.base decl v j → Valid D env s j := by
  unfold untaggedVariantProg at h
  simp only [Bool.false_eq_true, if_false] at h
  unfold EncVariant
  cases hw : v.withTy with
  | some t =>
    rw [hw] at h
    obtain ⟨s1, h1, rfl⟩ := h
    exact ⟨hF.nullSub A hA _ _ h1, fun j _ hj => hF.sub A hA _ _ h1 j hj⟩
  | none =>
    rw [hw] at h
    simp only at h ⊢
    have hc := hv.content hw
    rw [written_eq hv hw]
    cases hf : v.fields with
    | unit =>
      rw [hf] at h
      obtain ⟨s1, h1, rfl⟩ := h
      rw [hF.unit A hA _ h1]
      refine ⟨nullable_null, fun j _ hj => ?_⟩
      cases hj
      exact valid_nullSchema.2 rfl
    | newtype f =>
      rw [hf] at h hc
      obtain ⟨h1, h2⟩ := field_accepts hF hA hc h
      exact ⟨h1, fun j _ hj => h2 j hj.1 hj.2⟩
    | tuple fs =>
      rw [hf] at h hc
      obtain ⟨h1, h2⟩ := tuple_accepts hM hF hA hc h
      refine ⟨h1, fun j _ hj => ?_⟩
      obtain ⟨l, rfl, hl⟩ := hj
      exact h2 l hl
    | struct fs =>
      rw [hf] at h hc
      obtain ⟨ns, hc⟩ := hc
      obtain ⟨m, p, r, rfl, hs, -, -, h2⟩ := struct_accepts hF hA hc h
      refine ⟨hs.nullable, fun j hj he => ?_⟩
      obtain ⟨o, he, o', rfl, hp⟩ := he
      exact h2 o o' he hp (by cases hj; assumption)

end

end Verif
