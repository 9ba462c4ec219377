import Verif.Props.AcceptsDerive

/-!
# The schemas of derived enums and containers accept what serde writes
-/

namespace Verif
open Spec

variable {τ : Type}

section
variable {D : Dialect} {env : Env} {S : τ → Json → Prop} {decl : τ → Decl τ} {I : TypeInfo τ}
  {F : Answers τ → Prop} {A : Answers τ} {w : Nat} {j s : Json}

/-! ### Internally tagged variants -/

theorem Shape.kinds {m p : List (String × Json)} {r : List String} {deny : Bool} (h : Shape m p r deny)
    (hp : Obj.Sorted p) : Kinds m where
  sorted := h.sorted
  maps := by
    intro k hk v hv
    simp only [List.mem_cons, List.not_mem_nil, or_false] at hk
    rcases hk with rfl | rfl
    · rcases h.props with ⟨e, -⟩ | e
      · rw [e] at hv; cases hv
      · rw [e] at hv; cases hv; exact ⟨p, rfl, hp⟩
    · rw [h.other _ (by decide) (by decide)] at hv; cases hv
  lists := by
    intro k hk v hv
    simp only [List.mem_cons, List.not_mem_nil, or_false] at hk
    rcases hk with rfl | rfl
    · rcases h.req with ⟨e, -⟩ | e
      · rw [e] at hv; cases hv
      · rw [e] at hv; cases hv; exact ⟨_, rfl⟩
    · rw [h.other _ (by decide) (by decide)] at hv; cases hv
  noNullable := h.other _ (by decide) (by decide)

/-- The schema of a struct has no in-place subschemas. -/
theorem Shape.tsub {m p : List (String × Json)} {r : List String} {deny : Bool} (h : Shape m p r deny) (T : Json → Json) :
    Verif.tsub immSlot T (.obj m) = .obj m := by
  rw [tsub_obj]
  congr 1
  conv => rhs; rw [← List.map_id m]
  apply List.map_congr_left
  intro e he
  have hg := Obj.get_of_mem_sorted h.sorted he
  have hs : immSlot e.1 = .skip := by
    rcases immSlot_cases e.1 with ⟨hk, -⟩ | ⟨hk, -⟩ | ⟨_, _, h⟩
    · rw [h.other e.1 ((by decide : ∀ k ∈ inPlace.one, k ∉ annotations) _ hk)
        ((by decide : ∀ k ∈ inPlace.one, k ∉ ["type", "properties", "required", "additionalProperties"]) _ hk)] at hg
      cases hg
    · rw [h.other e.1 ((by decide : ∀ k ∈ inPlace.list, k ∉ annotations) _ hk)
        ((by decide : ∀ k ∈ inPlace.list, k ∉ ["type", "properties", "required", "additionalProperties"]) _ hk)] at hg
      cases hg
    · exact h
  unfold entryMap
  rw [hs, atSlot_skip]; rfl

theorem perm_cons_facts {o o' : List (String × Json)} {k : String} {x : Json} (hs : Obj.Sorted o')
    (hp : o'.Perm ((k, x) :: o)) : Obj.get o' k = some x ∧ (∀ e ∈ o, e ∈ o' ∧ e.1 ≠ k) ∧
      ∀ e ∈ o', e = (k, x) ∨ e ∈ o := by
  refine ⟨Obj.get_of_mem_sorted hs (hp.mem_iff.2 (List.mem_cons_self ..)), fun e he => ⟨?_, ?_⟩, fun e he => ?_⟩
  · exact hp.mem_iff.2 (List.mem_cons_of_mem _ he)
  · have : (Obj.keys ((k, x) :: o)).Nodup := ((hp.map Prod.fst).nodup_iff).1 (Obj.sorted_nodup hs)
    intro hk
    exact (List.nodup_cons.1 this).1 (List.mem_map.2 ⟨e, he, hk⟩)
  · exact List.mem_cons.1 (hp.mem_iff.1 he)

/-- The tag is added to the schema of a struct in place. -/
theorem internal_of_shape {m p : List (String × Json)} {r : List String} {deny deny' : Bool} {tag name : String}
    (h : Shape m p r deny) (ht : Obj.get p tag = none) {o o' : List (String × Json)}
    (hv : Valid D env (.obj m) (.obj o)) (hs : Obj.Sorted o') (hp : o'.Perm ((tag, .str name) :: o)) :
    Valid D env (applyInternalTag (.obj m) tag name deny') (.obj o') := by
  obtain ⟨m', e, h'⟩ := shape_internal h tag name deny'
  rw [e, h'.valid]
  rw [h.valid] at hv
  obtain ⟨o1, e1, hv1, hv2, hv3⟩ := hv
  cases e1
  obtain ⟨f1, f2, f3⟩ := perm_cons_facts hs hp
  refine ⟨o', rfl, fun n hn => ?_, fun e he s hes => ?_, fun hd e he => ?_⟩
  · rcases List.mem_cons.1 hn with rfl | hn
    · exact ⟨_, f1⟩
    · obtain ⟨x, hx⟩ := hv1 n hn
      exact ⟨x, Obj.get_of_mem_sorted hs (f2 _ (Obj.get_mem hx)).1⟩
  · rcases f3 e he with rfl | he'
    · rw [Obj.get_insert_self] at hes
      cases hes
      exact valid_tagSchema.2 rfl
    · rw [Obj.get_insert_ne _ _ (Ne.symm (f2 e he').2)] at hes
      exact hv2 e he' s hes
  · rcases f3 e he with rfl | he'
    · exact ⟨_, Obj.get_insert_self _ _ _⟩
    · rw [Obj.get_insert_ne _ _ (Ne.symm (f2 e he').2)]
      exact hv3 hd e he'

theorem sch_newRef (r : String) : Sch (Schema.newRef r) := .obj (List.pairwise_singleton _ _)

/-- A reference with annotations. -/
theorem ref_kinds {l : List (Json → Json)} (hl : ∀ f ∈ l, Annotates f) (r : String) :
    ∃ m, runMutators l (Schema.newRef r) = .obj m ∧ Kinds m ∧ ∀ k, k ∉ annotations → k ≠ "$ref" → Obj.get m k = none := by
  have hsort : Obj.Sorted [("$ref", Json.str r)] := List.pairwise_singleton _ _
  obtain ⟨m', e, hs', hg⟩ := runMutators_get hl hsort
  have hnone : ∀ k, k ∉ annotations → k ≠ "$ref" → Obj.get m' k = none := by
    intro k h1 h2
    rw [hg k h1, Obj.get_cons, if_neg (Ne.symm h2)]; rfl
  refine ⟨m', e, ?_, hnone⟩
  refine ⟨hs', ?_, ?_, hnone _ (by decide) (by decide)⟩
  · intro k hk v hv
    rw [hnone k ((by decide : ∀ k ∈ ["properties", "patternProperties"], k ∉ annotations) k hk)
      ((by decide : ∀ k ∈ ["properties", "patternProperties"], k ≠ "$ref") k hk)] at hv; cases hv
  · intro k hk v hv
    rw [hnone k ((by decide : ∀ k ∈ ["required", "allOf"], k ∉ annotations) k hk)
      ((by decide : ∀ k ∈ ["required", "allOf"], k ≠ "$ref") k hk)] at hv; cases hv

/-- A reference accepts what its target accepts. -/
theorem valid_newRef (hD : D.refSiblings = true) {r : String} {v i : Json}
    (hr : ∀ i, (env.ref r i).ok = true ↔ Valid D env v i) :
    Valid D env (Schema.newRef r) i ↔ Valid D env v i := by
  have hsort : Obj.Sorted [("$ref", Json.str r)] := List.pairwise_singleton _ _
  rw [show Schema.newRef r = .obj [("$ref", .str r)] from rfl, valid_get (.inl hD) hsort]
  have hi : EntryOk D env [("$ref", Json.str r)] i "$ref" (.str r) ↔ Valid D env v i := hr i
  rw [← hi]
  constructor
  · intro h; exact h _ _ rfl
  · intro h k v hk
    rw [Obj.get_cons] at hk
    split at hk
    · next hk' => cases hk; rw [← hk']; exact h
    · cases hk

/-- The tag is added to a reference to the schema of a struct. -/
theorem internal_of_ref {l : List (Json → Json)} (hl : ∀ f ∈ l, Annotates f) {r tag name : String} {deny : Bool}
    {m p : List (String × Json)} {req : List String} (hD : D.refSiblings = true) (hm : Shape m p req false)
    (hr : ∀ i, (env.ref r i).ok = true ↔ Valid D env (.obj m) i) (ht : Obj.get p tag = none) {o o' : List (String × Json)}
    (hv : Valid D env (.obj m) (.obj o)) (hj : (Json.obj o').WF) (hp : o'.Perm ((tag, .str name) :: o)) :
    Valid D env (applyInternalTag (runMutators l (Schema.newRef r)) tag name deny) (.obj o') := by
  have hs : Obj.Sorted o' := by cases hj; assumption
  obtain ⟨m', e, hk, hnone⟩ := ref_kinds hl r
  have hval : ∀ i, Valid D env (.obj m') i ↔ Valid D env (.obj m) i := by
    intro i
    rw [← e, runMutators_valid hl (sch_newRef r), valid_newRef hD hr]
  rw [e]
  obtain ⟨f1, f2, f3⟩ := perm_cons_facts hs hp
  rw [C48_internal_open hk (.inl hD) (fun k hk => hnone k ((by decide : ∀ k ∈ restKeys, k ∉ annotations) k hk)
      ((by decide : ∀ k ∈ restKeys, k ≠ "$ref") k hk)) (.inl (hnone _ (by decide) (by decide))) ?_ hj]
  · refine ⟨⟨o', rfl, f1⟩, (hval _).2 ?_⟩
    rw [hm.valid] at hv ⊢
    obtain ⟨o1, e1, hv1, hv2, -⟩ := hv
    cases e1
    refine ⟨o', rfl, fun n hn => ?_, fun e he s hes => ?_, fun h => by cases h⟩
    · obtain ⟨x, hx⟩ := hv1 n hn
      exact ⟨x, Obj.get_of_mem_sorted hs (f2 _ (Obj.get_mem hx)).1⟩
    · rcases f3 e he with rfl | he'
      · rw [ht] at hes; cases hes
      · exact hv2 e he' s hes
  · rintro ⟨m1, x, e1, h1⟩
    cases e1
    rw [hnone "properties" (by decide) (by decide)] at h1
    cases h1

/-- The conditions on a variant of an internally tagged enum: what is written beside the tag is a struct without a
member of that name. -/
def Spec.InternalOk (decl : τ → Decl τ) (I : TypeInfo τ) (tag : String) (v : Variant τ) : Prop :=
  match v.withTy with
  | some t => ∃ ns, TypeNames decl I.base t ns ∧ tag ∉ ns
  | none => match v.fields with
    | .unit => True
    | .newtype f => f.validation = .noAttrs ∧ ∃ ns, TypeNames decl I.base (fieldType I.base f) ns ∧ tag ∉ ns
    | .tuple _ => False
    | .struct fs => ∃ ns, StructOk decl I fs ns ∧ tag ∉ ns

theorem members_type (hS : SerdeFacts S (FieldObeys env) decl I) {t : τ} {ms : List String} {p : List (String × Json)}
    (hn : TypeNames decl I.base t ms) (h : Members S I.base decl t p) : S t (.obj p) := by
  cases h with
  | obj p h => exact h
  | null h => obtain ⟨p, e, -⟩ := hS.names _ _ hn _ h; cases e
  | unitVariant n _ _ _ h => obtain ⟨p, e, -⟩ := hS.names _ _ hn _ h; cases e

theorem regular_shape {m p : List (String × Json)} {r : List String} {deny : Bool} (h : Shape m p r deny)
    (hp : Obj.Sorted p) : Regular (.obj m) := .inl ⟨m, rfl, h.kinds hp⟩

/-- A type that is written as the fields of a struct, beside a tag. -/
theorem internal_type (hF : Sound D env S decl I F) {t : τ} {ns : List String} {tag : String}
    (hn : TypeNames decl I.base t ns) (htag : tag ∉ ns) (hran : RanBody F I decl t s)
    (hv : ∀ j, S t j → Valid D env s j) {l : List (Json → Json)} (hl : ∀ f ∈ l, Annotates f) :
    Regular (runMutators l s) ∧ ∀ (name : String) (deny : Bool) o o', S t (.obj o) → Obj.Sorted o' →
      o'.Perm ((tag, .str name) :: o) → Valid D env (applyInternalTag (runMutators l s) tag name deny) (.obj o') := by
  obtain ⟨c, m, p, r, -, rfl, hs, hps, hk⟩ := type_shape hF hn hran
  obtain ⟨m', e, hs'⟩ := hs.annotate hl
  have htag' : Obj.get p tag = none := by
    cases hg : Obj.get p tag with
    | none => rfl
    | some x => exact absurd ((hk tag).1 ⟨x, hg⟩) htag
  rw [e]
  refine ⟨regular_shape hs' hps, fun name deny o o' ho hsort hperm => ?_⟩
  refine internal_of_shape hs' htag' ?_ hsort hperm
  rw [← e, runMutators_valid hl hs.sch]
  exact hv _ ho

/-- The schema of a variant of an internally tagged enum accepts what serde writes for it. -/
theorem internal_accepts (hM : Modern D env) (hF : Sound D env S decl I F) (hA : F A) {v : Variant τ} {deny : Bool}
    {tag : String} (hv : VariantOk decl I v) (hi : InternalOk decl I tag v)
    (h : Returns A (internalVariantProg I v deny) s) :
    Regular s ∧ ∀ (name : String) o o', EncTagged S (FieldObeys env) I.base decl v o → (Json.obj o').WF →
      o'.Perm ((tag, .str name) :: o) → Valid D env (applyInternalTag s tag name deny) (.obj o') := by
  unfold internalVariantProg at h
  unfold InternalOk at hi
  unfold EncTagged
  have hsort : ∀ {o : List (String × Json)}, (Json.obj o).WF → Obj.Sorted o := fun h => by cases h; assumption
  cases hw : v.withTy with
  | some t =>
    rw [hw] at h hi
    simp only at h hi ⊢
    obtain ⟨ns, hn, htag⟩ := hi
    obtain ⟨s1, h1, rfl⟩ := h
    obtain ⟨h2, h3⟩ := internal_type hF hn htag (hF.ran A hA _ _ h1) (hF.direct A hA _ _ h1) (l := [])
      (fun f hf => by cases hf)
    exact ⟨h2, fun name o o' ho hj hp => h3 name deny o o' (members_type hF.toSerdeFacts hn ho) (hsort hj) hp⟩
  | none =>
    rw [hw] at h hi
    simp only at h hi ⊢
    rw [written_eq hv hw]
    have hc := hv.content hw
    cases hf : v.fields with
    | unit =>
      rw [hf] at h
      obtain ⟨s1, h1, rfl⟩ := h
      rw [hF.unit A hA _ h1]
      constructor
      · refine .inl ⟨_, rfl, List.pairwise_singleton _ _, ?_, ?_, rfl⟩
        · intro k hk v hv
          rw [Obj.get_cons, if_neg (by rintro rfl; exact absurd hk (by decide))] at hv; cases hv
        · intro k hk v hv
          rw [Obj.get_cons, if_neg (by rintro rfl; exact absurd hk (by decide))] at hv; cases hv
      · intro name o o' ho hj hp
        simp only at ho
        subst ho
        rw [C48_internal_unit hj]
        obtain ⟨f1, f2, f3⟩ := perm_cons_facts (hsort hj) hp
        refine ⟨o', rfl, f1, fun _ e he => ?_⟩
        rcases f3 e he with rfl | h
        · rfl
        · cases h
    | tuple fs => rw [hf] at hi; exact hi.elim
    | struct fs =>
      rw [hf] at h hi
      simp only at h hi ⊢
      obtain ⟨ns, hok, htag⟩ := hi
      obtain ⟨m, p, r, rfl, hs, hps, hk, h2⟩ := struct_accepts hF hA hok h
      have htag' : Obj.get p tag = none := by
        cases hg : Obj.get p tag with
        | none => rfl
        | some x => exact absurd ((hk tag).1 ⟨x, hg⟩) htag
      refine ⟨regular_shape hs hps, fun name o o' ho hj hp => ?_⟩
      -- the members other than the tag, sorted
      have hso := hsort hj
      obtain ⟨f1, f2, f3⟩ := perm_cons_facts hso hp
      have hperm : (Obj.remove o' tag).Perm o := by
        unfold Obj.remove
        have h3 := hp.filter fun e => decide (e.1 ≠ tag)
        rw [List.filter_cons, if_neg (by simp)] at h3
        rw [show o.filter (fun e => decide (e.1 ≠ tag)) = o from
          List.filter_eq_self.2 fun e he => by simpa using (f2 e he).2] at h3
        exact h3
      refine internal_of_shape hs htag' (h2 o _ ho hperm (Obj.sorted_remove hso _)) hso ?_
      exact hp.trans (List.Perm.cons _ hperm.symm)
    | newtype f =>
      rw [hf] at h hi hc
      simp only at h hi ⊢
      obtain ⟨hnone, ns, hn, htag⟩ := hi
      have hann := field_annotates ⟨show FieldOk f from hc, hnone⟩
      unfold fieldProg at h
      rw [res_map] at h
      obtain ⟨s0, h0, rfl⟩ := h
      unfold fieldType at hn ⊢
      by_cases hr : f.required = true
      · simp only [hr, if_true] at h0 hn ⊢
        obtain ⟨s1, h1, rfl⟩ := h0
        obtain ⟨h2, h3⟩ := internal_type hF hn htag (hF.ran A hA _ _ h1) (hF.direct A hA _ _ h1) hann
        exact ⟨h2, fun name o o' ho hj hp => h3 name deny o o' (members_type hF.toSerdeFacts hn ho) (hsort hj) hp⟩
      · simp only [hr, if_false, if_true, Bool.false_eq_true] at h0 hn ⊢
        obtain ⟨s1, h1, h2⟩ := h0
        obtain ⟨c, m, p, r, hd, rfl, hs, hps, hk⟩ := type_shape hF hn (hF.ran A hA _ _ h1)
        simp only [Returns, hs.tsub] at h2
        split at h2
        · cases h2
          obtain ⟨h2, h3⟩ := internal_type hF hn htag (hF.ran A hA _ _ h1) (hF.direct A hA _ _ h1) hann
          exact ⟨h2, fun name o o' ho hj hp => h3 name deny o o' (members_type hF.toSerdeFacts hn ho) (hsort hj) hp⟩
        · next hinl =>
          obtain ⟨s2, h3, rfl⟩ := h2
          rcases hF.ranSub A hA _ _ h3 with hran | ⟨r', rfl, hex⟩
          · obtain ⟨h4, h5⟩ := internal_type hF hn htag hran (hF.sub A hA _ _ h3) hann
            exact ⟨h4, fun name o o' ho hj hp => h5 name deny o o' (members_type hF.toSerdeFacts hn ho) (hsort hj) hp⟩
          · obtain ⟨m'', e'', hk'', -⟩ := ref_kinds hann r'
            refine ⟨e'' ▸ .inl ⟨m'', rfl, hk''⟩, fun name o o' ho hj hp => ?_⟩
            have ho := members_type hF.toSerdeFacts hn ho
            obtain ⟨v', hr', hran⟩ := hex _ ho
            obtain ⟨c', m', p', req', hd', rfl, hs', hps', hk'⟩ := type_shape hF hn hran
            rw [hd] at hd'
            cases hd'
            have hdeny : c.denyUnknownFields = false := by
              cases hdn : c.denyUnknownFields with
              | false => rfl
              | true =>
                exfalso
                apply hinl
                have := hs.deny
                rw [hdn] at this
                unfold inlineNewtype
                simp only [Schema.get, this]
                simp [Json.asBool?]
            rw [hdeny] at hs'
            have htag' : Obj.get p' tag = none := by
              cases hg : Obj.get p' tag with
              | none => rfl
              | some x => exact absurd ((hk' tag).1 ⟨x, hg⟩) htag
            refine internal_of_ref hann hM.refs hs' hr' htag' ?_ hj hp
            rw [← valid_newRef hM.refs hr']
            exact hF.sub A hA _ _ h3 _ ho

/-! ### Enums -/

/-- The conditions on an enum. -/
structure Spec.EnumOk (decl : τ → Decl τ) (I : TypeInfo τ) (tag : TagType) (vs : List (Variant τ)) : Prop where
  nonempty : vs ≠ []
  variants : ∀ v ∈ vs, VariantOk decl I v
  internal : ∀ t, tag = .internal t → ∀ v ∈ vs, v.untagged = false → InternalOk decl I t v
  adjacent : ∀ t c, tag = .adjacent t c → t ≠ c
  names : tag ≠ .none → (∀ v ∈ vs, v.untagged = false) →
    ((vs.filter fun v => !v.skipSer).map fun v => v.name.ser).Nodup

theorem presentVariants_ser (vs : List (Variant τ)) :
    presentVariants vs .serialize = vs.filter fun v => !v.skipSer := by
  unfold presentVariants
  refine List.filter_congr fun v _ => ?_
  rw [show decide (VariantPresent v .serialize) = decide (v.skipSer = false) from rfl]
  cases v.skipSer <;> rfl

theorem mem_present {vs : List (Variant τ)} {v : Variant τ} (hv : v ∈ vs) (hs : v.skipSer = false) :
    v ∈ presentVariants vs .serialize := by
  rw [presentVariants_ser, List.mem_filter]
  exact ⟨hv, by simp [hs]⟩

theorem wf_member {o : List (String × Json)} {k : String} {x : Json} (h : (Json.obj o).WF) (hm : (k, x) ∈ o) : x.WF := by
  cases h with
  | obj _ _ h => exact h _ hm

theorem content_external (hM : Modern D env) (hF : Sound D env S decl I F) (hA : F A) {v : Variant τ} {deny : Bool}
    {content : Option Json} (hv : VariantOk decl I v) (hu : v.untagged = false) (h : Content A I deny v content)
    (hj : j.WF) (he : EncEnum S (FieldObeys env) I.base decl .external v j) : ExternalEnc D env v.name.ser content j := by
  unfold EncEnum at he
  rw [hu] at he
  simp only [Bool.false_eq_true, if_false] at he
  rw [bare_iff hv] at he
  unfold Content at h
  by_cases hb : (v.isUnit && v.withTy.isNone) = true
  · rw [if_pos hb] at h
    subst h
    rcases he with ⟨_, h⟩ | ⟨h, _⟩
    · exact h
    · exact absurd hb h
  · rw [if_neg hb] at h
    obtain ⟨s1, h1, rfl⟩ := h
    rcases he with ⟨h, _⟩ | ⟨_, x, rfl, hx⟩
    · exact absurd h hb
    · exact ⟨x, rfl, (content_accepts hM hF hA hv h1).2 x (wf_member hj (List.mem_singleton.2 rfl)) hx⟩

theorem content_adjacent (hM : Modern D env) (hF : Sound D env S decl I F) (hA : F A) {v : Variant τ} {deny : Bool}
    {tag key : String} {content : Option Json} (hv : VariantOk decl I v) (hu : v.untagged = false)
    (h : Content A I deny v content) (hj : j.WF) (he : EncEnum S (FieldObeys env) I.base decl (.adjacent tag key) v j) :
    AdjacentEnc D env tag key deny v.name.ser content j := by
  unfold EncEnum at he
  rw [hu] at he
  simp only [Bool.false_eq_true, if_false] at he
  rw [bare_iff hv] at he
  unfold Content at h
  by_cases hb : (v.isUnit && v.withTy.isNone) = true
  · rw [if_pos hb] at h
    subst h
    rcases he with ⟨_, rfl⟩ | ⟨h, _⟩
    · refine ⟨_, rfl, (Obj.get_cons _ _ _ _).trans (if_pos rfl), fun _ e he => ?_⟩
      rw [List.mem_singleton.1 he]
    · exact absurd hb h
  · rw [if_neg hb] at h
    obtain ⟨s1, h1, rfl⟩ := h
    rcases he with ⟨h, _⟩ | ⟨_, o, x, y, rfl, hp, rfl, hy⟩
    · exact absurd h hb
    · have hs : Obj.Sorted o := by cases hj; assumption
      have hm : (key, y) ∈ o := hp.mem_iff.2 (by simp)
      refine ⟨o, rfl, Obj.get_of_mem_sorted hs (hp.mem_iff.2 (by simp)), ⟨y, Obj.get_of_mem_sorted hs hm, ?_⟩, ?_⟩
      · exact (content_accepts hM hF hA hv h1).2 y (wf_member hj hm) hy
      · intro _ e he
        have := hp.mem_iff.1 he
        simp only [List.mem_cons, List.not_mem_nil, or_false] at this
        rcases this with rfl | rfl
        · exact .inl rfl
        · exact .inr rfl

/-- An untagged variant of any enum. -/
theorem untagged_accepts (hM : Modern D env) (hF : Sound D env S decl I F) (hA : F A) {v : Variant τ} {deny : Bool}
    (hv : VariantOk decl I v) (h : Returns A (untaggedVariantProg I v deny true) s) (hj : j.WF)
    (he : EncVariant S (FieldObeys env) I.base decl v j) : Valid D env s j := by
  obtain ⟨t, h1, h2⟩ := untagged_variant (D := D) (env := env) hv.common
    (fun t ht => (content_accepts hM hF hA hv ht).1.sch) h
  exact (h2 j).2 ((content_accepts hM hF hA hv h1).2 j hj he)

theorem encEnum_untagged {tag : TagType} {v : Variant τ} (hu : v.untagged = true)
    (he : EncEnum S (FieldObeys env) I.base decl tag v j) : EncVariant S (FieldObeys env) I.base decl v j := by
  unfold EncEnum at he
  rwa [if_pos hu] at he

theorem anyOf_variant {es : List (Variant τ × Json)} {l : List Json} {vs : List (Variant τ)} {c : Contract}
    (h : es.map Prod.fst = presentVariants vs c) {v : Variant τ} (hv : v ∈ presentVariants vs c)
    (hval : ∀ e ∈ es, e.1 = v → Valid D env e.2 j) :
    Valid D env (.obj [("anyOf", .arr (l ++ es.map Prod.snd))]) j := by
  rw [← h] at hv
  obtain ⟨e, he, rfl⟩ := List.mem_map.1 hv
  exact valid_anyOf_iff.2 ⟨e.2, List.mem_append_right _ (List.mem_map_of_mem he), hval e he rfl⟩

/-- The schema of an enum accepts what serde writes for it. -/
theorem enum_accepts (hM : Modern D env) (hF : Sound D env S decl I F) (hA : F A) {tag : TagType}
    {vs : List (Variant τ)} {deny : Bool} (hok : EnumOk decl I tag vs) (h : Returns A (enumProg I tag vs deny) s)
    (hj : j.WF) {v : Variant τ} (hv : v ∈ vs) (hs : v.skipSer = false) (he : EncEnum S (FieldObeys env) I.base decl tag v j) :
    Valid D env s j := by
  have hser := hF.ser A hA
  have hr : ∀ v ∈ vs, v.refTy = none := fun v hv => (hok.variants v hv).noRef
  have hc : ∀ v ∈ vs, Harmless v.common := fun v hv => (hok.variants v hv).common
  have hvok := hok.variants v hv
  have hname : v.name.get A.settings.contract = v.name.ser := by rw [hser]; rfl
  have hpres : v ∈ presentVariants vs A.settings.contract := by rw [hser]; exact mem_present hv hs
  by_cases hall : ∀ v ∈ vs, v.untagged = false
  · -- every variant is tagged
    have hn : tag ≠ .none → ((presentVariants vs A.settings.contract).map fun v =>
        v.name.get A.settings.contract).Nodup := by
      intro ht
      rw [hser, presentVariants_ser]
      exact hok.names ht hall
    cases tag with
    | external =>
      obtain ⟨es, hp, hcont, hval, -⟩ := C48_external (D := D) (env := env) hall hr hc (hn (by simp)) h
      obtain ⟨e, he', rfl⟩ := List.mem_map.1 (hp.mem_iff.2 hpres)
      rw [hval j hj]
      refine ⟨e, he', ?_⟩
      rw [hname]
      exact content_external hM hF hA hvok (hall _ hv) (hcont e he') hj he
    | adjacent t c =>
      obtain ⟨es, hp, hcont, hval, -⟩ :=
        C48_adjacent (D := D) (env := env) (hok.adjacent _ _ rfl) hall hr hc (hn (by simp)) h
      rw [← hp] at hpres
      obtain ⟨e, he', rfl⟩ := List.mem_map.1 hpres
      rw [hval j hj]
      refine ⟨e, he', ?_⟩
      rw [hname]
      exact content_adjacent hM hF hA hvok (hall _ hv) (hcont e he') hj he
    | internal t =>
      obtain ⟨es, hp, hcont, hval, -⟩ := C48_internal (D := D) (env := env) hall hr hc (hn (by simp))
        (fun v hv s hs => ⟨(internal_accepts hM hF hA (hok.variants v hv)
          (hok.internal t rfl v hv (hall v hv)) hs).1, .inl hM.refs⟩) h
      rw [← hp] at hpres
      obtain ⟨e, he', rfl⟩ := List.mem_map.1 hpres
      rw [hval j]
      refine ⟨e, he', ?_⟩
      unfold EncEnum at he
      rw [hall _ hv] at he
      simp only [Bool.false_eq_true, if_false] at he
      obtain ⟨o, ho, o', rfl, hperm⟩ := he
      rw [hname]
      exact (internal_accepts hM hF hA hvok (hok.internal t rfl _ hv (hall _ hv)) (hcont e he')).2 _ o o' ho hj hperm
    | none =>
      obtain ⟨es, hp, hcont, hval⟩ := C48_untagged (D := D) (env := env) hr hc
        (fun v hv t ht => (content_accepts hM hF hA (hok.variants v hv) ht).1.sch) h
      rw [← hp] at hpres
      obtain ⟨e, he', rfl⟩ := List.mem_map.1 hpres
      rw [hval j]
      refine ⟨e, he', (content_accepts hM hF hA hvok (hcont e he')).2 j hj ?_⟩
      unfold EncEnum at he
      rwa [hall _ hv] at he
  · -- some variant is untagged
    have hany : ∃ u ∈ vs, u.untagged = true := by
      by_contra hno
      exact hall fun u hu => by
        cases hx : u.untagged with
        | false => rfl
        | true => exact absurd ⟨u, hu, hx⟩ hno
    have hany' : vs.any (·.untagged) = true := List.any_eq_true.2 hany
    unfold enumProg at h
    have hne : ¬ vs.isEmpty = true := by
      intro h0
      rw [List.isEmpty_iff.1 h0] at hv; cases hv
    rw [if_neg hne] at h
    cases tag with
    | external =>
      simp only at h
      unfold externalEnumProg at h
      simp only at h
      obtain ⟨u, hu, hut⟩ := hany
      have hul : u ∈ vs.filter fun v => !v.listed := List.mem_filter.2 ⟨hu, by simp [Variant.listed, hut]⟩
      have hx : ¬ (vs.filter fun v => !v.listed).isEmpty = true := by
        intro h0
        rw [List.isEmpty_iff.1 h0] at hul; cases hul
      rw [if_neg hx] at h
      obtain ⟨l, es, hl, e1, e2, rfl⟩ := returns_variants (fun v hv => hr v (List.mem_filter.1 hv).1) h
      have hany'' : (vs.filter fun v => !v.listed).any (·.untagged) = true := List.any_eq_true.2 ⟨u, hul, hut⟩
      rw [hany'']
      simp only [Bool.not_true, Bool.and_false, Bool.false_eq_true, if_false]
      by_cases hvl : v.listed = true
      · have hmem : v ∈ vs.filter Variant.listed := List.mem_filter.2 ⟨hv, hvl⟩
        have hnl : ¬ (vs.filter Variant.listed).isEmpty = true := by
          intro h0
          rw [List.isEmpty_iff.1 h0] at hmem; cases hmem
        rw [if_neg hnl] at hl
        rcases hl with ⟨h0, -⟩ | ⟨p, s1, h0, h1, rfl⟩
        · cases h0
        · cases h0
          refine valid_anyOf_iff.2 ⟨s1, List.mem_append_left _ (List.mem_singleton.2 rfl), ?_⟩
          unfold unitVariantsProg at h1
          simp only [Returns] at h1
          rw [h1, valid_unitVariants]
          unfold Variant.listed at hvl
          simp only [Bool.and_eq_true, Bool.not_eq_true'] at hvl
          obtain ⟨⟨⟨h2, -, h3⟩, h4⟩, -⟩ := hvl
          unfold EncEnum at he
          rw [h4] at he
          simp only [Bool.false_eq_true, if_false] at he
          rw [bare_iff hvok] at he
          refine ⟨v.name.ser, List.mem_map.2 ⟨v, List.mem_filter.2 ⟨hmem, ?_⟩, hname⟩, ?_⟩
          · rw [variant_included_iff]
            exact of_decide_eq_true (List.mem_filter.1 hpres).2
          · rcases he with ⟨_, h⟩ | ⟨h, _⟩
            · exact h
            · exact absurd (by simp [h2, h3]) h
      · have hmem : v ∈ presentVariants (vs.filter fun v => !v.listed) A.settings.contract := by
          rw [hser]
          exact mem_present (List.mem_filter.2 ⟨hv, by simp [hvl]⟩) hs
        refine anyOf_variant e1 hmem fun e he' hev => ?_
        have h1 := e2 e he'
        rw [hev] at h1
        by_cases hvu : v.untagged = true
        · unfold externalVariantProg at h1
          rw [if_pos hvu] at h1
          exact untagged_accepts hM hF hA hvok h1 hj (encEnum_untagged hvu he)
        · have hvu : v.untagged = false := by simpa using hvu
          obtain ⟨content, hcont, hval⟩ := external_variant (D := D) (env := env) hvu hvok.common h1
          rw [hval j hj, hname]
          exact content_external hM hF hA hvok hvu hcont hj he
    | adjacent t c =>
      simp only at h
      obtain ⟨l, es, -, e1, e2, rfl⟩ := returns_variants hr h
      rw [hany']
      simp only [Bool.not_true, Bool.and_false, Bool.false_eq_true, if_false]
      refine anyOf_variant e1 hpres fun e he' hev => ?_
      have h1 := e2 e he'
      rw [hev] at h1
      by_cases hvu : v.untagged = true
      · unfold adjacentTaggedProg at h1
        rw [if_pos hvu] at h1
        exact untagged_accepts hM hF hA hvok h1 hj (encEnum_untagged hvu he)
      · have hvu : v.untagged = false := by simpa using hvu
        obtain ⟨content, hcont, hval⟩ :=
          adjacent_variant (D := D) (env := env) (hok.adjacent _ _ rfl) hvu hvok.common h1
        rw [hval j hj, hname]
        exact content_adjacent hM hF hA hvok hvu hcont hj he
    | internal t =>
      simp only at h
      obtain ⟨l, es, -, e1, e2, rfl⟩ := returns_variants hr h
      rw [hany']
      simp only [Bool.not_true, Bool.and_false, Bool.false_eq_true, if_false]
      refine anyOf_variant e1 hpres fun e he' hev => ?_
      have h1 := e2 e he'
      rw [hev] at h1
      by_cases hvu : v.untagged = true
      · unfold internalTaggedProg at h1
        rw [if_pos hvu] at h1
        exact untagged_accepts hM hF hA hvok h1 hj (encEnum_untagged hvu he)
      · have hvu : v.untagged = false := by simpa using hvu
        unfold internalTaggedProg at h1
        rw [hvu] at h1
        simp only [Bool.false_eq_true, if_false] at h1
        obtain ⟨s1, h2, h3⟩ := res_bind.1 h1
        simp only [Returns] at h3
        obtain ⟨h4, h5⟩ := internal_accepts hM hF hA hvok (hok.internal t rfl v hv hvu) h2
        rw [h3, runMutators_valid hvok.common.annotates (sch_internal h4 _ _ _), hname]
        unfold EncEnum at he
        rw [hvu] at he
        simp only [Bool.false_eq_true, if_false] at he
        obtain ⟨o, ho, o', rfl, hperm⟩ := he
        exact h5 _ o o' ho hj hperm
    | none =>
      simp only at h
      obtain ⟨l, es, -, e1, e2, rfl⟩ := returns_variants hr h
      simp only [Bool.false_and, Bool.false_eq_true, if_false]
      refine anyOf_variant e1 hpres fun e he' hev => ?_
      have h1 := e2 e he'
      rw [hev] at h1
      refine untagged_accepts hM hF hA hvok h1 hj ?_
      unfold EncEnum at he
      split at he <;> exact he

/-- The schema made for the alternatives, if those that may be an `anyOf` do not mention null in vain. -/
theorem nullable_variants {unique : Bool} {first : Option (Prog τ)} {vs : List (Variant τ)} {f : Variant τ → Prog τ}
    (hr : ∀ v ∈ vs, v.refTy = none) (h1 : ∀ p s, first = some p → Returns A p s → NullIfTyped D env s)
    (h2 : ∀ v ∈ vs, ∀ s, Returns A (f v) s → NullIfTyped D env s)
    (h : Returns A (variantSubschemas unique first (vs.map fun v => (v, f v))) s) : Nullable D env s := by
  obtain ⟨l, es, hl, e1, e2, rfl⟩ := returns_variants hr h
  by_cases hu : (unique && !vs.any (·.untagged)) = true
  · rw [if_pos hu]
    exact nullable_oneOf
  · rw [if_neg hu]
    refine ⟨.obj (List.pairwise_singleton _ _), fun h => (by cases h),
      .anyOf _ _ ((Obj.get_cons _ _ _ _).trans (if_pos rfl)) fun x hx => ?_⟩
    rcases List.mem_append.1 hx with hx | hx
    · rcases hl with ⟨-, rfl⟩ | ⟨p, s1, hp, hs, rfl⟩
      · cases hx
      · rw [List.mem_singleton.1 hx]; exact h1 p s1 hp hs
    · obtain ⟨e, he, rfl⟩ := List.mem_map.1 hx
      have : e.1 ∈ presentVariants vs A.settings.contract := e1 ▸ List.mem_map_of_mem he
      exact h2 e.1 (List.mem_filter.1 this).1 _ (e2 e he)

theorem nullIfTyped_of {t : String} {m : List (String × Json)} (ht : t ≠ "null")
    (h : Obj.get m "type" = some (.str t)) : NullIfTyped D env (.obj m) := by
  intro hn
  unfold Schema.hasType at hn
  simp only [Schema.get, h] at hn
  exact absurd (by simpa using hn) ht

theorem nullIfTyped_lit {t : String} {l : List (String × Json)} (ht : t ≠ "null") (hn : (Obj.keys l).Nodup)
    (h : Obj.get l "type" = some (.str t)) : NullIfTyped D env (mkObj l) := by
  refine nullIfTyped_of (t := t) ht ?_
  rw [get_ofList hn]
  exact h

theorem nullIfTyped_internal (hs : Regular s) (tag name : String) (deny : Bool) :
    NullIfTyped D env (applyInternalTag s tag name deny) := by
  have key : ∀ m, Kinds m → NullIfTyped D env (applyInternalTag (.obj m) tag name deny) := by
    intro m hm
    obtain ⟨m', props, req, e, -, -, -, h⟩ := retagged hm tag name deny
    rw [e]; exact nullIfTyped_of (by decide) h.type
  rcases hs with ⟨m, rfl, hm⟩ | ⟨b, rfl⟩
  · exact key m hm
  · cases b with
    | true =>
      refine key [] ⟨.nil, ?_, ?_, rfl⟩
      · intro k _ v hv; cases hv
      · intro k _ v hv; cases hv
    | false =>
      have hg : ∀ k, k ≠ "not" → Obj.get [("not", Json.obj [])] k = none := by
        intro k hk; rw [Obj.get_cons, if_neg (Ne.symm hk)]; rfl
      refine key [("not", .obj [])] ⟨List.pairwise_singleton _ _, ?_, ?_, rfl⟩
      · intro k hk v hv
        rw [hg k (by rintro rfl; exact absurd hk (by decide))] at hv; cases hv
      · intro k hk v hv
        rw [hg k (by rintro rfl; exact absurd hk (by decide))] at hv; cases hv

theorem nullIfTyped_untagged (hM : Modern D env) (hF : Sound D env S decl I F) (hA : F A) {v : Variant τ} {deny : Bool}
    (hv : VariantOk decl I v) (h : Returns A (untaggedVariantProg I v deny true) s) : NullIfTyped D env s := by
  unfold untaggedVariantProg at h
  simp only [if_true] at h
  obtain ⟨t, h1, h2⟩ := res_bind.1 h
  have h1' : Returns A (untaggedVariantProg I v deny false) t := by
    unfold untaggedVariantProg
    simp only [Bool.false_eq_true, if_false]
    exact h1
  have ht := (content_accepts hM hF hA hv h1').1
  simp only [Returns] at h2
  rw [h2]
  split
  · exact ((ht.put (by decide) _).annotate hv.common.annotates).typed
  · exact (ht.annotate hv.common.annotates).typed

theorem nullable_units {names : List String} : Nullable D env (unitVariantsSchema names) := by
  unfold unitVariantsSchema
  refine nullable_lit (by simp [Obj.keys]) (by simp [Schema.hasType, Schema.get, Obj.get_cons]) ?_
  simp only [List.mem_cons, List.not_mem_nil, or_false, forall_eq_or_imp, forall_eq]
  decide

theorem nullable_enum (hM : Modern D env) (hF : Sound D env S decl I F) (hA : F A) {tag : TagType}
    {vs : List (Variant τ)} {deny : Bool} (hok : EnumOk decl I tag vs) (h : Returns A (enumProg I tag vs deny) s) :
    Nullable D env s := by
  have hr : ∀ v ∈ vs, v.refTy = none := fun v hv => (hok.variants v hv).noRef
  have hunits : ∀ {us : List (Variant τ)} {s}, Returns A (unitVariantsProg us) s → Nullable D env s := by
    intro us s h
    unfold unitVariantsProg at h
    simp only [Returns] at h
    rw [h]; exact nullable_units
  unfold enumProg at h
  rw [if_neg (by rw [List.isEmpty_iff]; exact hok.nonempty)] at h
  cases tag with
  | external =>
    simp only at h
    unfold externalEnumProg at h
    simp only at h
    split at h
    · exact hunits h
    · refine nullable_variants (fun v hv => hr v (List.mem_filter.1 hv).1) ?_ (fun v hv s hs => ?_) h
      · intro p s hp hs
        split at hp
        · cases hp
        · cases hp; exact (hunits hs).typed
      · have hvok := hok.variants v (List.mem_filter.1 hv).1
        unfold externalVariantProg at hs
        split at hs
        · exact nullIfTyped_untagged hM hF hA hvok hs
        · split at hs
          · simp only [Returns] at hs
            subst hs
            refine nullIfTyped_annotate hvok.common.annotates (sch_mkObj _) ?_
            exact nullIfTyped_lit (t := "string") (by decide) (by simp [Obj.keys]) (by simp [Obj.get_cons])
          · simp only [Returns] at hs
            obtain ⟨sub, -, rfl⟩ := res_map.1 hs
            refine nullIfTyped_annotate hvok.common.annotates (sch_mkObj _) ?_
            exact nullIfTyped_lit (t := "object") (by decide) (by simp [Obj.keys]) (by simp [Obj.get_cons])
  | none =>
    exact nullable_variants hr (fun p s hp => by cases hp)
      (fun v hv s hs => nullIfTyped_untagged hM hF hA (hok.variants v hv) hs) h
  | internal t =>
    refine nullable_variants hr (fun p s hp => by cases hp) (fun v hv s hs => ?_) h
    have hvok := hok.variants v hv
    unfold internalTaggedProg at hs
    by_cases hu : v.untagged = true
    · rw [if_pos hu] at hs
      exact nullIfTyped_untagged hM hF hA hvok hs
    · rw [if_neg hu] at hs
      obtain ⟨s1, h2, h3⟩ := res_bind.1 hs
      simp only [Returns] at h3
      have h4 := (internal_accepts hM hF hA hvok (hok.internal t rfl v hv (by simpa using hu)) h2).1
      rw [h3]
      exact nullIfTyped_annotate hvok.common.annotates (sch_internal h4 _ _ _) (nullIfTyped_internal h4 _ _ _)
  | adjacent t c =>
    refine nullable_variants hr (fun p s hp => by cases hp) (fun v hv s hs => ?_) h
    have hvok := hok.variants v hv
    have hadj : ∀ {n : String} {sub : Option Json}, NullIfTyped D env (adjacentSchema t c n deny sub) := by
      intro n sub
      unfold adjacentSchema
      exact nullIfTyped_lit (t := "object") (by decide) (by cases deny <;> simp [Obj.keys]) (by simp [Obj.get_cons])
    unfold adjacentTaggedProg at hs
    split at hs
    · exact nullIfTyped_untagged hM hF hA hvok hs
    · split at hs
      · simp only [Returns] at hs
        subst hs
        exact nullIfTyped_annotate hvok.common.annotates (sch_mkObj _) hadj
      · simp only [Returns] at hs
        obtain ⟨sub, -, rfl⟩ := res_map.1 hs
        exact nullIfTyped_annotate hvok.common.annotates (sch_mkObj _) hadj

/-! ### Containers -/

/-- The conditions on the data of a derived type. -/
def Spec.DataOk (decl : τ → Decl τ) (I : TypeInfo τ) : DeriveData τ → Prop
  | .struct fields => ContentOk decl I fields
  | .enum tag vs => EnumOk decl I tag vs

/-- The conditions on a derived type. -/
structure Spec.ContainerOk (decl : τ → Decl τ) (I : TypeInfo τ) (c : Container τ) : Prop where
  common : Harmless c.common
  transparent : c.withTy = none → ∀ f, c.transparent = some f → FieldOk f
  data : c.withTy = none → c.transparent = none → c.intoTy = none → DataOk decl I c.data

theorem data_accepts (hM : Modern D env) (hF : Sound D env S decl I F) (hA : F A) {c : Container τ}
    (hok : DataOk decl I c.data) (h : Returns A (dataProg I c) s) :
    Nullable D env s ∧ ∀ j, j.WF → (match c.data with
      | .struct fields => EncContent S (FieldObeys env) I.base decl fields j
      | .enum tag vs => ∃ v ∈ vs, v.skipSer = false ∧ EncEnum S (FieldObeys env) I.base decl tag v j) → Valid D env s j := by
  unfold dataProg at h
  unfold DataOk at hok
  cases hd : c.data with
  | enum tag vs =>
    rw [hd] at h hok
    refine ⟨nullable_enum hM hF hA hok h, fun j hj he => ?_⟩
    obtain ⟨v, hv, hs, he⟩ := he
    exact enum_accepts hM hF hA hok h hj hv hs he
  | struct fields =>
    rw [hd] at h hok
    cases fields with
    | unit =>
      obtain ⟨s1, h1, rfl⟩ := h
      rw [hF.unit A hA _ h1]
      refine ⟨nullable_null, fun j _ hj => ?_⟩
      cases hj
      exact valid_nullSchema.2 rfl
    | newtype f =>
      obtain ⟨h1, h2⟩ := field_accepts hF hA hok h
      exact ⟨h1, fun j _ hj => h2 j hj.1 hj.2⟩
    | tuple fs =>
      obtain ⟨h1, h2⟩ := tuple_accepts hM hF hA hok h
      refine ⟨h1, fun j _ hj => ?_⟩
      obtain ⟨l, rfl, hl⟩ := hj
      exact h2 l hl
    | struct fs =>
      obtain ⟨ns, hc⟩ := hok
      obtain ⟨m, p, r, rfl, hs, -, -, h2⟩ := struct_accepts hF hA hc h
      refine ⟨hs.nullable, fun j hj he => ?_⟩
      obtain ⟨o, he, o', rfl, hp⟩ := he
      exact h2 o o' he hp (by cases hj; assumption)

/-- The schema of a derived type accepts what serde writes for it. -/
theorem container_accepts (hM : Modern D env) (hF : Sound D env S decl I F) (hA : F A) {c : Container τ}
    (hok : ContainerOk decl I c) (h : Returns A (containerProg I c) s) :
    Nullable D env s ∧ ∀ j, j.WF → EncContainer S (FieldObeys env) I.base decl c j → Valid D env s j := by
  unfold containerProg at h
  simp only at h
  obtain ⟨s1, h1, rfl⟩ := res_map.1 h
  suffices hsuf : Nullable D env s1 ∧ ∀ j, j.WF → EncContainer S (FieldObeys env) I.base decl c j → Valid D env s1 j by
    refine ⟨hsuf.1.annotate hok.common.annotates, fun j hj he => ?_⟩
    rw [runMutators_valid hok.common.annotates hsuf.1.sch]
    exact hsuf.2 j hj he
  clear h
  have hser := hF.ser A hA
  unfold EncContainer
  have hdirect : ∀ {t : τ} {s1}, Returns A (.direct t .ret) s1 →
      Nullable D env s1 ∧ ∀ j, j.WF → S t j → Valid D env s1 j := by
    rintro t s1 ⟨s2, h2, rfl⟩
    exact ⟨hF.nullDirect A hA _ _ h2, fun j _ hj => hF.direct A hA _ _ h2 j hj⟩
  cases hw : c.withTy with
  | some t => rw [hw] at h1; exact hdirect h1
  | none =>
    cases ht : c.transparent with
    | some f =>
      rw [hw, ht] at h1
      obtain ⟨h2, h3⟩ := field_accepts hF hA (hok.transparent hw f ht) h1
      exact ⟨h2, fun j _ hj => h3 j hj.1 hj.2⟩
    | none =>
      rw [hw, ht] at h1
      cases hi : c.intoTy with
      | some t =>
        rw [hi] at h1
        cases hfr : c.fromTy with
        | some u =>
          rw [hfr] at h1
          simp only [Returns, hser] at h1
          exact hdirect h1
        | none =>
          rw [hfr] at h1
          simp only [Returns, hser] at h1
          exact hdirect h1
      | none =>
        rw [hi] at h1
        refine data_accepts hM hF hA (hok.data hw ht hi) ?_
        cases hfr : c.fromTy with
        | some u =>
          rw [hfr] at h1
          simp only [Returns, hser] at h1
          exact h1
        | none => rw [hfr] at h1; exact h1

/-- The conditions on a type. -/
def Spec.DeclOk (decl : τ → Decl τ) (I : TypeInfo τ) : Decl τ → Prop
  | .std _ => True
  | .derived c => ContainerOk decl I c

/-- The schema of a type accepts what serde writes for it, if the schemas of the types that it mentions do. -/
theorem body_accepts (hM : Modern D env) (hF : Sound D env S decl I F) (hA : F A) {t : τ}
    (hok : DeclOk decl I (decl t)) (h : Returns A (bodyOf I (decl t)) s) :
    Nullable D env s ∧ ∀ j, j.WF → Encodes w S (FieldObeys env) I.base decl (decl t) j → Valid D env s j := by
  cases hd : decl t with
  | std x =>
    rw [hd] at h
    exact ⟨std_nullable (hF.nullSub A hA) h, fun j hj he => std_accepts hM hF hA h hj he⟩
  | derived c =>
    rw [hd] at h hok
    exact container_accepts hM hF hA hok h

end

end Verif
