import Verif.Props.Enum
import Verif.Props.FlattenInner

/-!
# C48: internally tagged enums
-/

namespace Verif
open Spec

variable {τ : Type}

namespace Spec

/-- The instance is an object whose tag names the variant. -/
def Tagged (tag name : String) (i : Json) : Prop := ∃ o, i = .obj o ∧ Obj.get o tag = some (.str name)

end Spec

section
variable {D : Dialect} {env : Env} {i : Json}

/-- The effect of `apply_internal_enum_variant_tag` on the keywords of a schema. -/
structure Retagged (m m' props : List (String × Json)) (req : List Json) (tag name : String) (deny : Bool) :
    Prop where
  sorted : Obj.Sorted m'
  type : Obj.get m' "type" = some (.str "object")
  properties : Obj.get m' "properties" = some (.obj (Obj.insert props tag (tagSchema name)))
  required : Obj.get m' "required" = some (.arr (.str tag :: req))
  additional : Obj.get m' "additionalProperties" =
    if deny = true ∧ Obj.get m "type" = some (.str "null") then
      some ((Obj.get m "additionalProperties").getD (.bool false)) else Obj.get m "additionalProperties"
  other : ∀ k, k ∉ ["type", "properties", "required", "additionalProperties"] → Obj.get m' k = Obj.get m k

theorem retagged {m : List (String × Json)} (h : Kinds m) (tag name : String) (deny : Bool) :
    ∃ m' props req, applyInternalTag (.obj m) tag name deny = .obj m' ∧ PropsAre m props ∧ ArrAt m "required" req ∧
      Obj.Sorted props ∧ Retagged m m' props req tag name deny := by
  obtain ⟨p, hp, hps⟩ : ∃ p, PropsAre m p ∧ Obj.Sorted p := by
    cases e : Obj.get m "properties" with
    | none => exact ⟨[], .inl ⟨e, rfl⟩, .nil⟩
    | some v =>
      obtain ⟨p, rfl, hs⟩ := h.maps _ (by decide) _ e
      exact ⟨p, .inr e, hs⟩
  obtain ⟨l, hl⟩ : ∃ l, ArrAt m "required" l := by
    cases e : Obj.get m "required" with
    | none => exact ⟨[], .inl ⟨e, rfl⟩⟩
    | some v =>
      obtain ⟨l, rfl⟩ := h.lists _ (by decide) _ e
      exact ⟨l, .inr e⟩
  have h1 : PropsAre (Obj.insert m "type" (.str "object")) p := hp.congr (Obj.get_insert_ne _ _ (by decide))
  have h2 : Obj.entryOr (Obj.insert (Obj.insert m "type" (.str "object")) "properties"
      (.obj (Obj.insert p tag (tagSchema name)))) "required" (.arr []) (unshiftElem (.str tag)) =
      Obj.insert (Obj.insert (Obj.insert m "type" (.str "object")) "properties"
        (.obj (Obj.insert p tag (tagSchema name)))) "required" (.arr (.str tag :: l)) := by
    unfold Obj.entryOr
    rw [Obj.get_insert_ne _ _ (by decide), Obj.get_insert_ne _ _ (by decide)]
    rcases hl with ⟨hl, rfl⟩ | hl <;> rw [hl] <;> rfl
  unfold applyInternalTag Schema.ensureObject
  simp only
  rw [h1.insert, h2]
  have hnull : ((Obj.get m "type").bind Json.asStr? == some "null") = true ↔ Obj.get m "type" = some (.str "null") := by
    rw [beq_iff_eq]
    cases Obj.get m "type" with
    | none => simp
    | some v => cases v <;> simp [Json.asStr?]
  generalize hm3 : Obj.insert (Obj.insert (Obj.insert m "type" (.str "object")) "properties"
        (.obj (Obj.insert p tag (tagSchema name)))) "required" (.arr (.str tag :: l)) = m3
  have hs3 : Obj.Sorted m3 := by
    rw [← hm3]; exact Obj.sorted_insert (Obj.sorted_insert (Obj.sorted_insert h.sorted _ _) _ _) _ _
  have g1 : Obj.get m3 "type" = some (.str "object") := by
    rw [← hm3, Obj.get_insert_ne _ _ (by decide), Obj.get_insert_ne _ _ (by decide), Obj.get_insert_self]
  have g2 : Obj.get m3 "properties" = some (.obj (Obj.insert p tag (tagSchema name))) := by
    rw [← hm3, Obj.get_insert_ne _ _ (by decide), Obj.get_insert_self]
  have g3 : Obj.get m3 "required" = some (.arr (.str tag :: l)) := by
    rw [← hm3, Obj.get_insert_self]
  have g4 : ∀ k, k ∉ ["type", "properties", "required"] → Obj.get m3 k = Obj.get m k := by
    intro k hk
    simp only [List.mem_cons, List.not_mem_nil, or_false, not_or] at hk
    rw [← hm3, Obj.get_insert_ne _ _ (Ne.symm hk.2.2), Obj.get_insert_ne _ _ (Ne.symm hk.2.1),
      Obj.get_insert_ne _ _ (Ne.symm hk.1)]
  refine ⟨_, p, l, rfl, hp, hl, hps, ?_⟩
  by_cases hd : (deny && (Obj.get m "type").bind Json.asStr? == some "null") = true
  · rw [if_pos hd]
    rw [Bool.and_eq_true, hnull] at hd
    unfold Obj.entryOr
    refine ⟨Obj.sorted_insert hs3 _ _, ?_, ?_, ?_, ?_, ?_⟩
    · rw [Obj.get_insert_ne _ _ (by decide), g1]
    · rw [Obj.get_insert_ne _ _ (by decide), g2]
    · rw [Obj.get_insert_ne _ _ (by decide), g3]
    · rw [Obj.get_insert_self, if_pos hd, g4 _ (by decide)]; rfl
    · intro k hk
      simp only [List.mem_cons, List.not_mem_nil, or_false, not_or] at hk
      rw [Obj.get_insert_ne _ _ (Ne.symm hk.2.2.2), g4 k (by simp [hk.1, hk.2.1, hk.2.2.1])]
  · rw [if_neg hd]
    rw [Bool.and_eq_true, hnull] at hd
    refine ⟨hs3, g1, g2, g3, ?_, ?_⟩
    · rw [if_neg hd, g4 _ (by decide)]
    · intro k hk
      simp only [List.mem_cons, List.not_mem_nil, or_false, not_or] at hk
      rw [g4 k (by simp [hk.1, hk.2.1, hk.2.2.1])]

/-- `type`, `properties` and `required` of the result say that the instance has the tag. -/
theorem Retagged.head {m m' props : List (String × Json)} {req : List Json} {tag name : String} {deny : Bool}
    (h : Retagged m m' props req tag name deny) (hn : Obj.get m "nullable" = none) :
    (EntryOk D env m' i "type" (.str "object") ∧
      EntryOk D env m' i "properties" (.obj (Obj.insert props tag (tagSchema name))) ∧
      EntryOk D env m' i "required" (.arr (.str tag :: req))) ↔
    ∃ o, i = .obj o ∧ (∃ x, Obj.get o tag = some x) ∧ requiredOk (.arr req) i = true ∧
      ∀ e ∈ o, ∀ s, (if tag = e.1 then some (tagSchema name) else Obj.get props e.1) = some s → Valid D env s e.2 := by
  have hnull : Obj.get m' "nullable" = none := by rw [h.other _ (by decide), hn]
  rw [entryOk_type hnull, typeMatch_object, entryOk_simple (k := "required") (by decide)]
  constructor
  · rintro ⟨⟨o, rfl⟩, hp, hr⟩
    simp only [simple, requiredOk, List.all_cons, Bool.and_eq_true] at hr
    refine ⟨o, rfl, ?_, by simpa [requiredOk] using hr.2, ?_⟩
    · have := hr.1
      simpa [hasMember, members, Obj.has, Option.isSome_iff_exists] using this
    · intro e he s hs
      refine hp e he s ?_
      show Obj.get (Obj.insert props tag _) e.1 = some s
      rw [Obj.get_insert]; exact hs
  · rintro ⟨o, rfl, ⟨x, hx⟩, hr, hp⟩
    refine ⟨⟨o, rfl⟩, ?_, ?_⟩
    · intro e he s hs
      refine hp e he s ?_
      have : Obj.get (Obj.insert props tag (tagSchema name)) e.1 = some s := hs
      rwa [Obj.get_insert] at this
    · simp only [simple, requiredOk, List.all_cons, Bool.and_eq_true]
      refine ⟨?_, by simpa [requiredOk] using hr⟩
      simp [hasMember, members, Obj.has, hx]

/-- What the result accepts has the tag. -/
theorem Retagged.tagged {m m' props : List (String × Json)} {req : List Json} {tag name : String} {deny : Bool}
    (h : Retagged m m' props req tag name deny) (hn : Obj.get m "nullable" = none)
    (hr : D.refSiblings = true ∨ Obj.get m "$ref" = none) (hv : Valid D env (.obj m') i) : Tagged tag name i := by
  have hr' : D.refSiblings = true ∨ Obj.get m' "$ref" = none := by rw [h.other _ (by decide)]; exact hr
  rw [valid_get hr' h.sorted] at hv
  obtain ⟨o, rfl, ⟨x, hx⟩, -, hp⟩ := (h.head hn).1 ⟨hv _ _ h.type, hv _ _ h.properties, hv _ _ h.required⟩
  refine ⟨o, rfl, ?_⟩
  have := hp (tag, x) (Obj.get_mem hx) _ (if_pos rfl)
  rw [valid_tagSchema] at this
  rw [hx]; exact congrArg _ this

/-- C48: whatever the content of the variant, what its schema accepts has the tag with the name of the variant. -/
theorem C48_tagged {s : Json} {tag name : String} {deny : Bool} (hs : Regular s)
    (hr : D.refSiblings = true ∨ ∀ m, s = .obj m → Obj.get m "$ref" = none)
    (hv : Valid D env (applyInternalTag s tag name deny) i) : Tagged tag name i := by
  have key : ∀ m, Kinds m → (D.refSiblings = true ∨ Obj.get m "$ref" = none) →
      Valid D env (applyInternalTag (.obj m) tag name deny) i → Tagged tag name i := by
    intro m hm hr hv
    obtain ⟨m', props, req, e, -, -, -, h⟩ := retagged hm tag name deny
    rw [e] at hv
    exact h.tagged hm.noNullable hr hv
  rcases hs with ⟨m, rfl, hm⟩ | ⟨b, rfl⟩
  · exact key m hm (hr.imp_right fun h => h m rfl) hv
  · cases b with
    | true =>
      refine key [] ⟨.nil, ?_, ?_, rfl⟩ (.inr rfl) hv
      · intro k _ v hv; cases hv
      · intro k _ v hv; cases hv
    | false =>
      have hg : ∀ k, k ≠ "not" → Obj.get [("not", Json.obj [])] k = none := by
        intro k hk; rw [Obj.get_cons, if_neg (Ne.symm hk)]; rfl
      refine key [("not", .obj [])] ⟨List.pairwise_singleton _ _, ?_, ?_, rfl⟩ (.inr rfl) hv
      · intro k hk v hv
        rw [hg k (by rintro rfl; exact absurd hk (by decide))] at hv; cases hv
      · intro k hk v hv
        rw [hg k (by rintro rfl; exact absurd hk (by decide))] at hv; cases hv

/-- C48: a schema that says nothing about unnamed members, nor about the tag, is met along with the tag. This is
the case of a newtype variant. -/
theorem C48_internal_open {m : List (String × Json)} {tag name : String} {deny : Bool} (hm : Kinds m)
    (hr : D.refSiblings = true ∨ Obj.get m "$ref" = none) (hrest : ∀ k ∈ restKeys, Obj.get m k = none)
    (ht : Obj.get m "type" = none ∨ Obj.get m "type" = some (.str "object")) (htag : ¬ Declares (.obj m) tag)
    (hi : i.WF) :
    Valid D env (applyInternalTag (.obj m) tag name deny) i ↔ Tagged tag name i ∧ Valid D env (.obj m) i := by
  obtain ⟨m', props, req, e, hp, hq, -, h⟩ := retagged hm tag name deny
  have hr' : D.refSiblings = true ∨ Obj.get m' "$ref" = none := by rw [h.other _ (by decide)]; exact hr
  have hnotnull : Obj.get m "type" ≠ some (.str "null") := by
    rcases ht with ht | ht <;> rw [ht] <;> simp
  have hadd : Obj.get m' "additionalProperties" = none := by
    rw [h.additional, if_neg (fun hc => hnotnull hc.2)]; exact hrest _ (by decide)
  have hptag : Obj.get props tag = none := by
    rcases hp with ⟨_, rfl⟩ | hp
    · rfl
    · cases hg : Obj.get props tag with
      | none => rfl
      | some x => exact absurd ⟨m, x, rfl, by rw [hp]; exact hg⟩ htag
  have hsame : ∀ k v, k ∉ ["type", "properties", "required"] → Obj.get m k = some v →
      (EntryOk D env m' i k v ↔ EntryOk D env m i k v) := by
    intro k v hk hv
    have hk4 : k ∉ restKeys := fun hc => by rw [hrest k hc] at hv; cases hv
    by_cases hl : k ∈ linkedKeys
    · refine entryOk_linked hl fun c hc => h.other c ?_
      exact (by decide : ∀ c ∈ linkedKeys, c ∉ ["type", "properties", "required", "additionalProperties"]) c hc
    · exact entryOk_free hl hk4 fun hc => hk (by rw [hc]; decide)
  rw [e, valid_get hr' h.sorted, valid_get hr hm.sorted]
  constructor
  · intro hv
    obtain ⟨o, rfl, ⟨x, hx⟩, hreq, hprops⟩ :=
      (h.head hm.noNullable).1 ⟨hv _ _ h.type, hv _ _ h.properties, hv _ _ h.required⟩
    refine ⟨⟨o, rfl, ?_⟩, ?_⟩
    · have := hprops (tag, x) (Obj.get_mem hx) _ (if_pos rfl)
      rw [valid_tagSchema] at this
      rw [hx]; exact congrArg _ this
    · intro k v hk
      by_cases hk3 : k ∈ ["type", "properties", "required"]
      · simp only [List.mem_cons, List.not_mem_nil, or_false] at hk3
        rcases hk3 with rfl | rfl | rfl
        · rcases ht with ht | ht <;> rw [ht] at hk <;> cases hk
          rw [entryOk_type hm.noNullable, typeMatch_object]; exact ⟨o, rfl⟩
        · rcases hp with ⟨hp, _⟩ | hp <;> rw [hp] at hk <;> cases hk
          rw [entryOk_properties]
          intro e he s hs
          refine hprops e he s ?_
          by_cases hc : tag = e.1
          · rw [← hc, hptag] at hs; cases hs
          · rw [if_neg hc]; exact hs
        · rcases hq with ⟨hq, _⟩ | hq <;> rw [hq] at hk <;> cases hk
          rw [entryOk_simple (by decide)]
          exact hreq
      · rw [← hsame k v hk3 hk]
        refine hv k v ?_
        rw [← hk]
        refine h.other k ?_
        intro hc
        simp only [List.mem_cons, List.not_mem_nil, or_false, not_or] at hc hk3
        rcases hc with hc | hc | hc | hc
        · exact hk3.1 hc
        · exact hk3.2.1 hc
        · exact hk3.2.2 hc
        · rw [hc, hrest _ (by decide)] at hk; cases hk
  · rintro ⟨⟨o, rfl, ho⟩, hv⟩
    have hsort : Obj.Sorted o := by cases hi; assumption
    have hhead := (h.head (D := D) (env := env) (i := .obj o) hm.noNullable).2 ⟨o, rfl, ⟨_, ho⟩, ?_, ?_⟩
    · intro k v hk
      by_cases h1 : k = "type"
      · subst h1; rw [h.type] at hk; cases hk; exact hhead.1
      by_cases h2 : k = "properties"
      · subst h2; rw [h.properties] at hk; cases hk; exact hhead.2.1
      by_cases h3 : k = "required"
      · subst h3; rw [h.required] at hk; cases hk; exact hhead.2.2
      by_cases h4 : k = "additionalProperties"
      · subst h4; rw [hadd] at hk; cases hk
      have hk' : Obj.get m k = some v := by rw [← hk, h.other k (by simp [h1, h2, h3, h4])]
      rw [hsame k v (by simp [h1, h2, h3]) hk']
      exact hv k v hk'
    · rcases hq with ⟨hq, rfl⟩ | hq
      · rfl
      · have := hv _ _ hq
        rw [entryOk_simple (by decide)] at this
        exact this
    · intro e he s hs
      by_cases hc : tag = e.1
      · rw [if_pos hc] at hs; cases hs
        have := Obj.get_of_mem_sorted hsort he
        rw [← hc, ho] at this
        injection this with this
        rw [← this, valid_tagSchema]
      · rw [if_neg hc] at hs
        rcases hp with ⟨_, rfl⟩ | hp
        · cases hs
        · have := hv _ _ hp
          rw [entryOk_properties] at this
          exact this e he s hs

/-- The shape of the schema of a struct variant. -/
theorem shape_internal {m props : List (String × Json)} {req : List String} {deny : Bool}
    (h : Shape m props req deny) (tag name : String) (deny' : Bool) :
    ∃ m', applyInternalTag (.obj m) tag name deny' = .obj m' ∧
      Shape m' (Obj.insert props tag (tagSchema name)) (tag :: req) deny := by
  unfold applyInternalTag Schema.ensureObject
  simp only
  have h1 : PropsAre (Obj.insert m "type" (.str "object")) props := h.props.congr (Obj.get_insert_ne _ _ (by decide))
  rw [h1.insert]
  have h2 : ReqAre (Obj.insert (Obj.insert m "type" (.str "object")) "properties"
      (.obj (Obj.insert props tag (tagSchema name)))) req :=
    h.req.congr (by rw [Obj.get_insert_ne _ _ (by decide), Obj.get_insert_ne _ _ (by decide)])
  rw [h2.unshift, h.type]
  have h3 : ((some (Json.str "object")).bind Json.asStr? == some "null") = false := by decide
  rw [h3, Bool.and_false]
  simp only [Bool.false_eq_true, if_false]
  refine ⟨_, rfl, Obj.sorted_insert (Obj.sorted_insert (Obj.sorted_insert h.sorted _ _) _ _) _ _, ?_, ?_, ?_, ?_, ?_⟩
  · rw [Obj.get_insert_ne _ _ (by decide), Obj.get_insert_ne _ _ (by decide), Obj.get_insert_self]
  · right; rw [Obj.get_insert_ne _ _ (by decide), Obj.get_insert_self]
  · right; rw [Obj.get_insert_self]
  · rw [Obj.get_insert_ne _ _ (by decide), Obj.get_insert_ne _ _ (by decide), Obj.get_insert_ne _ _ (by decide)]
    exact h.deny
  · intro k ha hk
    have e1 : "required" ≠ k := by rintro rfl; exact hk (by decide)
    have e2 : "properties" ≠ k := by rintro rfl; exact hk (by decide)
    have e3 : "type" ≠ k := by rintro rfl; exact hk (by decide)
    rw [Obj.get_insert_ne _ _ e1, Obj.get_insert_ne _ _ e2, Obj.get_insert_ne _ _ e3]
    exact h.other k ha hk

/-- What a schema of an object says, with a tag that it does not mention. -/
theorem C48_internal_shape {m props : List (String × Json)} {req : List String} {deny : Bool}
    (h : Shape m props req deny) {tag name : String} (deny' : Bool) (hp : Obj.get props tag = none) (hq : tag ∉ req)
    (hi : i.WF) :
    Valid D env (applyInternalTag (.obj m) tag name deny') i ↔
      ∃ o, i = .obj o ∧ Obj.get o tag = some (.str name) ∧ Valid D env (.obj m) (.obj (Obj.remove o tag)) := by
  obtain ⟨m', e, h'⟩ := shape_internal h tag name deny'
  rw [e, h'.valid]
  unfold Conforms
  refine exists_congr fun o => and_congr_right fun ho => ?_
  subst ho
  have hsort : Obj.Sorted o := by cases hi; assumption
  rw [h.valid]
  unfold Conforms
  have hrem : ∀ e, e ∈ Obj.remove o tag ↔ e ∈ o ∧ e.1 ≠ tag := by
    intro e; unfold Obj.remove; simp
  constructor
  · rintro ⟨h1, h2, h3⟩
    obtain ⟨x, hx⟩ := h1 tag (by simp)
    have := h2 (tag, x) (Obj.get_mem hx) _ (Obj.get_insert_self _ _ _)
    rw [valid_tagSchema] at this
    refine ⟨by rw [hx]; exact congrArg _ this, _, rfl, ?_, ?_, ?_⟩
    · intro n hn
      have hne : tag ≠ n := by rintro rfl; exact hq hn
      obtain ⟨y, hy⟩ := h1 n (by simp [hn])
      exact ⟨y, by rw [Obj.get_remove_ne _ hne]; exact hy⟩
    · intro e he s hs
      rw [hrem] at he
      exact h2 e he.1 s (by rw [Obj.get_insert_ne _ _ (Ne.symm he.2)]; exact hs)
    · intro hd e he
      rw [hrem] at he
      obtain ⟨s, hs⟩ := h3 hd e he.1
      rw [Obj.get_insert_ne _ _ (Ne.symm he.2)] at hs
      exact ⟨s, hs⟩
  · rintro ⟨ht, o', e', h1, h2, h3⟩
    injection e' with e'; subst e'
    refine ⟨?_, ?_, ?_⟩
    · intro n hn
      rcases List.mem_cons.1 hn with rfl | hn
      · exact ⟨_, ht⟩
      · have hne : tag ≠ n := by rintro rfl; exact hq hn
        obtain ⟨y, hy⟩ := h1 n hn
        rw [Obj.get_remove_ne _ hne] at hy
        exact ⟨y, hy⟩
    · intro e he s hs
      by_cases hc : e.1 = tag
      · rw [hc, Obj.get_insert_self] at hs; cases hs
        have := Obj.get_of_mem_sorted hsort he
        rw [hc, ht] at this
        injection this with this
        rw [← this, valid_tagSchema]
      · rw [Obj.get_insert_ne _ _ (Ne.symm hc)] at hs
        exact h2 e ((hrem e).2 ⟨he, hc⟩) s hs
    · intro hd e he
      by_cases hc : e.1 = tag
      · exact ⟨_, by rw [hc, Obj.get_insert_self]⟩
      · obtain ⟨s, hs⟩ := h3 hd e ((hrem e).2 ⟨he, hc⟩)
        exact ⟨s, by rw [Obj.get_insert_ne _ _ (Ne.symm hc)]; exact hs⟩

/-- C48, a struct variant: the tag, and the members of the struct. -/
theorem C48_internal_struct {A : Answers τ} {I : TypeInfo τ} {cd deny : Bool} {fs : List (Field τ)} {s : Json}
    {tag name : String} (hf : ∀ f ∈ fs, NotSkipped f A.settings.contract → f.flatten = false)
    (ht : ∀ f ∈ fs, NotSkipped f A.settings.contract → f.name.get A.settings.contract ≠ tag)
    (h : Returns A (structProg I fs cd deny) s) (deny' : Bool) (hi : i.WF) :
    Valid D env (applyInternalTag s tag name deny') i ↔
      ∃ o, i = .obj o ∧ Obj.get o tag = some (.str name) ∧ Valid D env s (.obj (Obj.remove o tag)) := by
  obtain ⟨es, e1, -, m, rfl, hs⟩ := returns_struct hf h
  have hpres : ∀ f ∈ present fs A.settings.contract, f.name.get A.settings.contract ≠ tag := by
    intro f hf'
    unfold present at hf'
    rw [List.mem_filter] at hf'
    exact ht f hf'.1 (by simpa using hf'.2)
  refine C48_internal_shape hs deny' ?_ ?_ hi
  · rw [Obj.get_eq_none]
    intro hc
    obtain ⟨x, hx⟩ := Obj.mem_keys.1 hc
    unfold Obj.ofList at hx
    rw [Obj.get_extend] at hx
    have hx' : Obj.get (properties A.settings.contract es).reverse tag = some x := by
      cases hg : Obj.get (properties A.settings.contract es).reverse tag with
      | none => rw [hg] at hx; cases hx
      | some y => rw [hg] at hx; exact hx
    obtain ⟨e, he, hk⟩ := List.mem_map.1 (List.mem_reverse.1 (Obj.get_mem hx'))
    refine hpres e.1 ?_ (congrArg Prod.fst hk)
    rw [← e1]; exact List.mem_map_of_mem he
  · intro hc
    unfold mandatoryNames at hc
    obtain ⟨f, hf', hn⟩ := List.mem_map.1 hc
    exact hpres f (List.mem_filter.1 hf').1 hn

theorem shape_internalUnit (tag name : String) (deny : Bool) : ∃ m, applyInternalTag nullSchema tag name deny = .obj m ∧
    Shape m [(tag, tagSchema name)] [tag] deny := by
  have hk : Kinds [("type", .str "null")] := by
    refine ⟨List.pairwise_singleton _ _, ?_, ?_, rfl⟩
    · intro k hk v hv
      rw [Obj.get_cons, if_neg (by rintro rfl; exact absurd hk (by decide))] at hv; cases hv
    · intro k hk v hv
      rw [Obj.get_cons, if_neg (by rintro rfl; exact absurd hk (by decide))] at hv; cases hv
  obtain ⟨m', props, req, e, hp, hq, -, h⟩ := retagged hk tag name deny
  have hp' : props = [] := by
    rcases hp with ⟨_, h⟩ | h
    · exact h
    · cases h
  have hq' : req = [] := by
    rcases hq with ⟨_, h⟩ | h
    · exact h
    · cases h
  subst hp'; subst hq'
  refine ⟨m', e, h.sorted, h.type, .inr h.properties, .inr h.required, ?_, ?_⟩
  · rw [h.additional]
    cases deny <;> rfl
  · intro k _ hk
    rw [h.other k hk, Obj.get_cons, if_neg (by rintro rfl; exact hk (by decide))]; rfl

/-- C48, a unit variant: the tag; and nothing else, if unknown fields are denied. -/
theorem C48_internal_unit {tag name : String} {deny : Bool} (hi : i.WF) :
    Valid D env (applyInternalTag nullSchema tag name deny) i ↔
      ∃ o, i = .obj o ∧ Obj.get o tag = some (.str name) ∧ (deny = true → ∀ e ∈ o, e.1 = tag) := by
  obtain ⟨m, e, hs⟩ := shape_internalUnit tag name deny
  rw [e, hs.valid]
  unfold Conforms
  refine exists_congr fun o => and_congr_right fun ho => ?_
  subst ho
  have hsort : Obj.Sorted o := by cases hi; assumption
  constructor
  · rintro ⟨h1, h2, h3⟩
    obtain ⟨x, hx⟩ := h1 tag (by simp)
    have := h2 (tag, x) (Obj.get_mem hx) _ ((Obj.get_cons _ _ _ _).trans (if_pos rfl))
    rw [valid_tagSchema] at this
    refine ⟨by rw [hx]; exact congrArg _ this, ?_⟩
    intro hd e he
    obtain ⟨s, hs⟩ := h3 hd e he
    rw [Obj.get_cons] at hs
    by_contra hc
    rw [if_neg (Ne.symm hc)] at hs; cases hs
  · rintro ⟨ht, hd⟩
    refine ⟨?_, ?_, ?_⟩
    · intro n hn
      simp only [List.mem_singleton] at hn
      subst hn; exact ⟨_, ht⟩
    · intro e he s hs
      rw [Obj.get_cons] at hs
      by_cases hc : tag = e.1
      · rw [if_pos hc] at hs; cases hs
        have := Obj.get_of_mem_sorted hsort he
        rw [← hc, ht] at this
        injection this with this
        rw [← this, valid_tagSchema]
      · rw [if_neg hc] at hs; cases hs
    · intro h e he
      exact ⟨_, (Obj.get_cons _ _ _ _).trans (if_pos (hd h e he).symm)⟩

theorem sch_internal {s : Json} (hs : Regular s) (tag name : String) (deny : Bool) :
    Sch (applyInternalTag s tag name deny) := by
  have key : ∀ m, Kinds m → Sch (applyInternalTag (.obj m) tag name deny) := by
    intro m hm
    obtain ⟨m', props, req, e, -, -, -, h⟩ := retagged hm tag name deny
    rw [e]; exact .obj h.sorted
  rcases hs with ⟨m, rfl, hm⟩ | ⟨b, rfl⟩
  · exact key m hm
  · cases b with
    | true =>
      refine key [] ⟨.nil, ?_, ?_, rfl⟩
      · intro k _ v hv; cases hv
      · intro k _ v hv; cases hv
    | false =>
      have hg : ∀ k, k ≠ "not" → Obj.get [("not", Json.obj [])] k = none := by
        intro k hk; rw [Obj.get_cons, if_neg (Ne.symm hk)]; rfl
      refine key [("not", .obj [])] ⟨List.pairwise_singleton _ _, ?_, ?_, rfl⟩
      · intro k hk v hv
        rw [hg k (by rintro rfl; exact absurd hk (by decide))] at hv; cases hv
      · intro k hk v hv
        rw [hg k (by rintro rfl; exact absurd hk (by decide))] at hv; cases hv

/-- C48, internal tags: an instance is accepted iff the schema of a variant, with the tag, accepts it. It then has
the name of this variant as its tag, so no other variant accepts it. -/
theorem C48_internal {A : Answers τ} {I : TypeInfo τ} {deny : Bool} {tag : String} {vs : List (Variant τ)} {r : Json}
    (hu : ∀ v ∈ vs, v.untagged = false) (hr : ∀ v ∈ vs, v.refTy = none) (hc : ∀ v ∈ vs, Harmless v.common)
    (hn : ((presentVariants vs A.settings.contract).map fun v => v.name.get A.settings.contract).Nodup)
    (hs : ∀ v ∈ vs, ∀ s, Returns A (internalVariantProg I v deny) s → Regular s ∧
      (D.refSiblings = true ∨ ∀ m, s = .obj m → Obj.get m "$ref" = none))
    (h : Returns A (enumProg I (.internal tag) vs deny) r) :
    ∃ es : List (Variant τ × Json), es.map Prod.fst = presentVariants vs A.settings.contract ∧
      (∀ e ∈ es, Returns A (internalVariantProg I e.1 deny) e.2) ∧
      (∀ i, Valid D env r i ↔
        ∃ e ∈ es, Valid D env (applyInternalTag e.2 tag (e.1.name.get A.settings.contract) deny) i) ∧
      (∀ i, ∀ e ∈ es, Valid D env (applyInternalTag e.2 tag (e.1.name.get A.settings.contract) deny) i →
        Tagged tag (e.1.name.get A.settings.contract) i) ∧
      ∀ i, ∀ e ∈ es, ∀ e' ∈ es, Tagged tag (e.1.name.get A.settings.contract) i →
        Tagged tag (e'.1.name.get A.settings.contract) i → e = e' := by
  unfold enumProg at h
  by_cases he : vs.isEmpty = true
  · rw [if_pos he] at h
    have : vs = [] := List.isEmpty_iff.1 he
    subst this
    cases h
    refine ⟨[], rfl, by simp, fun i => ?_, by simp, by simp⟩
    constructor
    · intro hv; cases hv
    · rintro ⟨e, he, _⟩; cases he
  rw [if_neg he] at h
  simp only at h
  obtain ⟨l, es, hl, e1, e2, rfl⟩ := returns_variants hr h
  have hl' : l = [] := by
    rcases hl with ⟨_, h⟩ | ⟨p, s, h, _⟩
    · exact h
    · cases h
  subst hl'
  have hany : vs.any (·.untagged) = false := by
    rw [List.any_eq_false]
    intro v hv; rw [hu v hv]; simp
  have hes : ∀ e ∈ es, e.1 ∈ vs := by
    intro e he
    have : e.1 ∈ presentVariants vs A.settings.contract := by
      rw [← e1]; exact List.mem_map_of_mem he
    exact (List.mem_filter.1 this).1
  have hone : ∀ e ∈ es, ∃ s, Returns A (internalVariantProg I e.1 deny) s ∧
      ∀ i, Valid D env e.2 i ↔ Valid D env (applyInternalTag s tag (e.1.name.get A.settings.contract) deny) i := by
    intro e he
    have h1 := e2 e he
    unfold internalTaggedProg at h1
    rw [hu e.1 (hes e he)] at h1
    simp only [Bool.false_eq_true, if_false] at h1
    obtain ⟨s, h2, h3⟩ := res_bind.1 h1
    refine ⟨s, h2, fun i => ?_⟩
    simp only [Returns] at h3
    rw [h3, runMutators_valid (hc e.1 (hes e he)).annotates (sch_internal (hs e.1 (hes e he) s h2).1 _ _ _)]
  obtain ⟨es', e3, e4⟩ := list_choice hone
  have hfst : (es'.map fun x => (x.1.1, x.2)).map Prod.fst = presentVariants vs A.settings.contract := by
    rw [← e1, ← e3, List.map_map, List.map_map]; rfl
  have htag : ∀ i, ∀ x ∈ es', Valid D env x.1.2 i → Tagged tag (x.1.1.name.get A.settings.contract) i := by
    intro i x hx hv
    have hx1 : x.1 ∈ es := by rw [← e3]; exact List.mem_map_of_mem hx
    obtain ⟨h1, h2⟩ := hs x.1.1 (hes _ hx1) _ (e4 x hx).1
    exact C48_tagged h1 h2 (((e4 x hx).2 i).1 hv)
  have hname : ∀ i n n', Tagged tag n i → Tagged tag n' i → n = n' := by
    rintro i n n' ⟨o, rfl, h1⟩ ⟨o', e, h2⟩
    injection e with e; subst e
    rw [h1] at h2; injection h2 with h2; injection h2
  refine ⟨es'.map fun x => (x.1.1, x.2), hfst, ?_, fun i => ?_, ?_, ?_⟩
  · intro e he
    obtain ⟨x, hx, rfl⟩ := List.mem_map.1 he
    exact (e4 x hx).1
  · rw [hany]
    simp only [Bool.not_false, Bool.and_true, if_true, List.nil_append]
    rw [valid_tagged e1 hn]
    · rw [← e3]
      constructor
      · rintro ⟨_, he, hv⟩
        obtain ⟨x, hx, rfl⟩ := List.mem_map.1 he
        exact ⟨_, List.mem_map.2 ⟨x, hx, rfl⟩, ((e4 x hx).2 i).1 hv⟩
      · rintro ⟨_, he, hv⟩
        obtain ⟨x, hx, rfl⟩ := List.mem_map.1 he
        exact ⟨_, List.mem_map.2 ⟨x, hx, rfl⟩, ((e4 x hx).2 i).2 hv⟩
    · rw [← e3]
      intro e he e' he' h1 h2
      obtain ⟨x, hx, rfl⟩ := List.mem_map.1 he
      obtain ⟨y, hy, rfl⟩ := List.mem_map.1 he'
      exact hname i _ _ (htag i x hx h1) (htag i y hy h2)
  · intro i e he hv
    obtain ⟨x, hx, rfl⟩ := List.mem_map.1 he
    exact htag i x hx (((e4 x hx).2 i).2 hv)
  · intro i e he e' he' h1 h2
    refine nodup_names_eq (name := fun e : Variant τ × Json => e.1.name.get A.settings.contract) ?_ he he'
      (hname i _ _ h1 h2)
    rw [← hfst, List.map_map] at hn; exact hn

end

/-! ### Examples -/

/-- `A`, `B(T)` and `C { x: T }`; `B` has another name when it is deserialized, and `C` is not deserialized. -/
private def exampleVariants : List (Variant Bool) :=
  [{ name := ⟨"A", "A"⟩, fields := .unit },
    { name := ⟨"B", "b"⟩, fields := .newtype { name := ⟨"0", "0"⟩, ty := true } },
    { name := ⟨"C", "C"⟩, fields := .struct [{ name := ⟨"x", "x"⟩, ty := true }], skipDe := true }]

private def exampleInfo : TypeInfo Bool := ⟨false, fun _ => false, id, fun _ => false⟩

/-- The unit type is `false`. -/
private def exampleAnswers (c : Contract) : Answers Bool where
  sub t s := s = if t then .obj [("$ref", .str "#/$defs/T")] else nullSchema
  direct t s := s = if t then .obj [("properties", .obj [("y", .bool true)]), ("type", .str "object")] else nullSchema
  root _ s := s = .bool true
  settings := { Settings.draft2020 with contract := c }
  defs _ := True

private def exampleStruct : Json :=
  .obj [("properties", .obj [("x", .obj [("$ref", .str "#/$defs/T")])]), ("required", .arr [.str "x"]),
    ("type", .str "object")]

example : Returns (exampleAnswers .serialize) (enumProg exampleInfo .external exampleVariants false)
    (.obj [("oneOf", .arr [unitVariantsSchema ["A"], newExternalVariant "B" (.obj [("$ref", .str "#/$defs/T")]),
      newExternalVariant "C" exampleStruct])]) :=
  ⟨_, rfl, _, rfl, rfl⟩

example : Returns (exampleAnswers .deserialize) (enumProg exampleInfo .external exampleVariants false)
    (.obj [("oneOf", .arr [unitVariantsSchema ["A"], newExternalVariant "b" (.obj [("$ref", .str "#/$defs/T")])])]) :=
  ⟨_, rfl, rfl⟩

example : Returns (exampleAnswers .serialize) (enumProg exampleInfo (.adjacent "t" "c") exampleVariants true)
    (.obj [("oneOf", .arr [adjacentSchema "t" "c" "A" true none,
      adjacentSchema "t" "c" "B" true (some (.obj [("$ref", .str "#/$defs/T")])),
      adjacentSchema "t" "c" "C" true (some (.obj [("additionalProperties", .bool false),
        ("properties", .obj [("x", .obj [("$ref", .str "#/$defs/T")])]), ("required", .arr [.str "x"]),
        ("type", .str "object")]))])]) :=
  ⟨_, rfl, _, rfl, rfl⟩

example : Returns (exampleAnswers .serialize) (enumProg exampleInfo (.internal "t") exampleVariants false)
    (.obj [("oneOf", .arr [applyInternalTag nullSchema "t" "A" false,
      applyInternalTag (.obj [("$ref", .str "#/$defs/T")]) "t" "B" false,
      applyInternalTag exampleStruct "t" "C" false])]) :=
  ⟨_, rfl, _, rfl, _, rfl, _, rfl, rfl⟩

example : (∀ v ∈ exampleVariants, v.untagged = false) ∧ (∀ v ∈ exampleVariants, v.refTy = none) ∧
    ((presentVariants exampleVariants .serialize).map fun v => v.name.get .serialize).Nodup := by
  unfold exampleVariants; simp [presentVariants, VariantPresent, SerdeName.get]

/-! ### Findings -/

/-- Two variants that hold the same type and are written under the same name: each schema accepts what serde
writes, so `oneOf` accepts it for neither. -/
theorem C48_same_name {D : Dialect} {env : Env} (n : String) :
    Valid D env (newExternalVariant n (.bool true)) (.obj [(n, .null)]) ∧
    ¬ Valid D env (.obj [("oneOf", .arr [newExternalVariant n (.bool true), newExternalVariant n (.bool true)])])
      (.obj [(n, .null)]) := by
  have hwf : (Json.obj [(n, .null)]).WF := .obj _ (List.pairwise_singleton _ _) (by simp; exact .null)
  have hv : Valid D env (newExternalVariant n (.bool true)) (.obj [(n, .null)]) :=
    (valid_external hwf).2 ⟨.null, rfl, rfl⟩
  refine ⟨hv, ?_⟩
  rw [valid_single (by decide)]
  show ¬ List.countP _ _ = 1
  rw [List.countP_cons, List.countP_cons, List.countP_nil]
  have : (den D env (newExternalVariant n (.bool true)) (.obj [(n, .null)])).ok = true := hv
  simp [this]

/-- A newtype variant whose schema is a reference to a schema that denies unknown members: the schema of the
variant accepts nothing, since the denial does not see the tag. -/
theorem C48_internal_reference {D : Dialect} {env : Env} {tag name r : String} {deny : Bool} {i : Json}
    {m props : List (String × Json)} {req : List String} (hD : D.refSiblings = true)
    (hr : ∀ i, (env.ref r i).ok = true ↔ Valid D env (.obj m) i) (hm : Shape m props req true)
    (ht : Obj.get props tag = none) (hi : i.WF) :
    ¬ Valid D env (applyInternalTag (.obj [("$ref", .str r)]) tag name deny) i := by
  intro hv
  have hk : Kinds [("$ref", .str r)] := by
    refine ⟨List.pairwise_singleton _ _, ?_, ?_, rfl⟩
    · intro k hk v hv
      rw [Obj.get_cons, if_neg (by rintro rfl; exact absurd hk (by decide))] at hv; cases hv
    · intro k hk v hv
      rw [Obj.get_cons, if_neg (by rintro rfl; exact absurd hk (by decide))] at hv; cases hv
  rw [C48_internal_open hk (.inl hD) _ (.inl rfl) _ hi] at hv
  · obtain ⟨⟨o, rfl, ho⟩, h2⟩ := hv
    rw [valid_get (.inl hD) (List.pairwise_singleton _ _)] at h2
    have h3 := (hr _).1 (h2 "$ref" _ rfl)
    rw [hm.valid] at h3
    obtain ⟨o', e, -, -, h4⟩ := h3
    injection e with e; subst e
    obtain ⟨s, hs⟩ := h4 rfl _ (Obj.get_mem ho)
    simp only at hs
    rw [ht] at hs; cases hs
  · intro k hk
    rw [Obj.get_cons, if_neg (by rintro rfl; exact absurd hk (by decide))]; rfl
  · rintro ⟨m', x, e, hx⟩
    cases e; cases hx

end Verif
