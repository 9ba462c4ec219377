import Verif.Lemmas.Pipeline

/-!
# C20: what AddNullable leaves behind
-/

namespace Verif
open Spec

/-- The schema has a `type` that mentions "null". -/
def Spec.MentionsNull (s : Json) : Prop :=
  ∃ m t, s = .obj m ∧ Obj.get m "type" = some t ∧ (t = .str "null" ∨ ∃ l, t = .arr l ∧ .str "null" ∈ l)

/-- No element of a `type` array is itself an array. -/
def Spec.TypeOk (s : Json) : Prop := ∀ m l, s = .obj m → Obj.get m "type" = some (.arr l) → ∀ l', .arr l' ∉ l

theorem mentionsNull_iff (s : Json) : MentionsNull s ↔ Schema.hasType s "null" = true := by
  cases s with
  | obj m =>
    unfold MentionsNull Schema.hasType Schema.get
    simp only
    constructor
    · rintro ⟨_, t, h, hg, ht⟩
      cases h
      rw [hg]
      rcases ht with rfl | ⟨l, rfl, hl⟩
      · rfl
      · simpa using hl
    · intro h
      split at h
      · next l hg => exact ⟨m, _, rfl, hg, .inr ⟨l, rfl, by simpa using h⟩⟩
      · next t hg => exact ⟨m, _, rfl, hg, .inl (by simpa using h)⟩
      · cases h
  | _ => simp [MentionsNull, Schema.hasType, Schema.get]

theorem shallow_typeOk : Shallow TypeOk := by
  intro T _ s h m l hm hg
  cases s with
  | obj o =>
    rw [tsub_obj] at hm; cases hm
    rw [get_entryMap_skip o (by decide)] at hg
    exact h o l rfl hg
  | _ => cases hm

theorem retainNonNull_ok {l : List Json} (h : ∀ l', .arr l' ∉ l) :
    retainNonNull (.arr l) ≠ .str "null" ∧ ∀ l', retainNonNull (.arr l) = .arr l' → .str "null" ∉ l' := by
  unfold retainNonNull
  simp only
  split
  · next x hx =>
    have : x ∈ l.filter fun v => v != .str "null" := by rw [hx]; simp
    simp at this
    refine ⟨this.2, ?_⟩
    rintro l' rfl
    exact absurd this.1 (h l')
  · refine ⟨(fun e => by cases e), ?_⟩
    intro l' e; cases e; simp

theorem hasType_cases {m : List (String × Json)} {ty : String} (h : Schema.hasType (.obj m) ty = true) :
    Obj.get m "type" = some (.str ty) ∨ ∃ l, Obj.get m "type" = some (.arr l) ∧ .str ty ∈ l := by
  unfold Schema.hasType Schema.get at h
  simp only at h
  split at h
  · next l hg => exact .inr ⟨l, hg, by simpa using h⟩
  · next t hg => exact .inl (by rw [hg]; simp at h; rw [h])
  · cases h

theorem nullableMembers_type (c : NullableCfg) (hc : c.removeNullType = true) {m : List (String × Json)}
    {ty : Json} (hg : Obj.get m "type" = some ty) :
    Obj.get (nullableMembers c m ty) "type" =
      if onlyAllowsNull ty then (if c.addConstNull then none else some (.arr [])) else some (retainNonNull ty) := by
  unfold nullableMembers
  simp only [hc, if_true]
  split
  · split
    · simp
    · rw [Obj.get_modify, if_pos rfl, Obj.get_insert_ne _ _ (by decide), hg]; rfl
  · rw [Obj.get_modify, if_pos rfl, Obj.get_insert_ne _ _ (by decide), hg]; rfl

theorem addNullableLocal_noNull (c : NullableCfg) (hc : c.removeNullType = true) {s : Json} (hs : IsSchema s)
    (h : TypeOk s) : ¬ MentionsNull (addNullableLocal c s) := by
  cases hs with
  | bool b => rw [addNullableLocal_bool]; rintro ⟨m, _, hm, _⟩; cases hm
  | obj m =>
    by_cases hn : Schema.hasType (.obj m) "null" = true
    · rw [addNullableLocal_obj]
      have hcase := hasType_cases hn
      have : ∃ ty, Obj.get m "type" = some ty := by
        rcases hcase with h1 | ⟨l, h1, _⟩ <;> exact ⟨_, h1⟩
      obtain ⟨ty, hty⟩ := this
      rw [hty]
      simp only [hn, if_true]
      rintro ⟨_, t, hm, hg, ht⟩
      cases hm
      rw [nullableMembers_type c hc hty] at hg
      split at hg
      · split at hg
        · cases hg
        · cases hg; rcases ht with e | ⟨l, e, hl⟩
          · cases e
          · cases e; simp at hl
      · next hno =>
        cases hg
        rcases hcase with h1 | ⟨l, h1, _⟩
        · rw [hty] at h1; cases h1; simp [onlyAllowsNull] at hno
        · rw [hty] at h1; cases h1
          obtain ⟨h2, h3⟩ := retainNonNull_ok (h m l rfl hty)
          rcases ht with e | ⟨l', e, hl⟩
          · exact h2 e
          · exact h3 l' e hl
    · have : addNullableLocal c (.obj m) = .obj m := by
        unfold addNullableLocal; rw [if_neg hn]
      rw [this, mentionsNull_iff]; exact hn

/-- C20, full claim about the shape: no subschema of the result has a `type` that mentions "null", when
`remove_null_type` is set. It fails for a malformed `type`, see `C20_Full_false`. -/
def C20_Full : Prop := ∀ c s, c.removeNullType = true → IsSchema s →
  Everywhere visited (fun x => ¬ MentionsNull x) (addNullable c s)

/-- C20: no `type` mentions "null" afterwards, provided that no element of a `type` array is an array (JSON
Schema requires strings). -/
theorem C20_no_null_partial (c : NullableCfg) (hc : c.removeNullType = true) {s : Json} (hs : IsSchema s)
    (h : Everywhere visited TypeOk s) : Everywhere visited (fun x => ¬ MentionsNull x) (addNullable c s) :=
  everywhere_keep (addNullableLocal_preserves c) shallow_typeOk
    (fun _ hs h => addNullableLocal_noNull c hc hs h)
    (fun _ _ hs _ hx => .inl (addNullableLocal_subs hs hx)) hs h

/-- C20: without that condition the claim fails. -/
theorem C20_Full_false : ¬ C20_Full := by
  intro h
  refine h ⟨true, true⟩ (.obj [("type", .arr [.str "null", .arr [.str "null"]])]) rfl (.obj _) _ (.self _) ?_
  exact ⟨_, .arr [.str "null"], rfl, by decide, .inr ⟨_, rfl, by decide⟩⟩

/-- C20: at every location a schema whose `type` allows null gets `nullable: true`, one whose `type` does not
allow null is unchanged, apart from its subschemas. Keywords other than `nullable`, `const` and `type` keep
their values. -/
theorem C20_nullable (c : NullableCfg) {s : Json} {p : List Step} {m : List (String × Json)}
    (h : Locate visited s p (.obj m)) :
    ∃ m', Locate visited (addNullable c s) p (.obj m') ∧
      (MentionsNull (.obj m) → Obj.get m' "nullable" = some (.bool true)) ∧
      (¬ MentionsNull (.obj m) → ∀ k, NotTraversed k → Obj.get m' k = Obj.get m k) ∧
      ∀ k, NotTraversed k → k ∉ ["nullable", "const", "type"] → Obj.get m' k = Obj.get m k := by
  have hl := postOrder_locate (addNullable_keeps c) (addNullableLocal_preserves c) h
  rw [postOrder_eq _ (.obj m), tsub_obj] at hl
  have hmn : Schema.hasType (.obj (m.map (entryMap subSlot (postOrder (addNullableLocal c))))) "null" =
      Schema.hasType (.obj m) "null" := hasType_tsub _ m "null"
  obtain ⟨m', h1, h2⟩ := addNullableLocal_get c (m.map (entryMap subSlot (postOrder (addNullableLocal c))))
  refine ⟨m', h1 ▸ hl, ?_, ?_, fun k hk hne => by rw [h2 k hne, get_entryMap_skip m (slot_skip hk)]⟩
  · intro hm
    rw [mentionsNull_iff] at hm
    rw [addNullableLocal_obj, hmn, hm] at h1
    simp only [if_true] at h1
    split at h1
    · cases h1
      unfold nullableMembers
      simp only
      split
      · split
        · split
          · rw [Obj.get_remove_ne _ (by decide), Obj.get_insert_ne _ _ (by decide)]; simp
          · rw [Obj.get_insert_ne _ _ (by decide)]; simp
        · split
          · rw [Obj.get_modify, if_neg (by decide)]; simp
          · simp
      · split
        · rw [Obj.get_modify, if_neg (by decide)]; simp
        · simp
    · next hn =>
      exfalso
      rw [get_entryMap_skip m (by decide)] at hn
      simp [Schema.hasType, Schema.get, hn] at hm
  · intro hm k hk
    rw [mentionsNull_iff] at hm
    rw [addNullableLocal_obj, hmn] at h1
    simp only [hm] at h1
    have : m' = m.map (entryMap subSlot (postOrder (addNullableLocal c))) := by
      split at h1 <;> exact (Json.obj.inj h1).symm
    rw [this, get_entryMap_skip m (slot_skip hk)]

example : addNullable ⟨true, true⟩ (.obj [("items", .obj [("type", .arr [.str "string", .str "null"])])]) =
    .obj [("items", .obj [("nullable", .bool true), ("type", .str "string")])] := by decide
example : addNullable ⟨true, true⟩ (.obj [("type", .str "null")]) =
    .obj [("const", .null), ("nullable", .bool true)] := by decide
example : addNullable ⟨false, true⟩ (.obj [("type", .str "null")]) =
    .obj [("const", .null), ("nullable", .bool true), ("type", .str "null")] := by decide
example : addNullable ⟨true, false⟩ (.obj [("type", .str "null")]) =
    .obj [("nullable", .bool true), ("type", .arr [])] := by decide
example : MentionsNull (.obj [("type", .arr [.str "string", .str "null"])]) :=
  ⟨_, .arr [.str "string", .str "null"], rfl, by decide, .inr ⟨_, rfl, by decide⟩⟩
example : TypeOk (.obj [("type", .arr [.str "string", .str "null"])]) := by
  intro m l hm hg l'; cases hm; cases hg; simp

end Verif
