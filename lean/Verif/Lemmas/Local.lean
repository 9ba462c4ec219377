import Verif.Lemmas.Steps

/-!
# The local parts of the post-order transforms
-/

namespace Verif
open Spec

/-- The keyword is not traversed. -/
abbrev NotTraversed (k : String) : Prop := k ∉ visited.one ∧ k ∉ visited.list ∧ k ∉ visited.map

theorem slot_skip {k : String} (h : NotTraversed k) : subSlot k = .skip := by
  rcases subSlot_cases k with ⟨h1, _, e⟩ | ⟨h1, _, e⟩ | ⟨h1, e⟩ | ⟨h1, e⟩ | ⟨_, _, _, e⟩
  · exact absurd h1 h.1
  · exact absurd h1 h.2.1
  · subst h1; exact absurd (by decide) h.1
  · exact absurd h1 h.2.2
  · exact e

/-! ## Normal forms of the local functions on objects -/

theorem setSingleExampleLocal_obj (m : List (String × Json)) :
    setSingleExampleLocal (.obj m) =
      match Obj.get m "examples" with
      | some (.arr (a :: _)) => .obj (Obj.insert (Obj.remove m "examples") "example" a)
      | _ => .obj (Obj.remove m "examples") := by
  unfold setSingleExampleLocal Schema.remove
  simp only
  rcases Obj.get m "examples" with _ | (_ | _ | _ | _ | (_ | _) | _) <;> rfl

theorem replaceConstLocal_obj (m : List (String × Json)) :
    replaceConstLocal (.obj m) =
      match Obj.get m "const" with
      | some v => .obj (Obj.insert (Obj.remove m "const") "enum" (.arr [v]))
      | none => .obj (Obj.remove m "const") := by
  unfold replaceConstLocal Schema.remove
  simp only
  cases Obj.get m "const" <;> rfl

theorem replacePrefixLocal_obj (m : List (String × Json)) :
    replacePrefixLocal (.obj m) =
      match Obj.get m "prefixItems" with
      | some p =>
        let m1 := Obj.insert (Obj.remove m "prefixItems") "items" p
        match Obj.get m "items" with
        | some v => .obj (Obj.insert m1 "additionalItems" v)
        | none => .obj m1
      | none => .obj (Obj.remove m "prefixItems") := by
  unfold replacePrefixLocal Schema.remove Schema.get
  simp only [Obj.get_remove_ne m (by decide : "prefixItems" ≠ "items")]
  cases Obj.get m "prefixItems" with
  | none => rfl
  | some p => simp only; cases Obj.get m "items" <;> rfl

/-! ## Local functions map schemas to schemas -/

theorem removeRefSiblingsLocal_preserves : Preserves removeRefSiblingsLocal := by
  intro s hs
  unfold removeRefSiblingsLocal
  split
  · split
    · split
      · simp only; split <;> exact .obj _
      · exact hs
    · exact hs
  · exact hs

theorem setSingleExampleLocal_preserves : Preserves setSingleExampleLocal := by
  intro s hs
  cases hs with
  | bool b => exact .bool b
  | obj m => rw [setSingleExampleLocal_obj]; split <;> exact .obj _

theorem replaceConstLocal_preserves : Preserves replaceConstLocal := by
  intro s hs
  cases hs with
  | bool b => exact .bool b
  | obj m => rw [replaceConstLocal_obj]; split <;> exact .obj _

theorem replacePrefixLocal_preserves : Preserves replacePrefixLocal := by
  intro s hs
  cases hs with
  | bool b => exact .bool b
  | obj m =>
    rw [replacePrefixLocal_obj]; split
    · simp only; split <;> exact .obj _
    · exact .obj _

theorem put_preserves {s : Json} (h : IsSchema s) (k : String) (v : Json) : IsSchema (Schema.put s k v) := by
  unfold Schema.put; split
  · exact .obj _
  · exact h

theorem remove_preserves {s : Json} (h : IsSchema s) (k : String) : IsSchema (Schema.remove s k).1 := by
  cases h
  · exact .obj _
  · exact .bool _

theorem getMut_preserves {s : Json} (h : IsSchema s) (k : String) (f) : IsSchema (Schema.getMut s k f) := by
  cases h
  · exact .obj _
  · exact .bool _

theorem addNullableLocal_preserves (c : NullableCfg) : Preserves (addNullableLocal c) := by
  intro s hs
  unfold addNullableLocal
  have h1 := put_preserves hs "nullable" (.bool true)
  by_cases hn : Schema.hasType s "null" = true
  · rw [if_pos hn]
    simp only
    split
    · exact h1
    · by_cases h2 : c.addConstNull = true <;> by_cases h3 : c.removeNullType = true <;> simp only [h2, h3] <;>
        split <;> first
        | exact remove_preserves (put_preserves h1 _ _) _
        | exact put_preserves h1 _ _
        | exact getMut_preserves h1 _ _
        | exact h1
  · rw [if_neg hn]; exact hs

theorem replaceUnevalLocal_preserves : Preserves replaceUnevalLocal := by
  intro s hs
  unfold replaceUnevalLocal
  have h1 := remove_preserves hs "unevaluatedProperties"
  revert h1
  generalize Schema.remove s "unevaluatedProperties" = p
  obtain ⟨s1, up⟩ := p
  intro h1
  simp only
  cases up with
  | none => exact h1
  | some up =>
    have h2 := put_preserves h1 "additionalProperties" up
    simp only
    split
    · exact h2
    · split
      · exact put_preserves h2 _ _
      · exact put_preserves h2 _ _
      · exact h2

/-! ## Locations survive a transform whose local part keeps steps -/

/-- The local part does not move or change direct subschemas. -/
def KeepsSteps (f : Json → Json) : Prop :=
  ∀ s st x, StepTo visited s st x → IsSchema x → StepTo visited (f s) st x

theorem postOrder_step {f : Json → Json} (hk : KeepsSteps f) (hp : Preserves f) {s x : Json} {st : Step}
    (hs : IsSchema s) (h : StepTo visited s st x) (hx : IsSchema x) :
    StepTo visited (postOrder f s) st (postOrder f x) := by
  rw [postOrder_eq f hs]
  exact hk _ _ _ (tsub_step h hx) (postOrder_preserves hp x hx)

theorem postOrder_locate {f : Json → Json} (hk : KeepsSteps f) (hp : Preserves f) {s x : Json} {p : List Step}
    (h : Locate visited s p x) : Locate visited (postOrder f s) p (postOrder f x) := by
  induction p generalizing s with
  | nil => cases h with
    | here hs => exact .here (postOrder_preserves hp _ hs)
  | cons st p ih =>
    cases h with
    | step hst hx hl =>
      have hs : IsSchema s := by cases hst <;> exact .obj _
      exact .step (postOrder_step hk hp hs hst hx) (postOrder_preserves hp _ hx) (ih hl)

theorem Spec.Locate.isSchema {V : Vocab} {s x : Json} {p : List Step} (h : Locate V s p x) : IsSchema x := by
  induction h with
  | here h => exact h
  | step _ _ _ ih => exact ih

theorem stepTo_of_get {m m' : List (String × Json)} {st : Step} {x : Json}
    (h : StepTo visited (.obj m) st x) (hk : Obj.get m' st.keyword = Obj.get m st.keyword) :
    StepTo visited (.obj m') st x := by
  cases h with
  | key hg h1 => exact .key (hk.trans hg) h1
  | idx hg h1 h2 => exact .idx (hk.trans hg) h1 h2
  | mem hg h1 h2 => exact .mem (hk.trans hg) h1 h2

theorem stepTo_keyword {s x : Json} {st : Step} (h : StepTo visited s st x) :
    st.keyword ∈ visited.one ++ visited.list ++ visited.map := by
  cases h with
  | key _ h1 => simp only [Step.keyword, List.mem_append]; exact .inl (.inl h1)
  | idx _ h1 _ => simp only [Step.keyword, List.mem_append]; exact .inl (.inr h1)
  | mem _ h1 _ => simp only [Step.keyword, List.mem_append]; exact .inr h1

theorem keepsSteps_of_get {f : Json → Json} {ks : List String}
    (hks : ∀ k ∈ visited.one ++ visited.list ++ visited.map, k ∉ ks)
    (h : ∀ m, ∃ m', f (.obj m) = .obj m' ∧ ∀ k, k ∉ ks → Obj.get m' k = Obj.get m k) : KeepsSteps f := by
  intro s st x hst _
  have : ∃ m, s = .obj m := by cases hst <;> exact ⟨_, rfl⟩
  obtain ⟨m, rfl⟩ := this
  obtain ⟨m', h1, h2⟩ := h m
  rw [h1]
  exact stepTo_of_get hst (h2 _ (hks _ (stepTo_keyword hst)))

theorem setSingleExampleLocal_get (m : List (String × Json)) :
    ∃ m', setSingleExampleLocal (.obj m) = .obj m' ∧ Obj.get m' "examples" = none ∧
      Obj.get m' "example" = (match Obj.get m "examples" with
        | some (.arr (a :: _)) => some a
        | _ => Obj.get m "example") ∧
      ∀ k, k ∉ ["examples", "example"] → Obj.get m' k = Obj.get m k := by
  rw [setSingleExampleLocal_obj]
  split
  · refine ⟨_, rfl, ?_, by simp, ?_⟩
    · rw [Obj.get_insert_ne _ _ (by decide), Obj.get_remove_self]
    · intro k hk
      simp at hk
      rw [Obj.get_insert_ne _ _ (Ne.symm hk.2), Obj.get_remove_ne _ (Ne.symm hk.1)]
  · refine ⟨_, rfl, Obj.get_remove_self _ _, Obj.get_remove_ne _ (by decide), ?_⟩
    intro k hk
    simp at hk
    rw [Obj.get_remove_ne _ (Ne.symm hk.1)]

theorem replaceConstLocal_get (m : List (String × Json)) :
    ∃ m', replaceConstLocal (.obj m) = .obj m' ∧ Obj.get m' "const" = none ∧
      Obj.get m' "enum" = (match Obj.get m "const" with
        | some v => some (.arr [v])
        | none => Obj.get m "enum") ∧
      ∀ k, k ∉ ["const", "enum"] → Obj.get m' k = Obj.get m k := by
  rw [replaceConstLocal_obj]
  split
  · refine ⟨_, rfl, ?_, by simp, ?_⟩
    · rw [Obj.get_insert_ne _ _ (by decide), Obj.get_remove_self]
    · intro k hk
      simp at hk
      rw [Obj.get_insert_ne _ _ (Ne.symm hk.2), Obj.get_remove_ne _ (Ne.symm hk.1)]
  · refine ⟨_, rfl, Obj.get_remove_self _ _, Obj.get_remove_ne _ (by decide), ?_⟩
    intro k hk
    simp at hk
    rw [Obj.get_remove_ne _ (Ne.symm hk.1)]

theorem setSingleExample_keeps : KeepsSteps setSingleExampleLocal :=
  keepsSteps_of_get (ks := ["examples", "example"]) (by decide) (fun m => by
    obtain ⟨m', h1, _, _, h2⟩ := setSingleExampleLocal_get m; exact ⟨m', h1, h2⟩)

theorem replaceConst_keeps : KeepsSteps replaceConstLocal :=
  keepsSteps_of_get (ks := ["const", "enum"]) (by decide) (fun m => by
    obtain ⟨m', h1, _, _, h2⟩ := replaceConstLocal_get m; exact ⟨m', h1, h2⟩)

theorem keepsSteps_removeRefSiblings : KeepsSteps removeRefSiblingsLocal := by
  intro s st x hst hx
  have : ∃ m, s = .obj m := by cases hst <;> exact ⟨_, rfl⟩
  obtain ⟨m, rfl⟩ := this
  have hk := stepTo_keyword hst
  have hne : st.keyword ≠ "$ref" := by intro e; rw [e] at hk; revert hk; decide
  unfold removeRefSiblingsLocal
  simp only
  split
  · split
    · have hrem : StepTo visited (.obj (Obj.remove m "$ref")) st x :=
        stepTo_of_get hst (Obj.get_remove_ne _ hne.symm)
      split
      · next hg =>
        refine stepTo_of_get hrem (Obj.get_insert_ne _ _ ?_)
        intro e
        cases hrem with
        | key hg' _ => simp only [Step.keyword] at e; rw [← e, hg] at hg'; cases hg'
        | idx hg' _ _ => simp only [Step.keyword] at e; rw [← e, hg] at hg'; cases hg'
        | mem hg' _ _ => simp only [Step.keyword] at e; rw [← e, hg] at hg'; cases hg'
      · next l hg =>
        by_cases e : st.keyword = "allOf"
        · cases hrem with
          | key hg' h1 => simp only [Step.keyword] at e; subst e; exact absurd h1 (by decide)
          | mem hg' h1 _ => simp only [Step.keyword] at e; subst e; exact absurd h1 (by decide)
          | idx hg' h1 h2 =>
            simp only [Step.keyword] at e; subst e
            rw [hg] at hg'; cases hg'
            refine .idx (Obj.get_insert_self _ _ _) h1 ?_
            rw [List.getElem?_append_left (List.getElem?_eq_some_iff.1 h2).1]; exact h2
        · exact stepTo_of_get hrem (Obj.get_insert_ne _ _ (Ne.symm e))
      · exact hrem
    · exact hst
  · exact hst

/-! ## Subschemas of the result of a local function -/

theorem setSingleExampleLocal_subs {s x : Json} (hs : IsSchema s)
    (h : x ∈ subs subSlot (setSingleExampleLocal s)) : x ∈ subs subSlot s := by
  cases hs with
  | bool b => exact h
  | obj m =>
    rw [setSingleExampleLocal_obj] at h
    split at h
    · exact subs_remove (subs_insert_skip (by decide) h)
    · exact subs_remove h

theorem replaceConstLocal_subs {s x : Json} (hs : IsSchema s)
    (h : x ∈ subs subSlot (replaceConstLocal s)) : x ∈ subs subSlot s := by
  cases hs with
  | bool b => exact h
  | obj m =>
    rw [replaceConstLocal_obj] at h
    split at h
    · exact subs_remove (subs_insert_skip (by decide) h)
    · exact subs_remove h

theorem removeRefSiblingsLocal_subs {s x : Json} (h : x ∈ subs subSlot (removeRefSiblingsLocal s)) :
    x ∈ subs subSlot s ∨ ∃ r, x = .obj [("$ref", r)] := by
  unfold removeRefSiblingsLocal at h
  split at h
  · next o =>
    split at h
    · split at h
      · next r hr =>
        simp only at h
        split at h
        · rcases subs_insert h with h | h
          · rw [show subSlot "allOf" = .list by decide] at h
            simp [slotSubs, isSchema] at h
            exact .inr ⟨r, h.1⟩
          · exact .inl (subs_remove h)
        · next l hl =>
          rcases subs_insert h with h | h
          · rw [show subSlot "allOf" = .list by decide] at h
            simp only [slotSubs, List.filter_append, List.mem_append] at h
            rcases h with h | h
            · left
              refine subs_remove (subs_mem (Obj.get_mem hl) ?_)
              rw [show subSlot "allOf" = .list by decide]
              exact h
            · simp [isSchema] at h
              exact .inr ⟨r, h.1⟩
          · exact .inl (subs_remove h)
        · exact .inl (subs_remove h)
      · exact .inl h
    · exact .inl h
  · exact .inl h

/-- `prefixItems` is not itself a schema. -/
def PrefixOk (s : Json) : Prop := ∀ m v, s = .obj m → Obj.get m "prefixItems" = some v → ¬ IsSchema v

theorem replacePrefixLocal_subs {s x : Json} (hs : IsSchema s) (hp : PrefixOk s)
    (h : x ∈ subs subSlot (replacePrefixLocal s)) : x ∈ subs subSlot s := by
  cases hs with
  | bool b => exact h
  | obj m =>
    rw [replacePrefixLocal_obj] at h
    split at h
    · next p hpi =>
      have hitems : ∀ x, x ∈ subs subSlot (.obj (Obj.insert (Obj.remove m "prefixItems") "items" p)) →
          x ∈ subs subSlot (.obj m) := by
        intro x hx
        rcases subs_insert hx with h | h
        · refine subs_mem (Obj.get_mem hpi) ?_
          have hns := hp m p rfl hpi
          rw [show subSlot "items" = .items by decide] at h
          rw [show subSlot "prefixItems" = .list by decide]
          cases p with
          | arr l => exact h
          | obj n => exact absurd (.obj n) hns
          | bool b => exact absurd (.bool b) hns
          | _ => simp [slotSubs, isSchema] at h
        · exact subs_remove h
      simp only at h
      split at h
      · next v hv =>
        rcases subs_insert h with h | h
        · refine subs_mem (Obj.get_mem hv) ?_
          rw [show subSlot "additionalItems" = .one by decide] at h
          rw [show subSlot "items" = .items by decide]
          cases v with
          | arr l => simp [slotSubs, isSchema] at h
          | _ => exact h
        · exact hitems x h
      · exact hitems x h
    · exact subs_remove h

theorem put_obj (m : List (String × Json)) (k : String) (v : Json) :
    Schema.put (.obj m) k v = .obj (Obj.insert m k v) := rfl

theorem subs_modify_skip {m : List (String × Json)} {k : String} (hk : subSlot k = .skip) {f : Json → Json}
    {x : Json} (h : x ∈ subs subSlot (.obj (Obj.modify m k f))) : x ∈ subs subSlot (.obj m) := by
  simp only [subs, List.mem_flatMap] at h ⊢
  obtain ⟨e, he, hx⟩ := h
  rcases Obj.mem_modify he with h1 | ⟨v, _, rfl⟩
  · exact ⟨e, h1, hx⟩
  · rw [hk] at hx; simp only at hx; generalize f v = w at hx; cases w <;> simp [slotSubs] at hx

theorem addNullableLocal_bool (c : NullableCfg) (b : Bool) : addNullableLocal c (.bool b) = .bool b := by
  simp [addNullableLocal, Schema.hasType, Schema.get]

/-- The members of an object after `addNullableLocal`. -/
def nullableMembers (c : NullableCfg) (m : List (String × Json)) (ty : Json) : List (String × Json) :=
  let m1 := Obj.insert m "nullable" (.bool true)
  if onlyAllowsNull ty then
    if c.addConstNull then
      let m2 := Obj.insert m1 "const" .null
      if c.removeNullType then Obj.remove m2 "type" else m2
    else if c.removeNullType then Obj.modify m1 "type" fun _ => .arr []
    else m1
  else if c.removeNullType then Obj.modify m1 "type" retainNonNull
  else m1

theorem addNullableLocal_obj (c : NullableCfg) (m : List (String × Json)) :
    addNullableLocal c (.obj m) =
      match Obj.get m "type" with
      | some ty => if Schema.hasType (.obj m) "null" then .obj (nullableMembers c m ty) else .obj m
      | none => .obj m := by
  unfold addNullableLocal nullableMembers
  by_cases hn : Schema.hasType (.obj m) "null" = true
  · rw [if_pos hn]
    simp only [hn, put_obj, Schema.get, if_true]
    rw [Obj.get_insert_ne _ _ (by decide : "nullable" ≠ "type")]
    cases hty : Obj.get m "type" with
    | none => simp [Schema.hasType, Schema.get, hty] at hn
    | some ty =>
      simp only
      split
      · split
        · split <;> rfl
        · split <;> rfl
      · split <;> rfl
  · rw [if_neg hn]
    simp only [hn]
    cases Obj.get m "type" <;> rfl

theorem nullableMembers_subs {c : NullableCfg} {m : List (String × Json)} {ty x : Json}
    (h : x ∈ subs subSlot (.obj (nullableMembers c m ty))) : x ∈ subs subSlot (.obj m) := by
  have h1 : ∀ {x}, x ∈ subs subSlot (.obj (Obj.insert m "nullable" (.bool true))) → x ∈ subs subSlot (.obj m) :=
    fun h => subs_insert_skip (by decide) h
  unfold nullableMembers at h
  simp only at h
  split at h
  · split at h
    · split at h
      · exact h1 (subs_insert_skip (by decide) (subs_remove h))
      · exact h1 (subs_insert_skip (by decide) h)
    · split at h
      · exact h1 (subs_modify_skip (by decide) h)
      · exact h1 h
  · split at h
    · exact h1 (subs_modify_skip (by decide) h)
    · exact h1 h

theorem addNullableLocal_subs {c : NullableCfg} {s x : Json} (hs : IsSchema s)
    (h : x ∈ subs subSlot (addNullableLocal c s)) : x ∈ subs subSlot s := by
  cases hs with
  | bool b => rwa [addNullableLocal_bool] at h
  | obj m =>
    rw [addNullableLocal_obj] at h
    split at h
    · split at h
      · exact nullableMembers_subs h
      · exact h
    · exact h

theorem addNullable_keeps (c : NullableCfg) : KeepsSteps (addNullableLocal c) := by
  refine keepsSteps_of_get (ks := ["nullable", "const", "type"]) (by decide) (fun m => ?_)
  rw [addNullableLocal_obj]
  split
  · split
    · refine ⟨_, rfl, fun k hk => ?_⟩
      simp at hk
      obtain ⟨h1, h2, h3⟩ := hk
      unfold nullableMembers
      simp only
      split
      · split
        · split
          · rw [Obj.get_remove_ne _ (Ne.symm h3), Obj.get_insert_ne _ _ (Ne.symm h2), Obj.get_insert_ne _ _ (Ne.symm h1)]
          · rw [Obj.get_insert_ne _ _ (Ne.symm h2), Obj.get_insert_ne _ _ (Ne.symm h1)]
        · split
          · rw [Obj.get_modify, if_neg (Ne.symm h3), Obj.get_insert_ne _ _ (Ne.symm h1)]
          · rw [Obj.get_insert_ne _ _ (Ne.symm h1)]
      · split
        · rw [Obj.get_modify, if_neg (Ne.symm h3), Obj.get_insert_ne _ _ (Ne.symm h1)]
        · rw [Obj.get_insert_ne _ _ (Ne.symm h1)]
    · exact ⟨m, rfl, fun _ _ => rfl⟩
  · exact ⟨m, rfl, fun _ _ => rfl⟩

/-! ## ReplaceUnevaluatedProperties -/

theorem mem_entryOrTrue {p : List (String × Json)} {n : String} {e : String × Json}
    (h : e ∈ entryOrTrue p n) : e ∈ p ∨ e.2 = .bool true := by
  unfold entryOrTrue at h
  split at h
  · exact .inl h
  · rcases Obj.mem_insert h with rfl | h
    · exact .inr rfl
    · exact .inl h

theorem mem_foldl_entryOrTrue {names : List String} {p : List (String × Json)} {e : String × Json}
    (h : e ∈ names.foldl entryOrTrue p) : e ∈ p ∨ e.2 = .bool true := by
  induction names generalizing p with
  | nil => exact .inl h
  | cons n names ih =>
    rcases ih h with h | h
    · exact mem_entryOrTrue h
    · exact .inr h

/-- The members of an object after `replaceUnevalLocal`, when it has `unevaluatedProperties`. -/
def unevalMembers (m : List (String × Json)) (up : Json) : List (String × Json) :=
  let m2 := Obj.insert (Obj.remove m "unevaluatedProperties") "additionalProperties" up
  match gatherPropertyNames (.obj m2) with
  | [] => m2
  | names =>
    match Obj.get m2 "properties" with
    | none => Obj.insert m2 "properties" (.obj (names.foldl entryOrTrue []))
    | some (.obj p) => Obj.insert m2 "properties" (.obj (names.foldl entryOrTrue p))
    | some _ => m2

theorem replaceUnevalLocal_obj (m : List (String × Json)) :
    replaceUnevalLocal (.obj m) =
      match Obj.get m "unevaluatedProperties" with
      | some up => .obj (unevalMembers m up)
      | none => .obj (Obj.remove m "unevaluatedProperties") := by
  unfold replaceUnevalLocal unevalMembers Schema.remove
  simp only
  cases Obj.get m "unevaluatedProperties" with
  | none => rfl
  | some up =>
    simp only [put_obj, Schema.get]
    generalize gatherPropertyNames _ = names
    cases names with
    | nil => rfl
    | cons n names =>
      simp only
      rcases Obj.get (Obj.insert (Obj.remove m "unevaluatedProperties") "additionalProperties" up) "properties"
        with _ | (_ | _ | _ | _ | _ | _) <;> rfl

theorem unevalMembers_subs {m : List (String × Json)} {up x : Json}
    (h : x ∈ subs subSlot (.obj (unevalMembers m up))) :
    x ∈ subs subSlot (.obj m) ∨ x = up ∨ x = .bool true := by
  have h2 : ∀ x, x ∈ subs subSlot (.obj (Obj.insert (Obj.remove m "unevaluatedProperties") "additionalProperties" up)) →
      x ∈ subs subSlot (.obj m) ∨ x = up ∨ x = .bool true := by
    intro x hx
    rcases subs_insert hx with h | h
    · rw [show subSlot "additionalProperties" = .one by decide, slotSubs_one] at h
      split at h
      · simp at h; exact .inr (.inl h)
      · simp at h
    · exact .inl (subs_remove h)
  unfold unevalMembers at h
  simp only at h
  split at h
  · exact h2 x h
  · split at h
    · rcases subs_insert h with h | h
      · rw [show subSlot "properties" = .map by decide] at h
        simp only [slotSubs, List.mem_filter, List.mem_map] at h
        obtain ⟨⟨e, he, rfl⟩, _⟩ := h
        rcases mem_foldl_entryOrTrue he with h | h
        · simp at h
        · exact .inr (.inr h)
      · exact h2 x h
    · next p hp =>
      rcases subs_insert h with h | h
      · rw [show subSlot "properties" = .map by decide] at h
        simp only [slotSubs, List.mem_filter, List.mem_map] at h
        obtain ⟨⟨e, he, rfl⟩, hs⟩ := h
        rcases mem_foldl_entryOrTrue he with h | h
        · apply h2
          refine subs_mem (Obj.get_mem hp) ?_
          rw [show subSlot "properties" = .map by decide]
          simp only [slotSubs, List.mem_filter, List.mem_map]
          exact ⟨⟨e, h, rfl⟩, hs⟩
        · exact .inr (.inr h)
      · exact h2 x h
    · exact h2 x h

theorem unevalMembers_keys {m : List (String × Json)} {up : Json} {k : String}
    (hk : k ≠ "additionalProperties") (hk2 : k ≠ "properties") :
    k ∈ Obj.keys (unevalMembers m up) ↔ k ≠ "unevaluatedProperties" ∧ k ∈ Obj.keys m := by
  have h2 : k ∈ Obj.keys (Obj.insert (Obj.remove m "unevaluatedProperties") "additionalProperties" up) ↔
      k ≠ "unevaluatedProperties" ∧ k ∈ Obj.keys m := by
    rw [Obj.mem_keys_insert, Obj.keys_remove]; simp [hk, and_comm]
  unfold unevalMembers
  simp only
  split
  · exact h2
  · split
    · rw [Obj.mem_keys_insert, h2]; simp [hk2]
    · rw [Obj.mem_keys_insert, h2]; simp [hk2]
    · exact h2

end Verif
