import Verif.Props.Nullable
import Verif.Props.Uneval
import Verif.Props.Formats

/-!
# C23, C24: the settings' transform lists, idempotence
-/

namespace Verif
open Spec

/-! ## C23 -/

/-- The traversed keywords and `unevaluatedProperties`. -/
def Spec.visitedU : Vocab := { visited with one := "unevaluatedProperties" :: visited.one }

/-- In draft-07 terms: none of the keywords that draft-07 lacks, and no `$ref` with siblings. -/
def Spec.Draft07Ok (s : Json) : Prop :=
  ¬ HasKey "prefixItems" s ∧ ¬ HasKey "unevaluatedProperties" s ∧ RefAlone s

theorem reach_trans {V : Vocab} {s x y : Json} (h1 : Reach V s x) (h2 : Reach V x y) : Reach V s y := by
  induction h1 with
  | self => exact h2
  | step hd _ ih => exact .step hd (ih h2)

theorem reach_visitedU {s x : Json} (h : Reach visited s x) : Reach visitedU s x := by
  induction h with
  | self => exact .self _
  | step hd _ ih =>
    refine .step ?_ ih
    cases hd with
    | one h1 h2 h3 => exact .one h1 (List.mem_cons_of_mem _ h2) h3
    | list h1 h2 h3 h4 => exact .list h1 h2 h3 h4
    | map h1 h2 h3 h4 => exact .map h1 h2 h3 h4

theorem prefixOk_nonschema {s : Json} (h : ¬ IsSchema s) : Everywhere visited PrefixOk s := by
  rw [everywhere_iff]
  constructor
  · intro m v hm _; subst hm; exact absurd (.obj m) h
  · intro x hx
    cases s with
    | obj m => exact absurd (.obj m) h
    | _ => simp [subs] at hx

/-- If all `prefixItems` are in order, also those below `unevaluatedProperties`, they are so after
ReplaceUnevaluatedProperties. -/
theorem prefixOk_replaceUneval {s : Json} (hs : IsSchema s) (h : Everywhere visitedU PrefixOk s) :
    Everywhere visited PrefixOk (replaceUneval s) := by
  refine everywhere_keep (H := fun s => PrefixOk s ∧ InUneval PrefixOk s) replaceUnevalLocal_preserves
    (shallow_prefixOk.and (shallow_inUneval _)) ?_ (fun _ _ hs h hx =>
      replaceUnevalLocal_subs (prefixOk_bool true) hs h.2 hx) hs ?_
  · intro s hs h
    cases hs with
    | bool b => exact h.1
    | obj m =>
      rw [replaceUnevalLocal_obj]
      split
      · refine prefixOk_of_get h.1 (.inr ?_)
        have hg : ∀ k, k ≠ "additionalProperties" → k ≠ "unevaluatedProperties" → ∀ up,
          Obj.get (Obj.insert (Obj.remove m "unevaluatedProperties") "additionalProperties" up) k = Obj.get m k := by
          intro k h1 h2 up
          rw [Obj.get_insert_ne _ _ (Ne.symm h1), Obj.get_remove_ne _ (Ne.symm h2)]
        unfold unevalMembers
        simp only
        split
        · exact hg _ (by decide) (by decide) _
        · split
          · rw [Obj.get_insert_ne _ _ (by decide)]; exact hg _ (by decide) (by decide) _
          · rw [Obj.get_insert_ne _ _ (by decide)]; exact hg _ (by decide) (by decide) _
          · exact hg _ (by decide) (by decide) _
      · exact prefixOk_of_get h.1 (.inr (Obj.get_remove_ne _ (by decide)))
  · intro x hx
    refine ⟨h x (reach_visitedU hx), ?_⟩
    intro m up hm hg
    subst hm
    by_cases hu : IsSchema up
    · intro y hy
      refine h y (reach_trans (reach_visitedU hx) (.step (.one (Obj.get_mem hg) ?_ hu) (reach_visitedU hy)))
      simp [visitedU]
    · exact prefixOk_nonschema hu

theorem refSiblings_keep {P : Json → Prop} (hP : Shallow P) (h1 : ∀ s, IsSchema s → P s → P (removeRefSiblingsLocal s))
    (h2 : ∀ r, P (.obj [("$ref", r)])) {s : Json} (hs : IsSchema s) (h : Everywhere visited P s) :
    Everywhere visited P (removeRefSiblings s) :=
  everywhere_keep removeRefSiblingsLocal_preserves hP h1
    (fun _ _ _ _ hx => (removeRefSiblingsLocal_subs hx).imp id (fun ⟨r, e⟩ => e ▸ everywhere_refOnly (h2 r))) hs h

theorem prefix_keep {P : Json → Prop} (hP : Shallow P) (h1 : ∀ s, IsSchema s → P s → P (replacePrefixLocal s))
    {s : Json} (hs : IsSchema s) (h0 : Everywhere visited PrefixOk s) (h : Everywhere visited P s) :
    Everywhere visited P (replacePrefix s) :=
  everywhere_keep (H := fun s => PrefixOk s ∧ P s) replacePrefixLocal_preserves (shallow_prefixOk.and hP)
    (fun s hs h => h1 s hs h.2) (fun _ _ hs h hx => .inl (replacePrefixLocal_subs hs h.1 hx)) hs
    (everywhere_and.2 ⟨h0, h⟩)

theorem nullable_keep (c : NullableCfg) {P : Json → Prop} (hP : Shallow P)
    (h1 : ∀ s, IsSchema s → P s → P (addNullableLocal c s)) {s : Json} (hs : IsSchema s)
    (h : Everywhere visited P s) : Everywhere visited P (addNullable c s) :=
  everywhere_keep (addNullableLocal_preserves c) hP h1 (fun _ _ hs _ hx => .inl (addNullableLocal_subs hs hx)) hs h

theorem example_keep {P : Json → Prop} (hP : Shallow P)
    (h1 : ∀ s, IsSchema s → P s → P (setSingleExampleLocal s)) {s : Json} (hs : IsSchema s)
    (h : Everywhere visited P s) : Everywhere visited P (setSingleExample s) :=
  everywhere_keep setSingleExampleLocal_preserves hP h1 (fun _ _ hs _ hx => .inl (setSingleExampleLocal_subs hs hx)) hs h

theorem const_keep {P : Json → Prop} (hP : Shallow P)
    (h1 : ∀ s, IsSchema s → P s → P (replaceConstLocal s)) {s : Json} (hs : IsSchema s)
    (h : Everywhere visited P s) : Everywhere visited P (replaceConst s) :=
  everywhere_keep replaceConstLocal_preserves hP h1 (fun _ _ hs _ hx => .inl (replaceConstLocal_subs hs hx)) hs h

theorem isSchema_replaceUneval {s : Json} (hs : IsSchema s) : IsSchema (replaceUneval s) :=
  postOrder_preserves replaceUnevalLocal_preserves s hs
theorem isSchema_removeRefSiblings {s : Json} (hs : IsSchema s) : IsSchema (removeRefSiblings s) :=
  postOrder_preserves removeRefSiblingsLocal_preserves s hs
theorem isSchema_addNullable (c) {s : Json} (hs : IsSchema s) : IsSchema (addNullable c s) :=
  postOrder_preserves (addNullableLocal_preserves c) s hs
theorem isSchema_setSingleExample {s : Json} (hs : IsSchema s) : IsSchema (setSingleExample s) :=
  postOrder_preserves setSingleExampleLocal_preserves s hs
theorem isSchema_replaceConst {s : Json} (hs : IsSchema s) : IsSchema (replaceConst s) :=
  postOrder_preserves replaceConstLocal_preserves s hs

theorem refAlone_replacePrefix {s : Json} (hs : IsSchema s) (h : RefAlone s) : RefAlone (replacePrefixLocal s) :=
  refAlone_of_addsOnly addsOnly_replacePrefix (by decide)
    (fun _ hm => replacePrefixLocal_fix (get_none_of_keys hm (by decide))) hs h
theorem refAlone_replaceConst {s : Json} (hs : IsSchema s) (h : RefAlone s) : RefAlone (replaceConstLocal s) :=
  refAlone_of_addsOnly addsOnly_replaceConst (by decide)
    (fun _ hm => replaceConstLocal_fix (get_none_of_keys hm (by decide))) hs h
theorem refAlone_setSingleExample {s : Json} (hs : IsSchema s) (h : RefAlone s) : RefAlone (setSingleExampleLocal s) :=
  refAlone_of_addsOnly addsOnly_setSingleExample (by decide)
    (fun _ hm => setSingleExampleLocal_fix (get_none_of_keys hm (by decide))) hs h

/-- C23, full claim for draft-07: no reachable subschema has a keyword that draft-07 lacks. It fails for nested
`unevaluatedProperties`, see `C23_draft07_false`. -/
def C23_draft07_Full : Prop :=
  ∀ s, IsSchema s → Everywhere visited Draft07Ok (applyTransforms draft07Transforms s)

/-- C23: the draft-07 list leaves no `prefixItems`, no `unevaluatedProperties` and no `$ref` with siblings,
provided that no `prefixItems` is itself a schema (JSON Schema wants an array) and that no
`unevaluatedProperties` is nested in another one. -/
theorem C23_draft07_partial {s : Json} (hs : IsSchema s) (h1 : Everywhere visitedU PrefixOk s)
    (h2 : Everywhere visited UnevalOk s) :
    Everywhere visited Draft07Ok (applyTransforms draft07Transforms s) := by
  show Everywhere visited Draft07Ok (replacePrefix (removeRefSiblings (replaceUneval s)))
  have s1 := isSchema_replaceUneval hs
  have s2 := isSchema_removeRefSiblings s1
  have u1 := C21_no_uneval_partial hs h2
  have p1 := prefixOk_replaceUneval hs h1
  have u2 := refSiblings_keep (shallow_noKey "unevaluatedProperties")
    (fun _ hs h => noKey_of_addsOnly addsOnly_removeRefSiblings (by decide) hs h)
    (not_hasKey_refOnly (by decide)) s1 u1
  have p2 := refSiblings_keep shallow_prefixOk (fun _ _ h => prefixOk_removeRefSiblings h) prefixOk_refOnly s1 p1
  have r2 := C16_isolated s1
  exact everywhere_and.2 ⟨C19_no_prefixItems_partial s2 p2, everywhere_and.2
    ⟨prefix_keep (shallow_noKey _) (fun _ hs h => noKey_of_addsOnly addsOnly_replacePrefix (by decide) hs h) s2 p2 u2,
      prefix_keep shallow_refAlone (fun _ hs h => refAlone_replacePrefix hs h) s2 p2 r2⟩⟩

/-- C23: a nested `unevaluatedProperties` survives the draft-07 list. -/
theorem C23_draft07_false : ¬ C23_draft07_Full := by
  intro h
  refine (h (.obj [("unevaluatedProperties", .obj [("unevaluatedProperties", .bool false)])]) (.obj _)
    (.obj [("unevaluatedProperties", .bool false)]) (.step ?_ (.self _))).2.1 ⟨_, .bool false, rfl, by simp⟩
  rw [← mem_subs_iff]; decide

/-- C23: the 2019-09 list leaves no `prefixItems`, provided that no `prefixItems` is itself a schema. -/
theorem C23_draft2019_partial {s : Json} (hs : IsSchema s) (h : Everywhere visited PrefixOk s) :
    Everywhere visited (fun x => ¬ HasKey "prefixItems" x) (applyTransforms draft2019Transforms s) :=
  C19_no_prefixItems_partial hs h

/-- C23, the claim for 2019-09 with all places where 2019-09 allows subschemas. -/
def C23_draft2019_Full : Prop :=
  ∀ s, IsSchema s → Everywhere standard PrefixOk s →
    Everywhere standard (fun x => ¬ HasKey "prefixItems" x) (applyTransforms draft2019Transforms s)

/-- C23: `prefixItems` below `unevaluatedProperties` (a 2019-09 keyword) survives, because the traversal does
not enter it. -/
theorem C23_draft2019_false : ¬ C23_draft2019_Full := by
  intro h
  have hfix : applyTransforms draft2019Transforms
      (.obj [("unevaluatedProperties", .obj [("prefixItems", .arr [.bool true])])]) =
      .obj [("unevaluatedProperties", .obj [("prefixItems", .arr [.bool true])])] := by decide
  refine h (.obj [("unevaluatedProperties", .obj [("prefixItems", .arr [.bool true])])]) (.obj _) ?_
    (.obj [("prefixItems", .arr [.bool true])]) (by rw [hfix]; exact .step (.one (k := "unevaluatedProperties") (by simp) (by decide) (.obj _)) (.self _))
    ⟨_, .arr [.bool true], rfl, by simp⟩
  intro x hx
  have hno : ∀ {m : List (String × Json)}, (∀ v, (("prefixItems" : String), v) ∈ m → ¬ IsSchema v) → PrefixOk (.obj m) := by
    intro m hm m' v e hv; cases e; exact hm v (Obj.get_mem hv)
  cases hx with
  | self => exact hno (by simp)
  | step hd hr =>
    cases hd with
    | one hm hk hx =>
      simp at hm; obtain ⟨rfl, rfl⟩ := hm
      cases hr with
      | self => exact hno (by simp; intro h; cases h)
      | step hd hr =>
        cases hd with
        | one hm hk hx => simp at hm; obtain ⟨rfl, rfl⟩ := hm; cases hx
        | list hm hk hl hx =>
          simp at hm; obtain ⟨rfl, rfl⟩ := hm
          simp at hl; subst hl
          cases hr with
          | self => exact prefixOk_bool _
          | step hd _ => cases hd
        | map hm _ _ _ => simp at hm
    | list hm _ _ _ => simp at hm
    | map hm hk _ _ => simp at hm; obtain ⟨rfl, _⟩ := hm; exact absurd hk (by decide)

/-- OpenAPI 3.0 lacks the same keywords, and `const`, `examples` and null types. -/
def Spec.OpenApiOk (s : Json) : Prop :=
  Draft07Ok s ∧ ¬ HasKey "const" s ∧ ¬ HasKey "examples" s ∧ ¬ MentionsNull s

theorem replaceBool_keep (skip : Bool) {P : Json → Prop} (hP : Shallow P)
    (ht : P (.obj [])) (hf : P (.obj [("not", .obj [])]))
    (hrem : ∀ m, P (.obj m) → P (.obj (Obj.remove m "additionalProperties")))
    (hins : ∀ m ap, P (.obj m) → P (.obj (Obj.insert m "additionalProperties" ap))) :
    ∀ s, IsSchema s → Everywhere visited P s → Everywhere visited P (replaceBool skip s) := by
  suffices ∀ n s, sizeOf s < n → IsSchema s → Everywhere visited P s → Everywhere visited P (replaceBool skip s) by
    intro s; exact this _ s (Nat.lt_succ_self _)
  intro n
  induction n with
  | zero => intro s hs; omega
  | succ n ih =>
    intro s hn hs h
    have hem : Everywhere visited P (.obj []) := by rw [everywhere_iff]; exact ⟨ht, by simp [subs]⟩
    cases hs with
    | bool b =>
      rw [replaceBool_bool]
      cases b with
      | true => exact hem
      | false =>
        rw [everywhere_iff]
        refine ⟨hf, fun x hx => ?_⟩
        have : subs subSlot (.obj [("not", .obj [])]) = [.obj []] := by decide
        simp only [Bool.false_eq_true, if_false] at hx
        rw [this] at hx; simp at hx; subst hx; exact hem
    | obj m =>
      obtain ⟨h0, h1⟩ := everywhere_iff.1 h
      have go : ∀ o, P (.obj o) → (∀ x ∈ subs subSlot (.obj o), x ∈ subs subSlot (.obj m)) →
          Everywhere visited P (tsub subSlot (replaceBool skip) (.obj o)) := by
        intro o ho hsub
        rw [everywhere_iff]
        refine ⟨hP _ (replaceBool_preserves skip) _ ho, fun x hx => ?_⟩
        rw [subs_tsub (replaceBool_preserves skip)] at hx
        obtain ⟨y, hy, rfl⟩ := List.mem_map.1 hx
        exact ih y (by have := sizeOf_subs (hsub y hy); omega) (subs_isSchema hy) (h1 y (hsub y hy))
      rw [replaceBool_obj]
      split
      · next ap hap =>
        have h2 := go (Obj.remove m "additionalProperties") (hrem m h0) (fun x hx => subs_remove hx)
        rw [everywhere_iff]
        refine ⟨hins _ _ (everywhere_iff.1 h2).1, fun x hx => ?_⟩
        rcases subs_insert hx with hx | hx
        · exact h1 x (subs_mem (Obj.get_mem hap) hx)
        · exact (everywhere_iff.1 h2).2 x hx
      · exact go m h0 (fun x hx => hx)

theorem typeOk_of_get {m m' : List (String × Json)} (h : TypeOk (.obj m))
    (hg : Obj.get m' "type" = Obj.get m "type") : TypeOk (.obj m') := by
  intro m0 l hm hv; cases hm; exact h m l rfl (hg ▸ hv)

theorem typeOk_nil : TypeOk (.obj []) := by intro m l hm hv; cases hm; cases hv
theorem typeOk_not : TypeOk (.obj [("not", .obj [])]) := by
  intro m l hm hv; cases hm; rw [Obj.get_cons, if_neg (by decide)] at hv; cases hv
theorem prefixOk_nil : PrefixOk (.obj []) := by intro m l hm hv; cases hm; cases hv
theorem prefixOk_not : PrefixOk (.obj [("not", .obj [])]) := by
  intro m l hm hv; cases hm; rw [Obj.get_cons, if_neg (by decide)] at hv; cases hv

theorem unevalMembers_get (m : List (String × Json)) (up : Json) {k : String} (h1 : k ≠ "additionalProperties")
    (h2 : k ≠ "unevaluatedProperties") (h3 : k ≠ "properties") : Obj.get (unevalMembers m up) k = Obj.get m k := by
  have hg : Obj.get (Obj.insert (Obj.remove m "unevaluatedProperties") "additionalProperties" up) k = Obj.get m k := by
    rw [Obj.get_insert_ne _ _ (Ne.symm h1), Obj.get_remove_ne _ (Ne.symm h2)]
  unfold unevalMembers
  simp only
  split
  · exact hg
  · split
    · rw [Obj.get_insert_ne _ _ (Ne.symm h3)]; exact hg
    · rw [Obj.get_insert_ne _ _ (Ne.symm h3)]; exact hg
    · exact hg

theorem everywhere_nonschema {P : Json → Prop} {s : Json} (h : ¬ IsSchema s) (hp : P s) : Everywhere visited P s := by
  rw [everywhere_iff]
  refine ⟨hp, fun x hx => ?_⟩
  cases s with
  | obj m => exact absurd (.obj m) h
  | _ => simp [subs] at hx

theorem typeOk_replaceUneval {s : Json} (hs : IsSchema s) (h : Everywhere visitedU TypeOk s) :
    Everywhere visited TypeOk (replaceUneval s) := by
  refine everywhere_keep (H := fun s => TypeOk s ∧ InUneval TypeOk s) replaceUnevalLocal_preserves
    (shallow_typeOk.and (shallow_inUneval _)) ?_ (fun _ _ hs h hx =>
      replaceUnevalLocal_subs (by intro m l hm; cases hm) hs h.2 hx) hs ?_
  · intro s hs h
    cases hs with
    | bool b => exact h.1
    | obj m =>
      rw [replaceUnevalLocal_obj]
      split
      · exact typeOk_of_get h.1 (unevalMembers_get m _ (by decide) (by decide) (by decide))
      · exact typeOk_of_get h.1 (Obj.get_remove_ne _ (by decide))
  · intro x hx
    refine ⟨h x (reach_visitedU hx), ?_⟩
    intro m up hm hg
    subst hm
    by_cases hu : IsSchema up
    · intro y hy
      refine h y (reach_trans (reach_visitedU hx) (.step (.one (Obj.get_mem hg) ?_ hu) (reach_visitedU hy)))
      simp [visitedU]
    · refine everywhere_nonschema hu ?_
      intro m l hm _; subst hm; exact absurd (.obj m) hu

theorem shallow_noNull : Shallow (fun s => ¬ MentionsNull s) := by
  intro T _ s h
  rw [mentionsNull_iff] at h ⊢
  cases s with
  | obj m => rw [hasType_tsub]; exact h
  | _ => exact h

theorem noNull_of_get {m m' : List (String × Json)} (h : ¬ MentionsNull (.obj m))
    (hg : Obj.get m' "type" = Obj.get m "type") : ¬ MentionsNull (.obj m') := by
  rintro ⟨_, t, hm, hv, ht⟩; cases hm; exact h ⟨m, t, rfl, hg ▸ hv, ht⟩

/-- A local function that keeps `type`. -/
theorem noNull_of_local {f : Json → Json} (hf : ∀ m, ∃ m', f (.obj m) = .obj m' ∧ Obj.get m' "type" = Obj.get m "type")
    (hb : ∀ b, f (.bool b) = .bool b) {s : Json} (hs : IsSchema s) (h : ¬ MentionsNull s) : ¬ MentionsNull (f s) := by
  cases hs with
  | bool b => rw [hb]; exact h
  | obj m => obtain ⟨m', h1, h2⟩ := hf m; rw [h1]; exact noNull_of_get h h2

theorem removeRefSiblingsLocal_type (m : List (String × Json)) :
    ∃ m', removeRefSiblingsLocal (.obj m) = .obj m' ∧ Obj.get m' "type" = Obj.get m "type" := by
  unfold removeRefSiblingsLocal
  simp only
  split
  · split
    · split
      · exact ⟨_, rfl, by rw [Obj.get_insert_ne _ _ (by decide), Obj.get_remove_ne _ (by decide)]⟩
      · exact ⟨_, rfl, by rw [Obj.get_insert_ne _ _ (by decide), Obj.get_remove_ne _ (by decide)]⟩
      · exact ⟨_, rfl, by rw [Obj.get_remove_ne _ (by decide)]⟩
    · exact ⟨_, rfl, rfl⟩
  · exact ⟨_, rfl, rfl⟩

theorem replacePrefixLocal_type (m : List (String × Json)) :
    ∃ m', replacePrefixLocal (.obj m) = .obj m' ∧ Obj.get m' "type" = Obj.get m "type" := by
  rw [replacePrefixLocal_obj]
  split
  · simp only
    split
    · exact ⟨_, rfl, by rw [Obj.get_insert_ne _ _ (by decide), Obj.get_insert_ne _ _ (by decide), Obj.get_remove_ne _ (by decide)]⟩
    · exact ⟨_, rfl, by rw [Obj.get_insert_ne _ _ (by decide), Obj.get_remove_ne _ (by decide)]⟩
  · exact ⟨_, rfl, by rw [Obj.get_remove_ne _ (by decide)]⟩

/-- C23: the OpenAPI list leaves no `prefixItems`, `unevaluatedProperties`, `const`, `examples`, null type or
`$ref` with siblings, provided that no `prefixItems` is itself a schema, no element of a `type` array is an
array, and no `unevaluatedProperties` is nested in another one. -/
theorem C23_openapi3_partial {s : Json} (hs : IsSchema s) (h1 : Everywhere visitedU PrefixOk s)
    (h2 : Everywhere visited UnevalOk s) (h3 : Everywhere visitedU TypeOk s) :
    Everywhere visited OpenApiOk (applyTransforms openapi3Transforms s) := by
  show Everywhere visited OpenApiOk (replacePrefix (replaceConst (setSingleExample (removeRefSiblings
    (addNullable ⟨true, true⟩ (replaceBool true (replaceUneval s)))))))
  have s1 := isSchema_replaceUneval hs
  have u1 := C21_no_uneval_partial hs h2
  have p1 := prefixOk_replaceUneval hs h1
  have t1 := typeOk_replaceUneval hs h3
  -- ReplaceBoolSchemas
  have s2 := replaceBool_preserves true _ s1
  have u2 := replaceBool_keep true (shallow_noKey "unevaluatedProperties") (by rw [hasKey_obj]; simp [Obj.keys])
    (by rw [hasKey_obj]; simp [Obj.keys]) (fun m h => by rw [hasKey_remove]; simp [h])
    (fun m ap h => by rw [hasKey_insert]; simp [h]) _ s1 u1
  have p2 := replaceBool_keep true shallow_prefixOk prefixOk_nil prefixOk_not
    (fun m h => prefixOk_of_get h (.inr (Obj.get_remove_ne _ (by decide))))
    (fun m ap h => prefixOk_of_get h (.inr (Obj.get_insert_ne _ _ (by decide)))) _ s1 p1
  have t2 := replaceBool_keep true shallow_typeOk typeOk_nil typeOk_not
    (fun m h => typeOk_of_get h (Obj.get_remove_ne _ (by decide)))
    (fun m ap h => typeOk_of_get h (Obj.get_insert_ne _ _ (by decide))) _ s1 t1
  -- AddNullable
  have s3 := isSchema_addNullable ⟨true, true⟩ s2
  have u3 := nullable_keep ⟨true, true⟩ (shallow_noKey "unevaluatedProperties")
    (fun _ hs h => noKey_of_addsOnly (addsOnly_addNullable _) (by decide) hs h) s2 u2
  have p3 := nullable_keep ⟨true, true⟩ shallow_prefixOk (fun _ hs h => prefixOk_addNullable _ hs h) s2 p2
  have n3 := C20_no_null_partial ⟨true, true⟩ rfl s2 t2
  -- RemoveRefSiblings
  have s4 := isSchema_removeRefSiblings s3
  have u4 := refSiblings_keep (shallow_noKey "unevaluatedProperties")
    (fun _ hs h => noKey_of_addsOnly addsOnly_removeRefSiblings (by decide) hs h)
    (not_hasKey_refOnly (by decide)) s3 u3
  have p4 := refSiblings_keep shallow_prefixOk (fun _ _ h => prefixOk_removeRefSiblings h) prefixOk_refOnly s3 p3
  have n4 := refSiblings_keep shallow_noNull
    (fun _ hs h => noNull_of_local removeRefSiblingsLocal_type (fun _ => rfl) hs h)
    (fun r => by rw [mentionsNull_iff]; simp [Schema.hasType, Schema.get, Obj.get]) s3 n3
  have r4 := C16_isolated s3
  -- SetSingleExample
  have s5 := isSchema_setSingleExample s4
  have u5 := example_keep (shallow_noKey "unevaluatedProperties")
    (fun _ hs h => noKey_of_addsOnly addsOnly_setSingleExample (by decide) hs h) s4 u4
  have p5 := example_keep shallow_prefixOk (fun _ hs h => prefixOk_setSingleExample hs h) s4 p4
  have n5 := example_keep shallow_noNull (fun _ hs h => noNull_of_local (fun m => by
    obtain ⟨m', h1, _, _, h2⟩ := setSingleExampleLocal_get m; exact ⟨m', h1, h2 _ (by decide)⟩) (fun _ => rfl) hs h) s4 n4
  have r5 := example_keep shallow_refAlone (fun _ hs h => refAlone_setSingleExample hs h) s4 r4
  have e5 := C17_no_examples s4
  -- ReplaceConstValue
  have s6 := isSchema_replaceConst s5
  have u6 := const_keep (shallow_noKey "unevaluatedProperties")
    (fun _ hs h => noKey_of_addsOnly addsOnly_replaceConst (by decide) hs h) s5 u5
  have e6 := const_keep (shallow_noKey "examples")
    (fun _ hs h => noKey_of_addsOnly addsOnly_replaceConst (by decide) hs h) s5 e5
  have p6 := const_keep shallow_prefixOk (fun _ hs h => prefixOk_replaceConst hs h) s5 p5
  have n6 := const_keep shallow_noNull (fun _ hs h => noNull_of_local (fun m => by
    obtain ⟨m', h1, _, _, h2⟩ := replaceConstLocal_get m; exact ⟨m', h1, h2 _ (by decide)⟩) (fun _ => rfl) hs h) s5 n5
  have r6 := const_keep shallow_refAlone (fun _ hs h => refAlone_replaceConst hs h) s5 r5
  have c6 := C18_no_const s5
  -- ReplacePrefixItems
  refine everywhere_and.2 ⟨everywhere_and.2 ⟨C19_no_prefixItems_partial s6 p6, everywhere_and.2 ⟨?_, ?_⟩⟩,
    everywhere_and.2 ⟨?_, everywhere_and.2 ⟨?_, ?_⟩⟩⟩
  · exact prefix_keep (shallow_noKey _) (fun _ hs h => noKey_of_addsOnly addsOnly_replacePrefix (by decide) hs h) s6 p6 u6
  · exact prefix_keep shallow_refAlone (fun _ hs h => refAlone_replacePrefix hs h) s6 p6 r6
  · exact prefix_keep (shallow_noKey _) (fun _ hs h => noKey_of_addsOnly addsOnly_replacePrefix (by decide) hs h) s6 p6 c6
  · exact prefix_keep (shallow_noKey _) (fun _ hs h => noKey_of_addsOnly addsOnly_replacePrefix (by decide) hs h) s6 p6 e6
  · exact prefix_keep shallow_noNull (fun _ hs h => noNull_of_local replacePrefixLocal_type (fun _ => rfl) hs h) s6 p6 n6

private def s23 : Json := .obj [("$ref", .str "#"), ("const", .null), ("examples", .arr [.null]),
  ("items", .bool true), ("prefixItems", .arr [.obj [("type", .str "null")]]),
  ("unevaluatedProperties", .bool false)]
example : applyTransforms openapi3Transforms s23 =
    .obj [("additionalItems", .obj []), ("additionalProperties", .bool false),
      ("allOf", .arr [.obj [("$ref", .str "#")]]), ("enum", .arr [.null]), ("example", .null),
      ("items", .arr [.obj [("enum", .arr [.null]), ("nullable", .bool true)]])] := by decide
example : applyTransforms draft07Transforms s23 =
    .obj [("additionalItems", .bool true), ("additionalProperties", .bool false),
      ("allOf", .arr [.obj [("$ref", .str "#")]]), ("const", .null), ("examples", .arr [.null]),
      ("items", .arr [.obj [("type", .str "null")]])] := by decide
example : Everywhere visited UnevalOk (.obj [("unevaluatedProperties", .bool false)]) ∧
    Everywhere visitedU PrefixOk (.obj [("prefixItems", .arr [])]) ∧
    Everywhere visitedU TypeOk (.obj [("type", .arr [.str "null"])]) := by
  refine ⟨?_, ?_, ?_⟩
  · rw [everywhere_iff]
    refine ⟨?_, by have : subs subSlot (.obj [("unevaluatedProperties", .bool false)]) = [] := by decide
                   rw [this]; simp⟩
    intro m up hm hg; cases hm; cases hg; exact everywhere_bool.2 not_hasKey_bool
  · intro x hx
    cases hx with
    | self => intro m v hm hv; cases hm; cases hv; intro h; cases h
    | step hd _ => cases hd with
      | one hm _ hx => simp at hm; obtain ⟨_, rfl⟩ := hm; cases hx
      | list hm _ hl _ => simp at hm; obtain ⟨_, rfl⟩ := hm; simp at hl
      | map hm _ _ _ => simp at hm
  · intro x hx
    cases hx with
    | self => intro m l hm hv l'; cases hm; cases hv; simp
    | step hd _ => cases hd with
      | one hm _ hx => simp at hm; obtain ⟨_, rfl⟩ := hm; cases hx
      | list hm hk _ _ => simp at hm; obtain ⟨rfl, _⟩ := hm; exact absurd hk (by decide)
      | map hm _ _ _ => simp at hm

/-! ## C24 -/

/-- C24 for ReplaceBoolSchemas. -/
theorem C24_replaceBool (skip : Bool) : ∀ s, IsSchema s → replaceBool skip (replaceBool skip s) = replaceBool skip s := by
  suffices ∀ n s, sizeOf s < n → IsSchema s → replaceBool skip (replaceBool skip s) = replaceBool skip s by
    intro s; exact this _ s (Nat.lt_succ_self _)
  intro n
  induction n with
  | zero => intro s hs; omega
  | succ n ih =>
    intro s hn hs
    cases hs with
    | bool b => cases skip <;> cases b <;> decide
    | obj m =>
      have go : ∀ o, (∀ x ∈ subs subSlot (.obj o), x ∈ subs subSlot (.obj m)) →
          tsub subSlot (replaceBool skip) (tsub subSlot (replaceBool skip) (.obj o)) =
            tsub subSlot (replaceBool skip) (.obj o) := by
        intro o hsub
        rw [tsub_comp (replaceBool_preserves skip)]
        exact tsub_congr (fun x hx => ih x (by have := sizeOf_subs (hsub x hx); omega) (subs_isSchema hx))
      rw [replaceBool_obj]
      split
      · next ap hap =>
        rw [replaceBool_obj]
        simp only [Obj.get_insert_self]
        have hrm : Obj.remove (Obj.insert ((Obj.remove m "additionalProperties").map (entryMap subSlot (replaceBool true)))
            "additionalProperties" ap) "additionalProperties" =
            (Obj.remove m "additionalProperties").map (entryMap subSlot (replaceBool true)) := by
          rw [Obj.remove_insert_self]
          rw [← remove_entryMap, Obj.remove_of_get_none (Obj.get_remove_self _ _)]
        rw [hrm]
        have := go (Obj.remove m "additionalProperties") (fun x hx => subs_remove hx)
        rw [tsub_obj, tsub_obj] at this
        rw [Json.obj.inj this]
      · next h =>
        rw [tsub_obj, replaceBool_obj]
        split
        · next ap hap =>
          rw [get_entryMap] at hap
          cases hg : Obj.get m "additionalProperties" with
          | none => rw [hg] at hap; cases hap
          | some v => exact absurd hg (h v rfl)
        · exact go m (fun x hx => hx)

/-- C24 for RemoveRefSiblings. -/
theorem C24_removeRefSiblings {s : Json} (hs : IsSchema s) :
    removeRefSiblings (removeRefSiblings s) = removeRefSiblings s := by
  refine postOrder_fix _ (isSchema_removeRefSiblings hs) (Everywhere.imp (C16_isolated hs) fun x hx => ?_)
  unfold removeRefSiblingsLocal
  split
  · next o =>
    split
    · next hl =>
      split
      · next r hr =>
        have h1 : "$ref" ∈ Obj.keys o := Obj.mem_keys.2 ⟨_, hr⟩
        have h2 := hx o rfl h1
        have : o.length = 1 := by rw [← List.length_map (f := Prod.fst)]; exact congrArg List.length h2
        omega
      · rfl
    · rfl
  · rfl

theorem fix_of_noKey {f : Json → Json} {k : String} (hf : ∀ m, Obj.get m k = none → f (.obj m) = .obj m)
    (hs : IsSchema (postOrder f s)) (hb : ∀ x, (∀ m, x ≠ .obj m) → f x = x)
    (h : Everywhere visited (fun x => ¬ HasKey k x) (postOrder f s)) : postOrder f (postOrder f s) = postOrder f s := by
  refine postOrder_fix _ hs (Everywhere.imp h fun x hx => ?_)
  by_cases hx' : ∃ m, x = .obj m
  · obtain ⟨m, rfl⟩ := hx'
    exact hf m (get_none_of_not_hasKey hx)
  · exact hb x (fun m e => hx' ⟨m, e⟩)

/-- C24 for SetSingleExample. -/
theorem C24_setSingleExample {s : Json} (hs : IsSchema s) :
    setSingleExample (setSingleExample s) = setSingleExample s :=
  fix_of_noKey (fun _ h => setSingleExampleLocal_fix h) (isSchema_setSingleExample hs)
    (fun x hx => by cases x <;> first | rfl | exact absurd rfl (hx _)) (C17_no_examples hs)

/-- C24 for ReplaceConstValue. -/
theorem C24_replaceConst {s : Json} (hs : IsSchema s) : replaceConst (replaceConst s) = replaceConst s :=
  fix_of_noKey (fun _ h => replaceConstLocal_fix h) (isSchema_replaceConst hs)
    (fun x hx => by cases x <;> first | rfl | exact absurd rfl (hx _)) (C18_no_const hs)

/-- C24 for ReplacePrefixItems, provided that no `prefixItems` is itself a schema; see
`C24_replacePrefix_false`. -/
theorem C24_replacePrefix_partial {s : Json} (hs : IsSchema s) (h : Everywhere visited PrefixOk s) :
    replacePrefix (replacePrefix s) = replacePrefix s :=
  fix_of_noKey (fun _ h => replacePrefixLocal_fix h) (postOrder_preserves replacePrefixLocal_preserves s hs)
    (fun x hx => by cases x <;> first | rfl | exact absurd rfl (hx _)) (C19_no_prefixItems_partial hs h)

/-- C24 for ReplaceUnevaluatedProperties, provided that it is not nested; see `C24_replaceUneval_false`. -/
theorem C24_replaceUneval_partial {s : Json} (hs : IsSchema s) (h : Everywhere visited UnevalOk s) :
    replaceUneval (replaceUneval s) = replaceUneval s :=
  fix_of_noKey (fun _ h => replaceUnevalLocal_fix h) (isSchema_replaceUneval hs)
    (fun x hx => by cases x <;> first | rfl | exact absurd rfl (hx _)) (C21_no_uneval_partial hs h)

theorem insert_insert_self (m : List (String × Json)) (k : String) (v : Json) :
    Obj.insert (Obj.insert m k v) k v = Obj.insert m k v := by
  induction m with
  | nil => simp [Obj.insert]
  | cons e m ih =>
    obtain ⟨k', v'⟩ := e
    simp only [Obj.insert]
    split
    · next h => subst h; simp [Obj.insert]
    · next h1 =>
      split
      · simp [Obj.insert]
      · next h2 => simp only [Obj.insert, if_neg h1, if_neg h2, ih]

theorem addNullableLocal_fix {c : NullableCfg} {s : Json} (h : ¬ MentionsNull s) : addNullableLocal c s = s := by
  unfold addNullableLocal; rw [mentionsNull_iff] at h; rw [if_neg h]

/-- C24 for AddNullable that removes null types, provided that no element of a `type` array is an array; see
`C24_addNullable_false`. -/
theorem C24_addNullable_partial (c : NullableCfg) (hc : c.removeNullType = true) {s : Json} (hs : IsSchema s)
    (h : Everywhere visited TypeOk s) : addNullable c (addNullable c s) = addNullable c s :=
  postOrder_fix _ (isSchema_addNullable c hs) (Everywhere.imp (C20_no_null_partial c hc hs h) fun _ hx => addNullableLocal_fix hx)

theorem wf_directSub {V : Vocab} {s x : Json} (h : s.WF) (hd : DirectSub V s x) : x.WF := by
  cases hd with
  | one h1 _ _ => cases h with | obj _ _ h2 => exact h2 _ h1
  | list h1 _ h3 _ => cases h with | obj _ _ h2 => cases h2 _ h1 with | arr _ h4 => exact h4 _ h3
  | map h1 _ h3 _ => cases h with | obj _ _ h2 => cases h2 _ h1 with | obj _ _ h4 => exact h4 _ h3

theorem wf_reach {V : Vocab} {s x : Json} (h : s.WF) (hr : Reach V s x) : x.WF := by
  induction hr with
  | self => exact h
  | step hd _ ih => exact ih (wf_directSub h hd)

/-- C24 for AddNullable that keeps null types, for objects as serde_json stores them (sorted by key). -/
theorem C24_addNullable_keep (c : NullableCfg) (hc : c.removeNullType = false) {s : Json} (hs : IsSchema s)
    (h : s.WF) : addNullable c (addNullable c s) = addNullable c s := by
  refine postOrder_fix _ (isSchema_addNullable c hs) ?_
  refine everywhere_keep (H := fun s => ∀ m, s = .obj m → Obj.Sorted m) (addNullableLocal_preserves c) ?_ ?_
    (fun _ _ hs _ hx => .inl (addNullableLocal_subs hs hx)) hs ?_
  · intro T _ s h m hm
    cases s with
    | obj o =>
      rw [tsub_obj] at hm; cases hm
      exact Obj.sorted_of_keys (keys_entryMap o).symm (h o rfl)
    | _ => cases hm
  · intro s hs h
    cases hs with
    | bool b => rw [addNullableLocal_bool, addNullableLocal_bool]
    | obj m =>
      have hm := h m rfl
      by_cases hn : Schema.hasType (.obj m) "null" = true
      · have : ∃ ty, Obj.get m "type" = some ty := by
          rcases hasType_cases hn with h1 | ⟨l, h1, _⟩ <;> exact ⟨_, h1⟩
        obtain ⟨ty, hty⟩ := this
        rw [addNullableLocal_obj, hty]
        simp only [hn, if_true]
        have hty2 : Obj.get (nullableMembers c m ty) "type" = some ty := by
          unfold nullableMembers
          simp only [hc]
          split
          · split
            · simp only [Bool.false_eq_true, if_false]
              rw [Obj.get_insert_ne _ _ (by decide), Obj.get_insert_ne _ _ (by decide), hty]
            · simp only [Bool.false_eq_true, if_false]
              rw [Obj.get_insert_ne _ _ (by decide), hty]
          · simp only [Bool.false_eq_true, if_false]
            rw [Obj.get_insert_ne _ _ (by decide), hty]
        have hn2 : Schema.hasType (.obj (nullableMembers c m ty)) "null" = true := by
          rw [← hn]; unfold Schema.hasType Schema.get; simp only; rw [hty2, hty]
        rw [addNullableLocal_obj, hty2]
        simp only [hn2, if_true]
        unfold nullableMembers
        simp only [hc, Bool.false_eq_true, if_false]
        have hs1 := Obj.sorted_insert hm "nullable" (Json.bool true)
        split
        · split
          · have hs2 := Obj.sorted_insert hs1 "const" Json.null
            rw [Obj.insert_sorted_get_self hs2 (k := "nullable") (by rw [Obj.get_insert_ne _ _ (by decide)]; simp)]
            rw [insert_insert_self]
          · rw [insert_insert_self]
        · rw [insert_insert_self]
      · have := addNullableLocal_fix (c := c) ((mentionsNull_iff (.obj m)).not.2 hn)
        rw [this, this]
  · intro x hx m hm
    subst hm
    cases wf_reach h hx with | obj _ h1 _ => exact h1

theorem dropFormat_or (c : FormatsCfg) (e) (m : List (String × Json)) :
    dropFormat c e m = m ∨ dropFormat c e m = Obj.remove m "format" := by
  rw [dropFormat_eq]
  unfold withFormats
  split
  · split
    · exact .inl rfl
    · exact .inr rfl
  · exact .inl rfl

/-- C24 for RestrictFormats. -/
theorem C24_restrictFormats (c : FormatsCfg) {s : Json} (hs : IsSchema s) :
    restrictFormats c (restrictFormats c s) = restrictFormats c s := by
  unfold restrictFormats
  generalize (none : Option (List String)) = e
  suffices ∀ n s e, sizeOf s < n → IsSchema s → restrictFrom c e (restrictFrom c e s) = restrictFrom c e s from
    this _ s e (Nat.lt_succ_self _) hs
  intro n
  induction n with
  | zero => intro s e hs; omega
  | succ n ih =>
    intro s e hn hs
    cases hs with
    | bool b => rw [restrictFrom_bool, restrictFrom_bool]
    | obj m =>
      rw [restrictFrom_eq]
      cases hi : inferFormats c e m with
      | none => simp only; rw [restrictFrom_eq, hi]
      | some e' =>
        simp only
        have hsub : ∀ x ∈ subs subSlot (.obj (dropFormat c e' m)), x ∈ subs subSlot (.obj m) := by
          intro x hx
          rcases dropFormat_or c e' m with h | h <;> rw [h] at hx
          · exact hx
          · exact subs_remove hx
        have hget : Obj.get (dropFormat c e' m) "$schema" = Obj.get m "$schema" := by
          rcases dropFormat_or c e' m with h | h <;> rw [h]
          exact Obj.get_remove_ne _ (by decide)
        have hdd : dropFormat c e' (dropFormat c e' m) = dropFormat c e' m := by
          rw [dropFormat_eq, dropFormat_eq]
          unfold withFormats
          cases hf : Obj.get m "format" with
          | none => simp only; rw [hf]
          | some v =>
            cases v with
            | str f =>
              simp only
              by_cases hin : f ∈ c.allowed ++ e'.getD []
              · rw [if_pos hin, hf]; simp only; rw [if_pos hin]
              · rw [if_neg hin]
                have : Obj.get (m.filter fun e => decide (e.1 ≠ "format")) "format" = none := Obj.get_remove_self m "format"
                rw [this]
            | _ => simp only; rw [hf]
        rw [tsub_obj, restrictFrom_eq]
        have hi' : inferFormats c e ((dropFormat c e' m).map (entryMap subSlot (restrictFrom c e'))) = some e' := by
          rw [← hi]
          unfold inferFormats Obj.has
          rw [get_entryMap_skip _ (by decide), hget]
        rw [hi']
        simp only
        rw [dropFormat_entryMap, hdd, ← tsub_obj, tsub_comp (restrictFrom_preserves c e')]
        exact tsub_congr (fun x hx => ih x e' (by have := sizeOf_subs (hsub x hx); omega) (subs_isSchema hx))

private def s24 : Json := .obj [("items", .obj [("format", .str "x"), ("type", .arr [.str "null", .str "string"])])]
example : s24.WF := by
  refine .obj _ (by unfold Obj.Sorted; simp) ?_
  intro e he; simp at he; subst he
  refine .obj _ (by unfold Obj.Sorted; simp) ?_
  intro e he; simp at he
  rcases he with rfl | rfl
  · exact .str _
  · exact .arr _ (by intro x hx; simp at hx; rcases hx with rfl | rfl <;> exact .str _)
example : addNullable ⟨false, true⟩ s24 ≠ s24 ∧ restrictFormats ⟨false, []⟩ s24 ≠ s24 := by decide

/-- C24 fails for ReplacePrefixItems on a malformed schema. -/
theorem C24_replacePrefix_false : ¬ ∀ s, IsSchema s → replacePrefix (replacePrefix s) = replacePrefix s := by
  intro h
  have := h (.obj [("prefixItems", .obj [("prefixItems", .arr [])])]) (.obj _)
  revert this; decide

/-- C24 fails for ReplaceUnevaluatedProperties on a well-formed schema with nested `unevaluatedProperties`. -/
theorem C24_replaceUneval_false : ¬ ∀ s, IsSchema s → replaceUneval (replaceUneval s) = replaceUneval s := by
  intro h
  have := h (.obj [("unevaluatedProperties", .obj [("unevaluatedProperties", .bool false)])]) (.obj _)
  revert this; decide

/-- C24 fails for AddNullable on a malformed `type`. -/
theorem C24_addNullable_false : ¬ ∀ c s, IsSchema s → addNullable c (addNullable c s) = addNullable c s := by
  intro h
  have := h ⟨true, true⟩ (.obj [("type", .arr [.str "null", .arr [.str "null"]])]) (.obj _)
  revert this; decide

end Verif
