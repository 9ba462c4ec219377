import Verif.Lemmas.Local
import Verif.Spec.Formats

/-!
# C15 to C24: what the built-in transforms leave behind

This file has the claims about the shape of the result. The claims about validity are in
`Verif/Props/Preserve.lean`.
-/

namespace Verif
open Spec

/-! ## C15: ReplaceBoolSchemas -/

theorem replaceBool_obj (skip : Bool) (m : List (String × Json)) :
    replaceBool skip (.obj m) =
      match skip, Obj.get m "additionalProperties" with
      | true, some ap => .obj (Obj.insert ((Obj.remove m "additionalProperties").map
          (entryMap subSlot (replaceBool skip))) "additionalProperties" ap)
      | _, _ => tsub subSlot (replaceBool skip) (.obj m) := by
  rw [replaceBool_eq skip (.obj m)]
  unfold replaceBoolStep
  simp only
  cases skip <;> cases Obj.get m "additionalProperties" <;> rfl

theorem replaceBool_bool (skip : Bool) (b : Bool) :
    replaceBool skip (.bool b) = if b then .obj [] else .obj [("not", .obj [])] := by
  rw [replaceBool_eq skip (.bool b)]; cases b <;> rfl

theorem replaceBool_isObj (skip : Bool) {s : Json} (hs : IsSchema s) : ∃ m, replaceBool skip s = .obj m := by
  cases hs with
  | bool b => rw [replaceBool_bool]; cases b <;> exact ⟨_, rfl⟩
  | obj m => rw [replaceBool_obj]; split <;> exact ⟨_, rfl⟩

theorem replaceBool_preserves (skip : Bool) : Preserves (replaceBool skip) := by
  intro s hs
  obtain ⟨m, h⟩ := replaceBool_isObj skip hs
  rw [h]; exact .obj m

theorem replaceBool_step_inv {skip : Bool} {m : List (String × Json)} {st : Step} {y : Json}
    (h : StepTo visited (replaceBool skip (.obj m)) st y) (hy : IsSchema y)
    (hst : skip = true → st ≠ .key "additionalProperties") :
    ∃ x, StepTo visited (.obj m) st x ∧ IsSchema x ∧ y = replaceBool skip x := by
  rw [replaceBool_obj] at h
  split at h
  · next ap hap =>
    have hk : st.keyword ≠ "additionalProperties" := by
      intro e
      cases h with
      | key _ _ => exact hst rfl (by rw [← e]; rfl)
      | idx _ h1 _ => simp only [Step.keyword] at e; subst e; exact absurd h1 (by decide)
      | mem _ h1 _ => simp only [Step.keyword] at e; subst e; exact absurd h1 (by decide)
    have h' : StepTo visited (tsub subSlot (replaceBool true) (.obj (Obj.remove m "additionalProperties"))) st y :=
      stepTo_of_get h (Obj.get_insert_ne _ _ (Ne.symm hk)).symm
    obtain ⟨x, h1, h2, h3⟩ := tsub_step_inv (replaceBool_preserves true) h' hy
    exact ⟨x, stepTo_of_get h1 (Obj.get_remove_ne _ (Ne.symm hk)).symm, h2, h3⟩
  · exact tsub_step_inv (replaceBool_preserves _) h hy

/-- C15, full claim about the shape: no subschema is a bool, except the value of `additionalProperties` when
that is skipped. It fails when `skip_additional_properties` is set: see `C15_Full_false`. -/
def C15_Full (skip : Bool) : Prop :=
  ∀ s p x, IsSchema s → Locate visited (replaceBool skip s) p x →
    (skip = true → p.getLast? ≠ some (.key "additionalProperties")) → ∀ b, x ≠ .bool b

/-- C15: no bool subschema remains below the result, at any location that does not go through a skipped
`additionalProperties`. What is missing for `C15_Full true` are the locations that do. -/
theorem C15_no_bool_partial (skip : Bool) {s x : Json} {p : List Step} (hs : IsSchema s)
    (h : Locate visited (replaceBool skip s) p x)
    (hp : skip = true → .key "additionalProperties" ∉ p) (b : Bool) : x ≠ .bool b := by
  induction p generalizing s with
  | nil =>
    cases h with
    | here _ =>
      obtain ⟨m, hm⟩ := replaceBool_isObj skip hs
      rw [hm]; exact fun e => by cases e
  | cons st p ih =>
    cases h with
    | step hst hx hl =>
      cases hs with
      | obj m =>
        obtain ⟨x0, _, h2, rfl⟩ := replaceBool_step_inv hst hx
          (fun e he => hp e (by simp [he]))
        exact ih h2 hl (fun e he => hp e (by simp [he]))
      | bool b' =>
        rw [replaceBool_bool] at hst
        have : ∃ m, hst = hst ∧ x = .obj m := by
          cases b' with
          | true =>
            simp only [if_true] at hst
            cases hst with
            | key hg _ => cases hg
            | idx hg _ _ => cases hg
            | mem hg _ _ => cases hg
          | false =>
            simp only [Bool.false_eq_true, if_false] at hst
            have hnot : ∀ k v, Obj.get [("not", Json.obj [])] k = some v → v = .obj [] := by
              intro k v hv
              rw [Obj.get_cons] at hv
              split at hv
              · cases hv; rfl
              · cases hv
            cases hst with
            | key hg _ =>
              have := hnot _ _ hg; subst this
              cases hl with
              | here _ => exact ⟨_, rfl, rfl⟩
              | step h' _ _ =>
                cases h' with
                | key hg _ => cases hg
                | idx hg _ _ => cases hg
                | mem hg _ _ => cases hg
            | idx hg _ _ => cases hnot _ _ hg
            | mem hg _ hg2 => cases hnot _ _ hg; cases hg2
        obtain ⟨m, _, rfl⟩ := this
        exact fun e => by cases e

/-- C15: the full claim, when `additionalProperties` is not skipped. -/
theorem C15_no_bool : C15_Full false :=
  fun _ _ _ hs h _ => C15_no_bool_partial false hs h (by simp)

/-- C15: when skipping, the whole subtree at `additionalProperties` is left alone, so bool schemas inside it
stay: `{"additionalProperties": {"items": true}}` is unchanged. -/
theorem C15_Full_false : ¬ C15_Full true := by
  intro h
  refine h (.obj [("additionalProperties", .obj [("items", .bool true)])])
    [.key "additionalProperties", .key "items"] (.bool true) (.obj _) ?_ (by decide) true rfl
  refine .step (x := .obj [("items", .bool true)]) (.key (by decide) (by decide)) (.obj _) ?_
  exact .step (.key (by decide) (by decide)) (.bool _) (.here (.bool _))

/-- C15: a skipped `additionalProperties` keeps its value. -/
theorem C15_skipped {m : List (String × Json)} {ap : Json} (h : Obj.get m "additionalProperties" = some ap) :
    ∃ m', replaceBool true (.obj m) = .obj m' ∧ Obj.get m' "additionalProperties" = some ap := by
  rw [replaceBool_obj, h]; exact ⟨_, rfl, by simp⟩

example : replaceBool false (.obj [("items", .bool false), ("additionalProperties", .bool true)]) =
    .obj [("items", .obj [("not", .obj [])]), ("additionalProperties", .obj [])] := by decide
example : replaceBool true (.obj [("additionalProperties", .bool true), ("items", .bool false)]) =
    .obj [("additionalProperties", .bool true), ("items", .obj [("not", .obj [])])] := by decide
example : Locate visited (replaceBool true (.obj [("items", .bool false)])) [.key "items"]
    (.obj [("not", .obj [])]) := .step (.key (by decide) (by decide)) (.obj _) (.here (.obj _))

/-! ## C16: RemoveRefSiblings -/

/-- A `$ref` is the only keyword of its object. -/
def Spec.RefAlone (s : Json) : Prop := ∀ m, s = .obj m → "$ref" ∈ Obj.keys m → Obj.keys m = ["$ref"]

theorem refAlone_single (r : Json) : RefAlone (.obj [("$ref", r)]) := by
  intro m hm _; cases hm; rfl

theorem refAlone_local (s : Json) : RefAlone (removeRefSiblingsLocal s) := by
  intro m hm hk
  unfold removeRefSiblingsLocal at hm
  split at hm
  · next o =>
    split at hm
    · next hlen =>
      split at hm
      · next r hr =>
        have hne : "$ref" ∉ Obj.keys (Obj.remove o "$ref") := by simp [Obj.keys_remove]
        simp only at hm
        split at hm
        · cases hm; rw [Obj.mem_keys_insert] at hk; simp [hne] at hk
        · cases hm; rw [Obj.mem_keys_insert] at hk; simp [hne] at hk
        · cases hm; exact absurd hk hne
      · next hr => cases hm; exact absurd hk (Obj.get_eq_none.1 hr)
    · next hlen =>
      cases hm
      cases m with
      | nil => simp [Obj.keys] at hk
      | cons e o =>
        cases o with
        | nil => simp [Obj.keys] at hk ⊢; exact hk.symm
        | cons e' o => simp at hlen
  · next h => exact absurd hm (h m)

theorem everywhere_refOnly {P : Json → Prop} {r : Json} (h : P (.obj [("$ref", r)])) :
    Everywhere visited P (.obj [("$ref", r)]) := by
  rw [everywhere_iff]
  refine ⟨h, fun x hx => ?_⟩
  simp [subs, show subSlot "$ref" = .skip by decide] at hx
  cases r <;> simp [slotSubs] at hx

/-- C16: after RemoveRefSiblings no subschema has `$ref` next to another keyword. -/
theorem C16_isolated {s : Json} (hs : IsSchema s) : Everywhere visited RefAlone (removeRefSiblings s) := by
  refine everywhere_postOrder removeRefSiblingsLocal_preserves ?_ s hs
  intro s hs h
  rw [everywhere_iff]
  refine ⟨refAlone_local s, fun x hx => ?_⟩
  rcases removeRefSiblingsLocal_subs hx with hx | ⟨r, rfl⟩
  · exact h x hx
  · exact everywhere_refOnly (refAlone_single r)

/-- C16: every location of the input is a location of the output. -/
theorem C16_located {s x : Json} {p : List Step} (h : Locate visited s p x) :
    Locate visited (removeRefSiblings s) p (removeRefSiblings x) :=
  postOrder_locate keepsSteps_removeRefSiblings removeRefSiblingsLocal_preserves h

example : removeRefSiblings (.obj [("$ref", .str "#/x"), ("title", .str "T")]) =
    .obj [("allOf", .arr [.obj [("$ref", .str "#/x")]]), ("title", .str "T")] := by decide
example : ¬ RefAlone (.obj [("$ref", .str "#/x"), ("title", .str "T")]) := by
  intro h; exact absurd (h _ rfl (by decide)) (by decide)

/-! ## C17: SetSingleExample -/

theorem everywhere_noKey_local {f : Json → Json} {k : String} (hp : Preserves f)
    (h1 : ∀ s, IsSchema s → ¬ HasKey k (f s)) (h2 : ∀ s x, IsSchema s → x ∈ subs subSlot (f s) → x ∈ subs subSlot s)
    {s : Json} (hs : IsSchema s) : Everywhere visited (fun x => ¬ HasKey k x) (postOrder f s) := by
  refine everywhere_postOrder hp ?_ s hs
  intro s hs h
  rw [everywhere_iff]
  exact ⟨h1 s hs, fun x hx => h x (h2 s x hs hx)⟩

theorem not_hasKey_of_get {k : String} {m : List (String × Json)} (h : Obj.get m k = none) : ¬ HasKey k (.obj m) := by
  rw [hasKey_obj]; exact Obj.get_eq_none.1 h

theorem setSingleExampleLocal_noKey {s : Json} (hs : IsSchema s) : ¬ HasKey "examples" (setSingleExampleLocal s) := by
  cases hs with
  | bool b => exact not_hasKey_bool
  | obj m =>
    obtain ⟨m', h1, h2, _⟩ := setSingleExampleLocal_get m
    rw [h1]; exact not_hasKey_of_get h2

/-- C17: no subschema of the result has `examples`. -/
theorem C17_no_examples {s : Json} (hs : IsSchema s) :
    Everywhere visited (fun x => ¬ HasKey "examples" x) (setSingleExample s) :=
  everywhere_noKey_local setSingleExampleLocal_preserves (fun _ => setSingleExampleLocal_noKey)
    (fun _ _ => setSingleExampleLocal_subs) hs

/-- C17: at every location, the first element of a non-empty `examples` becomes the `example`; other data
keywords keep their values. -/
theorem C17_example {s : Json} {p : List Step} {m : List (String × Json)} (h : Locate visited s p (.obj m)) :
    ∃ m', Locate visited (setSingleExample s) p (.obj m') ∧
      Obj.get m' "examples" = none ∧
      Obj.get m' "example" = (match Obj.get m "examples" with
        | some (.arr (a :: _)) => some a
        | _ => Obj.get m "example") ∧
      ∀ k, NotTraversed k → k ≠ "examples" → k ≠ "example" → Obj.get m' k = Obj.get m k := by
  have hl := postOrder_locate setSingleExample_keeps setSingleExampleLocal_preserves h
  rw [postOrder_eq _ (.obj m), tsub_obj] at hl
  obtain ⟨m', h1, h2, h3, h4⟩ := setSingleExampleLocal_get (m.map (entryMap subSlot (postOrder setSingleExampleLocal)))
  rw [h1] at hl
  refine ⟨m', hl, h2, ?_, fun k hk hne1 hne2 => ?_⟩
  · rw [h3, get_entryMap_skip m (by decide), get_entryMap_skip m (by decide)]
    rcases Obj.get m "examples" with _ | (_ | _ | _ | _ | (_ | _) | _) <;> rfl
  · rw [h4 k (by simp [hne1, hne2]), get_entryMap_skip m (slot_skip hk)]

example : setSingleExample (.obj [("items", .obj [("examples", .arr [.null, .bool true])])]) =
    .obj [("items", .obj [("example", .null)])] := by decide
example : Locate visited (.obj [("items", .obj [("examples", .arr [.null])])]) [.key "items"]
    (.obj [("examples", .arr [.null])]) := .step (.key (by decide) (by decide)) (.obj _) (.here (.obj _))

/-! ## C18: ReplaceConstValue -/

theorem replaceConstLocal_noKey {s : Json} (hs : IsSchema s) : ¬ HasKey "const" (replaceConstLocal s) := by
  cases hs with
  | bool b => exact not_hasKey_bool
  | obj m =>
    obtain ⟨m', h1, h2, _⟩ := replaceConstLocal_get m
    rw [h1]; exact not_hasKey_of_get h2

/-- C18: no subschema of the result has `const`. -/
theorem C18_no_const {s : Json} (hs : IsSchema s) :
    Everywhere visited (fun x => ¬ HasKey "const" x) (replaceConst s) :=
  everywhere_noKey_local replaceConstLocal_preserves (fun _ => replaceConstLocal_noKey)
    (fun _ _ => replaceConstLocal_subs) hs

/-- C18: at every location, `const` becomes an `enum` with one element; other data keywords keep their
values. -/
theorem C18_enum {s : Json} {p : List Step} {m : List (String × Json)} (h : Locate visited s p (.obj m)) :
    ∃ m', Locate visited (replaceConst s) p (.obj m') ∧
      Obj.get m' "enum" = (match Obj.get m "const" with
        | some v => some (.arr [v])
        | none => Obj.get m "enum") ∧
      ∀ k, NotTraversed k → k ≠ "const" → k ≠ "enum" → Obj.get m' k = Obj.get m k := by
  have hl := postOrder_locate replaceConst_keeps replaceConstLocal_preserves h
  rw [postOrder_eq _ (.obj m), tsub_obj] at hl
  obtain ⟨m', h1, h2, h3, h4⟩ := replaceConstLocal_get (m.map (entryMap subSlot (postOrder replaceConstLocal)))
  rw [h1] at hl
  refine ⟨m', hl, ?_, fun k hk hne1 hne2 => ?_⟩
  · rw [h3, get_entryMap_skip m (by decide), get_entryMap_skip m (by decide)]
    cases Obj.get m "const" <;> rfl
  · rw [h4 k (by simp [hne1, hne2]), get_entryMap_skip m (slot_skip hk)]

example : replaceConst (.obj [("not", .obj [("const", .null)])]) =
    .obj [("not", .obj [("enum", .arr [.null])])] := by decide

/-! ## C19: ReplacePrefixItems -/

theorem replacePrefixLocal_noKey {s : Json} (hs : IsSchema s) : ¬ HasKey "prefixItems" (replacePrefixLocal s) := by
  cases hs with
  | bool b => exact not_hasKey_bool
  | obj m =>
    rw [replacePrefixLocal_obj]
    have hr : ¬ HasKey "prefixItems" (.obj (Obj.remove m "prefixItems")) := by rw [hasKey_remove]; simp
    split
    · simp only
      split
      · rw [hasKey_insert, hasKey_insert]; simp [hr]
      · rw [hasKey_insert]; simp [hr]
    · exact hr

theorem prefixOk_tsub (T : Json → Json) (s : Json) (h : PrefixOk s) : PrefixOk (tsub subSlot T s) := by
  intro m v hm hv
  cases s with
  | obj o =>
    rw [tsub_obj] at hm; cases hm
    rw [get_entryMap, show subSlot "prefixItems" = .list by decide] at hv
    cases hg : Obj.get o "prefixItems" with
    | none => rw [hg] at hv; cases hv
    | some w =>
      rw [hg] at hv
      have := h o w rfl hg
      cases w with
      | arr l => cases hv; intro h; cases h
      | obj n => exact absurd (.obj n) this
      | bool b => exact absurd (.bool b) this
      | _ => cases hv; intro h; cases h
  | _ => cases hm

/-- C19, full claim about the shape: no subschema has `prefixItems`. It fails when `prefixItems` is itself a
schema, see `C19_Full_false`. -/
def C19_Full : Prop :=
  ∀ s, IsSchema s → Everywhere visited (fun x => ¬ HasKey "prefixItems" x) (replacePrefix s)

/-- C19: no subschema of the result has `prefixItems`, provided that no `prefixItems` is itself an object or
bool. JSON Schema requires an array there. -/
theorem C19_no_prefixItems_partial {s : Json} (hs : IsSchema s) (h : Everywhere visited PrefixOk s) :
    Everywhere visited (fun x => ¬ HasKey "prefixItems" x) (replacePrefix s) := by
  refine everywhere_postOrder' replacePrefixLocal_preserves (fun T _ s h => prefixOk_tsub T s h) ?_ s hs h
  intro s hs hok h
  rw [everywhere_iff]
  exact ⟨replacePrefixLocal_noKey hs, fun x hx => h x (replacePrefixLocal_subs hs hok hx)⟩

/-- C19: without that condition a nested `prefixItems` survives. -/
theorem C19_Full_false : ¬ C19_Full := by
  intro h
  refine h (.obj [("prefixItems", .obj [("prefixItems", .arr [])])]) (.obj _)
    (.obj [("prefixItems", .arr [])]) (.step ?_ (.self _)) ⟨_, .arr [], rfl, by simp⟩
  rw [← mem_subs_iff]; decide

/-- C19: at the root, the keyword values move as documented. -/
theorem C19_moved (m : List (String × Json)) (l : List Json) (h : Obj.get m "prefixItems" = some (.arr l)) :
    ∃ m', replacePrefix (.obj m) = .obj m' ∧
      Obj.get m' "items" = some (.arr (l.map (atSchema replacePrefix))) ∧
      (∀ v, Obj.get m "items" = some v → IsSchema v → Obj.get m' "additionalItems" = some (replacePrefix v)) ∧
      ∀ k, NotTraversed k → Obj.get m' k = Obj.get m k := by
  unfold replacePrefix
  rw [postOrder_eq _ (.obj m), tsub_obj, replacePrefixLocal_obj, get_entryMap, h,
    show subSlot "prefixItems" = .list by decide]
  simp only [Option.map_some, atSlot]
  generalize hT : postOrder replacePrefixLocal = T
  have hnt : ∀ k, NotTraversed k → k ≠ "prefixItems" ∧ k ≠ "items" ∧ k ≠ "additionalItems" := by
    intro k hk
    refine ⟨?_, ?_, ?_⟩ <;> rintro rfl <;> exact absurd hk (by decide)
  cases hi : Obj.get (m.map (entryMap subSlot T)) "items" with
  | none =>
    refine ⟨_, rfl, by simp, ?_, ?_⟩
    · intro v hv hs
      rw [get_entryMap, hv] at hi; cases hi
    · intro k hk
      obtain ⟨h1, h2, h3⟩ := hnt k hk
      rw [Obj.get_insert_ne _ _ h2.symm, Obj.get_remove_ne _ h1.symm, get_entryMap_skip m (slot_skip hk)]
  | some v' =>
    refine ⟨_, rfl, ?_, ?_, ?_⟩
    · rw [Obj.get_insert_ne _ _ (by decide)]; simp
    · intro v hv hs
      rw [get_entryMap, hv, show subSlot "items" = .items by decide] at hi
      rw [Obj.get_insert_self, ← hi]
      cases hs <;> rfl
    · intro k hk
      obtain ⟨h1, h2, h3⟩ := hnt k hk
      rw [Obj.get_insert_ne _ _ h3.symm, Obj.get_insert_ne _ _ h2.symm, Obj.get_remove_ne _ h1.symm,
        get_entryMap_skip m (slot_skip hk)]

example : replacePrefix (.obj [("items", .bool false), ("prefixItems", .arr [.bool true, .obj []])]) =
    .obj [("additionalItems", .bool false), ("items", .arr [.bool true, .obj []])] := by decide
example : Everywhere visited PrefixOk (.obj [("prefixItems", .arr [])]) := by
  rw [everywhere_iff]
  refine ⟨?_, fun x hx => absurd hx (by have : subs subSlot (.obj [("prefixItems", .arr [])]) = [] := by decide
                                        rw [this]; simp)⟩
  intro m v hm hv; cases hm; cases hv; intro h; cases h

end Verif
