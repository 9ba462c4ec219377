import Verif.Lemmas.Local
import Verif.Props.Transforms

/-!
# Preserving a property of subschemas through the post-order transforms
-/

namespace Verif
open Spec

/-- The property does not depend on the direct subschemas. -/
def Shallow (P : Json → Prop) : Prop := ∀ T, Preserves T → ∀ s, P s → P (tsub subSlot T s)

theorem Shallow.and {P Q : Json → Prop} (hP : Shallow P) (hQ : Shallow Q) : Shallow (fun s => P s ∧ Q s) :=
  fun T hT s h => ⟨hP T hT s h.1, hQ T hT s h.2⟩

theorem everywhere_and {V : Vocab} {P Q : Json → Prop} {s : Json} :
    Everywhere V (fun x => P x ∧ Q x) s ↔ Everywhere V P s ∧ Everywhere V Q s :=
  ⟨fun h => ⟨fun x hx => (h x hx).1, fun x hx => (h x hx).2⟩, fun h x hx => ⟨h.1 x hx, h.2 x hx⟩⟩

theorem shallow_noKey (k : String) : Shallow (fun s => ¬ HasKey k s) := by
  intro T _ s h; rw [hasKey_tsub]; exact h

theorem shallow_refAlone : Shallow RefAlone := by
  intro T _ s h m hm hk
  cases s with
  | obj o =>
    rw [tsub_obj] at hm; cases hm
    rw [keys_entryMap] at hk ⊢
    exact h o rfl hk
  | _ => cases hm

theorem shallow_prefixOk : Shallow PrefixOk := fun T _ s h => prefixOk_tsub T s h

/-- A property established and kept by the local part holds everywhere afterwards. -/
theorem everywhere_keep {f : Json → Json} {H P : Json → Prop} (hp : Preserves f) (hH : Shallow H)
    (hloc : ∀ s, IsSchema s → H s → P (f s))
    (hsub : ∀ s x, IsSchema s → H s → x ∈ subs subSlot (f s) → x ∈ subs subSlot s ∨ Everywhere visited P x)
    {s : Json} (hs : IsSchema s) (h : Everywhere visited H s) : Everywhere visited P (postOrder f s) := by
  refine everywhere_postOrder' hp hH ?_ s hs h
  intro s hs hh hsubs
  rw [everywhere_iff]
  refine ⟨hloc s hs hh, fun x hx => ?_⟩
  rcases hsub s x hs hh hx with h1 | h1
  · exact hsubs x h1
  · exact h1

/-- The local function adds no keywords other than `ks`. -/
def AddsOnly (f : Json → Json) (ks : List String) : Prop :=
  ∀ s k, IsSchema s → HasKey k (f s) → HasKey k s ∨ k ∈ ks

theorem addsOnly_setSingleExample : AddsOnly setSingleExampleLocal ["example"] := by
  intro s k hs h
  cases hs with
  | bool b => exact .inl h
  | obj m =>
    rw [setSingleExampleLocal_obj] at h
    split at h
    · rw [hasKey_insert, hasKey_remove] at h
      rcases h with h | h
      · exact .inr (by simp [h])
      · exact .inl h.2
    · rw [hasKey_remove] at h; exact .inl h.2

theorem addsOnly_replaceConst : AddsOnly replaceConstLocal ["enum"] := by
  intro s k hs h
  cases hs with
  | bool b => exact .inl h
  | obj m =>
    rw [replaceConstLocal_obj] at h
    split at h
    · rw [hasKey_insert, hasKey_remove] at h
      rcases h with h | h
      · exact .inr (by simp [h])
      · exact .inl h.2
    · rw [hasKey_remove] at h; exact .inl h.2

theorem addsOnly_replacePrefix : AddsOnly replacePrefixLocal ["items", "additionalItems"] := by
  intro s k hs h
  cases hs with
  | bool b => exact .inl h
  | obj m =>
    rw [replacePrefixLocal_obj] at h
    split at h
    · simp only at h
      split at h
      · rw [hasKey_insert, hasKey_insert, hasKey_remove] at h
        rcases h with h | h | h
        · exact .inr (by simp [h])
        · exact .inr (by simp [h])
        · exact .inl h.2
      · rw [hasKey_insert, hasKey_remove] at h
        rcases h with h | h
        · exact .inr (by simp [h])
        · exact .inl h.2
    · rw [hasKey_remove] at h; exact .inl h.2

theorem addsOnly_removeRefSiblings : AddsOnly removeRefSiblingsLocal ["allOf"] := by
  intro s k hs h
  unfold removeRefSiblingsLocal at h
  split at h
  · split at h
    · split at h
      · simp only at h
        split at h
        · rw [hasKey_insert, hasKey_remove] at h
          rcases h with h | h
          · exact .inr (by simp [h])
          · exact .inl h.2
        · rw [hasKey_insert, hasKey_remove] at h
          rcases h with h | h
          · exact .inr (by simp [h])
          · exact .inl h.2
        · rw [hasKey_remove] at h; exact .inl h.2
      · exact .inl h
    · exact .inl h
  · exact .inl h

theorem hasKey_modify {k q : String} {m : List (String × Json)} {f : Json → Json} :
    HasKey q (.obj (Obj.modify m k f)) ↔ HasKey q (.obj m) := by
  rw [hasKey_obj, hasKey_obj, Obj.keys_modify]

theorem addsOnly_addNullable (c : NullableCfg) : AddsOnly (addNullableLocal c) ["nullable", "const"] := by
  intro s k hs h
  cases hs with
  | bool b => rw [addNullableLocal_bool] at h; exact .inl h
  | obj m =>
    rw [addNullableLocal_obj] at h
    split at h
    · split at h
      · unfold nullableMembers at h
        simp only at h
        have h1 : HasKey k (.obj (Obj.insert m "nullable" (.bool true))) → HasKey k (.obj m) ∨ k ∈ ["nullable", "const"] := by
          intro h; rw [hasKey_insert] at h
          rcases h with h | h
          · exact .inr (by simp [h])
          · exact .inl h
        split at h
        · split at h
          · have h2 : HasKey k (.obj (Obj.insert (Obj.insert m "nullable" (.bool true)) "const" .null)) →
                HasKey k (.obj m) ∨ k ∈ ["nullable", "const"] := by
              intro h; rw [hasKey_insert] at h
              rcases h with h | h
              · exact .inr (by simp [h])
              · exact h1 h
            split at h
            · rw [hasKey_remove] at h; exact h2 h.2
            · exact h2 h
          · split at h
            · rw [hasKey_modify] at h; exact h1 h
            · exact h1 h
        · split at h
          · rw [hasKey_modify] at h; exact h1 h
          · exact h1 h
      · exact .inl h
    · exact .inl h

theorem noKey_of_addsOnly {f : Json → Json} {ks : List String} (h : AddsOnly f ks) {k : String} (hk : k ∉ ks)
    {s : Json} (hs : IsSchema s) (hn : ¬ HasKey k s) : ¬ HasKey k (f s) := by
  intro hf
  rcases h s k hs hf with h | h
  · exact hn h
  · exact hk h

/-! ## `prefixItems` values -/

theorem prefixOk_of_get {m m' : List (String × Json)} (h : PrefixOk (.obj m))
    (hg : Obj.get m' "prefixItems" = none ∨ Obj.get m' "prefixItems" = Obj.get m "prefixItems") : PrefixOk (.obj m') := by
  intro m0 v hm hv
  cases hm
  rcases hg with hg | hg
  · rw [hg] at hv; cases hv
  · exact h m v rfl (hg ▸ hv)

theorem prefixOk_bool (b : Bool) : PrefixOk (.bool b) := by intro m v hm; cases hm

theorem prefixOk_removeRefSiblings {s : Json} (h : PrefixOk s) : PrefixOk (removeRefSiblingsLocal s) := by
  unfold removeRefSiblingsLocal
  split
  · split
    · split
      · simp only
        split
        · exact prefixOk_of_get h (.inr (by rw [Obj.get_insert_ne _ _ (by decide), Obj.get_remove_ne _ (by decide)]))
        · exact prefixOk_of_get h (.inr (by rw [Obj.get_insert_ne _ _ (by decide), Obj.get_remove_ne _ (by decide)]))
        · exact prefixOk_of_get h (.inr (by rw [Obj.get_remove_ne _ (by decide)]))
      · exact h
    · exact h
  · exact h

theorem prefixOk_refOnly (r : Json) : PrefixOk (.obj [("$ref", r)]) := by
  intro m v hm hv; cases hm
  rw [Obj.get_cons, if_neg (by decide)] at hv; cases hv

theorem not_hasKey_refOnly {k : String} (hk : k ≠ "$ref") (r : Json) : ¬ HasKey k (.obj [("$ref", r)]) := by
  rw [hasKey_obj]; simp [Obj.keys, hk]

theorem prefixOk_setSingleExample {s : Json} (hs : IsSchema s) (h : PrefixOk s) : PrefixOk (setSingleExampleLocal s) := by
  cases hs with
  | bool b => exact h
  | obj m =>
    obtain ⟨m', h1, _, _, h2⟩ := setSingleExampleLocal_get m
    rw [h1]; exact prefixOk_of_get h (.inr (h2 _ (by decide)))

theorem prefixOk_replaceConst {s : Json} (hs : IsSchema s) (h : PrefixOk s) : PrefixOk (replaceConstLocal s) := by
  cases hs with
  | bool b => exact h
  | obj m =>
    obtain ⟨m', h1, _, _, h2⟩ := replaceConstLocal_get m
    rw [h1]; exact prefixOk_of_get h (.inr (h2 _ (by decide)))

theorem addNullableLocal_get (c : NullableCfg) (m : List (String × Json)) :
    ∃ m', addNullableLocal c (.obj m) = .obj m' ∧
      ∀ k, k ∉ ["nullable", "const", "type"] → Obj.get m' k = Obj.get m k := by
  rw [addNullableLocal_obj]
  split
  · split
    · refine ⟨_, rfl, fun k hk => ?_⟩
      simp at hk
      obtain ⟨h1, h2, h3⟩ := hk
      unfold nullableMembers
      simp only
      split
      · split
        · split
          · rw [Obj.get_remove_ne _ (Ne.symm h3), Obj.get_insert_ne _ _ (Ne.symm h2), Obj.get_insert_ne _ _ (Ne.symm h1)]
          · rw [Obj.get_insert_ne _ _ (Ne.symm h2), Obj.get_insert_ne _ _ (Ne.symm h1)]
        · split
          · rw [Obj.get_modify, if_neg (Ne.symm h3), Obj.get_insert_ne _ _ (Ne.symm h1)]
          · rw [Obj.get_insert_ne _ _ (Ne.symm h1)]
      · split
        · rw [Obj.get_modify, if_neg (Ne.symm h3), Obj.get_insert_ne _ _ (Ne.symm h1)]
        · rw [Obj.get_insert_ne _ _ (Ne.symm h1)]
    · exact ⟨m, rfl, fun _ _ => rfl⟩
  · exact ⟨m, rfl, fun _ _ => rfl⟩

theorem prefixOk_addNullable (c : NullableCfg) {s : Json} (hs : IsSchema s) (h : PrefixOk s) :
    PrefixOk (addNullableLocal c s) := by
  cases hs with
  | bool b => rw [addNullableLocal_bool]; exact h
  | obj m =>
    obtain ⟨m', h1, h2⟩ := addNullableLocal_get c m
    rw [h1]; exact prefixOk_of_get h (.inr (h2 _ (by decide)))

/-! ## `$ref` -/

theorem refAlone_of_addsOnly {f : Json → Json} {ks : List String} (h : AddsOnly f ks) (hk : "$ref" ∉ ks)
    (hfix : ∀ m, Obj.keys m = ["$ref"] → f (.obj m) = .obj m) {s : Json} (hs : IsSchema s) (hr : RefAlone s) :
    RefAlone (f s) := by
  intro m hm hmk
  have h1 : HasKey "$ref" (f s) := by rw [hm, hasKey_obj]; exact hmk
  rcases h s _ hs h1 with h2 | h2
  · cases hs with
    | bool b => exact absurd h2 not_hasKey_bool
    | obj o =>
      rw [hasKey_obj] at h2
      have h3 := hr o rfl h2
      rw [hfix o h3] at hm; cases hm; exact h3
  · exact absurd h2 hk

theorem get_none_of_keys {m : List (String × Json)} {k : String} (h : Obj.keys m = ["$ref"]) (hk : k ≠ "$ref") :
    Obj.get m k = none := Obj.get_eq_none.2 (by rw [h]; simp [hk])

theorem setSingleExampleLocal_fix {m : List (String × Json)} (h : Obj.get m "examples" = none) :
    setSingleExampleLocal (.obj m) = .obj m := by
  rw [setSingleExampleLocal_obj, h]; simp only; rw [Obj.remove_of_get_none h]
theorem replaceConstLocal_fix {m : List (String × Json)} (h : Obj.get m "const" = none) :
    replaceConstLocal (.obj m) = .obj m := by
  rw [replaceConstLocal_obj, h]; simp only; rw [Obj.remove_of_get_none h]
theorem replacePrefixLocal_fix {m : List (String × Json)} (h : Obj.get m "prefixItems" = none) :
    replacePrefixLocal (.obj m) = .obj m := by
  rw [replacePrefixLocal_obj, h]; simp only; rw [Obj.remove_of_get_none h]
theorem replaceUnevalLocal_fix {m : List (String × Json)} (h : Obj.get m "unevaluatedProperties" = none) :
    replaceUnevalLocal (.obj m) = .obj m := by
  rw [replaceUnevalLocal_obj, h]; simp only; rw [Obj.remove_of_get_none h]

end Verif
