import Verif.Props.Preserve

/-!
# C18: what `ReplaceConstValue` makes of every schema

The result is equivalent to the schema without the `enum` beside each `const`.
-/

namespace Verif
open Spec

/-! ## Two functions on subschemas -/

section Two
variable {D : Dialect} {env : Env} {T T' : Json → Json}

theorem den_atSchema₂ {x : Json} (h : IsSchema x → den D env (T x) = den D env (T' x)) :
    den D env (atSchema T x) = den D env (atSchema T' x) := by
  unfold atSchema
  by_cases hx : isSchema x = true
  · rw [if_pos hx, if_pos hx]; exact h (isSchema_iff.1 hx)
  · rw [if_neg hx, if_neg hx]

theorem denArr_map₂ {l : List Json} (h : ∀ x ∈ l, IsSchema x → den D env (T x) = den D env (T' x)) :
    denArr D env (.arr (l.map (atSchema T))) = denArr D env (.arr (l.map (atSchema T'))) := by
  rw [denArr, denArr, denList_eq, denList_eq, List.map_map, List.map_map]
  congr 1
  apply List.map_congr_left
  intro x hx
  exact den_atSchema₂ (h x hx)

/-- `kwOf_atSlot` for two functions that give equivalent schemas. -/
theorem kwOf_atSlot₂ (hT : Preserves T) (hT' : Preserves T') {k : String} {v : Json} (hk : subSlot k ≠ .skip)
    (h : ∀ x ∈ slotSubs (subSlot k) v, den D env (T x) = den D env (T' x)) :
    kwOf D env k (atSlot T (subSlot k) v) = kwOf D env k (atSlot T' (subSlot k) v) := by
  have hone : ∀ x, (IsSchema x → den D env (T x) = den D env (T' x)) →
      (if schemaLike (atSchema T x) then some (den D env (atSchema T x)) else none) =
      (if schemaLike (atSchema T' x) then some (den D env (atSchema T' x)) else none) := by
    intro x hx
    rw [schemaLike_atSchema hT, schemaLike_atSchema hT', den_atSchema₂ hx]
  have hitems : ∀ x, IsSchema x → slotSubs .items x = [x] →
      (∀ y ∈ slotSubs .items x, den D env (T y) = den D env (T' y)) →
      kwOf D env "items" (atSlot T .items x) = kwOf D env "items" (atSlot T' .items x) := by
    intro x hx hsub hd
    have he := hone x (fun _ => hd x (by rw [hsub]; simp))
    rw [atSlot_items (isSchema_iff.2 hx), atSlot_items (isSchema_iff.2 hx)]
    have h1 := isSchema_atSchema hT (isSchema_iff.2 hx)
    have h2 := isSchema_atSchema hT' (isSchema_iff.2 hx)
    have c1 : oneKeys.contains "items" = true := by decide
    have c2 : listKeys.contains "items" = true := by decide
    have c3 : mapKeys.contains "items" = false := by decide
    have c4 : noRaw "items" = true := by decide
    simp only [kwOf, c1, c2, c3, c4, if_true, Bool.true_and, Bool.false_eq_true, if_false, he,
      denArr_schema h1, denArr_schema h2]
  rcases subSlot_cases k with ⟨h1, h2, e⟩ | ⟨h1, h2, e⟩ | ⟨h1, e⟩ | ⟨h1, e⟩ | ⟨_, _, _, e⟩
  · obtain ⟨a, b, c⟩ := visited_one k h1 h2
    rw [e] at h ⊢
    have hr := visited_noRaw k (by simp [h1])
    simp only [kwOf, hr, a, b, c, if_true, Bool.true_and, Bool.false_eq_true, if_false, atSlot]
    rw [hone v (fun hv => h v (by simp [slotSubs, isSchema_iff.2 hv]))]
  · obtain ⟨a, b, c⟩ := visited_list k h1 h2
    rw [e] at h ⊢
    have hr := visited_noRaw k (by simp [h1])
    simp only [kwOf, hr, a, b, c, if_true, Bool.false_and, Bool.false_eq_true, if_false]
    cases v with
    | arr l =>
      simp only [atSlot]
      rw [denArr_map₂ (T' := T')]
      intro x hx hx'
      exact h x (by simp [slotSubs, hx, isSchema_iff.2 hx'])
    | _ => rfl
  · subst h1
    rw [e] at h ⊢
    cases v with
    | arr l =>
      simp only [kwOf, atSlot]
      rw [denArr_map₂ (T' := T')]
      · rfl
      intro x hx hx'
      exact h x (by simp [slotSubs, hx, isSchema_iff.2 hx'])
    | obj m => exact hitems _ (.obj m) rfl h
    | bool b => exact hitems _ (.bool b) rfl h
    | _ => rfl
  · obtain ⟨a, b⟩ := visited_map k h1
    rw [e] at h ⊢
    have hr := visited_noRaw k (by simp [h1])
    simp only [kwOf, hr, a, b, if_true, Bool.false_and, Bool.false_eq_true, if_false]
    cases v with
    | obj m =>
      simp only [atSlot, denObj, denVals_eq, List.map_map]
      congr 2
      congr 1
      apply List.map_congr_left
      intro x hx
      simp only [Function.comp]
      rw [den_atSchema₂ (T' := T')]
      intro hs
      exact h x.2 (by simp [slotSubs, isSchema_iff.2 hs]; exact ⟨_, hx⟩)
    | _ => rfl
  · exact absurd e hk

/-- The views of an object whose subschemas are changed by two functions that give equivalent schemas. -/
theorem viewOf_tsub₂ (hT : Preserves T) (hT' : Preserves T') {m : List (String × Json)}
    (h : ∀ x ∈ subs subSlot (.obj m), den D env (T x) = den D env (T' x)) :
    viewOf D env (m.map (entryMap subSlot T)) = viewOf D env (m.map (entryMap subSlot T')) := by
  funext k
  unfold viewOf
  rw [get_entryMap, get_entryMap]
  cases hg : Obj.get m k with
  | none => rfl
  | some v =>
    simp only [Option.map_some]
    congr 1
    by_cases hk : subSlot k = .skip
    · rw [hk]; rfl
    · exact kwOf_atSlot₂ hT hT' hk (fun x hx => h x (subs_mem (Obj.get_mem hg) hx))

/-- Two transforms give equivalent schemas if their steps do, on objects with the same view. -/
theorem den_postOrder₂ {f g : Json → Json} (hf : Preserves f) (hg : Preserves g) (hb : ∀ b, f (.bool b) = g (.bool b))
    (h : ∀ m m', viewOf D env m = viewOf D env m' → others m = others m' →
      den D env (f (.obj m)) = den D env (g (.obj m'))) :
    ∀ s, IsSchema s → den D env (postOrder f s) = den D env (postOrder g s) := by
  suffices ∀ n s, sizeOf s < n → IsSchema s → den D env (postOrder f s) = den D env (postOrder g s) by
    intro s; exact this _ s (Nat.lt_succ_self _)
  intro n
  induction n with
  | zero => intro s hs; omega
  | succ n ih =>
    intro s hs hi
    rw [postOrder_eq f hi, postOrder_eq g hi]
    cases hi with
    | bool b => exact congrArg _ (hb b)
    | obj m =>
      rw [tsub_obj, tsub_obj]
      refine h _ _ (viewOf_tsub₂ (postOrder_preserves hf) (postOrder_preserves hg) fun x hx => ?_) ?_
      · exact ih x (by have := sizeOf_subs hx; omega) (subs_isSchema hx)
      · rw [others_tsub, others_tsub]

end Two

/-! ## The claim -/

/-- A schema without the `enum` beside `const`. -/
def Spec.enumDropped : Json → Json
  | .obj m => .obj (if (Obj.get m "const").isSome then Obj.remove m "enum" else m)
  | s => s

/-- A document without the `enum` beside `const` in the schema and all its subschemas. -/
def Spec.withoutEnums : Json → Json := postOrder enumDropped

theorem enumDropped_preserves : Preserves enumDropped := by
  intro s hs
  cases hs with
  | bool b => exact .bool b
  | obj m => exact .obj _

/-- C18: the result is equivalent to the schema without the `enum` beside `const`, for every schema. -/
theorem C18_exact (D : Dialect) (env : Env) {s : Json} (hs : IsSchema s) :
    den D env (replaceConst s) = den D env (withoutEnums s) := by
  refine den_postOrder₂ replaceConstLocal_preserves enumDropped_preserves (fun b => rfl) ?_ s hs
  intro m m' hv ho
  have h1 : known.contains "const" = true := by decide
  have h2 : known.contains "enum" = true := by decide
  have hg : ∀ k, noRaw k = false → Obj.get m k = Obj.get m' k := fun k hk => by
    rw [← raw_viewOf D env m hk, ← raw_viewOf D env m' hk, hv]
  have hc := hg "const" (by decide)
  funext i
  rw [replaceConstLocal_obj]
  simp only [enumDropped]
  rw [← hc]
  cases hcm : Obj.get m "const" with
  | none =>
    simp only [Option.isSome_none, Bool.false_eq_true, if_false]
    rw [Obj.remove_of_get_none hcm, den_obj, den_obj, hv, ho]
  | some c =>
    simp only [Option.isSome_some, if_true]
    rw [den_obj, den_obj, others_insert h2, others_remove h1, others_remove h2, ho]
    have hag : Agree ["const", "enum"] (viewOf D env (Obj.insert (Obj.remove m "const") "enum" (.arr [c])))
        (viewOf D env (Obj.remove m' "enum")) := by
      intro k hk
      simp only [List.mem_cons, List.not_mem_nil, or_false, not_or] at hk
      rw [viewOf_insert, viewOf_remove, viewOf_remove, if_neg (Ne.symm hk.2), if_neg (Ne.symm hk.1),
        if_neg (Ne.symm hk.2), hv]
    refine combine_congr hag (by decide) rfl rfl (typeOk_agree hag (by decide) (by decide)) ?_
      (itemsOk_agree hag (by decide))
    have a1 : (viewOf D env (Obj.insert (Obj.remove m "const") "enum" (.arr [c]))).raw "const" = none := by
      unfold View.raw; rw [viewOf_insert, viewOf_remove]; rfl
    have a2 : (viewOf D env (Obj.insert (Obj.remove m "const") "enum" (.arr [c]))).raw "enum" = some (.arr [c]) := by
      unfold View.raw; rw [viewOf_insert]; rfl
    have a3 : (viewOf D env (Obj.remove m' "enum")).raw "const" = some c := by
      rw [raw_viewOf D env _ (by decide), Obj.get_remove_ne _ (by decide), ← hc, hcm]
    have a4 : (viewOf D env (Obj.remove m' "enum")).raw "enum" = none := by
      unfold View.raw; rw [viewOf_remove]; rfl
    have hrest : ∀ k ∈ simpleKeys.drop 2,
        (viewOf D env (Obj.insert (Obj.remove m "const") "enum" (.arr [c]))).raw k =
          (viewOf D env (Obj.remove m' "enum")).raw k := by
      intro k hk
      exact hag.raw ((by decide : ∀ k ∈ simpleKeys.drop 2, k ∉ ["const", "enum"]) k hk)
    have hsplit : simpleKeys = ["const", "enum"] ++ simpleKeys.drop 2 := rfl
    unfold simpleOk
    rw [hsplit, List.all_append, List.all_append]
    congr 1
    · simp only [List.all_cons, List.all_nil, Bool.and_true, a1, a2, a3, a4, simple, List.any_cons, List.any_nil,
        Bool.or_false, Bool.true_and]
    · rw [Bool.eq_iff_iff, List.all_eq_true, List.all_eq_true]
      constructor <;> intro hh k hk <;> have := hh k hk
      · rw [← hrest k hk]; exact this
      · rw [hrest k hk]; exact this

/-- C18: hence the claim holds for exactly the schemas for which the `enum` beside `const` does not matter. -/
theorem C18_iff (D : Dialect) (env : Env) {s : Json} (hs : IsSchema s) :
    den D env (replaceConst s) = den D env s ↔ den D env (withoutEnums s) = den D env s := by
  rw [C18_exact D env hs]

/-- The `enum` is dropped from a subschema too; without `const` it stays. -/
example : withoutEnums (.obj [("enum", .arr []), ("not", .obj [("const", .null), ("enum", .arr [])])]) =
    .obj [("enum", .arr []), ("not", .obj [("const", .null)])] := by decide

end Verif
