import Verif.Panics
import Verif.Lemmas.Local
import Verif.Lemmas.Steps

/-!
# C86: the transforms do not panic
-/

namespace Verif
open Spec

/-- A function on schemas that calls itself for subschemas only, and gives the result of `T'` when its calls do, gives
the results of `T'`. -/
theorem calls_some {S : (Json → Option Json) → Json → Option Json} {T : Json → Option Json} {T' : Json → Json}
    (hT : ∀ s, IsSchema s → T s = S T s)
    (hS : ∀ s, IsSchema s → (∀ x, IsSchema x → sizeOf x < sizeOf s → T x = some (T' x)) → S T s = some (T' s)) :
    ∀ s, IsSchema s → T s = some (T' s) := by
  suffices ∀ n s, sizeOf s < n → IsSchema s → T s = some (T' s) by
    intro s; exact this _ s (Nat.lt_succ_self _)
  intro n
  induction n with
  | zero => intro s hs; omega
  | succ n ih =>
    intro s hs hi
    rw [hT s hi]
    exact hS s hi fun x hx hlt => ih x (by omega) hx

/-- C86: a run of `ReplaceBoolSchemas` on a schema does not panic, and does what `replaceBool` says. -/
theorem C86_replaceBool (skipAp : Bool) {T : Json → Option Json}
    (hT : ∀ s, IsSchema s → T s = replaceBoolChecked skipAp T s) :
    ∀ s, IsSchema s → T s = some (replaceBool skipAp s) := by
  refine calls_some hT fun s hs hx => ?_
  rw [replaceBool_eq skipAp hs]
  cases hs with
  | obj o =>
    have h1 : tsubM subSlot T (.obj o) = some (tsub subSlot (replaceBool skipAp) (.obj o)) :=
      tsubM_of_some fun x h => hx x (subs_isSchema h) (sizeOf_subs h)
    have h2 : tsubM subSlot T (.obj (Obj.remove o "additionalProperties")) =
        some (tsub subSlot (replaceBool skipAp) (.obj (Obj.remove o "additionalProperties"))) :=
      tsubM_of_some fun x h => hx x (subs_isSchema h) (sizeOf_subs (subs_remove h))
    cases skipAp with
    | false => exact h1
    | true =>
      simp only [replaceBoolChecked, replaceBoolStep]
      cases Obj.get o "additionalProperties" with
      | none => exact h1
      | some ap => simp only [h2]; rfl
  | bool b => cases b <;> rfl

/-- C86: on a value that is no schema it does panic. -/
theorem C86_replaceBool_panics (skipAp : Bool) (T : Json → Option Json) {s : Json} (h : ¬ IsSchema s) :
    replaceBoolChecked skipAp T s = none := by
  cases s with
  | obj o => exact absurd (.obj o) h
  | bool b => exact absurd (.bool b) h
  | _ => rfl

/-- C86: the step of `SetSingleExample` on one schema never panics. -/
theorem C86_setSingleExample (s : Json) : setSingleExampleChecked s = some (setSingleExampleLocal s) := by
  cases s with
  | obj o =>
    simp only [setSingleExampleChecked, setSingleExampleLocal, Schema.remove]
    split <;> simp_all [Schema.insert, Schema.ensureObject, Schema.put]
  | _ => rfl

/-- C86: the step of `ReplaceConstValue` never panics. -/
theorem C86_replaceConst (s : Json) : replaceConstChecked s = some (replaceConstLocal s) := by
  cases s with
  | obj o =>
    simp only [replaceConstChecked, replaceConstLocal, Schema.remove]
    split <;> simp_all [Schema.insert, Schema.ensureObject, Schema.put]
  | _ => rfl

/-- C86: the step of `ReplacePrefixItems` never panics. -/
theorem C86_replacePrefix (s : Json) : replacePrefixChecked s = some (replacePrefixLocal s) := by
  cases s with
  | obj o =>
    simp only [replacePrefixChecked, replacePrefixLocal, Schema.remove]
    cases Obj.get o "prefixItems" with
    | none => rfl
    | some p =>
      simp only [Schema.insert, Schema.ensureObject, Schema.put, Schema.get, Option.map_some, Option.bind_some]
      cases Obj.get (Obj.remove o "prefixItems") "items" <;> rfl
  | _ => rfl

theorem modify_at {m : List (String × Json)} {k : String} {v : Json} (h : Obj.get m k = some v) (f : Json → Json) :
    Obj.modify m k f = Obj.modify m k fun _ => f v := by
  induction m with
  | nil => rfl
  | cons e t ih =>
    simp only [Obj.modify]
    rw [Obj.get_cons] at h
    split
    · next he => rw [if_pos he] at h; cases h; rfl
    · next he => rw [if_neg he] at h; rw [ih h]

/-- C86: the `unwrap`s of `AddNullable` never panic. -/
theorem C86_addNullable (c : NullableCfg) (s : Json) : addNullableChecked c s = some (addNullableLocal c s) := by
  unfold addNullableChecked addNullableLocal
  split
  · next h =>
    cases s with
    | obj o =>
      have ht : Schema.get (Schema.put (.obj o) "nullable" (.bool true)) "type" = Schema.get (.obj o) "type" := by
        simp only [put_obj, Schema.get]
        exact Obj.get_insert_ne _ _ (by decide)
      simp only [Schema.insert, Schema.ensureObject, Option.map_some, Option.bind_some]
      rw [← put_obj, ht]
      unfold Schema.hasType at h
      cases hty : Schema.get (.obj o) "type" with
      | none => simp [hty] at h
      | some ty =>
        rw [hty] at h
        cases ty with
        | str t =>
          simp only [Option.bind_some, onlyAllowsNullChecked, onlyAllowsNull, if_true]
          cases c.addConstNull <;> cases c.removeNullType <;> rfl
        | arr l =>
          simp only [Option.bind_some, onlyAllowsNullChecked, onlyAllowsNull, asArray?, Option.map_some]
          by_cases hl : l.all (· == .str "null") = true
          · simp only [hl, if_true]
            cases c.addConstNull <;> cases c.removeNullType <;> rfl
          · simp only [hl, Bool.false_eq_true, if_false]
            cases c.removeNullType with
            | false => rfl
            | true =>
              simp only [if_true, Option.some.injEq]
              have hg : Schema.get (Schema.put (.obj o) "nullable" (.bool true)) "type" = some (.arr l) := ht.trans hty
              rw [put_obj] at hg ⊢
              simp only [Schema.getMut, Json.obj.injEq]
              exact (modify_at hg retainNonNull).symm
        | _ => cases h
    | _ => cases h
  · rfl

/-- C86: the step of `ReplaceUnevaluatedProperties` never panics. -/
theorem C86_replaceUneval (s : Json) : replaceUnevalChecked s = some (replaceUnevalLocal s) := by
  cases s with
  | obj o =>
    simp only [replaceUnevalChecked, replaceUnevalLocal, Schema.remove]
    cases Obj.get o "unevaluatedProperties" with
    | none => rfl
    | some up =>
      simp only [Schema.insert, Schema.ensureObject, Option.map_some, Option.bind_some]
      rw [← put_obj]
      cases gatherPropertyNames (Schema.put (.obj (Obj.remove o "unevaluatedProperties")) "additionalProperties" up) with
      | nil => rfl
      | cons n names =>
        rw [put_obj]
        simp only [Schema.get]
        cases Obj.get (Obj.insert (Obj.remove o "unevaluatedProperties") "additionalProperties" up) "properties" with
        | none => rfl
        | some p => cases p <;> rfl
  | _ => rfl

/-! ## Whole runs -/

/-- C86: a transform that first goes through the subschemas does not panic if its step does not. -/
theorem C86_postOrder {f : Json → Json} {step T : Json → Option Json} (hstep : ∀ s, step s = some (f s))
    (hT : ∀ s, IsSchema s → T s = (tsubM subSlot T s).bind step) :
    ∀ s, IsSchema s → T s = some (postOrder f s) := by
  refine calls_some (S := fun T s => (tsubM subSlot T s).bind step) hT fun s hs hx => ?_
  rw [tsubM_of_some (g := postOrder f) fun x h => hx x (subs_isSchema h) (sizeOf_subs h), postOrder_eq f hs]
  exact hstep _

/-- C86: no run of the transforms that go through the subschemas first panics. -/
theorem C86_runs {T : Json → Option Json} {step : Json → Option Json} {f : Json → Json}
    (h : (step, f) ∈ [(setSingleExampleChecked, setSingleExample), (replaceConstChecked, replaceConst),
      (replacePrefixChecked, replacePrefix), (replaceUnevalChecked, replaceUneval)])
    (hT : ∀ s, IsSchema s → T s = (tsubM subSlot T s).bind step) : ∀ s, IsSchema s → T s = some (f s) := by
  simp only [List.mem_cons, Prod.mk.injEq, List.not_mem_nil, or_false] at h
  rcases h with ⟨rfl, rfl⟩ | ⟨rfl, rfl⟩ | ⟨rfl, rfl⟩ | ⟨rfl, rfl⟩
  · exact C86_postOrder C86_setSingleExample hT
  · exact C86_postOrder C86_replaceConst hT
  · exact C86_postOrder C86_replacePrefix hT
  · exact C86_postOrder C86_replaceUneval hT

theorem subs_addNullable (c : NullableCfg) {s x : Json} (h : x ∈ subs subSlot (addNullableLocal c s)) :
    x ∈ subs subSlot s := by
  cases s with
  | obj o =>
    unfold addNullableLocal at h
    have hn : subSlot "nullable" = .skip := by decide
    have ht : subSlot "type" = .skip := by decide
    have hc : subSlot "const" = .skip := by decide
    simp only [put_obj, Schema.remove, Schema.getMut] at h
    split at h
    · split at h
      · exact subs_insert_skip hn h
      · split at h
        · split at h
          · split at h
            · exact subs_insert_skip hn (subs_insert_skip hc (subs_remove h))
            · exact subs_insert_skip hn (subs_insert_skip hc h)
          · split at h
            · exact subs_insert_skip hn (subs_modify_skip ht h)
            · exact subs_insert_skip hn h
        · split at h
          · exact subs_insert_skip hn (subs_modify_skip ht h)
          · exact subs_insert_skip hn h
    · exact h
  | _ => exact h

/-- C86: no run of `AddNullable`, which goes through the subschemas last, panics. -/
theorem C86_addNullable_run (c : NullableCfg) {T : Json → Option Json}
    (hT : ∀ s, IsSchema s → T s = (addNullableChecked c s).bind (tsubM subSlot T)) :
    ∀ s, IsSchema s → T s = some (addNullable c s) := by
  refine calls_some (S := fun T s => (addNullableChecked c s).bind (tsubM subSlot T)) hT fun s hs hx => ?_
  rw [C86_addNullable, addNullable_eq c hs]
  exact tsubM_of_some fun x h => hx x (subs_isSchema h) (sizeOf_subs (subs_addNullable c h))

/-- There are such runs: the hypotheses on `T` can be met. -/
example (c : NullableCfg) : ∃ T : Json → Option Json,
    ∀ s, IsSchema s → T s = (addNullableChecked c s).bind (tsubM subSlot T) := by
  refine ⟨fun s => some (addNullable c s), fun s hs => ?_⟩
  rw [C86_addNullable]
  exact (congrArg some (addNullable_eq c hs)).trans (tsubM_of_some fun _ _ => rfl).symm

example (skipAp : Bool) : ∃ T : Json → Option Json, ∀ s, IsSchema s → T s = replaceBoolChecked skipAp T s := by
  refine ⟨fun s => some (replaceBool skipAp s), fun s hs => ?_⟩
  have h1 : ∀ s, tsubM subSlot (fun s => some (replaceBool skipAp s)) s = some (tsub subSlot (replaceBool skipAp) s) :=
    fun _ => tsubM_of_some fun _ _ => rfl
  refine (congrArg some (replaceBool_eq skipAp hs)).trans ?_
  cases hs with
  | obj o =>
    cases skipAp with
    | false => exact (h1 (.obj o)).symm
    | true =>
      simp only [replaceBoolChecked, replaceBoolStep, h1]
      cases Obj.get o "additionalProperties" with
      | none => rfl
      | some ap => rfl
  | bool b => cases b <;> rfl

example : ∃ T : Json → Option Json, ∀ s, IsSchema s → T s = (tsubM subSlot T s).bind replaceConstChecked := by
  refine ⟨fun s => some (replaceConst s), fun s hs => ?_⟩
  rw [tsubM_of_some (g := replaceConst) fun _ _ => rfl]
  exact (congrArg some (postOrder_eq _ hs)).trans (C86_replaceConst _).symm

end Verif
