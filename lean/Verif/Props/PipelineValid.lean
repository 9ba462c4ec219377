import Verif.Props.Pipelines
import Verif.Props.Preserve
import Verif.Lemmas.SemEval

/-!
# C58: the transforms of the built-in settings accept the same instances

`Tame` describes the schemas for which this holds: those without `unevaluatedProperties`,
`dependentSchemas`, draft-07 tuples, `nullable` and malformed values of the keywords that transforms move.
-/

namespace Verif
open Spec

variable {m m' : List (String × Json)}

/-- Tuples are in the 2020-12 style, and no keyword has subschemas that are not traversed. -/
structure Spec.PlainTuples (m : List (String × Json)) : Prop where
  uneval : Obj.get m "unevaluatedProperties" = none
  dependent : Obj.get m "dependentSchemas" = none
  items : ∀ l, Obj.get m "items" ≠ some (.arr l)
  prefixItems : ∀ p, Obj.get m "prefixItems" = some p → ∃ l, p = .arr l
  additional : Obj.get m "additionalItems" = none

/-- `$ref` is a string, and `allOf` an array. -/
structure Spec.PlainRefs (m : List (String × Json)) : Prop where
  ref : ∀ r, Obj.get m "$ref" = some r → ∃ t, r = .str t
  allOf : ∀ a, Obj.get m "allOf" = some a → ∃ l, a = .arr l

/-- `nullable` is not used, `type` is well formed, and the type "null" is not combined with values. -/
structure Spec.PlainNulls (m : List (String × Json)) : Prop where
  nullable : Obj.get m "nullable" ≠ some (.bool true)
  strings : ∀ l, Obj.get m "type" = some (.arr l) → ∀ t ∈ l, ∃ n, t = .str n
  null : ∀ ty, Obj.get m "type" = some ty → OnlyNull ty → Obj.get m "const" = none ∧ Obj.get m "enum" = none

/-- Not both `const` and `enum`, unless the `enum` has the value of the `const`. -/
def Spec.PlainConst (m : List (String × Json)) : Prop :=
  ∀ c l, Obj.get m "const" = some c → Obj.get m "enum" = some (.arr l) → ∃ x ∈ l, jeq x c = true

/-- The property of objects, for all schemas. -/
def Spec.OnObj (P : List (String × Json) → Prop) (s : Json) : Prop := ∀ m, s = .obj m → P m

/-- A schema whose meaning the transforms of the built-in settings keep. -/
structure Spec.Tame (m : List (String × Json)) : Prop where
  tuples : PlainTuples m
  refs : PlainRefs m
  nulls : PlainNulls m
  const : PlainConst m

/-! ### What the predicates depend on -/

def tupleKeys : List String :=
  ["unevaluatedProperties", "dependentSchemas", "items", "prefixItems", "additionalItems"]

theorem Spec.PlainTuples.congr (h : PlainTuples m) (hg : ∀ k ∈ tupleKeys, Obj.get m' k = Obj.get m k) :
    PlainTuples m' := by
  refine ⟨?_, ?_, ?_, ?_, ?_⟩ <;> rw [hg _ (by decide)]
  exacts [h.uneval, h.dependent, h.items, h.prefixItems, h.additional]

theorem Spec.PlainRefs.congr (h : PlainRefs m) (hg : ∀ k ∈ ["$ref", "allOf"], Obj.get m' k = Obj.get m k) :
    PlainRefs m' := by
  refine ⟨?_, ?_⟩ <;> rw [hg _ (by decide)]
  exacts [h.ref, h.allOf]

theorem Spec.PlainNulls.congr (h : PlainNulls m)
    (hg : ∀ k ∈ ["nullable", "type", "const", "enum"], Obj.get m' k = Obj.get m k) : PlainNulls m' := by
  refine ⟨?_, ?_, ?_⟩
  · rw [hg _ (by decide)]; exact h.nullable
  · rw [hg _ (by decide)]; exact h.strings
  · rw [hg _ (by decide), hg "const" (by decide), hg "enum" (by decide)]; exact h.null

theorem Spec.PlainConst.congr (h : PlainConst m) (hg : ∀ k ∈ ["const", "enum"], Obj.get m' k = Obj.get m k) :
    PlainConst m' := by
  unfold PlainConst
  rw [hg "const" (by decide), hg "enum" (by decide)]; exact h

theorem plainConst_of (h : Obj.get m "const" = none ∨ Obj.get m "enum" = none) : PlainConst m := by
  intro c l hc hl
  rcases h with h | h
  · rw [h] at hc; cases hc
  · rw [h] at hl; cases hl

/-- All keys that `Tame` reads. -/
def tameKeys : List String :=
  tupleKeys ++ ["$ref", "allOf", "nullable", "type", "const", "enum"]

theorem Spec.Tame.congr (h : Tame m) (hg : ∀ k ∈ tameKeys, Obj.get m' k = Obj.get m k) : Tame m' :=
  ⟨h.tuples.congr fun k hk => hg k (by revert hk k; decide),
    h.refs.congr fun k hk => hg k (by revert hk k; decide),
    h.nulls.congr fun k hk => hg k (by revert hk k; decide),
    PlainConst.congr h.const fun k hk => hg k (by revert hk k; decide)⟩

theorem onObj_obj {P : List (String × Json) → Prop} : OnObj P (.obj m) ↔ P m :=
  ⟨fun h => h m rfl, fun h m' e => by cases e; exact h⟩
theorem onObj_bool {P : List (String × Json) → Prop} {b : Bool} : OnObj P (.bool b) := by
  intro m h; cases h

theorem shallow_onObj {P : List (String × Json) → Prop}
    (h : ∀ T, Preserves T → ∀ m, P m → P (m.map (entryMap subSlot T))) : Shallow (OnObj P) := by
  intro T hT s hs
  cases s with
  | obj m => rw [tsub_obj, onObj_obj]; exact h T hT m (hs m rfl)
  | _ => exact hs

theorem Spec.PlainTuples.shallow : Shallow (OnObj PlainTuples) := by
  refine shallow_onObj fun T hT m h => ⟨?_, ?_, ?_, ?_, ?_⟩
  · rw [get_entryMap_skip _ (by decide)]; exact h.uneval
  · rw [get_entryMap_skip _ (by decide)]; exact h.dependent
  · intro l hl
    rw [get_entryMap] at hl
    cases hi : Obj.get m "items" with
    | none => rw [hi] at hl; cases hl
    | some x =>
      rw [hi] at hl
      simp only [Option.map_some, Option.some.injEq] at hl
      have hx : ∀ l, x ≠ .arr l := fun l e => h.items l (by rw [hi, e])
      have e : subSlot "items" = .items := rfl
      rw [e] at hl
      by_cases hs : isSchema x = true
      · rw [atSlot_items hs] at hl
        have := isSchema_atSchema hT hs
        rw [hl] at this
        cases this
      · cases x <;> first
          | exact absurd rfl (hx _)
          | (simp [isSchema] at hs; done)
          | (simp [atSlot, atSchema, isSchema] at hl)
  · intro p hp
    rw [get_entryMap] at hp
    cases hi : Obj.get m "prefixItems" with
    | none => rw [hi] at hp; cases hp
    | some x =>
      obtain ⟨l, rfl⟩ := h.prefixItems x hi
      rw [hi] at hp
      have e : subSlot "prefixItems" = .list := rfl
      rw [e] at hp
      simp only [Option.map_some, Option.some.injEq, atSlot] at hp
      exact ⟨_, hp.symm⟩
  · rw [get_entryMap, h.additional]; rfl

theorem Spec.PlainRefs.shallow : Shallow (OnObj PlainRefs) := by
  refine shallow_onObj fun T hT m h => ⟨?_, ?_⟩
  · rw [get_entryMap_skip _ (by decide)]; exact h.ref
  · intro a ha
    rw [get_entryMap] at ha
    cases hi : Obj.get m "allOf" with
    | none => rw [hi] at ha; cases ha
    | some x =>
      obtain ⟨l, rfl⟩ := h.allOf x hi
      rw [hi] at ha
      have e : subSlot "allOf" = .list := rfl
      rw [e] at ha
      simp only [Option.map_some, Option.some.injEq, atSlot] at ha
      exact ⟨_, ha.symm⟩

theorem Spec.PlainNulls.shallow : Shallow (OnObj PlainNulls) :=
  shallow_onObj fun _ _ _ h => h.congr fun k hk =>
    get_entryMap_skip _ (by revert hk k; decide)

theorem Spec.PlainConst.shallow : Shallow (OnObj PlainConst) :=
  shallow_onObj fun _ _ _ h => PlainConst.congr h fun k hk => get_entryMap_skip _ (by revert hk k; decide)

/-! ### What the transforms leave as it is -/

theorem removeRefSiblingsLocal_get (m : List (String × Json)) :
    ∃ m', removeRefSiblingsLocal (.obj m) = .obj m' ∧
      ∀ k, k ∉ ["$ref", "allOf"] → Obj.get m' k = Obj.get m k := by
  have h1 : ∀ k, k ∉ ["$ref", "allOf"] → Obj.get (Obj.remove m "$ref") k = Obj.get m k := by
    intro k hk
    exact Obj.get_remove_ne _ (fun e => hk (by simp [← e]))
  have h2 : ∀ x k, k ∉ ["$ref", "allOf"] →
      Obj.get (Obj.insert (Obj.remove m "$ref") "allOf" x) k = Obj.get m k := by
    intro x k hk
    rw [Obj.get_insert_ne _ _ (fun e => hk (by simp [← e])), h1 k hk]
  unfold removeRefSiblingsLocal
  simp only
  split
  · split
    · split
      · exact ⟨_, rfl, h2 _⟩
      · exact ⟨_, rfl, h2 _⟩
      · exact ⟨_, rfl, h1⟩
    · exact ⟨_, rfl, fun _ _ => rfl⟩
  · exact ⟨_, rfl, fun _ _ => rfl⟩

theorem addNullableLocal_other (c : NullableCfg) (m : List (String × Json)) :
    ∃ m', addNullableLocal c (.obj m) = .obj m' ∧
      ∀ k, k ∉ ["nullable", "type", "const"] → Obj.get m' k = Obj.get m k := by
  rw [addNullableLocal_obj]
  split
  · split
    · refine ⟨_, rfl, fun k hk => ?_⟩
      simp only [List.mem_cons, List.not_mem_nil, or_false, not_or] at hk
      obtain ⟨a, b, d⟩ := hk
      unfold nullableMembers
      simp only
      split <;> split <;> try split
      all_goals simp [Obj.get_insert, Obj.get_remove, Obj.get_modify, Ne.symm a, Ne.symm b, Ne.symm d]
    · exact ⟨_, rfl, fun _ _ => rfl⟩
  · exact ⟨_, rfl, fun _ _ => rfl⟩

theorem onObj_local {P : List (String × Json) → Prop} {f : Json → Json}
    (hf : ∀ m, P m → ∃ m', f (.obj m) = .obj m' ∧ P m') (hb : ∀ b, f (.bool b) = .bool b) :
    ∀ s, IsSchema s → OnObj P s → OnObj P (f s) := by
  intro s hs h
  cases hs with
  | bool b => rw [hb]; exact onObj_bool
  | obj m =>
    obtain ⟨m', h1, h2⟩ := hf m (h m rfl)
    rw [h1, onObj_obj]; exact h2

theorem replaceUneval_tame {s : Json} (hs : IsSchema s) (h : Everywhere visited (OnObj PlainTuples) s) :
    replaceUneval s = s := by
  refine postOrder_fix _ hs (Everywhere.imp h fun x hx => ?_)
  cases x with
  | obj m =>
    rw [replaceUnevalLocal_obj, (hx m rfl).uneval]
    simp only [Json.obj.injEq]
    exact Obj.remove_of_get_none (hx m rfl).uneval
  | _ => rfl

/-- Without keywords that are not traversed, what holds for all traversed subschemas holds for all that
matter. -/
theorem everywhere_applied {P : Json → Prop} {s : Json} (ht : Everywhere visited (OnObj PlainTuples) s)
    (h : Everywhere visited P s) : Everywhere applied P s := by
  intro x hx
  induction hx with
  | self s => exact h s (.self s)
  | @step s x y hd hr ih =>
    have key : DirectSub visited s x := by
      cases hd with
      | @one m k x hm hk hx =>
        by_cases hv : k ∈ visited.one
        · exact .one hm hv hx
        · have hk' : k = "unevaluatedProperties" := 
            (by decide : ∀ k ∈ applied.one, k ∉ visited.one → k = "unevaluatedProperties") k hk hv
          subst hk'
          have h0 := (ht _ (.self _) m rfl).uneval
          exact absurd (Obj.mem_keys.1 (List.mem_map_of_mem hm)) (by simp [h0])
      | @list m k l x hm hk hl hx =>
        have : ∀ k ∈ applied.list, k ∈ visited.list := by decide
        exact .list hm (this k hk) hl hx
      | @map m k n q x hm hk hn hx =>
        by_cases hv : k ∈ visited.map
        · exact .map hm hv hn hx
        · have hk' : k = "dependentSchemas" := 
            (by decide : ∀ k ∈ applied.map, k ∉ visited.map → k = "dependentSchemas") k hk hv
          subst hk'
          have h0 := (ht _ (.self _) m rfl).dependent
          exact absurd (Obj.mem_keys.1 (List.mem_map_of_mem hm)) (by simp [h0])
    exact ih (fun z hz => ht z (.step key hz)) (fun z hz => h z (.step key hz))

theorem outsideOk_tame {P : Json → Prop} {s : Json} (h : Everywhere visited (OnObj PlainTuples) s) :
    OutsideOk P s := by
  intro x hx y hd
  have hp := h x hx
  cases hd with
  | @one m k y hm hk _ =>
    simp only [skipped, List.mem_singleton] at hk; subst hk
    exact absurd (Obj.mem_keys.1 (List.mem_map_of_mem hm)) (by simp [(hp m rfl).uneval])
  | list _ hk _ _ => simp [skipped] at hk
  | @map m k n q y hm hk _ _ =>
    simp only [skipped, List.mem_singleton] at hk; subst hk
    exact absurd (Obj.mem_keys.1 (List.mem_map_of_mem hm)) (by simp [(hp m rfl).dependent])

theorem uneval_same (D : Dialect) (env : Env) (b b' : Bool) {s : Json}
    (h : Everywhere visited (OnObj PlainTuples) s) :
    den { D with unevaluated := b } env s = den { D with unevaluated := b' } env s := by
  refine den_dialect (P := OnObj PlainTuples) (fun m i hm => ?_) s (everywhere_applied h h)
  have hn : (viewOf { D with unevaluated := b' } env m).sch "unevaluatedProperties" = none := by
    rw [sch_viewOf _ _ _ (by decide), (hm m rfl).uneval]; rfl
  generalize viewOf { D with unevaluated := b' } env m = v at hn
  have h1 : ∀ b e, memberOk { D with unevaluated := b } env v i e = memberOk { D with unevaluated := false } env v i e := by
    intro b e
    unfold memberOk
    rw [hn]
    simp [optOk]
  have h2 : ∀ b, evAfter { D with unevaluated := b } env v i = evAfter { D with unevaluated := false } env v i := by
    intro b; funext k; unfold evAfter; rw [hn]; simp
  have h3 : ∀ b, allOk { D with unevaluated := b } env v i (others m) =
      allOk { D with unevaluated := false } env v i (others m) := by
    intro b
    exact allOk_congr rfl rfl rfl rfl rfl rfl rfl rfl (h1 b) rfl rfl
  have h4 : ∀ b, combine { D with unevaluated := b } env v i (others m) =
      combine { D with unevaluated := false } env v i (others m) := by
    intro b
    unfold combine
    rw [h3 b, h2 b]
  rw [h4 b, h4 b']

/-! ### Each predicate survives the transforms before the one that needs it -/

theorem tuples_removeRefSiblings {s : Json} (hs : IsSchema s) (h : Everywhere visited (OnObj PlainTuples) s) :
    Everywhere visited (OnObj PlainTuples) (removeRefSiblings s) := by
  refine refSiblings_keep PlainTuples.shallow (onObj_local (fun m hm => ?_) fun _ => rfl) ?_ hs h
  · obtain ⟨m', e, hg⟩ := removeRefSiblingsLocal_get m
    exact ⟨m', e, hm.congr fun k hk => hg k (by revert hk k; decide)⟩
  · intro r
    rw [onObj_obj]
    exact ⟨by simp [Obj.get], by simp [Obj.get], by simp [Obj.get], by simp [Obj.get], by simp [Obj.get]⟩

theorem onObj_replaceBool {P : List (String × Json) → Prop} {K : List String}
    (hc : ∀ m m', P m → (∀ k ∈ K, Obj.get m' k = Obj.get m k) → P m') (hK : "additionalProperties" ∉ K)
    (hsh : Shallow (OnObj P)) (h0 : P []) (h1 : P [("not", .obj [])]) {s : Json} (hs : IsSchema s)
    (h : Everywhere visited (OnObj P) s) : Everywhere visited (OnObj P) (replaceBool true s) := by
  refine replaceBool_keep true hsh (onObj_obj.2 h0) (onObj_obj.2 h1) (fun m hm => ?_) (fun m ap hm => ?_) s hs h
  · rw [onObj_obj] at hm ⊢
    exact hc m _ hm fun k hk => Obj.get_remove_ne _ (fun e => hK (e ▸ hk))
  · rw [onObj_obj] at hm ⊢
    exact hc m _ hm fun k hk => Obj.get_insert_ne _ _ (fun e => hK (e ▸ hk))

theorem onObj_of_getsOnly {P : List (String × Json) → Prop} {f : Json → Json} {K L : List String}
    (hc : ∀ m m', P m → (∀ k ∈ K, Obj.get m' k = Obj.get m k) → P m')
    (hf : ∀ m, ∃ m', f (.obj m) = .obj m' ∧ ∀ k, k ∉ L → Obj.get m' k = Obj.get m k)
    (hKL : ∀ k ∈ K, k ∉ L) (hb : ∀ b, f (.bool b) = .bool b) : ∀ s, IsSchema s → OnObj P s → OnObj P (f s) :=
  onObj_local (fun m hm => by
    obtain ⟨m', e, hg⟩ := hf m
    exact ⟨m', e, hc m m' hm fun k hk => hg k (hKL k hk)⟩) hb

theorem const_addNullable (m : List (String × Json)) (hn : PlainNulls m) (hc : PlainConst m) :
    ∃ m', addNullableLocal ⟨true, true⟩ (.obj m) = .obj m' ∧ PlainConst m' := by
  obtain ⟨m', e, hg⟩ := addNullableLocal_other ⟨true, true⟩ m
  refine ⟨m', e, ?_⟩
  have he : Obj.get m' "enum" = Obj.get m "enum" := hg _ (by decide)
  rw [addNullableLocal_obj] at e
  unfold PlainConst
  cases hty : Obj.get m "type" with
  | none => rw [hty] at e; cases e; exact hc
  | some ty =>
    rw [hty] at e
    by_cases hnull : Schema.hasType (.obj m) "null" = true
    · simp only [hnull, if_true, Json.obj.injEq] at e
      subst e
      by_cases ho : onlyAllowsNull ty = true
      · intro c l _ hl
        rw [he, (hn.null ty hty (onlyNull_of hty hnull ho)).2] at hl
        cases hl
      · rw [he, (nullableMembers_get _ hty).2.2, if_neg ho]
        exact hc
    · simp only [hnull, Bool.false_eq_true, if_false, Json.obj.injEq] at e
      subst e
      exact hc

/-! ### The three lists -/

/-- C58 for the 2019-09 list. -/
theorem C58_draft2019_partial (env : Env) {s : Json} (hs : IsSchema s) (h : Everywhere visited (OnObj PlainTuples) s) :
    den Spec.draft2019 env (applyTransforms draft2019Transforms s) = den Spec.draft2020 env s :=
  C19_valid_partial Spec.draft2020 env hs
    (Everywhere.imp h fun _ hx m hm => ⟨(hx m hm).items, (hx m hm).prefixItems, fun _ => .inr (hx m hm).additional⟩)
    (outsideOk_tame h)

/-- C58 for the draft-07 list. -/
theorem C58_draft07_partial (env : Env) {s : Json} (hs : IsSchema s) (h : Everywhere visited (OnObj PlainTuples) s)
    (hr : Everywhere visited (OnObj PlainRefs) s) :
    den Spec.draft07 env (applyTransforms draft07Transforms s) = den Spec.draft2020 env s := by
  show den Spec.draft07 env (replacePrefix (removeRefSiblings (replaceUneval s))) = _
  rw [replaceUneval_tame hs h]
  have t1 := tuples_removeRefSiblings hs h
  have s1 := isSchema_removeRefSiblings hs
  have e1 := C19_valid_partial Spec.draft07 env s1
    (Everywhere.imp t1 fun _ hx m hm => ⟨(hx m hm).items, (hx m hm).prefixItems, fun _ => .inr (hx m hm).additional⟩)
    (outsideOk_tame t1)
  have e2 := C16_valid_partial { Spec.draft07 with prefixItems := true } env hs
    (Everywhere.imp hr fun _ hx m hm => ⟨(hx m hm).ref, fun _ => (hx m hm).allOf⟩) (outsideOk_tame h)
  have e3 := uneval_same Spec.draft2020 env false true h
  exact e1.trans (e2.trans e3)

/-- C58 for the OpenAPI 3.0 list. -/
theorem C58_openapi3_partial (env : Env) {s : Json} (hs : IsSchema s) (h : Everywhere visited (OnObj Tame) s) :
    den Spec.openapi30 env (applyTransforms openapi3Transforms s) = den Spec.draft2020 env s := by
  show den Spec.openapi30 env (replacePrefix (replaceConst (setSingleExample (removeRefSiblings
    (addNullable ⟨true, true⟩ (replaceBool true (replaceUneval s))))))) = _
  have t0 : Everywhere visited (OnObj PlainTuples) s := Everywhere.imp h fun _ hx m hm => (hx m hm).tuples
  have r0 : Everywhere visited (OnObj PlainRefs) s := Everywhere.imp h fun _ hx m hm => (hx m hm).refs
  have n0 : Everywhere visited (OnObj PlainNulls) s := Everywhere.imp h fun _ hx m hm => (hx m hm).nulls
  have c0 : Everywhere visited (OnObj PlainConst) s := Everywhere.imp h fun _ hx m hm => (hx m hm).const
  rw [replaceUneval_tame hs t0]
  have hct : ∀ m m', PlainTuples m → (∀ k ∈ tupleKeys, Obj.get m' k = Obj.get m k) → PlainTuples m' :=
    fun _ _ a b => a.congr b
  have hcr : ∀ m m', PlainRefs m → (∀ k ∈ ["$ref", "allOf"], Obj.get m' k = Obj.get m k) → PlainRefs m' :=
    fun _ _ a b => a.congr b
  have hcn : ∀ m m', PlainNulls m → (∀ k ∈ ["nullable", "type", "const", "enum"], Obj.get m' k = Obj.get m k) →
      PlainNulls m' := fun _ _ a b => a.congr b
  have hcc : ∀ m m', PlainConst m → (∀ k ∈ ["const", "enum"], Obj.get m' k = Obj.get m k) → PlainConst m' :=
    fun _ _ a b => PlainConst.congr a b
  -- ReplaceBoolSchemas
  have s1 := replaceBool_preserves true _ hs
  have t1 := onObj_replaceBool hct (by decide) PlainTuples.shallow
    ⟨by simp, by simp, by simp, by simp, by simp⟩
    ⟨by simp [Obj.get], by simp [Obj.get], by simp [Obj.get], by simp [Obj.get], by simp [Obj.get]⟩ hs t0
  have r1 := onObj_replaceBool hcr (by decide) PlainRefs.shallow ⟨by simp, by simp⟩
    ⟨by simp [Obj.get], by simp [Obj.get]⟩ hs r0
  have n1 := onObj_replaceBool hcn (by decide) PlainNulls.shallow ⟨by simp, by simp, by simp⟩
    ⟨by simp [Obj.get], by simp [Obj.get], by simp [Obj.get]⟩ hs n0
  have c1 := onObj_replaceBool hcc (by decide) PlainConst.shallow (plainConst_of (.inl rfl)) (plainConst_of (.inl rfl)) hs c0
  have e1 := C15_valid Spec.draft2020 env true s hs
  generalize replaceBool true s = x1 at *
  -- AddNullable
  have s2 := isSchema_addNullable ⟨true, true⟩ s1
  have t2 := nullable_keep ⟨true, true⟩ PlainTuples.shallow
    (onObj_of_getsOnly hct (addNullableLocal_other _) (by decide) (fun b => addNullableLocal_bool _ b)) s1 t1
  have r2 := nullable_keep ⟨true, true⟩ PlainRefs.shallow
    (onObj_of_getsOnly hcr (addNullableLocal_other _) (by decide) (fun b => addNullableLocal_bool _ b)) s1 r1
  have c2 : Everywhere visited (OnObj PlainConst) (addNullable ⟨true, true⟩ x1) :=
    everywhere_keep (H := fun s => OnObj PlainNulls s ∧ OnObj PlainConst s) (addNullableLocal_preserves _)
      (PlainNulls.shallow.and PlainConst.shallow)
      (fun s hs hx => by
        cases hs with
        | bool b => rw [addNullableLocal_bool]; exact onObj_bool
        | obj m =>
          obtain ⟨m', e, h'⟩ := const_addNullable m (hx.1 m rfl) (hx.2 m rfl)
          rw [e, onObj_obj]; exact h')
      (fun _ _ hs _ hx => .inl (addNullableLocal_subs hs hx)) s1 (everywhere_and.2 ⟨n1, c1⟩)
  have e2 := C20_valid_partial Spec.draft2020 env ⟨true, true⟩ s1
    (Everywhere.imp n1 fun _ hx m hm => ⟨(hx m hm).nullable, (hx m hm).strings,
      fun _ ty hty ho => .inl ((hx m hm).null ty hty ho).1⟩) (outsideOk_tame t1)
  generalize addNullable ⟨true, true⟩ x1 = x2 at *
  -- RemoveRefSiblings
  have s3 := isSchema_removeRefSiblings s2
  have t3 := tuples_removeRefSiblings s2 t2
  have c3 := refSiblings_keep PlainConst.shallow
    (onObj_of_getsOnly hcc removeRefSiblingsLocal_get (by decide) (fun _ => rfl)) (fun r => onObj_obj.2 (plainConst_of (.inl rfl))) s2 c2
  have e3 := C16_valid_partial { Spec.draft2020 with nullable := true } env s2
    (Everywhere.imp r2 fun _ hx m hm => ⟨(hx m hm).ref, fun _ => (hx m hm).allOf⟩) (outsideOk_tame t2)
  generalize removeRefSiblings x2 = x3 at *
  -- SetSingleExample
  have s4 := isSchema_setSingleExample s3
  have t4 := example_keep PlainTuples.shallow
    (onObj_of_getsOnly hct (fun m => (setSingleExampleLocal_get m).imp fun _ h => ⟨h.1, h.2.2.2⟩) (by decide)
      (fun _ => rfl)) s3 t3
  have c4 := example_keep PlainConst.shallow
    (onObj_of_getsOnly hcc (fun m => (setSingleExampleLocal_get m).imp fun _ h => ⟨h.1, h.2.2.2⟩) (by decide)
      (fun _ => rfl)) s3 c3
  have e4 := C17_valid { Spec.draft2020 with nullable := true, refSiblings := false } env s3
  generalize setSingleExample x3 = x4 at *
  -- ReplaceConstValue
  have s5 := isSchema_replaceConst s4
  have t5 := const_keep PlainTuples.shallow
    (onObj_of_getsOnly hct (fun m => (replaceConstLocal_get m).imp fun _ h => ⟨h.1, h.2.2.2⟩) (by decide)
      (fun _ => rfl)) s4 t4
  have e5 := C18_valid_partial { Spec.draft2020 with nullable := true, refSiblings := false } env s4
    (Everywhere.imp c4 fun x hx m c l hm => hx m hm c l)
  generalize replaceConst x4 = x5 at *
  -- ReplacePrefixItems
  have e6 := C19_valid_partial Spec.openapi30 env s5
    (Everywhere.imp t5 fun _ hx m hm => ⟨(hx m hm).items, (hx m hm).prefixItems, fun _ => .inr (hx m hm).additional⟩)
    (outsideOk_tame t5)
  have e7 := uneval_same { Spec.openapi30 with prefixItems := true } env false true t5
  exact e6.trans (e7.trans (e5.trans (e4.trans (e3.trans (e2.trans e1)))))

/-- C58, full claim: for every well formed schema. It fails: see `C58_Full_false`. -/
def C58_Full : Prop := ∀ (env : Env) (s : Json), IsSchema s → s.WF →
  den Spec.draft07 env (applyTransforms draft07Transforms s) = den Spec.draft2020 env s ∧
  den Spec.draft2019 env (applyTransforms draft2019Transforms s) = den Spec.draft2020 env s ∧
  den Spec.openapi30 env (applyTransforms openapi3Transforms s) = den Spec.draft2020 env s

/-- `const` beside `enum`: OpenAPI 3.0 gets the `const` only. -/
theorem C58_Full_false : ¬ C58_Full := by
  intro h
  have h1 := (h trivialEnv (.obj [("const", .bool true), ("enum", .arr [.null])]) (.obj _)
    (.obj _ (by unfold Obj.Sorted; decide) (by
      intro e he
      simp only [List.mem_cons, List.not_mem_nil, or_false] at he
      rcases he with rfl | rfl
      · exact .bool _
      · exact .arr _ (by intro x hx; simp only [List.mem_singleton] at hx; subst hx; exact .null)))).2.2
  have h2 := congrArg (fun f => (f (.bool true)).ok) h1
  exact absurd h2 (by decide)

private def tame58 : Json := .obj [("$ref", .str "#/$defs/A"), ("const", .null), ("items", .bool false),
  ("prefixItems", .arr [.obj [("type", .arr [.str "string", .str "null"])]])]
private theorem tame58_ok : Everywhere visited (OnObj Tame) tame58 := by
  have hb : Everywhere visited (OnObj Tame) (.bool false) := everywhere_bool.2 onObj_bool
  rw [everywhere_iff]
  have hs : subs subSlot tame58 = [.bool false, .obj [("type", .arr [.str "string", .str "null"])]] := by decide
  rw [hs]
  refine ⟨onObj_obj.2 ⟨⟨rfl, rfl, by simp [Obj.get], by simp [Obj.get], rfl⟩, ⟨by simp [Obj.get], by simp [Obj.get]⟩,
    ⟨by simp [Obj.get], by simp [Obj.get], by simp [Obj.get]⟩, plainConst_of (.inr rfl)⟩, fun x hx => ?_⟩
  simp only [List.mem_cons, List.not_mem_nil, or_false] at hx
  rcases hx with rfl | rfl
  · exact hb
  · rw [everywhere_iff]
    refine ⟨onObj_obj.2 ⟨⟨rfl, rfl, by simp [Obj.get], by simp [Obj.get], rfl⟩, ⟨by simp [Obj.get], by simp [Obj.get]⟩,
      ⟨by simp [Obj.get], by simp [Obj.get], ?_⟩, plainConst_of (.inl rfl)⟩, ?_⟩
    · intro ty h ho
      simp [Obj.get] at h
      subst h
      rcases ho with h | ⟨l, h, _, h2⟩
      · cases h
      · cases h; exact absurd (h2 _ (List.mem_cons_self ..)) (by decide)
    · have : subs subSlot (.obj [("type", .arr [.str "string", .str "null"])]) = [] := by decide
      rw [this]; simp
example : applyTransforms openapi3Transforms tame58 =
    .obj [("additionalItems", .obj [("not", .obj [])]), ("allOf", .arr [.obj [("$ref", .str "#/$defs/A")]]),
      ("enum", .arr [.null]), ("items", .arr [.obj [("nullable", .bool true), ("type", .str "string")]])] := by decide
example (env : Env) : den Spec.openapi30 env (applyTransforms openapi3Transforms tame58) = den Spec.draft2020 env tame58 :=
  C58_openapi3_partial env (.obj _) tame58_ok

end Verif
