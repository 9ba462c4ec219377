import Verif.Lemmas.SemAgree
import Verif.Props.Pipelines

/-!
# C09, C15 to C20, C22: the built-in transforms do not change which instances are valid

All theorems hold for every instance, every resolution of `$ref`, every meaning of regular expressions and
of unknown keywords (`env`), and give the equality of results, which includes the set of evaluated names. A
transform that changes the dialect of the schema relates the result in the new dialect to the result in the
old dialect.
-/

namespace Verif
open Spec

/-! ## C15: ReplaceBoolSchemas -/

theorem den_empty (D : Dialect) (env : Env) : den D env (.obj []) = den D env (.bool true) := by
  funext i
  rw [den_obj]
  have hv : viewOf D env [] = fun _ => none := rfl
  rw [hv]
  have h1 : ∀ x : String × Json, memberOk D env (fun _ => none) i x = true := by
    intro x
    simp [memberOk, View.mp, View.sch, optOk, inProperties, inPatterns, Obj.has]
  have h2 : allOk D env (fun _ => none) i [] = true := by
    have h3 : (members i).all (memberOk D env (fun _ => none) i) = true := List.all_eq_true.2 (fun x _ => h1 x)
    have h4 : ∀ l, tupleOk [] none l = true := by
      intro l; induction l with
      | nil => rfl
      | cons a l ih => simp [tupleOk, optOk, ih]
    simp only [allOk, h3]
    simp [refResult, View.raw, typeOk, simpleOk, allOfOk, listResults, View.lst, anyOfOk, oneOfOk, notOk,
      View.sch, ifResults, R.pass, dependentResults, View.mp, itemsOk, h4, containsOk, othersOk]
  have h5 : evAfter D env (fun _ => none) i = fun _ => false := by
    funext k
    simp [evAfter, evaluated, ownEvaluated, inProperties, inPatterns, inPlaceResults, refResult, View.raw,
      listResults, View.lst, ifResults, View.sch, R.pass, dependentResults, View.mp, Obj.has]
  have h6 : refResult env (fun _ => none) i = none := rfl
  unfold combine
  rw [h6, show others [] = [] from rfl, h2, h5]
  cases D.refSiblings <;> rfl

theorem den_not_empty (D : Dialect) (env : Env) :
    den D env (.obj [("not", .obj [])]) = den D env (.bool false) := by
  funext i
  rw [den_obj]
  have h1 : notOk (viewOf D env [("not", .obj [])]) i = false := by
    have : (viewOf D env [("not", .obj [])]).sch "not" = some (den D env (.obj [])) := rfl
    unfold notOk
    rw [this, den_empty]
    rfl
  have h2 : refResult env (viewOf D env [("not", .obj [])]) i = none := rfl
  unfold combine allOk
  rw [h2, h1]
  simp [den]

/-- C09: `ensure_object` does not panic on a schema. The result accepts the same instances and, if the schema
was an object, is the same object. -/
theorem C09_valid (D : Dialect) (env : Env) {s : Json} (hs : IsSchema s) :
    ∃ m, Schema.ensureObject s = some m ∧ den D env (.obj m) = den D env s ∧ ∀ o, s = .obj o → m = o := by
  cases hs with
  | obj m => exact ⟨m, rfl, rfl, fun o h => by cases h; rfl⟩
  | bool b =>
    cases b
    · exact ⟨_, rfl, den_not_empty D env, fun o h => by cases h⟩
    · exact ⟨_, rfl, den_empty D env, fun o h => by cases h⟩

/-- C09: `ensure_object` is idempotent. -/
theorem C09_idempotent (s : Json) :
    ((Schema.ensureObject s).bind fun m => Schema.ensureObject (.obj m)) = Schema.ensureObject s := by
  cases Schema.ensureObject s <;> rfl

set_option maxRecDepth 10000 in
example : Schema.ensureObject (.bool false) = some [("not", .obj [])] ∧
    ¬ Valid draft07 trivialEnv (.bool false) .null := by
  unfold Valid; decide

/-- C15: replacing bool schemas changes nothing. -/
theorem C15_valid (D : Dialect) (env : Env) (skip : Bool) :
    ∀ s, IsSchema s → den D env (replaceBool skip s) = den D env s := by
  suffices ∀ n s, sizeOf s < n → IsSchema s → den D env (replaceBool skip s) = den D env s by
    intro s; exact this _ s (Nat.lt_succ_self _)
  intro n
  induction n with
  | zero => intro s hs; omega
  | succ n ih =>
    intro s hs hi
    cases hi with
    | bool b =>
      rw [replaceBool_bool]
      cases b
      · exact den_not_empty D env
      · exact den_empty D env
    | obj m =>
      have hsub : ∀ x ∈ subs subSlot (.obj m), den D env (replaceBool skip x) = den D env x :=
        fun x hx => ih x (by have := sizeOf_subs hx; omega) (subs_isSchema hx)
      have hv := viewOf_tsub (replaceBool_preserves skip) (unvisitedSame_rfl m) hsub
      funext i
      rw [replaceBool_obj, den_obj D env m]
      split
      · next ap hap =>
        have hk : known.contains "additionalProperties" = true := by decide
        rw [den_obj, others_insert hk, others_tsub, others_remove hk]
        congr 1
        funext k
        rw [viewOf_insert]
        by_cases hq : "additionalProperties" = k
        · subst hq; rw [if_pos rfl, viewOf_get, hap]; rfl
        · rw [if_neg hq, ← hv]
          unfold viewOf
          have h1 : Obj.get ((Obj.remove m "additionalProperties").map (entryMap subSlot (replaceBool true))) k =
              (Obj.get (Obj.remove m "additionalProperties") k).map (atSlot (replaceBool true) (subSlot k)) :=
            Obj.get_map _ (fun k v => atSlot (replaceBool true) (subSlot k) v) k
          have h2 : Obj.get (m.map (entryMap subSlot (replaceBool true))) k =
              (Obj.get m k).map (atSlot (replaceBool true) (subSlot k)) :=
            Obj.get_map _ (fun k v => atSlot (replaceBool true) (subSlot k) v) k
          rw [h1, h2, Obj.get_remove_ne _ hq]
      · rw [tsub_obj, den_obj, hv, others_tsub]

/-! ## C17: SetSingleExample -/

/-- C17: replacing `examples` by `example` changes nothing. -/
theorem C17_valid (D : Dialect) (env : Env) {s : Json} (hs : IsSchema s) :
    den D env (setSingleExample s) = den D env s := by
  refine den_postOrder (H := fun _ => True) setSingleExampleLocal_preserves (fun b => rfl)
    (fun _ _ _ h => h) ?_ s hs (fun _ _ m _ => ⟨trivial, unvisitedSame_rfl m⟩)
  intro m _ i
  have h1 : known.contains "examples" = true := by decide
  have h2 : known.contains "example" = true := by decide
  have hc : ∀ v, Agree ["examples", "example"] v (viewOf D env m) →
      combine D env v i (others m) = combine D env (viewOf D env m) i (others m) := by
    intro v hv
    exact combine_congr hv (by decide) rfl rfl (typeOk_agree hv (by decide) (by decide))
      (simpleOk_agree hv (by decide)) (itemsOk_agree hv (by decide))
  rw [setSingleExampleLocal_obj]
  split
  · rw [den_obj, others_insert h2, others_remove h1]
    apply hc
    intro k hk
    simp only [List.mem_cons, List.not_mem_nil, or_false, not_or] at hk
    rw [viewOf_insert, viewOf_remove, if_neg (Ne.symm hk.2), if_neg (Ne.symm hk.1)]
  · rw [den_obj, others_remove h1]
    apply hc
    intro k hk
    simp only [List.mem_cons, List.not_mem_nil, or_false, not_or] at hk
    rw [viewOf_remove, if_neg (Ne.symm hk.1)]

/-! ## C18: ReplaceConstValue -/

/-- C18, full claim about validity: an equivalent schema results. It fails if a schema has both `const` and
`enum`: see `C18_valid_Full_false`. -/
def C18_valid_Full : Prop := ∀ D env s, IsSchema s → den D env (replaceConst s) = den D env s

/-- If the schema has both `const` and `enum`, the `enum` has the value of the `const`. -/
def Spec.ConstInEnum (s : Json) : Prop :=
  ∀ m c l, s = .obj m → Obj.get m "const" = some c → Obj.get m "enum" = some (.arr l) → ∃ x ∈ l, jeq x c = true

/-- C18: `enum` with one value is equivalent to `const`. What is missing for `C18_valid_Full` are schemas
with both keywords, where the `enum` does not have the value of the `const`. -/
theorem C18_valid_partial (D : Dialect) (env : Env) {s : Json} (hs : IsSchema s)
    (h : Everywhere visited ConstInEnum s) : den D env (replaceConst s) = den D env s := by
  refine den_postOrder (H := fun m => ConstInEnum (.obj m)) replaceConstLocal_preserves (fun b => rfl)
    ?_ ?_ s hs (fun x hx m hm => ⟨hm ▸ h x hx, unvisitedSame_rfl m⟩)
  · intro m T _ h m' c l e hc hl
    cases e
    exact h m c l rfl ((get_entryMap_skip _ (by decide)).symm.trans hc) ((get_entryMap_skip _ (by decide)).symm.trans hl)
  · intro m hm i
    have h1 : known.contains "const" = true := by decide
    have h2 : known.contains "enum" = true := by decide
    rw [replaceConstLocal_obj]
    split
    · next c hc =>
      rw [den_obj, others_insert h2, others_remove h1]
      have hv : Agree ["const", "enum"] (viewOf D env (Obj.insert (Obj.remove m "const") "enum" (.arr [c])))
          (viewOf D env m) := by
        intro k hk
        simp only [List.mem_cons, List.not_mem_nil, or_false, not_or] at hk
        rw [viewOf_insert, viewOf_remove, if_neg (Ne.symm hk.2), if_neg (Ne.symm hk.1)]
      refine combine_congr hv (by decide) rfl rfl (typeOk_agree hv (by decide) (by decide)) ?_
        (itemsOk_agree hv (by decide))
      have a1 : (viewOf D env (Obj.insert (Obj.remove m "const") "enum" (.arr [c]))).raw "const" = none := by
        unfold View.raw; rw [viewOf_insert, viewOf_remove]; rfl
      have a2 : (viewOf D env (Obj.insert (Obj.remove m "const") "enum" (.arr [c]))).raw "enum" =
          some (.arr [c]) := by
        unfold View.raw; rw [viewOf_insert]; rfl
      have a3 : (viewOf D env m).raw "const" = some c := by
        unfold View.raw; rw [viewOf_get, hc]; rfl
      have a4 : (viewOf D env m).raw "enum" = Obj.get m "enum" := by
        unfold View.raw
        rw [viewOf_get]
        cases Obj.get m "enum" <;> rfl
      have hrest : ∀ k ∈ simpleKeys.drop 2,
          (viewOf D env (Obj.insert (Obj.remove m "const") "enum" (.arr [c]))).raw k = (viewOf D env m).raw k := by
        intro k hk
        exact hv.raw ((by decide : ∀ k ∈ simpleKeys.drop 2, k ∉ ["const", "enum"]) k hk)
      have hsplit : simpleKeys = ["const", "enum"] ++ simpleKeys.drop 2 := rfl
      unfold simpleOk
      rw [hsplit, List.all_append, List.all_append]
      congr 1
      · simp only [List.all_cons, List.all_nil, Bool.and_true, a1, a2, a3, a4, simple, List.any_cons, List.any_nil,
          Bool.or_false, Bool.true_and]
        cases hen : Obj.get m "enum" with
        | none => exact (Bool.and_true _).symm
        | some e =>
          cases e with
          | arr l =>
            obtain ⟨x, hx, hxc⟩ := hm m c l rfl hc hen
            cases hci : jeq c i with
            | false => rfl
            | true =>
              refine Eq.symm (List.any_eq_true.2 ⟨x, hx, ?_⟩)
              simp only [jeq, beq_iff_eq] at hxc hci ⊢
              rw [hxc, hci]
          | _ => exact (Bool.and_true _).symm
      · rw [Bool.eq_iff_iff, List.all_eq_true, List.all_eq_true]
        constructor <;> intro hh k hk <;> have := hh k hk
        · rw [← hrest k hk]; exact this
        · rw [hrest k hk]; exact this
    · next hc =>
      rw [den_obj, Obj.remove_of_get_none hc]

set_option maxRecDepth 10000 in
/-- C18: `{"const": 1, "enum": [2]}` accepts nothing, but becomes `{"enum": [1]}`. -/
theorem C18_valid_Full_false : ¬ C18_valid_Full := by
  intro h
  have := congrFun (h draft2020 trivialEnv
    (.obj [("const", .num (.int 1)), ("enum", .arr [.num (.int 2)])]) (.obj _)) (.num (.int 1))
  exact absurd (congrArg R.ok this) (by decide)

example : Everywhere visited ConstInEnum (.obj [("const", .num (.int 1)), ("enum", .arr [.num (.int 1), .num (.int 2)])]) := by
  rw [everywhere_iff]
  refine ⟨?_, by simp [subs, slotSubs, subSlot]⟩
  intro m c l e hc hl
  cases e
  cases hc
  cases hl
  exact ⟨_, .head _, beq_self_eq_true _⟩

/-! ## C19: ReplacePrefixItems -/

/-- Tuples are written in the style of 2020-12: `items` is no array, `prefixItems` is one, and there is no
`additionalItems` that could gain a meaning. -/
structure Spec.TupleStyle (m : List (String × Json)) : Prop where
  items : ∀ l, Obj.get m "items" ≠ some (.arr l)
  prefixItems : ∀ p, Obj.get m "prefixItems" = some p → ∃ l, p = .arr l
  additional : Obj.has m "prefixItems" → Obj.has m "items" ∨ Obj.get m "additionalItems" = none

/-- There are no tuples. -/
def Spec.NoTuples (s : Json) : Prop :=
  ¬ HasKey "prefixItems" s ∧ ∀ m l, s = .obj m → Obj.get m "items" ≠ some (.arr l)

theorem lst_of_not_array {D : Dialect} {env : Env} {m : List (String × Json)} {k : String}
    (h : ∀ l, Obj.get m k ≠ some (.arr l)) : (viewOf D env m).lst k = none := by
  unfold View.lst
  rw [viewOf_get]
  cases hg : Obj.get m k with
  | none => rfl
  | some x =>
    have hx : denArr D env x = none := by
      cases x <;> first | rfl | exact absurd hg (h _)
    simp [kwOf, hx]

theorem noTuples_same (D : Dialect) (env : Env) {s : Json} (h : Everywhere applied NoTuples s) :
    den { D with prefixItems := false } env s = den { D with prefixItems := true } env s := by
  refine den_dialect (fun m i hm => ?_) s h
  refine combine_congr (K := []) (fun _ _ => rfl) (by simp) rfl rfl rfl rfl ?_
  have h1 : (viewOf { D with prefixItems := true } env m).lst "prefixItems" = none :=
    lst_of_not_array (fun l hl => hm.1 ⟨m, _, rfl, Obj.get_mem hl⟩)
  have h2 : (viewOf { D with prefixItems := true } env m).lst "items" = none :=
    lst_of_not_array (fun l => hm.2 m l rfl)
  simp [itemsOk, h1, h2]

/-- C19, full claim about validity: the result accepts the same instances in 2019-09 as the input does in
2020-12. It fails for schemas that mix both styles: see `C19_valid_Full_false`. -/
def C19_valid_Full : Prop := ∀ (D : Dialect) (env : Env) (s : Json), IsSchema s →
  den { D with prefixItems := false } env (replacePrefix s) = den { D with prefixItems := true } env s

/-- C19: `items` and `additionalItems` in the result mean what `prefixItems` and `items` mean in the input.
What is missing for `C19_valid_Full` are schemas that mix both styles, and those with tuples inside
`unevaluatedProperties` or `dependentSchemas`, which are not traversed. -/
theorem C19_valid_partial (D : Dialect) (env : Env) {s : Json} (hs : IsSchema s)
    (h : Everywhere visited (fun x => ∀ m, x = .obj m → TupleStyle m) s) (ho : OutsideOk NoTuples s) :
    den { D with prefixItems := false } env (replacePrefix s) = den { D with prefixItems := true } env s := by
  refine den_postOrder (H := TupleStyle) replacePrefixLocal_preserves (fun b => rfl)
    ?_ ?_ s hs (fun x hx m hm => ⟨h x hx m hm, unvisitedSame (fun y hy => noTuples_same D env (ho x hx y (hm ▸ hy)))⟩)
  · intro m T hT hm
    have hg : ∀ k, Obj.get (m.map (entryMap subSlot T)) k = (Obj.get m k).map (atSlot T (subSlot k)) :=
      fun k => Obj.get_map m (fun k v => atSlot T (subSlot k) v) k
    have hh : ∀ k, Obj.has (m.map (entryMap subSlot T)) k = Obj.has m k := by
      intro k; unfold Obj.has; rw [hg]; cases Obj.get m k <;> rfl
    refine ⟨?_, ?_, ?_⟩
    · intro l hl
      rw [hg] at hl
      cases hi : Obj.get m "items" with
      | none => rw [hi] at hl; cases hl
      | some x =>
        rw [hi] at hl
        simp only [Option.map_some, Option.some.injEq] at hl
        have hx : ∀ l, x ≠ .arr l := fun l e => hm.items l (by rw [hi, e])
        have e : subSlot "items" = .items := rfl
        rw [e] at hl
        by_cases hs : isSchema x = true
        · rw [atSlot_items hs] at hl
          have := isSchema_atSchema hT hs
          rw [hl] at this
          cases this
        · cases x <;> first
            | exact absurd rfl (hx _)
            | (simp [isSchema] at hs; done)
            | (simp [atSlot, atSchema, isSchema] at hl)
    · intro p hp
      rw [hg] at hp
      cases hi : Obj.get m "prefixItems" with
      | none => rw [hi] at hp; cases hp
      | some x =>
        obtain ⟨l, rfl⟩ := hm.prefixItems x hi
        rw [hi] at hp
        cases hp
        exact ⟨_, rfl⟩
    · intro hp
      rw [hh] at hp
      rcases hm.additional hp with h1 | h1
      · exact .inl (by rw [hh]; exact h1)
      · exact .inr (by rw [hg, h1]; rfl)
  · intro m hm i
    have k1 : known.contains "prefixItems" = true := by decide
    have k2 : known.contains "items" = true := by decide
    have k3 : known.contains "additionalItems" = true := by decide
    generalize hD2 : ({ D with prefixItems := false } : Dialect) = D2
    generalize hD1 : ({ D with prefixItems := true } : Dialect) = D1
    have hr : D2.refSiblings = D1.refSiblings := by subst hD1 hD2; rfl
    have hu : D2.unevaluated = D1.unevaluated := by subst hD1 hD2; rfl
    have hn : D2.nullable = D1.nullable := by subst hD1 hD2; rfl
    have hp2 : D2.prefixItems = false := by subst hD2; rfl
    have hp1 : D1.prefixItems = true := by subst hD1; rfl
    have ht : ∀ v w, typeOk D2 v i = typeOk D2 w i → typeOk D2 v i = typeOk D1 w i := by
      intro v w e; rw [e]; unfold typeOk; rw [hn]
    rw [replacePrefixLocal_obj]
    have hitems1 : (viewOf D2 env m).lst "items" = none := lst_of_not_array hm.items
    cases hp : Obj.get m "prefixItems" with
    | none =>
      simp only
      rw [den_obj, Obj.remove_of_get_none hp]
      refine combine_congr (K := []) (fun _ _ => rfl) (by simp) hr hu (ht _ _ rfl) rfl ?_
      have h1 : (viewOf D2 env m).lst "prefixItems" = none :=
        lst_of_not_array (fun l hl => by rw [hp] at hl; cases hl)
      simp [itemsOk, hp1, hp2, h1, hitems1]
    | some p =>
      obtain ⟨l, rfl⟩ := hm.prefixItems p hp
      have w1 : (viewOf D2 env m).lst "prefixItems" = some (denList D2 env l) := by
        unfold View.lst; rw [viewOf_get, hp]; rfl
      simp only
      cases hi : Obj.get m "items" with
      | none =>
        simp only
        have ha : Obj.get m "additionalItems" = none := by
          rcases hm.additional (by unfold Obj.has; rw [hp]; rfl) with h1 | h1
          · unfold Obj.has at h1; rw [hi] at h1; cases h1
          · exact h1
        rw [den_obj, others_insert k2, others_remove k1]
        have hv : Agree ["prefixItems", "items"]
            (viewOf D2 env (Obj.insert (Obj.remove m "prefixItems") "items" (.arr l))) (viewOf D2 env m) := by
          intro k hk
          simp only [List.mem_cons, List.not_mem_nil, or_false, not_or] at hk
          rw [viewOf_insert, viewOf_remove, if_neg (Ne.symm hk.2), if_neg (Ne.symm hk.1)]
        refine combine_congr hv (by decide) hr hu (ht _ _ (typeOk_agree hv (by decide) (by decide)))
          (simpleOk_agree hv (by decide)) ?_
        have v1 : (viewOf D2 env (Obj.insert (Obj.remove m "prefixItems") "items" (.arr l))).lst "items" =
            some (denList D2 env l) := by
          unfold View.lst; rw [viewOf_insert]; rfl
        have v2 : (viewOf D2 env (Obj.insert (Obj.remove m "prefixItems") "items" (.arr l))).sch "additionalItems" =
            none := by
          rw [hv.sch (by decide)]; unfold View.sch; rw [viewOf_get, ha]; rfl
        have w2 : (viewOf D2 env m).sch "items" = none := by
          unfold View.sch; rw [viewOf_get, hi]; rfl
        simp [itemsOk, hp1, hp2, v1, v2, w1, w2]
      | some x =>
        simp only
        rw [den_obj, others_insert k3, others_insert k2, others_remove k1]
        generalize hm' : Obj.insert (Obj.insert (Obj.remove m "prefixItems") "items" (.arr l)) "additionalItems" x = m'
        have hv : Agree ["prefixItems", "items", "additionalItems"] (viewOf D2 env m') (viewOf D2 env m) := by
          intro k hk
          simp only [List.mem_cons, List.not_mem_nil, or_false, not_or] at hk
          rw [← hm', viewOf_insert, viewOf_insert, viewOf_remove, if_neg (Ne.symm hk.2.2), if_neg (Ne.symm hk.2.1),
            if_neg (Ne.symm hk.1)]
        refine combine_congr hv (by decide) hr hu (ht _ _ (typeOk_agree hv (by decide) (by decide)))
          (simpleOk_agree hv (by decide)) ?_
        have v1 : (viewOf D2 env m').lst "items" = some (denList D2 env l) := by
          unfold View.lst; rw [← hm', viewOf_insert, viewOf_insert]; rfl
        have v2 : (viewOf D2 env m').sch "additionalItems" = (viewOf D2 env m).sch "items" := by
          have e1 : viewOf D2 env m "items" = some (kwOf D2 env "items" x) := by rw [viewOf_get, hi]; rfl
          unfold View.sch; rw [← hm', viewOf_insert, e1]; rfl
        simp [itemsOk, hp1, hp2, v1, v2, w1]

set_option maxRecDepth 10000 in
/-- C19: `{"additionalItems": false, "prefixItems": []}` accepts `[null]` in 2020-12. The result
`{"additionalItems": false, "items": []}` does not. -/
theorem C19_valid_Full_false : ¬ C19_valid_Full := by
  intro h
  have := congrFun (h draft2020 trivialEnv
    (.obj [("additionalItems", .bool false), ("prefixItems", .arr [])]) (.obj _)) (.arr [.null])
  exact absurd (congrArg R.ok this) (by decide)

/-- A 2020-12 tuple with a rest schema meets the hypotheses. -/
example : Everywhere visited (fun x => ∀ m, x = .obj m → TupleStyle m)
      (.obj [("items", .bool false), ("prefixItems", .arr [.bool true])]) ∧
    OutsideOk NoTuples (.obj [("items", .bool false), ("prefixItems", .arr [.bool true])]) := by
  constructor
  · rw [everywhere_iff]
    refine ⟨?_, ?_⟩
    · intro m hm; cases hm
      exact ⟨(fun l h => by cases h), (fun p h => by cases h; exact ⟨_, rfl⟩), fun _ => .inl rfl⟩
    · intro x hx
      have hx' : x ∈ [Json.bool false, .bool true] := hx
      simp only [List.mem_cons, List.not_mem_nil, or_false] at hx'
      rcases hx' with rfl | rfl <;> exact everywhere_bool.2 (fun m h => by cases h)
  · unfold OutsideOk
    rw [everywhere_iff]
    refine ⟨?_, ?_⟩
    · intro y hy
      cases hy with
      | one h1 h2 _ => revert h2; simp at h1; rcases h1 with ⟨rfl, _⟩ | ⟨rfl, _⟩ <;> exact fun h => absurd h (by decide)
      | list h1 h2 _ _ => cases h2
      | map h1 _ _ _ => simp at h1
    · intro x hx
      have hx' : x ∈ [Json.bool false, .bool true] := hx
      simp only [List.mem_cons, List.not_mem_nil, or_false] at hx'
      rcases hx' with rfl | rfl <;> exact everywhere_bool.2 (fun y h => by cases h)

/-! ## C20: AddNullable -/

/-- The value of `type` allows only null. -/
def Spec.OnlyNull (ty : Json) : Prop :=
  ty = .str "null" ∨ ∃ l, ty = .arr l ∧ .str "null" ∈ l ∧ ∀ t ∈ l, t = .str "null"

/-- The schema does not use `nullable` yet, the elements of a `type` array are strings, and a schema that
allows only null has no `const` with another value (if `const` is added). -/
structure Spec.NullableStyle (addConst : Bool) (m : List (String × Json)) : Prop where
  nullable : Obj.get m "nullable" ≠ some (.bool true)
  strings : ∀ l, Obj.get m "type" = some (.arr l) → ∀ t ∈ l, ∃ n, t = .str n
  const : addConst = true → ∀ ty, Obj.get m "type" = some ty → OnlyNull ty →
    Obj.get m "const" = none ∨ Obj.get m "const" = some .null

/-- The elements of a `type` array are strings, and a schema that allows only null has no `const` with another value (if
`const` is added). -/
structure Spec.NullTypes (addConst : Bool) (m : List (String × Json)) : Prop where
  strings : ∀ l, Obj.get m "type" = some (.arr l) → ∀ t ∈ l, ∃ n, t = .str n
  const : addConst = true → ∀ ty, Obj.get m "type" = some ty → OnlyNull ty →
    Obj.get m "const" = none ∨ Obj.get m "const" = some .null

/-- The schema does not use `nullable` together with `type`. -/
def Spec.NoNullable (s : Json) : Prop := ∀ m, s = .obj m → Obj.get m "nullable" ≠ some (.bool true)

theorem typeOk_noNullable {D D' : Dialect} {v : View} {i : Json} (h : v.raw "nullable" ≠ some (.bool true)) :
    typeOk D v i = typeOk D' v i := by
  unfold typeOk
  cases v.raw "type" with
  | none => rfl
  | some ty =>
    have : (v.raw "nullable" == some (.bool true)) = false := beq_eq_false_iff_ne.2 h
    simp only [this, Bool.and_false, Bool.false_and]

theorem noNullable_same (D : Dialect) (env : Env) {s : Json} (h : Everywhere applied NoNullable s) :
    den { D with nullable := true } env s = den { D with nullable := false } env s := by
  refine den_dialect (fun m i hm => ?_) s h
  refine combine_congr (K := []) (fun _ _ => rfl) (by simp) rfl rfl ?_ rfl rfl
  apply typeOk_noNullable
  rw [raw_viewOf _ _ _ (by decide)]
  exact hm m rfl

theorem typeName_null (i : Json) : typeName "null" i = (i == .null) := by
  cases i <;> rfl

theorem typeMatch_onlyNull {ty : Json} (h : OnlyNull ty) (i : Json) : typeMatch ty i = (i == .null) := by
  rcases h with rfl | ⟨l, rfl, h1, h2⟩
  · exact typeName_null i
  · simp only [typeMatch]
    rw [Bool.eq_iff_iff, List.any_eq_true]
    constructor
    · rintro ⟨t, ht, hm⟩
      rw [h2 t ht] at hm
      rw [← typeName_null]; exact hm
    · intro h
      exact ⟨_, h1, by rw [typeMember, typeName_null]; exact h⟩

theorem typeMatch_retain {l : List Json} (h : .str "null" ∈ l) (hs : ∀ t ∈ l, ∃ n, t = Json.str n) (i : Json) :
    typeMatch (.arr l) i = (typeMatch (retainNonNull (.arr l)) i || i == .null) := by
  have h1 : typeMatch (retainNonNull (.arr l)) i = (l.filter fun v => v != .str "null").any (typeMember i) := by
    have hf : ∀ t ∈ l.filter fun v => v != .str "null", ∃ n, t = Json.str n :=
      fun t ht => hs t (List.mem_filter.1 ht).1
    unfold retainNonNull
    simp only
    revert hf
    generalize (l.filter fun v => v != .str "null") = l'
    intro hf
    match l', hf with
    | [], _ => rfl
    | [x], hf =>
      obtain ⟨n, rfl⟩ := hf x (by simp)
      simp [typeMatch, typeMember]
    | x :: y :: l', _ => rfl
  rw [h1]
  simp only [typeMatch]
  rw [Bool.eq_iff_iff, Bool.or_eq_true, List.any_eq_true, List.any_eq_true]
  constructor
  · rintro ⟨t, ht, hm⟩
    by_cases hn : t = .str "null"
    · subst hn; right; rw [← typeName_null]; exact hm
    · exact .inl ⟨t, List.mem_filter.2 ⟨ht, by simpa using hn⟩, hm⟩
  · rintro (⟨t, ht, hm⟩ | hn)
    · exact ⟨t, (List.mem_filter.1 ht).1, hm⟩
    · exact ⟨_, h, by rw [typeMember, typeName_null]; exact hn⟩

theorem jeq_null (i : Json) : jeq .null i = (i == .null) := by
  unfold jeq
  cases i <;> rfl

/-- `simpleOk` without `const`. -/
theorem simpleOk_const (env : Env) (v : View) (i : Json) : simpleOk env v i =
    ((match v.raw "const" with
      | some r => jeq r i
      | none => true) &&
    (simpleKeys.drop 1).all fun k => match v.raw k with
      | some r => simple env k r i
      | none => true) := by
  have hsplit : simpleKeys = "const" :: simpleKeys.drop 1 := rfl
  unfold simpleOk
  rw [hsplit, List.all_cons]
  congr 1

theorem simpleRest_agree {K : List String} {env : Env} {v w : View} {i : Json} (h : Agree K v w)
    (hK : ∀ k ∈ simpleKeys.drop 1, k ∉ K) :
    ((simpleKeys.drop 1).all fun k => match v.raw k with
      | some r => simple env k r i
      | none => true) =
    ((simpleKeys.drop 1).all fun k => match w.raw k with
      | some r => simple env k r i
      | none => true) := by
  rw [Bool.eq_iff_iff, List.all_eq_true, List.all_eq_true]
  constructor <;> intro hh k hk <;> have := hh k hk
  · rw [← h.raw (hK k hk)]; exact this
  · rw [h.raw (hK k hk)]; exact this

/-- C20, full claim about validity: the result accepts the same instances in OpenAPI 3.0 (where `nullable`
has a meaning) as the input does in JSON Schema. It fails for schemas that already have `nullable`: see
`C20_valid_Full_false`. -/
def C20_valid_Full : Prop := ∀ (D : Dialect) (env : Env) (c : NullableCfg) (s : Json), IsSchema s →
  den { D with nullable := true } env (addNullable c s) = den { D with nullable := false } env s

theorem onlyNull_of {ty : Json} {m : List (String × Json)} (hty : Obj.get m "type" = some ty)
    (hn : Schema.hasType (.obj m) "null" = true) (ho : onlyAllowsNull ty = true) : OnlyNull ty := by
  unfold Schema.hasType Schema.get at hn
  simp only [hty] at hn
  cases ty with
  | str t => left; simpa using hn
  | arr l =>
    right
    refine ⟨l, rfl, ?_, ?_⟩
    · simpa using hn
    · simpa [onlyAllowsNull] using ho
  | _ => cases hn

theorem nullableMembers_get (c : NullableCfg) {m : List (String × Json)} {ty : Json}
    (hty : Obj.get m "type" = some ty) :
    Obj.get (nullableMembers c m ty) "type" =
      (if onlyAllowsNull ty then
        if c.addConstNull then if c.removeNullType then none else some ty
        else if c.removeNullType then some (.arr []) else some ty
      else if c.removeNullType then some (retainNonNull ty) else some ty) ∧
    Obj.get (nullableMembers c m ty) "nullable" = some (.bool true) ∧
    Obj.get (nullableMembers c m ty) "const" =
      (if onlyAllowsNull ty then if c.addConstNull then some .null else Obj.get m "const"
      else Obj.get m "const") := by
  have t0 : Obj.get (Obj.insert m "nullable" (.bool true)) "type" = some ty := by
    rw [Obj.get_insert_ne _ _ (by decide), hty]
  have c0 : Obj.get (Obj.insert m "nullable" (.bool true)) "const" = Obj.get m "const" :=
    Obj.get_insert_ne _ _ (by decide)
  have t1 : Obj.get (Obj.insert (Obj.insert m "nullable" (.bool true)) "const" .null) "type" = some ty := by
    rw [Obj.get_insert_ne _ _ (by decide), t0]
  have n1 : Obj.get (Obj.insert (Obj.insert m "nullable" (.bool true)) "const" .null) "nullable" =
      some (.bool true) := by
    rw [Obj.get_insert_ne _ _ (by decide), Obj.get_insert_self]
  by_cases h1 : onlyAllowsNull ty = true <;> by_cases h2 : c.addConstNull = true <;>
    by_cases h3 : c.removeNullType = true <;>
    simp [nullableMembers, h1, h2, h3, Obj.get_modify, t0, c0, t1, n1, Obj.get_remove]

/-- C20, whether or not `nullable` has a meaning for the input. -/
theorem addNullable_den (D : Dialect) (env : Env) (c : NullableCfg) (q : Bool) {s : Json} (hs : IsSchema s)
    (h : Everywhere visited (fun x => ∀ m, x = .obj m →
      ((q = false → Obj.get m "nullable" ≠ some (.bool true)) ∧ NullTypes c.addConstNull m) ∧
        UnvisitedSame { D with nullable := q } { D with nullable := true } env m) s) :
    den { D with nullable := true } env (addNullable c s) = den { D with nullable := q } env s := by
  refine den_postOrder (H := fun m => (q = false → Obj.get m "nullable" ≠ some (.bool true)) ∧ NullTypes c.addConstNull m)
    (addNullableLocal_preserves c) (fun b => addNullableLocal_bool c b) ?_ ?_ s hs h
  · intro m T _ hm
    have g : ∀ k, subSlot k = .skip → Obj.get (m.map (entryMap subSlot T)) k = Obj.get m k :=
      fun k hk => get_entryMap_skip m hk
    refine ⟨?_, ?_, ?_⟩
    · rw [g _ (by decide)]; exact hm.1
    · rw [g _ (by decide)]; exact hm.2.strings
    · rw [g _ (by decide), g _ (by decide)]; exact hm.2.const
  · intro m hm0 i
    obtain ⟨hmn, hm⟩ := hm0
    generalize hD2 : ({ D with nullable := true } : Dialect) = D2
    generalize hD1 : ({ D with nullable := q } : Dialect) = D1
    have hr : D2.refSiblings = D1.refSiblings := by subst hD1 hD2; rfl
    have hu : D2.unevaluated = D1.unevaluated := by subst hD1 hD2; rfl
    have hp : D2.prefixItems = D1.prefixItems := by subst hD1 hD2; rfl
    have hn2 : D2.nullable = true := by subst hD2; rfl
    have hn1 : D1.nullable = q := by subst hD1; rfl
    have hit : ∀ v w, itemsOk D2 v i = itemsOk D2 w i → itemsOk D2 v i = itemsOk D1 w i := by
      intro v w e; rw [e]; unfold itemsOk; rw [hp]
    have hraw : ∀ m', (viewOf D2 env m').raw "nullable" = Obj.get m' "nullable" ∧
        (viewOf D2 env m').raw "type" = Obj.get m' "type" ∧
        (viewOf D2 env m').raw "const" = Obj.get m' "const" :=
      fun m' => ⟨raw_viewOf _ _ _ (by decide), raw_viewOf _ _ _ (by decide), raw_viewOf _ _ _ (by decide)⟩
    have hsame : den D2 env (.obj m) i = combine D1 env (viewOf D2 env m) i (others m) := by
      rw [den_obj]
      refine combine_congr (K := []) (fun _ _ => rfl) (by simp) hr hu ?_ rfl (hit _ _ rfl)
      cases q with
      | false => exact typeOk_noNullable (by rw [(hraw m).1]; exact hmn rfl)
      | true => unfold typeOk; rw [hn1, hn2]
    rw [addNullableLocal_obj]
    split
    · next ty hty =>
      split
      · next hn =>
        have hnull : (i == .null) = true → typeMatch ty i = true := by
          intro hi
          have : i = .null := by simpa using hi
          subst this
          unfold Schema.hasType Schema.get at hn
          simp only [hty] at hn
          cases ty with
          | str t => have : t = "null" := by simpa using hn
                     subst this; rfl
          | arr l =>
            have : .str "null" ∈ l := by simpa using hn
            exact List.any_eq_true.2 ⟨_, this, rfl⟩
          | _ => rfl
        have ht1 : typeOk D1 (viewOf D2 env m) i = typeMatch ty i := by
          unfold typeOk
          rw [(hraw m).2.1, hty]
          simp only
          cases hi : (i == Json.null)
          · simp
          · rw [hnull hi]; rfl
        rw [den_obj]
        have kt : known.contains "type" = true := by decide
        have kc : known.contains "const" = true := by decide
        have kn : known.contains "nullable" = true := by decide
        have hoth : others (nullableMembers c m ty) = others m := by
          unfold nullableMembers
          simp only
          split
          · split
            · split
              · rw [others_remove kt, others_insert kc, others_insert kn]
              · rw [others_insert kc, others_insert kn]
            · split
              · rw [others_modify kt, others_insert kn]
              · rw [others_insert kn]
          · split
            · rw [others_modify kt, others_insert kn]
            · rw [others_insert kn]
        have hv : Agree ["nullable", "const", "type"] (viewOf D2 env (nullableMembers c m ty)) (viewOf D2 env m) := by
          intro k hk
          simp only [List.mem_cons, List.not_mem_nil, or_false, not_or] at hk
          obtain ⟨h1, h2, h3⟩ := hk
          have hg : Obj.get (nullableMembers c m ty) k = Obj.get m k := by
            unfold nullableMembers
            simp only
            split
            · split
              · split
                · rw [Obj.get_remove_ne _ (Ne.symm h3), Obj.get_insert_ne _ _ (Ne.symm h2),
                    Obj.get_insert_ne _ _ (Ne.symm h1)]
                · rw [Obj.get_insert_ne _ _ (Ne.symm h2), Obj.get_insert_ne _ _ (Ne.symm h1)]
              · split
                · rw [Obj.get_modify, if_neg (Ne.symm h3), Obj.get_insert_ne _ _ (Ne.symm h1)]
                · rw [Obj.get_insert_ne _ _ (Ne.symm h1)]
            · split
              · rw [Obj.get_modify, if_neg (Ne.symm h3), Obj.get_insert_ne _ _ (Ne.symm h1)]
              · rw [Obj.get_insert_ne _ _ (Ne.symm h1)]
          rw [viewOf_get, viewOf_get, hg]
        rw [hoth]
        refine combine_congr' hv (by decide) hr hu ?_ (hit _ _ (itemsOk_agree hv (by decide)))
        rw [simpleOk_const, simpleOk_const, simpleRest_agree hv (by decide), ht1, (hraw _).2.2, (hraw m).2.2,
          ← Bool.and_assoc, ← Bool.and_assoc]
        congr 1
        unfold typeOk
        rw [(hraw _).2.1, (hraw _).1]
        have habs : (typeMatch ty i || (D2.nullable && some (Json.bool true) == some (.bool true) && i == .null)) =
            typeMatch ty i := by
          simp only [hn2, beq_self_eq_true, Bool.true_and]
          cases hi : (i == Json.null)
          · simp
          · rw [hnull hi]; rfl
        obtain ⟨e1, e2, e3⟩ := nullableMembers_get c hty
        rw [e1, e2, e3]
        by_cases hon : onlyAllowsNull ty = true
        · have hnl := onlyNull_of hty hn hon
          have hty' := typeMatch_onlyNull hnl i
          simp only [hon, if_true]
          by_cases hadd : c.addConstNull = true
          · have hcm := hm.const hadd ty hty hnl
            have hcc : (match Obj.get m "const" with | some r => jeq r i | none => true) = true ∨
                (match Obj.get m "const" with | some r => jeq r i | none => true) = (i == .null) := by
              rcases hcm with e | e <;> rw [e]
              · left; rfl
              · right; exact jeq_null i
            simp only [hadd, if_true]
            by_cases hrm : c.removeNullType = true
            · simp only [hrm, if_true, Bool.true_and, jeq_null, hty']
              rcases hcc with e | e <;> rw [e] <;> simp
            · simp only [if_neg hrm, habs]
              simp only [jeq_null, hty']
              rcases hcc with e | e <;> simp [e]
          · simp only [if_neg hadd]
            by_cases hrm : c.removeNullType = true
            · have ea : typeMatch (.arr []) i = false := rfl
              simp only [hrm, if_true, hty', ea, hn2, Bool.false_or, Bool.true_and, beq_self_eq_true]
            · simp only [if_neg hrm, habs]
        · have hl : ∃ l, ty = .arr l ∧ .str "null" ∈ l := by
            unfold Schema.hasType Schema.get at hn
            simp only [hty] at hn
            cases ty with
            | str t => exact absurd rfl hon
            | arr l => exact ⟨l, rfl, by simpa using hn⟩
            | _ => cases hn
          simp only [if_neg hon]
          by_cases hrm : c.removeNullType = true
          · obtain ⟨l, rfl, hl⟩ := hl
            simp only [hrm, if_true, typeMatch_retain hl (hm.strings l hty), hn2, Bool.true_and,
              beq_self_eq_true]
          · simp only [if_neg hrm, habs]
      · exact hsame
    · exact hsame

/-- C20: `nullable` in the result means what the type "null" means in the input. What is missing for
`C20_valid_Full` are schemas that already have `nullable`, malformed types, and `const` beside a type that
allows only null. -/
theorem C20_valid_partial (D : Dialect) (env : Env) (c : NullableCfg) {s : Json} (hs : IsSchema s)
    (h : Everywhere visited (fun x => ∀ m, x = .obj m → NullableStyle c.addConstNull m) s)
    (ho : OutsideOk NoNullable s) :
    den { D with nullable := true } env (addNullable c s) = den { D with nullable := false } env s :=
  addNullable_den D env c false hs fun x hx m hm =>
    ⟨⟨fun _ => (h x hx m hm).nullable, (h x hx m hm).strings, (h x hx m hm).const⟩,
      unvisitedSame (fun y hy => noNullable_same D env (ho x hx y (hm ▸ hy)))⟩

/-- C20: read as OpenAPI 3.0, the schema means the same before and after, also if it has `nullable`. -/
theorem C20_openapi_partial (D : Dialect) (env : Env) (c : NullableCfg) {s : Json} (hs : IsSchema s)
    (h : Everywhere visited (fun x => ∀ m, x = .obj m → NullTypes c.addConstNull m) s) :
    den { D with nullable := true } env (addNullable c s) = den { D with nullable := true } env s :=
  addNullable_den D env c true hs fun x hx m hm => ⟨⟨fun e => (by cases e), h x hx m hm⟩, unvisitedSame_rfl m⟩

/-- The schema of the counterexample `C20_valid_Full_false` meets the hypotheses of `C20_openapi_partial`. -/
example : Everywhere visited (fun x => ∀ m, x = .obj m → NullTypes true m)
    (.obj [("nullable", .bool true), ("type", .str "string")]) := by
  rw [everywhere_iff]
  refine ⟨?_, fun x hx => by cases hx⟩
  intro m hm
  cases hm
  refine ⟨fun l hl => (by cases hl), fun _ ty hty hn => ?_⟩
  cases hty
  rcases hn with hn | ⟨l, hl, -⟩
  · exact absurd hn (by decide)
  · cases hl

set_option maxRecDepth 10000 in
/-- C20: `{"nullable": true, "type": "string"}` does not accept null in JSON Schema, but does in OpenAPI. -/
theorem C20_valid_Full_false : ¬ C20_valid_Full := by
  intro h
  have := congrFun (h draft2020 trivialEnv ⟨true, true⟩
    (.obj [("nullable", .bool true), ("type", .str "string")]) (.obj _)) .null
  exact absurd (congrArg R.ok this) (by decide)

/-- An optional string meets the hypotheses. -/
example (c : Bool) : Everywhere visited (fun x => ∀ m, x = .obj m → NullableStyle c m)
      (.obj [("type", .arr [.str "string", .str "null"])]) ∧
    OutsideOk NoNullable (.obj [("type", .arr [.str "string", .str "null"])]) := by
  constructor
  · rw [everywhere_iff]
    refine ⟨?_, fun x hx => by cases hx⟩
    intro m hm; cases hm
    refine ⟨(fun h => by cases h), ?_, fun _ _ _ _ => .inl rfl⟩
    intro l hl t ht
    cases hl
    simp only [List.mem_cons, List.not_mem_nil, or_false] at ht
    rcases ht with rfl | rfl <;> exact ⟨_, rfl⟩
  · unfold OutsideOk
    rw [everywhere_iff]
    refine ⟨?_, fun x hx => by cases hx⟩
    intro y hy
    cases hy with
    | one h1 _ h3 => simp at h1; obtain ⟨rfl, rfl⟩ := h1; cases h3
    | list h1 h2 _ _ => cases h2
    | map h1 _ _ _ => simp at h1

/-! ## C16: RemoveRefSiblings -/

/-- `$ref` is a string, and `allOf` beside it is an array. -/
structure Spec.RefStyle (m : List (String × Json)) : Prop where
  ref : ∀ r, Obj.get m "$ref" = some r → ∃ t, r = .str t
  allOf : Obj.has m "$ref" → ∀ a, Obj.get m "allOf" = some a → ∃ l, a = .arr l

/-- `$ref` is the only keyword, and a string. -/
def Spec.RefOnly (s : Json) : Prop :=
  ∀ m r, s = .obj m → Obj.get m "$ref" = some r → ∃ t, m = [("$ref", .str t)]

theorem refResult_none {D : Dialect} {env : Env} {m : List (String × Json)} (h : Obj.get m "$ref" = none) (i : Json) :
    refResult env (viewOf D env m) i = none := by
  unfold refResult
  rw [raw_viewOf _ _ _ (by decide), h]

theorem refResult_some {D : Dialect} {env : Env} {m : List (String × Json)} {r : String}
    (h : Obj.get m "$ref" = some (.str r)) (i : Json) :
    refResult env (viewOf D env m) i = some ((env.ref r i).norm i) := by
  unfold refResult
  rw [raw_viewOf _ _ _ (by decide), h]

/-- A schema that is only a reference means what it refers to, in all dialects. -/
theorem combine_refOnly (D D' : Dialect) (env : Env) (r : String) (i : Json) :
    combine D env (viewOf D' env [("$ref", .str r)]) i (others [("$ref", .str r)]) = (env.ref r i).norm i := by
  have href : refResult env (viewOf D' env [("$ref", .str r)]) i = some ((env.ref r i).norm i) :=
    refResult_some rfl i
  have hno : ∀ k, k ≠ "$ref" → viewOf D' env [("$ref", .str r)] k = none := by
    intro k hk
    rw [viewOf_get, Obj.get_cons, if_neg (Ne.symm hk)]; rfl
  have hraw : ∀ k, k ≠ "$ref" → (viewOf D' env [("$ref", .str r)]).raw k = none := by
    intro k hk; unfold View.raw; rw [hno k hk]; rfl
  have hsch : ∀ k, (viewOf D' env [("$ref", .str r)]).sch k = none := by
    intro k; unfold View.sch
    by_cases hk : k = "$ref"
    · subst hk; rfl
    · rw [hno k hk]; rfl
  have hlst : ∀ k, (viewOf D' env [("$ref", .str r)]).lst k = none := by
    intro k; unfold View.lst
    by_cases hk : k = "$ref"
    · subst hk; rfl
    · rw [hno k hk]; rfl
  have hmp : ∀ k, (viewOf D' env [("$ref", .str r)]).mp k = [] := by
    intro k; unfold View.mp
    by_cases hk : k = "$ref"
    · subst hk; rfl
    · rw [hno k hk]; rfl
  revert href hraw hsch hlst hmp
  generalize viewOf D' env [("$ref", .str r)] = v
  generalize hρ : (env.ref r i).norm i = ρ
  intro href hraw hsch hlst hmp
  have hothers : others [("$ref", Json.str r)] = [] := rfl
  have h4 : ∀ l, tupleOk [] none l = true := by
    intro l; induction l with
    | nil => rfl
    | cons a l ih => simp [tupleOk, optOk, ih]
  have hmem : (members i).all (memberOk D env v i) = true := by
    refine List.all_eq_true.2 (fun x _ => ?_)
    simp [memberOk, hmp, hsch, optOk, inProperties, inPatterns, Obj.has]
  have hsim : simpleOk env v i = true := by
    refine List.all_eq_true.2 (fun k hk => ?_)
    rw [hraw k ((by decide : ∀ k ∈ simpleKeys, k ≠ "$ref") k hk)]
  have hall : allOk D env v i [] = ρ.ok := by
    simp only [allOk, hmem, hsim, href]
    simp [typeOk, hraw, allOfOk, listResults, hlst, anyOfOk, oneOfOk, notOk, hsch, ifResults, R.pass,
      dependentResults, hmp, itemsOk, h4, containsOk, othersOk]
  have hev : ∀ k, evAfter D env v i k = (Obj.has (members i) k && ρ.ev k) := by
    intro k
    simp [evAfter, evaluated, ownEvaluated, inProperties, inPatterns, inPlaceResults, href, listResults, hlst,
      ifResults, hsch, R.pass, dependentResults, hmp, Obj.has]
  unfold combine
  rw [href, hothers, hall]
  have hn : (if ρ.ok = true then (⟨true, evAfter D env v i⟩ : R) else R.fail) = ρ := by
    subst hρ
    unfold R.norm at *
    cases h : (env.ref r i).ok
    · simp [R.fail]
    · simp only [h, if_true] at hev ⊢
      congr 1
      funext k
      rw [hev]
      simp
  cases D.refSiblings
  · rfl
  · exact hn

theorem combine_noRef {D : Dialect} {env : Env} {v : View} {i : Json} {o : List (String × Json)}
    (h : refResult env v i = none) :
    combine { D with refSiblings := false } env v i o = combine { D with refSiblings := true } env v i o := by
  unfold combine
  rw [h]
  rfl

theorem refOnly_same (D : Dialect) (env : Env) {s : Json} (h : Everywhere applied RefOnly s) :
    den { D with refSiblings := false } env s = den { D with refSiblings := true } env s := by
  refine den_dialect (fun m i hm => ?_) s h
  cases hr : Obj.get m "$ref" with
  | none => exact combine_noRef (refResult_none hr i)
  | some r =>
    obtain ⟨t, rfl⟩ := hm m r rfl hr
    rw [combine_refOnly, combine_refOnly]

/-- C16, full claim about validity: the result accepts the same instances in draft-07 (where keywords beside
`$ref` are ignored) as the input does in 2019-09. It fails for a malformed `allOf`: see
`C16_valid_Full_false`. -/
def C16_valid_Full : Prop := ∀ (D : Dialect) (env : Env) (s : Json), IsSchema s →
  den { D with refSiblings := false } env (removeRefSiblings s) = den { D with refSiblings := true } env s

/-- C16: a reference in `allOf` means what a reference with siblings means in the input. What is missing for
`C16_valid_Full` are malformed values of `$ref` and `allOf`, and references with siblings inside
`unevaluatedProperties` or `dependentSchemas`, which are not traversed. -/
theorem C16_valid_partial (D : Dialect) (env : Env) {s : Json} (hs : IsSchema s)
    (h : Everywhere visited (fun x => ∀ m, x = .obj m → RefStyle m) s) (ho : OutsideOk RefOnly s) :
    den { D with refSiblings := false } env (removeRefSiblings s) =
      den { D with refSiblings := true } env s := by
  refine den_postOrder (H := RefStyle) removeRefSiblingsLocal_preserves (fun b => rfl)
    ?_ ?_ s hs (fun x hx m hm => ⟨h x hx m hm, unvisitedSame (fun y hy => refOnly_same D env (ho x hx y (hm ▸ hy)))⟩)
  · intro m T _ hm
    have hg : ∀ k, Obj.get (m.map (entryMap subSlot T)) k = (Obj.get m k).map (atSlot T (subSlot k)) :=
      fun k => Obj.get_map m (fun k v => atSlot T (subSlot k) v) k
    have g := get_entryMap_skip (T := T) m (by decide : subSlot "$ref" = .skip)
    refine ⟨by rw [g]; exact hm.ref, ?_⟩
    intro hr a ha
    unfold Obj.has at hr
    rw [g] at hr
    rw [hg] at ha
    cases hal : Obj.get m "allOf" with
    | none => rw [hal] at ha; cases ha
    | some x =>
      obtain ⟨l, rfl⟩ := hm.allOf hr x hal
      rw [hal] at ha
      cases ha
      exact ⟨_, rfl⟩
  · intro m hm i
    generalize hD2 : ({ D with refSiblings := false } : Dialect) = D2
    generalize hD1 : ({ D with refSiblings := true } : Dialect) = D1
    have hu : D2.unevaluated = D1.unevaluated := by subst hD1 hD2; rfl
    cases hr : Obj.get m "$ref" with
    | none =>
      have : removeRefSiblingsLocal (.obj m) = .obj m := by
        unfold removeRefSiblingsLocal
        simp only [hr]
        split <;> rfl
      rw [this, den_obj]
      subst hD1 hD2
      exact combine_noRef (refResult_none hr i)
    | some r =>
      obtain ⟨t, rfl⟩ := hm.ref r hr
      by_cases hlen : m.length > 1
      · generalize hl : (match Obj.get m "allOf" with | some (.arr l) => l | _ => []) = l
        have hloc : removeRefSiblingsLocal (.obj m) =
            .obj (Obj.insert (Obj.remove m "$ref") "allOf" (.arr (l ++ [.obj [("$ref", .str t)]]))) := by
          unfold removeRefSiblingsLocal
          simp only [if_pos hlen, hr]
          rw [Obj.get_remove_ne _ (by decide)]
          cases hal : Obj.get m "allOf" with
          | none => rw [hal] at hl; subst hl; rfl
          | some a =>
            obtain ⟨l', rfl⟩ := hm.allOf (by unfold Obj.has; rw [hr]; rfl) a hal
            rw [hal] at hl; subst hl; rfl
        have hlw : listResults (viewOf D2 env m) i "allOf" = (denList D2 env l).map fun s => s i := by
          unfold listResults View.lst
          rw [viewOf_get]
          cases hal : Obj.get m "allOf" with
          | none => rw [hal] at hl; subst hl; rfl
          | some a =>
            obtain ⟨l', rfl⟩ := hm.allOf (by unfold Obj.has; rw [hr]; rfl) a hal
            rw [hal] at hl; subst hl; rfl
        rw [hloc, den_obj, others_insert (by decide), others_remove (by decide)]
        generalize hm' : Obj.insert (Obj.remove m "$ref") "allOf" (.arr (l ++ [.obj [("$ref", .str t)]])) = m'
        have hv : Agree ["$ref", "allOf"] (viewOf D2 env m') (viewOf D2 env m) := by
          intro k hk
          simp only [List.mem_cons, List.not_mem_nil, or_false, not_or] at hk
          rw [← hm', viewOf_insert, viewOf_remove, if_neg (Ne.symm hk.2), if_neg (Ne.symm hk.1)]
        have hrw := refResult_some (D := D2) (env := env) hr i
        have hrv : refResult env (viewOf D2 env m') i = none := by
          apply refResult_none
          rw [← hm', Obj.get_insert_ne _ _ (by decide), Obj.get_remove_self]
        have hlv : listResults (viewOf D2 env m') i "allOf" =
            listResults (viewOf D2 env m) i "allOf" ++ [(env.ref t i).norm i] := by
          rw [hlw]
          unfold listResults View.lst
          rw [← hm', viewOf_insert, if_pos rfl]
          have : (kwOf D2 env "allOf" (.arr (l ++ [.obj [("$ref", .str t)]]))).lst =
              some (denList D2 env (l ++ [.obj [("$ref", .str t)]])) := rfl
          simp only [Option.bind_some, this, Option.getD_some, denList_eq, List.map_append, List.map_cons,
            List.map_nil]
          rw [den_obj, combine_refOnly]
        generalize (env.ref t i).norm i = ρ at hrw hlv
        have hip : ∀ k, ((inPlaceResults env (viewOf D2 env m') i).any fun r => r.ev k) =
            (inPlaceResults env (viewOf D2 env m) i).any fun r => r.ev k := by
          intro k
          unfold inPlaceResults
          rw [hrv, hrw, hlv, listResults_agree hv (by decide : "anyOf" ∉ _),
            listResults_agree hv (by decide : "oneOf" ∉ _), ifResults_agree hv (by decide),
            dependentResults_agree hv (by decide)]
          simp only [Option.toList_none, Option.toList_some, List.any_append, List.nil_append, List.any_cons,
            List.any_nil, Bool.or_false]
          cases ρ.ev k <;>
            simp only [Bool.or_false, Bool.or_true, Bool.true_or, Bool.false_or]
        have hall : allOk D2 env (viewOf D2 env m') i (others m) = allOk D1 env (viewOf D2 env m) i (others m) := by
          have hme : memberOk D2 env (viewOf D2 env m') i = memberOk D1 env (viewOf D2 env m) i := by
            funext e
            rw [memberOk_agree' hv (by decide) hip, memberOk_dialect hu]
          have hty : typeOk D2 (viewOf D2 env m') i = typeOk D1 (viewOf D2 env m) i := by
            rw [typeOk_agree hv (by decide) (by decide)]
            subst hD1 hD2; rfl
          have hit : itemsOk D2 (viewOf D2 env m') i = itemsOk D1 (viewOf D2 env m) i := by
            rw [itemsOk_agree hv (by decide)]
            subst hD1 hD2; rfl
          unfold allOk
          rw [hrv, hrw, hme, hty, hit, simpleOk_agree hv (by decide), anyOfOk_agree hv (by decide),
            oneOfOk_agree hv (by decide), notOk_agree hv (by decide), ifResults_agree hv (by decide),
            dependentResults_agree hv (by decide), containsOk_agree hv (by decide)]
          have hao : allOfOk (viewOf D2 env m') i = (allOfOk (viewOf D2 env m) i && ρ.ok) := by
            unfold allOfOk; rw [hlv]; simp
          rw [hao]
          simp only
          cases ρ.ok <;> simp only [Bool.and_false, Bool.and_true, Bool.false_and, Bool.true_and]
        unfold combine
        rw [hrv, hrw, hall, evAfter_agree' hv (by decide) hip, evAfter_dialect hu]
        have hD1r : D1.refSiblings = true := by subst hD1; rfl
        rw [hD1r]
        cases D2.refSiblings <;> rfl
      · have hm1 : m = [("$ref", .str t)] := by
          match m, hr, hlen with
          | [], hr, _ => cases hr
          | [(k, x)], hr, _ =>
            rw [Obj.get_cons] at hr
            split at hr
            · next e => subst e; cases hr; rfl
            · cases hr
          | _ :: _ :: _, _, hlen => exact absurd (by simp) hlen
        have : removeRefSiblingsLocal (.obj m) = .obj m := by
          unfold removeRefSiblingsLocal
          simp only [if_neg hlen]
        rw [this, den_obj, hm1, combine_refOnly, combine_refOnly]

set_option maxRecDepth 10000 in
/-- C16: the reference in `{"$ref": "#/x", "allOf": true}` is lost. -/
theorem C16_valid_Full_false : ¬ C16_valid_Full := by
  intro h
  have := congrFun (h draft2020 ⟨fun _ _ => R.fail, fun _ _ => true, fun _ _ _ => true⟩
    (.obj [("$ref", .str "#/x"), ("allOf", .bool true)]) (.obj _)) .null
  exact absurd (congrArg R.ok this) (by decide)

/-- A reference with a description meets the hypotheses. -/
example : Everywhere visited (fun x => ∀ m, x = .obj m → RefStyle m)
      (.obj [("$ref", .str "#/x"), ("description", .str "d")]) ∧
    OutsideOk RefOnly (.obj [("$ref", .str "#/x"), ("description", .str "d")]) := by
  constructor
  · rw [everywhere_iff]
    refine ⟨?_, fun x hx => by cases hx⟩
    intro m hm; cases hm
    exact ⟨(fun r h => by cases h; exact ⟨_, rfl⟩), fun _ a h => by cases h⟩
  · unfold OutsideOk
    rw [everywhere_iff]
    refine ⟨?_, fun x hx => by cases hx⟩
    intro y hy
    cases hy with
    | one h1 _ h3 => simp at h1; rcases h1 with ⟨_, rfl⟩ | ⟨_, rfl⟩ <;> cases h3
    | list h1 h2 _ _ => cases h2
    | map h1 _ _ _ => simp at h1

/-! ## C22: RestrictFormats -/

/-- C22: removing formats changes nothing, since `format` is an annotation. -/
theorem C22_valid (D : Dialect) (env : Env) (c : FormatsCfg) {s : Json} (hs : IsSchema s) :
    den D env (restrictFormats c s) = den D env s := by
  suffices ∀ n inf s, sizeOf s < n → IsSchema s → den D env (restrictFrom c inf s) = den D env s from
    this _ _ s (Nat.lt_succ_self _) hs
  intro n
  induction n with
  | zero => intro inf s hs; omega
  | succ n ih =>
    intro inf s hs hi
    cases hi with
    | bool b => rw [restrictFrom_bool]
    | obj m =>
      rw [restrictFrom_eq]
      cases inferFormats c inf m with
      | none => rfl
      | some inf' =>
        simp only
        funext i
        have hd : dropFormat c inf' m = m ∨ dropFormat c inf' m = Obj.remove m "format" := by
          exact dropFormat_or c inf' m
        have hsub : ∀ x ∈ subs subSlot (.obj (dropFormat c inf' m)), x ∈ subs subSlot (.obj m) := by
          intro x hx
          rcases hd with e | e <;> rw [e] at hx
          · exact hx
          · exact subs_remove hx
        have hp : Preserves (restrictFrom c inf') := by
          intro x hx
          cases hx with
          | bool b => rw [restrictFrom_bool]; exact .bool b
          | obj o =>
            rw [restrictFrom_eq]
            split
            · exact .obj o
            · rw [tsub_obj]; exact .obj _
        rw [tsub_obj, den_obj, others_tsub, viewOf_tsub hp (unvisitedSame_rfl _)
          (fun x hx => ih inf' x (by have := sizeOf_subs (hsub x hx); omega) (subs_isSchema (hsub x hx))), den_obj]
        rcases hd with e | e <;> rw [e]
        rw [others_remove (by decide)]
        have hv : Agree ["format"] (viewOf D env (Obj.remove m "format")) (viewOf D env m) := by
          intro k hk
          simp only [List.mem_cons, List.not_mem_nil, or_false] at hk
          rw [viewOf_remove, if_neg (Ne.symm hk)]
        exact combine_congr hv (by decide) rfl rfl (typeOk_agree hv (by decide) (by decide))
          (simpleOk_agree hv (by decide)) (itemsOk_agree hv (by decide))

end Verif
