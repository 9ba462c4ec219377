import Verif.Lemmas.Sem

/-!
# Results depend only on the keywords that they mention
-/

namespace Verif
open Spec

/-- The views agree outside the listed keywords. -/
def Agree (K : List String) (v w : View) : Prop := ∀ k, k ∉ K → v k = w k

section
variable {K : List String} {D : Dialect} {env : Env} {v w : View} {i : Json}

theorem Agree.raw (h : Agree K v w) {k : String} (hk : k ∉ K) : v.raw k = w.raw k := by
  unfold View.raw; rw [h k hk]
theorem Agree.sch (h : Agree K v w) {k : String} (hk : k ∉ K) : v.sch k = w.sch k := by
  unfold View.sch; rw [h k hk]
theorem Agree.lst (h : Agree K v w) {k : String} (hk : k ∉ K) : v.lst k = w.lst k := by
  unfold View.lst; rw [h k hk]
theorem Agree.mp (h : Agree K v w) {k : String} (hk : k ∉ K) : v.mp k = w.mp k := by
  unfold View.mp; rw [h k hk]

theorem refResult_agree (h : Agree K v w) (hK : "$ref" ∉ K) : refResult env v i = refResult env w i := by
  unfold refResult; rw [h.raw hK]

theorem typeOk_agree (h : Agree K v w) (h1 : "type" ∉ K) (h2 : "nullable" ∉ K) : typeOk D v i = typeOk D w i := by
  unfold typeOk; rw [h.raw h1, h.raw h2]

theorem simpleOk_agree (h : Agree K v w) (hK : ∀ k ∈ simpleKeys, k ∉ K) : simpleOk env v i = simpleOk env w i := by
  unfold simpleOk
  rw [Bool.eq_iff_iff, List.all_eq_true, List.all_eq_true]
  constructor <;> intro hh k hk <;> have := hh k hk
  · rw [← h.raw (hK k hk)]; exact this
  · rw [h.raw (hK k hk)]; exact this

theorem listResults_agree (h : Agree K v w) {k : String} (hK : k ∉ K) : listResults v i k = listResults w i k := by
  unfold listResults; rw [h.lst hK]

theorem anyOfOk_agree (h : Agree K v w) (hK : "anyOf" ∉ K) : anyOfOk v i = anyOfOk w i := by
  unfold anyOfOk; rw [h.lst hK, listResults_agree h hK]

theorem oneOfOk_agree (h : Agree K v w) (hK : "oneOf" ∉ K) : oneOfOk v i = oneOfOk w i := by
  unfold oneOfOk; rw [h.lst hK, listResults_agree h hK]

theorem notOk_agree (h : Agree K v w) (hK : "not" ∉ K) : notOk v i = notOk w i := by
  unfold notOk; rw [h.sch hK]

theorem ifResults_agree (h : Agree K v w) (hK : ∀ k ∈ ["if", "then", "else"], k ∉ K) :
    ifResults v i = ifResults w i := by
  unfold ifResults
  rw [h.sch (hK "if" (by simp)), h.sch (hK "then" (by simp)), h.sch (hK "else" (by simp))]

theorem dependentResults_agree (h : Agree K v w) (hK : "dependentSchemas" ∉ K) :
    dependentResults v i = dependentResults w i := by
  unfold dependentResults; rw [h.mp hK]

theorem ownEvaluated_agree (h : Agree K v w)
    (hK : ∀ k ∈ ["properties", "patternProperties", "additionalProperties"], k ∉ K) (k : String) :
    ownEvaluated env v k = ownEvaluated env w k := by
  unfold ownEvaluated inProperties inPatterns
  rw [h.mp (hK "properties" (by simp)), h.mp (hK "patternProperties" (by simp)),
    h.sch (hK "additionalProperties" (by simp))]

/-- The keywords of `inPlaceResults`. -/
abbrev inPlaceKeys : List String := ["$ref", "allOf", "anyOf", "oneOf", "if", "then", "else", "dependentSchemas"]

theorem inPlaceResults_agree (h : Agree K v w) (hK : ∀ k ∈ inPlaceKeys, k ∉ K) :
    inPlaceResults env v i = inPlaceResults env w i := by
  unfold inPlaceResults
  rw [refResult_agree h (hK "$ref" (by simp)), listResults_agree h (hK "allOf" (by simp)),
    listResults_agree h (hK "anyOf" (by simp)), listResults_agree h (hK "oneOf" (by simp)),
    ifResults_agree h (fun k hk => hK k ((by decide : ∀ k ∈ ["if", "then", "else"], k ∈ inPlaceKeys) k hk)),
    dependentResults_agree h (hK "dependentSchemas" (by simp))]

/-- The keywords of `memberOk`, besides `inPlaceKeys`. -/
abbrev memberKeys : List String :=
  ["properties", "patternProperties", "additionalProperties", "propertyNames", "unevaluatedProperties"]

/-- The result for a member depends on the applicators in place only through the evaluated names. -/
theorem memberOk_agree' (h : Agree K v w) (hK : ∀ k ∈ memberKeys, k ∉ K)
    (he : ∀ k, ((inPlaceResults env v i).any fun r => r.ev k) = (inPlaceResults env w i).any fun r => r.ev k)
    (e : String × Json) : memberOk D env v i e = memberOk D env w i e := by
  unfold memberOk evaluated
  rw [ownEvaluated_agree h (fun k hk =>
      hK k ((by decide : ∀ k ∈ ["properties", "patternProperties", "additionalProperties"], k ∈ memberKeys) k hk)), he]
  unfold inProperties inPatterns
  rw [h.mp (hK "properties" (by simp)), h.mp (hK "patternProperties" (by simp)),
    h.sch (hK "additionalProperties" (by simp)), h.sch (hK "propertyNames" (by simp)),
    h.sch (hK "unevaluatedProperties" (by simp))]

theorem evAfter_agree' (h : Agree K v w) (hK : ∀ k ∈ memberKeys, k ∉ K)
    (he : ∀ k, ((inPlaceResults env v i).any fun r => r.ev k) = (inPlaceResults env w i).any fun r => r.ev k) :
    evAfter D env v i = evAfter D env w i := by
  funext k
  unfold evAfter evaluated
  rw [ownEvaluated_agree h (fun k hk =>
      hK k ((by decide : ∀ k ∈ ["properties", "patternProperties", "additionalProperties"], k ∈ memberKeys) k hk)), he,
    h.sch (hK "unevaluatedProperties" (by simp))]

theorem itemsOk_agree (h : Agree K v w) (hK : ∀ k ∈ ["prefixItems", "items", "additionalItems"], k ∉ K) :
    itemsOk D v i = itemsOk D w i := by
  unfold itemsOk
  rw [h.lst (hK "prefixItems" (by simp)), h.sch (hK "items" (by simp)), h.lst (hK "items" (by simp)),
    h.sch (hK "additionalItems" (by simp))]

theorem containsOk_agree (h : Agree K v w) (hK : ∀ k ∈ ["contains", "minContains", "maxContains"], k ∉ K) :
    containsOk v i = containsOk w i := by
  unfold containsOk
  rw [h.sch (hK "contains" (by simp)), h.raw (hK "minContains" (by simp)), h.raw (hK "maxContains" (by simp))]

end

/-- Equality of `allOk`, part by part. -/
theorem allOk_congr {D D' : Dialect} {env : Env} {v w : View} {i : Json} {o : List (String × Json)}
    (href : refResult env v i = refResult env w i)
    (hts : (typeOk D v i && simpleOk env v i) = (typeOk D' w i && simpleOk env w i)) (hall : allOfOk v i = allOfOk w i)
    (hany : anyOfOk v i = anyOfOk w i) (hone : oneOfOk v i = oneOfOk w i) (hnot : notOk v i = notOk w i)
    (hif : (ifResults v i).2.ok = (ifResults w i).2.ok)
    (hdep : dependentResults v i = dependentResults w i)
    (hmem : ∀ e, memberOk D env v i e = memberOk D' env w i e)
    (hitems : itemsOk D v i = itemsOk D' w i) (hcont : containsOk v i = containsOk w i) :
    allOk D env v i o = allOk D' env w i o := by
  have : memberOk D env v i = memberOk D' env w i := funext hmem
  unfold allOk
  rw [href, hts, hall, hany, hone, hnot, hif, hdep, this, hitems, hcont]

/-- The dialects agree on the keywords of objects in place. -/
theorem memberOk_dialect {D D' : Dialect} (h : D.unevaluated = D'.unevaluated) (env : Env) (v : View) (i : Json)
    (e : String × Json) : memberOk D env v i e = memberOk D' env v i e := by
  unfold memberOk; rw [h]

theorem evAfter_dialect {D D' : Dialect} (h : D.unevaluated = D'.unevaluated) (env : Env) (v : View) (i : Json) :
    evAfter D env v i = evAfter D' env v i := by
  funext k; unfold evAfter; rw [h]

/-- Two views that differ only in `type`, `nullable`, assertions without subschemas, and the keywords of
arrays give the same result if these parts do. -/
theorem combine_congr' {K : List String} {D D' : Dialect} {env : Env} {v w : View} {i : Json}
    {o : List (String × Json)} (h : Agree K v w)
    (hK : ∀ k ∈ inPlaceKeys ++ memberKeys ++ ["not", "contains", "minContains", "maxContains"], k ∉ K)
    (hr : D.refSiblings = D'.refSiblings) (hun : D.unevaluated = D'.unevaluated)
    (hts : (typeOk D v i && simpleOk env v i) = (typeOk D' w i && simpleOk env w i))
    (hitems : itemsOk D v i = itemsOk D' w i) : combine D env v i o = combine D' env w i o := by
  have hip : ∀ k ∈ inPlaceKeys, k ∉ K := fun k hk => hK k (by simp only [List.mem_append]; exact .inl (.inl hk))
  have hme : ∀ k ∈ memberKeys, k ∉ K := fun k hk => hK k (by simp only [List.mem_append]; exact .inl (.inr hk))
  have hother : ∀ k ∈ ["not", "contains", "minContains", "maxContains"], k ∉ K :=
    fun k hk => hK k (by simp only [List.mem_append]; exact .inr hk)
  have hres : ∀ k, ((inPlaceResults env v i).any fun r => r.ev k) =
      (inPlaceResults env w i).any fun r => r.ev k := by
    intro k; rw [inPlaceResults_agree h hip]
  have href := refResult_agree (env := env) (i := i) h (hip "$ref" (by simp))
  have hall : allOk D env v i o = allOk D' env w i o := by
    refine allOk_congr href hts ?_ (anyOfOk_agree h (hip _ (by simp)))
      (oneOfOk_agree h (hip _ (by simp))) (notOk_agree h (hother _ (by simp)))
      (by rw [ifResults_agree h (fun k hk => hip k ((by decide : ∀ k ∈ ["if", "then", "else"], k ∈ inPlaceKeys) k hk))])
      (dependentResults_agree h (hip _ (by simp)))
      (fun e => (memberOk_agree' h hme hres e).trans (memberOk_dialect hun ..)) hitems
      (containsOk_agree h (fun k hk =>
        hother k ((by decide : ∀ k ∈ ["contains", "minContains", "maxContains"], k ∈ ["not", "contains", "minContains", "maxContains"]) k hk)))
    unfold allOfOk; rw [listResults_agree h (hip _ (by simp))]
  unfold combine
  rw [href, hall, hr, (evAfter_agree' h hme hres).trans (evAfter_dialect hun ..)]

theorem combine_congr {K : List String} {D D' : Dialect} {env : Env} {v w : View} {i : Json}
    {o : List (String × Json)} (h : Agree K v w)
    (hK : ∀ k ∈ inPlaceKeys ++ memberKeys ++ ["not", "contains", "minContains", "maxContains"], k ∉ K)
    (hr : D.refSiblings = D'.refSiblings) (hun : D.unevaluated = D'.unevaluated)
    (htype : typeOk D v i = typeOk D' w i) (hsimple : simpleOk env v i = simpleOk env w i)
    (hitems : itemsOk D v i = itemsOk D' w i) : combine D env v i o = combine D' env w i o :=
  combine_congr' h hK hr hun (by rw [htype, hsimple]) hitems

theorem raw_viewOf (D : Dialect) (env : Env) (m : List (String × Json)) {k : String} (hk : noRaw k = false) :
    (viewOf D env m).raw k = Obj.get m k := by
  unfold View.raw
  rw [viewOf_get]
  cases Obj.get m k <;> simp [kwOf, hk]

/-! ## Schemas that mean the same in two dialects -/

theorem sizeOf_directSub {V : Vocab} {s x : Json} (h : DirectSub V s x) : sizeOf x < sizeOf s := by
  cases h with
  | @one m k x hm _ _ =>
    have h1 := List.sizeOf_lt_of_mem hm
    simp only [Prod.mk.sizeOf_spec, Json.obj.sizeOf_spec] at *
    omega
  | @list m k l x hm _ hx _ =>
    have h1 := List.sizeOf_lt_of_mem hm
    have h2 := List.sizeOf_lt_of_mem hx
    simp only [Prod.mk.sizeOf_spec, Json.obj.sizeOf_spec, Json.arr.sizeOf_spec] at *
    omega
  | @map m k n q x hm _ hx _ =>
    have h1 := List.sizeOf_lt_of_mem hm
    have h2 := List.sizeOf_lt_of_mem hx
    simp only [Prod.mk.sizeOf_spec, Json.obj.sizeOf_spec] at *
    omega

section
variable {D D' : Dialect} {env : Env}

theorem den_id {x : Json} (h : IsSchema x → den D' env x = den D env x) : den D' env x = den D env x := by
  by_cases hx : isSchema x = true
  · exact h (isSchema_iff.1 hx)
  · funext i; rw [den_not_schema (by simpa using hx), den_not_schema (by simpa using hx)]

theorem kwOf_same {V : Vocab} {k : String} {v : Json} {m : List (String × Json)} (hm : (k, v) ∈ m)
    (hV : (k ∈ oneKeys → k ∈ V.one) ∧ (k ∈ listKeys → k ∈ V.list) ∧ (k ∈ mapKeys → k ∈ V.map))
    (h : ∀ x, DirectSub V (.obj m) x → den D' env x = den D env x) :
    kwOf D' env k v = kwOf D env k v := by
  unfold kwOf
  congr 1
  · by_cases hk : (oneKeys.contains k && schemaLike v) = true
    · rw [if_pos hk, if_pos hk]
      rw [Bool.and_eq_true] at hk
      rw [h v (.one hm (hV.1 (by simpa using hk.1)) (isSchema_iff.1 (by rw [← schemaLike_eq]; exact hk.2)))]
    · rw [if_neg hk, if_neg hk]
  · by_cases hk : listKeys.contains k = true
    · rw [if_pos hk, if_pos hk]
      cases v with
      | arr l =>
        simp only [denArr, denList_eq]
        congr 1
        apply List.map_congr_left
        intro x hx
        exact den_id (fun hs => h x (.list hm (hV.2.1 (by simpa using hk)) hx hs))
      | _ => rfl
    · rw [if_neg hk, if_neg hk]
  · by_cases hk : mapKeys.contains k = true
    · rw [if_pos hk, if_pos hk]
      cases v with
      | obj n =>
        simp only [denObj, denVals_eq]
        congr 1
        apply List.map_congr_left
        intro x hx
        rw [den_id (fun hs => h x.2 (.map hm (hV.2.2 (by simpa using hk)) hx hs))]
      | _ => rfl
    · rw [if_neg hk, if_neg hk]

/-- A schema means the same in two dialects if the rules for its keywords agree everywhere. -/
theorem den_dialect {P : Json → Prop}
    (hP : ∀ m i, P (.obj m) → combine D' env (viewOf D env m) i (others m) =
      combine D env (viewOf D env m) i (others m)) :
    ∀ s, Everywhere applied P s → den D' env s = den D env s := by
  suffices ∀ n s, sizeOf s < n → Everywhere applied P s → den D' env s = den D env s by
    intro s; exact this _ s (Nat.lt_succ_self _)
  intro n
  induction n with
  | zero => intro s hs; omega
  | succ n ih =>
    intro s hs he
    refine den_id (fun hi => ?_)
    funext i
    cases hi with
    | bool b => cases b <;> rfl
    | obj m =>
      rw [den_obj, den_obj, ← hP m i (he _ (.self _))]
      congr 1
      funext k
      unfold viewOf
      cases hg : Obj.get m k with
      | none => rfl
      | some v =>
        simp only [Option.map_some]
        congr 1
        refine kwOf_same (V := applied) (Obj.get_mem hg) ⟨id, id, id⟩ (fun x hx => ?_)
        exact ih x (by have := sizeOf_directSub hx; omega) (fun y hy => he y (.step hx hy))

theorem unvisitedSame {m : List (String × Json)}
    (h : ∀ x, DirectSub skipped (.obj m) x → den D' env x = den D env x) : UnvisitedSame D D' env m := by
  intro k v hk hg
  refine kwOf_same (V := skipped) (Obj.get_mem hg) ?_ h
  clear hg h
  revert k
  decide

theorem unvisitedSame_rfl (m : List (String × Json)) : UnvisitedSame D D env m := fun _ _ _ _ => rfl

end

end Verif
