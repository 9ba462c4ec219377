import Verif.Props.Uneval
import Verif.Lemmas.SemEval
import Verif.Lemmas.Resolve

/-!
# C21: ReplaceUnevaluatedProperties does not reject what was valid

References may lead to schemas that are transformed too: before the transform they are judged by `env`, after it by an
environment that accepts more.
-/

namespace Verif
open Spec

namespace Spec

/-- C21, the claim about validity: every instance that is valid before is valid after. It fails, see
`C21_valid_Full_false`. -/
def C21_valid_Full : Prop :=
  ∀ (D : Dialect) (env : Env) (s i : Json), D.refSiblings = true → D.unevaluated = true → IsSchema s →
    Valid D env s i → Valid D env (replaceUneval s) i

/-- The schema has no `unevaluatedProperties` anywhere, and its references are judged in the same way. -/
def Rigid (env : Env) (f : String → Json → R) (s : Json) : Prop :=
  Everywhere standard (fun x => ¬ HasKey "unevaluatedProperties" x ∧
    ∀ m r, x = .obj m → Obj.get m "$ref" = some (.str r) → env.ref r = f r) s

/-- The properties that the schema evaluates are those in its own `properties`, or evaluated by in-place subschemas. -/
def NamesOnly (s : Json) : Prop := ∀ m, s = .obj m →
  Obj.get m "$ref" = none ∧ Obj.get m "patternProperties" = none ∧ Obj.get m "dependentSchemas" = none ∧
    (∀ v, Obj.get m "additionalProperties" = some v → v = .bool false) ∧
    ∀ v, Obj.get m "unevaluatedProperties" = some v → v = .bool false

/-- The keywords whose subschemas must not accept more than before. -/
def rigid : Vocab := ⟨["not", "if"], ["oneOf"], ["dependentSchemas"]⟩

/-- The conditions on a schema and each subschema. -/
structure Loosens (env : Env) (f : String → Json → R) (m : List (String × Json)) : Prop where
  rigid : ∀ x, DirectSub rigid (.obj m) x → Rigid env f x
  contains : HasKey "maxContains" (.obj m) → ∀ x, DirectSub ⟨["contains"], [], []⟩ (.obj m) x → Rigid env f x
  flat : ∀ up, Obj.get m "unevaluatedProperties" = some up →
    Everywhere visited (fun x => ¬ HasKey "unevaluatedProperties" x) up
  open' : ∀ up, Obj.get m "unevaluatedProperties" = some up → Obj.get m "additionalProperties" = none
  props : ∀ up, Obj.get m "unevaluatedProperties" = some up →
    ∀ v, Obj.get m "properties" = some v → ∃ p, v = .obj p
  named : ∀ up, Obj.get m "unevaluatedProperties" = some up →
    Obj.get m "$ref" = none ∧ Obj.get m "dependentSchemas" = none ∧
      ∀ x, DirectSub inPlace (.obj m) x → Everywhere inPlace NamesOnly x

/-- What schemars visits, and `unevaluatedProperties`. -/
def visitedUneval : Vocab := ⟨"unevaluatedProperties" :: visited.one, visited.list, visited.map⟩

end Spec

section
variable {D : Dialect} {env : Env} {f : String → Json → R}

/-! ### References -/

/-- A schema means the same in two environments that agree on its references. -/
theorem den_refs : ∀ s, Everywhere applied (fun x => ∀ m r, x = .obj m → Obj.get m "$ref" = some (.str r) →
    env.ref r = f r) s → den D (env.withRef f) s = den D env s := by
  suffices ∀ n s, sizeOf s < n → Everywhere applied (fun x => ∀ m r, x = .obj m → Obj.get m "$ref" = some (.str r) →
      env.ref r = f r) s → den D (env.withRef f) s = den D env s by
    intro s; exact this _ s (Nat.lt_succ_self _)
  intro n
  induction n with
  | zero => intro s hs; omega
  | succ n ih =>
    intro s hs he
    funext i
    cases s with
    | bool b => cases b <;> rfl
    | obj m =>
      have key : ∀ y, DirectSub applied (.obj m) y → den D (env.withRef f) y = den D env y := fun y hy =>
        ih y (by have := sizeOf_directSub hy; omega) fun z hz => he z (.step hy hz)
      have key' : ∀ y, (IsSchema y → DirectSub applied (.obj m) y) → den D (env.withRef f) y = den D env y := by
        intro y h
        by_cases hy : isSchema y = true
        · exact key y (h (isSchema_iff.1 hy))
        · funext i; rw [den_not_schema (by simpa using hy), den_not_schema (by simpa using hy)]
      have hview : viewOf D (env.withRef f) m = viewOf D env m := by
        funext k
        unfold viewOf
        cases hg : Obj.get m k with
        | none => rfl
        | some v =>
          have hmem := Obj.get_mem hg
          simp only [Option.map_some]
          congr 1
          unfold kwOf
          simp only [KW.mk.injEq, true_and]
          refine ⟨?_, ?_, ?_⟩
          · by_cases hk : (oneKeys.contains k && schemaLike v) = true
            · rw [if_pos hk, if_pos hk]
              rw [Bool.and_eq_true] at hk
              rw [key v (.one hmem (List.elem_iff.1 hk.1) (isSchema_iff.1 (by rw [← schemaLike_eq]; exact hk.2)))]
            · rw [if_neg hk, if_neg hk]
          · by_cases hk : listKeys.contains k = true
            · rw [if_pos hk, if_pos hk]
              cases v with
              | arr l =>
                simp only [denArr, denList_eq]
                congr 1
                exact List.map_congr_left fun y hy => key' y (.list hmem (List.elem_iff.1 hk) hy)
              | _ => rfl
            · rw [if_neg hk, if_neg hk]
          · by_cases hk : mapKeys.contains k = true
            · rw [if_pos hk, if_pos hk]
              cases v with
              | obj l =>
                simp only [denObj, denVals_eq]
                congr 1
                exact List.map_congr_left fun y hy => by rw [key' y.2 (.map hmem (List.elem_iff.1 hk) hy)]
              | _ => rfl
            · rw [if_neg hk, if_neg hk]
      rw [den_obj, den_obj, hview]
      have href : refResult (env.withRef f) (viewOf D env m) i = refResult env (viewOf D env m) i := by
        unfold refResult
        rw [raw_viewOf D _ _ (by decide)]
        split
        · next r hr => simp only [Env.withRef, he _ (.self _) m r rfl hr]
        · rfl
      generalize viewOf D env m = v at href ⊢
      have hin : inPlaceResults (env.withRef f) v i = inPlaceResults env v i := by
        unfold inPlaceResults; rw [href]
      have hev : ∀ q, evaluated (env.withRef f) v i q = evaluated env v i q := by
        intro q; unfold evaluated; rw [hin]; rfl
      have hmo : memberOk D (env.withRef f) v i = memberOk D env v i := by
        funext e; unfold memberOk; rw [hev]; rfl
      have hall : allOk D (env.withRef f) v i (others m) = allOk D env v i (others m) := by
        unfold allOk; rw [href, hmo]; rfl
      have hea : evAfter D (env.withRef f) v i = evAfter D env v i := by
        funext q; unfold evAfter; rw [hev]
      unfold combine
      rw [href, hall, hea]
    | _ => rfl

theorem directSub_mono {V W : Vocab} (h1 : ∀ k ∈ V.one, k ∈ W.one) (h2 : ∀ k ∈ V.list, k ∈ W.list)
    (h3 : ∀ k ∈ V.map, k ∈ W.map) {s x : Json} (h : DirectSub V s x) : DirectSub W s x := by
  cases h with
  | one a b c => exact .one a (h1 _ b) c
  | list a b c d => exact .list a (h2 _ b) c d
  | map a b c d => exact .map a (h3 _ b) c d

theorem reach_mono {V W : Vocab} (h1 : ∀ k ∈ V.one, k ∈ W.one) (h2 : ∀ k ∈ V.list, k ∈ W.list)
    (h3 : ∀ k ∈ V.map, k ∈ W.map) {s x : Json} (h : Reach V s x) : Reach W s x := by
  induction h with
  | self => exact .self _
  | step hd _ ih => exact .step (directSub_mono h1 h2 h3 hd) ih

/-- The transform leaves a schema without `unevaluatedProperties` alone. -/
theorem replaceUneval_same {s : Json} (hs : IsSchema s)
    (h : Everywhere visited (fun x => ¬ HasKey "unevaluatedProperties" x) s) : replaceUneval s = s := by
  refine postOrder_fix s hs fun x hx => ?_
  have := h x hx
  cases x with
  | obj m => exact replaceUnevalLocal_fix (get_none_of_not_hasKey this)
  | _ => rfl

theorem den_rigid {s : Json} (hs : IsSchema s) (h : Rigid env f s) :
    den D (env.withRef f) (replaceUneval s) = den D env s := by
  rw [replaceUneval_same hs fun x hx => (h x (reach_mono (by decide) (by decide) (by decide) hx)).1]
  exact den_refs s fun x hx => (h x (reach_mono (by decide) (by decide) (by decide) hx)).2

/-! ### What is evaluated -/

theorem evaluated_cases {m : List (String × Json)} {i : Json} {k : String} (hr : Obj.get m "$ref" = none)
    (hd : Obj.get m "dependentSchemas" = none) (h : evaluated env (viewOf D env m) i k = true) :
    Named env m k ∨ (∃ v, Obj.get m "additionalProperties" = some v) ∨
      ∃ x, DirectSub inPlace (.obj m) x ∧ (den D env x i).ev k = true := by
  unfold evaluated ownEvaluated at h
  rw [Bool.and_eq_true, Bool.or_eq_true, Bool.or_eq_true, named_iff] at h
  rcases h.2 with (h | h) | h
  · exact .inl h
  · rw [sch_viewOf D env m (by decide)] at h
    cases hg : Obj.get m "additionalProperties" with
    | none => rw [hg] at h; cases h
    | some v => exact .inr (.inl ⟨v, rfl⟩)
  · right; right
    have hden : ∀ x, (den D env x i).ev k = true → IsSchema x := by
      intro x hx
      by_contra hn
      rw [den_not_schema (by rw [← Bool.not_eq_true, isSchema_iff]; exact hn)] at hx
      exact absurd hx (by simp [R.pass])
    have hlist : ∀ q, q ∈ inPlace.list → (∃ r ∈ listResults (viewOf D env m) i q, r.ev k = true) →
        ∃ x, DirectSub inPlace (.obj m) x ∧ (den D env x i).ev k = true := by
      rintro q hq ⟨r, hr, he⟩
      rw [listOk_iff ((by decide : ∀ q ∈ inPlace.list, listKeys.contains q = true) q hq), List.mem_map] at hr
      obtain ⟨x, hx, rfl⟩ := hr
      cases hg : Obj.get m q with
      | none => rw [hg] at hx; simp [elems] at hx
      | some v =>
        rw [hg] at hx
        cases v with
        | arr l => exact ⟨x, .list (Obj.get_mem hg) hq hx (hden x he), he⟩
        | _ => simp [elems] at hx
    have hone : ∀ q, q ∈ inPlace.one → ∀ s, (viewOf D env m).sch q = some s → (s i).ev k = true →
        ∃ x, DirectSub inPlace (.obj m) x ∧ (den D env x i).ev k = true := by
      intro q hq s hs he
      rw [sch_viewOf D env m ((by decide : ∀ q ∈ inPlace.one, oneKeys.contains q = true) q hq)] at hs
      cases hg : Obj.get m q with
      | none => rw [hg] at hs; cases hs
      | some v =>
        rw [hg, Option.bind_some] at hs
        split at hs
        · cases hs; exact ⟨v, .one (Obj.get_mem hg) hq (hden v he), he⟩
        · cases hs
    rw [List.any_eq_true] at h
    obtain ⟨r, hm, he⟩ := h
    unfold inPlaceResults at hm
    rw [refResult_viewNone hr] at hm
    simp only [Option.toList_none, List.nil_append, List.mem_append, List.mem_cons, List.not_mem_nil, or_false] at hm
    rcases hm with (((hm | hm) | hm) | hm) | hm
    · exact hlist "allOf" (by decide) ⟨r, hm, he⟩
    · exact hlist "anyOf" (by decide) ⟨r, hm, he⟩
    · exact hlist "oneOf" (by decide) ⟨r, hm, he⟩
    · unfold ifResults at hm
      cases hi : (viewOf D env m).sch "if" with
      | none =>
        rw [hi] at hm
        simp only [or_self] at hm
        rw [hm] at he
        exact absurd he (by simp [R.pass])
      | some s =>
        rw [hi] at hm
        simp only at hm
        rcases hm with hm | hm
        · rw [hm] at he; exact hone "if" (by decide) s hi he
        · by_cases hs : (s i).ok = true
          · rw [if_pos hs] at hm
            cases ht : (viewOf D env m).sch "then" with
            | none => rw [ht] at hm; rw [hm] at he; exact absurd he (by simp [R.pass])
            | some t => rw [ht] at hm; rw [hm] at he; exact hone "then" (by decide) t ht he
          · rw [if_neg hs] at hm
            cases ht : (viewOf D env m).sch "else" with
            | none => rw [ht] at hm; rw [hm] at he; exact absurd he (by simp [R.pass])
            | some t => rw [ht] at hm; rw [hm] at he; exact hone "else" (by decide) t ht he
    · unfold dependentResults at hm
      rw [mp_viewOf D env m (by decide), memb_none m hd] at hm
      simp at hm

theorem names_of_named {m : List (String × Json)} {k : String} (h : Obj.has (memb m "properties") k = true) :
    Names k (.obj m) := by
  cases hg : Obj.get m "properties" with
  | none => rw [memb_none m hg] at h; simp [Obj.has, Obj.get] at h
  | some v =>
    rw [memb_some m hg] at h
    cases v with
    | obj p =>
      refine ⟨_, m, p, .self _, rfl, hg, ?_⟩
      rw [Obj.mem_keys]
      unfold Obj.has at h
      cases hk : Obj.get (members (.obj p)) k with
      | none => rw [hk] at h; cases h
      | some w => exact ⟨w, hk⟩
    | _ => simp [members, Obj.has] at h

theorem names_step {s x : Json} {k : String} (h : DirectSub inPlace s x) (hn : Names k x) : Names k s := by
  obtain ⟨y, m, p, hr, h1, h2, h3⟩ := hn
  exact ⟨y, m, p, .step h hr, h1, h2, h3⟩

/-- A schema whose in-place subschemas only use names evaluates only what it names. -/
theorem ev_named (hD : D.refSiblings = true) (hU : D.unevaluated = true) (i : Json) (k : String) :
    ∀ s, Everywhere inPlace NamesOnly s → (den D env s i).ev k = true → Names k s := by
  suffices ∀ n s, sizeOf s < n → Everywhere inPlace NamesOnly s → (den D env s i).ev k = true → Names k s by
    intro s; exact this _ s (Nat.lt_succ_self _)
  intro n
  induction n with
  | zero => intro s hs; omega
  | succ n ih =>
    intro s hs he hev
    cases s with
    | obj m =>
      obtain ⟨h1, h2, h3, h4, h5⟩ := he _ (.self _) m rfl
      rw [den_obj_allOk (.inl hD)] at hev
      split at hev
      · next hok =>
        have ho := objOk_iff.1 hok
        have hnamed : Named env m k → Names k (.obj m) := by
          rintro (h | ⟨p, hp, _⟩)
          · exact names_of_named h
          · rw [memb_none m h2] at hp; cases hp
        have hmem : Obj.has (members i) k = true → ∃ v, (k, v) ∈ members i := by
          intro h
          unfold Obj.has at h
          cases hg : Obj.get (members i) k with
          | none => rw [hg] at h; cases h
          | some v => exact ⟨v, Obj.get_mem hg⟩
        have hevd : evaluated env (viewOf D env m) i k = true := by
          by_contra hn
          rw [Bool.not_eq_true] at hn
          simp only [evAfter, hn, Bool.false_or, Bool.and_eq_true] at hev
          obtain ⟨⟨ha, _⟩, hb⟩ := hev
          obtain ⟨v, hv⟩ := hmem ha
          rw [sch_viewOf D env m (by decide)] at hb
          cases hg : Obj.get m "unevaluatedProperties" with
          | none => rw [hg] at hb; cases hb
          | some w =>
            have hw := h5 w hg
            subst hw
            exact absurd (ho.unevaluated _ hg hU _ hv hn) (by simp [Valid, den, R.fail])
        rcases evaluated_cases h1 h3 hevd with h | ⟨v, hg⟩ | ⟨x, hx, hxe⟩
        · exact hnamed h
        · have hv := h4 v hg
          subst hv
          have ha : Obj.has (members i) k = true := by
            unfold evaluated at hevd; rw [Bool.and_eq_true] at hevd; exact hevd.1
          obtain ⟨w, hw⟩ := hmem ha
          by_cases hnm : Named env m k
          · exact hnamed hnm
          · exact absurd (ho.additional _ hg _ hw hnm) (by simp [Valid, den, R.fail])
        · exact names_step hx (ih x (by have := sizeOf_directSub hx; omega) (fun z hz => he z (.step hx hz)) hxe)
      · exact absurd hev (by simp [R.fail])
    | bool b => cases b <;> exact absurd hev (by simp [den, R.pass, R.fail])
    | _ => exact absurd hev (by simp [den, R.pass])

/-! ### The result of the transform -/

/-- The keywords that the transform may set. -/
def unevalKeys : List String := ["unevaluatedProperties", "additionalProperties", "properties"]

theorem get_unevalMembers {m : List (String × Json)} {up : Json} {k : String} (hk : k ∉ unevalKeys) :
    Obj.get (unevalMembers m up) k = Obj.get m k := by
  simp only [unevalKeys, List.mem_cons, List.not_mem_nil, or_false, not_or] at hk
  have h2 : Obj.get (Obj.insert (Obj.remove m "unevaluatedProperties") "additionalProperties" up) k = Obj.get m k := by
    rw [Obj.get_insert_ne _ _ (Ne.symm hk.2.1), Obj.get_remove_ne _ (Ne.symm hk.1)]
  unfold unevalMembers
  simp only
  split
  · exact h2
  · split
    · rw [Obj.get_insert_ne _ _ (Ne.symm hk.2.2), h2]
    · rw [Obj.get_insert_ne _ _ (Ne.symm hk.2.2), h2]
    · exact h2

theorem get_unevalMembers_additional (m : List (String × Json)) (up : Json) :
    Obj.get (unevalMembers m up) "additionalProperties" = some up := by
  have h2 : Obj.get (Obj.insert (Obj.remove m "unevaluatedProperties") "additionalProperties" up)
      "additionalProperties" = some up := Obj.get_insert_self _ _ _
  unfold unevalMembers
  simp only
  split
  · exact h2
  · split
    · rw [Obj.get_insert_ne _ _ (by decide), h2]
    · rw [Obj.get_insert_ne _ _ (by decide), h2]
    · exact h2

theorem get_unevalMembers_uneval (m : List (String × Json)) (up : Json) :
    Obj.get (unevalMembers m up) "unevaluatedProperties" = none := by
  have h2 : Obj.get (Obj.insert (Obj.remove m "unevaluatedProperties") "additionalProperties" up)
      "unevaluatedProperties" = none := by
    rw [Obj.get_insert_ne _ _ (by decide), Obj.get_remove_self]
  unfold unevalMembers
  simp only
  split
  · exact h2
  · split
    · rw [Obj.get_insert_ne _ _ (by decide), h2]
    · rw [Obj.get_insert_ne _ _ (by decide), h2]
    · exact h2

theorem get_unevalMembers_properties {m : List (String × Json)} {up v s : Json} {q : String}
    (h : Obj.get (unevalMembers m up) "properties" = some v) (hq : Obj.get (members v) q = some s) :
    s = .bool true ∨ ∃ w, Obj.get m "properties" = some w ∧ Obj.get (members w) q = some s := by
  have hg : Obj.get (Obj.insert (Obj.remove m "unevaluatedProperties") "additionalProperties" up) "properties" =
      Obj.get m "properties" := by rw [Obj.get_insert_ne _ _ (by decide), Obj.get_remove_ne _ (by decide)]
  have hval : ∀ (names : List String) (p0 : List (String × Json)), Obj.get (names.foldl entryOrTrue p0) q = some s →
      s = .bool true ∨ Obj.get p0 q = some s := by
    intro names p0 hv
    rw [get_foldl_entryOrTrue] at hv
    cases h : Obj.get p0 q with
    | some w => rw [h] at hv; exact .inr hv
    | none =>
      rw [h] at hv
      by_cases hq : q ∈ names
      · simp [hq] at hv; exact .inl hv.symm
      · simp [hq] at hv
  unfold unevalMembers at h
  simp only at h
  split at h
  · rw [hg] at h; exact .inr ⟨v, h, hq⟩
  · split at h
    · rw [Obj.get_insert_self] at h
      cases h
      rcases hval _ _ hq with h | h
      · exact .inl h
      · cases h
    · next p hp =>
      rw [Obj.get_insert_self] at h
      cases h
      rcases hval _ _ hq with h | h
      · exact .inl h
      · rw [hg] at hp; exact .inr ⟨_, hp, h⟩
    · rw [hg] at h; exact .inr ⟨v, h, hq⟩

theorem others_unevalMembers (m : List (String × Json)) (up : Json) : others (unevalMembers m up) = others m := by
  have h2 : others (Obj.insert (Obj.remove m "unevaluatedProperties") "additionalProperties" up) = others m := by
    rw [others_insert (by decide), others_remove (by decide)]
  unfold unevalMembers
  simp only
  split
  · exact h2
  · split
    · rw [others_insert (by decide), h2]
    · rw [others_insert (by decide), h2]
    · exact h2

/-- What the transform makes of the members of a schema. -/
structure UnevalResult (m m' : List (String × Json)) : Prop where
  same : ∀ k, k ∉ unevalKeys → Obj.get m' k = (Obj.get m k).map (atSlot replaceUneval (subSlot k))
  others : others m' = others m
  none : Obj.get m' "unevaluatedProperties" = none
  properties : ∀ v, Obj.get m' "properties" = some v → ∀ q s, Obj.get (members v) q = some s → s = .bool true ∨
    ∃ p w, Obj.get m "properties" = some (.obj p) ∧ Obj.get p q = some w ∧ s = atSchema replaceUneval w
  without : Obj.get m "unevaluatedProperties" = Option.none →
    ∀ k, k ∈ ["additionalProperties", "properties"] → Obj.get m' k = (Obj.get m k).map (atSlot replaceUneval (subSlot k))
  additional : ∀ up, Obj.get m "unevaluatedProperties" = some up → Obj.get m' "additionalProperties" = some up

theorem members_atSlot_map (T : Json → Json) (w : Json) :
    members (atSlot T .map w) = (members w).map fun e => (e.1, atSchema T e.2) := by
  cases w <;> rfl

theorem properties_entryMap {m : List (String × Json)} {v s : Json} {q : String} {T : Json → Json}
    (h : Obj.get (m.map (entryMap subSlot T)) "properties" = some v) (hq : Obj.get (members v) q = some s) :
    ∃ p w, Obj.get m "properties" = some (.obj p) ∧ Obj.get p q = some w ∧ s = atSchema T w := by
  rw [get_entryMap] at h
  cases hg : Obj.get m "properties" with
  | none => rw [hg] at h; cases h
  | some w =>
    rw [hg, show subSlot "properties" = .map by decide] at h
    cases h
    rw [members_atSlot_map, Obj.get_map (members w) (fun _ v => atSchema T v)] at hq
    cases w with
    | obj p =>
      cases hp : Obj.get p q with
      | none => simp only [members, hp] at hq; cases hq
      | some x => simp only [members, hp] at hq; cases hq; exact ⟨p, x, rfl, hp, rfl⟩
    | _ => simp [members] at hq

theorem unevalResult (m : List (String × Json)) :
    ∃ m', replaceUneval (.obj m) = .obj m' ∧ UnevalResult m m' := by
  rw [replaceUneval_eq (.obj m), replaceUnevalStep, tsub_obj, replaceUnevalLocal_obj,
    get_entryMap_skip m (by decide)]
  cases hup : Obj.get m "unevaluatedProperties" with
  | none =>
    simp only
    have hn : Obj.get (m.map (entryMap subSlot replaceUneval)) "unevaluatedProperties" = none := by
      rw [get_entryMap_skip m (by decide), hup]
    rw [Obj.remove_of_get_none hn]
    refine ⟨_, rfl, fun k _ => get_entryMap m k, others_tsub m, hn, ?_, fun _ k _ => get_entryMap m k,
      fun up h => by rw [hup] at h; cases h⟩
    intro v hv q s hs
    exact .inr (properties_entryMap hv hs)
  | some up =>
    simp only
    refine ⟨_, rfl, fun k hk => by rw [get_unevalMembers hk, get_entryMap m k],
      by rw [others_unevalMembers, others_tsub], get_unevalMembers_uneval _ _, ?_,
      fun h => (by rw [hup] at h; cases h),
      fun up' h => by rw [hup] at h; cases h; exact get_unevalMembers_additional _ _⟩
    intro v hv q s hs
    rcases get_unevalMembers_properties hv hs with h | ⟨w, h1, h2⟩
    · exact .inl h
    · exact .inr (properties_entryMap h1 h2)

/-! ### Validity -/

/-- C21, the claim about validity: the result accepts every instance that the schema accepts, if `Loosens` holds for
the schema and its subschemas. -/
theorem C21_valid_partial (hD : D.refSiblings = true) (hU : D.unevaluated = true)
    (hf : ∀ r i, (env.ref r i).ok = true → (f r i).ok = true) :
    ∀ s, IsSchema s → Everywhere visitedUneval (fun x => ∀ m, x = .obj m → Loosens env f m) s → ∀ i,
      Valid D env s i → Valid D (env.withRef f) (replaceUneval s) i := by
  suffices ∀ n s, sizeOf s < n → IsSchema s →
      Everywhere visitedUneval (fun x => ∀ m, x = .obj m → Loosens env f m) s → ∀ i,
      Valid D env s i → Valid D (env.withRef f) (replaceUneval s) i by
    intro s; exact this _ s (Nat.lt_succ_self _)
  intro n
  induction n with
  | zero => intro s hs; omega
  | succ n ih =>
    intro s hs hi he i hv
    cases hi with
    | bool b => cases b <;> exact hv
    | obj m =>
      have hl := he _ (.self _) m rfl
      have hT : Preserves replaceUneval := postOrder_preserves replaceUnevalLocal_preserves
      have ihd : ∀ y, DirectSub visitedUneval (.obj m) y → ∀ i, Valid D env y i →
          Valid D (env.withRef f) (replaceUneval y) i := fun y hy =>
        ih y (by have := sizeOf_directSub hy; omega) (by cases hy <;> assumption) fun z hz => he z (.step hy hz)
      have hnot : ∀ (e : Env) x, isSchema x = false → ∀ i, Valid D e x i := by
        intro e x hx i; unfold Valid; rw [den_not_schema hx]; rfl
      have hat : ∀ y, (IsSchema y → DirectSub visited (.obj m) y) → ∀ i, Valid D env y i →
          Valid D (env.withRef f) (atSchema replaceUneval y) i := by
        intro y hy i hv
        unfold atSchema
        split
        · next h => exact ihd y (directSub_mono (by decide) (by decide) (by decide) (hy (isSchema_iff.1 h))) i hv
        · next h => exact hnot _ y (by simpa using h) i
      have hrig : ∀ y, (IsSchema y → Rigid env f y) →
          den D (env.withRef f) (atSchema replaceUneval y) = den D env y := by
        intro y hy
        unfold atSchema
        split
        · next h => exact den_rigid (isSchema_iff.1 h) (hy (isSchema_iff.1 h))
        · next h => funext i; rw [den_not_schema (by simpa using h), den_not_schema (by simpa using h)]
      have hone : ∀ {k v}, Obj.get m k = some v → k ∈ visited.one → ∀ i, Valid D env v i →
          Valid D (env.withRef f) (atSchema replaceUneval v) i := fun hg hk =>
        hat _ fun hs => .one (Obj.get_mem hg) hk hs
      have hlist : ∀ {k l}, Obj.get m k = some (.arr l) → k ∈ visited.list → ∀ y ∈ l, ∀ i, Valid D env y i →
          Valid D (env.withRef f) (atSchema replaceUneval y) i := fun hg hk y hy =>
        hat _ fun hs => .list (Obj.get_mem hg) hk hy hs
      have hmap : ∀ {k p}, Obj.get m k = some (.obj p) → k ∈ visited.map → ∀ e ∈ p, ∀ i, Valid D env e.2 i →
          Valid D (env.withRef f) (atSchema replaceUneval e.2) i := fun hg hk e he =>
        hat _ fun hs => .map (q := e.1) (Obj.get_mem hg) hk he hs
      rw [valid_objOk (.inl hD)] at hv
      obtain ⟨m', hm', hr⟩ := unevalResult m
      rw [hm', valid_objOk (.inl hD)]
      have hkeep : ∀ {k v}, k ∉ unevalKeys → Obj.get m' k = some v →
          ∃ w, Obj.get m k = some w ∧ v = atSlot replaceUneval (subSlot k) w := by
        intro k v hk hg
        rw [hr.same k hk] at hg
        cases hw : Obj.get m k with
        | none => rw [hw] at hg; cases hg
        | some w => rw [hw] at hg; cases hg; exact ⟨w, rfl, rfl⟩
      have hskip : ∀ {k}, k ∉ unevalKeys → subSlot k = .skip → Obj.get m' k = Obj.get m k := by
        intro k hk hs
        rw [hr.same k hk, hs]
        cases Obj.get m k with
        | none => rfl
        | some w => rw [Option.map_some, atSlot_skip]
      have hpat : ∀ e, e ∈ memb m "patternProperties" →
          (e.1, atSchema replaceUneval e.2) ∈ memb m' "patternProperties" := by
        intro e he
        cases hg : Obj.get m "patternProperties" with
        | none => rw [memb_none m hg] at he; cases he
        | some v =>
          rw [memb_some m hg] at he
          have : Obj.get m' "patternProperties" = some (atSlot replaceUneval .map v) := by
            rw [hr.same _ (by decide), hg]; rfl
          rw [memb_some m' this, members_atSlot_map]
          exact List.mem_map.2 ⟨e, he, rfl⟩
      have hhas : ∀ {p : List (String × Json)} {k}, k ∈ Obj.keys p → Obj.has p k = true := by
        intro p k h
        obtain ⟨v, hv⟩ := Obj.mem_keys.1 h
        unfold Obj.has; rw [hv]; rfl
      refine ⟨?_, ?_, ?_, ?_, ?_, ?_, ?_, ?_, ?_, ?_, ?_, ?_, ?_, ?_, ?_, ?_, ?_, ?_, ?_⟩
      · intro r hg
        rw [hskip (by decide) (by decide)] at hg
        exact hf r i (hv.ref r hg)
      · intro t hg
        rw [hskip (by decide) (by decide)] at hg
        have := hv.type t hg
        simp only [EntryOk] at this ⊢
        rwa [hskip (by decide) (by decide)]
      · intro k hk v hg
        have h1 : k ∉ unevalKeys ∧ subSlot k = .skip := by
          revert hk; exact (by decide : ∀ k ∈ simpleKeys, k ∉ unevalKeys ∧ subSlot k = .skip) k
        rw [hskip h1.1 h1.2] at hg
        exact hv.simple k hk v hg
      · -- allOf
        intro v hg
        obtain ⟨w, hw, rfl⟩ := hkeep (by decide) hg
        have := hv.allOf w hw
        rw [show subSlot "allOf" = .list by decide]
        cases w with
        | arr l =>
          simp only [EntryOk, atSlot, elems, List.mem_map] at this ⊢
          rintro _ ⟨x, hx, rfl⟩
          exact hlist hw (by decide) x hx i (this x hx)
        | _ => simp [EntryOk, atSlot, elems]
      · -- anyOf
        intro v hg
        obtain ⟨w, hw, rfl⟩ := hkeep (by decide) hg
        have := hv.anyOf w hw
        rw [show subSlot "anyOf" = .list by decide]
        cases w with
        | arr l =>
          simp only [EntryOk, atSlot, List.mem_map] at this ⊢
          obtain ⟨x, hx, h⟩ := this
          exact ⟨_, ⟨x, hx, rfl⟩, hlist hw (by decide) x hx i h⟩
        | _ => simp [EntryOk, atSlot]
      · -- oneOf
        intro v hg
        obtain ⟨w, hw, rfl⟩ := hkeep (by decide) hg
        have := hv.oneOf w hw
        rw [show subSlot "oneOf" = .list by decide]
        cases w with
        | arr l =>
          simp only [EntryOk, atSlot, List.countP_map] at this ⊢
          rw [← this]
          refine List.countP_congr fun x hx => ?_
          simp only [Function.comp_apply]
          rw [hrig x fun hs => hl.rigid x (.list (Obj.get_mem hw) (by decide) hx hs)]
        | _ => simp [EntryOk, atSlot]
      · -- not
        intro v hg
        obtain ⟨w, hw, rfl⟩ := hkeep (by decide) hg
        have := hv.not w hw
        rw [show subSlot "not" = .one by decide]
        simp only [EntryOk, atSlot, schemaLike_atSchema hT] at this ⊢
        intro hs
        unfold Valid
        rw [hrig w fun hs => hl.rigid w (.one (Obj.get_mem hw) (by decide) hs)]
        exact this hs
      · -- if
        intro v hg
        obtain ⟨w, hw, rfl⟩ := hkeep (by decide) hg
        have := hv.cond w hw
        rw [show subSlot "if" = .one by decide]
        simp only [EntryOk, atSlot, schemaLike_atSchema hT] at this ⊢
        intro hs
        unfold Valid
        rw [hrig w fun hs => hl.rigid w (.one (Obj.get_mem hw) (by decide) hs)]
        obtain ⟨h1, h2⟩ := this hs
        refine ⟨fun h t ht => ?_, fun h t ht => ?_⟩
        · obtain ⟨t', ht', rfl⟩ := hkeep (by decide) ht
          rw [show subSlot "then" = .one by decide]
          exact hone ht' (by decide) i (h1 h t' ht')
        · obtain ⟨t', ht', rfl⟩ := hkeep (by decide) ht
          rw [show subSlot "else" = .one by decide]
          exact hone ht' (by decide) i (h2 h t' ht')
      · -- dependentSchemas
        intro v hg
        rw [hskip (by decide) (by decide)] at hg
        have := hv.dependent v hg
        simp only [EntryOk] at this ⊢
        intro e he hh
        by_cases hs : isSchema e.2 = true
        · have hrg : Rigid env f e.2 := by
            cases v with
            | obj p => exact hl.rigid e.2 (.map (q := e.1) (Obj.get_mem hg) (by decide) he (isSchema_iff.1 hs))
            | _ => cases he
          unfold Valid
          rw [den_refs e.2 fun x hx => (hrg x (reach_mono (by decide) (by decide) (by decide) hx)).2]
          exact this e he hh
        · exact hnot _ _ (by simpa using hs) i
      · -- properties
        intro v hg
        simp only [EntryOk]
        intro e he s hs
        rcases hr.properties v hg e.1 s hs with rfl | ⟨p, w, hp, hw, rfl⟩
        · rfl
        · exact hmap hp (by decide) (e.1, w) (Obj.get_mem hw) _ (hv.properties _ hp e he w hw)
      · -- patternProperties
        intro v hg
        obtain ⟨w, hw, rfl⟩ := hkeep (by decide) hg
        have := hv.patterns w hw
        rw [show subSlot "patternProperties" = .map by decide]
        simp only [EntryOk, members_atSlot_map, List.mem_map] at this ⊢
        rintro e he _ ⟨p, hp, rfl⟩ hx
        cases w with
        | obj o => exact hmap hw (by decide) p hp _ (this e he p hp hx)
        | _ => cases hp
      · -- additionalProperties
        intro v hg
        simp only [EntryOk]
        intro e hei hnm
        cases hup : Obj.get m "unevaluatedProperties" with
        | none =>
          rw [hr.without hup _ (by decide)] at hg
          cases hw : Obj.get m "additionalProperties" with
          | none => rw [hw] at hg; cases hg
          | some w =>
            rw [hw, show subSlot "additionalProperties" = .one by decide] at hg
            cases hg
            refine hone hw (by decide) _ (hv.additional w hw e hei ?_)
            rintro (h | ⟨p, hp, hx⟩)
            · apply hnm
              left
              cases hq : Obj.get m "properties" with
              | none => rw [memb_none m hq] at h; simp [Obj.has, Obj.get] at h
              | some u =>
                have hq' : Obj.get m' "properties" = some (atSlot replaceUneval .map u) := by
                  rw [hr.without hup _ (by decide), hq]; rfl
                rw [memb_some m hq] at h
                rw [memb_some m' hq', members_atSlot_map]
                unfold Obj.has at h ⊢
                rw [Obj.get_map (members u) (fun _ v => atSchema replaceUneval v)]
                cases hz : Obj.get (members u) e.1 with
                | none => rw [hz] at h; cases h
                | some z => rfl
            · exact hnm (.inr ⟨_, hpat p hp, hx⟩)
        | some up =>
          have hg2 := hr.additional up hup
          rw [hg, Option.some.injEq] at hg2
          subst hg2
          obtain ⟨hn1, hn2, hn3⟩ := hl.named v hup
          have hnames : ¬ Names e.1 (.obj m) := by
            intro hn
            obtain ⟨m2, p', h1, h2, h3, _⟩ := C21_named hup (hl.props v hup) hn
            rw [hm'] at h1
            cases h1
            refine hnm (.inl ?_)
            rw [memb_some m' h2]
            exact hhas h3
          have hev : evaluated env (viewOf D env m) i e.1 = false := by
            rw [← Bool.not_eq_true]
            intro hev
            rcases evaluated_cases hn1 hn2 hev with (h | ⟨p, hp, hx⟩) | ⟨w, h⟩ | ⟨x, hx, hxe⟩
            · exact hnames (names_of_named h)
            · exact hnm (.inr ⟨_, hpat p hp, hx⟩)
            · rw [hl.open' v hup] at h; cases h
            · exact hnames (names_step hx (ev_named hD hU i e.1 x (hn3 x hx) hxe))
          have hval := hv.unevaluated v hup hU e hei hev
          by_cases hs : isSchema v = true
          · have := ihd v (.one (Obj.get_mem hup) (by decide) (isSchema_iff.1 hs)) _ hval
            rwa [replaceUneval_same (isSchema_iff.1 hs) (hl.flat v hup)] at this
          · exact hnot _ _ (by simpa using hs) _
      · -- propertyNames
        intro v hg
        obtain ⟨w, hw, rfl⟩ := hkeep (by decide) hg
        have := hv.names w hw
        rw [show subSlot "propertyNames" = .one by decide]
        simp only [EntryOk] at this ⊢
        intro e he
        exact hone hw (by decide) _ (this e he)
      · intro v hg
        rw [hr.none] at hg; cases hg
      · -- prefixItems
        intro v hg
        obtain ⟨w, hw, rfl⟩ := hkeep (by decide) hg
        have := hv.prefixItems w hw
        rw [show subSlot "prefixItems" = .list by decide]
        simp only [EntryOk] at this ⊢
        intro hp k s x hs hx
        cases w with
        | arr l =>
          simp only [atSlot, elems, List.getElem?_map, Option.map_eq_some_iff] at hs this
          obtain ⟨y, hy, rfl⟩ := hs
          exact hlist hw (by decide) y (List.mem_of_getElem? hy) _ (this hp k y x hy hx)
        | _ => simp [atSlot, elems] at hs
      · -- items
        intro v hg
        obtain ⟨w, hw, rfl⟩ := hkeep (by decide) hg
        have := hv.items w hw
        rw [show subSlot "items" = .items by decide]
        have hpre : (elems ((Obj.get m' "prefixItems").getD .null)).length =
            (elems ((Obj.get m "prefixItems").getD .null)).length := by
          rw [hr.same _ (by decide), show subSlot "prefixItems" = .list by decide]
          cases Obj.get m "prefixItems" with
          | none => rfl
          | some u => cases u <;> simp [atSlot, elems]
        simp only [EntryOk, hpre] at this ⊢
        cases hpD : D.prefixItems with
        | true =>
          rw [hpD, if_pos rfl] at this
          rw [if_pos rfl]
          intro x hx
          cases w with
          | arr l => exact hnot _ _ rfl _
          | _ => exact hone hw (by decide) _ (this x hx)
        | false =>
          rw [hpD, if_neg (by simp)] at this
          rw [if_neg (by simp)]
          cases w with
          | arr l =>
            simp only [atSlot, List.getElem?_map, Option.map_eq_some_iff] at this ⊢
            rintro k _ x ⟨y, hy, rfl⟩ hx
            exact hlist hw (by decide) y (List.mem_of_getElem? hy) _ (this k y x hy hx)
          | obj o =>
            obtain ⟨o', ho', _⟩ := unevalResult o
            have h2 := hone hw (by decide)
            simp only [atSlot, atSchema, isSchema, if_true, ho'] at this h2 ⊢
            intro x hx
            exact h2 x (this x hx)
          | bool b =>
            have h2 := hone hw (by decide)
            cases b
            all_goals
              simp only [atSlot, atSchema, isSchema, if_true] at this h2 ⊢
              intro x hx
              exact h2 x (this x hx)
          | _ =>
            simp only [atSlot, atSchema] at this ⊢
            intro x hx
            exact hnot _ _ rfl _
      · -- additionalItems
        intro v hg
        obtain ⟨w, hw, rfl⟩ := hkeep (by decide) hg
        have := hv.additionalItems w hw
        rw [show subSlot "additionalItems" = .one by decide]
        simp only [EntryOk] at this ⊢
        intro hp ss hss x hx
        obtain ⟨u, hu, hue⟩ := hkeep (by decide) hss
        rw [show subSlot "items" = .items by decide] at hue
        have hul : ∃ l, u = .arr l ∧ l.length = ss.length := by
          cases u with
          | arr l => simp only [atSlot, Json.arr.injEq] at hue; exact ⟨l, rfl, by rw [hue, List.length_map]⟩
          | obj o =>
            obtain ⟨o', ho', _⟩ := unevalResult o
            simp only [atSlot, atSchema, isSchema, if_true, ho'] at hue; cases hue
          | bool b => cases b <;> cases hue
          | _ => cases hue
        obtain ⟨l, rfl, hlen⟩ := hul
        exact hone hw (by decide) _ (this hp l hu x (by rwa [hlen]))
      · -- contains
        intro v hg
        obtain ⟨w, hw, rfl⟩ := hkeep (by decide) hg
        have := hv.contains w hw
        rw [show subSlot "contains" = .one by decide]
        simp only [EntryOk, atSlot, schemaLike_atSchema hT] at this ⊢
        rw [hskip (by decide) (by decide), hskip (by decide) (by decide)]
        intro hs l hl'
        obtain ⟨h1, h2⟩ := this hs l hl'
        have hle : l.countP (fun x => (den D env w x).ok) ≤
            l.countP (fun x => (den D (env.withRef f) (atSchema replaceUneval w) x).ok) :=
          List.countP_mono_left fun x _ hx => hone hw (by decide) x hx
        have hex : (∃ x ∈ l, Valid D env w x) → ∃ x ∈ l, Valid D (env.withRef f) (atSchema replaceUneval w) x :=
          fun ⟨x, hx, h⟩ => ⟨x, hx, hone hw (by decide) x h⟩
        constructor
        · cases hmn : Obj.get m "minContains" with
          | none => rw [hmn] at h1; exact hex h1
          | some a =>
            rw [hmn] at h1
            cases a with
            | num a => exact le_trans h1 (by exact_mod_cast hle)
            | _ => exact hex h1
        · cases hmx : Obj.get m "maxContains" with
          | none => trivial
          | some a =>
            rw [hmx] at h2
            rw [hrig w fun hs => hl.contains (hasKey_obj.2 (Obj.mem_keys.2 ⟨a, hmx⟩)) w
              (.one (Obj.get_mem hw) (by decide) hs)]
            exact h2
      · have := hv.others
        rw [hr.others]
        exact this

end

/-! ### An example -/

theorem everywhere_intro {V : Vocab} {P : Json → Prop} {s : Json} (h : P s)
    (h2 : ∀ x, DirectSub V s x → Everywhere V P x) : Everywhere V P s := by
  intro x hx
  cases hx with
  | self => exact h
  | step hd hr => exact h2 _ hd x hr

theorem loosens_plain {env : Env} {m : List (String × Json)} (h : ∀ x, DirectSub rigid (.obj m) x → Rigid env env.ref x)
    (h1 : Obj.get m "maxContains" = none) (h2 : Obj.get m "unevaluatedProperties" = none) :
    Loosens env env.ref m where
  rigid := h
  contains hk := by
    rw [hasKey_obj, Obj.mem_keys] at hk
    obtain ⟨v, hv⟩ := hk; rw [h1] at hv; cases hv
  flat up h := by rw [h2] at h; cases h
  open' up h := by rw [h2] at h; cases h
  props up h := by rw [h2] at h; cases h
  named up h := by rw [h2] at h; cases h

/-- A struct with a field `b` and a flattened one with a field `a`. -/
def flattened : Json := .obj [("allOf", .arr [.obj [("properties", .obj [("a", .obj [])])]]),
  ("properties", .obj [("b", .obj [])]), ("unevaluatedProperties", .bool false)]

/-- The conditions hold for a typical use of `unevaluatedProperties`. -/
example (i : Json) (h : Valid draft2020 trivialEnv flattened i) :
    Valid draft2020 trivialEnv (replaceUneval flattened) i := by
  have hempty : ∀ x, ¬ DirectSub visitedUneval (.obj []) x := by
    intro x hx; cases hx <;> contradiction
  have hrig0 : ∀ x, ¬ DirectSub rigid (.obj []) x := by
    intro x hx; cases hx <;> contradiction
  have hobj : Everywhere visitedUneval (fun x => ∀ m, x = .obj m → Loosens trivialEnv trivialEnv.ref m) (.obj []) :=
    everywhere_intro (by
      intro m hm; cases hm
      exact loosens_plain (fun x hx => absurd hx (hrig0 x)) rfl rfl) fun x hx => absurd hx (hempty x)
  refine C21_valid_partial (env := trivialEnv) (f := trivialEnv.ref) rfl rfl (fun _ _ h => h) flattened (.obj _) ?_ i h
  refine everywhere_intro ?_ ?_
  · intro m hm
    cases hm
    refine ⟨?_, ?_, ?_, fun _ _ => rfl, ?_, ?_⟩
    · intro x hx
      cases hx with
      | one hm hk => simp [rigid] at hm hk; rcases hm with ⟨rfl, _⟩ | ⟨rfl, _⟩ | ⟨rfl, _⟩ <;> simp at hk
      | list hm hk => simp [rigid] at hm hk; subst hk; simp at hm
      | map hm hk => simp [rigid] at hm hk; subst hk; simp at hm
    · intro hk; rw [hasKey_obj] at hk; exact absurd hk (by decide)
    · intro up hup; cases hup; exact everywhere_bool.2 not_hasKey_bool
    · intro up _ v hv; cases hv; exact ⟨_, rfl⟩
    · intro up _
      refine ⟨rfl, rfl, fun x hx => ?_⟩
      have hx' : x = .obj [("properties", .obj [("a", .obj [])])] := by
        cases hx with
        | one hm hk => simp [inPlace] at hm hk; rcases hm with ⟨rfl, _⟩ | ⟨rfl, _⟩ | ⟨rfl, _⟩ <;> simp at hk
        | list hm hk hl => simp [inPlace] at hm hk; rcases hm with ⟨rfl, rfl⟩; simpa using hl
        | map hm hk => simp [inPlace] at hk
      subst hx'
      refine everywhere_intro ?_ fun y hy => ?_
      · intro m hm; cases hm
        exact ⟨rfl, rfl, rfl, fun v hv => (by cases hv), fun v hv => (by cases hv)⟩
      · exfalso
        cases hy with
        | one hm hk => simp [inPlace] at hm hk; rcases hm with ⟨rfl, _⟩; simp at hk
        | list hm hk hl => simp at hm
        | map hm hk => simp [inPlace] at hk
  · intro x hx
    cases hx with
    | one hm hk hx =>
      simp [visitedUneval, visited] at hm hk
      rcases hm with ⟨rfl, rfl⟩ | ⟨rfl, rfl⟩ | ⟨rfl, rfl⟩
      · simp at hk
      · simp at hk
      · refine everywhere_intro (fun m hm => by cases hm) fun y hy => by cases hy
    | list hm hk hl hx =>
      simp at hm
      obtain ⟨rfl, rfl⟩ := hm
      simp at hl
      subst hl
      refine everywhere_intro ?_ fun y hy => ?_
      · intro m hm; cases hm
        refine loosens_plain (fun x hx => ?_) rfl rfl
        exfalso
        cases hx with
        | one hm hk => simp [rigid] at hm hk; rcases hm with ⟨rfl, _⟩; simp at hk
        | list hm hk => simp at hm
        | map hm hk => simp [rigid] at hm hk; subst hk; simp at hm
      · cases hy with
        | one hm hk => simp [visitedUneval, visited] at hm hk; rcases hm with ⟨rfl, _⟩; simp at hk
        | list hm hk hl => simp at hm
        | map hm hk hl => simp at hm; obtain ⟨rfl, rfl⟩ := hm; simp at hl; obtain ⟨rfl, rfl⟩ := hl; exact hobj
    | map hm hk hl hx =>
      simp at hm
      rcases hm with ⟨rfl, rfl⟩
      simp at hl
      obtain ⟨rfl, rfl⟩ := hl
      exact hobj

/-! ### Where it fails -/

/-- An existing `additionalProperties`, which had evaluated everything, is overwritten. -/
def keepsOpen : Json := .obj [("additionalProperties", .bool true), ("unevaluatedProperties", .bool false)]
/-- `patternProperties` of an in-place subschema are not gathered. -/
def patternSub : Json := .obj [("allOf", .arr [.obj [("patternProperties", .obj [("a", .bool true)])]]),
  ("unevaluatedProperties", .bool false)]
/-- Neither are the names in `dependentSchemas`. -/
def dependentSub : Json := .obj [("dependentSchemas", .obj [("a", .obj [("properties", .obj [("a", .bool true)])])]),
  ("unevaluatedProperties", .bool false)]
/-- The names behind a reference are not gathered. -/
def refSub : Json := .obj [("$ref", .str "#/$defs/A"), ("unevaluatedProperties", .bool false)]
/-- All names of all branches are gathered, also of those that are not valid; this accepts more, and so rejects more
under `not`. -/
def underNot : Json := .obj [("not", .obj [("anyOf", .arr [
    .obj [("properties", .obj [("a", .bool true)]), ("required", .arr [.str "b"])], .obj []]),
  ("unevaluatedProperties", .bool false)])]

/-- The instance of the counterexamples. -/
def instanceA : Json := .obj [("a", .num (.int 1))]

/-- All references lead to a schema with the property `a`, and all patterns match. -/
def refEnv : Env := { ref := fun _ => den draft2020 trivialEnv (.obj [("properties", .obj [("a", .bool true)])]), rx := fun _ _ => true, kw := fun _ _ _ => true }

theorem C21_valid_open : Valid draft2020 refEnv keepsOpen instanceA ∧
    ¬ Valid draft2020 refEnv (replaceUneval keepsOpen) instanceA := by unfold Valid; decide
theorem C21_valid_pattern : Valid draft2020 refEnv patternSub instanceA ∧
    ¬ Valid draft2020 refEnv (replaceUneval patternSub) instanceA := by unfold Valid; decide
theorem C21_valid_dependent : Valid draft2020 refEnv dependentSub instanceA ∧
    ¬ Valid draft2020 refEnv (replaceUneval dependentSub) instanceA := by unfold Valid; decide
theorem C21_valid_ref : Valid draft2020 refEnv refSub instanceA ∧
    ¬ Valid draft2020 refEnv (replaceUneval refSub) instanceA := by unfold Valid; decide
theorem C21_valid_not : Valid draft2020 refEnv underNot instanceA ∧
    ¬ Valid draft2020 refEnv (replaceUneval underNot) instanceA := by unfold Valid; decide

/-- C21: an instance can become invalid, for each of the reasons above. -/
theorem C21_valid_Full_false : ¬ C21_valid_Full := fun h =>
  C21_valid_open.2 (h draft2020 refEnv keepsOpen instanceA rfl rfl (.obj _) C21_valid_open.1)

end Verif
