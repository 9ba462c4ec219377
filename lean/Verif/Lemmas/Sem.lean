import Verif.Lemmas.Local
import Verif.Spec.Sem

/-!
# The semantics under traversal and map operations
-/

namespace Verif
open Spec

/-- What an entry contributes, as `denEntries` computes it. -/
def kwOf (D : Dialect) (env : Env) (k : String) (x : Json) : KW where
  raw := if noRaw k then none else some x
  sch := if oneKeys.contains k && schemaLike x then some (den D env x) else none
  lst := if listKeys.contains k then denArr D env x else none
  mp := if mapKeys.contains k then denObj D env x else none

/-- The view of an object schema. -/
def viewOf (D : Dialect) (env : Env) (m : List (String × Json)) : View :=
  fun k => (Obj.get m k).map (kwOf D env k)

/-- The unknown keywords. -/
def others (m : List (String × Json)) : List (String × Json) := m.filter fun e => !known.contains e.1

theorem denList_eq (D : Dialect) (env : Env) (l : List Json) : denList D env l = l.map (den D env) := by
  induction l with
  | nil => rfl
  | cons a l ih => rw [denList, ih]; rfl

theorem denVals_eq (D : Dialect) (env : Env) (l : List (String × Json)) :
    denVals D env l = l.map fun e => (e.1, den D env e.2) := by
  induction l with
  | nil => rfl
  | cons a l ih => obtain ⟨k, x⟩ := a; rw [denVals, ih]; rfl

theorem denEntries_eq (D : Dialect) (env : Env) (l : List (String × Json)) :
    denEntries D env l = l.map fun e => (e.1, kwOf D env e.1 e.2) := by
  induction l with
  | nil => rfl
  | cons a l ih => obtain ⟨k, x⟩ := a; rw [denEntries, ih]; rfl

theorem den_obj (D : Dialect) (env : Env) (m : List (String × Json)) (i : Json) :
    den D env (.obj m) i = combine D env (viewOf D env m) i (others m) := by
  rw [den]
  have : Obj.get (denEntries D env m) = viewOf D env m := by
    funext k
    rw [denEntries_eq, Obj.get_map m (fun k x => kwOf D env k x) k]
    rfl
  simp only [this]
  rfl

theorem schemaLike_eq (j : Json) : schemaLike j = isSchema j := by cases j <;> rfl

theorem den_not_schema {D : Dialect} {env : Env} {x : Json} (h : isSchema x = false) (i : Json) :
    den D env x i = R.pass := by
  cases x <;> first | rfl | simp [isSchema] at h

/-! ## Traversal -/

section Tsub
variable {D D' : Dialect} {env : Env} {T : Json → Json}

theorem den_atSchema {x : Json} (h : IsSchema x → den D' env (T x) = den D env x) :
    den D' env (atSchema T x) = den D env x := by
  unfold atSchema
  by_cases hx : isSchema x = true
  · rw [if_pos hx]; exact h (isSchema_iff.1 hx)
  · rw [if_neg hx]
    funext i
    rw [den_not_schema (by simpa using hx), den_not_schema (by simpa using hx)]

theorem visited_noRaw : ∀ k ∈ visited.one ++ visited.list ++ visited.map, noRaw k = true := by decide
theorem visited_one : ∀ k ∈ visited.one, k ≠ "items" →
    oneKeys.contains k = true ∧ listKeys.contains k = false ∧ mapKeys.contains k = false := by decide
theorem visited_list : ∀ k ∈ visited.list, k ≠ "items" →
    oneKeys.contains k = false ∧ listKeys.contains k = true ∧ mapKeys.contains k = false := by decide
theorem visited_map : ∀ k ∈ visited.map,
    oneKeys.contains k = false ∧ listKeys.contains k = false := by decide

theorem schemaLike_atSchema (hT : Preserves T) (x : Json) : schemaLike (atSchema T x) = schemaLike x := by
  rw [schemaLike_eq, schemaLike_eq]
  by_cases hx : isSchema x = true
  · rw [hx, isSchema_atSchema hT hx]
  · unfold atSchema; rw [if_neg hx]

theorem denArr_schema {x : Json} (h : isSchema x = true) : denArr D env x = none := by
  cases x <;> first | rfl | simp [isSchema] at h

theorem denArr_map {l : List Json} (h : ∀ x ∈ l, IsSchema x → den D' env (T x) = den D env x) :
    denArr D' env (.arr (l.map (atSchema T))) = denArr D env (.arr l) := by
  rw [denArr, denArr, denList_eq, denList_eq, List.map_map]
  congr 1
  apply List.map_congr_left
  intro x hx
  exact den_atSchema (h x hx)

theorem kwOf_atSlot (hT : Preserves T) {k : String} {v : Json} (hk : subSlot k ≠ .skip)
    (h : ∀ x ∈ slotSubs (subSlot k) v, den D' env (T x) = den D env x) :
    kwOf D' env k (atSlot T (subSlot k) v) = kwOf D env k v := by
  have hone : ∀ x, (IsSchema x → den D' env (T x) = den D env x) →
      (if schemaLike (atSchema T x) then some (den D' env (atSchema T x)) else none) =
      (if schemaLike x then some (den D env x) else none) := by
    intro x hx
    rw [schemaLike_atSchema hT, den_atSchema hx]
  have hitems : ∀ x, IsSchema x → slotSubs .items x = [x] →
      (∀ y ∈ slotSubs .items x, den D' env (T y) = den D env y) →
      kwOf D' env "items" (atSlot T .items x) = kwOf D env "items" x := by
    intro x hx hsub hd
    have he := hone x (fun _ => hd x (by rw [hsub]; simp))
    rw [atSlot_items (isSchema_iff.2 hx)]
    have h1 := isSchema_atSchema hT (isSchema_iff.2 hx)
    have c1 : oneKeys.contains "items" = true := by decide
    have c2 : listKeys.contains "items" = true := by decide
    have c3 : mapKeys.contains "items" = false := by decide
    have c4 : noRaw "items" = true := by decide
    simp only [kwOf, c1, c2, c3, c4, if_true, Bool.true_and, Bool.false_eq_true, if_false, he,
      denArr_schema h1, denArr_schema (isSchema_iff.2 hx)]
  rcases subSlot_cases k with ⟨h1, h2, e⟩ | ⟨h1, h2, e⟩ | ⟨h1, e⟩ | ⟨h1, e⟩ | ⟨_, _, _, e⟩
  · obtain ⟨a, b, c⟩ := visited_one k h1 h2
    rw [e] at h ⊢
    have hr := visited_noRaw k (by simp [h1])
    simp only [kwOf, hr, a, b, c, if_true, Bool.true_and, Bool.false_eq_true, if_false, atSlot]
    rw [hone v (fun hv => h v (by simp [slotSubs, isSchema_iff.2 hv]))]
  · obtain ⟨a, b, c⟩ := visited_list k h1 h2
    rw [e] at h ⊢
    have hr := visited_noRaw k (by simp [h1])
    simp only [kwOf, hr, a, b, c, if_true, Bool.false_and, Bool.false_eq_true, if_false]
    cases v with
    | arr l =>
      simp only [atSlot]
      rw [denArr_map (D := D)]
      intro x hx hx'
      exact h x (by simp [slotSubs, hx, isSchema_iff.2 hx'])
    | _ => rfl
  · subst h1
    rw [e] at h ⊢
    cases v with
    | arr l =>
      simp only [kwOf, atSlot]
      rw [denArr_map (D := D)]
      · rfl
      intro x hx hx'
      exact h x (by simp [slotSubs, hx, isSchema_iff.2 hx'])
    | obj m => exact hitems _ (.obj m) rfl h
    | bool b => exact hitems _ (.bool b) rfl h
    | _ => rfl
  · obtain ⟨a, b⟩ := visited_map k h1
    rw [e] at h ⊢
    have hr := visited_noRaw k (by simp [h1])
    simp only [kwOf, hr, a, b, if_true, Bool.false_and, Bool.false_eq_true, if_false]
    cases v with
    | obj m =>
      simp only [atSlot, denObj, denVals_eq, List.map_map]
      congr 2
      congr 1
      apply List.map_congr_left
      intro x hx
      simp only [Function.comp]
      rw [den_atSchema (D := D)]
      intro hs
      exact h x.2 (by simp [slotSubs, isSchema_iff.2 hs]; exact ⟨_, hx⟩)
    | _ => rfl
  · exact absurd e hk

/-- The keywords that hold subschemas that matter for validation but are not traversed mean the same in
both dialects. -/
def UnvisitedSame (D D' : Dialect) (env : Env) (m : List (String × Json)) : Prop :=
  ∀ k v, k ∈ ["unevaluatedProperties", "dependentSchemas"] → Obj.get m k = some v →
    kwOf D' env k v = kwOf D env k v

theorem kwOf_skip {k : String} {v : Json} (hk : subSlot k = .skip)
    (hu : k ∈ ["unevaluatedProperties", "dependentSchemas"] → kwOf D' env k v = kwOf D env k v) :
    kwOf D' env k v = kwOf D env k v := by
  by_cases h : k ∈ ["unevaluatedProperties", "dependentSchemas"]
  · exact hu h
  · have h1 : ∀ k ∈ oneKeys ++ listKeys ++ mapKeys, subSlot k = .skip →
        k ∈ ["unevaluatedProperties", "dependentSchemas"] := by decide
    have n1 : oneKeys.contains k = false := by
      by_contra hc
      exact h (h1 k (by simp only [List.mem_append]; exact .inl (.inl (by simpa using hc))) hk)
    have n2 : listKeys.contains k = false := by
      by_contra hc
      exact h (h1 k (by simp only [List.mem_append]; exact .inl (.inr (by simpa using hc))) hk)
    have n3 : mapKeys.contains k = false := by
      by_contra hc
      exact h (h1 k (by simp only [List.mem_append]; exact .inr (by simpa using hc)) hk)
    simp only [kwOf, n1, n2, n3, Bool.false_and, Bool.false_eq_true, if_false]

theorem viewOf_tsub (hT : Preserves T) {m : List (String × Json)} (hu : UnvisitedSame D D' env m)
    (h : ∀ x ∈ subs subSlot (.obj m), den D' env (T x) = den D env x) :
    viewOf D' env (m.map (entryMap subSlot T)) = viewOf D env m := by
  funext k
  unfold viewOf
  have hm : Obj.get (m.map (entryMap subSlot T)) k = (Obj.get m k).map (atSlot T (subSlot k)) :=
    Obj.get_map m (fun k v => atSlot T (subSlot k) v) k
  rw [hm]
  cases hg : Obj.get m k with
  | none => rfl
  | some v =>
    simp only [Option.map_some]
    congr 1
    by_cases hk : subSlot k = .skip
    · rw [hk]; simp only [atSlot]
      exact kwOf_skip hk (fun hm => hu k v hm hg)
    · exact kwOf_atSlot hT hk (fun x hx => h x (subs_mem (Obj.get_mem hg) hx))

theorem known_of_visited {k : String} (h : subSlot k ≠ .skip) : known.contains k = true := by
  have h1 : ∀ k ∈ visited.one ++ visited.list ++ visited.map, known.contains k = true := by decide
  rcases subSlot_cases k with ⟨h2, _, e⟩ | ⟨h2, _, e⟩ | ⟨h2, e⟩ | ⟨h2, e⟩ | ⟨_, _, _, e⟩
  · exact h1 k (by simp [h2])
  · exact h1 k (by simp [h2])
  · subst h2; decide
  · exact h1 k (by simp [h2])
  · exact absurd e h

theorem others_tsub (m : List (String × Json)) : others (m.map (entryMap subSlot T)) = others m := by
  unfold others
  induction m with
  | nil => rfl
  | cons e m ih =>
    obtain ⟨k, v⟩ := e
    rw [List.map_cons, List.filter_cons, List.filter_cons, ih]
    have h1 : (entryMap subSlot T (k, v)).1 = k := rfl
    rw [h1]
    by_cases hk : known.contains k = true
    · simp only [hk, Bool.not_true, Bool.false_eq_true, if_false]
    · have hs : subSlot k = .skip := by
        by_contra hn; exact hk (known_of_visited hn)
      have h2 : entryMap subSlot T (k, v) = (k, v) := by simp [entryMap, hs, atSlot]
      rw [h2]

/-- A post-order transform takes a schema in dialect `D` to an equivalent one in dialect `D'`, if its local
part does so when the subschemas are already transformed. -/
theorem den_postOrder {f : Json → Json} {H : List (String × Json) → Prop} (hp : Preserves f)
    (hb : ∀ b, f (.bool b) = .bool b)
    (hH : ∀ m T, Preserves T → H m → H (m.map (entryMap subSlot T)))
    (hf : ∀ m, H m → ∀ i, den D' env (f (.obj m)) i = combine D env (viewOf D' env m) i (others m)) :
    ∀ s, IsSchema s → Everywhere visited (fun x => ∀ m, x = .obj m → H m ∧ UnvisitedSame D D' env m) s →
      den D' env (postOrder f s) = den D env s := by
  suffices ∀ n s, sizeOf s < n → IsSchema s →
      Everywhere visited (fun x => ∀ m, x = .obj m → H m ∧ UnvisitedSame D D' env m) s →
      den D' env (postOrder f s) = den D env s by
    intro s; exact this _ s (Nat.lt_succ_self _)
  intro n
  induction n with
  | zero => intro s hs; omega
  | succ n ih =>
    intro s hs hi he
    rw [everywhere_iff] at he
    rw [postOrder_eq f hi]
    funext i
    cases hi with
    | bool b =>
      have : tsub subSlot (postOrder f) (.bool b) = .bool b := rfl
      rw [this, hb]
      cases b <;> rfl
    | obj m =>
      obtain ⟨h1, h2⟩ := he.1 m rfl
      have : tsub subSlot (postOrder f) (.obj m) = .obj (m.map (entryMap subSlot (postOrder f))) := rfl
      rw [this, hf _ (hH m _ (postOrder_preserves hp) h1), den_obj,
        viewOf_tsub (postOrder_preserves hp) h2, others_tsub]
      intro x hx
      exact ih x (by have := sizeOf_subs hx; omega) (subs_isSchema hx) (he.2 x hx)

end Tsub

/-! ## Map operations -/

theorem viewOf_insert (D : Dialect) (env : Env) (m : List (String × Json)) (k : String) (x : Json) (q : String) :
    viewOf D env (Obj.insert m k x) q = if k = q then some (kwOf D env k x) else viewOf D env m q := by
  unfold viewOf
  rw [Obj.get_insert]
  split
  · next h => subst h; rfl
  · rfl

theorem viewOf_remove (D : Dialect) (env : Env) (m : List (String × Json)) (k : String) (q : String) :
    viewOf D env (Obj.remove m k) q = if k = q then none else viewOf D env m q := by
  unfold viewOf
  rw [Obj.get_remove]
  split <;> rfl

theorem viewOf_get (D : Dialect) (env : Env) (m : List (String × Json)) (q : String) :
    viewOf D env m q = (Obj.get m q).map (kwOf D env q) := rfl

theorem others_insert {m : List (String × Json)} {k : String} (hk : known.contains k = true) (x : Json) :
    others (Obj.insert m k x) = others m := by
  unfold others
  induction m with
  | nil => simp only [Obj.insert, List.filter_cons, hk, Bool.not_true, Bool.false_eq_true, if_false]
  | cons e m ih =>
    obtain ⟨k', x'⟩ := e
    unfold Obj.insert
    split
    · next h => subst h; simp only [List.filter_cons, hk, Bool.not_true, Bool.false_eq_true, if_false]
    · split
      · simp only [List.filter_cons, hk, Bool.not_true, Bool.false_eq_true, if_false]
      · rw [List.filter_cons, List.filter_cons, ih]

theorem others_remove {m : List (String × Json)} {k : String} (hk : known.contains k = true) :
    others (Obj.remove m k) = others m := by
  unfold others Obj.remove
  rw [List.filter_filter]
  apply List.filter_congr
  intro e _
  by_cases h : e.1 = k
  · subst h; rw [hk]; simp
  · simp [h]

theorem others_modify {m : List (String × Json)} {k : String} (hk : known.contains k = true) (f : Json → Json) :
    others (Obj.modify m k f) = others m := by
  unfold others
  induction m with
  | nil => rfl
  | cons e m ih =>
    obtain ⟨k', x'⟩ := e
    unfold Obj.modify
    split
    · next h => subst h; simp only [List.filter_cons, hk, Bool.not_true, Bool.false_eq_true, if_false]
    · rw [List.filter_cons, List.filter_cons, ih]

end Verif
