import Verif.Lemmas.Derive

/-!
# What `flatten` does to the entries of a schema
-/

namespace Verif
open Spec

/-- The keywords whose alternatives are combined through `allOf`. -/
def altKeys : List String := ["oneOf", "anyOf"]

/-- The merged value of a keyword other than `allOf`, `oneOf` and `anyOf`. -/
def mergeValue (key : String) (v1 v2 : Json) : Json :=
  if key = "required" then
    match v1, v2 with
    | .arr a1, .arr a2 => .arr (a1 ++ a2)
    | _, _ => v1
  else if key = "properties" ∨ key = "patternProperties" then
    match v1, v2 with
    | .obj o1, .obj o2 => .obj (Obj.extend o1 o2)
    | _, _ => v1
  else v1

theorem get_flattenPlain_ne {m : List (String × Json)} {key q : String} (h : q ≠ key) (v2 : Json) :
    Obj.get (flattenPlain m key v2) q = Obj.get m q := by
  unfold flattenPlain
  split
  · exact Obj.get_insert_ne _ _ (Ne.symm h)
  · split
    · split
      · exact Obj.get_insert_ne _ _ (Ne.symm h)
      · rfl
    · split
      · split
        · exact Obj.get_insert_ne _ _ (Ne.symm h)
        · rfl
      · rfl

theorem get_flattenPlain_self {m : List (String × Json)} {key : String} (hk : key ≠ "allOf") (v2 : Json) :
    Obj.get (flattenPlain m key v2) key =
      some ((Obj.get m key).elim v2 fun v1 => mergeValue key v1 v2) := by
  unfold flattenPlain
  cases h : Obj.get m key with
  | none => exact Obj.get_insert_self _ _ _
  | some v1 =>
    simp only [hk, or_false, Option.elim_some]
    unfold mergeValue
    split
    · cases v1 <;> cases v2 <;> first | exact Obj.get_insert_self _ _ _ | exact h
    · split
      · cases v1 <;> cases v2 <;> first | exact Obj.get_insert_self _ _ _ | exact h
      · exact h

/-- The value of a keyword is this array, or the keyword is absent and the array empty. -/
def ArrAt (m : List (String × Json)) (k : String) (l : List Json) : Prop :=
  (Obj.get m k = none ∧ l = []) ∨ Obj.get m k = some (.arr l)

theorem ArrAt.congr {m m' : List (String × Json)} {k : String} {l : List Json} (h : ArrAt m k l)
    (hg : Obj.get m' k = Obj.get m k) : ArrAt m' k l := by
  unfold ArrAt; rw [hg]; exact h

theorem flattenPlain_allOf {m : List (String × Json)} {l : List Json} (h : ArrAt m "allOf" l) (l2 : List Json) :
    ArrAt (flattenPlain m "allOf" (.arr l2)) "allOf" (l ++ l2) := by
  right
  unfold flattenPlain
  rcases h with ⟨h, rfl⟩ | h
  · rw [h]; exact Obj.get_insert_self _ _ _
  · rw [h]
    simp

theorem sorted_flattenPlain {m : List (String × Json)} (h : Obj.Sorted m) (key : String) (v2 : Json) :
    Obj.Sorted (flattenPlain m key v2) := by
  unfold flattenPlain
  split
  · exact Obj.sorted_insert h _ _
  · split
    · split
      · exact Obj.sorted_insert h _ _
      · exact h
    · split
      · split
        · exact Obj.sorted_insert h _ _
        · exact h
      · exact h

theorem flattenProperty_plain {m : List (String × Json)} {key : String} (hk : key ∉ altKeys) (v2 : Json) :
    flattenProperty m key v2 = flattenPlain m key v2 := by
  have : ¬ (key = "oneOf" ∨ key = "anyOf") := by simpa [altKeys] using hk
  unfold flattenProperty
  cases Obj.get m key with
  | none => rfl
  | some v1 => simp only [this, if_false]

theorem flattenProperty_none {m : List (String × Json)} {key : String} (h : Obj.get m key = none) (v2 : Json) :
    flattenProperty m key v2 = Obj.insert m key v2 := by
  unfold flattenProperty flattenPlain
  rw [h]

theorem flattenProperty_alt {m : List (String × Json)} {key : String} (hk : key ∈ altKeys) {v1 : Json}
    (h : Obj.get m key = some v1) (v2 : Json) :
    flattenProperty m key v2 =
      flattenPlain (Obj.remove m key) "allOf" (.arr [.obj [(key, v1)], .obj [(key, v2)]]) := by
  have : key = "oneOf" ∨ key = "anyOf" := by simpa [altKeys] using hk
  unfold flattenProperty
  rw [h]
  simp only [this, if_true]

theorem sorted_flattenProperty {m : List (String × Json)} (h : Obj.Sorted m) (key : String) (v2 : Json) :
    Obj.Sorted (flattenProperty m key v2) := by
  by_cases hk : key ∈ altKeys
  · cases hg : Obj.get m key with
    | none => rw [flattenProperty_none hg]; exact Obj.sorted_insert h _ _
    | some v1 => rw [flattenProperty_alt hk hg]; exact sorted_flattenPlain (Obj.sorted_remove h _) _ _
  · rw [flattenProperty_plain hk]; exact sorted_flattenPlain h _ _

theorem get_flattenProperty_ne {m : List (String × Json)} {key q : String} (h : q ≠ key) (ha : q ≠ "allOf")
    (v2 : Json) : Obj.get (flattenProperty m key v2) q = Obj.get m q := by
  by_cases hk : key ∈ altKeys
  · cases hg : Obj.get m key with
    | none => rw [flattenProperty_none hg]; exact Obj.get_insert_ne _ _ (Ne.symm h)
    | some v1 =>
      rw [flattenProperty_alt hk hg, get_flattenPlain_ne ha, Obj.get_remove_ne _ (Ne.symm h)]
  · rw [flattenProperty_plain hk]; exact get_flattenPlain_ne h _

/-- What an entry of the flattened schema adds to `allOf`. -/
def allOfPart (m : List (String × Json)) (e : String × Json) : List Json :=
  if e.1 = "allOf" then elems e.2
  else if e.1 ∈ altKeys then
    (Obj.get m e.1).elim [] fun v1 => [.obj [(e.1, v1)], .obj [(e.1, e.2)]]
  else []

/-- All entries are merged, one after the other (schemars/src/_private/mod.rs:421-423). -/
def mergeAll (m : List (String × Json)) (l : List (String × Json)) : List (String × Json) :=
  l.foldl (fun m e => flattenProperty m e.1 e.2) m

theorem sorted_mergeAll {m l : List (String × Json)} (h : Obj.Sorted m) : Obj.Sorted (mergeAll m l) := by
  induction l generalizing m with
  | nil => exact h
  | cons e l ih => exact ih (sorted_flattenProperty h _ _)

theorem get_mergeAll_notMem {m l : List (String × Json)} {q : String} (h : q ∉ Obj.keys l) (ha : q ≠ "allOf") :
    Obj.get (mergeAll m l) q = Obj.get m q := by
  induction l generalizing m with
  | nil => rfl
  | cons e l ih =>
    have hq : q ≠ e.1 ∧ q ∉ Obj.keys l := by simpa [Obj.keys] using h
    show Obj.get (mergeAll (flattenProperty m e.1 e.2) l) q = _
    rw [ih hq.2, get_flattenProperty_ne hq.1 ha]

/-- A step through the entries: the entry for `q` is the only one that matters, except for `allOf`. -/
theorem get_mergeAll_mem {m l : List (String × Json)} (hn : (Obj.keys l).Nodup) {q : String} (ha : q ≠ "allOf")
    {v2 : Json} (hg : Obj.get l q = some v2) :
    ∃ m', Obj.get m' q = Obj.get m q ∧ Obj.get (mergeAll m l) q = Obj.get (flattenProperty m' q v2) q := by
  induction l generalizing m with
  | nil => cases hg
  | cons e l ih =>
    obtain ⟨k, v⟩ := e
    have hn' : k ∉ Obj.keys l ∧ (Obj.keys l).Nodup := List.nodup_cons.1 hn
    show ∃ m', _ ∧ Obj.get (mergeAll (flattenProperty m k v) l) q = _
    rw [Obj.get_cons] at hg
    split at hg
    · next hk =>
      cases hg
      subst hk
      exact ⟨m, rfl, get_mergeAll_notMem hn'.1 ha⟩
    · next hk =>
      obtain ⟨m', h1, h2⟩ := ih (m := flattenProperty m k v) hn'.2 hg
      exact ⟨m', by rw [h1, get_flattenProperty_ne (Ne.symm hk) ha], h2⟩

theorem get_mergeAll_plain {m l : List (String × Json)} (hn : (Obj.keys l).Nodup) {q : String}
    (ha : q ≠ "allOf") (hq : q ∉ altKeys) :
    Obj.get (mergeAll m l) q = (Obj.get l q).elim (Obj.get m q) fun v2 =>
      some ((Obj.get m q).elim v2 fun v1 => mergeValue q v1 v2) := by
  cases hg : Obj.get l q with
  | none => exact get_mergeAll_notMem (Obj.get_eq_none.1 hg) ha
  | some v2 =>
    obtain ⟨m', h1, h2⟩ := get_mergeAll_mem (m := m) hn ha hg
    rw [h2, flattenProperty_plain hq, get_flattenPlain_self ha, h1]
    rfl

theorem get_mergeAll_alt {m l : List (String × Json)} (hn : (Obj.keys l).Nodup) {q : String}
    (hq : q ∈ altKeys) :
    Obj.get (mergeAll m l) q = (Obj.get l q).elim (Obj.get m q) fun v2 =>
      (Obj.get m q).elim (some v2) fun _ => none := by
  have ha : q ≠ "allOf" := by rintro rfl; exact absurd hq (by decide)
  cases hg : Obj.get l q with
  | none => exact get_mergeAll_notMem (Obj.get_eq_none.1 hg) ha
  | some v2 =>
    obtain ⟨m', h1, h2⟩ := get_mergeAll_mem (m := m) hn ha hg
    rw [h2]
    cases hm : Obj.get m' q with
    | none =>
      rw [flattenProperty_none hm, Obj.get_insert_self, ← h1, hm]; rfl
    | some v1 =>
      rw [flattenProperty_alt hq hm, get_flattenPlain_ne ha, Obj.get_remove_self, ← h1, hm]; rfl

theorem allOfPart_congr {m m' : List (String × Json)} {e : String × Json}
    (h : e.1 ∈ altKeys → Obj.get m e.1 = Obj.get m' e.1) : allOfPart m e = allOfPart m' e := by
  unfold allOfPart
  split
  · rfl
  · split
    · next hk => rw [h hk]
    · rfl

theorem flattenProperty_allOf {m : List (String × Json)} {l : List Json} (h : ArrAt m "allOf" l)
    {e : String × Json} (he : e.1 = "allOf" → ∃ l2, e.2 = .arr l2) :
    ArrAt (flattenProperty m e.1 e.2) "allOf" (l ++ allOfPart m e) := by
  obtain ⟨k, v2⟩ := e
  by_cases hk : k ∈ altKeys
  · have hka : k ≠ "allOf" := by rintro rfl; exact absurd hk (by decide)
    unfold allOfPart
    simp only [hk, hka, if_true, if_false]
    cases hg : Obj.get m k with
    | none =>
      rw [flattenProperty_none hg]
      simpa using h.congr (Obj.get_insert_ne _ _ hka)
    | some v1 =>
      rw [flattenProperty_alt hk hg]
      exact flattenPlain_allOf (h.congr (Obj.get_remove_ne _ hka)) _
  · rw [flattenProperty_plain hk]
    by_cases hka : k = "allOf"
    · subst hka
      obtain ⟨l2, rfl⟩ := he rfl
      exact flattenPlain_allOf h _
    · unfold allOfPart
      simp only [hk, hka, if_false, List.append_nil]
      exact h.congr (get_flattenPlain_ne (Ne.symm hka) _)

theorem mergeAll_allOf {m l : List (String × Json)} (hn : (Obj.keys l).Nodup) {a : List Json}
    (h : ArrAt m "allOf" a) (hl : ∀ v, Obj.get l "allOf" = some v → ∃ l2, v = .arr l2) :
    ArrAt (mergeAll m l) "allOf" (a ++ l.flatMap (allOfPart m)) := by
  induction l generalizing m a with
  | nil => simpa [mergeAll] using h
  | cons e l ih =>
    obtain ⟨k, v⟩ := e
    have hn' : k ∉ Obj.keys l ∧ (Obj.keys l).Nodup := List.nodup_cons.1 hn
    show ArrAt (mergeAll (flattenProperty m k v) l) _ _
    have h1 := flattenProperty_allOf (e := (k, v)) h fun hk => hl v (by
      rw [Obj.get_cons, if_pos hk])
    have hl' : ∀ v, Obj.get l "allOf" = some v → ∃ l2, v = .arr l2 := by
      intro v' hv
      refine hl v' ?_
      rw [Obj.get_cons, if_neg, hv]
      rintro rfl
      exact hn'.1 (Obj.mem_keys.2 ⟨_, hv⟩)
    have h2 := ih hn'.2 h1 hl'
    have hc : l.flatMap (allOfPart (flattenProperty m k v)) = l.flatMap (allOfPart m) := by
      rw [List.flatMap_def, List.flatMap_def]
      congr 1
      apply List.map_congr_left
      intro e he
      apply allOfPart_congr
      intro hk
      refine get_flattenProperty_ne ?_ ?_ _
      · rintro hek
        exact hn'.1 (hek ▸ List.mem_map_of_mem he)
      · rintro hek; rw [hek] at hk; exact absurd hk (by decide)
    rw [hc] at h2
    simpa [List.flatMap_cons, List.append_assoc] using h2

/-- The elements of the merged `allOf`. -/
theorem mem_allOfParts {m l : List (String × Json)} (hn : (Obj.keys l).Nodup) {s : Json} :
    s ∈ l.flatMap (allOfPart m) ↔ (∃ v, Obj.get l "allOf" = some v ∧ s ∈ elems v) ∨
      ∃ k ∈ altKeys, ∃ v1 v2, Obj.get m k = some v1 ∧ Obj.get l k = some v2 ∧
        (s = .obj [(k, v1)] ∨ s = .obj [(k, v2)]) := by
  rw [List.mem_flatMap]
  constructor
  · rintro ⟨⟨k, v⟩, he, hs⟩
    have hg := Obj.get_of_mem_nodup hn he
    unfold allOfPart at hs
    split at hs
    · next hk =>
      simp only at hk hs
      subst hk
      exact .inl ⟨v, hg, hs⟩
    · split at hs
      · next hk =>
        cases hm : Obj.get m k with
        | none => simp [hm] at hs
        | some v1 =>
          simp only [hm, Option.elim_some, List.mem_cons, List.not_mem_nil, or_false] at hs
          exact .inr ⟨k, hk, v1, v, hm, hg, hs⟩
      · cases hs
  · rintro (⟨v, hv, hs⟩ | ⟨k, hk, v1, v2, h1, h2, hs⟩)
    · refine ⟨("allOf", v), Obj.get_mem hv, ?_⟩
      unfold allOfPart
      simpa using hs
    · refine ⟨(k, v2), Obj.get_mem h2, ?_⟩
      have hka : k ≠ "allOf" := by rintro rfl; exact absurd hk (by decide)
      unfold allOfPart
      simp only [hk, hka, if_true, if_false, h1, Option.elim_some, List.mem_cons, List.not_mem_nil, or_false]
      exact hs

end Verif
