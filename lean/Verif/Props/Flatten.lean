import Verif.Lemmas.Flatten

/-!
# C49: flattening merges both schemas
-/

namespace Verif
open Spec

namespace Spec

/-- The keywords that influence each other, and are not combined by `flatten`. -/
def linkedKeys : List String :=
  ["if", "then", "else", "prefixItems", "items", "additionalItems", "contains", "minContains", "maxContains"]

/-- The keywords that restrict members without a name of their own. -/
def restKeys : List String := ["additionalProperties", "unevaluatedProperties"]

/-- The keywords that `flatten` combines. -/
def combinedKeys : List String := ["required", "properties", "patternProperties", "allOf", "anyOf", "oneOf"]

/-- The keywords have the right kind of value. -/
structure Kinds (m : List (String × Json)) : Prop where
  sorted : Obj.Sorted m
  maps : ∀ k ∈ ["properties", "patternProperties"], ∀ v, Obj.get m k = some v → ∃ p, v = .obj p ∧ Obj.Sorted p
  lists : ∀ k ∈ ["required", "allOf"], ∀ v, Obj.get m k = some v → ∃ l, v = .arr l
  noNullable : Obj.get m "nullable" = none

/-- Nothing is lost if both schemas are merged: where they both have a keyword that is not combined, it has the
same value; and a name or pattern in both has the same schema. -/
structure Compatible (m1 m2 : List (String × Json)) : Prop where
  left : Kinds m1
  right : Kinds m2
  same : ∀ k, k ∉ combinedKeys → k ∉ restKeys → k ∉ annotations → ∀ a b, Obj.get m1 k = some a →
    Obj.get m2 k = some b → a = b
  names : ∀ k ∈ ["properties", "patternProperties"], ∀ n a b, Obj.get (members ((Obj.get m1 k).getD .null)) n = some a →
    Obj.get (members ((Obj.get m2 k).getD .null)) n = some b → a = b
  linked : (∀ k ∈ linkedKeys, Obj.get m1 k = none) ∨ ∀ k ∈ linkedKeys, Obj.get m2 k = none

/-- What the schema says, apart from the restriction of other members. -/
def ValidApart (D : Dialect) (env : Env) (m : List (String × Json)) (i : Json) : Prop :=
  Valid D env (.obj (Obj.remove (Obj.remove m "additionalProperties") "unevaluatedProperties")) i

end Spec

section
variable {D : Dialect} {env : Env} {i : Json}

theorem entryOk_free {m m' : List (String × Json)} {k : String} {v : Json} (h1 : k ∉ linkedKeys)
    (h2 : k ∉ restKeys) (h3 : k ≠ "type") : EntryOk D env m i k v ↔ EntryOk D env m' i k v := by
  unfold EntryOk
  split
  all_goals first | rfl | exact absurd rfl h3 | exact absurd (by decide) h1 | exact absurd (by decide) h2

theorem entryOk_linked {m m' : List (String × Json)} {k : String} {v : Json} (h1 : k ∈ linkedKeys)
    (h : ∀ c ∈ linkedKeys, Obj.get m c = Obj.get m' c) : EntryOk D env m i k v ↔ EntryOk D env m' i k v := by
  unfold linkedKeys at h1 h
  simp only [List.mem_cons, List.not_mem_nil, or_false, forall_eq_or_imp, forall_eq] at h1 h
  obtain ⟨e1, e2, e3, e4, e5, e6, e7, e8, e9⟩ := h
  rcases h1 with rfl | rfl | rfl | rfl | rfl | rfl | rfl | rfl | rfl <;>
    first | exact Iff.rfl | (unfold EntryOk; simp only [*])

theorem entryOk_typeCongr {m m' : List (String × Json)} {v : Json} (h : Obj.get m "nullable" = Obj.get m' "nullable") :
    EntryOk D env m i "type" v ↔ EntryOk D env m' i "type" v := by
  unfold EntryOk; simp only [h]

/-- `ValidApart` by entries. -/
theorem validApart_iff {m : List (String × Json)} (hm : Obj.Sorted m)
    (hr : D.refSiblings = true ∨ Obj.get m "$ref" = none) :
    ValidApart D env m i ↔ ∀ k v, Obj.get m k = some v → k ∉ restKeys → EntryOk D env m i k v := by
  have hg : ∀ k, k ∉ restKeys →
      Obj.get (Obj.remove (Obj.remove m "additionalProperties") "unevaluatedProperties") k = Obj.get m k := by
    intro k hk
    simp only [restKeys, List.mem_cons, List.not_mem_nil, or_false, not_or] at hk
    rw [Obj.get_remove_ne _ (Ne.symm hk.2), Obj.get_remove_ne _ (Ne.symm hk.1)]
  have hc : ∀ k v, k ∉ restKeys → (EntryOk D env
      (Obj.remove (Obj.remove m "additionalProperties") "unevaluatedProperties") i k v ↔ EntryOk D env m i k v) := by
    intro k v hk
    by_cases h1 : k ∈ linkedKeys
    · exact entryOk_linked h1 fun c hc => hg c (by revert hc c; decide)
    by_cases h2 : k = "type"
    · subst h2; exact entryOk_typeCongr (hg _ (by decide))
    · exact entryOk_free h1 hk h2
  unfold ValidApart
  rw [valid_get (by rw [hg _ (by decide)]; exact hr) (Obj.sorted_remove (Obj.sorted_remove hm _) _)]
  constructor
  · intro h k v hk hkr
    rw [← hc k v hkr]
    exact h k v (by rw [hg k hkr]; exact hk)
  · intro h k v hk
    by_cases hkr : k ∈ restKeys
    · simp only [restKeys, List.mem_cons, List.not_mem_nil, or_false] at hkr
      rcases hkr with rfl | rfl
      · rw [Obj.get_remove_ne _ (by decide), Obj.get_remove_self] at hk; cases hk
      · rw [Obj.get_remove_self] at hk; cases hk
    · rw [hc k v hkr]
      exact h k v (by rw [← hg k hkr]; exact hk) hkr

theorem valid_single {k : String} {v : Json} (hk : k ≠ "$ref") :
    Valid D env (.obj [(k, v)]) i ↔ EntryOk D env [(k, v)] i k v := by
  rw [valid_entries (.inr (by rw [Obj.get_cons, if_neg hk]; rfl)) (by simp [Obj.keys])]
  simp

/-- The merged value of a map keyword. -/
theorem mergeValue_map {k : String} (hk : k ∈ ["properties", "patternProperties"]) (p1 p2 : List (String × Json)) :
    mergeValue k (.obj p1) (.obj p2) = .obj (Obj.extend p1 p2) := by
  revert hk k; simp [mergeValue]

/-- The keywords that are not combined: the first value stays. -/
theorem mergeValue_keep {k : String} (hk : k ∉ combinedKeys) (v1 v2 : Json) : mergeValue k v1 v2 = v1 := by
  unfold combinedKeys at hk
  simp only [List.mem_cons, List.not_mem_nil, or_false, not_or] at hk
  unfold mergeValue
  rw [if_neg hk.1, if_neg (by simp [hk.2.1, hk.2.2.1])]

/-- The schemas of the members, by name. -/
theorem get_merged_map {m1 m2 : List (String × Json)} (hl : Kinds m1) (hr : Kinds m2) {k : String}
    (hk : k ∈ ["properties", "patternProperties"]) :
    ∃ p1 p2 p, members ((Obj.get m1 k).getD .null) = p1 ∧ members ((Obj.get m2 k).getD .null) = p2 ∧
      members ((Obj.get (mergeAll m1 m2) k).getD .null) = p ∧
      (∀ n, Obj.get p n = (Obj.get p2 n).or (Obj.get p1 n)) ∧
      Obj.Sorted p1 ∧ Obj.Sorted p2 ∧ Obj.Sorted p ∧
      (Obj.get (mergeAll m1 m2) k = none ↔ Obj.get m1 k = none ∧ Obj.get m2 k = none) := by
  have ha : k ≠ "allOf" := by rintro rfl; exact absurd hk (by decide)
  have hq : k ∉ altKeys := by revert hk k; decide
  have hm := get_mergeAll_plain (m := m1) (Obj.sorted_nodup hr.sorted) ha hq
  cases h1 : Obj.get m1 k with
  | none =>
    cases h2 : Obj.get m2 k with
    | none =>
      rw [h1, h2] at hm
      refine ⟨[], [], [], rfl, rfl, by rw [hm]; rfl, fun n => rfl, .nil, .nil, .nil, by simp [hm]⟩
    | some v2 =>
      obtain ⟨p2, rfl, hp2⟩ := hr.maps k hk _ h2
      rw [h1, h2] at hm
      refine ⟨[], p2, p2, rfl, rfl, by rw [hm]; rfl, fun n => ?_, .nil, hp2, hp2, by simp [hm]⟩
      simp
  | some v1 =>
    obtain ⟨p1, rfl, hp1⟩ := hl.maps k hk _ h1
    cases h2 : Obj.get m2 k with
    | none =>
      rw [h1, h2] at hm
      refine ⟨p1, [], p1, rfl, rfl, by rw [hm]; rfl, fun n => ?_, hp1, .nil, hp1, by simp [hm]⟩
      simp
    | some v2 =>
      obtain ⟨p2, rfl, hp2⟩ := hr.maps k hk _ h2
      rw [h1, h2] at hm
      have hm' : Obj.get (mergeAll m1 m2) k = some (.obj (Obj.extend p1 p2)) := by
        rw [hm]; simp [mergeValue_map hk]
      refine ⟨p1, p2, Obj.extend p1 p2, rfl, rfl, by rw [hm']; rfl, fun n => ?_, hp1, hp2,
        Obj.sorted_extend hp1 _, by simp [hm']⟩
      rw [Obj.get_extend_nodup _ (Obj.sorted_nodup hp2)]
      cases Obj.get p2 n <;> rfl

/-- The entry for a map keyword, if it is there. -/
theorem entryOk_memb {m m' : List (String × Json)} {k : String} (hk : k ∈ ["properties", "patternProperties"])
    (hs : ∀ v, Obj.get m k = some v → ∃ p, v = .obj p) :
    (∀ v, Obj.get m k = some v → EntryOk D env m' i k v) ↔
      EntryOk D env m' i k (.obj (members ((Obj.get m k).getD .null))) := by
  cases h : Obj.get m k with
  | none =>
    simp only [reduceCtorEq, false_implies, implies_true, true_iff]
    simp only [List.mem_cons, List.not_mem_nil, or_false] at hk
    rcases hk with rfl | rfl
    · intro e _ s hs; cases hs
    · intro e _ p hp; cases hp
  | some v =>
    obtain ⟨p, rfl⟩ := hs v h
    simp [members]

/-- The entry for `required` or `allOf`, if it is there. -/
theorem entryOk_arrAt {m m' : List (String × Json)} {k : String} (hk : k ∈ ["required", "allOf"]) {l : List Json}
    (hs : ArrAt m k l) : (∀ v, Obj.get m k = some v → EntryOk D env m' i k v) ↔ EntryOk D env m' i k (.arr l) := by
  rcases hs with ⟨h, rfl⟩ | h
  · rw [h]
    simp only [reduceCtorEq, false_implies, implies_true, true_iff]
    simp only [List.mem_cons, List.not_mem_nil, or_false] at hk
    rcases hk with rfl | rfl
    · refine ⟨fun _ => ?_, fun hk => absurd (by decide) hk⟩
      cases i <;> simp [simple, requiredOk]
    · intro s hs; cases hs
  · rw [h]; simp

theorem arrAt_of_kinds {m : List (String × Json)} (h : Kinds m) {k : String} (hk : k ∈ ["required", "allOf"]) :
    ∃ l, ArrAt m k l := by
  cases hg : Obj.get m k with
  | none => exact ⟨[], .inl ⟨hg, rfl⟩⟩
  | some v =>
    obtain ⟨l, rfl⟩ := h.lists k hk v hg
    exact ⟨l, .inr hg⟩

theorem entryOk_required_append {m : List (String × Json)} (a b : List Json) :
    EntryOk D env m i "required" (.arr (a ++ b)) ↔
      EntryOk D env m i "required" (.arr a) ∧ EntryOk D env m i "required" (.arr b) := by
  rw [entryOk_simple (by decide), entryOk_simple (by decide), entryOk_simple (by decide)]
  cases i <;> simp [simple, requiredOk, List.all_append]

/-- The statement about the members that one map keyword makes. -/
theorem entryOk_map_merge {m1 m2 : List (String × Json)} (h : Compatible m1 m2) {k : String}
    (hk : k ∈ ["properties", "patternProperties"]) :
    (∀ v, Obj.get (mergeAll m1 m2) k = some v → EntryOk D env (mergeAll m1 m2) i k v) ↔
      (∀ v, Obj.get m1 k = some v → EntryOk D env m1 i k v) ∧
      (∀ v, Obj.get m2 k = some v → EntryOk D env m2 i k v) := by
  obtain ⟨p1, p2, p, e1, e2, e3, hp, s1, s2, s3, hnone⟩ := get_merged_map h.left h.right hk
  have hs : ∀ v, Obj.get (mergeAll m1 m2) k = some v → ∃ p, v = .obj p := by
    intro v hv
    have ha : k ≠ "allOf" := by rintro rfl; exact absurd hk (by decide)
    have hq : k ∉ altKeys := (by decide : ∀ k ∈ ["properties", "patternProperties"], k ∉ altKeys) k hk
    rw [get_mergeAll_plain (Obj.sorted_nodup h.right.sorted) ha hq] at hv
    cases h2 : Obj.get m2 k with
    | none =>
      rw [h2] at hv
      obtain ⟨p, hp, _⟩ := h.left.maps k hk v hv
      exact ⟨p, hp⟩
    | some v2 =>
      obtain ⟨q2, rfl, _⟩ := h.right.maps k hk v2 h2
      cases h1 : Obj.get m1 k with
      | none => rw [h1, h2] at hv; exact ⟨q2, (Option.some.inj hv).symm⟩
      | some v1 =>
        obtain ⟨q1, rfl, _⟩ := h.left.maps k hk v1 h1
        rw [h1, h2] at hv
        have := Option.some.inj hv
        simp only [Option.elim_some, mergeValue_map hk] at this
        exact ⟨_, this.symm⟩
  rw [entryOk_memb hk hs, entryOk_memb hk fun v hv => (h.left.maps k hk v hv).imp fun _ h => h.1,
    entryOk_memb hk fun v hv => (h.right.maps k hk v hv).imp fun _ h => h.1, e1, e2, e3]
  have hag : ∀ n a b, Obj.get p1 n = some a → Obj.get p2 n = some b → a = b := by
    intro n a b ha hb
    exact h.names k hk n a b (by rw [e1]; exact ha) (by rw [e2]; exact hb)
  have hg1 : ∀ n a, Obj.get p1 n = some a → Obj.get p n = some a := by
    intro n a ha
    rw [hp]
    cases hb : Obj.get p2 n with
    | none => exact ha
    | some b => rw [hag n a b ha hb]; rfl
  have hg2 : ∀ n a, Obj.get p2 n = some a → Obj.get p n = some a := by
    intro n a ha; rw [hp, ha]; rfl
  have hg : ∀ n a, Obj.get p n = some a → Obj.get p1 n = some a ∨ Obj.get p2 n = some a := by
    intro n a ha
    rw [hp] at ha
    cases hb : Obj.get p2 n with
    | none => rw [hb] at ha; exact .inl ha
    | some b => rw [hb] at ha; exact .inr ha
  simp only [List.mem_cons, List.not_mem_nil, or_false] at hk
  rcases hk with rfl | rfl
  · rw [entryOk_properties, entryOk_properties, entryOk_properties]
    constructor
    · intro hv
      exact ⟨fun e he s hs => hv e he s (hg1 _ _ hs), fun e he s hs => hv e he s (hg2 _ _ hs)⟩
    · rintro ⟨h1, h2⟩ e he s hs
      rcases hg _ _ hs with hs | hs
      · exact h1 e he s hs
      · exact h2 e he s hs
  · show (∀ e ∈ members i, ∀ q ∈ p, env.rx q.1 e.1 = true → Valid D env q.2 e.2) ↔
      (∀ e ∈ members i, ∀ q ∈ p1, env.rx q.1 e.1 = true → Valid D env q.2 e.2) ∧
      (∀ e ∈ members i, ∀ q ∈ p2, env.rx q.1 e.1 = true → Valid D env q.2 e.2)
    constructor
    · intro hv
      refine ⟨fun e he q hq => hv e he q ?_, fun e he q hq => hv e he q ?_⟩
      · exact Obj.get_mem (hg1 _ _ (Obj.get_of_mem_sorted s1 hq))
      · exact Obj.get_mem (hg2 _ _ (Obj.get_of_mem_sorted s2 hq))
    · rintro ⟨h1, h2⟩ e he q hq
      rcases hg _ _ (Obj.get_of_mem_sorted s3 hq) with hq | hq
      · exact h1 e he q (Obj.get_mem hq)
      · exact h2 e he q (Obj.get_mem hq)

/-- `allOf`, `anyOf` and `oneOf` together. -/
theorem entryOk_alt_merge {m1 m2 : List (String × Json)} (h : Compatible m1 m2) :
    (∀ k ∈ "allOf" :: altKeys, ∀ v, Obj.get (mergeAll m1 m2) k = some v → EntryOk D env (mergeAll m1 m2) i k v) ↔
      (∀ k ∈ "allOf" :: altKeys, ∀ v, Obj.get m1 k = some v → EntryOk D env m1 i k v) ∧
      (∀ k ∈ "allOf" :: altKeys, ∀ v, Obj.get m2 k = some v → EntryOk D env m2 i k v) := by
  have hfree : ∀ k ∈ "allOf" :: altKeys, ∀ (m m' : List (String × Json)) v,
      EntryOk D env m i k v ↔ EntryOk D env m' i k v := by
    intro k hk m m' v
    exact entryOk_free (by revert hk k; decide) (by revert hk k; decide) (by revert hk k; decide)
  have hsingle : ∀ k ∈ altKeys, ∀ (m : List (String × Json)) v,
      Valid D env (.obj [(k, v)]) i ↔ EntryOk D env m i k v := by
    intro k hk m v
    rw [valid_single (by revert hk k; decide)]
    exact hfree k (List.mem_cons_of_mem _ hk) _ _ _
  obtain ⟨l1, hl1⟩ := arrAt_of_kinds h.left (k := "allOf") (by decide)
  obtain ⟨l2, hl2⟩ := arrAt_of_kinds h.right (k := "allOf") (by decide)
  have hn := Obj.sorted_nodup h.right.sorted
  have hm := mergeAll_allOf hn hl1 fun v hv => h.right.lists _ (by decide) v hv
  have hall : ∀ (m' : List (String × Json)) l, EntryOk D env m' i "allOf" (.arr l) ↔ ∀ s ∈ l, Valid D env s i :=
    fun m' l => Iff.rfl
  have hmem2 : ∀ s, s ∈ l2 ↔ ∃ v, Obj.get m2 "allOf" = some v ∧ s ∈ elems v := by
    intro s
    rcases hl2 with ⟨h2, rfl⟩ | h2 <;> rw [h2] <;> simp [elems]
  have split : ∀ (m : List (String × Json)),
      (∀ k ∈ "allOf" :: altKeys, ∀ v, Obj.get m k = some v → EntryOk D env m i k v) ↔
      (∀ v, Obj.get m "allOf" = some v → EntryOk D env m i "allOf" v) ∧
      ∀ k ∈ altKeys, ∀ v, Obj.get m k = some v → EntryOk D env m i k v := by
    intro m; rw [List.forall_mem_cons]
  rw [split, split m1, split m2, entryOk_arrAt (by decide) hm, entryOk_arrAt (by decide) hl1,
    entryOk_arrAt (by decide) hl2, hall, hall, hall]
  constructor
  · rintro ⟨ha, hk⟩
    have ha1 : ∀ s ∈ l1, Valid D env s i := fun s hs => ha s (List.mem_append.2 (.inl hs))
    have ha2 : ∀ s ∈ m2.flatMap (allOfPart m1), Valid D env s i := fun s hs => ha s (List.mem_append.2 (.inr hs))
    refine ⟨⟨ha1, ?_⟩, ?_, ?_⟩
    · intro k hk' v hv
      cases h2 : Obj.get m2 k with
      | none =>
        rw [hfree k (List.mem_cons_of_mem _ hk') _ (mergeAll m1 m2)]
        exact hk k hk' v (by rw [get_mergeAll_alt hn hk', h2]; exact hv)
      | some v2 =>
        rw [← hsingle k hk']
        exact ha2 _ ((mem_allOfParts hn).2 (.inr ⟨k, hk', v, v2, hv, h2, .inl rfl⟩))
    · intro s hs
      exact ha2 s ((mem_allOfParts hn).2 (.inl ((hmem2 s).1 hs)))
    · intro k hk' v hv
      cases h1 : Obj.get m1 k with
      | none =>
        rw [hfree k (List.mem_cons_of_mem _ hk') _ (mergeAll m1 m2)]
        exact hk k hk' v (by rw [get_mergeAll_alt hn hk', hv, h1]; rfl)
      | some v1 =>
        rw [← hsingle k hk']
        exact ha2 _ ((mem_allOfParts hn).2 (.inr ⟨k, hk', v1, v, h1, hv, .inr rfl⟩))
  · rintro ⟨⟨ha1, hk1⟩, ha2, hk2⟩
    refine ⟨fun s hs => ?_, fun k hk v hv => ?_⟩
    · rcases List.mem_append.1 hs with hs | hs
      · exact ha1 s hs
      · rcases (mem_allOfParts hn).1 hs with hs | ⟨k, hk, v1, v2, h1, h2, rfl | rfl⟩
        · exact ha2 s ((hmem2 s).2 hs)
        · rw [hsingle k hk m1]; exact hk1 k hk _ h1
        · rw [hsingle k hk m2]; exact hk2 k hk _ h2
    · rw [get_mergeAll_alt hn hk] at hv
      cases h2 : Obj.get m2 k with
      | none =>
        rw [h2] at hv
        rw [hfree k (List.mem_cons_of_mem _ hk) _ m1]
        exact hk1 k hk v hv
      | some v2 =>
        cases h1 : Obj.get m1 k with
        | none =>
          rw [h1, h2] at hv
          obtain rfl : v2 = v := Option.some.inj hv
          rw [hfree k (List.mem_cons_of_mem _ hk) _ m2]
          exact hk2 k hk _ h2
        | some v1 => rw [h1, h2] at hv; cases hv

theorem get_mergeAll_keep {m1 m2 : List (String × Json)} (h : Compatible m1 m2) {k : String}
    (hk : k ∉ combinedKeys) : Obj.get (mergeAll m1 m2) k = (Obj.get m1 k).or (Obj.get m2 k) := by
  have ha : k ≠ "allOf" := by rintro rfl; exact absurd (by decide) hk
  have hq : k ∉ altKeys := fun hq => hk ((by decide : ∀ k ∈ altKeys, k ∈ combinedKeys) k hq)
  rw [get_mergeAll_plain (Obj.sorted_nodup h.right.sorted) ha hq]
  cases Obj.get m1 k with
  | none => cases Obj.get m2 k <;> rfl
  | some v1 =>
    cases Obj.get m2 k with
    | none => rfl
    | some v2 => simp [mergeValue_keep hk]

/-- The keywords that are not combined. -/
theorem entryOk_keep_merge {m1 m2 : List (String × Json)} (h : Compatible m1 m2) {k : String}
    (hk : k ∉ combinedKeys) (hkr : k ∉ restKeys) :
    (∀ v, Obj.get (mergeAll m1 m2) k = some v → EntryOk D env (mergeAll m1 m2) i k v) ↔
      (∀ v, Obj.get m1 k = some v → EntryOk D env m1 i k v) ∧
      (∀ v, Obj.get m2 k = some v → EntryOk D env m2 i k v) := by
  by_cases hka : k ∈ annotations
  · constructor
    · intro _; exact ⟨fun v _ => entryOk_annotation hka v, fun v _ => entryOk_annotation hka v⟩
    · intro _ v _; exact entryOk_annotation hka v
  have hnull : Obj.get (mergeAll m1 m2) "nullable" = none := by
    rw [get_mergeAll_keep h (by decide), h.left.noNullable, h.right.noNullable]; rfl
  have hlink : ∀ c ∈ linkedKeys, c ∉ combinedKeys := by decide
  have hc1 : ∀ v, Obj.get m1 k = some v → (EntryOk D env (mergeAll m1 m2) i k v ↔ EntryOk D env m1 i k v) := by
    intro v hv
    by_cases hl : k ∈ linkedKeys
    · have h2 : ∀ c ∈ linkedKeys, Obj.get m2 c = none := by
        rcases h.linked with h' | h'
        · rw [h' k hl] at hv; cases hv
        · exact h'
      refine entryOk_linked hl fun c hc => ?_
      rw [get_mergeAll_keep h (hlink c hc), h2 c hc, Option.or_none]
    by_cases ht : k = "type"
    · subst ht; exact entryOk_typeCongr (by rw [hnull, h.left.noNullable])
    · exact entryOk_free hl hkr ht
  have hc2 : ∀ v, Obj.get m2 k = some v → (EntryOk D env (mergeAll m1 m2) i k v ↔ EntryOk D env m2 i k v) := by
    intro v hv
    by_cases hl : k ∈ linkedKeys
    · have h2 : ∀ c ∈ linkedKeys, Obj.get m1 c = none := by
        rcases h.linked with h' | h'
        · exact h'
        · rw [h' k hl] at hv; cases hv
      refine entryOk_linked hl fun c hc => ?_
      rw [get_mergeAll_keep h (hlink c hc), h2 c hc, Option.none_or]
    by_cases ht : k = "type"
    · subst ht; exact entryOk_typeCongr (by rw [hnull, h.right.noNullable])
    · exact entryOk_free hl hkr ht
  have hg := get_mergeAll_keep h hk
  constructor
  · intro hv
    have h1 : ∀ v, Obj.get m1 k = some v → EntryOk D env (mergeAll m1 m2) i k v := by
      intro v h1; exact hv v (by rw [hg, h1]; rfl)
    refine ⟨fun v h1' => (hc1 v h1').1 (h1 v h1'), fun v h2 => (hc2 v h2).1 ?_⟩
    cases h1' : Obj.get m1 k with
    | none => exact hv v (by rw [hg, h1', h2]; rfl)
    | some v1 => rw [← h.same k hk hkr hka v1 v h1' h2]; exact h1 v1 h1'
  · rintro ⟨h1, h2⟩ v hv
    rw [hg] at hv
    cases h1' : Obj.get m1 k with
    | none => rw [h1', Option.none_or] at hv; exact (hc2 v hv).2 (h2 v hv)
    | some v1 =>
      rw [h1'] at hv
      cases hv
      exact (hc1 _ h1').2 (h1 _ h1')

/-- All keywords but those that restrict other members: the merged schema says what both say. -/
theorem validApart_merge {m1 m2 : List (String × Json)} (h : Compatible m1 m2)
    (h1 : D.refSiblings = true ∨ Obj.get m1 "$ref" = none) (h2 : D.refSiblings = true ∨ Obj.get m2 "$ref" = none) :
    ValidApart D env (mergeAll m1 m2) i ↔ ValidApart D env m1 i ∧ ValidApart D env m2 i := by
  have hr : D.refSiblings = true ∨ Obj.get (mergeAll m1 m2) "$ref" = none := by
    rcases h1 with h1 | h1
    · exact .inl h1
    · rcases h2 with h2 | h2
      · exact .inl h2
      · right; rw [get_mergeAll_keep h (by decide), h1, h2]; rfl
  rw [validApart_iff (sorted_mergeAll h.left.sorted) hr, validApart_iff h.left.sorted h1,
    validApart_iff h.right.sorted h2]
  have hreq : (∀ v, Obj.get (mergeAll m1 m2) "required" = some v → EntryOk D env (mergeAll m1 m2) i "required" v) ↔
      (∀ v, Obj.get m1 "required" = some v → EntryOk D env m1 i "required" v) ∧
      (∀ v, Obj.get m2 "required" = some v → EntryOk D env m2 i "required" v) := by
    obtain ⟨l1, hl1⟩ := arrAt_of_kinds h.left (k := "required") (by decide)
    obtain ⟨l2, hl2⟩ := arrAt_of_kinds h.right (k := "required") (by decide)
    have hm : ArrAt (mergeAll m1 m2) "required" (l1 ++ l2) := by
      unfold ArrAt
      rw [get_mergeAll_plain (Obj.sorted_nodup h.right.sorted) (by decide) (by decide)]
      rcases hl1 with ⟨e1, rfl⟩ | e1 <;> rcases hl2 with ⟨e2, rfl⟩ | e2 <;> rw [e1, e2] <;> simp [mergeValue]
    rw [entryOk_arrAt (by decide) hm, entryOk_arrAt (by decide) hl1, entryOk_arrAt (by decide) hl2,
      entryOk_required_append]
    have hf : ∀ (m m' : List (String × Json)) v,
        EntryOk D env m i "required" v ↔ EntryOk D env m' i "required" v :=
      fun m m' v => entryOk_free (by decide) (by decide) (by decide)
    exact and_congr (hf _ _ _) (hf _ _ _)
  have hrest : ∀ k ∈ "allOf" :: altKeys, k ∉ restKeys := by decide
  constructor
  · intro hv
    have halt := (entryOk_alt_merge (D := D) (env := env) (i := i) h).1 fun k hk v hg =>
      hv k v hg (hrest k hk)
    have key : ∀ k, k ∉ restKeys → (∀ v, Obj.get m1 k = some v → EntryOk D env m1 i k v) ∧
        (∀ v, Obj.get m2 k = some v → EntryOk D env m2 i k v) := by
      intro k hkr
      have hk := fun v hg => hv k v hg hkr
      by_cases hc : k ∈ combinedKeys
      · unfold combinedKeys at hc
        simp only [List.mem_cons, List.not_mem_nil, or_false] at hc
        rcases hc with rfl | rfl | rfl | rfl | rfl | rfl
        · exact hreq.1 hk
        · exact (entryOk_map_merge h (by decide)).1 hk
        · exact (entryOk_map_merge h (by decide)).1 hk
        · exact ⟨halt.1 _ (by decide), halt.2 _ (by decide)⟩
        · exact ⟨halt.1 _ (by decide), halt.2 _ (by decide)⟩
        · exact ⟨halt.1 _ (by decide), halt.2 _ (by decide)⟩
      · exact (entryOk_keep_merge h hc hkr).1 hk
    exact ⟨fun k v hg hkr => (key k hkr).1 v hg, fun k v hg hkr => (key k hkr).2 v hg⟩
  · rintro ⟨hv1, hv2⟩
    have halt := (entryOk_alt_merge (D := D) (env := env) (i := i) h).2
      ⟨fun k hk v hg => hv1 k v hg (hrest k hk), fun k hk v hg => hv2 k v hg (hrest k hk)⟩
    intro k v hg hkr
    have hk := And.intro (fun v hg => hv1 k v hg hkr) (fun v hg => hv2 k v hg hkr)
    by_cases hc : k ∈ combinedKeys
    · unfold combinedKeys at hc
      simp only [List.mem_cons, List.not_mem_nil, or_false] at hc
      rcases hc with rfl | rfl | rfl | rfl | rfl | rfl
      · exact hreq.2 hk v hg
      · exact (entryOk_map_merge h (by decide)).2 hk v hg
      · exact (entryOk_map_merge h (by decide)).2 hk v hg
      · exact halt _ (by decide) v hg
      · exact halt _ (by decide) v hg
      · exact halt _ (by decide) v hg
    · exact (entryOk_keep_merge h hc hkr).2 hk v hg

/-! ### `additionalProperties` and `unevaluatedProperties` -/

theorem get_normalise {m1 m2 : List (String × Json)} {k : String} (hk : k ∉ restKeys) :
    Obj.get (normaliseUnevaluated m1 m2) k = Obj.get m1 k := by
  simp only [restKeys, List.mem_cons, List.not_mem_nil, or_false, not_or] at hk
  unfold normaliseUnevaluated
  cases Obj.get m1 "additionalProperties" with
  | none => rfl
  | some ap =>
    simp only
    split
    · rw [Obj.get_insert_ne _ _ (Ne.symm hk.2), Obj.get_remove_ne _ (Ne.symm hk.1)]
    · rfl

theorem sorted_normalise {m1 : List (String × Json)} (h : Obj.Sorted m1) (m2 : List (String × Json)) :
    Obj.Sorted (normaliseUnevaluated m1 m2) := by
  unfold normaliseUnevaluated
  cases Obj.get m1 "additionalProperties" with
  | none => exact h
  | some ap =>
    simp only
    split
    · exact Obj.sorted_insert (Obj.sorted_remove h _) _ _
    · exact h

theorem Spec.Kinds.normalise {m1 : List (String × Json)} (h : Kinds m1) (m2 : List (String × Json)) :
    Kinds (normaliseUnevaluated m1 m2) where
  sorted := sorted_normalise h.sorted m2
  maps := by
    intro k hk v hv
    rw [get_normalise ((by decide : ∀ k ∈ ["properties", "patternProperties"], k ∉ restKeys) k hk)] at hv
    exact h.maps k hk v hv
  lists := by
    intro k hk v hv
    rw [get_normalise ((by decide : ∀ k ∈ ["required", "allOf"], k ∉ restKeys) k hk)] at hv
    exact h.lists k hk v hv
  noNullable := by rw [get_normalise (by decide)]; exact h.noNullable

theorem Spec.Compatible.normalise {m1 m2 : List (String × Json)} (h : Compatible m1 m2) (n1 n2 : List (String × Json)) :
    Compatible (normaliseUnevaluated m1 n1) (normaliseUnevaluated m2 n2) where
  left := h.left.normalise n1
  right := h.right.normalise n2
  same := by
    intro k h1 h2 h3 a b ha hb
    rw [get_normalise h2] at ha hb
    exact h.same k h1 h2 h3 a b ha hb
  names := by
    intro k hk n a b ha hb
    have hkr := (by decide : ∀ k ∈ ["properties", "patternProperties"], k ∉ restKeys) k hk
    rw [get_normalise hkr] at ha hb
    exact h.names k hk n a b ha hb
  linked := by
    have hl : ∀ c ∈ linkedKeys, c ∉ restKeys := by decide
    rcases h.linked with h' | h'
    · left; intro k hk; rw [get_normalise (hl k hk)]; exact h' k hk
    · right; intro k hk; rw [get_normalise (hl k hk)]; exact h' k hk

theorem validApart_normalise {m1 : List (String × Json)} (h : Obj.Sorted m1) (m2 : List (String × Json)) :
    ValidApart D env (normaliseUnevaluated m1 m2) i ↔ ValidApart D env m1 i := by
  unfold ValidApart
  have : Obj.remove (Obj.remove (normaliseUnevaluated m1 m2) "additionalProperties") "unevaluatedProperties" =
      Obj.remove (Obj.remove m1 "additionalProperties") "unevaluatedProperties" := by
    refine Obj.ext_sorted (Obj.sorted_remove (Obj.sorted_remove (sorted_normalise h m2) _) _)
      (Obj.sorted_remove (Obj.sorted_remove h _) _) fun k => ?_
    rw [Obj.get_remove, Obj.get_remove, Obj.get_remove, Obj.get_remove]
    by_cases h1 : "unevaluatedProperties" = k
    · rw [if_pos h1, if_pos h1]
    by_cases h2 : "additionalProperties" = k
    · rw [if_neg h1, if_neg h1, if_pos h2, if_pos h2]
    · rw [if_neg h1, if_neg h1, if_neg h2, if_neg h2, get_normalise]
      simp only [restKeys, List.mem_cons, List.not_mem_nil, or_false, not_or]
      exact ⟨Ne.symm h2, Ne.symm h1⟩
  rw [this]

theorem flattenObjects_eq (m1 m2 : List (String × Json)) : flattenObjects m1 m2 =
    mergeAll (normaliseUnevaluated m1 m2) (normaliseUnevaluated m2 (normaliseUnevaluated m1 m2)) := rfl

/-- C49: apart from the restriction of other members, the flattened schema says what both schemas say. -/
theorem C49_both {m1 m2 : List (String × Json)} (h : Compatible m1 m2)
    (h1 : D.refSiblings = true ∨ Obj.get m1 "$ref" = none) (h2 : D.refSiblings = true ∨ Obj.get m2 "$ref" = none) :
    ∃ m, flatten (.obj m1) (.obj m2) = .obj m ∧
      (ValidApart D env m i ↔ ValidApart D env m1 i ∧ ValidApart D env m2 i) := by
  refine ⟨flattenObjects m1 m2, rfl, ?_⟩
  rw [flattenObjects_eq, validApart_merge (h.normalise _ _), validApart_normalise h.left.sorted,
    validApart_normalise h.right.sorted]
  · rw [get_normalise (by decide)]; exact h1
  · rw [get_normalise (by decide)]; exact h2

theorem validApart_of_valid {m : List (String × Json)} (hm : Obj.Sorted m)
    (hr : D.refSiblings = true ∨ Obj.get m "$ref" = none) (h : Valid D env (.obj m) i) :
    ValidApart D env m i := by
  rw [validApart_iff hm hr]
  rw [valid_get hr hm] at h
  exact fun k v hg _ => h k v hg

theorem validApart_iff_valid {m : List (String × Json)} (h : ∀ k ∈ restKeys, Obj.get m k = none) :
    ValidApart D env m i ↔ Valid D env (.obj m) i := by
  unfold ValidApart
  rw [Obj.remove_of_get_none (h "additionalProperties" (by decide)),
    Obj.remove_of_get_none (h "unevaluatedProperties" (by decide))]

theorem sorted_flattenObjects {m1 m2 : List (String × Json)} (h : Obj.Sorted m1) :
    Obj.Sorted (flattenObjects m1 m2) := by
  rw [flattenObjects_eq]; exact sorted_mergeAll (sorted_normalise h _)

theorem flattenObjects_ref {m1 m2 : List (String × Json)} (h : Compatible m1 m2)
    (h1 : D.refSiblings = true ∨ Obj.get m1 "$ref" = none) (h2 : D.refSiblings = true ∨ Obj.get m2 "$ref" = none) :
    D.refSiblings = true ∨ Obj.get (flattenObjects m1 m2) "$ref" = none := by
  rcases h1 with h1 | h1
  · exact .inl h1
  rcases h2 with h2 | h2
  · exact .inl h2
  right
  rw [flattenObjects_eq, get_mergeAll_keep (h.normalise _ _) (by decide), get_normalise (by decide),
    get_normalise (by decide), h1, h2]
  rfl

/-- C49: what is accepted by the flattened schema satisfies both schemas, apart from their restriction of
other members. -/
theorem C49_accepted {m1 m2 : List (String × Json)} (h : Compatible m1 m2)
    (h1 : D.refSiblings = true ∨ Obj.get m1 "$ref" = none) (h2 : D.refSiblings = true ∨ Obj.get m2 "$ref" = none)
    (hv : Valid D env (flatten (.obj m1) (.obj m2)) i) : ValidApart D env m1 i ∧ ValidApart D env m2 i := by
  obtain ⟨m, hm, hiff⟩ := C49_both (D := D) (env := env) (i := i) h h1 h2
  obtain rfl : flattenObjects m1 m2 = m := by injection hm
  exact hiff.1 (validApart_of_valid (sorted_flattenObjects h.left.sorted) (flattenObjects_ref h h1 h2) hv)

theorem normalise_id {m1 m2 : List (String × Json)} (h : Obj.get m1 "additionalProperties" = none) :
    normaliseUnevaluated m1 m2 = m1 := by
  unfold normaliseUnevaluated; rw [h]

/-- C49: two schemas that do not restrict other members are flattened to their conjunction. -/
theorem C49_conjunction {m1 m2 : List (String × Json)} (h : Compatible m1 m2)
    (h1 : D.refSiblings = true ∨ Obj.get m1 "$ref" = none) (h2 : D.refSiblings = true ∨ Obj.get m2 "$ref" = none)
    (hr1 : ∀ k ∈ restKeys, Obj.get m1 k = none) (hr2 : ∀ k ∈ restKeys, Obj.get m2 k = none) :
    Valid D env (flatten (.obj m1) (.obj m2)) i ↔ Valid D env (.obj m1) i ∧ Valid D env (.obj m2) i := by
  obtain ⟨m, hm, hiff⟩ := C49_both (D := D) (env := env) (i := i) h h1 h2
  have hm' : flattenObjects m1 m2 = m := by injection hm
  have hr : ∀ k ∈ restKeys, Obj.get m k = none := by
    intro k hk
    have hkc := (by decide : ∀ k ∈ restKeys, k ∉ combinedKeys) k hk
    rw [← hm', flattenObjects_eq, normalise_id (hr1 _ (by decide)), normalise_id (hr2 _ (by decide)),
      get_mergeAll_keep h hkc, hr1 k hk, hr2 k hk]
    rfl
  rw [hm, ← validApart_iff_valid hr, ← validApart_iff_valid hr1, ← validApart_iff_valid hr2]
  exact hiff

/-- C49: without in-place subschemas, the members with a name in neither schema are restricted by the
`additionalProperties` of the first schema that has it. -/
theorem C49_additional {m1 m2 : List (String × Json)} (h : Compatible m1 m2)
    (hi1 : containsImmediate m1 = false) (hi2 : containsImmediate m2 = false)
    (hu1 : Obj.get m1 "unevaluatedProperties" = none) (hu2 : Obj.get m2 "unevaluatedProperties" = none) :
    Valid D env (flatten (.obj m1) (.obj m2)) i ↔ ValidApart D env m1 i ∧ ValidApart D env m2 i ∧
      ∀ v, (Obj.get m1 "additionalProperties").or (Obj.get m2 "additionalProperties") = some v →
        ∀ e ∈ members i, ¬ Named env m1 e.1 → ¬ Named env m2 e.1 → Valid D env v e.2 := by
  have hno : ∀ (m : List (String × Json)), containsImmediate m = false → Obj.get m "$ref" = none := by
    intro m hm
    unfold containsImmediate at hm
    rw [List.any_eq_false] at hm
    have := hm "$ref" (by decide)
    unfold Obj.has at this
    simpa using this
  have hid : ∀ {m m' : List (String × Json)}, containsImmediate m' = false →
      Obj.get m' "unevaluatedProperties" = none → normaliseUnevaluated m m' = m := by
    intro m m' hc hu
    unfold normaliseUnevaluated Obj.has
    rw [hc, hu]
    cases Obj.get m "additionalProperties" <;> rfl
  have h1 : D.refSiblings = true ∨ Obj.get m1 "$ref" = none := .inr (hno _ hi1)
  have h2 : D.refSiblings = true ∨ Obj.get m2 "$ref" = none := .inr (hno _ hi2)
  have he : flattenObjects m1 m2 = mergeAll m1 m2 := by
    rw [flattenObjects_eq, hid hi2 hu2, hid hi1 hu1]
  have hr := flattenObjects_ref (D := D) h h1 h2
  have hs := sorted_flattenObjects (m2 := m2) h.left.sorted
  rw [he] at hr hs
  show Valid D env (.obj (flattenObjects m1 m2)) i ↔ _
  rw [he, ← and_assoc, ← validApart_merge h h1 h2]
  have hnamed : ∀ k, Named env (mergeAll m1 m2) k ↔ Named env m1 k ∨ Named env m2 k := by
    intro k
    unfold Named
    obtain ⟨p1, p2, p, e1, e2, e3, hp, -⟩ := get_merged_map h.left h.right (k := "properties") (by decide)
    obtain ⟨q1, q2, q, f1, f2, f3, hq, t1, t2, t3, -⟩ :=
      get_merged_map h.left h.right (k := "patternProperties") (by decide)
    have hmb : ∀ (m : List (String × Json)) k, memb m k = members ((Obj.get m k).getD .null) := by
      intro m k; unfold memb; cases Obj.get m k <;> rfl
    rw [hmb, hmb, hmb, hmb, hmb, hmb, e1, e2, e3, f1, f2, f3]
    have hh : Obj.has p k = true ↔ Obj.has p1 k = true ∨ Obj.has p2 k = true := by
      unfold Obj.has
      rw [hp]
      cases Obj.get p2 k <;> cases Obj.get p1 k <;> simp
    have hpat : (∃ x ∈ q, env.rx x.1 k = true) ↔ (∃ x ∈ q1, env.rx x.1 k = true) ∨ ∃ x ∈ q2, env.rx x.1 k = true := by
      have hkeys : ∀ {l : List (String × Json)}, Obj.Sorted l →
          ((∃ x ∈ l, env.rx x.1 k = true) ↔ ∃ n, env.rx n k = true ∧ (Obj.get l n).isSome) := by
        intro l hl
        constructor
        · rintro ⟨x, hx, hr⟩
          exact ⟨x.1, hr, by rw [Obj.get_of_mem_sorted hl hx]; rfl⟩
        · rintro ⟨n, hr, hn⟩
          obtain ⟨v, hv⟩ := Option.isSome_iff_exists.1 hn
          exact ⟨(n, v), Obj.get_mem hv, hr⟩
      rw [hkeys t1, hkeys t2, hkeys t3, ← exists_or]
      refine exists_congr fun n => ?_
      rw [hq, ← and_or_left]
      cases Obj.get q2 n <;> cases Obj.get q1 n <;> simp
    rw [hh, hpat]
    constructor
    · rintro ((h | h) | (h | h))
      · exact .inl (.inl h)
      · exact .inr (.inl h)
      · exact .inl (.inr h)
      · exact .inr (.inr h)
    · rintro ((h | h) | (h | h))
      · exact .inl (.inl h)
      · exact .inr (.inl h)
      · exact .inl (.inr h)
      · exact .inr (.inr h)
  rw [validApart_iff hs hr, valid_get hr hs]
  have hap := get_mergeAll_keep h (k := "additionalProperties") (by decide)
  have hup : Obj.get (mergeAll m1 m2) "unevaluatedProperties" = none := by
    rw [get_mergeAll_keep h (by decide), hu1, hu2]; rfl
  constructor
  · intro hv
    refine ⟨fun k v hg _ => hv k v hg, fun v hg e he hn1 hn2 => ?_⟩
    have := hv "additionalProperties" v (hap.trans hg)
    exact this e he (by rw [hnamed]; exact fun h => h.elim hn1 hn2)
  · rintro ⟨hv, hx⟩ k v hg
    by_cases hk : k ∈ restKeys
    · simp only [restKeys, List.mem_cons, List.not_mem_nil, or_false] at hk
      rcases hk with rfl | rfl
      · intro e he hn
        rw [hnamed, not_or] at hn
        exact hx v (hap.symm.trans hg) e he hn.1 hn.2
      · rw [hup] at hg; cases hg
    · exact hv k v hg hk

/-- C49: flattening the schema `true` changes nothing about what is accepted; in particular unknown members that were
denied still are. -/
theorem C49_true {m : List (String × Json)} (hm : Obj.Sorted m)
    (hr : D.refSiblings = true ∨ Obj.get m "$ref" = none) :
    Valid D env (flatten (.obj m) (.bool true)) i ↔ Valid D env (.obj m) i := by
  unfold flatten
  dsimp only
  split
  · rename_i h
    simp only [Bool.and_eq_true, Bool.not_eq_true', Obj.has, Option.isSome_eq_false_iff, Option.isNone_iff_eq_none] at h
    have key : ∀ k ∈ restKeys, Valid D env (.obj (Obj.insert m k (.bool true))) i ↔ Valid D env (.obj m) i := by
      intro k hk
      have hne : ∀ c, c ∉ restKeys → Obj.get (Obj.insert m k (.bool true)) c = Obj.get m c :=
        fun c hc => Obj.get_insert_ne _ _ fun e => hc (e ▸ hk)
      have hc : ∀ c v, c ∉ restKeys → (EntryOk D env (Obj.insert m k (.bool true)) i c v ↔ EntryOk D env m i c v) := by
        intro c v hc
        by_cases h1 : c ∈ linkedKeys
        · exact entryOk_linked h1 fun c hc => hne c (by revert hc c; decide)
        by_cases h2 : c = "type"
        · subst h2; exact entryOk_typeCongr (hne _ (by decide))
        · exact entryOk_free h1 hc h2
      rw [valid_get (by rw [hne _ (by decide)]; exact hr) (Obj.sorted_insert hm _ _), valid_get hr hm]
      constructor
      · intro H c v hv
        by_cases hcr : c ∈ restKeys
        · simp only [restKeys, List.mem_cons, List.not_mem_nil, or_false] at hcr
          rcases hcr with rfl | rfl
          · rw [h.1] at hv; cases hv
          · rw [h.2] at hv; cases hv
        · exact (hc c v hcr).1 (H c v (by rw [hne c hcr]; exact hv))
      · intro H c v hv
        by_cases hcr : c ∈ restKeys
        · by_cases hck : c = k
          · subst hck
            rw [Obj.get_insert_self] at hv
            cases hv
            simp only [restKeys, List.mem_cons, List.not_mem_nil, or_false] at hcr
            rcases hcr with rfl | rfl
            · intro e _ _; rfl
            · intro _ e _ _; rfl
          · rw [Obj.get_insert_ne _ _ (Ne.symm hck)] at hv
            simp only [restKeys, List.mem_cons, List.not_mem_nil, or_false] at hcr
            rcases hcr with rfl | rfl
            · rw [h.1] at hv; cases hv
            · rw [h.2] at hv; cases hv
        · exact (hc c v hcr).2 (H c v (by rw [← hne c hcr]; exact hv))
    apply key
    split <;> decide
  · rfl

/-- C49: flattening the schema `false` changes nothing. -/
theorem C49_false (s : Json) : flatten s (.bool false) = s := rfl

example : Obj.Sorted [("type", Json.str "object"), ("unevaluatedProperties", .bool false)] ∧
    Obj.get [("type", Json.str "object"), ("unevaluatedProperties", .bool false)] "$ref" = none :=
  ⟨by simp only [Obj.Sorted]; decide, rfl⟩

/-- C49: when the flattened schema has in-place subschemas, the restriction of other members moves to
`unevaluatedProperties`, which also sees the members described by those. -/
theorem C49_moved {m1 m2 : List (String × Json)} (h : Compatible m1 m2) {ap : Json}
    (hap : Obj.get m1 "additionalProperties" = some ap) (hi : containsImmediate m2 = true) :
    ∃ m, flatten (.obj m1) (.obj m2) = .obj m ∧ Obj.get m "unevaluatedProperties" = some ap ∧
      Obj.get m "additionalProperties" = none := by
  refine ⟨flattenObjects m1 m2, rfl, ?_⟩
  have hn1 : normaliseUnevaluated m1 m2 =
      Obj.insert (Obj.remove m1 "additionalProperties") "unevaluatedProperties" ap := by
    unfold normaliseUnevaluated; rw [hap, hi]; simp
  have hu : Obj.get (normaliseUnevaluated m1 m2) "unevaluatedProperties" = some ap := by
    rw [hn1, Obj.get_insert_self]
  have ha : Obj.get (normaliseUnevaluated m1 m2) "additionalProperties" = none := by
    rw [hn1, Obj.get_insert_ne _ _ (by decide), Obj.get_remove_self]
  have ha2 : Obj.get (normaliseUnevaluated m2 (normaliseUnevaluated m1 m2)) "additionalProperties" = none := by
    generalize normaliseUnevaluated m1 m2 = n1 at hu
    unfold normaliseUnevaluated Obj.has
    cases hg : Obj.get m2 "additionalProperties" with
    | none => exact hg
    | some v =>
      simp only [hu, Option.isSome_some, Bool.true_or, if_true]
      rw [Obj.get_insert_ne _ _ (by decide), Obj.get_remove_self]
  rw [flattenObjects_eq, get_mergeAll_keep (h.normalise _ _) (by decide),
    get_mergeAll_keep (h.normalise _ _) (by decide), hu, ha, ha2]
  exact ⟨rfl, rfl⟩

/-! ### Names -/

/-- C49: the declared names of the flattened schema are those of both; a name in both has the schema of the
second. -/
theorem C49_properties {m1 m2 : List (String × Json)} (h1 : Kinds m1) (h2 : Kinds m2) :
    ∃ m, flatten (.obj m1) (.obj m2) = .obj m ∧ ∀ n, Obj.get (members ((Obj.get m "properties").getD .null)) n =
      (Obj.get (members ((Obj.get m2 "properties").getD .null)) n).or
        (Obj.get (members ((Obj.get m1 "properties").getD .null)) n) := by
  refine ⟨flattenObjects m1 m2, rfl, fun n => ?_⟩
  rw [flattenObjects_eq]
  obtain ⟨p1, p2, p, e1, e2, e3, hp, -⟩ := get_merged_map (h1.normalise m2)
    (h2.normalise (normaliseUnevaluated m1 m2)) (k := "properties") (by decide)
  rw [get_normalise (by decide)] at e1 e2
  rw [e1, e2, e3, hp]

/-- C49: the required names of the flattened schema are those of the first, and then those of the second. -/
theorem C49_required {m1 m2 : List (String × Json)} (h1 : Kinds m1) (h2 : Kinds m2) :
    ∃ m, flatten (.obj m1) (.obj m2) = .obj m ∧ elems ((Obj.get m "required").getD .null) =
      elems ((Obj.get m1 "required").getD .null) ++ elems ((Obj.get m2 "required").getD .null) := by
  refine ⟨flattenObjects m1 m2, rfl, ?_⟩
  rw [flattenObjects_eq, get_mergeAll_plain (Obj.sorted_nodup (h2.normalise _).sorted) (by decide) (by decide),
    get_normalise (by decide), get_normalise (by decide)]
  cases e1 : Obj.get m1 "required" with
  | none => cases e2 : Obj.get m2 "required" <;> rfl
  | some v1 =>
    obtain ⟨l1, rfl⟩ := h1.lists "required" (by decide) _ e1
    cases e2 : Obj.get m2 "required" with
    | none => simp [elems]
    | some v2 =>
      obtain ⟨l2, rfl⟩ := h2.lists "required" (by decide) _ e2
      rfl

end

/-! ### Examples and failures -/

/-- The schema of a struct with the members `a` and (optional) `b`, flattened with the one of an enum. -/
example : Compatible
    [("additionalProperties", .bool false), ("properties", .obj [("a", .bool true)]), ("required", .arr [.str "a"]),
      ("type", .str "object")]
    [("oneOf", .arr [.bool true, .bool false]), ("properties", .obj [("b", .bool true)]), ("type", .str "object")] where
  left := by
    refine ⟨by unfold Obj.Sorted; decide, ?_, ?_, rfl⟩
    · intro k hk v hv
      simp only [List.mem_cons, List.not_mem_nil, or_false] at hk
      rcases hk with rfl | rfl <;> cases hv
      exact ⟨_, rfl, by unfold Obj.Sorted; decide⟩
    · intro k hk v hv
      simp only [List.mem_cons, List.not_mem_nil, or_false] at hk
      rcases hk with rfl | rfl <;> cases hv
      exact ⟨_, rfl⟩
  right := by
    refine ⟨by unfold Obj.Sorted; decide, ?_, ?_, rfl⟩
    · intro k hk v hv
      simp only [List.mem_cons, List.not_mem_nil, or_false] at hk
      rcases hk with rfl | rfl <;> cases hv
      exact ⟨_, rfl, by unfold Obj.Sorted; decide⟩
    · intro k hk v hv
      simp only [List.mem_cons, List.not_mem_nil, or_false] at hk
      rcases hk with rfl | rfl <;> cases hv
  same := by
    intro k h1 h2 h3 a b ha hb
    rw [Obj.get_cons] at ha
    split at ha
    · subst k; exact absurd (by decide) h2
    rw [Obj.get_cons] at ha
    split at ha
    · subst k; exact absurd (by decide) h1
    rw [Obj.get_cons] at ha
    split at ha
    · subst k; exact absurd (by decide) h1
    rw [Obj.get_cons] at ha
    split at ha
    · subst k; cases ha; cases hb; rfl
    · cases ha
  names := by
    intro k hk n a b ha hb
    simp only [List.mem_cons, List.not_mem_nil, or_false] at hk
    rcases hk with rfl | rfl
    · change Obj.get [("a", .bool true)] n = some a at ha
      change Obj.get [("b", .bool true)] n = some b at hb
      rw [Obj.get_cons] at ha hb
      split at ha
      · subst n; simp at hb
      · cases ha
    · cases ha
  linked := .inl (by decide)

example : flatten
    (.obj [("additionalProperties", .bool false), ("properties", .obj [("a", .bool true)]),
      ("required", .arr [.str "a"]), ("type", .str "object")])
    (.obj [("oneOf", .arr [.bool true, .bool false]), ("properties", .obj [("b", .bool true)]),
      ("type", .str "object")]) =
    .obj [("oneOf", .arr [.bool true, .bool false]), ("properties", .obj [("a", .bool true), ("b", .bool true)]),
      ("required", .arr [.str "a"]), ("type", .str "object"), ("unevaluatedProperties", .bool false)] := by rfl

/-- C49 in full: the names of both are declared, the names required by either are required, and an accepted
instance satisfies both schemas, apart from their restriction of other members. -/
def C49_Full : Prop :=
  ∀ (D : Dialect) (env : Env) (m1 m2 : List (String × Json)) (i : Json), Kinds m1 → Kinds m2 →
    D.refSiblings = true → Valid D env (flatten (.obj m1) (.obj m2)) i →
    ValidApart D env m1 i ∧ ValidApart D env m2 i

/-- Both schemas declare the name `a`: the schema of the second replaces the one of the first. -/
theorem C49_same_name : flatten (.obj [("properties", .obj [("a", .bool false)])])
    (.obj [("properties", .obj [("a", .bool true)])]) = .obj [("properties", .obj [("a", .bool true)])] := by rfl

/-- Both schemas are a reference: that of the second is lost. -/
theorem C49_two_refs : flatten (.obj [("$ref", .str "#/$defs/A")]) (.obj [("$ref", .str "#/$defs/B")]) =
    .obj [("$ref", .str "#/$defs/A")] := by rfl

/-- Both schemas restrict the other members: the restriction of the second is lost. -/
theorem C49_two_maps : flatten (.obj [("additionalProperties", .obj [("type", .str "string")])])
    (.obj [("additionalProperties", .obj [("type", .str "null")])]) =
    .obj [("additionalProperties", .obj [("type", .str "string")])] := by rfl

/-- C49 does not hold for all pairs of object schemas. -/
theorem C49_full_fails : ¬ C49_Full := by
  intro h
  have hk : ∀ b, Kinds [("properties", .obj [("a", .bool b)])] := by
    intro b
    refine ⟨List.pairwise_singleton _ _, ?_, ?_, rfl⟩
    · intro k hk v hv
      simp only [List.mem_cons, List.not_mem_nil, or_false] at hk
      rcases hk with rfl | rfl <;> cases hv
      exact ⟨_, rfl, List.pairwise_singleton _ _⟩
    · intro k hk v hv
      simp only [List.mem_cons, List.not_mem_nil, or_false] at hk
      rcases hk with rfl | rfl <;> cases hv
  have := (h draft2020 trivialEnv _ _ (.obj [("a", .null)]) (hk false) (hk true) rfl (by rw [C49_same_name]; rfl)).1
  exact absurd this (by unfold ValidApart Valid; decide)

end Verif
