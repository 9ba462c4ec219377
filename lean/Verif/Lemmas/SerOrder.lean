import Verif.SerOrder
import Verif.Spec.SerOrder
import Verif.Lemmas.Obj

namespace Verif
open Spec Ser

/-- Keys are distinct in every object of the value. Holds for both map implementations. -/
inductive Spec.NodupKeys : Json → Prop
  | null : NodupKeys .null
  | bool (b) : NodupKeys (.bool b)
  | num (n) : NodupKeys (.num n)
  | str (s) : NodupKeys (.str s)
  | arr {l} : (∀ x ∈ l, NodupKeys x) → NodupKeys (.arr l)
  | obj {m} : (Obj.keys m).Nodup → (∀ e ∈ m, NodupKeys e.2) → NodupKeys (.obj m)

theorem Json.WF.nodupKeys {j : Json} (h : j.WF) : NodupKeys j := by
  induction h with
  | null => exact .null
  | bool b => exact .bool b
  | num n => exact .num n
  | str s => exact .str s
  | arr l _ ih => exact .arr ih
  | obj m hs _ ih => exact .obj (Obj.sorted_nodup hs) ih

theorem serList_eq (l : List Json) : serList l = l.map (ser false) := by
  induction l with
  | nil => rfl
  | cons j t ih => rw [serList, ih]; rfl

theorem serMap_eq (m : List (String × Json)) : serMap m = m.map (fun e => (e.1, ser false e.2)) := by
  induction m with
  | nil => rfl
  | cons e t ih => obtain ⟨k, v⟩ := e; rw [serMap, ih]; rfl

theorem serProps_eq (m : List (String × Json)) :
    serProps m = m.map (fun e => (e.1, if isPlain e.1 then e.2 else ser (isNoReorder e.1) e.2)) := by
  induction m with
  | nil => rfl
  | cons e t ih => obtain ⟨k, v⟩ := e; rw [serProps, ih]; rfl

theorem readBackList_eq (l : List Json) : readBackList l = l.map readBack := by
  induction l with
  | nil => rfl
  | cons j t ih => rw [readBackList, ih]; rfl

theorem readBackObj_eq (m : List (String × Json)) :
    readBackObj m = m.map (fun e => (e.1, readBack e.2)) := by
  induction m with
  | nil => rfl
  | cons e t ih => obtain ⟨k, v⟩ := e; rw [readBackObj, ih]; rfl

/-- The entry with a key, as a list. -/
def optEntry (c : List (String × Json)) (k : String) : List (String × Json) :=
  ((Obj.get c k).map fun v => (k, v)).toList

theorem emitOrder_eq (c : List (String × Json)) :
    emitOrder c = optEntry c "$id" ++ (optEntry c "$schema" ++ (optEntry c "title" ++
      (optEntry c "description" ++ (optEntry c "type" ++ (optEntry c "format" ++
      (optEntry c "properties" ++
      (c.filter (fun e => !orderedStart.contains e.1 && !orderedEnd.contains e.1) ++
      (optEntry c "$defs" ++ optEntry c "definitions")))))))) := by
  have h : ∀ k l, (k :: l).filterMap (fun key => (Obj.get c key).map fun v => (key, v)) =
      optEntry c k ++ l.filterMap (fun key => (Obj.get c key).map fun v => (key, v)) := by
    intro k l
    rw [List.filterMap_cons]
    unfold optEntry
    cases Obj.get c k <;> simp
  simp only [emitOrder, orderedStart, orderedEnd, h, List.filterMap_nil, List.append_nil,
    List.append_assoc]

theorem filter_key {c : List (String × Json)} (h : (Obj.keys c).Nodup) (k : String) :
    c.filter (fun e => e.1 = k) = optEntry c k := by
  induction c with
  | nil => rfl
  | cons e t ih =>
    obtain ⟨k', v⟩ := e
    have h' : k' ∉ Obj.keys t ∧ (Obj.keys t).Nodup := by
      simpa only [Obj.keys, List.map_cons, List.nodup_cons] using h
    by_cases hk : k' = k
    · subst hk
      have h0 := ih h'.2
      have h1 : Obj.get t k' = none := Obj.get_eq_none.2 h'.1
      simp only [optEntry, h1, Option.map_none, Option.toList_none] at h0
      simp [h0, optEntry, Obj.get]
    · simp only [List.filter_cons, hk, decide_false, Bool.false_eq_true, if_false, ih h'.2]
      simp [optEntry, Obj.get, hk]

theorem mem_optEntry {c : List (String × Json)} {k : String} {e : String × Json}
    (h : e ∈ optEntry c k) : e.1 = k := by
  unfold optEntry at h
  cases hg : Obj.get c k with
  | none => simp [hg] at h
  | some v => simp [hg] at h; simp [h]

theorem pairwise_optEntry (c : List (String × Json)) (k : String) (R) : (optEntry c k).Pairwise R := by
  unfold optEntry; cases Obj.get c k <;> simp

theorem filter_optEntry (c : List (String × Json)) (k : String) (r : Nat) :
    (optEntry c k).filter (fun e => rank e.1 = r) = if rank k = r then optEntry c k else [] := by
  unfold optEntry
  cases Obj.get c k with
  | none => simp
  | some v =>
    simp only [Option.map_some, Option.toList_some, List.filter_cons, List.filter_nil]
    by_cases h : rank k = r <;> simp [h]

theorem rank_mid (k : String) :
    (!orderedStart.contains k && !orderedEnd.contains k) = decide (rank k = 7) := by
  by_cases h : rank k = 7
  · simp only [h, decide_true]
    have : ∀ q ∈ orderedStart ++ orderedEnd, k ≠ q := by
      rintro q hq rfl
      have : ∀ q ∈ orderedStart ++ orderedEnd, rank q ≠ 7 := by decide
      exact this k hq h
    simp only [Bool.and_eq_true, Bool.not_eq_true', List.contains_eq_mem, decide_eq_false_iff_not]
    exact ⟨fun hm => this k (by simp [hm]) rfl, fun hm => this k (by simp [hm]) rfl⟩
  · simp only [h, decide_false]
    have : k ∈ orderedStart ∨ k ∈ orderedEnd := by
      unfold rank at h
      split at h <;> simp_all [orderedStart, orderedEnd]
    rcases this with h | h
    · have h1 : orderedStart.contains k = true := List.elem_eq_true_of_mem h
      rw [h1]; rfl
    · have h1 : orderedEnd.contains k = true := List.elem_eq_true_of_mem h
      rw [h1]; simp

theorem rank_inj {k q : String} (hq : q ∈ orderedStart ++ orderedEnd) (h : rank k = rank q) : k = q := by
  unfold rank at h
  simp only [orderedStart, orderedEnd, List.cons_append, List.nil_append, List.mem_cons,
    List.not_mem_nil, or_false] at hq
  rcases hq with rfl | rfl | rfl | rfl | rfl | rfl | rfl | rfl | rfl <;>
    (simp only at h; split at h <;> simp_all)

theorem filter_rank {c : List (String × Json)} (h : (Obj.keys c).Nodup) {q : String}
    (hq : q ∈ orderedStart ++ orderedEnd) :
    c.filter (fun e => rank e.1 = rank q) = optEntry c q := by
  rw [← filter_key h]
  refine List.filter_congr (fun e _ => ?_)
  by_cases he : e.1 = q
  · simp [he]
  · have : rank e.1 ≠ rank q := fun h => he (rank_inj hq h)
    simp [he, this]

theorem emitOrder_stable {c : List (String × Json)} (h : (Obj.keys c).Nodup) :
    StableSorted c (emitOrder c) := by
  have hfil : ∀ r, (emitOrder c).filter (fun e => rank e.1 = r) = c.filter (fun e => rank e.1 = r) := by
    intro r
    have hmid : (c.filter (fun e => !orderedStart.contains e.1 && !orderedEnd.contains e.1)).filter
        (fun e => rank e.1 = r) = if r = 7 then c.filter (fun e => rank e.1 = 7) else [] := by
      simp only [rank_mid, List.filter_filter]
      by_cases hr : r = 7
      · subst hr; simp
      · simp only [hr, if_false]
        refine List.filter_eq_nil_iff.2 (fun e _ => ?_)
        simp only [Bool.and_eq_true, decide_eq_true_eq, not_and]
        rintro rfl; exact hr
    rw [emitOrder_eq]
    have r0 : rank "$id" = 0 := rfl
    have r1 : rank "$schema" = 1 := rfl
    have r2 : rank "title" = 2 := rfl
    have r3 : rank "description" = 3 := rfl
    have r4 : rank "type" = 4 := rfl
    have r5 : rank "format" = 5 := rfl
    have r6 : rank "properties" = 6 := rfl
    have r8 : rank "$defs" = 8 := rfl
    have r9 : rank "definitions" = 9 := rfl
    simp only [List.filter_append, filter_optEntry, hmid, r0, r1, r2, r3, r4, r5, r6, r8, r9]
    by_cases h0 : r = 0
    · subst h0; simpa using (r0 ▸ filter_rank h (q := "$id") (by decide)).symm
    by_cases h1 : r = 1
    · subst h1; simpa using (r1 ▸ filter_rank h (q := "$schema") (by decide)).symm
    by_cases h2 : r = 2
    · subst h2; simpa using (r2 ▸ filter_rank h (q := "title") (by decide)).symm
    by_cases h3 : r = 3
    · subst h3; simpa using (r3 ▸ filter_rank h (q := "description") (by decide)).symm
    by_cases h4 : r = 4
    · subst h4; simpa using (r4 ▸ filter_rank h (q := "type") (by decide)).symm
    by_cases h5 : r = 5
    · subst h5; simpa using (r5 ▸ filter_rank h (q := "format") (by decide)).symm
    by_cases h6 : r = 6
    · subst h6; simpa using (r6 ▸ filter_rank h (q := "properties") (by decide)).symm
    by_cases h7 : r = 7
    · subst h7; simp
    by_cases h8 : r = 8
    · subst h8; simpa using (r8 ▸ filter_rank h (q := "$defs") (by decide)).symm
    by_cases h9 : r = 9
    · subst h9; simpa using (r9 ▸ filter_rank h (q := "definitions") (by decide)).symm
    have : c.filter (fun e => rank e.1 = r) = [] := by
      refine List.filter_eq_nil_iff.2 (fun e _ => ?_)
      simp only [decide_eq_true_eq]
      rintro rfl
      unfold rank at *
      split at h0 <;> simp_all
    rw [this]
    simp [Ne.symm h0, Ne.symm h1, Ne.symm h2, Ne.symm h3, Ne.symm h4, Ne.symm h5, Ne.symm h6, h7,
      Ne.symm h8, Ne.symm h9]
  refine ⟨?_, ?_, hfil⟩
  · rw [List.perm_iff_count]
    intro a
    have h1 : ∀ l : List (String × Json), l.count a = (l.filter (fun e => rank e.1 = rank a.1)).count a :=
      fun l => (List.count_filter (by simp)).symm
    rw [h1 (emitOrder c), h1 c, hfil]
  · rw [emitOrder_eq]
    have hm : ∀ e ∈ c.filter (fun e => !orderedStart.contains e.1 && !orderedEnd.contains e.1),
        rank e.1 = 7 := by
      intro e he
      simp only [rank_mid, List.mem_filter, decide_eq_true_eq] at he
      exact he.2
    have hmid : (c.filter (fun e => !orderedStart.contains e.1 && !orderedEnd.contains e.1)).Pairwise
        (fun a b => rank a.1 ≤ rank b.1) := by
      have : ∀ l : List (String × Json), (∀ e ∈ l, rank e.1 = 7) →
          l.Pairwise (fun a b => rank a.1 ≤ rank b.1) := by
        intro l hl
        induction l with
        | nil => exact .nil
        | cons a l ih =>
          refine .cons (fun b hb => ?_) (ih (fun e he => hl e (by simp [he])))
          rw [hl a (by simp), hl b (by simp [hb])]; exact Nat.le_refl _
      exact this _ hm
    have hle : ∀ {l : List (String × Json)} {r : Nat} {k : String}, rank k ≤ r →
        (∀ e ∈ l, r ≤ rank e.1) →
        ∀ a ∈ optEntry c k, ∀ b ∈ l, rank a.1 ≤ rank b.1 := by
      intro l r k h1 h2 a ha b hb
      rw [mem_optEntry ha]; exact Nat.le_trans h1 (h2 b hb)
    have m9 : ∀ e ∈ optEntry c "definitions", 9 ≤ rank e.1 := by
      intro e he; rw [mem_optEntry he]; decide
    have m8 : ∀ e ∈ optEntry c "$defs" ++ optEntry c "definitions", 8 ≤ rank e.1 := by
      intro e he; rcases List.mem_append.1 he with he | he
      · rw [mem_optEntry he]; decide
      · exact Nat.le_trans (by decide) (m9 e he)
    have step : ∀ {l : List (String × Json)} {r : Nat} {k : String}, r ≤ rank k → (∀ e ∈ l, r + 1 ≤ rank e.1) →
        ∀ e ∈ optEntry c k ++ l, r ≤ rank e.1 := by
      intro l r k h1 h2 e he; rcases List.mem_append.1 he with he | he
      · rw [mem_optEntry he]; exact h1
      · exact Nat.le_trans (Nat.le_succ r) (h2 e he)
    have m7 : ∀ e ∈ c.filter (fun e => !orderedStart.contains e.1 && !orderedEnd.contains e.1) ++
        (optEntry c "$defs" ++ optEntry c "definitions"), 7 ≤ rank e.1 := by
      intro e he; rcases List.mem_append.1 he with he | he
      · rw [hm e he]; exact Nat.le_refl _
      · exact Nat.le_trans (by decide) (m8 e he)
    have m6 := step (k := "properties") (r := 6) (by decide) m7
    have m5 := step (k := "format") (r := 5) (by decide) m6
    have m4 := step (k := "type") (r := 4) (by decide) m5
    have m3 := step (k := "description") (r := 3) (by decide) m4
    have m2 := step (k := "title") (r := 2) (by decide) m3
    have m1 := step (k := "$schema") (r := 1) (by decide) m2
    have p := fun k => pairwise_optEntry c k (fun a b => rank a.1 ≤ rank b.1)
    refine List.pairwise_append.2 ⟨p _, ?_, hle (by decide) m1⟩
    refine List.pairwise_append.2 ⟨p _, ?_, hle (by decide) m2⟩
    refine List.pairwise_append.2 ⟨p _, ?_, hle (by decide) m3⟩
    refine List.pairwise_append.2 ⟨p _, ?_, hle (by decide) m4⟩
    refine List.pairwise_append.2 ⟨p _, ?_, hle (by decide) m5⟩
    refine List.pairwise_append.2 ⟨p _, ?_, hle (by decide) m6⟩
    refine List.pairwise_append.2 ⟨p _, ?_, hle (by decide) m7⟩
    refine List.pairwise_append.2 ⟨hmid, ?_, ?_⟩
    · exact List.pairwise_append.2 ⟨p _, p _, hle (by decide) m9⟩
    · intro a ha b hb; rw [hm a ha]; exact Nat.le_trans (by decide) (m8 b hb)

theorem ofList_perm {l m : List (String × Json)} (hp : l.Perm m) (hs : Obj.Sorted m) :
    Obj.ofList l = m := by
  have hn : (Obj.keys l).Nodup := (hp.map Prod.fst).nodup_iff.2 (Obj.sorted_nodup hs)
  refine Obj.ext_sorted (Obj.sorted_ofList l) hs (fun q => ?_)
  unfold Obj.ofList
  rw [Obj.get_extend_nodup _ hn]
  cases h : Obj.get l q with
  | none =>
    simp only [Obj.get_nil, Option.orElse_none]
    rw [Obj.get_eq_none] at h
    symm; rw [Obj.get_eq_none]
    intro hc; exact h ((hp.map Prod.fst).mem_iff.2 hc)
  | some v =>
    simp only [Option.orElse_some]
    exact (Obj.get_of_mem_sorted hs (hp.mem_iff.1 (Obj.get_mem h))).symm

end Verif
