import Verif.Json

/-! # Laws of the map model -/

namespace Verif.Obj
variable {α : Type _} {β : Type _}

@[simp] theorem get_nil (q : String) : get ([] : List (String × α)) q = none := rfl

theorem get_cons (k : String) (v : α) (t) (q : String) :
    get ((k, v) :: t) q = if k = q then some v else get t q := rfl

theorem get_insert (m : List (String × α)) (k : String) (v : α) (q : String) :
    get (insert m k v) q = if k = q then some v else get m q := by
  induction m with
  | nil => simp [insert, get]
  | cons h t ih =>
    obtain ⟨k', v'⟩ := h
    simp only [insert]
    split
    · next h => subst h; simp only [get]; split <;> simp_all
    · split
      · simp [get]
      · next h _ =>
        simp only [get, ih]
        by_cases h1 : k' = q
        · subst h1; simp [Ne.symm h]
        · simp [h1]

@[simp] theorem get_insert_self (m : List (String × α)) (k : String) (v : α) :
    get (insert m k v) k = some v := by simp [get_insert]

theorem get_insert_ne (m : List (String × α)) {k q : String} (v : α) (h : k ≠ q) :
    get (insert m k v) q = get m q := by simp [get_insert, h]

theorem get_remove (m : List (String × α)) (k q : String) :
    get (remove m k) q = if k = q then none else get m q := by
  induction m with
  | nil => simp [remove]
  | cons h t ih =>
    obtain ⟨k', v'⟩ := h
    simp only [remove] at ih ⊢
    by_cases h1 : k' = k
    · subst h1
      simp only [ne_eq, not_true_eq_false, decide_false, Bool.false_eq_true, not_false_eq_true,
        List.filter_cons_of_neg, get]
      rw [ih]; split <;> simp_all
    · simp only [ne_eq, h1, not_false_eq_true, decide_true, List.filter_cons_of_pos, get]
      rw [ih]; by_cases h2 : k' = q
      · subst h2; simp [Ne.symm h1]
      · simp [h2]

@[simp] theorem get_remove_self (m : List (String × α)) (k : String) :
    get (remove m k) k = none := by simp [get_remove]

theorem get_remove_ne (m : List (String × α)) {k q : String} (h : k ≠ q) :
    get (remove m k) q = get m q := by simp [get_remove, h]

theorem get_modify (m : List (String × α)) (k q : String) (f : α → α) :
    get (modify m k f) q = if k = q then (get m q).map f else get m q := by
  induction m with
  | nil => simp [modify]
  | cons h t ih =>
    obtain ⟨k', v'⟩ := h
    simp only [modify]
    by_cases h1 : k' = k
    · subst h1; simp only [if_true, get]; split <;> simp_all
    · simp only [h1, if_false, get, ih]
      by_cases h2 : k' = q
      · subst h2; simp [Ne.symm h1]
      · simp [h2]

theorem get_map (m : List (String × α)) (f : String → α → β) (q : String) :
    get (m.map (fun e => (e.1, f e.1 e.2))) q = (get m q).map (f q) := by
  induction m with
  | nil => simp
  | cons h t ih =>
    obtain ⟨k', v'⟩ := h
    simp only [List.map_cons, get, ih]
    split <;> simp_all

theorem get_mem {m : List (String × α)} {q : String} {v : α} (h : get m q = some v) :
    (q, v) ∈ m := by
  induction m with
  | nil => simp at h
  | cons e t ih =>
    obtain ⟨k', v'⟩ := e
    simp only [get] at h
    split at h
    · simp_all
    · simp [ih h]

theorem get_eq_none {m : List (String × α)} {q : String} :
    get m q = none ↔ q ∉ keys m := by
  induction m with
  | nil => simp [keys]
  | cons e t ih =>
    obtain ⟨k', v'⟩ := e
    simp only [get, keys, List.map_cons, List.mem_cons] at ih ⊢
    split
    · simp_all
    · next h => rw [ih]; simp [Ne.symm h]

theorem mem_keys {m : List (String × α)} {q : String} :
    q ∈ keys m ↔ ∃ v, get m q = some v := by
  rw [← Option.isSome_iff_exists, ← not_iff_not, ← get_eq_none]; simp

theorem keys_modify (m : List (String × α)) (k : String) (f : α → α) :
    keys (modify m k f) = keys m := by
  induction m with
  | nil => rfl
  | cons e t ih =>
    obtain ⟨k', v'⟩ := e
    simp only [modify]; simp only [keys] at ih ⊢
    split <;> simp_all

theorem mem_insert {m : List (String × α)} {k : String} {v : α} {e : String × α}
    (h : e ∈ insert m k v) : e = (k, v) ∨ e ∈ m := by
  induction m with
  | nil => simp [insert] at h; exact Or.inl h
  | cons e' t ih =>
    obtain ⟨k', v'⟩ := e'
    simp only [insert] at h
    split at h
    · rcases List.mem_cons.1 h with h | h <;> simp_all
    · split at h
      · rcases List.mem_cons.1 h with h | h <;> simp_all
      · rcases List.mem_cons.1 h with h | h
        · simp_all
        · rcases ih h with h | h <;> simp_all

theorem mem_remove {m : List (String × α)} {k : String} {e : String × α} :
    e ∈ remove m k ↔ e ∈ m ∧ e.1 ≠ k := by simp [remove]

theorem mem_modify {m : List (String × α)} {k : String} {f : α → α} {e : String × α}
    (h : e ∈ modify m k f) : e ∈ m ∨ ∃ v, (k, v) ∈ m ∧ e = (k, f v) := by
  induction m with
  | nil => simp [modify] at h
  | cons e' t ih =>
    obtain ⟨k', v'⟩ := e'
    simp only [modify] at h
    split at h
    · next h1 =>
      subst h1
      rcases List.mem_cons.1 h with h | h
      · exact Or.inr ⟨v', by simp, h⟩
      · exact Or.inl (by simp [h])
    · rcases List.mem_cons.1 h with h | h
      · exact Or.inl (by simp [h])
      · rcases ih h with h | ⟨v, h1, h2⟩
        · exact Or.inl (by simp [h])
        · exact Or.inr ⟨v, by simp [h1], h2⟩

/-! ## Sortedness -/

theorem sorted_nil : Sorted ([] : List (String × α)) := List.Pairwise.nil

theorem sorted_insert {m : List (String × α)} (h : Sorted m) (k : String) (v : α) :
    Sorted (insert m k v) := by
  induction m with
  | nil => simp [insert, Sorted]
  | cons e t ih =>
    obtain ⟨k', v'⟩ := e
    have ht : Sorted t := (List.pairwise_cons.1 h).2
    have hh := (List.pairwise_cons.1 h).1
    simp only [insert]
    split
    · next h1 => subst h1; exact List.pairwise_cons.2 ⟨fun a ha => hh a ha, ht⟩
    · split
      · next _ h2 =>
        refine List.pairwise_cons.2 ⟨?_, h⟩
        intro a ha
        rcases List.mem_cons.1 ha with rfl | ha
        · exact h2
        · exact String.lt_trans h2 (hh a ha)
      · next h1 h2 =>
        refine List.pairwise_cons.2 ⟨?_, ih ht⟩
        intro a ha
        rcases mem_insert ha with rfl | ha
        · have h3 : ¬ k < k' := h2
          by_contra h4
          exact h1 (String.le_antisymm (String.not_lt.1 h3) (String.not_lt.1 h4))
        · exact hh a ha

theorem sorted_remove {m : List (String × α)} (h : Sorted m) (k : String) : Sorted (remove m k) :=
  List.Pairwise.filter _ h

theorem sorted_of_keys {m : List (String × α)} {n : List (String × β)} (hk : keys m = keys n)
    (h : Sorted m) : Sorted n := by
  have h1 : (keys m).Pairwise (· < ·) := List.pairwise_map.2 h
  rw [hk] at h1
  exact List.pairwise_map.1 h1

theorem sorted_modify {m : List (String × α)} (h : Sorted m) (k : String) (f : α → α) :
    Sorted (modify m k f) := sorted_of_keys (keys_modify m k f).symm h

theorem sorted_extend {m : List (String × α)} (h : Sorted m) (n : List (String × α)) :
    Sorted (extend m n) := by
  induction n generalizing m with
  | nil => exact h
  | cons e t ih => exact ih (sorted_insert h e.1 e.2)

theorem sorted_ofList (n : List (String × α)) : Sorted (ofList n) := sorted_extend sorted_nil n

theorem sorted_nodup {m : List (String × α)} (h : Sorted m) : (keys m).Nodup := by
  have h1 : (keys m).Pairwise (· < ·) := List.pairwise_map.2 h
  exact h1.imp (fun {a b} hab he => by subst he; exact String.lt_irrefl a hab)

theorem get_of_mem_nodup {m : List (String × α)} (h : (keys m).Nodup) {q : String} {v : α}
    (hm : (q, v) ∈ m) : get m q = some v := by
  induction m with
  | nil => simp at hm
  | cons e t ih =>
    obtain ⟨k', v'⟩ := e
    simp only [keys, List.map_cons, List.nodup_cons] at h ih
    rcases List.mem_cons.1 hm with h1 | h1
    · cases h1; simp [get]
    · have : k' ≠ q := by
        rintro rfl; exact h.1 (List.mem_map.2 ⟨_, h1, rfl⟩)
      simp [get, this, ih h.2 h1]

theorem get_of_mem_sorted {m : List (String × α)} (h : Sorted m) {q : String} {v : α}
    (hm : (q, v) ∈ m) : get m q = some v := get_of_mem_nodup (sorted_nodup h) hm

/-- Two sorted maps with the same lookups are equal. -/
theorem ext_sorted {m n : List (String × α)} (hm : Sorted m) (hn : Sorted n)
    (h : ∀ q, get m q = get n q) : m = n := by
  induction m generalizing n with
  | nil =>
    cases n with
    | nil => rfl
    | cons e t => have := h e.1; simp [get] at this
  | cons e t ih =>
    obtain ⟨k, v⟩ := e
    cases n with
    | nil => have := h k; simp [get] at this
    | cons e' t' =>
      obtain ⟨k', v'⟩ := e'
      have hm' := List.pairwise_cons.1 hm
      have hn' := List.pairwise_cons.1 hn
      have hkk : k = k' := by
        by_contra hne
        have h1 := h k
        have h2 := h k'
        simp only [get, if_true, Ne.symm hne, hne, if_false] at h1 h2
        have a1 := hn'.1 _ (get_mem h1.symm)
        have a2 := hm'.1 _ (get_mem h2)
        simp only at a1 a2
        exact String.lt_irrefl _ (String.lt_trans a1 a2)
      subst hkk
      have hv : v = v' := by have := h k; simpa [get] using this
      subst hv
      congr 1
      refine ih hm'.2 hn'.2 (fun q => ?_)
      by_cases hq : k = q
      · subst hq
        have e1 : get t k = none := by
          rw [get_eq_none]; intro hc
          obtain ⟨x, hx⟩ := mem_keys.1 hc
          have := hm'.1 _ (get_mem hx)
          exact String.lt_irrefl _ this
        have e2 : get t' k = none := by
          rw [get_eq_none]; intro hc
          obtain ⟨x, hx⟩ := mem_keys.1 hc
          have := hn'.1 _ (get_mem hx)
          exact String.lt_irrefl _ this
        rw [e1, e2]
      · have := h q; simpa [get, hq] using this

theorem get_extend (m n : List (String × α)) (q : String) :
    get (extend m n) q = (get n.reverse q).orElse (fun _ => get m q) := by
  induction n generalizing m with
  | nil => simp [extend]
  | cons e t ih =>
    obtain ⟨k, v⟩ := e
    have key : ∀ (l : List (String × α)) (e : String × α),
        get (l ++ [e]) q = (get l q).orElse (fun _ => get [e] q) := by
      intro l e
      induction l with
      | nil => simp
      | cons a s ihs => obtain ⟨a1, a2⟩ := a; simp only [List.cons_append, get, ihs]; split <;> simp
    have h1 : extend m ((k, v) :: t) = extend (insert m k v) t := rfl
    rw [h1, ih, List.reverse_cons, key, get_insert]
    cases hq : get t.reverse q with
    | some x => simp
    | none => simp only [Option.orElse_none, get]; split <;> simp

theorem get_extend_nodup (m : List (String × α)) {n : List (String × α)} (hn : (keys n).Nodup)
    (q : String) : get (extend m n) q = (get n q).orElse (fun _ => get m q) := by
  have : get n.reverse q = get n q := by
    cases h : get n q with
    | none =>
      rw [get_eq_none] at h ⊢; simpa [keys] using h
    | some v =>
      refine get_of_mem_nodup ?_ (by simpa using get_mem h)
      rw [keys, List.map_reverse]
      exact List.pairwise_reverse.2 (hn.imp Ne.symm)
  rw [get_extend, this]

theorem insert_sorted_get_self {m : List (String × α)} (hm : Sorted m) {k : String} {v : α}
    (h : get m k = some v) : insert m k v = m := by
  refine ext_sorted (sorted_insert hm k v) hm (fun q => ?_)
  rw [get_insert]; split
  · next hq => subst hq; exact h.symm
  · rfl

theorem remove_of_get_none {m : List (String × α)} {k : String} (h : get m k = none) :
    remove m k = m := by
  rw [get_eq_none] at h
  refine List.filter_eq_self.2 (fun e he => ?_)
  simp only [ne_eq, decide_eq_true_eq]
  rintro rfl
  exact h (List.mem_map.2 ⟨e, he, rfl⟩)

theorem remove_insert_self (m : List (String × α)) (k : String) (v : α) :
    remove (insert m k v) k = remove m k := by
  induction m with
  | nil => simp [insert, remove]
  | cons e m ih =>
    obtain ⟨k', v'⟩ := e
    simp only [insert]
    split
    · next h => subst h; simp [remove]
    · split
      · simp [remove]
      · next h1 _ =>
        simp only [remove] at ih ⊢
        rw [List.filter_cons, List.filter_cons, ih]

theorem keys_remove (m : List (String × α)) (k : String) :
    keys (remove m k) = (keys m).filter (· ≠ k) := by
  simp [keys, remove, List.filter_map, Function.comp_def]

theorem mem_keys_insert {m : List (String × α)} {k q : String} {v : α} :
    q ∈ keys (insert m k v) ↔ q = k ∨ q ∈ keys m := by
  rw [mem_keys, mem_keys]
  simp only [get_insert]
  by_cases h : k = q
  · subst h; simp
  · simp [h, Ne.symm h]

end Verif.Obj
