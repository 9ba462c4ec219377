import Verif.Transform
import Verif.Lemmas.Obj
import Verif.Spec.Subschema
import Mathlib.Tactic.SplitIfs

namespace Verif
open Spec

theorem isSchema_iff {j : Json} : isSchema j = true ↔ IsSchema j := by
  constructor
  · intro h; cases j <;> simp [isSchema] at h
    · exact .bool _
    · exact .obj _
  · rintro (_ | _) <;> rfl

/-! ## Monadic and pure traversal agree -/

theorem atSchemaM_id (t : Json → Json) (v : Json) : atSchemaM (m := Id) t v = atSchema t v := by
  unfold atSchemaM atSchema; split <;> rfl

theorem atListM_id (t : Json → Json) (l : List Json) : atListM (m := Id) t l = l.map (atSchema t) := by
  induction l with
  | nil => rfl
  | cons v l ih =>
    simp only [atListM, List.map_cons, ← ih, ← atSchemaM_id]; rfl

theorem atValsM_id (t : Json → Json) (l : List (String × Json)) :
    atValsM (m := Id) t l = l.map fun e => (e.1, atSchema t e.2) := by
  induction l with
  | nil => rfl
  | cons e l ih =>
    obtain ⟨k, v⟩ := e
    have h : atValsM (m := Id) t ((k, v) :: l) = (k, atSchemaM (m := Id) t v) :: atValsM (m := Id) t l := rfl
    rw [h, ih, atSchemaM_id]; rfl

theorem atSlotM_id (t : Json → Json) (s : Slot) (v : Json) : atSlotM (m := Id) t s v = atSlot t s v := by
  have hl : ∀ l, Json.arr (atListM (m := Id) t l) = .arr (l.map (atSchema t)) := by
    intro l; rw [atListM_id]
  have hv : ∀ l, Json.obj (atValsM (m := Id) t l) = .obj (l.map fun e => (e.1, atSchema t e.2)) := by
    intro l; rw [atValsM_id]
  cases s <;> cases v <;> first | rfl | exact hl _ | exact hv _

theorem atEntriesM_id (slot : String → Slot) (t : Json → Json) (l : List (String × Json)) :
    atEntriesM (m := Id) slot t l = l.map fun e => (e.1, atSlot t (slot e.1) e.2) := by
  induction l with
  | nil => rfl
  | cons e l ih =>
    obtain ⟨k, v⟩ := e
    have h : atEntriesM (m := Id) slot t ((k, v) :: l) =
      (k, atSlotM (m := Id) t (slot k) v) :: atEntriesM (m := Id) slot t l := rfl
    rw [h, ih, atSlotM_id]; rfl

theorem tsubM_id (slot : String → Slot) (t : Json → Json) (s : Json) :
    tsubM (m := Id) slot t s = tsub slot t s := by
  cases s <;> try rfl
  simp only [tsub, ← atEntriesM_id]; rfl

/-! ## The order of calls -/

theorem slotSubs_one (v : Json) : slotSubs .one v = if isSchema v then [v] else [] := by
  cases v <;> rfl

section State
variable {σ : Type} (t : Json → StateM σ Json)

theorem atSchemaM_state (v : Json) (st : σ) :
    (atSchemaM t v st).2 = (slotSubs .one v).foldl (fun st x => (t x st).2) st := by
  rw [slotSubs_one]; unfold atSchemaM; split <;> rfl

theorem atListM_state (l : List Json) (st : σ) :
    (atListM t l st).2 = (l.filter isSchema).foldl (fun st x => (t x st).2) st := by
  induction l generalizing st with
  | nil => rfl
  | cons v l ih =>
    have h : (atListM t (v :: l) st).2 = (atListM t l (atSchemaM t v st).2).2 := rfl
    rw [h, ih, atSchemaM_state, List.filter_cons]
    rw [slotSubs_one]; split <;> rfl

theorem atValsM_state (l : List (String × Json)) (st : σ) :
    (atValsM t l st).2 = ((l.map Prod.snd).filter isSchema).foldl (fun st x => (t x st).2) st := by
  induction l generalizing st with
  | nil => rfl
  | cons e l ih =>
    obtain ⟨k, v⟩ := e
    have h : (atValsM t ((k, v) :: l) st).2 = (atValsM t l (atSchemaM t v st).2).2 := rfl
    rw [h, ih, atSchemaM_state, List.map_cons, List.filter_cons]
    rw [slotSubs_one]; simp only; split <;> rfl

theorem atSlotM_state (s : Slot) (v : Json) (st : σ) :
    (atSlotM t s v st).2 = (slotSubs s v).foldl (fun st x => (t x st).2) st := by
  cases s with
  | one => exact atSchemaM_state t v st
  | list => cases v <;> first | rfl | exact atListM_state t _ st
  | items => cases v <;> first | rfl | exact atListM_state t _ st
  | map => cases v <;> first | rfl | exact atValsM_state t _ st
  | skip => cases v <;> rfl

theorem tsubM_state (slot : String → Slot) (s : Json) (st : σ) :
    (tsubM slot t s st).2 = (subs slot s).foldl (fun st x => (t x st).2) st := by
  have key : ∀ (l : List (String × Json)) (st : σ), (atEntriesM slot t l st).2 =
      (l.flatMap fun e => slotSubs (slot e.1) e.2).foldl (fun st x => (t x st).2) st := by
    intro l
    induction l with
    | nil => intro st; rfl
    | cons e l ih =>
      intro st
      obtain ⟨k, v⟩ := e
      have h : (atEntriesM slot t ((k, v) :: l) st).2 =
        (atEntriesM slot t l (atSlotM t (slot k) v st).2).2 := rfl
      rw [h, ih, atSlotM_state, List.flatMap_cons, List.foldl_append]
  cases s <;> first | rfl | exact key _ st

end State

/-! ## Direct subschemas -/

theorem subSlot_cases (k : String) :
    (k ∈ visited.one ∧ k ≠ "items" ∧ subSlot k = .one) ∨ (k ∈ visited.list ∧ k ≠ "items" ∧ subSlot k = .list) ∨
    (k = "items" ∧ subSlot k = .items) ∨ (k ∈ visited.map ∧ subSlot k = .map) ∨
    (k ∉ visited.one ∧ k ∉ visited.list ∧ k ∉ visited.map ∧ subSlot k = .skip) := by
  unfold subSlot
  split
  all_goals first | (simp [visited]; done) | skip
  rename_i h1 h2 h3 h4 h5 h6 h7 h8 h9 h10 h11 h12 h13 h14 h15 h16 h17
  simp_all [visited]

theorem immSlot_cases (k : String) :
    (k ∈ inPlace.one ∧ immSlot k = .one) ∨ (k ∈ inPlace.list ∧ immSlot k = .list) ∨
    (k ∉ inPlace.one ∧ k ∉ inPlace.list ∧ immSlot k = .skip) := by
  unfold immSlot
  split
  all_goals first | (simp [inPlace]; done) | skip
  simp_all [inPlace]

theorem mem_slotSubs {s : Slot} {v x : Json} (h : x ∈ slotSubs s v) : IsSchema x := by
  rw [← isSchema_iff]
  cases s <;> cases v <;> simp_all [slotSubs, isSchema]

theorem mem_subs_iff {s x : Json} : x ∈ subs subSlot s ↔ DirectSub visited s x := by
  constructor
  · intro h
    cases s with
    | obj m =>
      simp only [subs, List.mem_flatMap] at h
      obtain ⟨⟨k, v⟩, hm, hx⟩ := h
      have hs := mem_slotSubs hx
      simp only at hx
      rcases subSlot_cases k with ⟨hk, _, e⟩ | ⟨hk, _, e⟩ | ⟨hk, e⟩ | ⟨hk, e⟩ | ⟨_, _, _, e⟩ <;> rw [e] at hx
      · have : x = v := by revert hx; rw [slotSubs_one]; split <;> simp
        subst this; exact .one hm hk hs
      · cases v <;> simp [slotSubs] at hx
        exact .list hm hk hx.1 hs
      · subst hk
        cases v <;> simp [slotSubs, isSchema] at hx
        · subst hx; exact .one hm (by decide) hs
        · exact .list hm (by decide) hx.1 hs
        · subst hx; exact .one hm (by decide) hs
      · cases v <;> simp [slotSubs] at hx
        obtain ⟨⟨q, hq⟩, _⟩ := hx
        exact .map hm hk hq hs
      · cases v <;> simp [slotSubs] at hx
    | _ => simp [subs] at h
  · rintro (⟨hm, hk, hs⟩ | ⟨hm, hk, hx, hs⟩ | ⟨hm, hk, hx, hs⟩) <;>
      simp only [subs, List.mem_flatMap] <;> refine ⟨_, hm, ?_⟩ <;> have h2 := isSchema_iff.2 hs <;> simp only
    · rename_i m k
      rcases subSlot_cases k with ⟨_, _, e⟩ | ⟨h3, _, e⟩ | ⟨h3, e⟩ | ⟨h3, e⟩ | ⟨h3, _, _, e⟩
      · rw [e]; simp [slotSubs, h2]
      · exfalso; revert hk h3; simp only [visited, List.mem_cons, List.not_mem_nil, or_false]
        rintro (rfl|rfl|rfl|rfl|rfl|rfl|rfl|rfl|rfl) <;> simp_all
      · rw [e]; cases hs <;> simp [slotSubs, isSchema]
      · exfalso; revert hk h3; simp only [visited, List.mem_cons, List.not_mem_nil, or_false]
        rintro (rfl|rfl|rfl|rfl|rfl|rfl|rfl|rfl|rfl) <;> simp_all
      · exact absurd hk h3
    · rename_i m k l
      rcases subSlot_cases k with ⟨h3, _, e⟩ | ⟨h3, _, e⟩ | ⟨h3, e⟩ | ⟨h3, e⟩ | ⟨_, h3, _, e⟩
      · exfalso; revert hk h3; simp only [visited, List.mem_cons, List.not_mem_nil, or_false]
        rintro (rfl|rfl|rfl|rfl|rfl) <;> simp_all
      · rw [e]; simp [slotSubs, h2, hx]
      · rw [e]; simp [slotSubs, h2, hx]
      · exfalso; revert hk h3; simp only [visited, List.mem_cons, List.not_mem_nil, or_false]
        rintro (rfl|rfl|rfl|rfl|rfl) <;> simp_all
      · exact absurd hk h3
    · rename_i m k n q
      rcases subSlot_cases k with ⟨h3, _, e⟩ | ⟨h3, _, e⟩ | ⟨h3, e⟩ | ⟨h3, e⟩ | ⟨_, _, h3, e⟩
      · exfalso; revert hk h3; simp only [visited, List.mem_cons, List.not_mem_nil, or_false]
        rintro (rfl|rfl|rfl|rfl) <;> simp_all
      · exfalso; revert hk h3; simp only [visited, List.mem_cons, List.not_mem_nil, or_false]
        rintro (rfl|rfl|rfl|rfl) <;> simp_all
      · exfalso; subst h3; revert hk; decide
      · rw [e]; simp only [slotSubs, List.mem_filter, List.mem_map]
        exact ⟨⟨_, hx, rfl⟩, h2⟩
      · exact absurd hk h3

theorem atSlot_congr {t t' : Json → Json} {s : Slot} {v : Json} (h : ∀ x ∈ slotSubs s v, t x = t' x) :
    atSlot t s v = atSlot t' s v := by
  have h1 : ∀ v, (∀ x ∈ (if isSchema v then [v] else []), t x = t' x) → atSchema t v = atSchema t' v := by
    intro v h; unfold atSchema
    split
    · exact h v (by simp [*])
    · rfl
  have h2 : ∀ l : List Json, (∀ x ∈ l.filter isSchema, t x = t' x) → l.map (atSchema t) = l.map (atSchema t') := by
    intro l h
    refine List.map_congr_left (fun x hx => h1 x ?_)
    intro y hy
    split at hy
    · simp at hy; subst hy; exact h y (by simp [*])
    · simp at hy
  cases s with
  | one => exact h1 v h
  | list => cases v <;> first | rfl | (simp only [atSlot]; rw [h2 _ h])
  | items => cases v <;> first | rfl | (simp only [atSlot]; rw [h2 _ h]) | exact h1 _ h
  | map =>
    cases v <;> first | rfl | skip
    simp only [atSlot, Json.obj.injEq]
    refine List.map_congr_left (fun e he => ?_)
    rw [h1 e.2 ?_]
    intro y hy
    split at hy
    · simp at hy; subst hy
      refine h _ ?_
      simp only [slotSubs, List.mem_filter, List.mem_map]
      exact ⟨⟨e, he, rfl⟩, by assumption⟩
    · simp at hy
  | skip => cases v <;> rfl

theorem tsub_congr {slot : String → Slot} {t t' : Json → Json} {s : Json}
    (h : ∀ x ∈ subs slot s, t x = t' x) : tsub slot t s = tsub slot t' s := by
  cases s <;> first | rfl | skip
  simp only [tsub, Json.obj.injEq]
  refine List.map_congr_left (fun e he => ?_)
  rw [atSlot_congr (fun x hx => h x ?_)]
  simp only [subs, List.mem_flatMap]
  exact ⟨e, he, hx⟩

/-- Direct subschemas are smaller. -/
theorem sizeOf_subs {slot : String → Slot} {s x : Json} (h : x ∈ subs slot s) : sizeOf x < sizeOf s := by
  cases s with
  | obj m =>
    simp only [subs, List.mem_flatMap] at h
    obtain ⟨⟨k, v⟩, hm, hx⟩ := h
    have h1 : sizeOf v < sizeOf (Json.obj m) := by
      have := List.sizeOf_lt_of_mem hm
      simp at this ⊢; omega
    have h2 : sizeOf x ≤ sizeOf v := by
      simp only at hx
      have hl : ∀ l : List Json, x ∈ l.filter isSchema → sizeOf x ≤ sizeOf (Json.arr l) := by
        intro l hx
        have := List.sizeOf_lt_of_mem (List.mem_filter.1 hx).1
        simp; omega
      have ho : ∀ v, x ∈ (if isSchema v then [v] else []) → sizeOf x ≤ sizeOf v := by
        intro v hx; split at hx <;> simp at hx; subst hx; exact Nat.le_refl _
      cases hs : slot k <;> rw [hs] at hx
      · exact ho v hx
      · cases v <;> first | (simp [slotSubs] at hx; done) | exact hl _ hx
      · cases v <;> first | exact ho _ hx | exact hl _ hx
      · cases v <;> first | (simp [slotSubs] at hx; done) | skip
        simp only [slotSubs, List.mem_filter, List.mem_map] at hx
        obtain ⟨⟨⟨q, y⟩, he, rfl⟩, _⟩ := hx
        have := List.sizeOf_lt_of_mem he
        simp at this ⊢; omega
      · cases v <;> simp [slotSubs] at hx
    omega
  | _ => simp [subs] at h

/-! ## The structural recursion -/

section Walk
variable {ε : Type} {slot : String → Slot} {enter : ε → List (String × Json) → ε}
  {leave : ε → Json → Json → Json}

theorem walk_one_of_not {e : ε} {j : Json} (h : isSchema j = false) : walk slot enter leave e .one j = j := by
  cases j <;> simp_all [walk, isSchema]

theorem walk_one_eq (e : ε) (j : Json) :
    walk slot enter leave e .one j = atSchema (walk slot enter leave e .one) j := by
  unfold atSchema; split
  · rfl
  · next h => exact walk_one_of_not (by simpa using h)

theorem walkList_eq (e : ε) (l : List Json) :
    walkList slot enter leave e l = l.map (atSchema (walk slot enter leave e .one)) := by
  induction l with
  | nil => rfl
  | cons j l ih => rw [walkList, ih, List.map_cons, ← walk_one_eq]

theorem walkVals_eq (e : ε) (l : List (String × Json)) :
    walkVals slot enter leave e l = l.map fun p => (p.1, atSchema (walk slot enter leave e .one) p.2) := by
  induction l with
  | nil => rfl
  | cons p l ih => obtain ⟨k, v⟩ := p; rw [walkVals, ih, List.map_cons, ← walk_one_eq]

theorem walk_slot (e : ε) (s : Slot) (j : Json) :
    walk slot enter leave e s j = atSlot (walk slot enter leave e .one) s j := by
  cases s with
  | one => exact walk_one_eq e j
  | list => cases j <;> simp [walk, atSlot, walkList_eq]
  | items => cases j <;> simp [walk, atSlot, walkList_eq, atSchema, isSchema]
  | map => cases j <;> simp [walk, atSlot, walkVals_eq]
  | skip => cases j <;> simp [walk, atSlot]

theorem walkEntries_eq (e : ε) (l : List (String × Json)) :
    walkEntries slot enter leave e l = l.map fun p => (p.1, atSlot (walk slot enter leave e .one) (slot p.1) p.2) := by
  induction l with
  | nil => rfl
  | cons p l ih => obtain ⟨k, v⟩ := p; rw [walkEntries, ih, List.map_cons, ← walk_slot]

theorem walk_obj (e : ε) (o : List (String × Json)) :
    walk slot enter leave e .one (.obj o) =
      leave e (.obj o) (tsub slot (walk slot enter leave (enter e o) .one) (.obj o)) := by
  rw [walk, walkEntries_eq]; rfl

theorem walk_bool (e : ε) (b : Bool) :
    walk slot enter leave e .one (.bool b) = leave e (.bool b) (.bool b) := by
  rw [walk]

end Walk

end Verif
