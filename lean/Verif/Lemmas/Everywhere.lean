import Verif.Lemmas.Transform
import Verif.Spec.Subschema

namespace Verif
open Spec

theorem everywhere_iff {P : Json → Prop} {s : Json} :
    Everywhere visited P s ↔ P s ∧ ∀ x ∈ subs subSlot s, Everywhere visited P x := by
  constructor
  · intro h
    exact ⟨h s (.self s), fun x hx y hy => h y (.step (mem_subs_iff.1 hx) hy)⟩
  · rintro ⟨h1, h2⟩ y hy
    cases hy with
    | self => exact h1
    | step hd hr => exact h2 _ (mem_subs_iff.2 hd) _ hr

theorem Everywhere.imp {V : Vocab} {P Q : Json → Prop} {s : Json} (h : Everywhere V P s)
    (hpq : ∀ x, P x → Q x) : Everywhere V Q s := fun x hx => hpq x (h x hx)

theorem everywhere_bool {P : Json → Prop} {b : Bool} : Everywhere visited P (.bool b) ↔ P (.bool b) := by
  rw [everywhere_iff]; simp [subs]

/-- The function maps schemas to schemas. -/
def Preserves (T : Json → Json) : Prop := ∀ s, IsSchema s → IsSchema (T s)

theorem filter_atSchema {T : Json → Json} (hT : Preserves T) (l : List Json) :
    (l.map (atSchema T)).filter isSchema = (l.filter isSchema).map T := by
  induction l with
  | nil => rfl
  | cons v l ih =>
    by_cases hv : isSchema v
    · have h2 : isSchema (T v) = true := isSchema_iff.2 (hT v (isSchema_iff.1 hv))
      simp [atSchema, hv, h2, ← ih]
    · simp [atSchema, hv, ← ih]

theorem atSlot_items {T : Json → Json} {v : Json} (h : isSchema v = true) :
    atSlot T .items v = atSchema T v := by
  cases v <;> simp_all [atSlot, isSchema]

theorem isSchema_atSchema {T : Json → Json} (hT : Preserves T) {v : Json} (h : isSchema v = true) :
    isSchema (atSchema T v) = true := by
  unfold atSchema; rw [if_pos h]; exact isSchema_iff.2 (hT v (isSchema_iff.1 h))

theorem slotSubs_atSlot {T : Json → Json} (hT : Preserves T) (s : Slot) (v : Json) :
    slotSubs s (atSlot T s v) = (slotSubs s v).map T := by
  have h1 : ∀ v, slotSubs .one (atSchema T v) = (slotSubs .one v).map T := by
    intro v
    rw [slotSubs_one, slotSubs_one]
    have := filter_atSchema hT [v]
    simpa [List.filter_cons] using this
  have h3 : ∀ v, isSchema v = true → slotSubs .items v = slotSubs .one v := by
    intro v hv; cases v <;> simp_all [slotSubs, isSchema]
  cases s with
  | one => exact h1 v
  | list => cases v <;> first | rfl | exact filter_atSchema hT _
  | items =>
    cases v <;> first | rfl | exact filter_atSchema hT _ | skip
    all_goals
      rw [atSlot_items rfl, h3 _ (isSchema_atSchema hT rfl), h1, h3 _ rfl]
  | map =>
    cases v <;> first | rfl | skip
    simp only [atSlot, slotSubs, List.map_map]
    rw [← filter_atSchema hT, List.map_map]
    rfl
  | skip => cases v <;> rfl

theorem subs_tsub {slot : String → Slot} {T : Json → Json} (hT : Preserves T) (s : Json) :
    subs slot (tsub slot T s) = (subs slot s).map T := by
  cases s with
  | obj o =>
    simp only [tsub, subs]
    induction o with
    | nil => rfl
    | cons e o ih => simp only [List.map_cons, List.flatMap_cons, List.map_append, ih, slotSubs_atSlot hT]
  | _ => rfl

theorem atSlot_id {T : Json → Json} {s : Slot} {v : Json} (h : ∀ x ∈ slotSubs s v, T x = x) : atSlot T s v = v := by
  rw [atSlot_congr (t' := id) h]
  have h1 : ∀ v, atSchema id v = v := by intro v; unfold atSchema; split <;> rfl
  have h2 : atSchema id = id := funext h1
  cases s <;> cases v <;> simp [atSlot, h2]

theorem tsub_id {slot : String → Slot} {T : Json → Json} {s : Json} (h : ∀ x ∈ subs slot s, T x = x) :
    tsub slot T s = s := by
  rw [tsub_congr (t' := id) h]
  cases s with
  | obj o =>
    simp only [tsub]
    rw [List.map_congr_left (g := id) (fun e _ => by rw [atSlot_id (T := id) (fun _ _ => rfl)]; rfl), List.map_id]
  | _ => rfl

theorem atSchema_comp {T T' : Json → Json} (hT : Preserves T') (v : Json) :
    atSchema T (atSchema T' v) = atSchema (fun x => T (T' x)) v := by
  unfold atSchema
  by_cases hv : isSchema v
  · have := isSchema_iff.2 (hT v (isSchema_iff.1 hv)); simp [hv, this]
  · simp [hv]

theorem tsub_comp {slot : String → Slot} {T T' : Json → Json} (hT : Preserves T') (s : Json) :
    tsub slot T (tsub slot T' s) = tsub slot (fun x => T (T' x)) s := by
  have h1 : atSchema T ∘ atSchema T' = atSchema (fun x => T (T' x)) := funext (atSchema_comp hT)
  have h2 : ∀ sl v, atSlot T sl (atSlot T' sl v) = atSlot (fun x => T (T' x)) sl v := by
    intro sl v
    cases sl with
    | one => exact atSchema_comp hT v
    | list => cases v <;> simp [atSlot, h1]
    | items =>
      cases v <;> try (simp [atSlot, h1, atSchema, isSchema]; done)
      all_goals
        rw [atSlot_items (T := T') rfl, atSlot_items (isSchema_atSchema hT rfl), atSchema_comp hT]; rfl
    | map => cases v <;> simp [atSlot, Function.comp_def, atSchema_comp hT]
    | skip => cases v <;> rfl
  cases s <;> simp only [tsub]
  simp [Function.comp_def, h2]

theorem tsub_isSchema {slot : String → Slot} {T : Json → Json} {s : Json} (h : IsSchema s) :
    IsSchema (tsub slot T s) := by
  cases h
  · exact .obj _
  · exact .bool _

theorem postOrder_preserves {f : Json → Json} (hf : Preserves f) : Preserves (postOrder f) := by
  intro s hs
  rw [postOrder_eq f hs]
  exact hf _ (tsub_isSchema hs)

/-! ## Establishing and preserving a property everywhere -/

/-- A post-order transform establishes `P` everywhere if its local part does so when all subschemas
already satisfy it. -/
theorem everywhere_postOrder {f : Json → Json} {P : Json → Prop} (hp : Preserves f)
    (h : ∀ s, IsSchema s → (∀ x ∈ subs subSlot s, Everywhere visited P x) → Everywhere visited P (f s)) :
    ∀ s, IsSchema s → Everywhere visited P (postOrder f s) := by
  suffices ∀ n s, sizeOf s < n → IsSchema s → Everywhere visited P (postOrder f s) by
    intro s; exact this _ s (Nat.lt_succ_self _)
  intro n
  induction n with
  | zero => intro s hs; omega
  | succ n ih =>
    intro s hs hi
    rw [postOrder_eq f hi]
    refine h _ (tsub_isSchema hi) (fun x hx => ?_)
    rw [subs_tsub (postOrder_preserves hp), List.mem_map] at hx
    obtain ⟨y, hy, rfl⟩ := hx
    exact ih y (by have := sizeOf_subs hy; omega) (subs_isSchema hy)

/-- As above, when the input satisfies `H` everywhere. -/
theorem everywhere_postOrder' {f : Json → Json} {P H : Json → Prop} (hp : Preserves f)
    (hH : ∀ T, Preserves T → ∀ s, H s → H (tsub subSlot T s))
    (h : ∀ s, IsSchema s → H s → (∀ x ∈ subs subSlot s, Everywhere visited P x) → Everywhere visited P (f s)) :
    ∀ s, IsSchema s → Everywhere visited H s → Everywhere visited P (postOrder f s) := by
  suffices ∀ n s, sizeOf s < n → IsSchema s → Everywhere visited H s → Everywhere visited P (postOrder f s) by
    intro s; exact this _ s (Nat.lt_succ_self _)
  intro n
  induction n with
  | zero => intro s hs; omega
  | succ n ih =>
    intro s hs hi hs2
    rw [everywhere_iff] at hs2
    rw [postOrder_eq f hi]
    refine h _ (tsub_isSchema hi) (hH _ (postOrder_preserves hp) _ hs2.1) (fun x hx => ?_)
    rw [subs_tsub (postOrder_preserves hp), List.mem_map] at hx
    obtain ⟨y, hy, rfl⟩ := hx
    exact ih y (by have := sizeOf_subs hy; omega) (subs_isSchema hy) (hs2.2 y hy)

/-- A post-order transform does nothing where its local part does nothing. -/
theorem postOrder_fix {f : Json → Json} :
    ∀ s, IsSchema s → Everywhere visited (fun x => f x = x) s → postOrder f s = s := by
  suffices ∀ n s, sizeOf s < n → IsSchema s → Everywhere visited (fun x => f x = x) s → postOrder f s = s by
    intro s; exact this _ s (Nat.lt_succ_self _)
  intro n
  induction n with
  | zero => intro s hs; omega
  | succ n ih =>
    intro s hs hi he
    rw [everywhere_iff] at he
    rw [postOrder_eq f hi, tsub_id, he.1]
    intro x hx
    exact ih x (by have := sizeOf_subs hx; omega) (subs_isSchema hx) (he.2 x hx)

/-! ## Subschemas after map operations -/

theorem subs_insert {m : List (String × Json)} {k : String} {v x : Json}
    (h : x ∈ subs subSlot (.obj (Obj.insert m k v))) :
    x ∈ slotSubs (subSlot k) v ∨ x ∈ subs subSlot (.obj m) := by
  simp only [subs, List.mem_flatMap] at h ⊢
  obtain ⟨e, he, hx⟩ := h
  rcases Obj.mem_insert he with rfl | he
  · exact .inl hx
  · exact .inr ⟨e, he, hx⟩

theorem subs_insert_skip {m : List (String × Json)} {k : String} (hk : subSlot k = .skip) {v x : Json}
    (h : x ∈ subs subSlot (.obj (Obj.insert m k v))) : x ∈ subs subSlot (.obj m) := by
  rcases subs_insert h with h | h
  · rw [hk] at h; cases v <;> simp [slotSubs] at h
  · exact h

theorem subs_mem {m : List (String × Json)} {k : String} {v x : Json} (h : (k, v) ∈ m)
    (hx : x ∈ slotSubs (subSlot k) v) : x ∈ subs subSlot (.obj m) := by
  simp only [subs, List.mem_flatMap]; exact ⟨_, h, hx⟩

theorem hasKey_obj {k : String} {m : List (String × Json)} : HasKey k (.obj m) ↔ k ∈ Obj.keys m := by
  simp [HasKey, Obj.keys]

theorem not_hasKey_bool {k : String} {b : Bool} : ¬ HasKey k (.bool b) := by simp [HasKey]

theorem hasKey_tsub {k : String} {T : Json → Json} {s : Json} :
    HasKey k (tsub subSlot T s) ↔ HasKey k s := by
  cases s <;> simp only [tsub] 
  rw [hasKey_obj, hasKey_obj, keys_entryMap]

theorem hasKey_remove {k q : String} {m : List (String × Json)} :
    HasKey q (.obj (Obj.remove m k)) ↔ q ≠ k ∧ HasKey q (.obj m) := by
  rw [hasKey_obj, hasKey_obj, Obj.keys_remove]; simp [and_comm]

theorem hasKey_insert {k q : String} {m : List (String × Json)} {v : Json} :
    HasKey q (.obj (Obj.insert m k v)) ↔ q = k ∨ HasKey q (.obj m) := by
  rw [hasKey_obj, hasKey_obj, Obj.mem_keys_insert]

theorem get_none_of_not_hasKey {k : String} {m : List (String × Json)} (h : ¬ HasKey k (.obj m)) :
    Obj.get m k = none := by
  rw [hasKey_obj] at h; exact Obj.get_eq_none.2 h

end Verif
