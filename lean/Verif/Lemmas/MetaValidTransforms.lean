import Verif.Lemmas.MetaValid
import Verif.Lemmas.Everywhere

/-!
# The built-in transforms keep schemas valid according to the meta-schemas
-/

namespace Verif
open Spec

section
variable {d : Draft} {b : Bool}

/-! ## From all versions to one -/

/-- The first kind asks for no more than the second. -/
def Milder (kind' kind : Kind) : Prop := kind' = kind ∨ kind' = .any ∨ kind = .schema ∧ kind' = .schemaOrList

instance (kind' kind : Kind) : Decidable (Milder kind' kind) := by unfold Milder; infer_instance

/-- The keywords that some version knows. -/
def knownKeys : List String := (ownKinds .every ++ commonKinds).map Prod.fst

theorem lookup_none {l : List (String × Kind)} {k : String} (h : k ∉ l.map Prod.fst) : l.lookup k = none := by
  induction l with
  | nil => rfl
  | cons e l ih =>
    simp only [List.map_cons, List.mem_cons, not_or] at h
    rw [List.lookup_cons, ih h.2]
    have : (k == e.1) = false := by simpa using h.1
    rw [this]

theorem kind_milder (d : Draft) (k : String) : Milder (kindOf d k) (kindOf .every k) := by
  by_cases hk : k ∈ knownKeys
  · have : ∀ d, ∀ k ∈ knownKeys, Milder (kindOf d k) (kindOf .every k) := by
      intro d; cases d <;> decide +kernel
    exact this d k hk
  · have : ∀ d, ∀ k' ∈ (ownKinds d ++ commonKinds).map Prod.fst, k' ∈ knownKeys := by
      intro d; cases d <;> decide +kernel
    right; left
    unfold kindOf
    rw [lookup_none fun h => hk (this d k h)]; rfl

/-- The value is as the kind says, with schemas that satisfy `P`. -/
def Fill (b : Bool) (kind : Kind) (P : Json → Prop) (v : Json) : Prop := Suits b kind v ∧ ∀ x ∈ nested kind v, P x

theorem Fill.milder {kind' kind : Kind} {P : Json → Prop} {v : Json} (hm : Milder kind' kind)
    (hP : ∀ x, P x → IsSchema x) (h : Fill b kind P v) : Fill b kind' P v := by
  rcases hm with rfl | rfl | ⟨rfl, rfl⟩
  · exact h
  · exact ⟨trivial, fun x hx => by cases v <;> cases hx⟩
  · have h1 : P v := h.2 v (List.mem_singleton.2 rfl)
    cases hP v h1 with
    | bool t => exact ⟨by unfold Suits; simp, fun x hx => by rw [List.mem_singleton.1 hx]; exact h1⟩
    | obj m => exact ⟨by unfold Suits; simp, fun x hx => by rw [List.mem_singleton.1 hx]; exact h1⟩

theorem Spec.MetaValid.milder {s : Json} (h : MetaValid .every b s) : MetaValid d b s := by
  induction h with
  | bool t => exact .bool t
  | @obj m h1 h2 ih =>
    exact mv_obj fun e he => Fill.milder (kind_milder d e.1) (fun x hx => hx.isSchema) ⟨h1 e he, ih e he⟩

/-! ## Traversal -/

theorem subSlot_kind (k : String) : (subSlot k = .one ∧ kindOf .every k = .schema) ∨
    (subSlot k = .items ∧ kindOf .every k = .schema) ∨ (subSlot k = .list ∧ kindOf .every k = .schemas) ∨
    (subSlot k = .map ∧ kindOf .every k = .schemaMap) ∨ subSlot k = .skip := by
  unfold subSlot
  split
  any_goals exact .inl ⟨rfl, rfl⟩
  any_goals exact .inr (.inl ⟨rfl, rfl⟩)
  any_goals exact .inr (.inr (.inl ⟨rfl, rfl⟩))
  any_goals exact .inr (.inr (.inr (.inl ⟨rfl, rfl⟩)))
  exact .inr (.inr (.inr (.inr rfl)))

theorem atSchema_schema {T : Json → Json} {x : Json} (h : IsSchema x) : atSchema T x = T x := by
  cases h <;> rfl

/-- The value of a keyword after the traversal. -/
theorem fill_slot {T : Json → Json} {P : Json → Prop} {k : String} {v : Json} (h : MetaEntry .every b k v)
    (hT : ∀ x ∈ nested (kindOf .every k) v, P (T x)) (hP : ∀ x ∈ nested (kindOf .every k) v, P x) :
    Fill b (kindOf .every k) P (atSlot T (subSlot k) v) := by
  rcases subSlot_kind k with ⟨hs, hk⟩ | ⟨hs, hk⟩ | ⟨hs, hk⟩ | ⟨hs, hk⟩ | hs
  · have h1 := h.schema hk
    rw [hk] at hT ⊢
    rw [hs]
    refine ⟨trivial, fun x hx => ?_⟩
    rw [List.mem_singleton.1 hx]
    show P (atSchema T v)
    rw [atSchema_schema h1.isSchema]
    exact hT v (List.mem_singleton.2 rfl)
  · have h1 := h.schema hk
    rw [hk] at hT ⊢
    rw [hs]
    refine ⟨trivial, fun x hx => ?_⟩
    rw [List.mem_singleton.1 hx]
    have : atSlot T .items v = T v := by cases h1.isSchema <;> rfl
    rw [this]
    exact hT v (List.mem_singleton.2 rfl)
  · obtain ⟨l, rfl, h0, h1⟩ := h.schemas hk
    rw [hk] at hT ⊢
    rw [hs]
    refine ⟨⟨_, rfl, by simpa using h0⟩, fun x hx => ?_⟩
    obtain ⟨y, hy, rfl⟩ := List.mem_map.1 (show x ∈ l.map (atSchema T) from hx)
    rw [atSchema_schema (h1 y hy).isSchema]
    exact hT y hy
  · obtain ⟨p, rfl, h1⟩ := h.members hk
    rw [hk] at hT ⊢
    rw [hs]
    refine ⟨⟨_, rfl⟩, fun x hx => ?_⟩
    obtain ⟨y, hy, rfl⟩ := List.mem_map.1 (show x ∈ (p.map fun e => (e.1, atSchema T e.2)).map Prod.snd from hx)
    obtain ⟨e, he, rfl⟩ := List.mem_map.1 hy
    simp only
    rw [atSchema_schema (h1 e he).isSchema]
    exact hT _ (List.mem_map_of_mem he)
  · rw [hs, atSlot_skip]
    exact ⟨h.1, hP⟩

/-- The result of the traversal. -/
theorem mv_tsub {T : Json → Json} {m : List (String × Json)} (h : MetaValid .every b (.obj m))
    (hT : ∀ e ∈ m, ∀ x ∈ nested (kindOf .every e.1) e.2, MetaValid .every b (T x)) :
    MetaValid .every b (tsub subSlot T (.obj m)) := by
  refine mv_obj fun e0 he0 => ?_
  obtain ⟨e, he, rfl⟩ := List.mem_map.1 he0
  exact fill_slot (h.entries e he) (hT e he) (h.entries e he).2

theorem mv_postOrder {f : Json → Json} (hf : ∀ s, MetaValid .every b s → MetaValid .every b (f s)) {s : Json}
    (h : MetaValid .every b s) : MetaValid .every b (postOrder f s) := by
  induction h with
  | bool t => rw [postOrder_eq f (.bool t)]; exact hf _ (.bool t)
  | @obj m h1 h2 ih =>
    rw [postOrder_eq f (.obj m)]
    exact hf _ (mv_tsub (.obj h1 h2) ih)

/-! ## The transforms of the settings -/

theorem Spec.MetaEntry.text {k v} (hk : kindOf d k = .text) (h : MetaEntry d b k v) : ∃ t, v = .str t := by
  unfold MetaEntry at h; rw [hk] at h; exact h.1

theorem mv_removeRefSiblingsLocal {s : Json} (h : MetaValid d b s) : MetaValid d b (removeRefSiblingsLocal s) := by
  have hall : kindOf d "allOf" = .schemas := by cases d <;> rfl
  have href : kindOf d "$ref" = .text := by cases d <;> rfl
  cases h with
  | bool t => exact .bool t
  | @obj o h1 h2 =>
    have h : MetaValid d b (.obj o) := .obj h1 h2
    unfold removeRefSiblingsLocal
    simp only
    split
    · split
      · next r hr =>
        obtain ⟨t, rfl⟩ := (h.entry hr).text href
        have hx : MetaValid d b (.obj [("$ref", .str t)]) := mv_single (me_text href t)
        split
        · exact mv_insert (mv_remove h _) (me_schemas hall (by simp) fun x hx' => by rw [List.mem_singleton.1 hx']; exact hx)
        · next l hl =>
          obtain ⟨l', e, -, hl'⟩ := ((mv_remove h _).entry hl).schemas hall
          cases e
          refine mv_insert (mv_remove h _) (me_schemas hall (by simp) fun x hx' => ?_)
          rcases List.mem_append.1 hx' with hx' | hx'
          · exact hl' x hx'
          · rw [List.mem_singleton.1 hx']; exact hx
        · exact mv_remove h _
      · exact h
    · exact h

theorem mv_removeRefSiblings {s : Json} (h : MetaValid .every b s) : MetaValid .every b (removeRefSiblings s) :=
  mv_postOrder (fun _ => mv_removeRefSiblingsLocal) h

theorem mv_setSingleExampleLocal {s : Json} (h : MetaValid .every b s) : MetaValid .every b (setSingleExampleLocal s) := by
  cases h with
  | bool t => exact .bool t
  | @obj o h1 h2 =>
    have h : MetaValid .every b (.obj (Obj.remove o "examples")) := mv_remove (.obj h1 h2) _
    unfold setSingleExampleLocal
    simp only [Schema.remove]
    split
    · exact h.put (me_any rfl _)
    · exact h

theorem mv_replaceConstLocal {s : Json} (h : MetaValid .every b s) : MetaValid .every b (replaceConstLocal s) := by
  cases h with
  | bool t => exact .bool t
  | @obj o h1 h2 =>
    have h : MetaValid .every b (.obj (Obj.remove o "const")) := mv_remove (.obj h1 h2) _
    unfold replaceConstLocal
    simp only [Schema.remove]
    split
    · exact h.put (me_enum _)
    · exact h

theorem mv_entryOrTrue {p : List (String × Json)} {names : List String} (hp : ∀ e ∈ p, MetaValid d b e.2) :
    ∀ e ∈ names.foldl entryOrTrue p, MetaValid d b e.2 := by
  induction names generalizing p with
  | nil => exact hp
  | cons n names ih =>
    refine ih fun e he => ?_
    unfold entryOrTrue at he
    split at he
    · exact hp e he
    · rcases Obj.mem_insert he with rfl | he
      · exact .bool _
      · exact hp e he

theorem mv_replaceUnevalLocal {s : Json} (h : MetaValid .every b s) : MetaValid .every b (replaceUnevalLocal s) := by
  cases h with
  | bool t => exact .bool t
  | @obj o h1 h2 =>
    have h : MetaValid .every b (.obj o) := .obj h1 h2
    unfold replaceUnevalLocal
    simp only [Schema.remove]
    split
    · exact mv_remove h _
    · next up hup =>
      have hu := (h.entry hup).schema rfl
      have h3 : MetaValid .every b (Schema.put (.obj (Obj.remove o "unevaluatedProperties")) "additionalProperties" up) :=
        (mv_remove h _).put (me_schema rfl hu)
      split
      · exact h3
      · split
        · exact h3.put (me_map rfl (mv_entryOrTrue fun e he => by cases he))
        · next p hp =>
          obtain ⟨p', e, hp'⟩ := (h3.entry (m := Obj.insert (Obj.remove o "unevaluatedProperties") "additionalProperties" up)
            hp).members rfl
          cases e
          exact h3.put (me_map rfl (mv_entryOrTrue hp'))
        · exact h3

theorem mv_replaceUneval {s : Json} (h : MetaValid .every b s) : MetaValid .every b (replaceUneval s) :=
  mv_postOrder (fun _ => mv_replaceUnevalLocal) h

/-- `ReplacePrefixItems` turns a schema for all versions into one for the older ones. -/
theorem mv_replacePrefix (hd : d = .draft07 ∨ d = .draft2019) {s : Json} (h : MetaValid .every b s) :
    MetaValid d b (replacePrefix s) := by
  have hitems : kindOf d "items" = .schemaOrList := by rcases hd with rfl | rfl <;> rfl
  have hadd : kindOf d "additionalItems" = .schema := by rcases hd with rfl | rfl <;> rfl
  induction h with
  | bool t => unfold replacePrefix; rw [postOrder_eq _ (.bool t)]; exact .bool t
  | @obj m h1 h2 ih =>
    have h : MetaValid .every b (.obj m) := .obj h1 h2
    unfold replacePrefix at ih ⊢
    rw [postOrder_eq _ (.obj m)]
    generalize postOrder replacePrefixLocal = T at ih
    have hfill : ∀ e ∈ m, Fill b (kindOf .every e.1) (MetaValid d b) (atSlot T (subSlot e.1) e.2) := fun e he =>
      fill_slot (h.entries e he) (ih e he) fun x hx => (h2 e he x hx).milder
    have hmild : ∀ e ∈ m, MetaEntry d b e.1 (atSlot T (subSlot e.1) e.2) := fun e he =>
      (hfill e he).milder (kind_milder d e.1) fun x hx => hx.isSchema
    have hbase : MetaValid d b (tsub subSlot T (.obj m)) := by
      refine mv_obj fun e0 he0 => ?_
      obtain ⟨e, he, rfl⟩ := List.mem_map.1 he0
      exact hmild e he
    have hmem : ∀ {k v}, Obj.get (m.map fun e => (e.1, atSlot T (subSlot e.1) e.2)) k = some v →
        Fill b (kindOf .every k) (MetaValid d b) v := by
      intro k v hg
      obtain ⟨e, he, he'⟩ := List.mem_map.1 (Obj.get_mem hg)
      cases he'
      exact hfill e he
    unfold replacePrefixLocal
    simp only [tsub, Schema.remove]
    split
    · next p hp =>
      obtain ⟨⟨l, rfl, h0⟩, hl⟩ := hmem hp
      have h3 : MetaEntry d b "items" (.arr l) := by
        unfold MetaEntry
        rw [hitems]
        exact ⟨by unfold Suits; simpa using h0, hl⟩
      have h4 := (mv_remove hbase "prefixItems").put h3
      split
      · next v hv =>
        refine h4.put ?_
        have hv : Obj.get (Obj.remove (m.map fun e => (e.1, atSlot T (subSlot e.1) e.2)) "prefixItems") "items" = some v := hv
        rw [Obj.get_remove_ne _ (by decide)] at hv
        exact me_schema hadd ((hmem hv).2 v (List.mem_singleton.2 rfl))
      · exact h4
    · exact mv_remove hbase _

/-- The transforms of draft 7. -/
theorem mv_draft07 {s : Json} (h : MetaValid .every b s) : MetaValid .draft07 b (applyTransforms draft07Transforms s) :=
  mv_replacePrefix (.inl rfl) (mv_removeRefSiblings (mv_replaceUneval h))

/-- The transforms of 2019-09. -/
theorem mv_draft2019 {s : Json} (h : MetaValid .every b s) :
    MetaValid .draft2019 b (applyTransforms draft2019Transforms s) := mv_replacePrefix (.inr rfl) h

/-- The transforms of 2020-12. -/
theorem mv_draft2020 {s : Json} (h : MetaValid .every b s) :
    MetaValid .draft2020 b (applyTransforms draft2020Transforms s) := h.milder

end

end Verif
