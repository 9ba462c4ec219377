import Verif.DeriveAttrs
import Mathlib.Data.List.Induction
import Mathlib.Data.List.Nodup

/-!
# C54: schemars attributes override serde attributes
-/

namespace Verif

namespace Spec
variable {α β : Type}

/-- The serde keywords that schemars understands in `#[serde(…)]`. -/
def serdeSupported : List String :=
  ["rename", "rename_all", "rename_all_fields", "deny_unknown_fields", "tag", "content", "untagged", "default",
    "skip", "skip_serializing", "skip_serializing_if", "skip_deserializing", "flatten", "remote", "transparent",
    "into", "from", "try_from", "serialize_with", "with"]

/-- The serde keywords that schemars understands in `#[schemars(…)]`. -/
def schemarsSupported : List String :=
  ["rename", "rename_all", "rename_all_fields", "deny_unknown_fields", "tag", "content", "untagged", "default",
    "skip", "skip_serializing", "skip_serializing_if", "skip_deserializing", "flatten", "remote", "transparent",
    "into", "from", "try_from", "bound"]

/-- All items of the schemars attributes that parse, in order. -/
def schemarsOf (attrs : List (Attr α β)) : List (AttrItem α) :=
  attrs.flatMap fun | .schemars (some l) => l | _ => []

/-- All items of the serde attributes that parse, in order. -/
def serdeOf (attrs : List (Attr α β)) : List (AttrItem α) :=
  attrs.flatMap fun | .serde (some l) => l | _ => []

/-- The item sets a serde keyword from a schemars attribute. -/
def Sets (item : AttrItem α) (k : String) : Prop :=
  item.ident = some k ∧ item.negated = false ∧ k ∈ schemarsSupported

/-- The item is `!k`. -/
def Unsets (item : AttrItem α) (k : String) : Prop := item.ident = some k ∧ item.negated = true

/-- The schemars attributes decide about the keyword. -/
def Overridden (attrs : List (Attr α β)) (k : String) : Prop :=
  (∃ i ∈ schemarsOf attrs, Sets i k) ∨ (∃ i ∈ schemarsOf attrs, Unsets i k) ∨
  ((k = "skip_serializing" ∨ k = "skip_deserializing") ∧ ∃ i ∈ schemarsOf attrs, Sets i "skip")

/-- The serde item is in effect. -/
def Survives (attrs : List (Attr α β)) (item : AttrItem α) : Prop :=
  ∃ k, item.ident = some k ∧ k ∈ serdeSupported ∧ ¬ Overridden attrs k

/-- `l'` has the elements of `l` that satisfy `P`, in the same order. -/
inductive Kept (P : AttrItem α → Prop) : List (AttrItem α) → List (AttrItem α) → Prop
  | nil : Kept P [] []
  | keep {a l l'} : P a → Kept P l l' → Kept P (a :: l) (a :: l')
  | drop {a l l'} : ¬ P a → Kept P l l' → Kept P (a :: l) l'

end Spec

open Spec
variable {α β : Type}

theorem schemarsItems_fst (attrs : List (Attr α β)) : (schemarsItems attrs).1 = schemarsOf attrs := by
  induction attrs with
  | nil => rfl
  | cons a r ih =>
    cases a with
    | schemars o => cases o <;> simp [schemarsItems, schemarsOf, ih]
    | serde o => simp only [schemarsItems, ih]; rfl
    | other o => simp only [schemarsItems, ih]; rfl

theorem schemarsItems_snd (attrs : List (Attr α β)) :
    (schemarsItems attrs).2 = [] ↔ Attr.schemars none ∉ attrs := by
  induction attrs with
  | nil => simp [schemarsItems]
  | cons a r ih =>
    cases a with
    | schemars o => cases o <;> simp [schemarsItems, ih]
    | serde o => simp [schemarsItems, ih]
    | other o => simp [schemarsItems, ih]

theorem serdeItems_eq (attrs : List (Attr α β)) : serdeItems attrs = serdeOf attrs := by
  induction attrs with
  | nil => rfl
  | cons a r ih =>
    cases a with
    | serde o => cases o <;> simp [serdeItems, serdeOf, ih]
    | schemars o => simp only [serdeItems, ih]; rfl
    | other o => simp only [serdeItems, ih]; rfl

theorem schemarsOf_others (attrs : List (Attr α β)) :
    schemarsOf (attrs.filter fun a => !a.isSerde) = schemarsOf attrs := by
  induction attrs with
  | nil => rfl
  | cons a r ih =>
    unfold schemarsOf at *
    rw [List.filter_cons, List.flatMap_cons]
    cases a with
    | serde o => rw [if_neg (by simp [Attr.isSerde]), ih]; rfl
    | schemars o => rw [if_pos (by simp [Attr.isSerde]), List.flatMap_cons, ih]
    | other o => rw [if_pos (by simp [Attr.isSerde]), List.flatMap_cons, ih]

theorem serdeOf_serde (attrs : List (Attr α β)) : serdeOf (attrs.filter Attr.isSerde) = serdeOf attrs := by
  induction attrs with
  | nil => rfl
  | cons a r ih =>
    unfold serdeOf at *
    cases a <;> simp only [Attr.isSerde, List.filter_cons, List.flatMap_cons, ih,
      Bool.false_eq_true, if_true, if_false, List.nil_append]

theorem Spec.Kept.append {P : AttrItem α → Prop} {l1 l1' l2 l2' : List (AttrItem α)} (h1 : Kept P l1 l1')
    (h2 : Kept P l2 l2') : Kept P (l1 ++ l2) (l1' ++ l2') := by
  induction h1 with
  | nil => exact h2
  | keep h _ ih => exact .keep h ih
  | drop h _ ih => exact .drop h ih

theorem mem_schemarsKeywords (k : String) : k ∈ schemarsKeywords ↔ k ∈ schemarsSupported := by
  constructor
  · exact (by decide : ∀ k ∈ schemarsKeywords, k ∈ schemarsSupported) k
  · exact (by decide : ∀ k ∈ schemarsSupported, k ∈ schemarsKeywords) k

theorem mem_serdeKeywords (k : String) : (k ∈ serdeKeywords ∧ k ≠ "bound") ↔ k ∈ serdeSupported := by
  constructor
  · rintro ⟨h, h'⟩
    exact (by decide : ∀ k ∈ serdeKeywords, k ≠ "bound" → k ∈ serdeSupported) k h h'
  · exact (by decide : ∀ k ∈ serdeSupported, k ∈ serdeKeywords ∧ k ≠ "bound") k

/-- The keywords that are unset. -/
def unsetKeywords (items : List (AttrItem α)) : List String :=
  items.filterMap fun i => if i.negated then i.ident else none

theorem mem_unsetKeywords {items : List (AttrItem α)} {k : String} :
    k ∈ unsetKeywords items ↔ ∃ i ∈ items, Unsets i k := by
  unfold unsetKeywords Unsets
  rw [List.mem_filterMap]
  constructor
  · rintro ⟨i, hi, h⟩
    by_cases hn : i.negated = true
    · rw [if_pos hn] at h; exact ⟨i, hi, h, hn⟩
    · rw [if_neg hn] at h; cases h
  · rintro ⟨i, hi, h, hn⟩
    exact ⟨i, hi, by rw [if_pos hn]; exact h⟩

/-- The state after the schemars items. -/
structure AfterSchemars (items : List (AttrItem α)) (e0 : List AttrError) (st : AttrState α) : Prop where
  effective : Kept (fun i => ∃ k, Sets i k) items st.effective
  unset : ∀ k, k ∈ st.unset ↔ k ∈ unsetKeywords items
  names : ∀ k, k ∈ st.schemarsNames ↔ ∃ i ∈ items, Sets i k
  serdeNames : st.serdeNames = []
  errors : st.errors = [] ↔ e0 = [] ∧ (unsetKeywords items).Nodup

theorem afterSchemars (items : List (AttrItem α)) (e0 : List AttrError) :
    AfterSchemars items e0 (items.foldl attrSchemarsStep ⟨[], [], [], [], e0⟩) := by
  induction items using List.reverseRecOn with
  | nil => exact ⟨.nil, by simp [unsetKeywords], by simp, rfl, by simp [unsetKeywords]⟩
  | append_singleton items item ih =>
    rw [List.foldl_append, List.foldl_cons, List.foldl_nil]
    generalize items.foldl attrSchemarsStep ⟨[], [], [], [], e0⟩ = st at ih
    unfold attrSchemarsStep
    have hu : unsetKeywords (items ++ [item]) = unsetKeywords items ++ unsetKeywords [item] := by
      unfold unsetKeywords; rw [List.filterMap_append]
    cases hid : item.ident with
    | none =>
      have h1 : unsetKeywords [item] = [] := by simp [unsetKeywords, hid]
      have h2 : ∀ k, ¬ Sets item k := fun k h => by rw [Sets, hid] at h; cases h.1
      rw [h1, List.append_nil] at hu
      refine ⟨?_, by rw [hu]; exact ih.unset, ?_, ih.serdeNames, by rw [hu]; exact ih.errors⟩
      · have := ih.effective.append (l2 := [item]) (l2' := []) (.drop (fun ⟨k, hk⟩ => h2 k hk) .nil)
        rwa [List.append_nil] at this
      · intro k
        rw [ih.names]
        simp [h2, List.mem_append, or_and_right, exists_or]
    | some keyword =>
      by_cases hn : item.negated = true
      · have h1 : unsetKeywords [item] = [keyword] := by simp [unsetKeywords, hid, hn]
        have h2 : ∀ k, ¬ Sets item k := fun k h => by rw [Sets, hn] at h; cases h.2.1
        rw [h1] at hu
        have heff : Kept (fun i => ∃ k, Sets i k) (items ++ [item]) st.effective := by
          have := ih.effective.append (l2 := [item]) (l2' := []) (.drop (fun ⟨k, hk⟩ => h2 k hk) .nil)
          rwa [List.append_nil] at this
        have hnames : ∀ k, k ∈ st.schemarsNames ↔ ∃ i ∈ items ++ [item], Sets i k := by
          intro k
          rw [ih.names]
          simp [h2, List.mem_append, or_and_right, exists_or]
        simp only [if_pos hn]
        by_cases hm : keyword ∈ st.unset
        · simp only [if_pos hm]
          refine ⟨heff, ?_, hnames, ih.serdeNames, ?_⟩
          · intro k
            rw [hu, List.mem_append, List.mem_singleton, ih.unset]
            constructor
            · exact .inl
            · rintro (h | rfl)
              · exact h
              · exact (ih.unset _).1 hm
          · rw [hu, List.nodup_append]
            constructor
            · intro h; simp at h
            · rintro ⟨_, _, _, h⟩
              exact absurd rfl (h keyword ((ih.unset _).1 hm) keyword (by simp))
        · simp only [if_neg hm]
          refine ⟨heff, ?_, hnames, ih.serdeNames, ?_⟩
          · intro k
            rw [hu, List.mem_append, List.mem_append, ih.unset]
          · change st.errors = [] ↔ _
            rw [hu, List.nodup_append, ih.errors]
            constructor
            · rintro ⟨h1, h2⟩
              refine ⟨h1, h2, by simp, ?_⟩
              intro a ha b hb
              rw [List.mem_singleton] at hb
              rintro rfl
              exact hm ((ih.unset _).2 (hb ▸ ha))
            · rintro ⟨h1, h2, _⟩; exact ⟨h1, h2⟩
      · have h1 : unsetKeywords [item] = [] := by simp [unsetKeywords, hn]
        rw [h1, List.append_nil] at hu
        have hn' : item.negated = false := by simpa using hn
        simp only [if_neg hn]
        by_cases hk : keyword ∈ schemarsKeywords
        · simp only [if_pos hk]
          have hs : Sets item keyword := ⟨hid, hn', (mem_schemarsKeywords _).1 hk⟩
          refine ⟨ih.effective.append (.keep ⟨keyword, hs⟩ .nil), by rw [hu]; exact ih.unset, ?_,
            ih.serdeNames, by rw [hu]; exact ih.errors⟩
          intro k
          rw [List.mem_cons, ih.names]
          constructor
          · rintro (rfl | ⟨i, hi, h⟩)
            · exact ⟨item, by simp, hs⟩
            · exact ⟨i, List.mem_append_left _ hi, h⟩
          · rintro ⟨i, hi, h⟩
            rcases List.mem_append.1 hi with hi | hi
            · exact .inr ⟨i, hi, h⟩
            · rw [List.mem_singleton] at hi
              subst hi
              have := h.1
              rw [hid, Option.some.injEq] at this
              exact .inl this.symm
        · simp only [if_neg hk]
          have h2 : ∀ k, ¬ Sets item k := by
            intro k h
            have := h.1
            rw [hid, Option.some.injEq] at this
            exact hk ((mem_schemarsKeywords _).2 (this ▸ h.2.2))
          refine ⟨?_, by rw [hu]; exact ih.unset, ?_, ih.serdeNames, by rw [hu]; exact ih.errors⟩
          · have := ih.effective.append (l2 := [item]) (l2' := []) (.drop (fun ⟨k, hk⟩ => h2 k hk) .nil)
            rwa [List.append_nil] at this
          · intro k
            rw [ih.names]
            simp [h2, List.mem_append, or_and_right, exists_or]

/-- The state after the serde items. -/
theorem afterSerde (P : AttrItem α → Prop) (items : List (AttrItem α)) (st0 : AttrState α)
    (hP : ∀ i, P i ↔ ∃ k, i.ident = some k ∧ k ∉ st0.schemarsNames ∧ k ∉ st0.unset ∧ k ∈ serdeSupported) :
    (∃ eff, (items.foldl attrSerdeStep st0).effective = st0.effective ++ eff ∧ Kept P items eff) ∧
    (items.foldl attrSerdeStep st0).schemarsNames = st0.schemarsNames ∧
    (items.foldl attrSerdeStep st0).unset = st0.unset ∧
    (items.foldl attrSerdeStep st0).errors = st0.errors ∧
    ∀ k, k ∈ (items.foldl attrSerdeStep st0).serdeNames ↔
      k ∈ st0.serdeNames ∨ ∃ i ∈ items, i.ident = some k := by
  induction items using List.reverseRecOn with
  | nil => exact ⟨⟨[], by simp, .nil⟩, rfl, rfl, rfl, by simp⟩
  | append_singleton items item ih =>
    rw [List.foldl_append, List.foldl_cons, List.foldl_nil]
    generalize items.foldl attrSerdeStep st0 = st at ih
    obtain ⟨⟨eff, he, hk⟩, h1, h2, h3, h4⟩ := ih
    unfold attrSerdeStep
    cases hid : item.ident with
    | none =>
      refine ⟨⟨eff, he, ?_⟩, h1, h2, h3, ?_⟩
      · have hnp : ¬ P item := by rw [hP, hid]; simp
        have := hk.append (l2 := [item]) (l2' := []) (.drop hnp .nil)
        rwa [List.append_nil] at this
      · intro k
        rw [h4]
        simp [List.mem_append, or_and_right, exists_or, hid]
    | some keyword =>
      refine ⟨?_, h1, h2, h3, ?_⟩
      · by_cases hc : keyword ∉ st.schemarsNames ∧ keyword ∉ st.unset ∧ keyword ∈ serdeKeywords ∧
            keyword ≠ "bound"
        · simp only [if_pos hc]
          refine ⟨eff ++ [item], by rw [he, List.append_assoc], hk.append (.keep ?_ .nil)⟩
          rw [hP]
          exact ⟨keyword, hid, h1 ▸ hc.1, h2 ▸ hc.2.1, (mem_serdeKeywords _).1 hc.2.2⟩
        · simp only [if_neg hc]
          refine ⟨eff, he, ?_⟩
          have hnp : ¬ P item := by
            rw [hP]
            rintro ⟨k, hk, ha, hb, hs⟩
            rw [hid, Option.some.injEq] at hk
            subst hk
            exact hc ⟨h1 ▸ ha, h2 ▸ hb, (mem_serdeKeywords _).2 hs⟩
          have := hk.append (l2 := [item]) (l2' := []) (.drop hnp .nil)
          rwa [List.append_nil] at this
      · intro k
        simp only [List.mem_cons, h4, List.mem_append, List.not_mem_nil, or_false, or_and_right,
          exists_or, exists_eq_left, hid, Option.some.injEq]
        constructor
        · rintro (rfl | h | h)
          · exact .inr (.inr rfl)
          · exact .inl h
          · exact .inr (.inl h)
        · rintro (h | h | rfl)
          · exact .inr (.inl h)
          · exact .inr (.inr h)
          · exact .inl rfl

/-- The serde attributes that take effect: those of schemars, then those of serde that are supported and that
schemars does not decide about. -/
def Spec.Effective (attrs : List (Attr α β)) (eff : List (AttrItem α)) : Prop :=
  ∃ fromSchemars fromSerde, eff = fromSchemars ++ fromSerde ∧
    Kept (fun i => ∃ k, Sets i k) (schemarsOf attrs) fromSchemars ∧
    Kept (Survives attrs) (serdeOf attrs) fromSerde

/-- The local variables at the end of `process_attrs`. -/
theorem processAttrs_spec (attrs : List (Attr α β)) : ∃ eff,
    (processAttrs attrs).1 = (attrs.filter fun a => !a.isSerde) ++ (if eff = [] then [] else [.serde (some eff)]) ∧
    Effective attrs eff ∧
    ((processAttrs attrs).2 = [] ↔ Attr.schemars none ∉ attrs ∧ (unsetKeywords (schemarsOf attrs)).Nodup ∧
      (∀ k, (∃ i ∈ schemarsOf attrs, Unsets i k) → (¬ ∃ i ∈ schemarsOf attrs, Sets i k) ∧
        ∃ i ∈ serdeOf attrs, i.ident = some k)) := by
  unfold processAttrs
  have hitems : (schemarsItems (attrs.filter fun a => !a.isSerde)).1 = schemarsOf attrs := by
    rw [schemarsItems_fst, schemarsOf_others]
  have hsyn := schemarsItems_snd (attrs.filter fun a => !a.isSerde)
  rw [List.mem_filter] at hsyn
  simp only [hitems, serdeItems_eq, serdeOf_serde]
  generalize (schemarsItems (attrs.filter fun a => !a.isSerde)).2 = e0 at *
  have ha := afterSchemars (schemarsOf attrs) e0
  generalize (schemarsOf attrs).foldl attrSchemarsStep ⟨[], [], [], [], e0⟩ = st at ha
  generalize hst1 : ({ st with
    schemarsNames := if "skip" ∈ st.schemarsNames then
        "skip_deserializing" :: "skip_serializing" :: st.schemarsNames
      else st.schemarsNames
    errors := st.errors ++
      (st.unset.filter fun k => decide (k ∈ st.schemarsNames)).map AttrError.setAndUnset } : AttrState α) = st1
  have hn : ∀ k, k ∈ st1.schemarsNames ↔ (∃ i ∈ schemarsOf attrs, Sets i k) ∨
      ((k = "skip_serializing" ∨ k = "skip_deserializing") ∧ ∃ i ∈ schemarsOf attrs, Sets i "skip") := by
    intro k
    subst hst1
    simp only
    by_cases hs : "skip" ∈ st.schemarsNames
    · rw [if_pos hs, List.mem_cons, List.mem_cons, ha.names]
      have := (ha.names _).1 hs
      constructor
      · rintro (h | h | h)
        · exact .inr ⟨.inr h, this⟩
        · exact .inr ⟨.inl h, this⟩
        · exact .inl h
      · rintro (h | ⟨h | h, _⟩)
        · exact .inr (.inr h)
        · exact .inr (.inl h)
        · exact .inl h
    · rw [if_neg hs, ha.names]
      constructor
      · exact .inl
      · rintro (h | ⟨_, h⟩)
        · exact h
        · exact absurd ((ha.names _).2 h) hs
  have hu1 : st1.unset = st.unset := by rw [← hst1]
  have hP : ∀ i : AttrItem α, Survives attrs i ↔
      ∃ k, i.ident = some k ∧ k ∉ st1.schemarsNames ∧ k ∉ st1.unset ∧ k ∈ serdeSupported := by
    intro i
    unfold Survives Overridden
    apply exists_congr; intro k
    rw [hn, hu1, ha.unset, mem_unsetKeywords]
    constructor
    · rintro ⟨h1, h2, h3⟩
      exact ⟨h1, fun h => h3 (h.imp_right .inr), fun h => h3 (.inr (.inl h)), h2⟩
    · rintro ⟨h1, h2, h3, h4⟩
      refine ⟨h1, h4, ?_⟩
      rintro (h | h | h)
      · exact h2 (.inl h)
      · exact h3 h
      · exact h2 (.inr h)
  obtain ⟨⟨eff, he, hk⟩, _, h2, h3, h4⟩ := afterSerde (Survives attrs) (serdeOf attrs) st1 hP
  refine ⟨_, rfl, ⟨st.effective, eff, ?_, ha.effective, hk⟩, ?_⟩
  · rw [he, ← hst1]
  · rw [h3, h2, hu1, List.append_eq_nil_iff, ← hst1]
    simp only [List.append_eq_nil_iff, List.map_eq_nil_iff, List.filter_eq_nil_iff, decide_eq_true_eq]
    rw [ha.errors, hsyn]
    have hser : st1.serdeNames = [] := by rw [← hst1]; exact ha.serdeNames
    constructor
    · rintro ⟨⟨⟨hs, hd⟩, hb⟩, huse⟩
      refine ⟨fun h => hs ⟨h, rfl⟩, hd, ?_⟩
      intro k hk'
      have hku := (ha.unset k).2 (mem_unsetKeywords.2 hk')
      refine ⟨fun h => hb k hku ((ha.names k).2 h), ?_⟩
      have := huse k hku
      rw [not_not] at this
      have := (h4 k).1 (by rw [← hst1]; exact this)
      rw [hser] at this
      simpa using this
    · rintro ⟨hs, hd, hb⟩
      refine ⟨⟨⟨fun h => hs h.1, hd⟩, ?_⟩, ?_⟩
      · intro k hk' hc
        exact (hb k (mem_unsetKeywords.1 ((ha.unset k).1 hk'))).1 ((ha.names k).1 hc)
      · intro k hk'
        rw [not_not]
        have := (hb k (mem_unsetKeywords.1 ((ha.unset k).1 hk'))).2
        have := (h4 k).2 (.inr this)
        rw [← hst1] at this
        exact this

/-- C54: attributes other than `#[serde(…)]` are kept, and there is one `#[serde(…)]` attribute with the
effective items (none if there are no items). -/
theorem C54 (attrs : List (Attr α β)) : ∃ eff, Effective attrs eff ∧
    (processAttrs attrs).1 =
      (attrs.filter fun a => !a.isSerde) ++ (if eff = [] then [] else [.serde (some eff)]) := by
  obtain ⟨eff, h1, h2, _⟩ := processAttrs_spec attrs
  exact ⟨eff, h2, h1⟩

theorem Spec.Kept.mem {P : AttrItem α → Prop} {l l' : List (AttrItem α)} (h : Kept P l l') (i : AttrItem α) :
    i ∈ l' ↔ i ∈ l ∧ P i := by
  induction h with
  | nil => simp
  | keep h _ ih =>
    rw [List.mem_cons, List.mem_cons, ih]
    constructor
    · rintro (rfl | ⟨h1, h2⟩)
      · exact ⟨.inl rfl, h⟩
      · exact ⟨.inr h1, h2⟩
    · rintro ⟨rfl | h1, h2⟩
      · exact .inl rfl
      · exact .inr ⟨h1, h2⟩
  | drop h _ ih =>
    rw [List.mem_cons, ih]
    constructor
    · rintro ⟨h1, h2⟩; exact ⟨.inr h1, h2⟩
    · rintro ⟨rfl | h1, h2⟩
      · exact absurd h2 h
      · exact ⟨h1, h2⟩

theorem Spec.Kept.unique {P : AttrItem α → Prop} {l l1 l2 : List (AttrItem α)} (h1 : Kept P l l1)
    (h2 : Kept P l l2) : l1 = l2 := by
  induction h1 generalizing l2 with
  | nil => cases h2; rfl
  | keep h _ ih => cases h2 with
    | keep _ h2 => rw [ih h2]
    | drop hn _ => exact absurd h hn
  | drop h _ ih => cases h2 with
    | keep hp _ => exact absurd hp h
    | drop _ h2 => exact ih h2

/-- The effective items are determined. -/
theorem C54_unique {attrs : List (Attr α β)} {e e' : List (AttrItem α)} (h : Effective attrs e)
    (h' : Effective attrs e') : e = e' := by
  obtain ⟨a, b, rfl, h1, h2⟩ := h
  obtain ⟨a', b', rfl, h1', h2'⟩ := h'
  rw [h1.unique h1', h2.unique h2']

/-- Errors are reported exactly when a schemars attribute does not parse, a keyword is unset twice, a keyword
is set and unset, or a keyword is unset that no serde attribute has. -/
theorem C54_errors (attrs : List (Attr α β)) : (processAttrs attrs).2 = [] ↔
    Attr.schemars none ∉ attrs ∧ (unsetKeywords (schemarsOf attrs)).Nodup ∧
    ∀ k, (∃ i ∈ schemarsOf attrs, Unsets i k) → (¬ ∃ i ∈ schemarsOf attrs, Sets i k) ∧
      ∃ i ∈ serdeOf attrs, i.ident = some k := by
  obtain ⟨_, _, _, h⟩ := processAttrs_spec attrs
  exact h

/-- `skip` in a schemars attribute also overrides `skip_serializing` and `skip_deserializing`. -/
theorem C54_skip {attrs : List (Attr α β)} {eff : List (AttrItem α)} (he : Effective attrs eff)
    (hs : ∃ i ∈ schemarsOf attrs, Sets i "skip") {item : AttrItem α} (hi : item ∉ schemarsOf attrs)
    {k : String} (hk : k = "skip" ∨ k = "skip_serializing" ∨ k = "skip_deserializing")
    (hid : item.ident = some k) : item ∉ eff := by
  obtain ⟨a, b, rfl, h1, h2⟩ := he
  intro hc
  rcases List.mem_append.1 hc with hc | hc
  · exact hi ((h1.mem _).1 hc).1
  · obtain ⟨k', hk', _, ho⟩ := ((h2.mem _).1 hc).2
    rw [hid, Option.some.injEq] at hk'
    subst hk'
    apply ho
    rcases hk with rfl | hk
    · exact .inl hs
    · exact .inr (.inr ⟨hk, hs⟩)

/-- The converse does not hold: `skip_serializing` in a schemars attribute leaves `skip` of serde in effect
(so the field stays skipped for both contracts). -/
theorem C54_skip_serializing_keeps_skip :
    (processAttrs (β := Unit) [.serde (some [⟨some "skip", false, ()⟩]),
      .schemars (some [⟨some "skip_serializing", false, ()⟩])]).1 =
    [.schemars (some [⟨some "skip_serializing", false, ()⟩]),
      .serde (some [⟨some "skip_serializing", false, ()⟩, ⟨some "skip", false, ()⟩])] := by decide

/-- The test of the crate (schemars_derive/src/attr/schemars_to_serde.rs:178-224), on the container. -/
example : processAttrs [.serde (some [⟨some "rename", false, 1⟩, ⟨some "rename_all", false, 2⟩,
      ⟨some "from", false, 3⟩]),
    .serde (some [⟨some "default", false, 4⟩, ⟨some "unknown_word", false, 5⟩]),
    .schemars (some [⟨some "rename", false, 6⟩, ⟨some "another_unknown_word", false, 7⟩, ⟨some "from", true, 8⟩]),
    .other 9] =
  ([.schemars (some [⟨some "rename", false, 6⟩, ⟨some "another_unknown_word", false, 7⟩, ⟨some "from", true, 8⟩]),
    .other 9,
    .serde (some [⟨some "rename", false, 6⟩, ⟨some "rename_all", false, 2⟩, ⟨some "default", false, 4⟩])], []) := by
  decide

end Verif
