import Verif.Spec.AttrMeta
import Mathlib.Data.List.Perm.Basic
import Mathlib.Data.List.Nodup

/-!
# Reading the items of the attributes
-/

namespace Verif

open Spec

section
variable {τ σ : Type}

/-! ## Loops over the items -/

/-- The loop of `parse_meta`, and of other functions. -/
def runItems (step : MetaItem τ → σ → Option (σ × List MetaError)) :
    List (MetaItem τ) → σ → σ × List MetaError × List (MetaItem τ)
  | [], s => (s, [], [])
  | i :: l, s =>
    match step i s with
    | some (s1, e1) => ((runItems step l s1).1, e1 ++ (runItems step l s1).2.1, (runItems step l s1).2.2)
    | none => ((runItems step l s).1, (runItems step l s).2.1, i :: (runItems step l s).2.2)

theorem runItems_some {step : MetaItem τ → σ → Option (σ × List MetaError)} {i : MetaItem τ}
    {l : List (MetaItem τ)} {s s1 : σ} {e1 : List MetaError} (h : step i s = some (s1, e1)) :
    runItems step (i :: l) s =
      ((runItems step l s1).1, e1 ++ (runItems step l s1).2.1, (runItems step l s1).2.2) := by
  rw [runItems, h]

theorem runItems_none {step : MetaItem τ → σ → Option (σ × List MetaError)} {i : MetaItem τ}
    {l : List (MetaItem τ)} {s : σ} (h : step i s = none) :
    runItems step (i :: l) s = ((runItems step l s).1, (runItems step l s).2.1, i :: (runItems step l s).2.2) := by
  rw [runItems, h]

/-- `handle`, for any item. -/
def handled (handle : String → MetaItem τ → σ → Option (σ × List MetaError)) (i : MetaItem τ) (s : σ) :
    Option (σ × List MetaError) := i.ident.bind fun name => handle name i s

theorem parseMeta_eq (handle : String → MetaItem τ → σ → Option (σ × List MetaError)) (l : List (MetaItem τ)) (s : σ) :
    parseMeta handle l s = runItems (handled handle) l s := by
  induction l generalizing s with
  | nil => rfl
  | cons i l ih =>
    unfold parseMeta runItems handled
    cases h : i.ident.bind fun name => handle name i s with
    | none => simp only [ih]; rfl
    | some r => simp only [ih]; rfl

theorem runItems_append (step : MetaItem τ → σ → Option (σ × List MetaError)) (l m : List (MetaItem τ)) (s : σ) :
    runItems step (l ++ m) s =
      ((runItems step m (runItems step l s).1).1,
        (runItems step l s).2.1 ++ (runItems step m (runItems step l s).1).2.1,
        (runItems step l s).2.2 ++ (runItems step m (runItems step l s).1).2.2) := by
  induction l generalizing s with
  | nil => rfl
  | cons i l ih =>
    rw [List.cons_append]
    cases h : step i s with
    | none => rw [runItems_none h, runItems_none h, ih]; rfl
    | some r => rw [runItems_some h, runItems_some h, ih]; simp

/-- Whether an item is handled does not depend on the state. -/
def Handles (step : MetaItem τ → σ → Option (σ × List MetaError)) (mine : MetaItem τ → Bool) : Prop :=
  ∀ i s, (step i s).isSome = mine i

theorem runItems_rest {step : MetaItem τ → σ → Option (σ × List MetaError)} {mine : MetaItem τ → Bool}
    (h : Handles step mine) (l : List (MetaItem τ)) (s : σ) :
    (runItems step l s).2.2 = l.filter fun i => !mine i := by
  induction l generalizing s with
  | nil => rfl
  | cons i l ih =>
    cases hh : step i s with
    | none =>
      have hn : mine i = false := by rw [← h i s, hh]; rfl
      rw [runItems_none hh, List.filter_cons_of_pos (by simp [hn]), ih]
    | some r =>
      have hn : mine i = true := by rw [← h i s, hh]; rfl
      rw [runItems_some hh, List.filter_cons_of_neg (by simp [hn]), ih]

/-- A part of the state that the first item with one of the names sets. -/
structure Sets {β : Type} (step : MetaItem τ → σ → Option (σ × List MetaError)) (part : σ → Option β)
    (names : List String) (R : MetaItem τ → β → Prop) (i : MetaItem τ) : Prop where
  handles : ∀ s, setsOne names i = true → (step i s).isSome = true
  other : ∀ s s' e, step i s = some (s', e) → setsOne names i = false → part s' = part s
  full : ∀ s s' e, step i s = some (s', e) → setsOne names i = true → (part s).isSome = true → part s' = part s
  free : ∀ s s', step i s = some (s', []) → setsOne names i = true → part s = none → ∃ b, part s' = some b ∧ R i b

theorem sets_first {β : Type} {step : MetaItem τ → σ → Option (σ × List MetaError)} {part : σ → Option β}
    {names : List String} {R : MetaItem τ → β → Prop} (l : List (MetaItem τ)) (h : ∀ i ∈ l, Sets step part names R i)
    (s : σ) (he : (runItems step l s).2.1 = []) :
    (∀ x, part s = some x → part (runItems step l s).1 = some x) ∧
    (part s = none → FirstOf names R l (part (runItems step l s).1)) := by
  induction l generalizing s with
  | nil => exact ⟨fun x hx => hx, fun hx => hx⟩
  | cons i l ih =>
    replace ih := ih fun j hj => h j (.tail _ hj)
    replace h := h i (.head _)
    cases hh : step i s with
    | none =>
      have hn : setsOne names i = false := by
        cases hn : setsOne names i with
        | false => rfl
        | true => have := h.handles s hn; rw [hh] at this; cases this
      rw [runItems_none hh] at he ⊢
      refine ⟨(ih s he).1, fun hx => ?_⟩
      have := (ih s he).2 hx
      unfold FirstOf at this ⊢
      rw [List.find?_cons_of_neg (by simp [hn])]
      exact this
    | some r =>
      obtain ⟨s1, e1⟩ := r
      rw [runItems_some hh] at he ⊢
      obtain ⟨rfl, he⟩ := List.append_eq_nil_iff.1 he
      cases hn : setsOne names i with
      | false =>
        have hp := h.other s s1 _ hh hn
        refine ⟨fun x hx => (ih s1 he).1 x (hp.trans hx), fun hx => ?_⟩
        have := (ih s1 he).2 (hp.trans hx)
        unfold FirstOf at this ⊢
        rw [List.find?_cons_of_neg (by simp [hn])]
        exact this
      | true =>
        constructor
        · intro x hx
          exact (ih s1 he).1 x ((h.full s s1 _ hh hn (by rw [hx]; rfl)).trans hx)
        · intro hx
          obtain ⟨b, hb, hr⟩ := h.free s s1 hh hn hx
          unfold FirstOf
          rw [List.find?_cons_of_pos hn]
          exact ⟨b, (ih s1 he).1 b hb, hr⟩

/-- How a step reports errors about an item of a schemars attribute: the item is accepted when it is well formed and
what it sets is not yet set. -/
structure Strict {κ : Type} (step : MetaItem τ → σ → Option (σ × List MetaError)) (isSet : σ → κ → Prop)
    (wf : MetaItem τ → Prop) (keys : MetaItem τ → List κ) (i : MetaItem τ) : Prop where
  errors : ∀ s s' e, step i s = some (s', e) → (e = [] ↔ wf i ∧ (keys i).Nodup ∧ ∀ k ∈ keys i, ¬ isSet s k)
  sets : ∀ s s', step i s = some (s', []) → ∀ k, isSet s' k ↔ isSet s k ∨ k ∈ keys i

theorem strict_run {κ : Type} {step : MetaItem τ → σ → Option (σ × List MetaError)} {isSet : σ → κ → Prop}
    {wf : MetaItem τ → Prop} {keys : MetaItem τ → List κ} {mine : MetaItem τ → Bool}
    (hn : Handles step mine) (l : List (MetaItem τ)) (h : ∀ i ∈ l, Strict step isSet wf keys i) (s : σ) :
    ((runItems step l s).2.1 = [] ↔
      (∀ i ∈ l, mine i = true → wf i) ∧
      ((l.filter mine).flatMap keys).Nodup ∧
      ∀ k ∈ (l.filter mine).flatMap keys, ¬ isSet s k) ∧
    ((runItems step l s).2.1 = [] →
      ∀ k, isSet (runItems step l s).1 k ↔ isSet s k ∨ k ∈ (l.filter mine).flatMap keys) := by
  induction l generalizing s with
  | nil => simp [runItems]
  | cons i l ih =>
    replace ih := ih fun j hj => h j (.tail _ hj)
    replace h := h i (.head _)
    cases hh : step i s with
    | none =>
      have hni : mine i = false := by rw [← hn i s, hh]; rfl
      rw [runItems_none hh, List.filter_cons_of_neg (by simp [hni])]
      simp only [List.forall_mem_cons, hni]
      simpa using ih s
    | some r =>
      obtain ⟨s1, e1⟩ := r
      have hni : mine i = true := by rw [← hn i s, hh]; rfl
      rw [runItems_some hh, List.filter_cons_of_pos hni]
      simp only [List.forall_mem_cons, hni, List.flatMap_cons, List.append_eq_nil_iff, List.nodup_append,
        List.mem_append]
      obtain ⟨ih1, ih2⟩ := ih s1
      constructor
      · constructor
        · rintro ⟨rfl, he⟩
          obtain ⟨hw, hk, hs⟩ := (h.errors s s1 _ hh).1 rfl
          obtain ⟨hwl, hkl, hsl⟩ := ih1.1 he
          have hset := h.sets s s1 hh
          refine ⟨⟨fun _ => hw, hwl⟩, ⟨hk, hkl, ?_⟩, ?_⟩
          · intro a ha b hb hab
            subst hab
            exact hsl a hb ((hset a).2 (.inr ha))
          · rintro k (hkk | hkk) hsk
            · exact hs k hkk hsk
            · exact hsl k hkk ((hset k).2 (.inl hsk))
        · rintro ⟨⟨hw, hwl⟩, ⟨hk, hkl, hd⟩, hs⟩
          have he := (h.errors s s1 _ hh).2 ⟨hw trivial, hk, fun k hkk => hs k (.inl hkk)⟩
          subst he
          refine ⟨rfl, ih1.2 ⟨hwl, hkl, ?_⟩⟩
          intro k hkk hsk
          rcases (h.sets s s1 hh k).1 hsk with hsk | hsk
          · exact hs k (.inr hkk) hsk
          · exact hd k hsk k hkk rfl
      · rintro ⟨rfl, he⟩ k
        rw [ih2 he k, h.sets s s1 hh k, or_assoc]

/-! ## The parsers -/

/-- A parser that gives what the item says, or reports an error. -/
def Gives {β : Type} (p : Parsed β) (R : β → Prop) : Prop :=
  (∃ b, p = (some b, []) ∧ R b) ∨ ((∀ b, ¬ R b) ∧ p.1 = none ∧ p.2 ≠ [])

theorem Gives.ok {β : Type} {p : Parsed β} {R : β → Prop} (h : Gives p R) (he : p.2 = []) :
    ∃ b, p.1 = some b ∧ R b := by
  rcases h with ⟨b, rfl, hb⟩ | ⟨_, _, h⟩
  · exact ⟨b, rfl, hb⟩
  · exact absurd he h

theorem Gives.iff {β : Type} {p : Parsed β} {R : β → Prop} (h : Gives p R) : p.2 = [] ↔ ∃ b, R b := by
  rcases h with ⟨b, rfl, hb⟩ | ⟨h, _, h2⟩
  · exact ⟨fun _ => ⟨b, hb⟩, fun _ => rfl⟩
  · exact ⟨fun he => absurd he h2, fun ⟨b, hb⟩ => absurd hb (h b)⟩

/-- The same for parsers that may report errors and give something. -/
def Tells {β : Type} (p : Parsed β) (R : β → Prop) : Prop :=
  (∃ b, p = (some b, []) ∧ R b) ∨ ((∀ b, ¬ R b) ∧ p.2 ≠ [])

theorem Tells.ok {β : Type} {p : Parsed β} {R : β → Prop} (h : Tells p R) (he : p.2 = []) :
    ∃ b, p.1 = some b ∧ R b := by
  rcases h with ⟨b, rfl, hb⟩ | ⟨_, h⟩
  · exact ⟨b, rfl, hb⟩
  · exact absurd he h

theorem Tells.iff {β : Type} {p : Parsed β} {R : β → Prop} (h : Tells p R) : p.2 = [] ↔ ∃ b, R b := by
  rcases h with ⟨b, rfl, hb⟩ | ⟨h, h2⟩
  · exact ⟨fun _ => ⟨b, hb⟩, fun _ => rfl⟩
  · exact ⟨fun he => absurd he h2, fun ⟨b, hb⟩ => absurd hb (h b)⟩

theorem gives_value (cx : AttrType) (i : MetaItem τ) : Gives (parseValue cx i) (HasValue i) := by
  obtain ⟨n, neg, body⟩ := i
  unfold parseValue HasValue
  cases neg <;> cases body <;> simp [Gives]

theorem gives_text {α : Type} (parser : String → Option α) (cx : AttrType) (i : MetaItem τ) :
    Gives (parseString parser cx i) (HasText parser i) := by
  obtain ⟨n, neg, body⟩ := i
  unfold parseString requireString parseText HasText HasValue
  cases neg <;> cases body with
    | nameValue v =>
      cases v with
      | str s => cases h : parser s <;> simp [Gives, h]
      | other t => simp [Gives]
    | _ => simp [Gives]

theorem gives_code (ps : Parsers τ) (cx : AttrType) (i : MetaItem τ) :
    Gives (parseValueOrText ps cx i) (HasCode ps i) := by
  obtain ⟨n, neg, body⟩ := i
  unfold parseValueOrText parseValue parseText HasCode HasText HasValue
  cases neg <;> cases body with
    | nameValue v =>
      cases v with
      | str s => cases h : ps.expr s <;> simp [Gives, h]
      | other t => simp [Gives]
    | _ => simp [Gives]

theorem gives_items (cx : AttrType) (i : MetaItem τ) : Gives (parseNested cx i) (HasItems i) := by
  obtain ⟨n, neg, body⟩ := i
  unfold parseNested parseListWith HasItems MetaBody.metas?
  cases neg <;> cases body with
    | list l x e b => cases l <;> simp [Gives]
    | _ => simp [Gives]

theorem gives_expr (cx : AttrType) (i : MetaItem τ) : Gives (parseListWith MetaBody.expr? cx i) (HasExpr i) := by
  obtain ⟨n, neg, body⟩ := i
  unfold parseListWith HasExpr MetaBody.expr?
  cases neg <;> cases body with
    | list l x e b => cases x <;> simp [Gives]
    | _ => simp [Gives]

theorem gives_extensions (cx : AttrType) (i : MetaItem τ) :
    Gives (parseListWith MetaBody.extensions? cx i) (HasExtensions i) := by
  obtain ⟨n, neg, body⟩ := i
  unfold parseListWith HasExtensions MetaBody.extensions?
  cases neg <;> cases body with
    | list l x e b => cases e <;> simp [Gives]
    | _ => simp [Gives]

/-! ### length and range -/

theorem isNamed_cons (n : String) (names : List String) (i : MetaItem τ) :
    isNamed (n :: names) i = (decide (i.ident = some n) || isNamed names i) := by
  obtain ⟨id, neg, body⟩ := i
  cases id with
  | none => simp [isNamed]
  | some k =>
    simp only [isNamed, Option.any_some, List.contains_cons, Option.some.injEq]
    congr 1

theorem isNamed_nil (i : MetaItem τ) : isNamed [] i = false := by
  obtain ⟨id, neg, body⟩ := i
  cases id <;> simp [isNamed]

theorem isNamed_of {n : String} {i : MetaItem τ} (h : i.ident = some n) (names : List String) :
    isNamed names i = names.contains n := by simp [isNamed, h]

theorem hasCode_pos {ps : Parsers τ} {i : MetaItem τ} {v : MetaExpr τ} (h : HasCode ps i v) : i.negated = false := by
  rcases h with ⟨s, h, _⟩ | ⟨t, h, _⟩ <;> exact h.1

theorem lengthLoop_eq (ps : Parsers τ) (cx : AttrType) (outer : String) (l : List (MetaItem τ)) (r : LengthMeta τ) :
    lengthLoop ps cx outer l r =
      ((runItems (fun i r => some (lengthStep ps cx outer r i)) l r).1,
        (runItems (fun i r => some (lengthStep ps cx outer r i)) l r).2.1) := by
  induction l generalizing r with
  | nil => rfl
  | cons i l ih => simp only [lengthLoop, ih]; rfl

/-- The cases of an item in `length(…)` or `range(…)`. -/
theorem lengthStep_cases (ps : Parsers τ) (cx : AttrType) (outer : String) (r : LengthMeta τ) (i : MetaItem τ) :
    (i.ident = some "min" ∧ ((r.min.isSome = true ∨ r.equal.isSome = true) ∧ (lengthStep ps cx outer r i).1 = r ∧
        ((lengthStep ps cx outer r i).2 = [] ↔ cx ≠ .schemars) ∨
      r.min = none ∧ r.equal = none ∧ lengthStep ps cx outer r i =
        ({ r with min := (parseValueOrText ps cx i).1 }, (parseValueOrText ps cx i).2))) ∨
    (i.ident = some "max" ∧ ((r.max.isSome = true ∨ r.equal.isSome = true) ∧ (lengthStep ps cx outer r i).1 = r ∧
        ((lengthStep ps cx outer r i).2 = [] ↔ cx ≠ .schemars) ∨
      r.max = none ∧ r.equal = none ∧ lengthStep ps cx outer r i =
        ({ r with max := (parseValueOrText ps cx i).1 }, (parseValueOrText ps cx i).2))) ∨
    (i.ident = some "equal" ∧ ((r.min.isSome = true ∨ r.max.isSome = true ∨ r.equal.isSome = true) ∧
        (lengthStep ps cx outer r i).1 = r ∧ ((lengthStep ps cx outer r i).2 = [] ↔ cx ≠ .schemars) ∨
      r = {} ∧ lengthStep ps cx outer r i =
        ({ equal := (parseValueOrText ps cx i).1 }, (parseValueOrText ps cx i).2))) ∨
    (isNamed ["min", "max", "equal"] i = false ∧ (lengthStep ps cx outer r i).1 = r ∧
      ((lengthStep ps cx outer r i).2 = [] ↔ cx ≠ .schemars)) := by
  have hrep : ∀ e, (reportIf cx e = [] ↔ cx ≠ .schemars) := by
    intro e; unfold reportIf; by_cases h : cx = .schemars <;> simp [h]
  unfold lengthStep
  by_cases h1 : i.ident = some "min"
  · refine .inl ⟨h1, ?_⟩
    rw [if_pos h1]
    cases hm : r.min with
    | some x => simp [hrep]
    | none => cases hq : r.equal with
      | some x => simp [hrep]
      | none => simp
  rw [if_neg h1]
  by_cases h2 : i.ident = some "max"
  · refine .inr (.inl ⟨h2, ?_⟩)
    rw [if_pos h2]
    cases hm : r.max with
    | some x => simp [hrep]
    | none => cases hq : r.equal with
      | some x => simp [hrep]
      | none => simp
  rw [if_neg h2]
  by_cases h3 : i.ident = some "equal"
  · refine .inr (.inr (.inl ⟨h3, ?_⟩))
    rw [if_pos h3]
    obtain ⟨mn, mx, eq⟩ := r
    cases mn with
    | some x => simp [hrep]
    | none => cases mx with
      | some x => simp [hrep]
      | none => cases eq with
        | some x => simp [hrep]
        | none => simp
  rw [if_neg h3]
  exact .inr (.inr (.inr ⟨by simp [isNamed_cons, isNamed_nil, h1, h2, h3], rfl, hrep _⟩))

/-- The loop with a bound already set. -/
theorem length_bounds (ps : Parsers τ) (cx : AttrType) (outer : String) (l : List (MetaItem τ)) (r : LengthMeta τ)
    (hq : r.equal = none) (hb : r.min.isSome = true ∨ r.max.isSome = true)
    (he : (runItems (fun i r => some (lengthStep ps cx outer r i)) l r).2.1 = []) :
    (runItems (fun i r => some (lengthStep ps cx outer r i)) l r).1.equal = none ∧
    ((∀ x, r.min = some x → (runItems (fun i r => some (lengthStep ps cx outer r i)) l r).1.min = some x) ∧
      (r.min = none →
        FirstOf ["min"] (HasCode ps) l (runItems (fun i r => some (lengthStep ps cx outer r i)) l r).1.min)) ∧
    ((∀ x, r.max = some x → (runItems (fun i r => some (lengthStep ps cx outer r i)) l r).1.max = some x) ∧
      (r.max = none →
        FirstOf ["max"] (HasCode ps) l (runItems (fun i r => some (lengthStep ps cx outer r i)) l r).1.max)) := by
  induction l generalizing r with
  | nil => exact ⟨hq, ⟨fun _ h => h, fun h => h⟩, fun _ h => h, fun h => h⟩
  | cons i l ih =>
    rw [runItems_some (i := i) (l := l) (s := r) (s1 := (lengthStep ps cx outer r i).1)
      (e1 := (lengthStep ps cx outer r i).2) rfl] at he ⊢
    obtain ⟨he1, he⟩ := List.append_eq_nil_iff.1 he
    have skip : ∀ names (x : Option (MetaExpr τ)), setsOne names i = false → FirstOf names (HasCode ps) l x →
        FirstOf names (HasCode ps) (i :: l) x := by
      intro names x hs h
      unfold FirstOf at h ⊢
      rw [List.find?_cons_of_neg (by simp [hs])]
      exact h
    rcases lengthStep_cases ps cx outer r i with ⟨hn, h⟩ | ⟨hn, h⟩ | ⟨hn, h⟩ | ⟨hn, h, _⟩
    · rcases h with ⟨hf, h, _⟩ | ⟨hm, _, h⟩
      · have hf : r.min.isSome = true := by simpa [hq] using hf
        simp only [h] at he ⊢
        obtain ⟨g1, g2, g3⟩ := ih r hq hb he
        refine ⟨g1, ⟨g2.1, fun hm => by simp [hm] at hf⟩, g3.1, fun hm => skip _ _ ?_ (g3.2 hm)⟩
        simp [setsOne, isNamed_of hn]
      · simp only [h] at he he1 ⊢
        obtain ⟨b, hb1, hb2⟩ := (gives_code ps cx i).ok he1
        obtain ⟨g1, g2, g3⟩ := ih { r with min := (parseValueOrText ps cx i).1 } hq (.inl (by simp [hb1])) he
        refine ⟨g1, ⟨fun x hx => (by simp [hm] at hx), fun _ => ?_⟩, g3.1, fun hm => skip _ _ ?_ (g3.2 hm)⟩
        · unfold FirstOf
          rw [List.find?_cons_of_pos (by simp [setsOne, isNamed_of hn, hasCode_pos hb2])]
          exact ⟨b, g2.1 b hb1, hb2⟩
        · simp [setsOne, isNamed_of hn]
    · rcases h with ⟨hf, h, _⟩ | ⟨hm, _, h⟩
      · have hf : r.max.isSome = true := by simpa [hq] using hf
        simp only [h] at he ⊢
        obtain ⟨g1, g2, g3⟩ := ih r hq hb he
        refine ⟨g1, ⟨g2.1, fun hm => skip _ _ ?_ (g2.2 hm)⟩, g3.1, fun hm => by simp [hm] at hf⟩
        simp [setsOne, isNamed_of hn]
      · simp only [h] at he he1 ⊢
        obtain ⟨b, hb1, hb2⟩ := (gives_code ps cx i).ok he1
        obtain ⟨g1, g2, g3⟩ := ih { r with max := (parseValueOrText ps cx i).1 } hq (.inr (by simp [hb1])) he
        refine ⟨g1, ⟨g2.1, fun hm => skip _ _ ?_ (g2.2 hm)⟩, fun x hx => (by simp [hm] at hx), fun _ => ?_⟩
        · simp [setsOne, isNamed_of hn]
        · unfold FirstOf
          rw [List.find?_cons_of_pos (by simp [setsOne, isNamed_of hn, hasCode_pos hb2])]
          exact ⟨b, g3.1 b hb1, hb2⟩
    · rcases h with ⟨_, h, _⟩ | ⟨h, _⟩
      · simp only [h] at he ⊢
        obtain ⟨g1, g2, g3⟩ := ih r hq hb he
        refine ⟨g1, ⟨g2.1, fun hm => skip _ _ ?_ (g2.2 hm)⟩, g3.1, fun hm => skip _ _ ?_ (g3.2 hm)⟩ <;>
          simp [setsOne, isNamed_of hn]
      · rw [h] at hb
        simp at hb
    · simp only [h] at he ⊢
      obtain ⟨g1, g2, g3⟩ := ih r hq hb he
      simp only [isNamed_cons, isNamed_nil, Bool.or_false, Bool.or_eq_false_iff] at hn
      refine ⟨g1, ⟨g2.1, fun hm => skip _ _ ?_ (g2.2 hm)⟩, g3.1, fun hm => skip _ _ ?_ (g3.2 hm)⟩ <;>
        simp [setsOne, isNamed_cons, isNamed_nil, hn]

/-- The loop with `equal` already set. -/
theorem length_equal (ps : Parsers τ) (cx : AttrType) (outer : String) (l : List (MetaItem τ)) (r : LengthMeta τ)
    (hq : r.equal.isSome = true) : (runItems (fun i r => some (lengthStep ps cx outer r i)) l r).1 = r := by
  induction l generalizing r with
  | nil => rfl
  | cons i l ih =>
    rw [runItems_some (i := i) (l := l) (s := r) (s1 := (lengthStep ps cx outer r i).1)
      (e1 := (lengthStep ps cx outer r i).2) rfl]
    have h : (lengthStep ps cx outer r i).1 = r := by
      rcases lengthStep_cases ps cx outer r i with ⟨_, h⟩ | ⟨_, h⟩ | ⟨_, h⟩ | ⟨_, h, _⟩
      · rcases h with ⟨_, h, _⟩ | ⟨_, h, _⟩
        · exact h
        · simp [h] at hq
      · rcases h with ⟨_, h, _⟩ | ⟨_, h, _⟩
        · exact h
        · simp [h] at hq
      · rcases h with ⟨_, h, _⟩ | ⟨h, _⟩
        · exact h
        · simp [h] at hq
      · exact h
    simp only [h]
    exact ih r hq

theorem length_reads (ps : Parsers τ) (cx : AttrType) (outer : String) (l : List (MetaItem τ))
    (he : (runItems (fun i r => some (lengthStep ps cx outer r i)) l {}).2.1 = []) :
    LengthReads ps l (runItems (fun i r => some (lengthStep ps cx outer r i)) l {}).1 := by
  induction l with
  | nil => rfl
  | cons i l ih =>
    rw [runItems_some (i := i) (l := l) (s := {}) (s1 := (lengthStep ps cx outer {} i).1)
      (e1 := (lengthStep ps cx outer {} i).2) rfl] at he ⊢
    obtain ⟨he1, he⟩ := List.append_eq_nil_iff.1 he
    have skip : ∀ names (x : Option (MetaExpr τ)), setsOne names i = false → FirstOf names (HasCode ps) l x →
        FirstOf names (HasCode ps) (i :: l) x := by
      intro names x hs h
      unfold FirstOf at h ⊢
      rw [List.find?_cons_of_neg (by simp [hs])]
      exact h
    rcases lengthStep_cases ps cx outer {} i with ⟨hn, h⟩ | ⟨hn, h⟩ | ⟨hn, h⟩ | ⟨hn, h, _⟩
    · rcases h with ⟨hf, h, _⟩ | ⟨hm, _, h⟩
      · simp at hf
      · simp only [h] at he he1 ⊢
        obtain ⟨b, hb1, hb2⟩ := (gives_code ps cx i).ok he1
        have hp := hasCode_pos hb2
        obtain ⟨g1, g2, g3⟩ := length_bounds ps cx outer l { min := (parseValueOrText ps cx i).1 } rfl
          (.inl (by simp [hb1])) he
        unfold LengthReads
        rw [List.find?_cons_of_pos (by simp [setsOne, isNamed_of hn, hp])]
        simp only
        rw [if_neg (by simp [isNamed_of hn])]
        refine ⟨g1, ?_, skip _ _ (by simp [setsOne, isNamed_of hn]) (g3.2 rfl)⟩
        unfold FirstOf
        rw [List.find?_cons_of_pos (by simp [setsOne, isNamed_of hn, hp])]
        exact ⟨b, g2.1 b hb1, hb2⟩
    · rcases h with ⟨hf, h, _⟩ | ⟨hm, _, h⟩
      · simp at hf
      · simp only [h] at he he1 ⊢
        obtain ⟨b, hb1, hb2⟩ := (gives_code ps cx i).ok he1
        have hp := hasCode_pos hb2
        obtain ⟨g1, g2, g3⟩ := length_bounds ps cx outer l { max := (parseValueOrText ps cx i).1 } rfl
          (.inr (by simp [hb1])) he
        unfold LengthReads
        rw [List.find?_cons_of_pos (by simp [setsOne, isNamed_of hn, hp])]
        simp only
        rw [if_neg (by simp [isNamed_of hn])]
        refine ⟨g1, skip _ _ (by simp [setsOne, isNamed_of hn]) (g2.2 rfl), ?_⟩
        unfold FirstOf
        rw [List.find?_cons_of_pos (by simp [setsOne, isNamed_of hn, hp])]
        exact ⟨b, g3.1 b hb1, hb2⟩
    · rcases h with ⟨hf, h, _⟩ | ⟨_, h⟩
      · simp at hf
      · simp only [h] at he he1 ⊢
        obtain ⟨b, hb1, hb2⟩ := (gives_code ps cx i).ok he1
        have hp := hasCode_pos hb2
        unfold LengthReads
        rw [List.find?_cons_of_pos (by simp [setsOne, isNamed_of hn, hp])]
        simp only
        rw [if_pos (by simp [isNamed_of hn]), length_equal _ _ _ _ _ (by simp [hb1])]
        exact ⟨b, hb2, by rw [hb1]⟩
    · simp only [h] at he ⊢
      have := ih he
      have hs : setsOne ["min", "max", "equal"] i = false := by simp [setsOne, hn]
      simp only [isNamed_cons, isNamed_nil, Bool.or_false, Bool.or_eq_false_iff] at hn
      unfold LengthReads at this ⊢
      rw [List.find?_cons_of_neg (by simp [hs])]
      cases hf : l.find? (setsOne ["min", "max", "equal"]) with
      | none => simp only [hf] at this ⊢; exact this
      | some j =>
        simp only [hf] at this ⊢
        by_cases hj : isNamed ["equal"] j = true
        · rw [if_pos hj] at this ⊢
          exact this
        · rw [if_neg hj] at this ⊢
          exact ⟨this.1, skip _ _ (by simp [setsOne, isNamed_cons, isNamed_nil, hn]) this.2.1,
            skip _ _ (by simp [setsOne, isNamed_cons, isNamed_nil, hn]) this.2.2⟩

/-- The bounds that are set. -/
def boundSet (r : LengthMeta τ) : BoundKey → Prop
  | .min => r.min.isSome = true ∨ r.equal.isSome = true
  | .max => r.max.isSome = true ∨ r.equal.isSome = true

theorem length_strict (ps : Parsers τ) (outer : String) (i : MetaItem τ) :
    Strict (fun i r => some (lengthStep ps .schemars outer r i)) boundSet
      (fun j => isNamed ["min", "max", "equal"] j = true ∧ ∃ v, HasCode ps j v) boundsOf i := by
  have hg := (gives_code ps .schemars i).iff
  constructor
  · intro r r' e h
    simp only [Option.some.injEq] at h
    have h1 : r' = (lengthStep ps .schemars outer r i).1 := by rw [h]
    have h2 : e = (lengthStep ps .schemars outer r i).2 := by rw [h]
    subst h1 h2
    rcases lengthStep_cases ps .schemars outer r i with ⟨hn, h⟩ | ⟨hn, h⟩ | ⟨hn, h⟩ | ⟨hn, h, h2⟩
    · rw [isNamed_of hn, boundsOf, isNamed_of hn]
      rcases h with ⟨hf, _, h⟩ | ⟨hm, hq, h⟩
      · rw [h]; rcases hf with hf | hf <;> simp [boundSet, hf]
      · rw [h, hg]; simp [boundSet, hm, hq]
    · rw [isNamed_of hn, boundsOf, isNamed_of hn, isNamed_of hn]
      rcases h with ⟨hf, _, h⟩ | ⟨hm, hq, h⟩
      · rw [h]; rcases hf with hf | hf <;> simp [boundSet, hf]
      · rw [h, hg]; simp [boundSet, hm, hq]
    · rw [isNamed_of hn, boundsOf, isNamed_of hn, isNamed_of hn, isNamed_of hn]
      rcases h with ⟨hf, _, h⟩ | ⟨hm, h⟩
      · rw [h]
        simp only [boundSet]
        rcases hf with hf | hf | hf <;> simp [hf]
      · rw [h, hg]; simp [boundSet, hm]
    · rw [h2, hn]; simp
  · intro r r' h
    simp only [Option.some.injEq] at h
    have h1 : r' = (lengthStep ps .schemars outer r i).1 := by rw [h]
    have h0 : (lengthStep ps .schemars outer r i).2 = [] := by rw [h]
    subst h1
    clear h
    rcases lengthStep_cases ps .schemars outer r i with ⟨hn, h⟩ | ⟨hn, h⟩ | ⟨hn, h⟩ | ⟨hn, h, h2⟩
    · rcases h with ⟨hf, _, h⟩ | ⟨hm, hq, h⟩
      · simp [h0] at h
      · rw [h] at h0
        obtain ⟨b, hb, _⟩ := (gives_code ps .schemars i).ok h0
        rw [h, boundsOf, isNamed_of hn]
        intro k
        cases k <;> simp [boundSet, hb, hq]
    · rcases h with ⟨hf, _, h⟩ | ⟨hm, hq, h⟩
      · simp [h0] at h
      · rw [h] at h0
        obtain ⟨b, hb, _⟩ := (gives_code ps .schemars i).ok h0
        rw [h, boundsOf, isNamed_of hn, isNamed_of hn]
        intro k
        cases k <;> simp [boundSet, hb, hq]
    · rcases h with ⟨hf, _, h⟩ | ⟨hm, h⟩
      · simp [h0] at h
      · rw [h] at h0
        obtain ⟨b, hb, _⟩ := (gives_code ps .schemars i).ok h0
        rw [h, boundsOf, isNamed_of hn, isNamed_of hn, isNamed_of hn]
        intro k
        cases k <;> simp [boundSet, hb]
    · simp [h0] at h2

/-- `parse_length_or_range`. -/
theorem length_ok (ps : Parsers τ) (cx : AttrType) (outer : String) (i : MetaItem τ)
    (he : (parseLengthOrRange ps cx outer i).2 = []) :
    ∃ r, (parseLengthOrRange ps cx outer i).1 = some r ∧ ∃ l, HasItems i l ∧ LengthReads ps l r := by
  unfold parseLengthOrRange at he ⊢
  rcases gives_items cx i with ⟨l, h, hl⟩ | ⟨_, h1, h2⟩
  · rw [h] at he ⊢
    simp only [lengthLoop_eq, List.nil_append] at he ⊢
    exact ⟨_, rfl, l, hl, length_reads ps cx outer l he⟩
  · cases hp : parseNested cx i with
    | mk a b =>
      rw [hp] at he h1 h2
      simp only at h1 h2
      subst h1
      exact absurd he h2

theorem length_iff (ps : Parsers τ) (outer : String) (i : MetaItem τ) :
    (parseLengthOrRange ps .schemars outer i).2 = [] ↔ LengthOk ps i := by
  unfold parseLengthOrRange
  rcases gives_items .schemars i with ⟨l, h, hl⟩ | ⟨h0, h1, h2⟩
  · rw [h]
    simp only [lengthLoop_eq, List.nil_append]
    have := (strict_run (mine := fun _ => true) (fun _ _ => rfl) l (fun i _ => length_strict ps outer i) {}).1
    rw [this]
    simp only [List.filter_true]
    constructor
    · rintro ⟨hw, hk, _⟩
      exact ⟨l, hl, fun j hj => hw j hj trivial, hk⟩
    · rintro ⟨l', hl', hw, hk⟩
      obtain rfl : l' = l := by
        obtain ⟨_, _, _, _, hl⟩ := hl
        obtain ⟨_, _, _, _, hl'⟩ := hl'
        rw [hl] at hl'
        simp at hl'
        exact hl'.1.symm
      exact ⟨fun j hj _ => hw j hj, hk, fun k _ => by cases k <;> simp [boundSet]⟩
  · cases hp : parseNested .schemars i with
    | mk a b =>
      rw [hp] at h1 h2
      simp only at h1 h2
      subst h1
      simp only [h2, false_iff]
      rintro ⟨l, hl, _⟩
      exact h0 l hl

/-! ### regex and contains -/

theorem hasItems_inj {i : MetaItem τ} {l m : List (MetaItem τ)} (h : HasItems i l) (h' : HasItems i m) : l = m := by
  obtain ⟨_, _, _, _, h⟩ := h
  obtain ⟨_, _, _, _, h'⟩ := h'
  rw [h] at h'
  simp at h'
  exact h'.1

theorem hasValue_inj {i : MetaItem τ} {v w : MetaExpr τ} (h : HasValue i v) (h' : HasValue i w) : v = w := by
  have := h.2.symm.trans h'.2
  simpa using this

theorem schemarsRegex_full (j : MetaItem τ) (l : List (MetaItem τ)) (x : MetaExpr τ) :
    (schemarsRegexLoop .schemars (j :: l) (some x)).2 ≠ [] := by
  unfold schemarsRegexLoop
  by_cases h1 : j.ident = some "pattern"
  · simp [h1, reportIf]
  · by_cases h2 : j.ident = some "path" <;> simp [h1, h2]

theorem contains_full (j : MetaItem τ) (l : List (MetaItem τ)) (x : MetaExpr τ) :
    (containsLoop .schemars (j :: l) (some x)).2 ≠ [] := by
  unfold containsLoop
  by_cases h1 : j.ident = some "pattern" <;> simp [h1, reportIf]

theorem isNamed_single (n : String) (i : MetaItem τ) : isNamed [n] i = decide (i.ident = some n) := by
  simp [isNamed_cons, isNamed_nil]

theorem schemarsRegexLoop_tells (l : List (MetaItem τ)) :
    (∃ j v, l = [j] ∧ isNamed ["pattern"] j = true ∧ HasValue j v ∧
      schemarsRegexLoop .schemars l none = (some v, [])) ∨
    ((∀ j v, l = [j] → isNamed ["pattern"] j = true → ¬ HasValue j v) ∧
      (schemarsRegexLoop .schemars l none = (none, []) ∨ (schemarsRegexLoop .schemars l none).2 ≠ [])) := by
  cases l with
  | nil => exact .inr ⟨by simp, .inl rfl⟩
  | cons j l =>
    by_cases h1 : j.ident = some "pattern"
    · rcases gives_value .schemars j with ⟨v, hv, hj⟩ | ⟨h0, h2, h3⟩
      · cases l with
        | nil =>
          refine .inl ⟨j, v, rfl, by simp [isNamed_single, h1], hj, ?_⟩
          simp [schemarsRegexLoop, h1, hv]
        | cons k l =>
          refine .inr ⟨by simp, .inr ?_⟩
          have := schemarsRegex_full k l v
          rw [schemarsRegexLoop]
          simp only [h1, if_true, Option.isSome_none, Bool.false_eq_true, if_false, hv, List.nil_append]
          exact this
      · refine .inr ⟨?_, .inr ?_⟩
        · rintro j' v hj' _ hv
          obtain ⟨rfl, rfl⟩ := List.cons_eq_cons.1 hj'
          exact h0 v hv
        · rw [schemarsRegexLoop]
          simp [h1, h3]
    · refine .inr ⟨?_, .inr ?_⟩
      · rintro j' v hj' hn _
        obtain ⟨rfl, rfl⟩ := List.cons_eq_cons.1 hj'
        exact h1 (by simpa [isNamed_single] using hn)
      · rw [schemarsRegexLoop]
        by_cases h2 : j.ident = some "path" <;> simp [h1, h2]

theorem containsLoop_tells (l : List (MetaItem τ)) :
    (∃ j v, l = [j] ∧ isNamed ["pattern"] j = true ∧ HasValue j v ∧
      containsLoop .schemars l none = (some v, [])) ∨
    ((∀ j v, l = [j] → isNamed ["pattern"] j = true → ¬ HasValue j v) ∧
      (containsLoop .schemars l none = (none, []) ∨ (containsLoop .schemars l none).2 ≠ [])) := by
  cases l with
  | nil => exact .inr ⟨by simp, .inl rfl⟩
  | cons j l =>
    by_cases h1 : j.ident = some "pattern"
    · rcases gives_value .schemars j with ⟨v, hv, hj⟩ | ⟨h0, h2, h3⟩
      · cases l with
        | nil =>
          refine .inl ⟨j, v, rfl, by simp [isNamed_single, h1], hj, ?_⟩
          simp [containsLoop, h1, hv]
        | cons k l =>
          refine .inr ⟨by simp, .inr ?_⟩
          have := contains_full k l v
          rw [containsLoop]
          simp only [h1, if_true, Option.isSome_none, Bool.false_eq_true, if_false, hv, List.nil_append]
          exact this
      · refine .inr ⟨?_, .inr ?_⟩
        · rintro j' v hj' _ hv
          obtain ⟨rfl, rfl⟩ := List.cons_eq_cons.1 hj'
          exact h0 v hv
        · rw [containsLoop]
          simp [h1, h3]
    · refine .inr ⟨?_, .inr ?_⟩
      · rintro j' v hj' hn _
        obtain ⟨rfl, rfl⟩ := List.cons_eq_cons.1 hj'
        exact h1 (by simpa [isNamed_single] using hn)
      · rw [containsLoop]
        simp [h1, reportIf]

theorem Gives.none_of {β : Type} {p : Parsed β} {R : β → Prop} (h : Gives p R) (h0 : ∀ b, ¬ R b) :
    ∃ e, p = (none, e) ∧ e ≠ [] := by
  rcases h with ⟨b, _, hb⟩ | ⟨_, h1, h2⟩
  · exact absurd hb (h0 b)
  · obtain ⟨a, e⟩ := p
    exact ⟨e, by rw [show a = none from h1], h2⟩

theorem tells_schemarsRegex (i : MetaItem τ) : Tells (parseSchemarsRegex .schemars i) (SchemarsRegex i) := by
  unfold parseSchemarsRegex
  rcases gives_items .schemars i with ⟨l, h, hl⟩ | ⟨h0, h1, h2⟩
  · rw [h]
    simp only [List.nil_append]
    rcases schemarsRegexLoop_tells l with ⟨j, v, rfl, hn, hv, he⟩ | ⟨hno, he⟩
    · rw [he]
      exact .inl ⟨v, rfl, j, hl, hn, hv⟩
    · refine .inr ⟨?_, ?_⟩
      · rintro v ⟨j, hj, hn, hv⟩
        exact hno j v (hasItems_inj hl hj) hn hv
      · cases hs : schemarsRegexLoop .schemars l none with
        | mk a b =>
          rcases he with he | he
          · rw [hs] at he
            obtain ⟨rfl, rfl⟩ := Prod.mk.inj he
            simp
          · rw [hs] at he
            cases a
            · simp
            · exact he
  · obtain ⟨e, he, hne⟩ := (gives_items .schemars i).none_of h0
    rw [he]
    exact .inr ⟨fun v ⟨j, hj, _⟩ => h0 _ hj, hne⟩

theorem validateRegexLoop_eq (ps : Parsers τ) (cx : AttrType) (l : List (MetaItem τ)) (r : Option (MetaExpr τ)) :
    validateRegexLoop ps cx l r = ((runItems (fun i r => some (
      if i.ident = some "path" then
        if r.isSome then (r, reportIf cx (.duplicate i.ident)) else parseValueOrText ps cx i
      else if i.ident = some "pattern" then (r, [.unsupported "regex" "pattern"])
      else (r, []))) l r).1, (runItems (fun i r => some (
      if i.ident = some "path" then
        if r.isSome then (r, reportIf cx (.duplicate i.ident)) else parseValueOrText ps cx i
      else if i.ident = some "pattern" then (r, [.unsupported "regex" "pattern"])
      else (r, []))) l r).2.1) := by
  induction l generalizing r with
  | nil => rfl
  | cons i l ih => simp only [validateRegexLoop, ih]; rfl

theorem containsLoop_eq (cx : AttrType) (l : List (MetaItem τ)) (r : Option (MetaExpr τ)) :
    containsLoop cx l r = ((runItems (fun i r => some (
      if i.ident = some "pattern" then
        if r.isSome then (r, reportIf cx (.duplicate i.ident)) else parseValue cx i
      else (r, reportIf cx (.unknownNested "contains" i.ident)))) l r).1, (runItems (fun i r => some (
      if i.ident = some "pattern" then
        if r.isSome then (r, reportIf cx (.duplicate i.ident)) else parseValue cx i
      else (r, reportIf cx (.unknownNested "contains" i.ident)))) l r).2.1) := by
  induction l generalizing r with
  | nil => rfl
  | cons i l ih => simp only [containsLoop, ih]; rfl

theorem setsOne_single {n : String} {i : MetaItem τ} : setsOne [n] i = true ↔ i.negated = false ∧ i.ident = some n := by
  simp [setsOne, isNamed_single]

theorem ok_validateRegex (ps : Parsers τ) (cx : AttrType) (i : MetaItem τ) (he : (parseValidateRegex ps cx i).2 = []) :
    ∃ x, (parseValidateRegex ps cx i).1 = some x ∧ ValidateRegex ps i x := by
  unfold parseValidateRegex at he ⊢
  rcases gives_items cx i with ⟨l, h, hl⟩ | ⟨h0, h1, h2⟩
  · rw [h] at he ⊢
    simp only [List.nil_append] at he ⊢
    cases hs : validateRegexLoop ps cx l none with
    | mk a b =>
      rw [hs] at he
      have heq := validateRegexLoop_eq ps cx l none
      rw [hs] at heq
      obtain ⟨ha, hb⟩ := Prod.mk.inj heq
      cases a with
      | none => simp at he
      | some x =>
        refine ⟨x, rfl, l, hl, ?_⟩
        simp only at he
        rw [he] at hb
        have := (sets_first (part := id) (names := ["path"]) (R := HasCode ps) l ?_ none hb.symm).2 rfl
        · rw [← ha] at this
          exact this
        · intro j _
          constructor
          · intro s _; rfl
          · intro s s' e h hn
            simp only [Option.some.injEq] at h
            by_cases hp : j.ident = some "path"
            · have hneg : j.negated = true := by
                cases hj : j.negated with
                | true => rfl
                | false => rw [setsOne_single.2 ⟨hj, hp⟩] at hn; cases hn
              rw [if_pos hp] at h
              cases s with
              | some y => simp at h; simp [h.1]
              | none =>
                obtain ⟨e', hp', _⟩ := (gives_code ps cx j).none_of (fun b hb => by
                  rw [hasCode_pos hb] at hneg; cases hneg)
                simp [hp'] at h
                simp [h.1]
            · rw [if_neg hp] at h
              split at h <;> simp at h <;> simp [h.1]
          · intro s s' e h hn hs
            simp only [Option.some.injEq] at h
            rw [if_pos (setsOne_single.1 hn).2, if_pos (by exact hs)] at h
            simp at h
            simp [h.1]
          · intro s s' h hn hs
            simp only [Option.some.injEq] at h
            simp only [id] at hs
            rw [if_pos (setsOne_single.1 hn).2, hs] at h
            simp only [Option.isSome_none, Bool.false_eq_true, if_false] at h
            have := (gives_code ps cx j).ok (by rw [h])
            rw [h] at this
            exact this
  · obtain ⟨e, he', hne⟩ := (gives_items cx i).none_of h0
    rw [he'] at he
    exact absurd he hne

theorem ok_containsLoop (cx : AttrType) (l : List (MetaItem τ)) (he : (containsLoop cx l none).2 = []) :
    FirstOf ["pattern"] HasValue l (containsLoop cx l none).1 := by
  rw [containsLoop_eq] at he ⊢
  refine (sets_first (part := id) (names := ["pattern"]) (R := HasValue) l ?_ none he).2 rfl
  intro j _
  constructor
  · intro s _; rfl
  · intro s s' e h hn
    simp only [Option.some.injEq] at h
    by_cases hp : j.ident = some "pattern"
    · have hneg : j.negated = true := by
        cases hj : j.negated with
        | true => rfl
        | false => rw [setsOne_single.2 ⟨hj, hp⟩] at hn; cases hn
      rw [if_pos hp] at h
      cases s with
      | some y => simp at h; simp [h.1]
      | none =>
        obtain ⟨e', hp', _⟩ := (gives_value cx j).none_of (fun b hb => by
          rw [hb.1] at hneg; cases hneg)
        simp [hp'] at h
        simp [h.1]
    · rw [if_neg hp] at h
      simp at h
      simp [h.1]
  · intro s s' e h hn hs
    simp only [Option.some.injEq] at h
    rw [if_pos (setsOne_single.1 hn).2, if_pos (by exact hs)] at h
    simp at h
    simp [h.1]
  · intro s s' h hn hs
    simp only [Option.some.injEq] at h
    simp only [id] at hs
    rw [if_pos (setsOne_single.1 hn).2, hs] at h
    simp only [Option.isSome_none, Bool.false_eq_true, if_false] at h
    have := (gives_value cx j).ok (by rw [h])
    rw [h] at this
    exact this

theorem gives_contains (i : MetaItem τ) : Gives (parseListWith MetaBody.contains? .schemars i)
    (fun x => i.negated = false ∧ ((∃ l y e, x = .inl l ∧ i.tokens = .list (some l) y e true) ∨
      ∃ l y e, x = .inr y ∧ i.tokens = .list l (some y) e false)) := by
  obtain ⟨n, neg, body⟩ := i
  unfold parseListWith MetaBody.contains?
  cases neg <;> cases body with
    | list l x e b => cases b <;> cases l <;> cases x <;> simp [Gives]
    | _ => simp [Gives]

theorem tells_contains (i : MetaItem τ) : Tells (parseContains .schemars i) (Contains .schemars i) := by
  unfold parseContains parseContainsFormat
  simp only
  rcases gives_contains i with ⟨x, h, hneg, ⟨l, y, e, rfl, ht⟩ | ⟨l, y, e, rfl, ht⟩⟩ | ⟨h0, h1, h2⟩
  · rw [h]
    simp only [List.nil_append]
    rcases containsLoop_tells l with ⟨j, v, rfl, hn, hv, he⟩ | ⟨hno, he⟩
    · rw [he]
      exact .inl ⟨v, rfl, hneg, .inl ⟨j, y, e, ht, hn, hv⟩⟩
    · refine .inr ⟨?_, ?_⟩
      · rintro v ⟨_, ⟨j, y', e', ht', hn, hv⟩ | ⟨l', e', ht'⟩⟩
        · rw [ht] at ht'
          simp only [MetaBody.list.injEq, Option.some.injEq] at ht'
          exact hno j v ht'.1 hn hv
        · rw [ht] at ht'
          simp at ht'
      · cases hs : containsLoop .schemars l none with
        | mk a b =>
          rcases he with he | he
          · rw [hs] at he
            obtain ⟨rfl, rfl⟩ := Prod.mk.inj he
            simp
          · rw [hs] at he
            cases a
            · simp
            · exact he
  · rw [h]
    exact .inl ⟨y, rfl, hneg, .inr ⟨l, e, ht⟩⟩
  · obtain ⟨e, he, hne⟩ := (gives_contains i).none_of h0
    rw [he]
    refine .inr ⟨?_, hne⟩
    rintro v ⟨hneg, ⟨j, y, e, ht, _⟩ | ⟨l, e, ht⟩⟩
    · exact h0 (.inl [j]) ⟨hneg, .inl ⟨_, _, _, rfl, ht⟩⟩
    · exact h0 (.inr v) ⟨hneg, .inr ⟨_, _, _, rfl, ht⟩⟩

theorem ok_contains (cx : AttrType) (i : MetaItem τ) (hcx : cx ≠ .serde) (he : (parseContains cx i).2 = []) :
    ∃ x, (parseContains cx i).1 = some x ∧ Contains cx i x := by
  cases cx with
  | serde => exact absurd rfl hcx
  | schemars => exact (tells_contains i).ok he
  | garde =>
    obtain ⟨n, neg, body⟩ := i
    unfold parseContains parseContainsFormat parseListWith MetaBody.expr? at he ⊢
    simp only [Contains, HasExpr]
    cases neg <;> cases body with
      | list l x e b => cases x <;> simp at he ⊢
      | _ => simp at he
  | validate =>
    obtain ⟨n, neg, body⟩ := i
    unfold parseContains parseContainsFormat parseListWith MetaBody.metas? at he ⊢
    simp only [Contains, HasItems]
    cases neg
    case true => cases body <;> simp at he
    cases body with
      | list l x e b =>
        cases l with
        | none => simp at he
        | some l =>
          simp only [Option.map_some, List.nil_append] at he ⊢
          have := ok_containsLoop (τ := τ) .validate l
          cases hc : containsLoop .validate l none with
          | mk a b =>
            rw [hc] at he this
            cases a with
            | none => simp at he
            | some a => simp at he; subst he; simpa using this rfl
      | _ => simp at he

theorem hasText_pos {α : Type} {parser : String → Option α} {i : MetaItem τ} {v : α} (h : HasText parser i v) :
    i.negated = false := by
  obtain ⟨s, h, _⟩ := h; exact h.1

theorem contains_pos {cx : AttrType} {i : MetaItem τ} {v : MetaExpr τ} (h : Contains cx i v) : i.negated = false := by
  cases cx with
  | validate => obtain ⟨l, h, _⟩ := h; exact h.1
  | garde => exact h.1
  | schemars => exact h.1
  | serde => exact h.1

/-! ## The common items -/

/-- Steps that set a part of the state by the common pattern: nothing if the part is there, and otherwise what a
parser gives. -/
theorem sets_of {β : Type} {step : MetaItem τ → σ → Option (σ × List MetaError)} {part : σ → Option β}
    {names : List String} {R : MetaItem τ → β → Prop} (i : MetaItem τ)
    (other : ∀ s s' e, step i s = some (s', e) → isNamed names i = false → part s' = part s)
    (mine : isNamed names i = true → ∀ s, ∃ s' e, step i s = some (s', e) ∧
      ((part s).isSome = true ∧ part s' = part s ∨
        part s = none ∧ (i.negated = false → e = [] → ∃ b, part s' = some b ∧ R i b) ∧
          (i.negated = true → part s' = none))) :
    Sets step part names R i where
  handles s h := by
    have hn : isNamed names i = true := by unfold setsOne at h; simp at h; exact h.2
    obtain ⟨s', e, h, _⟩ := mine hn s
    rw [h]; rfl
  other s s' e h hs := by
    cases hn : isNamed names i with
    | false => exact other s s' e h hn
    | true =>
      have hneg : i.negated = true := by simpa [setsOne, hn] using hs
      obtain ⟨s1, e1, h1, hc⟩ := mine hn s
      rw [h1] at h
      obtain ⟨rfl, rfl⟩ := Prod.mk.inj (Option.some.inj h)
      rcases hc with ⟨_, hc⟩ | ⟨h0, _, hc⟩
      · exact hc
      · rw [hc hneg, h0]
  full s s' e h hs hf := by
    have hn : isNamed names i = true := by unfold setsOne at hs; simp at hs; exact hs.2
    obtain ⟨s1, e1, h1, hc⟩ := mine hn s
    rw [h1] at h
    obtain ⟨rfl, rfl⟩ := Prod.mk.inj (Option.some.inj h)
    rcases hc with ⟨_, hc⟩ | ⟨h0, _, hc⟩
    · exact hc
    · rw [h0] at hf; cases hf
  free s s' h hs h0 := by
    have hn : isNamed names i = true := by unfold setsOne at hs; simp at hs; exact hs.2
    obtain ⟨s1, e1, h1, hc⟩ := mine hn s
    rw [h1] at h
    obtain ⟨rfl, rfl⟩ := Prod.mk.inj (Option.some.inj h)
    rcases hc with ⟨hc, _⟩ | ⟨_, hc, _⟩
    · rw [h0] at hc; cases hc
    · exact hc (by simp [setsOne] at hs; exact hs.1) rfl

theorem handles_common (ps : Parsers τ) (cx : AttrType) :
    Handles (handled (commonMeta ps cx)) (isNamed commonNames) := by
  intro i s
  obtain ⟨id, neg, body⟩ := i
  cases id with
  | none => rfl
  | some n =>
    simp only [handled, Option.bind_some, isNamed, Option.any_some, commonNames, commonMeta]
    by_cases h1 : n = "title"
    · simp [h1]
    by_cases h2 : n = "description"
    · simp [h2]
    by_cases h3 : n = "example"
    · simp [h3]
    by_cases h4 : n = "extend"
    · simp [h4]
    by_cases h5 : n = "transform"
    · simp [h5]
    simp [h1, h2, h3, h4, h5]

/-- The cases of a common item. -/
theorem common_cases (ps : Parsers τ) (cx : AttrType) (i : MetaItem τ) (a a' : CommonMeta τ) (e : List MetaError)
    (h : handled (commonMeta ps cx) i a = some (a', e)) :
    (i.ident = some "title" ∧ (a.title.isSome = true ∧ a' = a ∧ (e = [] ↔ cx ≠ .schemars) ∨
      a.title = none ∧ a' = { a with title := (parseValue cx i).1 } ∧ e = (parseValue cx i).2)) ∨
    (i.ident = some "description" ∧ (a.description.isSome = true ∧ a' = a ∧ (e = [] ↔ cx ≠ .schemars) ∨
      a.description = none ∧ a' = { a with description := (parseValue cx i).1 } ∧ e = (parseValue cx i).2)) ∨
    (i.ident = some "example" ∧ ((∃ v, HasValue i v ∧ a' = { a with examples := a.examples ++ [v] } ∧
        (e = [] ↔ ∀ s, v = .str s → ps.path s = none)) ∨ (∀ v, ¬ HasValue i v) ∧ a' = a ∧ e ≠ [])) ∨
    (i.ident = some "extend" ∧ ((∃ l, HasExtensions i l ∧
        a' = { a with extensions := (addExtensions l a.extensions).1 } ∧ e = (addExtensions l a.extensions).2) ∨
      (∀ l, ¬ HasExtensions i l) ∧ a' = a ∧ e ≠ [])) ∨
    (i.ident = some "transform" ∧ ((∃ v, HasValue i v ∧
        a' = { a with transforms := a.transforms ++ [v].filter fun x => !isLiteral x } ∧
        (e = [] ↔ ∀ s, v = .str s → ps.expr s = none)) ∨ (∀ v, ¬ HasValue i v) ∧ a' = a ∧ e ≠ [])) := by
  have hrep : ∀ e, (reportIf cx e = [] ↔ cx ≠ .schemars) := by
    intro e; unfold reportIf; by_cases h : cx = .schemars <;> simp [h]
  cases hid : i.ident with
  | none => simp [handled, hid] at h
  | some n =>
    simp only [handled, hid, Option.bind_some, commonMeta] at h
    by_cases h1 : n = "title"
    · refine .inl ⟨by rw [h1], ?_⟩
      rw [if_pos h1] at h
      cases ht : a.title with
      | some x =>
        simp [ht] at h
        exact .inl ⟨rfl, h.1.symm, by rw [← h.2]; exact hrep _⟩
      | none =>
        simp [ht] at h
        exact .inr ⟨rfl, h.1.symm, h.2.symm⟩
    rw [if_neg h1] at h
    by_cases h2 : n = "description"
    · refine .inr (.inl ⟨by rw [h2], ?_⟩)
      rw [if_pos h2] at h
      cases ht : a.description with
      | some x =>
        simp [ht] at h
        exact .inl ⟨rfl, h.1.symm, by rw [← h.2]; exact hrep _⟩
      | none =>
        simp [ht] at h
        exact .inr ⟨rfl, h.1.symm, h.2.symm⟩
    rw [if_neg h2] at h
    by_cases h3 : n = "example"
    · refine .inr (.inr (.inl ⟨by rw [h3], ?_⟩))
      rw [if_pos h3] at h
      rcases gives_value cx i with ⟨v, hv, hi⟩ | ⟨h0, hg⟩
      · rw [hv] at h
        refine .inl ⟨v, hi, ?_⟩
        cases v with
        | str s =>
          simp only [List.nil_append, Option.some.injEq, Prod.mk.injEq] at h
          refine ⟨h.1.symm, ?_⟩
          rw [← h.2]
          cases hp : ps.path s with
          | none => simp [hp]
          | some x => simp [hp]
        | other t =>
          simp only [Option.some.injEq, Prod.mk.injEq] at h
          exact ⟨h.1.symm, by rw [← h.2]; simp⟩
      · obtain ⟨e', he', hne⟩ := (gives_value cx i).none_of h0
        rw [he'] at h
        simp only [Option.some.injEq, Prod.mk.injEq] at h
        exact .inr ⟨h0, h.1.symm, by rw [← h.2]; exact hne⟩
    rw [if_neg h3] at h
    by_cases h4 : n = "extend"
    · refine .inr (.inr (.inr (.inl ⟨by rw [h4], ?_⟩)))
      rw [if_pos h4] at h
      rcases gives_extensions cx i with ⟨l, hv, hi⟩ | ⟨h0, hg⟩
      · rw [hv] at h
        simp only [List.nil_append, Option.some.injEq, Prod.mk.injEq] at h
        exact .inl ⟨l, hi, h.1.symm, h.2.symm⟩
      · obtain ⟨e', he', hne⟩ := (gives_extensions cx i).none_of h0
        rw [he'] at h
        simp only [Option.some.injEq, Prod.mk.injEq] at h
        exact .inr ⟨h0, h.1.symm, by rw [← h.2]; exact hne⟩
    rw [if_neg h4] at h
    by_cases h5 : n = "transform"
    · refine .inr (.inr (.inr (.inr ⟨by rw [h5], ?_⟩)))
      rw [if_pos h5] at h
      rcases gives_value cx i with ⟨v, hv, hi⟩ | ⟨h0, hg⟩
      · rw [hv] at h
        refine .inl ⟨v, hi, ?_⟩
        cases v with
        | str s =>
          simp only [List.nil_append, Option.some.injEq, Prod.mk.injEq] at h
          refine ⟨by simp [isLiteral, ← h.1], ?_⟩
          rw [← h.2]
          cases hp : ps.expr s with
          | none => simp [hp]
          | some x => simp [hp]
        | other t =>
          simp only [Option.some.injEq, Prod.mk.injEq] at h
          exact ⟨by simp [isLiteral, ← h.1], by rw [← h.2]; simp⟩
      · obtain ⟨e', he', hne⟩ := (gives_value cx i).none_of h0
        rw [he'] at h
        simp only [Option.some.injEq, Prod.mk.injEq] at h
        exact .inr ⟨h0, h.1.symm, by rw [← h.2]; exact hne⟩
    rw [if_neg h5] at h
    cases h

theorem addExtensions_spec (l exts : List (String × τ)) :
    ((addExtensions l exts).2 = [] ↔ (l.map Prod.fst).Nodup ∧ ∀ k ∈ l.map Prod.fst, k ∉ exts.map Prod.fst) ∧
    ((addExtensions l exts).2 = [] → (addExtensions l exts).1 = exts ++ l) := by
  induction l generalizing exts with
  | nil => simp [addExtensions]
  | cons x l ih =>
    unfold addExtensions
    by_cases hx : exts.any (fun e => e.1 == x.1) = true
    · rw [if_pos hx]
      simp only [List.any_eq_true, beq_iff_eq] at hx
      obtain ⟨e, he, hx⟩ := hx
      constructor
      · simp only [List.cons_ne_nil, false_iff]
        rintro ⟨_, h⟩
        exact h x.1 (by simp) (List.mem_map.2 ⟨e, he, hx⟩)
      · intro h; simp at h
    · rw [if_neg hx]
      simp only [List.any_eq_true, beq_iff_eq, not_exists, not_and] at hx
      obtain ⟨ih1, ih2⟩ := ih (exts ++ [x])
      constructor
      · rw [ih1]
        simp only [List.map_append, List.map_cons, List.map_nil, List.mem_append, List.mem_singleton, not_or,
          List.nodup_cons, List.forall_mem_cons]
        constructor
        · rintro ⟨h1, h2⟩
          refine ⟨⟨fun h => (h2 _ h).2 rfl, h1⟩, ?_, fun k hk => (h2 k hk).1⟩
          intro h
          obtain ⟨e, he, hx'⟩ := List.mem_map.1 h
          exact hx e he hx'
        · rintro ⟨⟨h1, h2⟩, h3, h4⟩
          exact ⟨h2, fun k hk => ⟨h4 k hk, fun h => h1 (h ▸ hk)⟩⟩
      · intro h
        rw [ih2 h]
        simp

theorem sets_title (ps : Parsers τ) (cx : AttrType) (i : MetaItem τ) :
    Sets (handled (commonMeta ps cx)) CommonMeta.title ["title"] HasValue i := by
  apply sets_of
  · intro a a' e h hn
    rcases common_cases ps cx i a a' e h with ⟨h1, _⟩ | ⟨_, h⟩ | ⟨_, h⟩ | ⟨_, h⟩ | ⟨_, h⟩
    · rw [isNamed_of h1] at hn; simp at hn
    · rcases h with ⟨_, rfl, _⟩ | ⟨_, rfl, _⟩ <;> rfl
    · rcases h with ⟨_, _, rfl, _⟩ | ⟨_, rfl, _⟩ <;> rfl
    · rcases h with ⟨_, _, rfl, _⟩ | ⟨_, rfl, _⟩ <;> rfl
    · rcases h with ⟨_, _, rfl, _⟩ | ⟨_, rfl, _⟩ <;> rfl
  · intro hn a
    have hs := handles_common ps cx i a
    rw [isNamed_single, decide_eq_true_iff] at hn
    rw [isNamed_of hn] at hs
    obtain ⟨⟨a', e⟩, h⟩ := Option.isSome_iff_exists.1 (hs.trans rfl)
    refine ⟨a', e, h, ?_⟩
    rcases common_cases ps cx i a a' e h with ⟨_, h⟩ | ⟨h1, h⟩ | ⟨h1, h⟩ | ⟨h1, h⟩ | ⟨h1, h⟩
    · rcases h with ⟨h0, rfl, _⟩ | ⟨h0, rfl, rfl⟩
      · exact .inl ⟨h0, rfl⟩
      · refine .inr ⟨h0, fun _ => (gives_value cx i).ok, fun hneg => ?_⟩
        obtain ⟨_, hp, _⟩ := (gives_value cx i).none_of (fun b hb => by rw [hb.1] at hneg; cases hneg)
        rw [hp]
    all_goals rw [hn] at h1; simp at h1

theorem sets_description (ps : Parsers τ) (cx : AttrType) (i : MetaItem τ) :
    Sets (handled (commonMeta ps cx)) CommonMeta.description ["description"] HasValue i := by
  apply sets_of
  · intro a a' e h hn
    rcases common_cases ps cx i a a' e h with ⟨_, h⟩ | ⟨h1, _⟩ | ⟨_, h⟩ | ⟨_, h⟩ | ⟨_, h⟩
    · rcases h with ⟨_, rfl, _⟩ | ⟨_, rfl, _⟩ <;> rfl
    · rw [isNamed_of h1] at hn; simp at hn
    · rcases h with ⟨_, _, rfl, _⟩ | ⟨_, rfl, _⟩ <;> rfl
    · rcases h with ⟨_, _, rfl, _⟩ | ⟨_, rfl, _⟩ <;> rfl
    · rcases h with ⟨_, _, rfl, _⟩ | ⟨_, rfl, _⟩ <;> rfl
  · intro hn a
    have hs := handles_common ps cx i a
    rw [isNamed_single, decide_eq_true_iff] at hn
    rw [isNamed_of hn] at hs
    obtain ⟨⟨a', e⟩, h⟩ := Option.isSome_iff_exists.1 (hs.trans rfl)
    refine ⟨a', e, h, ?_⟩
    rcases common_cases ps cx i a a' e h with ⟨h1, h⟩ | ⟨_, h⟩ | ⟨h1, h⟩ | ⟨h1, h⟩ | ⟨h1, h⟩
    · rw [hn] at h1; simp at h1
    · rcases h with ⟨h0, rfl, _⟩ | ⟨h0, rfl, rfl⟩
      · exact .inl ⟨h0, rfl⟩
      · refine .inr ⟨h0, fun _ => (gives_value cx i).ok, fun hneg => ?_⟩
        obtain ⟨_, hp, _⟩ := (gives_value cx i).none_of (fun b hb => by rw [hb.1] at hneg; cases hneg)
        rw [hp]
    all_goals rw [hn] at h1; simp at h1

theorem valueOf_has {n : String} {i : MetaItem τ} {v : MetaExpr τ} (hn : i.ident = some n) (h : HasValue i v) :
    valueOf n i = some v := by
  unfold valueOf
  rw [if_pos (setsOne_single.2 ⟨h.1, hn⟩), h.2]

theorem valueOf_ne {n m : String} {i : MetaItem τ} (hn : i.ident = some m) (h : m ≠ n) : valueOf n i = none := by
  unfold valueOf
  rw [if_neg]
  rw [setsOne_single, hn]
  simp [h]

theorem extensionsOf_ne {m : String} {i : MetaItem τ} (hn : i.ident = some m) (h : m ≠ "extend") :
    extensionsOf i = [] := by
  unfold extensionsOf
  rw [if_neg]
  rw [setsOne_single, hn]
  simp [h]

theorem extensionsOf_has {i : MetaItem τ} {l : List (String × τ)} (hn : i.ident = some "extend")
    (h : HasExtensions i l) : extensionsOf i = l := by
  unfold extensionsOf
  rw [if_pos (setsOne_single.2 ⟨h.1, hn⟩)]
  obtain ⟨_, _, _, _, h⟩ := h
  rw [h]

/-- The lists that common items extend. -/
theorem common_lists (ps : Parsers τ) (cx : AttrType) (l : List (MetaItem τ)) (a : CommonMeta τ)
    (he : (runItems (handled (commonMeta ps cx)) l a).2.1 = []) :
    (runItems (handled (commonMeta ps cx)) l a).1.examples = a.examples ++ l.filterMap (valueOf "example") ∧
    (runItems (handled (commonMeta ps cx)) l a).1.extensions = a.extensions ++ l.flatMap extensionsOf ∧
    (runItems (handled (commonMeta ps cx)) l a).1.transforms =
      a.transforms ++ (l.filterMap (valueOf "transform")).filter fun x => !isLiteral x := by
  induction l generalizing a with
  | nil => simp [runItems]
  | cons i l ih =>
    cases hh : handled (commonMeta ps cx) i a with
    | none =>
      rw [runItems_none hh] at he ⊢
      obtain ⟨h1, h2, h3⟩ := ih a he
      have hn : isNamed commonNames i = false := by rw [← handles_common ps cx i a, hh]; rfl
      simp only [commonNames, isNamed_cons, isNamed_nil, Bool.or_false, Bool.or_eq_false_iff, decide_eq_false_iff_not]
        at hn
      have e1 : valueOf "example" i = none := by unfold valueOf; rw [if_neg]; simp [setsOne_single, hn]
      have e2 : valueOf "transform" i = none := by unfold valueOf; rw [if_neg]; simp [setsOne_single, hn]
      have e3 : extensionsOf i = [] := by unfold extensionsOf; rw [if_neg]; simp [setsOne_single, hn]
      rw [List.filterMap_cons_none e1, List.filterMap_cons_none e2, List.flatMap_cons, e3]
      exact ⟨h1, h2, h3⟩
    | some r =>
      obtain ⟨a', e⟩ := r
      rw [runItems_some hh] at he ⊢
      obtain ⟨rfl, he⟩ := List.append_eq_nil_iff.1 he
      obtain ⟨h1, h2, h3⟩ := ih a' he
      simp only [h1, h2, h3]
      rcases common_cases ps cx i a a' [] hh with ⟨hn, h⟩ | ⟨hn, h⟩ | ⟨hn, h⟩ | ⟨hn, h⟩ | ⟨hn, h⟩
      · rw [List.filterMap_cons_none (valueOf_ne hn (by decide)), List.filterMap_cons_none (valueOf_ne hn (by decide)),
          List.flatMap_cons, extensionsOf_ne hn (by decide)]
        rcases h with ⟨_, rfl, _⟩ | ⟨_, rfl, _⟩ <;> simp
      · rw [List.filterMap_cons_none (valueOf_ne hn (by decide)), List.filterMap_cons_none (valueOf_ne hn (by decide)),
          List.flatMap_cons, extensionsOf_ne hn (by decide)]
        rcases h with ⟨_, rfl, _⟩ | ⟨_, rfl, _⟩ <;> simp
      · rcases h with ⟨v, hv, rfl, _⟩ | ⟨_, _, h⟩
        · rw [List.filterMap_cons_some (valueOf_has hn hv), List.filterMap_cons_none (valueOf_ne hn (by decide)),
            List.flatMap_cons, extensionsOf_ne hn (by decide)]
          simp
        · exact absurd rfl h
      · rcases h with ⟨v, hv, rfl, hx⟩ | ⟨_, _, h⟩
        · rw [List.filterMap_cons_none (valueOf_ne hn (by decide)),
            List.filterMap_cons_none (valueOf_ne hn (by decide)), List.flatMap_cons, extensionsOf_has hn hv]
          simp only [(addExtensions_spec v a.extensions).2 hx.symm]
          simp
        · exact absurd rfl h
      · rcases h with ⟨v, hv, rfl, _⟩ | ⟨_, _, h⟩
        · rw [List.filterMap_cons_none (valueOf_ne hn (by decide)), List.filterMap_cons_some (valueOf_has hn hv),
            List.flatMap_cons, extensionsOf_ne hn (by decide)]
          simp [List.filter_cons]
          split <;> simp
        · exact absurd rfl h

/-- What is set in the common attributes. -/
def commonSet (a : CommonMeta τ) : Setting → Prop
  | .title => a.title.isSome = true
  | .description => a.description.isSome = true
  | .extension k => k ∈ a.extensions.map Prod.fst
  | _ => False

theorem common_strict (ps : Parsers τ) (i : MetaItem τ) :
    Strict (handled (commonMeta ps .schemars)) commonSet (CommonOk ps) commonSettings i := by
  have hg := (gives_value .schemars i).iff
  constructor
  · intro a a' e h
    rcases common_cases ps .schemars i a a' e h with ⟨hn, h⟩ | ⟨hn, h⟩ | ⟨hn, h⟩ | ⟨hn, h⟩ | ⟨hn, h⟩
    · simp only [CommonOk, commonSettings, isNamed_of hn]
      rcases h with ⟨h1, rfl, h2⟩ | ⟨h1, rfl, rfl⟩
      · simp [h2, commonSet, h1]
      · simp [hg, commonSet, h1]
    · simp only [CommonOk, commonSettings, isNamed_of hn]
      rcases h with ⟨h1, rfl, h2⟩ | ⟨h1, rfl, rfl⟩
      · simp [h2, commonSet, h1]
      · simp [hg, commonSet, h1]
    · simp only [CommonOk, commonSettings, isNamed_of hn, extensionsOf_ne hn (by decide)]
      rcases h with ⟨v, hv, rfl, h2⟩ | ⟨h0, rfl, h2⟩
      · rw [h2]
        constructor
        · intro h
          exact ⟨by simpa using ⟨v, hv, h⟩, by simp, by simp⟩
        · rintro ⟨h, _⟩
          simp at h
          obtain ⟨w, hw, h⟩ := h
          rw [hasValue_inj hv hw]
          exact h
      · simp [h2, h0]
    · simp only [CommonOk, commonSettings, isNamed_of hn]
      rcases h with ⟨l, hl, rfl, rfl⟩ | ⟨h0, rfl, h2⟩
      · rw [(addExtensions_spec l a.extensions).1, extensionsOf_has hn hl]
        have hk : (List.map (fun e : String × τ => Setting.extension e.1) l) = (l.map Prod.fst).map .extension := by
          simp
        have hinj : Function.Injective Setting.extension := fun _ _ h => by simpa using h
        simp only [List.contains_cons, List.contains_nil]
        simp only [show ("extend" == "title") = false from rfl, show ("extend" == "description") = false from rfl,
          show ("extend" == "example") = false from rfl, show ("extend" == "extend") = true from rfl, Bool.or_false,
          Bool.false_eq_true, if_false, if_true]
        rw [hk, List.nodup_map_iff hinj]
        constructor
        · rintro ⟨h1, h2⟩
          refine ⟨⟨l, hl⟩, h1, ?_⟩
          intro k hk
          obtain ⟨k, hk', rfl⟩ := List.mem_map.1 hk
          exact h2 k hk'
        · rintro ⟨_, h1, h2⟩
          exact ⟨h1, fun k hk => h2 (.extension k) (List.mem_map_of_mem hk)⟩
      · simp [h2, h0]
    · simp only [CommonOk, commonSettings, isNamed_of hn, extensionsOf_ne hn (by decide)]
      rcases h with ⟨v, hv, rfl, h2⟩ | ⟨h0, rfl, h2⟩
      · rw [h2]
        constructor
        · intro h
          exact ⟨by simpa using ⟨v, hv, h⟩, by simp, by simp⟩
        · rintro ⟨h, _⟩
          simp at h
          obtain ⟨w, hw, h⟩ := h
          rw [hasValue_inj hv hw]
          exact h
      · simp [h2, h0]
  · intro a a' h k
    rcases common_cases ps .schemars i a a' [] h with ⟨hn, h⟩ | ⟨hn, h⟩ | ⟨hn, h⟩ | ⟨hn, h⟩ | ⟨hn, h⟩
    · simp only [commonSettings, isNamed_of hn]
      rcases h with ⟨h1, rfl, h2⟩ | ⟨h1, rfl, h2⟩
      · simp at h2
      · obtain ⟨b, hb, _⟩ := (gives_value .schemars i).ok h2.symm
        cases k <;> simp [commonSet, hb]
    · simp only [commonSettings, isNamed_of hn]
      rcases h with ⟨h1, rfl, h2⟩ | ⟨h1, rfl, h2⟩
      · simp at h2
      · obtain ⟨b, hb, _⟩ := (gives_value .schemars i).ok h2.symm
        cases k <;> simp [commonSet, hb]
    · simp only [commonSettings, isNamed_of hn, extensionsOf_ne hn (by decide)]
      rcases h with ⟨v, hv, rfl, h2⟩ | ⟨h0, rfl, h2⟩
      · cases k <;> simp [commonSet]
      · exact absurd rfl h2
    · simp only [commonSettings, isNamed_of hn]
      rcases h with ⟨l, hl, rfl, h2⟩ | ⟨h0, rfl, h2⟩
      · rw [(addExtensions_spec l a.extensions).2 h2.symm, extensionsOf_has hn hl]
        cases k <;> simp [commonSet]
      · exact absurd rfl h2
    · simp only [commonSettings, isNamed_of hn, extensionsOf_ne hn (by decide)]
      rcases h with ⟨v, hv, rfl, h2⟩ | ⟨h0, rfl, h2⟩
      · cases k <;> simp [commonSet]
      · exact absurd rfl h2

/-! ## The validation items -/

theorem fromAttrStr_iff (n : String) (f : FormatMeta) : FormatMeta.fromAttrStr n = some f ↔ (n, f) ∈ formats := by
  unfold FormatMeta.fromAttrStr formats
  by_cases h1 : n = "email"
  · subst h1; simp [eq_comm]
  by_cases h2 : n = "url"
  · subst h2; simp [eq_comm]
  by_cases h3 : n = "ip"
  · subst h3; simp [eq_comm]
  by_cases h4 : n = "ipv4"
  · subst h4; simp [eq_comm]
  by_cases h5 : n = "ipv6"
  · subst h5; simp [eq_comm]
  simp [h1, h2, h3, h4, h5]

theorem formatNames_iff (n : String) : formatKeys.contains n = true ↔ ∃ f, (n, f) ∈ formats := by
  unfold formatKeys formats
  simp [exists_or]

/-- `require_path_only`, as a parser. -/
def bareParsed {β : Type} (lax : Bool) (cx : AttrType) (i : MetaItem τ) (x : β) : Parsed β :=
  if lax then (some x, []) else (if (requirePathOnly cx i).1 then some x else none, (requirePathOnly cx i).2)

theorem bareParsed_ok {β : Type} {lax : Bool} {cx : AttrType} {i : MetaItem τ} {x : β} (hn : i.negated = false)
    (h : (bareParsed lax cx i x).2 = []) : (bareParsed lax cx i x).1 = some x ∧ (lax = true ∨ Bare i) := by
  unfold bareParsed requirePathOnly at h ⊢
  cases lax with
  | true => simp
  | false =>
    simp only [Bool.false_eq_true, if_false, hn] at h ⊢
    cases ht : i.tokens with
    | path => simp [Bare, hn, ht]
    | list => simp [ht] at h
    | nameValue => simp [ht] at h

theorem bareParsed_iff {β : Type} {cx : AttrType} {i : MetaItem τ} {x : β} (hn : i.negated = false) :
    (bareParsed false cx i x).2 = [] ↔ Bare i := by
  constructor
  · intro h
    simpa using (bareParsed_ok hn h).2
  · rintro ⟨_, ht⟩
    simp [bareParsed, requirePathOnly, hn, ht]

theorem bareParsed_neg {β : Type} {cx : AttrType} {i : MetaItem τ} {x : β} (hn : i.negated = true) :
    (bareParsed false cx i x).1 = none := by
  simp [bareParsed, requirePathOnly, hn]

/-- `regex(…)`. -/
def parseRegex (ps : Parsers τ) (cx : AttrType) (i : MetaItem τ) : Parsed (MetaExpr τ) :=
  if cx = .validate then parseValidateRegex ps cx i else parseSchemarsRegex cx i

/-- A slot of the state: nothing happens if it is full, and otherwise it is what a parser gives. -/
def SlotStep {β γ : Type} (cx : AttrType) (full : Option γ) (set : Option β → σ) (p : Parsed β) (s s' : σ)
    (e : List MetaError) : Prop :=
  (full.isSome = true ∧ s' = s ∧ (e = [] ↔ cx ≠ .schemars)) ∨ (full = none ∧ s' = set p.1 ∧ e = p.2)

theorem textOf_none (v : ValidationSlots τ) :
    textOf v = none ↔ v.pattern = none ∧ v.regex = none ∧ v.contains = none := by
  unfold textOf
  cases v.pattern <;> cases v.regex <;> cases v.contains <;> simp

theorem textOf_some (v : ValidationSlots τ) :
    (textOf v).isSome = true ↔ v.pattern.isSome = true ∨ v.regex.isSome = true ∨ v.contains.isSome = true := by
  unfold textOf
  cases v.pattern <;> cases v.regex <;> cases v.contains <;> simp

theorem reportIf_nil (cx : AttrType) (e : MetaError) : reportIf cx e = [] ↔ cx ≠ .schemars := by
  unfold reportIf; by_cases h : cx = .schemars <;> simp [h]

/-- The cases of a validation item. -/
theorem slot_cases (ps : Parsers τ) (cx : AttrType) (i : MetaItem τ) (v v' : ValidationSlots τ) (e : List MetaError)
    (h : handled (slotMeta ps cx) i v = some (v', e)) :
    (∃ n f, i.ident = some n ∧ (n, f) ∈ formats ∧ SlotStep cx v.format (fun x => { v with format := x })
      (bareParsed (decide (cx = .validate)) cx i f) v v' e) ∨
    (i.ident = some "length" ∧ SlotStep cx v.length (fun x => { v with length := x })
      (parseLengthOrRange ps cx "length" i) v v' e) ∨
    (i.ident = some "range" ∧ SlotStep cx v.range (fun x => { v with range := x })
      (parseLengthOrRange ps cx "range" i) v v' e) ∨
    (i.ident = some "required" ∧ SlotStep cx (if v.required then some () else none)
      (fun x => { v with required := x.isSome }) (bareParsed false cx i ()) v v' e) ∨
    (i.ident = some "pattern" ∧ cx ≠ .validate ∧ SlotStep cx (textOf v) (fun x => { v with pattern := x })
      (parseListWith MetaBody.expr? cx i) v v' e) ∨
    (i.ident = some "regex" ∧ cx ≠ .garde ∧ SlotStep cx (textOf v) (fun x => { v with regex := x })
      (parseRegex ps cx i) v v' e) ∨
    (i.ident = some "contains" ∧ SlotStep cx (textOf v) (fun x => { v with contains := x })
      (parseContains cx i) v v' e) := by
  cases hid : i.ident with
  | none => simp [handled, hid] at h
  | some n =>
    simp only [handled, hid, Option.bind_some, slotMeta] at h
    cases hf : FormatMeta.fromAttrStr n with
    | some f =>
      refine .inl ⟨n, f, rfl, (fromAttrStr_iff n f).1 hf, ?_⟩
      rw [hf] at h
      simp only [Option.some.injEq, handleFormat] at h
      cases ht : v.format with
      | some x =>
        simp only [ht, Prod.mk.injEq] at h
        exact .inl ⟨rfl, h.1.symm, by rw [← h.2]; exact reportIf_nil _ _⟩
      | none =>
        refine .inr ⟨rfl, ?_⟩
        simp only [ht] at h
        unfold bareParsed
        by_cases hv : cx = .validate
        · simp [hv] at h ⊢
          exact ⟨h.1.symm, h.2⟩
        · rw [if_neg hv] at h
          simp only [Prod.mk.injEq] at h
          simp only [hv, decide_false, Bool.false_eq_true, if_false]
          refine ⟨h.1.symm.trans ?_, h.2.symm⟩
          split
          · rfl
          · obtain ⟨⟩ := v; simp at ht; subst ht; rfl
    | none =>
    rw [hf] at h
    simp only at h
    by_cases h1 : n = "length"
    · refine .inr (.inl ⟨by rw [h1], ?_⟩)
      rw [if_pos h1] at h
      cases ht : v.length with
      | some x =>
        simp [ht] at h
        exact .inl ⟨rfl, h.1.symm, by rw [← h.2]; exact reportIf_nil _ _⟩
      | none =>
        simp [ht, h1] at h
        exact .inr ⟨rfl, h.1.symm, h.2.symm⟩
    rw [if_neg h1] at h
    by_cases h2 : n = "range"
    · refine .inr (.inr (.inl ⟨by rw [h2], ?_⟩))
      rw [if_pos h2] at h
      cases ht : v.range with
      | some x =>
        simp [ht] at h
        exact .inl ⟨rfl, h.1.symm, by rw [← h.2]; exact reportIf_nil _ _⟩
      | none =>
        simp [ht, h2] at h
        exact .inr ⟨rfl, h.1.symm, h.2.symm⟩
    rw [if_neg h2] at h
    by_cases h3 : n = "required"
    · refine .inr (.inr (.inr (.inl ⟨by rw [h3], ?_⟩)))
      rw [if_pos h3] at h
      cases ht : v.required with
      | true =>
        simp [ht] at h
        exact .inl ⟨rfl, h.1.symm, by rw [← h.2]; exact reportIf_nil _ _⟩
      | false =>
        simp only [ht, Bool.false_eq_true, if_false, Option.some.injEq, Prod.mk.injEq] at h
        refine .inr ⟨rfl, h.1.symm.trans ?_, h.2.symm⟩
        simp only [bareParsed, Bool.false_eq_true, if_false]
        split
        · rfl
        · obtain ⟨⟩ := v; simp at ht; subst ht; rfl
    rw [if_neg h3] at h
    by_cases h4 : n = "pattern" ∧ cx ≠ .validate
    · refine .inr (.inr (.inr (.inr (.inl ⟨by rw [h4.1], h4.2, ?_⟩))))
      rw [if_pos h4] at h
      cases hp : v.pattern with
      | some x =>
        simp [hp] at h
        exact .inl ⟨(textOf_some v).2 (by simp [hp]), h.1.symm, by rw [← h.2]; exact reportIf_nil _ _⟩
      | none =>
      cases hr : v.regex with
      | some x =>
        simp [hp, hr] at h
        exact .inl ⟨(textOf_some v).2 (by simp [hr]), h.1.symm, by rw [← h.2]; exact reportIf_nil _ _⟩
      | none =>
      cases hc : v.contains with
      | some x =>
        simp [hp, hr, hc] at h
        exact .inl ⟨(textOf_some v).2 (by simp [hc]), h.1.symm, by rw [← h.2]; exact reportIf_nil _ _⟩
      | none =>
        simp [hp, hr, hc] at h
        refine .inr ⟨(textOf_none v).2 ⟨hp, hr, hc⟩, h.1.symm.trans ?_, h.2.symm⟩
        rfl
    rw [if_neg h4] at h
    by_cases h5 : n = "regex" ∧ cx ≠ .garde
    · refine .inr (.inr (.inr (.inr (.inr (.inl ⟨by rw [h5.1], h5.2, ?_⟩)))))
      rw [if_pos h5] at h
      cases hp : v.pattern with
      | some x =>
        simp [hp] at h
        exact .inl ⟨(textOf_some v).2 (by simp [hp]), h.1.symm, by rw [← h.2]; exact reportIf_nil _ _⟩
      | none =>
      cases hr : v.regex with
      | some x =>
        simp [hp, hr] at h
        exact .inl ⟨(textOf_some v).2 (by simp [hr]), h.1.symm, by rw [← h.2]; exact reportIf_nil _ _⟩
      | none =>
      cases hc : v.contains with
      | some x =>
        simp [hp, hr, hc] at h
        exact .inl ⟨(textOf_some v).2 (by simp [hc]), h.1.symm, by rw [← h.2]; exact reportIf_nil _ _⟩
      | none =>
        simp [hp, hr, hc] at h
        refine .inr ⟨(textOf_none v).2 ⟨hp, hr, hc⟩, h.1.symm.trans ?_, h.2.symm⟩
        rfl
    rw [if_neg h5] at h
    by_cases h6 : n = "contains"
    · refine .inr (.inr (.inr (.inr (.inr (.inr ⟨by rw [h6], ?_⟩)))))
      rw [if_pos h6] at h
      cases hp : v.pattern with
      | some x =>
        simp [hp] at h
        exact .inl ⟨(textOf_some v).2 (by simp [hp]), h.1.symm, by rw [← h.2]; exact reportIf_nil _ _⟩
      | none =>
      cases hr : v.regex with
      | some x =>
        simp [hp, hr] at h
        exact .inl ⟨(textOf_some v).2 (by simp [hr]), h.1.symm, by rw [← h.2]; exact reportIf_nil _ _⟩
      | none =>
      cases hc : v.contains with
      | some x =>
        simp [hp, hr, hc] at h
        exact .inl ⟨(textOf_some v).2 (by simp [hc]), h.1.symm, by rw [← h.2]; exact reportIf_nil _ _⟩
      | none =>
        simp [hp, hr, hc] at h
        refine .inr ⟨(textOf_none v).2 ⟨hp, hr, hc⟩, h.1.symm.trans ?_, h.2.symm⟩
        rfl
    rw [if_neg h6] at h
    cases h

/-- The names of the validation items other than `inner`. -/
def slotNames : AttrType → List String
  | .validate => formatKeys ++ ["length", "range", "required", "regex", "contains"]
  | .garde => formatKeys ++ ["length", "range", "required", "pattern", "contains"]
  | _ => formatKeys ++ ["length", "range", "required", "pattern", "regex", "contains"]

theorem handles_slot (ps : Parsers τ) (cx : AttrType) :
    Handles (handled (slotMeta ps cx)) (isNamed (slotNames cx)) := by
  intro i s
  obtain ⟨id, neg, body⟩ := i
  cases id with
  | none => rfl
  | some n =>
    simp only [handled, Option.bind_some, isNamed, Option.any_some, slotMeta]
    cases hf : FormatMeta.fromAttrStr n with
    | some f =>
      have hm := (formatNames_iff n).2 ⟨f, (fromAttrStr_iff n f).1 hf⟩
      simp only [List.contains_iff_mem] at hm
      cases cx <;> simp [slotNames, hm]
    | none =>
      have hm : n ∉ formatKeys := by
        intro hc
        obtain ⟨f, hc⟩ := (formatNames_iff n).1 (by simpa using hc)
        rw [(fromAttrStr_iff n f).2 hc] at hf
        cases hf
      by_cases h1 : n = "length"
      · subst h1; cases cx <;> simp [slotNames]
      by_cases h2 : n = "range"
      · subst h2; cases cx <;> simp [slotNames]
      by_cases h3 : n = "required"
      · subst h3; cases cx <;> simp [slotNames]
      by_cases h4 : n = "pattern"
      · subst h4; cases cx <;> simp [slotNames, formatKeys]
      by_cases h5 : n = "regex"
      · subst h5; cases cx <;> simp [slotNames, formatKeys]
      by_cases h6 : n = "contains"
      · subst h6; cases cx <;> simp [slotNames]
      cases cx <;> simp [slotNames, h1, h2, h3, h4, h5, h6, hm]

theorem SlotStep.keep {β γ δ : Type} {cx : AttrType} {full : Option γ} {set : Option β → σ} {p : Parsed β} {s s' : σ}
    {e : List MetaError} (h : SlotStep cx full set p s s' e) {part : σ → δ} (hp : ∀ x, part (set x) = part s) :
    part s' = part s := by
  rcases h with ⟨_, rfl, _⟩ | ⟨_, rfl, _⟩
  · rfl
  · exact hp _

theorem SlotStep.mine {β γ : Type} {cx : AttrType} {part : σ → Option γ} {set : Option β → σ} {p : Parsed β} {s s' : σ}
    {e : List MetaError} (h : SlotStep cx (part s) set p s s' e) {i : MetaItem τ} {R : MetaItem τ → γ → Prop}
    (hok : part s = none → i.negated = false → p.2 = [] → ∃ b, part (set p.1) = some b ∧ R i b)
    (hneg : part s = none → i.negated = true → part (set p.1) = none) :
    (part s).isSome = true ∧ part s' = part s ∨
        part s = none ∧ (i.negated = false → e = [] → ∃ b, part s' = some b ∧ R i b) ∧
          (i.negated = true → part s' = none) := by
  rcases h with ⟨h1, rfl, _⟩ | ⟨h1, rfl, rfl⟩
  · exact .inl ⟨h1, rfl⟩
  · exact .inr ⟨h1, hok h1, hneg h1⟩

theorem length_neg (ps : Parsers τ) (cx : AttrType) (outer : String) (i : MetaItem τ) (h : i.negated = true) :
    (parseLengthOrRange ps cx outer i).1 = none := by
  obtain ⟨e, he, _⟩ := (gives_items cx i).none_of fun l hl => by rw [hl.1] at h; cases h
  simp [parseLengthOrRange, he]

theorem regex_neg (ps : Parsers τ) (cx : AttrType) (i : MetaItem τ) (h : i.negated = true) :
    (parseRegex ps cx i).1 = none := by
  obtain ⟨e, he, _⟩ := (gives_items cx i).none_of fun l hl => by rw [hl.1] at h; cases h
  unfold parseRegex
  split
  · simp [parseValidateRegex, he]
  · simp [parseSchemarsRegex, he]

theorem listWith_neg {β : Type} (f : MetaBody τ → Option (Option β)) (cx : AttrType) (i : MetaItem τ)
    (h : i.negated = true) : (parseListWith f cx i).1 = none := by
  simp [parseListWith, h]

theorem contains_neg (cx : AttrType) (i : MetaItem τ) (h : i.negated = true) : (parseContains cx i).1 = none := by
  have hn : (parseContainsFormat cx i).1 = none := by
    cases cx <;> exact listWith_neg _ _ i h
  unfold parseContains
  split <;> simp_all

/-- All the parts of the state except the one that an item sets are kept. -/
theorem slot_other (ps : Parsers τ) (cx : AttrType) (i : MetaItem τ) (v v' : ValidationSlots τ) (e : List MetaError)
    (h : handled (slotMeta ps cx) i v = some (v', e)) :
    (isNamed ["length"] i = false → v'.length = v.length) ∧ (isNamed ["range"] i = false → v'.range = v.range) ∧
    (isNamed ["required"] i = false → v'.required = v.required) ∧
    (isNamed formatKeys i = false → v'.format = v.format) ∧
    (isNamed (textNames cx) i = false → textOf v' = textOf v) := by
  rcases slot_cases ps cx i v v' e h with ⟨n, f, hn, hf, h⟩ | ⟨hn, h⟩ | ⟨hn, h⟩ | ⟨hn, h⟩ | ⟨hn, hc, h⟩ | ⟨hn, hc, h⟩ |
    ⟨hn, h⟩
  · refine ⟨fun _ => h.keep (part := (·.length)) (fun _ => rfl), fun _ => h.keep (part := (·.range)) (fun _ => rfl),
      fun _ => h.keep (part := (·.required)) (fun _ => rfl), fun h0 => ?_, fun _ => h.keep (part := textOf) fun _ => rfl⟩
    rw [isNamed_of hn, (formatNames_iff n).2 ⟨f, hf⟩] at h0; cases h0
  · refine ⟨fun h0 => ?_, fun _ => h.keep (part := (·.range)) (fun _ => rfl),
      fun _ => h.keep (part := (·.required)) (fun _ => rfl), fun _ => h.keep (part := (·.format)) (fun _ => rfl),
      fun _ => h.keep (part := textOf) fun _ => rfl⟩
    rw [isNamed_of hn] at h0; cases h0
  · refine ⟨fun _ => h.keep (part := (·.length)) (fun _ => rfl), fun h0 => ?_,
      fun _ => h.keep (part := (·.required)) (fun _ => rfl), fun _ => h.keep (part := (·.format)) (fun _ => rfl),
      fun _ => h.keep (part := textOf) fun _ => rfl⟩
    rw [isNamed_of hn] at h0; cases h0
  · refine ⟨fun _ => h.keep (part := (·.length)) (fun _ => rfl), fun _ => h.keep (part := (·.range)) (fun _ => rfl),
      fun h0 => ?_, fun _ => h.keep (part := (·.format)) (fun _ => rfl), fun _ => h.keep (part := textOf) fun _ => rfl⟩
    rw [isNamed_of hn] at h0; cases h0
  all_goals
    refine ⟨fun _ => h.keep (part := (·.length)) (fun _ => rfl), fun _ => h.keep (part := (·.range)) (fun _ => rfl),
      fun _ => h.keep (part := (·.required)) (fun _ => rfl), fun _ => h.keep (part := (·.format)) (fun _ => rfl),
      fun h0 => ?_⟩
    rw [isNamed_of hn] at h0
    revert h0
    cases cx <;> first | exact absurd rfl hc | (intro h0; simp [textNames] at h0)

theorem slot_some (ps : Parsers τ) (cx : AttrType) (i : MetaItem τ) (v : ValidationSlots τ)
    (h : isNamed (slotNames cx) i = true) : ∃ v' e, handled (slotMeta ps cx) i v = some (v', e) := by
  have hs := handles_slot ps cx i v
  rw [h] at hs
  obtain ⟨⟨v', e⟩, h⟩ := Option.isSome_iff_exists.1 hs
  exact ⟨v', e, h⟩

theorem sets_length (ps : Parsers τ) (cx : AttrType) (i : MetaItem τ) :
    Sets (handled (slotMeta ps cx)) (·.length) ["length"] (LengthSays ps) i := by
  apply sets_of
  · intro v v' e h hn
    exact (slot_other ps cx i v v' e h).1 hn
  · intro hn v
    rw [isNamed_single, decide_eq_true_iff] at hn
    obtain ⟨v', e, h⟩ := slot_some ps cx i v (by rw [isNamed_of hn]; cases cx <;> rfl)
    refine ⟨v', e, h, ?_⟩
    rcases slot_cases ps cx i v v' e h with ⟨n, f, h1, hf, h⟩ | ⟨h1, h⟩ | ⟨h1, h⟩ | ⟨h1, h⟩ | ⟨h1, _, h⟩ | ⟨h1, _, h⟩ |
      ⟨h1, h⟩
    · rw [hn] at h1; obtain rfl := Option.some.inj h1; simp [formats] at hf
    · exact h.mine (part := fun v : ValidationSlots τ => v.length)
        (fun _ _ he => length_ok ps cx "length" i he) (fun _ hneg => length_neg ps cx "length" i hneg)
    all_goals rw [hn] at h1; simp at h1

theorem sets_range (ps : Parsers τ) (cx : AttrType) (i : MetaItem τ) :
    Sets (handled (slotMeta ps cx)) (·.range) ["range"] (LengthSays ps) i := by
  apply sets_of
  · intro v v' e h hn
    exact (slot_other ps cx i v v' e h).2.1 hn
  · intro hn v
    rw [isNamed_single, decide_eq_true_iff] at hn
    obtain ⟨v', e, h⟩ := slot_some ps cx i v (by rw [isNamed_of hn]; cases cx <;> rfl)
    refine ⟨v', e, h, ?_⟩
    rcases slot_cases ps cx i v v' e h with ⟨n, f, h1, hf, h⟩ | ⟨h1, h⟩ | ⟨h1, h⟩ | ⟨h1, h⟩ | ⟨h1, _, h⟩ | ⟨h1, _, h⟩ |
      ⟨h1, h⟩
    · rw [hn] at h1; obtain rfl := Option.some.inj h1; simp [formats] at hf
    · rw [hn] at h1; simp at h1
    · exact h.mine (part := fun v : ValidationSlots τ => v.range)
        (fun _ _ he => length_ok ps cx "range" i he) (fun _ hneg => length_neg ps cx "range" i hneg)
    all_goals rw [hn] at h1; simp at h1

theorem sets_required (ps : Parsers τ) (cx : AttrType) (i : MetaItem τ) :
    Sets (handled (slotMeta ps cx)) (fun v => if v.required then some () else none) ["required"]
      (fun i _ => Bare i) i := by
  apply sets_of
  · intro v v' e h hn
    simp only [(slot_other ps cx i v v' e h).2.2.1 hn]
  · intro hn v
    rw [isNamed_single, decide_eq_true_iff] at hn
    obtain ⟨v', e, h⟩ := slot_some ps cx i v (by rw [isNamed_of hn]; cases cx <;> rfl)
    refine ⟨v', e, h, ?_⟩
    rcases slot_cases ps cx i v v' e h with ⟨n, f, h1, hf, h⟩ | ⟨h1, h⟩ | ⟨h1, h⟩ | ⟨h1, h⟩ | ⟨h1, _, h⟩ | ⟨h1, _, h⟩ |
      ⟨h1, h⟩
    · rw [hn] at h1; obtain rfl := Option.some.inj h1; simp [formats] at hf
    · rw [hn] at h1; simp at h1
    · rw [hn] at h1; simp at h1
    · refine h.mine (part := fun v : ValidationSlots τ => if v.required then some () else none) (i := i)
        (R := fun i _ => Bare i) (fun _ hp he => ?_) (fun _ hneg => ?_)
      · obtain ⟨h1, h2⟩ := bareParsed_ok hp he
        exact ⟨(), by simp [h1], by simpa using h2⟩
      · simp [bareParsed_neg hneg]
    all_goals rw [hn] at h1; simp at h1

theorem isNamed_format {i : MetaItem τ} (h : isNamed formatKeys i = true) :
    ∃ n f, i.ident = some n ∧ (n, f) ∈ formats := by
  unfold isNamed at h
  cases hid : i.ident with
  | none => rw [hid] at h; cases h
  | some n =>
    rw [hid] at h
    obtain ⟨f, hf⟩ := (formatNames_iff n).1 h
    exact ⟨n, f, rfl, hf⟩

theorem sets_format (ps : Parsers τ) (cx : AttrType) (i : MetaItem τ) (hpos : cx = .validate → i.negated = false) :
    Sets (handled (slotMeta ps cx)) (·.format) formatKeys (FormatSays cx) i := by
  apply sets_of
  · intro v v' e h hn
    exact (slot_other ps cx i v v' e h).2.2.2.1 hn
  · intro hn v
    obtain ⟨n, f, hid, hf⟩ := isNamed_format hn
    obtain ⟨v', e, h⟩ := slot_some ps cx i v (by
      rw [isNamed_of hid] at hn ⊢
      simp only [List.contains_iff_mem] at hn ⊢
      cases cx <;> simp [slotNames, hn])
    refine ⟨v', e, h, ?_⟩
    have hbad : ∀ m, i.ident = some m → formatKeys.contains m = false → False := by
      intro m hm h0
      rw [hid] at hm
      obtain rfl := Option.some.inj hm
      rw [(formatNames_iff n).2 ⟨f, hf⟩] at h0; cases h0
    rcases slot_cases ps cx i v v' e h with ⟨n, f, h1, hf, h⟩ | ⟨h1, h⟩ | ⟨h1, h⟩ | ⟨h1, h⟩ | ⟨h1, _, h⟩ | ⟨h1, _, h⟩ |
      ⟨h1, h⟩
    · refine h.mine (part := fun v : ValidationSlots τ => v.format) (fun _ hp he => ?_) (fun _ hneg => ?_)
      · obtain ⟨h2, h3⟩ := bareParsed_ok hp he
        exact ⟨f, h2, ⟨n, h1, hf⟩, by simpa using h3⟩
      · have hcx : cx ≠ .validate := fun hc => by rw [hpos hc] at hneg; cases hneg
        simp [hcx, bareParsed_neg hneg]
    all_goals exact (hbad _ h1 (by decide)).elim

theorem ok_regex (ps : Parsers τ) (cx : AttrType) (i : MetaItem τ) (hcx : cx = .schemars ∨ cx = .validate)
    (he : (parseRegex ps cx i).2 = []) :
    ∃ x, (parseRegex ps cx i).1 = some x ∧ (if cx = .validate then ValidateRegex ps i x else SchemarsRegex i x) := by
  unfold parseRegex at he ⊢
  rcases hcx with rfl | rfl
  · exact (tells_schemarsRegex i).ok he
  · exact ok_validateRegex ps .validate i he

theorem sets_text (ps : Parsers τ) (cx : AttrType) (hcx : cx ≠ .serde) (i : MetaItem τ) :
    Sets (handled (slotMeta ps cx)) textOf (textNames cx) (TextSays ps cx) i := by
  apply sets_of
  · intro v v' e h hn
    exact (slot_other ps cx i v v' e h).2.2.2.2 hn
  · intro hn v
    have hn' : ∃ n, i.ident = some n ∧ (textNames cx).contains n = true := by
      unfold isNamed at hn
      cases hid : i.ident with
      | none => rw [hid] at hn; cases hn
      | some n => rw [hid] at hn; exact ⟨n, rfl, hn⟩
    obtain ⟨n, hid, hn'⟩ := hn'
    obtain ⟨v', e, h⟩ := slot_some ps cx i v (by
      rw [isNamed_of hid]
      revert hn'
      simp only [List.contains_iff_mem]
      cases cx <;> simp [slotNames, textNames] <;> (rintro (rfl | rfl | rfl) <;> simp))
    refine ⟨v', e, h, ?_⟩
    have hbad : ∀ m, i.ident = some m → (textNames cx).contains m = false → False := by
      intro m hm h0
      rw [hid] at hm
      obtain rfl := Option.some.inj hm
      rw [h0] at hn'; cases hn'
    rcases slot_cases ps cx i v v' e h with ⟨n, f, h1, hf, h⟩ | ⟨h1, h⟩ | ⟨h1, h⟩ | ⟨h1, h⟩ | ⟨h1, hc, h⟩ | ⟨h1, hc, h⟩ |
      ⟨h1, h⟩
    · refine (hbad n h1 ?_).elim
      have := (formatNames_iff n).2 ⟨f, hf⟩
      simp [formatKeys] at this
      rcases this with rfl | rfl | rfl | rfl | rfl <;> cases cx <;> decide
    · exact (hbad _ h1 (by cases cx <;> decide)).elim
    · exact (hbad _ h1 (by cases cx <;> decide)).elim
    · exact (hbad _ h1 (by cases cx <;> decide)).elim
    · refine h.mine (part := textOf) (fun h0 hp he => ?_) (fun h0 hneg => ?_)
      · obtain ⟨x, h2, h3⟩ := (gives_expr cx i).ok he
        obtain ⟨_, h5, h6⟩ := (textOf_none v).1 h0
        exact ⟨(some x, none, none), by simp [textOf, h2, h5, h6], x, .inl ⟨by rw [isNamed_of h1]; rfl, h3, rfl⟩⟩
      · rw [textOf_none] at h0 ⊢
        exact ⟨listWith_neg _ _ i hneg, h0.2⟩
    · refine h.mine (part := textOf) (fun h0 hp he => ?_) (fun h0 hneg => ?_)
      · obtain ⟨x, h2, h3⟩ := ok_regex ps cx i (by cases cx <;> simp_all) he
        obtain ⟨h4, _, h6⟩ := (textOf_none v).1 h0
        exact ⟨(none, some x, none), by simp [textOf, h2, h4, h6], x,
          .inr (.inl ⟨by rw [isNamed_of h1]; rfl, h3, rfl⟩)⟩
      · rw [textOf_none] at h0 ⊢
        exact ⟨h0.1, regex_neg ps cx i hneg, h0.2.2⟩
    · refine h.mine (part := textOf) (fun h0 hp he => ?_) (fun h0 hneg => ?_)
      · obtain ⟨x, h2, h3⟩ := ok_contains cx i hcx he
        obtain ⟨h4, h5, _⟩ := (textOf_none v).1 h0
        exact ⟨(none, none, some x), by simp [textOf, h2, h4, h5], x,
          .inr (.inr ⟨by rw [isNamed_of h1]; rfl, h3, rfl⟩)⟩
      · rw [textOf_none] at h0 ⊢
        exact ⟨h0.1, h0.2.1, contains_neg cx i hneg⟩

/-! ## `inner` -/

theorem validationItems_eq (ps : Parsers τ) (cx : AttrType) (l : List (MetaItem τ)) (v : ValidationMeta τ) :
    validationItems ps cx l v = runItems (validationItem ps cx) l v := by
  induction l generalizing v with
  | nil => rw [validationItems, runItems]
  | cons i l ih =>
    cases h : validationItem ps cx i v with
    | none => rw [validationItems, h, runItems_none h]; simp only [ih]
    | some r => rw [validationItems, h, runItems_some (s1 := r.1) (e1 := r.2) (by rw [h])]; simp only [ih]

/-- Items other than `inner(…)`. -/
theorem validation_slot (ps : Parsers τ) (cx : AttrType) (i : MetaItem τ) (v : ValidationMeta τ)
    (h : ¬ (i.ident = some "inner" ∧ cx ≠ .validate)) :
    validationItem ps cx i v = (handled (slotMeta ps cx) i v.slots).map fun r => ({ v with slots := r.1 }, r.2) := by
  obtain ⟨id, neg, body⟩ := i
  cases id with
  | none => rfl
  | some n =>
    rw [validationItem, if_neg (by simpa using h)]
    rfl

/-- Items `inner(…)`. -/
theorem validation_inner (ps : Parsers τ) (cx : AttrType) (i : MetaItem τ) (v : ValidationMeta τ)
    (hn : i.ident = some "inner") (hcx : cx ≠ .validate) :
    (∃ l, HasItems i l ∧ validationItem ps cx i v =
      some ({ v with inner := some (runItems (validationItem ps cx) l (v.inner.getD {})).1 },
        (runItems (validationItem ps cx) l (v.inner.getD {})).2.1 ++
          unknownErrors cx (runItems (validationItem ps cx) l (v.inner.getD {})).2.2)) ∨
    ((∀ l, ¬ HasItems i l) ∧ ∃ e, e ≠ [] ∧ validationItem ps cx i v = some (v, e)) := by
  obtain ⟨id, neg, body⟩ := i
  simp only at hn
  subst hn
  rw [validationItem, if_pos ⟨rfl, hcx⟩]
  cases neg with
  | true => exact .inr ⟨fun l h => (by have := h.1; cases this), [.expectedList cx (some "inner")], by simp, rfl⟩
  | false =>
    simp only [Bool.false_eq_true, if_false]
    cases body with
    | path =>
      exact .inr ⟨by rintro l ⟨_, _, _, _, h⟩; simp at h, [.expectedList cx (some "inner")], by simp, by rw [innerItems]⟩
    | nameValue =>
      exact .inr ⟨by rintro l ⟨_, _, _, _, h⟩; simp at h, [.expectedList cx (some "inner")], by simp, by rw [innerItems]⟩
    | list m x e b =>
      cases m with
      | none => exact .inr ⟨by rintro l ⟨_, _, _, _, h⟩; simp at h, [.syntaxError], by simp, by rw [innerItems]⟩
      | some l =>
        refine .inl ⟨l, ⟨rfl, x, e, b, rfl⟩, ?_⟩
        rw [innerItems, validationItems_eq]

theorem handles_validation (ps : Parsers τ) (cx : AttrType) :
    Handles (validationItem ps cx) (isNamed (validationNames cx)) := by
  intro i v
  by_cases h : i.ident = some "inner" ∧ cx ≠ .validate
  · rw [isNamed_of h.1]
    have : (validationNames cx).contains "inner" = true := by
      cases cx <;> first | exact absurd rfl h.2 | rfl
    rw [this]
    rcases validation_inner ps cx i v h.1 h.2 with ⟨l, _, hl⟩ | ⟨_, e, _, hl⟩ <;> rw [hl] <;> rfl
  · rw [validation_slot ps cx i v h, Option.isSome_map, handles_slot ps cx i v.slots]
    unfold isNamed
    cases hid : i.ident with
    | none => rfl
    | some n =>
      rw [hid] at h
      simp only [Option.any_some]
      rw [Bool.eq_iff_iff]
      simp only [List.contains_iff_mem]
      cases cx
      · have hi : n ≠ "inner" := by simpa using h
        simp [slotNames, validationNames, hi]
      · have hi : n ≠ "inner" := by simpa using h
        simp [slotNames, validationNames, hi]
      · simp [slotNames, validationNames]
      · have hi : n ≠ "inner" := by simpa using h
        simp [slotNames, validationNames, hi]

theorem sets_validation {β : Type} {ps : Parsers τ} {cx : AttrType} {part : ValidationSlots τ → Option β}
    {names : List String} {R : MetaItem τ → β → Prop} {i : MetaItem τ} (hi : names.contains "inner" = false)
    (h : Sets (handled (slotMeta ps cx)) part names R i) :
    Sets (validationItem ps cx) (fun v => part v.slots) names R i := by
  by_cases hn : i.ident = some "inner" ∧ cx ≠ .validate
  · have hs : setsOne names i = false := by
      unfold setsOne
      rw [isNamed_of hn.1, hi, Bool.and_false]
    refine ⟨fun s h0 => ?_, fun s s' e hh _ => ?_, fun s s' e _ h0 => ?_, fun s s' _ h0 => ?_⟩
    · rw [hs] at h0; cases h0
    · rcases validation_inner ps cx i s hn.1 hn.2 with ⟨l, _, hl⟩ | ⟨_, e, _, hl⟩ <;> rw [hl] at hh <;>
        simp only [Option.some.injEq, Prod.mk.injEq] at hh <;> rw [← hh.1]
    · rw [hs] at h0; cases h0
    · rw [hs] at h0; cases h0
  · have hv := fun v => validation_slot ps cx i v hn
    have hr : ∀ s s' e, validationItem ps cx i s = some (s', e) →
        handled (slotMeta ps cx) i s.slots = some (s'.slots, e) := by
      intro s s' e hh
      rw [hv s, Option.map_eq_some_iff] at hh
      obtain ⟨r, hr, hh⟩ := hh
      simp only [Prod.mk.injEq] at hh
      rw [hr, ← hh.1, ← hh.2]
    refine ⟨fun s h0 => ?_, fun s s' e hh h0 => ?_, fun s s' e hh h0 hf => ?_, fun s s' hh h0 hf => ?_⟩
    · rw [hv, Option.isSome_map]; exact h.handles _ h0
    · exact h.other _ _ e (hr _ _ _ hh) h0
    · exact h.full _ _ e (hr _ _ _ hh) h0 hf
    · exact h.free _ _ (hr _ _ _ hh) h0 hf

/-- What `inner(…)` gives: the items in all of them are read in turn. -/
theorem inner_run (ps : Parsers τ) (cx : AttrType) (hcx : cx ≠ .validate) (l : List (MetaItem τ)) (v : ValidationMeta τ)
    (he : (runItems (validationItem ps cx) l v).2.1 = []) :
    (runItems (validationItem ps cx) (innerOf l) (v.inner.getD {})).2.1 = [] ∧
    unknownErrors cx (runItems (validationItem ps cx) (innerOf l) (v.inner.getD {})).2.2 = [] ∧
    (runItems (validationItem ps cx) l v).1.inner =
      if l.any (setsOne ["inner"]) then some (runItems (validationItem ps cx) (innerOf l) (v.inner.getD {})).1
      else v.inner := by
  induction l generalizing v with
  | nil => simp [innerOf, runItems, unknownErrors]
  | cons i l ih =>
    by_cases hn : i.ident = some "inner"
    · rcases validation_inner ps cx i v hn hcx with ⟨m, hm, hs⟩ | ⟨_, e, h0, hs⟩
      · rw [runItems_some hs] at he ⊢
        obtain ⟨he1, he2⟩ := List.append_eq_nil_iff.1 he
        obtain ⟨he1, he3⟩ := List.append_eq_nil_iff.1 he1
        obtain ⟨ih1, ih2, ih3⟩ := ih _ he2
        have hset : setsOne ["inner"] i = true := setsOne_single.2 ⟨hm.1, hn⟩
        have hio : innerOf (i :: l) = m ++ innerOf l := by
          obtain ⟨_, x, e, b, ht⟩ := hm
          simp [innerOf, hset, ht]
        rw [hio, runItems_append]
        simp only [Option.getD_some] at ih1 ih2 ih3
        refine ⟨by simp [he1, ih1], ?_, ?_⟩
        · unfold unknownErrors at he3 ih2 ⊢
          split
          · rename_i hc
            rw [if_pos hc] at he3 ih2
            simp only [List.filter_append, List.map_append, he3, ih2, List.append_nil]
          · rfl
        · rw [ih3, List.any_cons, hset, Bool.true_or, if_pos rfl]
          by_cases ha : l.any (setsOne ["inner"]) = true
          · rw [if_pos ha]
          · rw [if_neg ha]
            have : innerOf l = [] := by
              unfold innerOf
              rw [List.flatMap_eq_nil_iff]
              intro j hj
              rw [if_neg]
              simp only [List.any_eq_true, not_exists, not_and] at ha
              exact ha j hj
            rw [this, runItems]
      · rw [runItems_some hs] at he
        exact absurd (List.append_eq_nil_iff.1 he).1 h0
    · have hset : setsOne ["inner"] i = false := by
        cases h : setsOne ["inner"] i with
        | false => rfl
        | true => exact absurd (setsOne_single.1 h).2 hn
      have hio : innerOf (i :: l) = innerOf l := by simp [innerOf, hset]
      rw [hio, List.any_cons, hset, Bool.false_or]
      have hv := validation_slot ps cx i v (fun h => hn h.1)
      cases hh : handled (slotMeta ps cx) i v.slots with
      | none =>
        rw [hh] at hv
        rw [runItems_none hv] at he ⊢
        exact ih v he
      | some r =>
        rw [hh] at hv
        rw [runItems_some (s1 := { v with slots := r.1 }) (e1 := r.2) hv] at he ⊢
        exact ih _ (List.append_eq_nil_iff.1 he).2

/-- Attributes of validator do not have `inner`. -/
theorem validate_inner (ps : Parsers τ) (l : List (MetaItem τ)) (v : ValidationMeta τ) :
    (runItems (validationItem ps .validate) l v).1.inner = v.inner := by
  induction l generalizing v with
  | nil => rfl
  | cons i l ih =>
    have hv := validation_slot ps .validate i v (fun h => h.2 rfl)
    cases hh : handled (slotMeta ps .validate) i v.slots with
    | none => rw [hh] at hv; rw [runItems_none hv, ih]
    | some r =>
      rw [hh] at hv
      rw [runItems_some (s1 := { v with slots := r.1 }) (e1 := r.2) hv, ih]

theorem firstAmong_cons {β : Type} {l : List (MetaItem τ)} {names : List String} {R : MetaItem τ → β → Prop}
    {more : List (List (MetaItem τ) × List String × (MetaItem τ → β → Prop))} {y z : Option β}
    (h : FirstOf names R l y) (h1 : ∀ x, y = some x → z = some x) (h2 : y = none → FirstAmong more z) :
    FirstAmong ((l, names, R) :: more) z := by
  unfold FirstAmong
  unfold FirstOf at h
  cases hf : l.find? (setsOne names) with
  | none => rw [hf] at h; exact h2 h
  | some i =>
    rw [hf] at h
    obtain ⟨b, hb, hr⟩ := h
    exact ⟨b, h1 b hb, hr⟩

/-- The three kinds of attributes, one after the other. -/
theorem among_three {β : Type} {ps : Parsers τ} {part : ValidationSlots τ → Option β} {names : AttrType → List String}
    {R : AttrType → MetaItem τ → β → Prop} (hi : ∀ cx, (names cx).contains "inner" = false)
    (sch val gar : List (MetaItem τ))
    (h1 : ∀ i ∈ sch, Sets (handled (slotMeta ps .schemars)) part (names .schemars) (R .schemars) i)
    (h2 : ∀ i ∈ val, Sets (handled (slotMeta ps .validate)) part (names .validate) (R .validate) i)
    (h3 : ∀ i ∈ gar, Sets (handled (slotMeta ps .garde)) part (names .garde) (R .garde) i)
    (v1 v2 v3 : ValidationMeta τ)
    (hv1 : (runItems (validationItem ps .schemars) sch {}).1 = v1)
    (hv2 : (runItems (validationItem ps .validate) val v1).1 = v2)
    (hv3 : (runItems (validationItem ps .garde) gar v2).1 = v3)
    (he1 : (runItems (validationItem ps .schemars) sch {}).2.1 = [])
    (he2 : (runItems (validationItem ps .validate) val v1).2.1 = [])
    (he3 : (runItems (validationItem ps .garde) gar v2).2.1 = []) (h0 : part {} = none) :
    FirstAmong [(sch, names .schemars, R .schemars), (val, names .validate, R .validate),
      (gar, names .garde, R .garde)] (part v3.slots) := by
  obtain ⟨_, a1⟩ := sets_first sch (fun i hm => sets_validation (hi _) (h1 i hm)) _ he1
  obtain ⟨b2, a2⟩ := sets_first val (fun i hm => sets_validation (hi _) (h2 i hm)) _ he2
  obtain ⟨b3, a3⟩ := sets_first gar (fun i hm => sets_validation (hi _) (h3 i hm)) _ he3
  rw [hv1] at a1
  rw [hv2] at a2 b2
  rw [hv3] at a3 b3
  refine firstAmong_cons (a1 h0) (fun x hx => b3 x (b2 x hx)) fun hn => ?_
  refine firstAmong_cons (a2 hn) (fun x hx => b3 x hx) fun hn2 => ?_
  refine firstAmong_cons (a3 hn2) (fun x hx => hx) fun hn3 => hn3

theorem reads_slots (ps : Parsers τ) (sch val gar : List (MetaItem τ)) (hval : ∀ i ∈ val, i.negated = false)
    (v1 v2 v3 : ValidationMeta τ)
    (hv1 : (runItems (validationItem ps .schemars) sch {}).1 = v1)
    (hv2 : (runItems (validationItem ps .validate) val v1).1 = v2)
    (hv3 : (runItems (validationItem ps .garde) gar v2).1 = v3)
    (he1 : (runItems (validationItem ps .schemars) sch {}).2.1 = [])
    (he2 : (runItems (validationItem ps .validate) val v1).2.1 = [])
    (he3 : (runItems (validationItem ps .garde) gar v2).2.1 = []) : SlotsRead ps sch val gar v3.slots where
  length := among_three (part := fun v => v.length) (names := fun _ => ["length"]) (R := fun _ => LengthSays ps)
    (fun _ => rfl) sch val gar (fun i _ => sets_length ps _ i) (fun i _ => sets_length ps _ i)
    (fun i _ => sets_length ps _ i) v1 v2 v3 hv1 hv2 hv3 he1 he2 he3 rfl
  range := among_three (part := fun v => v.range) (names := fun _ => ["range"]) (R := fun _ => LengthSays ps)
    (fun _ => rfl) sch val gar (fun i _ => sets_range ps _ i) (fun i _ => sets_range ps _ i)
    (fun i _ => sets_range ps _ i) v1 v2 v3 hv1 hv2 hv3 he1 he2 he3 rfl
  required := among_three (part := fun v => if v.required then some () else none) (names := fun _ => ["required"])
    (R := fun _ i _ => Bare i)
    (fun _ => rfl) sch val gar (fun i _ => sets_required ps _ i) (fun i _ => sets_required ps _ i)
    (fun i _ => sets_required ps _ i) v1 v2 v3 hv1 hv2 hv3 he1 he2 he3 rfl
  format := among_three (part := fun v => v.format) (names := fun _ => formatKeys) (R := FormatSays)
    (fun _ => rfl) sch val gar (fun i _ => sets_format ps _ i (by intro h; cases h))
    (fun i hi => sets_format ps _ i (fun _ => hval i hi)) (fun i _ => sets_format ps _ i (by intro h; cases h))
    v1 v2 v3 hv1 hv2 hv3 he1 he2 he3 rfl
  text := among_three (part := textOf) (names := textNames) (R := TextSays ps)
    (fun cx => by cases cx <;> rfl) sch val gar (fun i _ => sets_text ps _ (by simp) i)
    (fun i _ => sets_text ps _ (by simp) i) (fun i _ => sets_text ps _ (by simp) i)
    v1 v2 v3 hv1 hv2 hv3 he1 he2 he3 rfl

theorem innerOf_nil {l : List (MetaItem τ)} (h : l.any (setsOne ["inner"]) = false) : innerOf l = [] := by
  unfold innerOf
  rw [List.flatMap_eq_nil_iff]
  intro i hi
  rw [List.any_eq_false] at h
  rw [if_neg (h i hi)]

/-- The validation items are read to every depth. -/
theorem reads_to (ps : Parsers τ) (n : Nat) (sch val gar : List (MetaItem τ)) (hval : ∀ i ∈ val, i.negated = false)
    (v1 v2 v3 : ValidationMeta τ)
    (hv1 : (runItems (validationItem ps .schemars) sch {}).1 = v1)
    (hv2 : (runItems (validationItem ps .validate) val v1).1 = v2)
    (hv3 : (runItems (validationItem ps .garde) gar v2).1 = v3)
    (he1 : (runItems (validationItem ps .schemars) sch {}).2.1 = [])
    (he2 : (runItems (validationItem ps .validate) val v1).2.1 = [])
    (he3 : (runItems (validationItem ps .garde) gar v2).2.1 = []) : ReadsTo ps n sch val gar v3 := by
  induction n generalizing sch val gar v1 v2 v3 with
  | zero => exact reads_slots ps sch val gar hval v1 v2 v3 hv1 hv2 hv3 he1 he2 he3
  | succ n ih =>
    refine ⟨reads_slots ps sch val gar hval v1 v2 v3 hv1 hv2 hv3 he1 he2 he3, ?_⟩
    obtain ⟨i1, _, i3⟩ := inner_run ps .schemars (by simp) sch {} he1
    obtain ⟨j1, _, j3⟩ := inner_run ps .garde (by simp) gar v2 he3
    have hin : v2.inner = v1.inner := by rw [← hv2, validate_inner]
    rw [hv1] at i3
    rw [hv3] at j3
    rw [hin] at j1 j3
    simp only [Option.getD_none] at i1 i3
    have hw : v1.inner.getD {} = (runItems (validationItem ps .schemars) (innerOf sch) {}).1 := by
      rw [i3]
      cases hs : sch.any (setsOne ["inner"]) with
      | true => rfl
      | false => rw [innerOf_nil hs]; rfl
    rw [hw] at j1 j3
    have key : ReadsTo ps n (innerOf sch) [] (innerOf gar) (runItems (validationItem ps .garde) (innerOf gar)
        (runItems (validationItem ps .schemars) (innerOf sch) {}).1).1 :=
      ih _ [] _ (by simp) _ _ _ rfl rfl rfl i1 rfl j1
    cases hg : gar.any (setsOne ["inner"]) with
    | true =>
      rw [Bool.or_true, if_pos rfl]
      exact ⟨_, by rw [j3, hg, if_pos rfl], key⟩
    | false =>
      rw [hg, if_neg (by simp)] at j3
      rw [innerOf_nil hg] at key ⊢
      cases hs : sch.any (setsOne ["inner"]) with
      | true =>
        rw [Bool.true_or, if_pos rfl]
        exact ⟨_, by rw [j3, i3, hs, if_pos rfl]; rfl, key⟩
      | false =>
        rw [Bool.false_or, if_neg (by simp), j3, i3, hs]
        rfl

/-! ## `with` and `schema_with` -/

/-- The names of these items. -/
def withNames : AttrType → List String
  | .schemars => ["with", "schema_with"]
  | _ => ["with"]

theorem setWithType_step (ps : Parsers τ) (cx : AttrType) (i : MetaItem τ) (w : Option (WithMeta τ)) :
    SlotStep cx w (fun x => x.map .type) (parseString ps.type cx i) w (setWithType ps cx i w).1
      (setWithType ps cx i w).2 := by
  unfold setWithType
  cases w with
  | none => exact .inr ⟨rfl, rfl, rfl⟩
  | some w => cases w <;> exact .inl ⟨rfl, rfl, reportIf_nil _ _⟩

theorem setWithFunction_step (ps : Parsers τ) (cx : AttrType) (i : MetaItem τ) (w : Option (WithMeta τ)) :
    SlotStep cx w (fun x => x.map .function) (parseString ps.path cx i) w (setWithFunction ps cx i w).1
      (setWithFunction ps cx i w).2 := by
  unfold setWithFunction
  cases w with
  | none => exact .inr ⟨rfl, rfl, rfl⟩
  | some w => cases w <;> exact .inl ⟨rfl, rfl, reportIf_nil _ _⟩

theorem with_cases (ps : Parsers τ) (cx : AttrType) (i : MetaItem τ) (w w' : Option (WithMeta τ)) (e : List MetaError)
    (h : handled (withMeta ps cx) i w = some (w', e)) :
    (i.ident = some "with" ∧ SlotStep cx w (fun x => x.map .type) (parseString ps.type cx i) w w' e) ∨
    (i.ident = some "schema_with" ∧ cx = .schemars ∧
      SlotStep cx w (fun x => x.map .function) (parseString ps.path cx i) w w' e) := by
  cases hid : i.ident with
  | none => simp [handled, hid] at h
  | some n =>
    simp only [handled, hid, Option.bind_some, withMeta] at h
    by_cases h1 : n = "with"
    · refine .inl ⟨by rw [h1], ?_⟩
      rw [if_pos h1] at h
      have := setWithType_step ps cx i w
      rw [Option.some.inj h] at this
      exact this
    rw [if_neg h1] at h
    by_cases h2 : n = "schema_with" ∧ cx = .schemars
    · refine .inr ⟨by rw [h2.1], h2.2, ?_⟩
      rw [if_pos h2] at h
      have := setWithFunction_step ps cx i w
      rw [Option.some.inj h] at this
      exact this
    rw [if_neg h2] at h
    cases h

theorem handles_with (ps : Parsers τ) (cx : AttrType) :
    Handles (handled (withMeta ps cx)) (isNamed (withNames cx)) := by
  intro i s
  obtain ⟨id, neg, body⟩ := i
  cases id with
  | none => rfl
  | some n =>
    simp only [handled, Option.bind_some, isNamed, Option.any_some, withMeta]
    by_cases h1 : n = "with"
    · cases cx <;> simp [h1, withNames]
    by_cases h2 : n = "schema_with"
    · cases cx <;> simp [h2, withNames]
    cases cx <;> simp [h1, h2, withNames]

theorem gives_string {α : Type} (parser : String → Option α) (cx : AttrType) (i : MetaItem τ) :
    Gives (parseString parser cx i) (HasText parser i) := gives_text parser cx i

theorem sets_with (ps : Parsers τ) (cx : AttrType) (i : MetaItem τ) :
    Sets (handled (withMeta ps cx)) id (withNames cx) (WithSays ps) i := by
  apply sets_of
  · intro w w' e h hn
    rw [← handles_with ps cx i w, h] at hn
    cases hn
  · intro hn w
    have hs := handles_with ps cx i w
    rw [hn] at hs
    obtain ⟨⟨w', e⟩, h⟩ := Option.isSome_iff_exists.1 hs
    refine ⟨w', e, h, ?_⟩
    rcases with_cases ps cx i w w' e h with ⟨h1, h⟩ | ⟨h1, _, h⟩
    · refine h.mine (part := id) (fun _ _ he => ?_) (fun _ hneg => ?_)
      · obtain ⟨t, h2, h3⟩ := (gives_string ps.type cx i).ok he
        exact ⟨.type t, by simp [h2], .inl ⟨by rw [isNamed_of h1]; rfl, t, h3, rfl⟩⟩
      · obtain ⟨_, h2, _⟩ := (gives_string ps.type cx i).none_of
          fun b hb => by rw [hasText_pos hb] at hneg; cases hneg
        simp [h2]
    · refine h.mine (part := id) (fun _ _ he => ?_) (fun _ hneg => ?_)
      · obtain ⟨t, h2, h3⟩ := (gives_string ps.path cx i).ok he
        exact ⟨.function t, by simp [h2], .inr ⟨by rw [isNamed_of h1]; rfl, t, h3, rfl⟩⟩
      · obtain ⟨_, h2, _⟩ := (gives_string ps.path cx i).none_of
          fun b hb => by rw [hasText_pos hb] at hneg; cases hneg
        simp [h2]

/-! ## Fields -/

theorem firstOf_append {β : Type} {names : List String} {R : MetaItem τ → β → Prop} {l m : List (MetaItem τ)}
    {y z : Option β} (h : FirstOf names R l y) (h1 : ∀ x, y = some x → z = some x)
    (h2 : y = none → FirstOf names R m z) : FirstOf names R (l ++ m) z := by
  unfold FirstOf at h h2 ⊢
  rw [List.find?_append]
  cases hf : l.find? (setsOne names) with
  | none => rw [hf] at h; exact h2 h
  | some i =>
    rw [hf] at h
    obtain ⟨b, hb, hr⟩ := h
    exact ⟨b, h1 b hb, hr⟩

theorem common_reads (ps : Parsers τ) (sch ser : List (MetaItem τ)) (c1 c2 : CommonMeta τ)
    (hc1 : (runItems (handled (commonMeta ps .schemars)) sch {}).1 = c1)
    (hc2 : (runItems (handled (commonMeta ps .serde)) ser c1).1 = c2)
    (he1 : (runItems (handled (commonMeta ps .schemars)) sch {}).2.1 = [])
    (he2 : (runItems (handled (commonMeta ps .serde)) ser c1).2.1 = []) : CommonReads (sch ++ ser) c2 := by
  obtain ⟨x1, y1, z1⟩ := common_lists ps .schemars sch {} he1
  obtain ⟨x2, y2, z2⟩ := common_lists ps .serde ser c1 he2
  rw [hc1] at x1 y1 z1
  rw [hc2] at x2 y2 z2
  constructor
  · obtain ⟨_, a1⟩ := sets_first sch (fun i _ => sets_title ps .schemars i) _ he1
    obtain ⟨b2, a2⟩ := sets_first ser (fun i _ => sets_title ps .serde i) _ he2
    rw [hc1] at a1
    rw [hc2] at a2 b2
    exact firstOf_append (a1 rfl) b2 a2
  · obtain ⟨_, a1⟩ := sets_first sch (fun i _ => sets_description ps .schemars i) _ he1
    obtain ⟨b2, a2⟩ := sets_first ser (fun i _ => sets_description ps .serde i) _ he2
    rw [hc1] at a1
    rw [hc2] at a2 b2
    exact firstOf_append (a1 rfl) b2 a2
  · rw [x2, x1]; simp
  · rw [y2, y1]; simp
  · rw [z2, z1]; simp

theorem find_filter {l : List (MetaItem τ)} {p q : MetaItem τ → Bool} (h : ∀ i, q i = true → p i = true) :
    (l.filter p).find? q = l.find? q := by
  induction l with
  | nil => rfl
  | cons i l ih =>
    cases hp : p i with
    | true =>
      rw [List.filter_cons_of_pos hp]
      cases hq : q i with
      | true => rw [List.find?_cons_of_pos hq, List.find?_cons_of_pos hq]
      | false => rw [List.find?_cons_of_neg (by simp [hq]), List.find?_cons_of_neg (by simp [hq]), ih]
    | false =>
      rw [List.filter_cons_of_neg (by simp [hp]), ih, List.find?_cons_of_neg]
      intro hq
      rw [h i hq] at hp; cases hp

theorem firstAmong_filter {β : Type} {l : List (MetaItem τ)} {p : MetaItem τ → Bool} {names : List String}
    {R : MetaItem τ → β → Prop} {more : List (List (MetaItem τ) × List String × (MetaItem τ → β → Prop))}
    {z : Option β} (hp : ∀ i, setsOne names i = true → p i = true)
    (h : FirstAmong ((l.filter p, names, R) :: more) z) : FirstAmong ((l, names, R) :: more) z := by
  unfold FirstAmong at h ⊢
  rw [find_filter hp] at h
  exact h

theorem isNamed_disjoint {names other : List String} (h : ∀ n ∈ names, other.contains n = false) {i : MetaItem τ}
    (hn : isNamed names i = true) : isNamed other i = false := by
  unfold isNamed at hn ⊢
  cases hid : i.ident with
  | none => rfl
  | some n => rw [hid] at hn; simp only [Option.any_some] at hn ⊢; exact h n (by simpa using hn)

theorem setsOne_named {names : List String} {i : MetaItem τ} (h : setsOne names i = true) : isNamed names i = true := by
  unfold setsOne at h; simp at h; exact h.2

theorem innerOf_filter (l : List (MetaItem τ)) {p : MetaItem τ → Bool} (hp : ∀ i, setsOne ["inner"] i = true → p i = true) :
    innerOf (l.filter p) = innerOf l := by
  induction l with
  | nil => rfl
  | cons i l ih =>
    cases h : p i with
    | true => rw [List.filter_cons_of_pos h]; unfold innerOf at ih ⊢; simp only [List.flatMap_cons, ih]
    | false =>
      rw [List.filter_cons_of_neg (by simp [h]), ih]
      unfold innerOf
      rw [List.flatMap_cons, if_neg, List.nil_append]
      intro hs
      rw [hp i hs] at h; cases h

theorem any_filter {l : List (MetaItem τ)} {p q : MetaItem τ → Bool} (hp : ∀ i, q i = true → p i = true) :
    (l.filter p).any q = l.any q := by
  rw [Bool.eq_iff_iff, List.any_eq_true, List.any_eq_true]
  constructor
  · rintro ⟨i, hi, hq⟩; exact ⟨i, List.mem_of_mem_filter hi, hq⟩
  · rintro ⟨i, hi, hq⟩; exact ⟨i, List.mem_filter.2 ⟨hi, hp i hq⟩, hq⟩

/-- Items with other names do not matter. -/
theorem readsTo_filter {ps : Parsers τ} {n : Nat} {sch val gar : List (MetaItem τ)} {v : ValidationMeta τ}
    {other : List String} (ho : ∀ k ∈ validationNames .schemars, other.contains k = false)
    (h : ReadsTo ps n (sch.filter fun i => !isNamed other i) val gar v) : ReadsTo ps n sch val gar v := by
  have hd : ∀ names : List String, (∀ k ∈ names, k ∈ validationNames .schemars) → ∀ i : MetaItem τ,
      setsOne names i = true → (!isNamed other i) = true := by
    intro names hs i hi
    rw [isNamed_disjoint (fun k hk => ho k (hs k hk)) (setsOne_named hi)]; rfl
  have hinner := hd ["inner"] (by decide)
  have hslots : ∀ {s}, SlotsRead ps (sch.filter fun i => !isNamed other i) val gar s → SlotsRead ps sch val gar s := by
    intro s h
    exact ⟨firstAmong_filter (hd _ (by decide)) h.length, firstAmong_filter (hd _ (by decide)) h.range,
      firstAmong_filter (hd _ (by decide)) h.required, firstAmong_filter (hd _ (by decide)) h.format,
      firstAmong_filter (hd _ (by decide)) h.text⟩
  cases n with
  | zero => exact hslots h
  | succ n =>
    obtain ⟨h1, h2⟩ := h
    rw [any_filter hinner, innerOf_filter _ hinner] at h2
    exact ⟨hslots h1, h2⟩

theorem serdeWords_eq : schemarsKeywords = serdeWords := by decide

theorem unknown_nil (rest : List (MetaItem τ)) :
    unknownErrors .schemars rest = [] ↔ ∀ i ∈ rest, isNamed serdeWords i = true := by
  unfold unknownErrors
  rw [if_pos rfl, List.map_eq_nil_iff, List.filter_eq_nil_iff, serdeWords_eq]
  simp only [isNamed, Bool.not_eq_true', Bool.not_eq_false]

/-- The parts of `FieldAttrs::populate`. -/
theorem fieldMeta_eq (ps : Parsers τ) (sch ser val gar : List (MetaItem τ)) :
    let c1 := runItems (handled (commonMeta ps .schemars)) sch {}
    let c2 := runItems (handled (commonMeta ps .serde)) ser c1.1
    let v1 := runItems (validationItem ps .schemars) (sch.filter fun i => !isNamed commonNames i) {}
    let v2 := runItems (validationItem ps .validate) val v1.1
    let v3 := runItems (validationItem ps .garde) gar v2.1
    let rest := (sch.filter fun i => !isNamed commonNames i).filter fun i => !isNamed (validationNames .schemars) i
    let w1 := runItems (handled (withMeta ps .schemars)) rest none
    let w2 := runItems (handled (withMeta ps .serde)) (ser.filter fun i => !isNamed commonNames i) w1.1
    fieldMeta ps sch ser val gar = (⟨c2.1, v3.1, w2.1⟩, c1.2.1 ++ c2.2.1 ++ v1.2.1 ++ v2.2.1 ++ v3.2.1 ++ w1.2.1 ++
      w2.2.1 ++ unknownErrors .schemars (rest.filter fun i => !isNamed (withNames .schemars) i)) := by
  simp only [fieldMeta, parseMeta_eq, validationItems_eq, runItems_rest (handles_common ps _),
    runItems_rest (handles_validation ps _), runItems_rest (handles_with ps _)]

/-- What is read from the items of a field. -/
theorem field_reads (ps : Parsers τ) (sch ser val gar : List (MetaItem τ)) (hval : ∀ i ∈ val, i.negated = false)
    (h : (fieldMeta ps sch ser val gar).2 = []) : FieldReads ps sch ser val gar (fieldMeta ps sch ser val gar).1 := by
  rw [fieldMeta_eq] at h ⊢
  simp only [List.append_eq_nil_iff] at h
  obtain ⟨⟨⟨⟨⟨⟨⟨h1, h2⟩, h3⟩, h4⟩, h5⟩, h6⟩, h7⟩, h8⟩ := h
  refine ⟨common_reads ps sch ser _ _ rfl rfl h1 h2, fun n => ?_, ?_⟩
  · exact readsTo_filter (by decide) (reads_to ps n _ val gar hval _ _ _ rfl rfl rfl h3 h4 h5)
  · obtain ⟨_, a1⟩ := sets_first _ (fun i _ => sets_with ps .schemars i) _ h6
    obtain ⟨b2, a2⟩ := sets_first _ (fun i _ => sets_with ps .serde i) _ h7
    have hd : ∀ (names other : List String), (∀ k ∈ names, other.contains k = false) → ∀ i : MetaItem τ,
        setsOne names i = true → (!isNamed other i) = true := by
      intro names other hs i hi
      rw [isNamed_disjoint hs (setsOne_named hi)]; rfl
    refine firstAmong_filter (p := fun i => !isNamed commonNames i) (hd _ _ (by decide)) ?_
    refine firstAmong_filter (p := fun i => !isNamed (validationNames .schemars) i) (hd _ _ (by decide)) ?_
    refine firstAmong_cons (a1 rfl) b2 fun hn => ?_
    refine firstAmong_filter (p := fun i => !isNamed commonNames i) (hd _ _ (by decide)) ?_
    exact firstAmong_cons (a2 hn) (fun x hx => hx) fun hn => hn

/-! ## Which items are accepted -/

/-- What is set in the validation attributes. -/
def validationSet : ValidationMeta τ → Setting → Prop
  | v, .length => v.slots.length.isSome = true
  | v, .range => v.slots.range.isSome = true
  | v, .required => (if v.slots.required then some () else none).isSome = true
  | v, .format => v.slots.format.isSome = true
  | v, .text => (textOf v.slots).isSome = true
  | v, .inner k => ∃ w, v.inner = some w ∧ validationSet w k
  | _, _ => False

theorem validationSet_empty (k : Setting) : ¬ validationSet ({} : ValidationMeta τ) k := by
  cases k <;> simp [validationSet, textOf]

theorem validationSet_inner (v : ValidationMeta τ) (k : Setting) :
    validationSet v (.inner k) ↔ validationSet (v.inner.getD {}) k := by
  cases h : v.inner with
  | none => simp [validationSet, h, validationSet_empty]
  | some w => simp [validationSet, h]

theorem SlotStep.strict {β γ : Type} {full : Option γ} {set : Option β → σ} {p : Parsed β}
    {s s' : σ} {e : List MetaError} {wf isSet : Prop} (h : SlotStep .schemars full set p s s' e)
    (hf : isSet ↔ full.isSome = true) (hw : p.2 = [] ↔ wf) : e = [] ↔ wf ∧ ¬ isSet := by
  rcases h with ⟨h1, _, h2⟩ | ⟨h1, _, rfl⟩
  · simp [h2, hf, h1]
  · simp [hf, h1, hw]

theorem SlotStep.fills {β γ : Type} {full : Option γ} {set : Option β → σ} {p : Parsed β} {s s' : σ}
    (h : SlotStep .schemars full set p s s' []) : full = none ∧ p.2 = [] ∧ s' = set p.1 := by
  rcases h with ⟨_, _, h2⟩ | ⟨h1, h2, h3⟩
  · simp at h2
  · exact ⟨h1, h3.symm, h2⟩

theorem isNamed_absurd {P : Prop} {n : String} {names : List String} {i : MetaItem τ} (hid : i.ident = some n)
    (h : isNamed names i = true) (hn : names.contains n = false) : P := by
  rw [isNamed_of hid, hn] at h; cases h

theorem validationOk_format {ps : Parsers τ} {i : MetaItem τ} {n : String} (hid : i.ident = some n)
    (hf : (formatKeys ++ ["required"]).contains n = true) : ValidationOk ps i ↔ Bare i := by
  have hn : ∀ names : List String, (∀ k ∈ formatKeys ++ ["required"], names.contains k = false) →
      names.contains n = false := fun names h => h n (by simpa using hf)
  constructor
  · intro h
    cases h with
    | bare _ h => exact h
    | length h _ => exact isNamed_absurd hid h (hn _ (by decide))
    | pattern h _ => exact isNamed_absurd hid h (hn _ (by decide))
    | regex h _ => exact isNamed_absurd hid h (hn _ (by decide))
    | contains h _ => exact isNamed_absurd hid h (hn _ (by decide))
    | inner h _ _ _ => exact isNamed_absurd hid h (hn _ (by decide))
  · exact fun h => .bare (by rw [isNamed_of hid, hf]) h

theorem validationOk_length {ps : Parsers τ} {i : MetaItem τ} {n : String} (hid : i.ident = some n)
    (hf : ["length", "range"].contains n = true) : ValidationOk ps i ↔ LengthOk ps i := by
  have hn : ∀ names : List String, (∀ k ∈ ["length", "range"], names.contains k = false) →
      names.contains n = false := fun names h => h n (by simpa using hf)
  constructor
  · intro h
    cases h with
    | length _ h => exact h
    | bare h _ => exact isNamed_absurd hid h (hn _ (by decide))
    | pattern h _ => exact isNamed_absurd hid h (hn _ (by decide))
    | regex h _ => exact isNamed_absurd hid h (hn _ (by decide))
    | contains h _ => exact isNamed_absurd hid h (hn _ (by decide))
    | inner h _ _ _ => exact isNamed_absurd hid h (hn _ (by decide))
  · exact fun h => .length (by rw [isNamed_of hid, hf]) h

theorem validationOk_pattern {ps : Parsers τ} {i : MetaItem τ} (hid : i.ident = some "pattern") :
    ValidationOk ps i ↔ ∃ x, HasExpr i x := by
  constructor
  · intro h
    cases h with
    | pattern _ h => exact ⟨_, h⟩
    | length h _ => exact isNamed_absurd hid h (by decide)
    | bare h _ => exact isNamed_absurd hid h (by decide)
    | regex h _ => exact isNamed_absurd hid h (by decide)
    | contains h _ => exact isNamed_absurd hid h (by decide)
    | inner h _ _ _ => exact isNamed_absurd hid h (by decide)
  · exact fun ⟨_, h⟩ => .pattern (by rw [isNamed_of hid]; rfl) h

theorem validationOk_regex {ps : Parsers τ} {i : MetaItem τ} (hid : i.ident = some "regex") :
    ValidationOk ps i ↔ ∃ x, SchemarsRegex i x := by
  constructor
  · intro h
    cases h with
    | regex _ h => exact ⟨_, h⟩
    | length h _ => exact isNamed_absurd hid h (by decide)
    | bare h _ => exact isNamed_absurd hid h (by decide)
    | pattern h _ => exact isNamed_absurd hid h (by decide)
    | contains h _ => exact isNamed_absurd hid h (by decide)
    | inner h _ _ _ => exact isNamed_absurd hid h (by decide)
  · exact fun ⟨_, h⟩ => .regex (by rw [isNamed_of hid]; rfl) h

theorem validationOk_contains {ps : Parsers τ} {i : MetaItem τ} (hid : i.ident = some "contains") :
    ValidationOk ps i ↔ ∃ x, Contains .schemars i x := by
  constructor
  · intro h
    cases h with
    | contains _ h => exact ⟨_, h⟩
    | length h _ => exact isNamed_absurd hid h (by decide)
    | bare h _ => exact isNamed_absurd hid h (by decide)
    | pattern h _ => exact isNamed_absurd hid h (by decide)
    | regex h _ => exact isNamed_absurd hid h (by decide)
    | inner h _ _ _ => exact isNamed_absurd hid h (by decide)
  · exact fun ⟨_, h⟩ => .contains (by rw [isNamed_of hid]; rfl) h

theorem validationOk_inner {ps : Parsers τ} {i : MetaItem τ} (hid : i.ident = some "inner") :
    ValidationOk ps i ↔ ∃ l, HasItems i l ∧
      (∀ j ∈ l, isNamed (validationNames .schemars) j = true → ValidationOk ps j) ∧
      ∀ j ∈ l, isNamed (validationNames .schemars) j = true ∨ isNamed serdeWords j = true := by
  constructor
  · intro h
    cases h with
    | inner _ h1 h2 h3 => exact ⟨_, h1, h2, h3⟩
    | length h _ => exact isNamed_absurd hid h (by decide)
    | bare h _ => exact isNamed_absurd hid h (by decide)
    | pattern h _ => exact isNamed_absurd hid h (by decide)
    | regex h _ => exact isNamed_absurd hid h (by decide)
    | contains h _ => exact isNamed_absurd hid h (by decide)
  · exact fun ⟨_, h1, h2, h3⟩ => .inner (by rw [isNamed_of hid]; rfl) h1 h2 h3

theorem settings_format {i : MetaItem τ} {n : String} (hid : i.ident = some n) (hf : formatKeys.contains n = true) :
    validationSettings i = [.format] := by
  obtain ⟨id, neg, body⟩ := i
  simp only at hid
  subst hid
  rw [validationSettings, if_pos hf]

theorem settings_of {i : MetaItem τ} {n : String} {k : Setting} (hid : i.ident = some n)
    (hk : (n, k) ∈ [("length", Setting.length), ("range", .range), ("required", .required), ("pattern", .text),
      ("regex", .text), ("contains", .text)]) : validationSettings i = [k] := by
  obtain ⟨id, neg, body⟩ := i
  simp only at hid
  subst hid
  rw [validationSettings]
  simp only [List.mem_cons, Prod.mk.injEq, List.not_mem_nil, or_false] at hk
  rcases hk with ⟨rfl, rfl⟩ | ⟨rfl, rfl⟩ | ⟨rfl, rfl⟩ | ⟨rfl, rfl⟩ | ⟨rfl, rfl⟩ | ⟨rfl, rfl⟩ <;> rfl

theorem listSettings_eq (l : List (MetaItem τ)) : listSettings l = l.flatMap validationSettings := by
  induction l with
  | nil => rw [listSettings]; rfl
  | cons i l ih => rw [listSettings, ih]; rfl

theorem settings_inner {i : MetaItem τ} {l : List (MetaItem τ)} (hid : i.ident = some "inner") (hl : HasItems i l) :
    validationSettings i = (l.flatMap validationSettings).map .inner := by
  obtain ⟨id, neg, body⟩ := i
  simp only at hid
  subst hid
  obtain ⟨_, x, e, b, ht⟩ := hl
  simp only at ht
  subst ht
  rw [validationSettings]
  simp only [show formatKeys.contains "inner" = false from rfl, Bool.false_eq_true, if_false]
  rw [if_neg (by decide), if_neg (by decide), if_neg (by decide), if_neg (by decide), if_pos trivial, bodySettings,
    listSettings_eq]

theorem settings_none {i : MetaItem τ} (h : isNamed (validationNames .schemars) i = false) :
    validationSettings i = [] := by
  obtain ⟨id, neg, body⟩ := i
  cases id with
  | none => rw [validationSettings]
  | some n =>
    rw [isNamed_of rfl] at h
    have hd : ∀ k ∈ validationNames .schemars, n ≠ k := by
      intro k hk hnk
      subst hnk
      rw [List.contains_iff_mem.2 hk] at h; cases h
    have hd2 : ∀ names : List String, (∀ k ∈ names, k ∈ validationNames .schemars) → names.contains n = false := by
      intro names hs
      cases hc : names.contains n with
      | false => rfl
      | true => exact absurd rfl (hd n (hs n (by simpa using hc)))
    rw [validationSettings, if_neg (by rw [hd2 _ (by decide)]; simp), if_neg (hd _ (by decide)),
      if_neg (hd _ (by decide)), if_neg (hd _ (by decide)), if_neg (by rw [hd2 _ (by decide)]; simp),
      if_neg (hd _ (by decide))]

theorem settings_filter (l : List (MetaItem τ)) :
    (l.filter (isNamed (validationNames .schemars))).flatMap validationSettings = l.flatMap validationSettings := by
  induction l with
  | nil => rfl
  | cons i l ih =>
    cases h : isNamed (validationNames .schemars) i with
    | true => rw [List.filter_cons_of_pos h, List.flatMap_cons, List.flatMap_cons, ih]
    | false =>
      rw [List.filter_cons_of_neg (by simp [h]), List.flatMap_cons, settings_none h, ih, List.nil_append]

theorem bare_some {i : MetaItem τ} {β : Type} {x : β} (hneg : i.negated = false)
    (h : (bareParsed false .schemars i x).2 = []) : (bareParsed false .schemars i x).1 = some x :=
  (bareParsed_ok hneg h).1

/-- How errors about the validation items of schemars attributes are reported. -/
theorem validation_strict (ps : Parsers τ) {i : MetaItem τ} (hpos : Positive i) :
    Strict (validationItem ps .schemars) validationSet (ValidationOk ps) validationSettings i := by
  induction hpos with
  | @mk i hneg _ ih =>
  have hsingle : ∀ (k : Setting) (v : ValidationMeta τ), validationSettings i = [k] →
      ((validationSettings i).Nodup ∧ (∀ k ∈ validationSettings i, ¬ validationSet v k) ↔ ¬ validationSet v k) := by
    intro k v h; rw [h]; simp
  by_cases hn : i.ident = some "inner"
  · -- `inner(…)`
    have hnamed : isNamed ["inner"] i = true := by rw [isNamed_of hn]; rfl
    have hcases := fun v => validation_inner ps .schemars i v hn (by simp)
    constructor
    · intro v v' e h
      rcases hcases v with ⟨l, hl, hs⟩ | ⟨h0, e0, hne, hs⟩
      · rw [hs] at h
        simp only [Option.some.injEq, Prod.mk.injEq] at h
        rw [← h.2, List.append_eq_nil_iff, runItems_rest (handles_validation ps .schemars), unknown_nil,
          (strict_run (handles_validation ps .schemars) l (ih l hnamed hl) (v.inner.getD {})).1, settings_filter,
          validationOk_inner hn, settings_inner hn hl,
          List.nodup_map_iff (fun _ _ h => by simpa using h)]
        constructor
        · rintro ⟨⟨h1, h2, h3⟩, h4⟩
          refine ⟨⟨l, hl, h1, fun j hj => ?_⟩, h2, ?_⟩
          · cases hm : isNamed (validationNames .schemars) j with
            | true => exact .inl rfl
            | false => exact .inr (h4 j (List.mem_filter.2 ⟨hj, by simp [hm]⟩))
          · intro k hk
            obtain ⟨k', hk', rfl⟩ := List.mem_map.1 hk
            rw [validationSet_inner]
            exact h3 k' hk'
        · rintro ⟨⟨m, hm, h1, h4⟩, h2, h3⟩
          obtain rfl := hasItems_inj hl hm
          refine ⟨⟨h1, h2, fun k hk => ?_⟩, fun j hj => ?_⟩
          · rw [← validationSet_inner]
            exact h3 _ (List.mem_map_of_mem hk)
          · obtain ⟨hj, hj2⟩ := List.mem_filter.1 hj
            rcases h4 j hj with h | h
            · rw [h] at hj2; cases hj2
            · exact h
      · rw [hs] at h
        simp only [Option.some.injEq, Prod.mk.injEq] at h
        rw [← h.2, validationOk_inner hn]
        simp [hne, h0]
    · intro v v' h k
      rcases hcases v with ⟨l, hl, hs⟩ | ⟨h0, e0, hne, hs⟩
      · rw [hs] at h
        simp only [Option.some.injEq, Prod.mk.injEq, List.append_eq_nil_iff] at h
        obtain ⟨rfl, h1, _⟩ := h
        have hsets := (strict_run (handles_validation ps .schemars) l (ih l hnamed hl) (v.inner.getD {})).2 h1
        rw [settings_filter] at hsets
        rw [settings_inner hn hl]
        cases k with
        | inner k =>
          rw [validationSet_inner, validationSet_inner]
          simp only [Option.getD_some, hsets k]
          simp
        | _ => simp [validationSet]
      · rw [hs] at h
        simp only [Option.some.injEq, Prod.mk.injEq] at h
        exact absurd h.2 hne
  · have hv := fun v => validation_slot ps .schemars i v (fun h => hn h.1)
    have hcase : ∀ v v' e, validationItem ps .schemars i v = some (v', e) →
        ∃ s, v' = { v with slots := s } ∧ handled (slotMeta ps .schemars) i v.slots = some (s, e) := by
      intro v v' e hh
      rw [hv v, Option.map_eq_some_iff] at hh
      obtain ⟨r, hr, hh⟩ := hh
      simp only [Prod.mk.injEq] at hh
      exact ⟨r.1, hh.1.symm, by rw [hr, ← hh.2]⟩
    constructor
    · intro v v' e h
      obtain ⟨s, rfl, hs⟩ := hcase v v' e h
      rcases slot_cases ps .schemars i v.slots s e hs with ⟨n, f, hid, hf, h⟩ | ⟨hid, h⟩ | ⟨hid, h⟩ | ⟨hid, h⟩ |
        ⟨hid, _, h⟩ | ⟨hid, _, h⟩ | ⟨hid, h⟩
      · have hf := (formatNames_iff n).2 ⟨f, hf⟩
        rw [hsingle .format v (settings_format hid hf),
          validationOk_format hid (by simp only [List.contains_iff_mem] at hf ⊢; exact List.mem_append_left _ hf)]
        exact h.strict Iff.rfl (bareParsed_iff hneg)
      · rw [hsingle .length v (settings_of hid (by simp)), validationOk_length hid rfl]
        exact h.strict Iff.rfl (length_iff ps _ i)
      · rw [hsingle .range v (settings_of hid (by simp)), validationOk_length hid rfl]
        exact h.strict Iff.rfl (length_iff ps _ i)
      · rw [hsingle .required v (settings_of hid (by simp)), validationOk_format hid rfl]
        exact h.strict Iff.rfl (bareParsed_iff hneg)
      · rw [hsingle .text v (settings_of hid (by simp)), validationOk_pattern hid]
        exact h.strict Iff.rfl (gives_expr _ i).iff
      · rw [hsingle .text v (settings_of hid (by simp)), validationOk_regex hid]
        exact h.strict Iff.rfl (tells_schemarsRegex i).iff
      · rw [hsingle .text v (settings_of hid (by simp)), validationOk_contains hid]
        exact h.strict Iff.rfl (tells_contains i).iff
    · intro v v' h k
      obtain ⟨s, rfl, hs⟩ := hcase v v' [] h
      rcases slot_cases ps .schemars i v.slots s [] hs with ⟨n, f, hid, hf, h⟩ | ⟨hid, h⟩ | ⟨hid, h⟩ | ⟨hid, h⟩ |
        ⟨hid, _, h⟩ | ⟨hid, _, h⟩ | ⟨hid, h⟩
      · rw [settings_format hid ((formatNames_iff n).2 ⟨f, hf⟩)]
        obtain ⟨_, h2, rfl⟩ := h.fills
        have hb : (bareParsed false .schemars i f).1 = some f := bare_some hneg h2
        cases k <;> simp [validationSet, textOf, hb]
      · rw [settings_of hid (k := .length) (by simp)]
        obtain ⟨_, h2, rfl⟩ := h.fills
        obtain ⟨r, hr, _⟩ := length_ok ps _ _ i h2
        cases k <;> simp [validationSet, textOf, hr]
      · rw [settings_of hid (k := .range) (by simp)]
        obtain ⟨_, h2, rfl⟩ := h.fills
        obtain ⟨r, hr, _⟩ := length_ok ps _ _ i h2
        cases k <;> simp [validationSet, textOf, hr]
      · rw [settings_of hid (k := .required) (by simp)]
        obtain ⟨_, h2, rfl⟩ := h.fills
        have hb := bare_some hneg h2
        cases k <;> simp [validationSet, textOf, hb]
      · rw [settings_of hid (k := .text) (by simp)]
        obtain ⟨h1, h2, rfl⟩ := h.fills
        obtain ⟨x, hx, _⟩ := (gives_expr _ i).ok h2
        cases k <;> simp [validationSet, textOf, hx]
      · rw [settings_of hid (k := .text) (by simp)]
        obtain ⟨h1, h2, rfl⟩ := h.fills
        obtain ⟨x, hx, _⟩ := (tells_schemarsRegex i).ok h2
        have hx : (parseRegex ps .schemars i).1 = some x := hx
        cases k <;> simp [validationSet, textOf, hx]
      · rw [settings_of hid (k := .text) (by simp)]
        obtain ⟨h1, h2, rfl⟩ := h.fills
        obtain ⟨x, hx, _⟩ := (tells_contains i).ok h2
        cases k <;> simp [validationSet, textOf, hx]

theorem with_strict (ps : Parsers τ) (i : MetaItem τ) :
    Strict (handled (withMeta ps .schemars)) (fun w (_ : Unit) => w.isSome = true) (fun i => ∃ w, WithSays ps i w)
      (fun _ => [()]) i := by
  have ht : i.ident = some "with" → ((parseString ps.type .schemars i).2 = [] ↔ ∃ w, WithSays ps i w) := by
    intro hid
    rw [(gives_string ps.type .schemars i).iff]
    constructor
    · rintro ⟨t, h⟩
      exact ⟨.type t, .inl ⟨by rw [isNamed_of hid]; rfl, t, h, rfl⟩⟩
    · rintro ⟨_, ⟨_, t, h, _⟩ | ⟨h, _⟩⟩
      · exact ⟨t, h⟩
      · exact isNamed_absurd hid h (by decide)
  have hf : i.ident = some "schema_with" → ((parseString ps.path .schemars i).2 = [] ↔ ∃ w, WithSays ps i w) := by
    intro hid
    rw [(gives_string ps.path .schemars i).iff]
    constructor
    · rintro ⟨t, h⟩
      exact ⟨.function t, .inr ⟨by rw [isNamed_of hid]; rfl, t, h, rfl⟩⟩
    · rintro ⟨_, ⟨h, _⟩ | ⟨_, t, h, _⟩⟩
      · exact isNamed_absurd hid h (by decide)
      · exact ⟨t, h⟩
  constructor
  · intro w w' e h
    simp only [List.nodup_singleton, List.mem_singleton, true_and, forall_const]
    rcases with_cases ps .schemars i w w' e h with ⟨hid, h⟩ | ⟨hid, _, h⟩
    · exact h.strict Iff.rfl (ht hid)
    · exact h.strict Iff.rfl (hf hid)
  · intro w w' h k
    simp only [List.mem_singleton, or_true, iff_true]
    rcases with_cases ps .schemars i w w' [] h with ⟨hid, h⟩ | ⟨hid, _, h⟩
    · obtain ⟨_, h2, rfl⟩ := h.fills
      obtain ⟨x, hx, _⟩ := (gives_string ps.type .schemars i).ok h2
      simp [hx]
    · obtain ⟨_, h2, rfl⟩ := h.fills
      obtain ⟨x, hx, _⟩ := (gives_string ps.path .schemars i).ok h2
      simp [hx]

/-! ## All the items of a field -/

theorem commonSettings_none {i : MetaItem τ} (h : isNamed commonNames i = false) : commonSettings i = [] := by
  have hd : ∀ names : List String, (∀ k ∈ names, k ∈ commonNames) → isNamed names i = false := by
    intro names hs
    unfold isNamed at h ⊢
    cases hid : i.ident with
    | none => rfl
    | some n =>
      rw [hid] at h
      simp only [Option.any_some] at h ⊢
      cases hc : names.contains n with
      | false => rfl
      | true => rw [List.contains_iff_mem.2 (hs n (by simpa using hc))] at h; cases h
  have he : extensionsOf i = [] := by
    unfold extensionsOf
    rw [if_neg]
    rw [setsOne, hd ["extend"] (by decide), Bool.and_false]; simp
  unfold commonSettings
  rw [hd ["title"] (by decide), hd ["description"] (by decide), he]
  rfl

theorem commonSettings_filter (l : List (MetaItem τ)) :
    (l.filter (isNamed commonNames)).flatMap commonSettings = l.flatMap commonSettings := by
  induction l with
  | nil => rfl
  | cons i l ih =>
    cases h : isNamed commonNames i with
    | true => rw [List.filter_cons_of_pos h, List.flatMap_cons, List.flatMap_cons, ih]
    | false =>
      rw [List.filter_cons_of_neg (by simp [h]), List.flatMap_cons, commonSettings_none h, ih, List.nil_append]

/-- What `with` and `schema_with` set. -/
def schemaSettings (i : MetaItem τ) : List Setting := if isNamed ["with", "schema_with"] i then [.schema] else []

theorem fieldSettings_eq (i : MetaItem τ) :
    fieldSettings i = commonSettings i ++ (validationSettings i ++ schemaSettings i) := by
  unfold fieldSettings
  cases h1 : isNamed commonNames i with
  | true =>
    have h2 := isNamed_disjoint (other := validationNames .schemars) (by decide) h1
    have h3 := isNamed_disjoint (other := ["with", "schema_with"]) (by decide) h1
    rw [settings_none h2, schemaSettings, h3]
    simp
  | false =>
    rw [commonSettings_none h1]
    cases h2 : isNamed (validationNames .schemars) i with
    | true =>
      have h3 := isNamed_disjoint (other := ["with", "schema_with"]) (by decide) h2
      rw [schemaSettings, h3]
      simp
    | false =>
      rw [settings_none h2]
      rfl

theorem mem_commonSettings {i : MetaItem τ} {k : Setting} (h : k ∈ commonSettings i) :
    k = .title ∨ k = .description ∨ ∃ x, k = .extension x := by
  unfold commonSettings at h
  split at h
  · exact .inl (by simpa using h)
  · split at h
    · exact .inr (.inl (by simpa using h))
    · obtain ⟨e, _, rfl⟩ := List.mem_map.1 h
      exact .inr (.inr ⟨_, rfl⟩)

theorem mem_validationSettings {i : MetaItem τ} {k : Setting} (h : k ∈ validationSettings i) :
    k = .format ∨ k = .length ∨ k = .range ∨ k = .required ∨ k = .text ∨ ∃ x, k = .inner x := by
  obtain ⟨id, neg, body⟩ := i
  cases id with
  | none => rw [validationSettings] at h; cases h
  | some n =>
    rw [validationSettings] at h
    split at h
    · exact .inl (by simpa using h)
    split at h
    · exact .inr (.inl (by simpa using h))
    split at h
    · exact .inr (.inr (.inl (by simpa using h)))
    split at h
    · exact .inr (.inr (.inr (.inl (by simpa using h))))
    split at h
    · exact .inr (.inr (.inr (.inr (.inl (by simpa using h)))))
    split at h
    · obtain ⟨e, _, rfl⟩ := List.mem_map.1 h
      exact .inr (.inr (.inr (.inr (.inr ⟨_, rfl⟩))))
    · cases h

theorem fieldSettings_nodup (l : List (MetaItem τ)) :
    (l.flatMap fieldSettings).Nodup ↔
      (l.flatMap commonSettings).Nodup ∧ (l.flatMap validationSettings).Nodup ∧ (l.flatMap schemaSettings).Nodup := by
  have h1 : l.flatMap fieldSettings =
      l.flatMap fun i => commonSettings i ++ (validationSettings i ++ schemaSettings i) := by
    congr 1
    funext i
    exact fieldSettings_eq i
  have h2 : (l.flatMap fieldSettings).Perm
      (l.flatMap commonSettings ++ (l.flatMap validationSettings ++ l.flatMap schemaSettings)) := by
    rw [h1]
    exact (List.flatMap_append_perm l _ _).symm.trans ((List.flatMap_append_perm l _ _).symm.append_left _)
  rw [h2.nodup_iff]
  simp only [List.nodup_append, List.mem_append, List.mem_flatMap]
  constructor
  · rintro ⟨h1, ⟨h2, h3, _⟩, _⟩
    exact ⟨h1, h2, h3⟩
  · rintro ⟨h1, h2, h3⟩
    have hs : ∀ (i : MetaItem τ) (k : Setting), k ∈ schemaSettings i → k = .schema := by
      intro i k hk
      unfold schemaSettings at hk
      split at hk
      · simpa using hk
      · cases hk
    refine ⟨h1, ⟨h2, h3, ?_⟩, ?_⟩
    · rintro a ⟨i, _, ha⟩ b ⟨j, _, hb⟩ rfl
      have := mem_validationSettings ha
      rw [hs j a hb] at this
      simp at this
    · rintro a ⟨i, _, ha⟩ b hb rfl
      have ha := mem_commonSettings ha
      rcases hb with ⟨j, _, hb⟩ | ⟨j, _, hb⟩
      · rcases mem_validationSettings hb with rfl | rfl | rfl | rfl | rfl | ⟨x, rfl⟩ <;> simp at ha
      · rw [hs j a hb] at ha
        simp at ha

theorem schemaSettings_nodup (l : List (MetaItem τ)) :
    (l.flatMap schemaSettings).Nodup ↔
      ((l.filter (isNamed ["with", "schema_with"])).flatMap fun _ => [()]).Nodup := by
  have : l.flatMap schemaSettings = ((l.filter (isNamed ["with", "schema_with"])).flatMap fun _ => [()]).map
      fun _ => Setting.schema := by
    induction l with
    | nil => rfl
    | cons i l ih =>
      rw [List.flatMap_cons, ih]
      unfold schemaSettings
      cases h : isNamed ["with", "schema_with"] i with
      | true => rw [List.filter_cons_of_pos h]; rfl
      | false => rw [List.filter_cons_of_neg (by simp [h])]; rfl
  rw [this, List.nodup_map_iff (fun _ _ _ => rfl)]

theorem filter_names {l : List (MetaItem τ)} {names other : List String} (h : ∀ n ∈ names, other.contains n = false) :
    (l.filter fun i => !isNamed other i).filter (isNamed names) = l.filter (isNamed names) := by
  rw [List.filter_filter]
  congr 1
  funext i
  cases hn : isNamed names i with
  | false => rfl
  | true => rw [isNamed_disjoint h hn]; rfl

theorem mem_filter_named {l : List (MetaItem τ)} {names : List String} {i : MetaItem τ} :
    (i ∈ l.filter fun i => !isNamed names i) ↔ i ∈ l ∧ isNamed names i = false := by
  rw [List.mem_filter]; simp

/-- Which items of a schemars attribute are accepted. -/
theorem field_strict (ps : Parsers τ) (sch : List (MetaItem τ))
    (hpos : ∀ i ∈ sch, Positive i ∨ isNamed serdeWords i = true) :
    (fieldMeta ps sch [] [] []).2 = [] ↔ (∀ i ∈ sch, FieldItemOk ps i) ∧ (sch.flatMap fieldSettings).Nodup := by
  rw [fieldMeta_eq]
  simp only [List.filter_nil, runItems, List.append_nil, List.append_eq_nil_iff]
  have hval : ∀ i ∈ sch.filter (fun i => !isNamed commonNames i),
      Strict (validationItem ps .schemars) validationSet (ValidationOk ps) validationSettings i := by
    intro i hi
    rcases hpos i (List.mem_of_mem_filter hi) with h | h
    · exact validation_strict ps h
    · have hn := isNamed_disjoint (other := validationNames .schemars) (by decide) h
      have h0 : ∀ v, validationItem ps .schemars i v = none := by
        intro v
        have := handles_validation ps .schemars i v
        rw [hn] at this
        exact Option.not_isSome_iff_eq_none.1 (by simp [this])
      exact ⟨fun s s' e h => (by rw [h0] at h; cases h), fun s s' h => (by rw [h0] at h; cases h)⟩
  rw [(strict_run (handles_common ps .schemars) sch (fun i _ => common_strict ps i) {}).1,
    (strict_run (handles_validation ps .schemars) _ hval {}).1,
    (strict_run (handles_with ps .schemars) _ (fun i _ => with_strict ps i) none).1, unknown_nil,
    commonSettings_filter, fieldSettings_nodup, schemaSettings_nodup, settings_filter]
  have hv : (sch.filter fun i => !isNamed commonNames i).flatMap validationSettings = sch.flatMap validationSettings := by
    rw [← settings_filter, filter_names (by decide), settings_filter]
  rw [hv, filter_names (l := sch.filter fun i => !isNamed commonNames i) (by decide), filter_names (by decide)]
  simp only [mem_filter_named, withNames]
  constructor
  · rintro ⟨⟨⟨⟨h1, h2, _⟩, h3, h4, _⟩, h5, h6, _⟩, h7⟩
    refine ⟨fun i hi => ?_, h2, h4, h6⟩
    cases c1 : isNamed commonNames i with
    | true => exact .common c1 (h1 i hi c1)
    | false =>
      cases c2 : isNamed (validationNames .schemars) i with
      | true => exact .validation (h3 i ⟨hi, c1⟩ c2)
      | false =>
        cases c3 : isNamed ["with", "schema_with"] i with
        | true =>
          obtain ⟨w, ⟨h, t, ht, _⟩ | ⟨h, t, ht, _⟩⟩ := h5 i ⟨⟨hi, c1⟩, c2⟩ c3
          · exact .withType h ht
          · exact .withFunction h ht
        | false => exact .serde (h7 i ⟨⟨⟨hi, c1⟩, c2⟩, c3⟩)
  · rintro ⟨h, h2, h4, h6⟩
    have hne : ∀ (i : MetaItem τ) (a b : List String), isNamed a i = true → (∀ n ∈ a, b.contains n = false) →
        isNamed b i = false := fun i a b h1 h2 => isNamed_disjoint h2 h1
    have hvn : ∀ i : MetaItem τ, ValidationOk ps i → isNamed (validationNames .schemars) i = true := by
      have hsub : ∀ (i : MetaItem τ) (a : List String), isNamed a i = true → (∀ n ∈ a, n ∈ validationNames .schemars) →
          isNamed (validationNames .schemars) i = true := by
        intro i a h1 h2
        unfold isNamed at h1 ⊢
        cases hid : i.ident with
        | none => rw [hid] at h1; cases h1
        | some n =>
          rw [hid] at h1
          simp only [Option.any_some, List.contains_iff_mem] at h1 ⊢
          exact h2 n h1
      intro i h
      cases h with
      | bare h _ => exact hsub i _ h (by decide)
      | length h _ => exact hsub i _ h (by decide)
      | pattern h _ => exact hsub i _ h (by decide)
      | regex h _ => exact hsub i _ h (by decide)
      | contains h _ => exact hsub i _ h (by decide)
      | inner h _ _ _ => exact hsub i _ h (by decide)
    have bad : ∀ {P : Prop} {b : Bool}, b = false → b = true → P := by
      intro P b h1 h2; rw [h1] at h2; cases h2
    refine ⟨⟨⟨⟨fun i hi hc => ?_, h2, ?_⟩, fun i hi hc => ?_, h4, ?_⟩, fun i hi hc => ?_, h6, ?_⟩, fun i hi => ?_⟩
    · cases h i hi with
      | common _ h => exact h
      | validation h => exact bad (hne i _ commonNames (hvn i h) (by decide)) hc
      | withType h _ => exact bad (hne i _ commonNames h (by decide)) hc
      | withFunction h _ => exact bad (hne i _ commonNames h (by decide)) hc
      | serde h => exact bad (hne i _ commonNames h (by decide)) hc
    · intro k _
      cases k <;> simp [commonSet]
    · cases h i hi.1 with
      | common h _ => exact bad hi.2 h
      | validation h => exact h
      | withType h _ => exact bad (hne i _ (validationNames .schemars) h (by decide)) hc
      | withFunction h _ => exact bad (hne i _ (validationNames .schemars) h (by decide)) hc
      | serde h => exact bad (hne i _ (validationNames .schemars) h (by decide)) hc
    · exact fun k _ => validationSet_empty k
    · cases h i hi.1.1 with
      | common h _ => exact bad hi.1.2 h
      | validation h => exact bad hi.2 (hvn i h)
      | withType h ht => exact ⟨.type _, .inl ⟨h, _, ht, rfl⟩⟩
      | withFunction h ht => exact ⟨.function _, .inr ⟨h, _, ht, rfl⟩⟩
      | serde h => exact bad (hne i _ ["with", "schema_with"] h (by decide)) hc
    · simp
    · have hsub : ∀ (n : String), isNamed [n] i = true → n ∈ ["with", "schema_with"] →
          isNamed ["with", "schema_with"] i = true := by
        intro n h1 h2
        rw [isNamed_single, decide_eq_true_iff] at h1
        rw [isNamed_of h1]
        simpa using h2
      cases h i hi.1.1.1 with
      | common h _ => exact bad hi.1.1.2 h
      | validation h => exact bad hi.1.2 (hvn i h)
      | withType h ht => exact bad hi.2 (hsub _ h (by simp))
      | withFunction h ht => exact bad hi.2 (hsub _ h (by simp))
      | serde h => exact h

/-! ## Variants -/

theorem variantMeta_eq (ps : Parsers τ) (sch ser : List (MetaItem τ)) :
    let c1 := runItems (handled (commonMeta ps .schemars)) sch {}
    let c2 := runItems (handled (commonMeta ps .serde)) ser c1.1
    let rest := sch.filter fun i => !isNamed commonNames i
    let w1 := runItems (handled (withMeta ps .schemars)) rest none
    let w2 := runItems (handled (withMeta ps .serde)) (ser.filter fun i => !isNamed commonNames i) w1.1
    variantMeta ps sch ser = (⟨c2.1, w2.1⟩, c1.2.1 ++ c2.2.1 ++ w1.2.1 ++ w2.2.1 ++
      unknownErrors .schemars (rest.filter fun i => !isNamed (withNames .schemars) i)) := by
  simp only [variantMeta, parseMeta_eq, runItems_rest (handles_common ps _), runItems_rest (handles_with ps _)]

theorem variant_reads (ps : Parsers τ) (sch ser : List (MetaItem τ)) (h : (variantMeta ps sch ser).2 = []) :
    VariantReads ps sch ser (variantMeta ps sch ser).1 := by
  rw [variantMeta_eq] at h ⊢
  simp only [List.append_eq_nil_iff] at h
  obtain ⟨⟨⟨⟨h1, h2⟩, h6⟩, h7⟩, h8⟩ := h
  refine ⟨common_reads ps sch ser _ _ rfl rfl h1 h2, ?_⟩
  obtain ⟨_, a1⟩ := sets_first _ (fun i _ => sets_with ps .schemars i) _ h6
  obtain ⟨b2, a2⟩ := sets_first _ (fun i _ => sets_with ps .serde i) _ h7
  have hd : ∀ (names other : List String), (∀ k ∈ names, other.contains k = false) → ∀ i : MetaItem τ,
      setsOne names i = true → (!isNamed other i) = true := by
    intro names other hs i hi
    rw [isNamed_disjoint hs (setsOne_named hi)]; rfl
  refine firstAmong_filter (p := fun i => !isNamed commonNames i) (hd _ _ (by decide)) ?_
  refine firstAmong_cons (a1 rfl) b2 fun hn => ?_
  refine firstAmong_filter (p := fun i => !isNamed commonNames i) (hd _ _ (by decide)) ?_
  exact firstAmong_cons (a2 hn) (fun x hx => hx) fun hn => hn

/-! ## Containers -/

/-- The names of the items of containers. -/
def containerNames : AttrType → List String
  | .schemars => ["crate", "rename", "inline", "with", "schema_with", "_unstable_ref_variants"]
  | _ => ["crate", "inline"]

theorem gives_name (cx : AttrType) (i : MetaItem τ) : Gives (requireString cx i) (fun s => HasValue i (.str s)) := by
  unfold requireString
  split
  · rename_i h1 h2; exact .inl ⟨_, rfl, h1, h2⟩
  · rename_i h
    exact .inr ⟨fun b hb => h b hb.1 hb.2, rfl, by simp⟩

theorem container_cases (ps : Parsers τ) (isEnum : Bool) (cx : AttrType) (i : MetaItem τ) (a a' : ContainerSlots τ)
    (e : List MetaError) (h : handled (containerSlotMeta ps isEnum cx) i a = some (a', e)) :
    (i.ident = some "crate" ∧ SlotStep cx a.crateName (fun x => { a with crateName := x })
      (parseString ps.path cx i) a a' e) ∨
    (i.ident = some "rename" ∧ cx = .schemars ∧ SlotStep cx a.renameFormat (fun x => { a with renameFormat := x })
      (requireString cx i) a a' e) ∨
    (i.ident = some "inline" ∧ SlotStep cx (if a.inline then some () else none)
      (fun x => { a with inline := x.isSome }) (bareParsed false cx i ()) a a' e) ∨
    (i.ident = some "with" ∧ cx = .schemars ∧ SlotStep cx a.withAttr (fun x => { a with withAttr := x.map .type })
      (parseString ps.type cx i) a a' e) ∨
    (i.ident = some "schema_with" ∧ cx = .schemars ∧
      SlotStep cx a.withAttr (fun x => { a with withAttr := x.map .function }) (parseString ps.path cx i) a a' e) ∨
    (i.ident = some "_unstable_ref_variants" ∧ cx = .schemars ∧ (isEnum = false ∧ a' = a ∧ e ≠ [] ∨
      isEnum = true ∧ SlotStep cx (if a.refVariants then some () else none)
        (fun x => { a with refVariants := x.isSome }) (bareParsed false cx i ()) a a' e)) := by
  cases hid : i.ident with
  | none => simp [handled, hid] at h
  | some n =>
    simp only [handled, hid, Option.bind_some, containerSlotMeta] at h
    by_cases h1 : n = "crate"
    · refine .inl ⟨by rw [h1], ?_⟩
      rw [if_pos h1] at h
      cases ht : a.crateName with
      | some x =>
        simp [ht] at h
        exact .inl ⟨rfl, h.1.symm, by rw [← h.2]; exact reportIf_nil _ _⟩
      | none =>
        simp [ht] at h
        exact .inr ⟨rfl, h.1.symm, h.2.symm⟩
    rw [if_neg h1] at h
    by_cases h2 : n = "rename" ∧ cx = .schemars
    · refine .inr (.inl ⟨by rw [h2.1], h2.2, ?_⟩)
      rw [if_pos h2] at h
      cases ht : a.renameFormat with
      | some x =>
        simp [ht] at h
        exact .inl ⟨rfl, h.1.symm, by rw [← h.2]; exact reportIf_nil _ _⟩
      | none =>
        simp [ht] at h
        exact .inr ⟨rfl, h.1.symm, h.2.symm⟩
    rw [if_neg h2] at h
    by_cases h3 : n = "inline"
    · refine .inr (.inr (.inl ⟨by rw [h3], ?_⟩))
      rw [if_pos h3] at h
      cases ht : a.inline with
      | true =>
        simp [ht] at h
        exact .inl ⟨rfl, h.1.symm, by rw [← h.2]; exact reportIf_nil _ _⟩
      | false =>
        simp only [ht, Bool.false_eq_true, if_false, Option.some.injEq, Prod.mk.injEq] at h
        refine .inr ⟨rfl, h.1.symm.trans ?_, h.2.symm⟩
        simp only [bareParsed, Bool.false_eq_true, if_false]
        split
        · rfl
        · obtain ⟨⟩ := a; simp at ht; subst ht; rfl
    rw [if_neg h3] at h
    by_cases h4 : n = "with" ∧ cx = .schemars
    · refine .inr (.inr (.inr (.inl ⟨by rw [h4.1], h4.2, ?_⟩)))
      rw [if_pos h4] at h
      simp only [Option.some.injEq, Prod.mk.injEq] at h
      rcases setWithType_step ps cx i a.withAttr with ⟨g1, g2, g3⟩ | ⟨g1, g2, g3⟩
      · exact .inl ⟨g1, by rw [← h.1, g2], by rw [← h.2]; exact g3⟩
      · exact .inr ⟨g1, by rw [← h.1, g2], by rw [← h.2]; exact g3⟩
    rw [if_neg h4] at h
    by_cases h5 : n = "schema_with" ∧ cx = .schemars
    · refine .inr (.inr (.inr (.inr (.inl ⟨by rw [h5.1], h5.2, ?_⟩))))
      rw [if_pos h5] at h
      simp only [Option.some.injEq, Prod.mk.injEq] at h
      rcases setWithFunction_step ps cx i a.withAttr with ⟨g1, g2, g3⟩ | ⟨g1, g2, g3⟩
      · exact .inl ⟨g1, by rw [← h.1, g2], by rw [← h.2]; exact g3⟩
      · exact .inr ⟨g1, by rw [← h.1, g2], by rw [← h.2]; exact g3⟩
    rw [if_neg h5] at h
    by_cases h6 : n = "_unstable_ref_variants" ∧ cx = .schemars
    · refine .inr (.inr (.inr (.inr (.inr ⟨by rw [h6.1], h6.2, ?_⟩))))
      rw [if_pos h6] at h
      cases isEnum with
      | false =>
        simp at h
        exact .inl ⟨rfl, h.1.symm, by rw [← h.2]; simp⟩
      | true =>
        refine .inr ⟨rfl, ?_⟩
        simp only [Bool.not_true, Bool.false_eq_true, if_false] at h
        cases ht : a.refVariants with
        | true =>
          simp [ht] at h
          exact .inl ⟨rfl, h.1.symm, by rw [← h.2]; exact reportIf_nil _ _⟩
        | false =>
          simp only [ht, Bool.false_eq_true, if_false, Option.some.injEq, Prod.mk.injEq] at h
          refine .inr ⟨rfl, h.1.symm.trans ?_, h.2.symm⟩
          simp only [bareParsed, Bool.false_eq_true, if_false]
          split
          · rfl
          · obtain ⟨⟩ := a; simp at ht; subst ht; rfl
    rw [if_neg h6] at h
    cases h

theorem handles_container (ps : Parsers τ) (isEnum : Bool) (cx : AttrType) :
    Handles (handled (containerSlotMeta ps isEnum cx)) (isNamed (containerNames cx)) := by
  intro i s
  obtain ⟨id, neg, body⟩ := i
  cases id with
  | none => rfl
  | some n =>
    simp only [handled, Option.bind_some, isNamed, Option.any_some, containerSlotMeta]
    by_cases h1 : n = "crate"
    · subst h1; cases cx <;> simp [containerNames]
    by_cases h2 : n = "rename"
    · subst h2; cases cx <;> simp [containerNames]
    by_cases h3 : n = "inline"
    · subst h3; cases cx <;> simp [containerNames]
    by_cases h4 : n = "with"
    · subst h4; cases cx <;> simp [containerNames]
    by_cases h5 : n = "schema_with"
    · subst h5; cases cx <;> simp [containerNames]
    by_cases h6 : n = "_unstable_ref_variants"
    · subst h6; cases cx <;> simp [containerNames]
    cases cx <;> simp [h1, h2, h3, h4, h5, h6, containerNames]

theorem container_some (ps : Parsers τ) (isEnum : Bool) (cx : AttrType) (i : MetaItem τ) (a : ContainerSlots τ)
    (h : isNamed (containerNames cx) i = true) :
    ∃ a' e, handled (containerSlotMeta ps isEnum cx) i a = some (a', e) := by
  have hs := handles_container ps isEnum cx i a
  rw [h] at hs
  obtain ⟨⟨a', e⟩, h⟩ := Option.isSome_iff_exists.1 hs
  exact ⟨a', e, h⟩

/-- The names of the items that set a part of the container, when only schemars has them. -/
def onlySchemars (names : List String) : AttrType → List String
  | .schemars => names
  | _ => []

theorem container_other (ps : Parsers τ) (isEnum : Bool) (cx : AttrType) (i : MetaItem τ) (a a' : ContainerSlots τ)
    (e : List MetaError) (h : handled (containerSlotMeta ps isEnum cx) i a = some (a', e)) :
    (isNamed ["crate"] i = false → a'.crateName = a.crateName) ∧
    (isNamed (onlySchemars ["rename"] cx) i = false → a'.renameFormat = a.renameFormat) ∧
    (isNamed ["inline"] i = false → a'.inline = a.inline) ∧
    (isNamed (onlySchemars ["with", "schema_with"] cx) i = false → a'.withAttr = a.withAttr) ∧
    (isNamed (onlySchemars ["_unstable_ref_variants"] cx) i = false → a'.refVariants = a.refVariants) := by
  rcases container_cases ps isEnum cx i a a' e h with ⟨hn, h⟩ | ⟨hn, rfl, h⟩ | ⟨hn, h⟩ | ⟨hn, rfl, h⟩ | ⟨hn, rfl, h⟩ |
    ⟨hn, rfl, ⟨_, rfl, _⟩ | ⟨_, h⟩⟩
  · refine ⟨fun h0 => ?_, fun _ => h.keep (part := (·.renameFormat)) (fun _ => rfl),
      fun _ => h.keep (part := (·.inline)) (fun _ => rfl), fun _ => h.keep (part := (·.withAttr)) (fun _ => rfl),
      fun _ => h.keep (part := (·.refVariants)) fun _ => rfl⟩
    rw [isNamed_of hn] at h0; cases h0
  · refine ⟨fun _ => h.keep (part := (·.crateName)) (fun _ => rfl), fun h0 => ?_,
      fun _ => h.keep (part := (·.inline)) (fun _ => rfl), fun _ => h.keep (part := (·.withAttr)) (fun _ => rfl),
      fun _ => h.keep (part := (·.refVariants)) fun _ => rfl⟩
    rw [isNamed_of hn] at h0; cases h0
  · refine ⟨fun _ => h.keep (part := (·.crateName)) (fun _ => rfl),
      fun _ => h.keep (part := (·.renameFormat)) (fun _ => rfl),
      fun h0 => ?_, fun _ => h.keep (part := (·.withAttr)) (fun _ => rfl),
      fun _ => h.keep (part := (·.refVariants)) fun _ => rfl⟩
    rw [isNamed_of hn] at h0; cases h0
  · refine ⟨fun _ => h.keep (part := (·.crateName)) (fun _ => rfl),
      fun _ => h.keep (part := (·.renameFormat)) (fun _ => rfl),
      fun _ => h.keep (part := (·.inline)) (fun _ => rfl), fun h0 => ?_,
      fun _ => h.keep (part := (·.refVariants)) fun _ => rfl⟩
    rw [isNamed_of hn] at h0; cases h0
  · refine ⟨fun _ => h.keep (part := (·.crateName)) (fun _ => rfl),
      fun _ => h.keep (part := (·.renameFormat)) (fun _ => rfl),
      fun _ => h.keep (part := (·.inline)) (fun _ => rfl), fun h0 => ?_,
      fun _ => h.keep (part := (·.refVariants)) fun _ => rfl⟩
    rw [isNamed_of hn] at h0; cases h0
  · exact ⟨fun _ => rfl, fun _ => rfl, fun _ => rfl, fun _ => rfl, fun _ => rfl⟩
  · refine ⟨fun _ => h.keep (part := (·.crateName)) (fun _ => rfl),
      fun _ => h.keep (part := (·.renameFormat)) (fun _ => rfl),
      fun _ => h.keep (part := (·.inline)) (fun _ => rfl), fun _ => h.keep (part := (·.withAttr)) (fun _ => rfl),
      fun h0 => ?_⟩
    rw [isNamed_of hn] at h0; cases h0

theorem sets_crate (ps : Parsers τ) (isEnum : Bool) (cx : AttrType) (i : MetaItem τ) :
    Sets (handled (containerSlotMeta ps isEnum cx)) (·.crateName) ["crate"] (HasText ps.path) i := by
  apply sets_of
  · intro a a' e h hn
    exact (container_other ps isEnum cx i a a' e h).1 hn
  · intro hn a
    rw [isNamed_single, decide_eq_true_iff] at hn
    obtain ⟨a', e, h⟩ := container_some ps isEnum cx i a (by rw [isNamed_of hn]; cases cx <;> rfl)
    refine ⟨a', e, h, ?_⟩
    rcases container_cases ps isEnum cx i a a' e h with ⟨h1, h⟩ | ⟨h1, _⟩ | ⟨h1, _⟩ | ⟨h1, _⟩ | ⟨h1, _⟩ | ⟨h1, _⟩
    · refine h.mine (part := fun a : ContainerSlots τ => a.crateName)
        (fun _ _ he => (gives_string ps.path cx i).ok he) (fun _ hneg => ?_)
      obtain ⟨_, h2, _⟩ := (gives_string ps.path cx i).none_of
        fun b hb => by rw [hasText_pos hb] at hneg; cases hneg
      simp [h2]
    all_goals rw [hn] at h1; simp at h1

theorem sets_inline (ps : Parsers τ) (isEnum : Bool) (cx : AttrType) (i : MetaItem τ) :
    Sets (handled (containerSlotMeta ps isEnum cx)) (fun a => if a.inline then some () else none) ["inline"]
      (fun i _ => Bare i) i := by
  apply sets_of
  · intro a a' e h hn
    simp only [(container_other ps isEnum cx i a a' e h).2.2.1 hn]
  · intro hn a
    rw [isNamed_single, decide_eq_true_iff] at hn
    obtain ⟨a', e, h⟩ := container_some ps isEnum cx i a (by rw [isNamed_of hn]; cases cx <;> rfl)
    refine ⟨a', e, h, ?_⟩
    rcases container_cases ps isEnum cx i a a' e h with ⟨h1, _⟩ | ⟨h1, _⟩ | ⟨h1, h⟩ | ⟨h1, _⟩ | ⟨h1, _⟩ | ⟨h1, _⟩
    · rw [hn] at h1; simp at h1
    · rw [hn] at h1; simp at h1
    · refine h.mine (part := fun a : ContainerSlots τ => if a.inline then some () else none) (i := i)
        (R := fun i _ => Bare i) (fun _ hp he => ?_) (fun _ hneg => ?_)
      · obtain ⟨h1, h2⟩ := bareParsed_ok hp he
        exact ⟨(), by simp [h1], by simpa using h2⟩
      · simp [bareParsed_neg hneg]
    all_goals rw [hn] at h1; simp at h1

theorem only_schemars {names : List String} {cx : AttrType} {i : MetaItem τ}
    (h : isNamed (onlySchemars names cx) i = true) :
    cx = .schemars ∧ ∃ n, n ∈ names ∧ i.ident = some n := by
  cases cx with
  | schemars =>
    refine ⟨rfl, ?_⟩
    unfold isNamed at h
    cases hid : i.ident with
    | none => rw [hid] at h; cases h
    | some n => rw [hid] at h; exact ⟨n, by simpa [onlySchemars] using h, rfl⟩
  | _ => unfold isNamed onlySchemars at h; cases hid : i.ident <;> rw [hid] at h <;> cases h

theorem sets_rename (ps : Parsers τ) (isEnum : Bool) (cx : AttrType) (i : MetaItem τ) :
    Sets (handled (containerSlotMeta ps isEnum cx)) (·.renameFormat) (onlySchemars ["rename"] cx)
      (fun i s => HasValue i (.str s)) i := by
  apply sets_of
  · intro a a' e h hn
    exact (container_other ps isEnum cx i a a' e h).2.1 hn
  · intro hn a
    obtain ⟨rfl, n, hm, hn⟩ := only_schemars hn
    simp only [List.mem_singleton] at hm
    subst hm
    obtain ⟨a', e, h⟩ := container_some ps isEnum .schemars i a (by rw [isNamed_of hn]; rfl)
    refine ⟨a', e, h, ?_⟩
    rcases container_cases ps isEnum _ i a a' e h with ⟨h1, _⟩ | ⟨h1, _, h⟩ | ⟨h1, _⟩ | ⟨h1, _⟩ | ⟨h1, _⟩ | ⟨h1, _⟩
    · rw [hn] at h1; simp at h1
    · refine h.mine (part := fun a : ContainerSlots τ => a.renameFormat) (i := i)
        (R := fun i s => HasValue i (.str s)) (fun _ _ he => (gives_name _ i).ok he) (fun _ hneg => ?_)
      obtain ⟨_, h2, _⟩ := (gives_name .schemars i).none_of fun b hb => by rw [hb.1] at hneg; cases hneg
      simp [h2]
    all_goals rw [hn] at h1; simp at h1

theorem sets_refVariants (ps : Parsers τ) (isEnum : Bool) (cx : AttrType) (i : MetaItem τ) :
    Sets (handled (containerSlotMeta ps isEnum cx)) (fun a => if a.refVariants then some () else none)
      (onlySchemars ["_unstable_ref_variants"] cx) (fun i _ => Bare i ∧ isEnum = true) i := by
  have hname : isNamed (onlySchemars ["_unstable_ref_variants"] cx) i = true →
      cx = .schemars ∧ i.ident = some "_unstable_ref_variants" := by
    intro hn
    obtain ⟨hc, n, hm, hn⟩ := only_schemars hn
    simp only [List.mem_singleton] at hm
    exact ⟨hc, by rw [hn, hm]⟩
  have hmine : ∀ a a' e, handled (containerSlotMeta ps isEnum cx) i a = some (a', e) →
      i.ident = some "_unstable_ref_variants" → (isEnum = false ∧ a' = a ∧ e ≠ [] ∨
      isEnum = true ∧ SlotStep cx (if a.refVariants then some () else none)
        (fun x => { a with refVariants := x.isSome }) (bareParsed false cx i ()) a a' e) := by
    intro a a' e h hn
    rcases container_cases ps isEnum _ i a a' e h with ⟨h1, _⟩ | ⟨h1, _, _⟩ | ⟨h1, _⟩ | ⟨h1, _⟩ | ⟨h1, _⟩ | ⟨h1, _, h⟩
    · rw [hn] at h1; simp at h1
    · rw [hn] at h1; simp at h1
    · rw [hn] at h1; simp at h1
    · rw [hn] at h1; simp at h1
    · rw [hn] at h1; simp at h1
    · exact h
  cases isEnum with
  | true =>
    apply sets_of
    · intro a a' e h hn
      simp only [(container_other ps true cx i a a' e h).2.2.2.2 hn]
    · intro hn a
      obtain ⟨rfl, hid⟩ := hname hn
      obtain ⟨a', e, h⟩ := container_some ps true .schemars i a (by rw [isNamed_of hid]; rfl)
      refine ⟨a', e, h, ?_⟩
      rcases hmine a a' e h hid with ⟨h0, _⟩ | ⟨_, h⟩
      · cases h0
      · refine h.mine (part := fun a : ContainerSlots τ => if a.refVariants then some () else none) (i := i)
          (R := fun i _ => Bare i ∧ true = true) (fun _ hp he => ?_) (fun _ hneg => ?_)
        · obtain ⟨h1, h2⟩ := bareParsed_ok hp he
          exact ⟨(), by simp [h1], by simpa using h2⟩
        · simp [bareParsed_neg hneg]
  | false =>
    refine ⟨fun a hs => ?_, fun a a' e h hs => ?_, fun a a' e h hs _ => ?_, fun a a' h hs _ => ?_⟩
    · obtain ⟨rfl, hn⟩ := hname (setsOne_named hs)
      obtain ⟨a', e, h⟩ := container_some ps false .schemars i a (by rw [isNamed_of hn]; rfl)
      rw [h]; rfl
    · cases hn : isNamed (onlySchemars ["_unstable_ref_variants"] cx) i with
      | false => simp only [(container_other ps false cx i a a' e h).2.2.2.2 hn]
      | true =>
        rcases hmine a a' e h (hname hn).2 with ⟨_, rfl, _⟩ | ⟨h0, _⟩
        · rfl
        · cases h0
    · rcases hmine a a' e h (hname (setsOne_named hs)).2 with ⟨_, rfl, _⟩ | ⟨h0, _⟩
      · rfl
      · cases h0
    · rcases hmine a a' [] h (hname (setsOne_named hs)).2 with ⟨_, _, h0⟩ | ⟨h0, _⟩
      · exact absurd rfl h0
      · cases h0

theorem sets_containerWith (ps : Parsers τ) (isEnum : Bool) (cx : AttrType) (i : MetaItem τ) :
    Sets (handled (containerSlotMeta ps isEnum cx)) (·.withAttr) (onlySchemars ["with", "schema_with"] cx)
      (WithSays ps) i := by
  apply sets_of
  · intro a a' e h hn
    exact (container_other ps isEnum cx i a a' e h).2.2.2.1 hn
  · intro hn a
    obtain ⟨rfl, n, hm, hn⟩ := only_schemars hn
    obtain ⟨a', e, h⟩ := container_some ps isEnum .schemars i a (by
      rw [isNamed_of hn]
      simp only [List.mem_cons, List.not_mem_nil, or_false] at hm
      rcases hm with rfl | rfl <;> rfl)
    refine ⟨a', e, h, ?_⟩
    have bad : ∀ {P : Prop} m, i.ident = some m → m ∉ ["with", "schema_with"] → P := by
      intro P m h1 h2
      rw [hn] at h1
      rw [Option.some.inj h1] at hm
      exact absurd hm h2
    rcases container_cases ps isEnum _ i a a' e h with ⟨h1, _⟩ | ⟨h1, _⟩ | ⟨h1, _⟩ | ⟨h1, _, h⟩ | ⟨h1, _, h⟩ | ⟨h1, _⟩
    · exact bad _ h1 (by decide)
    · exact bad _ h1 (by decide)
    · exact bad _ h1 (by decide)
    · refine h.mine (part := fun a : ContainerSlots τ => a.withAttr) (fun _ _ he => ?_) (fun _ hneg => ?_)
      · obtain ⟨t, h2, h3⟩ := (gives_string ps.type .schemars i).ok he
        exact ⟨.type t, by simp [h2], .inl ⟨by rw [isNamed_of h1]; rfl, t, h3, rfl⟩⟩
      · obtain ⟨_, h2, _⟩ := (gives_string ps.type .schemars i).none_of
          fun b hb => by rw [hasText_pos hb] at hneg; cases hneg
        simp [h2]
    · refine h.mine (part := fun a : ContainerSlots τ => a.withAttr) (fun _ _ he => ?_) (fun _ hneg => ?_)
      · obtain ⟨t, h2, h3⟩ := (gives_string ps.path .schemars i).ok he
        exact ⟨.function t, by simp [h2], .inr ⟨by rw [isNamed_of h1]; rfl, t, h3, rfl⟩⟩
      · obtain ⟨_, h2, _⟩ := (gives_string ps.path .schemars i).none_of
          fun b hb => by rw [hasText_pos hb] at hneg; cases hneg
        simp [h2]
    · exact bad _ h1 (by decide)

theorem containerMeta_eq (ps : Parsers τ) (isEnum : Bool) (sch ser : List (MetaItem τ)) :
    let c1 := runItems (handled (commonMeta ps .schemars)) sch {}
    let c2 := runItems (handled (commonMeta ps .serde)) ser c1.1
    let rest := sch.filter fun i => !isNamed commonNames i
    let a1 := runItems (handled (containerSlotMeta ps isEnum .schemars)) rest {}
    let a2 := runItems (handled (containerSlotMeta ps isEnum .serde)) (ser.filter fun i => !isNamed commonNames i) a1.1
    containerMeta ps isEnum sch ser = (⟨c2.1, a2.1⟩, c1.2.1 ++ c2.2.1 ++ a1.2.1 ++ a2.2.1 ++
      unknownErrors .schemars (rest.filter fun i => !isNamed (containerNames .schemars) i)) := by
  simp only [containerMeta, parseMeta_eq, runItems_rest (handles_common ps _),
    runItems_rest (handles_container ps isEnum _)]

theorem find_none_names (l : List (MetaItem τ)) : l.find? (setsOne []) = none := by
  rw [List.find?_eq_none]
  intro i _
  unfold setsOne
  rw [isNamed_nil, Bool.and_false]
  simp

theorem container_reads (ps : Parsers τ) (isEnum : Bool) (sch ser : List (MetaItem τ))
    (h : (containerMeta ps isEnum sch ser).2 = []) :
    ContainerReads ps isEnum sch ser (containerMeta ps isEnum sch ser).1 := by
  rw [containerMeta_eq] at h ⊢
  simp only [List.append_eq_nil_iff] at h
  obtain ⟨⟨⟨⟨h1, h2⟩, h6⟩, h7⟩, h8⟩ := h
  have hd : ∀ (names other : List String), (∀ k ∈ names, other.contains k = false) → ∀ i : MetaItem τ,
      setsOne names i = true → (!isNamed other i) = true := by
    intro names other hs i hi
    rw [isNamed_disjoint hs (setsOne_named hi)]; rfl
  have both : ∀ {β : Type} {part : ContainerSlots τ → Option β} {names : AttrType → List String}
      {R : MetaItem τ → β → Prop},
      (∀ cx i, Sets (handled (containerSlotMeta ps isEnum cx)) part (names cx) R i) → part {} = none →
      (∀ cx, ∀ k ∈ names cx, commonNames.contains k = false) →
      FirstAmong [(sch, names .schemars, R), (ser, names .serde, R)]
        (part (runItems (handled (containerSlotMeta ps isEnum .serde)) (ser.filter fun i => !isNamed commonNames i)
          (runItems (handled (containerSlotMeta ps isEnum .schemars)) (sch.filter fun i => !isNamed commonNames i) {}).1).1) := by
    intro β part names R hs h0 hn
    obtain ⟨_, a1⟩ := sets_first _ (fun i _ => hs .schemars i) _ h6
    obtain ⟨b2, a2⟩ := sets_first _ (fun i _ => hs .serde i) _ h7
    refine firstAmong_filter (p := fun i => !isNamed commonNames i) (hd _ _ (hn _)) ?_
    refine firstAmong_cons (a1 h0) b2 fun hn0 => ?_
    refine firstAmong_filter (p := fun i => !isNamed commonNames i) (hd _ _ (hn _)) ?_
    exact firstAmong_cons (a2 hn0) (fun x hx => hx) fun hn => hn
  have one : ∀ {β : Type} {part : ContainerSlots τ → Option β} {names : List String} {R : MetaItem τ → β → Prop},
      (∀ cx i, Sets (handled (containerSlotMeta ps isEnum cx)) part (onlySchemars names cx) R i) → part {} = none →
      (∀ k ∈ names, commonNames.contains k = false) →
      FirstAmong [(sch, names, R)]
        (part (runItems (handled (containerSlotMeta ps isEnum .serde)) (ser.filter fun i => !isNamed commonNames i)
          (runItems (handled (containerSlotMeta ps isEnum .schemars)) (sch.filter fun i => !isNamed commonNames i) {}).1).1) := by
    intro β part names R hs h0 hn
    have := both hs h0 (by
      intro cx k hk
      cases cx with
      | schemars => exact hn k hk
      | _ => cases hk)
    unfold FirstAmong at this ⊢
    simp only [onlySchemars] at this
    cases hf : sch.find? (setsOne names) with
    | some i => rw [hf] at this; exact this
    | none =>
      rw [hf] at this
      unfold FirstAmong at this
      rw [find_none_names] at this
      exact this
  exact ⟨common_reads ps sch ser _ _ rfl rfl h1 h2,
    both (names := fun _ => ["crate"]) (fun cx i => sets_crate ps isEnum cx i) rfl (fun _ => by decide),
    one (fun cx i => sets_rename ps isEnum cx i) rfl (by decide),
    both (names := fun _ => ["inline"]) (fun cx i => sets_inline ps isEnum cx i) rfl (fun _ => by decide),
    one (fun cx i => sets_containerWith ps isEnum cx i) rfl (by decide),
    one (fun cx i => sets_refVariants ps isEnum cx i) rfl (by decide)⟩

/-! ## Which items of variants and containers are accepted -/

theorem isNamed_sub {i : MetaItem τ} {names more : List String} (h : isNamed names i = true)
    (hs : ∀ n ∈ names, n ∈ more) : isNamed more i = true := by
  unfold isNamed at h ⊢
  cases hid : i.ident with
  | none => rw [hid] at h; cases h
  | some n =>
    rw [hid] at h
    simp only [Option.any_some, List.contains_iff_mem] at h ⊢
    exact hs n h

theorem bool_absurd {P : Prop} {b : Bool} (h1 : b = false) (h2 : b = true) : P := by
  rw [h1] at h2; cases h2

theorem schemaSettings_mem {i : MetaItem τ} {k : Setting} (hk : k ∈ schemaSettings i) : k = .schema := by
  unfold schemaSettings at hk
  split at hk
  · simpa using hk
  · cases hk

theorem variantSettings_nodup (l : List (MetaItem τ)) :
    (l.flatMap variantSettings).Nodup ↔ (l.flatMap commonSettings).Nodup ∧ (l.flatMap schemaSettings).Nodup := by
  have h1 : l.flatMap variantSettings = l.flatMap fun i => commonSettings i ++ schemaSettings i := by
    congr 1
    funext i
    unfold variantSettings
    cases h1 : isNamed commonNames i with
    | true =>
      rw [schemaSettings, isNamed_disjoint (other := ["with", "schema_with"]) (by decide) h1]
      simp
    | false => rw [commonSettings_none h1]; rfl
  rw [h1, ← (List.flatMap_append_perm l _ _).nodup_iff]
  simp only [List.nodup_append, List.mem_flatMap]
  constructor
  · rintro ⟨h1, h2, _⟩
    exact ⟨h1, h2⟩
  · rintro ⟨h1, h2⟩
    refine ⟨h1, h2, ?_⟩
    rintro a ⟨i, _, ha⟩ b ⟨j, _, hb⟩ rfl
    have ha := mem_commonSettings ha
    rw [schemaSettings_mem hb] at ha
    simp at ha

theorem variant_strict (ps : Parsers τ) (sch : List (MetaItem τ)) :
    (variantMeta ps sch []).2 = [] ↔ (∀ i ∈ sch, VariantItemOk ps i) ∧ (sch.flatMap variantSettings).Nodup := by
  rw [variantMeta_eq]
  simp only [List.filter_nil, runItems, List.append_nil, List.append_eq_nil_iff]
  rw [(strict_run (handles_common ps .schemars) sch (fun i _ => common_strict ps i) {}).1,
    (strict_run (handles_with ps .schemars) _ (fun i _ => with_strict ps i) none).1, unknown_nil,
    commonSettings_filter, variantSettings_nodup, schemaSettings_nodup, filter_names (by decide)]
  simp only [mem_filter_named, withNames]
  constructor
  · rintro ⟨⟨⟨h1, h2, _⟩, h5, h6, _⟩, h7⟩
    refine ⟨fun i hi => ?_, h2, h6⟩
    cases c1 : isNamed commonNames i with
    | true => exact .common c1 (h1 i hi c1)
    | false =>
      cases c3 : isNamed ["with", "schema_with"] i with
      | true =>
        obtain ⟨w, ⟨h, t, ht, _⟩ | ⟨h, t, ht, _⟩⟩ := h5 i ⟨hi, c1⟩ c3
        · exact .withType h ht
        · exact .withFunction h ht
      | false => exact .serde (h7 i ⟨⟨hi, c1⟩, c3⟩)
  · rintro ⟨h, h2, h6⟩
    refine ⟨⟨⟨fun i hi hc => ?_, h2, ?_⟩, fun i hi hc => ?_, h6, ?_⟩, fun i hi => ?_⟩
    · cases h i hi with
      | common _ h => exact h
      | withType h _ => exact bool_absurd (isNamed_disjoint (other := commonNames) (by decide) h) hc
      | withFunction h _ => exact bool_absurd (isNamed_disjoint (other := commonNames) (by decide) h) hc
      | serde h => exact bool_absurd (isNamed_disjoint (other := commonNames) (by decide) h) hc
    · intro k _
      cases k <;> simp [commonSet]
    · cases h i hi.1 with
      | common h _ => exact bool_absurd hi.2 h
      | withType h ht => exact ⟨.type _, .inl ⟨h, _, ht, rfl⟩⟩
      | withFunction h ht => exact ⟨.function _, .inr ⟨h, _, ht, rfl⟩⟩
      | serde h => exact bool_absurd (isNamed_disjoint (other := ["with", "schema_with"]) (by decide) h) hc
    · simp
    · cases h i hi.1.1 with
      | common h _ => exact bool_absurd hi.1.2 h
      | withType h ht => exact bool_absurd hi.2 (isNamed_sub h (by decide))
      | withFunction h ht => exact bool_absurd hi.2 (isNamed_sub h (by decide))
      | serde h => exact h

/-- What the items of containers other than the common ones set. -/
def slotSettings (i : MetaItem τ) : List Setting :=
  if isNamed ["crate"] i then [.crateName]
  else if isNamed ["rename"] i then [.rename]
  else if isNamed ["inline"] i then [.inline]
  else if isNamed ["with", "schema_with"] i then [.schema]
  else if isNamed ["_unstable_ref_variants"] i then [.refVariants]
  else []

/-- What is set in a container. -/
def containerSet (a : ContainerSlots τ) : Setting → Prop
  | .crateName => a.crateName.isSome = true
  | .rename => a.renameFormat.isSome = true
  | .inline => (if a.inline then some () else none).isSome = true
  | .schema => a.withAttr.isSome = true
  | .refVariants => (if a.refVariants then some () else none).isSome = true
  | _ => False

/-- Well formed items of containers other than the common ones. -/
def SlotOk (ps : Parsers τ) (isEnum : Bool) (i : MetaItem τ) : Prop :=
  if isNamed ["crate"] i then ∃ t, HasText ps.path i t
  else if isNamed ["rename"] i then ∃ s, HasValue i (.str s)
  else if isNamed ["inline"] i then Bare i
  else if isNamed ["with"] i then ∃ t, HasText ps.type i t
  else if isNamed ["schema_with"] i then ∃ t, HasText ps.path i t
  else Bare i ∧ isEnum = true

theorem slot_strict (ps : Parsers τ) (isEnum : Bool) (i : MetaItem τ) (hneg : i.negated = false) :
    Strict (handled (containerSlotMeta ps isEnum .schemars)) containerSet (SlotOk ps isEnum) slotSettings i := by
  have hsingle : ∀ (k : Setting) (a : ContainerSlots τ), slotSettings i = [k] →
      ((slotSettings i).Nodup ∧ (∀ k ∈ slotSettings i, ¬ containerSet a k) ↔ ¬ containerSet a k) := by
    intro k v h; rw [h]; simp
  have hok : ∀ n P, i.ident = some n → (SlotOk ps isEnum i = P ↔ (
      if ["crate"].contains n = true then ∃ t, HasText ps.path i t
      else if ["rename"].contains n = true then ∃ s, HasValue i (.str s)
      else if ["inline"].contains n = true then Bare i
      else if ["with"].contains n = true then ∃ t, HasText ps.type i t
      else if ["schema_with"].contains n = true then ∃ t, HasText ps.path i t
      else Bare i ∧ isEnum = true) = P) := by
    intro n P hid
    unfold SlotOk
    simp only [isNamed_of hid]
  have hset : ∀ n, i.ident = some n → slotSettings i =
      if ["crate"].contains n then [.crateName]
      else if ["rename"].contains n then [.rename]
      else if ["inline"].contains n then [.inline]
      else if ["with", "schema_with"].contains n then [.schema]
      else if ["_unstable_ref_variants"].contains n then [.refVariants]
      else [] := by
    intro n hid
    unfold slotSettings
    simp only [isNamed_of hid]
  constructor
  · intro a a' e h
    rcases container_cases ps isEnum _ i a a' e h with ⟨hid, h⟩ | ⟨hid, _, h⟩ | ⟨hid, h⟩ | ⟨hid, _, h⟩ | ⟨hid, _, h⟩ |
      ⟨hid, _, h⟩
    · rw [hsingle .crateName a (hset _ hid), (hok _ _ hid).2 rfl]
      exact h.strict Iff.rfl (gives_string ps.path _ i).iff
    · rw [hsingle .rename a (hset _ hid), (hok _ _ hid).2 rfl]
      exact h.strict Iff.rfl (gives_name _ i).iff
    · rw [hsingle .inline a (hset _ hid), (hok _ _ hid).2 rfl]
      exact h.strict Iff.rfl (bareParsed_iff hneg)
    · rw [hsingle .schema a (hset _ hid), (hok _ _ hid).2 rfl]
      exact h.strict Iff.rfl (gives_string ps.type _ i).iff
    · rw [hsingle .schema a (hset _ hid), (hok _ _ hid).2 rfl]
      exact h.strict Iff.rfl (gives_string ps.path _ i).iff
    · rw [hsingle .refVariants a (hset _ hid), (hok _ _ hid).2 rfl]
      rcases h with ⟨rfl, _, h⟩ | ⟨rfl, h'⟩
      · simp [h]
      · exact h'.strict Iff.rfl ((bareParsed_iff hneg).trans (by simp))
  · intro a a' h k
    rcases container_cases ps isEnum _ i a a' [] h with ⟨hid, h⟩ | ⟨hid, _, h⟩ | ⟨hid, h⟩ | ⟨hid, _, h⟩ | ⟨hid, _, h⟩ |
      ⟨hid, _, h⟩
    · rw [hset _ hid]
      obtain ⟨_, h2, rfl⟩ := h.fills
      obtain ⟨r, hr, _⟩ := (gives_string ps.path _ i).ok h2
      cases k <;> simp [containerSet, hr]
    · rw [hset _ hid]
      obtain ⟨_, h2, rfl⟩ := h.fills
      obtain ⟨r, hr, _⟩ := (gives_name _ i).ok h2
      cases k <;> simp [containerSet, hr]
    · rw [hset _ hid]
      obtain ⟨_, h2, rfl⟩ := h.fills
      have hr := bare_some hneg h2
      cases k <;> simp [containerSet, hr]
    · rw [hset _ hid]
      obtain ⟨_, h2, rfl⟩ := h.fills
      obtain ⟨r, hr, _⟩ := (gives_string ps.type _ i).ok h2
      cases k <;> simp [containerSet, hr]
    · rw [hset _ hid]
      obtain ⟨_, h2, rfl⟩ := h.fills
      obtain ⟨r, hr, _⟩ := (gives_string ps.path _ i).ok h2
      cases k <;> simp [containerSet, hr]
    · rw [hset _ hid]
      rcases h with ⟨_, _, h⟩ | ⟨_, h⟩
      · exact absurd rfl h
      · obtain ⟨_, h2, rfl⟩ := h.fills
        have hr := bare_some hneg h2
        cases k <;> simp [containerSet, hr]

theorem slotSettings_none {i : MetaItem τ} (h : isNamed (containerNames .schemars) i = false) : slotSettings i = [] := by
  have hd : ∀ names : List String, (∀ k ∈ names, k ∈ containerNames .schemars) → isNamed names i = false := by
    intro names hs
    cases hn : isNamed names i with
    | false => rfl
    | true => exact bool_absurd h (isNamed_sub hn hs)
  unfold slotSettings
  rw [hd _ (by decide), hd _ (by decide), hd _ (by decide), hd _ (by decide), hd _ (by decide)]
  rfl

theorem slotSettings_filter (l : List (MetaItem τ)) :
    (l.filter (isNamed (containerNames .schemars))).flatMap slotSettings = l.flatMap slotSettings := by
  induction l with
  | nil => rfl
  | cons i l ih =>
    cases h : isNamed (containerNames .schemars) i with
    | true => rw [List.filter_cons_of_pos h, List.flatMap_cons, List.flatMap_cons, ih]
    | false =>
      rw [List.filter_cons_of_neg (by simp [h]), List.flatMap_cons, slotSettings_none h, ih, List.nil_append]

theorem slotSettings_mem {i : MetaItem τ} {k : Setting} (h : k ∈ slotSettings i) :
    k = .crateName ∨ k = .rename ∨ k = .inline ∨ k = .schema ∨ k = .refVariants := by
  unfold slotSettings at h
  split at h
  · simp_all
  split at h
  · simp_all
  split at h
  · simp_all
  split at h
  · simp_all
  split at h
  · simp_all
  · cases h

theorem containerSettings_nodup (l : List (MetaItem τ)) :
    (l.flatMap containerSettings).Nodup ↔ (l.flatMap commonSettings).Nodup ∧ (l.flatMap slotSettings).Nodup := by
  have h1 : l.flatMap containerSettings = l.flatMap fun i => commonSettings i ++ slotSettings i := by
    congr 1
    funext i
    unfold containerSettings
    cases h1 : isNamed commonNames i with
    | true =>
      rw [slotSettings_none (isNamed_disjoint (other := containerNames .schemars) (by decide) h1)]
      simp
    | false => rw [commonSettings_none h1]; rfl
  rw [h1, ← (List.flatMap_append_perm l _ _).nodup_iff]
  simp only [List.nodup_append, List.mem_flatMap]
  constructor
  · rintro ⟨h1, h2, _⟩
    exact ⟨h1, h2⟩
  · rintro ⟨h1, h2⟩
    refine ⟨h1, h2, ?_⟩
    rintro a ⟨i, _, ha⟩ b ⟨j, _, hb⟩ rfl
    have ha := mem_commonSettings ha
    rcases slotSettings_mem hb with rfl | rfl | rfl | rfl | rfl <;> simp at ha

theorem container_strict (ps : Parsers τ) (isEnum : Bool) (sch : List (MetaItem τ))
    (hpos : ∀ i ∈ sch, i.negated = false ∨ isNamed serdeWords i = true ∧ isNamed ["rename"] i = false) :
    (containerMeta ps isEnum sch []).2 = [] ↔
      (∀ i ∈ sch, ContainerItemOk ps isEnum i) ∧ (sch.flatMap containerSettings).Nodup := by
  rw [containerMeta_eq]
  simp only [List.filter_nil, runItems, List.append_nil, List.append_eq_nil_iff]
  have hserde : ∀ i : MetaItem τ, isNamed serdeWords i = true → isNamed ["rename"] i = false →
      isNamed (containerNames .schemars) i = false := by
    intro i h1 h2
    unfold isNamed at h1 h2 ⊢
    cases hid : i.ident with
    | none => rfl
    | some n =>
      rw [hid] at h1 h2
      simp only [Option.any_some] at h1 h2 ⊢
      simp only [List.contains_iff_mem] at h1
      revert h2
      revert h1
      revert n
      intro n _ h1 h2
      have : ∀ k ∈ serdeWords, ["rename"].contains k = false → (containerNames .schemars).contains k = false := by decide
      exact this n h1 h2
  have hval : ∀ i ∈ sch.filter (fun i => !isNamed commonNames i),
      Strict (handled (containerSlotMeta ps isEnum .schemars)) containerSet (SlotOk ps isEnum) slotSettings i := by
    intro i hi
    rcases hpos i (List.mem_of_mem_filter hi) with h | ⟨h1, h2⟩
    · exact slot_strict ps isEnum i h
    · have h0 : ∀ v, handled (containerSlotMeta ps isEnum .schemars) i v = none := by
        intro v
        have := handles_container ps isEnum .schemars i v
        rw [hserde i h1 h2] at this
        exact Option.not_isSome_iff_eq_none.1 (by simp [this])
      exact ⟨fun s s' e h => (by rw [h0] at h; cases h), fun s s' h => (by rw [h0] at h; cases h)⟩
  rw [(strict_run (handles_common ps .schemars) sch (fun i _ => common_strict ps i) {}).1,
    (strict_run (handles_container ps isEnum .schemars) _ hval {}).1, unknown_nil,
    commonSettings_filter, containerSettings_nodup, filter_names (by decide), slotSettings_filter]
  simp only [mem_filter_named]
  constructor
  · rintro ⟨⟨⟨h1, h2, _⟩, h5, h6, _⟩, h7⟩
    refine ⟨fun i hi => ?_, h2, h6⟩
    cases c1 : isNamed commonNames i with
    | true => exact .common c1 (h1 i hi c1)
    | false =>
      cases c3 : isNamed (containerNames .schemars) i with
      | true =>
        have := h5 i ⟨hi, c1⟩ c3
        unfold SlotOk at this
        split at this
        · rename_i h; exact .crateName h this.choose_spec
        split at this
        · rename_i h; exact .rename h this.choose_spec
        split at this
        · rename_i h; exact .inline h this
        split at this
        · rename_i h; exact .withType h this.choose_spec
        split at this
        · rename_i h; exact .withFunction h this.choose_spec
        · rename_i g1 g2 g3 g4 g5
          refine .refVariants ?_ this.1 this.2
          unfold isNamed at c3 g1 g2 g3 g4 g5 ⊢
          cases hid : i.ident with
          | none => rw [hid] at c3; cases c3
          | some n =>
            rw [hid] at c3 g1 g2 g3 g4 g5
            simp [containerNames] at c3 g1 g2 g3 g4 g5 ⊢
            simpa [g1, g2, g3, g4, g5] using c3
      | false =>
        refine .serde (h7 i ⟨⟨hi, c1⟩, c3⟩) ?_
        cases hr : isNamed ["rename"] i with
        | false => rfl
        | true => exact bool_absurd c3 (isNamed_sub hr (by decide))
  · rintro ⟨h, h2, h6⟩
    refine ⟨⟨⟨fun i hi hc => ?_, h2, ?_⟩, fun i hi hc => ?_, h6, ?_⟩, fun i hi => ?_⟩
    · cases h i hi with
      | common _ h => exact h
      | crateName h _ => exact bool_absurd (isNamed_disjoint (other := commonNames) (by decide) h) hc
      | rename h _ => exact bool_absurd (isNamed_disjoint (other := commonNames) (by decide) h) hc
      | inline h _ => exact bool_absurd (isNamed_disjoint (other := commonNames) (by decide) h) hc
      | withType h _ => exact bool_absurd (isNamed_disjoint (other := commonNames) (by decide) h) hc
      | withFunction h _ => exact bool_absurd (isNamed_disjoint (other := commonNames) (by decide) h) hc
      | refVariants h _ _ => exact bool_absurd (isNamed_disjoint (other := commonNames) (by decide) h) hc
      | serde h _ => exact bool_absurd (isNamed_disjoint (other := commonNames) (by decide) h) hc
    · intro k _
      cases k <;> simp [commonSet]
    · have hname : ∀ n, isNamed [n] i = true → i.ident = some n := by
        intro n hn
        simpa [isNamed_single] using hn
      unfold SlotOk
      cases h i hi.1 with
      | common h _ => exact bool_absurd hi.2 h
      | crateName h ht => simp only [isNamed_of (hname _ h)]; exact ⟨_, ht⟩
      | rename h ht => simp only [isNamed_of (hname _ h)]; exact ⟨_, ht⟩
      | inline h ht => simp only [isNamed_of (hname _ h)]; exact ht
      | withType h ht => simp only [isNamed_of (hname _ h)]; exact ⟨_, ht⟩
      | withFunction h ht => simp only [isNamed_of (hname _ h)]; exact ⟨_, ht⟩
      | refVariants h ht he => simp only [isNamed_of (hname _ h)]; exact ⟨ht, he⟩
      | serde h hr => exact bool_absurd (hserde i h hr) hc
    · intro k _
      cases k <;> simp [containerSet]
    · cases h i hi.1.1 with
      | common h _ => exact bool_absurd hi.1.2 h
      | crateName h _ => exact bool_absurd hi.2 (isNamed_sub h (by decide))
      | rename h _ => exact bool_absurd hi.2 (isNamed_sub h (by decide))
      | inline h _ => exact bool_absurd hi.2 (isNamed_sub h (by decide))
      | withType h _ => exact bool_absurd hi.2 (isNamed_sub h (by decide))
      | withFunction h _ => exact bool_absurd hi.2 (isNamed_sub h (by decide))
      | refVariants h _ _ => exact bool_absurd hi.2 (isNamed_sub h (by decide))
      | serde h _ => exact h

end

end Verif
