import Verif.Lemmas.Everywhere
import Verif.Spec.Frame

namespace Verif
open Spec

/-- The steps to the subschemas in the value of a keyword. -/
def slotSteps (k : String) : Slot → Json → List (Step × Json)
  | .one, v => if isSchema v then [(.key k, v)] else []
  | .list, .arr l => (l.zipIdx.filter fun p => isSchema p.1).map fun p => (.idx k p.2, p.1)
  | .items, .arr l => (l.zipIdx.filter fun p => isSchema p.1).map fun p => (.idx k p.2, p.1)
  | .items, v => if isSchema v then [(.key k, v)] else []
  | .map, .obj n => (n.filter fun p => isSchema p.2).map fun p => (.mem k p.1, p.2)
  | _, _ => []

/-- The steps to all direct subschemas. -/
def stepsOf (slot : String → Slot) : Json → List (Step × Json)
  | .obj m => m.flatMap fun e => slotSteps e.1 (slot e.1) e.2
  | _ => []

theorem zipIdx_fst (l : List Json) (n : Nat) :
    ((l.zipIdx n).filter fun p => isSchema p.1).map Prod.fst = l.filter isSchema := by
  induction l generalizing n with
  | nil => rfl
  | cons x l ih =>
    simp only [List.zipIdx_cons, List.filter_cons]
    split <;> simp [ih]

theorem slotSteps_snd (k : String) (s : Slot) (v : Json) : (slotSteps k s v).map Prod.snd = slotSubs s v := by
  have h1 : ∀ l : List Json, (((l.zipIdx.filter fun p => isSchema p.1).map
      fun p => ((Step.idx k p.2, p.1) : Step × Json)).map Prod.snd) = l.filter isSchema := by
    intro l; rw [List.map_map, ← zipIdx_fst l 0]; rfl
  cases s with
  | one => rw [slotSubs_one]; unfold slotSteps; cases v <;> simp [isSchema]
  | list => cases v <;> first | rfl | exact h1 _
  | items => cases v <;> first | rfl | exact h1 _
  | map =>
    cases v <;> first | rfl | skip
    simp only [slotSteps, slotSubs, List.map_map, List.filter_map]
    rfl
  | skip => cases v <;> rfl

theorem stepsOf_snd (slot : String → Slot) (s : Json) : (stepsOf slot s).map Prod.snd = subs slot s := by
  cases s with
  | obj m =>
    simp only [stepsOf, subs, List.map_flatMap, slotSteps_snd]
  | _ => rfl

/-- The keyword a step goes through. -/
def Spec.Step.keyword : Step → String
  | .key k => k
  | .idx k _ => k
  | .mem k _ => k

theorem slotSteps_keyword {k : String} {s : Slot} {v : Json} {p : Step × Json} (h : p ∈ slotSteps k s v) :
    p.1.keyword = k := by
  cases s <;> cases v <;> simp [slotSteps, isSchema] at h <;>
    first
    | (subst h; rfl)
    | (obtain ⟨_, _, _, rfl⟩ := h; rfl)

theorem slotSteps_nodup {k : String} {s : Slot} {v : Json} (h : ∀ n, v = .obj n → (Obj.keys n).Nodup) :
    ((slotSteps k s v).map Prod.fst).Nodup := by
  have h1 : ∀ l : List Json, (((l.zipIdx.filter fun p => isSchema p.1).map
      fun p => ((Step.idx k p.2, p.1) : Step × Json)).map Prod.fst).Nodup := by
    intro l
    rw [List.map_map]
    have h0 : (l.zipIdx.map Prod.snd).Nodup := by
      rw [List.zipIdx_map_snd]; exact List.nodup_range'
    have h2 : ((l.zipIdx.filter fun p => isSchema p.1).map Prod.snd).Nodup :=
      h0.sublist (List.Sublist.map _ List.filter_sublist)
    rw [List.Nodup, List.pairwise_map] at h2 ⊢
    exact h2.imp (fun hab he => hab (by simpa using he))
  have h2 : ∀ n : List (String × Json), (Obj.keys n).Nodup → (((n.filter fun p => isSchema p.2).map
      fun p => ((Step.mem k p.1, p.2) : Step × Json)).map Prod.fst).Nodup := by
    intro n hn
    rw [List.map_map]
    have h2 : ((n.filter fun p => isSchema p.2).map Prod.fst).Nodup :=
      List.Nodup.sublist (List.Sublist.map _ List.filter_sublist) hn
    rw [List.Nodup, List.pairwise_map] at h2 ⊢
    exact h2.imp (fun hab he => hab (by simpa using he))
  cases s <;> cases v <;>
    first
    | exact h1 _
    | exact h2 _ (h _ rfl)
    | simp [slotSteps, isSchema]

theorem stepsOf_nodup {slot : String → Slot} {m : List (String × Json)} (hm : (Obj.keys m).Nodup)
    (h : ∀ e ∈ m, ∀ n, e.2 = .obj n → (Obj.keys n).Nodup) : ((stepsOf slot (.obj m)).map Prod.fst).Nodup := by
  induction m with
  | nil => simp [stepsOf]
  | cons e m ih =>
    have he : e.1 ∉ Obj.keys m ∧ (Obj.keys m).Nodup := by simpa [Obj.keys] using hm
    have hs : stepsOf slot (.obj (e :: m)) = slotSteps e.1 (slot e.1) e.2 ++ stepsOf slot (.obj m) := rfl
    rw [hs, List.map_append]
    refine List.nodup_append.2 ⟨slotSteps_nodup (h e (by simp)), ih he.2 (fun e' h' => h e' (by simp [h'])), ?_⟩
    intro a ha b hb hab
    subst hab
    simp only [List.mem_map] at ha hb
    obtain ⟨p, hp, rfl⟩ := ha
    obtain ⟨q, hq, hpq⟩ := hb
    simp only [stepsOf, List.mem_flatMap] at hq
    obtain ⟨e', he', hq⟩ := hq
    have h1 := slotSteps_keyword hp
    have h2 := slotSteps_keyword hq
    rw [hpq, h1] at h2
    exact he.1 (by rw [h2]; exact List.mem_map.2 ⟨e', he', rfl⟩)

theorem visited_excl {k : String} : (k ∈ visited.one → k ≠ "items" → subSlot k = .one) ∧
    (k ∈ visited.list → k ≠ "items" → subSlot k = .list) ∧ (k ∈ visited.map → subSlot k = .map) := by
  have h1 : ∀ k ∈ visited.one, k ≠ "items" → subSlot k = .one := by decide
  have h2 : ∀ k ∈ visited.list, k ≠ "items" → subSlot k = .list := by decide
  have h3 : ∀ k ∈ visited.map, subSlot k = .map := by decide
  exact ⟨h1 k, h2 k, h3 k⟩

theorem slot_key {k : String} (h : k ∈ visited.one) : subSlot k = .one ∨ subSlot k = .items := by
  by_cases hk : k = "items"
  · subst hk; exact .inr (by decide)
  · exact .inl (visited_excl.1 h hk)

theorem slot_idx {k : String} (h : k ∈ visited.list) : subSlot k = .list ∨ subSlot k = .items := by
  by_cases hk : k = "items"
  · subst hk; exact .inr (by decide)
  · exact .inl (visited_excl.2.1 h hk)

theorem slot_mem {k : String} (h : k ∈ visited.map) : subSlot k = .map := visited_excl.2.2 h

theorem of_slot_one {k : String} (h : subSlot k = .one) : k ∈ visited.one := by
  rcases subSlot_cases k with ⟨h1, _, e⟩ | ⟨_, _, e⟩ | ⟨_, e⟩ | ⟨_, e⟩ | ⟨_, _, _, e⟩ <;> simp_all
theorem of_slot_list {k : String} (h : subSlot k = .list) : k ∈ visited.list := by
  rcases subSlot_cases k with ⟨_, _, e⟩ | ⟨h1, _, e⟩ | ⟨_, e⟩ | ⟨_, e⟩ | ⟨_, _, _, e⟩ <;> simp_all
theorem of_slot_items {k : String} (h : subSlot k = .items) : k = "items" := by
  rcases subSlot_cases k with ⟨_, _, e⟩ | ⟨h1, _, e⟩ | ⟨_, e⟩ | ⟨_, e⟩ | ⟨_, _, _, e⟩ <;> simp_all
theorem of_slot_map {k : String} (h : subSlot k = .map) : k ∈ visited.map := by
  rcases subSlot_cases k with ⟨_, _, e⟩ | ⟨h1, _, e⟩ | ⟨_, e⟩ | ⟨_, e⟩ | ⟨_, _, _, e⟩ <;> simp_all

theorem mem_slotSteps_iff {m : List (String × Json)} {k : String} {v : Json} (hg : Obj.get m k = some v)
    (hn : ∀ n, v = .obj n → (Obj.keys n).Nodup) {p : Step × Json} :
    p ∈ slotSteps k (subSlot k) v ↔ (StepTo visited (.obj m) p.1 p.2 ∧ IsSchema p.2 ∧ p.1.keyword = k) := by
  obtain ⟨st, x⟩ := p
  constructor
  · intro h
    refine ⟨?_, ?_, slotSteps_keyword h⟩
    · cases hs : subSlot k with
      | one =>
        rw [hs] at h
        have hk := of_slot_one hs
        have : (st, x) = (.key k, v) ∧ isSchema v := by
          revert h; unfold slotSteps; cases v <;> simp_all [isSchema]
        simp only [Prod.mk.injEq] at this
        obtain ⟨⟨rfl, rfl⟩, _⟩ := this
        exact .key hg hk
      | list =>
        rw [hs] at h
        cases v <;> simp [slotSteps] at h
        obtain ⟨i, j, ⟨h1, h2⟩, rfl, rfl⟩ := h
        have h1' := List.mem_zipIdx_iff_getElem?.1 h1
        exact .idx hg (of_slot_list hs) h1'
      | items =>
        rw [hs] at h
        have hk := of_slot_items hs
        subst hk
        cases v <;> simp [slotSteps, isSchema] at h
        · obtain ⟨rfl, rfl⟩ := h; exact .key hg (by decide)
        · obtain ⟨i, j, ⟨h1, h2⟩, rfl, rfl⟩ := h
          have h1' := List.mem_zipIdx_iff_getElem?.1 h1
          exact .idx hg (by decide) h1'
        · obtain ⟨rfl, rfl⟩ := h; exact .key hg (by decide)
      | map =>
        rw [hs] at h
        cases v <;> simp [slotSteps] at h
        obtain ⟨q, ⟨h1, h2⟩, rfl⟩ := h
        exact .mem hg (of_slot_map hs) (Obj.get_of_mem_nodup (hn _ rfl) h1)
      | skip => rw [hs] at h; cases v <;> simp [slotSteps] at h
    · have : x ∈ slotSubs (subSlot k) v := by
        rw [← slotSteps_snd k]; exact List.mem_map.2 ⟨_, h, rfl⟩
      exact mem_slotSubs this
  · rintro ⟨h1, h2, h3⟩
    have hs := isSchema_iff.2 h2
    simp only at h1 h3 hs
    cases h1 with
    | key hg' hk =>
      simp only [Step.keyword] at h3; subst h3
      rw [hg] at hg'; cases hg'
      rcases slot_key hk with e | e <;> rw [e] <;> cases h2 <;> simp [slotSteps, isSchema]
    | idx hg' hk hi =>
      simp only [Step.keyword] at h3; subst h3
      rw [hg] at hg'; cases hg'
      rcases slot_idx hk with e | e <;> rw [e] <;> simp only [slotSteps, List.mem_map, List.mem_filter] <;>
        exact ⟨(x, _), ⟨List.mem_zipIdx_iff_getElem?.2 hi, hs⟩, rfl⟩
    | mem hg' hk hi =>
      simp only [Step.keyword] at h3; subst h3
      rw [hg] at hg'; cases hg'
      rw [slot_mem hk]
      simp only [slotSteps, List.mem_map, List.mem_filter]
      exact ⟨(_, x), ⟨Obj.get_mem hi, hs⟩, rfl⟩

theorem mem_stepsOf_iff {m : List (String × Json)} (hm : (Obj.keys m).Nodup)
    (hn : ∀ e ∈ m, ∀ n, e.2 = .obj n → (Obj.keys n).Nodup) {p : Step × Json} :
    p ∈ stepsOf subSlot (.obj m) ↔ (StepTo visited (.obj m) p.1 p.2 ∧ IsSchema p.2) := by
  simp only [stepsOf, List.mem_flatMap]
  constructor
  · rintro ⟨⟨k, v⟩, he, h⟩
    have := (mem_slotSteps_iff (Obj.get_of_mem_nodup hm he) (hn _ he)).1 h
    exact ⟨this.1, this.2.1⟩
  · rintro ⟨h1, h2⟩
    have : ∃ v, Obj.get m p.1.keyword = some v := by
      obtain ⟨st, x⟩ := p
      cases h1 with
      | key h _ => exact ⟨_, h⟩
      | idx h _ _ => exact ⟨_, h⟩
      | mem h _ _ => exact ⟨_, h⟩
    obtain ⟨v, hv⟩ := this
    have hmem := Obj.get_mem hv
    exact ⟨_, hmem, (mem_slotSteps_iff hv (hn _ hmem)).2 ⟨h1, h2, rfl⟩⟩

theorem Spec.StepTo.direct {V : Vocab} {s x : Json} {st : Step} (h : StepTo V s st x) (hx : IsSchema x) :
    DirectSub V s x := by
  cases h with
  | key hg hk => exact .one (Obj.get_mem hg) hk hx
  | idx hg hk hi => exact .list (Obj.get_mem hg) hk (List.mem_of_getElem? hi) hx
  | mem hg hk hi => exact .map (Obj.get_mem hg) hk (Obj.get_mem hi) hx

/-! ## Steps through `tsub` -/

theorem tsub_step {t : Json → Json} {s x : Json} {st : Step} (h : StepTo visited s st x) (hx : IsSchema x) :
    StepTo visited (tsub subSlot t s) st (t x) := by
  have hs := isSchema_iff.2 hx
  cases h with
  | key hg hk =>
    refine .key ?_ hk
    rw [get_entryMap, hg, Option.map_some]
    rcases slot_key hk with e | e <;> rw [e] <;> cases hx <;> rfl
  | idx hg hk hi =>
    rename_i m k l i
    refine .idx (l := l.map (atSchema t)) ?_ hk ?_
    · rw [get_entryMap, hg, Option.map_some]
      rcases slot_idx hk with e | e <;> rw [e] <;> rfl
    · rw [List.getElem?_map, hi]; simp [atSchema, hs]
  | mem hg hk hi =>
    rename_i m k n q
    refine .mem (n := n.map fun e => (e.1, atSchema t e.2)) ?_ hk ?_
    · rw [get_entryMap, hg, Option.map_some, slot_mem hk]; rfl
    · rw [Obj.get_map n (fun _ v => atSchema t v), hi]; simp [atSchema, hs]

theorem tsub_step_inv {t : Json → Json} (ht : Preserves t) {s y : Json} {st : Step}
    (h : StepTo visited (tsub subSlot t s) st y) (hy : IsSchema y) :
    ∃ x, StepTo visited s st x ∧ IsSchema x ∧ y = t x := by
  cases s with
  | obj m =>
    rw [tsub_obj] at h
    have hsx : ∀ v, y = atSchema t v → IsSchema v ∧ y = t v := by
      intro v hv
      unfold atSchema at hv
      split at hv
      · next h => exact ⟨isSchema_iff.1 h, hv⟩
      · next h => subst hv; exact absurd (isSchema_iff.2 hy) h
    cases h with
    | key hg hk =>
      rw [get_entryMap] at hg
      cases hg' : Obj.get m _ with
      | none => rw [hg'] at hg; cases hg
      | some v =>
        rw [hg', Option.map_some] at hg
        rename_i k
        have hgv : atSlot t (subSlot k) v = y := by simpa using hg
        have : y = atSchema t v := by
          rcases slot_key hk with e | e
          · rw [e] at hgv; cases v <;> exact hgv.symm
          · rw [e] at hgv
            cases v <;> first | exact hgv.symm | skip
            simp only [atSlot] at hgv; subst hgv; cases hy
        exact ⟨v, .key hg' hk, hsx v this⟩
    | idx hg hk hi =>
      rw [get_entryMap] at hg
      cases hg' : Obj.get m _ with
      | none => rw [hg'] at hg; cases hg
      | some v =>
        rw [hg', Option.map_some] at hg
        rename_i k l i
        have hgv : atSlot t (subSlot k) v = .arr l := by simpa using hg
        have : ∃ l0, v = .arr l0 ∧ l = l0.map (atSchema t) := by
          rcases slot_idx hk with e | e <;> rw [e] at hgv <;> cases v <;>
            simp [atSlot, atSchema, isSchema] at hgv <;> first
              | (exact ⟨_, rfl, hgv.symm⟩)
              | (have := ht _ (.bool ‹Bool›); rw [hgv] at this; cases this)
              | (have := ht _ (.obj ‹_›); rw [hgv] at this; cases this)
        obtain ⟨l0, rfl, rfl⟩ := this
        rw [List.getElem?_map] at hi
        cases hx : l0[i]? with
        | none => rw [hx] at hi; cases hi
        | some x =>
          rw [hx, Option.map_some] at hi
          exact ⟨x, .idx hg' hk hx, hsx x (by simpa using hi.symm)⟩
    | mem hg hk hi =>
      rw [get_entryMap] at hg
      cases hg' : Obj.get m _ with
      | none => rw [hg'] at hg; cases hg
      | some v =>
        rw [hg', Option.map_some] at hg
        rename_i k n q
        have hgv : atSlot t (subSlot k) v = .obj n := by simpa using hg
        have : ∃ n0, v = .obj n0 ∧ n = n0.map (fun e => (e.1, atSchema t e.2)) := by
          rw [slot_mem hk] at hgv; cases v <;> simp_all [atSlot]
        obtain ⟨n0, rfl, rfl⟩ := this
        rw [Obj.get_map n0 (fun _ v => atSchema t v)] at hi
        cases hx : Obj.get n0 q with
        | none => rw [hx] at hi; cases hi
        | some x =>
          rw [hx, Option.map_some] at hi
          exact ⟨x, .mem hg' hk hx, hsx x (by simpa using hi.symm)⟩
  | _ => cases h

theorem tsub_frame (t : Json → Json) (s : Json) : Frame visited s (tsub subSlot t s) := by
  cases s with
  | obj m =>
    refine .obj (keys_entryMap m) (fun k v hv => ?_)
    refine ⟨atSlot t (subSlot k) v, by rw [get_entryMap, hv]; rfl, ?_⟩
    have hs : ∀ v, ¬ IsSchema v → atSchema t v = v := by
      intro v hv; unfold atSchema; rw [if_neg (fun h => hv (isSchema_iff.1 h))]
    have hl : ∀ l : List Json, k ∈ visited.list → ValFrame visited k (.arr l) (.arr (l.map (atSchema t))) := by
      intro l hk
      refine .inr (.inr (.inl ⟨hk, l, _, rfl, rfl, by simp, fun i x hi hx => ?_⟩))
      rw [List.getElem?_map, hi, Option.map_some, hs x hx]
    have h1 : ∀ v, k ∈ visited.one → ValFrame visited k v (atSchema t v) := by
      intro v hk
      by_cases h : IsSchema v
      · exact .inr (.inl ⟨hk, h⟩)
      · exact .inl (hs v h)
    cases hk : subSlot k with
    | one => exact h1 v (of_slot_one hk)
    | list => cases v <;> first | exact .inl rfl | exact hl _ (of_slot_list hk)
    | items =>
      have hk' := of_slot_items hk
      cases v <;> first | exact .inl rfl | exact hl _ (by rw [hk']; decide) | exact h1 _ (by rw [hk']; decide)
    | map =>
      cases v <;> first | exact .inl rfl | skip
      refine .inr (.inr (.inr ⟨of_slot_map hk, _, _, rfl, rfl, ?_, fun q x hq hx => ?_⟩))
      · simp [Obj.keys, Function.comp_def]
      · rw [Obj.get_map _ (fun _ v => atSchema t v), hq, Option.map_some, hs x hx]
    | skip => cases v <;> exact .inl rfl
  | _ => exact .other _ (by simp)

/-! ## Partial transforms -/

/-- The partial computation gives `r` exactly when `A` holds. -/
def Res {α : Type} (A : Prop) (f : Option α) (r : α) : Prop := (A ∧ f = some r) ∨ (¬ A ∧ f = none)

theorem Res.bind {α β γ : Type} {A B : Prop} {f : Option α} {g : Option β} {r q} (h : α → β → γ)
    (hf : Res A f r) (hg : Res B g q) :
    Res (A ∧ B) (f.bind fun a => g.bind fun b => some (h a b)) (h r q) := by
  rcases hf with ⟨ha, rfl⟩ | ⟨ha, rfl⟩ <;> rcases hg with ⟨hb, rfl⟩ | ⟨hb, rfl⟩
  · exact .inl ⟨⟨ha, hb⟩, rfl⟩
  · exact .inr ⟨fun h => hb h.2, rfl⟩
  · exact .inr ⟨fun h => ha h.1, rfl⟩
  · exact .inr ⟨fun h => ha h.1, rfl⟩

theorem Res.map {α β : Type} {A : Prop} {f : Option α} {r} (h : α → β)
    (hf : Res A f r) : Res A (f.bind fun a => some (h a)) (h r) := by
  rcases hf with ⟨ha, rfl⟩ | ⟨ha, rfl⟩
  · exact .inl ⟨ha, rfl⟩
  · exact .inr ⟨ha, rfl⟩

theorem Res.congr {α : Type} {A B : Prop} {f : Option α} {r} (hf : Res A f r) (h : A ↔ B) : Res B f r := by
  unfold Res; rw [← h]; exact hf

/-- All visited values have a result. -/
abbrev AllSome (t : Json → Option Json) (l : List Json) : Prop := ∀ x ∈ l, (t x).isSome = true

theorem allSome_append {t : Json → Option Json} {l l' : List Json} :
    (AllSome t l ∧ AllSome t l') ↔ AllSome t (l ++ l') := by
  simp only [AllSome, List.mem_append, or_imp, forall_and]

theorem tsubM_res (slot : String → Slot) (t : Json → Option Json) (s : Json) :
    Res (AllSome t (subs slot s)) (tsubM slot t s) (tsub slot (fun x => (t x).getD x) s) := by
  let g := fun x => (t x).getD x
  have hnil : ∀ {α : Type} (v : α), Res (AllSome t []) (some v) v := by
    intro α v; exact .inl ⟨by simp [AllSome], rfl⟩
  have h1 : ∀ v, Res (AllSome t (slotSubs .one v)) (atSchemaM t v) (atSchema g v) := by
    intro v
    rw [slotSubs_one]; unfold atSchemaM atSchema
    by_cases hv : isSchema v
    · simp only [hv, if_true]
      cases ht : t v with
      | none => exact .inr ⟨by simp [AllSome, ht], rfl⟩
      | some y => exact .inl ⟨by simp [AllSome, ht], by simp [g, ht]⟩
    · simp only [hv]; exact hnil v
  have hcons : ∀ v l, slotSubs .one v ++ List.filter isSchema l = List.filter isSchema (v :: l) := by
    intro v l; rw [slotSubs_one, List.filter_cons]; split <;> rfl
  have h2 : ∀ l, Res (AllSome t (l.filter isSchema)) (atListM t l) (l.map (atSchema g)) := by
    intro l
    induction l with
    | nil => exact hnil _
    | cons v l ih => exact (Res.bind List.cons (h1 v) ih).congr (by rw [allSome_append, hcons])
  have h3 : ∀ l, Res (AllSome t ((l.map Prod.snd).filter isSchema)) (atValsM t l)
      (l.map fun e => (e.1, atSchema g e.2)) := by
    intro l
    induction l with
    | nil => exact hnil _
    | cons e l ih =>
      exact (Res.bind (fun v' l' => (e.1, v') :: l') (h1 e.2) ih).congr
        (by rw [allSome_append, hcons, List.map_cons])
  have h4 : ∀ sl v, Res (AllSome t (slotSubs sl v)) (atSlotM t sl v) (atSlot g sl v) := by
    intro sl v
    cases sl <;> cases v <;> first
      | exact h1 _ | exact hnil _ | exact (h2 _).map Json.arr | exact (h3 _).map Json.obj
  have h5 : ∀ l, Res (AllSome t (subs slot (.obj l))) (atEntriesM slot t l) (l.map (entryMap slot g)) := by
    intro l
    induction l with
    | nil => exact hnil _
    | cons e l ih =>
      exact (Res.bind (fun v' l' => (e.1, v') :: l') (h4 (slot e.1) e.2) ih).congr
        (by rw [allSome_append]; rfl)
  cases s with
  | obj o => exact (h5 o).map Json.obj
  | _ => exact hnil _

theorem tsubM_some {slot : String → Slot} {t : Json → Option Json} {s r : Json} (h : tsubM slot t s = some r) :
    (∀ x ∈ subs slot s, ∃ y, t x = some y) ∧ r = tsub slot (fun x => (t x).getD x) s := by
  rcases tsubM_res slot t s with ⟨h1, h2⟩ | ⟨_, h2⟩
  · rw [h2] at h
    exact ⟨fun x hx => Option.isSome_iff_exists.1 (h1 x hx), by simpa using h.symm⟩
  · rw [h2] at h; cases h

theorem tsubM_of_some {slot : String → Slot} {t : Json → Option Json} {s : Json} {g : Json → Json}
    (h : ∀ x ∈ subs slot s, t x = some (g x)) : tsubM slot t s = some (tsub slot g s) := by
  rcases tsubM_res slot t s with ⟨_, h2⟩ | ⟨h1, _⟩
  · rw [h2, tsub_congr (t' := g)]
    intro x hx; simp [h x hx]
  · exact absurd (fun x hx => by simp [h x hx]) h1

theorem tsubM_none {slot : String → Slot} {t : Json → Option Json} {s x : Json}
    (hx : x ∈ subs slot s) (h : t x = none) : tsubM slot t s = none := by
  rcases tsubM_res slot t s with ⟨h1, _⟩ | ⟨_, h2⟩
  · have := h1 x hx; simp [h] at this
  · exact h2

end Verif
