import Verif.Lemmas.Pipeline

/-!
# C21: what ReplaceUnevaluatedProperties leaves behind
-/

namespace Verif
open Spec

/-- The value of `unevaluatedProperties` has no subschema with `unevaluatedProperties`. -/
def Spec.UnevalOk (s : Json) : Prop :=
  ∀ m up, s = .obj m → Obj.get m "unevaluatedProperties" = some up →
    Everywhere visited (fun x => ¬ HasKey "unevaluatedProperties" x) up

/-- `P` holds for the subschemas of the value of `unevaluatedProperties`. -/
def Spec.InUneval (P : Json → Prop) (s : Json) : Prop :=
  ∀ m up, s = .obj m → Obj.get m "unevaluatedProperties" = some up → Everywhere visited P up

theorem shallow_inUneval (P : Json → Prop) : Shallow (InUneval P) := by
  intro T _ s h m up hm hg
  cases s with
  | obj o =>
    rw [tsub_obj] at hm; cases hm
    rw [get_entryMap_skip o (by decide)] at hg
    exact h o up rfl hg
  | _ => cases hm

theorem replaceUnevalLocal_noKey {s : Json} (hs : IsSchema s) :
    ¬ HasKey "unevaluatedProperties" (replaceUnevalLocal s) := by
  cases hs with
  | bool b => exact not_hasKey_bool
  | obj m =>
    rw [replaceUnevalLocal_obj]
    split
    · rw [hasKey_obj, unevalMembers_keys (by decide) (by decide)]; simp
    · rw [hasKey_remove]; simp

theorem replaceUnevalLocal_subs {P : Json → Prop} (hb : P (.bool true)) {s x : Json} (hs : IsSchema s)
    (h : InUneval P s) (hx : x ∈ subs subSlot (replaceUnevalLocal s)) :
    x ∈ subs subSlot s ∨ Everywhere visited P x := by
  cases hs with
  | bool b => exact .inl hx
  | obj m =>
    rw [replaceUnevalLocal_obj] at hx
    split at hx
    · next up hup =>
      rcases unevalMembers_subs hx with h1 | rfl | rfl
      · exact .inl h1
      · exact .inr (h m _ rfl hup)
      · exact .inr (everywhere_bool.2 hb)
    · exact .inl (subs_remove hx)

/-- C21, full claim about the shape: no subschema of the result has `unevaluatedProperties`. It fails for a
nested `unevaluatedProperties`, see `C21_Full_false`. -/
def C21_Full : Prop :=
  ∀ s, IsSchema s → Everywhere visited (fun x => ¬ HasKey "unevaluatedProperties" x) (replaceUneval s)

/-- C21: no subschema of the result has `unevaluatedProperties`, provided that no value of
`unevaluatedProperties` has a subschema that has this keyword itself. -/
theorem C21_no_uneval_partial {s : Json} (hs : IsSchema s) (h : Everywhere visited UnevalOk s) :
    Everywhere visited (fun x => ¬ HasKey "unevaluatedProperties" x) (replaceUneval s) :=
  everywhere_keep (H := InUneval (fun x => ¬ HasKey "unevaluatedProperties" x)) replaceUnevalLocal_preserves
    (shallow_inUneval _) (fun _ hs _ => replaceUnevalLocal_noKey hs)
    (fun _ _ hs h hx => replaceUnevalLocal_subs not_hasKey_bool hs h hx) hs h

/-- C21: the traversal does not enter `unevaluatedProperties`, so a nested one survives, although both are
valid uses of the keyword. -/
theorem C21_Full_false : ¬ C21_Full := by
  intro h
  refine h (.obj [("unevaluatedProperties", .obj [("unevaluatedProperties", .bool false)])]) (.obj _)
    (.obj [("unevaluatedProperties", .bool false)]) (.step ?_ (.self _)) ⟨_, .bool false, rfl, by simp⟩
  rw [← mem_subs_iff]; decide

/-! ## Named properties -/

/-- The schema names the property `n` in its own `properties` or in those of an in-place subschema. -/
def Spec.Names (n : String) (s : Json) : Prop :=
  ∃ x m p, Reach inPlace s x ∧ x = .obj m ∧ Obj.get m "properties" = some (.obj p) ∧ n ∈ Obj.keys p

theorem mem_subs_imm_of {m : List (String × Json)} {x : Json} (h : DirectSub inPlace (.obj m) x) :
    x ∈ subs immSlot (.obj m) := by
  cases h with
  | one hm hk hx =>
    simp only [subs, List.mem_flatMap]
    refine ⟨_, hm, ?_⟩
    have : ∀ k, k ∈ inPlace.one → immSlot k = .one := by decide
    rw [this _ hk, slotSubs_one, if_pos (isSchema_iff.2 hx)]; simp
  | list hm hk hl hx =>
    simp only [subs, List.mem_flatMap]
    refine ⟨_, hm, ?_⟩
    have : ∀ k, k ∈ inPlace.list → immSlot k = .list := by decide
    rw [this _ hk]
    simp only [slotSubs, List.mem_filter]
    exact ⟨hl, isSchema_iff.2 hx⟩
  | map _ hk _ _ => simp [inPlace] at hk

theorem mem_gather {m : List (String × Json)} {n : String} :
    n ∈ gatherPropertyNames (.obj m) ↔
      n ∈ ownPropertyNames (.obj m) ∨ ∃ x ∈ subs immSlot (.obj m), n ∈ gatherPropertyNames x := by
  rw [gatherPropertyNames_eq (.obj m), List.mem_append, List.mem_flatMap]

/-- Everything gathered from `m` is gathered from `m'` if `properties` has the same keys or more and each
in-place subschema is replaced by one that names as much. -/
theorem gather_mono {m m' : List (String × Json)}
    (hp : ∀ n, n ∈ ownPropertyNames (.obj m) → n ∈ ownPropertyNames (.obj m'))
    (hs : ∀ x ∈ subs immSlot (.obj m), ∃ y ∈ subs immSlot (.obj m'), ∀ n, n ∈ gatherPropertyNames x → n ∈ gatherPropertyNames y)
    {n : String} (h : n ∈ gatherPropertyNames (.obj m)) : n ∈ gatherPropertyNames (.obj m') := by
  rw [mem_gather] at h ⊢
  rcases h with h | ⟨x, hx, h⟩
  · exact .inl (hp n h)
  · obtain ⟨y, hy, h2⟩ := hs x hx
    exact .inr ⟨y, hy, h2 n h⟩

theorem mem_subs_imm_insert {m : List (String × Json)} {k : String} (hk : immSlot k = .skip) {v x : Json}
    (hm : x ∈ subs immSlot (.obj m)) : x ∈ subs immSlot (.obj (Obj.insert m k v)) := by
  simp only [subs, List.mem_flatMap] at hm ⊢
  obtain ⟨e, he, hx⟩ := hm
  refine ⟨e, ?_, hx⟩
  have hne : e.1 ≠ k := by
    intro e1; rw [e1, hk] at hx; cases h : e.2 <;> rw [h] at hx <;> simp [slotSubs] at hx
  clear hx
  induction m with
  | nil => simp at he
  | cons a m ih =>
    obtain ⟨ka, va⟩ := a
    simp only [Obj.insert]
    split
    · next h1 =>
      subst h1
      rcases List.mem_cons.1 he with rfl | he
      · exact absurd rfl hne
      · exact List.mem_cons_of_mem _ he
    · split
      · exact List.mem_cons_of_mem _ he
      · rcases List.mem_cons.1 he with rfl | he
        · exact List.mem_cons_self
        · exact List.mem_cons_of_mem _ (ih he)

theorem mem_subs_imm_remove {m : List (String × Json)} {k : String} (hk : immSlot k = .skip) {x : Json}
    (hm : x ∈ subs immSlot (.obj m)) : x ∈ subs immSlot (.obj (Obj.remove m k)) := by
  simp only [subs, List.mem_flatMap] at hm ⊢
  obtain ⟨e, he, hx⟩ := hm
  refine ⟨e, Obj.mem_remove.2 ⟨he, ?_⟩, hx⟩
  intro e1; rw [e1, hk] at hx; cases h : e.2 <;> rw [h] at hx <;> simp [slotSubs] at hx

theorem mem_subs_imm_tsub {m : List (String × Json)} {T : Json → Json} (hT : Preserves T) {x : Json}
    (hm : x ∈ subs immSlot (.obj m)) : T x ∈ subs immSlot (tsub subSlot T (.obj m)) := by
  simp only [subs, tsub, List.mem_flatMap, List.mem_map] at hm ⊢
  obtain ⟨e, he, hx⟩ := hm
  have hslot : immSlot e.1 = .skip ∨ immSlot e.1 = subSlot e.1 := by
    rcases immSlot_cases e.1 with ⟨h, _⟩ | ⟨h, _⟩ | ⟨_, _, h⟩
    · right; revert h; generalize e.1 = k; revert k; decide
    · right; revert h; generalize e.1 = k; revert k; decide
    · exact .inl h
  refine ⟨_, ⟨e, he, rfl⟩, ?_⟩
  rcases hslot with h | h
  · rw [h] at hx; cases h' : e.2 <;> rw [h'] at hx <;> simp [slotSubs] at hx
  · simp only
    rw [h] at hx ⊢
    rw [slotSubs_atSlot hT]
    exact List.mem_map_of_mem hx

theorem ownPropertyNames_eq (m : List (String × Json)) (n : String) :
    n ∈ ownPropertyNames (.obj m) ↔ ∃ p, Obj.get m "properties" = some (.obj p) ∧ n ∈ Obj.keys p := by
  unfold ownPropertyNames Schema.get
  simp only
  split
  · next p hp => rw [hp]; simp
  · next h => simp only [List.not_mem_nil, false_iff]; rintro ⟨p, hp, _⟩; exact h p hp

theorem own_of_get {m m' : List (String × Json)} (h : Obj.get m' "properties" = Obj.get m "properties") (n : String)
    (hn : n ∈ ownPropertyNames (.obj m)) : n ∈ ownPropertyNames (.obj m') := by
  rw [ownPropertyNames_eq] at hn ⊢; rwa [h]

theorem own_tsub {m : List (String × Json)} {T : Json → Json} {n : String} (hn : n ∈ ownPropertyNames (.obj m)) :
    n ∈ ownPropertyNames (.obj (m.map (entryMap subSlot T))) := by
  rw [ownPropertyNames_eq] at hn ⊢
  obtain ⟨p, hp, hk⟩ := hn
  refine ⟨p.map fun e => (e.1, atSchema T e.2), ?_, ?_⟩
  · rw [get_entryMap, hp, show subSlot "properties" = .map by decide]; rfl
  · simpa [Obj.keys, Function.comp_def] using hk

theorem keys_entryOrTrue {p : List (String × Json)} {n q : String} :
    q ∈ Obj.keys (entryOrTrue p n) ↔ q ∈ Obj.keys p ∨ q = n := by
  unfold entryOrTrue
  split
  · next v hv =>
    constructor
    · exact .inl
    · rintro (h | rfl)
      · exact h
      · exact Obj.mem_keys.2 ⟨v, hv⟩
  · rw [Obj.mem_keys_insert]; exact Or.comm

theorem keys_foldl_entryOrTrue {names : List String} {p : List (String × Json)} {q : String} :
    q ∈ Obj.keys (names.foldl entryOrTrue p) ↔ q ∈ Obj.keys p ∨ q ∈ names := by
  induction names generalizing p with
  | nil => simp
  | cons n names ih => rw [List.foldl_cons, ih, keys_entryOrTrue]; simp [or_assoc]

theorem get_entryOrTrue {p : List (String × Json)} {n q : String} :
    Obj.get (entryOrTrue p n) q = (Obj.get p q <|> if q = n then some (.bool true) else none) := by
  unfold entryOrTrue
  split
  · next v hv =>
    by_cases h : q = n
    · subst h; rw [hv]; rfl
    · simp [h]
  · next hv =>
    rw [Obj.get_insert]
    by_cases h : q = n
    · subst h; rw [hv]; simp
    · simp [h, Ne.symm h]

theorem get_foldl_entryOrTrue {names : List String} {p : List (String × Json)} {q : String} :
    Obj.get (names.foldl entryOrTrue p) q =
      (Obj.get p q <|> if q ∈ names then some (.bool true) else none) := by
  induction names generalizing p with
  | nil => simp
  | cons n names ih =>
    rw [List.foldl_cons, ih, get_entryOrTrue]
    cases Obj.get p q with
    | some v => rfl
    | none => by_cases h1 : q = n <;> by_cases h2 : q ∈ names <;> simp [h1, h2]

/-- What `unevalMembers` does to `properties`. -/
theorem unevalMembers_properties {m : List (String × Json)} {up : Json}
    (hp : ∀ v, Obj.get m "properties" = some v → ∃ p, v = .obj p) (n : String)
    (hn : n ∈ gatherPropertyNames (.obj (Obj.insert (Obj.remove m "unevaluatedProperties") "additionalProperties" up))) :
    ∃ p', Obj.get (unevalMembers m up) "properties" = some (.obj p') ∧ n ∈ Obj.keys p' ∧
      ∀ q v, Obj.get p' q = some v → (∃ p, Obj.get m "properties" = some (.obj p) ∧ Obj.get p q = some v) ∨ v = .bool true := by
  unfold unevalMembers
  simp only
  have hg : Obj.get (Obj.insert (Obj.remove m "unevaluatedProperties") "additionalProperties" up) "properties" =
      Obj.get m "properties" := by rw [Obj.get_insert_ne _ _ (by decide), Obj.get_remove_ne _ (by decide)]
  revert hn
  generalize gatherPropertyNames (.obj (Obj.insert (Obj.remove m "unevaluatedProperties") "additionalProperties" up)) = names
  intro hn
  have hval : ∀ (p0 : List (String × Json)) q v, Obj.get (names.foldl entryOrTrue p0) q = some v →
      Obj.get p0 q = some v ∨ v = .bool true := by
    intro p0 q v hv
    rw [get_foldl_entryOrTrue] at hv
    cases h : Obj.get p0 q with
    | some w => rw [h] at hv; exact .inl hv
    | none =>
      rw [h] at hv
      right
      by_cases hq : q ∈ names
      · simp [hq] at hv; exact hv.symm
      · simp [hq] at hv
  split
  · simp at hn
  · next hne =>
    rw [hg]
    cases hpr : Obj.get m "properties" with
    | none =>
      simp only
      refine ⟨_, Obj.get_insert_self _ _ _, keys_foldl_entryOrTrue.2 (.inr hn), ?_⟩
      intro q v hv
      rcases hval [] q v hv with h | h
      · cases h
      · exact .inr h
    | some w =>
      obtain ⟨p, rfl⟩ := hp w hpr
      simp only
      refine ⟨_, Obj.get_insert_self _ _ _, keys_foldl_entryOrTrue.2 (.inr hn), ?_⟩
      intro q v hv
      rcases hval p q v hv with h | h
      · exact .inl ⟨p, rfl, h⟩
      · exact .inr h

theorem own_unevalMembers {m : List (String × Json)} {up : Json} {n : String}
    (hn : n ∈ ownPropertyNames (.obj m)) : n ∈ ownPropertyNames (.obj (unevalMembers m up)) := by
  have hg : Obj.get (Obj.insert (Obj.remove m "unevaluatedProperties") "additionalProperties" up) "properties" =
      Obj.get m "properties" := by rw [Obj.get_insert_ne _ _ (by decide), Obj.get_remove_ne _ (by decide)]
  obtain ⟨p, hp, hk⟩ := (ownPropertyNames_eq m n).1 hn
  unfold unevalMembers
  simp only
  split
  · exact own_of_get hg n hn
  · rw [hg, hp]
    simp only
    rw [ownPropertyNames_eq]
    exact ⟨_, Obj.get_insert_self _ _ _, keys_foldl_entryOrTrue.2 (.inl hk)⟩

theorem subs_imm_unevalMembers {m : List (String × Json)} {up x : Json}
    (hx : x ∈ subs immSlot (.obj m)) : x ∈ subs immSlot (.obj (unevalMembers m up)) := by
  have h1 : x ∈ subs immSlot (.obj (Obj.insert (Obj.remove m "unevaluatedProperties") "additionalProperties" up)) :=
    mem_subs_imm_insert (by decide) (mem_subs_imm_remove (by decide) hx)
  unfold unevalMembers
  simp only
  split
  · exact h1
  · split
    · exact mem_subs_imm_insert (by decide) h1
    · exact mem_subs_imm_insert (by decide) h1
    · exact h1

theorem names_gather {n : String} {s : Json} (hs : IsSchema s) (h : Names n s) : n ∈ gatherPropertyNames s := by
  obtain ⟨x, m, p, hr, rfl, hp, hn⟩ := h
  generalize hx : Json.obj m = x at hr
  induction hr with
  | self s =>
    subst hx
    rw [mem_gather]; exact .inl ((ownPropertyNames_eq m n).2 ⟨p, hp, hn⟩)
  | @step s x y hd _ ih =>
    have hy : IsSchema x := by cases hd <;> assumption
    have := ih hy hx
    have ho : ∃ o, s = Json.obj o := by cases hd <;> exact ⟨_, rfl⟩
    obtain ⟨o, rfl⟩ := ho
    rw [mem_gather]; exact .inr ⟨_, mem_subs_imm_of hd, this⟩

/-- The transform only adds to the gathered names. -/
theorem gather_replaceUneval : ∀ s, IsSchema s → ∀ n, n ∈ gatherPropertyNames s → n ∈ gatherPropertyNames (replaceUneval s) := by
  suffices ∀ k s, sizeOf s < k → IsSchema s → ∀ n, n ∈ gatherPropertyNames s → n ∈ gatherPropertyNames (replaceUneval s) by
    intro s; exact this _ s (Nat.lt_succ_self _)
  intro k
  induction k with
  | zero => intro s hs; omega
  | succ k ih =>
    intro s hk hs n hn
    cases hs with
    | bool b => simp [gatherPropertyNames, gather] at hn
    | obj m =>
      have hT : Preserves replaceUneval := postOrder_preserves replaceUnevalLocal_preserves
      have h1 : n ∈ gatherPropertyNames (tsub subSlot replaceUneval (.obj m)) := by
        rw [tsub_obj]
        refine gather_mono (fun n hn => own_tsub hn) (fun x hx => ⟨replaceUneval x, mem_subs_imm_tsub hT hx, ?_⟩) hn
        intro q hq
        exact ih x (by have := sizeOf_subs hx; omega) (subs_isSchema hx) q hq
      rw [replaceUneval_eq (.obj m), replaceUnevalStep]
      rw [tsub_obj] at h1 ⊢
      rw [replaceUnevalLocal_obj]
      split
      · exact gather_mono (fun n hn => own_unevalMembers hn) (fun x hx => ⟨x, subs_imm_unevalMembers hx, fun _ h => h⟩) h1
      · next hno => rw [Obj.remove_of_get_none hno]; exact h1

/-- C21: at a schema that has `unevaluatedProperties`, every property that the schema or one of its in-place
subschemas names is a key of the new `properties`, so that the new `additionalProperties` does not apply to it;
`properties` gets no new constraint. -/
theorem C21_named {m : List (String × Json)} {up : Json} {n : String}
    (hup : Obj.get m "unevaluatedProperties" = some up)
    (hp : ∀ v, Obj.get m "properties" = some v → ∃ p, v = .obj p)
    (hn : Names n (.obj m)) :
    ∃ m' p', replaceUneval (.obj m) = .obj m' ∧ Obj.get m' "properties" = some (.obj p') ∧ n ∈ Obj.keys p' ∧
      ∀ q v, Obj.get p' q = some v → v = .bool true ∨
        ∃ p w, Obj.get m "properties" = some (.obj p) ∧ Obj.get p q = some w ∧ v = atSchema replaceUneval w := by
  have hT : Preserves replaceUneval := postOrder_preserves replaceUnevalLocal_preserves
  rw [replaceUneval_eq (.obj m), replaceUnevalStep, tsub_obj, replaceUnevalLocal_obj,
    get_entryMap_skip m (by decide), hup]
  simp only
  have hp' : ∀ v, Obj.get (m.map (entryMap subSlot replaceUneval)) "properties" = some v → ∃ p, v = .obj p := by
    intro v hv
    rw [get_entryMap] at hv
    cases hg : Obj.get m "properties" with
    | none => rw [hg] at hv; cases hv
    | some w =>
      obtain ⟨p, rfl⟩ := hp w hg
      rw [hg, show subSlot "properties" = .map by decide] at hv
      cases hv; exact ⟨_, rfl⟩
  have hn1 := names_gather (.obj m) hn
  have hn2 : n ∈ gatherPropertyNames (.obj (Obj.insert (Obj.remove (m.map (entryMap subSlot replaceUneval))
      "unevaluatedProperties") "additionalProperties" up)) := by
    refine gather_mono (m := m) (fun q hq => ?_) (fun x hx => ⟨replaceUneval x, ?_, ?_⟩) hn1
    · refine own_of_get (m := m.map (entryMap subSlot replaceUneval)) ?_ q (own_tsub hq)
      rw [Obj.get_insert_ne _ _ (by decide), Obj.get_remove_ne _ (by decide)]
    · exact mem_subs_imm_insert (by decide) (mem_subs_imm_remove (by decide) (mem_subs_imm_tsub hT hx))
    · exact gather_replaceUneval x (subs_isSchema hx)
  obtain ⟨p', h1, h2, h3⟩ := unevalMembers_properties hp' n hn2
  refine ⟨_, p', rfl, h1, h2, fun q v hv => ?_⟩
  rcases h3 q v hv with ⟨p, hp1, hp2⟩ | h
  · rw [get_entryMap] at hp1
    cases hg : Obj.get m "properties" with
    | none => rw [hg] at hp1; cases hp1
    | some w =>
      obtain ⟨p0, rfl⟩ := hp w hg
      rw [hg, show subSlot "properties" = .map by decide] at hp1
      cases hp1
      rw [Obj.get_map p0 (fun _ v => atSchema replaceUneval v)] at hp2
      cases hq : Obj.get p0 q with
      | none => rw [hq] at hp2; cases hp2
      | some w => rw [hq] at hp2; cases hp2; exact .inr ⟨p0, w, rfl, hq, rfl⟩
  · exact .inl h

private def s21 : Json := .obj [("allOf", .arr [.obj [("properties", .obj [("a", .obj [])])]]),
  ("unevaluatedProperties", .bool false)]
example : replaceUneval s21 = .obj [("additionalProperties", .bool false),
    ("allOf", .arr [.obj [("properties", .obj [("a", .obj [])])]]), ("properties", .obj [("a", .bool true)])] := by decide
example : Names "a" s21 :=
  ⟨_, [("properties", .obj [("a", .obj [])])], [("a", .obj [])],
    .step (.list (k := "allOf") (l := [.obj [("properties", .obj [("a", .obj [])])]]) (by simp) (by decide) List.mem_cons_self (.obj _)) (.self _), rfl, by decide, by decide⟩
example : UnevalOk s21 := by
  intro m up hm hg; cases hm; cases hg; exact everywhere_bool.2 not_hasKey_bool

end Verif
