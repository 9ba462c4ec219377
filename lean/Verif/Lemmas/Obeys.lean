import Verif.Spec.Obeys
import Verif.Lemmas.Serde
import Verif.Props.NullReady
import Verif.Props.Validation

/-!
# Validation attributes keep what obeys them
-/

namespace Verif
open Spec

variable {D : Dialect} {env : Env} {i : Json} {m : List (String × Json)} {s : Json}

/-- Validity, for objects that need not be sorted. -/
theorem valid_gets (h : D.refSiblings = true) : Valid D env (.obj m) i ↔
    (∀ k v, Obj.get m k = some v → EntryOk D env m i k v) ∧ ∀ e ∈ m, e.1 ∉ known → env.kw e.1 e.2 i = true := by
  rw [valid_objOk (.inl h)]
  constructor
  · intro ho
    have hkw : ∀ e ∈ m, e.1 ∉ known → env.kw e.1 e.2 i = true := by
      intro e he hk
      have := ho.others
      unfold othersOk at this
      rw [List.all_eq_true] at this
      exact this e (List.mem_filter.2 ⟨he, by simpa using hk⟩)
    refine ⟨fun k v hg => ?_, hkw⟩
    have hdef : (k ∈ simpleKeys → simple env k v i = true) ∧ (k ∉ known → env.kw k v i = true) :=
      ⟨fun hk => ho.simple k hk v hg, fun hk => hkw (k, v) (Obj.get_mem hg) hk⟩
    unfold EntryOk
    split
    · split
      · exact ho.ref _ hg
      · trivial
    · exact ho.type v hg
    · exact ho.allOf v hg
    · exact ho.anyOf v hg
    · exact ho.oneOf v hg
    · exact ho.not v hg
    · exact ho.cond v hg
    · exact ho.dependent v hg
    · exact ho.properties v hg
    · exact ho.patterns v hg
    · exact ho.additional v hg
    · exact ho.names v hg
    · exact ho.unevaluated v hg
    · exact ho.prefixItems v hg
    · exact ho.items v hg
    · exact ho.additionalItems v hg
    · exact ho.contains v hg
    · exact hdef
  · rintro ⟨hg, hkw⟩
    have hsimple : ∀ k ∈ simpleKeys, ∀ v, Obj.get m k = some v → simple env k v i = true :=
      fun k hk v hv => (entryOk_simple hk v).1 (hg k v hv)
    refine ⟨fun r hr => hg _ _ hr, fun v => hg _ v, hsimple, fun v => hg _ v, fun v => hg _ v, fun v => hg _ v,
      fun v => hg _ v, fun v => hg _ v, fun v => hg _ v, fun v => hg _ v, fun v => hg _ v, fun v => hg _ v,
      fun v => hg _ v, fun v => hg _ v, fun v => hg _ v, fun v => hg _ v, fun v => hg _ v, fun v => hg _ v, ?_⟩
    unfold othersOk others
    rw [List.all_eq_true]
    rintro ⟨k, v⟩ hkv
    obtain ⟨h1, h2⟩ := List.mem_filter.1 hkv
    exact hkw _ h1 (by simpa using h2)

theorem valid_insert_ok (h : D.refSiblings = true) {k : String} {v : Json} (hc : k ∉ contextKeys) (hk : k ∈ known)
    (hv : Valid D env (.obj m) i) (he : ∀ m', EntryOk D env m' i k v) : Valid D env (.obj (Obj.insert m k v)) i := by
  rw [valid_gets h] at hv ⊢
  have hcongr : ∀ c ∈ contextKeys, Obj.get (Obj.insert m k v) c = Obj.get m c :=
    fun c hcc => Obj.get_insert_ne _ _ fun e => hc (e ▸ hcc)
  refine ⟨fun q x hq => ?_, fun e hm hn => ?_⟩
  · rw [Obj.get_insert] at hq
    split at hq
    · next e => subst e; cases hq; exact he _
    · exact (entryOk_congr hcongr _ _).2 (hv.1 q x hq)
  · rcases Obj.mem_insert hm with rfl | hm
    · exact absurd hk hn
    · exact hv.2 e hm hn

theorem valid_modifyItems_ok (h : D.refSiblings = true) {f : Json → Json}
    (hf : ∀ t, IsSchema t → IsSchema (f t)) (hv : Valid D env (.obj m) i)
    (he : ∀ t, IsSchema t → ∀ x ∈ elems i, Valid D env t x → Valid D env (f t) x) :
    Valid D env (applyInnerValidation (.obj m) f) i := by
  unfold applyInnerValidation Schema.getMut
  rw [valid_gets h] at hv ⊢
  have hb : ∀ t, isSchema t = true → IsSchema t := by
    intro t ht
    cases t with
    | obj m => exact .obj m
    | bool b => exact .bool b
    | _ => cases ht
  have harr : ∀ t ss, (if isSchema t = true then f t else t) = .arr ss ↔ t = .arr ss := by
    intro t ss
    split
    · next ht =>
      constructor
      · intro e
        have := hf t (hb t ht)
        rw [e] at this
        cases this
      · rintro rfl; cases ht
    · rfl
  have hne : ∀ k, k ≠ "items" → Obj.get (Obj.modify m "items" fun t => if isSchema t = true then f t else t) k =
      Obj.get m k := by
    intro k hk; rw [Obj.get_modify, if_neg (Ne.symm hk)]
  have hcongr : ∀ k v, EntryOk D env (Obj.modify m "items" fun t => if isSchema t = true then f t else t) i k v ↔
      EntryOk D env m i k v := by
    intro k v
    apply entryOk_congr_items
    · intro k _ hk; exact hne k hk
    · intro ss
      rw [Obj.get_modify, if_pos rfl]
      cases hg : Obj.get m "items" with
      | none => simp
      | some t =>
        rw [Option.map_some, Option.some.injEq, Option.some.injEq]
        exact harr t ss
  refine ⟨fun q x hq => ?_, fun e hm hn => ?_⟩
  · rw [hcongr]
    by_cases hk : q = "items"
    · subst hk
      rw [Obj.get_modify, if_pos rfl] at hq
      obtain ⟨t, ht, rfl⟩ := Option.map_eq_some_iff.1 hq
      have hold := hv.1 _ _ ht
      split
      · next hs =>
        have hs := hb t hs
        have hfs := hf t hs
        unfold EntryOk at hold ⊢
        by_cases hp : D.prefixItems = true
        · simp only [hp, if_true] at hold ⊢
          exact fun x hx => he t hs x (List.mem_of_mem_drop hx) (hold x hx)
        · simp only [hp, Bool.false_eq_true, if_false] at hold ⊢
          have h1 : ∀ x ∈ elems i, Valid D env t x := by cases hs <;> exact hold
          have h2 : ∀ x ∈ elems i, Valid D env (f t) x := fun x hx => he t hs x hx (h1 x hx)
          generalize f t = u at hfs h2
          cases hfs <;> exact h2
      · exact hold
    · rw [hne q hk] at hq
      exact hv.1 q x hq
  · rcases Obj.mem_modify hm with hm | ⟨v, -, rfl⟩
    · exact hv.2 e hm hn
    · exact absurd (show "items" ∈ known by decide) hn

/-- What obeys stays valid under the change of the schema. -/
structure Restricts (D : Dialect) (env : Env) (P : Json → Prop) (f : Json → Json) : Prop where
  isSchema : ∀ s, IsSchema s → IsSchema (f s)
  valid : ∀ s, IsSchema s → ∀ x, P x → Valid D env s x → Valid D env (f s) x
  sch : ∀ s, Sch s → Sch (f s)
  nullable : P .null → ∀ s, Nullable D env s → Nullable D env (f s)

theorem isSchema_put {k : String} {v : Json} (h : IsSchema s) : IsSchema (Schema.put s k v) := by
  cases h with
  | obj m => exact .obj _
  | bool b => cases b <;> exact .obj _

theorem nullable_keeps {m' : List (String × Json)} (h : Nullable D env (.obj m)) (hs : Sch (.obj m'))
    (hv : Valid D env (.obj m) .null → Valid D env (.obj m') .null)
    (hg : ∀ k, k ∈ ["type", "$ref", "allOf", "anyOf", "oneOf", "not"] → Obj.get m' k = Obj.get m k)
    (hk : ∀ k, k ∉ nullBlind → Obj.get m' k = Obj.get m k) : Nullable D env (.obj m') where
  sch := hs
  typed := by
    intro ht
    refine hv (h.typed ?_)
    unfold Schema.hasType Schema.get at ht ⊢
    simp only [hg "type" (by decide)] at ht
    exact ht
  form := by
    cases h.form with
    | ref _ v h => exact .ref _ v (by rw [hg _ (by decide)]; exact h)
    | oneOf _ v h => exact .oneOf _ v (by rw [hg _ (by decide)]; exact h)
    | anyOf _ l h hl => exact .anyOf _ l (by rw [hg _ (by decide)]; exact h) hl
    | typed _ k v t hk h ht =>
      refine .typed _ k v t hk ?_ (by rw [hg _ (by decide)]; exact ht)
      rw [hg k ((by decide : ∀ k ∈ ["allOf", "anyOf", "oneOf"],
        k ∈ ["type", "$ref", "allOf", "anyOf", "oneOf", "not"]) k hk)]
      exact h
    | own _ h =>
      refine .own _ fun k v hkv => ?_
      by_cases hb : k ∈ nullBlind
      · exact .inr (.inr (.inl hb))
      · exact h k v (by rw [← hk k hb]; exact hkv)

theorem Restricts.bound (h : D.refSiblings = true) {ty k : String} {v : Json} (hk : k ∈ boundKeys) {P : Json → Prop}
    (hP : ∀ x, P x → simple env k v x = true) : Restricts D env P fun s => insertValidation s ty k v := by
  have hvalid : ∀ s, IsSchema s → ∀ x, P x → Valid D env s x → Valid D env (insertValidation s ty k v) x := by
    intro s hs x hx hv
    unfold insertValidation
    split
    · next hc =>
      cases hs with
      | obj m =>
        have hs : k ∈ simpleKeys := (by decide : ∀ k ∈ boundKeys, k ∈ simpleKeys) k hk
        refine valid_insert_ok h ((by decide : ∀ k ∈ boundKeys, k ∉ contextKeys) k hk)
          ((by decide : ∀ k ∈ boundKeys, k ∈ known) k hk) hv fun m' => ?_
        rw [entryOk_simple hs]
        exact hP x hx
      | bool b => simp [Schema.hasType, Schema.get] at hc
    · exact hv
  have hsch : ∀ s, Sch s → Sch (insertValidation s ty k v) := by
    intro s hs
    unfold insertValidation
    split
    · exact hs.put k v
    · exact hs
  refine ⟨fun s hs => ?_, hvalid, hsch, fun hn s hs => ?_⟩
  · unfold insertValidation
    split
    · exact isSchema_put hs
    · exact hs
  · have h1 := hsch s hs.sch
    have h2 := hvalid s hs.sch.isSchema _ hn
    unfold insertValidation at h1 h2 ⊢
    split
    · next hc =>
      rw [if_pos hc] at h1 h2
      cases hs.sch with
      | bool b => simp [Schema.hasType, Schema.get] at hc
      | @obj m hm =>
        refine nullable_keeps hs h1 h2 (fun q hq => Obj.get_insert_ne _ _ ?_) fun q hq => Obj.get_insert_ne _ _ ?_
        · rintro rfl
          exact absurd hq ((by decide : ∀ k ∈ boundKeys, k ∉ ["type", "$ref", "allOf", "anyOf", "oneOf", "not"]) k hk)
        · rintro rfl
          exact hq ((by decide : ∀ k ∈ boundKeys, k ∈ nullBlind) k hk)
    · exact hs

theorem Restricts.annotates (h : D.refSiblings = true) {f : Json → Json} (hf : Annotates f) {P : Json → Prop} :
    Restricts D env P f := by
  have hn : ∀ s, Nullable D env s → Nullable D env (f s) := fun s hs => hs.annotate (l := [f]) fun g hg => by
    rw [List.mem_singleton] at hg
    subst hg
    exact hf
  refine ⟨fun s hs => ?_, fun s hs x _ hv => ?_, fun s hs => annotates_sch hf hs, fun _ s hs => hn s hs⟩
  · rcases hf with ⟨k, -, v, hf⟩ | hf
    · rw [hf]; exact isSchema_put hs
    · rw [hf]; exact hs
  · rcases hf with ⟨k, hk, v, hf⟩ | hf
    · rw [hf]
      cases hs with
      | obj m =>
        exact valid_insert_ok h ((by decide : ∀ k ∈ annotations, k ∉ contextKeys) k hk)
          ((by decide : ∀ k ∈ annotations, k ∈ known) k hk) hv fun m' => entryOk_annotation hk _
      | bool b => exact (valid_put_annotation (.bool b) hk v).2 hv
    · rw [hf]; exact hv

theorem Restricts.inner (h : D.refSiblings = true) {P Q : Json → Prop} {f : Json → Json} (hf : Restricts D env P f)
    (hP : ∀ x, Q x → ∀ y ∈ elems x, P y) : Restricts D env Q fun s => applyInnerValidation s f := by
  have hvalid : ∀ s, IsSchema s → ∀ x, Q x → Valid D env s x → Valid D env (applyInnerValidation s f) x := by
    intro s hs x hx hv
    cases hs with
    | obj m => exact valid_modifyItems_ok h hf.isSchema hv fun t ht y hy => hf.valid t ht y (hP x hx y hy)
    | bool b => exact hv
  have hsch : ∀ s, Sch s → Sch (applyInnerValidation s f) := by
    intro s hs
    cases hs with
    | obj hm => exact .obj (Obj.sorted_modify hm _ _)
    | bool b => exact .bool b
  refine ⟨fun s hs => ?_, hvalid, hsch, fun hn s hs => ?_⟩
  · cases hs with
    | obj m => exact .obj _
    | bool b => exact .bool b
  · have h1 := hsch s hs.sch
    have h2 := hvalid s hs.sch.isSchema _ hn
    cases hs.sch with
    | bool b => exact hs
    | @obj m hm =>
      refine nullable_keeps hs h1 h2 (fun q hq => ?_) fun q hq => ?_
      · rw [Obj.get_modify, if_neg]
        rintro rfl; exact absurd hq (by decide)
      · rw [Obj.get_modify, if_neg]
        rintro rfl; exact hq (by decide)

theorem Restricts.run {P : Json → Prop} {l : List (Json → Json)} (hl : ∀ f ∈ l, Restricts D env P f) :
    Restricts D env P (runMutators l) := by
  induction l with
  | nil => exact ⟨fun _ h => h, fun _ _ _ _ h => h, fun _ h => h, fun _ _ h => h⟩
  | cons f l ih =>
    have h1 := hl f (List.mem_cons_self ..)
    have h2 := ih fun g hg => hl g (List.mem_cons_of_mem _ hg)
    exact ⟨fun s hs => h2.isSchema _ (h1.isSchema s hs),
      fun s hs x hx hv => h2.valid _ (h1.isSchema s hs) x hx (h1.valid s hs x hx hv),
      fun s hs => h2.sch _ (h1.sch s hs), fun hn s hs => h2.nullable hn _ (h1.nullable hn s hs)⟩

theorem Restricts.bounds (h : D.refSiblings = true) {l : LengthOrRange} {ty suffix lo hi : String}
    (hlo : "min" ++ suffix = lo) (hhi : "max" ++ suffix = hi) (h1 : lo ∈ boundKeys) (h2 : hi ∈ boundKeys)
    {P : Json → Prop} (hP : ∀ x, P x → InBounds env (some l) lo hi x) :
    ∀ f ∈ lengthOrRangeMutators l ty suffix, Restricts D env P f := by
  intro f hf
  unfold lengthOrRangeMutators at hf
  rw [hlo, hhi] at hf
  rcases List.mem_append.1 hf with hf | hf
  · cases hv : l.min.or l.equal with
    | none => rw [hv] at hf; cases hf
    | some v =>
      rw [hv] at hf
      simp only [Option.elim_some, List.mem_singleton] at hf
      subst hf
      exact .bound h h1 fun x hx => (hP x hx l rfl).1 v hv
  · cases hv : l.max.or l.equal with
    | none => rw [hv] at hf; cases hf
    | some v =>
      rw [hv] at hf
      simp only [Option.elim_some, List.mem_singleton] at hf
      subst hf
      exact .bound h h2 fun x hx => (hP x hx l rfl).2 v hv

/-- What obeys the attributes stays valid. -/
theorem restricts_attrs (h : D.refSiblings = true) : ∀ a : ValidationAttrs, ∀ f ∈ a.mutators,
    Restricts D env (Obeys env a) f
  | .mk length range pattern regex contains format inner => by
    intro f hf
    unfold ValidationAttrs.mutators at hf
    simp only [List.mem_append] at hf
    rcases hf with ((((hf | hf) | hf) | hf) | hf) | hf
    · cases length with
      | none => cases hf
      | some l =>
        rcases List.mem_append.1 hf with hf | hf
        · exact Restricts.bounds h rfl rfl (by decide) (by decide) (fun x hx => by unfold Obeys at hx; exact hx.1) f hf
        · exact Restricts.bounds h rfl rfl (by decide) (by decide) (fun x hx => by unfold Obeys at hx; exact hx.2.1) f hf
    · cases range with
      | none => cases hf
      | some l =>
        exact Restricts.bounds h rfl rfl (by decide) (by decide) (fun x hx => by unfold Obeys at hx; exact hx.2.2.1) f hf
    · cases hp : regex.or pattern with
      | none => rw [hp] at hf; cases hf
      | some p =>
        rw [hp] at hf
        simp only [Option.elim_some, List.mem_singleton] at hf
        subst hf
        exact .bound h (by decide) fun x hx => by unfold Obeys at hx; exact hx.2.2.2.1 p hp
    · cases contains with
      | none => cases hf
      | some c =>
        simp only [Option.elim_some, List.mem_singleton] at hf
        subst hf
        exact .bound h (by decide) fun x hx => by unfold Obeys at hx; exact hx.2.2.2.2.1 _ rfl
    · cases format with
      | none => cases hf
      | some g =>
        simp only [Option.elim_some, List.mem_singleton] at hf
        subst hf
        exact .annotates h (.inl ⟨"format", by decide, _, fun _ => rfl⟩)
    · cases inner with
      | none => cases hf
      | some a =>
        simp only [List.mem_singleton] at hf
        subst hf
        exact .inner h (.run (restricts_attrs h a)) fun x hx => by unfold Obeys at hx; exact hx.2.2.2.2.2

theorem obeys_noAttrs (x : Json) : Obeys env .noAttrs x := by
  unfold ValidationAttrs.noAttrs Obeys
  exact ⟨fun _ h => (by cases h), fun _ h => (by cases h), fun _ h => (by cases h), fun _ h => (by cases h),
    fun _ h => (by cases h), trivial⟩

theorem simple_null {k : String} (hk : k ∈ boundKeys) (v : Json) : simple env k v .null = true :=
  (entryOk_simple (m := []) (D := draft2020) ((by decide : ∀ k ∈ boundKeys, k ∈ simpleKeys) k hk) v).1
    (entryOk_nullBlind ((by decide : ∀ k ∈ boundKeys, k ∈ nullBlind) k hk) v)

/-- Null obeys all attributes. -/
theorem obeys_null (a : ValidationAttrs) : Obeys env a .null := by
  obtain ⟨length, range, pattern, regex, contains, format, inner⟩ := a
  unfold Obeys
  refine ⟨fun l _ => ⟨fun v _ => simple_null (by decide) v, fun v _ => simple_null (by decide) v⟩,
    fun l _ => ⟨fun v _ => simple_null (by decide) v, fun v _ => simple_null (by decide) v⟩,
    fun l _ => ⟨fun v _ => simple_null (by decide) v, fun v _ => simple_null (by decide) v⟩,
    fun e _ => simple_null (by decide) _, fun e _ => simple_null (by decide) _, ?_⟩
  cases inner with
  | none => trivial
  | some a => intro y hy; cases hy

/-- Without validation attributes, all values obey. -/
theorem serialized_obeys {τ : Type} {w : Nat} {base : τ → τ} {decl : τ → Decl τ}
    (hn : ∀ t, ∀ f ∈ declFields (decl t), f.validation = .noAttrs) {t : τ} {j : Json}
    (h : Serialized w base decl t j) : SerializedIf w (FieldObeys env) base decl t j :=
  SerializedIf.imp (fun t f hf x _ => by unfold FieldObeys; rw [hn t f hf]; exact obeys_noAttrs x) h

end Verif
