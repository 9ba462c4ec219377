import Verif.Lemmas.Generator

/-!
# What a call leaves alone, from any generator state
-/

namespace Verif
open Spec

variable {τ : Type}

/-- What every completed call keeps, whatever state the generator was in. -/
structure Kept (g g' : Gen τ) : Prop where
  settings : g'.settings = g.settings
  pending : g'.pending = g.pending
  rootStack : g'.rootStack = g.rootStack
  names : ∀ u n, lookupName g.names u = some n → lookupName g'.names u = some n
  defs : ∀ n v, Obj.get g.defs n = some v → Obj.get g'.defs n = some v
  sorted : Obj.Sorted g.defs → Obj.Sorted g'.defs

theorem Kept.refl (g : Gen τ) : Kept g g := ⟨rfl, rfl, rfl, fun _ _ h => h, fun _ _ h => h, fun h => h⟩

theorem Kept.trans {g g1 g2 : Gen τ} (h1 : Kept g g1) (h2 : Kept g1 g2) : Kept g g2 :=
  ⟨h2.settings.trans h1.settings, h2.pending.trans h1.pending, h2.rootStack.trans h1.rootStack,
    fun u n h => h2.names u n (h1.names u n h), fun n v h => h2.defs n v (h1.defs n v h),
    fun h => h2.sorted (h1.sorted h)⟩

/-- A runner of bodies that keeps what `Kept` says. -/
def Keeps (R : τ → Gen τ → Option (Json × Gen τ)) : Prop :=
  ∀ t g s g', R t g = some (s, g') → Kept g g'

variable {Γ : τ → TypeDef τ} {R : τ → Gen τ → Option (Json × Gen τ)}

theorem internal_kept (hR : Keeps R) {t : τ} {u : Uid} {g g' : Gen τ} {s : Json}
    (h : jsonSchemaInternal R t u g = some (s, g')) : Kept g g' := by
  unfold jsonSchemaInternal at h
  obtain ⟨⟨s1, g2⟩, hr, he⟩ := Option.map_eq_some_iff.1 h
  simp only [Prod.mk.injEq] at he
  obtain ⟨rfl, rfl⟩ := he
  have hk := hR _ _ _ _ hr
  refine ⟨hk.settings, ?_, hk.rootStack, hk.names, hk.defs, hk.sorted⟩
  show (if u ∉ g.pending then g2.pending.filter (· ≠ u) else g2.pending) = g.pending
  rw [hk.pending]
  by_cases hpd : u ∈ g.pending
  · simp [Gen.note, hpd]
  · simp only [Gen.note, hpd, not_false_eq_true, if_true, List.filter_cons, ne_eq, not_true_eq_false,
      decide_false]
    rw [List.filter_eq_self.2]
    · rfl
    · intro v hv
      have : v ≠ u := fun e => hpd (e ▸ hv)
      simpa using this

theorem nameFor_kept (t : τ) (g : Gen τ) : Kept g (nameFor Γ t g).2 ∧
    lookupName (nameFor Γ t g).2.names (uidOf Γ g t) = some (nameFor Γ t g).1 := by
  unfold nameFor
  cases h : lookupName g.names (uidOf Γ g t) with
  | some n => exact ⟨Kept.refl g, h⟩
  | none =>
    refine ⟨⟨rfl, rfl, rfl, ?_, fun _ _ h => h, fun h => h⟩, ?_⟩
    · intro u n hu
      show (if _ then _ else _) = _
      rw [if_neg, hu]
      rintro rfl; rw [h] at hu; cases hu
    · show (if _ then _ else _) = _
      rw [if_pos rfl]

theorem nameFor_pending (t : τ) (g : Gen τ) : (nameFor Γ t g).2.pending = g.pending := by
  unfold nameFor; cases lookupName g.names (uidOf Γ g t) <;> rfl

/-- The state in which the body of a newly named type is run. -/
theorem insertNew_kept (hR : Keeps R) {t : τ} {u : Uid} {name : String} {g g' : Gen τ}
    (hd : Obj.get g.defs name = none) (h : insertNewSubschemaFor R t name u g = some g') :
    Kept g g' ∧ ∃ s g1, jsonSchemaInternal R t u { g with defs := Obj.insert g.defs name (.bool false) } =
      some (s, g1) ∧ g' = { g1 with defs := Obj.insert g1.defs name s } := by
  unfold insertNewSubschemaFor at h
  obtain ⟨⟨s1, g1⟩, hr, rfl⟩ := Option.map_eq_some_iff.1 h
  refine ⟨?_, s1, g1, hr, rfl⟩
  have hk := internal_kept hR hr
  refine ⟨hk.settings, hk.pending, hk.rootStack, hk.names, ?_,
    fun h => Obj.sorted_insert (hk.sorted (Obj.sorted_insert h _ _)) _ _⟩
  intro n v hv
  have hne : name ≠ n := by rintro rfl; rw [hd] at hv; cases hv
  show Obj.get (Obj.insert g1.defs name s1) n = _
  rw [Obj.get_insert_ne _ _ hne]
  refine hk.defs n v ?_
  show Obj.get (Obj.insert g.defs name _) n = _
  rw [Obj.get_insert_ne _ _ hne]; exact hv

theorem subschemaFor_kept (hR : Keeps R) {t : τ} {g g' : Gen τ} {s : Json}
    (h : subschemaFor Γ R t g = some (s, g')) : Kept g g' := by
  by_cases hc : ReturnsRef Γ g t
  case neg =>
    rw [subschemaFor_inline (fun e => hc (returnsRef_iff.1 e))] at h
    exact internal_kept hR h
  by_cases hroot : g.rootStack.head? = some (uidOf Γ g t)
  · rw [subschemaFor_root hc hroot] at h
    simp only [Option.some.injEq, Prod.mk.injEq] at h
    obtain ⟨rfl, rfl⟩ := h
    exact ⟨rfl, rfl, rfl, fun _ _ h => h, fun _ _ h => h, fun h => h⟩
  have hk0 : Kept g (afterName Γ t g) := by
    have := (nameFor_kept (Γ := Γ) t g).1
    exact ⟨this.settings, this.pending, this.rootStack, this.names, this.defs, this.sorted⟩
  by_cases hd : Obj.has g.defs (nameFor Γ t g).1 = true
  · rw [subschemaFor_known hc hroot hd] at h
    simp only [Option.some.injEq, Prod.mk.injEq] at h
    obtain ⟨rfl, rfl⟩ := h
    exact hk0
  · rw [subschemaFor_new hc hroot hd] at h
    obtain ⟨g4, hins, he⟩ := Option.map_eq_some_iff.1 h
    simp only [Prod.mk.injEq] at he
    obtain ⟨rfl, rfl⟩ := he
    refine hk0.trans (insertNew_kept hR ?_ hins).1
    show Obj.get (nameFor Γ t g).2.defs _ = none
    rw [nameFor_defs]
    simpa [Obj.has] using hd

theorem rootSchemaFor_kept (hR : Keeps R) {t : τ} {g g' : Gen τ} {s : Json}
    (h : rootSchemaFor Γ R t g = some (s, g')) : Kept g g' := by
  unfold rootSchemaFor at h
  obtain ⟨⟨s1, g1⟩, hint, h⟩ := Option.bind_eq_some_iff.1 h
  obtain ⟨m, hm, he⟩ := Option.map_eq_some_iff.1 h
  simp only [Prod.mk.injEq] at he
  obtain ⟨rfl, rfl⟩ := he
  have hk := internal_kept hR hint
  refine ⟨hk.settings, hk.pending, ?_, hk.names, hk.defs, hk.sorted⟩
  show g1.rootStack.tail = _
  rw [hk.rootStack]; rfl

theorem exec_kept (hR : Keeps R) (p : Prog τ) : ∀ {g g' : Gen τ} {s : Json},
    exec Γ R p g = some (s, g') → Kept g g' := by
  induction p with
  | ret s =>
    intro g g' s' h
    simp only [exec, Option.some.injEq, Prod.mk.injEq] at h
    obtain ⟨rfl, rfl⟩ := h
    exact Kept.refl g
  | sub t k ih =>
    intro g g' s' h
    obtain ⟨⟨s1, g1⟩, h1, h2⟩ := Option.bind_eq_some_iff.1 h
    exact (subschemaFor_kept hR h1).trans (ih s1 h2)
  | direct t k ih =>
    intro g g' s' h
    obtain ⟨⟨s1, g1⟩, h1, h2⟩ := Option.bind_eq_some_iff.1 h
    exact (hR _ _ _ _ h1).trans (ih s1 h2)
  | root t k ih =>
    intro g g' s' h
    obtain ⟨⟨s1, g1⟩, h1, h2⟩ := Option.bind_eq_some_iff.1 h
    exact (rootSchemaFor_kept hR h1).trans (ih s1 h2)
  | askSettings k ih => intro g g' s' h; exact ih _ h
  | askDefs k ih => intro g g' s' h; exact ih _ h

theorem run_keeps (Γ : τ → TypeDef τ) (n : Nat) : Keeps (run Γ n) := by
  induction n with
  | zero => intro t g s g' h; cases h
  | succ n ih => intro t g s g' h; exact exec_kept ih _ h

theorem Call.kept {g g' : Gen τ} {s : Json} (h : Call Γ g s g') : Kept g g' := by
  cases h with
  | sub h => exact subschemaFor_kept (run_keeps Γ _) h
  | direct h => exact run_keeps Γ _ _ _ _ _ h
  | root h => exact rootSchemaFor_kept (run_keeps Γ _) h

theorem Calls.kept {g g' : Gen τ} (h : Calls Γ g g') : Kept g g' := by
  induction h with
  | nil => exact Kept.refl _
  | call _ hc ih => exact ih.trans (Call.kept hc)

/-- After a call that returned a reference, the same question is answered without running anything. -/
theorem subschemaFor_again {R' : τ → Gen τ → Option (Json × Gen τ)} (hR : Keeps R) {t : τ}
    {g g' g'' : Gen τ} {s : Json} (hc : ReturnsRef Γ g t) (h : subschemaFor Γ R t g = some (s, g'))
    (hk : Kept g' g'') : subschemaFor Γ R' t g'' = some (s, g''.note (.handed t (uidOf Γ g t) s)) := by
  have hall := (subschemaFor_kept hR h).trans hk
  have hu : uidOf Γ g'' t = uidOf Γ g t := uidOf_eq hall.settings
  have hc' : ReturnsRef Γ g'' t := by
    unfold ReturnsRef; rw [hall.settings, hall.pending, hu]; exact hc
  by_cases hroot : g.rootStack.head? = some (uidOf Γ g t)
  · rw [subschemaFor_root hc hroot] at h
    simp only [Option.some.injEq, Prod.mk.injEq] at h
    obtain ⟨rfl, rfl⟩ := h
    rw [subschemaFor_root hc' (by rw [hall.rootStack, hu]; exact hroot), hu]
  have hroot' : g''.rootStack.head? ≠ some (uidOf Γ g'' t) := by rw [hall.rootStack, hu]; exact hroot
  have hn := (nameFor_kept (Γ := Γ) t g).2
  generalize hname : (nameFor Γ t g).1 = name at *
  have key : s = refSchema g name ∧ lookupName g'.names (uidOf Γ g t) = some name ∧
      Obj.has g'.defs name = true := by
    by_cases hd : Obj.has g.defs name = true
    · rw [subschemaFor_known hc hroot (by rw [hname]; exact hd)] at h
      simp only [Option.some.injEq, Prod.mk.injEq] at h
      obtain ⟨rfl, rfl⟩ := h
      refine ⟨by rw [hname], hn, ?_⟩
      show Obj.has (nameFor Γ t g).2.defs name = true
      rw [nameFor_defs]; exact hd
    · rw [subschemaFor_new hc hroot (by rw [hname]; exact hd)] at h
      obtain ⟨g4, hins, he⟩ := Option.map_eq_some_iff.1 h
      simp only [Prod.mk.injEq] at he
      obtain ⟨rfl, rfl⟩ := he
      rw [hname] at hins
      obtain ⟨hk1, s1, g1, _, hg4⟩ := insertNew_kept hR (by
        show Obj.get (nameFor Γ t g).2.defs _ = none
        rw [nameFor_defs]; simpa [Obj.has] using hd) hins
      refine ⟨by rw [hname], hk1.names _ _ hn, ?_⟩
      rw [hg4]
      simp [Obj.has]
  obtain ⟨rfl, hl, hd⟩ := key
  have hl' : lookupName g''.names (uidOf Γ g'' t) = some name := by rw [hu]; exact hk.names _ _ hl
  have hnf : nameFor Γ t g'' = (name, g'') := by unfold nameFor; rw [hl']
  have hd' : Obj.has g''.defs name = true := by
    obtain ⟨v, hv⟩ := Option.isSome_iff_exists.1 hd
    simp [Obj.has, hk.defs _ _ hv]
  rw [subschemaFor_known hc' hroot' (by rw [hnf]; exact hd')]
  simp [hnf, afterName, refSchema, hall.settings, hu]

/-! ## Asking again for types that are generated in place -/

/-- The state differs only in the ghost log. -/
def SameState (g g' : Gen τ) : Prop := ∃ evs, g' = { g with log := evs ++ g.log }

theorem SameState.kept {g g' : Gen τ} (h : SameState g g') : Kept g g' := by
  obtain ⟨evs, rfl⟩ := h; exact ⟨rfl, rfl, rfl, fun _ _ h => h, fun _ _ h => h, fun h => h⟩

theorem SameState.trans {g g1 g2 : Gen τ} (h1 : SameState g g1) (h2 : SameState g1 g2) :
    SameState g g2 := by
  obtain ⟨e1, rfl⟩ := h1; obtain ⟨e2, rfl⟩ := h2
  exact ⟨e2 ++ e1, by simp⟩

/-- A runner that, asked again in a later state, gives the same answer and changes nothing. -/
def Stable (R : τ → Gen τ → Option (Json × Gen τ)) : Prop :=
  ∀ t g s g' g'', R t g = some (s, g') → Kept g' g'' → ∃ g3, R t g'' = some (s, g3) ∧ SameState g'' g3

theorem internal_stable (hK : Keeps R) (hR : Stable R) {t : τ} {u : Uid} {g g' g'' : Gen τ} {s : Json}
    (h : jsonSchemaInternal R t u g = some (s, g')) (hk : Kept g' g'') :
    ∃ g3, jsonSchemaInternal R t u g'' = some (s, g3) ∧ SameState g'' g3 := by
  have hpend : g''.pending = g.pending := hk.pending.trans (internal_kept hK h).pending
  unfold jsonSchemaInternal at h
  obtain ⟨⟨s1, g2⟩, hr, he⟩ := Option.map_eq_some_iff.1 h
  simp only [Prod.mk.injEq] at he
  obtain ⟨rfl, rfl⟩ := he
  have hk2 := hK _ _ _ _ hr
  obtain ⟨g3, h3, evs, rfl⟩ := hR _ _ _ _
    (({ g'' with pending := if u ∉ g''.pending then u :: g''.pending else g''.pending } :
      Gen τ).note (.enter t u)) hr
    ⟨hk.settings, by rw [hk2.pending]; simp only [Gen.note, hpend], hk.rootStack, hk.names, hk.defs, hk.sorted⟩
  unfold jsonSchemaInternal
  refine ⟨_, by simp only [h3, Option.map_some]; rfl, ?_⟩
  refine ⟨.leave t u s1 :: (evs ++ [.enter t u]), ?_⟩
  simp only [Gen.note, Gen.mk.injEq, true_and, List.cons_append, List.append_assoc, List.nil_append, and_true]
  by_cases hpd : u ∈ g''.pending
  · simp [hpd]
  · simp only [hpd, not_false_eq_true, if_true, List.filter_cons, ne_eq, not_true_eq_false, decide_false]
    rw [List.filter_eq_self.2]
    · rfl
    · intro v hv
      have : v ≠ u := fun e => hpd (e ▸ hv)
      simpa using this

theorem subschemaFor_stable (hK : Keeps R) (hR : Stable R) {t : τ} {g g' g'' : Gen τ} {s : Json}
    (h : subschemaFor Γ R t g = some (s, g')) (hk : Kept g' g'') :
    ∃ g3, subschemaFor Γ R t g'' = some (s, g3) ∧ SameState g'' g3 := by
  by_cases hc : ReturnsRef Γ g t
  · exact ⟨_, subschemaFor_again hK hc h hk, [.handed t (uidOf Γ g t) s], rfl⟩
  · have hall := (subschemaFor_kept hK h).trans hk
    have hu : uidOf Γ g'' t = uidOf Γ g t := uidOf_eq hall.settings
    have hc' : ¬ ReturnsRef Γ g'' t := by
      unfold ReturnsRef; rw [hall.settings, hall.pending, hu]; exact hc
    rw [subschemaFor_inline (fun e => hc (returnsRef_iff.1 e))] at h
    rw [subschemaFor_inline (fun e => hc' (returnsRef_iff.1 e)), hu]
    exact internal_stable hK hR h hk

/-- The body uses neither `root_schema_for` nor `definitions`. All of schemars' own implementations and
everything produced by the derive macro is of this kind, except the map types
(schemars/src/json_schema_impls/maps.rs:58-64). -/
inductive Plain : Prog τ → Prop
  | ret (s) : Plain (.ret s)
  | sub {t k} : (∀ s, Plain (k s)) → Plain (.sub t k)
  | direct {t k} : (∀ s, Plain (k s)) → Plain (.direct t k)
  | askSettings {k} : (∀ s, Plain (k s)) → Plain (.askSettings k)

theorem exec_stable (hK : Keeps R) (hR : Stable R) {p : Prog τ} (hp : Plain p) :
    ∀ {g g' g'' : Gen τ} {s : Json}, exec Γ R p g = some (s, g') → Kept g' g'' →
      ∃ g3, exec Γ R p g'' = some (s, g3) ∧ SameState g'' g3 := by
  induction hp with
  | ret s =>
    intro g g' g'' s' h hk
    simp only [exec, Option.some.injEq, Prod.mk.injEq] at h
    obtain ⟨rfl, rfl⟩ := h
    exact ⟨g'', rfl, [], rfl⟩
  | sub _ ih =>
    intro g g' g'' s' h hk
    obtain ⟨⟨s1, g1⟩, h1, h2⟩ := Option.bind_eq_some_iff.1 h
    obtain ⟨g3, h3, hs3⟩ := subschemaFor_stable hK hR h1 ((exec_kept hK _ h2).trans hk)
    obtain ⟨g4, h4, hs4⟩ := ih s1 h2 (hk.trans hs3.kept)
    exact ⟨g4, by simp only [exec, h3, Option.bind_some]; exact h4, hs3.trans hs4⟩
  | direct _ ih =>
    intro g g' g'' s' h hk
    obtain ⟨⟨s1, g1⟩, h1, h2⟩ := Option.bind_eq_some_iff.1 h
    obtain ⟨g3, h3, hs3⟩ := hR _ _ _ _ _ h1 ((exec_kept hK _ h2).trans hk)
    obtain ⟨g4, h4, hs4⟩ := ih s1 h2 (hk.trans hs3.kept)
    exact ⟨g4, by simp only [exec, h3, Option.bind_some]; exact h4, hs3.trans hs4⟩
  | askSettings _ ih =>
    intro g g' g'' s' h hk
    have hset : g''.settings = g.settings := hk.settings.trans (exec_kept (Γ := Γ) hK _ h).settings
    obtain ⟨g4, h4, hs4⟩ := ih _ h hk
    exact ⟨g4, by simp only [exec, hset]; exact h4, hs4⟩

theorem run_stable (hΓ : ∀ t, Plain (Γ t).body) (n : Nat) : Stable (run Γ n) := by
  induction n with
  | zero => intro t g s g' g'' h; cases h
  | succ n ih => intro t g s g' g'' h hk; exact exec_stable (run_keeps Γ n) ih (hΓ t) h hk

end Verif
