import Verif.Lemmas.GeneratorFrame

/-!
# Facts about the name table that every call keeps
-/

namespace Verif
open Spec

variable {τ : Type} {Γ : τ → TypeDef τ}

/-- A fact about the name table and the used names that survives naming one more type. -/
def NameFact (Γ : τ → TypeDef τ) (c : Contract) (Q : List (Uid × String) → List String → Prop) : Prop :=
  ∀ t names used, Q names used → lookupName names ((Γ t).schemaId, c) = none →
    Q ((((Γ t).schemaId, c), freshName used (Γ t).schemaName) :: names)
      (freshName used (Γ t).schemaName :: used)

/-- A runner of bodies that keeps the fact `Q`. -/
def KeepsFact (c : Contract) (Q : List (Uid × String) → List String → Prop)
    (R : τ → Gen τ → Option (Json × Gen τ)) : Prop :=
  ∀ t g s g', g.settings.contract = c → Q g.names g.used → R t g = some (s, g') → Q g'.names g'.used

variable {c : Contract} {Q : List (Uid × String) → List String → Prop}
  {R : τ → Gen τ → Option (Json × Gen τ)}

theorem nameFor_fact (hQ : NameFact Γ c Q) {t : τ} {g : Gen τ} (hc : g.settings.contract = c)
    (h : Q g.names g.used) : Q (nameFor Γ t g).2.names (nameFor Γ t g).2.used := by
  unfold nameFor
  cases hl : lookupName g.names (uidOf Γ g t) with
  | some n => exact h
  | none =>
    unfold uidOf at hl
    rw [hc] at hl
    have := hQ t g.names g.used h hl
    rw [← hc] at this; exact this

theorem internal_fact (hR : KeepsFact c Q R) {t : τ} {u : Uid} {g g' : Gen τ} {s : Json}
    (hc : g.settings.contract = c) (hq : Q g.names g.used)
    (h : jsonSchemaInternal R t u g = some (s, g')) : Q g'.names g'.used := by
  unfold jsonSchemaInternal at h
  obtain ⟨⟨s1, g2⟩, hr, he⟩ := Option.map_eq_some_iff.1 h
  simp only [Prod.mk.injEq] at he
  obtain ⟨rfl, rfl⟩ := he
  have := hR _ _ _ _ (by exact hc) (by exact hq) hr
  exact this

theorem subschemaFor_fact (hQ : NameFact Γ c Q) (hR : KeepsFact c Q R) {t : τ} {g g' : Gen τ} {s : Json}
    (hset : g.settings.contract = c) (hq : Q g.names g.used)
    (h : subschemaFor Γ R t g = some (s, g')) : Q g'.names g'.used := by
  by_cases hc : ReturnsRef Γ g t
  case neg =>
    rw [subschemaFor_inline (fun e => hc (returnsRef_iff.1 e))] at h
    exact internal_fact hR hset hq h
  by_cases hroot : g.rootStack.head? = some (uidOf Γ g t)
  · rw [subschemaFor_root hc hroot] at h
    simp only [Option.some.injEq, Prod.mk.injEq] at h
    obtain ⟨rfl, rfl⟩ := h
    exact hq
  have hq0 : Q (afterName Γ t g).names (afterName Γ t g).used := nameFor_fact hQ hset hq
  by_cases hd : Obj.has g.defs (nameFor Γ t g).1 = true
  · rw [subschemaFor_known hc hroot hd] at h
    simp only [Option.some.injEq, Prod.mk.injEq] at h
    obtain ⟨rfl, rfl⟩ := h
    exact hq0
  · rw [subschemaFor_new hc hroot hd] at h
    obtain ⟨g4, hins, he⟩ := Option.map_eq_some_iff.1 h
    simp only [Prod.mk.injEq] at he
    obtain ⟨rfl, rfl⟩ := he
    unfold insertNewSubschemaFor at hins
    obtain ⟨⟨s1, g1⟩, hr, rfl⟩ := Option.map_eq_some_iff.1 hins
    have hset2 : (afterName Γ t g).settings.contract = c := by
      show (nameFor Γ t g).2.settings.contract = c
      rw [nameFor_settings]; exact hset
    have := internal_fact hR (by exact hset2) (by exact hq0) hr
    exact this

theorem rootSchemaFor_fact (hR : KeepsFact c Q R) {t : τ} {g g' : Gen τ} {s : Json}
    (hset : g.settings.contract = c) (hq : Q g.names g.used)
    (h : rootSchemaFor Γ R t g = some (s, g')) : Q g'.names g'.used := by
  unfold rootSchemaFor at h
  obtain ⟨⟨s1, g1⟩, hint, h⟩ := Option.bind_eq_some_iff.1 h
  obtain ⟨m, hm, he⟩ := Option.map_eq_some_iff.1 h
  simp only [Prod.mk.injEq] at he
  obtain ⟨rfl, rfl⟩ := he
  have := internal_fact hR (by exact hset) (by exact hq) hint
  exact this

theorem exec_fact (hQ : NameFact Γ c Q) (hK : Keeps R) (hR : KeepsFact c Q R) (p : Prog τ) :
    ∀ {g g' : Gen τ} {s : Json}, g.settings.contract = c → Q g.names g.used →
      exec Γ R p g = some (s, g') → Q g'.names g'.used := by
  induction p with
  | ret s =>
    intro g g' s' hc hq h
    simp only [exec, Option.some.injEq, Prod.mk.injEq] at h
    obtain ⟨rfl, rfl⟩ := h
    exact hq
  | sub t k ih =>
    intro g g' s' hc hq h
    obtain ⟨⟨s1, g1⟩, h1, h2⟩ := Option.bind_eq_some_iff.1 h
    exact ih s1 (by rw [(subschemaFor_kept hK h1).settings]; exact hc) (subschemaFor_fact hQ hR hc hq h1) h2
  | direct t k ih =>
    intro g g' s' hc hq h
    obtain ⟨⟨s1, g1⟩, h1, h2⟩ := Option.bind_eq_some_iff.1 h
    exact ih s1 (by rw [(hK _ _ _ _ h1).settings]; exact hc) (hR _ _ _ _ hc hq h1) h2
  | root t k ih =>
    intro g g' s' hc hq h
    obtain ⟨⟨s1, g1⟩, h1, h2⟩ := Option.bind_eq_some_iff.1 h
    exact ih s1 (by rw [(rootSchemaFor_kept hK h1).settings]; exact hc) (rootSchemaFor_fact hR hc hq h1) h2
  | askSettings k ih => intro g g' s' hc hq h; exact ih _ hc hq h
  | askDefs k ih => intro g g' s' hc hq h; exact ih _ hc hq h

theorem run_fact (hQ : NameFact Γ c Q) (n : Nat) : KeepsFact c Q (run Γ n) := by
  induction n with
  | zero => intro t g s g' _ _ h; cases h
  | succ n ih => intro t g s g' hc hq h; exact exec_fact hQ (run_keeps Γ n) ih _ hc hq h

theorem Call.fact (hQ : NameFact Γ c Q) {g g' : Gen τ} {s : Json} (hc : g.settings.contract = c)
    (hq : Q g.names g.used) (h : Call Γ g s g') : Q g'.names g'.used := by
  cases h with
  | sub h => exact subschemaFor_fact hQ (run_fact hQ _) hc hq h
  | direct h => exact run_fact hQ _ _ _ _ _ hc hq h
  | root h => exact rootSchemaFor_fact (run_fact hQ _) hc hq h

theorem Calls.fact (hQ : NameFact Γ c Q) {g g' : Gen τ} (hc : g.settings.contract = c)
    (hq : Q g.names g.used) (h : Calls Γ g g') : Q g'.names g'.used := by
  induction h with
  | nil => exact hq
  | call hcs hcall ih => exact Call.fact hQ (by rw [(Calls.kept hcs).settings]; exact hc) ih hcall

theorem Hist.fact {st : Settings} (hQ : NameFact Γ st.contract Q) (h0 : Q [] []) {g : Gen τ}
    (h : Hist Γ st g) : Q g.names g.used := by
  have hs : ∀ {g : Gen τ}, Hist Γ st g → g.settings = st := by
    intro g h
    induction h with
    | new => rfl
    | call _ hc ih => rw [(Call.kept hc).settings, ih]
    | take _ ih => exact ih
  induction h with
  | new => exact h0
  | call hr hc ih => exact Call.fact hQ (by rw [hs hr]) ih hc
  | take _ ih => exact ih

/-! ## Two such facts -/

theorem repr_digits (i : Nat) : ∀ c ∈ (Nat.repr i).toList, 0x10 ≤ c.toNat := by
  intro c hc
  have h : decFold (Nat.repr i).toList 0 = some i := by
    have := (parseIndex_iff (Nat.repr i).toList i).2 rfl
    unfold parseIndex at this
    split at this
    · cases this
    · split at this
      · cases this
      · exact this
  have key : ∀ (l : List Char) (a n : Nat), decFold l a = some n → ∀ c ∈ l, 0x10 ≤ c.toNat := by
    intro l
    induction l with
    | nil => intro _ _ _ c hc; cases hc
    | cons d l ih =>
      intro a n h c hc
      obtain ⟨x, hx, h⟩ := Option.bind_eq_some_iff.1 h
      rcases List.mem_cons.1 hc with rfl | hc
      · unfold decDigit at hx
        by_cases hd : 48 ≤ c.toNat ∧ c.toNat ≤ 57
        · omega
        · rw [if_neg hd] at hx; cases hx
      · exact ih _ _ h c hc
  exact key _ _ _ h c hc

/-- Names have no characters below U+0010 when the types' own names have none. -/
theorem printable_fact (hΓ : ∀ t, ∀ ch ∈ (Γ t).schemaName.toList, 0x10 ≤ ch.toNat) (c : Contract) :
    NameFact Γ c fun names _ => ∀ e ∈ names, ∀ ch ∈ e.2.toList, 0x10 ≤ ch.toNat := by
  intro t names used hq _ e he
  rcases List.mem_cons.1 he with rfl | he
  · show ∀ ch ∈ (freshName used (Γ t).schemaName).toList, _
    unfold freshName
    by_cases h : (Γ t).schemaName ∈ used
    · rw [if_pos h]
      obtain ⟨j, _, h2, _⟩ := freshFrom_form used (Γ t).schemaName (used.length + 1) 2
      rw [h2, String.toList_append]
      intro ch hch
      rcases List.mem_append.1 hch with hch | hch
      · exact hΓ t ch hch
      · exact repr_digits j ch hch
    · rw [if_neg h]; exact hΓ t
  · exact hq e he

/-- When no two ids share a name, every id is registered under its own name, without a number. -/
theorem ownName_fact (hΓ : ∀ t t', (Γ t).schemaName = (Γ t').schemaName → (Γ t).schemaId = (Γ t').schemaId)
    (c : Contract) :
    NameFact Γ c fun names used => (∀ u n, (u, n) ∈ names →
        ∃ t, u = ((Γ t).schemaId, c) ∧ n = (Γ t).schemaName) ∧ ∀ n ∈ used, ∃ u, (u, n) ∈ names := by
  intro t names used hq hl
  have hfresh : freshName used (Γ t).schemaName = (Γ t).schemaName := by
    unfold freshName
    by_cases h : (Γ t).schemaName ∈ used
    · obtain ⟨u, hu⟩ := hq.2 _ h
      obtain ⟨t', rfl, ht'⟩ := hq.1 _ _ hu
      rw [← hΓ t t' ht'] at hu
      exact absurd hu (lookupName_none hl _)
    · rw [if_neg h]
  rw [hfresh]
  refine ⟨?_, ?_⟩
  · intro u n h
    rcases List.mem_cons.1 h with h | h
    · cases h; exact ⟨t, rfl, rfl⟩
    · exact hq.1 u n h
  · intro n hn
    rcases List.mem_cons.1 hn with rfl | hn
    · exact ⟨_, List.mem_cons_self⟩
    · obtain ⟨u, hu⟩ := hq.2 n hn
      exact ⟨u, List.mem_cons_of_mem _ hu⟩

end Verif
