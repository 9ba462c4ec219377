import Verif.Spec.Generator
import Verif.Lemmas.Obj
import Verif.Lemmas.Pointer
import Mathlib.Data.List.Perm.Subperm
import Mathlib.Data.List.Nodup

/-!
# Invariant of the generator and effect of a call
-/

namespace Verif
open Spec

/-! ## Fresh names -/

theorem repr_inj {a b : Nat} (h : Nat.repr a = Nat.repr b) : a = b := by
  have h1 := (parseIndex_iff (Nat.repr a).toList a).2 rfl
  have h2 := (parseIndex_iff (Nat.repr a).toList b).2 (by rw [h])
  rw [h1] at h2; exact Option.some.inj h2

theorem numbered_inj {base : String} {a b : Nat} (h : base ++ Nat.repr a = base ++ Nat.repr b) : a = b := by
  have h1 : (base ++ Nat.repr a).toList = (base ++ Nat.repr b).toList := by rw [h]
  rw [String.toList_append, String.toList_append, List.append_cancel_left_eq] at h1
  exact repr_inj (String.toList_injective h1)

theorem freshFrom_mem {used : List String} {base : String} (fuel i : Nat)
    (h : freshFrom used base fuel i ∈ used) : ∀ j, i ≤ j → j < i + fuel → base ++ Nat.repr j ∈ used := by
  induction fuel generalizing i with
  | zero => intro j h1 h2; omega
  | succ n ih =>
    simp only [freshFrom] at h
    by_cases hi : base ++ Nat.repr i ∈ used
    · rw [if_pos hi] at h
      intro j h1 h2
      rcases Nat.eq_or_lt_of_le h1 with rfl | h3
      · exact hi
      · exact ih _ h j h3 (by omega)
    · rw [if_neg hi] at h; exact absurd h hi

theorem freshFrom_not_mem (used : List String) (base : String) (i : Nat) :
    freshFrom used base (used.length + 1) i ∉ used := by
  intro h
  have hall := freshFrom_mem _ _ h
  let l := (List.range (used.length + 1)).map fun j => base ++ Nat.repr (i + j)
  have hnd : l.Nodup := by
    refine List.Nodup.map_on ?_ List.nodup_range
    intro a _ b _ hab
    have := numbered_inj hab
    omega
  have hsub : l ⊆ used := by
    intro x hx
    obtain ⟨j, hj, rfl⟩ := List.mem_map.1 hx
    rw [List.mem_range] at hj
    exact hall _ (by omega) (by omega)
  have := (hnd.subperm hsub).length_le
  simp [l] at this

theorem freshName_not_mem (used : List String) (base : String) : freshName used base ∉ used := by
  unfold freshName
  by_cases h : base ∈ used
  · rw [if_pos h]; exact freshFrom_not_mem _ _ _
  · rw [if_neg h]; exact h

theorem freshFrom_form (used : List String) (base : String) (fuel i : Nat) :
    ∃ j, i ≤ j ∧ freshFrom used base fuel i = base ++ Nat.repr j ∧
      ∀ k, i ≤ k → k < j → base ++ Nat.repr k ∈ used := by
  induction fuel generalizing i with
  | zero => exact ⟨i, le_refl _, rfl, fun k h1 h2 => by omega⟩
  | succ n ih =>
    simp only [freshFrom]
    by_cases hi : base ++ Nat.repr i ∈ used
    · rw [if_pos hi]
      obtain ⟨j, h1, h2, h3⟩ := ih (i + 1)
      refine ⟨j, by omega, h2, fun k hk1 hk2 => ?_⟩
      rcases Nat.eq_or_lt_of_le hk1 with rfl | h
      · exact hi
      · exact h3 k h hk2
    · rw [if_neg hi]; exact ⟨i, le_refl _, rfl, fun k h1 h2 => by omega⟩

/-! ## Name table -/

theorem lookupName_mem {names : List (Uid × String)} {u : Uid} {n : String}
    (h : lookupName names u = some n) : (u, n) ∈ names := by
  induction names with
  | nil => cases h
  | cons e r ih =>
    obtain ⟨v, m⟩ := e
    simp only [lookupName] at h
    by_cases hv : v = u
    · rw [if_pos hv] at h; cases h; subst hv; exact List.mem_cons_self
    · rw [if_neg hv] at h; exact List.mem_cons_of_mem _ (ih h)

theorem lookupName_none {names : List (Uid × String)} {u : Uid}
    (h : lookupName names u = none) : ∀ n, (u, n) ∉ names := by
  induction names with
  | nil => simp
  | cons e r ih =>
    obtain ⟨v, m⟩ := e
    simp only [lookupName] at h
    by_cases hv : v = u
    · rw [if_pos hv] at h; cases h
    · rw [if_neg hv] at h
      intro n hn
      rcases List.mem_cons.1 hn with hn | hn
      · cases hn; exact hv rfl
      · exact ih h n hn

theorem lookupName_of_mem {names : List (Uid × String)} (hn : (names.map Prod.fst).Nodup) {u : Uid}
    {n : String} (h : (u, n) ∈ names) : lookupName names u = some n := by
  induction names with
  | nil => cases h
  | cons e r ih =>
    obtain ⟨v, m⟩ := e
    simp only [List.map_cons, List.nodup_cons] at hn
    simp only [lookupName]
    rcases List.mem_cons.1 h with h | h
    · cases h; rw [if_pos rfl]
    · rw [if_neg, ih hn.2 h]
      rintro rfl
      exact hn.1 (List.mem_map_of_mem (f := Prod.fst) h)

/-! ## Events -/

variable {τ : Type}

theorem happened_nil {e : Event τ} {b base} : ¬ Happened e b [] base := by
  rintro ⟨x, y, h, _⟩; cases x <;> cases h

theorem happened_cons {e d : Event τ} {b l base : List (Event τ)} :
    Happened e b (d :: l) base ↔ (e = d ∧ b = l ++ base) ∨ Happened e b l base := by
  constructor
  · rintro ⟨x, y, h, rfl⟩
    cases x with
    | nil => simp at h; exact .inl ⟨h.1.symm, by rw [h.2]⟩
    | cons c x =>
      simp at h
      exact .inr ⟨x, y, h.2, rfl⟩
  · rintro (⟨rfl, rfl⟩ | ⟨x, y, rfl, rfl⟩)
    · exact ⟨[], l, rfl, rfl⟩
    · exact ⟨d :: x, y, rfl, rfl⟩

theorem happened_append {e : Event τ} {b l1 l2 base : List (Event τ)} :
    Happened e b (l1 ++ l2) base ↔ Happened e b l1 (l2 ++ base) ∨ Happened e b l2 base := by
  induction l1 with
  | nil => simp [happened_nil]
  | cons d l ih => simp only [List.cons_append, happened_cons, ih, List.append_assoc, or_assoc]

theorem Happened.mem {e : Event τ} {b l base} (h : Happened e b l base) : e ∈ l := by
  obtain ⟨x, y, rfl, _⟩ := h; simp

theorem mem_happened {e : Event τ} {l : List (Event τ)} (base) (h : e ∈ l) : ∃ b, Happened e b l base := by
  obtain ⟨x, y, rfl⟩ := List.append_of_mem h
  exact ⟨_, x, y, rfl, rfl⟩

/-! ## Invariant -/

/-- What holds of a generator at all times. -/
structure Inv (g : Gen τ) : Prop where
  ids : (g.names.map Prod.fst).Nodup
  vals : (g.names.map Prod.snd).Nodup
  used : ∀ e ∈ g.names, e.2 ∈ g.used
  sorted : Obj.Sorted g.defs
  pend : ∀ u, u ∈ g.pending ↔ u ∈ openOf g.log
  roots : g.rootStack = rootsOf g.log

theorem Inv.new (st : Settings) : Inv (Gen.new st : Gen τ) :=
  ⟨List.nodup_nil, List.nodup_nil, by simp [Gen.new], Obj.sorted_nil, by simp [Gen.new, openOf], rfl⟩

/-- What one event of a call says, in terms of the names `names` known and the definitions `D` present when
the call is over. -/
def EvOk (Γ : τ → TypeDef τ) (st : Settings) (names : List (Uid × String)) (D : String → Prop)
    (e : Event τ) (before : List (Event τ)) : Prop :=
  match e with
  | .enter t u => u = ((Γ t).schemaId, st.contract)
  | .leave t u s => u = ((Γ t).schemaId, st.contract) ∧ Ran Γ t s
  | .rootEnter t u => u = ((Γ t).schemaId, st.contract)
  | .rootLeave t u _ => u = ((Γ t).schemaId, st.contract)
  | .handed t u s =>
    u = ((Γ t).schemaId, st.contract) ∧ (Γ t).inlineSchema = false ∧
    (st.inlineSubschemas = true → u ∈ openOf before) ∧
    (((rootsOf before).head? = some u ∧ s = Schema.newRef "#") ∨
     ((rootsOf before).head? ≠ some u ∧
      ∃ n, (u, n) ∈ names ∧ s = Schema.newRef (refFor st.definitionsPath.toList n) ∧ D n))

theorem EvOk.mono {Γ : τ → TypeDef τ} {st names names' D D' e before} (h : EvOk Γ st names D e before)
    (hn : ∀ x ∈ names, x ∈ names') (hd : ∀ n, D n → D' n) : EvOk Γ st names' D' e before := by
  cases e with
  | handed t u s =>
    obtain ⟨h1, h2, h3, h4⟩ := h
    refine ⟨h1, h2, h3, ?_⟩
    rcases h4 with h4 | ⟨h4, n, h5, h6, h7⟩
    · exact .inl h4
    · exact .inr ⟨h4, n, hn _ h5, h6, hd _ h7⟩
  | _ => exact h

/-- The effect of a completed call. -/
structure Post (Γ : τ → TypeDef τ) (g g' : Gen τ) (evs : List (Event τ)) : Prop where
  inv : Inv g'
  settings : g'.settings = g.settings
  pending : g'.pending = g.pending
  rootStack : g'.rootStack = g.rootStack
  names : g.names <:+ g'.names
  used : g.used <:+ g'.used
  log : g'.log = evs ++ g.log
  opens : openOf g'.log = openOf g.log
  defsKeep : ∀ n v, Obj.get g.defs n = some v → Obj.get g'.defs n = some v
  defsNew : ∀ n v, Obj.get g'.defs n = some v → Obj.get g.defs n = none →
    ∃ t u, Event.leave t u v ∈ evs ∧ (u, n) ∈ g'.names ∧ ∃ r, Event.handed t u r ∈ evs
  namesNew : ∀ u n, (u, n) ∈ g'.names → (u, n) ∈ g.names ∨ ∃ t s, Event.handed t u s ∈ evs
  events : ∀ e b, Happened e b evs g.log →
    EvOk Γ g.settings g'.names (fun n => (Obj.get g'.defs n).isSome) e b

theorem Post.refl (Γ : τ → TypeDef τ) {g : Gen τ} (h : Inv g) : Post Γ g g [] where
  inv := h
  settings := rfl
  pending := rfl
  rootStack := rfl
  names := List.suffix_refl _
  used := List.suffix_refl _
  log := rfl
  opens := rfl
  defsKeep _ _ h := h
  defsNew n v h1 h2 := by rw [h1] at h2; cases h2
  namesNew u n h := .inl h
  events e b h := absurd h happened_nil

theorem Post.trans {Γ : τ → TypeDef τ} {g g1 g2 : Gen τ} {e1 e2} (h1 : Post Γ g g1 e1)
    (h2 : Post Γ g1 g2 e2) : Post Γ g g2 (e2 ++ e1) where
  inv := h2.inv
  settings := h2.settings.trans h1.settings
  pending := h2.pending.trans h1.pending
  rootStack := h2.rootStack.trans h1.rootStack
  names := h1.names.trans h2.names
  used := h1.used.trans h2.used
  log := by rw [h2.log, h1.log, List.append_assoc]
  opens := h2.opens.trans h1.opens
  defsKeep n v h := h2.defsKeep n v (h1.defsKeep n v h)
  defsNew n v h hn := by
    cases h3 : Obj.get g1.defs n with
    | none =>
      obtain ⟨t, u, a, b, r, c⟩ := h2.defsNew n v h h3
      exact ⟨t, u, List.mem_append_left _ a, b, r, List.mem_append_left _ c⟩
    | some w =>
      have := h2.defsKeep n w h3
      rw [h] at this; cases this
      obtain ⟨t, u, a, b, r, c⟩ := h1.defsNew n v h3 hn
      exact ⟨t, u, List.mem_append_right _ a, h2.names.subset b, r, List.mem_append_right _ c⟩
  namesNew u n h := by
    rcases h2.namesNew u n h with h | ⟨t, s, h⟩
    · rcases h1.namesNew u n h with h | ⟨t, s, h⟩
      · exact .inl h
      · exact .inr ⟨t, s, List.mem_append_right _ h⟩
    · exact .inr ⟨t, s, List.mem_append_left _ h⟩
  events e b h := by
    rcases happened_append.1 h with h | h
    · rw [← h1.log] at h
      have := h2.events e b h
      rwa [h1.settings] at this
    · refine (h1.events e b h).mono (fun x hx => h2.names.subset hx) (fun n hn => ?_)
      obtain ⟨v, hv⟩ := Option.isSome_iff_exists.1 hn
      rw [h2.defsKeep n v hv]; rfl

/-! ## Calls -/

/-- A runner of bodies with the effect of `Post`. -/
def Good (Γ : τ → TypeDef τ) (R : τ → Gen τ → Option (Json × Gen τ)) : Prop :=
  ∀ t g s g', Inv g → R t g = some (s, g') → Ran Γ t s ∧ ∃ evs, Post Γ g g' evs

variable {Γ : τ → TypeDef τ} {R : τ → Gen τ → Option (Json × Gen τ)}

theorem internal_post (hR : Good Γ R) {t : τ} {g g' : Gen τ} {s : Json} (hg : Inv g)
    (h : jsonSchemaInternal R t (uidOf Γ g t) g = some (s, g')) :
    ∃ evs, Post Γ g g' (.leave t (uidOf Γ g t) s :: evs) := by
  unfold jsonSchemaInternal at h
  obtain ⟨⟨s1, g2⟩, hr, he⟩ := Option.map_eq_some_iff.1 h
  simp only [Prod.mk.injEq] at he
  obtain ⟨rfl, rfl⟩ := he
  generalize hu : uidOf Γ g t = u at *
  have hg1 : Inv (({ g with pending := if u ∉ g.pending then u :: g.pending else g.pending } :
      Gen τ).note (.enter t u)) := by
    refine ⟨hg.ids, hg.vals, hg.used, hg.sorted, ?_, hg.roots⟩
    intro v
    simp only [Gen.note, openOf, List.mem_cons]
    by_cases hp : u ∈ g.pending
    · rw [if_neg (by simpa using hp), hg.pend v]
      constructor
      · exact .inr
      · rintro (rfl | h)
        · exact (hg.pend v).1 hp
        · exact h
    · rw [if_pos hp, List.mem_cons, hg.pend v]
  obtain ⟨hran, evs, hp⟩ := hR _ _ _ _ hg1 hr
  have hfil : (if u ∉ g.pending then g2.pending.filter (· ≠ u) else g2.pending) = g.pending := by
    rw [hp.pending]
    by_cases hpd : u ∈ g.pending
    · simp [Gen.note, hpd]
    · simp only [Gen.note, hpd, not_false_eq_true, if_true, List.filter_cons, ne_eq, not_true_eq_false,
        decide_false]
      rw [List.filter_eq_self.2]
      · rfl
      · intro v hv
        have : v ≠ u := fun e => hpd (e ▸ hv)
        simpa using this
  have hop : openOf (Event.leave t u s1 :: g2.log) = openOf g.log := by
    simp only [openOf, hp.opens, Gen.note, List.tail_cons]
  refine ⟨evs ++ [.enter t u], ?_⟩
  rw [hfil]
  refine
    { inv := ⟨hp.inv.ids, hp.inv.vals, hp.inv.used, hp.inv.sorted, ?_, hp.inv.roots⟩
      settings := hp.settings, pending := rfl, rootStack := hp.rootStack, names := hp.names
      used := hp.used, log := ?_, opens := hop, defsKeep := hp.defsKeep, defsNew := ?_
      namesNew := ?_, events := ?_ }
  · intro v
    show v ∈ g.pending ↔ v ∈ openOf (Event.leave t u s1 :: g2.log)
    rw [hop]
    exact hg.pend v
  · show Event.leave t u s1 :: g2.log = _
    rw [hp.log]; simp [Gen.note]
  · intro n v h1 h2
    obtain ⟨t', u', a, b, r, c⟩ := hp.defsNew n v h1 h2
    exact ⟨t', u', by simp [a], b, r, by simp [c]⟩
  · intro v n h1
    rcases hp.namesNew v n h1 with h | ⟨t', s', h⟩
    · exact .inl h
    · exact .inr ⟨t', s', by simp [h]⟩
  · intro e b hb
    rcases happened_cons.1 hb with ⟨rfl, rfl⟩ | hb
    · exact ⟨hu.symm, hran⟩
    · rcases happened_append.1 hb with hb | hb
      · exact hp.events e b hb
      · rcases happened_cons.1 hb with ⟨rfl, rfl⟩ | hb
        · exact hu.symm
        · exact absurd hb happened_nil

/-- What `nameFor` does. -/
theorem nameFor_spec (Γ : τ → TypeDef τ) (t : τ) {g : Gen τ} (hg : Inv g) :
    ∃ names used, (nameFor Γ t g).2 = { g with names := names, used := used } ∧
      g.names <:+ names ∧ g.used <:+ used ∧ (uidOf Γ g t, (nameFor Γ t g).1) ∈ names ∧
      (names.map Prod.fst).Nodup ∧ (names.map Prod.snd).Nodup ∧ (∀ e ∈ names, e.2 ∈ used) ∧
      (∀ u n, (u, n) ∈ names → (u, n) ∈ g.names ∨ u = uidOf Γ g t) := by
  unfold nameFor
  cases h : lookupName g.names (uidOf Γ g t) with
  | some n =>
    exact ⟨g.names, g.used, rfl, List.suffix_refl _, List.suffix_refl _, lookupName_mem h, hg.ids, hg.vals,
      hg.used, fun _ _ h => .inl h⟩
  | none =>
    have hfresh := freshName_not_mem g.used (Γ t).schemaName
    refine ⟨_, _, rfl, List.suffix_cons _ _, List.suffix_cons _ _, List.mem_cons_self, ?_, ?_, ?_, ?_⟩
    · rw [List.map_cons, List.nodup_cons]
      refine ⟨?_, hg.ids⟩
      rintro hm
      obtain ⟨⟨v, n⟩, h1, h2⟩ := List.mem_map.1 hm
      simp at h2; subst h2
      exact lookupName_none h n h1
    · rw [List.map_cons, List.nodup_cons]
      refine ⟨?_, hg.vals⟩
      rintro hm
      obtain ⟨e, h1, h2⟩ := List.mem_map.1 hm
      have h3 : e.2 = freshName g.used (Γ t).schemaName := h2
      exact hfresh (h3 ▸ hg.used e h1)
    · intro e he
      rcases List.mem_cons.1 he with rfl | he
      · exact List.mem_cons_self
      · exact List.mem_cons_of_mem _ (hg.used e he)
    · intro u n he
      rcases List.mem_cons.1 he with he | he
      · cases he; exact .inr rfl
      · exact .inl he

/-- The branch of `subschemaFor` that runs `json_schema` in place. -/
theorem subschemaFor_inline {t : τ} {g : Gen τ}
    (h : ¬ (!(Γ t).inlineSchema && (!g.settings.inlineSubschemas || decide (uidOf Γ g t ∈ g.pending))) = true) :
    subschemaFor Γ R t g = jsonSchemaInternal R t (uidOf Γ g t) g := by
  unfold subschemaFor; rw [if_neg h]

/-- A call to `subschema_for` that returns a reference. -/
def ReturnsRef (Γ : τ → TypeDef τ) (g : Gen τ) (t : τ) : Prop :=
  (Γ t).inlineSchema = false ∧ (g.settings.inlineSubschemas = true → uidOf Γ g t ∈ g.pending)

theorem returnsRef_iff {t : τ} {g : Gen τ} :
    (!(Γ t).inlineSchema && (!g.settings.inlineSubschemas || decide (uidOf Γ g t ∈ g.pending))) = true ↔
      ReturnsRef Γ g t := by
  unfold ReturnsRef
  cases (Γ t).inlineSchema <;> cases g.settings.inlineSubschemas <;> simp

theorem subschemaFor_root {t : τ} {g : Gen τ} (h : ReturnsRef Γ g t)
    (hroot : g.rootStack.head? = some (uidOf Γ g t)) :
    subschemaFor Γ R t g =
      some (Schema.newRef "#", g.note (.handed t (uidOf Γ g t) (Schema.newRef "#"))) := by
  unfold subschemaFor; rw [if_pos (returnsRef_iff.2 h), if_pos hroot]

/-- The reference schema for a definition name. -/
def refSchema (g : Gen τ) (name : String) : Json :=
  Schema.newRef (refFor g.settings.definitionsPath.toList name)

/-- The generator after the name of `t` was looked up and the reference noted. -/
def afterName (Γ : τ → TypeDef τ) (t : τ) (g : Gen τ) : Gen τ :=
  (nameFor Γ t g).2.note (.handed t (uidOf Γ g t) (refSchema g (nameFor Γ t g).1))

theorem nameFor_settings (t : τ) (g : Gen τ) : (nameFor Γ t g).2.settings = g.settings := by
  unfold nameFor; cases lookupName g.names (uidOf Γ g t) <;> rfl

theorem nameFor_defs (t : τ) (g : Gen τ) : (nameFor Γ t g).2.defs = g.defs := by
  unfold nameFor; cases lookupName g.names (uidOf Γ g t) <;> rfl

theorem subschemaFor_known {t : τ} {g : Gen τ} (h : ReturnsRef Γ g t)
    (hroot : g.rootStack.head? ≠ some (uidOf Γ g t)) (hd : Obj.has g.defs (nameFor Γ t g).1 = true) :
    subschemaFor Γ R t g = some (refSchema g (nameFor Γ t g).1, afterName Γ t g) := by
  unfold subschemaFor
  rw [if_pos (returnsRef_iff.2 h), if_neg hroot]
  simp only [refSchema, afterName, nameFor_settings, Gen.note, nameFor_defs, hd, if_true]

theorem subschemaFor_new {t : τ} {g : Gen τ} (h : ReturnsRef Γ g t)
    (hroot : g.rootStack.head? ≠ some (uidOf Γ g t)) (hd : ¬ Obj.has g.defs (nameFor Γ t g).1 = true) :
    subschemaFor Γ R t g =
      (insertNewSubschemaFor R t (nameFor Γ t g).1 (uidOf Γ g t) (afterName Γ t g)).map
        fun g' => (refSchema g (nameFor Γ t g).1, g') := by
  unfold subschemaFor
  rw [if_pos (returnsRef_iff.2 h), if_neg hroot]
  simp only [refSchema, afterName, nameFor_settings, Gen.note, nameFor_defs, hd]
  rfl

theorem uidOf_eq {t : τ} {g g' : Gen τ} (h : g'.settings = g.settings) : uidOf Γ g' t = uidOf Γ g t := by
  unfold uidOf; rw [h]

theorem subschemaFor_post (hR : Good Γ R) {t : τ} {g g' : Gen τ} {s : Json} (hg : Inv g)
    (h : subschemaFor Γ R t g = some (s, g')) : ∃ evs, Post Γ g g' evs := by
  by_cases hc : ReturnsRef Γ g t
  case neg =>
    rw [subschemaFor_inline (fun e => hc (returnsRef_iff.1 e))] at h
    obtain ⟨evs, hp⟩ := internal_post hR hg h
    exact ⟨_, hp⟩
  have hopen : g.settings.inlineSubschemas = true → uidOf Γ g t ∈ openOf g.log :=
    fun e => (hg.pend _).1 (hc.2 e)
  by_cases hroot : g.rootStack.head? = some (uidOf Γ g t)
  · rw [subschemaFor_root hc hroot] at h
    simp only [Option.some.injEq, Prod.mk.injEq] at h
    obtain ⟨rfl, rfl⟩ := h
    refine ⟨[.handed t (uidOf Γ g t) (Schema.newRef "#")], ?_⟩
    refine
      { inv := ⟨hg.ids, hg.vals, hg.used, hg.sorted, hg.pend, hg.roots⟩, settings := rfl, pending := rfl
        rootStack := rfl, names := List.suffix_refl _, used := List.suffix_refl _, log := rfl, opens := rfl
        defsKeep := fun _ _ h => h
        defsNew := fun n v h1 h2 => by simp only [Gen.note] at h1; rw [h1] at h2; cases h2
        namesNew := fun _ _ h => .inl h, events := ?_ }
    intro e b hb
    rcases happened_cons.1 hb with ⟨rfl, rfl⟩ | hb
    · refine ⟨rfl, hc.1, hopen, .inl ⟨?_, rfl⟩⟩
      rw [List.nil_append, ← hg.roots]; exact hroot
    · exact absurd hb happened_nil
  obtain ⟨names, used, hn, hn1, hn2, hn3, hn4, hn5, hn6, hn7⟩ := nameFor_spec Γ t hg
  generalize hname : (nameFor Γ t g).1 = name at *
  have hroot' : (rootsOf g.log).head? ≠ some (uidOf Γ g t) := by rw [← hg.roots]; exact hroot
  have haf : afterName Γ t g = ({ g with names := names, used := used } : Gen τ).note
      (.handed t (uidOf Γ g t) (refSchema g name)) := by
    unfold afterName; rw [hn, hname]
  have hev : EvOk Γ g.settings names (fun n => n = name)
      (.handed t (uidOf Γ g t) (refSchema g name)) g.log :=
    ⟨rfl, hc.1, hopen, .inr ⟨hroot', name, hn3, rfl, rfl⟩⟩
  by_cases hd : Obj.has g.defs name = true
  · rw [subschemaFor_known hc hroot (by rw [hname]; exact hd), haf] at h
    simp only [Option.some.injEq, Prod.mk.injEq] at h
    obtain ⟨rfl, rfl⟩ := h
    refine ⟨[.handed t (uidOf Γ g t) (refSchema g name)], ?_⟩
    refine
      { inv := ⟨hn4, hn5, hn6, hg.sorted, hg.pend, hg.roots⟩, settings := rfl, pending := rfl
        rootStack := rfl, names := hn1, used := hn2, log := rfl, opens := rfl
        defsKeep := fun _ _ h => h
        defsNew := fun n v h1 h2 => by simp only [Gen.note] at h1; rw [h1] at h2; cases h2
        namesNew := ?_, events := ?_ }
    · intro u n hun
      rcases hn7 u n hun with h | rfl
      · exact .inl h
      · exact .inr ⟨t, _, List.mem_cons_self⟩
    · intro e b hb
      rcases happened_cons.1 hb with ⟨rfl, rfl⟩ | hb
      · exact hev.mono (fun _ h => h) (fun n hn => by rw [hn]; exact hd)
      · exact absurd hb happened_nil
  · rw [subschemaFor_new hc hroot (by rw [hname]; exact hd), haf] at h
    obtain ⟨g4, hins, he⟩ := Option.map_eq_some_iff.1 h
    simp only [Prod.mk.injEq] at he
    obtain ⟨rfl, rfl⟩ := he
    unfold insertNewSubschemaFor at hins
    obtain ⟨⟨s3, g3⟩, hint, rfl⟩ := Option.map_eq_some_iff.1 hins
    rw [hname] at hint
    generalize hg2 : ({ (({ g with names := names, used := used } : Gen τ).note
      (.handed t (uidOf Γ g t) (refSchema g name))) with
      defs := Obj.insert g.defs name (.bool false) } : Gen τ) = g2
    have hint' : jsonSchemaInternal R t (uidOf Γ g2 t) g2 = some (s3, g3) := by
      have hu : uidOf Γ g2 t = uidOf Γ g t := by subst hg2; rfl
      rw [hu, ← hg2]; exact hint
    have hinv2 : Inv g2 := by
      subst hg2
      exact ⟨hn4, hn5, hn6, Obj.sorted_insert hg.sorted _ _, hg.pend, hg.roots⟩
    obtain ⟨evs, hp⟩ := internal_post hR hinv2 hint'
    have hu2 : uidOf Γ g2 t = uidOf Γ g t := by subst hg2; rfl
    rw [hu2] at hp
    have hgn : Obj.get g.defs name = none := by
      simpa [Obj.has] using hd
    have hd2 : ∀ n, Obj.get g2.defs n = if name = n then some (.bool false) else Obj.get g.defs n := by
      subst hg2; intro n; exact Obj.get_insert _ _ _ _
    have hs2 : g2.settings = g.settings := by subst hg2; rfl
    have hnm2 : g2.names = names := by subst hg2; rfl
    have hl2 : g2.log = [.handed t (uidOf Γ g t) (refSchema g name)] ++ g.log := by subst hg2; rfl
    refine ⟨(.leave t (uidOf Γ g t) s3 :: evs) ++ [.handed t (uidOf Γ g t) (refSchema g name)], ?_⟩
    rw [hname]
    refine
      { inv := ⟨hp.inv.ids, hp.inv.vals, hp.inv.used, Obj.sorted_insert hp.inv.sorted _ _, hp.inv.pend,
          hp.inv.roots⟩
        settings := hp.settings.trans hs2, pending := hp.pending.trans (by subst hg2; rfl)
        rootStack := hp.rootStack.trans (by subst hg2; rfl)
        names := hn1.trans (hnm2 ▸ hp.names), used := hn2.trans ?_, log := ?_, opens := ?_
        defsKeep := ?_, defsNew := ?_, namesNew := ?_, events := ?_ }
    · have := hp.used; subst hg2; exact this
    · show g3.log = _
      rw [hp.log, hl2]; simp
    · show openOf g3.log = _
      rw [hp.opens, hl2]; rfl
    · intro n v hv
      have hne : name ≠ n := by rintro rfl; rw [hgn] at hv; cases hv
      rw [Obj.get_insert_ne _ _ hne]
      exact hp.defsKeep n v (by rw [hd2, if_neg hne]; exact hv)
    · intro n v hv hnone
      rw [Obj.get_insert] at hv
      by_cases hne : name = n
      · rw [if_pos hne] at hv
        cases hv; subst hne
        exact ⟨t, uidOf Γ g t, by simp, hp.names.subset (hnm2.symm ▸ hn3), _,
          List.mem_append_right _ List.mem_cons_self⟩
      · rw [if_neg hne] at hv
        obtain ⟨t', u', a, b, r, c⟩ := hp.defsNew n v hv (by rw [hd2, if_neg hne]; exact hnone)
        exact ⟨t', u', List.mem_append_left _ a, b, r, List.mem_append_left _ c⟩
    · intro u n hun
      rcases hp.namesNew u n hun with h | ⟨t', s', h⟩
      · rw [hnm2] at h
        rcases hn7 u n h with h | rfl
        · exact .inl h
        · exact .inr ⟨t, _, List.mem_append_right _ List.mem_cons_self⟩
      · exact .inr ⟨t', s', List.mem_append_left _ h⟩
    · have hmono : ∀ n, (Obj.get g3.defs n).isSome = true →
          (Obj.get (Obj.insert g3.defs name s3) n).isSome = true := by
        intro n h; rw [Obj.get_insert]; by_cases hne : name = n
        · rw [if_pos hne]; rfl
        · rw [if_neg hne]; exact h
      intro e b hb
      rcases happened_append.1 hb with hb | hb
      · rw [← hl2] at hb
        have := hp.events e b hb
        rw [hs2] at this
        exact this.mono (fun _ h => h) hmono
      · rcases happened_cons.1 hb with ⟨rfl, rfl⟩ | hb
        · refine hev.mono (fun x hx => hp.names.subset (hnm2.symm ▸ hx)) (fun n hn => ?_)
          rw [hn, Obj.get_insert, if_pos rfl]; rfl
        · exact absurd hb happened_nil

theorem rootSchemaFor_post (hR : Good Γ R) {t : τ} {g g' : Gen τ} {s : Json} (hg : Inv g)
    (h : rootSchemaFor Γ R t g = some (s, g')) : ∃ evs, Post Γ g g' evs := by
  unfold rootSchemaFor at h
  obtain ⟨⟨s1, g1⟩, hint, h⟩ := Option.bind_eq_some_iff.1 h
  obtain ⟨m, hm, he⟩ := Option.map_eq_some_iff.1 h
  simp only [Prod.mk.injEq] at he
  obtain ⟨rfl, rfl⟩ := he
  generalize hg0 : (({ g with rootStack := uidOf Γ g t :: g.rootStack } : Gen τ).note
    (.rootEnter t (uidOf Γ g t))) = g0 at *
  have hu : uidOf Γ g0 t = uidOf Γ g t := by subst hg0; rfl
  have hg0i : Inv g0 := by
    subst hg0
    exact ⟨hg.ids, hg.vals, hg.used, hg.sorted, hg.pend, by
      show _ :: _ = _ :: rootsOf g.log; rw [hg.roots]⟩
  rw [← hu] at hint
  obtain ⟨evs, hp⟩ := internal_post hR hg0i hint
  rw [hu] at hp
  generalize hev : Event.leave t (uidOf Γ g t) s1 :: evs = evs1 at hp
  have hst : g1.rootStack.tail = g.rootStack := by rw [hp.rootStack]; subst hg0; rfl
  have hs : g1.settings = g.settings := by rw [hp.settings]; subst hg0; rfl
  have hl0 : g0.log = [.rootEnter t (uidOf Γ g t)] ++ g.log := by subst hg0; rfl
  rw [hst]
  generalize applyTransforms g1.settings.transforms _ = r
  refine ⟨.rootLeave t (uidOf Γ g t) r :: (evs1 ++ [.rootEnter t (uidOf Γ g t)]), ?_⟩
  refine
    { inv := ⟨hp.inv.ids, hp.inv.vals, hp.inv.used, hp.inv.sorted, hp.inv.pend, ?_⟩
      settings := hs, pending := hp.pending.trans (by subst hg0; rfl), rootStack := rfl
      names := (by have := hp.names; subst hg0; exact this)
      used := (by have := hp.used; subst hg0; exact this), log := ?_, opens := ?_
      defsKeep := (by have := hp.defsKeep; subst hg0; exact this), defsNew := ?_, namesNew := ?_
      events := ?_ }
  · show g.rootStack = (rootsOf g1.log).tail
    rw [← hp.inv.roots, hst]
  · show _ :: g1.log = _
    rw [hp.log, hl0]; simp
  · show openOf g1.log = _
    rw [hp.opens, hl0]; rfl
  · intro n v h1 h2
    obtain ⟨t', u', a, b, r', c⟩ := hp.defsNew n v h1 (by subst hg0; exact h2)
    exact ⟨t', u', by simp [a], b, r', by simp [c]⟩
  · intro u n h1
    rcases hp.namesNew u n h1 with h | ⟨t', s', h⟩
    · exact .inl (by subst hg0; exact h)
    · exact .inr ⟨t', s', by simp [h]⟩
  · intro e b hb
    rcases happened_cons.1 hb with ⟨rfl, rfl⟩ | hb
    · exact rfl
    · rcases happened_append.1 hb with hb | hb
      · rw [← hl0] at hb
        have := hp.events e b hb
        rwa [hp.settings.symm.trans hs] at this
      · rcases happened_cons.1 hb with ⟨rfl, rfl⟩ | hb
        · exact rfl
        · exact absurd hb happened_nil

theorem exec_post (hR : Good Γ R) (p : Prog τ) : ∀ {g g' : Gen τ} {s : Json}, Inv g →
    exec Γ R p g = some (s, g') → ∃ evs, Post Γ g g' evs := by
  induction p with
  | ret s =>
    intro g g' s' hg h
    simp only [exec, Option.some.injEq, Prod.mk.injEq] at h
    obtain ⟨rfl, rfl⟩ := h
    exact ⟨[], Post.refl Γ hg⟩
  | sub t k ih =>
    intro g g' s' hg h
    obtain ⟨⟨s1, g1⟩, h1, h2⟩ := Option.bind_eq_some_iff.1 h
    obtain ⟨e1, p1⟩ := subschemaFor_post hR hg h1
    obtain ⟨e2, p2⟩ := ih s1 p1.inv h2
    exact ⟨_, p1.trans p2⟩
  | direct t k ih =>
    intro g g' s' hg h
    obtain ⟨⟨s1, g1⟩, h1, h2⟩ := Option.bind_eq_some_iff.1 h
    obtain ⟨_, e1, p1⟩ := hR _ _ _ _ hg h1
    obtain ⟨e2, p2⟩ := ih s1 p1.inv h2
    exact ⟨_, p1.trans p2⟩
  | root t k ih =>
    intro g g' s' hg h
    obtain ⟨⟨s1, g1⟩, h1, h2⟩ := Option.bind_eq_some_iff.1 h
    obtain ⟨e1, p1⟩ := rootSchemaFor_post hR hg h1
    obtain ⟨e2, p2⟩ := ih s1 p1.inv h2
    exact ⟨_, p1.trans p2⟩
  | askSettings k ih => intro g g' s' hg h; exact ih _ hg h
  | askDefs k ih => intro g g' s' hg h; exact ih _ hg h

theorem run_good (Γ : τ → TypeDef τ) (n : Nat) : Good Γ (run Γ n) := by
  induction n with
  | zero => intro t g s g' _ h; cases h
  | succ n ih => intro t g s g' hg h; exact ⟨⟨n + 1, g, g', h⟩, exec_post ih _ hg h⟩

theorem Call.post {g g' : Gen τ} {s : Json} (hg : Inv g) (h : Call Γ g s g') : ∃ evs, Post Γ g g' evs := by
  cases h with
  | sub h => exact subschemaFor_post (run_good Γ _) hg h
  | direct h => exact (run_good Γ _ _ _ _ _ hg h).2
  | root h => exact rootSchemaFor_post (run_good Γ _) hg h

theorem Calls.post {g g' : Gen τ} (hg : Inv g) (h : Calls Γ g g') : ∃ evs, Post Γ g g' evs := by
  induction h with
  | nil => exact ⟨[], Post.refl Γ hg⟩
  | call _ hc ih =>
    obtain ⟨e1, p1⟩ := ih
    obtain ⟨e2, p2⟩ := Call.post p1.inv hc
    exact ⟨_, p1.trans p2⟩

theorem Hist.inv {st : Settings} {g : Gen τ} (h : Hist Γ st g) : Inv g := by
  induction h with
  | new => exact Inv.new st
  | call _ hc ih => obtain ⟨_, p⟩ := Call.post ih hc; exact p.inv
  | take _ ih => exact ⟨ih.ids, ih.vals, ih.used, Obj.sorted_nil, ih.pend, ih.roots⟩

end Verif
