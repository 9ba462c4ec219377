import Verif.Props.Generator
import Mathlib.Data.Set.Card
import Mathlib.Logic.Relation

/-!
# C29: generation terminates
-/

namespace Verif
open Spec

variable {τ : Type}

/-- `Uses Γ p t`: running `p` may run the body of `t` whatever the state of the generator: `p` calls `t`'s
`json_schema` itself, asks for its root schema, or asks for it as a subschema although it is inlined. -/
inductive Spec.Uses (Γ : τ → TypeDef τ) : Prog τ → τ → Prop
  | sub {t k} : (Γ t).inlineSchema = true → Uses Γ (.sub t k) t
  | direct {t k} : Uses Γ (.direct t k) t
  | root {t k} : Uses Γ (.root t k) t
  | afterSub {t k s t'} : Uses Γ (k s) t' → Uses Γ (.sub t k) t'
  | afterDirect {t k s t'} : Uses Γ (k s) t' → Uses Γ (.direct t k) t'
  | afterRoot {t k s t'} : Uses Γ (k s) t' → Uses Γ (.root t k) t'
  | afterSettings {k s t'} : Uses Γ (k s) t' → Uses Γ (.askSettings k) t'
  | afterDefs {k s t'} : Uses Γ (k s) t' → Uses Γ (.askDefs k) t'

/-- Every cycle of types passes through a subschema call for a type that is not inlined: there is no cycle
of the other calls. -/
def Spec.Guarded (Γ : τ → TypeDef τ) : Prop :=
  ∀ t, ¬ Relation.TransGen (fun a b => Uses Γ (Γ a).body b) t t

namespace Term

variable (Γ : τ → TypeDef τ)

/-- The types below `t`. -/
def below (t : τ) : Set τ := {b | Relation.TransGen (fun a b => Uses Γ (Γ a).body b) t b}

noncomputable def rank (t : τ) : Nat := (below Γ t).ncard

/-- Types whose definition has not been started. -/
def notStarted (g : Gen τ) : Set τ :=
  {t | ∀ n, lookupName g.names (uidOf Γ g t) = some n → Obj.get g.defs n = none}

/-- Types not in progress. -/
def notPending (g : Gen τ) : Set τ := {t | uidOf Γ g t ∉ g.pending}

noncomputable def mu (g : Gen τ) : Nat := (notStarted Γ g).ncard + (notPending Γ g).ncard

variable {Γ} [Finite τ]

theorem rank_lt (h : Guarded Γ) {t t' : τ} (hu : Uses Γ (Γ t).body t') : rank Γ t' < rank Γ t := by
  refine Set.ncard_lt_ncard ⟨fun b hb => ?_, fun hsub => ?_⟩ (Set.toFinite _)
  · exact Relation.TransGen.trans (Relation.TransGen.single hu) hb
  · exact h t' (hsub (Relation.TransGen.single hu))

theorem rank_le (t : τ) : rank Γ t ≤ Nat.card τ := Set.ncard_le_card _

omit [Finite τ] in
theorem notStarted_mono {g g' : Gen τ} (hs : g'.settings = g.settings)
    (hn : ∀ u n, lookupName g.names u = some n → lookupName g'.names u = some n)
    (hd : ∀ n, (Obj.get g.defs n).isSome → (Obj.get g'.defs n).isSome) :
    notStarted Γ g' ⊆ notStarted Γ g := by
  intro t ht n hl
  have hu : uidOf Γ g' t = uidOf Γ g t := uidOf_eq hs
  have h1 := ht n (by rw [hu]; exact hn _ _ hl)
  cases h2 : Obj.get g.defs n with
  | none => rfl
  | some v =>
    have := hd n (by rw [h2]; rfl)
    rw [h1] at this; cases this

omit [Finite τ] in
theorem notPending_mono {g g' : Gen τ} (hs : g'.settings = g.settings) (hp : g.pending ⊆ g'.pending) :
    notPending Γ g' ⊆ notPending Γ g := by
  intro t ht hm
  exact ht (by rw [uidOf_eq hs]; exact hp hm)

/-- The measure does not grow along later states. -/
theorem mu_le {g g' : Gen τ} (hs : g'.settings = g.settings)
    (hn : ∀ u n, lookupName g.names u = some n → lookupName g'.names u = some n)
    (hd : ∀ n, (Obj.get g.defs n).isSome → (Obj.get g'.defs n).isSome) (hp : g.pending ⊆ g'.pending) :
    mu Γ g' ≤ mu Γ g :=
  Nat.add_le_add (Set.ncard_le_ncard (notStarted_mono hs hn hd) (Set.toFinite _))
    (Set.ncard_le_ncard (notPending_mono hs hp) (Set.toFinite _))

theorem mu_kept {g g' : Gen τ} (h : Kept g g') : mu Γ g' ≤ mu Γ g := by
  refine mu_le h.settings h.names (fun n hn => ?_) (by rw [h.pending]; exact fun _ h => h)
  obtain ⟨v, hv⟩ := Option.isSome_iff_exists.1 hn
  rw [h.defs n v hv]; rfl

/-- The state in which `json_schema_internal` runs the body. -/
def entered (t : τ) (u : Uid) (g : Gen τ) : Gen τ :=
  ({ g with pending := if u ∉ g.pending then u :: g.pending else g.pending } : Gen τ).note (.enter t u)

omit [Finite τ] in
theorem internal_isSome {R : τ → Gen τ → Option (Json × Gen τ)} {t : τ} {u : Uid} {g : Gen τ}
    (h : (R t (entered t u g)).isSome) : (jsonSchemaInternal R t u g).isSome := by
  unfold jsonSchemaInternal
  rw [Option.isSome_map]
  exact h

omit [Finite τ] in
theorem entered_pending (t : τ) (u : Uid) (g : Gen τ) : g.pending ⊆ (entered t u g).pending := by
  intro v hv
  show v ∈ (if u ∉ g.pending then u :: g.pending else g.pending)
  by_cases h : u ∈ g.pending
  · simpa [h] using hv
  · simp [h, hv]

theorem mu_entered (t : τ) (u : Uid) (g : Gen τ) : mu Γ (entered t u g) ≤ mu Γ g :=
  mu_le rfl (fun _ _ h => h) (fun _ h => h) (entered_pending t u g)

theorem mu_entered_lt {t : τ} {g : Gen τ} (h : uidOf Γ g t ∉ g.pending) :
    mu Γ (entered t (uidOf Γ g t) g) < mu Γ g := by
  refine Nat.add_lt_add_of_le_of_lt (Set.ncard_le_ncard ?_ (Set.toFinite _))
    (Set.ncard_lt_ncard ⟨?_, ?_⟩ (Set.toFinite _))
  · exact notStarted_mono rfl (fun _ _ h => h) (fun _ h => h)
  · exact notPending_mono rfl (entered_pending _ _ _)
  · intro hsub
    have h1 : t ∈ notPending Γ g := h
    refine hsub h1 ?_
    show uidOf Γ g t ∈ (if uidOf Γ g t ∉ g.pending then uidOf Γ g t :: g.pending else g.pending)
    rw [if_pos h]; exact List.mem_cons_self

/-- The state with the placeholder. -/
def withPlaceholder (name : String) (g : Gen τ) : Gen τ :=
  { g with defs := Obj.insert g.defs name (.bool false) }

theorem mu_placeholder_lt {t : τ} {g : Gen τ} (hd : Obj.get g.defs (nameFor Γ t g).1 = none) :
    mu Γ (withPlaceholder (nameFor Γ t g).1 (afterName Γ t g)) < mu Γ g := by
  obtain ⟨hk, hl⟩ := nameFor_kept (Γ := Γ) t g
  have hget : ∀ n, (Obj.get g.defs n).isSome →
      (Obj.get (withPlaceholder (nameFor Γ t g).1 (afterName Γ t g)).defs n).isSome := by
    intro n hn
    show (Obj.get (Obj.insert (nameFor Γ t g).2.defs _ _) n).isSome
    rw [nameFor_defs, Obj.get_insert]
    by_cases h : (nameFor Γ t g).1 = n
    · rw [if_pos h]; rfl
    · rw [if_neg h]; exact hn
  refine Nat.add_lt_add_of_lt_of_le (Set.ncard_lt_ncard ⟨?_, ?_⟩ (Set.toFinite _))
    (Set.ncard_le_ncard ?_ (Set.toFinite _))
  · exact notStarted_mono hk.settings hk.names hget
  · intro hsub
    have h1 : t ∈ notStarted Γ g := by
      intro n hn
      have : (nameFor Γ t g).1 = n := by unfold nameFor; rw [hn]
      rw [← this]; exact hd
    have h2 := hsub h1 (nameFor Γ t g).1 (by
      rw [uidOf_eq (g := g) (show (withPlaceholder _ (afterName Γ t g)).settings = _ from hk.settings)]
      exact hl)
    rw [show (withPlaceholder (nameFor Γ t g).1 (afterName Γ t g)).defs =
      Obj.insert (nameFor Γ t g).2.defs (nameFor Γ t g).1 (.bool false) from rfl, Obj.get_insert,
      if_pos rfl] at h2
    cases h2
  · exact notPending_mono hk.settings (by
      show g.pending ⊆ (nameFor Γ t g).2.pending
      rw [nameFor_pending]; exact fun _ h => h)

/-- The runner succeeds on calls whose measure is below `n`. -/
def Upto (Γ : τ → TypeDef τ) (R : τ → Gen τ → Option (Json × Gen τ)) (n : Nat) : Prop :=
  ∀ t g, mu Γ g * (Nat.card τ + 1) + rank Γ t < n → (R t g).isSome

variable {R : τ → Gen τ → Option (Json × Gen τ)} {n : Nat}

theorem fuel_drop {a b k r r' n : Nat} (h : a < b) (hr : r ≤ k) (hn : b * (k + 1) + r' ≤ n) :
    a * (k + 1) + r < n := by
  have : (a + 1) * (k + 1) ≤ b * (k + 1) := Nat.mul_le_mul_right _ h
  rw [Nat.add_mul] at this
  omega

theorem fuel_rank {a b k r r' n : Nat} (h : a ≤ b) (hr : r < r') (hn : b * (k + 1) + r' ≤ n) :
    a * (k + 1) + r < n := by
  have : a * (k + 1) ≤ b * (k + 1) := Nat.mul_le_mul_right _ h
  omega

theorem subschemaFor_isSome (hR : Upto Γ R n) {t : τ} {g : Gen τ} {r : Nat}
    (hr : (Γ t).inlineSchema = true → rank Γ t < r) (hn : mu Γ g * (Nat.card τ + 1) + r ≤ n) :
    (subschemaFor Γ R t g).isSome := by
  by_cases hc : ReturnsRef Γ g t
  case neg =>
    rw [subschemaFor_inline (fun e => hc (returnsRef_iff.1 e))]
    apply internal_isSome
    apply hR
    cases hin : (Γ t).inlineSchema with
    | true => exact fuel_rank (mu_entered _ _ _) (hr hin) hn
    | false =>
      have hp : uidOf Γ g t ∉ g.pending := fun hm => hc ⟨hin, fun _ => hm⟩
      exact fuel_drop (mu_entered_lt hp) (rank_le t) hn
  by_cases hroot : g.rootStack.head? = some (uidOf Γ g t)
  · rw [subschemaFor_root hc hroot]; rfl
  by_cases hd : Obj.has g.defs (nameFor Γ t g).1 = true
  · rw [subschemaFor_known hc hroot hd]; rfl
  · rw [subschemaFor_new hc hroot hd]
    have hd' : Obj.get g.defs (nameFor Γ t g).1 = none := by simpa [Obj.has] using hd
    rw [Option.isSome_map]
    unfold insertNewSubschemaFor
    rw [Option.isSome_map]
    apply internal_isSome
    apply hR
    exact fuel_drop (Nat.lt_of_le_of_lt (mu_entered _ _ _) (mu_placeholder_lt hd')) (rank_le t) hn

omit [Finite τ] in
theorem ensureObject_isSome {s : Json} (h : isSchema s = true) : (Schema.ensureObject s).isSome := by
  cases s with
  | bool b => cases b <;> rfl
  | obj m => rfl
  | _ => cases h

theorem rootSchemaFor_isSome (hR : Upto Γ R n) (hs : ∀ t g s g', R t g = some (s, g') → isSchema s = true)
    {t : τ} {g : Gen τ} {r : Nat} (hr : rank Γ t < r) (hn : mu Γ g * (Nat.card τ + 1) + r ≤ n) :
    (rootSchemaFor Γ R t g).isSome := by
  have hmu : mu Γ (({ g with rootStack := uidOf Γ g t :: g.rootStack } : Gen τ).note
      (.rootEnter t (uidOf Γ g t))) ≤ mu Γ g :=
    mu_le rfl (fun _ _ h => h) (fun _ h => h) (fun _ h => h)
  have h1 : (jsonSchemaInternal R t (uidOf Γ g t)
      (({ g with rootStack := uidOf Γ g t :: g.rootStack } : Gen τ).note
        (.rootEnter t (uidOf Γ g t)))).isSome :=
    internal_isSome (hR _ _ (fuel_rank (Nat.le_trans (mu_entered _ _ _) hmu) hr hn))
  obtain ⟨⟨s, g1⟩, h1⟩ := Option.isSome_iff_exists.1 h1
  simp only [rootSchemaFor, h1, Option.bind_some, Option.isSome_map]
  unfold jsonSchemaInternal at h1
  obtain ⟨⟨s1, g2⟩, h2, he⟩ := Option.map_eq_some_iff.1 h1
  simp only [Prod.mk.injEq] at he
  obtain ⟨rfl, _⟩ := he
  exact ensureObject_isSome (hs _ _ _ _ h2)

theorem exec_isSome (hR : Upto Γ R n) (hK : Keeps R)
    (hs : ∀ t g s g', R t g = some (s, g') → isSchema s = true) {r : Nat} (p : Prog τ) :
    ∀ {g : Gen τ}, (∀ t, Uses Γ p t → rank Γ t < r) → mu Γ g * (Nat.card τ + 1) + r ≤ n →
      (exec Γ R p g).isSome := by
  have step : ∀ {g g1 : Gen τ}, Kept g g1 → mu Γ g * (Nat.card τ + 1) + r ≤ n →
      mu Γ g1 * (Nat.card τ + 1) + r ≤ n := by
    intro g g1 hk h
    have := Nat.mul_le_mul_right (Nat.card τ + 1) (mu_kept (Γ := Γ) hk)
    omega
  induction p with
  | ret s => intro g _ _; rfl
  | sub t k ih =>
    intro g hu hn
    obtain ⟨⟨s, g1⟩, h1⟩ := Option.isSome_iff_exists.1
      (subschemaFor_isSome hR (t := t) (fun h => hu t (.sub h)) hn)
    simp only [exec, h1, Option.bind_some]
    exact ih s (fun t' h => hu t' (.afterSub h)) (step (subschemaFor_kept hK h1) hn)
  | direct t k ih =>
    intro g hu hn
    obtain ⟨⟨s, g1⟩, h1⟩ := Option.isSome_iff_exists.1 (hR t g (fuel_rank (Nat.le_refl _) (hu t .direct) hn))
    simp only [exec, h1, Option.bind_some]
    exact ih s (fun t' h => hu t' (.afterDirect h)) (step (hK _ _ _ _ h1) hn)
  | root t k ih =>
    intro g hu hn
    obtain ⟨⟨s, g1⟩, h1⟩ := Option.isSome_iff_exists.1 (rootSchemaFor_isSome hR hs (hu t .root) hn)
    simp only [exec, h1, Option.bind_some]
    exact ih s (fun t' h => hu t' (.afterRoot h)) (step (rootSchemaFor_kept hK h1) hn)
  | askSettings k ih => intro g hu hn; exact ih _ (fun t' h => hu t' (.afterSettings h)) hn
  | askDefs k ih => intro g hu hn; exact ih _ (fun t' h => hu t' (.afterDefs h)) hn

theorem run_upto (hg : Guarded Γ) (hs : ∀ t s, Ran Γ t s → isSchema s = true) (n : Nat) :
    Upto Γ (run Γ n) n := by
  induction n with
  | zero => intro t g h; omega
  | succ n ih =>
    intro t g h
    exact exec_isSome ih (run_keeps Γ n) (fun t g s g' h => hs t s ⟨n, g, g', h⟩) _
      (fun t' h => rank_lt hg h) (Nat.le_of_lt_succ h)

end Term

open Term

variable {Γ : τ → TypeDef τ}

/-- C29: for a finite set of types in which every cycle passes through a type that is not inlined, generation
terminates from every state of the generator, with and without `inline_subschemas`: there is a depth that is
enough. `hs` is the invariant of the Rust type `Schema` (without it `root_schema_for` panics). -/
theorem C29_terminates [Finite τ] (hg : Guarded Γ) (hs : ∀ t s, Ran Γ t s → isSchema s = true)
    (t : τ) (g : Gen τ) :
    ∃ n, (run Γ n t g).isSome ∧ (subschemaFor Γ (run Γ n) t g).isSome ∧
      (rootSchemaFor Γ (run Γ n) t g).isSome := by
  refine ⟨mu Γ g * (Nat.card τ + 1) + rank Γ t + 1, ?_, ?_, ?_⟩
  · exact run_upto hg hs _ t g (by omega)
  · exact subschemaFor_isSome (run_upto hg hs _) (r := rank Γ t + 1) (fun _ => by omega) (by omega)
  · exact rootSchemaFor_isSome (run_upto hg hs _) (fun t g s g' h => hs t s ⟨_, g, g', h⟩)
      (r := rank Γ t + 1) (by omega) (by omega)

/-- C29, a bound: nesting never gets deeper than `2 · N · (N + 1) + N + 1` for `N` types. -/
theorem C29_bound [Finite τ] (hg : Guarded Γ) (hs : ∀ t s, Ran Γ t s → isSchema s = true)
    (t : τ) (g : Gen τ) :
    (run Γ (2 * Nat.card τ * (Nat.card τ + 1) + Nat.card τ + 1) t g).isSome := by
  refine run_upto hg hs _ t g ?_
  have h1 : mu Γ g ≤ 2 * Nat.card τ := by
    have a : (notStarted Γ g).ncard ≤ Nat.card τ := Set.ncard_le_card _
    have b : (notPending Γ g).ncard ≤ Nat.card τ := Set.ncard_le_card _
    unfold mu; omega
  have h2 := Nat.mul_le_mul_right (Nat.card τ + 1) h1
  have h3 : rank Γ t ≤ Nat.card τ := rank_le t
  omega

/-- The condition is needed: a type that is inlined and contains itself is never finished, at any depth. -/
theorem C29_inline_cycle (n : Nat) (g : Gen Unit) :
    run (fun _ => { schemaId := "x", schemaName := "x", inlineSchema := true
                    body := .sub () fun s => .ret s } : Unit → TypeDef Unit) n () g = none := by
  induction n generalizing g with
  | zero => rfl
  | succ n ih =>
    simp only [run, exec]
    rw [subschemaFor_inline (by simp)]
    simp [jsonSchemaInternal, ih]

instance : Finite Ex.T := Finite.of_injective (fun t => match t with | .node => 0 | .other => 1 | .str => (2 : Fin 3))
  (by intro a b; cases a <;> cases b <;> simp)

example : Guarded Ex.fam := by
  have key : ∀ a b, Uses Ex.fam (Ex.fam a).body b → a ≠ .str ∧ b = .str := by
    intro a b h
    cases a with
    | node =>
      cases h with
      | sub h => cases h
      | afterSub h =>
        cases h with
        | sub h => exact ⟨by decide, rfl⟩
        | afterSub h =>
          cases h with
          | sub h => cases h
          | afterSub h => cases h
    | other =>
      cases h with
      | sub h => cases h
      | afterSub h => cases h
    | str => cases h
  have key2 : ∀ a b, Relation.TransGen (fun a b => Uses Ex.fam (Ex.fam a).body b) a b →
      a ≠ .str ∧ b = .str := by
    intro a b h
    induction h with
    | single h => exact key _ _ h
    | tail _ h2 ih => exact ⟨ih.1, (key _ _ h2).2⟩
  intro t h
  obtain ⟨h1, h2⟩ := key2 t t h
  exact h1 h2

example : ∀ t s, Ran Ex.fam t s → isSchema s = true := by
  rintro t s ⟨n, g, g', h⟩
  cases n with
  | zero => cases h
  | succ n =>
    cases t with
    | node =>
      obtain ⟨_, _, h⟩ := Option.bind_eq_some_iff.1 h
      obtain ⟨_, _, h⟩ := Option.bind_eq_some_iff.1 h
      obtain ⟨_, _, h⟩ := Option.bind_eq_some_iff.1 h
      cases h; rfl
    | other =>
      obtain ⟨_, _, h⟩ := Option.bind_eq_some_iff.1 h
      cases h; rfl
    | str => cases h; rfl

end Verif
