import Verif.Generator

/-!
# Runs depend only on the types that are asked for
-/

namespace Verif

variable {τ : Type}

/-- The program asks only for types in `Q`. -/
def AsksOnly (Q : τ → Prop) : Prog τ → Prop
  | .ret _ => True
  | .sub t k => Q t ∧ ∀ s, AsksOnly Q (k s)
  | .direct t k => Q t ∧ ∀ s, AsksOnly Q (k s)
  | .root t k => Q t ∧ ∀ s, AsksOnly Q (k s)
  | .askSettings k => ∀ st, AsksOnly Q (k st)
  | .askDefs k => ∀ d, AsksOnly Q (k d)

section
variable {Γ Γ' : τ → TypeDef τ} {Q : τ → Prop} {R R' : τ → Gen τ → Option (Json × Gen τ)}

theorem internal_congr {t : τ} (hR : ∀ g, R t g = R' t g) (u : Uid) (g : Gen τ) :
    jsonSchemaInternal R t u g = jsonSchemaInternal R' t u g := by
  unfold jsonSchemaInternal
  simp only [hR]

theorem subschemaFor_congr {t : τ} (hΓ : Γ t = Γ' t) (hR : ∀ g, R t g = R' t g) (g : Gen τ) :
    subschemaFor Γ R t g = subschemaFor Γ' R' t g := by
  have hu : ∀ g, uidOf Γ g t = uidOf Γ' g t := fun g => by unfold uidOf; rw [hΓ]
  have hn : nameFor Γ t g = nameFor Γ' t g := by unfold nameFor; rw [hu, hΓ]
  unfold subschemaFor insertNewSubschemaFor
  simp only [hu, hn, hΓ, internal_congr hR]

theorem rootSchemaFor_congr {t : τ} (hΓ : Γ t = Γ' t) (hR : ∀ g, R t g = R' t g) (g : Gen τ) :
    rootSchemaFor Γ R t g = rootSchemaFor Γ' R' t g := by
  have hu : ∀ g, uidOf Γ g t = uidOf Γ' g t := fun g => by unfold uidOf; rw [hΓ]
  unfold rootSchemaFor rootObject
  simp only [hu, hΓ, internal_congr hR]

theorem exec_congr (hΓ : ∀ t, Q t → Γ t = Γ' t) (hR : ∀ t, Q t → ∀ g, R t g = R' t g) (p : Prog τ)
    (hp : AsksOnly Q p) (g : Gen τ) : exec Γ R p g = exec Γ' R' p g := by
  induction p generalizing g with
  | ret s => rfl
  | sub t k ih =>
    simp only [exec, subschemaFor_congr (hΓ t hp.1) (hR t hp.1)]
    exact congrArg _ (funext fun r => ih _ (hp.2 _) _)
  | direct t k ih =>
    simp only [exec, hR t hp.1]
    exact congrArg _ (funext fun r => ih _ (hp.2 _) _)
  | root t k ih =>
    simp only [exec, rootSchemaFor_congr (hΓ t hp.1) (hR t hp.1)]
    exact congrArg _ (funext fun r => ih _ (hp.2 _) _)
  | askSettings k ih => exact ih _ (hp _) _
  | askDefs k ih => exact ih _ (hp _) _

/-- If the bodies of the types in `Q` ask only for types in `Q`, the other types do not matter. -/
theorem run_congr (hΓ : ∀ t, Q t → Γ t = Γ' t) (hQ : ∀ t, Q t → AsksOnly Q (Γ t).body) (n : Nat) :
    ∀ t, Q t → ∀ g, run Γ n t g = run Γ' n t g := by
  induction n with
  | zero => exact fun _ _ _ => rfl
  | succ n ih =>
    intro t ht g
    unfold run
    rw [← hΓ t ht]
    exact exec_congr hΓ ih _ (hQ t ht) g

end

end Verif
