import Verif.Props.Reads

/-!
# Which types are options

The implementations for standard types say that they are options exactly for `Option`, so the assumptions about options
in C45 and C64 hold for what they say.
-/

namespace Verif
open Spec

variable {τ : Type}

/-- C46: among the standard types exactly `Option` says that it is an option. -/
theorem C46_isOption (s : Std τ) : stdIsOption s = true ↔ ∃ u, s = .option u := by
  cases s <;> simp [stdIsOption]

/-- What the implementations say (schemars/src/lib.rs:186-189 for those that say nothing). -/
def saysOption (decl : τ → Decl τ) (t : τ) : Bool :=
  match decl t with
  | .std s => stdIsOption s
  | _ => false

/-- C46: the options are known, and nothing else is taken for an option. -/
theorem C46_options {decl : τ → Decl τ} {I : TypeInfo τ} (h : ∀ t, I.isOption t = saysOption decl t) :
    OptionsKnown decl I ∧ ∀ t, I.isOption t = true → ∃ u, decl t = .std (.option u) := by
  refine ⟨fun t u hd => ?_, fun t ht => ?_⟩
  · rw [h, saysOption, hd]; rfl
  · rw [h, saysOption] at ht
    split at ht
    · next s hs => obtain ⟨u, rfl⟩ := (C46_isOption s).1 ht; exact ⟨u, hs⟩
    · cases ht

example : saysOption (fun t : Nat => if t = 0 then .std (.option 1) else .std (.simple "null")) 0 = true := rfl

end Verif
