import Verif.Generator

/-!
# What a generation history is, and what its events mean

The log of a generator is the list of what happened, newest first. The functions here read off the log
alone which types were in progress and which root was being generated, without looking at the generator's
own bookkeeping.
-/

namespace Verif.Spec

variable {τ : Type}

/-- The types being generated after the events `l` (innermost first): entered and not left. -/
def openOf : List (Event τ) → List Uid
  | [] => []
  | .enter _ u :: l => u :: openOf l
  | .leave _ _ _ :: l => (openOf l).tail
  | _ :: l => openOf l

/-- The root types being generated after the events `l` (innermost first). -/
def rootsOf : List (Event τ) → List Uid
  | [] => []
  | .rootEnter _ u :: l => u :: rootsOf l
  | .rootLeave _ _ _ :: l => (rootsOf l).tail
  | _ :: l => rootsOf l

/-- `e` happened in `evs`, after the events `before`. `evs` itself happened after `base`. -/
def Happened (e : Event τ) (before evs base : List (Event τ)) : Prop :=
  ∃ a b, evs = a ++ e :: b ∧ before = b ++ base

/-- The schema `s` is a possible answer of `t`'s `json_schema`: some run of it, from some generator state
and with some depth, returned `s`. -/
def Ran (Γ : τ → TypeDef τ) (t : τ) (s : Json) : Prop :=
  ∃ n g g', run Γ n t g = some (s, g')

/-- A call the user may make on a generator between outermost calls, with its answer and effect: generating
calls only. -/
inductive Call (Γ : τ → TypeDef τ) : Gen τ → Json → Gen τ → Prop
  | sub {n t g s g'} : subschemaFor Γ (run Γ n) t g = some (s, g') → Call Γ g s g'
  | direct {n t g s g'} : run Γ n t g = some (s, g') → Call Γ g s g'
  | root {n t g s g'} : rootSchemaFor Γ (run Γ n) t g = some (s, g') → Call Γ g s g'

/-- The states reached from a generator by generating calls only. -/
inductive Calls (Γ : τ → TypeDef τ) : Gen τ → Gen τ → Prop
  | nil (g) : Calls Γ g g
  | call {g s g' g''} : Calls Γ g g' → Call Γ g' s g'' → Calls Γ g g''

/-- The states reached from a new generator by any history of generating calls and `take_definitions`. -/
inductive Hist (Γ : τ → TypeDef τ) (st : Settings) : Gen τ → Prop
  | new : Hist Γ st (Gen.new st)
  | call {g s g'} : Hist Γ st g → Call Γ g s g' → Hist Γ st g'
  | take {g b} : Hist Γ st g → Hist Γ st (takeDefinitions g b).2

end Verif.Spec
