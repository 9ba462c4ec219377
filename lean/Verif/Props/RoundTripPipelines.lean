import Verif.Props.RoundTripEx
import Verif.Props.ReadsPipelines

/-!
# C74 for the other presets

As for C64: the transforms of the `draft07`, `draft2019_09` and `openapi3` settings keep what is accepted.
-/

namespace Verif
open Spec

section
variable {τ : Type} {env : Env} {w : Nat} {q : Quirks τ} {Γ : τ → TypeDef τ} {decl : τ → Decl τ} {I : TypeInfo τ}

/-- C74 for the `draft07` settings. -/
theorem C74_draft07_partial (hM : Modern draft2020 env) (hx : DecimalInputRx env) (hq : Documented q)
    (hG : Declared Γ decl I) (ho : OptionsKnown decl I) (hok : ∀ t, ReadOk false q.lenient decl I.base (decl t))
    (hquiet : ∀ t, QuietDecl (decl t)) (hT : AllTwoWay q I.base decl) {n : Nat} {t : τ} {r : Json} {g' : Gen τ}
    (h : rootSchemaFor Γ (run Γ n) t (Gen.new Settings.draft07) = some (r, g'))
    (hplain : ∀ name d, Obj.get g'.defs name = some d → PlainName name) (hR : Resolves draft07 env r)
    {j : Json} (hj : SerializedIf w (FieldObeys env) I.base decl t j) : Valid draft07 env r j :=
  C64_draft07_partial hM hx hq hG ho hok hquiet h hplain hR (serialized_wf hj) (C74_read_partial hq hT hj)

/-- C74 for the `draft2019_09` settings. -/
theorem C74_draft2019_partial (hM : Modern draft2020 env) (hx : DecimalInputRx env) (hq : Documented q)
    (hG : Declared Γ decl I) (ho : OptionsKnown decl I) (hok : ∀ t, ReadOk false q.lenient decl I.base (decl t))
    (hquiet : ∀ t, QuietDecl (decl t)) (hT : AllTwoWay q I.base decl) {n : Nat} {t : τ} {r : Json} {g' : Gen τ}
    (h : rootSchemaFor Γ (run Γ n) t (Gen.new Settings.draft2019) = some (r, g'))
    (hplain : ∀ name d, Obj.get g'.defs name = some d → PlainName name) (hR : Resolves draft2019 env r)
    {j : Json} (hj : SerializedIf w (FieldObeys env) I.base decl t j) : Valid draft2019 env r j :=
  C64_draft2019_partial hM hx hq hG ho hok hquiet h hplain hR (serialized_wf hj) (C74_read_partial hq hT hj)

/-- C74 for the `openapi3` settings, for types whose schemas need no definitions. -/
theorem C74_openapi3_partial (hM : Modern draft2020 env) (hx : DecimalInputRx env) (hq : Documented q)
    (hG : Declared Γ decl I) (ho : OptionsKnown decl I) (hok : ∀ t, ReadOk false q.lenient decl I.base (decl t))
    (hquiet : ∀ t, QuietDecl (decl t)) (hT : AllTwoWay q I.base decl) {n : Nat} {t : τ} {r : Json} {g' : Gen τ}
    (h : rootSchemaFor Γ (run Γ n) t (Gen.new Settings.openapi3) = some (r, g'))
    (hnone : g'.defs = []) (hR : Resolves openapi30 env r)
    {j : Json} (hj : SerializedIf w (FieldObeys env) I.base decl t j) : Valid openapi30 env r j :=
  C64_openapi3_partial hM hx hq hG ho hok hquiet h hnone hR (serialized_wf hj) (C74_read_partial hq hT hj)

end

namespace NodeTy

example : ∃ env, Modern draft2020 env ∧ Resolves draft07 env (inputFor metaDraft07 nullSchema) ∧
    Valid draft07 env (inputFor metaDraft07 nullSchema) document := by
  obtain ⟨f, hf⟩ := resolves_self (D := draft07) (env := inputEnv) (doc := inputFor metaDraft07 nullSchema) (by decide)
  obtain ⟨g', h, hd⟩ := generatesInput07
  exact ⟨_, modern_inputEnv f, hf, C74_draft07_partial (modern_inputEnv f) (input_inputEnv f) documented declared optionsKnown
    (fun t => readable t false _) quiet twoWay h (fun _ _ h => by rw [hd] at h; cases h) hf
    (serialized_obeys unvalidated written)⟩

example : ∃ env, Modern draft2020 env ∧ Resolves draft2019 env (inputFor meta2019 nullSchema) ∧
    Valid draft2019 env (inputFor meta2019 nullSchema) document := by
  obtain ⟨f, hf⟩ := resolves_self (D := draft2019) (env := inputEnv) (doc := inputFor meta2019 nullSchema) (by decide)
  obtain ⟨g', h, hd⟩ := generatesInput2019
  exact ⟨_, modern_inputEnv f, hf, C74_draft2019_partial (modern_inputEnv f) (input_inputEnv f) documented declared
    optionsKnown (fun t => readable t false _) quiet twoWay h (fun _ _ h => by rw [hd] at h; cases h) hf
    (serialized_obeys unvalidated written)⟩

example : ∃ env, Modern draft2020 env ∧ Resolves openapi30 env (inputFor Settings.metaOpenapi3 null30) ∧
    Valid openapi30 env (inputFor Settings.metaOpenapi3 null30) document := by
  obtain ⟨f, hf⟩ := resolves_self (D := openapi30) (env := inputEnv) (doc := inputFor Settings.metaOpenapi3 null30) (by decide)
  obtain ⟨g', h, hd⟩ := generatesInput30
  exact ⟨_, modern_inputEnv f, hf, C74_openapi3_partial (modern_inputEnv f) (input_inputEnv f) documented declared optionsKnown
    (fun t => readable t false _) quiet twoWay h hd hf (serialized_obeys unvalidated written)⟩

end NodeTy

end Verif
