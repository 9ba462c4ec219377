import Verif.Props.RoundTripEx
import Verif.Props.SourceAccepts

/-!
# C74 from the source

What serde writes, from the source of a program, it reads, and the schema that schemars makes from the same source under
the `Deserialize` contract accepts it.
-/

namespace Verif
open Spec

section
variable {τ σ V : Type} {S : Syntax τ} {C : Cases} {M : Meaning τ σ} {N : Values τ V} {src : σ → SrcDecl τ σ}
  {decl written read : σ → Decl σ} {base : σ → σ} {w : Nat} {q : Quirks σ}

/-- C74 from the source (`_partial`: as `C70_written_partial` and `C74_read_partial`): serde reads what it writes. -/
theorem C74_source_read_partial (hsrc : ∀ t i, src t = .item i → LeftToSerde i ∧ SameWays i ∧ Untagged i)
    (hd : ∀ t, Derives S C M N (src t) (decl t)) (hs : ∀ t, Seen S C M.type .serialize (src t) (written t))
    (hr : ∀ t, Seen S C M.type .deserialize (src t) (read t)) (hq : Documented q) (hT : AllTwoWay q base decl) {t : σ}
    {j : Json} (h : Serialized w base written t j) : Read w q base read t j :=
  (C70_read (fun t i h => (hsrc t i h).1) hd hr (documented_blind hq)).2
    (readIf_read (C74_read_partial hq hT ((C70_written_partial hsrc hd hs).1 h)))

variable {D : Dialect} {env : Env} {Γ : σ → TypeDef σ} {I : TypeInfo σ}

/-- C74 from the source (`_partial`: as `C70_written_partial` and `C74_root_partial`, without validation attributes). -/
theorem C74_source_partial (hsrc : ∀ t i, src t = .item i → LeftToSerde i ∧ SameWays i ∧ Untagged i)
    (hd : ∀ t, Derives S C M N (src t) (decl t)) (hs : ∀ t, Seen S C M.type .serialize (src t) (written t))
    (hM : Modern D env) (hx : DecimalInputRx env) (hq : Documented q) (hG : Declared Γ decl I)
    (ho : OptionsKnown decl I) (hok : ∀ t, ReadOk false q.lenient decl I.base (decl t)) (hT : AllTwoWay q I.base decl)
    (hn : ∀ t, ∀ f ∈ declFields (decl t), f.validation = .noAttrs) {n : Nat} {t : σ}
    {st : Settings} {r : Json} {g' : Gen σ} (h : rootSchemaFor Γ (run Γ n) t (Gen.new st) = some (r, g'))
    (hst : st.transforms = []) (hde : st.contract = .deserialize) {k : String} (hk : k = "$defs" ∨ k = "definitions")
    (hpath : PathDenotes st.definitionsPath [k]) (hfree : g'.defs ≠ [] → ∃ ds, At r [k] (.obj ds))
    (hplain : ∀ name d, Obj.get g'.defs name = some d → PlainName name) (hR : Resolves D env r) {j : Json}
    (hj : Serialized w I.base written t j) : Valid D env r j :=
  C74_root_partial hM hx hq hG ho hok hT h hst hde hk hpath hfree hplain hR
    (serialized_obeys hn ((C70_written_partial hsrc hd hs).1 hj))

end

namespace SourceEx
open AttrMetaEx ItemEx

/-- Neither theorem is vacuous: what serde writes for the source is read, and accepted. -/
example : ∃ (written read : NodeTy → Decl NodeTy) (env : Env),
    (∀ t, Seen lang cases nodeMeaning.type .serialize (program t) (written t)) ∧
    (∀ t, Seen lang cases nodeMeaning.type .deserialize (program t) (read t)) ∧
    Resolves draft2020 env NodeTy.inputSchema ∧ Serialized 64 NodeTy.info.base written .node NodeTy.document ∧
    Read 64 {} NodeTy.info.base read .node NodeTy.document ∧ Valid draft2020 env NodeTy.inputSchema NodeTy.document := by
  obtain ⟨f, hf⟩ := resolves_self (D := draft2020) (env := inputEnv) (doc := NodeTy.inputSchema) (by decide)
  obtain ⟨g', h, hd⟩ := NodeTy.generatesInput
  have hsrc : ∀ t i, program t = .item i → LeftToSerde i ∧ SameWays i ∧ Untagged i := by
    intro t i h
    cases t
    case node => cases h; exact ⟨node_left, fun h => (by cases h), fun _ => rfl⟩
    all_goals cases h
  have hv : ∀ c t, Seen lang cases nodeMeaning.type c (program t) (NodeTy.decl t) := by
    intro c t
    cases c <;> cases t
    case serialize.node => exact ⟨_, rfl, rfl⟩
    case deserialize.node => exact ⟨_, rfl, rfl⟩
    all_goals rfl
  have hw : Serialized 64 NodeTy.info.base NodeTy.decl .node NodeTy.document :=
    (C70_written_partial hsrc node_derives (hv .serialize)).2 NodeTy.written
  exact ⟨_, _, _, hv .serialize, hv .deserialize, hf, hw,
    C74_source_read_partial hsrc node_derives (hv .serialize) (hv .deserialize) documented NodeTy.twoWay hw,
    C74_source_partial (k := "$defs") hsrc node_derives (hv .serialize) (modern_inputEnv f) (input_inputEnv f) documented
      NodeTy.declared NodeTy.optionsKnown (fun t => NodeTy.readable t false _) NodeTy.twoWay NodeTy.unvalidated h rfl rfl
      (.inl rfl) rfl (fun h => absurd hd h) (fun _ _ h => by rw [hd] at h; cases h) hf hw⟩

end SourceEx

end Verif
