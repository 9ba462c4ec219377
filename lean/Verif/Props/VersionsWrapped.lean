import Verif.Props.Versions
import Verif.Props.DelegateAccepts

/-!
# C45, C64, C65 and C80 for all settings and programs with wrappers

`Box`, `Rc`, `transparent` structs and the like have the schema of the type inside (C66), with every one of the settings.
-/

namespace Verif
open Spec

section
variable {τ σ : Type} {src : τ → Source τ} {src' : σ → Source σ} {φ : τ → σ} {rank : τ → Nat} {Γ : τ → TypeDef τ}
  {Γ' : σ → TypeDef σ} {I : TypeInfo τ} {I' : TypeInfo σ} {env env' : Env} {decl : σ → Decl σ} {w : Nat}
  {q : Quirks σ} {v v' : Version} {t : τ} {c : Contract} {st st' : Settings} {r r' : Json}

/-- The program `src` has the implementations `Γ`; without its wrappers it is `src'` with the implementations `Γ'`. -/
structure Unwrapped (src : τ → Source τ) (rank : τ → Nat) (φ : τ → σ) (src' : σ → Source σ) (Γ : τ → TypeDef τ)
    (I : TypeInfo τ) (Γ' : σ → TypeDef σ) (I' : TypeInfo σ) : Prop where
  rank : ∀ t u, Asks src t u → rank u < rank t
  unwraps : Unwraps src φ src'
  outer : Implements src Γ I
  inner : Implements src' Γ' I'
  unit : I'.unit = φ I.unit

/-- The root schema of a type is made for its counterpart, too. -/
theorem Unwrapped.made (h : Unwrapped src rank φ src' Γ I Γ' I') (hm : Made Γ v c t env st r) :
    Made Γ' v c (φ t) env st r := by
  obtain ⟨hs, hc, ⟨n, g, hr, hplain, hnone⟩, hR⟩ := hm
  obtain ⟨m, g', h1, h2⟩ := C66_root h.rank h.unwraps h.outer h.inner h.unit hr
  exact ⟨hs, hc, ⟨m, g', h1, h2 ▸ hplain, h2 ▸ hnone⟩, hR⟩

/-- C45 through wrappers for all provided settings (`_partial` as `C45_versions_partial`). -/
theorem C45_versions_wrapped_partial (h : Unwrapped src rank φ src' Γ I Γ' I') (hM : Modern draft2020 env)
    (hG : Declared Γ' decl I') (hok : ∀ t, WideDecl decl I' (decl t)) (hq : ∀ t, QuietDecl (decl t))
    (hm : Made Γ v .serialize t env st r) {j : Json} (hj : SerializedIf w (FieldObeys env) I'.base decl (φ t) j) :
    Valid v.dialect env r j :=
  C45_versions_partial hM hG hok hq (h.made hm) hj

/-- C64 through wrappers for all provided settings (`_partial` as `C64_versions_partial`). -/
theorem C64_versions_wrapped_partial (h : Unwrapped src rank φ src' Γ I Γ' I') (hM : Modern draft2020 env)
    (hx : DecimalInputRx env) (hq : Documented q) (hG : Declared Γ' decl I') (ho : OptionsKnown decl I')
    (hok : ∀ t, ReadOk false q.lenient decl I'.base (decl t)) (hquiet : ∀ t, QuietDecl (decl t))
    (hm : Made Γ v .deserialize t env st r) {j : Json} (hj : j.WF)
    (hr : ReadIf w q (FieldObeys env) I'.base decl (φ t) j) : Valid v.dialect env r j :=
  C64_versions_partial hM hx hq hG ho hok hquiet (h.made hm) hj hr

/-- C65 through wrappers for all provided settings (`_partial` as `C65_versions_partial`). -/
theorem C65_versions_wrapped_partial (h : Unwrapped src rank φ src' Γ I Γ' I') (hM : Modern draft2020 env) (hw : 32 ≤ w)
    (hq : Documented q) (hG : Declared Γ' decl I') (ho : OptionsKnown decl I') (hg : Grounded I'.base decl)
    (hok : ∀ t, ReadOk true q.lenient decl I'.base (decl t)) (hquiet : ∀ t, QuietDecl (decl t))
    (hm : Made Γ v .deserialize t env st r) {j : Json} (hj : j.WF) (hn : SmallNumbers j)
    (hv : Valid v.dialect env r j) : Read w q I'.base decl (φ t) j :=
  C65_versions_partial hM hw hq hG ho hg hok hquiet (h.made hm) hj hn hv

/-- C80 through wrappers (`_partial` as `C80_partial`). -/
theorem C80_wrapped_partial (h : Unwrapped src rank φ src' Γ I Γ' I') (hM : Modern draft2020 env)
    (hM' : Modern draft2020 env') (hx : DecimalInputRx env) (hx' : DecimalInputRx env') (hq : Documented q)
    (hG : Declared Γ' decl I') (ho : OptionsKnown decl I') (hg : Grounded I'.base decl)
    (hok : ∀ exact t, ReadOk exact q.lenient decl I'.base (decl t)) (hquiet : ∀ t, QuietDecl (decl t))
    (hval : ∀ t, ∀ f ∈ declFields (decl t), f.validation = .noAttrs)
    (hm : Made Γ v .deserialize t env st r) (hm' : Made Γ v' .deserialize t env' st' r') {j : Json} (hj : j.WF)
    (hn : SmallNumbers j) : Valid v.dialect env r j ↔ Valid v'.dialect env' r' j :=
  C80_partial hM hM' hx hx' hq hG ho hg hok hquiet hval (h.made hm) (h.made hm') hj hn

end

/-! ## Example -/

/-- `struct Node { value: u32, next: Option<Box<Node>> }` with its wrapper. -/
inductive BoxTy where
  | unit | u32 | box | next | node
  deriving DecidableEq

namespace BoxTy

def inside : BoxTy → NodeTy
  | unit => .unit
  | u32 => .u32
  | box => .node
  | next => .next
  | node => .node

def rank : BoxTy → Nat
  | box => 1
  | next => 2
  | _ => 0

def input {τ : Type} (value next : τ) : DeriveInput τ where
  container := { data := .struct (.struct [{ name := ⟨"value", "value"⟩, ty := value },
    { name := ⟨"next", "next"⟩, ty := next }]) }
  schemaId := "ex::Node"
  schemaName := "Node"

def src : BoxTy → Source BoxTy
  | unit => .written ⟨"null", "null", true, stdBody (.simple "null")⟩ false none
  | u32 => .written ⟨"uint32", "uint32", true, stdBody (.int .u32)⟩ false none
  | box => .forwarded node
  | next => .written ⟨"Nullable_Node", "Nullable_Node", true, stdBody (.option box)⟩ true (some box)
  | node => .derived (input u32 next)

def bare : NodeTy → Source NodeTy
  | .unit => .written ⟨"null", "null", true, stdBody (.simple "null")⟩ false none
  | .u32 => .written ⟨"uint32", "uint32", true, stdBody (.int .u32)⟩ false none
  | .next => .written ⟨"Nullable_Node", "Nullable_Node", true, stdBody (.option .node)⟩ true (some .node)
  | .node => .derived (input .u32 .next)

def info : TypeInfo BoxTy where
  unit := unit
  isOption t := t = next
  base t := if t = next ∨ t = box then node else t
  inline t := t ≠ node ∧ t ≠ box

def types : BoxTy → TypeDef BoxTy
  | unit => ⟨"null", "null", true, stdBody (.simple "null")⟩
  | u32 => ⟨"uint32", "uint32", true, stdBody (.int .u32)⟩
  | box => ⟨"ex::Node", "Node", false, .direct node .ret⟩
  | next => ⟨"Nullable_Node", "Nullable_Node", true, stdBody (.option box)⟩
  | node => ⟨"ex::Node", "Node", false, containerProg info (input u32 next).container⟩

theorem unwrapped : Unwrapped src rank inside bare types info NodeTy.types NodeTy.info where
  rank t u h := by
    rcases h with h | ⟨d, o, h⟩
    · cases t with
      | box => cases h; decide
      | node => rw [show (src node).target = none from rfl] at h; cases h
      | _ => cases h
    · cases t <;> cases h
      decide
  unwraps t := by
    cases t with
    | box => right; exact ⟨node, rfl, rfl⟩
    | _ => left; rfl
  outer := ⟨fun t => by cases t <;> exact ⟨rfl, rfl, rfl⟩, fun t => by cases t <;> rfl⟩
  inner := ⟨fun t => by cases t <;> exact ⟨rfl, rfl, rfl⟩, fun t => by cases t <;> rfl⟩
  unit := rfl

theorem generates : (∃ g', rootSchemaFor types (run types 10) node (Gen.new Settings.draft07) =
      some (NodeTy.inputFor metaDraft07 nullSchema, g') ∧ g'.defs = []) ∧
    ∃ g', rootSchemaFor types (run types 10) node (Gen.new Settings.draft2020) = some (NodeTy.inputSchema, g') ∧ g'.defs = [] :=
  ⟨generated (by decide +kernel), generated (by decide +kernel)⟩

/-- The hypotheses of the theorems above can be met: the schemas of the list with `Box` for draft 7 and draft 2020-12
accept the same, exactly what serde reads. -/
example : ∃ env env', Modern draft2020 env ∧ Modern draft2020 env' ∧
    Made types .draft07 .deserialize node env Settings.draft07 (NodeTy.inputFor metaDraft07 nullSchema) ∧
    Made types .draft2020 .deserialize node env' Settings.draft2020 NodeTy.inputSchema ∧
    ∀ j, j.WF → SmallNumbers j →
      (Valid draft07 env (NodeTy.inputFor metaDraft07 nullSchema) j ↔ Valid draft2020 env' NodeTy.inputSchema j) ∧
      (Valid draft2020 env' NodeTy.inputSchema j → Read 64 {} NodeTy.info.base NodeTy.decl (inside node) j) := by
  obtain ⟨f, hf⟩ := resolves_self (D := draft07) (env := inputEnv) (doc := NodeTy.inputFor metaDraft07 nullSchema) (by decide)
  obtain ⟨f', hf'⟩ := resolves_self (D := draft2020) (env := inputEnv) (doc := NodeTy.inputSchema) (by decide)
  obtain ⟨⟨g, h, hd⟩, g', h', hd'⟩ := generates
  have m : Made types .draft07 .deserialize node (inputEnv.withRef f) Settings.draft07
      (NodeTy.inputFor metaDraft07 nullSchema) :=
    ⟨⟨rfl, rfl, rfl⟩, rfl, ⟨10, g, h, (fun _ _ h => by rw [hd] at h; cases h), fun e => by cases e⟩, hf⟩
  have m' : Made types .draft2020 .deserialize node (inputEnv.withRef f') Settings.draft2020 NodeTy.inputSchema :=
    ⟨⟨rfl, rfl, rfl⟩, rfl, ⟨10, g', h', (fun _ _ h => by rw [hd'] at h; cases h), fun e => by cases e⟩, hf'⟩
  exact ⟨_, _, modern_inputEnv f, modern_inputEnv f', m, m', fun j hj hn =>
    ⟨C80_wrapped_partial unwrapped (modern_inputEnv f) (modern_inputEnv f') (input_inputEnv f) (input_inputEnv f')
      documented NodeTy.declared NodeTy.optionsKnown NodeTy.grounded (fun exact t => NodeTy.readable t exact _)
      NodeTy.quiet NodeTy.unvalidated m m' hj hn,
    fun hv => C65_versions_wrapped_partial unwrapped (modern_inputEnv f') (by decide) documented NodeTy.declared
      NodeTy.optionsKnown NodeTy.grounded (fun t => NodeTy.readable t true _) NodeTy.quiet m' hj hn hv⟩⟩

/-- The same for one version, with the weaker conditions. -/
example : ∃ env, Modern draft2020 env ∧ ∀ j, j.WF → SmallNumbers j →
    (Valid draft2020 env NodeTy.inputSchema j ↔ Read 64 {} NodeTy.info.base NodeTy.decl (inside node) j) := by
  obtain ⟨f', hf'⟩ := resolves_self (D := draft2020) (env := inputEnv) (doc := NodeTy.inputSchema) (by decide)
  obtain ⟨-, g', h', hd'⟩ := generates
  have u := unwrapped
  refine ⟨_, modern_inputEnv f', fun j hj hn => ⟨fun hv => ?_, fun hr => ?_⟩⟩
  · exact C65_wrapped_partial (k := "$defs") u.rank u.unwraps u.outer u.inner u.unit (modern_inputEnv f') (by decide)
      documented NodeTy.declared NodeTy.optionsKnown NodeTy.grounded (fun t => NodeTy.readable t true _) h' rfl rfl
      (.inl rfl) rfl (fun h => absurd hd' h) (fun _ _ h => by rw [hd'] at h; cases h) hf' hj hn hv
  · exact C64_wrapped_partial (k := "$defs") u.rank u.unwraps u.outer u.inner u.unit (modern_inputEnv f') (input_inputEnv f')
      documented NodeTy.declared NodeTy.optionsKnown (fun t => NodeTy.readable t false _) h' rfl rfl
      (.inl rfl) rfl (fun h => absurd hd' h) (fun _ _ h => by rw [hd'] at h; cases h) hf' hj (read_obeys NodeTy.unvalidated hr)

end BoxTy

end Verif
