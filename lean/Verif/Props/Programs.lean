import Verif.Props.TypeIds
import Verif.Props.Versions
import Verif.Lemmas.Rename

/-!
# C84: programs with the ids and names of the crate

C45, C64, C65 and C80 suppose that ids tell types apart (`Declared`). Here the ids, the names and the choice of what is
inlined are those of the crate and of the derive macro (`Verif/TypeIds.lean`), and C59 says that they do.
-/

namespace Verif
open Spec

section
variable {τ : Type} {P : Nat → IdDecl} {ty : τ → Ty} {decl : τ → Decl τ} {I : TypeInfo τ}

/-- The types `τ` of a program are the types `ty t`, and their implementations are those of the declarations `decl`. -/
structure Spec.Program (P : Nat → IdDecl) (ty : τ → Ty) (decl : τ → Verif.Decl τ) (I : TypeInfo τ) : Prop where
  /-- Each type is there once. -/
  once : ∀ t t', ty t = ty t' → t = t'
  paths : Paths P
  legal : ∀ t, Legal P (ty t)
  body : ∀ t, Ty.body P (ty t) = (bodyOf I (decl t)).rename ty
  unit : ty I.unit = .fixed .unit ∧ decl I.unit = .std (.simple "null")
  /-- Only `Option` says that it is an option, and it passes on the request for the schema without null. -/
  option : ∀ t, I.isOption t = true → ∃ u, ty t = .option (ty u) ∧ decl t = .std (.option u) ∧ I.base t = I.base u
  base : ∀ t, I.isOption t = false → I.base t = t

/-- The implementations of the types of a program. -/
def Spec.implOf (P : Nat → IdDecl) (ty : τ → Ty) (decl : τ → Verif.Decl τ) (I : TypeInfo τ) (t : τ) : TypeDef τ where
  schemaId := (Ty.typeDef P (ty t)).schemaId
  schemaName := (Ty.typeDef P (ty t)).schemaName
  inlineSchema := (Ty.typeDef P (ty t)).inlineSchema
  body := bodyOf I (decl t)

/-- C84 in full: the ids of every program tell its types apart, so that the theorems about declared types apply. This is
false, see `C84_Full_false`. -/
def C84_Full : Prop := ∀ (τ : Type) (P : Nat → IdDecl) (ty : τ → Ty) (decl : τ → Decl τ) (I : TypeInfo τ),
  Program P ty decl I → Declared (implOf P ty decl I) decl I

/-- C84 (`_partial`: for types with plain ids, as in `C59_partial`): the ids of a program tell its types apart. -/
theorem C84_partial (h : Program P ty decl I) (hp : ∀ t, PlainIds (ty t)) : Declared (implOf P ty decl I) decl I where
  body _ := rfl
  ids t t' e := by rw [h.once t t' (C59_partial h.paths (h.legal t) (h.legal t') (hp t) (hp t') e).1]
  unit := h.unit.2
  unitInline := by
    show Ty.inline P (ty I.unit) = true
    rw [h.unit.1]; rfl
  option t ht := by
    obtain ⟨u, -, h1, h2⟩ := h.option t ht
    exact ⟨u, h1, h2⟩
  base := h.base

theorem program_names (ty : τ → Ty) (decl : τ → Decl τ) (I : TypeInfo τ) :
    SameNames ty (implOf P ty decl I) (Ty.typeDef P) := fun _ => ⟨rfl, rfl, rfl⟩

theorem program_runs (h : Program P ty decl I) (n : Nat) :
    MirrorsAll false ty (run (implOf P ty decl I) n) (run (Ty.typeDef P) n) := by
  induction n with
  | zero => exact fun _ _ => .none
  | succ n ih =>
    intro t g
    show Mirrors false _ (exec _ _ (bodyOf I (decl t)) g) (exec _ _ (Ty.body P (ty t)) (g.rename ty))
    rw [h.body]
    exact mirrors_exec (program_names ty decl I) ih _ g

/-- C84: the root schemas of a program are those of its types. -/
theorem C84_root (h : Program P ty decl I) {n : Nat} {t : τ} {st : Settings} {r : Json} {g : Gen Ty}
    (hr : rootSchemaFor (Ty.typeDef P) (run (Ty.typeDef P) n) (ty t) (Gen.new st) = some (r, g)) :
    ∃ g', rootSchemaFor (implOf P ty decl I) (run (implOf P ty decl I) n) t (Gen.new st) = some (r, g') ∧
      g'.defs = g.defs := by
  rcases mirrors_root (program_names ty decl I) (program_runs h n) t (Gen.new st) with e | e
  · rw [Gen.rename_new, hr] at e
    obtain ⟨⟨r', g'⟩, h1, h2⟩ := Option.map_eq_some_iff.1 e.symm
    cases h2
    exact ⟨g', h1, rfl⟩
  · rw [if_neg (by decide), Gen.rename_new, hr] at e
    cases e

theorem program_made (h : Program P ty decl I) {v : Version} {c : Contract} {t : τ} {env : Env} {st : Settings} {r : Json}
    (hm : Made (Ty.typeDef P) v c (ty t) env st r) : Made (implOf P ty decl I) v c t env st r := by
  obtain ⟨hs, hc, ⟨n, g, hr, hplain, hnone⟩, hR⟩ := hm
  obtain ⟨g', h1, h2⟩ := C84_root h hr
  exact ⟨hs, hc, ⟨n, g', h1, h2 ▸ hplain, h2 ▸ hnone⟩, hR⟩

variable {env env' : Env} {w : Nat} {q : Quirks τ} {v v' : Version} {t : τ} {st st' : Settings} {r r' : Json}

/-- C84 for writing (`_partial` as `C45_versions_partial`). -/
theorem C84_written_partial (h : Program P ty decl I) (hp : ∀ t, PlainIds (ty t)) (hM : Modern draft2020 env) (hok : ∀ t, WideDecl decl I (decl t))
    (hq : ∀ t, QuietDecl (decl t)) (hm : Made (Ty.typeDef P) v .serialize (ty t) env st r) {j : Json}
    (hj : SerializedIf w (FieldObeys env) I.base decl t j) : Valid v.dialect env r j :=
  C45_versions_partial hM (C84_partial h hp) hok hq (program_made h hm) hj

/-- C84 for reading (`_partial` as `C64_versions_partial`). -/
theorem C84_read_partial (h : Program P ty decl I) (hp : ∀ t, PlainIds (ty t)) (hM : Modern draft2020 env) (hx : DecimalInputRx env)
    (hq : Documented q) (ho : OptionsKnown decl I) (hok : ∀ t, ReadOk false q.lenient decl I.base (decl t))
    (hquiet : ∀ t, QuietDecl (decl t)) (hm : Made (Ty.typeDef P) v .deserialize (ty t) env st r) {j : Json} (hj : j.WF)
    (hr : ReadIf w q (FieldObeys env) I.base decl t j) : Valid v.dialect env r j :=
  C64_versions_partial hM hx hq (C84_partial h hp) ho hok hquiet (program_made h hm) hj hr

/-- C84, that accepted documents can be read (`_partial` as `C65_versions_partial`). -/
theorem C84_accepted_partial (h : Program P ty decl I) (hp : ∀ t, PlainIds (ty t)) (hM : Modern draft2020 env) (hw : 32 ≤ w) (hq : Documented q)
    (ho : OptionsKnown decl I) (hg : Grounded I.base decl) (hok : ∀ t, ReadOk true q.lenient decl I.base (decl t))
    (hquiet : ∀ t, QuietDecl (decl t)) (hm : Made (Ty.typeDef P) v .deserialize (ty t) env st r) {j : Json} (hj : j.WF)
    (hn : SmallNumbers j) (hv : Valid v.dialect env r j) : Read w q I.base decl t j :=
  C65_versions_partial hM hw hq (C84_partial h hp) ho hg hok hquiet (program_made h hm) hj hn hv

/-- C84, that the documents for different settings accept the same (`_partial` as `C80_partial`). -/
theorem C84_same_partial (h : Program P ty decl I) (hp : ∀ t, PlainIds (ty t)) (hM : Modern draft2020 env)
    (hM' : Modern draft2020 env') (hx : DecimalInputRx env) (hx' : DecimalInputRx env') (hq : Documented q)
    (ho : OptionsKnown decl I) (hg : Grounded I.base decl) (hok : ∀ exact t, ReadOk exact q.lenient decl I.base (decl t))
    (hquiet : ∀ t, QuietDecl (decl t)) (hval : ∀ t, ∀ f ∈ declFields (decl t), f.validation = .noAttrs)
    (hm : Made (Ty.typeDef P) v .deserialize (ty t) env st r)
    (hm' : Made (Ty.typeDef P) v' .deserialize (ty t) env' st' r') {j : Json} (hj : j.WF) (hn : SmallNumbers j) :
    Valid v.dialect env r j ↔ Valid v'.dialect env' r' j :=
  C80_partial hM hM' hx hx' hq (C84_partial h hp) ho hg hok hquiet hval (program_made h hm) (program_made h hm') hj hn

end

/-! ### Types that share an id -/

/-- The types of an example: `struct Grid<const H: usize, const W: usize>([(); H])` with two pairs of arguments. -/
inductive GridTy where
  | unit | one | twelve | first | second
  deriving DecidableEq

namespace GridTy

def info : TypeInfo GridTy where
  unit := unit
  isOption _ := false
  base t := t
  inline t := t ≠ first ∧ t ≠ second

def decl : GridTy → Decl GridTy
  | unit => .std (.simple "null")
  | one => .std (.array 1 unit)
  | twelve => .std (.array 12 unit)
  | first => .derived { data := .struct (.newtype { name := ⟨"0", "0"⟩, ty := one }) }
  | second => .derived { data := .struct (.newtype { name := ⟨"0", "0"⟩, ty := twelve }) }

/-- `Grid<1, 23>` and `Grid<12, 3>` -/
def ty : GridTy → Ty
  | unit => .fixed .unit
  | one => .array 1 (.fixed .unit)
  | twelve => .array 12 (.fixed .unit)
  | first => .derived 0 ["1".toList, "23".toList] []
  | second => .derived 0 ["12".toList, "3".toList] []

/-- `Grid` of the module `m`, and more structs `Grid1`, `Grid11`, ... -/
def types (d : Nat) : IdDecl where
  modulePath := "m".toList
  name := "Grid".toList ++ List.replicate d '1'
  consts := 2
  args := 0
  nameOf cs _ := "Grid_for_".toList ++ Ty.join "_and_".toList cs
  inline := false
  body cs _ := (bodyOf info (decl (if cs = ["1".toList, "23".toList] then first else second))).rename ty

theorem program : Program types ty decl info where
  once t t' h := by cases t <;> cases t' <;> first | rfl | (exact absurd h (by simp [ty]))
  paths := {
    word := fun d => by
      simp only [path, types, List.all_append, List.all_replicate]
      have h : wordChar '1' = true := by decide
      rw [h]
      simp only [ite_self]
      decide
    inj := fun d d' h => by
      have := congrArg List.length h
      simpa [path, types] using this
    free := fun d h => by
      have h1 : ∀ w ∈ taken, w.toList.take 7 ≠ "m::Grid".toList := by decide
      apply h1 _ h
      simp [path, types] }
  legal t := by cases t <;> simp [ty, Legal, LegalAll, types]
  body t := by cases t <;> rfl
  unit := ⟨rfl, rfl⟩
  option t h := by cases h
  base t _ := rfl

end GridTy

/-- C84 fails for types with several const arguments, which are written next to each other in the id. -/
theorem C84_Full_false : ¬ C84_Full := fun h => by
  have h1 := (h _ _ _ _ _ GridTy.program).ids .first .second (by decide)
  simp [GridTy.decl] at h1

/-! ### A recursive type -/

namespace NodeTy

/-- `struct Node { value: u32, next: Option<Box<Node>> }` of the module `m`, and more structs `Node1`, `Node11`, ... -/
def paths (nodeTy : NodeTy → Ty) (d : Nat) : IdDecl where
  modulePath := "m".toList
  name := "Node".toList ++ List.replicate d '1'
  consts := 0
  args := 0
  nameOf _ _ := "Node".toList ++ List.replicate d '1'
  inline := false
  body _ _ := (bodyOf info (decl node)).rename nodeTy

def ty : NodeTy → Ty
  | unit => .fixed .unit
  | u32 => .fixed (.int .u32)
  | next => .option (.derived 0 [] [])
  | node => .derived 0 [] []

theorem program : Program (paths ty) ty decl info where
  once t t' h := by cases t <;> cases t' <;> first | rfl | cases h
  paths := {
    word := fun d => by
      simp only [path, paths, List.all_append, List.all_replicate]
      have h : wordChar '1' = true := by decide
      rw [h]
      simp only [ite_self]
      decide
    inj := fun d d' h => by
      have := congrArg List.length h
      simpa [path, paths] using this
    free := fun d h => by
      have h1 : ∀ w ∈ taken, w.toList.take 7 ≠ "m::Node".toList := by decide
      apply h1 _ h
      simp [path, paths] }
  legal t := by cases t <;> simp [ty, Legal, LegalAll, paths]
  body t := by cases t <;> rfl
  unit := ⟨rfl, rfl⟩
  option t h := by cases t <;> first | exact absurd h (by decide) | exact ⟨node, rfl, rfl, rfl⟩
  base t h := by cases t <;> first | exact absurd h (by decide) | rfl

theorem plainIds (t : NodeTy) : PlainIds (ty t) := by cases t <;> simp [ty, PlainIds, PlainIdsAll, apartIds]

theorem generatesTy : ∃ g', rootSchemaFor (Ty.typeDef (paths ty)) (run (Ty.typeDef (paths ty)) 10) (ty node)
    (Gen.new Settings.draft07) = some (inputFor metaDraft07 nullSchema, g') ∧ g'.defs = [] := generated (by decide +kernel)

example : ∃ env r, Modern draft2020 env ∧ Made (Ty.typeDef (paths ty)) .draft07 .deserialize (ty node) env Settings.draft07 r ∧
    ∀ j, j.WF → SmallNumbers j → (Valid draft07 env r j ↔ Read 64 {} info.base decl node j) := by
  obtain ⟨f, hf⟩ := resolves_self (D := draft07) (env := inputEnv) (doc := inputFor metaDraft07 nullSchema) (by decide)
  obtain ⟨g, h, hd⟩ := generatesTy
  have m : Made (Ty.typeDef (paths ty)) .draft07 .deserialize (ty node) (inputEnv.withRef f) Settings.draft07
      (inputFor metaDraft07 nullSchema) :=
    ⟨⟨rfl, rfl, rfl⟩, rfl, ⟨10, g, h, (fun _ _ h => by rw [hd] at h; cases h), fun e => by cases e⟩, hf⟩
  exact ⟨_, _, modern_inputEnv f, m, fun j hj hn =>
    ⟨C84_accepted_partial program plainIds (modern_inputEnv f) (by decide) documented optionsKnown grounded
      (fun t => readable t true _) quiet m hj hn,
    fun hr => C84_read_partial program plainIds (modern_inputEnv f) (input_inputEnv f) documented optionsKnown
      (fun t => readable t false _) quiet m hj (read_obeys unvalidated hr)⟩⟩

theorem generatesTyOut : ∃ g', rootSchemaFor (Ty.typeDef (paths ty)) (run (Ty.typeDef (paths ty)) 10) (ty node)
    (Gen.new { Settings.openapi3 with contract := .serialize }) = some (schemaFor Settings.metaOpenapi3 null30, g') ∧
    g'.defs = [] := generated (by decide +kernel)

example : ∃ env r, Modern draft2020 env ∧ Made (Ty.typeDef (paths ty)) .openapi3 .serialize (ty node) env
    { Settings.openapi3 with contract := .serialize } r ∧ Valid openapi30 env r document := by
  obtain ⟨f, hf⟩ := resolves_self (D := openapi30) (env := digitEnv) (doc := schemaFor Settings.metaOpenapi3 null30)
    (by decide)
  obtain ⟨g, h, hd⟩ := generatesTyOut
  have m : Made (Ty.typeDef (paths ty)) .openapi3 .serialize (ty node) (digitEnv.withRef f)
      { Settings.openapi3 with contract := .serialize } (schemaFor Settings.metaOpenapi3 null30) :=
    ⟨⟨rfl, rfl, rfl⟩, rfl, ⟨10, g, h, (fun _ _ h => by rw [hd] at h; cases h), fun _ => hd⟩, hf⟩
  exact ⟨_, _, modern_digitEnv f, m, C84_written_partial program plainIds (modern_digitEnv f) (fun t => .inl (ok t)) quiet m
    (serialized_obeys unvalidated written)⟩

end NodeTy

end Verif
