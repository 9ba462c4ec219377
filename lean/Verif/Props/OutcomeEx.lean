import Verif.Props.AcceptsRoot
import Verif.Props.Outcome

/-!
# C73: examples, and types whose definitions depend on the order
-/

namespace Verif
open Spec

variable {τ : Type}

/-- Computes the outcome of a program that does not look at the definitions, with `R` for the bodies. -/
def outcomeWith (Γ : τ → TypeDef τ) (st : Settings) (top : Option String) (R : τ → Option (Json × List τ)) :
    Prog τ → Option (Json × List τ)
  | .ret s => some (s, [])
  | .sub t k =>
    if (Γ t).inlineSchema then (R t).bind fun r => (outcomeWith Γ st top R (k r.1)).map fun x => (x.1, r.2 ++ x.2)
    else if top = some (Γ t).schemaId then outcomeWith Γ st top R (k (Schema.newRef "#"))
    else (outcomeWith Γ st top R (k (Schema.newRef (refFor st.definitionsPath.toList (Γ t).schemaName)))).map
      fun x => (x.1, t :: x.2)
  | .direct t k => (R t).bind fun r => (outcomeWith Γ st top R (k r.1)).map fun x => (x.1, r.2 ++ x.2)
  | .root _ _ => none
  | .askSettings k => outcomeWith Γ st top R (k st)
  | .askDefs _ => none

/-- Computes the outcome of a body. -/
def outcomeOf (Γ : τ → TypeDef τ) (st : Settings) (top : Option String) : Nat → τ → Option (Json × List τ)
  | 0, _ => none
  | n + 1, t => outcomeWith Γ st top (outcomeOf Γ st top n) (Γ t).body

variable {Γ : τ → TypeDef τ} {st : Settings} {top : Option String}

theorem outcomeWith_sound {R : τ → Option (Json × List τ)} (hR : ∀ t r, R t = some r → Outcome Γ st top (Γ t).body r.1 r.2)
    {p : Prog τ} {r : Json × List τ} (h : outcomeWith Γ st top R p = some r) : Outcome Γ st top p r.1 r.2 := by
  induction p generalizing r with
  | ret s => cases h; exact .ret s
  | sub t k ih =>
    unfold outcomeWith at h
    split at h
    · obtain ⟨x, hx, h⟩ := Option.bind_eq_some_iff.1 h
      obtain ⟨y, hy, rfl⟩ := Option.map_eq_some_iff.1 h
      exact .inlined (by assumption) (hR _ _ hx) (ih _ hy)
    · split at h
      · exact .self (by simp_all) (by assumption) (ih _ h)
      · obtain ⟨y, hy, rfl⟩ := Option.map_eq_some_iff.1 h
        exact .ref (by simp_all) (by assumption) (ih _ hy)
  | direct t k ih =>
    obtain ⟨x, hx, h⟩ := Option.bind_eq_some_iff.1 h
    obtain ⟨y, hy, rfl⟩ := Option.map_eq_some_iff.1 h
    exact .direct (hR _ _ hx) (ih _ hy)
  | root t k ih => cases h
  | askSettings k ih => exact .settings (ih st h)
  | askDefs k ih => cases h

theorem outcomeOf_sound {n : Nat} {t : τ} {r : Json × List τ} (h : outcomeOf Γ st top n t = some r) :
    Outcome Γ st top (Γ t).body r.1 r.2 := by
  induction n generalizing t r with
  | zero => cases h
  | succ n ih => exact outcomeWith_sound (fun t r h => ih h) h

/-- If all types have outcomes. -/
theorem known_of (h : ∀ t, ∃ s l, Outcome Γ st top (Γ t).body s l) (t : τ) : Known Γ st top (.sub t .ret) :=
  ⟨steady_outcome (fun _ _ => trivial) fun t' _ => h t', fun u _ => h u⟩

namespace NodeTy

theorem apart (top : Option String) : Apart types Settings.draft2020 top :=
  declared.apart fun t u => by cases t <;> cases u <;> decide

set_option maxRecDepth 10000 in
theorem outcomes (t : NodeTy) : ∃ s l, Outcome types Settings.draft2020 none (types t).body s l := by
  cases t <;> exact ⟨_, _, outcomeOf_sound (n := 3) rfl⟩

/-- The theorem applied to the list: its definitions are `Node`, with the schema of `Node`. -/
example {ts : List NodeTy} {g : Gen NodeTy} (h : AskedFor types Settings.draft2020 ts g) (hn : next ∈ ts) :
    Obj.get g.defs "Node" = some (.obj [
      ("properties", .obj [
        ("next", .obj [("anyOf", .arr [.obj [("$ref", .str "#/$defs/Node")], .obj [("type", .str "null")]])]),
        ("value", .obj [("format", .str "uint32"), ("minimum", .num (.int 0)), ("type", .str "integer")])]),
      ("required", .arr [.str "value"]), ("type", .str "object")]) := by
  refine (C73_definitions_partial (apart none) rfl (fun t _ => known_of outcomes t) h).2
    ⟨next, hn, node, [node], .asked (.inlined rfl (outcomeOf_sound (n := 1) rfl) (.ret _)) (List.mem_cons_self ..), rfl,
      outcomeOf_sound (n := 3) (t := node) (r := (_, [node])) ?_⟩
  decide +kernel

set_option maxRecDepth 10000 in
/-- A generator as in the theorem exists. -/
example : ∃ g, AskedFor types Settings.draft2020 [node, next] g ∧ g.defs.length = 1 :=
  ⟨_, .call (.call .new (n := 5) (by rfl)) (n := 5) (by rfl), by rfl⟩

end NodeTy

set_option maxRecDepth 10000 in
/-- The full statement fails if two types have one name: the first one gets it, the second one gets a number. -/
theorem C73_Full_false : ¬ C73_Full := by
  intro h
  have h1 : ∃ g, AskedFor Ex.fam Ex.plain [.other, .node] g ∧ Obj.get g.defs "Node" = some Ex.nodeDef :=
    ⟨_, .call (.call .new (n := 5) (by rfl)) (n := 5) (by rfl), by rfl⟩
  have h2 : ∃ g, AskedFor Ex.fam Ex.plain [.node, .other] g ∧ Obj.get g.defs "Node" ≠ some Ex.nodeDef :=
    ⟨_, .call (.call .new (n := 5) (by rfl)) (n := 5) (by rfl), by decide +kernel⟩
  obtain ⟨g1, h1, e1⟩ := h1
  obtain ⟨g2, h2, e2⟩ := h2
  have := h _ _ _ _ _ _ _ rfl h1 h2 (by simp [or_comm])
  rw [this] at e1
  exact e2 e1

/-! ### Keys of maps -/

/-- The types of the example. -/
inductive KeyTy
  | unit | u32 | a | k | map | m
  deriving DecidableEq

namespace KeyTy

def info : TypeInfo KeyTy where
  unit := unit
  isOption _ := false
  base t := t
  inline t := t = unit ∨ t = u32 ∨ t = map

/-- ```
#[schemars(extend("type" = "string", "pattern" = "^a$"))] struct A { m: Box<M> }
#[serde(untagged)] enum K { V(A) }
struct M { map: BTreeMap<K, u32> }
``` -/
def decl : KeyTy → Decl KeyTy
  | unit => .std (.simple "null")
  | u32 => .std (.int .u32)
  | a => .derived { data := .struct (.struct [{ name := ⟨"m", "m"⟩, ty := m }])
                    common := { extensions := [("type", .str "string"), ("pattern", .str "^a$")] } }
  | k => .derived { data := .enum .none [{ name := ⟨"V", "V"⟩, fields := .newtype { name := ⟨"0", "0"⟩, ty := a } }] }
  | map => .std (.map k u32)
  | m => .derived { data := .struct (.struct [{ name := ⟨"map", "map"⟩, ty := map }]) }

def types : KeyTy → TypeDef KeyTy
  | unit => ⟨"null", "null", true, bodyOf info (decl unit)⟩
  | u32 => ⟨"uint32", "uint32", true, bodyOf info (decl u32)⟩
  | a => ⟨"ex::A", "A", false, bodyOf info (decl a)⟩
  | k => ⟨"ex::K", "K", false, bodyOf info (decl k)⟩
  | map => ⟨"Map<ex::K, uint32>", "Map_from_K_to_uint32", true, bodyOf info (decl map)⟩
  | m => ⟨"ex::M", "M", false, bodyOf info (decl m)⟩

theorem declared : Declared types decl info where
  body t := by cases t <;> rfl
  ids t t' h := by
    revert h; revert t t'; intro t t'
    cases t <;> cases t' <;> first | (intro; rfl) | (intro h; exact absurd h (by decide))
  unit := rfl
  unitInline := rfl
  option t h := by cases h
  base t h := rfl

end KeyTy

set_option maxRecDepth 20000 in
/-- It also fails if the key type of a map refers to definitions: `json_schema` of the map follows the references, which
fails for a type in progress. With `A` first, `M` allows all keys; with `M` first, only those that match the pattern. -/
theorem C73_keys : (∀ t u, (KeyTy.types t).schemaName = (KeyTy.types u).schemaName ↔
      (KeyTy.types t).schemaId = (KeyTy.types u).schemaId) ∧
    ∃ g g', AskedFor KeyTy.types Settings.draft2020 [.m, .a] g ∧ AskedFor KeyTy.types Settings.draft2020 [.a, .m] g' ∧
      g.defs ≠ g'.defs := by
  refine ⟨fun t u => by cases t <;> cases u <;> decide, _, _, .call (.call .new (n := 9) (by rfl)) (n := 9) (by rfl),
    .call (.call .new (n := 9) (by rfl)) (n := 9) (by rfl), ?_⟩
  decide +kernel

end Verif
