import Verif.Transform

/-!
# schemars/src/generate.rs: `SchemaGenerator`

A `JsonSchema` implementation is arbitrary code that receives `&mut SchemaGenerator`. It is modelled by
a program tree `Prog`, whose nodes are the generator calls it may make and whose branches are functions of
the answers. A family of implementations is a map `Γ : τ → TypeDef τ`, where `τ` is the type of all Rust
types in play. Running a body may recurse without bound, so the runner `run` takes the maximal nesting
depth of bodies as fuel; `none` means that the depth was not enough (or a panic, see `rootSchemaFor`).

Simplifications:
* `BTreeSet` and `BTreeMap` fields other than `definitions` are lists; they are only used for membership,
  insertion, removal and lookup, never iterated.
* Transforms are pure functions on schemas (in Rust they may keep state of their own).
* A body may not call `definitions_mut`, `take_definitions` or `transforms_mut`, nor replace the generator
  through its `&mut` (all possible in Rust, none done by schemars itself). `take_definitions` and `clone`
  are available to the user's code between outermost calls (`Step` in `Spec/Generator.lean`).
* The counter `i` of the name search is an `i32` in Rust; the model uses `Nat`.
* `log` is a ghost field: it records what happened and is never read by the model.
-/

namespace Verif

/-- schemars/src/generate.rs:191-194 (`Contract`). -/
inductive Contract where
  | deserialize
  | serialize
  deriving DecidableEq, Repr

/-- schemars/src/generate.rs:216-217 (`SchemaUid`). -/
abbrev Uid := String × Contract

/-- schemars/src/generate.rs:26-63 (`SchemaSettings`). -/
structure Settings where
  definitionsPath : String
  metaSchema : Option String
  transforms : List (Json → Json)
  inlineSubschemas : Bool
  contract : Contract
  untaggedEnumVariantTitles : Bool

namespace Settings

/-- schemars/src/generate.rs:78-93. -/
def draft07 : Settings :=
  { definitionsPath := "/definitions", metaSchema := some metaDraft07, transforms := draft07Transforms
    inlineSubschemas := false, contract := .deserialize, untaggedEnumVariantTitles := false }

/-- schemars/src/generate.rs:97-107. -/
def draft2019 : Settings :=
  { definitionsPath := "/$defs", metaSchema := some meta2019, transforms := draft2019Transforms
    inlineSubschemas := false, contract := .deserialize, untaggedEnumVariantTitles := false }

/-- schemars/src/generate.rs:111-121. -/
def draft2020 : Settings :=
  { definitionsPath := "/$defs", metaSchema := some meta2020, transforms := draft2020Transforms
    inlineSubschemas := false, contract := .deserialize, untaggedEnumVariantTitles := false }

/-- schemars/src/consts.rs:24-25. -/
def metaOpenapi3 : String := "https://spec.openapis.org/oas/3.0/schema/2024-10-18#/definitions/Schema"

/-- schemars/src/generate.rs:125-145. -/
def openapi3 : Settings :=
  { definitionsPath := "/components/schemas", metaSchema := some metaOpenapi3, transforms := openapi3Transforms
    inlineSubschemas := false, contract := .deserialize, untaggedEnumVariantTitles := false }

end Settings

/-- What the ghost log records. `enter`/`leave` bracket `json_schema_internal`, `rootEnter`/`rootLeave`
bracket `root_schema_for`; `handed` is a reference schema returned by `subschema_for`. -/
inductive Event (τ : Type) where
  | rootEnter (t : τ) (u : Uid)
  | rootLeave (t : τ) (u : Uid) (s : Json)
  | enter (t : τ) (u : Uid)
  | leave (t : τ) (u : Uid) (s : Json)
  | handed (t : τ) (u : Uid) (s : Json)

/-- schemars/src/generate.rs:234-243 (`SchemaGenerator`). The top of `rootStack` is its head (the last item
of the Rust vector); the newest event of the ghost `log` is its head. -/
structure Gen (τ : Type) where
  settings : Settings
  defs : List (String × Json)
  pending : List Uid
  names : List (Uid × String)
  used : List String
  rootStack : List Uid
  log : List (Event τ)

/-- The generator calls a `json_schema` body may make, with the continuation for each answer. -/
inductive Prog (τ : Type) where
  /-- Return a schema. -/
  | ret (s : Json)
  /-- `generator.subschema_for::<T>()`. -/
  | sub (t : τ) (k : Json → Prog τ)
  /-- `T::json_schema(generator)`. -/
  | direct (t : τ) (k : Json → Prog τ)
  /-- `generator.root_schema_for::<T>()`. -/
  | root (t : τ) (k : Json → Prog τ)
  /-- `generator.settings()`, `generator.contract()`. -/
  | askSettings (k : Settings → Prog τ)
  /-- `generator.definitions()`. -/
  | askDefs (k : List (String × Json) → Prog τ)

/-- schemars/src/lib.rs:127-180 (`trait JsonSchema`). -/
structure TypeDef (τ : Type) where
  schemaId : String
  schemaName : String
  inlineSchema : Bool
  body : Prog τ

namespace Gen

variable {τ : Type}

/-- schemars/src/generate.rs:273-282 (`SchemaGenerator::new`). -/
def new (st : Settings) : Gen τ :=
  { settings := st, defs := [], pending := [], names := [], used := [], rootStack := [], log := [] }

/-- schemars/src/generate.rs:251-262 (`Clone`): everything but the settings and the definitions is
reset. -/
def clone (g : Gen τ) : Gen τ :=
  { settings := g.settings, defs := g.defs, pending := [], names := [], used := [], rootStack := [],
    log := [] }

/-- Appends to the ghost log. -/
def note (g : Gen τ) (e : Event τ) : Gen τ := { g with log := e :: g.log }

end Gen

/-- `BTreeMap::get` on the association list. -/
def lookupName (names : List (Uid × String)) (u : Uid) : Option String :=
  match names with
  | [] => none
  | (v, n) :: r => if v = u then some n else lookupName r u

/-- The loop of schemars/src/generate.rs:339-344 (`for i in 2..`), with fuel. -/
def freshFrom (used : List String) (base : String) : Nat → Nat → String
  | 0, i => base ++ Nat.repr i
  | fuel + 1, i =>
    if base ++ Nat.repr i ∈ used then freshFrom used base fuel (i + 1) else base ++ Nat.repr i

/-- schemars/src/generate.rs:334-347: the base name if unused, else with the first free number. One more
candidate than there are used names is enough (`freshName_not_mem`). -/
def freshName (used : List String) (base : String) : String :=
  if base ∈ used then freshFrom used base (used.length + 1) 2 else base

section Calls

variable {τ : Type} (Γ : τ → TypeDef τ)

/-- schemars/src/generate.rs:620-622 (`schema_uid`). -/
def uidOf (g : Gen τ) (t : τ) : Uid := ((Γ t).schemaId, g.settings.contract)

/-- schemars/src/generate.rs:333-352: the name of a type, assigned on first use. -/
def nameFor (t : τ) (g : Gen τ) : String × Gen τ :=
  match lookupName g.names (uidOf Γ g t) with
  | some n => (n, g)
  | none =>
    let n := freshName g.used (Γ t).schemaName
    (n, { g with used := n :: g.used, names := (uidOf Γ g t, n) :: g.names })

variable (R : τ → Gen τ → Option (Json × Gen τ))

/-- schemars/src/generate.rs:577-587 (`json_schema_internal`). `R` runs `T::json_schema`. -/
def jsonSchemaInternal (t : τ) (u : Uid) (g : Gen τ) : Option (Json × Gen τ) :=
  let didAdd := u ∉ g.pending
  let g1 := { g with pending := if didAdd then u :: g.pending else g.pending }
  (R t (g1.note (.enter t u))).map fun (s, g2) =>
    (s, { g2 with pending := if didAdd then g2.pending.filter (· ≠ u) else g2.pending }.note (.leave t u s))

/-- schemars/src/generate.rs:386-397 (`insert_new_subschema_for`). -/
def insertNewSubschemaFor (t : τ) (name : String) (u : Uid) (g : Gen τ) : Option (Gen τ) :=
  let g1 := { g with defs := Obj.insert g.defs name (.bool false) }
  (jsonSchemaInternal R t u g1).map fun (s, g2) => { g2 with defs := Obj.insert g2.defs name s }

/-- schemars/src/generate.rs:309-384 (`subschema_for`). -/
def subschemaFor (t : τ) (g : Gen τ) : Option (Json × Gen τ) :=
  let u := uidOf Γ g t
  if (!(Γ t).inlineSchema && (!g.settings.inlineSubschemas || decide (u ∈ g.pending))) = true then
    if g.rootStack.head? = some u then
      some (Schema.newRef "#", g.note (.handed t u (Schema.newRef "#")))
    else
      let (name, g1) := nameFor Γ t g
      let s := Schema.newRef (refFor g1.settings.definitionsPath.toList name)
      let g2 := g1.note (.handed t u s)
      if Obj.has g2.defs name then some (s, g2)
      else (insertNewSubschemaFor R t name u g2).map fun g3 => (s, g3)
  else jsonSchemaInternal R t u g

/-- schemars/src/generate.rs:456-463 (and 486-493): the generated object with `title` and `$schema`. -/
def rootObject (t : τ) (meta? : Option String) (m : List (String × Json)) : List (String × Json) :=
  let m1 := match Obj.get m "title" with
    | some _ => m
    | none => Obj.insert m "title" (.str (Γ t).schemaName)
  match meta? with
  | some ms => Obj.insert m1 "$schema" (.str ms)
  | none => m1

/-- schemars/src/generate.rs:450-472 (`root_schema_for`). `none` also stands for the panic of
`ensure_object`, which the invariant of `Schema` excludes. -/
def rootSchemaFor (t : τ) (g : Gen τ) : Option (Json × Gen τ) :=
  let u := uidOf Γ g t
  (jsonSchemaInternal R t u ({ g with rootStack := u :: g.rootStack }.note (.rootEnter t u))).bind
    fun (s, g1) => (Schema.ensureObject s).map fun m =>
      let root := addDefinitions g1.settings.definitionsPath.toList
        (rootObject Γ t g1.settings.metaSchema m) g1.defs
      let r := applyTransforms g1.settings.transforms (.obj root)
      (r, { g1 with rootStack := g1.rootStack.tail }.note (.rootLeave t u r))

/-- schemars/src/generate.rs:427-437 (`take_definitions`). `flat_map(try_from)` skips definitions that are
not schemas. -/
def takeDefinitions (g : Gen τ) (apply : Bool) : List (String × Json) × Gen τ :=
  (if apply then
      g.defs.map fun e => (e.1, if isSchema e.2 then applyTransforms g.settings.transforms e.2 else e.2)
    else g.defs,
   { g with defs := [] })

/-- schemars/src/generate.rs:480-501 (`into_root_schema_for`): consumes the generator. -/
def intoRootSchemaFor (t : τ) (g : Gen τ) : Option Json :=
  let u := uidOf Γ g t
  (jsonSchemaInternal R t u ({ g with rootStack := u :: g.rootStack }.note (.rootEnter t u))).bind
    fun (s, g1) => (Schema.ensureObject s).map fun m =>
      let m1 := rootObject Γ t g1.settings.metaSchema m
      let g2 := { g1 with settings := { g1.settings with metaSchema := none } }
      let (ds, g3) := takeDefinitions g2 false
      applyTransforms g3.settings.transforms (.obj (addDefinitions g3.settings.definitionsPath.toList m1 ds))

/-- Runs a body, given a runner `R` for the bodies it calls. -/
def exec : Prog τ → Gen τ → Option (Json × Gen τ)
  | .ret s, g => some (s, g)
  | .sub t k, g => (subschemaFor Γ R t g).bind fun r => exec (k r.1) r.2
  | .direct t k, g => (R t g).bind fun r => exec (k r.1) r.2
  | .root t k, g => (rootSchemaFor Γ R t g).bind fun r => exec (k r.1) r.2
  | .askSettings k, g => exec (k g.settings) g
  | .askDefs k, g => exec (k g.defs) g

/-- `T::json_schema(generator)` with nesting depth at most `n`. -/
def run : Nat → τ → Gen τ → Option (Json × Gen τ)
  | 0, _, _ => none
  | n + 1, t, g => exec Γ (run n) (Γ t).body g

end Calls

end Verif
