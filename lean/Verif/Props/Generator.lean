import Verif.Lemmas.GeneratorFrame
import Verif.Props.Definitions
import Verif.Props.Encoding

/-!
# C25–C28, C30, C31, C36, C37: the generator's bookkeeping

`τ` is the type of all Rust types in play and `Γ` the family of their `JsonSchema` implementations; both are
arbitrary. `Hist Γ st g` says that `g` is the state of a generator with settings `st` after some history of
outermost calls. The log of `g` records everything that happened in that history, at any depth.
-/

namespace Verif
open Spec

variable {τ : Type} {Γ : τ → TypeDef τ} {st : Settings}

theorem Hist.settings {g : Gen τ} (h : Hist Γ st g) : g.settings = st := by
  induction h with
  | new => rfl
  | call _ hc ih => rw [(Call.kept hc).settings, ih]
  | take _ ih => exact ih

theorem Hist.idle {g : Gen τ} (h : Hist Γ st g) : g.pending = [] ∧ g.rootStack = [] := by
  induction h with
  | new => exact ⟨rfl, rfl⟩
  | call _ hc ih => rw [(Call.kept hc).pending, (Call.kept hc).rootStack]; exact ih
  | take _ ih => exact ih

/-- Everything in the log of a reachable generator is as it should be. -/
theorem Hist.events {g : Gen τ} (h : Hist Γ st g) :
    ∀ e b, Happened e b g.log [] → EvOk Γ st g.names (fun _ => True) e b := by
  induction h with
  | new => intro e b hb; exact absurd hb happened_nil
  | call hr hc ih =>
    intro e b hb
    obtain ⟨evs, p⟩ := Call.post (Hist.inv hr) hc
    rw [p.log] at hb
    rcases happened_append.1 hb with hb | hb
    · rw [List.append_nil] at hb
      have := p.events e b hb
      rw [Hist.settings hr] at this
      exact this.mono (fun _ h => h) (fun _ _ => trivial)
    · exact (ih e b hb).mono (fun x hx => p.names.subset hx) (fun _ h => h)
  | take _ ih => exact ih

/-- `e` is one of the events of the log. -/
theorem Hist.event {g : Gen τ} (h : Hist Γ st g) {e : Event τ} (he : e ∈ g.log) :
    ∃ a b, g.log = a ++ e :: b ∧ EvOk Γ st g.names (fun _ => True) e b := by
  obtain ⟨a, b, hab⟩ := List.append_of_mem he
  exact ⟨a, b, hab, Hist.events h e b ⟨a, b, hab, by simp⟩⟩

/-! ## An example family

`Node` is a recursive type that uses itself and an inlined `Str`; another type is also called `Node`. -/

namespace Ex

inductive T | node | other | str
  deriving DecidableEq

def fam : T → TypeDef T
  | .node =>
    { schemaId := "a::Node", schemaName := "Node", inlineSchema := false
      body := .sub .node fun s => .sub .str fun s2 => .sub .other fun s3 =>
        .ret (.obj [("anyOf", .arr [s, s2, s3])]) }
  | .other =>
    { schemaId := "b::Node", schemaName := "Node", inlineSchema := false
      body := .sub .node fun s => .ret (.obj [("not", s)]) }
  | .str =>
    { schemaId := "str", schemaName := "string", inlineSchema := true
      body := .ret (.obj [("type", .str "string")]) }

def plain : Settings :=
  { definitionsPath := "/$defs", metaSchema := none, transforms := [], inlineSubschemas := false
    contract := .deserialize, untaggedEnumVariantTitles := false }

def g0 : Gen T := Gen.new plain
def s1 : Json := Schema.newRef "#/$defs/Node"
def nodeDef : Json :=
  .obj [("anyOf", .arr [.obj [("$ref", .str "#/$defs/Node")], .obj [("type", .str "string")],
    .obj [("$ref", .str "#/$defs/Node2")]])]
def otherDef : Json := .obj [("not", .obj [("$ref", .str "#/$defs/Node")])]

def g1 : Gen T := ((subschemaFor fam (run fam 3) .node g0).map Prod.snd).getD g0

set_option maxRecDepth 20000 in
theorem g1_eq : subschemaFor fam (run fam 3) .node g0 = some (s1, g1) := by rfl

set_option maxRecDepth 20000 in
theorem g1_defs : g1.defs = [("Node", nodeDef), ("Node2", otherDef)] := by rfl

theorem g1_reach : Hist fam plain g1 := .call .new (.sub g1_eq)

set_option maxRecDepth 20000 in
theorem g1_names : g1.names = [(("b::Node", .deserialize), "Node2"), (("a::Node", .deserialize), "Node")] := by
  rfl

end Ex

/-! ## C25 -/

/-- C25: two entries of the name table have the same name exactly when they are for the same id (and
contract). -/
theorem C25_injective {g : Gen τ} (h : Hist Γ st g) {u v : Uid} {n m : String}
    (hu : lookupName g.names u = some n) (hv : lookupName g.names v = some m) : n = m ↔ u = v := by
  have hi := Hist.inv h
  constructor
  · rintro rfl
    have h1 := lookupName_mem hu
    have h2 := lookupName_mem hv
    have := hi.vals
    exact congrArg Prod.fst (List.inj_on_of_nodup_map this h1 h2 rfl)
  · rintro rfl; rw [hu] at hv; exact Option.some.inj hv

/-- C25: once given, the name of an id never changes, whatever is called afterwards. -/
theorem C25_stable {g g' : Gen τ} {s : Json} {u : Uid} {n : String} (hu : lookupName g.names u = some n) :
    (Call Γ g s g' → lookupName g'.names u = some n) ∧
    (∀ b, lookupName (takeDefinitions g b).2.names u = some n) :=
  ⟨fun h => (Call.kept h).names u n hu, fun _ => hu⟩

/-- C25 for everything that happened in a history, at any depth: two references handed out (other than the
root reference `#`) are equal exactly when they were handed out for the same id and contract. -/
theorem C25_references {g : Gen τ} (h : Hist Γ st g) {t t' : τ} {u u' : Uid} {s s' : Json}
    (h1 : Event.handed t u s ∈ g.log) (h2 : Event.handed t' u' s' ∈ g.log)
    (hs : s ≠ Schema.newRef "#") (hs' : s' ≠ Schema.newRef "#") : s = s' ↔ u = u' := by
  obtain ⟨_, _, _, e1⟩ := Hist.event h h1
  obtain ⟨_, _, _, e2⟩ := Hist.event h h2
  obtain ⟨_, _, _, e1⟩ := e1
  obtain ⟨_, _, _, e2⟩ := e2
  rcases e1 with ⟨_, e1⟩ | ⟨_, n, hn, rfl, _⟩
  · exact absurd e1 hs
  rcases e2 with ⟨_, e2⟩ | ⟨_, m, hm, rfl, _⟩
  · exact absurd e2 hs'
  have hi := Hist.inv h
  have l1 := lookupName_of_mem hi.ids hn
  have l2 := lookupName_of_mem hi.ids hm
  rw [← C25_injective h l1 l2]
  constructor
  · intro e
    have e3 : refFor st.definitionsPath.toList n = refFor st.definitionsPath.toList m := by
      simpa [Schema.newRef, Obj.insert] using e
    have e4 := congrArg String.toList e3
    simp only [refFor, String.toList_ofList, List.cons.injEq, true_and, List.append_cancel_left_eq] at e4
    exact C01_injective n m (by simp [encodeRefName, e4])
  · rintro rfl; rfl

/-- C25: the name is the type's own name, or its own name followed by a number; a number is only used when
the name without number (and with every smaller number from 2) is taken. -/
theorem C25_form (used : List String) (base : String) :
    freshName used base ∉ used ∧
    (freshName used base = base ∨ (base ∈ used ∧ ∃ i, 2 ≤ i ∧ freshName used base = base ++ Nat.repr i ∧
      ∀ k, 2 ≤ k → k < i → base ++ Nat.repr k ∈ used)) := by
  refine ⟨freshName_not_mem used base, ?_⟩
  unfold freshName
  by_cases h : base ∈ used
  · rw [if_pos h]
    obtain ⟨j, h1, h2, h3⟩ := freshFrom_form used base (used.length + 1) 2
    exact .inr ⟨h, j, h1, h2, h3⟩
  · rw [if_neg h]; exact .inl rfl

/-- Two types with the same `schema_name` get different names. -/
example : Hist Ex.fam Ex.plain Ex.g1 ∧
    lookupName Ex.g1.names ("a::Node", .deserialize) = some "Node" ∧
    lookupName Ex.g1.names ("b::Node", .deserialize) = some "Node2" :=
  ⟨Ex.g1_reach, by rw [Ex.g1_names]; rfl, by rw [Ex.g1_names]; rfl⟩

/-- The same id under two contracts: the second gets another name. -/
example :
    (nameFor Ex.fam .node ({ Ex.g0 with
      settings := { Ex.plain with contract := .serialize }
      names := [(("a::Node", .deserialize), "Node")], used := ["Node"] } : Gen Ex.T)).1 = "Node2" := by
  rfl

/-! ## C26 -/

/-- C26, for one outermost call: every reference handed out during the call, at any depth, is the root
reference or the reference to a definition that is present when the call returns. -/
theorem C26_call {g g' : Gen τ} {s : Json} (h : Hist Γ st g) (hc : Call Γ g s g') :
    ∃ evs, g'.log = evs ++ g.log ∧ ∀ t u r, Event.handed t u r ∈ evs →
      r = Schema.newRef "#" ∨
      ∃ n, lookupName g'.names u = some n ∧ r = Schema.newRef (refFor st.definitionsPath.toList n) ∧
        (Obj.get g'.defs n).isSome := by
  obtain ⟨evs, p⟩ := Call.post (Hist.inv h) hc
  refine ⟨evs, p.log, fun t u r hr => ?_⟩
  obtain ⟨b, hb⟩ := mem_happened g.log hr
  obtain ⟨_, _, _, he⟩ := p.events _ _ hb
  rcases he with he | ⟨_, n, hn, hr, hd⟩
  · exact .inl he.2
  · rw [Hist.settings h] at hr
    exact .inr ⟨n, lookupName_of_mem p.inv.ids hn, hr, hd⟩

/-- C26: as long as the definitions are not taken away, every reference handed out since the generator was
created has its definition. -/
theorem C26_history {g : Gen τ} (h : Calls Γ (Gen.new st) g) {t : τ} {u : Uid} {r : Json}
    (hr : Event.handed t u r ∈ g.log) : r = Schema.newRef "#" ∨
      ∃ n, lookupName g.names u = some n ∧ r = Schema.newRef (refFor st.definitionsPath.toList n) ∧
        (Obj.get g.defs n).isSome := by
  obtain ⟨evs, p⟩ := Calls.post (Inv.new st) h
  have hl : g.log = evs := by rw [p.log]; simp [Gen.new]
  rw [hl] at hr
  obtain ⟨b, hb⟩ := mem_happened (Gen.new st : Gen τ).log hr
  obtain ⟨_, _, _, he⟩ := p.events _ _ hb
  rcases he with he | ⟨_, n, hn, hr, hd⟩
  · exact .inl he.2
  · exact .inr ⟨n, lookupName_of_mem p.inv.ids hn, hr, hd⟩

example : ∃ t u, Event.handed t u (Schema.newRef "#/$defs/Node2") ∈ Ex.g1.log :=
  ⟨.other, ("b::Node", .deserialize), by
    have : Ex.g1.log.any (fun e => match e with
      | .handed .other ("b::Node", .deserialize) r => r == Schema.newRef "#/$defs/Node2"
      | _ => false) = true := by rfl
    obtain ⟨e, he, h⟩ := List.any_eq_true.1 this
    revert h
    split
    · intro h; rw [eq_of_beq h] at he; exact he
    · intro h; cases h⟩

/-! ## C27 -/

/-- C27: between outermost calls every definition is what its type's `json_schema` returned: some completed
run of the body of a type with that id returned it, during this history, and the definition is stored under
that id's name. -/
theorem C27_completed {g : Gen τ} (h : Hist Γ st g) {n : String} {v : Json}
    (hv : Obj.get g.defs n = some v) :
    ∃ t, lookupName g.names ((Γ t).schemaId, st.contract) = some n ∧ (Γ t).inlineSchema = false ∧
      Event.leave t ((Γ t).schemaId, st.contract) v ∈ g.log ∧ Ran Γ t v := by
  induction h generalizing n v with
  | new => cases hv
  | take _ _ => cases hv
  | call hr hc ih =>
    rename_i g0 s g1
    obtain ⟨evs, p⟩ := Call.post (Hist.inv hr) hc
    cases h0 : Obj.get g0.defs n with
    | some w =>
      have := p.defsKeep n w h0
      rw [hv] at this; cases this
      obtain ⟨t, h1, h2, h3, h4⟩ := ih h0
      exact ⟨t, (Call.kept hc).names _ _ h1, h2, by rw [p.log]; exact List.mem_append_right _ h3, h4⟩
    | none =>
      obtain ⟨t, u, hl, hn, r, hh⟩ := p.defsNew n v hv h0
      obtain ⟨b, hb⟩ := mem_happened g0.log hl
      obtain ⟨e1, e2⟩ := p.events _ _ hb
      obtain ⟨b', hb'⟩ := mem_happened g0.log hh
      obtain ⟨_, e3, _⟩ := p.events _ _ hb'
      rw [Hist.settings hr] at e1
      subst e1
      exact ⟨t, lookupName_of_mem p.inv.ids hn, e3, by rw [p.log]; exact List.mem_append_left _ hl, e2⟩

/-- C27: the placeholder `false` is only ever left behind by a type whose own schema is `false`. -/
theorem C27_no_placeholder {g : Gen τ} (h : Hist Γ st g) (hΓ : ∀ t, ¬ Ran Γ t (.bool false)) (n : String) :
    Obj.get g.defs n ≠ some (.bool false) := by
  intro hv
  obtain ⟨t, _, _, _, hr⟩ := C27_completed h hv
  exact hΓ t hr

example : ∀ t, ¬ Ran Ex.fam t (.bool false) := by
  rintro t ⟨n, g, g', h⟩
  cases n with
  | zero => cases h
  | succ n =>
    cases t with
    | node =>
      obtain ⟨_, _, h⟩ := Option.bind_eq_some_iff.1 h
      obtain ⟨_, _, h⟩ := Option.bind_eq_some_iff.1 h
      obtain ⟨_, _, h⟩ := Option.bind_eq_some_iff.1 h
      cases h
    | other =>
      obtain ⟨_, _, h⟩ := Option.bind_eq_some_iff.1 h
      cases h
    | str => cases h

/-! ## C28 -/

/-- C28: asking again for a type that got a reference returns the identical schema and leaves the generator
unchanged (the ghost log apart). `g` is any state, also inside a running body; `g''` is any later state. No
body is run the second time: the answer does not depend on the runner `R'`. -/
theorem C28_reference {n : Nat} {R' : τ → Gen τ → Option (Json × Gen τ)} {t : τ} {g g' g'' : Gen τ} {s : Json}
    (hin : (Γ t).inlineSchema = false) (hset : g.settings.inlineSubschemas = true → uidOf Γ g t ∈ g.pending)
    (h : subschemaFor Γ (run Γ n) t g = some (s, g')) (hlater : Calls Γ g' g'') :
    subschemaFor Γ R' t g'' = some (s, g''.note (.handed t (uidOf Γ g t) s)) :=
  subschemaFor_again (run_keeps Γ n) ⟨hin, hset⟩ h (Calls.kept hlater)

/-- C28 for types generated in place, when the bodies do not look at the definitions: asking again returns
the identical schema and changes nothing. -/
theorem C28_inline {n : Nat} {t : τ} {g g' g'' : Gen τ} {s : Json} (hΓ : ∀ t, Plain (Γ t).body)
    (h : subschemaFor Γ (run Γ n) t g = some (s, g')) (hlater : Calls Γ g' g'') :
    ∃ evs, subschemaFor Γ (run Γ n) t g'' = some (s, { g'' with log := evs ++ g''.log }) := by
  obtain ⟨g3, h3, evs, rfl⟩ := subschemaFor_stable (run_keeps Γ n) (run_stable hΓ n) h (Calls.kept hlater)
  exact ⟨evs, h3⟩

example : (Ex.fam .node).inlineSchema = false ∧ Ex.g0.settings.inlineSubschemas = false ∧
    subschemaFor Ex.fam (run Ex.fam 3) .node Ex.g0 = some (Ex.s1, Ex.g1) := ⟨rfl, rfl, Ex.g1_eq⟩

example : ∀ t, Plain (Ex.fam t).body := by
  intro t
  cases t
  · exact .sub fun _ => .sub fun _ => .sub fun _ => .ret _
  · exact .sub fun _ => .ret _
  · exact .ret _

/-! ## C30 -/

/-- C30: every call, from any state, restores the set of types in progress and the root stack, and does not
change the settings. This includes the calls made inside bodies. -/
theorem C30_balanced {g g' : Gen τ} {s : Json} (h : Call Γ g s g') :
    g'.pending = g.pending ∧ g'.rootStack = g.rootStack ∧ g'.settings = g.settings :=
  ⟨(Call.kept h).pending, (Call.kept h).rootStack, (Call.kept h).settings⟩

/-- C30: between outermost calls nothing is in progress, and the settings are those the generator was created
with. -/
theorem C30_idle {g : Gen τ} (h : Hist Γ st g) : g.pending = [] ∧ g.rootStack = [] ∧ g.settings = st :=
  ⟨(Hist.idle h).1, (Hist.idle h).2, Hist.settings h⟩

/-- C30: at every point, the types in progress are those whose `json_schema` was entered and not left. -/
theorem C30_meaning {g : Gen τ} (h : Hist Γ st g) : openOf g.log = [] := by
  have h1 := (Hist.inv h).pend
  rw [(Hist.idle h).1] at h1
  cases h2 : openOf g.log with
  | nil => rfl
  | cons u l => exact absurd ((h1 u).2 (by rw [h2]; exact List.mem_cons_self)) (by simp)

example : Call Ex.fam Ex.g0 Ex.s1 Ex.g1 := .sub Ex.g1_eq

/-! ## C31 -/

/-- C31: a call never removes or changes a definition that was present before it. -/
theorem C31_kept {g g' : Gen τ} {s : Json} (h : Call Γ g s g') {n : String} {v : Json}
    (hv : Obj.get g.defs n = some v) : Obj.get g'.defs n = some v := (Call.kept h).defs n v hv

/-- C31 for any sequence of calls. -/
theorem C31_history {g g' : Gen τ} (h : Calls Γ g g') {n : String} {v : Json}
    (hv : Obj.get g.defs n = some v) : Obj.get g'.defs n = some v := (Calls.kept h).defs n v hv

example : Obj.get Ex.g1.defs "Node2" = some Ex.otherDef := by rw [Ex.g1_defs]; rfl

/-! ## C36 -/

/-- C36: references are only ever handed out for types that are not inlined, and with `inline_subschemas`
only for types that were in progress at that moment. `before` is what had happened until then. -/
theorem C36_references {g : Gen τ} (h : Hist Γ st g) {t : τ} {u : Uid} {s : Json}
    {after before : List (Event τ)} (he : g.log = after ++ .handed t u s :: before) :
    (Γ t).inlineSchema = false ∧ u = ((Γ t).schemaId, st.contract) ∧
      (st.inlineSubschemas = true → u ∈ openOf before) := by
  obtain ⟨h1, h2, h3, _⟩ := Hist.events h _ before ⟨after, before, he, by simp⟩
  exact ⟨h2, h1, h3⟩

/-- C36: a call to `subschema_for` for an inlined type hands out no reference for it and gives it neither a
name nor a definition: it runs the type's `json_schema` in place. -/
theorem C36_inline (R : τ → Gen τ → Option (Json × Gen τ)) {t : τ} (g : Gen τ)
    (ht : (Γ t).inlineSchema = true) :
    subschemaFor Γ R t g = jsonSchemaInternal R t (uidOf Γ g t) g :=
  subschemaFor_inline (by rw [ht]; simp)

/-- C36: a definition belongs to a type that is not inlined; with `inline_subschemas` one that was asked for
while in progress. -/
theorem C36_definitions {g : Gen τ} (h : Hist Γ st g) {n : String} {v : Json}
    (hv : Obj.get g.defs n = some v) :
    ∃ t after before s, g.log = after ++ .handed t ((Γ t).schemaId, st.contract) s :: before ∧
      lookupName g.names ((Γ t).schemaId, st.contract) = some n ∧ (Γ t).inlineSchema = false ∧
      (st.inlineSubschemas = true → ((Γ t).schemaId, st.contract) ∈ openOf before) := by
  induction h generalizing n v with
  | new => cases hv
  | take _ _ => cases hv
  | call hr hc ih =>
    rename_i g0 s g1
    obtain ⟨evs, p⟩ := Call.post (Hist.inv hr) hc
    cases h0 : Obj.get g0.defs n with
    | some w =>
      obtain ⟨t, a, b, s, h1, h2, h3, h4⟩ := ih h0
      exact ⟨t, evs ++ a, b, s, by rw [p.log, h1, List.append_assoc], (Call.kept hc).names _ _ h2, h3, h4⟩
    | none =>
      obtain ⟨t, u, hl, hn, r, hh⟩ := p.defsNew n v hv h0
      obtain ⟨b, a', b', hab, rfl⟩ := mem_happened g0.log hh
      obtain ⟨e1, e2, e3, _⟩ := p.events _ _ ⟨a', b', hab, rfl⟩
      rw [Hist.settings hr] at e1 e3
      subst e1
      exact ⟨t, a', b' ++ g0.log, r, by rw [p.log, hab]; simp, lookupName_of_mem p.inv.ids hn, e2, e3⟩

/-- With `inline_subschemas` the recursive type still gets a definition, and no other type does. -/
example : ((subschemaFor Ex.fam (run Ex.fam 5) .node
    (Gen.new { Ex.plain with inlineSubschemas := true })).map fun r => Obj.keys r.2.defs) = some ["Node"] := by
  rfl

/-! ## C37 -/

/-- C37: `take_definitions` returns the current definitions, as they are or (on request) with the transforms
applied to each that is a schema, in order; it leaves no definitions and changes nothing else. -/
theorem C37_take (g : Gen τ) :
    (takeDefinitions g false).1 = g.defs ∧
    (∀ n, Obj.get (takeDefinitions g true).1 n =
      (Obj.get g.defs n).map fun v =>
        if isSchema v then g.settings.transforms.foldl (fun s f => f s) v else v) ∧
    (Obj.keys (takeDefinitions g true).1 = Obj.keys g.defs) ∧
    ∀ b, (takeDefinitions g b).2 = { g with defs := [] } := by
  refine ⟨rfl, fun n => ?_, ?_, fun _ => rfl⟩
  · exact Obj.get_map g.defs
      (fun _ v => if isSchema v then g.settings.transforms.foldl (fun s f => f s) v else v) n
  · simp [takeDefinitions, Obj.keys, Function.comp_def]

/-- C37: a type that was named before is generated anew under the same name when it is asked for after
`take_definitions`, and its definition is then present. -/
theorem C37_regenerated {n : Nat} {t : τ} {g g' : Gen τ} {s : Json} {b : Bool} {name : String}
    (h : Hist Γ st g) (hname : lookupName g.names ((Γ t).schemaId, st.contract) = some name)
    (hin : (Γ t).inlineSchema = false) (hset : st.inlineSubschemas = false)
    (hs : subschemaFor Γ (run Γ n) t (takeDefinitions g b).2 = some (s, g')) :
    s = Schema.newRef (refFor st.definitionsPath.toList name) ∧
    ∃ v, Obj.get g'.defs name = some v ∧ Ran Γ t v := by
  have hr2 : Hist Γ st (takeDefinitions g b).2 := .take h
  have hst : (takeDefinitions g b).2.settings = st := Hist.settings hr2
  have hu : uidOf Γ (takeDefinitions g b).2 t = ((Γ t).schemaId, st.contract) := by unfold uidOf; rw [hst]
  have hc : ReturnsRef Γ (takeDefinitions g b).2 t := ⟨hin, by rw [hst, hset]; intro h; cases h⟩
  have hnf : nameFor Γ t (takeDefinitions g b).2 = (name, (takeDefinitions g b).2) := by
    unfold nameFor; rw [hu, show (takeDefinitions g b).2.names = g.names from rfl, hname]
  rw [subschemaFor_new hc (by rw [(Hist.idle hr2).2]; simp) (by rw [hnf]; simp [takeDefinitions, Obj.has])] at hs
  obtain ⟨g4, hins, he⟩ := Option.map_eq_some_iff.1 hs
  simp only [Prod.mk.injEq] at he
  obtain ⟨rfl, rfl⟩ := he
  rw [hnf] at hins ⊢
  refine ⟨by simp [refSchema, hst], ?_⟩
  unfold insertNewSubschemaFor at hins
  obtain ⟨⟨s1, g1⟩, hr, rfl⟩ := Option.map_eq_some_iff.1 hins
  refine ⟨s1, by simp, ?_⟩
  unfold jsonSchemaInternal at hr
  obtain ⟨⟨s2, g2⟩, hrun, he⟩ := Option.map_eq_some_iff.1 hr
  simp only [Prod.mk.injEq] at he
  obtain ⟨rfl, _⟩ := he
  exact ⟨_, _, _, hrun⟩

example : lookupName Ex.g1.names ((Ex.fam .other).schemaId, Ex.plain.contract) = some "Node2" := by
  rw [Ex.g1_names]; rfl

example : ((subschemaFor Ex.fam (run Ex.fam 3) .other (takeDefinitions Ex.g1 true).2).map
    fun r => (r.1, Obj.keys r.2.defs)) = some (Schema.newRef "#/$defs/Node2", ["Node", "Node2"]) := by rfl

end Verif
