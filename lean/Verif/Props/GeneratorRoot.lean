import Verif.Props.Generator
import Verif.Lemmas.GeneratorNames

/-!
# C32–C35 and C04 end to end: root schemas and clones
-/

namespace Verif
open Spec

variable {τ : Type} {Γ : τ → TypeDef τ} {st : Settings}

/-! ## C33 -/

/-- C33: both methods return the same schema from the same state (and either both succeed or both fail),
whatever the bodies do. -/
theorem C33_same (R : τ → Gen τ → Option (Json × Gen τ)) (t : τ) (g : Gen τ) :
    intoRootSchemaFor Γ R t g = (rootSchemaFor Γ R t g).map Prod.fst := by
  unfold intoRootSchemaFor rootSchemaFor
  simp only [Option.map_bind]
  congr 1
  funext ⟨s, g1⟩
  simp only [Function.comp, Option.map_map]
  cases Schema.ensureObject s <;> rfl

example : ∃ s g', rootSchemaFor Ex.fam (run Ex.fam 3) .node Ex.g0 = some (s, g') := ⟨_, _, rfl⟩

/-! ## C32 -/

theorem rootSchemaFor_inv {R : τ → Gen τ → Option (Json × Gen τ)} (hK : Keeps R) {t : τ} {g g' : Gen τ}
    {s : Json} (h : rootSchemaFor Γ R t g = some (s, g')) :
    ∃ body m g0 g1, R t g0 = some (body, g1) ∧ Schema.ensureObject body = some m ∧
      s = applyTransforms g.settings.transforms (.obj (addDefinitions g.settings.definitionsPath.toList
        (rootObject Γ t g.settings.metaSchema m) g'.defs)) := by
  have hk := rootSchemaFor_kept hK h
  unfold rootSchemaFor at h
  obtain ⟨⟨s1, g1⟩, hint, h⟩ := Option.bind_eq_some_iff.1 h
  obtain ⟨m, hm, he⟩ := Option.map_eq_some_iff.1 h
  simp only [Prod.mk.injEq] at he
  obtain ⟨rfl, rfl⟩ := he
  have hs : g1.settings = g.settings := hk.settings
  unfold jsonSchemaInternal at hint
  obtain ⟨⟨s2, g2⟩, hr, he⟩ := Option.map_eq_some_iff.1 hint
  simp only [Prod.mk.injEq] at he
  obtain ⟨rfl, _⟩ := he
  refine ⟨s2, m, _, g2, hr, hm, ?_⟩
  rw [hs]; rfl

theorem get_rootObject (t : τ) (ms : Option String) (m : List (String × Json)) (k : String) :
    Obj.get (rootObject Γ t ms m) k =
      if k = "$schema" then ms.elim (Obj.get m k) (fun x => some (.str x))
      else if k = "title" then some ((Obj.get m "title").getD (.str (Γ t).schemaName))
      else Obj.get m k := by
  unfold rootObject
  by_cases h1 : k = "$schema"
  · subst h1
    cases ht : Obj.get m "title" <;> cases ms <;> simp [Obj.get_insert]
  · by_cases h2 : k = "title"
    · subst h2
      cases ht : Obj.get m "title" <;> cases ms <;> simp [Obj.get_insert, ht]
    · have h1' : "$schema" ≠ k := fun e => h1 e.symm
      have h2' : "title" ≠ k := fun e => h2 e.symm
      cases ht : Obj.get m "title" <;> cases ms <;> simp [Obj.get_insert, h1, h2, h1', h2']

theorem At_singleton {m : List (String × Json)} {k : String} {v : Json} :
    At (.obj m) [k] v ↔ Obj.get m k = some v := by
  constructor
  · intro h
    cases h with
    | member hg h => cases h; exact hg
  · intro h; exact .member h (.here _)

/-- C32, full statement: the root schema is the transforms applied in order to an object that has the
configured `$schema`, the type's own title or its name, and every definition at the definitions path. -/
def C32_Full : Prop :=
  ∀ (τ : Type) (Γ : τ → TypeDef τ) (st : Settings) (segs : List String) (n : Nat) (t : τ) (g g' : Gen τ)
    (s : Json), Hist Γ st g → PathDenotes st.definitionsPath segs →
    rootSchemaFor Γ (run Γ n) t g = some (s, g') →
    ∃ body m pre, Ran Γ t body ∧ Schema.ensureObject body = some m ∧
      s = st.transforms.foldl (fun s f => f s) (.obj pre) ∧
      Obj.get pre "title" = some ((Obj.get m "title").getD (.str (Γ t).schemaName)) ∧
      (∀ ms, st.metaSchema = some ms → Obj.get pre "$schema" = some (.str ms)) ∧
      ∀ name d, Obj.get g'.defs name = some d → At (.obj pre) (segs ++ [name]) d

/-- C32 from any state of the generator. Compared with the full statement: the definitions path must have at
least one segment, must not start with `title` or `$schema` (nor be the single empty segment, which counts as
no path at all), and for the definitions to be present the type's own schema must not already have a
non-object on that path. Everything else of the type's own schema is kept. -/
theorem C32_root_partial {n : Nat} {t : τ} {g g' : Gen τ} {s : Json} {seg : String} {rest : List String}
    (hsort : Obj.Sorted g.defs) (hpath : PathDenotes g.settings.definitionsPath (seg :: rest))
    (h2 : seg :: rest ≠ [""]) (ht : seg ≠ "title") (hsch : seg ≠ "$schema")
    (h : rootSchemaFor Γ (run Γ n) t g = some (s, g')) :
    ∃ body m pre, Ran Γ t body ∧ Schema.ensureObject body = some m ∧
      s = g.settings.transforms.foldl (fun s f => f s) (.obj pre) ∧
      Obj.get pre "title" = some ((Obj.get m "title").getD (.str (Γ t).schemaName)) ∧
      (∀ ms, g.settings.metaSchema = some ms → Obj.get pre "$schema" = some (.str ms)) ∧
      (g.settings.metaSchema = none → Obj.get pre "$schema" = Obj.get m "$schema") ∧
      (∀ k, k ≠ "title" → k ≠ "$schema" → k ≠ seg → Obj.get pre k = Obj.get m k) ∧
      (g'.defs = [] → Obj.get pre seg = Obj.get m seg) ∧
      (PathFree m (seg :: rest) → g'.defs ≠ [] → ∃ ds, At (.obj pre) (seg :: rest) (.obj ds) ∧
        (∀ name d, Obj.get g'.defs name = some d → Obj.get ds name = some d) ∧
        ∀ name, Obj.get g'.defs name = none → ∀ d, Obj.get ds name = some d ↔
          At (.obj m) (seg :: rest ++ [name]) d) := by
  obtain ⟨body, m, g0, g1, hrun, hm, hs⟩ := rootSchemaFor_inv (run_keeps Γ n) h
  have hsort' := (rootSchemaFor_kept (run_keeps Γ n) h).sorted hsort
  refine ⟨body, m, _, ⟨n, g0, g1, hrun⟩, hm, hs, ?_, ?_, ?_, ?_, ?_, ?_⟩
  case refine_5 => intro hd; rw [hd, C05_empty, get_rootObject, if_neg hsch, if_neg ht]
  case refine_6 =>
    intro hfree hne
    have hfree' : PathFree (rootObject Γ t g.settings.metaSchema m) (seg :: rest) := by
      intro p w hp hpr hw
      cases p with
      | nil => exact absurd rfl hp
      | cons k p =>
        have hk : k = seg := by
          obtain ⟨x, hx⟩ := hpr; simp at hx; exact hx.1
        subst hk
        refine hfree _ w hp hpr ?_
        cases hw with
        | member hg hw =>
          rw [get_rootObject, if_neg hsch, if_neg ht] at hg
          exact .member hg hw
    obtain ⟨tt, ht1, ht2, ht3⟩ := C05_target _ _ _ g'.defs hpath (by simp) h2 hfree'
      (Obj.sorted_nodup hsort') hne
    refine ⟨tt, ht1, ht2, fun name hn d => (ht3 name hn d).trans ?_⟩
    have hseg : Obj.get (rootObject Γ t g.settings.metaSchema m) seg = Obj.get m seg := by
      rw [get_rootObject, if_neg hsch, if_neg ht]
    constructor
    · intro hw
      cases hw with
      | member hg hw => exact .member (hseg ▸ hg) hw
    · intro hw
      cases hw with
      | member hg hw => exact .member (hseg.trans hg) hw
  all_goals
    have frame : ∀ k, k ≠ seg →
        Obj.get (addDefinitions g.settings.definitionsPath.toList (rootObject Γ t g.settings.metaSchema m)
          g'.defs) k = Obj.get (rootObject Γ t g.settings.metaSchema m) k := by
      intro k hk
      have := C05_frame g.settings.definitionsPath (seg :: rest) [k]
        (rootObject Γ t g.settings.metaSchema m) g'.defs hpath (by simp) h2
        (fun ⟨x, hx⟩ => hk (by simp at hx; exact hx.1.symm)) (fun ⟨x, hx⟩ => hk (by simp at hx; exact hx.1))
      refine Option.ext fun v => ?_
      rw [← At_singleton, ← At_singleton]
      exact this v
  · rw [frame _ (fun e => ht e.symm), get_rootObject]
    simp
  · intro ms hms
    rw [frame _ (fun e => hsch e.symm), get_rootObject, if_pos rfl, hms]; rfl
  · intro hms
    rw [frame _ (fun e => hsch e.symm), get_rootObject, if_pos rfl, hms]; rfl
  · intro k h1 h2 h3
    rw [frame k h3, get_rootObject, if_neg h2, if_neg h1]

/-- C32: the definitions are at the definitions path exactly if the type's own schema has nothing but objects on that
path, or has them there itself. -/
theorem C32_iff {n : Nat} {t : τ} {g g' : Gen τ} {s : Json} {seg : String} {rest : List String}
    (hsort : Obj.Sorted g.defs) (hpath : PathDenotes g.settings.definitionsPath (seg :: rest))
    (h2 : seg :: rest ≠ [""]) (ht : seg ≠ "title") (hsch : seg ≠ "$schema")
    (h : rootSchemaFor Γ (run Γ n) t g = some (s, g')) (hne : g'.defs ≠ []) :
    ∃ body m pre, Ran Γ t body ∧ Schema.ensureObject body = some m ∧
      s = g.settings.transforms.foldl (fun s f => f s) (.obj pre) ∧
      (HasDefs pre (seg :: rest) g'.defs ↔ PathFree m (seg :: rest) ∨ HasDefs m (seg :: rest) g'.defs) := by
  obtain ⟨body, m, g0, g1, hrun, hm, hs⟩ := rootSchemaFor_inv (run_keeps Γ n) h
  have hsort' := (rootSchemaFor_kept (run_keeps Γ n) h).sorted hsort
  refine ⟨body, m, _, ⟨n, g0, g1, hrun⟩, hm, hs, ?_⟩
  have same : ∀ p w, At (.obj (rootObject Γ t g.settings.metaSchema m)) (seg :: p) w ↔ At (.obj m) (seg :: p) w := by
    intro p w
    have hg : Obj.get (rootObject Γ t g.settings.metaSchema m) seg = Obj.get m seg := by
      rw [get_rootObject, if_neg hsch, if_neg ht]
    constructor
    · intro hw
      cases hw with
      | member hk hw => exact .member (hg ▸ hk) hw
    · intro hw
      cases hw with
      | member hk hw => exact .member (hg.trans hk) hw
  rw [C05_iff hpath (by simp) h2 (Obj.sorted_nodup hsort') hne]
  refine or_congr ⟨fun hf p w hp hpr hw => ?_, fun hf p w hp hpr hw => ?_⟩ (exists_congr fun t => and_congr (same ..) .rfl)
  all_goals
    cases p with
    | nil => exact absurd rfl hp
    | cons k p =>
      obtain ⟨rfl, -⟩ := List.cons_prefix_cons.1 hpr
      first
        | exact hf _ w hp hpr ((same ..).2 hw)
        | exact hf _ w hp hpr ((same ..).1 hw)

example : PathDenotes Ex.plain.definitionsPath ["$defs"] := by unfold PathDenotes; decide

example : (rootSchemaFor Ex.fam (run Ex.fam 3) .other Ex.g0).map Prod.fst = some (.obj
    [("$defs", .obj [("Node", .obj [("anyOf", .arr [.obj [("$ref", .str "#/$defs/Node")],
      .obj [("type", .str "string")], .obj [("$ref", .str "#")]])])]),
     ("not", .obj [("$ref", .str "#/$defs/Node")]), ("title", .str "Node")]) := by rfl

namespace Ex

/-- `Clash`'s own schema has a member `$defs` that is not an object. -/
def clashFam : Bool → TypeDef Bool
  | true =>
    { schemaId := "Clash", schemaName := "Clash", inlineSchema := false
      body := .sub false fun s => .ret (.obj [("$defs", .bool true), ("not", s)]) }
  | false => { schemaId := "B", schemaName := "B", inlineSchema := false, body := .ret (.bool true) }

end Ex

/-- C32 as stated is false: when the type's own schema has a non-object at the definitions path, all
definitions are dropped and the references to them dangle. -/
theorem C32_Full_false : ¬ C32_Full := by
  intro h
  have hr : rootSchemaFor Ex.clashFam (run Ex.clashFam 3) true (Gen.new Ex.plain) = some
      (.obj [("$defs", .bool true), ("not", .obj [("$ref", .str "#/$defs/B")]), ("title", .str "Clash")],
       ((rootSchemaFor Ex.clashFam (run Ex.clashFam 3) true (Gen.new Ex.plain)).map Prod.snd).getD
        (Gen.new Ex.plain)) := by rfl
  obtain ⟨body, m, pre, _, _, hs, _, _, hd⟩ := h Bool Ex.clashFam Ex.plain ["$defs"] 3 true _ _ _ .new
    (by unfold PathDenotes; decide) hr
  have hpre : pre = [("$defs", .bool true), ("not", .obj [("$ref", .str "#/$defs/B")]),
      ("title", .str "Clash")] := by
    have : Json.obj pre = .obj _ := hs.symm
    exact Json.obj.inj this
  have := hd "B" (.bool true) (by rfl)
  rw [hpre] at this
  cases this with
  | member hg h =>
    have : Obj.get [("$defs", Json.bool true), ("not", .obj [("$ref", .str "#/$defs/B")]),
      ("title", .str "Clash")] "$defs" = some (.bool true) := by rfl
    rw [this] at hg; cases hg
    cases h

/-! ## C04, end to end -/

/-- C04 and C26 together: in the root schema (before transforms) of a generator whose definitions were never
taken away, every reference ever handed out, in this call or before, leads through `Schema::pointer` to a
schema produced by the type it was handed out for. Conditions: the definitions path is an ordinary pointer
that does not clash with the type's own schema, and type names have no characters below U+0010. -/
theorem C26_resolves {n : Nat} {t : τ} {g g' : Gen τ} {s : Json} {seg : String} {rest : List String}
    (hg : Calls Γ (Gen.new st) g) (hpath : PathDenotes st.definitionsPath (seg :: rest))
    (h2 : seg :: rest ≠ [""]) (ht : seg ≠ "title") (hsch : seg ≠ "$schema")
    (hpct : '%' ∉ renderPointer (seg :: rest))
    (hnames : ∀ t, ∀ ch ∈ (Γ t).schemaName.toList, 0x10 ≤ ch.toNat)
    (hfree : ∀ body m, Ran Γ t body → Schema.ensureObject body = some m → Obj.get m seg = none)
    (h : rootSchemaFor Γ (run Γ n) t g = some (s, g')) :
    ∃ pre, s = st.transforms.foldl (fun s f => f s) (.obj pre) ∧
      ∀ tt u r, Event.handed tt u r ∈ g'.log → r ≠ Schema.newRef "#" →
        ∃ ref d t', r = Schema.newRef ref ∧ Schema.pointer (.obj pre) ref = some d ∧
          ((Γ t').schemaId, st.contract) = u ∧ Ran Γ t' d := by
  have hcalls : Calls Γ (Gen.new st) g' := .call hg (.root h)
  have hreach : Hist Γ st g' := by
    have : ∀ {g0 g2 : Gen τ}, Calls Γ g0 g2 → Hist Γ st g0 → Hist Γ st g2 := by
      intro g0 g2 hc
      induction hc with
      | nil => exact fun h => h
      | call _ hcall ih => exact fun h => .call (ih h) hcall
    exact this hcalls .new
  have hset : g.settings = st := (Calls.kept hg).settings
  obtain ⟨body, m, g0, g1, hrun, hm, hs⟩ := rootSchemaFor_inv (run_keeps Γ n) h
  rw [hset] at hs
  refine ⟨_, hs, ?_⟩
  intro tt u r hr hne
  rcases C26_history hcalls hr with hr | ⟨name, hl, rfl, hd⟩
  · exact absurd hr hne
  obtain ⟨d, hd⟩ := Option.isSome_iff_exists.1 hd
  obtain ⟨t', ht', _, _, hran⟩ := C27_completed hreach hd
  refine ⟨_, d, t', rfl, ?_, ?_, hran⟩
  · refine C04_resolves_partial st.definitionsPath (seg :: rest) _ g'.defs name d hpath (by simp) h2 hpct
      ?_ (Obj.sorted_nodup (Hist.inv hreach).sorted) ?_ hd
    · intro p w hp hpr hw
      cases p with
      | nil => exact absurd rfl hp
      | cons k p =>
        have hk : k = seg := by
          obtain ⟨x, hx⟩ := hpr; simp at hx; exact hx.1
        subst hk
        cases hw with
        | member hg hw =>
          rw [get_rootObject, if_neg hsch, if_neg ht, hfree body m ⟨n, g0, g1, hrun⟩ hm] at hg
          cases hg
    · exact Hist.fact (printable_fact hnames st.contract) (by simp) hreach _ (lookupName_mem hl)
  · exact (C25_injective hreach ht' hl).1 rfl

/-- The hypotheses of `C26_resolves` hold for the example family. -/
example : (∀ t, ∀ ch ∈ (Ex.fam t).schemaName.toList, 0x10 ≤ ch.toNat) ∧
    '%' ∉ renderPointer ["$defs"] ∧
    (∀ body m, Ran Ex.fam .other body → Schema.ensureObject body = some m → Obj.get m "$defs" = none) := by
  refine ⟨by intro t; cases t <;> decide, by decide, ?_⟩
  rintro body m ⟨n, g, g', h⟩ hm
  cases n with
  | zero => cases h
  | succ n =>
    obtain ⟨⟨s, _⟩, _, h⟩ := Option.bind_eq_some_iff.1 h
    cases h; cases hm; rfl

/-! ## C34 -/

theorem rootsOf_head_mem {l : List (Event τ)} {u : Uid} (h : u ∈ rootsOf l) :
    ∃ t, Event.rootEnter t u ∈ l := by
  induction l with
  | nil => cases h
  | cons e l ih =>
    cases e with
    | rootEnter t v =>
      rcases List.mem_cons.1 h with rfl | h
      · exact ⟨t, List.mem_cons_self⟩
      · obtain ⟨t', h⟩ := ih h; exact ⟨t', List.mem_cons_of_mem _ h⟩
    | rootLeave _ _ _ =>
      obtain ⟨t', h⟩ := ih (List.mem_of_mem_tail h); exact ⟨t', List.mem_cons_of_mem _ h⟩
    | enter _ _ => obtain ⟨t', h⟩ := ih h; exact ⟨t', List.mem_cons_of_mem _ h⟩
    | leave _ _ _ => obtain ⟨t', h⟩ := ih h; exact ⟨t', List.mem_cons_of_mem _ h⟩
    | handed _ _ _ => obtain ⟨t', h⟩ := ih h; exact ⟨t', List.mem_cons_of_mem _ h⟩

theorem refFor_ne_root (path : List Char) (n : String) : Schema.newRef (refFor path n) ≠ Schema.newRef "#" := by
  intro e
  have e1 : refFor path n = "#" := by simpa [Schema.newRef, Obj.insert] using e
  have e2 := congrArg String.toList e1
  rw [refFor, String.toList_ofList] at e2
  have e3 : '#' :: (definitionsPathStripped path ++ '/' :: encodeRefChars n.toList) = ['#'] := e2
  simp at e3

/-- C34, what `#` means when it is handed out: the innermost root type being generated at that moment, and
nothing else; and that type always gets `#`. -/
theorem C34_meaning {g : Gen τ} (h : Hist Γ st g) {t : τ} {u : Uid} {s : Json}
    {after before : List (Event τ)} (he : g.log = after ++ .handed t u s :: before) :
    s = Schema.newRef "#" ↔ (rootsOf before).head? = some u := by
  obtain ⟨_, _, _, h4⟩ := Hist.events h _ before ⟨after, before, he, by simp⟩
  rcases h4 with ⟨h4, h5⟩ | ⟨h4, n, _, h5, _⟩
  · exact ⟨fun _ => h4, fun _ => h5⟩
  · refine ⟨fun e => absurd (h5.symm.trans e) (refFor_ne_root _ _), fun e => absurd e h4⟩

/-- C34 for a generator that is used for one root type only: if every `root_schema_for` call of the history,
at any depth, was for the id `u0`, then every `#` handed out stands for `u0`.
Missing: generators used for several root types, for which it is false (`C34_Full_false`). -/
theorem C34_single_root_partial {g : Gen τ} (h : Hist Γ st g) {u0 : Uid}
    (hroots : ∀ t u, Event.rootEnter t u ∈ g.log → u = u0) {t : τ} {u : Uid}
    (hh : Event.handed t u (Schema.newRef "#") ∈ g.log) : u = u0 := by
  obtain ⟨a, b, hab⟩ := List.append_of_mem hh
  have h1 := (C34_meaning h hab).1 rfl
  obtain ⟨t', ht'⟩ := rootsOf_head_mem (List.mem_of_mem_head? h1)
  exact hroots t' u (by rw [hab]; simp [ht'])

theorem rootsOf_append_mem {evs base : List (Event τ)} (hb : rootsOf base = []) {u : Uid}
    (h : u ∈ rootsOf (evs ++ base)) : ∃ t, Event.rootEnter t u ∈ evs := by
  induction evs with
  | nil => rw [List.nil_append, hb] at h; cases h
  | cons e l ih =>
    cases e with
    | rootEnter t v =>
      rcases List.mem_cons.1 h with rfl | h
      · exact ⟨t, List.mem_cons_self⟩
      · obtain ⟨t', h⟩ := ih h; exact ⟨t', List.mem_cons_of_mem _ h⟩
    | rootLeave _ _ _ =>
      obtain ⟨t', h⟩ := ih (List.mem_of_mem_tail h); exact ⟨t', List.mem_cons_of_mem _ h⟩
    | enter _ _ => obtain ⟨t', h⟩ := ih h; exact ⟨t', List.mem_cons_of_mem _ h⟩
    | leave _ _ _ => obtain ⟨t', h⟩ := ih h; exact ⟨t', List.mem_cons_of_mem _ h⟩
    | handed _ _ _ => obtain ⟨t', h⟩ := ih h; exact ⟨t', List.mem_cons_of_mem _ h⟩

/-- C34 for a generator that was used for other root types before: if the calls before handed out `#` for no
other id (none of the earlier root types mentions itself), and the call enters no other root, then every `#`
handed out stands for the root type of this call.
Missing: earlier root types that mention themselves, for which it is false (`C34_Full_false`). -/
theorem C34_several_roots_partial {g g' : Gen τ} (h : Hist Γ st g) {u0 : Uid} {evs : List (Event τ)}
    {s0 : Json} (hcall : Call Γ g s0 g') (hlog : g'.log = evs ++ g.log)
    (hbefore : ∀ t u, Event.handed t u (Schema.newRef "#") ∈ g.log → u = u0)
    (hnow : ∀ t u, Event.rootEnter t u ∈ evs → u = u0) {t : τ} {u : Uid}
    (hh : Event.handed t u (Schema.newRef "#") ∈ g'.log) : u = u0 := by
  rw [hlog] at hh
  rcases List.mem_append.1 hh with hh | hh
  · obtain ⟨a, b, hab⟩ := List.append_of_mem hh
    have h0 : g'.log = a ++ Event.handed t u (Schema.newRef "#") :: (b ++ g.log) := by rw [hlog, hab]; simp
    have h1 := (C34_meaning (.call h hcall) h0).1 rfl
    obtain ⟨t', ht'⟩ := rootsOf_append_mem ((Hist.inv h).roots.symm.trans (Hist.idle h).2)
      (List.mem_of_mem_head? h1)
    exact hnow t' u (by rw [hab]; simp [ht'])
  · exact hbefore t u hh

/-- C34, full statement, in a form that needs no log: if the body of `b` is just `{"not": <schema of a>}`, and
the root schema of `t` (whose definitions are `g'.defs`) has the definition `{"not": {"$ref": "#"}}` for `b`,
then `a` is the root type `t`. -/
def C34_Full : Prop :=
  ∀ (τ : Type) (Γ : τ → TypeDef τ) (st : Settings) (n : Nat) (t a b : τ) (g g' : Gen τ) (s : Json)
    (name : String), Hist Γ st g → rootSchemaFor Γ (run Γ n) t g = some (s, g') →
    (Γ b).body = .sub a (fun s => .ret (.obj [("not", s)])) →
    lookupName g'.names ((Γ b).schemaId, st.contract) = some name →
    Obj.get g'.defs name = some (.obj [("not", Schema.newRef "#")]) → (Γ a).schemaId = (Γ t).schemaId

namespace Ex

/-- `A` and `B` are mutually recursive; `C` contains `B`. -/
inductive M | a | b | c

def mutFam : M → TypeDef M
  | .a =>
    { schemaId := "A", schemaName := "A", inlineSchema := false
      body := .sub .b fun s => .ret (.obj [("not", s)]) }
  | .b =>
    { schemaId := "B", schemaName := "B", inlineSchema := false
      body := .sub .a fun s => .ret (.obj [("not", s)]) }
  | .c =>
    { schemaId := "C", schemaName := "C", inlineSchema := false
      body := .sub .b fun s => .ret (.obj [("not", s)]) }

def afterA : Gen M := ((rootSchemaFor mutFam (run mutFam 3) .a (Gen.new plain)).map Prod.snd).getD (Gen.new plain)
def afterC : Gen M := ((rootSchemaFor mutFam (run mutFam 3) .c afterA).map Prod.snd).getD afterA

/-- The root schema of `C`: the definition of `B` says `#`, which was handed out for `A`. -/
def rootC : Json :=
  .obj [("$defs", .obj [("B", .obj [("not", .obj [("$ref", .str "#")])])]),
    ("not", .obj [("$ref", .str "#/$defs/B")]), ("title", .str "C")]

end Ex

/-- C34 as stated is false: a generator that first generated the root schema of `A` keeps a definition of `B`
in which `#` stands for `A`; the root schema of `C` then contains that definition, where `#` denotes `C`. -/
theorem C34_Full_false : ¬ C34_Full := by
  intro h
  have hA : rootSchemaFor Ex.mutFam (run Ex.mutFam 3) .a (Gen.new Ex.plain) = some
      (((rootSchemaFor Ex.mutFam (run Ex.mutFam 3) .a (Gen.new Ex.plain)).map Prod.fst).getD .null,
        Ex.afterA) := by rfl
  have hC : rootSchemaFor Ex.mutFam (run Ex.mutFam 3) .c Ex.afterA = some (Ex.rootC, Ex.afterC) := by rfl
  have := h Ex.M Ex.mutFam Ex.plain 3 .c .a .b _ _ _ "B" (.call .new (.root hA)) hC rfl rfl rfl
  exact absurd this (by decide)

/-- `C34_single_root_partial` applies to the generator used for `A` alone. -/
example : ∀ t u, Event.rootEnter t u ∈ Ex.afterA.log → u = ("A", Contract.deserialize) := by
  have hl : Ex.afterA.log.filterMap (fun e => match e with | .rootEnter _ u => some u | _ => none) =
      [("A", Contract.deserialize)] := by rfl
  intro t u h
  have : u ∈ Ex.afterA.log.filterMap (fun e => match e with | .rootEnter _ u => some u | _ => none) :=
    List.mem_filterMap.2 ⟨_, h, rfl⟩
  rw [hl] at this
  simpa using this

namespace Ex

def firstC : Gen M := ((rootSchemaFor mutFam (run mutFam 4) .c (Gen.new plain)).map Prod.snd).getD (Gen.new plain)
def thenA : Gen M := ((rootSchemaFor mutFam (run mutFam 4) .a firstC).map Prod.snd).getD firstC

/-- The ids of the root types in a log. -/
def rootIds (l : List (Event M)) : List Uid := l.filterMap fun e => match e with
  | .rootEnter _ u => some u
  | _ => none

/-- The schemas handed out in a log. -/
def handedOut (l : List (Event M)) : List Json := l.filterMap fun e => match e with
  | .handed _ _ s => some s
  | _ => none

end Ex

/-- The hypotheses of `C34_several_roots_partial` hold for the root schema of `C` first, which mentions itself
nowhere, and then that of `A`. -/
example : Ex.rootIds Ex.firstC.log = [("C", Contract.deserialize)] ∧
    (Ex.handedOut Ex.firstC.log).contains (Schema.newRef "#") = false ∧
    Ex.rootIds (Ex.thenA.log.take (Ex.thenA.log.length - Ex.firstC.log.length)) =
      [("A", Contract.deserialize)] := by
  refine ⟨?_, ?_, ?_⟩ <;> decide +kernel

/-! ## C35 -/

/-- C35, full statement: after a clone, a reference the clone hands out leads to a definition produced by a
type with the id asked for. -/
def C35_Full : Prop :=
  ∀ (τ : Type) (Γ : τ → TypeDef τ) (st : Settings) (n : Nat) (t : τ) (g g1 g2 : Gen τ) (name : String),
    Hist Γ st g → Calls Γ g.clone g1 → (Γ t).inlineSchema = false → st.inlineSubschemas = false →
    subschemaFor Γ (run Γ n) t g1 = some (Schema.newRef (refFor st.definitionsPath.toList name), g2) →
    ∃ t' v, (Γ t').schemaId = (Γ t).schemaId ∧ Obj.get g2.defs name = some v ∧ Ran Γ t' v

namespace Ex

/-- Two types with the same name and different ids and schemas. -/
def twinFam : Bool → TypeDef Bool
  | true => { schemaId := "a::X", schemaName := "X", inlineSchema := false, body := .ret (.bool true) }
  | false => { schemaId := "b::X", schemaName := "X", inlineSchema := false, body := .ret (.obj []) }

def twinG : Gen Bool := ((subschemaFor twinFam (run twinFam 1) true (Gen.new plain)).map Prod.snd).getD
  (Gen.new plain)
def twinG2 : Gen Bool := ((subschemaFor twinFam (run twinFam 1) false twinG.clone).map Prod.snd).getD twinG

end Ex

/-- C35 as stated is false: the clone keeps the definitions but forgets which type they belong to, so a
different type with the same name is taken for the one already defined. -/
theorem C35_Full_false : ¬ C35_Full := by
  intro h
  have h1 : subschemaFor Ex.twinFam (run Ex.twinFam 1) true (Gen.new Ex.plain) =
      some (Schema.newRef "#/$defs/X", Ex.twinG) := by rfl
  have h2 : subschemaFor Ex.twinFam (run Ex.twinFam 1) false Ex.twinG.clone =
      some (Schema.newRef (refFor Ex.plain.definitionsPath.toList "X"), Ex.twinG2) := by rfl
  obtain ⟨t', v, hid, hv, hran⟩ := h Bool Ex.twinFam Ex.plain 1 false Ex.twinG Ex.twinG.clone Ex.twinG2 "X"
    (.call .new (.sub h1)) (.nil _) rfl rfl h2
  have hv' : v = .bool true := by
    have : Obj.get Ex.twinG2.defs "X" = some (.bool true) := by rfl
    rw [this] at hv; exact (Option.some.inj hv).symm
  subst hv'
  cases t' with
  | true => exact absurd hid (by decide)
  | false =>
    obtain ⟨n, g, g', hr⟩ := hran
    cases n with
    | zero => cases hr
    | succ n => simp [run, exec, Ex.twinFam] at hr

theorem clone_inv (g : Gen τ) (h : Inv g) : Inv g.clone :=
  ⟨List.nodup_nil, List.nodup_nil, by simp [Gen.clone], h.sorted, by simp [Gen.clone, openOf], rfl⟩

theorem newRef_name_inj {path : List Char} {n m : String}
    (h : Schema.newRef (refFor path n) = Schema.newRef (refFor path m)) : n = m := by
  have e1 : refFor path n = refFor path m := by simpa [Schema.newRef, Obj.insert] using h
  have e2 := congrArg String.toList e1
  simp only [refFor, String.toList_ofList, List.cons.injEq, true_and, List.append_cancel_left_eq] at e2
  exact C01_injective n m (by simp [encodeRefName, e2])

theorem Inv.name_inj {g : Gen τ} (h : Inv g) {u v : Uid} {n : String} (hu : (u, n) ∈ g.names)
    (hv : (v, n) ∈ g.names) : u = v :=
  congrArg Prod.fst (List.inj_on_of_nodup_map h.vals hu hv rfl)

/-- C35, what a clone's references lead to, whatever the names: the definition under a name that the clone
assigned itself is that of a type with the id asked for, and the definition under a name that was there before
the clone is that of the id that had the name then. -/
theorem C35_exact {n : Nat} {t : τ} {g g1 g2 : Gen τ} {s : Json}
    (hg : Hist Γ st g) (hcalls : Calls Γ g.clone g1) (hin : (Γ t).inlineSchema = false)
    (hset : st.inlineSubschemas = false)
    (h : subschemaFor Γ (run Γ n) t g1 = some (s, g2)) :
    ∃ name t' v, s = Schema.newRef (refFor st.definitionsPath.toList name) ∧
      Obj.get g2.defs name = some v ∧ Ran Γ t' v ∧
      (Obj.get g.defs name = none → (Γ t').schemaId = (Γ t).schemaId) ∧
      (∀ w, Obj.get g.defs name = some w →
        w = v ∧ lookupName g.names ((Γ t').schemaId, st.contract) = some name) := by
  have hstg : g.settings = st := Hist.settings hg
  have hcalls2 : Calls Γ g.clone g2 := .call hcalls (.sub h)
  have hst1 : g1.settings = st := (Calls.kept hcalls).settings.trans hstg
  have hroot : g1.rootStack = [] := (Calls.kept hcalls).rootStack
  have hc : ReturnsRef Γ g1 t := ⟨hin, by rw [hst1, hset]; intro h; cases h⟩
  obtain ⟨evs1, p1⟩ := Calls.post (clone_inv g (Hist.inv hg)) hcalls
  -- the name of `t` in the clone
  have again := subschemaFor_again (R' := run Γ n) (run_keeps Γ n) hc h (Kept.refl g2)
  have hl : ∃ name, lookupName g2.names (uidOf Γ g1 t) = some name ∧
      s = Schema.newRef (refFor st.definitionsPath.toList name) ∧ (Obj.get g2.defs name).isSome := by
    obtain ⟨evs, p⟩ := subschemaFor_post (run_good Γ n) p1.inv h
    obtain ⟨e3, p3⟩ := subschemaFor_post (run_good Γ n) p.inv again
    have he : Event.handed t (uidOf Γ g1 t) s ∈ e3 := by
      have := p3.log
      rw [show (g2.note (.handed t (uidOf Γ g1 t) s)).log = [Event.handed t (uidOf Γ g1 t) s] ++ g2.log
        from rfl] at this
      rw [← List.append_cancel_right this]; simp
    obtain ⟨b, a', b', hab, rfl⟩ := mem_happened g2.log he
    obtain ⟨_, _, _, h4⟩ := p3.events _ _ ⟨a', b', hab, rfl⟩
    have hset2 : g2.settings = st := p.settings.trans hst1
    rcases h4 with ⟨h4, rfl⟩ | ⟨_, name, h5, h6, h7⟩
    · exfalso
      have hr := subschemaFor_kept (run_keeps Γ n) h
      unfold subschemaFor at h
      rw [if_pos (returnsRef_iff.2 hc), hroot] at h
      simp only [List.head?_nil, reduceCtorEq, if_false] at h
      split at h
      · simp only [Option.some.injEq, Prod.mk.injEq] at h
        exact refFor_ne_root _ _ h.1
      · obtain ⟨_, _, h⟩ := Option.map_eq_some_iff.1 h
        simp only [Prod.mk.injEq] at h
        exact refFor_ne_root _ _ h.1
    · exact ⟨name, lookupName_of_mem p3.inv.ids h5, by rw [h6, hset2], h7⟩
  obtain ⟨name, hl, rfl, hd⟩ := hl
  obtain ⟨v, hv⟩ := Option.isSome_iff_exists.1 hd
  obtain ⟨evs, p⟩ := Calls.post (clone_inv g (Hist.inv hg)) hcalls2
  cases h0 : Obj.get g.defs name with
  | some w =>
    have := p.defsKeep _ w h0
    rw [hv] at this; cases this
    obtain ⟨t', hl', _, _, hran⟩ := C27_completed hg h0
    exact ⟨name, t', v, rfl, hv, hran, fun e => (by rw [h0] at e; cases e),
      fun w e => ⟨(Option.some.inj (h0.symm.trans e)).symm, hl'⟩⟩
  | none =>
    obtain ⟨t', u, hlv, hn, r, hh⟩ := p.defsNew _ v hv h0
    obtain ⟨b, hb⟩ := mem_happened g.clone.log hlv
    obtain ⟨e1, e2⟩ := p.events _ _ hb
    have e3 : u = uidOf Γ g1 t := p.inv.name_inj hn (lookupName_mem hl)
    have e4 : (Γ t').schemaId = (Γ t).schemaId := by
      rw [e1] at e3; exact congrArg Prod.fst e3
    exact ⟨name, t', v, rfl, hv, e2, fun _ => e4, fun w e => (by rw [h0] at e; cases e)⟩

/-- C35 when the name that the clone uses for the type either was free before, or was the name of that type.
Missing: names that belonged to another type before the clone, for which it is false (`C35_Full_false`). -/
theorem C35_known_partial {n : Nat} {t : τ} {g g1 g2 : Gen τ} {name : String}
    (hg : Hist Γ st g) (hcalls : Calls Γ g.clone g1) (hin : (Γ t).inlineSchema = false)
    (hset : st.inlineSubschemas = false)
    (h : subschemaFor Γ (run Γ n) t g1 = some (Schema.newRef (refFor st.definitionsPath.toList name), g2))
    (hknown : Obj.get g.defs name = none ∨
      lookupName g.names ((Γ t).schemaId, st.contract) = some name) :
    ∃ t' v, (Γ t').schemaId = (Γ t).schemaId ∧ Obj.get g2.defs name = some v ∧ Ran Γ t' v := by
  obtain ⟨name', t', v, e, hv, hran, h1, h2⟩ := C35_exact hg hcalls hin hset h
  have e1 : name = name' := newRef_name_inj e
  subst e1
  refine ⟨t', v, ?_, hv, hran⟩
  cases h0 : Obj.get g.defs name with
  | none => exact h1 h0
  | some w =>
    rcases hknown with hk | hk
    · rw [h0] at hk; cases hk
    · exact congrArg Prod.fst ((Hist.inv hg).name_inj (lookupName_mem (h2 w h0).2) (lookupName_mem hk))

/-- C35 when no two ids share a `schema_name`.
Missing: families in which two different ids have the same `schema_name`, for which it is false
(`C35_Full_false`). -/
theorem C35_distinct_names_partial {n : Nat} {t : τ} {g g1 g2 : Gen τ} {s : Json}
    (hnames : ∀ t t', (Γ t).schemaName = (Γ t').schemaName → (Γ t).schemaId = (Γ t').schemaId)
    (hg : Hist Γ st g) (hcalls : Calls Γ g.clone g1) (hin : (Γ t).inlineSchema = false)
    (hset : st.inlineSubschemas = false)
    (h : subschemaFor Γ (run Γ n) t g1 = some (s, g2)) :
    ∃ name t' v, s = Schema.newRef (refFor st.definitionsPath.toList name) ∧
      (Γ t').schemaId = (Γ t).schemaId ∧ Obj.get g2.defs name = some v ∧ Ran Γ t' v := by
  have hstg : g.settings = st := Hist.settings hg
  have hQ := ownName_fact hnames st.contract
  have hown := Hist.fact hQ ⟨by simp, by simp⟩ hg
  have hcalls2 : Calls Γ g.clone g2 := .call hcalls (.sub h)
  have hst1 : g1.settings = st := (Calls.kept hcalls).settings.trans hstg
  have hown2 := Calls.fact hQ (g := g.clone) (by rw [← hstg]; rfl) ⟨by simp [Gen.clone], by simp [Gen.clone]⟩ hcalls2
  have hroot : g1.rootStack = [] := (Calls.kept hcalls).rootStack
  have hc : ReturnsRef Γ g1 t := ⟨hin, by rw [hst1, hset]; intro h; cases h⟩
  obtain ⟨evs1, p1⟩ := Calls.post (clone_inv g (Hist.inv hg)) hcalls
  -- the name of `t` in the clone
  have again := subschemaFor_again (R' := run Γ n) (run_keeps Γ n) hc h (Kept.refl g2)
  have hl : ∃ name, lookupName g2.names (uidOf Γ g1 t) = some name ∧
      s = Schema.newRef (refFor st.definitionsPath.toList name) ∧ (Obj.get g2.defs name).isSome := by
    obtain ⟨evs, p⟩ := subschemaFor_post (run_good Γ n) p1.inv h
    obtain ⟨e3, p3⟩ := subschemaFor_post (run_good Γ n) p.inv again
    have he : Event.handed t (uidOf Γ g1 t) s ∈ e3 := by
      have := p3.log
      rw [show (g2.note (.handed t (uidOf Γ g1 t) s)).log = [Event.handed t (uidOf Γ g1 t) s] ++ g2.log
        from rfl] at this
      rw [← List.append_cancel_right this]; simp
    obtain ⟨b, a', b', hab, rfl⟩ := mem_happened g2.log he
    obtain ⟨_, _, _, h4⟩ := p3.events _ _ ⟨a', b', hab, rfl⟩
    have hset2 : g2.settings = st := p.settings.trans hst1
    rcases h4 with ⟨h4, rfl⟩ | ⟨_, name, h5, h6, h7⟩
    · exfalso
      have hr := subschemaFor_kept (run_keeps Γ n) h
      unfold subschemaFor at h
      rw [if_pos (returnsRef_iff.2 hc), hroot] at h
      simp only [List.head?_nil, reduceCtorEq, if_false] at h
      split at h
      · simp only [Option.some.injEq, Prod.mk.injEq] at h
        exact refFor_ne_root _ _ h.1
      · obtain ⟨_, _, h⟩ := Option.map_eq_some_iff.1 h
        simp only [Prod.mk.injEq] at h
        exact refFor_ne_root _ _ h.1
    · exact ⟨name, lookupName_of_mem p3.inv.ids h5, by rw [h6, hset2], h7⟩
  obtain ⟨name, hl, rfl, hd⟩ := hl
  obtain ⟨v, hv⟩ := Option.isSome_iff_exists.1 hd
  obtain ⟨t1, hu1, rfl⟩ := hown2.1 _ _ (lookupName_mem hl)
  have hid1 : (Γ t1).schemaId = (Γ t).schemaId := by
    have := congrArg Prod.fst hu1
    exact this.symm
  -- its definition
  obtain ⟨evs, p⟩ := Calls.post (clone_inv g (Hist.inv hg)) hcalls2
  have key : ∃ t', (Γ t').schemaId = (Γ t).schemaId ∧ Ran Γ t' v := by
    cases h0 : Obj.get g.defs (Γ t1).schemaName with
    | some w =>
      have := p.defsKeep _ w h0
      rw [hv] at this; cases this
      obtain ⟨t', hl', _, _, hran⟩ := C27_completed hg h0
      obtain ⟨t2, hu2, hn2⟩ := hown.1 _ _ (lookupName_mem hl')
      have e1 : (Γ t').schemaId = (Γ t2).schemaId := congrArg Prod.fst hu2
      exact ⟨t', by rw [e1, ← hnames _ _ hn2, hid1], hran⟩
    | none =>
      obtain ⟨t', u, hlv, hn, r, hh⟩ := p.defsNew _ v hv h0
      obtain ⟨b, hb⟩ := mem_happened g.clone.log hlv
      obtain ⟨e1, e2⟩ := p.events _ _ hb
      obtain ⟨t2, hu2, hn2⟩ := hown2.1 _ _ hn
      have e3 : (Γ t').schemaId = (Γ t2).schemaId := by
        rw [e1] at hu2; exact congrArg Prod.fst hu2
      exact ⟨t', by rw [e3, ← hnames _ _ hn2, hid1], e2⟩
  obtain ⟨t', hid, hran⟩ := key
  exact ⟨_, t', v, rfl, hid, hv, hran⟩

/-- Distinct names do occur: the mutually recursive example family. -/
example : ∀ t t', (Ex.mutFam t).schemaName = (Ex.mutFam t').schemaName →
    (Ex.mutFam t).schemaId = (Ex.mutFam t').schemaId := by
  intro t t'; cases t <;> cases t' <;> decide

/-- `C35_known_partial` applies where names are shared: in the clone of a generator that has defined the first
of the twins, that twin is known by its name. -/
example : lookupName Ex.twinG.names ((Ex.twinFam true).schemaId, Ex.plain.contract) = some "X" ∧
    (subschemaFor Ex.twinFam (run Ex.twinFam 1) true Ex.twinG.clone).map Prod.fst =
      some (Schema.newRef (refFor Ex.plain.definitionsPath.toList "X")) := ⟨by rfl, by rfl⟩

/-- C35: a clone of a generator without definitions behaves like a new generator. -/
theorem C35_empty (g : Gen τ) (h : g.defs = []) : g.clone = Gen.new g.settings := by
  simp [Gen.clone, Gen.new, h]

end Verif
