import Verif.Props.GeneratorRoot
import Verif.Lemmas.Pipeline

/-!
# C57: do the transforms of the settings reach the definitions?
-/

namespace Verif
open Spec

variable {τ : Type} {Γ : τ → TypeDef τ} {st : Settings}

/-- What a transform does to the member `k` of the schema is to transform the subschemas in it. -/
def ActsAt (T : Json → Json) (k : String) : Prop :=
  ∀ m, ∃ m', T (.obj m) = .obj m' ∧ Obj.get m' k = (Obj.get m k).map (atSlot T (subSlot k))

theorem postOrder_actsAt {f : Json → Json} {ks : List String} {k : String}
    (h : ∀ m, ∃ m', f (.obj m) = .obj m' ∧ ∀ k, k ∉ ks → Obj.get m' k = Obj.get m k) (hk : k ∉ ks) :
    ActsAt (postOrder f) k := by
  intro m
  obtain ⟨m', h1, h2⟩ := h (m.map (entryMap subSlot (postOrder f)))
  refine ⟨m', ?_, ?_⟩
  · rw [postOrder_eq f (.obj m), tsub_obj, h1]
  · rw [h2 k hk, get_entryMap]

theorem unevalMembers_other (m : List (String × Json)) (up : Json) {k : String}
    (hk : k ∉ ["unevaluatedProperties", "additionalProperties", "properties"]) :
    Obj.get (unevalMembers m up) k = Obj.get m k := by
  simp at hk
  obtain ⟨h1, h2, h3⟩ := hk
  unfold unevalMembers
  simp only
  split
  · rw [Obj.get_insert_ne _ _ (Ne.symm h2), Obj.get_remove_ne _ (Ne.symm h1)]
  · split
    all_goals
      try rw [Obj.get_insert_ne _ _ (Ne.symm h3)]
      rw [Obj.get_insert_ne _ _ (Ne.symm h2), Obj.get_remove_ne _ (Ne.symm h1)]

theorem replaceUneval_actsAt {k : String}
    (hk : k ∉ ["unevaluatedProperties", "additionalProperties", "properties"]) : ActsAt replaceUneval k := by
  refine postOrder_actsAt (fun m => ?_) hk
  rw [replaceUnevalLocal_obj]
  split
  · exact ⟨_, rfl, fun k hk => unevalMembers_other _ _ hk⟩
  · refine ⟨_, rfl, fun k hk => Obj.get_remove_ne _ ?_⟩
    simp at hk; exact Ne.symm hk.1

theorem removeRefSiblings_actsAt {k : String} (hk : k ∉ ["$ref", "allOf"]) : ActsAt removeRefSiblings k := by
  refine postOrder_actsAt (ks := ["$ref", "allOf"]) (fun m => ?_) hk
  unfold removeRefSiblingsLocal
  simp only
  split
  · split
    · split
      all_goals
        refine ⟨_, rfl, fun k hk => ?_⟩
        simp at hk
        try rw [Obj.get_insert_ne _ _ (Ne.symm hk.2)]
        rw [Obj.get_remove_ne _ (Ne.symm hk.1)]
    · exact ⟨m, rfl, fun _ _ => rfl⟩
  · exact ⟨m, rfl, fun _ _ => rfl⟩

theorem replacePrefix_actsAt {k : String} (hk : k ∉ ["prefixItems", "items", "additionalItems"]) :
    ActsAt replacePrefix k := by
  refine postOrder_actsAt (ks := ["prefixItems", "items", "additionalItems"]) (fun m => ?_) hk
  rw [replacePrefixLocal_obj]
  split
  · simp only
    split
    all_goals
      refine ⟨_, rfl, fun k hk => ?_⟩
      simp at hk
      try rw [Obj.get_insert_ne _ _ (Ne.symm hk.2.2)]
      rw [Obj.get_insert_ne _ _ (Ne.symm hk.2.1), Obj.get_remove_ne _ (Ne.symm hk.1)]
  · refine ⟨_, rfl, fun k hk => Obj.get_remove_ne _ ?_⟩
    simp at hk; exact Ne.symm hk.1

theorem setSingleExample_actsAt {k : String} (hk : k ∉ ["examples", "example"]) : ActsAt setSingleExample k :=
  postOrder_actsAt (fun m => by obtain ⟨m', h1, _, _, h2⟩ := setSingleExampleLocal_get m; exact ⟨m', h1, h2⟩) hk

theorem replaceConst_actsAt {k : String} (hk : k ∉ ["const", "enum"]) : ActsAt replaceConst k :=
  postOrder_actsAt (fun m => by obtain ⟨m', h1, _, _, h2⟩ := replaceConstLocal_get m; exact ⟨m', h1, h2⟩) hk

theorem addNullable_actsAt (c : NullableCfg) {k : String} (hk : k ∉ ["nullable", "const", "type"]) :
    ActsAt (addNullable c) k := postOrder_actsAt (addNullableLocal_get c) hk

theorem replaceBool_actsAt (b : Bool) {k : String} (hk : k ≠ "additionalProperties") :
    ActsAt (replaceBool b) k := by
  intro m
  rw [replaceBool_eq b (.obj m)]
  unfold replaceBoolStep
  have h0 : ∃ m', tsub subSlot (replaceBool b) (.obj m) = .obj m' ∧
      Obj.get m' k = (Obj.get m k).map (atSlot (replaceBool b) (subSlot k)) :=
    ⟨_, tsub_obj m, get_entryMap m k⟩
  cases b with
  | false => exact h0
  | true =>
    cases hg : Obj.get m "additionalProperties" with
    | none => simpa [hg] using h0
    | some ap =>
      refine ⟨Obj.insert ((Obj.remove m "additionalProperties").map (entryMap subSlot (replaceBool true)))
        "additionalProperties" ap, by simp only [hg, tsub_obj, Schema.put, Schema.ensureObject], ?_⟩
      rw [Obj.get_insert_ne _ _ (Ne.symm hk), get_entryMap, Obj.get_remove_ne _ (Ne.symm hk)]

/-- A sequence of transforms leaves a member that is not traversed as it was. -/
theorem applyTransforms_skip {ts : List (Json → Json)} {k : String} (h : ∀ T ∈ ts, ActsAt T k)
    (hk : subSlot k = .skip) (m : List (String × Json)) :
    ∃ m', applyTransforms ts (.obj m) = .obj m' ∧ Obj.get m' k = Obj.get m k := by
  induction ts generalizing m with
  | nil => exact ⟨m, rfl, rfl⟩
  | cons T ts ih =>
    obtain ⟨m1, h1, h2⟩ := h T (by simp) m
    obtain ⟨m', h3, h4⟩ := ih (fun T hT => h T (by simp [hT])) m1
    refine ⟨m', ?_, ?_⟩
    · simp only [applyTransforms, List.foldl_cons, h1] at h3 ⊢; exact h3
    · rw [h4, h2, hk]
      cases Obj.get m k <;> simp [atSlot_skip]

theorem applyTransforms_preserves {ts : List (Json → Json)} (h : ∀ T ∈ ts, Preserves T) :
    Preserves (applyTransforms ts) := by
  induction ts with
  | nil => exact fun s hs => hs
  | cons T ts ih =>
    intro s hs
    exact ih (fun T hT => h T (by simp [hT])) _ (h T (by simp) _ hs)

/-- A sequence of transforms transforms each subschema in a member that holds a map of subschemas. -/
theorem applyTransforms_map {ts : List (Json → Json)} {k : String} (h : ∀ T ∈ ts, ActsAt T k)
    (hp : ∀ T ∈ ts, Preserves T) (hk : subSlot k = .map) {m ds : List (String × Json)}
    (hd : Obj.get m k = some (.obj ds)) :
    ∃ m' ds', applyTransforms ts (.obj m) = .obj m' ∧ Obj.get m' k = some (.obj ds') ∧
      ∀ n d, Obj.get ds n = some d → IsSchema d → Obj.get ds' n = some (applyTransforms ts d) := by
  induction ts generalizing m ds with
  | nil => exact ⟨m, ds, rfl, hd, fun n d h _ => h⟩
  | cons T ts ih =>
    obtain ⟨m1, h1, h2⟩ := h T (by simp) m
    rw [hd, hk] at h2
    obtain ⟨m', ds', h3, h4, h5⟩ := ih (fun T hT => h T (by simp [hT])) (fun T hT => hp T (by simp [hT])) h2
    refine ⟨m', ds', ?_, h4, fun n d hn hs => ?_⟩
    · simp only [applyTransforms, List.foldl_cons, h1] at h3 ⊢; exact h3
    · have := h5 n (T d) (by
        have := Obj.get_map ds (fun _ v => atSchema T v) n
        rw [this, hn]
        simp [atSchema, isSchema_iff.2 hs]) (hp T (by simp) d hs)
      exact this

theorem draft07_actsAt : ∀ T ∈ draft07Transforms, ActsAt T "definitions" := by
  intro T hT
  simp only [draft07Transforms, List.mem_cons, List.not_mem_nil, or_false] at hT
  rcases hT with rfl | rfl | rfl
  · exact replaceUneval_actsAt (by decide)
  · exact removeRefSiblings_actsAt (by decide)
  · exact replacePrefix_actsAt (by decide)

theorem draft07_preserves : ∀ T ∈ draft07Transforms, Preserves T := by
  intro T hT
  simp only [draft07Transforms, List.mem_cons, List.not_mem_nil, or_false] at hT
  rcases hT with rfl | rfl | rfl
  · exact postOrder_preserves replaceUnevalLocal_preserves
  · exact postOrder_preserves removeRefSiblingsLocal_preserves
  · exact postOrder_preserves replacePrefixLocal_preserves

theorem draft2019_actsAt : ∀ T ∈ draft2019Transforms, ActsAt T "$defs" := by
  intro T hT
  simp only [draft2019Transforms, List.mem_cons, List.not_mem_nil, or_false] at hT
  subst hT
  exact replacePrefix_actsAt (by decide)

theorem draft2019_preserves : ∀ T ∈ draft2019Transforms, Preserves T := by
  intro T hT
  simp only [draft2019Transforms, List.mem_cons, List.not_mem_nil, or_false] at hT
  subst hT
  exact postOrder_preserves replacePrefixLocal_preserves

theorem openapi3_actsAt : ∀ T ∈ openapi3Transforms, ActsAt T "components" := by
  intro T hT
  simp only [openapi3Transforms, List.mem_cons, List.not_mem_nil, or_false] at hT
  rcases hT with rfl | rfl | rfl | rfl | rfl | rfl | rfl
  · exact replaceUneval_actsAt (by decide)
  · exact replaceBool_actsAt _ (by decide)
  · exact addNullable_actsAt _ (by decide)
  · exact removeRefSiblings_actsAt (by decide)
  · exact setSingleExample_actsAt (by decide)
  · exact replaceConst_actsAt (by decide)
  · exact replacePrefix_actsAt (by decide)

/-- The type's own schema has no member named `k`. -/
def OwnFree (Γ : τ → TypeDef τ) (t : τ) (k : String) : Prop :=
  ∀ body m, Ran Γ t body → Schema.ensureObject body = some m → Obj.get m k = none

theorem pathFree_of_none {m : List (String × Json)} {seg : String} {rest : List String}
    (h : Obj.get m seg = none) : PathFree m (seg :: rest) := by
  intro p w hp hpr hw
  cases p with
  | nil => exact absurd rfl hp
  | cons k p =>
    have hk : k = seg := by obtain ⟨x, hx⟩ := hpr; simp at hx; exact hx.1
    subst hk
    cases hw with
    | member hg _ => rw [h] at hg; cases hg

/-- C57, full statement: for each of the four provided settings, every definition appears in the root schema
with all transforms of the settings applied to it. -/
def C57_Full : Prop :=
  ∀ (τ : Type) (Γ : τ → TypeDef τ) (st : Settings) (segs : List String) (n : Nat) (t : τ) (g g' : Gen τ)
    (s : Json),
    (st = .draft07 ∧ segs = ["definitions"] ∨ (st = .draft2019 ∨ st = .draft2020) ∧ segs = ["$defs"] ∨
      st = .openapi3 ∧ segs = ["components", "schemas"]) →
    Hist Γ st g → (∀ k ∈ segs, OwnFree Γ t k) → rootSchemaFor Γ (run Γ n) t g = some (s, g') →
    ∀ name d, Obj.get g'.defs name = some d → IsSchema d →
      At s (segs ++ [name]) (st.transforms.foldl (fun s f => f s) d)

theorem C57_map {n : Nat} {t : τ} {g g' : Gen τ} {s : Json} {seg : String}
    (hg : Hist Γ st g) (hpath : PathDenotes st.definitionsPath [seg]) (hseg : seg ≠ "")
    (ht : seg ≠ "title") (hsch : seg ≠ "$schema") (hown : OwnFree Γ t seg)
    (hacts : ∀ T ∈ st.transforms, ActsAt T seg) (hp : ∀ T ∈ st.transforms, Preserves T)
    (hslot : subSlot seg = .map)
    (h : rootSchemaFor Γ (run Γ n) t g = some (s, g')) {name : String} {d : Json}
    (hd : Obj.get g'.defs name = some d) (hds : IsSchema d) :
    At s [seg, name] (st.transforms.foldl (fun s f => f s) d) := by
  have hset := Hist.settings hg
  obtain ⟨body, m, pre, hran, hm, hs, _, _, _, _, _, hat⟩ :=
    C32_root_partial (seg := seg) (rest := []) (Hist.inv hg).sorted (by rw [hset]; exact hpath)
      (by simpa using hseg) ht hsch h
  have hne : g'.defs ≠ [] := by intro e; rw [e] at hd; cases hd
  obtain ⟨ds, hat, hds', _⟩ := hat (pathFree_of_none (hown body m hran hm)) hne
  rw [hset] at hs
  rw [At_singleton] at hat
  obtain ⟨m', ds', e1, e2, e3⟩ := applyTransforms_map hacts hp hslot hat
  have e1' : s = .obj m' := by rw [hs]; exact e1
  rw [e1']
  exact .member e2 (.member (e3 name d (hds' name d hd) hds) (.here _))

/-- C57 for the settings whose definitions path is a schema keyword (draft 7, 2019-09 and 2020-12): every
definition appears in the root schema with all transforms of the settings applied to it.
Missing: `openapi3`, for which it is false (`C57_Full_false`). -/
theorem C57_drafts_partial {n : Nat} {t : τ} {g g' : Gen τ} {s : Json} {seg : String}
    (hst : st = .draft07 ∧ seg = "definitions" ∨ (st = .draft2019 ∨ st = .draft2020) ∧ seg = "$defs")
    (hg : Hist Γ st g) (hown : OwnFree Γ t seg)
    (h : rootSchemaFor Γ (run Γ n) t g = some (s, g')) {name : String} {d : Json}
    (hd : Obj.get g'.defs name = some d) (hds : IsSchema d) :
    At s [seg, name] (st.transforms.foldl (fun s f => f s) d) := by
  rcases hst with ⟨rfl, rfl⟩ | ⟨rfl | rfl, rfl⟩
  · exact C57_map hg (by unfold PathDenotes; decide) (by decide) (by decide) (by decide) hown
      draft07_actsAt draft07_preserves (by decide) h hd hds
  · exact C57_map hg (by unfold PathDenotes; decide) (by decide) (by decide) (by decide) hown
      draft2019_actsAt draft2019_preserves (by decide) h hd hds
  · exact C57_map hg (by unfold PathDenotes; decide) (by decide) (by decide) (by decide) hown
      (by intro T hT; cases hT) (by intro T hT; cases hT) (by decide) h hd hds

/-- What happens with `openapi3`: the definitions appear in the root schema exactly as generated. None of the
transforms has been applied to them. -/
theorem C57_openapi3_untouched {n : Nat} {t : τ} {g g' : Gen τ} {s : Json}
    (hg : Hist Γ .openapi3 g) (hown : OwnFree Γ t "components")
    (h : rootSchemaFor Γ (run Γ n) t g = some (s, g')) {name : String} {d : Json}
    (hd : Obj.get g'.defs name = some d) : At s ["components", "schemas", name] d := by
  have hset := Hist.settings hg
  obtain ⟨body, m, pre, hran, hm, hs, _, _, _, _, _, hat⟩ :=
    C32_root_partial (seg := "components") (rest := ["schemas"]) (Hist.inv hg).sorted
      (by rw [hset]; unfold PathDenotes; decide) (by simp) (by decide) (by decide) h
  have hne : g'.defs ≠ [] := by intro e; rw [e] at hd; cases hd
  obtain ⟨ds, hat, hds', _⟩ := hat (pathFree_of_none (hown body m hran hm)) hne
  rw [hset] at hs
  cases hat with
  | member h1 h2 =>
    obtain ⟨m', e1, e2⟩ := applyTransforms_skip openapi3_actsAt (by decide) pre
    have e1' : s = .obj m' := by rw [hs]; exact e1
    rw [e1']
    exact .member (e2.trans h1) (At_append h2 (.member (hds' name d hd) (.here _)))

namespace Ex

/-- `Outer` contains `Inner`, whose schema is `{"const": null}`. -/
def constFam : Bool → TypeDef Bool
  | true =>
    { schemaId := "Outer", schemaName := "Outer", inlineSchema := false
      body := .sub false fun s => .ret (.obj [("not", s)]) }
  | false =>
    { schemaId := "Inner", schemaName := "Inner", inlineSchema := false
      body := .ret (.obj [("const", .null)]) }

theorem ran_outer {body : Json} (h : Ran constFam true body) : ∃ s, body = .obj [("not", s)] := by
  obtain ⟨n, g, g', h⟩ := h
  cases n with
  | zero => cases h
  | succ n =>
    simp only [run, exec, constFam] at h
    obtain ⟨r, _, h⟩ := Option.bind_eq_some_iff.1 h
    simp only [Option.some.injEq, Prod.mk.injEq] at h
    exact ⟨r.1, h.1.symm⟩

theorem outer_free {k : String} (hk : k ≠ "not") : OwnFree constFam true k := by
  intro body m h hm
  obtain ⟨s, rfl⟩ := ran_outer h
  simp only [Schema.ensureObject, Option.some.injEq] at hm
  subst hm
  simp [Obj.get, Ne.symm hk]

def outerRun (st : Settings) : Option (Json × Gen Bool) :=
  rootSchemaFor constFam (run constFam 3) true (Gen.new st)

end Ex

/-- C57 as stated is false: with `openapi3` settings a definition keeps its `const`, which the transform
`ReplaceConstValue` of these settings should have replaced. -/
theorem C57_Full_false : ¬ C57_Full := by
  intro h
  have hrun : ∃ s g', Ex.outerRun .openapi3 = some (s, g') ∧
      Obj.get g'.defs "Inner" = some (.obj [("const", .null)]) := ⟨_, _, rfl, rfl⟩
  obtain ⟨s, g', hrun, hd⟩ := hrun
  have hown : ∀ k ∈ ["components", "schemas"], OwnFree Ex.constFam true k := by
    intro k hk
    refine Ex.outer_free ?_
    rintro rfl
    simp at hk
  have h1 := h Bool Ex.constFam .openapi3 _ 3 true _ g' s (.inr (.inr ⟨rfl, rfl⟩)) .new hown hrun
    "Inner" _ hd (.obj _)
  have h2 := C57_openapi3_untouched (Γ := Ex.constFam) .new (hown _ (by simp)) hrun hd
  have h3 := At_unique h1 h2
  revert h3
  decide

/-- The hypotheses of `C57_drafts_partial` hold: draft 7 with the same family. -/
example : ∃ s g', Ex.outerRun .draft07 = some (s, g') ∧
    Obj.get g'.defs "Inner" = some (.obj [("const", .null)]) ∧ OwnFree Ex.constFam true "definitions" :=
  ⟨_, _, rfl, rfl, Ex.outer_free (by decide)⟩

end Verif
