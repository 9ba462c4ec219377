import Verif.Props.CrateTypesMore
import Verif.Props.Versions

/-!
# C83 for the provided settings

The schemas of the crate's own types are tidy, so that the transforms of the settings keep what they accept.
-/

namespace Verif
open Spec

section
variable {P : Nat → IdDecl} {C : Crates P} {W : World Ty} {env : Env} {v : Version} {st : Settings}

theorem tidy_weekday : Tidy Fixed.weekdaySchema := tidy_typed (by decide) (by decide) _

theorem tidy_nanos : Tidy (mkObj [("type", .str "integer"), ("minimum", .num (.int 0)),
    ("exclusiveMaximum", .num (.int 1000000000))]) := by
  refine tidy_lit ?_ ?_ <;> simp only [List.mem_cons, List.not_mem_nil, or_false, forall_eq_or_imp, forall_eq]
  · exact ⟨te_type _, te_plain _ (by decide), te_skip _ (by decide) (by decide)⟩
  · decide

/-- The schemas of a run are tidy. -/
theorem crate_tidy (hΓ : W.Γ = crateDef C) : ∀ k t s, Produced W k t s → Tidy s := by
  intro k
  induction k with
  | zero => exact fun _ _ h => h.elim
  | succ k ih =>
    intro t s h
    have h : Returns (W.answers (Produced W k)) (W.Γ t).body s := h
    rw [crate_body hΓ] at h
    have hc := crateOf_crate C t
    generalize crateOf C t = t' at h hc
    have hs : ∀ t s, (W.answers (Produced W k)).sub t s → Tidy s := by
      intro t s h
      rcases answers_ref h with h | ⟨r, rfl⟩
      · exact ih t s h
      · exact tidy_newRef r
    cases t' with
    | fixed f =>
      cases f <;> simp only [Ty.body, Ty.fixedBody] at h
      case weekday => cases h; exact tidy_weekday
      case timeDelta =>
        cases h
        refine tidy_lit ?_ ?_ <;> simp only [List.mem_cons, List.not_mem_nil, or_false, forall_eq_or_imp, forall_eq]
        · refine ⟨te_type _, te_list (by decide) ?_, te_plain _ (by decide), te_plain _ (by decide)⟩
          simp only [List.mem_cons, List.not_mem_nil, or_false, forall_eq_or_imp, forall_eq]
          exact ⟨tidy_int .i64, tidy_nanos⟩
        · decide
      case semver =>
        cases h
        refine tidy_lit ?_ ?_ <;> simp only [List.mem_cons, List.not_mem_nil, or_false, forall_eq_or_imp, forall_eq]
        · exact ⟨te_type _, te_plain _ (by decide)⟩
        · decide
      case schema =>
        cases h
        refine tidy_lit ?_ ?_ <;> simp only [List.mem_cons, List.not_mem_nil, or_false, forall_eq]
        · exact te_types (by simp) (by simp)
        · decide
      all_goals exact std_tidy hs h
    | arrayVec n t =>
      obtain ⟨s1, h1, rfl⟩ := h
      refine tidy_lit ?_ ?_ <;> simp only [List.mem_cons, List.not_mem_nil, or_false, forall_eq_or_imp, forall_eq]
      · exact ⟨te_type _, te_items (hs _ _ h1), te_plain _ (by decide)⟩
      · decide
    | derived d cs l => exact hc.elim
    | _ => simp only [Ty.body] at h; exact std_tidy hs h

/-- The names of the definitions are plain. -/
theorem crate_names {n : Nat} {t : Ty} {r : Json} {g' : Gen Ty}
    (h : rootSchemaFor (crateDef C) (run (crateDef C) n) t (Gen.new st) = some (r, g')) :
    ∀ name d, Obj.get g'.defs name = some d → PlainName name := by
  intro name d hd
  obtain ⟨body, m, -, -, -, hdefs, -⟩ := root_world (fun t => crate_noRoot _ (crateOf_crate C t)) h
  obtain ⟨t', -, h2⟩ := hdefs name d hd
  exact rootSchemaFor_fact (run_fact (crate_fact _) n) rfl (by intro e he; cases he) h _ h2

/-- C83 for all provided settings, for a set of types with different ids. -/
theorem crates_versions (C : Crates P) (hrx : FixedRx env) {n : Nat} {t : Ty} (hc : C.S t) (hst : Configured v st)
    {r : Json} {g' : Gen Ty}
    (h : rootSchemaFor (Ty.typeDef P) (run (Ty.typeDef P) n) t (Gen.new st) = some (r, g'))
    (hnone : v = .openapi3 → g'.defs = []) (hR : Resolves v.dialect env r) {j : Json} (hj : j.WF) :
    Valid v.dialect env r j ↔ Doc st.contract t j := by
  have hM := (C76_assumed (D := draft2020) hrx rfl rfl).1
  rw [crateDef_root hc] at h
  have hroot : ∀ t, NoRoot (crateDef C t).body := fun t => crate_noRoot _ (crateOf_crate C t)
  by_cases hv : v = .openapi3
  · subst hv
    obtain ⟨body, hF, hdoc⟩ := openapi_document_of hM hroot h hst.2.2 (crate_tidy rfl) (hnone rfl) hR
    obtain ⟨h1, h2⟩ := hdoc (crate_nullable (D := draft2020) (env := env) rfl n t body hF.body).sch
    exact (h2 j).trans ((crate_exact hrx hM rfl hF h1 t hc n body hF.body).1 j hj)
  · obtain ⟨k, hk, hpath, hacts, hpres, hkeep⟩ := version_keeps env hv hst
    obtain ⟨body, hF, -, hdoc⟩ := pipeline_document_of hM hroot h (crate_tidy rfl) hk hpath hacts hpres hkeep
      (crate_names h) hR
    obtain ⟨h1, h2⟩ := hdoc (crate_nullable (D := draft2020) (env := env) rfl n t body hF.body).sch
    exact (h2 j).trans ((crate_exact hrx hM rfl hF h1 t hc n body hF.body).1 j hj)

/-- C83 for all provided settings, with any choice about inlining and titles (`_partial` as `C83_partial`, and without
definitions for OpenAPI 3.0, whose definitions are not transformed). -/
theorem C83_versions_partial (hrx : FixedRx env) {n : Nat} {t : Ty} (hc : Crate false t) (hst : Configured v st)
    {r : Json} {g' : Gen Ty}
    (h : rootSchemaFor (Ty.typeDef P) (run (Ty.typeDef P) n) t (Gen.new st) = some (r, g'))
    (hnone : v = .openapi3 → g'.defs = []) (hR : Resolves v.dialect env r) {j : Json} (hj : j.WF) :
    Valid v.dialect env r j ↔ Doc st.contract t j :=
  crates_versions (.plain P) hrx hc hst h hnone hR hj

/-- The same with `ArrayVec` (`_partial` as `C83_ids_partial`). -/
theorem C83_versions_ids_partial (hrx : FixedRx env) {n : Nat} {t : Ty} (hc : Crate true t)
    (hid : ∀ u u', PartOf t u → PartOf t u' → Ty.id P u = Ty.id P u' → u = u') (hst : Configured v st)
    {r : Json} {g' : Gen Ty}
    (h : rootSchemaFor (Ty.typeDef P) (run (Ty.typeDef P) n) t (Gen.new st) = some (r, g'))
    (hnone : v = .openapi3 → g'.defs = []) (hR : Resolves v.dialect env r) {j : Json} (hj : j.WF) :
    Valid v.dialect env r j ↔ Doc st.contract t j :=
  crates_versions (.parts P t hc hid) hrx .self hst h hnone hR hj

/-- C80 for the types of the crate (`_partial` as `C83_versions_partial`), for reading and for writing, and without a
condition on numbers: the documents for two of the provided settings accept the same. -/
theorem C80_crate_partial {v' : Version} {st' : Settings} {env' : Env} (hrx : FixedRx env) (hrx' : FixedRx env')
    {n n' : Nat} {t : Ty} (hc : Crate false t) (hst : Configured v st) (hst' : Configured v' st')
    (hcon : st.contract = st'.contract) {r r' : Json} {g g' : Gen Ty}
    (h : rootSchemaFor (Ty.typeDef P) (run (Ty.typeDef P) n) t (Gen.new st) = some (r, g))
    (h' : rootSchemaFor (Ty.typeDef P) (run (Ty.typeDef P) n') t (Gen.new st') = some (r', g'))
    (hnone : v = .openapi3 → g.defs = []) (hnone' : v' = .openapi3 → g'.defs = []) (hR : Resolves v.dialect env r)
    (hR' : Resolves v'.dialect env' r') {j : Json} (hj : j.WF) :
    Valid v.dialect env r j ↔ Valid v'.dialect env' r' j := by
  rw [C83_versions_partial hrx hc hst h hnone hR hj, C83_versions_partial hrx' hc hst' h' hnone' hR' hj, hcon]

end

/-! ## Example -/

namespace CrateEx

/-- `(u8, Option<char>)` -/
def pair : Ty := .tuple [.fixed (.int .u8), .option (.fixed .char)]

/-- The root schema for settings. -/
def pairSchema (st : Settings) : Json := ((rootSchemaFor types (run types 10) pair (Gen.new st)).map (·.1)).getD .null

theorem pairGenerates {st : Settings} (h : (rootSchemaFor types (run types 10) pair (Gen.new st)).map
      (fun x => (x.1, x.2.defs)) = some (pairSchema st, [])) :
    ∃ g', rootSchemaFor types (run types 10) pair (Gen.new st) = some (pairSchema st, g') ∧ g'.defs = [] := generated h

/-- The documents for draft 7 and OpenAPI 3.0 accept `[7, null]`, but not `[7]`. -/
example (v : Version) (st : Settings) (h : (v, st) ∈ [(.draft07, Settings.draft07), (.openapi3, Settings.openapi3)]) :
    ∃ env, FixedRx env ∧ Resolves v.dialect env (pairSchema st) ∧
      Valid v.dialect env (pairSchema st) (.arr [.num (.int 7), .null]) ∧
      ¬ Valid v.dialect env (pairSchema st) (.arr [.num (.int 7)]) := by
  obtain ⟨env, he⟩ := fixedRx_exists
  have hg : ∃ g', rootSchemaFor types (run types 10) pair (Gen.new st) = some (pairSchema st, g') ∧ g'.defs = [] := by
    simp only [List.mem_cons, List.not_mem_nil, or_false, Prod.mk.injEq] at h
    rcases h with ⟨-, rfl⟩ | ⟨-, rfl⟩ <;> exact pairGenerates (by decide +kernel)
  have hr : ∃ f, Resolves v.dialect (env.withRef f) (pairSchema st) := by
    simp only [List.mem_cons, List.not_mem_nil, or_false, Prod.mk.injEq] at h
    rcases h with ⟨-, rfl⟩ | ⟨-, rfl⟩ <;> exact resolves_self (by decide +kernel)
  have hst : Configured v st := by
    simp only [List.mem_cons, List.not_mem_nil, or_false, Prod.mk.injEq] at h
    rcases h with ⟨rfl, rfl⟩ | ⟨rfl, rfl⟩ <;> exact ⟨rfl, rfl, rfl⟩
  obtain ⟨g', hg, hd⟩ := hg
  obtain ⟨f, hf⟩ := hr
  have he' : FixedRx (env.withRef f) := he
  have hc : Crate false pair := by simp [pair, Crate, CrateAll]
  have h7 : (Json.num (.int 7)).WF := .num _
  refine ⟨env.withRef f, he, hf, (C83_versions_partial he' hc hst hg (fun _ => hd) hf ?_).2 ?_, fun h => ?_⟩
  · exact .arr _ fun x hx => by
      simp only [List.mem_cons, List.not_mem_nil, or_false] at hx
      rcases hx with rfl | rfl
      exacts [h7, .null]
  · simp only [pair, Doc, Docs, FixedDoc, IntDoc]
    exact ⟨_, rfl, _, _, rfl, ⟨7, ⟨_, rfl, by simp [JNum.val]⟩, fun _ => by unfold Holds; decide, fun _ => by decide⟩, _, _, rfl,
      .inl rfl, rfl⟩
  · have := (C83_versions_partial he' hc hst hg (fun _ => hd) hf (.arr _ fun x hx => by
      cases List.mem_singleton.1 hx; exact h7)).1 h
    simp [pair, Doc, Docs] at this

end CrateEx

end Verif
