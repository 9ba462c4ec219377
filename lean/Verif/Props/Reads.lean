import Verif.Lemmas.Deser
import Verif.Props.Accepts
import Verif.Props.ReadsEnum

/-!
# C64 and C65: generated root schemas and what serde reads

C64: the root schemas for the `Deserialize` contract accept the documents that serde reads. C65: serde reads the
documents that they accept.
-/

namespace Verif
open Spec

variable {τ : Type}

/-- There is no cycle of types that are read as each other without going into a part of the document. -/
def Spec.Grounded (base : τ → τ) (decl : τ → Decl τ) : Prop :=
  ∃ rank : τ → Nat, ∀ t u, InPlace base (decl t) u → rank u < rank t

/-- What is assumed of the type information, beyond `Declared`: the options are known. -/
def Spec.OptionsKnown (decl : τ → Decl τ) (I : TypeInfo τ) : Prop :=
  ∀ t u, decl t = .std (.option u) → I.isOption t = true

section
variable {D : Dialect} {env : Env} {Γ : τ → TypeDef τ} {decl : τ → Decl τ} {I : TypeInfo τ} {w : Nat} {q : Quirks τ}

theorem options_iff (hG : Declared Γ decl I) (ho : OptionsKnown decl I) (t : τ) :
    I.isOption t = true ↔ ∃ u, decl t = .std (.option u) :=
  ⟨fun h => (hG.option t h).imp fun _ h => h.1, fun ⟨u, h⟩ => ho t u h⟩

/-- Without validation attributes, all values obey. -/
theorem read_obeys {base : τ → τ} (hn : ∀ t, ∀ f ∈ declFields (decl t), f.validation = .noAttrs) {t : τ} {j : Json}
    (h : Read w q base decl t j) : ReadIf w q (FieldObeys env) base decl t j :=
  readIf_imp (fun t f hf x _ => by unfold FieldObeys; rw [hn t f hf]; exact obeys_noAttrs x) (readIf_any.2 h)

/-! ### The answers of a run -/

theorem level_from {W : World τ} (hG : Declared W.Γ decl I) (hde : W.settings.contract = .deserialize) {k : Nat} {t : τ}
    {s : Json} (h : Produced W k t s) : FromBody decl I t s := by
  induction k generalizing t s with
  | zero => exact h.elim
  | succ k ih =>
    have h : Returns (W.answers (Produced W k)) (W.Γ t).body s := h
    rw [hG.body] at h
    refine Comes.from ⟨hde, fun u v hu => ih hu, fun s hs => answers_unit hG hs, fun u v hu => ?_⟩ h
    exact (answers_ref hu).imp ih id

/-- Where the answers of a run come from. -/
theorem level_comes {W : World τ} (hG : Declared W.Γ decl I) (hde : W.settings.contract = .deserialize) (k : Nat) :
    Comes decl I (W.answers (Produced W k)) where
  de := hde
  ran _ _ h := level_from hG hde h
  unit _ h := answers_unit hG h
  ranSub _ _ h := (answers_ref h).imp (level_from hG hde) id

theorem level_targets {W : World τ} {root : τ} {body : Json} {N : Nat} (hG : Declared W.Γ decl I)
    (hde : W.settings.contract = .deserialize) (hR : Follows D env W root body) (hW : Finished W N root body) (k : Nat) :
    Targets D env decl I (W.answers (Produced W k)) := by
  intro t s h
  rcases answers_target hG hR hW h with h | ⟨r, v, rfl, h1, A, ⟨k', rfl⟩, h2⟩
  · exact .inl (level_from hG hde h)
  · exact .inr ⟨r, v, rfl, h1, (level_comes hG hde k').from h2⟩

theorem level_asked {W : World τ} (hrefs : D.refSiblings = true) (hG : Declared W.Γ decl I) (hde : W.settings.contract = .deserialize)
    (hraw : ∀ n d, Obj.get W.defs n = some d → env.ref (rawRef W.settings.definitionsPath.toList n) = den D env d)
    {k : Nat} (hnull : ∀ t s, Produced W k t s → Nullable D env s) :
    Asked D env decl I (W.answers (Produced W k)) where
  toComes := level_comes hG hde k
  refs := hrefs
  nullSub t s h := by
    rcases answers_ref h with h | ⟨r, rfl⟩
    · exact hnull t s h
    · exact nullable_ref r
  nullDirect := hnull
  defs d hd n m' hm := by
    have := hd n m' hm
    exact hraw n _ this

theorem level_nullable {W : World τ} {exact sw : Bool} (hrefs : D.refSiblings = true) (hG : Declared W.Γ decl I)
    (hok : ∀ t, ReadOk exact sw decl I.base (decl t))
    (hde : W.settings.contract = .deserialize) (hraw : ∀ n d, Obj.get W.defs n = some d → env.ref (rawRef W.settings.definitionsPath.toList n) = den D env d) (k : Nat) :
    ∀ t s, Produced W k t s → Nullable D env s := by
  induction k with
  | zero => exact fun t s h => h.elim
  | succ k ih =>
    intro t s h
    have h : Returns (W.answers (Produced W k)) (W.Γ t).body s := h
    rw [hG.body] at h
    exact body_nullable (level_asked hrefs hG hde hraw ih) (hok t) h

/-- The schemas of a run. -/
theorem level_ready {W : World τ} {root : τ} {body : Json} {N : Nat} {exact sw b : Bool} {P : τ → Json → Prop} {j : Json}
    (hrefs : D.refSiblings = true) (hG : Declared W.Γ decl I) (hok : ∀ t, ReadOk exact sw decl I.base (decl t)) (hde : W.settings.contract = .deserialize)
    (hraw : ∀ n d, Obj.get W.defs n = some d → env.ref (rawRef W.settings.definitionsPath.toList n) = den D env d) (hR : Follows D env W root body)
    (hW : Finished W N root body) (hj : j.WF) (hn : b = true → SmallNumbers j) (k : Nat)
    (hall : b = false → ∀ t x, x.WF → MatchesAt D env b P (W.answers (Produced W k)) t x)
    (hbelow : ∀ t x, x.WF → (b = true → SmallNumbers x) → sizeOf x < sizeOf j →
      MatchesAt D env b P (W.answers (Produced W k)) t x) :
    Ready D env b P decl I (W.answers (Produced W k)) j where
  toAsked := level_asked hrefs hG hde hraw (level_nullable hrefs hG hok hde hraw k)
  target := level_targets hG hde hR hW k
  deeper t s h := by
    cases k with
    | zero => exact h.elim
    | succ k =>
      have h : Returns (W.answers (Produced W k)) (W.Γ t).body s := h
      rw [hG.body] at h
      exact ⟨_, level_comes hG hde k, level_targets hG hde hR hW k, h⟩
  wf := hj
  numbers := hn
  all := hall
  below := hbelow

/-- The schemas of a run accept what serde reads. -/
theorem world_accepts_read {W : World τ} {root : τ} {body : Json} {N : Nat} (hM : Modern D env) (hx : DecimalInputRx env)
    (hq : Documented q) (hG : Declared W.Γ decl I) (ho : OptionsKnown decl I)
    (hok : ∀ t, ReadOk false q.lenient decl I.base (decl t)) (hde : W.settings.contract = .deserialize)
    (hraw : ∀ n d, Obj.get W.defs n = some d → env.ref (rawRef W.settings.definitionsPath.toList n) = den D env d) (hR : Follows D env W root body)
    (hW : Finished W N root body) {j : Json} (hj : j.WF) (h : ReadIf w q (FieldObeys env) I.base decl root j) :
    Valid D env body j := by
  let X : τ → Json → Prop := fun t j => j.WF → ∀ k s, (W.answers (Produced W k)).sub t s ∨ Produced W k t s →
    Valid D env s j
  have hX : ∀ t j, ReadDecl w q X (FieldRead (FieldObeys env) X I.base) I.base decl (decl t) j → X t j := by
    intro t j he hj k s hs
    have hbody : ∀ {s}, RanBody (levels W) I decl t s → Valid D env s j := by
      rintro s ⟨A, ⟨k', rfl⟩, h⟩
      refine body_accepts_read hM hx hq (options_iff hG ho) (level_ready hM.refs hG hok hde hraw hR hW hj
        (fun h => by cases h) k' (fun _ t x hx s hs => ?_) (fun t x hx _ _ s hs => ?_)) (hok t) h he
      · exact fun hX => hX hx k' s hs
      · exact fun hX => hX hx k' s hs
    rcases hs with hs | hs
    · rcases answers_target hG hR hW hs with h | ⟨r, v, rfl, h1, h2⟩
      · exact hbody (produced_ran hG h)
      · rw [valid_newRef hM.refs h1]
        exact hbody h2
    · exact hbody (produced_ran hG hs)
  exact h X hX hj N body (.inr hW.body)

/-- serde reads what the schemas of a run accept. -/
theorem world_reads {W : World τ} {root : τ} {body : Json} {N : Nat} (hM : Modern D env) (hw : 32 ≤ w)
    (hq : Documented q) (hG : Declared W.Γ decl I) (ho : OptionsKnown decl I) (hg : Grounded I.base decl)
    (hok : ∀ t, ReadOk true q.lenient decl I.base (decl t)) (hde : W.settings.contract = .deserialize)
    (hraw : ∀ n d, Obj.get W.defs n = some d → env.ref (rawRef W.settings.definitionsPath.toList n) = den D env d) (hR : Follows D env W root body)
    (hW : Finished W N root body) {j : Json} (hj : j.WF) (hn : SmallNumbers j) (h : Valid D env body j) :
    Read w q I.base decl root j := by
  obtain ⟨rank, hrank⟩ := hg
  have key : ∀ n m j, sizeOf j = n → j.WF → SmallNumbers j → ∀ t, rank t = m → ∀ k s,
      (W.answers (Produced W k)).sub t s ∨ Produced W k t s → Valid D env s j → Read w q I.base decl t j := by
    intro n
    induction n using Nat.strongRecOn with
    | ind n ihn =>
    intro m
    induction m using Nat.strongRecOn with
    | ind m ihm =>
    rintro j rfl hj hn t rfl k s hs hv
    have hbody : ∀ {s}, RanBody (levels W) I decl t s → Valid D env s j → Read w q I.base decl t j := by
      rintro s ⟨A, ⟨k', rfl⟩, h⟩ hv
      refine read_intro (readDecl_mono (fun _ _ h => h) (fun _ _ _ h => h.1) (body_reads hM hw hq (options_iff hG ho) (level_ready hM.refs hG hok hde hraw hR hW hj (fun _ => hn) k'
        (fun h => by cases h) fun t x hx hnx hlt s hs => ?_) (hok t) (fun u hu x hx s hs => ?_) h hv))
      · exact ihn _ hlt _ x rfl hx (hnx rfl) t rfl k' s hs
      · rcases Nat.lt_or_eq_of_le hx.size with hlt | heq
        · exact ihn _ hlt _ x rfl hx.wf (hx.numbers rfl) u rfl k' s hs
        · exact ihm _ (hrank t u hu) x heq hx.wf (hx.numbers rfl) u rfl k' s hs
    rcases hs with hs | hs
    · rcases answers_target hG hR hW hs with h | ⟨r, v, rfl, h1, h2⟩
      · exact hbody (produced_ran hG h) hv
      · rw [valid_newRef hM.refs h1] at hv
        exact hbody h2 hv
    · exact hbody (produced_ran hG hs) hv
  exact key _ _ j rfl hj hn root rfl N body (.inr hW.body) h

/-! ### The root document -/

/-- C64 (`_partial`: for the documented forms, the settings without transforms, declarations that satisfy `ReadOk`, and
`PlainName`s of definitions; see `C64_Full`): the root schema made under the `Deserialize` contract accepts
every document that serde reads as a value of the type and whose fields obey their validation attributes, if references
are followed. -/
theorem C64_root_partial (hM : Modern D env) (hx : DecimalInputRx env) (hq : Documented q) (hG : Declared Γ decl I)
    (ho : OptionsKnown decl I) (hok : ∀ t, ReadOk false q.lenient decl I.base (decl t)) {n : Nat} {t : τ}
    {st : Settings} {r : Json} {g' : Gen τ} (h : rootSchemaFor Γ (run Γ n) t (Gen.new st) = some (r, g'))
    (hst : st.transforms = []) (hde : st.contract = .deserialize) {k : String} (hk : k = "$defs" ∨ k = "definitions")
    (hpath : PathDenotes st.definitionsPath [k]) (hfree : g'.defs ≠ [] → ∃ ds, At r [k] (.obj ds))
    (hplain : ∀ name d, Obj.get g'.defs name = some d → PlainName name) (hR : Resolves D env r) {j : Json}
    (hj : j.WF) (hr : ReadIf w q (FieldObeys env) I.base decl t j) :
    Valid D env r j := by
  obtain ⟨body, hW, hraw, hroot⟩ := root_document hM hG h hst hk hpath hfree hplain hR
  obtain ⟨h1, h2⟩ := hroot (level_nullable hM.refs hG hok hde hraw _ _ _ hW.body).sch
  rw [h2]
  exact world_accepts_read hM hx hq hG ho hok hde hraw h1 hW hj hr

/-- C65 (`_partial`: for documents with small numbers, the settings without transforms, declarations that satisfy
`ReadOk`, and `PlainName`s of definitions; see `C65_Full`): serde reads every document that the root schema
made under the `Deserialize` contract accepts, in a documented form, if references are followed. -/
theorem C65_root_partial (hM : Modern D env) (hw : 32 ≤ w) (hq : Documented q) (hG : Declared Γ decl I)
    (ho : OptionsKnown decl I) (hg : Grounded I.base decl) (hok : ∀ t, ReadOk true q.lenient decl I.base (decl t)) {n : Nat} {t : τ}
    {st : Settings} {r : Json} {g' : Gen τ} (h : rootSchemaFor Γ (run Γ n) t (Gen.new st) = some (r, g'))
    (hst : st.transforms = []) (hde : st.contract = .deserialize) {k : String} (hk : k = "$defs" ∨ k = "definitions")
    (hpath : PathDenotes st.definitionsPath [k]) (hfree : g'.defs ≠ [] → ∃ ds, At r [k] (.obj ds))
    (hplain : ∀ name d, Obj.get g'.defs name = some d → PlainName name) (hR : Resolves D env r) {j : Json}
    (hj : j.WF) (hn : SmallNumbers j) (hv : Valid D env r j) : Read w q I.base decl t j := by
  obtain ⟨body, hW, hraw, hroot⟩ := root_document hM hG h hst hk hpath hfree hplain hR
  obtain ⟨h1, h2⟩ := hroot (level_nullable hM.refs hG hok hde hraw _ _ _ hW.body).sch
  rw [h2] at hv
  exact world_reads hM hw hq hG ho hg hok hde hraw h1 hW hj hn hv

end

end Verif
