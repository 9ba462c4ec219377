import Verif.Lemmas.Rename
import Verif.Lemmas.Derive

/-!
# C66: wrappers are invisible

A program in which some wrapper types (`Box`, references, `transparent` structs, containers with `with`) are
replaced by the types they delegate to generates the same schemas and the same definitions.
-/

namespace Verif

variable {τ : Type}

/-! ## The replacement of types in the source of a program -/

namespace Spec

variable {σ : Type} (φ : τ → σ)

/-- The type of a field replaced. -/
def retypeField (f : Field τ) : Field σ :=
  { name := f.name, ty := φ f.ty, flatten := f.flatten, skipSer := f.skipSer, skipDe := f.skipDe
    skipSerIf := f.skipSerIf, hasDefault := f.hasDefault, defaultValue := f.defaultValue, required := f.required
    common := f.common, validation := f.validation }

/-- The types of fields replaced. -/
def retypeFields : Fields τ → Fields σ
  | .unit => .unit
  | .newtype f => .newtype (retypeField φ f)
  | .tuple fs => .tuple (fs.map (retypeField φ))
  | .struct fs => .struct (fs.map (retypeField φ))

/-- The types of a variant replaced. -/
def retypeVariant (v : Variant τ) : Variant σ :=
  { name := v.name, fields := retypeFields φ v.fields, skipSer := v.skipSer, skipDe := v.skipDe
    untagged := v.untagged, withTy := v.withTy.map φ, refTy := v.refTy.map φ, common := v.common }

/-- The types of a container replaced. -/
def retypeContainer (c : Container τ) : Container σ :=
  { data := match c.data with
      | .struct fs => .struct (retypeFields φ fs)
      | .enum tag vs => .enum tag (vs.map (retypeVariant φ))
    denyUnknownFields := c.denyUnknownFields, hasDefault := c.hasDefault, withTy := c.withTy.map φ
    transparent := c.transparent.map (retypeField φ), fromTy := c.fromTy.map φ, intoTy := c.intoTy.map φ
    common := c.common }

/-- The types of an implementation replaced. -/
def retypeSource : Source τ → Source σ
  | .derived i => .derived { container := retypeContainer φ i.container, schemaId := i.schemaId
                             schemaName := i.schemaName, inline := i.inline, withFunction := i.withFunction
                             fieldWith := i.fieldWith }
  | .forwarded u => .forwarded (φ u)
  | .written d isOption nonOptional =>
    .written { schemaId := d.schemaId, schemaName := d.schemaName, inlineSchema := d.inlineSchema
               body := d.body.rename φ } isOption (nonOptional.map φ)

/-- The type asks the other one about itself: it delegates to it, or is an `Option` of it. -/
inductive Asks (src : τ → Source τ) (t u : τ) : Prop where
  | delegates (h : (src t).target = some u)
  | nonOptional (d : TypeDef τ) (o : Bool) (h : src t = .written d o (some u))

/-- In the second program, every type has a counterpart with the same source, apart from the replacement, or a
counterpart that it shares with the type it delegates to. -/
def Unwraps (src : τ → Source τ) (φ : τ → σ) (src' : σ → Source σ) : Prop :=
  ∀ t, src' (φ t) = retypeSource φ (src t) ∨ ∃ u, (src t).target = some u ∧ φ t = φ u

end Spec

open Spec

/-! ## The bodies of retyped declarations -/

section
variable {σ : Type} {φ : τ → σ} {I : TypeInfo τ} {J : TypeInfo σ}

/-- The answers about a type and its replacement agree. -/
structure SameAnswers (φ : τ → σ) (I : TypeInfo τ) (J : TypeInfo σ) : Prop where
  unit : J.unit = φ I.unit
  isOption : ∀ t, J.isOption (φ t) = I.isOption t
  base : ∀ t, J.base (φ t) = φ (I.base t)
  inline : ∀ t, J.inline (φ t) = I.inline t

theorem rename_ite (φ : τ → σ) (c : Prop) [Decidable c] (p q : Prog τ) :
    (if c then p else q).rename φ = if c then p.rename φ else q.rename φ := by split <;> rfl

theorem fieldProg_rename (h : SameAnswers φ I J) (f : Field τ) (b : Bool) :
    (fieldProg I f b).rename φ = fieldProg J (retypeField φ f) b := by
  unfold fieldProg
  rw [Prog.rename_map]
  congr 1
  rw [rename_ite, rename_ite]
  show _ = if f.required = true then _ else if b = true then _ else _
  simp only [retypeField, h.base, h.inline, internalNewtypeProg, Prog.rename, rename_ite]

theorem collect_rename (l : List ((Contract → Bool) × Prog τ)) (k : List Json → Prog τ) :
    (collect l k).rename φ = collect (l.map fun e => (e.1, e.2.rename φ)) fun r => (k r).rename φ := by
  induction l generalizing k with
  | nil => rfl
  | cons e l ih => simp only [collect, List.map_cons, Prog.rename, rename_ite, Prog.rename_bind, ih]

theorem tupleStructProg_rename (h : SameAnswers φ I J) (fs : List (Field τ)) :
    (tupleStructProg I fs).rename φ = tupleStructProg J (fs.map (retypeField φ)) := by
  unfold tupleStructProg
  rw [collect_rename]
  simp only [List.map_map, Function.comp_def, fieldProg_rename h, Prog.rename]
  rfl

theorem structFieldProg_rename (h : SameAnswers φ I J) (d : Bool) (f : Field τ) (s : Json) :
    (structFieldProg I d f s).rename φ = structFieldProg J d (retypeField φ f) s := by
  unfold structFieldProg
  simp only [Prog.rename, rename_ite, Prog.rename_bind, fieldProg_rename h, flattenProg]
  simp only [fieldOptional, retypeField, h.isOption, h.base]
  rfl

theorem structFieldsProg_rename (h : SameAnswers φ I J) (d : Bool) (fs : List (Field τ)) (s : Json) :
    (structFieldsProg I d fs s).rename φ = structFieldsProg J d (fs.map (retypeField φ)) s := by
  induction fs generalizing s with
  | nil => rfl
  | cons f fs ih => simp only [structFieldsProg, List.map_cons, Prog.rename_bind, structFieldProg_rename h, ih]

theorem structProg_rename (h : SameAnswers φ I J) (fs : List (Field τ)) (d deny : Bool) :
    (structProg I fs d deny).rename φ = structProg J (fs.map (retypeField φ)) d deny :=
  structFieldsProg_rename h d fs _

theorem untaggedVariantProg_rename (h : SameAnswers φ I J) (v : Variant τ) (deny b : Bool) :
    (untaggedVariantProg I v deny b).rename φ = untaggedVariantProg J (retypeVariant φ v) deny b := by
  unfold untaggedVariantProg
  simp only [rename_ite, Prog.rename_bind, Prog.rename]
  obtain ⟨name, fields, skipSer, skipDe, untagged, withTy, refTy, common⟩ := v
  cases withTy with
  | some t => rfl
  | none =>
    cases fields <;>
      simp [retypeVariant, retypeFields, Prog.rename, h.unit, fieldProg_rename h, tupleStructProg_rename h,
        structProg_rename h]

theorem internalVariantProg_rename (h : SameAnswers φ I J) (v : Variant τ) (deny : Bool) :
    (internalVariantProg I v deny).rename φ = internalVariantProg J (retypeVariant φ v) deny := by
  unfold internalVariantProg
  obtain ⟨name, fields, skipSer, skipDe, untagged, withTy, refTy, common⟩ := v
  cases withTy with
  | some t => rfl
  | none =>
    cases fields <;>
      simp [retypeVariant, retypeFields, Prog.rename, h.unit, fieldProg_rename h, tupleStructProg_rename h,
        structProg_rename h]

theorem retype_isUnit (v : Variant τ) : (retypeVariant φ v).isUnit = v.isUnit := by
  obtain ⟨name, fields, skipSer, skipDe, untagged, withTy, refTy, common⟩ := v
  cases fields <;> rfl

theorem retype_listed (v : Variant τ) : (retypeVariant φ v).listed = v.listed := by
  simp only [Variant.listed, retype_isUnit]
  simp [retypeVariant]

theorem unitVariantsProg_rename (vs : List (Variant τ)) :
    (unitVariantsProg vs).rename φ = unitVariantsProg (vs.map (retypeVariant φ)) := by
  simp only [unitVariantsProg, Prog.rename, List.filter_map, List.map_map, Function.comp_def]
  rfl

theorem externalVariantProg_rename (h : SameAnswers φ I J) (v : Variant τ) (deny : Bool) :
    (externalVariantProg I v deny).rename φ = externalVariantProg J (retypeVariant φ v) deny := by
  simp only [externalVariantProg, rename_ite, Prog.rename, Prog.rename_map, untaggedVariantProg_rename h,
    retype_isUnit]
  simp [retypeVariant]

theorem internalTaggedProg_rename (h : SameAnswers φ I J) (tag : String) (v : Variant τ) (deny : Bool) :
    (internalTaggedProg I tag v deny).rename φ = internalTaggedProg J tag (retypeVariant φ v) deny := by
  simp only [internalTaggedProg, rename_ite, Prog.rename, Prog.rename_bind, untaggedVariantProg_rename h,
    internalVariantProg_rename h]
  rfl

theorem adjacentTaggedProg_rename (h : SameAnswers φ I J) (tag content : String) (v : Variant τ) (deny : Bool) :
    (adjacentTaggedProg I tag content v deny).rename φ =
      adjacentTaggedProg J tag content (retypeVariant φ v) deny := by
  simp only [adjacentTaggedProg, rename_ite, Prog.rename, Prog.rename_map, untaggedVariantProg_rename h,
    retype_isUnit]
  simp [retypeVariant]

theorem variantSubschemas_rename (unique : Bool) (first : Option (Prog τ)) (vs : List (Variant τ × Prog τ)) :
    (variantSubschemas unique first vs).rename φ =
      variantSubschemas unique (first.map (Prog.rename φ))
        (vs.map fun e => (retypeVariant φ e.1, e.2.rename φ)) := by
  unfold variantSubschemas
  rw [collect_rename]
  have h1 : (vs.map fun e => (retypeVariant φ e.1, e.2.rename φ)).any (fun e => e.1.untagged) =
      vs.any fun e => e.1.untagged := by
    rw [List.any_map]; rfl
  rw [h1]
  congr 1
  rw [List.map_append, List.map_map, List.map_map]
  congr 1
  · cases first <;> rfl
  · apply List.map_congr_left
    rintro ⟨⟨name, fields, skipSer, skipDe, untagged, withTy, refTy, common⟩, p⟩ -
    cases refTy <;> rfl

theorem filter_retype (p : Variant τ → Bool) (q : Variant σ → Bool) (h : ∀ v, q (retypeVariant φ v) = p v)
    (vs : List (Variant τ)) :
    (vs.map (retypeVariant φ)).filter q = (vs.filter p).map (retypeVariant φ) := by
  rw [List.filter_map]
  congr 2
  exact funext h

theorem externalEnumProg_rename (h : SameAnswers φ I J) (vs : List (Variant τ)) (deny : Bool) :
    (externalEnumProg I vs deny).rename φ = externalEnumProg J (vs.map (retypeVariant φ)) deny := by
  unfold externalEnumProg
  have h1 := filter_retype (φ := φ) Variant.listed Variant.listed retype_listed vs
  have h2 := filter_retype (φ := φ) (fun v => !v.listed) (fun v => !v.listed)
    (fun v => by rw [retype_listed]) vs
  simp only [h1, h2, rename_ite, unitVariantsProg_rename, variantSubschemas_rename, List.isEmpty_map]
  congr 2
  · split <;> simp [unitVariantsProg_rename]
  · simp [externalVariantProg_rename h]

theorem enumProg_rename (h : SameAnswers φ I J) (tag : TagType) (vs : List (Variant τ)) (deny : Bool) :
    (enumProg I tag vs deny).rename φ = enumProg J tag (vs.map (retypeVariant φ)) deny := by
  unfold enumProg
  simp only [rename_ite, List.isEmpty_map]
  congr 1
  cases tag <;>
    simp [externalEnumProg_rename h, variantSubschemas_rename, untaggedVariantProg_rename h,
      internalTaggedProg_rename h, adjacentTaggedProg_rename h, Function.comp_def]

theorem containerProg_rename (h : SameAnswers φ I J) (c : Container τ) :
    (containerProg I c).rename φ = containerProg J (retypeContainer φ c) := by
  have hd : (dataProg I c).rename φ = dataProg J (retypeContainer φ c) := by
    obtain ⟨data, deny, hasDefault, withTy, transparent, fromTy, intoTy, common⟩ := c
    cases data with
    | struct fs =>
      cases fs <;>
        simp [dataProg, retypeContainer, retypeFields, Prog.rename, h.unit, fieldProg_rename h,
          tupleStructProg_rename h, structProg_rename h]
    | enum tag vs => simp [dataProg, retypeContainer, enumProg_rename h]
  unfold containerProg
  rw [Prog.rename_map]
  congr 1
  obtain ⟨data, deny, hasDefault, withTy, transparent, fromTy, intoTy, common⟩ := c
  simp only [retypeContainer] at hd ⊢
  cases withTy with
  | some t => rfl
  | none =>
    cases transparent with
    | some f => exact fieldProg_rename h f false
    | none =>
      cases fromTy <;> cases intoTy <;> simp [Prog.rename, rename_ite, hd]

end

/-! ## Programs with some wrappers replaced -/

theorem retype_target {σ : Type} (φ : τ → σ) (s : Source τ) : (retypeSource φ s).target = s.target.map φ := by
  cases s with
  | derived i =>
    obtain ⟨c, schemaId, schemaName, inline, withFunction, fieldWith⟩ := i
    obtain ⟨data, deny, hasDefault, withTy, transparent, fromTy, intoTy, common⟩ := c
    have hf : ∀ f : Field τ, (retypeField φ f).isDefault fieldWith = f.isDefault fieldWith ∧
        (retypeField φ f).ty = φ f.ty := fun f => ⟨rfl, rfl⟩
    cases withFunction <;> cases h : common.isDefault <;> cases withTy <;> cases transparent <;>
      simp [Source.target, retypeSource, DeriveInput.transparentType, retypeContainer, hf, h]
  | forwarded u => rfl
  | written d o n => rfl

theorem Source.Made.delegates {Γ : τ → TypeDef τ} {I : TypeInfo τ} {t u : τ} {s : Source τ} (h : s.Made Γ I t)
    (hu : s.target = some u) : Γ t = delegate Γ u ∧ I.isOption t = I.isOption u ∧ I.base t = I.base u := by
  cases s with
  | derived i => simp only [Source.target] at hu; simpa [Source.Made, hu] using h
  | forwarded v => cases hu; exact h
  | written d o n => cases hu

section
variable {σ : Type} {src : τ → Source τ} {src' : σ → Source σ} {φ : τ → σ} {rank : τ → Nat} {Γ : τ → TypeDef τ}
  {Γ' : σ → TypeDef σ} {I : TypeInfo τ} {I' : TypeInfo σ}

/-- A type and its replacement have the same id, name and answers. -/
theorem replaced_answers (hrank : ∀ t u, Asks src t u → rank u < rank t) (hφ : Unwraps src φ src')
    (h : Implements src Γ I) (h' : Implements src' Γ' I') (t : τ) :
    ((Γ' (φ t)).schemaId = (Γ t).schemaId ∧ (Γ' (φ t)).schemaName = (Γ t).schemaName ∧
      (Γ' (φ t)).inlineSchema = (Γ t).inlineSchema) ∧
    I'.isOption (φ t) = I.isOption t ∧ I'.base (φ t) = φ (I.base t) := by
  generalize hk : rank t = k
  induction k using Nat.strongRecOn generalizing t with
  | ind k ih =>
    have ih : ∀ u, Asks src t u → _ := fun u hu => ih (rank u) (hk ▸ hrank t u hu) u rfl
    rcases hφ t with ht | ⟨u, hu, ht⟩
    · have m := h.made t
      have m' := h'.made (φ t)
      rw [ht] at m'
      cases hu : (src t).target with
      | some u =>
        obtain ⟨e1, e2, e3⟩ := m.delegates hu
        obtain ⟨e1', e2', e3'⟩ := m'.delegates (u := φ u) (by rw [retype_target, hu]; rfl)
        obtain ⟨⟨a, b, c⟩, d, e⟩ := ih u (.delegates hu)
        rw [e1, e1', e2, e2', e3, e3']
        exact ⟨⟨a, b, c⟩, d, e⟩
      | none =>
        rcases hs : src t with i | v | ⟨d, o, n⟩
        · rw [hs] at m hu
          have hu' := retype_target φ (src t)
          rw [hs, hu] at hu'
          simp only [Source.target] at hu
          rw [hs] at m'
          simp only [retypeSource, Source.target, Option.map_none] at hu'
          simp only [Source.Made, hu] at m
          simp only [retypeSource, Source.Made, hu'] at m'
          rw [m.1, m'.1, m.2.1, m.2.2, m'.2.1, m'.2.2]
          exact ⟨⟨rfl, rfl, rfl⟩, rfl, rfl⟩
        · rw [hs] at hu; cases hu
        · rw [hs] at m
          rw [hs] at m'
          obtain ⟨e1, e2, e3⟩ := m
          obtain ⟨e1', e2', e3'⟩ := m'
          rw [e1, e1', e2, e2', e3, e3']
          refine ⟨⟨rfl, rfl, rfl⟩, rfl, ?_⟩
          cases n with
          | none => rfl
          | some u => exact (ih u (.nonOptional d o hs)).2.2
    · obtain ⟨e1, e2, e3⟩ := (h.made t).delegates hu
      rw [ht, e1, e2, e3]
      exact ih u (.delegates hu)

theorem replaced_sameAnswers (hrank : ∀ t u, Asks src t u → rank u < rank t) (hφ : Unwraps src φ src')
    (h : Implements src Γ I) (h' : Implements src' Γ' I')
    (hunit : I'.unit = φ I.unit) : SameAnswers φ I I' where
  unit := hunit
  isOption t := (replaced_answers hrank hφ h h' t).2.1
  base t := (replaced_answers hrank hφ h h' t).2.2
  inline t := by rw [h'.inline, h.inline]; exact (replaced_answers hrank hφ h h' t).1.2.2

theorem replaced_bodies (hrank : ∀ t u, Asks src t u → rank u < rank t) (hφ : Unwraps src φ src')
    (h : Implements src Γ I) (h' : Implements src' Γ' I')
    (hunit : I'.unit = φ I.unit) (t : τ) :
    (Γ' (φ t)).body = (Γ t).body.rename φ ∨ ∃ u, (Γ t).body = .direct u .ret ∧ φ u = φ t ∧ rank u < rank t := by
  rcases hφ t with ht | ⟨u, hu, ht⟩
  · left
    have m := h.made t
    have m' := h'.made (φ t)
    rw [ht] at m'
    cases hu : (src t).target with
    | some u =>
      rw [(m.delegates hu).1, (m'.delegates (u := φ u) (by rw [retype_target, hu]; rfl)).1]
      rfl
    | none =>
      rcases hs : src t with i | v | ⟨d, o, n⟩
      · have hu' := retype_target φ (src t)
        rw [hu, hs] at hu'
        rw [hs] at hu m m'
        simp only [Source.target] at hu
        simp only [retypeSource, Source.target, Option.map_none] at hu'
        simp only [Source.Made, hu] at m
        simp only [retypeSource, Source.Made, hu'] at m'
        rw [m.1, m'.1]
        exact (containerProg_rename (replaced_sameAnswers hrank hφ h h' hunit) i.container).symm
      · rw [hs] at hu; cases hu
      · rw [hs] at m m'
        rw [m.1, m'.1]
  · right
    refine ⟨u, ?_, ht.symm, hrank t u (.delegates hu)⟩
    rw [((h.made t).delegates hu).1]
    rfl

end


/-! ## The theorems -/

section
variable {σ : Type} {src : τ → Source τ} {src' : σ → Source σ} {φ : τ → σ} {rank : τ → Nat} {Γ : τ → TypeDef τ}
  {Γ' : σ → TypeDef σ} {I : TypeInfo τ} {I' : TypeInfo σ}

/-- From generators in the same state, the program and the one with wrappers replaced have the same results and
leave generators in the same state (`renamed φ` replaces the types in the ghost log only), for each of the calls a
user can make. -/
theorem C66_calls (hrank : ∀ t u, Asks src t u → rank u < rank t) (hφ : Unwraps src φ src')
    (h : Implements src Γ I) (h' : Implements src' Γ' I')
    (hunit : I'.unit = φ I.unit) (t : τ) (g : Gen τ) (r' : Json × Gen σ) (s : Json) :
    ((∃ n, run Γ' n (φ t) (g.rename φ) = some r') ↔ ∃ n r, run Γ n t g = some r ∧ r' = renamed φ r) ∧
    ((∃ n, subschemaFor Γ' (run Γ' n) (φ t) (g.rename φ) = some r') ↔
      ∃ n r, subschemaFor Γ (run Γ n) t g = some r ∧ r' = renamed φ r) ∧
    ((∃ n, rootSchemaFor Γ' (run Γ' n) (φ t) (g.rename φ) = some r') ↔
      ∃ n r, rootSchemaFor Γ (run Γ n) t g = some r ∧ r' = renamed φ r) ∧
    ((∃ n, intoRootSchemaFor Γ' (run Γ' n) (φ t) (g.rename φ) = some s) ↔
      ∃ n, intoRootSchemaFor Γ (run Γ n) t g = some s) := by
  have hn : SameNames φ Γ Γ' := fun t => (replaced_answers hrank hφ h h' t).1
  have hb := replaced_bodies hrank hφ h h' hunit
  have hs : Simulates φ Γ Γ' := fun t => (hb t).imp id fun ⟨u, a, b, _⟩ => ⟨u, a, b⟩
  have fwd := run_simulates hn hs
  have bwd := limit_simulates hn rank hb
  have go : ∀ {α β : Type} {f : α → β} (F : (τ → Gen τ → Option (Json × Gen τ)) → Option α)
      (F' : (σ → Gen σ → Option (Json × Gen σ)) → Option β) (r' : β),
      (∀ x R R', MirrorsAll x φ R R' → Mirrors x f (F R) (F' R')) →
      (∃ g0, ∀ R R', R t g0 = R' t g0 → F R = F R') →
      ((∃ n, F' (run Γ' n) = some r') ↔ ∃ n r, F (run Γ n) = some r ∧ r' = f r) := by
    intro α β f F F' r' hF hone
    constructor
    · rintro ⟨n, hn⟩
      rcases hF false _ _ (bwd n) with e | e
      · rw [hn] at e
        rcases e2 : F (limit Γ) with _ | r
        · rw [e2] at e; cases e
        · rw [e2] at e
          obtain ⟨g0, h0⟩ := hone
          obtain ⟨m, hm⟩ := limit_reached (Γ := Γ) t g0
          exact ⟨m, r, (h0 _ _ hm).trans e2, Option.some.inj e⟩
      · simp [hn] at e
    · rintro ⟨n, r, hr, rfl⟩
      rcases hF true _ _ (fwd n) with e | e
      · exact ⟨n, by rw [e, hr]; rfl⟩
      · simp [hr] at e
  refine ⟨?_, ?_, ?_, ?_⟩
  · exact go (fun R => R t g) (fun R => R (φ t) (g.rename φ)) r' (fun x R R' hR => hR t g) ⟨g, fun _ _ h => h⟩
  · exact go (fun R => subschemaFor Γ R t g) (fun R => subschemaFor Γ' R (φ t) (g.rename φ)) r'
      (fun x R R' hR => mirrors_sub hn hR t g) (sub_once t g)
  · exact go (fun R => rootSchemaFor Γ R t g) (fun R => rootSchemaFor Γ' R (φ t) (g.rename φ)) r'
      (fun x R R' hR => mirrors_root hn hR t g) (root_once t g)
  · rw [go (f := id) (fun R => intoRootSchemaFor Γ R t g) (fun R => intoRootSchemaFor Γ' R (φ t) (g.rename φ)) s
      (fun x R R' hR => mirrors_into hn hR t g) (into_once t g)]
    simp

/-- C66: the program and the one with wrappers replaced give the same root schemas and the same definitions. -/
theorem C66 (hrank : ∀ t u, Asks src t u → rank u < rank t) (hφ : Unwraps src φ src')
    (h : Implements src Γ I) (h' : Implements src' Γ' I')
    (hunit : I'.unit = φ I.unit) (st : Settings) (t : τ) (s : Json) (ds : List (String × Json)) :
    ((∃ n g, rootSchemaFor Γ (run Γ n) t (Gen.new st) = some (s, g) ∧ g.defs = ds) ↔
      ∃ n g, rootSchemaFor Γ' (run Γ' n) (φ t) (Gen.new st) = some (s, g) ∧ g.defs = ds) ∧
    ((∃ n g, subschemaFor Γ (run Γ n) t (Gen.new st) = some (s, g) ∧ g.defs = ds) ↔
      ∃ n g, subschemaFor Γ' (run Γ' n) (φ t) (Gen.new st) = some (s, g) ∧ g.defs = ds) ∧
    ((∃ n, intoRootSchemaFor Γ (run Γ n) t (Gen.new st) = some s) ↔
      ∃ n, intoRootSchemaFor Γ' (run Γ' n) (φ t) (Gen.new st) = some s) := by
  have c := fun r' => C66_calls hrank hφ h h' hunit t (Gen.new st) r' s
  rw [Gen.rename_new] at c
  have go : ∀ (F : Nat → Option (Json × Gen τ)) (F' : Nat → Option (Json × Gen σ)),
      (∀ r', (∃ n, F' n = some r') ↔ ∃ n r, F n = some r ∧ r' = renamed φ r) →
      ((∃ n g, F n = some (s, g) ∧ g.defs = ds) ↔ ∃ n g, F' n = some (s, g) ∧ g.defs = ds) := by
    intro F F' hF
    constructor
    · rintro ⟨n, g, e, rfl⟩
      obtain ⟨m, hm⟩ := (hF _).2 ⟨n, _, e, rfl⟩
      exact ⟨m, _, hm, rfl⟩
    · rintro ⟨n, g, e, rfl⟩
      obtain ⟨m, r, hm, hr⟩ := (hF _).1 ⟨n, e⟩
      obtain ⟨s', g'⟩ := r
      cases hr
      exact ⟨m, _, hm, rfl⟩
  exact ⟨go _ _ fun r' => (c r').2.2.1, go _ _ fun r' => (c r').2.1, ((c (s, Gen.new st)).2.2.2).symm⟩

/-- Whatever root schema the program gives, the one with wrappers replaced gives, with the same definitions. -/
theorem C66_root (hrank : ∀ t u, Asks src t u → rank u < rank t) (hφ : Unwraps src φ src')
    (h : Implements src Γ I) (h' : Implements src' Γ' I') (hunit : I'.unit = φ I.unit) {n : Nat} {t : τ}
    {st : Settings} {r : Json} {g : Gen τ} (hr : rootSchemaFor Γ (run Γ n) t (Gen.new st) = some (r, g)) :
    ∃ m g', rootSchemaFor Γ' (run Γ' m) (φ t) (Gen.new st) = some (r, g') ∧ g'.defs = g.defs :=
  (C66 hrank hφ h h' hunit st t r g.defs).1.1 ⟨n, g, hr, rfl⟩

end

/-! ## What a wrapper stands for is what it would be otherwise -/

theorem mutators_default {a : CommonAttrs} (h : a.isDefault = true) : a.mutators = [] := by
  unfold CommonAttrs.isDefault at h
  simp only [Bool.and_eq_true, Option.isNone_iff_eq_none, Bool.not_eq_true', List.isEmpty_iff] at h
  obtain ⟨⟨⟨⟨⟨⟨h1, h2⟩, h3⟩, h4⟩, h5⟩, h6⟩, h7⟩ := h
  simp [CommonAttrs.mutators, CommonAttrs.effectiveTitle, CommonAttrs.effectiveDescription, h1, h2, h3, h4, h5, h6, h7]

theorem validation_default {a : ValidationAttrs} (h : a.isDefault = true) : a.mutators = [] := by
  obtain ⟨length, range, pattern, regex, contains, format, inner⟩ := a
  unfold ValidationAttrs.isDefault at h
  simp only [Bool.and_eq_true, Option.isNone_iff_eq_none] at h
  obtain ⟨⟨⟨⟨⟨⟨rfl, rfl⟩, rfl⟩, rfl⟩, rfl⟩, rfl⟩, rfl⟩ := h
  rfl

/-- A derived type that passes everything on would, with an implementation of its own, have the schema of the other type,
or refer to it: nothing that its attributes say is lost. (Not so with `schema_with`, see `C66_schema_with`, and for the
keywords of a field that is only written or only read.) -/
theorem C66_content {I : TypeInfo τ} {i : DeriveInput τ} {u : τ} (h : i.transparentType = some u)
    (hw : i.withFunction = false)
    (hf : ∀ f, i.container.transparent = some f → f.skipSer = false ∧ f.skipDe = false) :
    (∀ A r, Returns A (containerProg I i.container) r ↔ A.direct u r) ∨
      ∀ A r, Returns A (containerProg I i.container) r ↔ A.sub u r := by
  unfold DeriveInput.transparentType at h
  have hret : ∀ {A : Answers τ} {r : Json}, (∃ s, A.direct u s ∧ Returns A (.ret s) r) ↔ A.direct u r := by
    intro A r
    exact ⟨fun ⟨s, h1, h2⟩ => (show r = s from h2) ▸ h1, fun h => ⟨r, h, rfl⟩⟩
  by_cases hc : i.container.common.isDefault = true
  · simp only [hc, hw, Bool.not_false, Bool.and_self, if_true] at h
    unfold containerProg
    rw [mutators_default hc]
    cases hw' : i.container.withTy with
    | some t =>
      rw [hw'] at h
      cases h
      refine .inl fun A r => ?_
      rw [res_map]
      simp only [runMutators, List.foldl_nil]
      exact ⟨fun ⟨s, h1, h2⟩ => h2 ▸ hret.1 h1, fun h => ⟨r, hret.2 h, rfl⟩⟩
    | none =>
      rw [hw', Option.none_or, Option.bind_eq_some_iff] at h
      obtain ⟨f, ht, h⟩ := h
      split at h
      · next hd =>
        cases h
        unfold Field.isDefault at hd
        simp only [Bool.true_and, Bool.and_eq_true, Bool.not_eq_true'] at hd
        obtain ⟨⟨h1, h2, h3⟩, -⟩ := hd
        have hm : f.mutators = [] := by
          unfold Field.mutators
          rw [mutators_default h1, validation_default h2, (hf f ht).1, (hf f ht).2]
          rfl
        refine .inr fun A r => ?_
        rw [ht, res_map]
        simp only [fieldProg, hm, h3, Bool.false_eq_true, if_false, runMutators, List.foldl_nil]
        constructor
        · rintro ⟨s, hs, rfl⟩
          obtain ⟨s', ⟨s'', h1, h2⟩, e⟩ := res_map.1 hs
          rw [show _ = s' from e, show s' = s'' from h2]
          exact h1
        · intro h
          exact ⟨r, res_map.2 ⟨r, ⟨r, h, rfl⟩, rfl⟩, rfl⟩
      · cases h
  · simp [hc] at h

/-- `#[serde(transparent)] #[schemars(schema_with = "f")] struct W(u32);`, where `1` stands for the function and `0` for
`u32`. -/
def functionInput : DeriveInput Nat where
  container := { data := .struct (.newtype { name := ⟨"0", "0"⟩, ty := 0 }), withTy := some 1
                 transparent := some { name := ⟨"0", "0"⟩, ty := 0 } }
  schemaId := "m::W"
  schemaName := "W"
  withFunction := true

/-- A `transparent` struct with `schema_with` passes everything on to the type of its field, though its own
implementation would call the function. -/
theorem C66_schema_with (I : TypeInfo Nat) : functionInput.transparentType = some 0 ∧
    ∀ A r, Returns A (containerProg I functionInput.container) r ↔ A.direct 1 r := by
  refine ⟨rfl, fun A r => ?_⟩
  constructor
  · rintro ⟨s, h, e⟩
    exact (show r = s from e) ▸ h
  · exact fun h => ⟨r, h, rfl⟩

/-- The name, the id and `inline_schema` of a derived type that passes everything on are those of the other type. -/
theorem C66_answers {src : τ → Source τ} {Γ : τ → TypeDef τ} {I : TypeInfo τ} (hI : Implements src Γ I) {t u : τ}
    {i : DeriveInput τ} (hs : src t = .derived i) (h : i.transparentType = some u) :
    (Γ t).schemaName = (Γ u).schemaName ∧ (Γ t).schemaId = (Γ u).schemaId ∧
      (Γ t).inlineSchema = (Γ u).inlineSchema := by
  have := hI.made t
  rw [hs] at this
  simp only [Source.Made, h] at this
  rw [this.1]
  exact ⟨rfl, rfl, rfl⟩

/-- So `rename` and `inline` on such a type have no effect: whatever they say, the implementation is the same. -/
theorem C66_ignored {Γ : τ → TypeDef τ} {I : TypeInfo τ} {t u : τ} {i : DeriveInput τ}
    (h : i.transparentType = some u) (name id : String) (inline : Bool) :
    (Source.derived { i with schemaName := name, schemaId := id, inline := inline }).Made Γ I t ↔
      (Source.derived i).Made Γ I t := by
  have h' : ({ i with schemaName := name, schemaId := id, inline := inline } : DeriveInput τ).transparentType = some u :=
    h
  simp only [Source.Made, h, h']

/-- `#[serde(transparent)] struct W(#[serde(skip_serializing)] u32);`, where `0` stands for `u32`. -/
def writeOnlyInput : DeriveInput Nat where
  container := { data := .struct (.newtype { name := ⟨"0", "0"⟩, ty := 0, skipSer := true })
                 transparent := some { name := ⟨"0", "0"⟩, ty := 0, skipSer := true } }
  schemaId := "m::W"
  schemaName := "W"

/-- The keyword `writeOnly` of a field that is only read is lost when the struct passes everything on: an implementation
of its own would add it. -/
theorem C66_write_only (I : TypeInfo Nat) : writeOnlyInput.transparentType = some 0 ∧
    ∀ A r, Returns A (containerProg I writeOnlyInput.container) r ↔
      ∃ s, A.sub 0 s ∧ r = Schema.put s "writeOnly" (.bool true) := by
  refine ⟨by decide, fun A r => ?_⟩
  unfold containerProg
  rw [res_map]
  constructor
  · rintro ⟨s, hs, e⟩
    obtain ⟨s', ⟨s'', h1, h2⟩, e'⟩ := res_map.1 hs
    refine ⟨s'', h1, ?_⟩
    rw [e, e', show s' = s'' from h2]
    rfl
  · rintro ⟨s, h, rfl⟩
    exact ⟨_, res_map.2 ⟨s, ⟨s, h, rfl⟩, rfl⟩, rfl⟩

/-- `C66_answers` and `C66_ignored` are not vacuous. -/
example : ∃ Γ I, Implements (fun t : Nat => if t = 2 then .derived writeOnlyInput
      else .written ⟨"u32", "uint32", true, .ret (.bool true)⟩ false none) Γ I ∧ (Γ 2).schemaName = "uint32" := by
  refine ⟨fun t => ⟨"u32", "uint32", true, if t = 2 then .direct 0 .ret else .ret (.bool true)⟩,
    { unit := 0, isOption := fun _ => false, base := fun t => if t = 2 then 0 else t, inline := fun _ => true },
    ⟨fun t => ?_, fun _ => rfl⟩, rfl⟩
  have h : writeOnlyInput.transparentType = some 0 := by decide
  by_cases ht : t = 2
  · simp [Source.Made, ht, h, delegate]
  · simp [Source.Made, ht]

/-- `C66_content` is not vacuous. -/
example : ({ functionInput with withFunction := false } : DeriveInput Nat).transparentType = some 1 := rfl

/-! ## Every program has implementations -/

/-- The id, name, `inline_schema`, and the private answers of a type. -/
structure Facts (τ : Type) where
  schemaId : String
  schemaName : String
  inlineSchema : Bool
  isOption : Bool
  base : τ

/-- The facts about a type, found by at most `n` questions to others. -/
def factsOf (src : τ → Source τ) : Nat → τ → Facts τ
  | 0, t => ⟨"", "", false, false, t⟩
  | n + 1, t => match (src t).target, src t with
    | some u, _ => factsOf src n u
    | none, .derived i => ⟨i.schemaId, i.schemaName, i.inline, false, t⟩
    | none, .forwarded u => factsOf src n u
    | none, .written d o none => ⟨d.schemaId, d.schemaName, d.inlineSchema, o, t⟩
    | none, .written d o (some u) => ⟨d.schemaId, d.schemaName, d.inlineSchema, o, (factsOf src n u).base⟩

theorem factsOf_stable {src : τ → Source τ} {rank : τ → Nat} (hrank : ∀ t u, Asks src t u → rank u < rank t) :
    ∀ (n m : Nat) (t : τ), rank t < n → rank t < m → factsOf src n t = factsOf src m t := by
  intro n
  induction n with
  | zero => intro m t h; omega
  | succ n ih =>
    intro m t hn hm
    cases m with
    | zero => omega
    | succ m =>
      unfold factsOf
      have key : ∀ u, Asks src t u → factsOf src n u = factsOf src m u := fun u hu => by
        have := hrank t u hu
        exact ih m u (by omega) (by omega)
      cases hu : (src t).target with
      | some u => exact key u (.delegates hu)
      | none =>
        rcases hs : src t with i | v | ⟨d, o, _ | u⟩
        · rfl
        · rw [hs] at hu; cases hu
        · rfl
        · simp only [key u (.nonOptional d o hs)]

/-- Every program in which no type asks itself without end has implementations, so the hypotheses of C66 can be
met. -/
theorem implements_exists (src : τ → Source τ) (rank : τ → Nat) (hrank : ∀ t u, Asks src t u → rank u < rank t)
    (unit : τ) : ∃ Γ I, Implements src Γ I ∧ I.unit = unit := by
  let F : τ → Facts τ := fun t => factsOf src (rank t + 1) t
  let I : TypeInfo τ :=
    { unit := unit, isOption := fun t => (F t).isOption, base := fun t => (F t).base
      inline := fun t => (F t).inlineSchema }
  let Γ : τ → TypeDef τ := fun t =>
    { schemaId := (F t).schemaId, schemaName := (F t).schemaName, inlineSchema := (F t).inlineSchema
      body := match (src t).target, src t with
        | some u, _ => .direct u .ret
        | none, .derived i => containerProg I i.container
        | none, .forwarded u => .direct u .ret
        | none, .written d _ _ => d.body }
  have hF : ∀ t u, Asks src t u → factsOf src (rank t) u = F u := fun t u hu =>
    factsOf_stable hrank _ _ u (hrank t u hu) (Nat.lt_succ_self _)
  refine ⟨Γ, I, ⟨fun t => ?_, fun t => rfl⟩, rfl⟩
  cases hu : (src t).target with
  | some u =>
    have e : F t = F u := by
      show factsOf src (rank t + 1) t = _
      rw [factsOf, hu]
      exact hF t u (.delegates hu)
    have e1 : Γ t = delegate Γ u ∧ I.isOption t = I.isOption u ∧ I.base t = I.base u := by
      refine ⟨?_, ?_, ?_⟩
      · simp only [Γ, delegate, e, hu]
      · simp only [I, e]
      · simp only [I, e]
    rcases hs : src t with i | v | ⟨d, o, n⟩
    · rw [hs] at hu
      simp only [Source.target] at hu
      simpa only [Source.Made, hu] using e1
    · rw [hs] at hu; cases hu; exact e1
    · rw [hs] at hu; cases hu
  | none =>
    rcases hs : src t with i | v | ⟨d, o, _ | u⟩
    · have e : F t = ⟨i.schemaId, i.schemaName, i.inline, false, t⟩ := by
        show factsOf src (rank t + 1) t = _
        rw [factsOf, hu, hs]
      rw [hs] at hu
      simp only [Source.target] at hu
      simp only [Source.Made, hu]
      refine ⟨?_, ?_, ?_⟩
      · simp only [Γ, e, hs, Source.target, hu]
      · simp only [I, e]
      · simp only [I, e]
    · rw [hs] at hu; cases hu
    · have e : F t = ⟨d.schemaId, d.schemaName, d.inlineSchema, o, t⟩ := by
        show factsOf src (rank t + 1) t = _
        rw [factsOf, hu, hs]
      refine ⟨?_, ?_, ?_⟩
      · simp only [Γ, e, hs, Source.target]
      · simp only [I, e]
      · simp only [I, e, Option.elim]
    · have e : F t = ⟨d.schemaId, d.schemaName, d.inlineSchema, o, (F u).base⟩ := by
        show factsOf src (rank t + 1) t = _
        rw [factsOf, hu, hs]
        simp only [hF t u (.nonOptional d o hs)]
      refine ⟨?_, ?_, ?_⟩
      · simp only [Γ, e, hs, Source.target]
      · simp only [I, e]
      · simp only [I, e, Option.elim]


/-- The type at the end of at most `n` wrappers. -/
def unwrapped (src : τ → Source τ) : Nat → τ → τ
  | 0, t => t
  | n + 1, t => match (src t).target with
    | none => t
    | some u => unwrapped src n u

theorem unwrapped_stable {src : τ → Source τ} {rank : τ → Nat} (hrank : ∀ t u, Asks src t u → rank u < rank t) :
    ∀ (n m : Nat) (t : τ), rank t < n → rank t < m →
      unwrapped src n t = unwrapped src m t ∧ (src (unwrapped src n t)).target = none ∧
        rank (unwrapped src n t) ≤ rank t := by
  intro n
  induction n with
  | zero => intro m t h; omega
  | succ n ih =>
    intro m t hn hm
    cases m with
    | zero => omega
    | succ m =>
      unfold unwrapped
      cases hu : (src t).target with
      | none => exact ⟨rfl, hu, Nat.le_refl _⟩
      | some u =>
        have := hrank t u (.delegates hu)
        obtain ⟨a, b, c⟩ := ih m u (by omega) (by omega)
        exact ⟨a, b, Nat.le_trans c (Nat.le_of_lt this)⟩

/-- All wrappers can be replaced at once, leaving a program without wrappers. -/
theorem unwraps_exists (src : τ → Source τ) (rank : τ → Nat) (hrank : ∀ t u, Asks src t u → rank u < rank t) :
    ∃ φ : τ → { t // (src t).target = none }, (Unwraps src φ fun t => retypeSource φ (src t)) ∧
      ∀ t u, Asks (fun t : { t // (src t).target = none } => retypeSource φ (src t)) t u →
        rank u.1 < rank t.1 := by
  have hle : ∀ t, rank (unwrapped src (rank t + 1) t) ≤ rank t := fun t =>
    (unwrapped_stable hrank _ _ t (Nat.lt_succ_self _) (Nat.lt_succ_self _)).2.2
  refine ⟨fun t => ⟨unwrapped src (rank t + 1) t,
    (unwrapped_stable hrank _ _ t (Nat.lt_succ_self _) (Nat.lt_succ_self _)).2.1⟩, fun t => ?_, fun t u h => ?_⟩
  case refine_2 =>
    rcases h with h | ⟨d, o, h⟩
    · simp only [retype_target, t.2] at h
      cases h
    · rcases hs : src t with i | v | ⟨d', o', _ | v⟩
      · simp only [hs, retypeSource] at h; cases h
      · simp only [hs, retypeSource] at h; cases h
      · simp only [hs, retypeSource, Option.map_none] at h; cases h
      · simp only [hs, retypeSource, Option.map_some] at h
        cases h
        exact Nat.lt_of_le_of_lt (hle v) (hrank t v (.nonOptional d' _ hs))
  cases hu : (src t).target with
  | none => left; simp only [unwrapped, hu]
  | some u =>
    right
    refine ⟨u, rfl, ?_⟩
    have := hrank t u (.delegates hu)
    have e := (unwrapped_stable hrank (rank t) (rank u + 1) u this (Nat.lt_succ_self _)).1
    rw [Subtype.mk.injEq, ← e, unwrapped, hu]

/-! ## An example -/

namespace Dg

/-- The types of the example. -/
inductive T where
  | unit | u32 | opt | level | tree | box
  deriving DecidableEq

/-- A field. -/
def member (name : String) (t : T) : Field T := { name := ⟨name, name⟩, ty := t }

/-- `()`, `u32`, `Option<u32>`, `#[serde(transparent)] struct Level(Option<u32>)`,
`struct Tree { level: Level, #[schemars(required)] depth: Level, next: Box<Tree> }` and `Box<Tree>`. -/
def src : T → Source T
  | .unit => .written ⟨"null", "null", true, stdBody (.simple "null")⟩ false none
  | .u32 => .written ⟨"uint32", "uint32", true, stdBody (.int .u32)⟩ false none
  | .opt => .written ⟨"Option<uint32>", "Nullable_uint32", true, stdBody (.option .u32)⟩ true (some .u32)
  | .level => .derived { container := { data := .struct (.newtype (member "0" .opt))
                                        transparent := some (member "0" .opt) }
                         schemaId := "m::Level", schemaName := "Level" }
  | .tree => .derived { container := { data := .struct (.struct [member "level" .level,
                          { member "depth" .level with required := true }, member "next" .box]) }
                        schemaId := "m::Tree", schemaName := "Tree" }
  | .box => .forwarded .tree

/-- The wrappers replaced. -/
def bare : T → T
  | .level => .opt
  | .box => .tree
  | t => t

def rank : T → Nat
  | .opt => 1
  | .level => 2
  | .box => 1
  | _ => 0

theorem ranked (t u : T) (h : Asks src t u) : rank u < rank t := by
  rcases h with h | ⟨d, o, h⟩
  · cases t with
    | level =>
      have : (src .level).target = some .opt := by decide +kernel
      rw [this] at h; cases h; decide
    | box => cases h; decide
    | tree =>
      have : (src .tree).target = none := by decide +kernel
      rw [this] at h; cases h
    | _ => cases h
  · cases t <;> cases h
    decide

theorem unwraps : Unwraps src bare fun t => retypeSource bare (src t) := by
  intro t
  cases t with
  | level => right; exact ⟨.opt, by decide +kernel, rfl⟩
  | box => right; exact ⟨.tree, rfl, rfl⟩
  | _ => left; rfl

theorem bare_ranked (t u : T) (h : Asks (fun t => retypeSource bare (src t)) t u) : rank u < rank t := by
  rcases h with h | ⟨d, o, h⟩
  · simp only [retype_target] at h
    rcases hv : (src t).target with _ | v
    · rw [hv] at h; cases h
    · rw [hv] at h
      cases h
      have := ranked t v (.delegates hv)
      cases v <;> exact Nat.lt_of_le_of_lt (by decide) this
  · cases t <;> cases h
    decide

/-- The hypotheses of C66 are met: `Tree` gets the same schema as the struct with `Option<u32>` and `Tree` in place
of `Level` and `Box<Tree>`. -/
example (st : Settings) : ∃ Γ I Γ' I', Implements src Γ I ∧ Implements (fun t => retypeSource bare (src t)) Γ' I' ∧
    ∀ s, (∃ n, intoRootSchemaFor Γ (run Γ n) T.tree (Gen.new st) = some s) ↔
      ∃ n, intoRootSchemaFor Γ' (run Γ' n) T.tree (Gen.new st) = some s := by
  obtain ⟨Γ, I, h, hu⟩ := implements_exists src rank ranked .unit
  obtain ⟨Γ', I', h', hu'⟩ := implements_exists _ rank bare_ranked .unit
  refine ⟨Γ, I, Γ', I', h, h', fun s => ?_⟩
  exact (C66 ranked unwraps h h' (by rw [hu, hu']; rfl) st .tree s []).2.2

/-- The implementations. -/
def types : T → TypeDef T
  | .unit => ⟨"null", "null", true, stdBody (.simple "null")⟩
  | .u32 => ⟨"uint32", "uint32", true, stdBody (.int .u32)⟩
  | .opt => ⟨"Option<uint32>", "Nullable_uint32", true, stdBody (.option .u32)⟩
  | .level => ⟨"Option<uint32>", "Nullable_uint32", true, .direct .opt .ret⟩
  | .tree => ⟨"m::Tree", "Tree", false, containerProg info treeContainer⟩
  | .box => ⟨"m::Tree", "Tree", false, .direct .tree .ret⟩
where
  info : TypeInfo T := ⟨.unit, fun t => t = .opt || t = .level, fun t => if t = .opt || t = .level then .u32 else
    if t = .box then .tree else t,
    fun t => !(t = .tree || t = .box)⟩
  treeContainer : Container T := { data := .struct (.struct [member "level" .level,
    { member "depth" .level with required := true }, member "next" .box]) }

theorem implements : Implements src types types.info where
  made t := by
    cases t with
    | level => exact ⟨rfl, rfl, rfl⟩
    | tree => exact ⟨rfl, rfl, rfl⟩
    | _ => exact ⟨rfl, rfl, rfl⟩
  inline t := by cases t <;> rfl

/-- `level` may be missing and null, `depth` neither, and `next` refers to the struct itself. -/
example : intoRootSchemaFor types (run types 4) T.tree (Gen.new .draft2020) =
    some (mkObj [("$schema", .str meta2020), ("title", .str "Tree"), ("type", .str "object"),
      ("properties", mkObj [
        ("depth", mkObj [("type", .str "integer"), ("format", .str "uint32"), ("minimum", .num (.int 0))]),
        ("level", mkObj [("type", .arr [.str "integer", .str "null"]), ("format", .str "uint32"),
          ("minimum", .num (.int 0))]),
        ("next", mkObj [("$ref", .str "#")])]),
      ("required", .arr [.str "depth", .str "next"])]) := by
  decide +kernel

end Dg

end Verif
