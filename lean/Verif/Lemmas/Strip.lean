import Verif.Spec.Deser
import Verif.Lemmas.Serde

/-!
# What serde writes and reads does not depend on what is only for the schema
-/

namespace Verif

variable {σ : Type}

/-- A field without what is only for the schema. -/
def Field.strip (f : Field σ) : Field σ := { f with defaultValue := none, common := {}, validation := .noAttrs }

/-- Fields without what is only for the schema. -/
def Fields.strip : Fields σ → Fields σ
  | .unit => .unit
  | .newtype f => .newtype f.strip
  | .tuple fs => .tuple (fs.map Field.strip)
  | .struct fs => .struct (fs.map Field.strip)

/-- A variant without what is only for the schema. -/
def Variant.strip (v : Variant σ) : Variant σ := { v with fields := v.fields.strip, refTy := none, common := {} }

/-- Fields or variants without what is only for the schema. -/
def DeriveData.strip : DeriveData σ → DeriveData σ
  | .struct fields => .struct fields.strip
  | .enum tag vs => .enum tag (vs.map Variant.strip)

/-- A container without what is only for the schema. -/
def Container.strip (c : Container σ) : Container σ :=
  { c with data := c.data.strip, transparent := c.transparent.map Field.strip, common := {} }

/-- A declaration without what is only for the schema. -/
def Decl.strip : Decl σ → Decl σ
  | .std s => .std s
  | .derived c => .derived c.strip

open Spec

/-- What two fields have in common that differ only in what is for the schema. -/
structure FieldAlike (f f' : Field σ) : Prop where
  name : f.name = f'.name
  ty : f.ty = f'.ty
  flatten : f.flatten = f'.flatten
  skipSer : f.skipSer = f'.skipSer
  skipDe : f.skipDe = f'.skipDe
  skipSerIf : f.skipSerIf = f'.skipSerIf
  hasDefault : f.hasDefault = f'.hasDefault
  required : f.required = f'.required

theorem field_alike {f f' : Field σ} (h : f.strip = f'.strip) : FieldAlike f f' := by
  unfold Field.strip at h
  injection h with h1 h2 h3 h4 h5 h6 h7 h8 h9 h10 h11
  exact ⟨h1, h2, h3, h4, h5, h6, h7, h9⟩

theorem FieldAlike.fieldType {f f' : Field σ} (h : FieldAlike f f') (base : σ → σ) :
    fieldType base f = fieldType base f' := by
  unfold Spec.fieldType; rw [h.required, h.ty]

/-- Two variants that differ only in what is for the schema. -/
structure VariantAlike (v v' : Variant σ) : Prop where
  name : v.name = v'.name
  fields : v.fields.strip = v'.fields.strip
  skipSer : v.skipSer = v'.skipSer
  skipDe : v.skipDe = v'.skipDe
  untagged : v.untagged = v'.untagged
  withTy : v.withTy = v'.withTy

theorem variant_alike {v v' : Variant σ} (h : v.strip = v'.strip) : VariantAlike v v' := by
  unfold Variant.strip at h
  injection h with h1 h2 h3 h4 h5 h6 h7 h8
  exact ⟨h1, h2, h3, h4, h5, h6⟩

/-- Two containers that differ only in what is for the schema. -/
structure ContainerAlike (c c' : Container σ) : Prop where
  data : c.data.strip = c'.data.strip
  deny : c.denyUnknownFields = c'.denyUnknownFields
  hasDefault : c.hasDefault = c'.hasDefault
  withTy : c.withTy = c'.withTy
  transparent : c.transparent.map Field.strip = c'.transparent.map Field.strip
  fromTy : c.fromTy = c'.fromTy
  intoTy : c.intoTy = c'.intoTy

theorem container_alike {c c' : Container σ} (h : c.strip = c'.strip) : ContainerAlike c c' := by
  unfold Container.strip at h
  injection h with h1 h2 h3 h4 h5 h6 h7 h8
  exact ⟨h1, h2, h3, h4, h5, h6, h7⟩

theorem decl_std {d : Decl σ} {s : Std σ} (h : (Decl.std s).strip = d.strip) : d = .std s := by
  cases d with
  | std s' => injection h with h; rw [h]
  | derived c => cases h

theorem decl_derived {d : Decl σ} {c : Container σ} (h : (Decl.derived c).strip = d.strip) :
    ∃ c', d = .derived c' ∧ c.strip = c'.strip := by
  cases d with
  | std s' => cases h
  | derived c' => injection h with h; exact ⟨c', rfl, h⟩

theorem data_struct {fields : Fields σ} {d : DeriveData σ} (h : (DeriveData.struct fields).strip = d.strip) :
    ∃ fields', d = .struct fields' ∧ fields.strip = fields'.strip := by
  cases d with
  | struct f => injection h with h; exact ⟨f, rfl, h⟩
  | enum t vs => cases h

theorem data_enum {tag : TagType} {vs : List (Variant σ)} {d : DeriveData σ}
    (h : (DeriveData.enum tag vs).strip = d.strip) :
    ∃ vs', d = .enum tag vs' ∧ vs.map Variant.strip = vs'.map Variant.strip := by
  cases d with
  | struct f => cases h
  | enum t ws => injection h with h1 h2; subst h1; exact ⟨ws, rfl, h2⟩

theorem fields_unit {d : Fields σ} (h : Fields.unit.strip = d.strip) : d = .unit := by
  cases d <;> first | rfl | cases h

theorem fields_newtype {f : Field σ} {d : Fields σ} (h : (Fields.newtype f).strip = d.strip) :
    ∃ f', d = .newtype f' ∧ f.strip = f'.strip := by
  cases d with
  | newtype g => injection h with h; exact ⟨g, rfl, h⟩
  | _ => cases h

theorem fields_tuple {fs : List (Field σ)} {d : Fields σ} (h : (Fields.tuple fs).strip = d.strip) :
    ∃ fs', d = .tuple fs' ∧ fs.map Field.strip = fs'.map Field.strip := by
  cases d with
  | tuple g => injection h with h; exact ⟨g, rfl, h⟩
  | _ => cases h

theorem fields_struct {fs : List (Field σ)} {d : Fields σ} (h : (Fields.struct fs).strip = d.strip) :
    ∃ fs', d = .struct fs' ∧ fs.map Field.strip = fs'.map Field.strip := by
  cases d with
  | struct g => injection h with h; exact ⟨g, rfl, h⟩
  | _ => cases h

theorem map_strip_cons {α β : Type} {g : α → β} {x : α} {l m : List α} (h : (x :: l).map g = m.map g) :
    ∃ y k, m = y :: k ∧ g x = g y ∧ l.map g = k.map g := by
  cases m with
  | nil => cases h
  | cons y k => injection h with h1 h2; exact ⟨y, k, rfl, h1, h2⟩

theorem map_strip_nil {α β : Type} {g : α → β} {m : List α} (h : ([] : List α).map g = m.map g) : m = [] := by
  cases m with
  | nil => rfl
  | cons y k => cases h

theorem map_strip_mem {α β : Type} {g : α → β} {l m : List α} (h : l.map g = m.map g) {x : α} (hx : x ∈ l) :
    ∃ y ∈ m, g x = g y := by
  have : g x ∈ m.map g := h ▸ List.mem_map_of_mem hx
  obtain ⟨y, hy, e⟩ := List.mem_map.1 this
  exact ⟨y, hy, e.symm⟩

/-! ### Writing -/

section
variable {w : Nat} {S S' : σ → Json → Prop} {K K' : Field σ → Json → Prop} {base : σ → σ} {decl decl' : σ → Decl σ}

theorem writtenAs_strip (hd : ∀ t, (decl t).strip = (decl' t).strip) {t u : σ} (h : WrittenAs base decl t u) :
    WrittenAs base decl' t u := by
  induction h with
  | self t => exact .self t
  | @option t u v h1 _ ih => exact .option (decl_std (h1 ▸ hd t)) ih
  | @newtype t c f v h1 h2 h3 h4 h5 _ ih =>
    obtain ⟨c', hc', e⟩ := decl_derived (h1 ▸ hd t)
    have A := container_alike e
    obtain ⟨fields', hf', e1⟩ := data_struct (h5 ▸ A.data)
    obtain ⟨f', rfl, e2⟩ := fields_newtype e1
    rw [(field_alike e2).fieldType base] at ih
    refine .newtype hc' (A.withTy ▸ h2) ?_ (A.intoTy ▸ h4) hf' ih
    have := A.transparent
    rw [h3] at this
    cases ht : c'.transparent with
    | none => rfl
    | some x => rw [ht] at this; cases this

theorem externalEnum_strip {d d' : Decl σ} (h : d.strip = d'.strip) (he : ExternalEnum d) : ExternalEnum d' := by
  obtain ⟨c, vs, rfl, hc⟩ := he
  obtain ⟨c', rfl, e⟩ := decl_derived h
  obtain ⟨vs', hv, _⟩ := data_enum (hc ▸ (container_alike e).data)
  exact ⟨c', vs', rfl, hv⟩

theorem members_strip (hd : ∀ t, (decl t).strip = (decl' t).strip) (hS : ∀ t j, S t j → S' t j) {t : σ}
    {o : List (String × Json)} (h : Members S base decl t o) : Members S' base decl' t o := by
  cases h with
  | obj p h => exact .obj o (hS _ _ h)
  | null h => exact .null (hS _ _ h)
  | unitVariant n u h1 h2 h3 =>
    exact .unitVariant n u (writtenAs_strip hd h1) (externalEnum_strip (hd u) h2) (hS _ _ h3)

theorem encFields_strip (hd : ∀ t, (decl t).strip = (decl' t).strip) (hS : ∀ t j, S t j → S' t j)
    (hK : ∀ f f' : Field σ, f.strip = f'.strip → ∀ x, K f x → K' f' x)
    {fs fs' : List (Field σ)} (hf : fs.map Field.strip = fs'.map Field.strip) {o : List (String × Json)}
    (h : EncFields S K base decl fs o) : EncFields S' K' base decl' fs' o := by
  induction h generalizing fs' with
  | nil => rw [map_strip_nil hf]; exact .nil
  | skip h1 _ ih =>
    obtain ⟨f', l, rfl, e, hf⟩ := map_strip_cons hf
    exact .skip ((field_alike e).skipSer ▸ h1) (ih hf)
  | leftOut h1 h2 _ ih =>
    obtain ⟨f', l, rfl, e, hf⟩ := map_strip_cons hf
    exact .leftOut ((field_alike e).skipSer ▸ h1) ((field_alike e).skipSerIf ▸ h2) (ih hf)
  | member x h1 h2 h3 h4 _ ih =>
    obtain ⟨f', l, rfl, e, hf⟩ := map_strip_cons hf
    have A := field_alike e
    rw [A.name]
    exact .member x (A.skipSer ▸ h1) (A.flatten ▸ h2) (hS _ _ (A.fieldType base ▸ h3)) (hK _ _ e _ h4) (ih hf)
  | flatten p h1 h2 h3 _ ih =>
    obtain ⟨f', l, rfl, e, hf⟩ := map_strip_cons hf
    have A := field_alike e
    exact .flatten p (A.skipSer ▸ h1) (A.flatten ▸ h2) (members_strip hd hS (A.fieldType base ▸ h3)) (ih hf)

theorem encElems_strip (hS : ∀ t j, S t j → S' t j)
    (hK : ∀ f f' : Field σ, f.strip = f'.strip → ∀ x, K f x → K' f' x) {fs fs' : List (Field σ)}
    (hf : fs.map Field.strip = fs'.map Field.strip) {l : List Json} (h : EncElems S K base fs l) :
    EncElems S' K' base fs' l := by
  induction h generalizing fs' with
  | nil => rw [map_strip_nil hf]; exact .nil
  | skip h1 _ ih =>
    obtain ⟨f', l, rfl, e, hf⟩ := map_strip_cons hf
    exact .skip ((field_alike e).skipSer ▸ h1) (ih hf)
  | leftOut h1 h2 _ ih =>
    obtain ⟨f', l, rfl, e, hf⟩ := map_strip_cons hf
    exact .leftOut ((field_alike e).skipSer ▸ h1) ((field_alike e).skipSerIf ▸ h2) (ih hf)
  | elem x h1 h2 h3 _ ih =>
    obtain ⟨f', l, rfl, e, hf⟩ := map_strip_cons hf
    have A := field_alike e
    exact .elem x (A.skipSer ▸ h1) (hS _ _ (A.fieldType base ▸ h2)) (hK _ _ e _ h3) (ih hf)

theorem encContent_strip (hd : ∀ t, (decl t).strip = (decl' t).strip) (hS : ∀ t j, S t j → S' t j)
    (hK : ∀ f f' : Field σ, f.strip = f'.strip → ∀ x, K f x → K' f' x)
    {fs fs' : Fields σ} (hf : fs.strip = fs'.strip) {j : Json} (h : EncContent S K base decl fs j) :
    EncContent S' K' base decl' fs' j := by
  cases fs with
  | unit => rw [fields_unit hf]; exact h
  | newtype f =>
    obtain ⟨f', rfl, e⟩ := fields_newtype hf
    exact ⟨hS _ _ ((field_alike e).fieldType base ▸ h.1), hK _ _ e _ h.2⟩
  | tuple fs =>
    obtain ⟨fs', rfl, e⟩ := fields_tuple hf
    obtain ⟨l, rfl, h⟩ := h
    exact ⟨l, rfl, encElems_strip hS hK e h⟩
  | struct fs =>
    obtain ⟨fs', rfl, e⟩ := fields_struct hf
    obtain ⟨o, h, ho⟩ := h
    exact ⟨o, encFields_strip hd hS hK e h, ho⟩

theorem written_strip {v v' : Variant σ} (h : VariantAlike v v') : (written v).strip = (written v').strip := by
  have hf := h.fields
  unfold written
  cases hv : v.fields with
  | unit => rw [hv] at hf; rw [fields_unit hf]
  | newtype f =>
    rw [hv] at hf
    obtain ⟨f', e1, e⟩ := fields_newtype hf
    rw [e1]
    dsimp only
    rw [(field_alike e).skipSer]
    split
    · rfl
    · exact congrArg Fields.newtype e
  | tuple fs =>
    rw [hv] at hf
    obtain ⟨f', e1, e⟩ := fields_tuple hf
    rw [e1]; exact hf.trans (congrArg _ e1)
  | struct fs =>
    rw [hv] at hf
    obtain ⟨f', e1, e⟩ := fields_struct hf
    rw [e1]; exact hf.trans (congrArg _ e1)

theorem encVariant_strip (hd : ∀ t, (decl t).strip = (decl' t).strip) (hS : ∀ t j, S t j → S' t j)
    (hK : ∀ f f' : Field σ, f.strip = f'.strip → ∀ x, K f x → K' f' x)
    {v v' : Variant σ} (hv : VariantAlike v v') {j : Json} (h : EncVariant S K base decl v j) :
    EncVariant S' K' base decl' v' j := by
  unfold EncVariant at h ⊢
  rw [← hv.withTy]
  split at h
  · exact hS _ _ h
  · exact encContent_strip hd hS hK (written_strip hv) h

theorem bare_strip {v v' : Variant σ} (hv : VariantAlike v v') : bare v ↔ bare v' := by
  unfold bare
  rw [hv.withTy]
  have h := written_strip hv
  constructor
  · rintro ⟨h1, h2⟩
    exact ⟨h1, fields_unit (h2 ▸ h)⟩
  · rintro ⟨h1, h2⟩
    exact ⟨h1, fields_unit (h2 ▸ h.symm)⟩

theorem encTagged_strip (hd : ∀ t, (decl t).strip = (decl' t).strip) (hS : ∀ t j, S t j → S' t j)
    (hK : ∀ f f' : Field σ, f.strip = f'.strip → ∀ x, K f x → K' f' x)
    {v v' : Variant σ} (hv : VariantAlike v v') {o : List (String × Json)} (h : EncTagged S K base decl v o) :
    EncTagged S' K' base decl' v' o := by
  unfold EncTagged at h ⊢
  have hw := written_strip hv
  rw [← hv.withTy]
  split at h
  · exact members_strip hd hS h
  · split at h
    · rename_i hu
      have e1 := fields_unit (hu ▸ hw)
      rw [e1]
      exact h
    · rename_i f hu
      obtain ⟨f', e1, e⟩ := fields_newtype (hu ▸ hw)
      rw [e1]
      exact members_strip hd hS ((field_alike e).fieldType base ▸ h)
    · exact h.elim
    · rename_i fs hu
      obtain ⟨f', e1, e⟩ := fields_struct (hu ▸ hw)
      rw [e1]
      exact encFields_strip hd hS hK e h

theorem encEnum_strip (hd : ∀ t, (decl t).strip = (decl' t).strip) (hS : ∀ t j, S t j → S' t j)
    (hK : ∀ f f' : Field σ, f.strip = f'.strip → ∀ x, K f x → K' f' x) {tag : TagType}
    {v v' : Variant σ} (hv : VariantAlike v v') {j : Json} (h : EncEnum S K base decl tag v j) :
    EncEnum S' K' base decl' tag v' j := by
  unfold EncEnum at h ⊢
  rw [← hv.untagged, ← hv.name]
  split at h
  · rename_i hu
    rw [if_pos hu]
    exact encVariant_strip hd hS hK hv h
  · rename_i hu
    rw [if_neg hu]
    split at h
    · rcases h with ⟨h1, h2⟩ | ⟨h1, x, h2, h3⟩
      · exact .inl ⟨(bare_strip hv).1 h1, h2⟩
      · exact .inr ⟨fun hb => h1 ((bare_strip hv).2 hb), x, h2, encVariant_strip hd hS hK hv h3⟩
    · obtain ⟨o, h1, h2⟩ := h
      exact ⟨o, encTagged_strip hd hS hK hv h1, h2⟩
    · rcases h with ⟨h1, h2⟩ | ⟨h1, o, x, y, h2, h3, h4, h5⟩
      · exact .inl ⟨(bare_strip hv).1 h1, h2⟩
      · exact .inr ⟨fun hb => h1 ((bare_strip hv).2 hb), o, x, y, h2, h3, h4, encVariant_strip hd hS hK hv h5⟩
    · exact encVariant_strip hd hS hK hv h

theorem encContainer_strip (hd : ∀ t, (decl t).strip = (decl' t).strip) (hS : ∀ t j, S t j → S' t j)
    (hK : ∀ f f' : Field σ, f.strip = f'.strip → ∀ x, K f x → K' f' x)
    {c c' : Container σ} (hc : ContainerAlike c c') {j : Json} (h : EncContainer S K base decl c j) :
    EncContainer S' K' base decl' c' j := by
  have ht := hc.transparent
  unfold EncContainer at h ⊢
  rw [← hc.withTy, ← hc.intoTy]
  cases hw : c.withTy with
  | some t => rw [hw] at h; exact hS _ _ h
  | none =>
    rw [hw] at h
    cases h1 : c.transparent with
    | some f =>
      rw [h1] at h ht
      cases h2 : c'.transparent with
      | none => rw [h2] at ht; cases ht
      | some f' =>
        rw [h2] at ht
        injection ht with ht
        exact ⟨hS _ _ ((field_alike ht).fieldType base ▸ h.1), hK _ _ ht _ h.2⟩
    | none =>
      rw [h1] at h ht
      cases h2 : c'.transparent with
      | some f' => rw [h2] at ht; cases ht
      | none =>
        cases h3 : c.intoTy with
        | some t => rw [h3] at h; exact hS _ _ h
        | none =>
          rw [h3] at h
          dsimp only at h ⊢
          cases h4 : c.data with
          | struct fields =>
            rw [h4] at h
            obtain ⟨f', e1, e⟩ := data_struct (h4 ▸ hc.data)
            rw [e1]
            exact encContent_strip hd hS hK e h
          | enum tag vs =>
            rw [h4] at h
            obtain ⟨vs', e1, e⟩ := data_enum (h4 ▸ hc.data)
            rw [e1]
            obtain ⟨v, hv, hsk, h⟩ := h
            obtain ⟨v', hv', e⟩ := map_strip_mem e hv
            have A := variant_alike e
            exact ⟨v', hv', A.skipSer ▸ hsk, encEnum_strip hd hS hK A h⟩

/-- What serde writes does not depend on annotations. -/
theorem serializedAt_strip (hd : ∀ t, (decl t).strip = (decl' t).strip)
    (hK : ∀ f f' : Field σ, f.strip = f'.strip → ∀ x, K f x → K' f' x) {n : Nat} {t : σ} {j : Json}
    (h : SerializedAt w K base decl n t j) : SerializedAt w K' base decl' n t j := by
  induction n generalizing t j with
  | zero => exact h
  | succ n ih =>
    obtain ⟨hj, h⟩ := h
    refine ⟨hj, ?_⟩
    have ht := hd t
    cases hs : decl t with
    | std s =>
      rw [hs] at h ht
      rw [decl_std ht]
      exact encStd_mono (S := SerializedAt w K base decl n) (fun _ _ => ih) h
    | derived c =>
      rw [hs] at h ht
      obtain ⟨c', e1, e⟩ := decl_derived ht
      rw [e1]
      exact encContainer_strip (S := SerializedAt w K base decl n) hd (fun _ _ => ih) hK (container_alike e) h

theorem serialized_strip (hd : ∀ t, (decl t).strip = (decl' t).strip) {t : σ} {j : Json} :
    Serialized w base decl t j ↔ Serialized w base decl' t j :=
  ⟨fun ⟨n, h⟩ => ⟨n, serializedAt_strip hd (fun _ _ _ _ _ => trivial) h⟩, fun ⟨n, h⟩ => ⟨n, serializedAt_strip (fun t => (hd t).symm) (fun _ _ _ _ _ => trivial) h⟩⟩

end

/-! ### Reading -/

/-- What is not in the declarations does not depend on what is only for the schema. -/
structure Blind (q : Quirks σ) : Prop where
  aliases : ∀ f f' : Field σ, f.strip = f'.strip → q.aliases f = q.aliases f'
  variantAliases : ∀ v v' : Variant σ, v.strip = v'.strip → q.variantAliases v = q.variantAliases v'
  other : ∀ v v' : Variant σ, v.strip = v'.strip → q.other v = q.other v'

theorem documented_blind {q : Quirks σ} (h : Documented q) : Blind q :=
  ⟨fun f f' _ => by rw [h.aliases, h.aliases], fun v v' _ => by rw [h.variantAliases, h.variantAliases],
    fun v v' _ => by rw [h.other, h.other]⟩

section
variable {w : Nat} {q : Quirks σ} {R : σ → Json → Prop} {base : σ → σ} {decl decl' : σ → Decl σ}

theorem transparent_none {c c' : Container σ} (h : ContainerAlike c c') (hc : c.transparent = none) :
    c'.transparent = none := by
  have := h.transparent
  rw [hc] at this
  cases ht : c'.transparent with
  | none => rfl
  | some x => rw [ht] at this; cases this

theorem transparent_some {c c' : Container σ} (h : ContainerAlike c c') {f : Field σ} (hc : c.transparent = some f) :
    ∃ f', c'.transparent = some f' ∧ f.strip = f'.strip := by
  have := h.transparent
  rw [hc] at this
  cases ht : c'.transparent with
  | none => rw [ht] at this; cases this
  | some x => rw [ht] at this; injection this with this; exact ⟨x, rfl, this⟩

theorem missingOk_strip (hd : ∀ t, (decl t).strip = (decl' t).strip) {t : σ} (h : MissingOk q base decl t) :
    MissingOk q base decl' t := by
  induction h with
  | @option t u h => exact .option (decl_std (h ▸ hd t))
  | @transparent t c f h1 h2 h3 h4 _ ih =>
    obtain ⟨c', hc', e⟩ := decl_derived (h2 ▸ hd t)
    have A := container_alike e
    obtain ⟨f', h4', e⟩ := transparent_some A h4
    exact .transparent h1 hc' (A.withTy ▸ h3) h4' ((field_alike e).fieldType base ▸ ih)
  | @source t c u h1 h2 h3 h4 h5 _ ih =>
    obtain ⟨c', hc', e⟩ := decl_derived (h2 ▸ hd t)
    have A := container_alike e
    exact .source h1 hc' (A.withTy ▸ h3) (transparent_none A h4) (A.fromTy ▸ h5) ih

theorem mayMiss_strip (hd : ∀ t, (decl t).strip = (decl' t).strip) {cd : Bool} {f f' : Field σ}
    (hf : FieldAlike f f') (h : MayMiss q base decl cd f) : MayMiss q base decl' cd f' := by
  unfold MayMiss at h ⊢
  rw [← hf.hasDefault, ← hf.required, ← hf.ty]
  exact h.imp id fun h => h.imp id fun h => ⟨h.1, missingOk_strip hd h.2⟩

theorem namesOf_strip (hq : Blind q) {f f' : Field σ} (h : f.strip = f'.strip) : namesOf q f = namesOf q f' := by
  unfold namesOf; rw [(field_alike h).name, hq.aliases _ _ h]

theorem variantNames_strip (hq : Blind q) {v v' : Variant σ} (h : v.strip = v'.strip) :
    variantNames q v = variantNames q v' := by
  unfold variantNames; rw [(variant_alike h).name, hq.variantAliases _ _ h]

theorem readAs_strip {v v' : Variant σ} (h : VariantAlike v v') : (readAs v).strip = (readAs v').strip := by
  have hf := h.fields
  unfold readAs
  cases hv : v.fields with
  | unit => rw [hv] at hf; rw [fields_unit hf]
  | newtype f =>
    rw [hv] at hf
    obtain ⟨f', e1, e⟩ := fields_newtype hf
    rw [e1]
    dsimp only
    rw [(field_alike e).skipDe]
    split
    · rfl
    · exact congrArg Fields.newtype e
  | tuple fs =>
    rw [hv] at hf
    obtain ⟨f', e1, e⟩ := fields_tuple hf
    rw [e1]; exact hf.trans (congrArg _ e1)
  | struct fs =>
    rw [hv] at hf
    obtain ⟨f', e1, e⟩ := fields_struct hf
    rw [e1]; exact hf.trans (congrArg _ e1)

theorem hollow_strip {v v' : Variant σ} (hv : VariantAlike v v') : hollow v ↔ hollow v' := by
  unfold hollow
  rw [hv.withTy]
  have h := readAs_strip hv
  constructor
  · rintro ⟨h1, h2⟩
    exact ⟨h1, fields_unit (h2 ▸ h)⟩
  · rintro ⟨h1, h2⟩
    exact ⟨h1, fields_unit (h2 ▸ h.symm)⟩

theorem nullType_strip (hd : ∀ t, (decl t).strip = (decl' t).strip) {t : σ} (h : NullType decl t) :
    NullType decl' t := by
  rcases h with h | ⟨c, h1, h2, h3, h4, h5⟩
  · exact .inl (decl_std (h ▸ hd t))
  · obtain ⟨c', hc', e⟩ := decl_derived (h1 ▸ hd t)
    have A := container_alike e
    obtain ⟨x, hx, e⟩ := data_struct (h5 ▸ A.data)
    exact .inr ⟨c', hc', A.withTy ▸ h2, transparent_none A h3, A.fromTy ▸ h4, by rw [hx, fields_unit e]⟩

theorem flatMap_strip {α β : Type} {g : α → β} {p p' : α → Bool} {n n' : α → List String} {l m : List α}
    (h : l.map g = m.map g) (hp : ∀ x y, g x = g y → p x = p' y) (hn : ∀ x y, g x = g y → n x = n' y) :
    (l.filter p).flatMap n = (m.filter p').flatMap n' := by
  induction l generalizing m with
  | nil => rw [map_strip_nil h]; rfl
  | cons x l ih =>
    obtain ⟨y, k, rfl, e, h⟩ := map_strip_cons h
    rw [List.filter_cons, List.filter_cons, hp x y e]
    split
    · rw [List.flatMap_cons, List.flatMap_cons, hn x y e, ih h]
    · exact ih h

theorem any_strip {α β : Type} {g : α → β} {p p' : α → Bool} {l m : List α}
    (h : l.map g = m.map g) (hp : ∀ x y, g x = g y → p x = p' y) : l.any p = m.any p' := by
  induction l generalizing m with
  | nil => rw [map_strip_nil h]; rfl
  | cons x l ih =>
    obtain ⟨y, k, rfl, e, h⟩ := map_strip_cons h
    rw [List.any_cons, List.any_cons, hp x y e, ih h]

/-- What two shares have in common. -/
inductive ShareAlike : Share σ → Share σ → Prop where
  | all : ShareAlike .all .all
  | named (ns) : ShareAlike (.named ns) (.named ns)
  | one {vs vs' : List (Variant σ)} : vs.map Variant.strip = vs'.map Variant.strip → ShareAlike (.one vs) (.one vs')

theorem share_strip (hq : Blind q) (hd : ∀ t, (decl t).strip = (decl' t).strip) (t : σ) :
    ShareAlike (share q decl t) (share q decl' t) := by
  have ht := hd t
  unfold share
  cases h : decl t with
  | std s => rw [h] at ht; rw [decl_std ht]; exact .all
  | derived c =>
    rw [h] at ht
    obtain ⟨c', hc', e⟩ := decl_derived ht
    rw [hc']
    have A := container_alike e
    dsimp only
    rw [← A.withTy, ← A.fromTy]
    cases c.withTy with
    | some _ => exact .all
    | none =>
      cases h1 : c.transparent with
      | some f => obtain ⟨f', h2, _⟩ := transparent_some A h1; rw [h2]; exact .all
      | none =>
        rw [transparent_none A h1]
        cases c.fromTy with
        | some _ => exact .all
        | none =>
          cases h3 : c.data with
          | struct fields =>
            obtain ⟨fields', h4, e⟩ := data_struct (h3 ▸ A.data)
            rw [h4]
            cases fields with
            | unit => rw [fields_unit e]; exact .all
            | newtype f => obtain ⟨f', rfl, _⟩ := fields_newtype e; exact .all
            | tuple f => obtain ⟨f', rfl, _⟩ := fields_tuple e; exact .all
            | struct fs =>
              obtain ⟨fs', rfl, e1⟩ := fields_struct e
              dsimp only
              rw [any_strip (p' := fun f : Field σ => !f.skipDe && f.flatten) e1 fun x y e => by
                  rw [(field_alike e).skipDe, (field_alike e).flatten],
                flatMap_strip (p' := fun f : Field σ => !f.skipDe) (n' := namesOf q) e1
                  (fun x y e => by rw [(field_alike e).skipDe]) (fun x y e => namesOf_strip hq e)]
              split
              · exact .all
              · exact .named _
          | enum tag vs =>
            obtain ⟨vs', h4, e⟩ := data_enum (h3 ▸ A.data)
            rw [h4]
            have ha := any_strip (p := fun v => v.untagged) (p' := fun v => v.untagged) e fun x y e =>
              (variant_alike e).untagged
            cases tag with
            | external =>
              dsimp only
              rw [ha]
              split
              · exact .all
              · exact .one e
            | internal t => exact .all
            | adjacent t c =>
              dsimp only
              rw [ha]
              split
              · exact .all
              · exact .named _
            | none => exact .all

theorem wants_strip (hq : Blind q) (hd : ∀ t, (decl t).strip = (decl' t).strip) (t : σ) :
    wants q decl t = wants q decl' t := by
  have h := share_strip hq hd t
  unfold wants
  generalize share q decl t = a at h
  generalize share q decl' t = b at h
  cases h with
  | all => rfl
  | named ns => rfl
  | one e =>
    exact congrArg some (flatMap_strip (p' := fun v => !v.skipDe) (n' := variantNames q) e
      (fun x y e => by rw [(variant_alike e).skipDe]) (fun x y e => variantNames_strip hq e))

theorem seen_strip (hq : Blind q) (hd : ∀ t, (decl t).strip = (decl' t).strip) (t : σ) (o : List (String × Json)) :
    seen q decl t o = seen q decl' t o := by
  unfold seen; rw [wants_strip hq hd]

theorem leave_strip (hq : Blind q) (hd : ∀ t, (decl t).strip = (decl' t).strip) (t : σ) (o : List (String × Json)) :
    leave q decl t o = leave q decl' t o := by
  unfold leave; rw [wants_strip hq hd]

theorem unclaimed_strip (hq : Blind q) {fs fs' : List (Field σ)} (h : fs.map Field.strip = fs'.map Field.strip)
    (o : List (String × Json)) : unclaimed q fs o = unclaimed q fs' o := by
  unfold unclaimed
  refine List.filter_congr fun e _ => ?_
  rw [any_strip (p' := fun f => !f.skipDe && !f.flatten && (namesOf q f).contains e.1) h fun x y e => by
    rw [(field_alike e).skipDe, (field_alike e).flatten, namesOf_strip hq e]]

theorem readFlattened_strip (hq : Blind q) (hd : ∀ t, (decl t).strip = (decl' t).strip) {fs fs' : List (Field σ)}
    (hf : fs.map Field.strip = fs'.map Field.strip) {o o' : List (String × Json)}
    (h : ReadFlattened q R base decl fs o o') : ReadFlattened q R base decl' fs' o o' := by
  induction h generalizing fs' with
  | nil => rw [map_strip_nil hf]; exact .nil
  | pass h1 _ ih =>
    obtain ⟨f', l, rfl, e, hf⟩ := map_strip_cons hf
    exact .pass ((field_alike e).skipDe ▸ (field_alike e).flatten ▸ h1) (ih hf)
  | part h1 h2 h3 _ ih =>
    obtain ⟨f', l, rfl, e, hf⟩ := map_strip_cons hf
    have A := field_alike e
    rw [A.ty, seen_strip hq hd] at h3
    rw [A.ty, leave_strip hq hd] at ih
    exact .part (A.skipDe ▸ h1) (A.flatten ▸ h2) (h3.imp id (nullType_strip hd)) (ih hf)
  | @one f fs o o' vs n x h1 h2 h3 h4 h5 h6 _ ih =>
    obtain ⟨f', l, rfl, e, hf⟩ := map_strip_cons hf
    have A := field_alike e
    rw [A.ty, seen_strip hq hd] at h4 h5
    rw [A.ty] at h6 h3
    have hs := share_strip hq hd (base f'.ty)
    rw [h3] at hs
    generalize hb : share q decl' (base f'.ty) = b at hs
    cases hs with
    | one ev =>
      refine .one (A.skipDe ▸ h1) (A.flatten ▸ h2) hb h4 h5 (h6.imp id ?_) (ih hf)
      rintro ⟨hx, v, hv, h7, h8, h9⟩
      obtain ⟨v', hv', e⟩ := map_strip_mem ev hv
      exact ⟨hx, v', hv', (variant_alike e).skipDe ▸ h7, (hollow_strip (variant_alike e)).1 h8,
        variantNames_strip hq e ▸ h9⟩
  | @none f fs o o' u h1 h2 h3 h4 h5 _ ih =>
    obtain ⟨f', l, rfl, e, hf⟩ := map_strip_cons hf
    have A := field_alike e
    rw [A.ty, seen_strip hq hd] at h5
    rw [A.ty, leave_strip hq hd] at ih
    rw [A.ty] at h4
    exact .none (A.skipDe ▸ h1) (A.flatten ▸ h2) (A.required ▸ h3) (decl_std (h4 ▸ hd _)) h5 (ih hf)

theorem readMember_strip (hq : Blind q) (hd : ∀ t, (decl t).strip = (decl' t).strip) {cd : Bool} {f f' : Field σ}
    (hf : f.strip = f'.strip) {o : List (String × Json)} (h : ReadMember q (ofType R base) base decl cd f o) :
    ReadMember q (ofType R base) base decl' cd f' o := by
  unfold ReadMember ofType at h ⊢
  rw [namesOf_strip hq hf, (field_alike hf).fieldType base] at h
  exact h.imp id fun h => ⟨h.1, mayMiss_strip hd (field_alike hf) h.2⟩

theorem readFields_strip (hq : Blind q) (hd : ∀ t, (decl t).strip = (decl' t).strip) {cd deny : Bool}
    {fs fs' : List (Field σ)} (hf : fs.map Field.strip = fs'.map Field.strip) {o : List (String × Json)}
    (h : ReadFields q R (ofType R base) base decl cd deny fs o) : ReadFields q R (ofType R base) base decl' cd deny fs' o := by
  obtain ⟨h1, left, h2, h3⟩ := h
  refine ⟨fun f' hf' hs hl => ?_, left, ?_, h3⟩
  · obtain ⟨f, hm, e⟩ := map_strip_mem hf.symm hf'
    have A := field_alike e
    exact readMember_strip hq hd e.symm (h1 f hm (A.skipDe ▸ hs) (A.flatten ▸ hl))
  · rw [unclaimed_strip hq hf] at h2
    exact readFlattened_strip hq hd hf h2

theorem readElems_strip {cd : Bool} {fs fs' : List (Field σ)} (hf : fs.map Field.strip = fs'.map Field.strip)
    {l : List Json} (h : ReadElems q (ofType R base) cd fs l) : ReadElems q (ofType R base) cd fs' l := by
  induction h generalizing fs' with
  | nil => rw [map_strip_nil hf]; exact .nil
  | skip h1 _ ih =>
    obtain ⟨f', l, rfl, e, hf⟩ := map_strip_cons hf
    exact .skip ((field_alike e).skipDe ▸ h1) (ih hf)
  | elem x h1 h2 _ ih =>
    obtain ⟨f', l, rfl, e, hf⟩ := map_strip_cons hf
    exact .elem x ((field_alike e).skipDe ▸ h1) (by unfold ofType at h2 ⊢; exact (field_alike e).fieldType base ▸ h2) (ih hf)
  | missing h1 h2 h3 _ ih =>
    obtain ⟨f', l, rfl, e, hf⟩ := map_strip_cons hf
    exact .missing h1 ((field_alike e).skipDe ▸ h2) ((field_alike e).hasDefault ▸ h3) (ih hf)

theorem readContent_strip (hq : Blind q) (hd : ∀ t, (decl t).strip = (decl' t).strip) {seq cd deny : Bool}
    {fs fs' : Fields σ} (hf : fs.strip = fs'.strip) {j : Json} (h : ReadContent q R (ofType R base) base decl seq cd deny fs j) :
    ReadContent q R (ofType R base) base decl' seq cd deny fs' j := by
  cases fs with
  | unit => rw [fields_unit hf]; exact h
  | newtype f =>
    obtain ⟨f', rfl, e⟩ := fields_newtype hf
    have h : R (fieldType base f) j := h
    rw [(field_alike e).fieldType base] at h
    exact h
  | tuple fs =>
    obtain ⟨fs', rfl, e⟩ := fields_tuple hf
    obtain ⟨l, rfl, h⟩ := h
    exact ⟨l, rfl, readElems_strip e h⟩
  | struct fs =>
    obtain ⟨fs', rfl, e⟩ := fields_struct hf
    rcases h with ⟨o, ho, h⟩ | ⟨h1, h2, h3, l, h4, h5⟩
    · exact .inl ⟨o, ho, readFields_strip hq hd e h⟩
    · refine .inr ⟨h1, h2, fun f' hf' hs => ?_, l, h4, readElems_strip e h5⟩
      obtain ⟨f, hm, e⟩ := map_strip_mem e.symm hf'
      have A := field_alike e
      exact A.flatten ▸ h3 f hm (A.skipDe ▸ hs)

theorem readVariant_strip (hq : Blind q) (hd : ∀ t, (decl t).strip = (decl' t).strip) {seq deny : Bool}
    {v v' : Variant σ} (hv : VariantAlike v v') {j : Json} (h : ReadVariant q R (ofType R base) base decl seq deny v j) :
    ReadVariant q R (ofType R base) base decl' seq deny v' j := by
  unfold ReadVariant at h ⊢
  rw [← hv.withTy]
  split at h
  · exact h
  · exact readContent_strip hq hd (readAs_strip hv) h

theorem readInside_strip (hd : ∀ t, (decl t).strip = (decl' t).strip) {t : σ} {o : List (String × Json)}
    (h : ReadInside R decl t o) : ReadInside R decl' t o := h.imp id fun h => ⟨nullType_strip hd h.1, h.2⟩

theorem readTagged_strip (hq : Blind q) (hd : ∀ t, (decl t).strip = (decl' t).strip) {deny : Bool}
    {v v' : Variant σ} (hv : VariantAlike v v') {o : List (String × Json)} (h : ReadTagged q R (ofType R base) base decl deny v o) :
    ReadTagged q R (ofType R base) base decl' deny v' o := by
  unfold ReadTagged at h ⊢
  have hw := readAs_strip hv
  rw [← hv.withTy]
  split at h
  · exact readInside_strip hd h
  · split at h
    · rename_i hu
      have e1 := fields_unit (hu ▸ hw)
      rw [e1]
      exact h
    · rename_i f hu
      obtain ⟨f', e1, e⟩ := fields_newtype (hu ▸ hw)
      rw [e1]
      exact readInside_strip hd ((field_alike e).fieldType base ▸ h)
    · exact h.elim
    · rename_i fs hu
      obtain ⟨f', e1, e⟩ := fields_struct (hu ▸ hw)
      rw [e1]
      exact readFields_strip hq hd e h

theorem readBeside_strip (hq : Blind q) (hd : ∀ t, (decl t).strip = (decl' t).strip) {deny : Bool}
    {v v' : Variant σ} (hv : VariantAlike v v') {x : Option Json} (h : ReadBeside q R (ofType R base) base decl deny v x) :
    ReadBeside q R (ofType R base) base decl' deny v' x := by
  rcases h with ⟨h1, h2⟩ | ⟨h1, y, h2, h3⟩ | ⟨h1, h2, h3, f, h4, h5⟩
  · exact .inl ⟨(hollow_strip hv).1 h1, h2⟩
  · exact .inr (.inl ⟨fun hb => h1 ((hollow_strip hv).2 hb), y, h2, readVariant_strip hq hd hv h3⟩)
  · obtain ⟨f', e1, e⟩ := fields_newtype (h4 ▸ readAs_strip hv)
    exact .inr (.inr ⟨h1, h2, hv.withTy ▸ h3, f', e1, missingOk_strip hd ((field_alike e).fieldType base ▸ h5)⟩)

theorem unnamed_strip (hq : Blind q) {vs vs' : List (Variant σ)} (h : vs.map Variant.strip = vs'.map Variant.strip)
    {n : String} (hn : Unnamed q vs n) : Unnamed q vs' n := by
  intro v' hv' hs
  obtain ⟨v, hm, e⟩ := map_strip_mem h.symm hv'
  exact variantNames_strip hq e ▸ hn v hm ((variant_alike e).skipDe ▸ hs)

theorem readEnum_strip (hq : Blind q) (hd : ∀ t, (decl t).strip = (decl' t).strip) {tag : TagType} {deny : Bool}
    {vs vs' : List (Variant σ)} (hvs : vs.map Variant.strip = vs'.map Variant.strip) {v v' : Variant σ}
    (he : v.strip = v'.strip) {j : Json} (h : ReadEnum q R (ofType R base) base decl tag deny vs v j) :
    ReadEnum q R (ofType R base) base decl' tag deny vs' v' j := by
  have hv := variant_alike he
  have hn := variantNames_strip hq he
  unfold ReadEnum at h ⊢
  rw [← hv.untagged, ← hn, ← hq.other _ _ he]
  split at h
  · rename_i hu
    rw [if_pos hu]
    exact readVariant_strip hq hd hv h
  · rename_i hu
    rw [if_neg hu]
    split at h
    · obtain ⟨n, h0, h⟩ := h
      refine ⟨n, h0, ?_⟩
      rcases h with ⟨h1, h2⟩ | ⟨h1, x, h2, h3⟩
      · exact .inl ⟨(hollow_strip hv).1 h1, h2⟩
      · exact .inr ⟨fun hb => h1 ((hollow_strip hv).2 hb), x, h2, readVariant_strip hq hd hv h3⟩
    · obtain ⟨n, h⟩ := h
      refine ⟨n, ?_⟩
      rcases h with ⟨o, h1, h2, h3⟩ | ⟨h1, h2, l, fs, h3, h4, h5, h6⟩
      · exact .inl ⟨o, h1, h2, h3.imp (fun h => ⟨h.1, readTagged_strip hq hd hv h.2⟩)
          fun h => ⟨h.1, unnamed_strip hq hvs h.2⟩⟩
      · obtain ⟨fs', e1, e⟩ := fields_struct (h5 ▸ readAs_strip hv)
        exact .inr ⟨h1, h2, l, fs', h3, hv.withTy ▸ h4, e1, readElems_strip e h6⟩
    · obtain ⟨n, h⟩ := h
      refine ⟨n, ?_⟩
      rcases h with ⟨o, h1, h2, h3⟩ | ⟨h1, h2, x, h3, h4⟩
      · exact .inl ⟨o, h1, h2, h3.imp (fun h => ⟨h.1, readBeside_strip hq hd hv h.2.1, h.2.2⟩)
          fun h => ⟨h.1, unnamed_strip hq hvs h.2.1, h.2.2⟩⟩
      · exact .inr ⟨h1, h2, x, h3, readVariant_strip hq hd hv h4⟩
    · exact readVariant_strip hq hd hv h

theorem readContainer_strip (hq : Blind q) (hd : ∀ t, (decl t).strip = (decl' t).strip)
    {c c' : Container σ} (hc : ContainerAlike c c') {j : Json} (h : ReadContainer q R (ofType R base) base decl c j) :
    ReadContainer q R (ofType R base) base decl' c' j := by
  unfold ReadContainer at h ⊢
  rw [← hc.withTy, ← hc.fromTy, ← hc.hasDefault, ← hc.deny]
  cases hw : c.withTy with
  | some t => rw [hw] at h; exact h
  | none =>
    rw [hw] at h
    cases h1 : c.transparent with
    | some f =>
      rw [h1] at h
      obtain ⟨f', h2, e⟩ := transparent_some hc h1
      rw [h2]
      have h : R (fieldType base f) j := h
      rw [(field_alike e).fieldType base] at h
      exact h
    | none =>
      rw [h1] at h
      rw [transparent_none hc h1]
      cases h3 : c.fromTy with
      | some t => rw [h3] at h; exact h
      | none =>
        rw [h3] at h
        dsimp only at h ⊢
        cases h4 : c.data with
        | struct fields =>
          rw [h4] at h
          obtain ⟨f', e1, e⟩ := data_struct (h4 ▸ hc.data)
          rw [e1]
          exact readContent_strip hq hd e h
        | enum tag vs =>
          rw [h4] at h
          obtain ⟨vs', e1, e⟩ := data_enum (h4 ▸ hc.data)
          rw [e1]
          obtain ⟨v, hv, hsk, h⟩ := h
          obtain ⟨v', hv', ev⟩ := map_strip_mem e hv
          exact ⟨v', hv', (variant_alike ev).skipDe ▸ hsk, readEnum_strip hq hd e ev h⟩

theorem readDecl_strip (hq : Blind q) (hd : ∀ t, (decl t).strip = (decl' t).strip) {t : σ} {j : Json}
    (h : ReadDecl w q R (ofType R base) base decl (decl t) j) : ReadDecl w q R (ofType R base) base decl' (decl' t) j := by
  have ht := hd t
  cases hs : decl t with
  | std s => rw [hs] at h ht; rw [decl_std ht]; exact h
  | derived c =>
    rw [hs] at h ht
    obtain ⟨c', e1, e⟩ := decl_derived ht
    rw [e1]
    exact readContainer_strip hq hd (container_alike e) h

/-- What serde reads does not depend on what is only for the schema. -/
theorem read_strip (hq : Blind q) (hd : ∀ t, (decl t).strip = (decl' t).strip) {t : σ} {j : Json} :
    Read w q base decl t j ↔ Read w q base decl' t j :=
  ⟨fun h X hX => h X fun t j ht => hX t j (readDecl_strip hq hd ht),
   fun h X hX => h X fun t j ht => hX t j (readDecl_strip hq (fun t => (hd t).symm) ht)⟩

end

end Verif
