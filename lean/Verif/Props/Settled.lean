import Verif.Spec.Settled
import Verif.Props.SourceAccepts

/-!
# C71: attributes of schemars behave like those of serde
-/

namespace Verif
open Spec

variable {τ σ V α β : Type}

/-! ### One list of attributes -/

theorem schemarsOf_settled (attrs : SrcAttrs τ) :
    schemarsOf (settled attrs) = (schemarsOf attrs).filter fun i => !isNamed serdeWords i := by
  unfold settled schemarsOf
  rw [List.flatMap_append]
  rw [show ([.serde (some (effective attrs))] : SrcAttrs τ).flatMap _ = [] from rfl, List.append_nil]
  generalize attrs = l
  induction l with
  | nil => rfl
  | cons a r ih =>
    cases a with
    | serde o => exact ih
    | other o => exact ih
    | schemars o =>
      cases o with
      | none => exact ih
      | some l =>
        rw [List.filterMap_cons_some (by rfl), List.flatMap_cons, List.flatMap_cons, List.filter_append, ih]

theorem serdeOf_settled (attrs : SrcAttrs τ) : serdeOf (settled attrs) = effective attrs := by
  unfold settled serdeOf
  rw [List.flatMap_append]
  refine (congrArg₂ (· ++ ·) ?_ (List.append_nil _)).trans (List.nil_append _)
  generalize attrs = l
  induction l with
  | nil => rfl
  | cons a r ih =>
    cases a with
    | serde o => exact ih
    | other o => exact ih
    | schemars o => cases o <;> exact ih

theorem others_settled (attrs : SrcAttrs τ) :
    validateItems (settled attrs) = validateItems attrs ∧ gardeItems (settled attrs) = gardeItems attrs ∧
    docLines (settled attrs) = docLines attrs ∧ isDeprecated (settled attrs) = isDeprecated attrs := by
  unfold settled
  generalize effective attrs = e
  induction attrs with
  | nil => exact ⟨rfl, rfl, rfl, rfl⟩
  | cons a r ih =>
    obtain ⟨h1, h2, h3, h4⟩ := ih
    unfold isDeprecated at h4 ⊢
    cases a with
    | serde o => exact ⟨h1, h2, h3, h4⟩
    | schemars o => cases o <;> exact ⟨h1, h2, h3, h4⟩
    | other o =>
      rw [List.filterMap_cons_some (by rfl), List.cons_append]
      cases o with
      | validate m => cases m <;> simp [validateItems, gardeItems, docLines, h1, h2, h3, h4]
      | garde m => cases m <;> simp [validateItems, gardeItems, docLines, h1, h2, h3, h4]
      | _ => simp [validateItems, gardeItems, docLines, h1, h2, h3, h4]

theorem not_unset {attrs : SrcAttrs τ} (h : Movable attrs) {i : MetaItem τ} (hi : i ∈ schemarsOf (settled attrs)) :
    i.negated = false ∧ isNamed serdeWords i = false := by
  rw [schemarsOf_settled] at hi
  obtain ⟨hi, hn⟩ := List.mem_filter.1 hi
  have hn : isNamed serdeWords i = false := by simpa using hn
  refine ⟨?_, hn⟩
  cases hneg : i.negated with
  | false => rfl
  | true => rw [h.unset i hi hneg] at hn; cases hn

/-- Nothing in effect is overridden in the settled attributes. -/
theorem effective_settled {attrs : SrcAttrs τ} (h : Movable attrs) : effective (settled attrs) = effective attrs := by
  classical
  have hsets : ∀ i ∈ schemarsOf (settled attrs), ¬ ∃ k, Spec.Sets i k := by
    rintro i hi ⟨k, hk⟩
    exact isNamed_some (not_unset h hi).2 hk.1 hk.2.2
  conv_lhs => unfold effective
  rw [serdeOf_settled, List.filter_eq_nil_iff.2 fun i hi hd => hsets i hi (of_decide_eq_true hd), List.nil_append]
  refine List.filter_eq_self.2 fun i hi => decide_eq_true ?_
  have hover : ∀ k, ¬ Overridden (settled attrs) k := by
    rintro k (⟨j, hj, hs⟩ | ⟨j, hj, hs⟩ | ⟨_, j, hj, hs⟩)
    · exact hsets j hj ⟨_, hs⟩
    · exact Bool.false_ne_true ((not_unset h hj).1.symm.trans hs.2)
    · exact hsets j hj ⟨_, hs⟩
  rcases List.mem_append.1 hi with hi | hi
  · obtain ⟨hi, hd⟩ := List.mem_filter.1 hi
    obtain ⟨k, hk⟩ := of_decide_eq_true hd
    refine ⟨k, hk.1, ?_, hover k⟩
    have hb : k ≠ "bound" := by
      rintro rfl
      exact isNamed_some (not_named h.bound hi) hk.1 (List.mem_singleton.2 rfl)
    exact (by decide : ∀ k ∈ schemarsSupported, k ≠ "bound" → k ∈ serdeSupported) k hk.2.2 hb
  · obtain ⟨k, hk, hs, _⟩ := of_decide_eq_true (List.mem_filter.1 hi).2
    exact ⟨k, hk, hs, hover k⟩

/-- There is nothing to complain about in the settled attributes. -/
theorem errors_settled {attrs : SrcAttrs τ} (h : Movable attrs) (he : (processAttrs attrs).2 = []) :
    (processAttrs (settled attrs)).2 = [] := by
  have hu : unsetKeywords (schemarsOf (settled attrs)) = [] := by
    refine List.eq_nil_iff_forall_not_mem.2 fun k hk => ?_
    obtain ⟨i, hi, hu⟩ := mem_unsetKeywords.1 hk
    exact Bool.false_ne_true ((not_unset h hi).1.symm.trans hu.2)
  rw [C54_errors] at he ⊢
  refine ⟨fun hm => ?_, by rw [hu]; exact List.nodup_nil, fun k hk => ?_⟩
  · rcases List.mem_append.1 hm with hm | hm
    · obtain ⟨a, ha, hl⟩ := List.mem_filterMap.1 hm
      cases a with
      | serde o => cases hl
      | other o => cases hl
      | schemars o =>
        cases o with
        | none => exact he.1 ha
        | some l => cases hl
    · cases List.mem_singleton.1 hm
  · rw [← mem_unsetKeywords, hu] at hk
    cases hk

/-- What matters of one list of attributes. -/
structure SameAttrs (ps : Parsers τ) (a a' : SrcAttrs τ) : Prop where
  serde : effective a' = effective a
  field : deriveField ps a' = deriveField ps a
  variant : deriveVariant ps a' = deriveVariant ps a
  doc : getDoc a' = getDoc a
  deprecated : isDeprecated a' = isDeprecated a

section
variable {ps : Parsers τ}

theorem settled_parts {attrs : SrcAttrs τ} (h : Movable attrs) :
    (schemarsItems (processAttrs (settled attrs)).1).1 = (schemarsOf attrs).filter (fun i => !isNamed serdeWords i) ∧
    serdeItems (processAttrs (settled attrs)).1 = effective attrs ∧
    validateItems (processAttrs (settled attrs)).1 = validateItems attrs ∧
    gardeItems (processAttrs (settled attrs)).1 = gardeItems attrs := by
  obtain ⟨eff, heff, _⟩ := C54 (settled attrs)
  obtain ⟨a1, a2, a3, a4⟩ := processAttrs_parts _ eff heff
  obtain ⟨b1, b2, _⟩ := others_settled attrs
  refine ⟨a1.trans (schemarsOf_settled attrs), ?_, a3.trans b1, a4.trans b2⟩
  rw [serdeItems_process, effective_settled h]

theorem plain_parts (attrs : SrcAttrs τ) :
    (schemarsItems (processAttrs attrs).1).1 = schemarsOf attrs ∧
    serdeItems (processAttrs attrs).1 = effective attrs ∧
    validateItems (processAttrs attrs).1 = validateItems attrs ∧
    gardeItems (processAttrs attrs).1 = gardeItems attrs := by
  obtain ⟨eff, heff, _⟩ := C54 attrs
  obtain ⟨a1, _, a3, a4⟩ := processAttrs_parts _ eff heff
  exact ⟨a1, serdeItems_process attrs, a3, a4⟩

theorem settled_same {attrs : SrcAttrs τ} (h : Movable attrs) (he : (processAttrs attrs).2 = []) :
    SameAttrs ps attrs (settled attrs) := by
  obtain ⟨a1, a2, a3, a4⟩ := plain_parts attrs
  obtain ⟨b1, b2, b3, b4⟩ := settled_parts h
  refine ⟨effective_settled h, ?_, ?_, ?_, (others_settled attrs).2.2.2⟩
  · unfold deriveField
    simp only [he, errors_settled h he, a1, a2, a3, a4, b1, b2, b3, b4]
    rw [C63_field_ignored ps _ _ _ _ (isNamed serdeWords) (fun _ h => h)]
  · unfold deriveVariant
    simp only [he, errors_settled h he, a1, a2, b1, b2]
    rw [C63_variant_ignored ps _ _ (isNamed serdeWords) (fun _ h => h)]
  · unfold getDoc
    rw [(others_settled attrs).2.2.1]

theorem settled_container {isEnum : Bool} {attrs : SrcAttrs τ} (h : Movable attrs)
    (hr : has ["rename"] (schemarsOf attrs) = false) (he : (processAttrs attrs).2 = []) :
    deriveContainer ps isEnum (settled attrs) = deriveContainer ps isEnum attrs := by
  obtain ⟨a1, a2, _⟩ := plain_parts attrs
  obtain ⟨b1, b2, _⟩ := settled_parts h
  unfold deriveContainer
  simp only [he, errors_settled h he, a1, a2, b1, b2]
  rw [show (schemarsOf attrs).filter (fun i => !isNamed serdeWords i) =
    (schemarsOf attrs).filter fun i => !(isNamed serdeWords i && !isNamed ["rename"] i) from
    List.filter_congr fun i hi => by rw [not_named hr hi]; simp]
  rw [C63_container_ignored ps isEnum _ _ (fun i => isNamed serdeWords i && !isNamed ["rename"] i)
    (fun i h => by simp at h; exact h.1) (fun i h => by simp at h; exact h.2)]

end

/-! ### What serde's library makes of items with other attributes -/

section
variable (h : α → β)

def atField (f : SerdeField τ α) : SerdeField τ β :=
  ⟨mapField h f.original, f.name, f.skipSer, f.skipDe, f.flatten, f.skipSerIf, f.serWith, f.default⟩

def atFields : SerdeFields τ α → SerdeFields τ β
  | .unit => .unit
  | .newtype f => .newtype (atField h f)
  | .tuple fs => .tuple (fs.map (atField h))
  | .struct fs => .struct (fs.map (atField h))

def atVariant (v : SerdeVariant τ α) : SerdeVariant τ β :=
  ⟨mapVariant h v.original, v.name, atFields h v.fields, v.skipSer, v.skipDe, v.untagged⟩

def atData : SerdeData τ α → SerdeData τ β
  | .struct fs => .struct (atFields h fs)
  | .enum vs => .enum (vs.map (atVariant h))

def atContainer (c : SerdeContainer τ α) : SerdeContainer τ β :=
  ⟨mapItem h c.original, c.name, atData h c.data, c.deny, c.default, c.tag, c.transparent.map (atField h), c.typeFrom,
    c.typeTryFrom, c.typeInto, c.remote⟩

end

section
variable {h : α → β} {get : α → List (MetaItem τ)} {get' : β → List (MetaItem τ)} {ps : Parsers τ} {C : Cases}

theorem serdeField_map {rules : RenameRules} {d : SerdeDefault τ} {f : SrcField τ α} (he : get' (h f.attrs) = get f.attrs) :
    serdeField ps C get' rules d (mapField h f) = (serdeField ps C get rules d f).map (atField h) := by
  unfold serdeField mapField
  dsimp only
  rw [he, Option.map_map]
  rfl

theorem mapAll_comm {γ δ ε ζ : Type} {f : γ → Option δ} {g : ε → Option ζ} {x : γ → ε} {y : δ → ζ} {l : List γ}
    (hl : ∀ c ∈ l, g (x c) = (f c).map y) : mapAll g (l.map x) = (mapAll f l).map (List.map y) := by
  induction l with
  | nil => rfl
  | cons a l ih =>
    rw [List.map_cons, mapAll, mapAll, hl a (List.mem_cons_self ..), ih fun c hc => hl c (List.mem_cons_of_mem _ hc)]
    cases f a with
    | none => rfl
    | some b => cases mapAll f l <;> rfl

theorem serdeFields_map {rules : RenameRules} {d : SerdeDefault τ} {s : SrcFields τ α}
    (he : ∀ f ∈ fieldList s, get' (h f.attrs) = get f.attrs) :
    serdeFields ps C get' rules d (mapFields h s) = (serdeFields ps C get rules d s).map (atFields h) := by
  have hl : ∀ l : List (SrcField τ α), (∀ f ∈ l, get' (h f.attrs) = get f.attrs) →
      mapAll (serdeField ps C get' rules d) (l.map (mapField h)) =
        (mapAll (serdeField ps C get rules d) l).map (List.map (atField h)) :=
    fun l hl => mapAll_comm fun f hf => serdeField_map (hl f hf)
  cases s with
  | unit => rfl
  | named l =>
    show (mapAll _ (l.map _)).map _ = ((mapAll _ l).map _).map _
    rw [hl l he, Option.map_map, Option.map_map]
    rfl
  | unnamed l =>
    match l, he with
    | [], _ => rfl
    | [f], he =>
      show (serdeField ps C get' rules d (mapField h f)).map _ = ((serdeField ps C get rules d f).map _).map _
      rw [serdeField_map (he f (List.mem_singleton.2 rfl)), Option.map_map, Option.map_map]
      rfl
    | f :: g :: l, he =>
      show (mapAll _ ((f :: g :: l).map _)).map _ = ((mapAll _ (f :: g :: l)).map _).map _
      rw [hl (f :: g :: l) he, Option.map_map, Option.map_map]
      rfl

theorem serdeVariant_map {rules fieldRules : RenameRules} {d : SerdeDefault τ} {v : SrcVariant τ α}
    (hv : get' (h v.attrs) = get v.attrs) (he : ∀ f ∈ fieldList v.fields, get' (h f.attrs) = get f.attrs) :
    serdeVariant ps C get' rules fieldRules d (mapVariant h v) =
      (serdeVariant ps C get rules fieldRules d v).map (atVariant h) := by
  unfold serdeVariant
  rw [show (mapVariant h v).attrs = h v.attrs from rfl, hv]
  cases serdeLoop variantStep (get v.attrs) {} with
  | none => rfl
  | some a =>
    rw [Option.bind_some, Option.bind_some, show (mapVariant h v).fields = mapFields h v.fields from rfl,
      serdeFields_map he, Option.map_map, Option.map_map]
    rfl

theorem kind_map (d : SrcData τ α) : (mapData h d).kind = d.kind := by
  cases d with
  | enum vs => rfl
  | struct fs => cases fs <;> rfl

theorem decideTag_map (a : ContainerAttrSlots τ) (d : SrcData τ α) : decideTag a (mapData h d) = decideTag a d := by
  have ht : ∀ fs : SrcFields τ α, (mapFields h fs).isTuple = fs.isTuple := by
    intro fs
    cases fs <;> simp [mapFields, SrcFields.isTuple]
  unfold decideTag
  cases d with
  | struct fs => rfl
  | enum vs =>
    simp only [mapData, List.any_map]
    rw [show (fun v : SrcVariant τ β => v.fields.isTuple) ∘ mapVariant h = fun v => v.fields.isTuple from
      funext fun v => ht v.fields]

theorem list_atFields (fs : SerdeFields τ α) : (atFields h fs).list = fs.list.map (atField h) := by
  cases fs <;> rfl

theorem transparentField_map (S : Syntax τ) (c : Contract) (a : ContainerAttrSlots τ) (d : SerdeData τ α) :
    transparentField S c a (atData h d) = (transparentField S c a d).map (Option.map (atField h)) := by
  unfold transparentField
  split
  · rfl
  · split
    · rfl
    · cases d with
      | enum vs => rfl
      | struct fs =>
        simp only [atData]
        rw [list_atFields, List.filter_map,
          show allowTransparent S c ∘ atField (τ := τ) h = allowTransparent S c from funext fun f => rfl]
        cases fs.list.filter (allowTransparent S c) with
        | nil => rfl
        | cons f l => cases l <;> rfl

theorem serdeContainer_map {S : Syntax τ} {c : Contract} {item : SrcItem τ α}
    (he : ∀ a ∈ attrLists item, get' (h a) = get a) :
    serdeContainer S C get' c (mapItem h item) = (serdeContainer S C get c item).map (atContainer h) := by
  unfold serdeContainer
  rw [show (mapItem h item).data = mapData h item.data from rfl, kind_map,
    show (mapItem h item).attrs = h item.attrs from rfl, he _ (List.mem_cons_self ..),
    show (mapItem h item).ident = item.ident from rfl]
  cases serdeLoop (containerStep S item.ident item.data.kind) (get item.attrs) {} with
  | none => rfl
  | some a =>
    rw [Option.bind_some, Option.bind_some, decideTag_map]
    cases decideTag a item.data with
    | none => rfl
    | some tag =>
      rw [Option.bind_some, Option.bind_some]
      have hd : serdeData S.toParsers C get' a (mapData h item.data) =
          (serdeData S.toParsers C get a item.data).map (atData h) := by
        have hf : ∀ f ∈ srcFields item.data, get' (h f.attrs) = get f.attrs := fun f hf =>
          he _ (List.mem_cons_of_mem _ (List.mem_append_left _ (List.mem_map_of_mem hf)))
        have hv : ∀ v ∈ variantList item.data, get' (h v.attrs) = get v.attrs ∧
            ∀ f ∈ fieldList v.fields, get' (h f.attrs) = get f.attrs := fun v hv =>
          ⟨he _ (List.mem_cons_of_mem _ (List.mem_append_right _ (List.mem_flatMap.2 ⟨v, hv, List.mem_cons_self ..⟩))),
            fun f hf => he _ (List.mem_cons_of_mem _ (List.mem_append_right _ (List.mem_flatMap.2
              ⟨v, hv, List.mem_cons_of_mem _ (List.mem_map_of_mem hf)⟩)))⟩
        revert hf hv
        cases item.data with
        | struct fs =>
          intro hf _
          show (serdeFields _ _ _ _ _ (mapFields h fs)).map _ = ((serdeFields _ _ _ _ _ fs).map _).map _
          rw [serdeFields_map (fun f hm => hf f (by cases fs <;> exact hm)), Option.map_map, Option.map_map]
          rfl
        | enum vs =>
          intro _ hv
          show (mapAll _ (vs.map _)).map _ = ((mapAll _ vs).map _).map _
          rw [mapAll_comm (l := vs) fun v hm => serdeVariant_map (hv v hm).1 (hv v hm).2, Option.map_map, Option.map_map]
          rfl
      rw [hd]
      cases serdeData S.toParsers C get a item.data with
      | none => rfl
      | some d =>
        rw [Option.map_some, Option.bind_some, Option.bind_some, transparentField_map]
        cases transparentField S c a d with
        | none => rfl
        | some t =>
          rw [Option.map_some, Option.bind_some, Option.bind_some]
          split <;> rfl

end

/-! ### What schemars makes of items with settled attributes -/

section
variable {S : Syntax τ} {ps : Parsers τ} {C : Cases} {M : Meaning τ σ} {N : Values τ V} {h : SrcAttrs τ → SrcAttrs τ}

theorem commonOf_same {a : SrcAttrs τ} (hs : SameAttrs ps a (h a)) (c : CommonMeta τ) :
    commonOf M (h a) c = commonOf M a c := by
  unfold commonOf
  rw [hs.doc, hs.deprecated]

theorem fieldFromSerde_map {v : Option V} {f : SerdeField τ (SrcAttrs τ)}
    (hs : SameAttrs ps f.original.attrs (h f.original.attrs)) :
    fieldFromSerde ps M N v (atField h f) = fieldFromSerde ps M N v f := by
  unfold fieldFromSerde
  rw [show (atField h f).original.attrs = h f.original.attrs from rfl, hs.field]
  refine congrArg (fun k => Option.map k _) (funext fun m => ?_)
  rw [commonOf_same hs]
  rfl

theorem mapAll_same {γ δ ε : Type} {f : γ → Option δ} {g : ε → Option δ} {x : γ → ε} {l : List γ}
    (hl : ∀ c ∈ l, g (x c) = f c) : mapAll g (l.map x) = mapAll f l := by
  rw [mapAll_comm (f := f) (y := id) fun c hc => by rw [hl c hc, Option.map_id, id_eq], List.map_id_fun, Option.map_id,
    id_eq]

theorem fieldsFromSerde_map {v : Option V} {fs : SerdeFields τ (SrcAttrs τ)}
    (hs : ∀ f ∈ fs.list, SameAttrs ps f.original.attrs (h f.original.attrs)) :
    fieldsFromSerde ps M N v (atFields h fs) = fieldsFromSerde ps M N v fs := by
  cases fs with
  | unit => rfl
  | newtype f =>
    show (fieldFromSerde ps M N v (atField h f)).map _ = _
    rw [fieldFromSerde_map (hs f (List.mem_singleton.2 rfl))]
    rfl
  | tuple l =>
    show (mapAll _ (l.map _)).map _ = _
    rw [mapAll_same (l := l) fun f hf => fieldFromSerde_map (hs f hf)]
    rfl
  | struct l =>
    show (mapAll _ (l.map _)).map _ = _
    rw [mapAll_same (l := l) fun f hf => fieldFromSerde_map (hs f hf)]
    rfl

theorem variantFromSerde_map {ident : String} {refs : Bool} {v : SerdeVariant τ (SrcAttrs τ)}
    (hv : SameAttrs ps v.original.attrs (h v.original.attrs))
    (hs : ∀ f ∈ v.fields.list, SameAttrs ps f.original.attrs (h f.original.attrs)) :
    variantFromSerde ps M N ident refs (atVariant h v) = variantFromSerde ps M N ident refs v := by
  unfold variantFromSerde
  rw [show (atVariant h v).original.attrs = h v.original.attrs from rfl, hv.variant,
    show (atVariant h v).fields = atFields h v.fields from rfl, fieldsFromSerde_map hs]
  refine congrArg (fun k => Option.bind _ k) (funext fun m => ?_)
  rw [commonOf_same hv]
  rfl

/-- All fields come from the source. -/
theorem from_source {get : α → List (MetaItem τ)} {rules : RenameRules} {d : SerdeDefault τ}
    {s : SrcFields τ α} {fs : SerdeFields τ α} (hf : serdeFields ps C get rules d s = some fs) :
    fs.list.map (·.original) = fieldList s := by
  have H := serdeFields_list hf
  rw [show srcFields (.struct s) = fieldList s by cases s <;> rfl] at H
  have : ∀ {l : List (SrcField τ α)} {m : List (SerdeField τ α)},
      List.Forall₂ (fun x y => serdeField ps C get rules d x = some y) l m → m.map (·.original) = l := by
    intro l m hlm
    induction hlm with
    | nil => rfl
    | cons hxy _ ih =>
      obtain ⟨a, _, rfl⟩ := Option.map_eq_some_iff.1 hxy
      rw [List.map_cons, ih]
  exact this H

theorem variants_from_source {get : α → List (MetaItem τ)} {rules fieldRules : RenameRules} {d : SerdeDefault τ}
    {vs : List (SrcVariant τ α)} {ws : List (SerdeVariant τ α)}
    (hf : mapAll (serdeVariant ps C get rules fieldRules d) vs = some ws) :
    ws.map (·.original) = vs ∧ ∀ w ∈ ws, w.fields.list.map (·.original) = fieldList w.original.fields := by
  induction vs generalizing ws with
  | nil =>
    cases hf
    exact ⟨rfl, fun _ h => by cases h⟩
  | cons v vs ih =>
    obtain ⟨w, hw, hf⟩ := Option.bind_eq_some_iff.1 hf
    obtain ⟨r, hr, rfl⟩ := Option.map_eq_some_iff.1 hf
    obtain ⟨h1, h2⟩ := ih hr
    obtain ⟨a, _, hw⟩ := Option.bind_eq_some_iff.1 hw
    obtain ⟨fs, hfs, rfl⟩ := Option.map_eq_some_iff.1 hw
    refine ⟨by rw [List.map_cons, h1], fun w hw => ?_⟩
    rcases List.mem_cons.1 hw with rfl | hw
    · exact from_source hfs
    · exact h2 w hw

/-- The original of a container is the item, and the attributes in it are those of the item. -/
structure From (c : SerdeContainer τ α) (item : SrcItem τ α) : Prop where
  original : c.original = item
  fields : ∀ fs, c.data = .struct fs → fs.list.map (·.original) = srcFields item.data
  variants : ∀ vs, c.data = .enum vs → vs.map (·.original) = variantList item.data ∧
    ∀ v ∈ vs, v.fields.list.map (·.original) = fieldList v.original.fields
  transparent : ∀ f, c.transparent = some f → ∃ fs, c.data = .struct fs ∧ f ∈ fs.list

theorem container_from {get : α → List (MetaItem τ)} {k : Contract} {item : SrcItem τ α} {c : SerdeContainer τ α}
    (hc : serdeContainer S C get k item = some c) : From c item := by
  obtain ⟨a, _, hc⟩ := Option.bind_eq_some_iff.1 hc
  obtain ⟨tag, _, hc⟩ := Option.bind_eq_some_iff.1 hc
  obtain ⟨d, hd, hc⟩ := Option.bind_eq_some_iff.1 hc
  obtain ⟨t, ht, hc⟩ := Option.bind_eq_some_iff.1 hc
  split at hc
  · cases hc
  cases hc
  unfold serdeData at hd
  refine ⟨rfl, fun fs e => ?_, fun vs e => ?_, fun f e => ?_⟩
  · dsimp only at e
    subst e
    cases hi : item.data with
    | struct s =>
      rw [hi] at hd
      obtain ⟨x, hx, e⟩ := Option.map_eq_some_iff.1 hd
      cases e
      rw [from_source hx]
      cases s <;> rfl
    | enum vs =>
      rw [hi] at hd
      obtain ⟨x, _, e⟩ := Option.map_eq_some_iff.1 hd
      cases e
  · dsimp only at e
    subst e
    cases hi : item.data with
    | struct s =>
      rw [hi] at hd
      obtain ⟨x, _, e⟩ := Option.map_eq_some_iff.1 hd
      cases e
    | enum vs =>
      rw [hi] at hd
      obtain ⟨x, hx, e⟩ := Option.map_eq_some_iff.1 hd
      cases e
      exact variants_from_source hx
  · dsimp only at e
    subst e
    unfold transparentField at ht
    split at ht
    · cases ht
    · split at ht
      · cases ht
      · split at ht
        · cases ht
        · refine ⟨_, rfl, ?_⟩
          split at ht
          · rename_i g hg
            cases ht
            exact List.mem_of_mem_filter (p := allowTransparent S k) (by rw [hg]; exact List.mem_singleton.2 rfl)
          · cases ht

theorem mem_fieldAttrs {item : SrcItem τ α} {f : SrcField τ α} (hf : f ∈ srcFields item.data) :
    f.attrs ∈ attrLists item :=
  List.mem_cons_of_mem _ (List.mem_append_left _ (List.mem_map_of_mem hf))

theorem mem_variantAttrs {item : SrcItem τ α} {v : SrcVariant τ α} (hv : v ∈ variantList item.data) :
    v.attrs ∈ attrLists item ∧ ∀ f ∈ fieldList v.fields, f.attrs ∈ attrLists item :=
  ⟨List.mem_cons_of_mem _ (List.mem_append_right _ (List.mem_flatMap.2 ⟨v, hv, List.mem_cons_self ..⟩)),
    fun _ hf => List.mem_cons_of_mem _ (List.mem_append_right _ (List.mem_flatMap.2
      ⟨v, hv, List.mem_cons_of_mem _ (List.mem_map_of_mem hf)⟩))⟩

/-- If all that matters of the attributes is the same, the same is derived. -/
theorem deriveItem_map {item : SrcItem τ (SrcAttrs τ)}
    (hs : ∀ a ∈ attrLists item, SameAttrs S.toParsers a (h a))
    (hc : ∀ isEnum, deriveContainer S.toParsers isEnum (h item.attrs) = deriveContainer S.toParsers isEnum item.attrs) :
    deriveItem S C M N (mapItem h item) = deriveItem S C M N item := by
  unfold deriveItem
  rw [show (fun attrs : SrcAttrs τ => serdeItems (processAttrs attrs).1) = effective from funext serdeItems_process,
    serdeContainer_map fun a ha => (hs a ha).serde, show (mapItem h item).attrs = h item.attrs from rfl, hc,
    show (mapItem h item).data = mapData h item.data from rfl, kind_map]
  cases hk : serdeContainer S C effective .deserialize item with
  | none => rfl
  | some c =>
    obtain ⟨f1, f2, f3, f4⟩ := container_from hk
    have hfield : ∀ fs, c.data = .struct fs → ∀ f ∈ fs.list, SameAttrs S.toParsers f.original.attrs (h f.original.attrs) :=
      fun fs e f hf => hs _ (mem_fieldAttrs (by rw [← f2 fs e]; exact List.mem_map_of_mem hf))
    rw [Option.map_some, Option.bind_some, Option.bind_some]
    have hd : ∀ refs, dataFromSerde S.toParsers M N (atContainer h c) refs = dataFromSerde S.toParsers M N c refs := by
      intro refs
      unfold dataFromSerde
      rw [show (atContainer h c).data = atData h c.data from rfl]
      cases e : c.data with
      | struct fs =>
        show (fieldsFromSerde _ _ _ _ (atFields h fs)).map _ = (fieldsFromSerde _ _ _ _ fs).map _
        rw [fieldsFromSerde_map (hfield fs e)]
        rfl
      | enum vs =>
        show (mapAll _ (vs.map (atVariant h))).map _ = (mapAll _ vs).map _
        obtain ⟨e1, e2⟩ := f3 vs e
        rw [mapAll_same (l := vs) fun v hv => ?_]
        · rfl
        · have hm := mem_variantAttrs (item := item) (v := v.original) (by rw [← e1]; exact List.mem_map_of_mem hv)
          exact variantFromSerde_map (hs _ hm.1) fun f hf =>
            hs _ (hm.2 _ (by rw [← e2 v hv]; exact List.mem_map_of_mem hf))
    have ht : transparentFromSerde S.toParsers M N (atContainer h c) = transparentFromSerde S.toParsers M N c := by
      unfold transparentFromSerde
      rw [show (atContainer h c).transparent = c.transparent.map (atField h) from rfl]
      cases e : c.transparent with
      | none => rfl
      | some f =>
        obtain ⟨fs, e1, e2⟩ := f4 f e
        show (fieldFromSerde _ _ _ _ (atField h f)).map some = (fieldFromSerde _ _ _ _ f).map some
        rw [fieldFromSerde_map (hfield fs e1 f e2)]
        rfl
    rw [ht]
    refine congrArg (fun k => Option.bind _ k) (funext fun m => ?_)
    rw [hd, commonOf_same (hs item.attrs (List.mem_cons_self ..))]
    rfl

/-! ### Success means that there are no errors -/

theorem ok_of {ε γ : Type} {x : Except ε γ} {y : γ} (e : ok? x = some y) : x = .ok y := by
  cases x with
  | ok z => cases e; rfl
  | error _ => cases e

theorem field_no_errors {a : SrcAttrs τ} {m : List (MetaItem τ) × FieldMeta τ} (e : ok? (deriveField ps a) = some m) :
    (processAttrs a).2 = [] := by
  have e := ok_of e
  unfold deriveField at e
  by_contra hne
  simp only at e
  rw [if_pos hne] at e
  cases e

theorem variant_no_errors {a : SrcAttrs τ} {m : List (MetaItem τ) × VariantMeta τ}
    (e : ok? (deriveVariant ps a) = some m) : (processAttrs a).2 = [] := by
  have e := ok_of e
  unfold deriveVariant at e
  by_contra hne
  simp only at e
  rw [if_pos hne] at e
  cases e

theorem container_no_errors {a : SrcAttrs τ} {isEnum : Bool} {m : List (MetaItem τ) × ContainerMeta τ}
    (e : ok? (deriveContainer ps isEnum a) = some m) : (processAttrs a).2 = [] := by
  have e := ok_of e
  unfold deriveContainer at e
  by_contra hne
  simp only at e
  rw [if_pos hne] at e
  cases e

theorem mapAll_each {γ δ : Type} {f : γ → Option δ} {l : List γ} {r : List δ} (e : mapAll f l = some r) :
    ∀ x ∈ l, ∃ y, f x = some y := by
  induction l generalizing r with
  | nil => intro x hx; cases hx
  | cons a l ih =>
    obtain ⟨y, hy, e⟩ := Option.bind_eq_some_iff.1 e
    obtain ⟨s, hs, _⟩ := Option.map_eq_some_iff.1 e
    intro x hx
    rcases List.mem_cons.1 hx with rfl | hx
    · exact ⟨y, hy⟩
    · exact ih hs x hx

theorem fields_no_errors {v : Option V} {fs : SerdeFields τ (SrcAttrs τ)} {x : Fields σ}
    (e : fieldsFromSerde ps M N v fs = some x) : ∀ f ∈ fs.list, (processAttrs f.original.attrs).2 = [] := by
  have hf : ∀ f y, fieldFromSerde ps M N v f = some y → (processAttrs f.original.attrs).2 = [] := by
    intro f y e
    obtain ⟨m, hm, _⟩ := Option.map_eq_some_iff.1 e
    exact field_no_errors hm
  cases fs with
  | unit => intro f h; cases h
  | newtype g =>
    obtain ⟨y, hy, _⟩ := Option.map_eq_some_iff.1 e
    intro f h
    cases List.mem_singleton.1 h
    exact hf _ _ hy
  | tuple l =>
    obtain ⟨y, hy, _⟩ := Option.map_eq_some_iff.1 e
    intro f h
    obtain ⟨z, hz⟩ := mapAll_each hy f h
    exact hf _ _ hz
  | struct l =>
    obtain ⟨y, hy, _⟩ := Option.map_eq_some_iff.1 e
    intro f h
    obtain ⟨z, hz⟩ := mapAll_each hy f h
    exact hf _ _ hz

/-- If something is derived, there is nothing to complain about in the attributes. -/
theorem derive_no_errors {item : SrcItem τ (SrcAttrs τ)} {d : DeriveInput σ} (hd : deriveItem S C M N item = some d) :
    ∀ a ∈ attrLists item, (processAttrs a).2 = [] := by
  obtain ⟨c, hc, hd⟩ := Option.bind_eq_some_iff.1 hd
  obtain ⟨m, hm, hd⟩ := Option.bind_eq_some_iff.1 hd
  obtain ⟨x, hx, _⟩ := Option.bind_eq_some_iff.1 hd
  obtain ⟨_, f2, f3, _⟩ := container_from hc
  have hkind : ∀ s, item.data = .struct s → ∃ fs, c.data = .struct fs := by
    intro s e
    obtain ⟨a, _, hc⟩ := Option.bind_eq_some_iff.1 hc
    obtain ⟨tag, _, hc⟩ := Option.bind_eq_some_iff.1 hc
    obtain ⟨y, hy, hc⟩ := Option.bind_eq_some_iff.1 hc
    obtain ⟨t, _, hc⟩ := Option.bind_eq_some_iff.1 hc
    rw [e] at hy
    obtain ⟨fs, _, rfl⟩ := Option.map_eq_some_iff.1 hy
    split at hc
    · cases hc
    · cases hc
      exact ⟨fs, rfl⟩
  unfold dataFromSerde at hx
  intro a ha
  rcases List.mem_cons.1 ha with rfl | ha
  · exact container_no_errors hm
  rcases List.mem_append.1 ha with ha | ha
  · obtain ⟨f, hf, rfl⟩ := List.mem_map.1 ha
    have : ∃ s, item.data = .struct s := by
      revert hf
      cases item.data with
      | struct s => exact fun _ => ⟨s, rfl⟩
      | enum vs => intro hf; cases hf
    obtain ⟨s, e⟩ := this
    obtain ⟨fs, e'⟩ := hkind s e
    rw [e'] at hx
    obtain ⟨y, hy, _⟩ := Option.map_eq_some_iff.1 hx
    rw [← f2 fs e'] at hf
    obtain ⟨g, hg, rfl⟩ := List.mem_map.1 hf
    exact fields_no_errors hy g hg
  · obtain ⟨v, hv, ha⟩ := List.mem_flatMap.1 ha
    cases e : c.data with
    | struct fs =>
      exfalso
      revert hv
      cases ei : item.data with
      | struct s => intro hv; cases hv
      | enum vs =>
        have hcc := hc
        obtain ⟨a, _, hc⟩ := Option.bind_eq_some_iff.1 hcc
        obtain ⟨tag, _, hc⟩ := Option.bind_eq_some_iff.1 hc
        obtain ⟨y, hy, hc⟩ := Option.bind_eq_some_iff.1 hc
        obtain ⟨t, _, hc⟩ := Option.bind_eq_some_iff.1 hc
        rw [ei] at hy
        obtain ⟨ws, _, rfl⟩ := Option.map_eq_some_iff.1 hy
        split at hc
        · cases hc
        · cases hc
          cases e
    | enum ws =>
      rw [e] at hx
      obtain ⟨y, hy, _⟩ := Option.map_eq_some_iff.1 hx
      obtain ⟨e1, e2⟩ := f3 ws e
      rw [← e1] at hv
      obtain ⟨w, hw, rfl⟩ := List.mem_map.1 hv
      obtain ⟨z, hz⟩ := mapAll_each hy w hw
      obtain ⟨mv, hmv, hz⟩ := Option.bind_eq_some_iff.1 hz
      obtain ⟨fs, hfs, _⟩ := Option.map_eq_some_iff.1 hz
      rcases List.mem_cons.1 ha with rfl | ha
      · exact variant_no_errors hmv
      · obtain ⟨f, hf, rfl⟩ := List.mem_map.1 ha
        rw [← e2 w hw] at hf
        obtain ⟨g, hg, rfl⟩ := List.mem_map.1 hf
        exact fields_no_errors hfs g hg

end

/-! ### The theorems -/

section
variable {S : Syntax τ} {C : Cases} {M : Meaning τ σ} {N : Values τ V}

/-- C71: schemars attributes behave like serde attributes. If there is nothing to complain about in them, what is
derived is the same as if they were written as serde attributes, in place of those that they override or unset. -/
theorem C71_same {item : SrcItem τ (SrcAttrs τ)} (hm : MovableItem item)
    (he : ∀ a ∈ attrLists item, (processAttrs a).2 = []) :
    deriveItem S C M N (mapItem settled item) = deriveItem S C M N item :=
  deriveItem_map (fun a ha => settled_same (hm.attrs a ha) (he a ha)) fun _ =>
    settled_container (hm.attrs _ (List.mem_cons_self ..)) hm.rename (he _ (List.mem_cons_self ..))

/-- C71 for what is derived without errors. -/
theorem C71 {item : SrcItem τ (SrcAttrs τ)} (hm : MovableItem item) {d : DeriveInput σ}
    (h : deriveItem S C M N item = some d) : deriveItem S C M N (mapItem settled item) = some d := by
  rw [C71_same hm (derive_no_errors h), h]

/-- Afterwards the schemars attributes say nothing in the words of serde. -/
theorem C71_settled (attrs : SrcAttrs τ) : has serdeWords (schemarsOf (settled attrs)) = false ∧
    serdeOf (settled attrs) = effective attrs := by
  refine ⟨?_, serdeOf_settled attrs⟩
  rw [schemarsOf_settled]
  refine List.any_eq_false.2 fun i hi => ?_
  simpa using (List.mem_filter.1 hi).2

/-- If nothing replaces schemas or serde's functions, the settled attributes leave it to serde how values are written
and read. -/
theorem C71_left {attrs : SrcAttrs τ}
    (h1 : has ["with", "schema_with", "serialize_with", "deserialize_with", "required", "_unstable_ref_variants"]
      (schemarsOf attrs) = false) (h2 : has replacing (effective attrs) = false)
    (h3 : ∀ i ∈ validateOf attrs, i.negated = false ∧ isNamed ["required"] i = false)
    (h4 : has ["required"] (gardeOf attrs) = false) : Undisturbed (settled attrs) where
  schemars := by
    rw [schemarsOf_settled]
    refine List.any_eq_false.2 fun i hi => ?_
    obtain ⟨hi, hn⟩ := List.mem_filter.1 hi
    have hn : isNamed serdeWords i = false := by simpa using hn
    have hm := not_named h1 hi
    cases hk : i.ident with
    | none => simp [isNamed, hk]
    | some k =>
      have a1 := isNamed_some hn hk
      have a2 := isNamed_some hm hk
      simp only [isNamed, hk, Option.any_some, List.contains_iff_mem]
      intro hd
      rcases List.mem_append.1 hd with hd | hd
      · exact a1 hd
      · exact a2 hd
  serde := by rw [serdeOf_settled]; exact h2
  validate := by rw [← validateItems_eq, (others_settled attrs).1, validateItems_eq]; exact h3
  garde := by rw [← gardeItems_eq, (others_settled attrs).2.1, gardeItems_eq]; exact h4

/-- A program from which something is derived, and the same program with settled attributes. -/
theorem C71_derives {d : SrcDecl τ σ} (hm : ∀ i, d = .item i → MovableItem i) {x : Decl σ} (h : Derives S C M N d x) :
    Derives S C M N (settledDecl d) x := by
  cases d with
  | std s => exact h
  | item i =>
    obtain ⟨y, hy, e⟩ := h
    exact ⟨y, C71 (hm i rfl) hy, e⟩

variable {w : Nat} {src : σ → SrcDecl τ σ} {decl view : σ → Decl σ} {D : Dialect} {env : Env} {Γ : σ → TypeDef σ}
  {I : TypeInfo σ}

/-- C71 with C45 (`_partial` as `C70_accepts_partial`): the root schema accepts what serde writes for the program in
which the schemars attributes are written as serde attributes. -/
theorem C71_accepts_partial (hm : ∀ t i, src t = .item i → MovableItem i)
    (hsrc : ∀ t i, settledDecl (src t) = .item i → LeftToSerde i ∧ SameWays i ∧ Untagged i)
    (hd : ∀ t, Derives S C M N (src t) (decl t))
    (hv : ∀ t, Seen S C M.type .serialize (settledDecl (src t)) (view t))
    (hM : Modern D env) (hG : Declared Γ decl I) (hok : ∀ t, WideDecl decl I (decl t))
    (hn : ∀ t, ∀ f ∈ declFields (decl t), f.validation = .noAttrs) {n : Nat} {t : σ}
    {st : Settings} {r : Json} {g' : Gen σ} (h : rootSchemaFor Γ (run Γ n) t (Gen.new st) = some (r, g'))
    (hst : st.transforms = []) (hser : st.contract = .serialize) {k : String} (hk : k = "$defs" ∨ k = "definitions")
    (hpath : PathDenotes st.definitionsPath [k]) (hfree : g'.defs ≠ [] → ∃ ds, At r [k] (.obj ds))
    (hplain : ∀ name d, Obj.get g'.defs name = some d → PlainName name) (hR : Resolves D env r) {j : Json}
    (hj : Serialized w I.base view t j) : Valid D env r j :=
  C70_accepts_partial hsrc (fun t => C71_derives (hm t) (hd t)) hv hM hG hok hn h hst hser hk hpath hfree hplain hR hj

/-- C71 with C64 (`_partial` as `C70_readable_partial`): the root schema accepts what serde reads in a documented form
for the program in which the schemars attributes are written as serde attributes. -/
theorem C71_readable_partial {q : Quirks σ} (hm : ∀ t i, src t = .item i → MovableItem i)
    (hsrc : ∀ t i, settledDecl (src t) = .item i → LeftToSerde i) (hd : ∀ t, Derives S C M N (src t) (decl t))
    (hv : ∀ t, Seen S C M.type .deserialize (settledDecl (src t)) (view t))
    (hM : Modern D env) (hx : DecimalInputRx env) (hq : Documented q) (hG : Declared Γ decl I)
    (ho : OptionsKnown decl I) (hok : ∀ t, ReadOk false q.lenient decl I.base (decl t))
    (hn : ∀ t, ∀ f ∈ declFields (decl t), f.validation = .noAttrs) {n : Nat} {t : σ}
    {st : Settings} {r : Json} {g' : Gen σ} (h : rootSchemaFor Γ (run Γ n) t (Gen.new st) = some (r, g'))
    (hst : st.transforms = []) (hde : st.contract = .deserialize) {k : String} (hk : k = "$defs" ∨ k = "definitions")
    (hpath : PathDenotes st.definitionsPath [k]) (hfree : g'.defs ≠ [] → ∃ ds, At r [k] (.obj ds))
    (hplain : ∀ name d, Obj.get g'.defs name = some d → PlainName name) (hR : Resolves D env r) {j : Json}
    (hj : j.WF) (hr : Read w q I.base view t j) : Valid D env r j :=
  C70_readable_partial hsrc (fun t => C71_derives (hm t) (hd t)) hv hM hx hq hG ho hok hn h hst hde hk hpath hfree
    hplain hR hj hr

/-- C71 with C65 (`_partial` as `C70_reads_partial`): serde reads what the root schema accepts, for the program in
which the schemars attributes are written as serde attributes. -/
theorem C71_reads_partial {q : Quirks σ} (hm : ∀ t i, src t = .item i → MovableItem i)
    (hsrc : ∀ t i, settledDecl (src t) = .item i → LeftToSerde i) (hd : ∀ t, Derives S C M N (src t) (decl t))
    (hv : ∀ t, Seen S C M.type .deserialize (settledDecl (src t)) (view t))
    (hM : Modern D env) (hw : 32 ≤ w) (hq : Documented q) (hG : Declared Γ decl I)
    (ho : OptionsKnown decl I) (hg : Grounded I.base decl) (hok : ∀ t, ReadOk true q.lenient decl I.base (decl t))
    {n : Nat} {t : σ}
    {st : Settings} {r : Json} {g' : Gen σ} (h : rootSchemaFor Γ (run Γ n) t (Gen.new st) = some (r, g'))
    (hst : st.transforms = []) (hde : st.contract = .deserialize) {k : String} (hk : k = "$defs" ∨ k = "definitions")
    (hpath : PathDenotes st.definitionsPath [k]) (hfree : g'.defs ≠ [] → ∃ ds, At r [k] (.obj ds))
    (hplain : ∀ name d, Obj.get g'.defs name = some d → PlainName name) (hR : Resolves D env r) {j : Json}
    (hj : j.WF) (hn : SmallNumbers j) (hv' : Valid D env r j) : Read w q I.base view t j :=
  C70_reads_partial hsrc (fun t => C71_derives (hm t) (hd t)) hv hM hw hq hG ho hg hok h hst hde hk hpath hfree hplain
    hR hj hn hv'

end

/-! ### Examples -/

namespace SettledEx
open AttrMetaEx ItemEx SourceEx

/-- `#[serde(rename_all = …)] #[schemars(!rename_all)] struct Node { #[serde(rename = "v")] #[schemars(rename =
"value")] v: u32, #[serde(skip)] #[schemars(!skip)] next: Option<Box<Node>> }`: the schema is not the one of what serde
writes, but the one for the attributes in effect. -/
def node : SrcItem String (SrcAttrs String) where
  ident := "Node"
  attrs := [.serde (some [text "rename_all" "camelCase"]), .schemars (some [unset "rename_all"])]
  data := .struct (.named
    [⟨"v", "u32", [.serde (some [text "rename" "v"]), .schemars (some [text "rename" "value"])]⟩,
     ⟨"next", "Option<Box<Node>>", [.serde (some [flag "skip"]), .schemars (some [unset "skip"])]⟩])

def program : NodeTy → SrcDecl String NodeTy
  | .unit => .std (.simple "null")
  | .u32 => .std (.int .u32)
  | .next => .std (.option .node)
  | .node => .item node

theorem movable : MovableItem node where
  attrs a ha := by
    have hu : ∀ k, k ∈ serdeWords → k ≠ "bound" → ∀ l : List (MetaItem String),
        Movable [.serde (some l), .schemars (some [unset k])] := fun k hk hb l => by
      refine ⟨?_, fun i hi _ => ?_⟩
      · show ((decide (k = "bound") || false) || false) = false
        simp [hb]
      · rw [show i = unset k from List.mem_singleton.1 hi]
        simpa [isNamed, unset] using hk
    rcases List.mem_cons.1 ha with rfl | ha
    · exact hu "rename_all" (by decide) (by decide) _
    rcases List.mem_cons.1 ha with rfl | ha
    · exact ⟨by decide, fun i hi hn => by rw [show i = text "rename" "value" from List.mem_singleton.1 hi] at hn; cases hn⟩
    · rw [List.mem_singleton.1 ha]
      exact hu "skip" (by decide) (by decide) _
  rename := by decide

theorem derives (t : NodeTy) : Derives lang cases nodeMeaning values (program t) (NodeTy.decl t) := by
  cases t
  case node => exact ⟨_, rfl, rfl⟩
  all_goals rfl

theorem effective_eq {attrs : SrcAttrs String} {l : List (MetaItem String)}
    (h : serdeItems (processAttrs attrs).1 = l) : effective attrs = l := (serdeItems_process attrs).symm.trans h

theorem left : LeftToSerde (mapItem settled node) where
  container := C71_left (by decide) (by rw [effective_eq (l := []) (by rfl)]; rfl) (fun _ h => by cases h) rfl
  fields f hf := by
    rcases List.mem_cons.1 hf with rfl | hf
    · exact C71_left (by decide) (by rw [effective_eq (l := [text "rename" "value"]) (by rfl)]; decide)
        (fun _ h => by cases h) rfl
    · rw [List.mem_singleton.1 hf]
      exact C71_left (by decide) (by rw [effective_eq (l := []) (by rfl)]; rfl) (fun _ h => by cases h) rfl
  variants v hv := by cases hv

theorem seen (t : NodeTy) : Seen lang cases nodeMeaning.type .serialize (settledDecl (program t)) (NodeTy.decl t) := by
  cases t
  case node =>
    have hc : ∃ c, serdeContainer lang cases (fun attrs => serdeItems (processAttrs attrs).1) .serialize node = some c ∧
        NodeTy.decl .node = .derived (shape nodeMeaning.type .serialize (atContainer (settled (τ := String)) c)) :=
      ⟨_, rfl, rfl⟩
    obtain ⟨c, h1, h2⟩ := hc
    refine ⟨_, ?_, h2⟩
    rw [serdeContainer_map (get := fun attrs => serdeItems (processAttrs attrs).1) fun a _ => by
      rw [serdeOf_settled, serdeItems_process], h1]
    rfl
  all_goals rfl

/-- C71 is not vacuous: the schema accepts what serde writes if the attributes are settled. -/
example : ∃ env : Env, Resolves draft2020 env NodeTy.schema ∧
    Serialized 64 NodeTy.info.base NodeTy.decl .node NodeTy.document ∧
    Valid draft2020 env NodeTy.schema NodeTy.document := by
  obtain ⟨f, hf⟩ := resolves_self (D := draft2020) (env := digitEnv) (doc := NodeTy.schema) (by decide)
  obtain ⟨g', h, hd⟩ := NodeTy.generates
  have hm : ∀ t i, program t = .item i → MovableItem i := by
    intro t i h
    cases t
    case node => cases h; exact movable
    all_goals cases h
  have hsrc : ∀ t i, settledDecl (program t) = .item i → LeftToSerde i ∧ SameWays i ∧ Untagged i := by
    intro t i h
    cases t
    case node =>
      cases h
      refine ⟨left, fun h => ?_, fun _ => ?_⟩
      · rw [show serdeOf (mapItem settled node).attrs = [] from
          (serdeOf_settled _).trans (effective_eq (l := []) (by rfl))] at h
        cases h
      · rw [show serdeOf (mapItem settled node).attrs = [] from
          (serdeOf_settled _).trans (effective_eq (l := []) (by rfl))]
        rfl
    all_goals cases h
  exact ⟨_, hf, NodeTy.written, C71_accepts_partial (k := "$defs") hm hsrc derives seen (modern_digitEnv f)
    NodeTy.declared (fun t => .inl (NodeTy.ok t)) NodeTy.unvalidated h rfl rfl (.inl rfl) rfl (fun h => absurd hd h)
    (fun _ _ h => by rw [hd] at h; cases h) hf NodeTy.written⟩

/-- `#[schemars(rename = "A{T}")] struct A;` -/
def renamed : SrcItem String (SrcAttrs String) where
  ident := "A"
  attrs := [.schemars (some [text "rename" "A{T}"])]
  data := .struct .unit

/-- The condition on `rename` is needed: in a schemars attribute it is a format for the name, in a serde attribute it is
the name. -/
theorem C71_rename : (deriveItem lang cases { meaning with format := fun _ => "A_for_u32" } values renamed).map
      (·.schemaName) = some "A_for_u32" ∧
    (deriveItem lang cases { meaning with format := fun _ => "A_for_u32" } values (mapItem settled renamed)).map
      (·.schemaName) = some "A{T}" := by
  refine ⟨by decide +kernel, ?_⟩
  rw [show mapItem settled renamed = ⟨"A", .struct .unit, [.schemars (some []), .serde (some [text "rename" "A{T}"])]⟩ by
    unfold mapItem settled
    rw [effective_eq (l := [text "rename" "A{T}"]) (by rfl)]
    rfl]
  decide +kernel

end SettledEx

end Verif
