import Verif.Props.ReadsWide

/-!
# Structs with a flattened map and what serde reads

The map gets the members that the other fields leave, and the schema of its values is that of additional members.
-/

namespace Verif
open Spec

variable {τ : Type}

section
variable {D : Dialect} {env : Env} {P : τ → Json → Prop} {decl : τ → Decl τ} {I : TypeInfo τ}
  {A : Answers τ} {w : Nat} {q : Quirks τ} {j s : Json} {b : Bool}

/-! ### The schema -/

/-- The schema with a schema for additional members accepts what both accept. -/
theorem Shape.valid_restOf {m p : List (String × Json)} {r : List String} {v : Json} (h : Shape m p r false)
    (hne : v ≠ .bool false) {o : List (String × Json)} (hv : Valid D env (.obj (withRest m v)) (.obj o)) :
    Valid D env (.obj m) (.obj o) ∧ ∀ e ∈ o, Obj.get p e.1 = none → Valid D env v e.2 := by
  unfold withRest at hv
  rw [if_neg hne] at hv
  have hget : ∀ k, k ≠ "additionalProperties" → Obj.get (Obj.insert m "additionalProperties" v) k = Obj.get m k :=
    fun k hk => Obj.get_insert_ne _ _ (Ne.symm hk)
  have hs : Obj.Sorted (Obj.insert m "additionalProperties" v) := Obj.sorted_insert h.sorted _ _
  have hnr : Obj.get (Obj.insert m "additionalProperties" v) "$ref" = none := by
    rw [hget _ (by decide)]; exact h.other _ (by decide) (by decide)
  have hp' : PropsAre (Obj.insert m "additionalProperties" v) p := h.props.congr (hget _ (by decide))
  rw [valid_get (.inr hnr) hs] at hv
  refine ⟨h.valid.2 ⟨o, rfl, fun n hn => ?_, fun e he s hps => ?_, fun hd => by cases hd⟩, fun e he hn => ?_⟩
  · rcases h.req with ⟨-, rfl⟩ | hr
    · cases hn
    · have := hv "required" _ (by rw [hget _ (by decide)]; exact hr)
      rw [entryOk_required] at this
      exact this o rfl n hn
  · rcases h.props with ⟨-, rfl⟩ | hp
    · cases hps
    · have := hv "properties" _ (by rw [hget _ (by decide)]; exact hp)
      rw [entryOk_properties] at this
      exact this e he s hps
  · have := hv "additionalProperties" v (by rw [Obj.get_insert_self])
    refine this e he ?_
    rintro (hc | ⟨pat, hc, -⟩)
    · rw [hp'.memb] at hc
      unfold Obj.has at hc
      rw [hn] at hc; cases hc
    · have hn' : Obj.get (Obj.insert m "additionalProperties" v) "patternProperties" = none := by
        rw [hget _ (by decide)]; exact h.other _ (by decide) (by decide)
      unfold memb at hc
      rw [hn'] at hc; cases hc

theorem Shape.rest_object {m p : List (String × Json)} {r : List String} {v i : Json} (h : Shape m p r false)
    (hv : Valid D env (.obj (withRest m v)) i) : ∃ o, i = .obj o := by
  unfold withRest at hv
  split at hv
  · obtain ⟨o, rfl, -⟩ := h.valid.1 hv; exact ⟨o, rfl⟩
  have hget : ∀ k, k ≠ "additionalProperties" → Obj.get (Obj.insert m "additionalProperties" v) k = Obj.get m k :=
    fun k hk => Obj.get_insert_ne _ _ (Ne.symm hk)
  rw [valid_get (.inr (by rw [hget _ (by decide)]; exact h.other _ (by decide) (by decide)))
    (Obj.sorted_insert h.sorted _ _)] at hv
  have := hv "type" _ (by rw [hget _ (by decide)]; exact h.type)
  rwa [entryOk_type (by rw [hget _ (by decide)]; exact h.other _ (by decide) (by decide)), typeMatch_object] at this

theorem inputNames_split {base : τ → τ} {as bs : List (Field τ)} {ns ms : List String}
    (h : InputNames decl base (as ++ bs) ns ms) : ∃ ns1 ms1, InputNames decl base as ns1 ms1 := by
  induction as generalizing ns ms with
  | nil => exact ⟨[], [], .nil⟩
  | cons f as ih =>
    cases h with
    | skip h1 h2 => obtain ⟨n1, m1, h⟩ := ih h2; exact ⟨_, _, .skip h1 h⟩
    | own h1 h2 h3 => obtain ⟨n1, m1, h⟩ := ih h3; exact ⟨_, _, .own h1 h2 h⟩
    | flat h1 h2 h3 h4 h5 h6 => obtain ⟨n1, m1, h⟩ := ih h6; exact ⟨_, _, .flat h1 h2 h3 h4 h5 h⟩

/-! ### Schemas that are not `false` -/

theorem addField_obj {cd : Bool} {ct : Contract} (m : List (String × Json)) (e : Field τ × Json) :
    ∃ m', addField I cd ct (.obj m) e = .obj m' := by
  unfold addField
  split
  · unfold flatten
    split
    · exact ⟨_, rfl⟩
    · simp only; split <;> exact ⟨_, rfl⟩
    · exact ⟨_, rfl⟩
    · exact ⟨_, rfl⟩
  · exact ⟨_, rfl⟩

theorem struct_obj {cd deny : Bool} {fs : List (Field τ)} (h : Returns A (structProg I fs cd deny) s) :
    ∃ m, s = .obj m := by
  obtain ⟨mi, ei, -⟩ := shape_start deny
  unfold structProg at h
  rw [ei, returns_structFields] at h
  obtain ⟨es, -, -, rfl⟩ := h
  clear ei
  induction es generalizing mi with
  | nil => exact ⟨mi, rfl⟩
  | cons e es ih =>
    obtain ⟨m1, e1⟩ := addField_obj (I := I) (cd := cd) (ct := A.settings.contract) mi e
    rw [List.foldl_cons, e1]
    exact ih m1

theorem std_solid {x : Std τ} (h : Returns A (stdBody x) s) : s ≠ .bool false := by
  cases x with
  | option t =>
    obtain ⟨s1, -, h⟩ := h
    cases h
    unfold allowNull
    split
    · split
      · simp
      · split <;> simp
    · simp
    · simp [nullSchema]
    · assumption
  | tuple l => obtain ⟨r, -, h⟩ := returns_subAll h; cases h; simp [tupleImpl, mkObj]
  | map k v =>
    obtain ⟨s1, -, s2, -, d, -, h⟩ := h
    cases h
    unfold mapSchema
    split
    · simp [mapFrom]
    · simp [mkObj]
  | value => cases h; simp
  | int t => cases h; cases t <;> exact nofun
  | simple | formatted | char | emptyArray | duration | systemTime | osString => cases h; exact nofun
  | nonZero t => cases h; unfold nonZeroSchema; cases t <;> exact nofun
  | seq | set | array | range => obtain ⟨s1, -, h⟩ := h; cases h; exact nofun
  | result | bound | either => obtain ⟨s1, -, s2, -, h⟩ := h; cases h; exact nofun
  | cString => cases h; exact nofun
  | bytes => obtain ⟨s1, -, h⟩ := h; cases h; exact nofun
  | decimal => cases h; unfold decimalSchema; split <;> exact nofun

theorem annotate_obj {l : List (Json → Json)} (hl : ∀ f ∈ l, Annotates f) (m : List (String × Json)) :
    ∃ m', runMutators l (.obj m) = .obj m' := by
  unfold runMutators
  induction l generalizing m with
  | nil => exact ⟨m, rfl⟩
  | cons f l ih =>
    rw [List.foldl_cons]
    rcases hl f List.mem_cons_self with ⟨k, -, v, e⟩ | e
    · rw [e]; exact ih (fun g hg => hl g (List.mem_cons_of_mem _ hg)) _
    · rw [e]; exact ih (fun g hg => hl g (List.mem_cons_of_mem _ hg)) _

theorem solid_not_false (hA : Comes decl I A) {t : τ} (hs : Solid (decl t)) (h : Returns A (bodyOf I (decl t)) s) :
    s ≠ .bool false := by
  cases hd : decl t with
  | std x => rw [hd] at h; exact std_solid h
  | derived c =>
    rw [hd] at h hs
    obtain ⟨hh, hw, ht, hf, hdata⟩ := hs
    have h : Returns A (containerProg I c) s := h
    unfold containerProg at h
    rw [hw, ht, hf] at h
    simp only at h
    obtain ⟨s1, h1, rfl⟩ := res_map.1 h
    have h3 : Returns A (dataProg I c) s1 := by
      cases hi : c.intoTy with
      | none => rw [hi] at h1; exact h1
      | some u => rw [hi] at h1; simp only [Returns, hA.de] at h1; exact h1
    suffices ∃ m, s1 = .obj m by
      obtain ⟨m, rfl⟩ := this
      obtain ⟨m', e⟩ := annotate_obj hh.annotates m
      rw [e]; exact nofun
    unfold dataProg at h3
    cases hc : c.data with
    | struct fields =>
      rw [hc] at h3 hdata
      cases fields with
      | unit => obtain ⟨s2, h2, h3⟩ := h3; cases h3; rw [hA.unit _ h2]; exact ⟨_, rfl⟩
      | newtype f => exact hdata.elim
      | tuple fs =>
        obtain ⟨rs, -, h3⟩ := (res_collect _ _ _).1 h3
        cases h3
        exact ⟨_, rfl⟩
      | struct fs => exact struct_obj h3
    | enum tag vs =>
      rw [hc] at h3 hdata
      have hv : vs.isEmpty = false := by cases vs with | nil => exact absurd rfl hdata | cons => rfl
      have variants : ∀ {u first l}, Returns A (variantSubschemas u first l) s1 → ∃ m, s1 = .obj m := by
        intro u first l h
        obtain ⟨rs, -, h⟩ := (res_collect _ _ _).1 h
        cases h
        exact ⟨_, rfl⟩
      have h3 : Returns A (enumProg I tag vs c.denyUnknownFields) s1 := h3
      unfold enumProg at h3
      rw [hv] at h3
      simp only [Bool.false_eq_true, if_false] at h3
      cases tag with
      | external =>
        have h3 : Returns A (externalEnumProg I vs c.denyUnknownFields) s1 := h3
        unfold externalEnumProg at h3
        simp only at h3
        split at h3
        · cases h3; exact ⟨_, rfl⟩
        · exact variants h3
      | internal => exact variants h3
      | adjacent => exact variants h3
      | none => exact variants h3

/-- The schema of a flattened map: that of any object whose members the schema of the values accepts. -/
def RestOf (D : Dialect) (env : Env) (exact : Bool) (v s : Json) : Prop :=
  (∀ o, Valid D env s (.obj o) ↔ ∀ e ∈ o, Valid D env v e.2) ∧ (exact = true → v ≠ .bool false) ∧
  (v = .bool true ∨ s = .obj [("additionalProperties", v), ("type", .str "object")]) ∧
  ∀ {m p : List (String × Json)} {r : List String} (b : Bool), Shape m p r false →
    flatten (.obj m) (flattenInner s b) = .obj (withRest m v)

theorem mapFrom_any (v : Json) : mapFrom [.any] v = .obj [("additionalProperties", v), ("type", .str "object")] := rfl

theorem textKey_from (hA : Comes decl I A) {k : τ} {ks : Json} (hk : TextKey (decl k))
    (h : A.direct k ks) (path : List Char) (d : List (String × Json)) (v : Json) :
    mapSchema path d ks v = mapFrom [.any] v := by
  refine textKey_use (I := I) (decl := decl) (F := Comes decl I) (A := A) (fun A hA t s h => ?_) hA hk h path d v
  obtain ⟨A', h1, h2⟩ := (hA.ran t s h).run
  exact ⟨A', h1, h2⟩

theorem rest_of (hA : Comes decl I A) {exact sw : Bool} {f : Field τ} (hf : RestInput exact sw decl I.base f)
    (h : A.direct (I.base f.ty) s) : ∃ v, RestOf D env exact v s := by
  obtain ⟨A', hA', hb⟩ := (hA.ran _ _ h).run
  rcases hf.type with hd | ⟨k, t, hd, hk, hsol⟩
  · rw [hd] at hb
    cases hb
    refine ⟨.bool true, fun o => ?_, fun _ => by simp, .inl rfl, fun b hs => hs.flattenValue b⟩
    simp [Valid, den, R.pass]
  · rw [hd] at hb
    obtain ⟨ks, h1, vs, h2, d, h3, rfl⟩ := hb
    rw [textKey_from hA' hk h1]
    refine ⟨vs, fun o => ?_, fun he => ?_, .inr rfl, fun b hs => hs.flattenMap vs b⟩
    · rw [valid_mapFrom]
      constructor
      · rintro ⟨o', e, h⟩ x hx; cases e; exact (h x hx).2
      · exact fun h => ⟨o, rfl, fun e he => ⟨.inl (List.mem_singleton.2 rfl), h e he⟩⟩
    · rcases hA'.ranSub _ _ h2 with hfb | ⟨r, rfl⟩
      · obtain ⟨A2, hA2, h4⟩ := hfb.run
        exact solid_not_false hA2 (hsol he) h4
      · exact nofun

/-- The schema is that of the struct without the map, with a schema for additional members. -/
theorem rest_run (hA : Comes decl I A) {exact sw cd : Bool} {as bs : List (Field τ)} {f : Field τ} {ns ms : List String}
    (hf : RestInput exact sw decl I.base f) (hbs : ∀ g ∈ bs, g.skipDe = false → g.flatten = false)
    (hn : InputNames decl I.base (as ++ bs) ns ms) (h : Returns A (structProg I (as ++ f :: bs) cd false) s) :
    ∃ m v sf, Returns A (structProg I (as ++ bs) cd false) (.obj m) ∧ s = .obj (withRest m v) ∧
      A.direct (I.base f.ty) sf ∧ RestOf D env exact v sf := by
  obtain ⟨mi, ei, -⟩ := shape_start false
  obtain ⟨ns1, ms1, hn1⟩ := inputNames_split hn
  have hde := hA.de
  have hpres : present (as ++ f :: bs) A.settings.contract =
      present as A.settings.contract ++ f :: present bs A.settings.contract := by
    unfold present
    rw [List.filter_append, List.filter_cons_of_pos (by rw [hde]; exact decide_eq_true hf.present)]
  unfold structProg at h
  rw [ei, returns_structFields, hpres] at h
  obtain ⟨es, e1, h1, rfl⟩ := h
  obtain ⟨es1, es', rfl, ea, eb⟩ := List.map_eq_append_iff.1 e1
  obtain ⟨e, es2, rfl, ef, eb2⟩ := List.map_eq_cons_iff.1 eb
  have run : ∀ {fs : List (Field τ)} {es : List (Field τ × Json)}, es.map Prod.fst = present fs A.settings.contract →
      (∀ e ∈ es, FieldResult A I cd e.1 e.2) → ∀ {r}, es.foldl (addField I cd A.settings.contract) (.obj mi) = r →
      Returns A (structProg I fs cd false) r := by
    intro fs es h1 h2 r h3
    unfold structProg
    rw [ei, returns_structFields]
    exact ⟨es, h1, h2, h3.symm⟩
  have ha := run ea (fun e he => h1 e (List.mem_append_left _ he)) rfl
  obtain ⟨m1, p1, r1, e3, hs1, -⟩ := input_struct hn1 hA.de hA.ran ha
  have hfr := h1 e (List.mem_append_right _ (List.mem_cons_self ..))
  subst ef
  obtain ⟨sf, hd, e2⟩ := returns_flattenField hf.flat hfr
  obtain ⟨v, hv⟩ := rest_of (D := D) (env := env) hA hf hd
  have hflat : ∀ e ∈ es2, e.1.flatten = false := by
    intro e he
    have : e.1 ∈ present bs A.settings.contract := by rw [← eb2]; exact List.mem_map_of_mem he
    rw [hde] at this
    obtain ⟨h3, h4⟩ := mem_readPresent.1 this
    exact hbs _ h3 h4
  obtain ⟨m2, e4, e5⟩ := rest_after (v := v) (I := I) (cd := cd) es2 hflat A.settings.contract hs1
  refine ⟨m2, v, sf, run (es := es1 ++ es2) ?_ ?_ ?_, ?_, hd, hv⟩
  · unfold present at ea eb2 ⊢
    rw [List.map_append, ea, eb2, List.filter_append]
  · intro e he
    rcases List.mem_append.1 he with he | he
    · exact h1 e (List.mem_append_left _ he)
    · exact h1 e (List.mem_append_right _ (List.mem_cons_of_mem _ he))
  · rw [List.foldl_append, e3, e4]
  · rw [List.foldl_append, List.foldl_cons, e3]
    have : addField I cd A.settings.contract (.obj m1) e = .obj (withRest m1 v) := by
      unfold addField
      rw [if_pos hf.flat, e2]
      exact hv.2.2.2 _ hs1
    rw [this, e5]

/-! ### What is read -/

theorem rest_wants {exact sw : Bool} {f : Field τ} {base : τ → τ} (hf : RestInput exact sw decl base f) :
    share q decl (base f.ty) = .all := by
  unfold share
  rcases hf.type with h | ⟨k, v, h, -⟩ <;> rw [h]

theorem rest_notNull {exact sw : Bool} {f : Field τ} {base : τ → τ} (hf : RestInput exact sw decl base f) :
    ¬ NullType decl (base f.ty) := by
  rintro (h | ⟨c, h, -⟩)
  · rcases hf.type with h' | ⟨k, v, h', -⟩ <;> rw [h'] at h <;> cases h
  · rcases hf.type with h' | ⟨k, v, h', -⟩ <;> rw [h'] at h <;> cases h

theorem flattened_append {base : τ → τ} {as bs : List (Field τ)} {o o' : List (String × Json)} :
    ReadFlattened q P base decl (as ++ bs) o o' ↔
      ∃ o1, ReadFlattened q P base decl as o o1 ∧ ReadFlattened q P base decl bs o1 o' := by
  constructor
  · intro h
    induction as generalizing o with
    | nil => exact ⟨o, .nil, h⟩
    | cons f as ih =>
      cases h with
      | pass h1 h2 => obtain ⟨o1, h3, h4⟩ := ih h2; exact ⟨o1, .pass h1 h3, h4⟩
      | part h1 h2 h3 h4 => obtain ⟨o1, h5, h6⟩ := ih h4; exact ⟨o1, .part h1 h2 h3 h5, h6⟩
      | one h1 h2 h3 h4 h5 h6 h7 => obtain ⟨o1, h8, h9⟩ := ih h7; exact ⟨o1, .one h1 h2 h3 h4 h5 h6 h8, h9⟩
      | none h1 h2 h3 h4 h5 h6 => obtain ⟨o1, h7, h8⟩ := ih h6; exact ⟨o1, .none h1 h2 h3 h4 h5 h7, h8⟩
  · rintro ⟨o1, h1, h2⟩
    induction h1 with
    | nil => exact h2
    | pass h1 _ ih => exact .pass h1 (ih h2)
    | part h1 h3 h4 _ ih => exact .part h1 h3 h4 (ih h2)
    | one h1 h3 h4 h5 h6 h7 _ ih => exact .one h1 h3 h4 h5 h6 h7 (ih h2)
    | none h1 h3 h4 h5 h6 _ ih => exact .none h1 h3 h4 h5 h6 (ih h2)

/-- The flattened map is read from what is left. -/
theorem flattened_rest {exact sw : Bool} {base : τ → τ} {as bs : List (Field τ)} {f : Field τ}
    (hf : RestInput exact sw decl base f) (hbs : ∀ g ∈ bs, g.skipDe = false → g.flatten = false)
    {o left : List (String × Json)} :
    ReadFlattened q P base decl (as ++ f :: bs) o left ↔ ReadFlattened q P base decl (as ++ bs) o left ∧
      (P (base f.ty) (.obj left) ∨
        (f.required = false ∧ (∃ u, decl f.ty = .std (.option u)) ∧ (left = [] ∨ q.lenient = true))) := by
  have hw : wants q decl (base f.ty) = none := by unfold wants; rw [rest_wants hf]
  have hseen : ∀ o, seen q decl (base f.ty) o = o := fun o => by unfold seen; rw [hw]
  have hleave : ∀ o, leave q decl (base f.ty) o = o := fun o => by unfold leave; rw [hw]
  have own : ∀ {o o'}, ReadFlattened q P base decl bs o o' ↔ o' = o := by
    intro o o'
    constructor
    · intro h
      induction h with
      | nil => rfl
      | pass _ _ ih => exact ih fun g hg => hbs g (List.mem_cons_of_mem _ hg)
      | part h1 h2 => rw [hbs _ List.mem_cons_self h1] at h2; cases h2
      | one h1 h2 => rw [hbs _ List.mem_cons_self h1] at h2; cases h2
      | none h1 h2 => rw [hbs _ List.mem_cons_self h1] at h2; cases h2
    · rintro rfl; exact flattened_none hbs
  rw [flattened_append, flattened_append]
  simp only [own]
  constructor
  · rintro ⟨o1, h1, h2⟩
    cases h2 with
    | pass h => simp [hf.present, hf.flat] at h
    | part _ _ h3 h4 =>
      rw [hleave, own] at h4; subst h4
      rw [hseen] at h3
      exact ⟨⟨_, h1, rfl⟩, .inl (h3.resolve_right (rest_notNull hf))⟩
    | one _ _ h => rw [rest_wants hf] at h; cases h
    | none _ _ h3 h4 h5 h6 =>
      rw [hleave, own] at h6; subst h6
      rw [hseen] at h5
      exact ⟨⟨_, h1, rfl⟩, .inr ⟨h3, ⟨_, h4⟩, h5⟩⟩
  · rintro ⟨⟨o1, h1, rfl⟩, h2⟩
    refine ⟨left, h1, ?_⟩
    rcases h2 with h2 | ⟨h3, ⟨u, h4⟩, h5⟩
    · exact .part hf.present hf.flat (.inl (by rwa [hseen])) (own.2 (hleave _).symm)
    · exact .none hf.present hf.flat h3 h4 (by rwa [hseen]) (own.2 (hleave _).symm)

theorem flattened_sublist {base : τ → τ} {fs : List (Field τ)} {o left : List (String × Json)}
    (h : ReadFlattened q P base decl fs o left) : left.Sublist o := by
  induction h with
  | nil => exact .refl _
  | pass _ _ ih => exact ih
  | part _ _ _ _ ih => exact ih.trans leave_sublist
  | one _ _ _ _ _ _ _ ih => exact ih.trans (by unfold Obj.remove; exact List.filter_sublist)
  | none _ _ _ _ _ _ ih => exact ih.trans leave_sublist

theorem unclaimed_rest {as bs : List (Field τ)} {f : Field τ} (hf : f.flatten = true) {o : List (String × Json)} :
    unclaimed q (as ++ f :: bs) o = unclaimed q (as ++ bs) o := by
  unfold unclaimed
  congr 1
  funext e
  simp [hf]

theorem readFieldsOk_open {exact sw : Bool} {base : τ → τ} {fs : List (Field τ)}
    (h : ReadFieldsOk exact sw decl base true fs) : ReadFieldsOk exact sw decl base false fs where
  fields := h.fields
  names := h.names
  option := h.option
  nested he f hf h1 h2 c gs h3 h4 h5 := by cases (h.nested he f hf h1 h2 c gs h3 h4 h5).1

/-- The schema of a struct with a flattened map. -/
theorem map_way (hA : Asked D env decl I A) (hq : Documented q)
    (hopt : ∀ t, I.isOption t = true ↔ ∃ u, decl t = .std (.option u)) {cd deny : Bool} {fs : List (Field τ)}
    (hok : MapInput b q.lenient decl I.base deny fs) (h : Returns A (structProg I fs cd deny) s) :
    (∀ i, Valid D env s i → ∃ o, i = .obj o) ∧
    ∀ o, Obj.Sorted o → (∀ e ∈ o, ∀ t, MatchesAt D env b P A t e.2) →
      (∀ f ∈ fs, f.skipDe = false → f.flatten = true → ∀ x, x.Sublist o →
        MatchesAt D env b P A (I.base f.ty) (.obj x)) →
      Way b (Valid D env s (.obj o)) (ReadFields q P (FieldRead (FieldObeys env) P I.base) I.base decl cd deny fs o) := by
  obtain ⟨rfl, as, f, bs, rfl, hf, hbs, hok⟩ := hok
  obtain ⟨ns, ms, hn, hnd⟩ := hok.names
  obtain ⟨m, v, sf, hrun, rfl, hd, hv, hne, -⟩ := rest_run (D := D) (env := env) hA.toComes hf hbs hn h
  obtain ⟨m', p, r, e, hs, hps, hk⟩ := input_struct hn hA.de hA.ran hrun
  cases e
  have hsub : ∀ {g}, g ∈ as ++ bs → g ∈ as ++ f :: bs := fun hg => by
    rcases List.mem_append.1 hg with hg | hg
    · exact List.mem_append_left _ hg
    · exact List.mem_append_right _ (List.mem_cons_of_mem _ hg)
  obtain ⟨hobj, hway⟩ := struct_way (P := P) hA hq hopt (readFieldsOk_open hok) hrun
  refine ⟨fun i hi => ?_, fun o ho hm hflat => ?_⟩
  · exact hs.rest_object hi
  have hway := hway o ho hm fun g hg h1 h2 => hflat g (hsub hg) h1 h2
  have hmap : ∀ x, x.Sublist o → Way b (∀ e ∈ x, Valid D env v e.2) (P (I.base f.ty) (.obj x)) := fun x hx =>
    (hflat f (List.mem_append_right _ List.mem_cons_self) hf.present hf.flat x hx sf (.inr hd)).congr (hv x).symm Iff.rfl
  have hmem : ∀ e ∈ o, Obj.get p e.1 = none ↔ e.1 ∉ ns ++ ms := by
    intro e _
    have := hk.1 e.1
    simp only at this
    rw [← this]
    cases Obj.get p e.1 <;> simp
  cases b with
  | false =>
    rintro ⟨h1, left, h2, -⟩
    rw [unclaimed_rest hf.flat, flattened_rest hf hbs] at h2
    obtain ⟨h2, h3⟩ := h2
    refine hs.valid_rest (hway ⟨fun g hg => h1 g (hsub hg), left, h2, fun h => by cases h⟩) fun e he hp => ?_
    have hp := (hmem e he).1 hp
    rw [List.mem_append, not_or] at hp
    have hl := (flattened_taken hq hn h2 e ((mem_unclaimed hq hn).2 ⟨he, hp.1⟩)).resolve_right hp.2
    rcases h3 with h3 | ⟨h4, ⟨u, h5⟩, h6⟩
    · exact hmap left ((flattened_sublist h2).trans unclaimed_sublist) h3 e hl
    · rcases h6 with rfl | h6
      · cases hl
      · rcases hf.option h4 u h5 with h | h
        · cases h
        · rw [h] at h6; cases h6
  | true =>
    intro hval
    obtain ⟨hval, hrest⟩ := hs.valid_restOf (hne rfl) hval
    obtain ⟨h1, left, h2, -⟩ := hway hval
    refine ⟨fun g hg h3 h4 => ?_, left, ?_, fun h => by cases h⟩
    · rcases List.mem_append.1 hg with hg | hg
      · exact h1 g (List.mem_append_left _ hg) h3 h4
      rcases List.mem_cons.1 hg with rfl | hg
      · rw [hf.flat] at h4; cases h4
      · exact h1 g (List.mem_append_right _ hg) h3 h4
    · rw [unclaimed_rest hf.flat, flattened_rest hf hbs]
      refine ⟨h2, .inl (hmap left ((flattened_sublist h2).trans unclaimed_sublist) fun e he => ?_)⟩
      obtain ⟨h3, h4⟩ := flattened_left hq hn h2 (fun g hg h1 h2 c gs h3 h4 h5 => by
        cases (hok.nested rfl g hg h1 h2 c gs h3 h4 h5).1) e he
      obtain ⟨h5, h6⟩ := (mem_unclaimed hq hn).1 h3
      exact hrest e h5 ((hmem e h5).2 (by rw [List.mem_append, not_or]; exact ⟨h6, h4⟩))

/-- The schema of a struct and the members that are read for it. -/
theorem structs_way (hM : Modern D env) (hA : Asked D env decl I A) (hq : Documented q)
    (hopt : ∀ t, I.isOption t = true ↔ ∃ u, decl t = .std (.option u)) {cd deny : Bool} {fs : List (Field τ)}
    (hok : StructInput b q.lenient decl I.base deny fs)
    (h : Returns A (structProg I fs cd deny) s) :
    (∀ i, Valid D env s i → ∃ o, i = .obj o) ∧
    ∀ o, (Json.obj o).WF → (∀ e ∈ o, ∀ t, MatchesAt D env b P A t e.2) →
      (∀ f ∈ fs, f.skipDe = false → f.flatten = true → FlatReady D env b P decl I A f o) →
      Way b (Valid D env s (.obj o)) (ReadFields q P (FieldRead (FieldObeys env) P I.base) I.base decl cd deny fs o) := by
  rcases hok with hok | hok | hok
  · obtain ⟨h1, h2⟩ := struct_way (P := P) hA hq hopt hok h
    refine ⟨h1, fun o ho hm hr => h2 o ?_ hm fun f hf h3 h4 => (hr f hf h3 h4).parts⟩
    cases ho with | obj _ h _ => exact h
  · obtain ⟨m, p, r, rfl, hp, ht, hw⟩ := wide_start (P := P) hA hq hok h
    exact ⟨fun i hi => hp.object ht hi, fun o => hw o hM hopt⟩
  · obtain ⟨h1, h2⟩ := map_way (P := P) hA hq hopt hok h
    refine ⟨h1, fun o ho hm hr => h2 o ?_ hm fun f hf h3 h4 => (hr f hf h3 h4).parts⟩
    cases ho with | obj _ h _ => exact h

theorem structs_nullable (hA : Asked D env decl I A) {sw cd deny : Bool} {fs : List (Field τ)}
    (hok : StructInput b sw decl I.base deny fs)
    (h : Returns A (structProg I fs cd deny) s) : Nullable D env s := by
  rcases hok with hok | hok | hok
  · obtain ⟨ns, ms, hn, -⟩ := hok.names
    obtain ⟨m, p, r, rfl, hs, -⟩ := input_struct hn hA.de hA.ran h
    exact hs.nullable
  · obtain ⟨m, p, r, rfl, hp, ht, -⟩ := wide_start (q := { lenient := sw }) (P := fun _ _ => True) hA
      ⟨rfl, fun _ => rfl, fun _ => rfl, fun _ => rfl⟩ hok h
    exact hp.nullable ht
  · obtain ⟨rfl, as, f, bs, rfl, hf, hbs, hok⟩ := hok
    obtain ⟨ns, ms, hn, -⟩ := hok.names
    obtain ⟨m, v, sf, hrun, rfl, -⟩ := rest_run (D := D) (env := env) hA.toComes hf hbs hn h
    obtain ⟨m', p, r, e, hs, -⟩ := input_struct hn hA.de hA.ran hrun
    cases e
    exact hs.nullable_rest

end

end Verif
