import Verif.Props.AcceptsFlatten

/-!
# Structs with a flattened map accept what serde writes

A struct may have one flattened map (or `serde_json::Value`) besides its own fields. Its schema is that of the struct
without the map, with the schema of the values as `additionalProperties`. As the fields are all written, no key of the
map is the name of a field.
-/

namespace Verif
open Spec

variable {τ : Type}

/-! ### Additional members -/

section
variable {D : Dialect} {env : Env} {m p : List (String × Json)} {r : List String} {v : Json}

theorem insert_swap {a b : String} (h : a ≠ b) (hm : Obj.Sorted m) (x y : Json) :
    Obj.insert (Obj.insert m a x) b y = Obj.insert (Obj.insert m b y) a x := by
  refine Obj.ext_sorted (Obj.sorted_insert (Obj.sorted_insert hm _ _) _ _)
    (Obj.sorted_insert (Obj.sorted_insert hm _ _) _ _) fun k => ?_
  simp only [Obj.get_insert]
  by_cases h1 : b = k
  · have h2 : a ≠ k := fun h2 => h (h2.trans h1.symm)
    simp [h1, h2]
  · simp [h1]

/-- The schema with schemas for additional members. -/
def withRest (m : List (String × Json)) (v : Json) : List (String × Json) :=
  if v = .bool false then m else Obj.insert m "additionalProperties" v

theorem Shape.insertRest (h : Shape m p r false) (key : String) (opt : Bool) (sub : Json) :
    ∃ m', insertObjectProperty (.obj m) key opt sub = .obj m' ∧
      insertObjectProperty (.obj (withRest m v)) key opt sub = .obj (withRest m' v) := by
  obtain ⟨m', e, h'⟩ := h.insertProperty key opt sub
  refine ⟨m', e, ?_⟩
  unfold withRest
  by_cases hv : v = .bool false
  · rw [if_pos hv, if_pos hv, e]
  · rw [if_neg hv, if_neg hv]
    have hp : PropsAre (Obj.insert m "additionalProperties" v) p := h.props.congr (Obj.get_insert_ne _ _ (by decide))
    have hr : ReqAre (Obj.insert m "additionalProperties" v) r := h.req.congr (Obj.get_insert_ne _ _ (by decide))
    unfold insertObjectProperty at e ⊢
    simp only [Schema.ensureObject] at e ⊢
    rw [h.props.insert] at e
    rw [hp.insert]
    rw [← Json.obj.inj e]
    cases opt with
    | true =>
      simp only [if_true]
      rw [insert_swap (by decide) h.sorted]
    | false =>
      simp only [Bool.false_eq_true, if_false]
      have hr1 : ReqAre (Obj.insert m "properties" (.obj (Obj.insert p key sub))) r :=
        h.req.congr (Obj.get_insert_ne _ _ (by decide))
      have hr2 : ReqAre (Obj.insert (Obj.insert m "additionalProperties" v) "properties"
          (.obj (Obj.insert p key sub))) r := hr.congr (Obj.get_insert_ne _ _ (by decide))
      rw [hr1.push, hr2.push, insert_swap (by decide) h.sorted,
        insert_swap (by decide) (Obj.sorted_insert h.sorted _ _)]

/-- The members without a schema of their own must be accepted by the schema for the others. -/
theorem Shape.valid_rest (h : Shape m p r false) {o : List (String × Json)} (hv : Valid D env (.obj m) (.obj o))
    (hr : ∀ e ∈ o, Obj.get p e.1 = none → Valid D env v e.2) : Valid D env (.obj (withRest m v)) (.obj o) := by
  unfold withRest
  split
  · exact hv
  have hget : ∀ k, k ≠ "additionalProperties" → Obj.get (Obj.insert m "additionalProperties" v) k = Obj.get m k :=
    fun k hk => Obj.get_insert_ne _ _ (Ne.symm hk)
  have hs : Obj.Sorted (Obj.insert m "additionalProperties" v) := Obj.sorted_insert h.sorted _ _
  have hnull : Obj.get (Obj.insert m "additionalProperties" v) "nullable" = none := by
    rw [hget _ (by decide)]; exact h.other _ (by decide) (by decide)
  have hnr : Obj.get (Obj.insert m "additionalProperties" v) "$ref" = none := by
    rw [hget _ (by decide)]; exact h.other _ (by decide) (by decide)
  have hp' : PropsAre (Obj.insert m "additionalProperties" v) p := h.props.congr (hget _ (by decide))
  obtain ⟨o', e, hreq, hprops, -⟩ := h.valid.1 hv
  cases e
  rw [valid_get (.inr hnr) hs]
  intro k x hk
  by_cases ha : k ∈ annotations
  · exact entryOk_annotation ha x
  by_cases hk' : k = "additionalProperties"
  · subst hk'
    rw [Obj.get_insert_self] at hk
    cases hk
    intro e he hn
    refine hr e he ?_
    cases hg : Obj.get p e.1 with
    | none => rfl
    | some s =>
      refine absurd (.inl ?_) hn
      rw [hp'.memb]
      unfold Obj.has
      rw [hg]; rfl
  rw [hget k hk'] at hk
  have hk4 : k ∈ ["type", "properties", "required", "additionalProperties"] := by
    by_contra hc
    rw [h.other k ha hc] at hk; cases hk
  simp only [List.mem_cons, List.not_mem_nil, or_false] at hk4
  rcases hk4 with rfl | rfl | rfl | rfl
  · rw [h.type] at hk; cases hk
    rw [entryOk_type hnull, typeMatch_object]; exact ⟨o, rfl⟩
  · rcases h.props with ⟨hp, _⟩ | hp
    · rw [hp] at hk; cases hk
    · rw [hp] at hk; cases hk
      rw [entryOk_properties]; exact hprops
  · rcases h.req with ⟨hp, _⟩ | hp
    · rw [hp] at hk; cases hk
    · rw [hp] at hk; cases hk
      rw [entryOk_required]; rintro _ ⟨⟩; exact hreq
  · exact absurd rfl hk'

theorem Shape.nullable_rest (h : Shape m p r false) : Nullable D env (.obj (withRest m v)) := by
  unfold withRest
  split
  · exact h.nullable
  have ht : Obj.get (Obj.insert m "additionalProperties" v) "type" = some (.str "object") := by
    rw [Obj.get_insert_ne _ _ (by decide)]; exact h.type
  refine ⟨.obj (Obj.sorted_insert h.sorted _ _), nullIfTyped_of (by decide) ht, .own _ fun k x hk => ?_⟩
  rw [Obj.get_insert] at hk
  split at hk
  · next e => subst e; exact .inr (.inr (.inl (by decide)))
  · by_cases ha : k ∈ annotations
    · exact .inr (.inr (.inl (List.mem_append_left _ ha)))
    · have hk4 : k ∈ ["type", "properties", "required", "additionalProperties"] := by
        by_contra hc
        rw [h.other k ha hc] at hk; cases hk
      simp only [List.mem_cons, List.not_mem_nil, or_false] at hk4
      rcases hk4 with rfl | rfl | rfl | rfl
      · exact .inl rfl
      all_goals exact .inr (.inr (.inl (by decide)))

/-- The schema of a map is flattened into that of a struct. -/
theorem Shape.flattenMap (h : Shape m p r false) (v : Json) (optional : Bool) :
    Verif.flatten (.obj m) (Verif.flattenInner (mapFrom [.any] v) optional) = .obj (withRest m v) := by
  have e1 : Verif.flattenInner (mapFrom [.any] v) optional =
      Verif.allowUnknown (.obj [("additionalProperties", v), ("type", .str "object")]) := by
    cases optional <;> rfl
  have hap : Obj.get m "additionalProperties" = none := h.deny
  have hn1 : ∀ m2, normaliseUnevaluated m m2 = m := fun m2 => by unfold normaliseUnevaluated; rw [hap]
  have hn2 : ∀ m2, normaliseUnevaluated m2 m = m2 := fun m2 => by
    unfold normaliseUnevaluated
    have : Obj.has m "unevaluatedProperties" = false := by
      unfold Obj.has; rw [h.other _ (by decide) (by decide)]; rfl
    rw [this, h.noInPlace]
    cases Obj.get m2 "additionalProperties" <;> rfl
  have ht : ∀ m', Obj.get m' "type" = some (.str "object") → flattenProperty m' "type" (.str "object") = m' := by
    intro m' hm'
    unfold flattenProperty flattenPlain
    simp only [hm']
    rfl
  obtain ⟨m2, e2, hs2, hg2, hr2⟩ := get_allowUnknown (m := [("additionalProperties", v), ("type", .str "object")])
  have hs2 := hs2 (by unfold Obj.Sorted; simp)
  rw [e1, e2]
  show Json.obj (flattenObjects m m2) = _
  unfold flattenObjects
  simp only [hn1, hn2]
  unfold withRest
  by_cases hv : v = .bool false
  · have : m2 = [("type", .str "object")] := by
      refine Obj.ext_sorted hs2 (by unfold Obj.Sorted; simp) fun k => ?_
      by_cases hk : k ∈ restKeys
      · rw [hr2 k hk]
        simp only [restKeys, List.mem_cons, List.not_mem_nil, or_false] at hk
        rcases hk with rfl | rfl
        · rw [hv]; rfl
        · rfl
      · rw [hg2 k hk]
        have hk1 : "additionalProperties" ≠ k := fun e => hk (e ▸ (by decide))
        simp only [Obj.get_cons, hk1, if_false, Obj.get_nil]
        split
        · next e => subst e; rfl
        · rfl
    rw [this, if_pos hv]
    simp only [List.foldl_cons, List.foldl_nil]
    rw [ht _ h.type]
  · have : m2 = [("additionalProperties", v), ("type", .str "object")] := by
      refine Obj.ext_sorted hs2 (by unfold Obj.Sorted; simp) fun k => ?_
      by_cases hk : k ∈ restKeys
      · rw [hr2 k hk]
        simp only [restKeys, List.mem_cons, List.not_mem_nil, or_false] at hk
        rcases hk with rfl | rfl
        · simp [Obj.get_cons, hv]
        · rfl
      · rw [hg2 k hk]
        have hk1 : "additionalProperties" ≠ k := fun e => hk (e ▸ (by decide))
        simp only [Obj.get_cons, hk1, if_false, Obj.get_nil]
        split
        · next e => subst e; rfl
        · rfl
    rw [this, if_neg hv]
    simp only [List.foldl_cons, List.foldl_nil]
    have e3 : flattenProperty m "additionalProperties" v = Obj.insert m "additionalProperties" v := by
      unfold flattenProperty flattenPlain
      simp only [hap]
    rw [e3, ht _ (by rw [Obj.get_insert_ne _ _ (by decide)]; exact h.type)]

theorem Shape.flattenValue (h : Shape m p r false) (optional : Bool) :
    Verif.flatten (.obj m) (Verif.flattenInner (.bool true) optional) = .obj (withRest m (.bool true)) := by
  have e1 : Verif.flattenInner (.bool true) optional = .bool true := by cases optional <;> rfl
  rw [e1]
  unfold Verif.flatten
  have h1 : Obj.has m "unevaluatedProperties" = false := by
    unfold Obj.has; rw [h.other _ (by decide) (by decide)]; rfl
  have h2 : Obj.has m "additionalProperties" = false := by unfold Obj.has; rw [h.deny]; rfl
  simp only [h1, h2, h.noInPlace]
  rfl

end

section
variable {D : Dialect} {env : Env} {S : τ → Json → Prop} {decl : τ → Decl τ} {I : TypeInfo τ}
  {F : Answers τ → Prop} {A : Answers τ} {w : Nat} {s : Json}

/-! ### The run of the generator -/

/-- The keys of the map are any texts. -/
def Spec.TextKey : Decl τ → Prop
  | .std (.simple t) => t = "string"
  | .std (.formatted t _) => t = "string"
  | .std .char => True
  | _ => False

/-- The field takes the members that the others leave. -/
def Spec.RestField (decl : τ → Decl τ) (I : TypeInfo τ) (f : Field τ) : Prop :=
  f.skipSer = false ∧ f.flatten = true ∧
    (decl (I.base f.ty) = .std .value ∨ ∃ k v, decl (I.base f.ty) = .std (.map k v) ∧ TextKey (decl k))

/-- A derived struct with one flattened map between its own fields, all of which are written. -/
structure Spec.MapData (decl : τ → Decl τ) (I : TypeInfo τ) (c : Container τ) (as : List (Field τ)) (f : Field τ)
    (bs : List (Field τ)) : Prop extends PlainData c (as ++ f :: bs) where
  open_ : c.denyUnknownFields = false
  rest : RestField decl I f
  own : ∀ g ∈ as ++ bs, g.skipSer = false → g.flatten = false ∧ g.skipSerIf = false ∧ FieldOk g
  nodup : (((as ++ bs).filter fun g => !g.skipSer).map fun g => g.name.ser).Nodup

/-- Schemas that are asked for come from a run of the body. -/
def Ran (F : Answers τ → Prop) (I : TypeInfo τ) (decl : τ → Decl τ) : Prop :=
  ∀ A, F A → ∀ t s, A.direct t s → RanBody F I decl t s

/-- The schema for the values of the flattened map. -/
def RestSchema (F : Answers τ → Prop) (I : TypeInfo τ) (decl : τ → Decl τ) (f : Field τ) (v : Json) : Prop :=
  v = .bool true ∨ ∃ k t A, decl (I.base f.ty) = .std (.map k t) ∧ F A ∧ A.sub t v

theorem textKey_use (hF : Ran F I decl) (hA : F A) {k : τ} {ks : Json} (hk : TextKey (decl k))
    (h : A.direct k ks) (path : List Char) (d : List (String × Json)) (v : Json) :
    mapSchema path d ks v = mapFrom [.any] v := by
  obtain ⟨A', -, hb⟩ := hF A hA _ _ h
  unfold TextKey at hk
  split at hk
  · next e => rw [e] at hb; cases hb; subst hk; rfl
  · next f e =>
    rw [e] at hb; cases hb; subst hk
    have : typeFormat "string" f = .obj [("format", .str f), ("type", .str "string")] := by
      simp [typeFormat, mkObj, Obj.ofList, Obj.extend, Obj.insert]
    rw [this]; rfl
  · next e => rw [e] at hb; cases hb; rfl
  · exact hk.elim

theorem rest_schema (hF : Ran F I decl) (hA : F A) {f : Field τ} (hf : RestField decl I f) {s : Json}
    (h : A.direct (I.base f.ty) s) : ∃ v, RestSchema F I decl f v ∧
    ∀ {m p : List (String × Json)} {r : List String} (b : Bool), Shape m p r false →
      flatten (.obj m) (flattenInner s b) = .obj (withRest m v) := by
  obtain ⟨A', hA', hb⟩ := hF A hA _ _ h
  rcases hf.2.2 with hd | ⟨k, t, hd, hk⟩
  · rw [hd] at hb
    cases hb
    exact ⟨.bool true, .inl rfl, fun b hs => hs.flattenValue b⟩
  · rw [hd] at hb
    obtain ⟨ks, h1, vs, h2, d, h3, rfl⟩ := hb
    refine ⟨vs, .inr ⟨k, t, A', hd, hA', h2⟩, fun b hs => ?_⟩
    rw [textKey_use hF hA' hk h1]; exact hs.flattenMap vs b

theorem RestSchema.valid (hF : Sound D env S decl I F) {f : Field τ} {v : Json} (hv : RestSchema F I decl f v)
    {q : List (String × Json)} (hq : Members S I.base decl (fieldType I.base f) q) : ∀ e ∈ q, Valid D env v e.2 := by
  intro e he
  rcases hv with rfl | ⟨k, t, A', hd, hA', h2⟩
  · rfl
  · rcases members_adds hF.toSerdeFacts hq with h | ⟨rfl, -⟩
    · rcases h with ⟨-, h⟩ | ⟨n, rfl, h⟩ | ⟨rfl, -⟩
      · obtain ⟨o, e', ho⟩ := hF.map _ _ _ hd _ h
        cases e'
        exact hF.sub A' hA' _ _ h2 _ (ho e he)
      · obtain ⟨o, e', -⟩ := hF.map _ _ _ hd _ h
        cases e'
      · cases he
    · cases he

theorem enc_append {as bs : List (Field τ)} {o : List (String × Json)} (h : EncFields S (FieldObeys env) I.base decl (as ++ bs) o) :
    ∃ o1 o2, o = o1 ++ o2 ∧ EncFields S (FieldObeys env) I.base decl as o1 ∧ EncFields S (FieldObeys env) I.base decl bs o2 := by
  induction as generalizing o with
  | nil => exact ⟨[], o, rfl, .nil, h⟩
  | cons f as ih =>
    cases h with
    | skip h1 h2 => obtain ⟨o1, o2, rfl, ha, hb⟩ := ih h2; exact ⟨_, _, rfl, .skip h1 ha, hb⟩
    | leftOut h1 h2 h3 => obtain ⟨o1, o2, rfl, ha, hb⟩ := ih h3; exact ⟨_, _, rfl, .leftOut h1 h2 ha, hb⟩
    | member x h1 h2 h3 hk h4 =>
      obtain ⟨o1, o2, rfl, ha, hb⟩ := ih h4
      exact ⟨(f.name.ser, x) :: o1, _, rfl, .member x h1 h2 h3 hk ha, hb⟩
    | flatten q h1 h2 h3 h4 =>
      obtain ⟨o1, o2, rfl, ha, hb⟩ := ih h4
      exact ⟨q ++ o1, o2, (List.append_assoc ..).symm, .flatten q h1 h2 h3 ha, hb⟩

theorem enc_join {as bs : List (Field τ)} {o1 o2 : List (String × Json)} (h1 : EncFields S (FieldObeys env) I.base decl as o1)
    (h2 : EncFields S (FieldObeys env) I.base decl bs o2) : EncFields S (FieldObeys env) I.base decl (as ++ bs) (o1 ++ o2) := by
  induction h1 with
  | nil => exact h2
  | skip h _ ih => exact .skip h ih
  | leftOut h h' _ ih => exact .leftOut h h' ih
  | member x h h' h3 hk _ ih => exact .member x h h' h3 hk ih
  | flatten q h h' h3 _ ih => rw [List.append_assoc]; exact .flatten q h h' h3 ih

/-- The names of the fields of the struct. -/
def ownNames (fs : List (Field τ)) : List String := (fs.filter fun g => !g.skipSer).map fun g => g.name.ser

theorem fieldNames_own {fs : List (Field τ)} (h : ∀ g ∈ fs, g.skipSer = false → g.flatten = false) :
    FieldNames decl I.base fs (ownNames fs) := by
  induction fs with
  | nil => exact .nil
  | cons f fs ih =>
    have ih := ih fun g hg => h g (List.mem_cons_of_mem _ hg)
    cases hf : f.skipSer with
    | true =>
      have : ownNames (f :: fs) = ownNames fs := by unfold ownNames; rw [List.filter_cons_of_neg (by simp [hf])]
      rw [this]; exact .skip hf ih
    | false =>
      have : ownNames (f :: fs) = f.name.ser :: ownNames fs := by
        unfold ownNames; rw [List.filter_cons_of_pos (by simp [hf])]; rfl
      rw [this]; exact .own hf (h f (List.mem_cons_self ..) hf) ih

theorem own_written {fs : List (Field τ)} (h : ∀ g ∈ fs, g.skipSer = false → g.flatten = false ∧ g.skipSerIf = false)
    {o : List (String × Json)} (he : EncFields S (FieldObeys env) I.base decl fs o) : ∀ n ∈ ownNames fs, ∃ x, (n, x) ∈ o := by
  intro n hn
  obtain ⟨g, hgf, rfl⟩ := List.mem_map.1 hn
  obtain ⟨hg, hs⟩ := List.mem_filter.1 hgf
  have hs : g.skipSer = false := by simpa using hs
  clear hn hgf
  induction he with
  | nil => cases hg
  | @skip f fs o h1 _ ih =>
    rcases List.mem_cons.1 hg with rfl | hg'
    · rw [hs] at h1; cases h1
    · exact ih (fun g hg => h g (List.mem_cons_of_mem _ hg)) hg'
  | @leftOut f fs o h1 h2 _ ih =>
    rcases List.mem_cons.1 hg with rfl | hg'
    · rw [(h g hg hs).2] at h2; cases h2
    · exact ih (fun g hg => h g (List.mem_cons_of_mem _ hg)) hg'
  | @member f fs o x h1 h2 _ _ _ ih =>
    rcases List.mem_cons.1 hg with rfl | hg'
    · exact ⟨x, List.mem_cons_self ..⟩
    · obtain ⟨y, hy⟩ := ih (fun g hg => h g (List.mem_cons_of_mem _ hg))
        hg'
      exact ⟨y, List.mem_cons_of_mem _ hy⟩
  | @flatten f fs o q h1 h2 _ _ ih =>
    rw [(h f (List.mem_cons_self ..) h1).1] at h2; cases h2

/-- The fields after the map are added as if there were no map. -/
theorem rest_after {cd : Bool} {v : Json} (es : List (Field τ × Json)) (h : ∀ e ∈ es, e.1.flatten = false)
    (ct : Contract) {m p : List (String × Json)} {r : List String} (hs : Shape m p r false) :
    ∃ m', es.foldl (addField I cd ct) (.obj m) = .obj m' ∧
      es.foldl (addField I cd ct) (.obj (withRest m v)) = .obj (withRest m' v) := by
  induction es generalizing m p r with
  | nil => exact ⟨m, rfl, rfl⟩
  | cons e es ih =>
    have hadd : ∀ acc, addField I cd ct acc e = insertObjectProperty acc (e.1.name.get ct) (fieldOptional I cd e.1 ct) e.2 := by
      intro acc
      unfold addField
      rw [h e (List.mem_cons_self ..)]
      rfl
    simp only [List.foldl_cons, hadd]
    obtain ⟨m1, e1, hs1⟩ := hs.insertProperty (e.1.name.get ct) (fieldOptional I cd e.1 ct) e.2
    obtain ⟨m2, e2, e3⟩ := hs.insertRest (v := v) (e.1.name.get ct) (fieldOptional I cd e.1 ct) e.2
    rw [e3]
    rw [e1] at e2
    cases e2
    rw [e1]
    exact ih (fun e he => h e (List.mem_cons_of_mem _ he)) hs1

/-- The schema is that of the struct without the map, with a schema for additional members. -/
theorem map_run (hF : Ran F I decl) (hA : F A) (hser : A.settings.contract = .serialize) {cd : Bool} {as bs : List (Field τ)} {f : Field τ}
    (hf : RestField decl I f) (hown : ∀ g ∈ as ++ bs, g.skipSer = false → g.flatten = false)
    (h : Returns A (structProg I (as ++ f :: bs) cd false) s) :
    ∃ m v, Returns A (structProg I (as ++ bs) cd false) (.obj m) ∧ s = .obj (withRest m v) ∧
      RestSchema F I decl f v := by
  obtain ⟨mi, ei, hi⟩ := shape_start false
  unfold structProg at h ⊢
  rw [ei] at h ⊢
  rw [returns_structFields] at h
  obtain ⟨es, e1, h1, rfl⟩ := h
  have hpf : present (as ++ f :: bs) A.settings.contract =
      present as A.settings.contract ++ f :: present bs A.settings.contract := by
    unfold present
    rw [List.filter_append, List.filter_cons_of_pos (by rw [hser]; exact decide_eq_true hf.1)]
  rw [hpf] at e1
  obtain ⟨es1, es', rfl, ea, eb⟩ := List.map_eq_append_iff.1 e1
  obtain ⟨e, es2, rfl, ef, eb⟩ := List.map_eq_cons_iff.1 eb
  have hflat : ∀ e ∈ es1 ++ es2, e.1.flatten = false := by
    intro e he
    have : e.1 ∈ present (as ++ bs) A.settings.contract := by
      unfold present
      rw [List.filter_append]
      unfold present at ea eb
      rw [← ea, ← eb, ← List.map_append]
      exact List.mem_map_of_mem he
    obtain ⟨hm, hn⟩ := List.mem_filter.1 this
    rw [hser] at hn
    exact hown _ hm (of_decide_eq_true hn)
  have hruns : ∀ r, r = (es1 ++ es2).foldl (addField I cd A.settings.contract) (.obj mi) →
      Returns A (structFieldsProg I cd (as ++ bs) (.obj mi)) r := by
    intro r hr
    rw [returns_structFields]
    refine ⟨es1 ++ es2, ?_, fun e he => h1 e ?_, hr⟩
    · unfold present at ea eb ⊢
      rw [List.map_append, ea, eb, List.filter_append]
    · rcases List.mem_append.1 he with he | he
      · exact List.mem_append_left _ he
      · exact List.mem_append_right _ (List.mem_cons_of_mem _ he)
  have hfr := h1 e (List.mem_append_right _ (List.mem_cons_self ..))
  subst ef
  obtain ⟨s2, hd2, e2⟩ := returns_flattenField hf.2.1 hfr
  obtain ⟨v, hv, hfl⟩ := rest_schema hF hA hf hd2
  have before : ∀ (l : List (Field τ × Json)), (∀ e ∈ l, e.1.flatten = false) → ∀ {m p : List (String × Json)} {r : List String},
      Shape m p r false → ∃ m' p' r', l.foldl (addField I cd A.settings.contract) (.obj m) = .obj m' ∧ Shape m' p' r' false := by
    intro l
    induction l with
    | nil => intro _ m p r hs; exact ⟨m, p, r, rfl, hs⟩
    | cons e l ih =>
      intro hl m p r hs
      obtain ⟨m1, e1, hs1⟩ := hs.insertProperty (e.1.name.get A.settings.contract)
        (fieldOptional I cd e.1 A.settings.contract) e.2
      obtain ⟨m2, p2, r2, e2, hs2⟩ := ih (fun e he => hl e (List.mem_cons_of_mem _ he)) hs1
      refine ⟨m2, p2, r2, ?_, hs2⟩
      rw [List.foldl_cons]
      have : addField I cd A.settings.contract (.obj m) e = .obj m1 := by
        unfold addField; rw [hl e (List.mem_cons_self ..)]; exact e1
      rw [this, e2]
  obtain ⟨m1, p1, r1, e3, hs1⟩ := before es1 (fun e he => hflat e (List.mem_append_left _ he)) hi
  obtain ⟨m2, e4, e5⟩ := rest_after (v := v) (I := I) (cd := cd) es2 (fun e he => hflat e (List.mem_append_right _ he))
    A.settings.contract hs1
  refine ⟨m2, v, hruns _ ?_, ?_, hv⟩
  · rw [List.foldl_append, e3, e4]
  · rw [List.foldl_append, List.foldl_cons, e3]
    have : addField I cd A.settings.contract (.obj m1) e = .obj (withRest m1 v) := by
      unfold addField
      rw [if_pos hf.2.1, e2]
      exact hfl _ hs1
    rw [this, e5]

/-- The schema of a struct with a flattened map accepts what serde writes for it. -/
theorem map_accepts (hF : Sound D env S decl I F) (hA : F A) {c : Container τ} {cd : Bool} {as bs : List (Field τ)}
    {f : Field τ} (hc : MapData decl I c as f bs) (h : Returns A (structProg I (as ++ f :: bs) cd false) s) :
    Nullable D env s ∧ ∀ o o', EncFields S (FieldObeys env) I.base decl (as ++ f :: bs) o → o'.Perm o → (Json.obj o').WF →
      Valid D env s (.obj o') := by
  have hown : ∀ g ∈ as ++ bs, g.skipSer = false → g.flatten = false := fun g hg hs => (hc.own g hg hs).1
  obtain ⟨m, v, hrun, rfl, hv⟩ := map_run hF.ran hA (hF.ser A hA) hc.rest hown h
  have hnames : FieldNames decl I.base (as ++ bs) (ownNames (as ++ bs)) := fieldNames_own hown
  have hfs : FieldsOk I (as ++ bs) := fun g hg hs =>
    ⟨fun _ => (hc.own g hg hs).2.2, fun h => by rw [hown g hg hs] at h; cases h⟩
  obtain ⟨mi, ei, hi⟩ := shape_start false
  unfold structProg at hrun
  rw [ei] at hrun
  obtain ⟨m', p, r, e, hs, hps, hk⟩ := names_shape hF hnames hA hi List.Pairwise.nil hrun
  cases e
  have hk' : ∀ n, (∃ x, Obj.get p n = some x) ↔ n ∈ ownNames (as ++ bs) := fun n => by rw [hk]; simp
  refine ⟨hs.nullable_rest, fun o o' henc hperm hwf => ?_⟩
  obtain ⟨o1, o2', rfl, henc1, henc2⟩ := enc_append henc
  obtain ⟨q, o2, rfl, hq, henc3⟩ : ∃ q o2, o2' = q ++ o2 ∧
      (q = [] ∨ Members S I.base decl (fieldType I.base f) q) ∧ EncFields S (FieldObeys env) I.base decl bs o2 := by
    cases henc2 with
    | skip h _ => rw [hc.rest.1] at h; cases h
    | leftOut _ _ h => exact ⟨[], _, rfl, .inl rfl, h⟩
    | member x _ h => rw [hc.rest.2.1] at h; cases h
    | flatten q _ _ h h' => exact ⟨q, _, rfl, .inr h, h'⟩
  have hj := enc_join henc1 henc3
  have hwr := own_written (fun g hg hs => ⟨(hc.own g hg hs).1, (hc.own g hg hs).2.1⟩) hj
  have hsort := sorted_of_wf hwf
  have hnd : (Obj.keys (o1 ++ (q ++ o2))).Nodup := ((hperm.map Prod.fst).nodup_iff).1 (Obj.sorted_nodup hsort)
  -- the keys of the map are not names of fields
  have hqn : ∀ e ∈ q, e.1 ∉ ownNames (as ++ bs) := by
    intro e he hn
    obtain ⟨x, hx⟩ := hwr _ hn
    unfold Obj.keys at hnd
    rw [List.map_append, List.map_append, List.nodup_append, List.nodup_append] at hnd
    rcases List.mem_append.1 hx with hx | hx
    · exact hnd.2.2 _ (List.mem_map_of_mem hx) _ (List.mem_append_left _ (List.mem_map_of_mem he)) rfl
    · exact hnd.2.1.2.2 _ (List.mem_map_of_mem he) _ (List.mem_map_of_mem hx) rfl
  have hmem : ∀ e, e ∈ o' ↔ e ∈ o1 ++ o2 ∨ e ∈ q := by
    intro e
    rw [hperm.mem_iff]
    simp only [List.mem_append]
    constructor
    · rintro (h | h | h)
      · exact .inl (.inl h)
      · exact .inr h
      · exact .inl (.inr h)
    · rintro ((h | h) | h)
      · exact .inl h
      · exact .inr (.inr h)
      · exact .inr (.inl h)
  obtain ⟨m', p', r', e, hs', hps', hsat⟩ := fields_accept hF hA (o := o') hj hnames hc.nodup hfs
    (fun e he => (hmem e).2 (.inl he))
    (fun e he hn => ((hmem e).1 he).elim id fun h => absurd hn (hqn e h)) hi List.Pairwise.nil
    ⟨fun n (hn : n ∈ []) => absurd hn (by simp), fun e _ s (hs : Obj.get [] e.1 = some s) => by cases hs⟩ hrun
  cases e
  refine hs.valid_rest ?_ fun e he hn => ?_
  · rw [hs'.valid]
    refine ⟨o', rfl, fun n hn => ?_, hsat.2, fun h => by cases h⟩
    obtain ⟨x, hx⟩ := hsat.1 n hn
    exact ⟨x, Obj.get_of_mem_sorted hsort hx⟩
  · rcases (hmem e).1 he with h | h
    · obtain ⟨x, hx⟩ := (hk' e.1).2 (enc_names hF.toSerdeFacts hj hnames e h)
      rw [hn] at hx; cases hx
    · rcases hq with rfl | hq
      · cases h
      · exact hv.valid hF hq e h

/-- The conditions on a type, which may be a struct with flattened enums or with a flattened map. -/
def Spec.WideDecl (decl : τ → Decl τ) (I : TypeInfo τ) (d : Decl τ) : Prop :=
  DeclOk decl I d ∨ (∃ c fs, d = .derived c ∧ WideData decl I c fs) ∨ ∃ c as f bs, d = .derived c ∧ MapData decl I c as f bs

/-- The schema of a type accepts what serde writes for it, if the schemas of the types that it mentions do. -/
theorem wide_body_accepts (hM : Modern D env) (hF : Sound D env S decl I F) (hA : F A) {t : τ}
    (hok : WideDecl decl I (decl t)) (h : Returns A (bodyOf I (decl t)) s) :
    Nullable D env s ∧ ∀ j, j.WF → Encodes w S (FieldObeys env) I.base decl (decl t) j → Valid D env s j := by
  rcases hok with hok | ⟨c, fs, hd, hc⟩ | ⟨c, as, f, bs, hd, hc⟩
  · exact body_accepts hM hF hA hok h
  · rw [hd] at h ⊢
    obtain ⟨s0, h0, rfl⟩ := plain_container hc.toPlainData (hF.ser A hA) h
    rw [hc.open_] at h0
    obtain ⟨h1, h2⟩ := wide_accepts hM hF hA hc.wide h0
    refine ⟨h1.annotate hc.common.annotates, fun j hj he => ?_⟩
    rw [runMutators_valid hc.common.annotates h1.sch]
    have he : EncContainer S (FieldObeys env) I.base decl c j := he
    unfold EncContainer at he
    rw [hc.noWith, hc.noTransparent, hc.noInto, hc.data] at he
    obtain ⟨o, henc, o', rfl, hp⟩ := he
    exact h2 o o' henc hp hj
  · rw [hd] at h ⊢
    obtain ⟨s0, h0, rfl⟩ := plain_container hc.toPlainData (hF.ser A hA) h
    rw [hc.open_] at h0
    obtain ⟨h1, h2⟩ := map_accepts hF hA hc h0
    refine ⟨h1.annotate hc.common.annotates, fun j hj he => ?_⟩
    rw [runMutators_valid hc.common.annotates h1.sch]
    have he : EncContainer S (FieldObeys env) I.base decl c j := he
    unfold EncContainer at he
    rw [hc.noWith, hc.noTransparent, hc.noInto, hc.data] at he
    obtain ⟨o, henc, o', rfl, hp⟩ := he
    exact h2 o o' henc hp hj

end

end Verif
