import Verif.Spec.Refs
import Verif.Props.AcceptsMap
import Verif.Lemmas.World
import Verif.Lemmas.Serde
import Verif.Props.Definitions
import Verif.Props.GeneratorRoot

/-!
# C45: generated root schemas accept what serde writes

The types of a program are described by their declarations (`Decl`). The schemas are those of a run of the generator
on the bodies that the derive macros and the implementations for standard types make of these declarations.
-/

namespace Verif
open Spec

variable {τ : Type}

namespace Spec

/-- The types of the generator are those declared: their bodies are derived from the declarations, and the facts
about types that the bodies use are right. -/
structure Declared (Γ : τ → TypeDef τ) (decl : τ → Decl τ) (I : TypeInfo τ) : Prop where
  body : ∀ t, (Γ t).body = bodyOf I (decl t)
  /-- Types with the same identifier have the same declaration. -/
  ids : ∀ t t', (Γ t).schemaId = (Γ t').schemaId → decl t = decl t'
  unit : decl I.unit = .std (.simple "null")
  unitInline : (Γ I.unit).inlineSchema = true
  option : ∀ t, I.isOption t = true → ∃ u, decl t = .std (.option u) ∧ I.base t = I.base u
  base : ∀ t, I.isOption t = false → I.base t = t

/-- The references to the definitions and to the root are followed. -/
structure Follows (D : Dialect) (env : Env) (W : World τ) (root : τ) (body : Json) : Prop where
  defs : ∀ n d, Obj.get W.defs n = some d → env.ref (refFor W.settings.definitionsPath.toList n) = den D env d
  root : W.root = some (W.uid root)
  self : ∀ i, (env.ref "#" i).ok = true ↔ Valid D env body i

end Spec

section
variable {D : Dialect} {env : Env} {Γ : τ → TypeDef τ} {decl : τ → Decl τ} {I : TypeInfo τ} {w : Nat}

/-! ### What serde writes -/

theorem serialized_option (hG : Declared Γ decl I) {n : Nat} {t : τ} (ho : I.isOption t = true) {j : Json}
    (h : SerializedAt w (FieldObeys env) I.base decl n t j) : j = .null ∨ SerializedAt w (FieldObeys env) I.base decl n (I.base t) j := by
  induction n generalizing t with
  | zero => exact h.elim
  | succ n ih =>
    obtain ⟨u, hu, hb⟩ := hG.option t ho
    obtain ⟨-, h⟩ := h
    rw [hu] at h
    rcases h with h | h
    · exact .inl h
    · rw [hb]
      cases hou : I.isOption u with
      | true => exact (ih hou h).imp id serializedAt_succ
      | false => rw [hG.base u hou]; exact .inr (serializedAt_succ h)

theorem serialized_facts (hG : Declared Γ decl I) (n : Nat) : SerdeFacts (SerializedAt w (FieldObeys env) I.base decl n) (FieldObeys env) decl I := by
  induction n with
  | zero => exact ⟨fun _ _ h => h.elim, fun _ _ _ _ h => h.elim, fun _ _ _ h => h.elim, fun _ _ _ _ h => h.elim, hG.base,
      fun _ _ _ _ _ h => h.elim⟩
  | succ n ih =>
    refine ⟨fun _ _ h => h.1, fun t ns hn j h => ?_, fun t ho j h => serialized_option hG ho h, fun t c hd j h => ?_,
      hG.base, fun t k v hd j h => ?_⟩
    rotate_left
    · obtain ⟨-, h⟩ := h
      rw [hd] at h
      exact encContainer_mono (fun _ _ => serializedAt_succ) (fun _ _ _ hx => hx) h
    · obtain ⟨-, h⟩ := h
      rw [hd] at h
      obtain ⟨o, rfl, ho⟩ := h
      exact ⟨o, rfl, fun e he => serializedAt_succ (ho e he).2⟩
    obtain ⟨c, fs, hd, hc, hf⟩ := hn
    obtain ⟨-, h⟩ := h
    rw [hd] at h
    have h : EncContainer (SerializedAt w (FieldObeys env) I.base decl n) (FieldObeys env) I.base decl c j := h
    unfold EncContainer at h
    rw [hc.noWith, hc.noTransparent, hc.noInto, hc.data] at h
    obtain ⟨o, he, o', rfl, hp⟩ := h
    exact ⟨o', rfl, fun e he' => enc_names ih he hf e (hp.mem_iff.1 he')⟩

/-! ### The answers of a run -/

/-- The answers of a run, to any depth. -/
def levels (W : World τ) (A : Answers τ) : Prop := ∃ k, A = W.answers (Produced W k)

theorem produced_ran {W : World τ} (hG : Declared W.Γ decl I) {k : Nat} {t : τ} {s : Json} (h : Produced W k t s) :
    RanBody (levels W) I decl t s := by
  cases k with
  | zero => exact h.elim
  | succ k => exact ⟨_, ⟨k, rfl⟩, by rw [← hG.body]; exact h⟩

theorem produced_unit {W : World τ} (hG : Declared W.Γ decl I) {k : Nat} {s : Json} (h : Produced W k I.unit s) :
    s = nullSchema := by
  cases k with
  | zero => exact h.elim
  | succ k =>
    have h : Returns (W.answers (Produced W k)) (W.Γ I.unit).body s := h
    rw [hG.body, hG.unit] at h
    exact h

theorem answers_unit {W : World τ} (hG : Declared W.Γ decl I) {k : Nat} {s : Json}
    (h : (W.answers (Produced W k)).sub I.unit s) : s = nullSchema := by
  rcases h with ⟨-, h⟩ | ⟨h, -⟩
  · exact produced_unit hG h
  · rw [hG.unitInline] at h; cases h

theorem answers_ref {W : World τ} {k : Nat} {t : τ} {s : Json} (h : (W.answers (Produced W k)).sub t s) :
    Produced W k t s ∨ ∃ r, s = Schema.newRef r := by
  rcases h with ⟨-, h⟩ | ⟨-, ⟨n, -, -, rfl⟩ | ⟨-, rfl⟩⟩
  · exact .inl h
  · exact .inr ⟨_, rfl⟩
  · exact .inr ⟨_, rfl⟩

/-- `allow_null` works on every schema of a run. -/
theorem produced_nullable {W : World τ} (hM : Modern D env) (hG : Declared W.Γ decl I)
    (hok : ∀ t, WideDecl decl I (decl t)) (hser : W.settings.contract = .serialize)
    (hraw : ∀ n d, Obj.get W.defs n = some d → env.ref (rawRef W.settings.definitionsPath.toList n) = den D env d)
    {m : Nat} :
    ∀ {t : τ} {s : Json}, Produced W m t s → Nullable D env s := by
  induction m using Nat.strongRecOn with
  | ind m ih =>
  intro t s h
  cases m with
  | zero => exact h.elim
  | succ m =>
    have h : Returns (W.answers (Produced W m)) (W.Γ t).body s := h
    rw [hG.body] at h
    let F : Answers τ → Prop := fun A => ∃ k, k ≤ m ∧ A = W.answers (Produced W k)
    have hsub : ∀ A, F A → ∀ t s, A.sub t s → Nullable D env s := by
      rintro _ ⟨k, hk, rfl⟩ t s h
      rcases answers_ref h with h | ⟨r, rfl⟩
      · exact ih k (Nat.lt_succ_of_le hk) h
      · exact nullable_ref r
    have hran : ∀ k, k ≤ m → ∀ t s, Produced W k t s → RanBody F I decl t s := by
      intro k hk t s h
      cases k with
      | zero => exact h.elim
      | succ k => exact ⟨_, ⟨k, Nat.le_of_succ_le hk, rfl⟩, by rw [← hG.body]; exact h⟩
    have hF : Sound D env (fun _ _ => False) decl I F := {
      wf := fun _ _ h => h.elim
      names := fun _ _ _ _ h => h.elim
      option := fun _ _ _ h => h.elim
      derived := fun _ _ _ _ h => h.elim
      base := hG.base
      map := fun _ _ _ _ _ h => h.elim
      refs := hM.refs
      ser := by rintro _ ⟨k, hk, rfl⟩; exact hser
      nullSub := hsub
      nullDirect := by rintro _ ⟨k, hk, rfl⟩ t s h; exact ih k (Nat.lt_succ_of_le hk) h
      sub := fun _ _ _ _ _ _ h => h.elim
      direct := fun _ _ _ _ _ _ h => h.elim
      unit := by rintro _ ⟨k, hk, rfl⟩ s h; exact answers_unit hG h
      defs := by
        rintro _ ⟨k, hk, rfl⟩ d hd n m' hm
        have := hd n m' hm
        exact hraw n _ this
      ran := by rintro _ ⟨k, hk, rfl⟩ t s h; exact hran k hk t s h
      ranSub := by
        rintro _ ⟨k, hk, rfl⟩ t s h
        rcases answers_ref h with h | ⟨r, rfl⟩
        · exact .inl (hran k hk t s h)
        · exact .inr ⟨r, rfl, fun _ h => h.elim⟩ }
    exact (wide_body_accepts (w := 0) hM hF ⟨m, Nat.le_refl m, rfl⟩ (hok t) h).1

/-- What is known of the definitions of a run, and of the schema of the root type. -/
structure Finished (W : World τ) (n : Nat) (root : τ) (body : Json) : Prop where
  body : Produced W n root body
  defs : ∀ name d, Obj.get W.defs name = some d → ∃ t', Produced W n t' d ∧ (W.uid t', name) ∈ W.names
  names : ∀ u u' name, (u, name) ∈ W.names → (u', name) ∈ W.names → u = u'

/-- The target of a reference to the type `t` is a schema made by the body of `t`. -/
theorem answers_target {W : World τ} {root : τ} {body : Json} {N : Nat} (hG : Declared W.Γ decl I)
    (hR : Follows D env W root body) (hW : Finished W N root body) {k : Nat} {t : τ} {s : Json}
    (h : (W.answers (Produced W k)).sub t s) : Produced W k t s ∨
    ∃ r v, s = Schema.newRef r ∧ (∀ i, (env.ref r i).ok = true ↔ Valid D env v i) ∧ RanBody (levels W) I decl t v := by
  have same : ∀ {t t' v}, W.uid t' = W.uid t → RanBody (levels W) I decl t' v → RanBody (levels W) I decl t v := by
    intro t t' v hu h
    have : decl t' = decl t := hG.ids _ _ (congrArg Prod.fst hu)
    unfold RanBody at h ⊢
    rwa [this] at h
  rcases h with ⟨-, h⟩ | ⟨-, ⟨n, hn, ⟨d, hd⟩, rfl⟩ | ⟨hr, rfl⟩⟩
  · exact .inl h
  · refine .inr ⟨_, d, rfl, fun i => ?_, ?_⟩
    · rw [hR.defs n d hd]; rfl
    · obtain ⟨t', h1, h2⟩ := hW.defs n d hd
      exact same (hW.names _ _ _ h2 hn) (produced_ran hG h1)
  · refine .inr ⟨_, body, rfl, hR.self, ?_⟩
    have : W.uid root = W.uid t := by
      have := hR.root.symm.trans hr
      exact Option.some.inj this
    exact same this (produced_ran hG hW.body)

/-- The schemas of a run accept what serde writes. -/
theorem levels_sound {W : World τ} {root : τ} {body : Json} {N : Nat} (hM : Modern D env) (hG : Declared W.Γ decl I)
    (hok : ∀ t, WideDecl decl I (decl t)) (hser : W.settings.contract = .serialize)
    (hraw : ∀ n d, Obj.get W.defs n = some d → env.ref (rawRef W.settings.definitionsPath.toList n) = den D env d) (hR : Follows D env W root body)
    (hW : Finished W N root body) (n : Nat) : Sound D env (SerializedAt w (FieldObeys env) I.base decl n) decl I (levels W) := by
  induction n with
  | zero => ?_
  | succ n ih => ?_
  all_goals
    refine { toSerdeFacts := serialized_facts hG _, refs := hM.refs, ser := ?_, nullSub := ?_, nullDirect := ?_, sub := ?_,
             direct := ?_, unit := ?_, defs := ?_, ran := ?_, ranSub := ?_ }
    · rintro _ ⟨k, rfl⟩; exact hser
    · rintro _ ⟨k, rfl⟩ t s h
      rcases answers_ref h with h | ⟨r, rfl⟩
      · exact produced_nullable hM hG hok hser hraw h
      · exact nullable_ref r
    · rintro _ ⟨k, rfl⟩ t s h; exact produced_nullable hM hG hok hser hraw h
    rotate_left 2
    · rintro _ ⟨k, rfl⟩ s h; exact answers_unit hG h
    · rintro _ ⟨k, rfl⟩ d hd n m' hm
      have := hd n m' hm
      exact hraw n _ this
    · rintro _ ⟨k, rfl⟩ t s h; exact produced_ran hG h
    · rintro _ ⟨k, rfl⟩ t s h
      rcases answers_target hG hR hW h with h | ⟨r, v, rfl, h1, h2⟩
      · exact .inl (produced_ran hG h)
      · exact .inr ⟨r, rfl, fun _ _ => ⟨v, h1, h2⟩⟩
  · exact fun _ _ _ _ _ _ h => h.elim
  · exact fun _ _ _ _ _ _ h => h.elim
  · have key : ∀ {t s j}, RanBody (levels W) I decl t s → SerializedAt w (FieldObeys env) I.base decl (n + 1) t j → Valid D env s j := by
      rintro t s j ⟨A, hA, h⟩ ⟨hj, he⟩
      exact (wide_body_accepts hM ih hA (hok t) h).2 j hj he
    rintro _ ⟨k, rfl⟩ t s h j hj
    rcases answers_target hG hR hW h with h | ⟨r, v, rfl, h1, h2⟩
    · exact key (produced_ran hG h) hj
    · rw [valid_newRef hM.refs h1]
      exact key h2 hj
  · rintro _ ⟨k, rfl⟩ t s h j ⟨hj, he⟩
    obtain ⟨A, hA, h⟩ := produced_ran hG (show Produced W k t s from h)
    exact (wide_body_accepts hM ih hA (hok t) h).2 j hj he

/-- The schema that the body of the root type returns accepts what serde writes for it. -/
theorem world_accepts {W : World τ} {root : τ} {body : Json} {N : Nat} (hM : Modern D env) (hG : Declared W.Γ decl I)
    (hok : ∀ t, WideDecl decl I (decl t)) (hser : W.settings.contract = .serialize)
    (hraw : ∀ n d, Obj.get W.defs n = some d → env.ref (rawRef W.settings.definitionsPath.toList n) = den D env d) (hR : Follows D env W root body)
    (hW : Finished W N root body) {j : Json} (h : SerializedIf w (FieldObeys env) I.base decl root j) : Valid D env body j := by
  obtain ⟨n, h⟩ := h
  exact (levels_sound hM hG hok hser hraw hR hW n).direct _ ⟨N, rfl⟩ _ _ hW.body _ h

/-! ### The root document -/

theorem pctOctets_append {s : List Char} (h : '%' ∉ s) (t : List Char) : pctOctets (s ++ t) = utf8 s ++ pctOctets t := by
  induction s with
  | nil => rfl
  | cons c s ih =>
    simp only [List.mem_cons, not_or] at h
    rw [List.cons_append, pctOctets_ne (Ne.symm h.1), ih h.2, utf8_cons, List.append_assoc]

/-- The reference that is made for a definition refers to the place of the definition. -/
theorem refersTo_definition {path : String} {segs : List String} {doc d : Json} {name : String}
    (hpath : PathDenotes path segs) (hpct : '%' ∉ renderPointer segs) (hname : ∀ c ∈ name.toList, 0x10 ≤ c.toNat)
    (h : At doc (segs ++ [name]) d) : RefersTo doc (refFor path.toList name) d := by
  have hpath' : definitionsPathStripped path.toList = renderPointer segs := hpath
  refine ⟨segs ++ [name], _, h, by rw [refFor, String.toList_ofList, List.cons_append], ?_⟩
  rw [hpath', pctOctets_append hpct, pctOctets_ne (by decide), pctOctets_encode hname, renderPointer_append]
  simp [renderPointer]

set_option maxRecDepth 100000 in
/-- The encoded text has no control characters. -/
theorem encodeByte_ge (b : UInt8) : ∀ c ∈ encodeByte b, 0x10 ≤ c.toNat := by
  have h : ∀ n : Fin 256, ∀ c ∈ encodeByte (UInt8.ofNat n), 0x10 ≤ c.toNat := by decide
  have := h ⟨b.toNat, b.toNat_lt⟩
  simpa using this

theorem escapeToken_plain {s : List Char} (h : ∀ c ∈ s, c ≠ '~' ∧ c ≠ '/') : escapeToken s = s := by
  induction s with
  | nil => rfl
  | cons c s ih =>
    obtain ⟨h1, h2⟩ := h c (.head _)
    have ih := ih fun c hc => h c (.tail _ hc)
    unfold escapeToken at ih ⊢
    rw [List.flatMap_cons, ih, if_neg h1, if_neg h2]
    rfl

/-- Also the name as it is, unless it has characters with a meaning. -/
theorem refersTo_raw {path : String} {segs : List String} {doc d : Json} {name : String}
    (hpath : PathDenotes path segs) (hpct : '%' ∉ renderPointer segs) (hname : PlainName name)
    (h : At doc (segs ++ [name]) d) : RefersTo doc (rawRef path.toList name) d := by
  have hpath' : definitionsPathStripped path.toList = renderPointer segs := hpath
  refine ⟨segs ++ [name], _, h, by rw [rawRef, String.toList_ofList, List.cons_append], ?_⟩
  have hn : '%' ∉ name.toList := fun hc => (hname _ hc).2.1 rfl
  rw [hpath', pctOctets_append hpct, pctOctets_ne (by decide), ← List.append_nil name.toList, pctOctets_append hn,
    renderPointer_append]
  simp only [renderPointer, List.flatMap_cons, List.flatMap_nil, escapeToken_plain fun c hc => (hname c hc).2.2,
    List.append_nil, utf8_append, utf8_cons, show pctOctets [] = [] by unfold pctOctets; rfl]

theorem noRoot_bodyOf (d : Decl τ) : NoRoot (bodyOf I d) := by
  cases d with
  | std x => exact noRoot_std x
  | derived c => exact noRoot_container c

theorem valid_ensureObject {s : Json} {m : List (String × Json)} (h : Schema.ensureObject s = some m) {i : Json} :
    Valid D env (.obj m) i ↔ Valid D env s i := by
  cases s with
  | bool b =>
    cases b with
    | true => cases h; exact ⟨fun _ => rfl, fun _ => valid_emptySchema⟩
    | false => cases h; exact ⟨fun h => absurd h valid_notTrue, fun h => by cases h⟩
  | obj m' => cases h; exact Iff.rfl
  | _ => cases h

theorem valid_rootObject (hD : D.refSiblings = true) {m : List (String × Json)} (hm : Obj.Sorted m) (t : τ)
    (ms : Option String) {i : Json} : Obj.Sorted (rootObject Γ t ms m) ∧
      (Valid D env (.obj (rootObject Γ t ms m)) i ↔ Valid D env (.obj m) i) := by
  have h1 : ∀ m1, Obj.Sorted m1 → (Valid D env (.obj m1) i ↔ Valid D env (.obj m) i) →
      Obj.Sorted (match ms with | some ms => Obj.insert m1 "$schema" (.str ms) | none => m1) ∧
      (Valid D env (.obj (match ms with | some ms => Obj.insert m1 "$schema" (.str ms) | none => m1)) i ↔
        Valid D env (.obj m) i) := by
    intro m1 hs hv
    cases ms with
    | none => exact ⟨hs, hv⟩
    | some ms => exact ⟨Obj.sorted_insert hs _ _, (valid_insert_annotation (by decide) hs (.inl hD) _).trans hv⟩
  unfold rootObject
  cases ht : Obj.get m "title" with
  | some v => exact h1 m hm Iff.rfl
  | none => exact h1 _ (Obj.sorted_insert hm _ _) (valid_insert_annotation (by decide) hm (.inl hD) _)

/-- Adding definitions under `$defs` or `definitions`, if nothing is in the way. -/
theorem addDefinitions_annotation (hD : D.refSiblings = true) {path k : String} (hk : k = "$defs" ∨ k = "definitions")
    (hpath : PathDenotes path [k]) {m defs : List (String × Json)} (hm : Obj.Sorted m) {i : Json} :
    Valid D env (.obj (addDefinitions path.toList m defs)) i ↔ Valid D env (.obj m) i := by
  have hk' : k ∈ annotations := by rcases hk with rfl | rfl <;> decide
  by_cases hne : defs = []
  · rw [hne, C05_empty]
  · rw [addDefinitions_eq hpath (by simp) (by rcases hk with rfl | rfl <;> simp) hne]
    unfold objAtMut
    split
    · simp only [objAtMut, Option.map_some, Option.getD_some]
      exact valid_insert_annotation hk' hm (.inl hD) _
    · rfl
    · simp only [objAtMut, Option.map_some, Option.getD_some]
      exact valid_insert_annotation hk' hm (.inl hD) _

/-- The document before the transforms accepts what the schema of the root type does, if the references are followed
in it. -/
theorem root_body (hM : Modern D env) {t : τ} {st : Settings} {names : List ((String × Contract) × String)}
    {defs : List (String × Json)} {body : Json} {m : List (String × Json)} (hm : Schema.ensureObject body = some m)
    (hadd : ∀ o, Obj.Sorted o → ∀ i, Valid D env (.obj (addDefinitions st.definitionsPath.toList o defs)) i ↔
      Valid D env (.obj o) i)
    (hsch : Sch body)
    (href : ∀ name d, Obj.get defs name = some d → env.ref (refFor st.definitionsPath.toList name) = den D env d)
    (hself : env.ref "#" =
      den D env (.obj (addDefinitions st.definitionsPath.toList (rootObject Γ t st.metaSchema m) defs))) :
    Follows D env ⟨Γ, st, names, defs, some ((Γ t).schemaId, st.contract)⟩ t body ∧
    ∀ i, Valid D env (.obj (addDefinitions st.definitionsPath.toList (rootObject Γ t st.metaSchema m) defs)) i ↔
      Valid D env body i := by
  have hsort : Obj.Sorted m := by
    obtain ⟨m', e, hs⟩ := hsch.ensureObject
    rw [hm] at e
    cases e; exact hs
  have hvalid : ∀ i, Valid D env (.obj (addDefinitions st.definitionsPath.toList (rootObject Γ t st.metaSchema m) defs)) i ↔
      Valid D env body i := by
    intro i
    obtain ⟨h1, h2⟩ := valid_rootObject (D := D) (env := env) (Γ := Γ) hM.refs hsort t st.metaSchema (i := i)
    rw [hadd _ h1, h2, valid_ensureObject hm]
  exact ⟨⟨href, rfl, fun i => by rw [hself]; exact hvalid i⟩, hvalid⟩

/-- The root schema for settings without transforms accepts what the schema of the root type does, if references are
followed. -/
theorem root_document_of (hM : Modern D env) (hΓ : ∀ t, NoRoot (Γ t).body) {n : Nat} {t : τ}
    {st : Settings} {r : Json} {g' : Gen τ} (h : rootSchemaFor Γ (run Γ n) t (Gen.new st) = some (r, g'))
    (hst : st.transforms = []) {k : String} (hk : k = "$defs" ∨ k = "definitions")
    (hpath : PathDenotes st.definitionsPath [k]) (hfree : g'.defs ≠ [] → ∃ ds, At r [k] (.obj ds))
    (hplain : ∀ name d, Obj.get g'.defs name = some d → PlainName name) (hR : Resolves D env r) :
    let W : World τ := ⟨Γ, st, g'.names, g'.defs, some ((Γ t).schemaId, st.contract)⟩
    ∃ body, Finished W n t body ∧
      (∀ name d, Obj.get g'.defs name = some d → env.ref (rawRef st.definitionsPath.toList name) = den D env d) ∧
      (Sch body → Follows D env W t body ∧ ∀ i, Valid D env r i ↔ Valid D env body i) := by
  have hinv := (rootSchemaFor_kept (run_keeps Γ n) h).sorted Obj.sorted_nil
  obtain ⟨body, m, hm, hr, hbody, hdefs, hnames⟩ := root_world hΓ h
  rw [hst] at hr
  have hr : r = .obj (addDefinitions st.definitionsPath.toList (rootObject Γ t st.metaSchema m) g'.defs) := hr
  have hk1 : [k] ≠ [""] := by rcases hk with rfl | rfl <;> simp
  have hk2 : '%' ∉ renderPointer [k] := by rcases hk with rfl | rfl <;> decide
  -- the definitions are in the document
  have hfree' : g'.defs ≠ [] → PathFree (rootObject Γ t st.metaSchema m) [k] := by
    intro hne p x hp hpr hx
    cases p with
    | nil => exact absurd rfl hp
    | cons k' p =>
      simp only [List.cons_prefix_cons, List.prefix_nil] at hpr
      obtain ⟨rfl, rfl⟩ := hpr
      by_contra hno
      have hno : ∀ n, x ≠ .obj n := fun n e => hno ⟨n, e⟩
      rw [C05_obstructed st.definitionsPath [k'] [k'] x _ g'.defs hpath (by simp) hk1 (by simp) (List.prefix_refl _)
        hx hno] at hr
      obtain ⟨ds, hds⟩ := hfree hne
      rw [hr] at hds
      cases hx with
      | member h1 h2 =>
        cases h2
        cases hds with
        | member h3 h4 =>
          cases h4
          rw [h1] at h3
          exact hno _ (Option.some.inj h3)
  have hat : ∀ name d, Obj.get g'.defs name = some d → At r ([k] ++ [name]) d := by
    intro name d hd
    have hne : g'.defs ≠ [] := by rintro e; rw [e] at hd; cases hd
    obtain ⟨ds, h1, h2, -⟩ := C05_target st.definitionsPath [k] _ g'.defs hpath (by simp) hk1 (hfree' hne)
      (Obj.sorted_nodup hinv) hne
    rw [hr]
    exact At_append h1 (.member (h2 name d hd) (.here _))
  have href : ∀ name d, Obj.get g'.defs name = some d →
      env.ref (refFor st.definitionsPath.toList name) = den D env d := fun name d hd =>
    hR _ _ (refersTo_definition hpath hk2 (fun c hc => (hplain name d hd c hc).1) (hat name d hd))
  have hraw : ∀ name d, Obj.get g'.defs name = some d →
      env.ref (rawRef st.definitionsPath.toList name) = den D env d := fun name d hd =>
    hR _ _ (refersTo_raw hpath hk2 (hplain name d hd) (hat name d hd))
  have hself : env.ref "#" = den D env r := hR _ _ ⟨[], [], .here _, rfl, rfl⟩
  rw [hr] at hself ⊢
  exact ⟨body, ⟨hbody, hdefs, hnames⟩, hraw, fun hsch => root_body hM hm
    (fun _ ho _ => addDefinitions_annotation hM.refs hk hpath ho) hsch href hself⟩

theorem root_document (hM : Modern D env) (hG : Declared Γ decl I) {n : Nat} {t : τ}
    {st : Settings} {r : Json} {g' : Gen τ} (h : rootSchemaFor Γ (run Γ n) t (Gen.new st) = some (r, g'))
    (hst : st.transforms = []) {k : String} (hk : k = "$defs" ∨ k = "definitions")
    (hpath : PathDenotes st.definitionsPath [k]) (hfree : g'.defs ≠ [] → ∃ ds, At r [k] (.obj ds))
    (hplain : ∀ name d, Obj.get g'.defs name = some d → PlainName name) (hR : Resolves D env r) :
    let W : World τ := ⟨Γ, st, g'.names, g'.defs, some ((Γ t).schemaId, st.contract)⟩
    ∃ body, Finished W n t body ∧
      (∀ name d, Obj.get g'.defs name = some d → env.ref (rawRef st.definitionsPath.toList name) = den D env d) ∧
      (Sch body → Follows D env W t body ∧ ∀ i, Valid D env r i ↔ Valid D env body i) :=
  root_document_of hM (fun t => by rw [hG.body]; exact noRoot_bodyOf _) h hst hk hpath hfree hplain hR

/-- C45 (`_partial`: for the settings without transforms, for declarations that satisfy `WideDecl`, and for definition
names without characters that have a meaning in references (`PlainName`); see `C45_Full`): the root schema made under
the `Serialize` contract accepts every document that serde may write for a value of the type whose fields obey their
validation attributes, if references are followed. -/
theorem C45_root_partial (hM : Modern D env) (hG : Declared Γ decl I) (hok : ∀ t, WideDecl decl I (decl t)) {n : Nat} {t : τ}
    {st : Settings} {r : Json} {g' : Gen τ} (h : rootSchemaFor Γ (run Γ n) t (Gen.new st) = some (r, g'))
    (hst : st.transforms = []) (hser : st.contract = .serialize) {k : String} (hk : k = "$defs" ∨ k = "definitions")
    (hpath : PathDenotes st.definitionsPath [k]) (hfree : g'.defs ≠ [] → ∃ ds, At r [k] (.obj ds))
    (hplain : ∀ name d, Obj.get g'.defs name = some d → PlainName name) (hR : Resolves D env r) {j : Json}
    (hj : SerializedIf w (FieldObeys env) I.base decl t j) : Valid D env r j := by
  obtain ⟨body, hW, hraw, hroot⟩ := root_document hM hG h hst hk hpath hfree hplain hR
  obtain ⟨h1, h2⟩ := hroot (produced_nullable hM hG hok hser hraw hW.body).sch
  rw [h2]
  exact world_accepts hM hG hok hser hraw h1 hW hj

end

end Verif
