import Verif.Lemmas.OasPlan
import Verif.Props.Transforms
import Verif.Props.Uneval
import Verif.Props.RootDocument
import Verif.Props.AcceptsPipelines

/-!
# C82: the transforms of the `openapi3` settings give schemas of OpenAPI 3.0
-/

namespace Verif
open Spec

section
variable {E E' : List String} {n n' r r' u u' c : Bool} {m : List (String × Json)} {s : Json}

theorem Spec.OasParts.stage (hw : OasWords E n r m) (hp : OasParts u (OasStage E n r u) c m) : OasStage E n r u c (.obj m) :=
  .obj hw hp.uneval hp.closed hp.one hp.array hp.list hp.object hp.members hp.additional

theorem Spec.OasStage.isSchema (h : OasStage E n r u c s) : IsSchema s := by
  cases h with
  | bool b => exact .bool b
  | obj => exact .obj _

theorem isSchema_isSchema {s : Json} (h : IsSchema s) : isSchema s = true := by cases h <;> rfl

/-- The traversal keeps the words. -/
theorem Spec.OasWords.tsub (h : OasWords E n r m) (T : Json → Json) : OasWords E n r (m.map (entryMap subSlot T)) := by
  have hg : ∀ k v, Obj.get (m.map (entryMap subSlot T)) k = some v → ∃ w, Obj.get m k = some w := by
    intro k v hk
    rw [get_entryMap] at hk
    cases hg : Obj.get m k with
    | none => rw [hg] at hk; cases hk
    | some w => exact ⟨w, rfl⟩
  refine ⟨fun k v hk => ?_, fun ty ht => ?_, fun x hx => ?_⟩
  · obtain ⟨w, hw⟩ := hg k v hk
    exact h.keys k w hw
  · rw [get_entryMap_skip _ (by decide)] at ht; exact h.type ty ht
  · rw [get_entryMap_skip _ (by decide)] at hx
    refine ⟨(h.ref x hx).1, fun hr k v hk => ?_⟩
    obtain ⟨w, hw⟩ := hg k v hk
    exact (h.ref x hx).2 hr k w hw

theorem atSchema_of {T : Json → Json} {v : Json} (h : IsSchema v) : atSchema T v = T v := by
  unfold atSchema; rw [isSchema_isSchema h]; rfl

/-- The traversal hands the subschemas to the transform. -/
theorem Spec.OasParts.tsub {S S' : Bool → Json → Prop} {T : Json → Json} (h : OasParts u S c m)
    (hS : ∀ c v, S c v → IsSchema v ∧ S' c (T v)) (hu : u = true → ∀ v, S false v → S' false v)
    (hb : ∀ b, Obj.get m "additionalProperties" = some (.bool b) → T (.bool b) = .bool b) : OasParts u S' c (m.map (entryMap subSlot T)) := by
  have hitems : ∀ v, IsSchema v → atSlot T .items v = T v := by
    intro v hv; cases hv <;> exact atSchema_of (by constructor)
  refine ⟨fun v hv => ?_, fun v hv hn => ?_, fun k hk v hv => ?_, fun k hk v hv => ?_, fun k hk l hl x hx => ?_, fun v hv => ?_,
    fun p hp e he => ?_, fun v hv hn => ?_⟩
  · rw [get_entryMap_skip _ (by decide)] at hv; exact h.uneval v hv
  · rw [get_entryMap_skip _ (by decide)] at hv; exact hu (h.uneval v hv).1 v (h.closed v hv hn)
  · rw [get_entryMap] at hv
    obtain ⟨w, hw, rfl⟩ := Option.map_eq_some_iff.1 hv
    obtain ⟨h1, h2⟩ := hS c w (h.one k hk w hw)
    simp only [List.mem_cons, List.not_mem_nil, or_false] at hk
    rcases hk with rfl | rfl
    · show S' c (atSchema T w); rw [atSchema_of h1]; exact h2
    · show S' c (atSlot T .items w); rw [hitems w h1]; exact h2
  · rw [get_entryMap] at hv
    obtain ⟨w, hw, rfl⟩ := Option.map_eq_some_iff.1 hv
    obtain ⟨l, rfl⟩ := h.array k hk w hw
    simp only [List.mem_cons, List.not_mem_nil, or_false] at hk
    rcases hk with rfl | rfl | rfl <;> exact ⟨_, rfl⟩
  · rw [get_entryMap] at hl
    obtain ⟨w, hw, h2⟩ := Option.map_eq_some_iff.1 hl
    obtain ⟨l', rfl⟩ := h.array k hk w hw
    have hs : subSlot k = .list := by
      simp only [List.mem_cons, List.not_mem_nil, or_false] at hk
      rcases hk with rfl | rfl | rfl <;> decide
    rw [hs] at h2
    simp only [atSlot, Json.arr.injEq] at h2
    subst h2
    obtain ⟨y, hy, rfl⟩ := List.mem_map.1 hx
    obtain ⟨h3, h4⟩ := hS c y (h.list k hk l' hw y hy)
    rw [atSchema_of h3]; exact h4
  · rw [get_entryMap] at hv
    obtain ⟨w, hw, rfl⟩ := Option.map_eq_some_iff.1 hv
    obtain ⟨p, rfl⟩ := h.object w hw
    exact ⟨_, rfl⟩
  · rw [get_entryMap] at hp
    obtain ⟨w, hw, h2⟩ := Option.map_eq_some_iff.1 hp
    obtain ⟨p', rfl⟩ := h.object w hw
    rw [show subSlot "properties" = .map from by decide] at h2
    simp only [atSlot, Json.obj.injEq] at h2
    subst h2
    obtain ⟨y, hy, rfl⟩ := List.mem_map.1 he
    obtain ⟨h3, h4⟩ := hS c y.2 (h.members p' hw y hy)
    show S' c (atSchema T y.2)
    rw [atSchema_of h3]; exact h4
  · rw [get_entryMap] at hv
    obtain ⟨w, hw, rfl⟩ := Option.map_eq_some_iff.1 hv
    change ∀ b, atSchema T w ≠ .bool b at hn
    show S' false (atSchema T w)
    by_cases hw' : ∃ b, w = .bool b
    · obtain ⟨b, rfl⟩ := hw'
      exact absurd ((atSchema_of (.bool b)).trans (hb b hw)) (hn b)
    · obtain ⟨h3, h4⟩ := hS false w (h.additional w hw fun b e => hw' ⟨b, e⟩)
      rw [atSchema_of h3]; exact h4

/-- A transform that acts after its subschemas leads from one stage to the next if it does so with every object. -/
theorem stage_post {f : Json → Json} (hb : ∀ b, f (.bool b) = .bool b)
    (hf : ∀ c m, OasWords E n r m → OasParts u (OasStage E' n' r' u') c m → OasStage E' n' r' u' c (f (.obj m)))
    (hu : u = true → ∀ v, OasStage E n r u false v → OasStage E' n' r' u' false v)
    (h : OasStage E n r u c s) : OasStage E' n' r' u' c (postOrder f s) := by
  have hbool : ∀ b, postOrder f (.bool b) = .bool b := fun b => by rw [postOrder_eq f (.bool b)]; exact hb b
  induction h with
  | bool b => rw [hbool]; exact .bool b
  | @obj c m hw h1 h0 h2 h3 h4 h5 h6 h7 i0 i2 i4 i6 i7 =>
    rw [postOrder_eq f (.obj m), tsub_obj]
    refine hf c _ (hw.tsub _) (OasParts.tsub (S := fun c v => OasStage E n r u c v ∧ OasStage E' n' r' u' c (postOrder f v)) ?_
      (fun c v h => ⟨h.1.isSchema, h.2⟩) (fun e v h => hu e v h.1) fun b _ => hbool b)
    exact ⟨h1, fun v hv hn => ⟨h0 v hv hn, i0 v hv hn⟩, fun k hk v hv => ⟨h2 k hk v hv, i2 k hk v hv⟩, h3, fun k hk l hl x hx => ⟨h4 k hk l hl x hx, i4 k hk l hl x hx⟩,
      h5, fun p hp e he => ⟨h6 p hp e he, i6 p hp e he⟩, fun v hv hn => ⟨h7 v hv hn, i7 v hv hn⟩⟩

/-- The subschemas are the same if the keywords that hold them have the same values. -/
theorem Spec.OasParts.congr {S : Bool → Json → Prop} {m' : List (String × Json)} (h : OasParts u S c m)
    (hg : ∀ k ∈ ["unevaluatedProperties", "not", "items", "allOf", "anyOf", "oneOf", "properties", "additionalProperties"],
      Obj.get m' k = Obj.get m k) : OasParts u S c m' := by
  simp only [List.mem_cons, List.not_mem_nil, or_false, forall_eq_or_imp, forall_eq] at hg
  obtain ⟨g1, g2, g3, g4, g5, g6, g7, g8⟩ := hg
  refine ⟨fun v hv => h.uneval v (g1 ▸ hv), fun v hv => h.closed v (g1 ▸ hv), fun k hk v hv => h.one k hk v ?_, fun k hk v hv => h.array k hk v ?_,
    fun k hk l hl => h.list k hk l ?_, fun v hv => h.object v (g7 ▸ hv), fun p hp => h.members p (g7 ▸ hp),
    fun v hv => h.additional v (g8 ▸ hv)⟩ <;>
  · simp only [List.mem_cons, List.not_mem_nil, or_false] at hk
    rcases hk with rfl | rfl | rfl <;> simp_all

/-- Another member that is not a subschema keyword. -/
theorem Spec.OasWords.insert (h : OasWords E n r m) {k : String} (v : Json) (hk : k ∈ oasKeywords ∨ k ∈ E) (ht : k ≠ "type")
    (hr : k ≠ "$ref") (halone : r = false → Obj.get m "$ref" = none) : OasWords E n r (Obj.insert m k v) := by
  refine ⟨fun q w hq => ?_, fun ty hty => ?_, fun x hx => ?_⟩
  · rw [Obj.get_insert] at hq
    split at hq
    · next e => subst e; exact hk.elim .inl fun h => .inr (.inr (.inl h))
    · exact h.keys q w hq
  · rw [Obj.get_insert_ne _ _ ht] at hty; exact h.type ty hty
  · rw [Obj.get_insert_ne _ _ hr] at hx
    exact ⟨(h.ref x hx).1, fun hf => by rw [halone hf] at hx; cases hx⟩

theorem Spec.OasWords.remove (h : OasWords E n r m) {k : String} (hE : ∀ e ∈ E, e ≠ k → e ∈ E') :
    OasWords E' n r (Obj.remove m k) := by
  have hg : ∀ {q w}, Obj.get (Obj.remove m k) q = some w → k ≠ q ∧ Obj.get m q = some w := by
    intro q w hq
    rw [Obj.get_remove] at hq
    split at hq
    · cases hq
    · next e => exact ⟨e, hq⟩
  refine ⟨fun q w hq => ?_, fun ty hty => h.type ty (hg hty).2, fun x hx => ?_⟩
  · obtain ⟨h1, h2⟩ := hg hq
    rcases h.keys q w h2 with h | h | h | h
    · exact .inl h
    · exact .inr (.inl h)
    · exact .inr (.inr (.inl (hE q h (Ne.symm h1))))
    · exact .inr (.inr (.inr h))
  · exact ⟨(h.ref x (hg hx).2).1, fun hf q w hq => (h.ref x (hg hx).2).2 hf q w (hg hq).2⟩

/-- Where there are no bools there is no `unevaluatedProperties`. -/
theorem stage_lower (h : OasStage E n r u c s) (hc : c = false) : OasStage E n r false c s := by
  induction h with
  | bool b => cases hc
  | @obj c m hw h1 h0 h2 h3 h4 h5 h6 h7 i0 i2 i4 i6 i7 =>
    have hno : ∀ v, Obj.get m "unevaluatedProperties" ≠ some v := fun v hv => by rw [(h1 v hv).2] at hc; cases hc
    exact .obj hw (fun v hv => absurd hv (hno v)) (fun v hv => absurd hv (hno v)) (fun k hk v hv => i2 k hk v hv hc) h3
      (fun k hk l hl x hx => i4 k hk l hl x hx hc) h5 (fun p hp e he => i6 p hp e he hc) (fun v hv hn => i7 v hv hn rfl)

/-- `ReplaceUnevaluatedProperties`. -/
theorem stage_uneval (h : OasStage E n true u c s) : OasStage E n true false c (replaceUneval s) := by
  refine stage_post (fun b => rfl) (fun c m hw hp => ?_) (fun _ _ h => stage_lower h rfl) h
  rw [replaceUnevalLocal_obj]
  split
  · next up hup =>
    obtain ⟨-, rfl⟩ := hp.uneval up hup
    have hrem : OasWords E n true (Obj.remove m "unevaluatedProperties") := hw.remove fun e he _ => he
    have hins := hrem.insert (k := "additionalProperties") up (.inl (by decide)) (by decide) (by decide) (fun h => by cases h)
    have hparts : OasParts false (OasStage E n true false) true
        (Obj.insert (Obj.remove m "unevaluatedProperties") "additionalProperties" up) := by
      have hg : ∀ k, k ≠ "additionalProperties" → k ≠ "unevaluatedProperties" →
          Obj.get (Obj.insert (Obj.remove m "unevaluatedProperties") "additionalProperties" up) k = Obj.get m k :=
        fun k h1 h2 => by rw [Obj.get_insert_ne _ _ (Ne.symm h1), Obj.get_remove_ne _ (Ne.symm h2)]
      refine ⟨fun v hv => ?_, fun v hv => ?_, fun k hk v hv => hp.one k hk v ?_, fun k hk v hv => hp.array k hk v ?_,
        fun k hk l hl => hp.list k hk l ?_, fun v hv => hp.object v ?_, fun p hp' => hp.members p ?_, fun v hv hn => ?_⟩
      · rw [Obj.get_insert_ne _ _ (by decide), Obj.get_remove_self] at hv; cases hv
      · rw [Obj.get_insert_ne _ _ (by decide), Obj.get_remove_self] at hv; cases hv
      · rwa [hg k (by rintro rfl; revert hk; decide) (by rintro rfl; revert hk; decide)] at hv
      · rwa [hg k (by rintro rfl; revert hk; decide) (by rintro rfl; revert hk; decide)] at hv
      · rwa [hg k (by rintro rfl; revert hk; decide) (by rintro rfl; revert hk; decide)] at hl
      · rwa [hg _ (by decide) (by decide)] at hv
      · rwa [hg _ (by decide) (by decide)] at hp'
      · rw [Obj.get_insert_self] at hv; cases hv; exact hp.closed up hup hn
    have hprops : ∀ p names, (∀ e ∈ p, OasStage E n true false true e.2) →
        OasStage E n true false true (.obj (Obj.insert (Obj.insert (Obj.remove m "unevaluatedProperties") "additionalProperties" up)
          "properties" (.obj (List.foldl entryOrTrue p names)))) := by
      intro p names hmem
      refine OasParts.stage (hins.insert _ (.inl (by decide)) (by decide) (by decide) (fun h => by cases h)) ?_
      have hg : ∀ {k} (v : Json) (m' : List (String × Json)), k ≠ "properties" → Obj.get (Obj.insert m' "properties" v) k = Obj.get m' k :=
        fun v m' h => Obj.get_insert_ne _ _ (Ne.symm h)
      refine ⟨fun v hv => hparts.uneval v ?_, fun v hv => hparts.closed v ?_, fun k hk v hv => hparts.one k hk v ?_, fun k hk v hv => hparts.array k hk v ?_,
        fun k hk l hl => hparts.list k hk l ?_, fun v hv => ?_, fun q hq e he => ?_, fun v hv => hparts.additional v ?_⟩
      · rwa [hg _ _ (by decide)] at hv
      · rwa [hg _ _ (by decide)] at hv
      · rwa [hg _ _ (by rintro rfl; revert hk; decide)] at hv
      · rwa [hg _ _ (by rintro rfl; revert hk; decide)] at hv
      · rwa [hg _ _ (by rintro rfl; revert hk; decide)] at hl
      · rw [Obj.get_insert_self] at hv; cases hv; exact ⟨_, rfl⟩
      · rw [Obj.get_insert_self] at hq; cases hq
        rcases mem_foldl_entryOrTrue he with he | he
        · exact hmem e he
        · rw [he]; exact .bool true
      · rwa [hg _ _ (by decide)] at hv
    unfold unevalMembers
    simp only
    split
    · exact hparts.stage hins
    · split
      · exact hprops [] _ (by simp)
      · next p hp' => exact hprops p _ (hparts.members p hp')
      · exact hparts.stage hins
  · next hnone =>
    refine OasParts.stage (hw.remove fun e he _ => he) ?_
    have hp' := hp.congr (m' := Obj.remove m "unevaluatedProperties") (fun k hk => by
      rw [Obj.get_remove]; split
      · next e => rw [← e, hnone]
      · rfl)
    exact ⟨(fun v hv => by rw [Obj.get_remove_self] at hv; cases hv),
      (fun v hv => by rw [Obj.get_remove_self] at hv; cases hv), hp'.one, hp'.array, hp'.list, hp'.object, hp'.members, hp'.additional⟩

theorem Spec.OasWords.get (h : OasWords E n r m) {m' : List (String × Json)} (hg : ∀ k, Obj.get m' k = Obj.get m k) :
    OasWords E n r m' :=
  ⟨fun k v hk => h.keys k v (hg k ▸ hk), fun ty ht => h.type ty (hg _ ▸ ht), fun x hx =>
    ⟨(h.ref x (hg _ ▸ hx)).1, fun hr k v hk => (h.ref x (hg _ ▸ hx)).2 hr k v (hg k ▸ hk)⟩⟩

theorem words_nil : OasWords E n r [] :=
  ⟨fun _ _ h => by (cases h), fun _ h => by (cases h), fun _ h => by cases h⟩

theorem stage_nil : OasStage E n r u c (.obj []) :=
  .obj words_nil (fun _ h => by cases h) (fun _ h => by cases h) (fun _ _ _ h => by cases h) (fun _ _ _ h => by cases h) (fun _ _ _ h => by cases h)
    (fun _ h => by cases h) (fun _ h => by cases h) (fun _ h => by cases h)

/-- `ReplaceBoolSchemas` without `additionalProperties`. -/
theorem stage_bools (h : OasStage E n r false c s) : OasStage E n r false false (replaceBool true s) := by
  induction h with
  | bool b =>
    rw [replaceBool_bool]
    cases b with
    | true => exact stage_nil
    | false =>
      rw [if_neg (by decide)]
      have hg : ∀ {k v}, Obj.get [("not", Json.obj [])] k = some v → k = "not" ∧ v = .obj [] := by
        intro k v hk
        rw [Obj.get_cons] at hk
        split at hk
        · next e => cases hk; exact ⟨e.symm, rfl⟩
        · cases hk
      have hno : ∀ {k : String} {v} {p : Prop}, k ≠ "not" → Obj.get [("not", Json.obj [])] k = some v → p :=
        fun h1 h2 => absurd (hg h2).1 h1
      refine .obj ⟨fun k v hk => ?_, fun _ h => hno (by decide) h, fun _ h => hno (by decide) h⟩ (fun _ h => hno (by decide) h)
        (fun _ h => hno (by decide) h) (fun k _ v h => by rw [(hg h).2]; exact stage_nil) (fun k hk v h => hno (by rintro rfl; revert hk; decide) h)
        (fun k hk v h => hno (by rintro rfl; revert hk; decide) h) (fun _ h => hno (by decide) h) (fun _ h => hno (by decide) h)
        (fun _ h => hno (by decide) h)
      rw [(hg hk).1]; exact .inl (by decide)
  | @obj c m hw h1 h0 h2 h3 h4 h5 h6 h7 i0 i2 i4 i6 i7 =>
    rw [replaceBool_obj]
    have hsub : ∀ m' : List (String × Json), (∀ k, k ≠ "additionalProperties" → Obj.get m' k = Obj.get m k) →
        Obj.get m' "additionalProperties" = none → ∀ q : List (String × Json),
        (∀ k, k ≠ "additionalProperties" → Obj.get q k = Obj.get (m'.map (entryMap subSlot (replaceBool true))) k) →
        Obj.get q "additionalProperties" = Obj.get m "additionalProperties" → OasStage E n r false false (.obj q) := by
      intro m' hm' hnone q hq hap
      have hq' : ∀ k, k ≠ "additionalProperties" → Obj.get q k = (Obj.get m k).map (atSlot (replaceBool true) (subSlot k)) :=
        fun k hk => by rw [hq k hk, get_entryMap, hm' k hk]
      have hkeys : ∀ {k v}, Obj.get q k = some v → ∃ w, Obj.get m k = some w := by
        intro k v hk
        by_cases e : k = "additionalProperties"
        · subst e; exact ⟨v, hap ▸ hk⟩
        · rw [hq' k e] at hk
          obtain ⟨w, hw, -⟩ := Option.map_eq_some_iff.1 hk
          exact ⟨w, hw⟩
      have hskip : ∀ k, k ≠ "additionalProperties" → subSlot k = .skip → Obj.get q k = Obj.get m k := fun k hk hs => by
        rw [hq k hk, get_entryMap_skip _ hs, hm' k hk]
      have hP : OasParts false (fun _ v => IsSchema v ∧ OasStage E n r false false (replaceBool true v)) false m' := by
        have ht : ∀ {c' v}, OasStage E n r false c' v → IsSchema v := fun h => h.isSchema
        refine ⟨fun v hv => ?_, fun v hv => ?_, fun k hk v hv => ?_, fun k hk v hv => h3 k hk v ?_, fun k hk l hl x hx => ?_,
          fun v hv => h5 v ?_, fun p hp e he => ?_, fun v hv => ?_⟩
        · rw [hm' _ (by decide)] at hv; exact absurd (h1 v hv).1 (by decide)
        · rw [hm' _ (by decide)] at hv; exact absurd (h1 v hv).1 (by decide)
        · rw [hm' _ (by rintro rfl; revert hk; decide)] at hv; exact ⟨ht (h2 k hk v hv), i2 k hk v hv⟩
        · rwa [hm' _ (by rintro rfl; revert hk; decide)] at hv
        · rw [hm' _ (by rintro rfl; revert hk; decide)] at hl; exact ⟨ht (h4 k hk l hl x hx), i4 k hk l hl x hx⟩
        · rwa [hm' _ (by decide)] at hv
        · rw [hm' _ (by decide)] at hp; exact ⟨ht (h6 p hp e he), i6 p hp e he⟩
        · rw [hnone] at hv; cases hv
      have hP' := hP.tsub (S' := fun _ v => OasStage E n r false false v) (T := replaceBool true) (fun _ _ h => h)
        (fun e => by cases e) (fun b hb => by rw [hnone] at hb; cases hb)
      refine OasParts.stage ⟨fun k v hk => ?_, fun ty ht => hw.type ty ?_, fun x hx => ?_⟩ ⟨fun v hv => hP'.uneval v ?_,
        fun v hv => hP'.closed v ?_, fun k hk v hv => hP'.one k hk v ?_, fun k hk v hv => hP'.array k hk v ?_, fun k hk l hl => hP'.list k hk l ?_,
        fun v hv => hP'.object v ?_, fun p hp => hP'.members p ?_, fun v hv hn => h7 v (hap ▸ hv) hn⟩
      · obtain ⟨w, hk⟩ := hkeys hk; exact hw.keys k w hk
      · rwa [hskip _ (by decide) (by decide)] at ht
      · rw [hskip _ (by decide) (by decide)] at hx
        exact ⟨(hw.ref x hx).1, fun hr k v hk => by obtain ⟨w, hk⟩ := hkeys hk; exact (hw.ref x hx).2 hr k w hk⟩
      · rwa [hq _ (by decide)] at hv
      · rwa [hq _ (by decide)] at hv
      · rwa [hq _ (by rintro rfl; revert hk; decide)] at hv
      · rwa [hq _ (by rintro rfl; revert hk; decide)] at hv
      · rwa [hq _ (by rintro rfl; revert hk; decide)] at hl
      · rwa [hq _ (by decide)] at hv
      · rwa [hq _ (by decide)] at hp
    cases hap : Obj.get m "additionalProperties" with
    | some ap =>
      exact hsub (Obj.remove m "additionalProperties") (fun k hk => Obj.get_remove_ne _ (Ne.symm hk)) (Obj.get_remove_self _ _)
        _ (fun k hk => Obj.get_insert_ne _ _ (Ne.symm hk)) (by rw [Obj.get_insert_self, hap])
    | none =>
      exact hsub m (fun _ _ => rfl) hap _ (fun _ _ => rfl) (by rw [get_entryMap, hap]; rfl)

theorem filter_notNull_of_mem {l : List Json} (h : ∀ x ∈ l, x = .str "null") : l.all (fun v => v == .str "null") = true := by
  rw [List.all_eq_true]; intro x hx; rw [h x hx]; rfl

/-- `AddNullable`. -/
theorem stage_nullable (hE : "const" ∈ E) (h : OasStage E true true false c s) :
    OasStage E false true false c (addNullable ⟨true, true⟩ s) := by
  refine stage_post (fun b => addNullableLocal_bool _ b) (fun c m hw hp => ?_) (fun e => by cases e) h
  rw [addNullableLocal_obj]
  have hnu : ∀ {n} (m' : List (String × Json)), OasWords E n true m' → OasWords E n true (Obj.insert m' "nullable" (.bool true)) :=
    fun _ h => h.insert _ (.inl (by decide)) (by decide) (by decide) (fun h => by cases h)
  have hkeep : ∀ (m' : List (String × Json)), (∀ k, k ≠ "type" → k ≠ "nullable" → k ≠ "const" → Obj.get m' k = Obj.get m k) →
      (∀ ty, Obj.get m' "type" = some ty → ∃ t ∈ oasTypes, ty = .str t) → OasStage E false true false c (.obj m') := by
    intro m' hg ht
    refine OasParts.stage ⟨fun k v hk => ?_, fun ty h => .inl (ht ty h), fun x hx => ?_⟩ (hp.congr fun k hk => hg k ?_ ?_ ?_)
    · by_cases h1 : k = "type"
      · subst h1; exact .inl (by decide)
      by_cases h2 : k = "nullable"
      · subst h2; exact .inl (by decide)
      by_cases h3 : k = "const"
      · subst h3; exact .inr (.inr (.inl hE))
      rw [hg k h1 h2 h3] at hk
      exact hw.keys k v hk
    · rw [hg _ (by decide) (by decide) (by decide)] at hx
      exact ⟨(hw.ref x hx).1, fun h => by cases h⟩
    all_goals rintro rfl; revert hk; decide
  have hplain : Obj.get m "type" = none ∨ Schema.hasType (.obj m) "null" = false → OasStage E false true false c (.obj m) := by
    intro hcase
    refine hkeep m (fun _ _ _ _ => rfl) fun ty hty => ?_
    rcases hw.type ty hty with h | ⟨-, h⟩
    · exact h
    · rcases hcase with e | e
      · rw [e] at hty; cases hty
      · rcases h with rfl | ⟨l, rfl, hl, -⟩
        · simp [Schema.hasType, Schema.get, hty] at e
        · simp only [Schema.hasType, Schema.get, hty, List.any_eq_false, beq_iff_eq] at e
          exact absurd rfl (e _ hl)
  cases hty : Obj.get m "type" with
  | none => exact hplain (.inl hty)
  | some ty =>
    simp only
    by_cases hnull : Schema.hasType (.obj m) "null" = true
    · rw [if_pos hnull]
      unfold nullableMembers
      by_cases ho : onlyAllowsNull ty = true
      · simp only [ho, if_true]
        refine hkeep _ (fun k h1 h2 h3 => ?_) (fun ty h => by rw [Obj.get_remove_self] at h; cases h)
        rw [Obj.get_remove_ne _ (Ne.symm h1), Obj.get_insert_ne _ _ (Ne.symm h3), Obj.get_insert_ne _ _ (Ne.symm h2)]
      · simp only [ho, if_true]
        refine hkeep _ (fun k h1 h2 h3 => ?_) (fun ty' h => ?_)
        · simp only [Bool.false_eq_true, if_false]
          rw [Obj.get_modify, if_neg (Ne.symm h1), Obj.get_insert_ne _ _ (Ne.symm h2)]
        · simp only [Bool.false_eq_true, if_false] at h
          rw [Obj.get_modify, if_pos rfl, Obj.get_insert_ne _ _ (by decide), hty] at h
          cases h
          rcases hw.type ty hty with ⟨t, ht, rfl⟩ | ⟨-, rfl | ⟨l, rfl, hl, hall | ⟨t, ht, hf⟩⟩⟩
          · exact ⟨t, ht, rfl⟩
          · exact absurd rfl ho
          · exact absurd (filter_notNull_of_mem hall) ho
          · exact ⟨t, ht, by unfold retainNonNull; simp only [hf]⟩
    · rw [if_neg hnull]
      exact hplain (.inr (by simpa using hnull))

/-- `RemoveRefSiblings`. -/
theorem stage_refs (hE : "$ref" ∈ E) (h : OasStage E n true false c s) : OasStage E n false false c (removeRefSiblings s) := by
  refine stage_post (fun b => rfl) (fun c m hw hp => ?_) (fun e => by cases e) h
  unfold removeRefSiblingsLocal
  simp only
  have hplain : (∀ r, Obj.get m "$ref" = some r → ∀ k v, Obj.get m k = some v → k = "$ref") → OasStage E n false false c (.obj m) :=
    fun h => hp.stage ⟨hw.keys, hw.type, fun r hr => ⟨(hw.ref r hr).1, fun _ => h r hr⟩⟩
  split
  · next hlen =>
    split
    · next r hr =>
      have hnone : Obj.get (Obj.remove m "$ref") "$ref" = none := Obj.get_remove_self _ _
      have hw' : OasWords E n false (Obj.remove m "$ref") := by
        have := hw.remove (k := "$ref") (E' := E) fun e he _ => he
        exact ⟨this.keys, this.type, fun r hr => by rw [hnone] at hr; cases hr⟩
      have hp' := hp.congr (m' := Obj.remove m "$ref") fun k hk => Obj.get_remove_ne _ (by rintro rfl; revert hk; decide)
      have hlone : OasStage E n false false c (.obj [("$ref", r)]) := by
        have hg : ∀ {k v}, Obj.get [("$ref", r)] k = some v → k = "$ref" ∧ v = r := by
          intro k v hk
          rw [Obj.get_cons] at hk
          split at hk
          · next e => cases hk; exact ⟨e.symm, rfl⟩
          · cases hk
        have hno : ∀ {k : String} {v} {p : Prop}, k ≠ "$ref" → Obj.get [("$ref", r)] k = some v → p :=
          fun h1 h2 => absurd (hg h2).1 h1
        refine .obj ⟨fun k v hk => ?_, fun _ h => hno (by decide) h, fun x h => ?_⟩ (fun _ h => hno (by decide) h)
          (fun _ h => hno (by decide) h) (fun k hk v h => hno (by rintro rfl; revert hk; decide) h) (fun k hk v h => hno (by rintro rfl; revert hk; decide) h)
          (fun k hk v h => hno (by rintro rfl; revert hk; decide) h) (fun _ h => hno (by decide) h) (fun _ h => hno (by decide) h)
          (fun _ h => hno (by decide) h)
        · rw [(hg hk).1]; exact .inr (.inr (.inl hE))
        · rw [(hg h).2]; exact ⟨(hw.ref r hr).1, fun _ k v hk => (hg hk).1⟩
      have hins : ∀ l, (∀ x ∈ l, OasStage E n false false c x) →
          OasStage E n false false c (.obj (Obj.insert (Obj.remove m "$ref") "allOf" (.arr l))) := by
        intro l hl
        refine OasParts.stage (hw'.insert _ (.inl (by decide)) (by decide) (by decide) fun _ => hnone) ?_
        have hg : ∀ {k : String}, k ≠ "allOf" → Obj.get (Obj.insert (Obj.remove m "$ref") "allOf" (.arr l)) k =
          Obj.get (Obj.remove m "$ref") k := fun h => Obj.get_insert_ne _ _ (Ne.symm h)
        refine ⟨fun v hv => hp'.uneval v (hg (k := "unevaluatedProperties") (by decide) ▸ hv),
          fun v hv => hp'.closed v (hg (k := "unevaluatedProperties") (by decide) ▸ hv), fun k hk v hv => hp'.one k hk v ?_, fun k hk v hv => ?_,
          fun k hk l' hl' => ?_, fun v hv => hp'.object v (hg (k := "properties") (by decide) ▸ hv), fun p h => hp'.members p (hg (k := "properties") (by decide) ▸ h),
          fun v hv => hp'.additional v (hg (k := "additionalProperties") (by decide) ▸ hv)⟩
        · rwa [hg (by rintro rfl; revert hk; decide)] at hv
        · by_cases e : k = "allOf"
          · subst e; rw [Obj.get_insert_self] at hv; cases hv; exact ⟨_, rfl⟩
          · rw [hg e] at hv; exact hp'.array k hk v hv
        · by_cases e : k = "allOf"
          · subst e; rw [Obj.get_insert_self] at hl'; cases hl'; exact hl
          · rw [hg e] at hl'; exact hp'.list k hk l' hl'
      split
      · exact hins _ (by simpa using hlone)
      · next l hl =>
        refine hins _ fun x hx => ?_
        rcases List.mem_append.1 hx with hx | hx
        · exact hp'.list "allOf" (by decide) l hl x hx
        · rw [List.mem_singleton.1 hx]; exact hlone
      · exact hp'.stage hw'
    · next hr => exact hplain fun r h => by rw [hr] at h; cases h
  · next hlen =>
    refine hplain fun r hr k v hk => ?_
    have h1 := Obj.get_mem hr
    have h2 := Obj.get_mem hk
    match m, hlen with
    | [], _ => cases h1
    | [e], _ =>
      rw [List.mem_singleton] at h1 h2
      exact (Prod.mk.inj (h2.trans h1.symm)).1
    | _ :: _ :: _, hlen => exact absurd (by simp) hlen

/-- `SetSingleExample`. -/
theorem stage_example (hE : ∀ e ∈ E, e ≠ "examples" → e ∈ E') (h : OasStage E n false false c s) :
    OasStage E' n false false c (setSingleExample s) := by
  refine stage_post (fun b => rfl) (fun c m hw hp => ?_) (fun e => by cases e) h
  obtain ⟨m', h1, h2, h3, h4⟩ := setSingleExampleLocal_get m
  rw [h1]
  refine OasParts.stage ⟨fun k v hk => ?_, fun ty ht => hw.type ty (h4 "type" (by decide) ▸ ht), fun x hx => ?_⟩
    (hp.congr fun k hk => h4 k ?_)
  · by_cases e : k = "example"
    · subst e; exact .inl (by decide)
    · have he : k ≠ "examples" := by rintro rfl; rw [h2] at hk; cases hk
      rw [h4 k (by simp [e, he])] at hk
      rcases hw.keys k v hk with h | h | h | h
      · exact .inl h
      · exact .inr (.inl h)
      · exact .inr (.inr (.inl (hE k h he)))
      · exact .inr (.inr (.inr h))
  · rw [h4 _ (by decide)] at hx
    obtain ⟨h5, h6⟩ := hw.ref x hx
    have hex : Obj.get m "examples" = none := by
      cases he : Obj.get m "examples" with
      | none => rfl
      | some v => exact absurd (h6 rfl _ v he) (by decide)
    refine ⟨h5, fun _ k v hk => ?_⟩
    by_cases e : k = "example"
    · subst e
      rw [h3, hex] at hk
      exact h6 rfl _ v hk
    · have he : k ≠ "examples" := by rintro rfl; rw [h2] at hk; cases hk
      rw [h4 k (by simp [e, he])] at hk
      exact h6 rfl k v hk
  · rintro h; revert hk; simp only [List.mem_cons, List.not_mem_nil, or_false] at h; rcases h with rfl | rfl <;> decide

/-- `ReplaceConstValue`. -/
theorem stage_const (hE : ∀ e ∈ E, e ≠ "const" → e ∈ E') (h : OasStage E n false false c s) :
    OasStage E' n false false c (replaceConst s) := by
  refine stage_post (fun b => rfl) (fun c m hw hp => ?_) (fun e => by cases e) h
  obtain ⟨m', h1, h2, h3, h4⟩ := replaceConstLocal_get m
  rw [h1]
  refine OasParts.stage ⟨fun k v hk => ?_, fun ty ht => hw.type ty (h4 "type" (by decide) ▸ ht), fun x hx => ?_⟩
    (hp.congr fun k hk => h4 k ?_)
  · by_cases e : k = "enum"
    · subst e; exact .inl (by decide)
    · have he : k ≠ "const" := by rintro rfl; rw [h2] at hk; cases hk
      rw [h4 k (by simp [e, he])] at hk
      rcases hw.keys k v hk with h | h | h | h
      · exact .inl h
      · exact .inr (.inl h)
      · exact .inr (.inr (.inl (hE k h he)))
      · exact .inr (.inr (.inr h))
  · rw [h4 _ (by decide)] at hx
    obtain ⟨h5, h6⟩ := hw.ref x hx
    have hex : Obj.get m "const" = none := by
      cases he : Obj.get m "const" with
      | none => rfl
      | some v => exact absurd (h6 rfl _ v he) (by decide)
    refine ⟨h5, fun _ k v hk => ?_⟩
    by_cases e : k = "enum"
    · subst e
      rw [h3, hex] at hk
      exact h6 rfl _ v hk
    · have he : k ≠ "const" := by rintro rfl; rw [h2] at hk; cases hk
      rw [h4 k (by simp [e, he])] at hk
      exact h6 rfl k v hk
  · rintro h; revert hk; simp only [List.mem_cons, List.not_mem_nil, or_false] at h; rcases h with rfl | rfl <;> decide

/-- `ReplacePrefixItems`, without `prefixItems`. -/
theorem stage_prefix (hE : "prefixItems" ∉ E) (h : OasStage E n r false c s) : OasStage E n r false c (replacePrefix s) := by
  refine stage_post (fun b => rfl) (fun c m hw hp => ?_) (fun e => by cases e) h
  rw [replacePrefixLocal_obj]
  have hnone : Obj.get m "prefixItems" = none := by
    cases he : Obj.get m "prefixItems" with
    | none => rfl
    | some v =>
      rcases hw.keys _ v he with h | ⟨t, h⟩ | h | h
      · exact absurd h (by decide)
      · exact absurd h (by simp)
      · exact absurd h hE
      · exact absurd h (by decide)
  simp only [hnone]
  exact OasParts.stage (hw.remove fun e he _ => he) (hp.congr fun k hk => Obj.get_remove_ne _ (by rintro rfl; revert hk; decide))

/-- The last stage. -/
theorem stage_oas (h : OasStage ["$ref"] false false false c s) (hc : c = false) : Oas30 s := by
  induction h with
  | bool b => cases hc
  | @obj c m hw h1 h0 h2 h3 h4 h5 h6 h7 i0 i2 i4 i6 i7 =>
    subst hc
    cases hr : Obj.get m "$ref" with
    | some r =>
      obtain ⟨⟨t, rfl⟩, h⟩ := hw.ref r hr
      exact .reference t hr (h rfl)
    | none =>
      refine .schema (fun k v hk => ?_) (fun ty ht => ?_) (fun k hk v hv => i2 k hk v hv rfl) h3
        (fun k hk l hl x hx => i4 k hk l hl x hx rfl) h5 (fun p hp e he => i6 p hp e he rfl) (fun v hv hn => i7 v hv hn rfl)
      · rcases hw.keys k v hk with h | h | h | h
        · exact .inl h
        · exact .inr h
        · rw [List.mem_singleton.1 h, hr] at hk; cases hk
        · rw [h] at hk; exact absurd (h1 v hk).1 (by decide)
      · exact (hw.type ty ht).elim id fun h => absurd h.1 (by decide)

/-- C82 (`_partial`: for translatable schemas): the transforms of the `openapi3` settings give a schema of OpenAPI 3.0. -/
theorem C82_partial (h : Translatable s) : Oas30 (applyTransforms openapi3Transforms s) := by
  show Oas30 (replacePrefix (replaceConst (setSingleExample (removeRefSiblings
    (addNullable ⟨true, true⟩ (replaceBool true (replaceUneval s)))))))
  have h2 := stage_bools (stage_uneval h)
  have h4 := stage_refs (by decide) (stage_nullable (by decide) h2)
  have h5 := stage_example (E' := ["const", "$ref"]) (by decide) h4
  exact stage_oas (stage_prefix (by decide) (stage_const (E' := ["$ref"]) (by decide) h5)) rfl

end

/-- C82 in full: the same for the subschemas of all standard types. -/
def C82_Full : Prop :=
  ∀ {τ : Type} (Γ : τ → TypeDef τ) (n : Nat) (t : τ) (s : Json) (g' : Gen τ), (∀ t, ∃ x, (Γ t).body = stdBody x) →
    subschemaFor Γ (run Γ n) t (Gen.new .openapi3) = some (s, g') → Oas30 (applyTransforms openapi3Transforms s)

namespace Oas

/-- `i32`, `bool`, `String`, `Value`, `Option<i32>`, `Vec<Value>`, `(i32, bool)`, `BTreeMap<i32, bool>`,
`BTreeMap<String, Vec<Value>>`. -/
inductive OasTy where
  | num | flag | text | any | opt | anys | pair | byInt | deep

open OasTy

/-- What they are. -/
def shape : OasTy → Std OasTy
  | num => .int .i32
  | flag => .simple "boolean"
  | text => .simple "string"
  | any => .value
  | opt => .option num
  | anys => .seq any
  | pair => .tuple [num, flag]
  | byInt => .map num flag
  | deep => .map text anys

def types (t : OasTy) : TypeDef OasTy := ⟨"T", "T", true, stdBody (shape t)⟩

/-- The subschema after the transforms. -/
def made (t : OasTy) : Option Json :=
  (subschemaFor types (run types 5) t (Gen.new .openapi3)).map fun r => applyTransforms openapi3Transforms r.1

def int32 : Json := mkObj [("format", .str "int32"), ("type", .str "integer")]

/-- Of the map from integers. -/
def byIntSchema : Json := mkObj [("additionalProperties", .bool false),
  ("patternProperties", mkObj [("^-?\\d+$", typeOnly "boolean")]), ("type", .str "object")]

/-- The value `{1: true}`. -/
def byIntDoc : Json := mkObj [("1", .bool true)]

end Oas

open Oas

theorem no_reference {m : List (String × Json)} {v : Json} (h0 : Obj.get m "$ref" = none) (h : Obj.get m "$ref" = some v) : False := by
  rw [h0] at h; cases h

/-- C82 fails for tuples: the value of `items` is an array. -/
theorem C82_tuple : made .pair = some (mkObj [("items", .arr [int32, typeOnly "boolean"]), ("maxItems", .num (.int 2)),
      ("minItems", .num (.int 2)), ("type", .str "array")]) ∧
    ¬ Oas30 (mkObj [("items", .arr [int32, typeOnly "boolean"]), ("maxItems", .num (.int 2)),
      ("minItems", .num (.int 2)), ("type", .str "array")]) := by
  refine ⟨by decide +kernel, fun h => ?_⟩
  cases h with
  | reference r h => exact no_reference (by decide) h
  | schema keys type one =>
    have := one "items" (by decide) _ (by decide +kernel : _ = some (Json.arr [int32, typeOnly "boolean"]))
    cases this

/-- C82 fails for maps from integers: there is no `patternProperties` in OpenAPI 3.0. A reader that leaves it out is left with
`additionalProperties: false`, and rejects all maps but the empty one. -/
theorem C82_map : made .byInt = some byIntSchema ∧ ¬ Oas30 byIntSchema ∧
    ∀ env : Env, env.rx "^-?\\d+$" "1" = true →
      Valid openapi30 env byIntSchema byIntDoc ∧ ¬ Valid openapi30 env (oasRead byIntSchema) byIntDoc := by
  refine ⟨by decide +kernel, fun h => ?_, fun env hrx => ⟨?_, fun h => ?_⟩⟩
  rotate_left
  · refine (valid_mkObj (by simp [Obj.keys]) (.inr rfl)).2 ?_
    simp only [List.mem_cons, List.not_mem_nil, or_false, forall_eq_or_imp, forall_eq]
    refine ⟨fun e he hn => ?_, fun e he p hp _ => ?_, .inl rfl⟩
    · have he : e = ("1", .bool true) := List.mem_singleton.1 he
      subst he
      exact absurd (.inr ⟨_, List.mem_singleton.2 rfl, hrx⟩) hn
    · have he : e = ("1", .bool true) := List.mem_singleton.1 he
      have hp : p = ("^-?\\d+$", typeOnly "boolean") := List.mem_singleton.1 hp
      subst he; subst hp
      exact (valid_typeOnly_iff _).2 rfl
  · exact absurd h (by show ¬ (den openapi30 env (oasRead byIntSchema) byIntDoc).ok = true; exact Bool.false_ne_true)
  cases h with
  | reference r h => exact no_reference (by decide) h
  | schema keys =>
    rcases keys "patternProperties" _ (by decide +kernel : _ = some (mkObj [("^-?\\d+$", typeOnly "boolean")])) with h | ⟨r, h⟩
    · exact absurd h (by decide)
    · exact absurd h (by simp)

/-- C82 fails below `additionalProperties`: bools stay there, although OpenAPI 3.0 has none elsewhere. -/
theorem C82_deep : made .deep = some (mkObj [("additionalProperties", mkObj [("items", .bool true), ("type", .str "array")]),
      ("type", .str "object")]) ∧ made .anys = some (mkObj [("items", mkObj []), ("type", .str "array")]) ∧
    ¬ Oas30 (mkObj [("additionalProperties", mkObj [("items", .bool true), ("type", .str "array")]),
      ("type", .str "object")]) := by
  refine ⟨by decide +kernel, by decide +kernel, fun h => ?_⟩
  cases h with
  | reference r h => exact no_reference (by decide) h
  | schema keys type one array list object members additional =>
    have := additional _ (by decide +kernel : _ = some (mkObj [("items", .bool true), ("type", .str "array")])) (fun b h => by cases h)
    cases this with
    | reference r h => exact no_reference (by decide) h
    | schema keys type one =>
      have := one "items" (by decide) _ (by decide +kernel : _ = some (Json.bool true))
      cases this

theorem C82_Full_false : ¬ C82_Full := by
  intro h
  obtain ⟨h1, h2⟩ := C82_tuple
  obtain ⟨⟨s, g'⟩, h3, h4⟩ := Option.map_eq_some_iff.1 h1
  exact h2 (h4 ▸ h types 5 .pair s g' (fun t => ⟨shape t, rfl⟩) h3)

/-- C82 fails for all root documents: they have `$schema`, which OpenAPI 3.0 does not have. -/
theorem C82_root {τ : Type} {Γ : τ → TypeDef τ} {st : Settings} (hv : Configured .openapi3 st) {n : Nat} {t : τ} {g g' : Gen τ}
    {s : Json} (hg : Hist Γ st g) (h : rootSchemaFor Γ (run Γ n) t g = some (s, g')) : ¬ Oas30 s := by
  obtain ⟨m, _, _, rfl, -, -, hs, -⟩ := C78_root hv hg h
  intro h
  cases h with
  | reference r h alone => exact absurd (alone _ _ hs) (by decide)
  | schema keys =>
    rcases keys _ _ hs with h | ⟨r, h⟩
    · exact absurd h (by decide)
    · exact absurd h (by simp)

/-! ### Examples -/

/-- `null`, `const`, `$ref` with siblings, `examples`, `unevaluatedProperties` and a bool. -/
def translatable82 : Json := mkObj [("unevaluatedProperties", .bool false), ("properties", mkObj [
  ("a", mkObj [("type", .arr [.str "string", .str "null"]), ("examples", .arr [.str "x"])]),
  ("b", mkObj [("$ref", .str "#/components/schemas/B"), ("description", .str "text")]),
  ("c", mkObj [("const", .bool true)]), ("d", .bool true)]), ("type", .str "object")]

theorem translatable82_ok : Translatable translatable82 := by
  have hs : ∀ {l : List (String × Json)}, (∀ e ∈ l, PlanEntry true e.1 e.2) → OasPlan true (mkObj l) := plan_lit
  have hm : ∀ {l : List (String × Json)}, (∀ e ∈ l, OasPlan true e.2) → PlanEntry true "properties" (mkObj l) := fun h =>
    pe_map fun e he => (mem_of_extend e he).elim (fun h => by cases h) (h e)
  refine (hs ?_).stage
  simp only [List.mem_cons, List.not_mem_nil, or_false, forall_eq_or_imp, forall_eq]
  refine ⟨pe_closed (.inl ⟨_, rfl⟩), hm ?_, pe_type (.inl ⟨"object", by decide, rfl⟩)⟩
  simp only [List.mem_cons, List.not_mem_nil, or_false, forall_eq_or_imp, forall_eq]
  refine ⟨hs ?_, hs ?_, hs ?_, .bool _⟩ <;> simp only [List.mem_cons, List.not_mem_nil, or_false, forall_eq_or_imp, forall_eq]
  · exact ⟨pe_type (.inr (.inr ⟨_, rfl, by simp, .inr ⟨"string", by decide, by decide⟩⟩)), pe_plain (by decide) _⟩
  · exact ⟨pe_ref _, pe_plain (by decide) _⟩
  · exact pe_plain (by decide) _

example : applyTransforms openapi3Transforms translatable82 = mkObj [("additionalProperties", .bool false), ("properties", mkObj [
    ("a", mkObj [("type", .str "string"), ("nullable", .bool true), ("example", .str "x")]),
    ("b", mkObj [("allOf", .arr [mkObj [("$ref", .str "#/components/schemas/B")]]), ("description", .str "text")]),
    ("c", mkObj [("enum", .arr [.bool true])]), ("d", mkObj [])]), ("type", .str "object")] := by decide +kernel

example : Oas30 (applyTransforms openapi3Transforms translatable82) := C82_partial translatable82_ok

example : Configured .openapi3 .openapi3 ∧ (rootSchemaFor types (run types 5) .opt (Gen.new .openapi3)).map (·.1) =
    some (mkObj [("$schema", .str Settings.metaOpenapi3), ("format", .str "int32"), ("nullable", .bool true),
      ("title", .str "T"), ("type", .str "integer")]) := ⟨⟨rfl, rfl, rfl⟩, by decide +kernel⟩

end Verif
