import Verif.Props.CrateVersions

/-!
# C83: the references of the documents of the crate's own types can be followed

`C83_partial` supposes that references are followed (`Resolves`). Here is an environment for every document that does so:
the target of a reference has no references that apply to the same instance.
-/

namespace Verif
open Spec

/-- The references in a value, all of which satisfy `Q`. -/
inductive Refs (Q : String → Prop) : Json → Prop
  | leaf {j : Json} : (∀ l, j ≠ .arr l) → (∀ m, j ≠ .obj m) → Refs Q j
  | arr {l : List Json} : (∀ x ∈ l, Refs Q x) → Refs Q (.arr l)
  | obj {m : List (String × Json)} : (∀ e ∈ m, Refs Q e.2) → (∀ r, ("$ref", .str r) ∈ m → Q r) → Refs Q (.obj m)

section
variable {Q : String → Prop}

theorem Refs.member {m : List (String × Json)} (h : Refs Q (.obj m)) {e : String × Json} (he : e ∈ m) : Refs Q e.2 := by
  cases h with
  | leaf _ h => exact absurd rfl (h m)
  | obj h _ => exact h e he

theorem Refs.ref {m : List (String × Json)} (h : Refs Q (.obj m)) {r : String} (he : ("$ref", .str r) ∈ m) : Q r := by
  cases h with
  | leaf _ h => exact absurd rfl (h m)
  | obj _ h => exact h r he

theorem Refs.elem {l : List Json} (h : Refs Q (.arr l)) {x : Json} (hx : x ∈ l) : Refs Q x := by
  cases h with
  | leaf h _ => exact absurd rfl (h l)
  | arr h => exact h x hx

theorem refs_str (s : String) : Refs Q (.str s) := .leaf nofun nofun
theorem refs_bool (b : Bool) : Refs Q (.bool b) := .leaf nofun nofun
theorem refs_num (n : JNum) : Refs Q (.num n) := .leaf nofun nofun
theorem refs_null : Refs Q .null := .leaf nofun nofun

theorem Refs.at {j v : Json} {p : List String} (h : At j p v) (hj : Refs Q j) : Refs Q v := by
  induction h with
  | here => exact hj
  | member h _ ih => exact ih (hj.member (Obj.get_mem h))
  | elem i h _ ih => exact ih (hj.elem (List.mem_of_getElem? h))

theorem Refs.reach {V : Vocab} {s x : Json} (h : Reach V s x) (hs : Refs Q s) : Refs Q x := by
  induction h with
  | self => exact hs
  | step h _ ih =>
    refine ih ?_
    cases h with
    | one h _ _ => exact hs.member h
    | list h _ hx _ => exact (hs.member h).elem hx
    | map h _ hx _ => exact (hs.member h).member hx

theorem Refs.inPlace {s : Json} (hs : Refs Q s) {r : String} (h : InPlaceRef s r) : Q r := by
  obtain ⟨m, h1, h2⟩ := h
  exact (hs.reach h1).ref (Obj.get_mem h2)

theorem refs_mkObj {l : List (String × Json)} (h : ∀ e ∈ l, Refs Q e.2 ∧ e.1 ≠ "$ref") : Refs Q (mkObj l) :=
  .obj (fun e he => (h e (mem_of_mem_ofList he)).1) fun _ hr => absurd rfl (h _ (mem_of_mem_ofList hr)).2

theorem refs_obj {m : List (String × Json)} (h : ∀ e ∈ m, Refs Q e.2 ∧ ∀ r, e.2 ≠ .str r) : Refs Q (.obj m) :=
  .obj (fun e he => (h e he).1) fun r hr => absurd rfl ((h _ hr).2 r)

theorem Refs.insert {m : List (String × Json)} (h : Refs Q (.obj m)) {k : String} {v : Json} (hv : Refs Q v) (hk : k ≠ "$ref") :
    Refs Q (.obj (Obj.insert m k v)) := by
  refine .obj (fun e he => ?_) fun r he => ?_
  · rcases Obj.mem_insert he with rfl | he
    · exact hv
    · exact h.member he
  · rcases Obj.mem_insert he with he | he
    · cases he; exact absurd rfl hk
    · exact h.ref he

theorem Refs.modify {m : List (String × Json)} (h : Refs Q (.obj m)) {k : String} {f : Json → Json}
    (hf : ∀ v, Refs Q v → Refs Q (f v)) (hk : k ≠ "$ref") : Refs Q (.obj (Obj.modify m k f)) := by
  refine .obj (fun e he => ?_) fun r he => ?_
  · rcases Obj.mem_modify he with he | ⟨v, hv, rfl⟩
    · exact h.member he
    · exact hf v (h.member hv)
  · rcases Obj.mem_modify he with he | ⟨v, hv, he⟩
    · exact h.ref he
    · exact absurd (congrArg Prod.fst he).symm hk

theorem Refs.remove {m : List (String × Json)} (h : Refs Q (.obj m)) (k : String) : Refs Q (.obj (Obj.remove m k)) :=
  .obj (fun _ he => h.member (Obj.mem_remove.1 he).1) fun _ he => h.ref (Obj.mem_remove.1 he).1

/-! ### Values without references -/

mutual
/-- There is no member `$ref`. -/
def refFree : Json → Bool
  | .arr l => refFreeList l
  | .obj m => refFreeMembers m
  | _ => true
@[inherit_doc refFree] def refFreeList : List Json → Bool
  | [] => true
  | j :: l => refFree j && refFreeList l
@[inherit_doc refFree] def refFreeMembers : List (String × Json) → Bool
  | [] => true
  | (k, v) :: l => decide (k ≠ "$ref") && refFree v && refFreeMembers l
end

mutual
theorem refs_free : ∀ j, refFree j = true → Refs Q j
  | .arr l, h => by
    rw [refFree] at h
    exact .arr (refs_freeList l h)
  | .obj m, h => by
    rw [refFree] at h
    have hm := refs_freeMembers m h
    exact .obj (fun e he => (hm e he).1) fun r hr => absurd rfl (hm _ hr).2
  | .null, _ => .leaf nofun nofun
  | .bool _, _ => .leaf nofun nofun
  | .num _, _ => .leaf nofun nofun
  | .str _, _ => .leaf nofun nofun
theorem refs_freeList : ∀ l, refFreeList l = true → ∀ x ∈ l, Refs Q x
  | [], _ => nofun
  | j :: l, h => by
    rw [refFreeList, Bool.and_eq_true] at h
    have h1 := refs_free j h.1
    have h2 := refs_freeList l h.2
    exact List.forall_mem_cons.2 ⟨h1, h2⟩
theorem refs_freeMembers : ∀ m, refFreeMembers m = true → ∀ e ∈ m, Refs Q e.2 ∧ e.1 ≠ "$ref"
  | [], _ => nofun
  | (k, v) :: l, h => by
    rw [refFreeMembers, Bool.and_eq_true, Bool.and_eq_true, decide_eq_true_eq] at h
    have h1 := refs_free v h.1.2
    have h2 := refs_freeMembers l h.2
    exact List.forall_mem_cons.2 ⟨⟨h1, h.1.1⟩, h2⟩
end

/-! ### Standard types -/

theorem refs_allowNull {s : Json} (h : Refs Q s) : Refs Q (allowNull s) := by
  have ha : ∀ {l : List Json} {x : Json}, Refs Q (.arr l) → Refs Q x → Refs Q (.arr (l ++ [x])) := fun hl hx =>
    .arr fun y hy => by
      rcases List.mem_append.1 hy with hy | hy
      · exact hl.elem hy
      · cases List.mem_singleton.1 hy; exact hx
  unfold allowNull
  split
  · split
    · exact h
    · split
      · refine refs_obj fun e he => ?_
        cases List.mem_singleton.1 he
        refine ⟨.arr fun x hx => ?_, nofun⟩
        rcases List.mem_cons.1 hx with rfl | hx
        · exact h
        · cases List.mem_singleton.1 hx; exact refs_free _ (by decide)
      · have h1 := h.modify (k := "type") (f := allowNullType) (fun v hv => by
          unfold allowNullType
          split
          · split
            · exact hv
            · exact ha hv (refs_str _)
          · split
            · exact hv
            · exact refs_free _ rfl
          · exact hv) (by decide)
        unfold allowNullConst
        split
        · exact h1.remove _
        · next c _ hc =>
          refine (h1.remove _).insert (.arr fun x hx => ?_) (by decide)
          rcases List.mem_cons.1 hx with rfl | hx
          · exact h1.member (Obj.get_mem hc)
          · cases List.mem_singleton.1 hx; exact refs_null
        · refine h1.modify (fun v hv => ?_) (by decide)
          unfold allowNullEnum
          split
          · split
            · exact hv
            · exact ha hv refs_null
          · exact hv
  · exact h
  · exact refs_free _ (by decide)
  · exact h

theorem refs_sameFor {v : Json} (h : Refs Q v) (hv : ∀ r, v ≠ .str r) (names : List String) : Refs Q (.obj (sameFor names v)) := by
  have key : ∀ (l : List String) (m : List (String × Json)), (∀ e ∈ m, e.2 = v) →
      ∀ e ∈ l.foldl (fun m n => Obj.insert m n v) m, e.2 = v := by
    intro l
    induction l with
    | nil => exact fun _ h => h
    | cons n l ih =>
      intro m hm
      refine ih _ fun e he => ?_
      rcases Obj.mem_insert he with rfl | he
      · rfl
      · exact hm e he
  refine refs_obj fun e he => ?_
  rw [key names [] nofun e he]
  exact ⟨h, hv⟩

theorem refs_map {path : List Char} {defs : List (String × Json)} {key v : Json} (h : Refs Q v) (hv : ∀ r, v ≠ .str r) :
    Refs Q (mapSchema path defs key v) := by
  unfold mapSchema
  split
  · unfold mapFrom
    have h0 : ∀ b : Bool, Refs Q (.obj [("additionalProperties", if b then v else .bool false), ("type", .str "object")]) := by
      intro b
      refine .obj (fun e he => ?_) fun r hr => ?_
      · simp only [List.mem_cons, List.not_mem_nil, or_false] at he
        rcases he with rfl | rfl
        · dsimp only; split
          · exact h
          · exact refs_bool _
        · exact refs_str _
      · simp at hr
    have h1 : ∀ {m : List (String × Json)} {k : String} (p : Prop) [Decidable p] (l : List String), Refs Q (.obj m) →
        k ≠ "$ref" → Refs Q (.obj (if p then m else Obj.insert m k (.obj (sameFor l v)))) := by
      intro m k p _ l hm hk
      split
      · exact hm
      · exact hm.insert (refs_sameFor h hv l) hk
    exact h1 _ _ (h1 _ _ (h0 _) (by decide)) (by decide)
  · refine refs_mkObj ?_
    simp only [List.mem_cons, List.not_mem_nil, or_false, forall_eq_or_imp, forall_eq]
    exact ⟨⟨h, by decide⟩, refs_str _, by decide⟩

theorem refs_oneProperty (k : String) {s : Json} (h : Refs Q s) (hs : ∀ r, s ≠ .str r) : Refs Q (oneProperty k s) := by
  refine refs_mkObj ?_
  simp only [List.mem_cons, List.not_mem_nil, or_false, forall_eq_or_imp, forall_eq]
  refine ⟨⟨refs_str _, by decide⟩, ⟨refs_obj fun e he => ?_, by decide⟩, .arr fun x hx => ?_, by decide⟩
  · cases List.mem_singleton.1 (mem_of_mem_ofList he); exact ⟨h, hs⟩
  · cases List.mem_singleton.1 hx; exact refs_str _

theorem refs_eitherSide (k : String) {s : Json} (h : Refs Q s) (hs : ∀ r, s ≠ .str r) : Refs Q (eitherSide k s) := by
  refine refs_mkObj ?_
  simp only [List.mem_cons, List.not_mem_nil, or_false, forall_eq_or_imp, forall_eq]
  refine ⟨⟨refs_str _, by decide⟩, ⟨refs_obj fun e he => ?_, by decide⟩, ⟨refs_bool _, by decide⟩, .arr fun x hx => ?_, by decide⟩
  · cases List.mem_singleton.1 (mem_of_mem_ofList he); exact ⟨h, hs⟩
  · cases List.mem_singleton.1 hx; exact refs_str _

theorem refs_oneOf {l : List Json} (h : ∀ x ∈ l, Refs Q x) : Refs Q (mkObj [("oneOf", .arr l)]) := by
  refine refs_mkObj ?_
  simp only [List.mem_cons, List.not_mem_nil, or_false, forall_eq]
  exact ⟨.arr h, by decide⟩

theorem refs_std {τ : Type} {A : Answers τ} {s : Json} (hs : ∀ t s, A.sub t s → Refs Q s ∧ ∀ r, s ≠ .str r) {x : Std τ}
    (h : Returns A (stdBody x) s) : Refs Q s := by
  cases x with
  | simple t => cases h; exact refs_mkObj (by simp [refs_str])
  | formatted t f => cases h; exact refs_mkObj (by simp [refs_str])
  | value => cases h; exact refs_bool _
  | option t => obtain ⟨s1, h1, rfl⟩ := h; exact refs_allowNull (hs t s1 h1).1
  | int t => cases h; cases t <;> exact refs_free _ (by decide +kernel)
  | nonZero t => cases h; cases t <;> exact refs_free _ (by decide +kernel)
  | char => cases h; exact refs_free _ (by decide +kernel)
  | emptyArray => cases h; exact refs_free _ (by decide +kernel)
  | tuple l =>
    obtain ⟨ss, h1, rfl⟩ := returns_subAll h
    refine refs_mkObj ?_
    simp only [List.mem_cons, List.not_mem_nil, or_false, forall_eq_or_imp, forall_eq]
    refine ⟨⟨refs_str _, by decide⟩, ⟨.arr ?_, by decide⟩, ⟨refs_num _, by decide⟩, refs_num _, by decide⟩
    clear h
    induction h1 with
    | nil => exact nofun
    | cons hx _ ih => exact List.forall_mem_cons.2 ⟨(hs _ _ hx).1, ih⟩
  | map k v => obtain ⟨ks, _, vs, hv, d, _, rfl⟩ := h; exact refs_map (hs _ _ hv).1 (hs _ _ hv).2
  | seq t => obtain ⟨s1, h1, rfl⟩ := h; exact refs_mkObj (by simp [refs_str, (hs _ _ h1).1])
  | set t => obtain ⟨s1, h1, rfl⟩ := h; exact refs_mkObj (by simp [refs_str, refs_bool, (hs _ _ h1).1])
  | array n t => obtain ⟨s1, h1, rfl⟩ := h; exact refs_mkObj (by simp [refs_str, refs_num, (hs _ _ h1).1])
  | range t =>
    obtain ⟨s1, h1, rfl⟩ := h
    refine refs_mkObj ?_
    simp only [List.mem_cons, List.not_mem_nil, or_false, forall_eq_or_imp, forall_eq]
    refine ⟨⟨refs_str _, by decide⟩, ⟨refs_obj fun e he => ?_, by decide⟩, refs_free _ (by decide), by decide⟩
    have := mem_of_mem_ofList he
    simp only [List.mem_cons, List.not_mem_nil, or_false] at this
    rcases this with rfl | rfl <;> exact hs _ _ h1
  | duration => cases h; exact refs_free _ (by decide +kernel)
  | systemTime => cases h; exact refs_free _ (by decide +kernel)
  | result t e =>
    obtain ⟨s1, h1, s2, h2, rfl⟩ := h
    refine refs_oneOf ?_
    simp only [List.mem_cons, List.not_mem_nil, or_false, forall_eq_or_imp, forall_eq]
    exact ⟨refs_oneProperty _ (hs _ _ h1).1 (hs _ _ h1).2, refs_oneProperty _ (hs _ _ h2).1 (hs _ _ h2).2⟩
  | bound t =>
    obtain ⟨s1, h1, s2, h2, rfl⟩ := h
    refine refs_oneOf ?_
    simp only [List.mem_cons, List.not_mem_nil, or_false, forall_eq_or_imp, forall_eq]
    exact ⟨refs_oneProperty _ (hs _ _ h1).1 (hs _ _ h1).2, refs_oneProperty _ (hs _ _ h2).1 (hs _ _ h2).2,
      refs_free _ (by decide)⟩
  | either t e =>
    obtain ⟨s1, h1, s2, h2, rfl⟩ := h
    refine refs_oneOf ?_
    simp only [List.mem_cons, List.not_mem_nil, or_false, forall_eq_or_imp, forall_eq]
    exact ⟨refs_eitherSide _ (hs _ _ h1).1 (hs _ _ h1).2, refs_eitherSide _ (hs _ _ h2).1 (hs _ _ h2).2⟩
  | osString => cases h; exact refs_free _ (by decide +kernel)
  | bytes t =>
    obtain ⟨s1, h1, h⟩ := h
    simp only [Returns] at h
    subst h
    refine refs_mkObj ?_
    simp only [List.mem_cons, List.not_mem_nil, or_false, forall_eq_or_imp, forall_eq]
    refine ⟨⟨?_, by decide⟩, (hs _ _ h1).1, by decide⟩
    cases A.settings.contract <;> exact refs_free _ rfl
  | cString => simp only [stdBody, Returns] at h; subst h; cases A.settings.contract <;> exact refs_free _ (by decide +kernel)
  | decimal => simp only [stdBody, Returns] at h; subst h; cases A.settings.contract <;> exact refs_free _ (by decide +kernel)

end

/-! ### Schemas without references that apply to the same instance -/

/-- No reference applies to the same instance. -/
def NoneHere (s : Json) : Prop := ∀ r, ¬ InPlaceRef s r

/-- The keywords by which a reference can apply to the same instance. -/
def hereKeys : List String := ["$ref", "not", "if", "then", "else", "allOf", "anyOf", "oneOf", "dependentSchemas"]

theorem noneHere_closed {s : Json} (h : refsHere s = []) : NoneHere s := fun r hr => by
  have := inPlaceRef_mem hr
  rw [h] at this
  cases this

theorem noneHere_of {m : List (String × Json)} (h : ∀ k v, (k, v) ∈ m → k ∈ hereKeys →
    k = "oneOf" ∧ ∀ l, v = .arr l → ∀ x ∈ l, NoneHere x) : NoneHere (.obj m) := by
  rintro r ⟨m', h1, h2⟩
  cases h1 with
  | self =>
    have := (h _ _ (Obj.get_mem h2) (by decide)).1
    simp at this
  | step h1 h3 =>
    cases h1 with
    | one hm hk _ =>
      have := (h _ _ hm ((by decide : ∀ k ∈ here.one, k ∈ hereKeys) _ hk)).1
      subst this
      exact absurd hk (by decide)
    | list hm hk hx _ =>
      exact (h _ _ hm ((by decide : ∀ k ∈ here.list, k ∈ hereKeys) _ hk)).2 _ rfl _ hx r ⟨m', h3, h2⟩
    | map hm hk _ _ =>
      have := (h _ _ hm ((by decide : ∀ k ∈ here.map, k ∈ hereKeys) _ hk)).1
      subst this
      exact absurd hk (by decide)

theorem noneHere_lit {l : List (String × Json)} (h : ∀ e ∈ l, e.1 ∉ hereKeys) : NoneHere (mkObj l) :=
  noneHere_of fun _ _ hm hk => absurd hk (h _ (mem_of_mem_ofList hm))

theorem noneHere_oneOf {l : List Json} (h : ∀ x ∈ l, NoneHere x) : NoneHere (mkObj [("oneOf", .arr l)]) :=
  noneHere_of fun k v hm _ => by
    cases List.mem_singleton.1 (mem_of_mem_ofList hm)
    exact ⟨rfl, fun l' e => by cases e; exact h⟩

theorem NoneHere.insert {m : List (String × Json)} (h : NoneHere (.obj m)) {k : String} (hk : k ∉ hereKeys) (v : Json) :
    NoneHere (.obj (Obj.insert m k v)) := by
  rintro r ⟨m', h1, h2⟩
  have old : ∀ {k' v'}, (k', v') ∈ Obj.insert m k v → k' ∈ hereKeys → (k', v') ∈ m := by
    intro k' v' hm hk'
    rcases Obj.mem_insert hm with e | hm
    · cases e; exact absurd hk' hk
    · exact hm
  cases h1 with
  | self =>
    rw [Obj.get_insert_ne _ _ (by rintro rfl; exact hk (by decide))] at h2
    exact h r ⟨m, .self _, h2⟩
  | step h1 h3 =>
    refine h r ⟨m', .step ?_ h3, h2⟩
    cases h1 with
    | one hm hk h' => exact .one (old hm ((by decide : ∀ k ∈ here.one, k ∈ hereKeys) _ hk)) hk h'
    | list hm hk hx h' => exact .list (old hm ((by decide : ∀ k ∈ here.list, k ∈ hereKeys) _ hk)) hk hx h'
    | map hm hk hx h' => exact .map (old hm ((by decide : ∀ k ∈ here.map, k ∈ hereKeys) _ hk)) hk hx h'

theorem noneHere_property (k : String) (s : Json) : NoneHere (oneProperty k s) := noneHere_lit (by simp [hereKeys])

/-! ### Documents -/

section
variable {W : World Ty} {P : Nat → IdDecl} {C : Crates P}

/-- The references of a run: to definitions of types whose schemas are not given in place, or to the document if it is
one of these. -/
def RunRef (W : World Ty) (r : String) : Prop := ∃ t, (W.Γ t).inlineSchema = false ∧
  ((∃ n, (W.uid t, n) ∈ W.names ∧ (∃ d, Obj.get W.defs n = some d) ∧ r = refFor W.settings.definitionsPath.toList n) ∨
    W.root = some (W.uid t) ∧ r = "#")

theorem crate_refs (hΓ : W.Γ = crateDef C) : ∀ k t s, Produced W k t s → Refs (RunRef W) s := by
  intro k
  induction k with
  | zero => exact fun _ _ h => h.elim
  | succ k ih =>
    intro t s h
    have h : Returns (W.answers (Produced W k)) (W.Γ t).body s := h
    rw [crate_body hΓ] at h
    have hc := crateOf_crate C t
    generalize crateOf C t = t' at h hc
    have hr : ∀ r, RunRef W r → Refs (RunRef W) (Schema.newRef r) := fun r hr =>
      .obj (fun e he => by cases List.mem_singleton.1 he; exact refs_str _) fun r' he => by
        cases List.mem_singleton.1 he; exact hr
    have hs : ∀ t s, (W.answers (Produced W k)).sub t s → Refs (RunRef W) s ∧ ∀ r, s ≠ .str r := by
      rintro t s (⟨-, h⟩ | ⟨hi, ⟨n, h1, h2, rfl⟩ | ⟨h1, rfl⟩⟩)
      · refine ⟨ih t s h, fun r e => ?_⟩
        have := (crate_tidy hΓ k t s h).isSchema
        rw [e] at this; cases this
      · exact ⟨hr _ ⟨t, hi, .inl ⟨n, h1, h2, rfl⟩⟩, nofun⟩
      · exact ⟨hr _ ⟨t, hi, .inr ⟨h1, rfl⟩⟩, nofun⟩
    cases t' with
    | fixed f =>
      cases f <;> simp only [Ty.body, Ty.fixedBody] at h
      case weekday => cases h; exact refs_free _ (by decide +kernel)
      case timeDelta => cases h; exact refs_free _ (by decide +kernel)
      case semver => cases h; exact refs_free _ (by decide +kernel)
      case schema => cases h; exact refs_free _ (by decide +kernel)
      all_goals exact refs_std hs h
    | arrayVec n t =>
      obtain ⟨s1, h1, rfl⟩ := h
      exact refs_mkObj (by simp [refs_str, refs_num, (hs _ _ h1).1])
    | derived d cs l => exact hc.elim
    | _ => simp only [Ty.body] at h; exact refs_std hs h

theorem crate_noneHere (hΓ : W.Γ = crateDef C) {k : Nat} {t : Ty} {s : Json} (h : Produced W k t s)
    (hi : (W.Γ t).inlineSchema = false) : NoneHere s := by
  cases k with
  | zero => exact h.elim
  | succ k =>
    have h : Returns (W.answers (Produced W k)) (W.Γ t).body s := h
    rw [crate_body hΓ] at h
    have hi : Ty.inline P (crateOf C t) = false := by rw [hΓ] at hi; exact hi
    have hc := crateOf_crate C t
    generalize crateOf C t = t' at h hc hi
    cases t' with
    | fixed f =>
      cases f <;> simp only [Ty.body, Ty.fixedBody, stdBody, Returns] at h <;> first | (cases hi; done) | skip
      case bytes => obtain ⟨s1, h1, rfl⟩ := h; exact noneHere_lit (by simp [hereKeys])
      case osString =>
        cases h
        exact noneHere_oneOf (by
          simp only [List.mem_cons, List.not_mem_nil, or_false, forall_eq_or_imp, forall_eq]
          exact ⟨noneHere_property _ _, noneHere_property _ _⟩)
      all_goals
        cases h
        exact noneHere_lit (by simp [hereKeys])
    | result t e =>
      obtain ⟨s1, _, s2, _, rfl⟩ := h
      exact noneHere_oneOf (by
        simp only [List.mem_cons, List.not_mem_nil, or_false, forall_eq_or_imp, forall_eq]
        exact ⟨noneHere_property _ _, noneHere_property _ _⟩)
    | bound t =>
      obtain ⟨s1, _, s2, _, rfl⟩ := h
      exact noneHere_oneOf (by
        simp only [List.mem_cons, List.not_mem_nil, or_false, forall_eq_or_imp, forall_eq]
        exact ⟨noneHere_property _ _, noneHere_property _ _, noneHere_lit (by simp [hereKeys])⟩)
    | range t => obtain ⟨s1, h1, rfl⟩ := h; exact noneHere_lit (by simp [hereKeys])
    | derived d cs l => exact hc.elim
    | _ => cases hi

theorem crate_inline (hΓ : W.Γ = crateDef C) {t t' : Ty} (h : W.uid t = W.uid t') :
    (W.Γ t).inlineSchema = (W.Γ t').inlineSchema := by
  have e : Ty.id P (crateOf C t) = Ty.id P (crateOf C t') := by
    have := (Prod.mk.inj h).1
    rw [hΓ] at this
    exact String.ofList_injective this
  rw [hΓ]
  show Ty.inline P (crateOf C t) = Ty.inline P (crateOf C t')
  rw [C.inj _ _ (crateOf_mem C t) (crateOf_mem C t') e]

theorem noneHere_rootObject {Γ : Ty → TypeDef Ty} {m : List (String × Json)} (h : NoneHere (.obj m)) (t : Ty) (ms : Option String) :
    NoneHere (.obj (rootObject Γ t ms m)) := by
  unfold rootObject
  simp only
  split <;> split
  · exact h.insert (by decide) _
  · exact (h.insert (by decide) _).insert (by decide) _
  · exact h
  · exact h.insert (by decide) _

theorem refs_rootObject {Q : String → Prop} {Γ : Ty → TypeDef Ty} {m : List (String × Json)} (h : Refs Q (.obj m)) (t : Ty)
    (ms : Option String) : Refs Q (.obj (rootObject Γ t ms m)) := by
  unfold rootObject
  simp only
  split <;> split
  · exact h.insert (refs_str _) (by decide)
  · exact (h.insert (refs_str _) (by decide)).insert (refs_str _) (by decide)
  · exact h
  · exact h.insert (refs_str _) (by decide)

open Classical in
/-- C83: references can be followed, for a set of types with different ids. -/
theorem crates_resolvable (C : Crates P) (D : Dialect) {n : Nat} {t : Ty} (hc : C.S t) {st : Settings} {r : Json} {g' : Gen Ty}
    (h : rootSchemaFor (Ty.typeDef P) (run (Ty.typeDef P) n) t (Gen.new st) = some (r, g')) (hst : st.transforms = [])
    {k : String} (hk : k = "$defs" ∨ k = "definitions") (hpath : PathDenotes st.definitionsPath [k]) :
    ∃ env, FixedRx env ∧ Resolves D env r := by
  rw [crateDef_root hc] at h
  have hroot : ∀ t, NoRoot (crateDef C t).body := fun t => crate_noRoot _ (crateOf_crate C t)
  have hsorted := (rootSchemaFor_kept (run_keeps (crateDef C) n) h).sorted Obj.sorted_nil
  obtain ⟨body, m, hm, hr, hbody, hdefs, hnames⟩ := root_world hroot h
  have hplain : ∀ name d, Obj.get g'.defs name = some d → PlainName name := by
    intro name d hd
    obtain ⟨t', -, h2⟩ := hdefs name d hd
    exact rootSchemaFor_fact (run_fact (crate_fact _) n) rfl (by intro e he; cases he) h _ h2
  generalize hW : (⟨crateDef C, st, g'.names, g'.defs, some ((crateDef C t).schemaId, st.contract)⟩ : World Ty) = W at hbody hdefs hnames
  have hΓ : W.Γ = crateDef C := by rw [← hW]
  have hk2 : '%' ∉ renderPointer [k] := by rcases hk with rfl | rfl <;> decide
  have hk3 : k ∉ hereKeys := by rcases hk with rfl | rfl <;> decide
  have hm' : Tidy (.obj m) := by
    obtain ⟨m', e, hs⟩ := (crate_tidy hΓ _ _ _ hbody).ensureObject
    rw [hm] at e
    cases e; exact hs
  have hto := tidy_rootObject (Γ := crateDef C) hm' t st.metaSchema
  rw [hst] at hr
  have hr : r = .obj (addDefinitions st.definitionsPath.toList (rootObject (crateDef C) t st.metaSchema m) g'.defs) := hr
  have hmr : Refs (RunRef W) (.obj m) := by
    have hb := crate_refs hΓ _ _ _ hbody
    cases body with
    | obj m' => cases hm; exact hb
    | bool b => cases b <;> cases hm <;> exact refs_free _ (by decide)
    | _ => cases hm
  have hmn : (W.Γ t).inlineSchema = false → NoneHere (.obj m) := by
    intro hi
    have hb := crate_noneHere hΓ hbody hi
    cases body with
    | obj m' => cases hm; exact hb
    | bool b => cases b <;> cases hm <;> exact noneHere_closed (by decide)
    | _ => cases hm
  have hrefs : Refs (RunRef W) r := by
    rw [hr]
    by_cases hne : g'.defs = []
    · rw [hne, C05_empty]; exact refs_rootObject hmr t _
    · rw [addDefinitions_tidy hk hpath hto hsorted hne]
      refine (refs_rootObject hmr t _).insert (refs_obj fun e he => ?_) (by rintro rfl; exact hk3 (by decide))
      obtain ⟨t', h1, -⟩ := hdefs e.1 e.2 (Obj.get_of_mem_sorted hsorted he)
      refine ⟨crate_refs hΓ _ _ _ h1, fun r' e' => ?_⟩
      have := (crate_tidy hΓ _ _ _ h1).isSchema
      rw [e'] at this; cases this
  have hself : (W.Γ t).inlineSchema = false → NoneHere r := by
    intro hi
    have := noneHere_rootObject (Γ := crateDef C) (hmn hi) t st.metaSchema
    rw [hr]
    by_cases hne : g'.defs = []
    · rw [hne, C05_empty]; exact this
    · rw [addDefinitions_tidy hk hpath hto hsorted hne]; exact this.insert hk3 _
  have hat : ∀ name d, Obj.get g'.defs name = some d → At r ([k] ++ [name]) d := by
    intro name d hname
    have hne : g'.defs ≠ [] := by rintro e; rw [e] at hname; cases hname
    rw [hr, addDefinitions_tidy hk hpath hto hsorted hne]
    exact .member (Obj.get_insert_self _ k _) (.member hname (.here _))
  obtain ⟨env, he⟩ := CrateEx.fixedRx_exists
  obtain ⟨f, hf⟩ := resolves_exists (D := D) (env := env) (doc := r) (B := 2)
    (rank := fun v => if ∃ r, InPlaceRef v r then 1 else 0) (fun v => by split <;> omega) fun ref v r' v' hv hr' hv' => by
      have hnone : NoneHere v' := by
        obtain ⟨toks, _, hv, -, -⟩ := hv
        obtain ⟨t', hi, ⟨name, h1, ⟨d, h2⟩, rfl⟩ | ⟨h1, rfl⟩⟩ := (hrefs.at hv).inPlace hr'
        · have h2 : Obj.get g'.defs name = some d := by rw [← hW] at h2; exact h2
          obtain ⟨t1, h3, h4⟩ := hdefs name d h2
          have hd : RefersTo r (refFor W.settings.definitionsPath.toList name) d := by
            rw [← hW]
            exact refersTo_definition hpath hk2 (fun c hc => (hplain name d h2 c hc).1) (hat name d h2)
          rw [refersTo_unique hv' hd]
          exact crate_noneHere hΓ h3 (by rw [crate_inline hΓ (hnames _ _ _ h4 h1)]; exact hi)
        · rw [refersTo_unique hv' ⟨[], [], .here _, rfl, rfl⟩]
          refine hself ?_
          have : W.uid t = W.uid t' := by rw [← hW] at h1 ⊢; exact Option.some.inj h1
          rw [crate_inline hΓ this]; exact hi
      rw [if_neg (fun ⟨r, h⟩ => hnone r h), if_pos ⟨_, hr'⟩]
      omega
  exact ⟨env.withRef f, he, hf⟩

/-- C83: the references of the root schema of a type that is made of types of the crate only can be followed: there is
an environment as `C83_partial` supposes it, for every dialect. -/
theorem C83_resolvable (D : Dialect) {n : Nat} {t : Ty} (hc : Crate false t) {st : Settings} {r : Json} {g' : Gen Ty}
    (h : rootSchemaFor (Ty.typeDef P) (run (Ty.typeDef P) n) t (Gen.new st) = some (r, g')) (hst : st.transforms = [])
    {k : String} (hk : k = "$defs" ∨ k = "definitions") (hpath : PathDenotes st.definitionsPath [k]) :
    ∃ env, FixedRx env ∧ Resolves D env r :=
  crates_resolvable (.plain P) D hc h hst hk hpath

/-- C83: so they can with `ArrayVec`, as `C83_ids_partial` supposes it. -/
theorem C83_resolvable_ids (D : Dialect) {n : Nat} {t : Ty} (hc : Crate true t)
    (hid : ∀ u u', PartOf t u → PartOf t u' → Ty.id P u = Ty.id P u' → u = u') {st : Settings} {r : Json} {g' : Gen Ty}
    (h : rootSchemaFor (Ty.typeDef P) (run (Ty.typeDef P) n) t (Gen.new st) = some (r, g')) (hst : st.transforms = [])
    {k : String} (hk : k = "$defs" ∨ k = "definitions") (hpath : PathDenotes st.definitionsPath [k]) :
    ∃ env, FixedRx env ∧ Resolves D env r :=
  crates_resolvable (.parts P t hc hid) D .self h hst hk hpath

/-! ### Generation succeeds -/

/-- The body asks only for types in `Q`, and returns a schema if all answers are schemas. -/
def Fine (Q : Ty → Prop) : Prog Ty → Prop
  | .ret s => IsSchema s
  | .sub t k => Q t ∧ ∀ s, IsSchema s → Fine Q (k s)
  | .direct t k => Q t ∧ ∀ s, IsSchema s → Fine Q (k s)
  | .root _ _ => False
  | .askSettings k => ∀ st, Fine Q (k st)
  | .askDefs k => ∀ d, Fine Q (k d)

section
variable {Γ : Ty → TypeDef Ty} {R : Ty → Gen Ty → Option (Json × Gen Ty)}

/-- The calls for the type return schemas. -/
def Works (R : Ty → Gen Ty → Option (Json × Gen Ty)) (t : Ty) : Prop := ∀ g, ∃ s g', R t g = some (s, g') ∧ IsSchema s

theorem works_internal {t : Ty} (h : Works R t) (u : Uid) (g : Gen Ty) :
    ∃ s g', jsonSchemaInternal R t u g = some (s, g') ∧ IsSchema s := by
  unfold jsonSchemaInternal
  obtain ⟨s, g', h1, h2⟩ := h (Gen.note { g with pending := if u ∉ g.pending then u :: g.pending else g.pending } (.enter t u))
  simp only [h1]
  exact ⟨_, _, rfl, h2⟩

theorem works_sub {t : Ty} (h : Works R t) (g : Gen Ty) : ∃ s g', subschemaFor Γ R t g = some (s, g') ∧ IsSchema s := by
  unfold subschemaFor
  simp only
  split
  · split
    · exact ⟨_, _, rfl, .obj _⟩
    · split
      · exact ⟨_, _, rfl, .obj _⟩
      · unfold insertNewSubschemaFor
        obtain ⟨s, g', h1, -⟩ := works_internal h (uidOf Γ g t)
          { (nameFor Γ t g).2.note (.handed t (uidOf Γ g t) (Schema.newRef
              (refFor (nameFor Γ t g).2.settings.definitionsPath.toList (nameFor Γ t g).1))) with
            defs := Obj.insert ((nameFor Γ t g).2.note (.handed t (uidOf Γ g t) (Schema.newRef
              (refFor (nameFor Γ t g).2.settings.definitionsPath.toList (nameFor Γ t g).1)))).defs (nameFor Γ t g).1 (.bool false) }
        simp only [h1]
        exact ⟨_, _, rfl, .obj _⟩
  · exact works_internal h _ g

theorem works_exec {p : Prog Ty} (hp : Fine (Works R) p) : ∀ g, ∃ s g', exec Γ R p g = some (s, g') ∧ IsSchema s := by
  induction p with
  | ret s => exact fun g => ⟨s, g, rfl, hp⟩
  | sub t k ih =>
    intro g
    obtain ⟨s, g1, h1, h2⟩ := works_sub (Γ := Γ) hp.1 g
    obtain ⟨s', g', h3, h4⟩ := ih s (hp.2 s h2) g1
    exact ⟨s', g', by simp only [exec, h1, Option.bind_some]; exact h3, h4⟩
  | direct t k ih =>
    intro g
    obtain ⟨s, g1, h1, h2⟩ := hp.1 g
    obtain ⟨s', g', h3, h4⟩ := ih s (hp.2 s h2) g1
    exact ⟨s', g', by simp only [exec, h1, Option.bind_some]; exact h3, h4⟩
  | root t k ih => exact hp.elim
  | askSettings k ih => exact fun g => ih _ (hp _) g
  | askDefs k ih => exact fun g => ih _ (hp _) g

theorem works_root {t : Ty} (h : Works R t) (g : Gen Ty) : ∃ r g', rootSchemaFor Γ R t g = some (r, g') := by
  unfold rootSchemaFor
  simp only
  obtain ⟨s, g', h1, h2⟩ := works_internal h (uidOf Γ g t)
    (Gen.note { g with rootStack := uidOf Γ g t :: g.rootStack } (.rootEnter t (uidOf Γ g t)))
  rw [h1]
  cases h2 with
  | obj m => exact ⟨_, _, rfl⟩
  | bool b => cases b <;> exact ⟨_, _, rfl⟩

end

/-- With enough depth the type is handled. -/
def Ends (P : Nat → IdDecl) (t : Ty) : Prop := ∃ N, ∀ n, N ≤ n → Works (run (Ty.typeDef P) n) t

theorem ends_of {Q : Ty → Prop} {t : Ty} (hQ : ∃ N, ∀ n, N ≤ n → ∀ u, Q u → Works (run (Ty.typeDef P) n) u)
    (h : ∀ Q' : Ty → Prop, (∀ u, Q u → Q' u) → Fine Q' (Ty.body P t)) : Ends P t := by
  obtain ⟨N, hN⟩ := hQ
  refine ⟨N + 1, fun n hn => ?_⟩
  cases n with
  | zero => omega
  | succ n => exact fun g => works_exec (h _ (hN n (by omega))) g

theorem ends_two {a b : Ty} (ha : Ends P a) (hb : Ends P b) :
    ∃ N, ∀ n, N ≤ n → ∀ u, u = a ∨ u = b → Works (run (Ty.typeDef P) n) u := by
  obtain ⟨N, h1⟩ := ha
  obtain ⟨N', h2⟩ := hb
  refine ⟨max N N', fun n hn u hu => ?_⟩
  rcases hu with rfl | rfl
  · exact h1 n (by omega)
  · exact h2 n (by omega)

theorem ends_one {a : Ty} (ha : Ends P a) : ∃ N, ∀ n, N ≤ n → ∀ u, u = a → Works (run (Ty.typeDef P) n) u := by
  obtain ⟨N, h1⟩ := ha
  exact ⟨N, fun n hn u hu => hu ▸ h1 n hn⟩

theorem ends_all {l : List Ty} (h : ∀ t ∈ l, Ends P t) : ∃ N, ∀ n, N ≤ n → ∀ u, u ∈ l → Works (run (Ty.typeDef P) n) u := by
  induction l with
  | nil => exact ⟨0, fun _ _ _ h => by cases h⟩
  | cons a l ih =>
    obtain ⟨N, h1⟩ := h a (.head _)
    obtain ⟨N', h2⟩ := ih fun t ht => h t (.tail _ ht)
    refine ⟨max N N', fun n hn u hu => ?_⟩
    rcases List.mem_cons.1 hu with rfl | hu
    · exact h1 n (by omega)
    · exact h2 n (by omega) u hu

theorem fine_subAll {Q : Ty → Prop} {l : List Ty} (hl : ∀ t ∈ l, Q t) {k : List Json → Prog Ty} (hk : ∀ r, Fine Q (k r)) :
    Fine Q (subAll l k) := by
  induction l generalizing k with
  | nil => exact hk []
  | cons t l ih => exact ⟨hl t (.head _), fun s _ => ih (fun t ht => hl t (.tail _ ht)) fun r => hk _⟩

theorem isSchema_null {s : Json} (h : IsSchema s) : IsSchema (allowNull s) := by
  cases h with
  | obj m => unfold allowNull; simp only; split <;> [skip; split] <;> exact .obj _
  | bool b => cases b; exacts [.obj _, .bool _]

theorem isSchema_map (path : List Char) (d : List (String × Json)) (ks vs : Json) : IsSchema (mapSchema path d ks vs) := by
  unfold mapSchema
  split <;> exact .obj _

/-- The generator handles every type that is made of types of the crate only, with `ArrayVec`. -/
theorem crate_ends {v : Bool} (t : Ty) (h : Crate v t) : Ends P t := by
  refine crate_induction (M := Ends P) ?_ ?_ ?_ ?_ ?_ ?_ ?_ ?_ ?_ ?_ ?_ ?_ ?_ t h
  · intro f
    have hu8 : Ends P (.fixed (.int .u8)) := ends_of (Q := fun _ => False) ⟨0, fun _ _ _ h => h.elim⟩ fun _ _ => .obj _
    refine ends_of (ends_one hu8) fun Q' hQ => ?_
    cases f <;> first
      | exact IsSchema.obj _
      | exact IsSchema.bool _
      | exact fun _ => IsSchema.obj _
      | exact ⟨hQ _ rfl, fun _ _ _ => .obj _⟩
      | skip
    case int t => cases t <;> exact .obj _
    case nonZero t => cases t <;> exact .obj _
    case decimal => intro st; show IsSchema (decimalSchema st.contract); cases st.contract <;> exact .obj _
  · exact ends_of (Q := fun _ => False) ⟨0, fun _ _ _ h => h.elim⟩ fun _ _ => .obj _
  · exact fun t ih => ends_of (ends_one ih) fun Q' hQ => ⟨hQ _ rfl, fun _ hs => isSchema_null hs⟩
  · exact fun t ih => ends_of (ends_one ih) fun Q' hQ => ⟨hQ _ rfl, fun _ _ => .obj _⟩
  · exact fun t ih => ends_of (ends_one ih) fun Q' hQ => ⟨hQ _ rfl, fun _ _ => .obj _⟩
  · exact fun n t ih => ends_of (ends_one ih) fun Q' hQ => ⟨hQ _ rfl, fun _ _ => .obj _⟩
  · exact fun _ n t ih => ends_of (ends_one ih) fun Q' hQ => ⟨hQ _ rfl, fun _ _ => .obj _⟩
  · exact fun l _ ih => ends_of (ends_all ih) fun Q' hQ => fine_subAll hQ fun _ => .obj _
  · exact fun a b iha ihb => ends_of (ends_two iha ihb) fun Q' hQ =>
      ⟨hQ _ (.inl rfl), fun _ _ => ⟨hQ _ (.inr rfl), fun _ _ _ _ => isSchema_map _ _ _ _⟩⟩
  · exact fun a b iha ihb => ends_of (ends_two iha ihb) fun Q' hQ =>
      ⟨hQ _ (.inl rfl), fun _ _ => ⟨hQ _ (.inr rfl), fun _ _ => .obj _⟩⟩
  · exact fun t ih => ends_of (ends_one ih) fun Q' hQ => ⟨hQ _ rfl, fun _ _ => ⟨hQ _ rfl, fun _ _ => .obj _⟩⟩
  · exact fun t ih => ends_of (ends_one ih) fun Q' hQ => ⟨hQ _ rfl, fun _ _ => .obj _⟩
  · exact fun a b iha ihb => ends_of (ends_two iha ihb) fun Q' hQ =>
      ⟨hQ _ (.inl rfl), fun _ _ => ⟨hQ _ (.inr rfl), fun _ _ => .obj _⟩⟩

/-- C83, C29: the generator makes a root schema of every type that is made of types of the crate only, with `ArrayVec`,
in every state. -/
theorem C83_generates (P : Nat → IdDecl) {v : Bool} {t : Ty} (hc : Crate v t) : ∃ N, ∀ n, N ≤ n → ∀ g : Gen Ty,
    ∃ r g', rootSchemaFor (Ty.typeDef P) (run (Ty.typeDef P) n) t g = some (r, g') := by
  obtain ⟨N, h⟩ := crate_ends (P := P) t hc
  exact ⟨N, fun n hn g => works_root (h n hn) g⟩

/-- C83, without suppositions about a run: every type that is made of types of the crate only, without `ArrayVec`, has a
root schema, its references can be followed, and it accepts exactly the documents of the type if they are. -/
theorem C83_holds (P : Nat → IdDecl) {t : Ty} (hc : Crate false t) {st : Settings} (hst : st.transforms = [])
    {k : String} (hk : k = "$defs" ∨ k = "definitions") (hpath : PathDenotes st.definitionsPath [k]) :
    ∃ N, ∀ n, N ≤ n → ∃ r g', rootSchemaFor (Ty.typeDef P) (run (Ty.typeDef P) n) t (Gen.new st) = some (r, g') ∧
      (∃ env, FixedRx env ∧ Resolves draft2020 env r) ∧
      ∀ env, FixedRx env → Resolves draft2020 env r → ∀ j : Json, j.WF → (Valid draft2020 env r j ↔ Doc st.contract t j) := by
  obtain ⟨N, h⟩ := C83_generates P hc
  refine ⟨N, fun n hn => ?_⟩
  obtain ⟨r, g', h⟩ := h n hn (Gen.new st)
  exact ⟨r, g', h, C83_resolvable draft2020 hc h hst hk hpath, fun env h1 h2 j hj =>
    C83_partial h1 rfl rfl hc h hst hk hpath h2 hj⟩

/-- `BTreeMap<String, Result<Vec<u8>, Bound<i32>>>`, with the settings for draft 2020-12. -/
example (P : Nat → IdDecl) : ∃ N, ∀ n, N ≤ n → ∃ r g', rootSchemaFor (Ty.typeDef P) (run (Ty.typeDef P) n)
    (.map (.fixed .string) (.result (.seq (.fixed (.int .u8))) (.bound (.fixed (.int .i32))))) (Gen.new .draft2020) = some (r, g') ∧
      ∃ env, FixedRx env ∧ Resolves draft2020 env r := by
  obtain ⟨N, h⟩ := C83_holds P (t := .map (.fixed .string) (.result (.seq (.fixed (.int .u8))) (.bound (.fixed (.int .i32)))))
    (by simp [Crate]) (st := .draft2020) rfl (.inl rfl) rfl
  exact ⟨N, fun n hn => by obtain ⟨r, g', h1, h2, -⟩ := h n hn; exact ⟨r, g', h1, h2⟩⟩

/-- `Bound<ArrayVec<u8, 3>>`: its parts have different ids. -/
example (P : Nat → IdDecl) : ∃ t : Ty, t = .bound (.arrayVec 3 (.fixed (.int .u8))) ∧ Crate true t ∧ ¬ Crate false t ∧
    ∀ u u', PartOf t u → PartOf t u' → Ty.id P u = Ty.id P u' → u = u' := by
  refine ⟨_, rfl, by simp [Crate], by simp [Crate], ?_⟩
  have key : ∀ u, PartOf (.bound (.arrayVec 3 (.fixed (.int .u8)))) u →
      u ∈ ([.bound (.arrayVec 3 (.fixed (.int .u8))), .arrayVec 3 (.fixed (.int .u8)), .fixed (.int .u8)] : List Ty) := by
    intro u h
    induction h with
    | self => exact .head _
    | kid _ hu ih =>
      simp only [List.mem_cons, List.not_mem_nil, or_false] at ih ⊢
      rcases ih with rfl | rfl | rfl <;> simp only [kids, List.mem_cons, List.not_mem_nil, or_false] at hu <;> simp [hu]
  intro u u' h h' e
  have h := key u h
  have h' := key u' h'
  simp only [List.mem_cons, List.not_mem_nil, or_false] at h h'
  have h1 : (Ty.id P (.bound (.arrayVec 3 (.fixed (.int .u8))))).head? = some 'B' := rfl
  have h2 : (Ty.id P (.arrayVec 3 (.fixed (.int .u8)))).head? = some 'A' := rfl
  have h3 : (Ty.id P (.fixed (.int .u8))).head? = some 'u' := rfl
  have e := congrArg List.head? e
  rcases h with rfl | rfl | rfl <;> rcases h' with rfl | rfl | rfl <;> simp [h1, h2, h3] at e ⊢

/-! ### `Weak` -/

/-- The documents of `Weak<T>` of the standard library, for the type `t` of its values: serde writes it like an
`Option`, null if the value is gone, and reads null as well. -/
def Spec.WeakDoc (c : Contract) (t : Ty) (j : Json) : Prop := j = .null ∨ Doc c t j

/-- C83: `Weak<T>` has the schema of `T` (schemars/src/json_schema_impls/wrapper.rs:14, 16), which accepts the documents
of `Weak<T>` only if null is a document of `T`. -/
theorem C83_weak {v : Version} {st : Settings} {env : Env} (hrx : FixedRx env) {n : Nat} {t : Ty} (hc : Crate false t)
    (hst : Configured v st) {r : Json} {g' : Gen Ty}
    (h : rootSchemaFor (Ty.typeDef P) (run (Ty.typeDef P) n) t (Gen.new st) = some (r, g'))
    (hnone : v = .openapi3 → g'.defs = []) (hR : Resolves v.dialect env r) :
    (∀ j : Json, j.WF → (Valid v.dialect env r j ↔ WeakDoc st.contract t j)) ↔ Doc st.contract t .null := by
  have key : ∀ j : Json, j.WF → (Valid v.dialect env r j ↔ Doc st.contract t j) := fun j hj =>
    C83_versions_partial hrx hc hst h hnone hR hj
  constructor
  · intro h
    rw [← key _ .null, h _ .null]
    exact .inl rfl
  · intro h j hj
    rw [key j hj]
    exact ⟨.inr, fun h' => h'.elim (fun e => e ▸ h) id⟩

/-- For `Weak<u8>` it does not, for `Weak<Option<u8>>` it does. -/
example (c : Contract) : ¬ Doc c (.fixed (.int .u8)) .null ∧ Doc c (.option (.fixed (.int .u8))) .null := by
  constructor
  · simp only [Doc, FixedDoc, IntDoc]
    rintro ⟨n, ⟨_, e, _⟩, -⟩
    cases e
  · exact .inl rfl

end

end Verif
