import Verif.Props.AcceptsFlatten
import Verif.Props.ReadsDerive

/-!
# Structs with flattened enums and what serde reads
-/

namespace Verif
open Spec

variable {τ : Type}

section
variable {D : Dialect} {env : Env} {P : τ → Json → Prop} {decl : τ → Decl τ} {I : TypeInfo τ}
  {A : Answers τ} {w : Nat} {q : Quirks τ} {j s : Json} {b : Bool}

/-! ## The names of structs -/

/-- The schema of a struct does not mention a name that no field has. -/
theorem struct_shape {cd deny : Bool} {fs : List (Field τ)} {tag : String} (hde : A.settings.contract = .deserialize)
    (hran : ∀ t s, A.direct t s → FromBody decl I t s)
    (ht : ∃ ns ms, InputNames decl I.base fs ns ms ∧ tag ∉ ns ++ ms) (h : Returns A (structProg I fs cd deny) s) :
    ∃ m p r, s = .obj m ∧ Shape m p r deny ∧ Obj.Sorted p ∧ Obj.get p tag = none ∧ tag ∉ r := by
  obtain ⟨ns, ms, hn, ht⟩ := ht
  obtain ⟨m, p, r, rfl, hs, hp, hm⟩ := input_struct hn hde hran h
  refine ⟨m, p, r, rfl, hs, hp, ?_, fun h => ht (hm.2 _ h)⟩
  cases hg : Obj.get p tag with
  | none => rfl
  | some x => exact absurd ((hm.1 _).1 ⟨x, hg⟩) ht

/-- The schema of a struct type. -/
theorem plain_shape {t : τ} {c : Container τ} {fs : List (Field τ)} {ns ms : List String} {tag : String}
    (hd : decl t = .derived c) (hc : PlainInput c fs) (hn : InputNames decl I.base fs ns ms) (ht : tag ∉ ns ++ ms)
    (h : FromBody decl I t s) :
    ∃ m p r, s = .obj m ∧ Shape m p r c.denyUnknownFields ∧ Obj.Sorted p ∧ Obj.get p tag = none ∧ tag ∉ r := by
  obtain ⟨m, p, r, rfl, hs, hp, hm⟩ := input_type hd hc hn h
  refine ⟨m, p, r, rfl, hs, hp, ?_, fun h => ht (hm.2 _ h)⟩
  cases hg : Obj.get p tag with
  | none => rfl
  | some x => exact absurd ((hm.1 _).1 ⟨x, hg⟩) ht

/-! ## Schemas with more members -/

/-- The converse of `Shape.grow`. -/
theorem Shape.shrink {m m2 p q o : List (String × Json)} {r ns : List String} {deny : Bool} (h : Shape m p r deny)
    (h2 : Shape m2 p r false) (hr : ∀ n ∈ r, n ∈ ns) (hd : deny = true → ∀ e ∈ q, ∃ x, Obj.get p e.1 = some x)
    (hg : Grows ns q o) (hq : Obj.Sorted q) (hv : Valid D env (.obj m2) (.obj o)) : Valid D env (.obj m) (.obj q) := by
  rw [h2.valid] at hv
  rw [h.valid]
  obtain ⟨o', e, hv1, hv2, -⟩ := hv
  cases e
  refine ⟨q, rfl, fun n hn => ?_, fun e he s hs => hv2 e (hg.1 e he) s hs, hd⟩
  obtain ⟨x, hx⟩ := hv1 n hn
  exact ⟨x, Obj.get_of_mem_sorted hq (hg.2 _ (Obj.get_mem hx) (hr n hn))⟩

theorem Shape.way {m m2 p q o : List (String × Json)} {r ns : List String} {deny : Bool} (h : Shape m p r deny)
    (h2 : Shape m2 p r false) (hp : ∀ n x, Obj.get p n = some x → n ∈ ns) (hr : ∀ n ∈ r, n ∈ ns)
    (hd : b = true → deny = true → ∀ e ∈ q, ∃ x, Obj.get p e.1 = some x)
    (hg : Grows ns q o) (hq : (Json.obj q).WF) (ho : (Json.obj o).WF) :
    Way b (Valid D env (.obj m2) (.obj o)) (Valid D env (.obj m) (.obj q)) := by
  cases b with
  | false => exact h.grow h2 hp hg (sorted_of_wf ho)
  | true => exact h.shrink h2 hr (hd rfl) hg (sorted_of_wf hq)

/-- The schema of a variant with a tag, and once it allows unknown members. -/
structure Widens (D : Dialect) (env : Env) (b : Bool) (N : List (String × Json) → Prop) (ns : List String)
    (tag name : String) (m : List (String × Json)) : Prop where
  tagged : ∀ i, Valid D env (.obj m) i → Tagged tag name i
  opened : ∀ i, Valid D env (allowUnknown (.obj m)) i → Tagged tag name i
  way : ∀ q o, N q → Grows ns q o → (Json.obj q).WF → (Json.obj o).WF →
    Way b (Valid D env (allowUnknown (.obj m)) (.obj o)) (Valid D env (.obj m) (.obj q))

theorem oneOf_names {es : List (Variant τ × Json)} {name : Variant τ → String} {i : Json}
    (hn : (es.map fun e => name e.1).Nodup) {g : Json → Json}
    (hx : ∀ a ∈ es, ∀ b ∈ es, Valid D env (g a.2) i → Valid D env (g b.2) i → name a.1 = name b.1) :
    Valid D env (.obj [("oneOf", .arr (es.map fun e => g e.2))]) i ↔ ∃ e ∈ es, Valid D env (g e.2) i := by
  rw [valid_oneOf_exclusive]
  · constructor
    · rintro ⟨s, hs, hv⟩
      obtain ⟨e, he, rfl⟩ := List.mem_map.1 hs
      exact ⟨e, he, hv⟩
    · rintro ⟨e, he, hv⟩
      exact ⟨_, List.mem_map_of_mem (f := fun e : Variant τ × Json => g e.2) he, hv⟩
  · rw [List.pairwise_map]
    exact pairwise_of_names (P := fun e : Variant τ × Json => Valid D env (g e.2) i) hn hx

theorem tagged_eq {tag n n' : String} {i : Json} (h : Tagged tag n i) (h' : Tagged tag n' i) : n = n' := by
  obtain ⟨o, rfl, h⟩ := h
  obtain ⟨o', e, h'⟩ := h'
  cases e
  rw [h] at h'
  injection h' with h'
  injection h'

/-- An enum with a tag, and once it allows unknown members. -/
theorem tagged_way {es : List (Variant τ × Json)} {N : List (String × Json) → Prop} {ns : List String} {tag : String}
    (hn : (es.map fun e => e.1.name.de).Nodup)
    (hw : ∀ e ∈ es, ∃ m, e.2 = .obj m ∧ Widens D env b N ns tag e.1.name.de m) {x o : List (String × Json)} (hN : N x)
    (hg : Grows ns x o) (hx : (Json.obj x).WF) (ho : (Json.obj o).WF) :
    Way b (Valid D env (.obj [("oneOf", .arr ((es.map Prod.snd).map (atSchema allowUnknown)))]) (.obj o))
      (Valid D env (.obj [("oneOf", .arr (es.map Prod.snd))]) (.obj x)) := by
  have hat : ∀ m, atSchema allowUnknown (.obj m) = allowUnknown (.obj m) := fun m => rfl
  refine Way.congr (v := ∃ e ∈ es, Valid D env (atSchema allowUnknown e.2) (.obj o))
    (r := ∃ e ∈ es, Valid D env e.2 (.obj x)) ?_ ?_ ?_
  · refine Way.ex fun e => Way.and_left fun he => ?_
    obtain ⟨m, e1, h1⟩ := hw e he
    rw [e1, hat]
    exact h1.way x o hN hg hx ho
  · rw [List.map_map]
    refine oneOf_names (name := fun v => v.name.de) (g := atSchema allowUnknown) hn fun a ha c hc h1 h2 => ?_
    obtain ⟨m1, e1, w1⟩ := hw a ha
    obtain ⟨m2, e2, w2⟩ := hw c hc
    rw [e1, hat] at h1
    rw [e2, hat] at h2
    exact tagged_eq (w1.opened _ h1) (w2.opened _ h2)
  · refine oneOf_names (name := fun v => v.name.de) (g := id) hn fun a ha c hc h1 h2 => ?_
    obtain ⟨m1, e1, w1⟩ := hw a ha
    obtain ⟨m2, e2, w2⟩ := hw c hc
    rw [e1] at h1
    rw [e2] at h2
    exact tagged_eq (w1.tagged _ h1) (w2.tagged _ h2)

/-- The schema of an enum with a tag. -/
theorem tagged_form {es : List (Variant τ × Json)}
    (hobj : ∀ e ∈ es, ∃ m, e.2 = .obj m ∧ Obj.get m "type" = some (.str "object"))
    {l : List (Json → Json)} (hl : ∀ f ∈ l, Annotates f) :
    EnumForm (runMutators l (.obj [("oneOf", .arr (es.map Prod.snd))])) (es.map Prod.snd) := by
  have hone : OnlyOneOf [("oneOf", .arr (es.map Prod.snd))] (es.map Prod.snd) :=
    ⟨List.pairwise_singleton _ _, rfl, fun k _ hk => by rw [Obj.get_cons, if_neg (Ne.symm hk)]; rfl⟩
  obtain ⟨m, e, hm⟩ := hone.annotate hl
  refine ⟨m, m, e, hm.plain, fun k hk => ?_, hm.expandNone ?_, hm⟩
  · exact hm.other k ((by decide : ∀ k ∈ ["properties", "patternProperties"], k ∉ annotations) k hk)
      ((by decide : ∀ k ∈ ["properties", "patternProperties"], k ≠ "oneOf") k hk)
  · intro a ha
    obtain ⟨e, he, rfl⟩ := List.mem_map.1 ha
    exact hobj e he

/-! ## Variants of flattened enums -/

/-- The names are those of the tag and the content. -/
def OfPair (t c : String) (q : List (String × Json)) : Prop := ∀ e ∈ q, e.1 = t ∨ e.1 = c

theorem adjacent_widens {deny : Bool} {tag key : String} (hne : tag ≠ key) {v : Variant τ} (hv : VariantInput v)
    (hde : A.settings.contract = .deserialize) (hb : b = true → ¬ hollow v)
    (h : Returns A (adjacentTaggedProg I tag key v deny) s) :
    ∃ m, s = .obj m ∧ Obj.get m "type" = some (.str "object") ∧
      Widens D env b (OfPair tag key) [tag, key] tag v.name.de m := by
  have hname : v.name.get A.settings.contract = v.name.de := by rw [hde]; rfl
  obtain ⟨sub, rfl, hsub⟩ : ∃ sub, s = runMutators v.common.mutators (adjacentSchema tag key v.name.de deny sub) ∧
      (sub = none → hollow v) := by
    unfold adjacentTaggedProg at h
    rw [hv.tagged] at h
    simp only [Bool.false_eq_true, if_false] at h
    rw [← hname]
    split at h
    · next hu =>
      simp only [Returns] at h
      exact ⟨none, h, fun _ => (hollow_iff hv).2 hu⟩
    · simp only [Returns] at h
      obtain ⟨sub, -, rfl⟩ := res_map.1 h
      exact ⟨some sub, rfl, fun h => by cases h⟩
  obtain ⟨m, p, e, hm, h1, h2, h3⟩ := shape_adjacent hne v.name.de deny sub
  obtain ⟨m', e', hm'⟩ := hm.annotate hv.common.annotates
  obtain ⟨m2, e2, hm2⟩ := hm'.allowUnknown
  refine ⟨m', by rw [e, e'], hm'.type, fun i hi => hm'.tag h1 hi, fun i hi => ?_, fun q o hN hg hq ho => ?_⟩
  · rw [e2] at hi; exact hm2.tag h1 hi
  · rw [e2]
    refine hm'.way hm2 (fun n x hnx => ?_) (fun n hn => ?_) (fun hb' _ e he => ?_) hg hq ho
    · by_contra hc
      simp only [List.mem_cons, List.not_mem_nil, or_false, not_or] at hc
      rw [h3 n hc.1 hc.2] at hnx; cases hnx
    · cases sub with
      | none => simpa using Or.inl (List.mem_singleton.1 hn)
      | some x => exact hn
    · rcases hN e he with h | h
      · rw [h]; exact ⟨_, h1⟩
      · rw [h, h2]
        cases sub with
        | none => exact absurd (hsub rfl) (hb hb')
        | some x => exact ⟨x, rfl⟩

/-- The schema of a struct beside a tag. -/
theorem shape_widens {m p : List (String × Json)} {r ms ns : List String} {d : Bool} {tag name : String}
    (hs : Shape m p r d) (hm : Mentions p r fun n => n ∈ ms) (hms : ∀ n ∈ ms, n ∈ ns) (ht : tag ∈ ns)
    (hd : b = true → d = false) (deny : Bool) {l : List (Json → Json)} (hl : ∀ f ∈ l, Annotates f) :
    ∃ m', runMutators l (applyInternalTag (.obj m) tag name deny) = .obj m' ∧
      Obj.get m' "type" = some (.str "object") ∧ Widens D env b (fun _ => True) ns tag name m' := by
  obtain ⟨m1, e1, h1⟩ := shape_internal hs tag name deny
  obtain ⟨m2, e2, h2⟩ := h1.annotate hl
  obtain ⟨m3, e3, h3⟩ := h2.allowUnknown
  have hg1 := Obj.get_insert_self p tag (tagSchema name)
  refine ⟨m2, by rw [e1, e2], h2.type, fun i hi => h2.tag hg1 hi, fun i hi => ?_, fun q o _ hg hq ho => ?_⟩
  · rw [e3] at hi; exact h3.tag hg1 hi
  · rw [e3]
    refine h2.way h3 (fun n x hnx => ?_) (fun n hn => ?_) (fun hb' hd' => ?_) hg hq ho
    · rw [Obj.get_insert] at hnx
      split at hnx
      · next hk => rw [← hk]; exact ht
      · exact hms n ((hm.1 n).1 ⟨x, hnx⟩)
    · rcases List.mem_cons.1 hn with rfl | hn
      · exact ht
      · exact hms n (hm.2 n hn)
    · rw [hd hb'] at hd'; cases hd'

/-- A reference to the schema of a struct beside a tag. -/
theorem ref_widens {r' tag name : String} {ms ns : List String}
    (hms : ∀ n ∈ ms, n ∈ ns) (ht : tag ∈ ns) (deny : Bool) {l l1 : List (Json → Json)} (hl : ∀ f ∈ l, Annotates f)
    (hl1 : ∀ f ∈ l1, Annotates f) :
    ∃ m', runMutators l (applyInternalTag (runMutators l1 (Schema.newRef r')) tag name deny) = .obj m' ∧
      Obj.get m' "type" = some (.str "object") ∧
      (Modern D env → (∃ m1 p1 req1, Shape m1 p1 req1 false ∧ Mentions p1 req1 (fun n => n ∈ ms) ∧
        ∀ i, (env.ref r' i).ok = true ↔ Valid D env (.obj m1) i) → Widens D env b (fun _ => True) ns tag name m') := by
  obtain ⟨mr, er, hkr, hnone⟩ := ref_kinds hl1 r'
  have hrestr : ∀ k ∈ restKeys, Obj.get mr k = none := fun k hk =>
    hnone k ((by decide : ∀ k ∈ restKeys, k ∉ annotations) k hk) ((by decide : ∀ k ∈ restKeys, k ≠ "$ref") k hk)
  obtain ⟨m', props, req, e', -, -, -, hre⟩ := retagged hkr tag name deny
  obtain ⟨m'', e'', hs'', hg''⟩ := runMutators_get hl hre.sorted
  have hid : allowUnknown (.obj m'') = .obj m'' := by
    refine allowUnknown_id hs'' (fun k hk => ?_) (fun k hk => ?_) fun k hk => ?_
    · rw [hg'' k ((by decide : ∀ k ∈ inPlace.one, k ∉ annotations) k hk),
        hre.other k ((by decide : ∀ k ∈ inPlace.one,
          k ∉ ["type", "properties", "required", "additionalProperties"]) k hk)]
      exact hnone k ((by decide : ∀ k ∈ inPlace.one, k ∉ annotations) k hk)
        ((by decide : ∀ k ∈ inPlace.one, k ≠ "$ref") k hk)
    · rw [hg'' k ((by decide : ∀ k ∈ inPlace.list, k ∉ annotations) k hk),
        hre.other k ((by decide : ∀ k ∈ inPlace.list,
          k ∉ ["type", "properties", "required", "additionalProperties"]) k hk)]
      exact hnone k ((by decide : ∀ k ∈ inPlace.list, k ∉ annotations) k hk)
        ((by decide : ∀ k ∈ inPlace.list, k ≠ "$ref") k hk)
    · rw [hg'' k ((by decide : ∀ k ∈ restKeys, k ∉ annotations) k hk)]
      simp only [restKeys, List.mem_cons, List.not_mem_nil, or_false] at hk
      rcases hk with rfl | rfl
      · rw [hre.additional, if_neg (fun hc => by rw [hnone _ (by decide) (by decide)] at hc; cases hc.2)]
        exact hrestr _ (by decide)
      · rw [hre.other _ (by decide)]; exact hrestr _ (by decide)
  have hval : ∀ i, Valid D env (.obj m'') i ↔ Valid D env (applyInternalTag (.obj mr) tag name deny) i := by
    intro i
    rw [← e'', runMutators_valid hl (.obj hre.sorted), e']
  have hvalr : ∀ i, Valid D env (.obj mr) i ↔ Valid D env (Schema.newRef r') i := by
    intro i
    rw [← er, runMutators_valid hl1 (sch_newRef r')]
  refine ⟨m'', by rw [er, e', e''], by rw [hg'' _ (by decide)]; exact hre.type, ?_⟩
  rintro hM ⟨m1, p1, req1, hs1, hm1, hr'⟩
  have htagged : ∀ i, Valid D env (.obj m'') i → Tagged tag name i := by
    intro i hi
    rw [hval] at hi
    exact C48_tagged (.inl ⟨mr, rfl, hkr⟩) (.inl hM.refs) hi
  refine ⟨htagged, fun i hi => htagged i (by rwa [hid] at hi), fun q o _ hg hq ho => ?_⟩
  have hopen : ∀ x, (Json.obj x).WF → (Valid D env (.obj m'') (.obj x) ↔
      Obj.get x tag = some (.str name) ∧ Valid D env (.obj m1) (.obj x)) := by
    intro x hx
    rw [hval, C48_internal_open hkr (.inl hM.refs) hrestr (.inl (hnone _ (by decide) (by decide))) ?_ hx,
      hvalr, valid_newRef hM.refs hr']
    · refine and_congr_left fun _ => ?_
      constructor
      · rintro ⟨o', e, h⟩; cases e; exact h
      · exact fun h => ⟨x, rfl, h⟩
    · rintro ⟨m1, x, e1, h1⟩
      cases e1
      rw [hnone "properties" (by decide) (by decide)] at h1
      cases h1
  rw [hid]
  refine Way.congr (Way.and (Way.of_iff ?_) (hs1.way hs1 (fun n x hnx => hms n ((hm1.1 n).1 ⟨x, hnx⟩))
    (fun n hn => hms n (hm1.2 n hn)) (fun _ h => by cases h) hg hq ho)) (hopen o ho) (hopen q hq)
  have hso := sorted_of_wf ho
  have hsq := sorted_of_wf hq
  constructor
  · intro h
    exact Obj.get_of_mem_sorted hsq (hg.2 _ (Obj.get_mem h) ht)
  · intro h
    exact Obj.get_of_mem_sorted hso (hg.1 _ (Obj.get_mem h))

/-- A variant of an internally tagged enum. -/
theorem internal_widens (hA : Comes decl I A) {v : Variant τ} {deny : Bool}
    {tag name : String} {ms ns : List String} (hn : InputTagged b decl I.base deny v ms)
    (hms : ∀ n ∈ ms, n ∈ ns) (ht : tag ∈ ns) (h : Returns A (internalVariantProg I v deny) s) {l : List (Json → Json)}
    (hl : ∀ f ∈ l, Annotates f) :
    ∃ m', runMutators l (applyInternalTag s tag name deny) = .obj m' ∧
      Obj.get m' "type" = some (.str "object") ∧
      (Modern D env → Targets D env decl I A → Widens D env b (fun _ => True) ns tag name m') := by
  have hbody : ∀ {t : τ} {s1 : Json} {l1 : List (Json → Json)}, BesideNames b decl I.base t ms → FromBody decl I t s1 →
      (∀ f ∈ l1, Annotates f) →
      ∃ m', runMutators l (applyInternalTag (runMutators l1 s1) tag name deny) = .obj m' ∧
        Obj.get m' "type" = some (.str "object") ∧
        (Modern D env → Targets D env decl I A → Widens D env b (fun _ => True) ns tag name m') := by
    rintro t s1 l1 ⟨c, fs, ns', ms', hd, hc, hin, rfl, hdeny⟩ hb hl1
    obtain ⟨m, p, r, rfl, hs, hps, hm⟩ := input_type hd hc hin hb
    obtain ⟨m1, e1, hs1⟩ := hs.annotate hl1
    rw [e1]
    obtain ⟨m', h1, h2, h3⟩ := shape_widens (D := D) (env := env) (b := b) (name := name) hs1 hm hms ht hdeny deny hl
    exact ⟨m', h1, h2, fun _ _ => h3⟩
  unfold internalVariantProg at h
  unfold InputTagged at hn
  cases hw : v.withTy with
  | some t =>
    rw [hw] at h hn
    simp only at h hn
    obtain ⟨s1, h1, rfl⟩ := h
    exact hbody (l1 := []) hn (hA.ran _ _ h1) (fun f hf => by cases hf)
  | none =>
    rw [hw] at h hn
    simp only at h hn
    cases hf : v.fields with
    | unit =>
      rw [hf] at h hn
      obtain ⟨s1, h1, rfl⟩ := h
      rw [hA.unit _ h1]
      obtain ⟨m, e, hs⟩ := shape_internalUnit tag name deny
      obtain ⟨m1, e1, hs1⟩ := hs.annotate hl
      obtain ⟨m2, e2, hs2⟩ := hs1.allowUnknown
      have hg1 : Obj.get [(tag, tagSchema name)] tag = some (tagSchema name) := by rw [Obj.get_cons, if_pos rfl]
      refine ⟨m1, by rw [e, e1], hs1.type, fun _ _ => ⟨fun i hi => hs1.tag hg1 hi, fun i hi => ?_,
        fun q o _ hg hq ho => ?_⟩⟩
      · rw [e2] at hi; exact hs2.tag hg1 hi
      · rw [e2]
        refine hs1.way hs2 (fun n x hnx => ?_) (fun n hn => ?_) (fun hb' hd' => ?_) hg hq ho
        · rw [Obj.get_cons] at hnx
          split at hnx
          · next hk => rw [← hk]; exact ht
          · cases hnx
        · rw [List.mem_singleton.1 hn]; exact ht
        · rw [hn.2 hb'] at hd'; cases hd'
    | tuple fs => rw [hf] at hn; exact hn.elim
    | struct fs =>
      rw [hf] at h hn
      simp only at h hn
      obtain ⟨⟨ns', ms', hn, rfl⟩, hdeny⟩ := hn
      obtain ⟨m, p, r, rfl, hs, hps, hm⟩ := input_struct hn hA.de hA.ran h
      obtain ⟨m', h1, h2, h3⟩ := shape_widens (D := D) (env := env) (b := b) (name := name) hs hm hms ht hdeny deny hl
      exact ⟨m', h1, h2, fun _ _ => h3⟩
    | newtype f =>
      rw [hf] at h hn
      simp only at h hn
      obtain ⟨hfok, hn⟩ := hn
      have hann := field_annotates hfok
      unfold fieldProg at h
      rw [res_map] at h
      obtain ⟨s0, h0, rfl⟩ := h
      unfold fieldType at hn
      by_cases hreq : f.required = true
      · simp only [hreq, if_true] at h0 hn
        obtain ⟨s1, h1, rfl⟩ := h0
        exact hbody hn (hA.ran _ _ h1) hann
      · simp only [hreq, if_false, if_true, Bool.false_eq_true] at h0 hn
        obtain ⟨s1, h1, h2⟩ := h0
        obtain ⟨c, fs, ns', ms', hd, hc, hin, rfl, hdeny⟩ := id hn
        obtain ⟨m, p, r, rfl, hs, hps, -⟩ := input_type hd hc hin (hA.ran _ _ h1)
        simp only [Returns, hs.tsub] at h2
        split at h2
        · cases h2
          exact hbody hn (hA.ran _ _ h1) hann
        · next hinl =>
          obtain ⟨s2, h3, rfl⟩ := h2
          rcases hA.ranSub _ _ h3 with hran | ⟨r', rfl⟩
          · exact hbody hn hran hann
          · obtain ⟨m', e1, e2, e3⟩ := ref_widens (D := D) (env := env) (b := b) (r' := r') (name := name) hms ht
              deny hl hann
            refine ⟨m', e1, e2, fun hM hT => e3 hM ?_⟩
            have hcd : c.denyUnknownFields = false := by
              cases hdn : c.denyUnknownFields with
              | false => rfl
              | true =>
                exfalso
                apply hinl
                have := hs.deny
                rw [hdn] at this
                unfold inlineNewtype
                simp only [Schema.get, this]
                simp [Json.asBool?]
            rcases hT _ _ h3 with hran | ⟨r1, v1, er, hr1, hran⟩
            · obtain ⟨m1, p1, req1, e, hs1, -⟩ := input_type hd hc hin hran
              cases e
              cases hs1.type
            · have : r1 = r' := by
                cases er; rfl
              subst this
              obtain ⟨m1, p1, req1, rfl, hs1, -, hm1⟩ := input_type hd hc hin hran
              rw [hcd] at hs1
              exact ⟨m1, p1, req1, hs1, hm1, hr1⟩

/-! ## What flattened fields are read from -/

/-- A flattened field is read, and these members are left for the fields after it. -/
def FlatStep (q : Quirks τ) (P : τ → Json → Prop) (base : τ → τ) (decl : τ → Decl τ) (f : Field τ)
    (o o1 : List (String × Json)) : Prop :=
  ((P (base f.ty) (.obj (seen q decl (base f.ty) o)) ∨ NullType decl (base f.ty)) ∧ o1 = leave q decl (base f.ty) o) ∨
  (∃ vs n x, share q decl (base f.ty) = .one vs ∧ (n, x) ∈ seen q decl (base f.ty) o ∧
    (q.lenient = true ∨ seen q decl (base f.ty) o = [(n, x)]) ∧
    (P (base f.ty) (.obj [(n, x)]) ∨ (x = .null ∧ ∃ v ∈ vs, v.skipDe = false ∧ hollow v ∧ n ∈ variantNames q v)) ∧
    o1 = Obj.remove o n) ∨
  (f.required = false ∧ (∃ u, decl f.ty = .std (.option u)) ∧
    (seen q decl (base f.ty) o = [] ∨ q.lenient = true) ∧ o1 = leave q decl (base f.ty) o)

theorem flattened_step {base : τ → τ} {f : Field τ} {fs : List (Field τ)} {o o' : List (String × Json)}
    (hs : f.skipDe = false) (hfl : f.flatten = true) :
    ReadFlattened q P base decl (f :: fs) o o' ↔
      ∃ o1, FlatStep q P base decl f o o1 ∧ ReadFlattened q P base decl fs o1 o' := by
  constructor
  · intro hr
    cases hr with
    | pass h => rw [hs, hfl] at h; simp at h
    | part _ _ h hr => exact ⟨_, .inl ⟨h, rfl⟩, hr⟩
    | one _ _ h1 h2 h3 h4 hr => exact ⟨_, .inr (.inl ⟨_, _, _, h1, h2, h3, h4, rfl⟩), hr⟩
    | none _ _ h1 h2 h3 hr => exact ⟨_, .inr (.inr ⟨h1, ⟨_, h2⟩, h3, rfl⟩), hr⟩
  · rintro ⟨o1, ⟨h, rfl⟩ | ⟨vs, n, x, h1, h2, h3, h4, rfl⟩ | ⟨h1, ⟨u, h2⟩, h3, rfl⟩, hr⟩
    · exact .part hs hfl h hr
    · exact .one hs hfl h1 h2 h3 h4 hr
    · exact .none hs hfl h1 h2 h3 hr

/-- What a flattened field asks for has these names. -/
def WantsIn (q : Quirks τ) (decl : τ → Decl τ) (t : τ) (ns : List String) : Prop :=
  ∀ l, wants q decl t = some l → ∀ n ∈ l, n ∈ ns

theorem mem_seen_of {t : τ} {ns : List String} {o : List (String × Json)} {n : String} {x : Json}
    (h : WantsIn q decl t ns) (hl : ∃ l, wants q decl t = some l) (he : (n, x) ∈ seen q decl t o) : n ∈ ns := by
  obtain ⟨l, hl⟩ := hl
  unfold seen at he
  rw [hl] at he
  exact h l hl n (by simpa using (List.mem_filter.1 he).2)

theorem FlatStep.left {base : τ → τ} {f : Field τ} {ns : List String} {o o1 : List (String × Json)}
    (h : FlatStep q P base decl f o o1) (hw : WantsIn q decl (base f.ty) ns) :
    o1.Sublist o ∧ ∀ e ∈ o, e.1 ∉ ns → e ∈ o1 := by
  have hleave : ∀ e ∈ o, e.1 ∉ ns → e ∈ leave q decl (base f.ty) o := by
    intro e he hk
    unfold leave
    cases hl : wants q decl (base f.ty) with
    | none => exact he
    | some l => exact List.mem_filter.2 ⟨he, by simpa using fun h => hk (hw l hl _ h)⟩
  rcases h with ⟨-, rfl⟩ | ⟨vs, n, x, h1, h2, -, -, rfl⟩ | ⟨-, -, -, rfl⟩
  · exact ⟨leave_sublist, hleave⟩
  · refine ⟨List.filter_sublist, fun e he hk => Obj.mem_remove.2 ⟨he, ?_⟩⟩
    rintro rfl
    exact hk (mem_seen_of hw (by unfold wants; rw [h1]; exact ⟨_, rfl⟩) h2)
  · exact ⟨leave_sublist, hleave⟩

/-! ## Flattened enums -/

theorem enumInput_container {c : Container τ} {tag : TagType} {vs : List (Variant τ)} (hc : PlainInputEnum c tag vs)
    (hde : A.settings.contract = .deserialize) (h : Returns A (containerProg I c) s) :
    ∃ s0, Returns A (enumProg I tag vs c.denyUnknownFields) s0 ∧ s = runMutators c.common.mutators s0 := by
  unfold containerProg at h
  rw [hc.noWith, hc.noTransparent, hc.noFrom] at h
  simp only at h
  obtain ⟨s1, h1, rfl⟩ := res_map.1 h
  have h3 : Returns A (dataProg I c) s1 := by
    cases hi : c.intoTy with
    | none => rw [hi] at h1; exact h1
    | some u => rw [hi] at h1; simp only [Returns, hde] at h1; exact h1
  unfold dataProg at h3
  rw [hc.data] at h3
  exact ⟨s1, h3, rfl⟩

theorem share_enum {t : τ} {c : Container τ} {tag : TagType} {vs : List (Variant τ)} (hd : decl t = .derived c)
    (hc : PlainInputEnum c tag vs) : share q decl t = match tag with
      | .external => .one vs
      | .adjacent t c => .named [t, c]
      | _ => .all := by
  have hany : (vs.any fun v => v.untagged) = false := by
    rw [List.any_eq_false]
    intro v hv
    rw [(hc.variants v hv).tagged]; simp
  unfold share
  rw [hd]
  simp only [hc.noWith, hc.noTransparent, hc.noFrom, hc.data]
  cases tag <;> simp [hany]

theorem not_nullEnum {t : τ} {c : Container τ} {tag : TagType} {vs : List (Variant τ)} (hd : decl t = .derived c)
    (hc : PlainInputEnum c tag vs) : ¬ NullType decl t := by
  rintro (h | ⟨c', h, -, -, -, h'⟩)
  · rw [hd] at h; cases h
  · rw [hd] at h; cases h; rw [hc.data] at h'; cases h'

theorem enum_wants (hq : Documented q) {exact sw : Bool} {base : τ → τ} {t : τ} {c : Container τ} {tag : TagType} {vs : List (Variant τ)}
    {ns : List String} (hd : decl t = .derived c) (hc : PlainInputEnum c tag vs)
    (hv : InputVariants exact sw decl base c.denyUnknownFields vs ns tag) : WantsIn q decl t ns := by
  intro l hl n hn
  unfold wants at hl
  rw [share_enum hd hc] at hl
  cases tag with
  | external =>
    simp only [Option.some.injEq] at hl
    subst hl
    obtain ⟨v, hv', hn⟩ := List.mem_flatMap.1 hn
    rw [variantNames_documented hq, List.mem_singleton] at hn
    obtain ⟨h1, h2⟩ := List.mem_filter.1 hv'
    rw [hn]; exact (hv.1 v h1 (by simpa using h2)).1
  | adjacent t k =>
    simp only [Option.some.injEq] at hl
    subst hl
    simp only [List.mem_cons, List.not_mem_nil, or_false] at hn
    rcases hn with rfl | rfl
    · exact hv.2.1
    · exact hv.2.2.1
  | internal t => cases hl
  | none => cases hl

/-- What the schema of a flattened enum, that is not optional, accepts. -/
def EnumWay (D : Dialect) (env : Env) (b : Bool) (q : Quirks τ) (P : τ → Json → Prop) (base : τ → τ) (decl : τ → Decl τ)
    (ns : List String) (f : Field τ) (s : Json) (m : List (String × Json)) : Prop :=
  ∀ o rest, (Json.obj o).WF → rest.Sublist o → (∀ e ∈ o, e.1 ∈ ns → e ∈ rest) →
    (∀ x, x.Sublist o → Way b (Valid D env s (.obj x)) (P (base f.ty) (.obj x))) →
    Way b (Valid D env (.obj m) (.obj o)) (∃ o1, FlatStep q P base decl f rest o1)

theorem wf_sublist {o o' : List (String × Json)} (h : (Json.obj o).WF) (hs : o'.Sublist o) : (Json.obj o').WF := by
  cases h with
  | obj _ h1 h2 => exact .obj _ (h1.sublist hs) fun e he => h2 e (hs.subset he)

theorem step_part {base : τ → τ} {f : Field τ} {c : Container τ} {tag : TagType} {vs : List (Variant τ)}
    {rest : List (String × Json)} (hd : decl (base f.ty) = .derived c) (hc : PlainInputEnum c tag vs)
    (htag : tag ≠ .external) (hno : ¬ (f.required = false ∧ ∃ u, decl f.ty = .std (.option u))) :
    (∃ o1, FlatStep q P base decl f rest o1) ↔ P (base f.ty) (.obj (seen q decl (base f.ty) rest)) := by
  constructor
  · rintro ⟨o1, ⟨h, -⟩ | ⟨vs, n, x, h1, -⟩ | ⟨h1, h2, -⟩⟩
    · exact h.resolve_right (not_nullEnum hd hc)
    · rw [share_enum hd hc] at h1
      cases tag <;> simp_all
    · exact absurd ⟨h1, h2⟩ hno
  · exact fun h => ⟨_, .inl ⟨.inl h, rfl⟩⟩

/-- Enums with a tag. -/
theorem tagged_enum {base : τ → τ} {f : Field τ} {c : Container τ} {tag : TagType} {vs : List (Variant τ)}
    {es : List (Variant τ × Json)} {t : String} {ns ns' : List String} {N : List (String × Json) → Prop}
    {m : List (String × Json)} (hd : decl (base f.ty) = .derived c) (hc : PlainInputEnum c tag vs) (htag : tag ≠ .external)
    (hno : ¬ (f.required = false ∧ ∃ u, decl f.ty = .std (.option u)))
    (e1 : es.map Prod.fst = presentVariants vs .deserialize)
    (hw : ∀ e ∈ es, ∃ m, e.2 = .obj m ∧ Widens D env b N ns' t e.1.name.de m) {l : List (Json → Json)}
    (hl : ∀ f ∈ l, Annotates f) (hns : ∀ n ∈ ns', n ∈ ns)
    (hN : ∀ rest, N (seen q decl (base f.ty) rest) ∧ ∀ e ∈ rest, e.1 ∈ ns' → e ∈ seen q decl (base f.ty) rest)
    (hm : ∀ i, Valid D env (.obj m) i ↔
      Valid D env (.obj [("oneOf", .arr ((es.map Prod.snd).map (atSchema allowUnknown)))]) i) :
    EnumWay D env b q P base decl ns f (runMutators l (.obj [("oneOf", .arr (es.map Prod.snd))])) m := by
  intro o rest ho hsub hcov hway
  obtain ⟨hN, hin⟩ := hN rest
  have hss : (seen q decl (base f.ty) rest).Sublist o := seen_sublist.trans hsub
  have hnd : (es.map fun e => e.1.name.de).Nodup := by
    have := hc.names
    rw [← e1, List.map_map] at this
    exact this
  refine Way.congr ((tagged_way hnd hw hN ⟨fun e he => hss.subset he, fun e he hk =>
    hin e (hcov e he (hns _ hk)) hk⟩ (wf_sublist ho hss) ho).trans ?_) (hm _) (step_part hd hc htag hno)
  exact (hway _ hss).congr (runMutators_valid hl (.obj (List.pairwise_singleton _ _))).symm Iff.rfl

theorem mem_readVariants {vs : List (Variant τ)} {v : Variant τ} :
    v ∈ presentVariants vs .deserialize ↔ v ∈ vs ∧ v.skipDe = false := by
  unfold presentVariants
  rw [List.mem_filter, decide_eq_true_eq]
  rfl

/-- What an externally tagged enum asks for. -/
theorem mem_seenExternal (hq : Documented q) {t : τ} {c : Container τ} {vs : List (Variant τ)} (hd : decl t = .derived c)
    (hc : PlainInputEnum c .external vs) {o : List (String × Json)} {e : String × Json} :
    e ∈ seen q decl t o ↔ e ∈ o ∧ ∃ v ∈ vs, v.skipDe = false ∧ e.1 = v.name.de := by
  unfold seen wants
  rw [share_enum hd hc]
  simp only
  rw [List.mem_filter]
  refine and_congr_right fun _ => ?_
  rw [List.contains_iff_mem, List.mem_flatMap]
  refine exists_congr fun v => ?_
  rw [variantNames_documented hq, List.mem_singleton, List.mem_filter]
  simp [and_assoc]

/-- The alternatives of an externally tagged enum, by name. -/
theorem external_enum (hq : Documented q) (hde : A.settings.contract = .deserialize) {base : τ → τ} {f : Field τ} {c : Container τ}
    {vs : List (Variant τ)} {ns : List String} {deny : Bool} {m : List (String × Json)}
    (hd : decl (base f.ty) = .derived c) (hc : PlainInputEnum c .external vs)
    (hns : InputVariants b q.lenient decl base c.denyUnknownFields vs ns .external)
    (hno : ¬ (f.required = false ∧ ∃ u, decl f.ty = .std (.option u)))
    {U : List (Variant τ)} {es : List (Variant τ × Json)} {s0 : Json}
    (hU : U = presentVariants (vs.filter Variant.listed) .deserialize)
    (e1 : es.map Prod.fst = presentVariants (vs.filter fun v => !v.listed) .deserialize)
    (hes : ∀ e ∈ es, e.1 ∈ vs ∧ VariantPresent e.1 .deserialize ∧ ¬ (e.1.isUnit && e.1.withTy.isNone) = true ∧
        Returns A (externalVariantProg I e.1 deny) e.2) {l : List (Json → Json)} (hl : ∀ f ∈ l, Annotates f) (hsch : Sch s0)
    (hobj : ∀ q, Valid D env s0 (.obj q) ↔ Valid D env (.obj [("oneOf", .arr (es.map Prod.snd))]) (.obj q))
    (hm : ∀ i, Valid D env (.obj m) i ↔ Valid D env (.obj [("oneOf", .arr ((es.map Prod.snd ++
        (U.map fun v => v.name.de).map unitVariantObject).map (atSchema allowUnknown)))]) i) :
    EnumWay D env b q P base decl ns f (runMutators l s0) m := by
  intro o rest ho hsub hcov hway
  have hso := sorted_of_wf ho
  have hname : ∀ v : Variant τ, v.name.get A.settings.contract = v.name.de := fun v => by rw [hde]; rfl
  have hseen : ∀ {e}, e ∈ seen q decl (base f.ty) rest ↔ e ∈ rest ∧ ∃ v ∈ vs, v.skipDe = false ∧ e.1 = v.name.de :=
    mem_seenExternal hq hd hc
  have hin : ∀ {v y}, v ∈ vs → v.skipDe = false → Obj.get o v.name.de = some y →
      (v.name.de, y) ∈ seen q decl (base f.ty) rest := fun {v y} hv hs hy =>
    hseen.2 ⟨hcov _ (Obj.get_mem hy) (hns.1 v hv hs).1, v, hv, hs, rfl⟩
  have hss : (seen q decl (base f.ty) rest).Sublist o := seen_sublist.trans hsub
  have hUm : ∀ v ∈ U, v ∈ vs ∧ v.skipDe = false ∧ v.listed = true := by
    intro v hv
    rw [hU, mem_readVariants, List.mem_filter] at hv
    exact ⟨hv.1.1, hv.2, hv.1.2⟩
  have hsk : ∀ e ∈ es, e.1.skipDe = false := fun e he => (hes e he).2.1
  have hshape : ∀ e ∈ es, ∃ m m2 sub, e.2 = .obj m ∧ allowUnknown (.obj m) = .obj m2 ∧
      Shape m [(e.1.name.de, sub)] [e.1.name.de] true ∧ Shape m2 [(e.1.name.de, sub)] [e.1.name.de] false := by
    intro e he
    obtain ⟨h1, h2, h3, h4⟩ := hes e he
    obtain ⟨m, sub, e2, hs⟩ := external_shape (hc.variants _ h1).tagged (hc.variants _ h1).common h3 h4
    obtain ⟨m2, e3, hs2⟩ := hs.allowUnknown
    rw [hname] at hs hs2
    exact ⟨m, m2, sub, e2, e3, hs, hs2⟩
  have hreq : ∀ e ∈ es, ∀ x, Valid D env e.2 (.obj x) → ∃ y, Obj.get x e.1.name.de = some y := by
    intro e he x hv
    obtain ⟨m, m2, sub, e2, -, hs, -⟩ := hshape e he
    rw [e2, hs.valid] at hv
    obtain ⟨o', eo, h1, -⟩ := hv
    cases eo
    exact h1 _ (List.mem_singleton.2 rfl)
  have hreq2 : ∀ e ∈ es, ∀ x, Valid D env (atSchema allowUnknown e.2) (.obj x) → ∃ y, Obj.get x e.1.name.de = some y := by
    intro e he x hv
    obtain ⟨m, m2, sub, e2, e3, -, hs⟩ := hshape e he
    rw [e2] at hv
    change Valid D env (allowUnknown (.obj m)) (.obj x) at hv
    rw [e3, hs.valid] at hv
    obtain ⟨o', eo, h1, -⟩ := hv
    cases eo
    exact h1 _ (List.mem_singleton.2 rfl)
  -- the names of the alternatives
  have hsplit : (U ++ presentVariants (vs.filter fun v => !v.listed) .deserialize).Perm
      (presentVariants vs .deserialize) := by
    rw [hU]
    unfold presentVariants
    rw [← List.filter_append]
    exact (List.filter_append_perm _ vs).filter _
  have hnd : (es.map (fun e => e.1.name.de) ++ U.map fun v => v.name.de).Nodup := by
    have h1 := (List.perm_append_comm.trans hsplit).map fun v : Variant τ => v.name.de
    rw [List.map_append, ← e1, List.map_map] at h1
    exact h1.nodup_iff.2 hc.names
  have hnd1 : (es.map fun e => e.1.name.de).Nodup := (List.nodup_append.1 hnd).1
  -- what the enum itself accepts
  have hown : ∀ x, Valid D env (runMutators l s0) (.obj x) ↔ Valid D env (.obj [("oneOf", .arr (es.map Prod.snd))]) (.obj x) :=
    fun x => (runMutators_valid hl hsch).trans (hobj x)
  -- what the alternatives accept
  let ps : List (String × Json) := es.map (fun e => (e.1.name.de, e.2)) ++ (U.map fun v => v.name.de).map fun n =>
    (n, unitVariantObject n)
  have hps : ps.map Prod.snd = es.map Prod.snd ++ (U.map fun v => v.name.de).map unitVariantObject := by
    simp only [ps, List.map_append, List.map_map]; rfl
  have hpn : (ps.map Prod.fst).Nodup := by
    simp only [ps, List.map_append, List.map_map]
    rw [show (List.map (Prod.fst ∘ (fun n => (n, unitVariantObject n)) ∘ fun v : Variant τ => v.name.de) U) =
      U.map fun v => v.name.de from List.map_congr_left fun _ _ => rfl]
    exact hnd
  have halt : ∀ e ∈ ps, Valid D env (atSchema allowUnknown e.2) (.obj o) →
      ∃ y, (e.1, y) ∈ seen q decl (base f.ty) rest := by
    intro e he hv
    rcases List.mem_append.1 he with he | he
    · obtain ⟨e', he', rfl⟩ := List.mem_map.1 he
      obtain ⟨y, hy⟩ := hreq2 e' he' o hv
      exact ⟨y, hin (hes e' he').1 (hsk e' he') hy⟩
    · obtain ⟨n, hn, rfl⟩ := List.mem_map.1 he
      obtain ⟨u, hu, rfl⟩ := List.mem_map.1 hn
      simp only [atSchema_unit] at hv
      rw [valid_unitObject ho] at hv
      exact ⟨_, hin (hUm u hu).1 (hUm u hu).2.1 hv⟩
  rw [← hps] at hm
  have hnot : ¬ NullType decl (base f.ty) := not_nullEnum hd hc
  cases b with
  | false =>
    -- the schema accepts what is read
    have hone : ∀ n, (∀ e ∈ seen q decl (base f.ty) rest, e.1 = n) →
        (∃ e ∈ ps, Valid D env (atSchema allowUnknown e.2) (.obj o)) → Valid D env (.obj m) (.obj o) := by
      intro n hn hex
      rw [hm]
      have := oneOf_family (D := D) (env := env) (i := .obj o) (n := n)
        (ps := ps.map fun e => (e.1, atSchema allowUnknown e.2)) (by rw [List.map_map]; exact hpn) ?_ ?_
      · rw [List.map_map] at this ⊢; exact this
      · intro e he hv
        obtain ⟨e', he', rfl⟩ := List.mem_map.1 he
        obtain ⟨y, hy⟩ := halt e' he' hv
        exact hn (e'.1, y) hy
      · obtain ⟨e, he, hv⟩ := hex
        exact ⟨_, List.mem_map_of_mem he, hv⟩
    have hbody : ∀ x, x.Sublist o → (∀ e ∈ seen q decl (base f.ty) rest, e ∈ x) → P (base f.ty) (.obj x) →
        Valid D env (.obj m) (.obj o) := by
      intro x hx hxs hP
      have hv := (hown x).1 (hway x hx hP)
      have hv' := (oneOf_names (name := fun v => v.name.de) (g := id) hnd1 fun a ha c hc' h1 h2 => ?_).1 hv
      · obtain ⟨e, he, hve⟩ := hv'
        obtain ⟨m', m2, sub, e2, e3, hs, hs2⟩ := hshape e he
        have hall : ∀ y ∈ x, y.1 = e.1.name.de := by
          intro y hy
          rw [id, e2, hs.valid] at hve
          obtain ⟨o', eo, -, -, h3⟩ := hve
          cases eo
          obtain ⟨z, hz⟩ := h3 rfl y hy
          rw [Obj.get_cons] at hz
          split at hz
          · next hk => exact hk.symm
          · cases hz
        refine hone e.1.name.de (fun y hy => hall y (hxs y hy)) ⟨(e.1.name.de, e.2),
          List.mem_append_left _ (List.mem_map_of_mem he), ?_⟩
        simp only
        rw [id, e2] at hve
        rw [e2]
        change Valid D env (allowUnknown (.obj m')) (.obj o)
        rw [e3]
        refine hs.grow (ns := [e.1.name.de]) hs2 (fun n y hn => ?_) ⟨fun e he => hx.subset he, fun y hy hk => ?_⟩ hso hve
        · rw [Obj.get_cons] at hn
          split at hn
          · next hk => rw [← hk]; exact List.mem_singleton.2 rfl
          · cases hn
        · obtain ⟨y1, y2⟩ := y
          have : y1 = e.1.name.de := List.mem_singleton.1 hk
          subst this
          exact hxs _ (hin (hes e he).1 (hsk e he) (Obj.get_of_mem_sorted hso hy))
      · -- exclusive
        obtain ⟨m1, m2, sub, e2, -, hs, -⟩ := hshape a ha
        obtain ⟨y, hy⟩ := hreq c hc' x h2
        rw [id, e2, hs.valid] at h1
        obtain ⟨o', eo, -, -, h3⟩ := h1
        cases eo
        obtain ⟨z, hz⟩ := h3 rfl _ (Obj.get_mem hy)
        rw [Obj.get_cons] at hz
        split at hz
        · next hk => exact hk
        · cases hz
    rintro ⟨o1, ⟨h, -⟩ | ⟨vs', n, x, h1, h2, h3, h4, -⟩ | ⟨h1, h2, -⟩⟩
    · exact hbody _ hss (fun e he => he) (h.resolve_right hnot)
    · have h3 : seen q decl (base f.ty) rest = [(n, x)] := h3.resolve_left (by rw [hns.2]; simp)
      rcases h4 with h4 | ⟨rfl, v, hv, hskv, hh, hn⟩
      · exact hbody [(n, x)] (h3 ▸ hss) (fun e he => h3 ▸ he) h4
      · rw [share_enum hd hc] at h1
        cases h1
        rw [variantNames_documented hq, List.mem_singleton] at hn
        subst hn
        have hb := (hollow_iff (hc.variants v hv)).1 hh
        simp only [Bool.and_eq_true] at hb
        have hl' : v.listed = true := by
          unfold Variant.listed
          rw [hb.1, hb.2, (hns.1 v hv hskv).2 hb.1 (by simpa using hb.2), (hc.variants v hv).tagged,
            (hc.variants v hv).noRef]; rfl
        have hvU : v ∈ U := by
          rw [hU, mem_readVariants, List.mem_filter]
          exact ⟨⟨hv, hl'⟩, hskv⟩
        refine hone v.name.de (fun e he => ?_) ⟨(v.name.de, unitVariantObject v.name.de), List.mem_append_right _ ?_, ?_⟩
        · rw [h3] at he; rw [List.mem_singleton.1 he]
        · exact List.mem_map.2 ⟨_, List.mem_map_of_mem hvU, rfl⟩
        · simp only [atSchema_unit]
          rw [valid_unitObject ho]
          exact Obj.get_of_mem_sorted hso (hss.subset h2)
    · exact absurd ⟨h1, h2⟩ hno
  | true =>
    intro hv
    rw [hm] at hv
    have hlen : q.lenient = true := hns.2
    obtain ⟨e, he, hve⟩ : ∃ e ∈ ps, Valid D env (atSchema allowUnknown e.2) (.obj o) := by
      rw [valid_single (by decide), List.map_map] at hv
      obtain ⟨a, ha, hva⟩ := List.countP_pos_iff.1 (by
        have : ((ps.map (atSchema allowUnknown ∘ Prod.snd)).countP fun s => (den D env s (.obj o)).ok) = 1 := hv
        rw [this]; exact Nat.one_pos)
      obtain ⟨e, he, rfl⟩ := List.mem_map.1 ha
      exact ⟨e, he, hva⟩
    rcases List.mem_append.1 he with he' | he
    · obtain ⟨w, hw, rfl⟩ := List.mem_map.1 he'
      simp only at hve
      obtain ⟨y, hy⟩ := hreq2 w hw o hve
      obtain ⟨m', m2, sub, e2, e3, hs, hs2⟩ := hshape w hw
      have hmem := hin (hes w hw).1 (hsk w hw) hy
      have hsl : [(w.1.name.de, y)].Sublist o := List.singleton_sublist.2 (Obj.get_mem hy)
      refine ⟨_, .inr (.inl ⟨vs, _, y, ?_, hmem, .inl hlen, .inl (hway _ hsl ?_), rfl⟩)⟩
      · rw [share_enum hd hc]
      · rw [hown]
        refine (oneOf_names (name := fun v => v.name.de) (g := id) hnd1 fun a ha c hc' h1 h2 => ?_).2 ⟨w, hw, ?_⟩
        · have h3 : ∀ a ∈ es, Valid D env a.2 (.obj [(w.1.name.de, y)]) → a.1.name.de = w.1.name.de := by
            intro a ha h1
            obtain ⟨z, hz⟩ := hreq a ha _ h1
            rw [Obj.get_cons] at hz
            split at hz
            · next hk => exact hk.symm
            · cases hz
          exact (h3 a ha h1).trans (h3 c hc' h2).symm
        · rw [id]
          rw [e2] at hve ⊢
          change Valid D env (allowUnknown (.obj m')) (.obj o) at hve
          rw [e3] at hve
          refine hs.shrink (ns := [w.1.name.de]) hs2 (fun n hn => hn) (fun _ x hx => ?_)
            ⟨fun x hx => hsl.subset hx, fun x hx hk => ?_⟩ (hso.sublist hsl) hve
          · rw [List.mem_singleton.1 hx]
            exact ⟨sub, by rw [Obj.get_cons, if_pos rfl]⟩
          · obtain ⟨x1, x2⟩ := x
            have : x1 = w.1.name.de := List.mem_singleton.1 hk
            subst this
            have := Obj.get_of_mem_sorted hso hx
            rw [hy] at this
            cases this
            exact List.mem_singleton.2 rfl
    · obtain ⟨n, hn, rfl⟩ := List.mem_map.1 he
      obtain ⟨u, hu, rfl⟩ := List.mem_map.1 hn
      simp only [atSchema_unit] at hve
      rw [valid_unitObject ho] at hve
      obtain ⟨h1, h2, h3⟩ := hUm u hu
      refine ⟨_, .inr (.inl ⟨vs, _, .null, ?_, hin h1 h2 hve, .inl hlen, .inr ⟨rfl, u, h1, h2, ?_, ?_⟩, rfl⟩)⟩
      · rw [share_enum hd hc]
      · unfold Variant.listed at h3
        simp only [Bool.and_eq_true] at h3
        exact (hollow_iff (hc.variants u h1)).2 (by simp [h3.1.1.1, h3.1.1.2.2])
      · rw [variantNames_documented hq]; exact List.mem_singleton.2 rfl

/-- A flattened enum. -/
theorem enum_part (hq : Documented q)
    {sw : Bool} (hA : Comes decl I A) {f : Field τ} {c : Container τ} {tag : TagType} {vs : List (Variant τ)}
    {ns : List String} (hd : decl (I.base f.ty) = .derived c) (hc : PlainInputEnum c tag vs)
    (hns : InputVariants b sw decl I.base c.denyUnknownFields vs ns tag)
    (h : Returns A (bodyOf I (decl (I.base f.ty))) s) :
    ∃ m, flattenInner s (I.isOption f.ty && !f.required) = .obj m ∧ Part m [] [] ∧
      ((I.isOption f.ty && !f.required) = true → ∀ o, Valid D env (.obj m) (.obj o)) ∧
      ((I.isOption f.ty && !f.required) = false → sw = q.lenient → Modern D env →
        (∀ t, I.isOption t = true ↔ ∃ u, decl t = .std (.option u)) → Targets D env decl I A →
        EnumWay D env b q P I.base decl ns f s m) := by
  have hde := hA.de
  have hname : ∀ v : Variant τ, v.name.get A.settings.contract = v.name.de := fun v => by rw [hde]; rfl
  have hno : (I.isOption f.ty && !f.required) = false → (∀ t, I.isOption t = true ↔ ∃ u, decl t = .std (.option u)) →
      ¬ (f.required = false ∧ ∃ u, decl f.ty = .std (.option u)) := by
    rintro h hopt ⟨h1, h2⟩
    rw [(hopt _).2 h2, h1] at h; cases h
  rw [hd] at h
  obtain ⟨s0, h0, rfl⟩ := enumInput_container hc hde h
  have hl := hc.common.annotates
  have hr : ∀ v ∈ vs, v.refTy = none := fun v hv => (hc.variants v hv).noRef
  have hu : ∀ v ∈ vs, v.untagged = false := fun v hv => (hc.variants v hv).tagged
  cases tag with
  | external =>
    obtain ⟨U, es, hU, e1, hes, hform, hsch, hobj⟩ := external_form (D := D) (env := env) hc.nonempty hr hu
      (fun v hv => (hc.variants v hv).common) (fun v hv hp => (hns.1 v hv (by rw [hde] at hp; exact hp)).2) hl h0
    rw [hde] at hU e1 hes
    simp only [hname] at hform
    obtain ⟨m, e, hpart, hall, hm⟩ := hform.flatten (D := D) (env := env) (I.isOption f.ty && !f.required)
    refine ⟨m, e, hpart, hall, fun ho hsw _ hopt _ => ?_⟩
    subst hsw
    exact external_enum hq hde hd hc hns (hno ho hopt) hU e1 hes hl hsch hobj (hm ho)
  | adjacent t k =>
    obtain ⟨hne, h1, h2, h3⟩ := hns
    unfold enumProg at h0
    rw [if_neg (by rw [List.isEmpty_iff]; exact hc.nonempty)] at h0
    simp only at h0
    obtain ⟨es, e1, e2, rfl⟩ := tagged_schemas hde hr hu h0
    have hw : ∀ e ∈ es, ∃ m, e.2 = .obj m ∧ Obj.get m "type" = some (.str "object") ∧
        Widens D env b (OfPair t k) [t, k] t e.1.name.de m := by
      intro e he
      obtain ⟨h4, h5, h6⟩ := e2 e he
      exact adjacent_widens hne (hc.variants _ h4) hde (fun hb => h3 hb _ h4 h5) h6
    obtain ⟨m, e, hpart, hall, hm⟩ := (tagged_form (fun e he => by
      obtain ⟨m, h1, h2, -⟩ := hw e he
      exact ⟨m, h1, h2⟩) hl).flatten (D := D) (env := env) (I.isOption f.ty && !f.required)
    refine ⟨m, e, hpart, hall, fun ho _ _ hopt _ => ?_⟩
    have hwants : wants q decl (I.base f.ty) = some [t, k] := by
      unfold wants; rw [share_enum hd hc]
    have hmem : ∀ {rest : List (String × Json)} {e}, e ∈ seen q decl (I.base f.ty) rest ↔
        e ∈ rest ∧ (e.1 = t ∨ e.1 = k) := by
      intro rest e
      unfold seen
      rw [hwants]
      simp only
      rw [List.mem_filter]
      simp
    refine tagged_enum (t := t) (N := OfPair t k) hd hc (by simp) (hno ho hopt) e1 (fun e he => ?_) hl (ns' := [t, k]) (fun n hn => ?_)
      (fun rest => ⟨fun e he => (hmem.1 he).2, fun e he hk => hmem.2 ⟨he, by simpa using hk⟩⟩) (hm ho)
    · obtain ⟨m, h1, -, h2⟩ := hw e he
      exact ⟨m, h1, h2⟩
    · simp only [List.mem_cons, List.not_mem_nil, or_false] at hn
      rcases hn with rfl | rfl
      · exact h1
      · exact h2
  | internal t =>
    unfold enumProg at h0
    rw [if_neg (by rw [List.isEmpty_iff]; exact hc.nonempty)] at h0
    simp only at h0
    obtain ⟨es, e1, e2, rfl⟩ := tagged_schemas hde hr hu h0
    have hw : ∀ e ∈ es, ∃ m, e.2 = .obj m ∧ Obj.get m "type" = some (.str "object") ∧
        (Modern D env → Targets D env decl I A → Widens D env b (fun _ => True) ns t e.1.name.de m) := by
      intro e he
      obtain ⟨h4, h5, h6⟩ := e2 e he
      obtain ⟨ms, h7, h8⟩ := hns.2 _ h4 h5
      unfold internalTaggedProg at h6
      rw [hu _ h4] at h6
      simp only [Bool.false_eq_true, if_false] at h6
      obtain ⟨s1, h9, h10⟩ := res_bind.1 h6
      simp only [Returns] at h10
      rw [hname] at h10
      rw [h10]
      exact internal_widens hA h7 h8 hns.1 h9 (hc.variants _ h4).common.annotates
    obtain ⟨m, e, hpart, hall, hm⟩ := (tagged_form (fun e he => by
      obtain ⟨m, h1, h2, -⟩ := hw e he
      exact ⟨m, h1, h2⟩) hl).flatten (D := D) (env := env) (I.isOption f.ty && !f.required)
    refine ⟨m, e, hpart, hall, fun ho _ hM hopt hT => ?_⟩
    have hseen : ∀ rest, seen q decl (I.base f.ty) rest = rest := by
      intro rest
      unfold seen wants
      rw [share_enum hd hc]
    refine tagged_enum (t := t) (N := fun _ => True) hd hc (by simp) (hno ho hopt) e1 (fun e he => ?_) hl (fun n hn => hn)
      (fun rest => ⟨trivial, fun e he _ => by rw [hseen]; exact he⟩) (hm ho)
    obtain ⟨m, h1, -, h2⟩ := hw e he
    exact ⟨m, h1, h2 hM hT⟩
  | none => exact hns.elim

/-! ## Structs with flattened enums -/

/-- What the schema says with another field. -/
theorem Part.property {m p : List (String × Json)} {r : List String} (h : Part m p r) (ht : Obj.get m "type" = some (.str "object")) {key : String} (opt : Bool)
    {sub : Json} (hfresh : Obj.get p key = none) : ∃ m', insertObjectProperty (.obj m) key opt sub = .obj m' ∧
      Part m' (Obj.insert p key sub) (r ++ if opt then [] else [key]) ∧ Obj.get m' "type" = some (.str "object") ∧
      ∀ o, Obj.Sorted o → (Valid D env (.obj m') (.obj o) ↔ Valid D env (.obj m) (.obj o) ∧
        ((∃ x, Obj.get o key = some x ∧ Valid D env sub x) ∨ (Obj.get o key = none ∧ opt = true))) := by
  obtain ⟨m', h1, h2, h3, h4, h5⟩ := insertObjectProperty_obj h.sorted h.props h.req key opt sub
  obtain ⟨m'', e, hP, hty, hv⟩ := h.insertProperty (D := D) (env := env) ht key opt sub
  rw [h1] at e
  cases e
  refine ⟨m', h1, hP, hty, fun o ho => ⟨fun hv' => ?_, ?_⟩⟩
  · rw [valid_get (.inr hP.noRef) h2] at hv'
    have hprops : ∀ e ∈ o, ∀ s, Obj.get (Obj.insert p key sub) e.1 = some s → Valid D env s e.2 := by
      intro e he s hs
      rcases h3 with ⟨-, e'⟩ | e'
      · rw [e'] at hs; cases hs
      · have := hv' _ _ e'
        rw [entryOk_properties] at this
        exact this e he s hs
    have hreq : ∀ n ∈ r ++ (if opt then [] else [key]), ∃ x, Obj.get o n = some x := by
      intro n hn
      rcases h4 with ⟨-, e'⟩ | e'
      · rw [e'] at hn; cases hn
      · have := hv' _ _ e'
        rw [entryOk_simple (by decide)] at this
        simp only [simple, requiredOk, List.all_map, List.all_eq_true] at this
        have := this n hn
        simp only [Function.comp_apply, hasMember, members, Obj.has] at this
        exact Option.isSome_iff_exists.1 this
    constructor
    · rw [valid_get (.inr h.noRef) h.sorted]
      intro k v hk
      by_cases hkp : k = "properties"
      · subst hkp
        rcases h.props with ⟨e, -⟩ | e <;> rw [e] at hk <;> cases hk
        rw [entryOk_properties]
        intro e he s hs
        refine hprops e he s ?_
        rw [Obj.get_insert_ne _ _ (by rintro rfl; change Obj.get p _ = _ at hs; rw [hfresh] at hs; cases hs)]
        exact hs
      by_cases hkr : k = "required"
      · subst hkr
        rcases h.req with ⟨e, -⟩ | e <;> rw [e] at hk <;> cases hk
        rw [entryOk_simple (by decide)]
        simp only [simple, requiredOk, List.all_map, List.all_eq_true]
        intro n hn
        simp only [Function.comp_apply, hasMember, members, Obj.has]
        exact Option.isSome_iff_exists.2 (hreq n (List.mem_append_left _ hn))
      · rw [← h5 k hkp hkr] at hk
        have := hv' k v hk
        by_cases ha : k ∈ annotations
        · exact entryOk_annotation ha v
        by_cases hty' : k = "type"
        · subst hty'
          rw [entryOk_typeCongr (m' := m')]
          · exact this
          · rw [h5 _ (by decide) (by decide)]
        · have hpk : k ∈ partKeys := by
            by_contra hc
            rw [hP.other k ha hc] at hk; cases hk
          rw [entryOk_free (m' := m') ((by decide : ∀ k ∈ partKeys, k ∉ linkedKeys) k hpk)
            ((by decide : ∀ k ∈ partKeys, k ∉ restKeys) k hpk) hty']
          exact this
    · cases hg : Obj.get o key with
      | some x => exact .inl ⟨x, rfl, hprops (key, x) (Obj.get_mem hg) sub (Obj.get_insert_self ..)⟩
      | none =>
        refine .inr ⟨rfl, ?_⟩
        by_contra hopt
        obtain ⟨x, hx⟩ := hreq key (List.mem_append_right _ (by rw [if_neg hopt]; exact List.mem_singleton_self _))
        rw [hg] at hx; cases hx
  · rintro ⟨h6, h7⟩
    refine hv o h6 (fun ho' => ?_) fun x hx => ?_
    · rcases h7 with ⟨x, hx, -⟩ | ⟨-, h⟩
      · exact ⟨x, hx⟩
      · rw [ho'] at h; cases h
    · have := Obj.get_of_mem_sorted ho hx
      rcases h7 with ⟨y, hy, hv⟩ | ⟨hn, -⟩
      · rw [this] at hy; cases hy; exact hv
      · rw [this] at hn; cases hn

theorem Part.object {m p : List (String × Json)} {r : List String} (h : Part m p r)
    (ht : Obj.get m "type" = some (.str "object")) {i : Json} (hi : Valid D env (.obj m) i) : ∃ o, i = .obj o := by
  rw [valid_get (.inr h.noRef) h.sorted] at hi
  have := hi _ _ ht
  rw [entryOk_type (h.other _ (by decide) (by decide)), typeMatch_object] at this
  exact this

/-- What is assumed of the answers for a flattened field, about the schemas they have at parts of this document. -/
structure FlatReady (D : Dialect) (env : Env) (b : Bool) (P : τ → Json → Prop) (decl : τ → Decl τ) (I : TypeInfo τ)
    (A : Answers τ) (f : Field τ) (o : List (String × Json)) : Prop where
  parts : ∀ x, x.Sublist o → MatchesAt D env b P A (I.base f.ty) (.obj x)
  deeper : ∀ s, A.direct (I.base f.ty) s →
    ∃ A', Comes decl I A' ∧ Targets D env decl I A' ∧ Returns A' (bodyOf I (decl (I.base f.ty))) s

/-- What the schema of a flattened field accepts. -/
def FlatPart (D : Dialect) (env : Env) (b : Bool) (q : Quirks τ) (P : τ → Json → Prop) (decl : τ → Decl τ)
    (I : TypeInfo τ) (A : Answers τ) (f : Field τ) (ns : List String) (s : Json) : Prop :=
  ∃ m p r, flattenInner s (I.isOption f.ty && !f.required) = .obj m ∧ Part m p r ∧
    (∀ n x, Obj.get p n = some x → n ∈ ns) ∧
    ∀ o rest, Modern D env → (∀ t, I.isOption t = true ↔ ∃ u, decl t = .std (.option u)) → (Json.obj o).WF →
      FlatReady D env b P decl I A f o → rest.Sublist o →
      (∀ e ∈ o, e.1 ∈ ns → e ∈ rest) →
      Way b (Valid D env (.obj m) (.obj o)) (∃ o1, FlatStep q P I.base decl f rest o1)

/-- A flattened struct. -/
theorem struct_flat (hA : Comes decl I A) (hq : Documented q) {f : Field τ} {c : Container τ}
    {gs : List (Field τ)} {ns ms : List String} (hd : decl (I.base f.ty) = .derived c) (hc : PlainInput c gs)
    (hn : InputNames decl I.base gs ns ms)
    (hoption : f.required = false → ∀ u, decl f.ty = .std (.option u) → q.lenient = b)
    (hnested : b = true → (∃ g ∈ gs, g.skipDe = false ∧ g.flatten = true) → c.denyUnknownFields = false)
    (h : A.direct (I.base f.ty) s) : FlatPart D env b q P decl I A f (ns ++ ms) s := by
  obtain ⟨m3, p3, r3, rfl, hs3, hp3, hm3⟩ := input_type hd hc hn (hA.ran _ _ h)
  obtain ⟨m5, e5, hs5⟩ := hs3.flattenInner (I.isOption f.ty && !f.required)
  refine ⟨m5, p3, _, e5, hs5.part hp3, fun n x hx => (hm3.1 n).1 ⟨x, hx⟩, fun o rest _ hopt ho hr hsub hcov => ?_⟩
  have hso : Obj.Sorted o := by cases ho with | obj _ h _ => exact h
  refine Way.congr (flat_way (b := b) (P := P) (D := D) (env := env) hq hopt hd hc hn hs3 hm3 hso hsub hcov hoption
    hnested (hr.parts _ (seen_sublist.trans hsub) _ (.inr h))) ?_ ?_
  · rw [hs5.valid]
    constructor
    · rintro ⟨o', e, h1, h2, -⟩
      cases e
      refine ⟨fun n hn => ?_, h2⟩
      obtain ⟨x, hx⟩ := h1 n hn
      exact ⟨x, Obj.get_mem hx⟩
    · rintro ⟨h1, h2⟩
      refine ⟨o, rfl, fun n hn => ?_, h2, fun h => by cases h⟩
      obtain ⟨x, hx⟩ := h1 n hn
      exact ⟨x, Obj.get_of_mem_sorted hso hx⟩
  · constructor
    · rintro ⟨o1, ⟨h, -⟩ | ⟨vs, n, x, h1, -⟩ | ⟨h1, h2, h3, -⟩⟩
      · refine .inl (h.resolve_right ?_)
        rintro (h | ⟨c', h, -, -, -, h'⟩)
        · rw [hd] at h; cases h
        · rw [hd] at h; cases h; rw [hc.data] at h'; cases h'
      · rw [share_plain hd hc] at h1
        split at h1 <;> cases h1
      · exact .inr ⟨h1, h2, h3⟩
    · rintro (h | ⟨h1, h2, h3⟩)
      · exact ⟨_, .inl ⟨.inl h, rfl⟩⟩
      · exact ⟨_, .inr (.inr ⟨h1, h2, h3, rfl⟩)⟩

/-- A flattened enum. -/
theorem enum_flat (hA : Comes decl I A) (hq : Documented q) {f : Field τ} {c : Container τ}
    {tag : TagType} {vs : List (Variant τ)} {ns : List String} (hd : decl (I.base f.ty) = .derived c)
    (hc : PlainInputEnum c tag vs) (hns : InputVariants b q.lenient decl I.base c.denyUnknownFields vs ns tag)
    (hoption : f.required = false → ∀ u, decl f.ty = .std (.option u) → b = true → q.lenient = true)
    (h : A.direct (I.base f.ty) s) : FlatPart D env b q P decl I A f ns s := by
  obtain ⟨A', hA', hb⟩ := (hA.ran _ _ h).run
  obtain ⟨m, e, hp, hall, -⟩ := enum_part (P := P) (D := D) (env := env) hq hA' hd hc hns hb
  refine ⟨m, [], [], e, hp, fun n x hx => by (cases hx), fun o rest hM hopt ho hr hsub hcov => ?_⟩
  by_cases hop : (I.isOption f.ty && !f.required) = true
  · cases b with
    | false => exact fun _ => hall hop o
    | true =>
      simp only [Bool.and_eq_true, Bool.not_eq_true'] at hop
      obtain ⟨u, hu⟩ := (hopt _).1 hop.1
      exact fun _ => ⟨_, .inr (.inr ⟨hop.2, ⟨u, hu⟩, .inr (hoption hop.2 u hu rfl), rfl⟩)⟩
  · rw [Bool.not_eq_true] at hop
    obtain ⟨A2, hA2, hT, hb2⟩ := hr.deeper s h
    obtain ⟨m2, e2, -, -, hw⟩ := enum_part (P := P) (D := D) (env := env) hq hA2 hd hc hns hb2
    rw [e] at e2
    cases e2
    exact hw hop rfl hM hopt hT o rest ho hsub hcov fun x hx => hr.parts x hx s (.inr h)

/-- The names of the fields of the struct itself are among the names. -/
theorem inputParts_own {exact sw : Bool} {base : τ → τ} {fs : List (Field τ)} {nss : List (List String)}
    (h : InputParts exact sw decl base fs nss) {f : Field τ} (hf : f ∈ fs) (hs : f.skipDe = false)
    (hfl : f.flatten = false) : ∃ ns ∈ nss, f.name.de ∈ ns := by
  induction h with
  | nil => cases hf
  | skip h1 _ ih =>
    rcases List.mem_cons.1 hf with rfl | hf
    · rw [hs] at h1; cases h1
    · exact ih hf
  | own _ _ _ _ ih =>
    rcases List.mem_cons.1 hf with rfl | hf
    · exact ⟨_, List.mem_cons_self, List.mem_singleton_self _⟩
    · obtain ⟨ns, h1, h2⟩ := ih hf
      exact ⟨ns, List.mem_cons_of_mem _ h1, h2⟩
  | struct _ h1 _ _ _ _ _ _ ih =>
    rcases List.mem_cons.1 hf with rfl | hf
    · rw [hfl] at h1; cases h1
    · obtain ⟨ns, h1, h2⟩ := ih hf
      exact ⟨ns, List.mem_cons_of_mem _ h1, h2⟩
  | enum _ h1 _ _ _ _ _ ih =>
    rcases List.mem_cons.1 hf with rfl | hf
    · rw [hfl] at h1; cases h1
    · obtain ⟨ns, h1, h2⟩ := ih hf
      exact ⟨ns, List.mem_cons_of_mem _ h1, h2⟩

/-- What the rest of the fields adds to the schema of a struct. -/
def WideWay (D : Dialect) (env : Env) (b : Bool) (q : Quirks τ) (P : τ → Json → Prop) (decl : τ → Decl τ)
    (I : TypeInfo τ) (A : Answers τ) (cd : Bool) (fs : List (Field τ)) (nss : List (List String))
    (m0 m : List (String × Json)) : Prop :=
  ∀ o rest, Modern D env → (∀ t, I.isOption t = true ↔ ∃ u, decl t = .std (.option u)) → (Json.obj o).WF →
    (∀ e ∈ o, ∀ t, MatchesAt D env b P A t e.2) →
    (∀ f ∈ fs, f.skipDe = false → f.flatten = true → FlatReady D env b P decl I A f o) → rest.Sublist o →
    (∀ e ∈ o, (∃ ns ∈ nss, e.1 ∈ ns) → (∀ f ∈ fs, f.skipDe = false → f.flatten = false → f.name.de ≠ e.1) → e ∈ rest) →
    Way b (Valid D env (.obj m) (.obj o)) (Valid D env (.obj m0) (.obj o) ∧
      (∀ f ∈ fs, f.skipDe = false → f.flatten = false → ReadMember q (FieldRead (FieldObeys env) P I.base) I.base decl cd f o) ∧
      ∃ left, ReadFlattened q P I.base decl fs rest left)

/-- A flattened field, before the rest of the fields. -/
theorem wide_step (hde : A.settings.contract = .deserialize) {cd : Bool} {f : Field τ} {fs : List (Field τ)}
    {ns : List String} {nss : List (List String)} (hsk : f.skipDe = false) (hfl : f.flatten = true)
    (hflat : ∀ s, A.direct (I.base f.ty) s → FlatPart D env b q P decl I A f ns s)
    (hwants : WantsIn q decl (I.base f.ty) ns) (hown : ∀ g ∈ fs, g.skipDe = false → g.flatten = false →
      ∃ ns ∈ nss, g.name.de ∈ ns)
    {m0 p0 : List (String × Json)} {r0 : List String} (hdis : (ns :: nss).Pairwise List.Disjoint) (h0 : Part m0 p0 r0)
    (ht0 : Obj.get m0 "type" = some (.str "object")) (hfr : ∀ l ∈ ns :: nss, ∀ n ∈ l, Obj.get p0 n = none)
    (ih : ∀ {m0 p0 : List (String × Json)} {r0 : List String}, nss.Pairwise List.Disjoint → Part m0 p0 r0 →
      Obj.get m0 "type" = some (.str "object") → (∀ l ∈ nss, ∀ n ∈ l, Obj.get p0 n = none) →
      Returns A (structFieldsProg I cd fs (.obj m0)) s →
      ∃ m p r, s = .obj m ∧ Part m p r ∧ Obj.get m "type" = some (.str "object") ∧
        WideWay D env b q P decl I A cd fs nss m0 m)
    (h : Returns A (structFieldsProg I cd (f :: fs) (.obj m0)) s) :
    ∃ m p r, s = .obj m ∧ Part m p r ∧ Obj.get m "type" = some (.str "object") ∧
      WideWay D env b q P decl I A cd (f :: fs) (ns :: nss) m0 m := by
  obtain ⟨hd1, hd2⟩ := List.pairwise_cons.1 hdis
  unfold structFieldsProg at h
  obtain ⟨s1, h1, h2⟩ := res_bind.1 h
  rw [returns_structField, if_pos (by rw [hde]; exact hsk)] at h1
  obtain ⟨s', h1, rfl⟩ := h1
  unfold addField at h2
  rw [hfl] at h2
  simp only [if_true] at h2
  obtain ⟨s2, hd2', rfl⟩ := returns_flattenField hfl h1
  obtain ⟨m2, p2, r2, e2, hp2, hn2, hw2⟩ := hflat s2 hd2'
  simp only [e2] at h2
  obtain ⟨m1, p1, e1, hp1, ht1, hg1, hv1⟩ := h0.flatten (D := D) (env := env) hp2 ht0 fun n a b h1 h2 => by
    rw [hfr ns List.mem_cons_self n (hn2 n b h2)] at h1; cases h1
  rw [e1] at h2
  obtain ⟨m, p, r, e, hp, ht, hw⟩ := ih hd2 hp1 ht1 (fun l hl n hn => by
    rw [hg1, hfr l (List.mem_cons_of_mem _ hl) n hn]
    cases h3 : Obj.get p2 n with
    | none => rfl
    | some x => exact absurd hn fun h => hd1 l hl (hn2 n x h3) h) h2
  refine ⟨m, p, r, e, hp, ht, fun o rest hM hopt ho hm hr hsub hcov => ?_⟩
  have hr' : ∀ g ∈ fs, g.skipDe = false → g.flatten = true → FlatReady D env b P decl I A g o :=
    fun g hg => hr g (List.mem_cons_of_mem _ hg)
  have hstep := hw2 o rest hM hopt ho (hr f List.mem_cons_self hsk hfl) hsub fun e he hk => hcov e he
    ⟨ns, List.mem_cons_self, hk⟩ (fun g hg h1 h2 h3 => by
      rcases List.mem_cons.1 hg with rfl | hg
      · rw [hfl] at h2; cases h2
      · obtain ⟨l, hl, h4⟩ := hown g hg h1 h2
        rw [h3] at h4
        exact hd1 l hl hk h4)
  have hcov' : ∀ o1 : List (String × Json), o1.Sublist rest ∧ (∀ e ∈ rest, e.1 ∉ ns → e ∈ o1) → ∀ e ∈ o, (∃ ns ∈ nss, e.1 ∈ ns) →
      (∀ g ∈ fs, g.skipDe = false → g.flatten = false → g.name.de ≠ e.1) → e ∈ o1 := by
    rintro o1 ⟨-, h1⟩ e he ⟨l, hl, hk⟩ h2
    refine h1 e (hcov e he ⟨l, List.mem_cons_of_mem _ hl, hk⟩ fun g hg h3 h4 => ?_) fun h => hd1 l hl h hk
    rcases List.mem_cons.1 hg with rfl | hg
    · rw [hfl] at h4; cases h4
    · exact h2 g hg h3 h4
  have hmem : (∀ g ∈ f :: fs, g.skipDe = false → g.flatten = false → ReadMember q (FieldRead (FieldObeys env) P I.base) I.base decl cd g o) ↔
      ∀ g ∈ fs, g.skipDe = false → g.flatten = false → ReadMember q (FieldRead (FieldObeys env) P I.base) I.base decl cd g o := by
    simp [hfl]
  simp only [hmem, flattened_step hsk hfl]
  cases b with
  | true =>
    intro hv
    obtain ⟨hvm, -⟩ := hw o rest hM hopt ho hm hr' hsub (hcov' rest ⟨.refl _, fun e he _ => he⟩) hv
    obtain ⟨hv0, hv2⟩ := (hv1 _).1 hvm
    obtain ⟨o1, ho1⟩ := hstep hv2
    have hleft := ho1.left hwants
    obtain ⟨-, hmm, left, hl⟩ := hw o o1 hM hopt ho hm hr' (hleft.1.trans hsub) (hcov' o1 hleft) hv
    exact ⟨hv0, hmm, left, o1, ho1, hl⟩
  | false =>
    rintro ⟨hv0, hmm, left, o1, ho1, hl⟩
    have hleft := ho1.left hwants
    exact hw o o1 hM hopt ho hm hr' (hleft.1.trans hsub) (hcov' o1 hleft) ⟨(hv1 _).2 ⟨hv0, hstep ⟨o1, ho1⟩⟩, hmm, left, hl⟩

/-- The schema of the fields of a struct and what is read for them. -/
theorem wide_fields (hA : Asked D env decl I A) (hq : Documented q) {cd : Bool} {fs : List (Field τ)}
    {nss : List (List String)} {sw : Bool} (hsw : sw = q.lenient) (hn : InputParts b sw decl I.base fs nss) :
    ∀ {m0 p0 : List (String × Json)} {r0 : List String} {s : Json}, nss.Pairwise List.Disjoint → Part m0 p0 r0 →
      Obj.get m0 "type" = some (.str "object") → (∀ l ∈ nss, ∀ n ∈ l, Obj.get p0 n = none) →
      Returns A (structFieldsProg I cd fs (.obj m0)) s →
      ∃ m p r, s = .obj m ∧ Part m p r ∧ Obj.get m "type" = some (.str "object") ∧
        WideWay D env b q P decl I A cd fs nss m0 m := by
  subst hsw
  induction hn with
  | nil =>
    intro m0 p0 r0 s _ h0 ht0 _ h
    cases h
    refine ⟨m0, p0, r0, rfl, h0, ht0, fun o rest _ _ _ _ _ _ _ => Way.of_iff ?_⟩
    exact ⟨fun h => ⟨h, fun f hf => by (cases hf), rest, .nil⟩, fun h => h.1⟩
  | @skip f fs nss hsk _ ih =>
    intro m0 p0 r0 s hdis h0 ht0 hfr h
    obtain ⟨m, p, r, e, hp, ht, hw⟩ := ih hdis h0 ht0 hfr (input_skip hA.de hsk h)
    refine ⟨m, p, r, e, hp, ht, fun o rest hM hopt ho hm hr hsub hcov => ?_⟩
    refine (hw o rest hM hopt ho hm (fun g hg => hr g (List.mem_cons_of_mem _ hg)) hsub fun e he h1 h2 => hcov e he h1
      fun g hg h3 h4 => ?_).congr Iff.rfl ?_
    · rcases List.mem_cons.1 hg with rfl | hg
      · rw [hsk] at h3; cases h3
      · exact h2 g hg h3 h4
    · refine and_congr_right fun _ => and_congr ?_ (exists_congr fun left => flattened_pass (.inl hsk))
      simp [hsk]
  | @own f fs nss hsk hfl hfok hin ih =>
    intro m0 p0 r0 s hdis h0 ht0 hfr h
    obtain ⟨hd1, hd2⟩ := List.pairwise_cons.1 hdis
    have hfn : Obj.get p0 f.name.de = none := hfr _ List.mem_cons_self _ (List.mem_singleton_self _)
    unfold structFieldsProg at h
    obtain ⟨s1, h1, h2⟩ := res_bind.1 h
    rw [returns_structField, if_pos (by rw [hA.de]; exact hsk)] at h1
    obtain ⟨s', h1, rfl⟩ := h1
    unfold FieldResult at h1
    rw [hfl] at h1
    simp only [Bool.false_eq_true, if_false] at h1
    obtain ⟨s2, hf, rfl⟩ := h1
    unfold addField at h2
    rw [hfl] at h2
    simp only [Bool.false_eq_true, if_false] at h2
    have hname : f.name.get A.settings.contract = f.name.de := by rw [hA.de]; rfl
    rw [hname, fieldOptional_eq, hA.de] at h2
    obtain ⟨m1, e1, hp1, ht1, hv1⟩ := h0.property (D := D) (env := env) ht0
      (!decide (Mandatory I.isOption cd f .deserialize)) (sub := insertDefault cd f s2) hfn
    rw [e1] at h2
    obtain ⟨m, p, r, e, hp, ht, hw⟩ := ih hd2 hp1 ht1 (fun l hl n hn => by
      rw [Obj.get_insert_ne _ _ (by rintro rfl; exact hd1 l hl (List.mem_singleton_self _) hn)]
      exact hfr l (List.mem_cons_of_mem _ hl) n hn) h2
    refine ⟨m, p, r, e, hp, ht, fun o rest hM hopt ho hm hr hsub hcov => ?_⟩
    have hso : Obj.Sorted o := by cases ho with | obj _ h _ => exact h
    refine (hw o rest hM hopt ho hm (fun g hg => hr g (List.mem_cons_of_mem _ hg)) hsub ?_).trans ?_
    · rintro e he ⟨l, hl, hk⟩ h3
      refine hcov e he ⟨l, List.mem_cons_of_mem _ hl, hk⟩ fun g hg h4 h5 h6 => ?_
      rcases List.mem_cons.1 hg with rfl | hg
      · exact hd1 l hl (List.mem_singleton_self _) (h6 ▸ hk)
      · exact h3 g hg h4 h5 h6
    have key : Way b ((∃ x, Obj.get o f.name.de = some x ∧ Valid D env (insertDefault cd f s2) x) ∨
        (Obj.get o f.name.de = none ∧ (!decide (Mandatory I.isOption cd f .deserialize)) = true))
        (ReadMember q (FieldRead (FieldObeys env) P I.base) I.base decl cd f o) := by
      have hrm : ReadMember q (FieldRead (FieldObeys env) P I.base) I.base decl cd f o ↔
          (∃ x, Obj.get o f.name.de = some x ∧ FieldRead (FieldObeys env) P I.base f x) ∨
          (Obj.get o f.name.de = none ∧ MayMiss q I.base decl cd f) := by
        unfold ReadMember
        simp only [namesOf_documented hq, List.mem_singleton, exists_eq_left, forall_eq]
        simp
      refine Way.congr (Way.or (Way.ex fun x => Way.and_left fun hx => ?_) (Way.of_iff ?_)) Iff.rfl hrm
      · have hnull := (returns_field hA hfok hf).1
        exact (field_way hA hfok hf (hm _ (Obj.get_mem hx) _)).congr (valid_insertDefault hnull.sch) Iff.rfl
      · rw [Bool.not_eq_true', decide_eq_false_iff_not, mandatory_iff hq hopt, not_not]
    refine Way.congr (Way.and (Way.and (Way.of_iff Iff.rfl) key) (Way.of_iff Iff.rfl))
      (and_congr (hv1 o hso) Iff.rfl) ?_
    rw [and_assoc]
    refine and_congr_right fun _ => ?_
    rw [← and_assoc]
    refine and_congr ?_ (exists_congr fun left => flattened_pass (.inr hfl))
    simp [hsk, hfl]
  | @struct f fs nss c gs ns ms hsk hfl hd hc hns hoption hnested hin ih =>
    intro m0 p0 r0 s hdis h0 ht0 hfr h
    exact wide_step hA.de hsk hfl (fun s hs => struct_flat hA.toComes hq hd hc hns
      (fun h1 u h2 => hoption h1 u h2) hnested hs)
      (fun l hl n hn => by
        rcases wants_plain hq hd hc hns with ⟨h1, -⟩ | ⟨l', h1, h2⟩
        · rw [h1] at hl; cases hl
        · rw [h1] at hl; cases hl; exact (h2 n).1 hn) (fun g hg h1 h2 => inputParts_own hin hg h1 h2)
      hdis h0 ht0 hfr ih h
  | @enum f fs nss ns c tag vs hsk hfl hd hc hns hoption hin ih =>
    intro m0 p0 r0 s hdis h0 ht0 hfr h
    exact wide_step hA.de hsk hfl (fun s hs => enum_flat hA.toComes hq hd hc hns hoption hs)
      (enum_wants hq hd hc hns) (fun g hg h1 h2 => inputParts_own hin hg h1 h2) hdis h0 ht0 hfr ih h

theorem mem_unclaimedOwn (hq : Documented q) {fs : List (Field τ)} {o : List (String × Json)} {e : String × Json} :
    e ∈ unclaimed q fs o ↔
      e ∈ o ∧ ∀ f ∈ fs, f.skipDe = false → f.flatten = false → f.name.de ≠ e.1 := by
  unfold unclaimed
  rw [List.mem_filter]
  refine and_congr_right fun _ => ?_
  rw [Bool.not_eq_true', List.any_eq_false]
  refine forall_congr' fun f => forall_congr' fun _ => ?_
  rw [namesOf_documented hq]
  cases f.skipDe <;> cases f.flatten <;> simp [eq_comm (a := e.1)]

/-- The schema of a struct with flattened structs and enums. -/
theorem wide_start (hA : Asked D env decl I A) (hq : Documented q) {cd deny : Bool} {fs : List (Field τ)}
    (hok : WideInput b q.lenient decl I.base deny fs) (h : Returns A (structProg I fs cd deny) s) :
    ∃ m p r, s = .obj m ∧ Part m p r ∧ Obj.get m "type" = some (.str "object") ∧
      ∀ o, Modern D env → (∀ t, I.isOption t = true ↔ ∃ u, decl t = .std (.option u)) → (Json.obj o).WF →
        (∀ e ∈ o, ∀ t, MatchesAt D env b P A t e.2) →
        (∀ f ∈ fs, f.skipDe = false → f.flatten = true → FlatReady D env b P decl I A f o) →
        Way b (Valid D env s (.obj o)) (ReadFields q P (FieldRead (FieldObeys env) P I.base) I.base decl cd deny fs o) := by
  obtain ⟨rfl, nss, hn, hdis⟩ := hok
  obtain ⟨mi, ei, hi⟩ := shape_start false
  unfold structProg at h
  rw [ei] at h
  obtain ⟨m, p, r, rfl, hp, ht, hw⟩ := wide_fields (P := P) hA hq rfl hn hdis (hi.part List.Pairwise.nil) hi.type
    (fun l _ n _ => rfl) h
  refine ⟨m, p, r, rfl, hp, ht, fun o hM hopt ho hm hr => ?_⟩
  refine (hw o (unclaimed q fs o) hM hopt ho hm hr unclaimed_sublist fun e he _ h2 => (mem_unclaimedOwn hq).2 ⟨he, h2⟩).congr
    Iff.rfl ?_
  unfold ReadFields
  constructor
  · rintro ⟨h1, left, h2, -⟩
    refine ⟨?_, h1, left, h2⟩
    rw [hi.valid]
    exact ⟨o, rfl, fun n hn => by (cases hn), fun e _ s hs => by (cases hs), fun h => by (cases h)⟩
  · rintro ⟨-, h1, left, h2⟩
    exact ⟨h1, left, h2, fun h => by cases h⟩

end

end Verif
