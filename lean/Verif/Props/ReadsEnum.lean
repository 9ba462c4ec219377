import Verif.Props.ReadsMap

/-!
# The schemas of derived enums and what serde reads
-/

namespace Verif
open Spec

variable {τ : Type}

section
variable {D : Dialect} {env : Env} {P : τ → Json → Prop} {decl : τ → Decl τ} {I : TypeInfo τ}
  {A : Answers τ} {w : Nat} {q : Quirks τ} {j s : Json} {b : Bool}

/-! ## Tuple structs -/

/-- For the documented forms, the elements are those of the fields that are not skipped. -/
theorem readElems_iff (hq : Documented q) {F : Field τ → Json → Prop} {cd : Bool} {fs : List (Field τ)} {l : List Json} :
    ReadElems q F cd fs l ↔ List.Forall₂ F (present fs .deserialize) l := by
  constructor
  · intro h
    induction h with
    | nil => exact .nil
    | @skip f fs l hs _ ih =>
      have : present (f :: fs) .deserialize = present fs .deserialize := by
        unfold present; rw [List.filter_cons, if_neg (by simp [NotSkipped, hs])]
      rw [this]; exact ih
    | @elem f fs l x hs hx _ ih =>
      have : present (f :: fs) .deserialize = f :: present fs .deserialize := by
        unfold present; rw [List.filter_cons, if_pos (by simp [NotSkipped, hs])]
      rw [this]; exact .cons hx ih
    | missing h => rw [hq.lax] at h; cases h
  · intro h
    induction fs generalizing l with
    | nil => cases h; exact .nil
    | cons f fs ih =>
      cases hs : f.skipDe with
      | true =>
        have : present (f :: fs) .deserialize = present fs .deserialize := by
          unfold present; rw [List.filter_cons, if_neg (by simp [NotSkipped, hs])]
        rw [this] at h
        exact .skip hs (ih h)
      | false =>
        have : present (f :: fs) .deserialize = f :: present fs .deserialize := by
          unfold present; rw [List.filter_cons, if_pos (by simp [NotSkipped, hs])]
        rw [this] at h
        cases h with
        | cons hx h => exact .elem _ hs hx (ih h)

theorem returns_elems (hde : A.settings.contract = .deserialize) {fs : List (Field τ)}
    (h : Returns A (tupleStructProg I fs) s) :
    ∃ ss, List.Forall₂ (fun f s => Returns A (fieldProg I f false) s) (present fs .deserialize) ss ∧
      s = tupleStructSchema ss := by
  unfold tupleStructProg at h
  rw [res_collect] at h
  obtain ⟨ss, h1, h2⟩ := h
  refine ⟨ss, ?_, h2⟩
  rw [hde, List.filter_map, List.forall₂_map_left_iff] at h1
  have : present fs .deserialize = fs.filter ((fun e : (Contract → Bool) × Prog τ => e.1 .deserialize) ∘
      fun f => (f.included, fieldProg I f false)) := by
    unfold present
    apply List.filter_congr
    intro f _
    simp only [Function.comp_apply]
    rw [included_eq]
  rw [this]; exact h1

theorem tuple_way (hM : Modern D env) (hr : Ready D env b P decl I A j) (hq : Documented q) {fs : List (Field τ)}
    (hok : ∀ f ∈ fs, f.skipDe = false → InputField b f) (h : Returns A (tupleStructProg I fs) s) (cd : Bool) :
    Way b (Valid D env s j) (∃ l, j = .arr l ∧ ReadElems q (FieldRead (FieldObeys env) P I.base) cd fs l) := by
  obtain ⟨ss, h1, rfl⟩ := returns_elems hr.de h
  refine Way.congr ?_ (valid_tupleStruct hM.items ss) Iff.rfl
  refine Way.ex fun l => Way.and_left fun hl => ?_
  subst hl
  refine Way.congr ?_ Iff.rfl (readElems_iff hq)
  have hfs : ∀ f ∈ present fs .deserialize, InputField b f := fun f hf =>
    hok f (mem_readPresent.1 hf).1 (mem_readPresent.1 hf).2
  have h1' : List.Forall₂ (fun f s => InputField b f ∧ Returns A (fieldProg I f false) s) (present fs .deserialize) ss := by
    generalize present fs .deserialize = gs at h1 hfs
    clear h
    induction h1 with
    | nil => exact .nil
    | cons hx _ ih =>
      exact .cons ⟨hfs _ List.mem_cons_self, hx⟩ (ih fun f hf => hfs f (List.mem_cons_of_mem _ hf))
  exact Way.forall₂ h1' fun f s hfs x hx => field_way hr.toAsked hfs.1 hfs.2 (hr.elem hx _)

/-! ## The contents of structs and variants -/

/-- The program for the contents. -/
def contentProg (I : TypeInfo τ) (cd deny : Bool) : Fields τ → Prog τ
  | .unit => .sub I.unit .ret
  | .newtype f => fieldProg I f false
  | .tuple fs => tupleStructProg I fs
  | .struct fs => structProg I fs cd deny

theorem content_way (hM : Modern D env) (hr : Ready D env b P decl I A j) (hq : Documented q)
    (hopt : ∀ t, I.isOption t = true ↔ ∃ u, decl t = .std (.option u)) {cd deny seq : Bool} {fields : Fields τ}
    (hok : ReadContentOk b q.lenient decl I.base deny fields) (h : Returns A (contentProg I cd deny fields) s)
    (hin : ∀ u, InContent I.base fields u → ∀ x, Under b j x → MatchesAt D env b P A u x) :
    Way b (Valid D env s j) (ReadContent q P (FieldRead (FieldObeys env) P I.base) I.base decl seq cd deny fields j) := by
  cases fields with
  | unit =>
    obtain ⟨s1, h1, rfl⟩ := h
    rw [hr.unit _ h1]
    exact Way.of_iff valid_nullSchema
  | newtype f => exact field_way hr.toAsked hok h (hin _ (.inl ⟨f, rfl, rfl⟩) _ hr.under)
  | tuple fs => exact tuple_way hM hr hq hok h cd
  | struct fs =>
    obtain ⟨h1, h2⟩ := structs_way (P := P) hM hr.toAsked hq hopt hok h
    have hv : Valid D env s j ↔ ∃ o, j = .obj o ∧ Valid D env s (.obj o) := by
      constructor
      · intro hv
        obtain ⟨o, rfl⟩ := h1 j hv
        exact ⟨o, rfl, hv⟩
      · rintro ⟨o, rfl, hv⟩; exact hv
    have hc : ReadContent q P (FieldRead (FieldObeys env) P I.base) I.base decl seq cd deny (.struct fs) j ↔
        ∃ o, j = .obj o ∧ ReadFields q P (FieldRead (FieldObeys env) P I.base) I.base decl cd deny fs o := by
      unfold ReadContent
      constructor
      · rintro (h | ⟨h, -⟩)
        · exact h
        · rw [hq.lax] at h; cases h
      · exact .inl
    refine Way.congr ?_ hv hc
    refine Way.ex fun o => Way.and_left fun ho => ?_
    subst ho
    exact h2 o hr.wf (fun e he t => hr.member he t) fun f hf hs hfl =>
      ⟨fun x hx => hin _ (.inr ⟨fs, rfl, f, hf, hs, hfl, rfl⟩) _ (hr.part hx), hr.deeper _⟩

theorem content_nullable (hA : Asked D env decl I A) {exact sw cd deny : Bool}
    {fields : Fields τ} (hok : ReadContentOk exact sw decl I.base deny fields) (h : Returns A (contentProg I cd deny fields) s) :
    Nullable D env s := by
  cases fields with
  | unit =>
    obtain ⟨s1, h1, rfl⟩ := h
    rw [hA.unit _ h1]; exact nullable_null
  | newtype f => exact (returns_field hA hok h).1
  | tuple fs =>
    obtain ⟨ss, -, rfl⟩ := returns_elems hA.de h
    exact nullable_tuple ss
  | struct fs =>
    exact structs_nullable hA hok h

theorem returns_content {v : Variant τ} {deny : Bool} (hw : v.withTy = none)
    (h : Returns A (untaggedVariantProg I v deny false) s) : Returns A (contentProg I false deny v.fields) s := by
  unfold untaggedVariantProg at h
  rw [hw] at h
  cases hf : v.fields <;> rw [hf] at h <;> exact h

theorem variant_way (hM : Modern D env) (hr : Ready D env b P decl I A j) (hq : Documented q)
    (hopt : ∀ t, I.isOption t = true ↔ ∃ u, decl t = .std (.option u)) {deny seq : Bool} {v : Variant τ}
    (hok : ReadVariantOk b q.lenient decl I.base deny v) (h : Returns A (untaggedVariantProg I v deny false) s)
    (hin : ∀ t, v.withTy = some t ∨ InContent I.base v.fields t → ∀ x, Under b j x → MatchesAt D env b P A t x) :
    Way b (Valid D env s j) (ReadVariant q P (FieldRead (FieldObeys env) P I.base) I.base decl seq deny v j) := by
  unfold ReadVariant
  cases hw : v.withTy with
  | some t =>
    unfold untaggedVariantProg at h
    rw [hw] at h
    obtain ⟨s1, h1, rfl⟩ := h
    exact hin t (.inl hw) _ hr.under _ (.inl h1)
  | none =>
    rw [readAs_eq hok.toVariantInput hw]
    exact content_way hM hr hq hopt (hok.content hw) (returns_content hw h) fun u hu => hin u (.inr hu)

theorem variant_nullable (hA : Asked D env decl I A) {exact sw deny : Bool}
    {v : Variant τ} (hok : ReadVariantOk exact sw decl I.base deny v) (h : Returns A (untaggedVariantProg I v deny false) s) :
    Nullable D env s := by
  cases hw : v.withTy with
  | some t =>
    unfold untaggedVariantProg at h
    rw [hw] at h
    obtain ⟨s1, h1, rfl⟩ := h
    exact hA.nullSub _ _ h1
  | none => exact content_nullable hA (hok.content hw) (returns_content hw h)

/-! ## Beside a tag -/

/-- The tag is beside what the schema accepts. -/
def BesideTag (D : Dialect) (env : Env) (s : Json) (tag : String) (deny : Bool) : Prop :=
  Regular s ∧ ∀ name i, i.WF → (Valid D env (applyInternalTag s tag name deny) i ↔
    ∃ o, i = .obj o ∧ Obj.get o tag = some (.str name) ∧ Valid D env s (.obj (Obj.remove o tag)))

theorem shape_beside {m p : List (String × Json)} {r : List String} {d : Bool} {tag : String} (h : Shape m p r d)
    (hp : Obj.Sorted p) (h1 : Obj.get p tag = none) (h2 : tag ∉ r) {l : List (Json → Json)} (hl : ∀ f ∈ l, Annotates f)
    (deny : Bool) : BesideTag D env (runMutators l (.obj m)) tag deny := by
  obtain ⟨m', e, hs'⟩ := h.annotate hl
  rw [e]
  exact ⟨regular_shape hs' hp, fun name i hi => C48_internal_shape hs' deny h1 h2 hi⟩

theorem get_removed {o : List (String × Json)} {k n : String} (h : n ≠ k) : Obj.get (Obj.remove o k) n = Obj.get o n := by
  rw [Obj.get_remove, if_neg (Ne.symm h)]

theorem ref_beside (hD : D.refSiblings = true) {m p : List (String × Json)} {req : List String} {tag r : String}
    (h : Shape m p req false) (h1 : Obj.get p tag = none) (h2 : tag ∉ req)
    (hr : ∀ i, (env.ref r i).ok = true ↔ Valid D env (.obj m) i) {l : List (Json → Json)} (hl : ∀ f ∈ l, Annotates f)
    (deny : Bool) : BesideTag D env (runMutators l (Schema.newRef r)) tag deny := by
  obtain ⟨m', e, hk, hnone⟩ := ref_kinds hl r
  have hval : ∀ i, Valid D env (.obj m') i ↔ Valid D env (.obj m) i := by
    intro i
    rw [← e, runMutators_valid hl (sch_newRef r), valid_newRef hD hr]
  rw [e]
  refine ⟨.inl ⟨m', rfl, hk⟩, fun name i hi => ?_⟩
  rw [C48_internal_open hk (.inl hD) (fun k hk => hnone k ((by decide : ∀ k ∈ restKeys, k ∉ annotations) k hk)
      ((by decide : ∀ k ∈ restKeys, k ≠ "$ref") k hk)) (.inl (hnone _ (by decide) (by decide))) ?_ hi]
  · unfold Tagged
    have key : ∀ o, Valid D env (.obj m') (.obj o) ↔ Valid D env (.obj m') (.obj (Obj.remove o tag)) := by
      intro o
      rw [hval, hval, h.valid, h.valid]
      unfold Conforms
      constructor
      · rintro ⟨o1, e1, hv1, hv2, -⟩
        cases e1
        refine ⟨_, rfl, fun n hn => ?_, fun e he => hv2 e (Obj.mem_remove.1 he).1, fun h => by cases h⟩
        rw [get_removed (by rintro rfl; exact h2 hn)]
        exact hv1 n hn
      · rintro ⟨o1, e1, hv1, hv2, -⟩
        cases e1
        refine ⟨_, rfl, fun n hn => ?_, fun e he s hes => ?_, fun h => by cases h⟩
        · have := hv1 n hn
          rwa [get_removed (by rintro rfl; exact h2 hn)] at this
        · refine hv2 e (Obj.mem_remove.2 ⟨he, ?_⟩) s hes
          rintro hne
          rw [hne, h1] at hes; cases hes
    constructor
    · rintro ⟨⟨o, rfl, ht⟩, hv⟩
      exact ⟨o, rfl, ht, (key o).1 hv⟩
    · rintro ⟨o, rfl, ht, hv⟩
      exact ⟨⟨o, rfl, ht⟩, (key o).2 hv⟩
  · rintro ⟨m1, x, e1, h1⟩
    cases e1
    rw [hnone "properties" (by decide) (by decide)] at h1
    cases h1

theorem size_remove {o : List (String × Json)} {k : String} {x : Json} (h : Obj.get o k = some x) :
    sizeOf (Json.obj (Obj.remove o k)) < sizeOf (Json.obj o) := by
  have hlt : sizeOf (Obj.remove o k) < sizeOf o := by
    have hle : ∀ o : List (String × Json), sizeOf (Obj.remove o k) ≤ sizeOf o := by
      intro o
      induction o with
      | nil => exact Nat.le_refl _
      | cons e o ih =>
        unfold Obj.remove at ih ⊢
        rw [List.filter_cons]
        split
        · simp only [List.cons.sizeOf_spec]; omega
        · simp only [List.cons.sizeOf_spec]; omega
    induction o with
    | nil => cases h
    | cons e o ih =>
      obtain ⟨n, y⟩ := e
      rw [Obj.get_cons] at h
      by_cases hn : n = k
      · have := hle o
        unfold Obj.remove at this ⊢
        rw [List.filter_cons, if_neg (by simp [hn])]
        simp only [List.cons.sizeOf_spec, Prod.mk.sizeOf_spec]; omega
      · rw [if_neg hn] at h
        have := ih h
        unfold Obj.remove at this ⊢
        rw [List.filter_cons, if_pos (by simp [hn])]
        simp only [List.cons.sizeOf_spec, Prod.mk.sizeOf_spec]; omega
  simp; exact hlt

/-- At the members beside a tag. -/
theorem Ready.rest {o : List (String × Json)} (h : Ready D env b P decl I A (.obj o)) {k : String} {x : Json}
    (hk : Obj.get o k = some x) (t : τ) : MatchesAt D env b P A t (.obj (Obj.remove o k)) := by
  refine h.below t _ ?_ (fun hb => ?_) (size_remove hk)
  · cases h.wf with
    | obj _ h1 h2 => exact .obj _ (Obj.sorted_remove h1 _) fun e he => h2 e (Obj.mem_remove.1 he).1
  · cases h.numbers hb with
    | obj _ h => exact .obj _ fun e he => h e (Obj.mem_remove.1 he).1

/-- At some of the members beside a tag. -/
theorem Ready.restPart {o o' : List (String × Json)} (h : Ready D env b P decl I A (.obj o)) {k : String} {x : Json}
    (hk : Obj.get o k = some x) (ho : o'.Sublist (Obj.remove o k)) (t : τ) : MatchesAt D env b P A t (.obj o') := by
  have hu := h.part (ho.trans List.filter_sublist)
  refine h.below t _ hu.wf hu.numbers (Nat.lt_of_le_of_lt ?_ (size_remove hk))
  have := size_sublist ho
  simp; exact this

/-- Inside a part of the document. -/
theorem Ready.within {o : List (String × Json)} (h : Ready D env b P decl I A (.obj o)) {e : String × Json} (he : e ∈ o)
    (t : τ) (x : Json) (hx : Under b e.2 x) : MatchesAt D env b P A t x :=
  h.below t x hx.wf hx.numbers (Nat.lt_of_le_of_lt hx.size (size_obj he))

theorem readInside_iff {base : τ → τ} {tag : String} {t : τ} {o : List (String × Json)} (ht : ReadBesideTag decl base tag t) :
    ReadInside P decl t o ↔ P t (.obj o) := by
  unfold ReadInside
  constructor
  · rintro (h | ⟨h, -⟩)
    · exact h
    · obtain ⟨c, fs, ns, ms, hd, hp, -⟩ := ht
      unfold NullType at h
      rw [hd] at h
      rcases h with h | ⟨c', h, -, -, -, hu⟩
      · cases h
      · cases h; rw [hp.data] at hu; cases hu
  · exact .inl

/-- What serde reads beside the tag, and the schema of the type that is read there. -/
theorem inside_way (hr : Ready D env b P decl I A j) {tag name : String} {deny : Bool} {t : τ} {s0 : Json}
    (ht : ReadBesideTag decl I.base tag t) (h0 : A.sub t s0 ∨ A.direct t s0) (hv : ∀ i, Valid D env s i ↔ Valid D env s0 i)
    (hs : BesideTag D env s tag deny) :
    Way b (Valid D env (applyInternalTag s tag name deny) j)
      (∃ o, j = .obj o ∧ Obj.get o tag = some (.str name) ∧ ReadInside P decl t (Obj.remove o tag)) := by
  refine Way.congr ?_ (hs.2 name j hr.wf) Iff.rfl
  refine Way.ex fun o => Way.and_left fun ho => Way.and_left fun hg => ?_
  subst ho
  exact (hr.rest hg t s0 h0).congr (hv _) (readInside_iff ht)

/-- What serde reads for a variant of an internally tagged enum, and the schema of the variant. -/
theorem internal_way (hM : Modern D env) (hr : Ready D env b P decl I A j) (hq : Documented q)
    (hopt : ∀ t, I.isOption t = true ↔ ∃ u, decl t = .std (.option u)) {v : Variant τ} {deny : Bool} {tag : String}
    (hv : ReadVariantOk b q.lenient decl I.base deny v) (hi : ReadInternalOk decl I.base tag v)
    (h : Returns A (internalVariantProg I v deny) s) :
    Regular s ∧ ∀ name, Way b (Valid D env (applyInternalTag s tag name deny) j)
      (∃ o, j = .obj o ∧ Obj.get o tag = some (.str name) ∧ ReadTagged q P (FieldRead (FieldObeys env) P I.base) I.base decl deny v (Obj.remove o tag)) := by
  unfold internalVariantProg at h
  unfold ReadInternalOk at hi
  unfold ReadTagged
  -- a schema that comes from the body of the type
  have hbody : ∀ {t : τ} {s0 : Json} {l : List (Json → Json)}, ReadBesideTag decl I.base tag t → FromBody decl I t s0 →
      (∀ f ∈ l, Annotates f) → (A.sub t s0 ∨ A.direct t s0) →
      Regular (runMutators l s0) ∧ ∀ name, Way b (Valid D env (applyInternalTag (runMutators l s0) tag name deny) j)
        (∃ o, j = .obj o ∧ Obj.get o tag = some (.str name) ∧ ReadInside P decl t (Obj.remove o tag)) := by
    intro t s0 l ht hb hl h0
    obtain ⟨c, fs, ns, ms, hd, hp, hn, htag⟩ := ht
    obtain ⟨m, p, r, rfl, hs, hps, h1, h2⟩ := plain_shape hd hp hn htag hb
    have hbt := shape_beside (D := D) (env := env) hs hps h1 h2 hl deny
    exact ⟨hbt.1, fun name => inside_way hr ⟨c, fs, ns, ms, hd, hp, hn, htag⟩ h0 (fun i => runMutators_valid hl hs.sch) hbt⟩
  cases hw : v.withTy with
  | some t =>
    rw [hw] at h hi
    simp only at h hi ⊢
    obtain ⟨s1, h1, rfl⟩ := h
    exact hbody (l := []) hi (hr.ran _ _ h1) (fun f hf => by cases hf) (.inr h1)
  | none =>
    rw [hw] at h hi
    simp only at h hi ⊢
    rw [readAs_eq hv.toVariantInput hw]
    have hc := hv.content hw
    cases hf : v.fields with
    | unit =>
      rw [hf] at h
      obtain ⟨s1, h1, rfl⟩ := h
      rw [hr.unit _ h1]
      constructor
      · refine .inl ⟨_, rfl, List.pairwise_singleton _ _, ?_, ?_, rfl⟩
        · intro k hk v hv
          rw [Obj.get_cons, if_neg (by rintro rfl; exact absurd hk (by decide))] at hv; cases hv
        · intro k hk v hv
          rw [Obj.get_cons, if_neg (by rintro rfl; exact absurd hk (by decide))] at hv; cases hv
      · intro name
        refine Way.of_iff ?_
        rw [C48_internal_unit hr.wf]
        refine exists_congr fun o => and_congr_right fun _ => and_congr_right fun _ => ?_
        simp only [hq.lax, Bool.false_eq_true, false_or]
        refine imp_congr_right fun _ => ?_
        unfold Obj.remove
        rw [List.filter_eq_nil_iff]
        simp
    | tuple fs => rw [hf] at hi; exact hi.elim
    | struct fs =>
      rw [hf] at h hi hc
      simp only at h hi ⊢
      obtain ⟨m, p, r, rfl, hs, hps, h1, h2⟩ := struct_shape hr.de hr.ran hi h
      obtain ⟨-, hway⟩ := structs_way (P := P) hM hr.toAsked hq hopt hc h
      have hbt := shape_beside (D := D) (env := env) hs hps h1 h2 (l := []) (fun f hf => by cases hf) deny
      refine ⟨hbt.1, fun name => Way.congr ?_ (hbt.2 name j hr.wf) Iff.rfl⟩
      refine Way.ex fun o => Way.and_left fun ho => Way.and_left fun hg => ?_
      subst ho
      exact hway _ (wf_sublist hr.wf List.filter_sublist)
        (fun e he t => hr.member (Obj.mem_remove.1 he).1 t) fun f _ _ _ => ⟨fun x hx => hr.restPart hg hx _, hr.deeper _⟩
    | newtype f =>
      rw [hf] at h hi hc
      simp only at h hi ⊢
      have hann := field_annotates (show FreeField f from ⟨hc.1, hi.1⟩)
      replace hi := hi.2
      unfold fieldProg at h
      rw [res_map] at h
      obtain ⟨s0, h0, rfl⟩ := h
      unfold fieldType at hi ⊢
      by_cases hreq : f.required = true
      · simp only [hreq, if_true] at h0 hi ⊢
        obtain ⟨s1, h1, rfl⟩ := h0
        exact hbody hi (hr.ran _ _ h1) hann (.inr h1)
      · simp only [hreq, if_false, if_true, Bool.false_eq_true] at h0 hi ⊢
        obtain ⟨s1, h1, h2⟩ := h0
        obtain ⟨c, fs, ns, ms, hd, hp, hn, htag⟩ := id hi
        obtain ⟨m, p, r, rfl, hs, hps, -, -⟩ := plain_shape hd hp hn htag (hr.ran _ _ h1)
        simp only [Returns, hs.tsub] at h2
        split at h2
        · cases h2
          exact hbody hi (hr.ran _ _ h1) hann (.inr h1)
        · next hinl =>
          obtain ⟨s2, h3, rfl⟩ := h2
          rcases hr.target _ _ h3 with hran | ⟨r', v', rfl, hr', hran⟩
          · exact hbody hi hran hann (.inl h3)
          · obtain ⟨m', p', req', rfl, hs', hps', h4, h5⟩ := plain_shape hd hp hn htag hran
            have hdeny : c.denyUnknownFields = false := by
              cases hdn : c.denyUnknownFields with
              | false => rfl
              | true =>
                exfalso
                apply hinl
                have := hs.deny
                rw [hdn] at this
                unfold inlineNewtype
                simp only [Schema.get, this]
                simp [Json.asBool?]
            rw [hdeny] at hs'
            have hbt := ref_beside hM.refs hs' h4 h5 hr' hann deny
            exact ⟨hbt.1, fun name => inside_way hr hi (.inl h3)
              (fun i => runMutators_valid hann (sch_newRef r')) hbt⟩

/-! ## Enums -/

/-- From the variants to the enum. -/
theorem variants_way {α : Type} {es : List (Variant τ × α)} {vs : List (Variant τ)} {V : Variant τ × α → Prop}
    {R : Variant τ → Prop} (hp : (es.map Prod.fst).Perm (presentVariants vs .deserialize))
    (h : ∀ e ∈ es, e.1 ∈ vs → Way b (V e) (R e.1)) :
    Way b (∃ e ∈ es, V e) (∃ v ∈ vs, v.skipDe = false ∧ R v) := by
  have hmem : ∀ e ∈ es, e.1 ∈ vs ∧ e.1.skipDe = false := fun e he =>
    mem_readVariants.1 (hp.mem_iff.1 (List.mem_map_of_mem he))
  refine Way.congr (Way.ex (r := fun e => e ∈ es ∧ R e.1) fun e => Way.and_left fun he => h e he (hmem e he).1)
    Iff.rfl ?_
  constructor
  · rintro ⟨v, hv, hs, hR⟩
    obtain ⟨e, he, rfl⟩ := List.mem_map.1 (hp.mem_iff.2 (mem_readVariants.2 ⟨hv, hs⟩))
    exact ⟨e, he, hR⟩
  · rintro ⟨e, he, hR⟩
    exact ⟨e.1, (hmem e he).1, (hmem e he).2, hR⟩

/-- The schema of an enum and what serde reads for it. -/
theorem enum_way (hM : Modern D env) (hr : Ready D env b P decl I A j) (hq : Documented q)
    (hopt : ∀ t, I.isOption t = true ↔ ∃ u, decl t = .std (.option u)) {tag : TagType} {vs : List (Variant τ)}
    {deny : Bool} (hok : ReadEnumOk b q.lenient decl I.base tag vs deny) (h : Returns A (enumProg I tag vs deny) s)
    (hin : tag = .none → ∀ v ∈ vs, ∀ t, v.withTy = some t ∨ InContent I.base v.fields t →
      ∀ x, Under b j x → MatchesAt D env b P A t x) :
    Way b (Valid D env s j) (∃ v ∈ vs, v.skipDe = false ∧ ReadEnum q P (FieldRead (FieldObeys env) P I.base) I.base decl tag deny vs v j) := by
  have hde := hr.de
  have hrt : ∀ v ∈ vs, v.refTy = none := fun v hv => (hok.variants v hv).noRef
  have hc : ∀ v ∈ vs, Harmless v.common := fun v hv => (hok.variants v hv).common
  have hall : ∀ v ∈ vs, v.untagged = false := fun v hv => (hok.variants v hv).tagged
  have hname : ∀ v : Variant τ, v.name.get A.settings.contract = v.name.de := fun v => by rw [hde]; rfl
  have hn : tag ≠ .none → ((presentVariants vs A.settings.contract).map fun v =>
      v.name.get A.settings.contract).Nodup := by
    intro ht
    simp only [hde]
    exact hok.names ht
  have hvn := fun v => variantNames_documented hq (τ := τ) v
  cases tag with
  | external =>
    obtain ⟨es, hp, hcont, hval, -⟩ := C48_external (D := D) (env := env) hall hrt hc (hn (by simp)) h
    rw [hde] at hp
    refine Way.congr (variants_way hp fun e he hv => ?_) (hval j hr.wf) Iff.rfl
    have hvok := hok.variants _ hv
    unfold ReadEnum
    simp only [hall _ hv, Bool.false_eq_true, if_false, hvn, List.mem_singleton, exists_eq_left, hq.lax, false_and,
      or_false, hname, hollow_iff hvok.toVariantInput]
    have hcont := hcont e he
    unfold Content at hcont
    by_cases hb : (e.1.isUnit && e.1.withTy.isNone) = true
    · rw [if_pos hb] at hcont
      rw [hcont]
      refine Way.of_iff ?_
      simp only [hb, true_and, not_true, false_and, or_false, ExternalEnc]
    · rw [if_neg hb] at hcont
      obtain ⟨s1, h1, e1⟩ := hcont
      rw [e1]
      refine Way.congr (v := ∃ x, j = .obj [(e.1.name.de, x)] ∧ Valid D env s1 x)
        (r := ∃ x, j = .obj [(e.1.name.de, x)] ∧ ReadVariant q P (FieldRead (FieldObeys env) P I.base) I.base decl true deny e.1 x) ?_ Iff.rfl ?_
      · refine Way.ex fun x => Way.and_left fun hj => ?_
        subst hj
        exact variant_way hM (hr.inner (e := (_, x)) (List.mem_singleton.2 rfl)) hq hopt hvok h1
          fun t _ => hr.within (e := (_, x)) (List.mem_singleton.2 rfl) t
      · simp only [hb, false_and, not_false_iff, true_and, false_or, OneMember, Bool.false_eq_true]
  | adjacent t c =>
    obtain ⟨hne, hexact⟩ := hok.adjacent _ _ rfl
    obtain ⟨es, hp, hcont, hval, -⟩ := C48_adjacent (D := D) (env := env) hne hall hrt hc (hn (by simp)) h
    rw [hde] at hp
    refine Way.congr (variants_way (.of_eq hp) fun e he hv => ?_) (hval j hr.wf) Iff.rfl
    have hvok := hok.variants _ hv
    unfold ReadEnum
    simp only [hall _ hv, Bool.false_eq_true, if_false, hvn, List.mem_singleton, hq.lax, false_and,
      or_false, hname, hq.other]
    have hcont := hcont e he
    unfold Content at hcont
    refine Way.congr (r := ∃ o, j = .obj o ∧ Obj.get o t = some (.str e.1.name.de) ∧
      ReadBeside q P (FieldRead (FieldObeys env) P I.base) I.base decl deny e.1 (Obj.get o c) ∧ (deny = true → ∀ e ∈ o, e.1 = t ∨ e.1 = c)) ?_ Iff.rfl ?_
    · unfold AdjacentEnc
      refine Way.ex fun o => Way.and_left fun ho => Way.and_left fun hg => ?_
      subst ho
      unfold ReadBeside
      simp only [hollow_iff hvok.toVariantInput, hq.lax, Bool.false_eq_true, false_and, or_false]
      by_cases hb : (e.1.isUnit && e.1.withTy.isNone) = true
      · rw [if_pos hb] at hcont
        rw [hcont]
        simp only [hb, true_and, not_true, false_and, or_false]
        cases b with
        | true =>
          intro hv'
          have hd := hexact rfl _ hv ((hollow_iff hvok.toVariantInput).2 hb)
          refine ⟨?_, fun _ e he => .inl (hv' hd e he)⟩
          rw [Obj.get_eq_none]
          intro hk
          obtain ⟨x, hx⟩ := Obj.mem_keys.1 hk
          exact hne (hv' hd _ (Obj.get_mem hx)).symm
        | false =>
          rintro ⟨hnone, hd⟩ hdeny x hx
          rcases hd hdeny x hx with h | h
          · exact h
          · exfalso
            rw [Obj.get_eq_none] at hnone
            exact hnone (h ▸ List.mem_map_of_mem hx)
      · rw [if_neg hb] at hcont
        obtain ⟨s1, h1, e1⟩ := hcont
        rw [e1]
        simp only [hb, false_and, not_false_iff, true_and, false_or, Bool.false_eq_true]
        refine Way.and (Way.ex fun x => Way.and_left fun hx => ?_) (Way.of_iff Iff.rfl)
        exact variant_way hM (hr.inner (e := (_, x)) (Obj.get_mem hx)) hq hopt hvok h1
          fun t _ => hr.within (e := (_, x)) (Obj.get_mem hx) t
    · constructor
      · rintro ⟨n, o, ho, hg, rfl, hrest⟩; exact ⟨o, ho, hg, hrest⟩
      · rintro ⟨o, ho, hg, hrest⟩; exact ⟨_, o, ho, hg, rfl, hrest⟩
  | internal t =>
    obtain ⟨es, hp, hcont, hval, -⟩ := C48_internal (D := D) (env := env) hall hrt hc (hn (by simp))
      (fun v hv s hs => ⟨(internal_way hM hr hq hopt (hok.variants v hv) (hok.internal t rfl v hv) hs).1,
        .inl hM.refs⟩) h
    rw [hde] at hp
    refine Way.congr (variants_way (.of_eq hp) fun e he hv => ?_) (hval j) Iff.rfl
    have hvok := hok.variants _ hv
    unfold ReadEnum
    simp only [hall _ hv, Bool.false_eq_true, if_false, hvn, List.mem_singleton, hq.lax, false_and,
      or_false, hname, hq.other]
    refine Way.congr ((internal_way hM hr hq hopt hvok (hok.internal t rfl _ hv) (hcont e he)).2 _) Iff.rfl ?_
    constructor
    · rintro ⟨n, o, ho, hg, rfl, hrest⟩; exact ⟨o, ho, hg, hrest⟩
    · rintro ⟨o, ho, hg, hrest⟩; exact ⟨_, o, ho, hg, rfl, hrest⟩
  | none =>
    obtain ⟨es, hp, hcont, hval⟩ := C48_untagged (D := D) (env := env) hrt hc
      (fun v hv t ht => (variant_nullable hr.toAsked (hok.variants v hv) ht).sch) h
    rw [hde] at hp
    refine Way.congr (variants_way (.of_eq hp) fun e he hv => ?_) (hval j) Iff.rfl
    unfold ReadEnum
    simp only [hall _ hv, Bool.false_eq_true, if_false]
    exact variant_way hM hr hq hopt (hok.variants _ hv) (hcont e he) (hin rfl _ hv)

/-! ## Schemas that mention null -/

theorem internal_regular (hA : Asked D env decl I A) {exact sw : Bool} {v : Variant τ} {deny : Bool} {tag : String}
    (hv : ReadVariantOk exact sw decl I.base deny v) (hi : ReadInternalOk decl I.base tag v) (h : Returns A (internalVariantProg I v deny) s) :
    Regular s := by
  unfold internalVariantProg at h
  unfold ReadInternalOk at hi
  have hbody : ∀ {t : τ} {s0 : Json} {l : List (Json → Json)}, ReadBesideTag decl I.base tag t → FromBody decl I t s0 →
      (∀ f ∈ l, Annotates f) → Regular (runMutators l s0) := by
    intro t s0 l ⟨c, fs, ns, ms, hd, hp, hn, htag⟩ hb hl
    obtain ⟨m, p, r, rfl, hs, hps, -, -⟩ := plain_shape hd hp hn htag hb
    obtain ⟨m', e, hs'⟩ := hs.annotate hl
    rw [e]; exact regular_shape hs' hps
  cases hw : v.withTy with
  | some t =>
    rw [hw] at h hi
    obtain ⟨s1, h1, rfl⟩ := h
    exact hbody (l := []) hi (hA.ran _ _ h1) (fun f hf => by cases hf)
  | none =>
    rw [hw] at h hi
    simp only at h hi
    have hc := hv.content hw
    cases hf : v.fields with
    | unit =>
      rw [hf] at h
      obtain ⟨s1, h1, rfl⟩ := h
      rw [hA.unit _ h1]
      refine .inl ⟨_, rfl, List.pairwise_singleton _ _, ?_, ?_, rfl⟩
      · intro k hk v hv
        rw [Obj.get_cons, if_neg (by rintro rfl; exact absurd hk (by decide))] at hv; cases hv
      · intro k hk v hv
        rw [Obj.get_cons, if_neg (by rintro rfl; exact absurd hk (by decide))] at hv; cases hv
    | tuple fs => rw [hf] at hi; exact hi.elim
    | struct fs =>
      rw [hf] at h hi hc
      obtain ⟨m, p, r, rfl, hs, hps, -, -⟩ := struct_shape hA.de hA.ran hi h
      exact regular_shape hs hps
    | newtype f =>
      rw [hf] at h hi hc
      simp only at h hi
      have hann := field_annotates (show FreeField f from ⟨hc.1, hi.1⟩)
      replace hi := hi.2
      unfold fieldProg at h
      rw [res_map] at h
      obtain ⟨s0, h0, rfl⟩ := h
      unfold fieldType at hi
      by_cases hreq : f.required = true
      · simp only [hreq, if_true] at h0 hi
        obtain ⟨s1, h1, rfl⟩ := h0
        exact hbody hi (hA.ran _ _ h1) hann
      · simp only [hreq, if_false, if_true, Bool.false_eq_true] at h0 hi
        obtain ⟨s1, h1, h2⟩ := h0
        obtain ⟨c, fs, ns, ms, hd, hp, hn, htag⟩ := id hi
        obtain ⟨m, p, r, rfl, hs, hps, -, -⟩ := plain_shape hd hp hn htag (hA.ran _ _ h1)
        simp only [Returns, hs.tsub] at h2
        split at h2
        · cases h2
          exact hbody hi (hA.ran _ _ h1) hann
        · obtain ⟨s2, h3, rfl⟩ := h2
          rcases hA.ranSub _ _ h3 with hran | ⟨r', rfl⟩
          · exact hbody hi hran hann
          · obtain ⟨m', e, hk, -⟩ := ref_kinds hann r'
            exact e ▸ .inl ⟨m', rfl, hk⟩

theorem enum_nullable (hA : Asked D env decl I A) {exact sw : Bool} {tag : TagType} {vs : List (Variant τ)} {deny : Bool}
    (hok : ReadEnumOk exact sw decl I.base tag vs deny) (h : Returns A (enumProg I tag vs deny) s) : Nullable D env s := by
  have hr : ∀ v ∈ vs, v.refTy = none := fun v hv => (hok.variants v hv).noRef
  have hunits : ∀ {us : List (Variant τ)} {s}, Returns A (unitVariantsProg us) s → Nullable D env s := by
    intro us s h
    unfold unitVariantsProg at h
    simp only [Returns] at h
    rw [h]; exact nullable_units
  have huntagged : ∀ {v : Variant τ} {s}, ReadVariantOk exact sw decl I.base deny v → Returns A (untaggedVariantProg I v deny true) s →
      NullIfTyped D env s := by
    intro v s hv h
    unfold untaggedVariantProg at h
    simp only [if_true] at h
    obtain ⟨t, h1, h2⟩ := res_bind.1 h
    have h1' : Returns A (untaggedVariantProg I v deny false) t := by
      unfold untaggedVariantProg
      simp only [Bool.false_eq_true, if_false]
      exact h1
    have ht := variant_nullable hA hv h1'
    simp only [Returns] at h2
    rw [h2]
    split
    · exact ((ht.put (by decide) _).annotate hv.common.annotates).typed
    · exact (ht.annotate hv.common.annotates).typed
  unfold enumProg at h
  rw [if_neg (by rw [List.isEmpty_iff]; exact hok.nonempty)] at h
  cases tag with
  | external =>
    simp only at h
    unfold externalEnumProg at h
    simp only at h
    split at h
    · exact hunits h
    · refine nullable_variants (fun v hv => hr v (List.mem_filter.1 hv).1) ?_ (fun v hv s hs => ?_) h
      · intro p s hp hs
        split at hp
        · cases hp
        · cases hp; exact (hunits hs).typed
      · have hvok := hok.variants v (List.mem_filter.1 hv).1
        unfold externalVariantProg at hs
        split at hs
        · exact huntagged hvok hs
        · split at hs
          · simp only [Returns] at hs
            subst hs
            refine nullIfTyped_annotate hvok.common.annotates (sch_mkObj _) ?_
            exact nullIfTyped_lit (t := "string") (by decide) (by simp [Obj.keys]) (by simp [Obj.get_cons])
          · simp only [Returns] at hs
            obtain ⟨sub, -, rfl⟩ := res_map.1 hs
            refine nullIfTyped_annotate hvok.common.annotates (sch_mkObj _) ?_
            exact nullIfTyped_lit (t := "object") (by decide) (by simp [Obj.keys]) (by simp [Obj.get_cons])
  | none =>
    exact nullable_variants hr (fun p s hp => by cases hp)
      (fun v hv s hs => huntagged (hok.variants v hv) hs) h
  | internal t =>
    refine nullable_variants hr (fun p s hp => by cases hp) (fun v hv s hs => ?_) h
    have hvok := hok.variants v hv
    unfold internalTaggedProg at hs
    rw [if_neg (by simp [hvok.tagged])] at hs
    obtain ⟨s1, h2, h3⟩ := res_bind.1 hs
    simp only [Returns] at h3
    have h4 := internal_regular hA hvok (hok.internal t rfl v hv) h2
    rw [h3]
    exact nullIfTyped_annotate hvok.common.annotates (sch_internal h4 _ _ _) (nullIfTyped_internal h4 _ _ _)
  | adjacent t c =>
    refine nullable_variants hr (fun p s hp => by cases hp) (fun v hv s hs => ?_) h
    have hvok := hok.variants v hv
    have hadj : ∀ {n : String} {sub : Option Json}, NullIfTyped D env (adjacentSchema t c n deny sub) := by
      intro n sub
      unfold adjacentSchema
      exact nullIfTyped_lit (t := "object") (by decide) (by cases deny <;> simp [Obj.keys]) (by simp [Obj.get_cons])
    unfold adjacentTaggedProg at hs
    split at hs
    · exact huntagged hvok hs
    · split at hs
      · simp only [Returns] at hs
        subst hs
        exact nullIfTyped_annotate hvok.common.annotates (sch_mkObj _) hadj
      · simp only [Returns] at hs
        obtain ⟨sub, -, rfl⟩ := res_map.1 hs
        exact nullIfTyped_annotate hvok.common.annotates (sch_mkObj _) hadj

/-! ## Containers -/

/-- The schema of a derived type before the annotations comes from one of these. -/
theorem container_prog (hde : A.settings.contract = .deserialize) {c : Container τ} (h : Returns A (containerProg I c) s) :
    ∃ s1, s = runMutators c.common.mutators s1 ∧
      match c.withTy, c.transparent, c.fromTy with
      | some t, _, _ => A.direct t s1
      | none, some f, _ => Returns A (fieldProg I f false) s1
      | none, none, some t => A.direct t s1
      | none, none, none => Returns A (dataProg I c) s1 := by
  unfold containerProg at h
  simp only at h
  obtain ⟨s1, h1, rfl⟩ := res_map.1 h
  refine ⟨s1, rfl, ?_⟩
  cases hw : c.withTy with
  | some t =>
    rw [hw] at h1
    obtain ⟨s2, h2, rfl⟩ := h1
    exact h2
  | none =>
    cases ht : c.transparent with
    | some f => rw [hw, ht] at h1; exact h1
    | none =>
      rw [hw, ht] at h1
      cases hfr : c.fromTy with
      | some t =>
        cases hi : c.intoTy with
        | some u =>
          rw [hi, hfr] at h1
          simp only [Returns, hde] at h1
          obtain ⟨s2, h2, rfl⟩ := h1
          exact h2
        | none =>
          rw [hi, hfr] at h1
          simp only [Returns, hde] at h1
          obtain ⟨s2, h2, rfl⟩ := h1
          exact h2
      | none =>
        cases hi : c.intoTy with
        | some u =>
          rw [hi, hfr] at h1
          simp only [Returns, hde] at h1
          exact h1
        | none => rw [hi, hfr] at h1; exact h1

theorem struct_prog {c : Container τ} {fields : Fields τ} (hd : c.data = .struct fields) :
    dataProg I c = contentProg I c.hasDefault c.denyUnknownFields fields := by
  unfold dataProg
  rw [hd]
  cases fields <;> rfl

theorem container_inner (hA : Asked D env decl I A) {exact sw : Bool} {c : Container τ}
    (hok : ReadContainerOk exact sw decl I.base c) (h : Returns A (containerProg I c) s) :
    ∃ s1, s = runMutators c.common.mutators s1 ∧ Nullable D env s1 ∧
      match c.withTy, c.transparent, c.fromTy with
      | some t, _, _ => A.direct t s1
      | none, some f, _ => Returns A (fieldProg I f false) s1
      | none, none, some t => A.direct t s1
      | none, none, none => Returns A (dataProg I c) s1 := by
  obtain ⟨s1, e, h1⟩ := container_prog hA.de h
  refine ⟨s1, e, ?_, h1⟩
  cases hw : c.withTy with
  | some t => rw [hw] at h1; exact hA.nullDirect _ _ h1
  | none =>
    cases ht : c.transparent with
    | some f => rw [hw, ht] at h1; exact (returns_field hA (hok.transparent hw f ht) h1).1
    | none =>
      cases hfr : c.fromTy with
      | some t => rw [hw, ht, hfr] at h1; exact hA.nullDirect _ _ h1
      | none =>
        rw [hw, ht, hfr] at h1
        simp only at h1
        cases hd : c.data with
        | struct fields => rw [struct_prog hd] at h1; exact content_nullable hA (hok.struct hw ht hfr fields hd) h1
        | enum tag vs =>
          unfold dataProg at h1
          rw [hd] at h1
          exact enum_nullable hA (hok.enum hw ht hfr tag vs hd) h1

theorem container_nullable (hA : Asked D env decl I A) {exact sw : Bool} {c : Container τ}
    (hok : ReadContainerOk exact sw decl I.base c) (h : Returns A (containerProg I c) s) : Nullable D env s := by
  obtain ⟨s1, rfl, h1, -⟩ := container_inner hA hok h
  exact h1.annotate hok.common.annotates

/-- The schema of a derived type and what serde reads for it. -/
theorem container_way (hM : Modern D env) (hr : Ready D env b P decl I A j) (hq : Documented q)
    (hopt : ∀ t, I.isOption t = true ↔ ∃ u, decl t = .std (.option u)) {c : Container τ}
    (hok : ReadContainerOk b q.lenient decl I.base c) (h : Returns A (containerProg I c) s)
    (hin : ∀ t, InPlace I.base (.derived c) t → ∀ x, Under b j x → MatchesAt D env b P A t x) :
    Way b (Valid D env s j) (ReadContainer q P (FieldRead (FieldObeys env) P I.base) I.base decl c j) := by
  obtain ⟨s1, rfl, hn, h1⟩ := container_inner hr.toAsked hok h
  refine Way.congr ?_ (runMutators_valid hok.common.annotates hn.sch) Iff.rfl
  unfold ReadContainer
  cases hw : c.withTy with
  | some t => rw [hw] at h1; exact hin t (.inl hw) _ hr.under _ (.inr h1)
  | none =>
    cases ht : c.transparent with
    | some f =>
      rw [hw, ht] at h1
      exact field_way hr.toAsked (hok.transparent hw f ht) h1 (hin _ (.inr (.inl ⟨f, ht, rfl⟩)) _ hr.under)
    | none =>
      cases hfr : c.fromTy with
      | some t => rw [hw, ht, hfr] at h1; exact hin t (.inr (.inr (.inl hfr))) _ hr.under _ (.inr h1)
      | none =>
        rw [hw, ht, hfr] at h1
        simp only at h1 ⊢
        cases hd : c.data with
        | struct fields =>
          rw [struct_prog hd] at h1
          refine content_way hM hr hq hopt (hok.struct hw ht hfr fields hd) h1 fun u hu => hin u ?_
          refine .inr (.inr (.inr ?_))
          rw [hd]
          exact hu
        | enum tag vs =>
          unfold dataProg at h1
          rw [hd] at h1
          refine enum_way hM hr hq hopt (hok.enum hw ht hfr tag vs hd) h1 fun htag v hv t hvt => hin _ ?_
          refine .inr (.inr (.inr ?_))
          rw [hd]
          exact ⟨htag, v, hv, hvt⟩

/-! ## Types -/

theorem body_nullable (hA : Asked D env decl I A) {exact sw : Bool} {t : τ} (hok : ReadOk exact sw decl I.base (decl t))
    (h : Returns A (bodyOf I (decl t)) s) : Nullable D env s := by
  cases hd : decl t with
  | std x => rw [hd] at h; exact std_nullable hA.nullSub h
  | derived c => rw [hd] at h hok; exact container_nullable hA hok h

/-- The schema of a type accepts what serde reads for it. -/
theorem body_accepts_read (hM : Modern D env) (hx : DecimalInputRx env) (hq : Documented q)
    (hopt : ∀ t, I.isOption t = true ↔ ∃ u, decl t = .std (.option u)) (hr : Ready D env false P decl I A j) {t : τ}
    (hok : ReadOk false q.lenient decl I.base (decl t)) (h : Returns A (bodyOf I (decl t)) s)
    (he : ReadDecl w q P (FieldRead (FieldObeys env) P I.base) I.base decl (decl t) j) : Valid D env s j := by
  cases hd : decl t with
  | std x => rw [hd] at h he; exact std_accepts_read hM hx hq hr h he
  | derived c =>
    rw [hd] at h hok he
    exact container_way hM hr hq hopt hok h (fun t _ x hx => hr.all rfl t x hx.wf) he

/-- serde reads what the schema of the type accepts. -/
theorem body_reads (hM : Modern D env) (hw : 32 ≤ w) (hq : Documented q)
    (hopt : ∀ t, I.isOption t = true ↔ ∃ u, decl t = .std (.option u)) (hr : Ready D env true P decl I A j) {t : τ}
    (hok : ReadOk true q.lenient decl I.base (decl t))
    (hin : ∀ u, InPlace I.base (decl t) u → ∀ x, Under true j x → MatchesAt D env true P A u x)
    (h : Returns A (bodyOf I (decl t)) s) (he : Valid D env s j) : ReadDecl w q P (FieldRead (FieldObeys env) P I.base) I.base decl (decl t) j := by
  cases hd : decl t with
  | std x =>
    rw [hd] at h hok hin
    exact std_reads hM hw hr (hok rfl) (fun u hu => hin u hu _ hr.under) h he
  | derived c =>
    rw [hd] at h hok hin
    exact container_way hM hr hq hopt hok h hin he

end

end Verif
