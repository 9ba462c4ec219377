import Mathlib.Data.List.Pairwise
import Verif.Spec.TwoWay
import Verif.Props.ReadsRoot

/-!
# C74: what serde writes is read back

If the attributes of a type do not make serde write it in another way than it is read (`TwoWay`), then serde reads what
it writes. With C64 the schema made under the `Deserialize` contract, which is the default, then accepts what serde
writes.
-/

namespace Verif
open Spec

variable {τ : Type} {w : Nat} {q : Quirks τ} {K : Field τ → Json → Prop} {base : τ → τ} {decl : τ → Decl τ}

theorem sorted_eq_of_mem {m n : List (String × Json)} (hm : Obj.Sorted m) (hn : Obj.Sorted n)
    (h : ∀ e, e ∈ m ↔ e ∈ n) : m = n := by
  refine Obj.ext_sorted hm hn fun k => ?_
  cases h1 : Obj.get m k with
  | some x => exact (Obj.get_of_mem_sorted hn ((h _).1 (Obj.get_mem h1))).symm
  | none =>
    cases h2 : Obj.get n k with
    | none => rfl
    | some x => rw [Obj.get_of_mem_sorted hm ((h _).2 (Obj.get_mem h2))] at h1; cases h1

theorem wf_obj {o : List (String × Json)} (h : (Json.obj o).WF) : Obj.Sorted o ∧ ∀ e ∈ o, e.2.WF := by
  cases h with
  | obj _ h1 h2 => exact ⟨h1, h2⟩

theorem written_readAs {tag : TagType} {deny : Bool} {v : Variant τ} (h : TwoWayVariant q base decl tag deny v) :
    written v = readAs v := by
  unfold written readAs
  cases hf : v.fields with
  | newtype f => simp only [(h.skipped f hf : f.skipSer = f.skipDe)]
  | _ => rfl

theorem bare_hollow {tag : TagType} {deny : Bool} {v : Variant τ}
    (h : TwoWayVariant q base decl tag deny v) : bare v ↔ hollow v := by
  unfold bare hollow
  rw [written_readAs h]

/-- The members that are written for the fields of a struct that has no flattened ones. -/
theorem plain_members {S : τ → Json → Prop} {gs : List (Field τ)} {o : List (String × Json)}
    (h : EncFields S K base decl gs o)
    (hg : ∀ g ∈ gs, g.flatten = false) : ∀ e ∈ o, ∃ g ∈ gs, g.skipSer = false ∧ e.1 = g.name.ser := by
  induction h with
  | nil => intro e he; cases he
  | @skip f fs o _ _ ih | @leftOut f fs o _ _ _ ih =>
    intro e he
    obtain ⟨g, hm, hx⟩ := ih (fun g h => hg g (List.mem_cons_of_mem _ h)) e he
    exact ⟨g, List.mem_cons_of_mem _ hm, hx⟩
  | @member f fs o x hs _ _ _ _ ih =>
    intro e he
    rcases List.mem_cons.1 he with rfl | he
    · exact ⟨f, List.mem_cons_self .., hs, rfl⟩
    · obtain ⟨g, hm, hx⟩ := ih (fun g h => hg g (List.mem_cons_of_mem _ h)) e he
      exact ⟨g, List.mem_cons_of_mem _ hm, hx⟩
  | @flatten f fs o p _ hf => rw [hg f (List.mem_cons_self ..)] at hf; cases hf

/-- What is written for a type that is flattened: an object whose members it looks for, or a unit variant. -/
theorem flat_written (hT : ∀ t, TwoWay q base decl (decl t)) {t : τ} (ht : FlatType decl t) :
    ∃ ns, wants q decl t = some ns ∧ ∀ n j, SerializedAt w K base decl n t j →
      (∃ p, j = .obj p ∧ Obj.Sorted p ∧ ∀ e ∈ p, e.1 ∈ ns) ∨
      ∃ s vs, j = .str s ∧ share q decl t = .one vs ∧ s ∈ ns ∧
        ∃ v ∈ vs, v.skipDe = false ∧ hollow v ∧ s ∈ variantNames q v := by
  obtain ⟨c, hd, ⟨c1, c2, c3, c4⟩, h⟩ := ht
  have hc := hT t
  rw [hd] at hc
  have hc := (hc c1 c2).2 c3
  have key : ∀ n j, SerializedAt w K base decl n t j → j.WF ∧ ∃ m,
      match c.data with
      | .struct fields => EncContent (SerializedAt w K base decl m) K base decl fields j
      | .enum tag vs => ∃ v ∈ vs, v.skipSer = false ∧ EncEnum (SerializedAt w K base decl m) K base decl tag v j := by
    intro n j h
    cases n with
    | zero => exact h.elim
    | succ m =>
      refine ⟨h.1, m, ?_⟩
      have := h.2
      rw [hd] at this
      simp only [Encodes, EncContainer, c1, c2, c4] at this
      exact this
  rcases h with ⟨gs, e, hg⟩ | ⟨vs, e, hv⟩ | ⟨tag, content, vs, e, hv⟩
  · have hs : share q decl t = .named ((gs.filter fun f => !f.skipDe).flatMap (namesOf q)) := by
      unfold share
      rw [hd]
      simp only [c1, c2, c3, e]
      rw [if_neg]
      simp only [List.any_eq_true, not_exists, not_and]
      intro g hm hx
      rw [(hg g hm).1] at hx
      simp at hx
    refine ⟨_, by unfold wants; rw [hs], fun n j h => ?_⟩
    obtain ⟨hw, m, h⟩ := key n j h
    rw [e] at h
    obtain ⟨o, ho, p, rfl, hp⟩ := h
    refine .inl ⟨p, rfl, (wf_obj hw).1, fun x hx => ?_⟩
    obtain ⟨g, hm, h1, h2⟩ := plain_members ho (fun g h => (hg g h).1) x (hp.mem_iff.1 hx)
    obtain ⟨h3, h4⟩ := (hg g hm).2 h1
    refine List.mem_flatMap.2 ⟨g, List.mem_filter.2 ⟨hm, by simp [h3]⟩, ?_⟩
    rw [h2, h4]
    exact List.mem_cons_self ..
  · have hs : share q decl t = .one vs := by
      unfold share
      rw [hd]
      simp only [c1, c2, c3, e]
      rw [if_neg]
      simp only [List.any_eq_true, not_exists, not_and]
      intro v hm hx
      rw [hv v hm] at hx
      cases hx
    refine ⟨_, by unfold wants; rw [hs], fun n j h => ?_⟩
    obtain ⟨hw, m, h⟩ := key n j h
    rw [e] at h hc
    obtain ⟨v, hm, h1, h2⟩ := h
    have h3 := hc v hm h1
    unfold EncEnum at h2
    simp only [hv v hm, Bool.false_eq_true, if_false] at h2
    have h4 : v.name.ser ∈ variantNames q v := by
      rw [h3.name (hv v hm)]
      exact List.mem_cons_self ..
    have h5 : v.name.ser ∈ (vs.filter fun v => !v.skipDe).flatMap (variantNames q) :=
      List.mem_flatMap.2 ⟨v, List.mem_filter.2 ⟨hm, by simp [h3.read]⟩, h4⟩
    rcases h2 with ⟨h2, rfl⟩ | ⟨-, x, rfl, -⟩
    · exact .inr ⟨_, vs, rfl, hs, h5, v, hm, h3.read, (bare_hollow h3).1 h2, h4⟩
    · refine .inl ⟨_, rfl, (wf_obj hw).1, fun y hy => ?_⟩
      rw [List.mem_singleton.1 hy]
      exact h5
  · have hs : share q decl t = .named [tag, content] := by
      unfold share
      rw [hd]
      simp only [c1, c2, c3, e]
      rw [if_neg]
      simp only [List.any_eq_true, not_exists, not_and]
      intro v hm hx
      rw [hv v hm] at hx
      cases hx
    refine ⟨_, by unfold wants; rw [hs], fun n j h => ?_⟩
    obtain ⟨hw, m, h⟩ := key n j h
    rw [e] at h
    obtain ⟨v, hm, h1, h2⟩ := h
    unfold EncEnum at h2
    simp only [hv v hm, Bool.false_eq_true, if_false] at h2
    rcases h2 with ⟨h2, rfl⟩ | ⟨-, o, x, y, rfl, hp, -⟩
    · refine .inl ⟨_, rfl, (wf_obj hw).1, fun y hy => ?_⟩
      rw [List.mem_singleton.1 hy]
      exact List.mem_cons_self ..
    · refine .inl ⟨_, rfl, (wf_obj hw).1, fun z hz => ?_⟩
      have := hp.mem_iff.1 hz
      simp only [List.mem_cons, List.not_mem_nil, or_false] at this
      rcases this with rfl | rfl <;> simp

/-- The members that are written for a flattened field. -/
theorem flat_members (hT : ∀ t, TwoWay q base decl (decl t)) {f : Field τ} (hf : f.flatten = true)
    (h : FlatTwoWay base decl f) :
    ∃ ns, wants q decl (base f.ty) = some ns ∧ claimed q base decl f = ns ∧ ∀ n p,
      Members (SerializedAt w K base decl n) base decl (fieldType base f) p →
      (∀ e ∈ p, e.1 ∈ ns) ∧
      ((Obj.Sorted p ∧ SerializedAt w K base decl n (base f.ty) (.obj p)) ∨
       (p = [] ∧ f.required = false ∧ decl f.ty = .std (.option (base f.ty))) ∨
       ∃ s vs, p = [(s, .null)] ∧ share q decl (base f.ty) = .one vs ∧
        ∃ v ∈ vs, v.skipDe = false ∧ hollow v ∧ s ∈ variantNames q v) := by
  obtain ⟨ns, hns, hw⟩ := flat_written (w := w) (K := K) hT h.type
  refine ⟨ns, hns, by simp [claimed, hf, hns], fun n p hp => ?_⟩
  have key : ∀ j, SerializedAt w K base decl n (fieldType base f) j → SerializedAt w K base decl n (base f.ty) j ∨
      (j = .null ∧ f.required = false ∧ decl f.ty = .std (.option (base f.ty))) := by
    intro j hj
    rcases h.option with e | ⟨e1, e2⟩
    · rw [e] at hj; exact .inl hj
    · cases n with
      | zero => exact hj.elim
      | succ m =>
        have := hj.2
        simp only [fieldType, e1, Bool.false_eq_true, if_false] at this
        rw [e2] at this
        rcases this with h | h
        · exact .inr ⟨h, e1, e2⟩
        · exact .inl (serializedAt_succ h)
  cases hp with
  | obj p hp =>
    rcases key _ hp with h1 | ⟨h1, -⟩
    · rcases hw n _ h1 with ⟨p', e, hs, hk⟩ | ⟨s, vs, e, -⟩
      · cases e; exact ⟨hk, .inl ⟨hs, h1⟩⟩
      · cases e
    · cases h1
  | null hp =>
    rcases key _ hp with h1 | ⟨-, h1⟩
    · rcases hw n _ h1 with ⟨p', e, -⟩ | ⟨s, vs, e, -⟩ <;> cases e
    · exact ⟨fun e he => (by cases he), .inr (.inl ⟨rfl, h1⟩)⟩
  | unitVariant s _ _ _ hp =>
    rcases key _ hp with h1 | ⟨h1, -⟩
    · rcases hw n _ h1 with ⟨p', e, -⟩ | ⟨s', vs, e, h2, h3, h4⟩
      · cases e
      · cases e
        refine ⟨fun e he => ?_, .inr (.inr ⟨s, vs, rfl, h2, h4⟩)⟩
        rw [List.mem_singleton.1 he]
        exact h3
    · cases h1

/-- The members that are written for the fields of a struct are claimed by a field. -/
theorem enc_claims (hT : ∀ t, TwoWay q base decl (decl t)) {n : Nat} {fs : List (Field τ)} {o : List (String × Json)}
    (h : EncFields (SerializedAt w K base decl n) K base decl fs o)
    (hn : ∀ f ∈ fs, f.flatten = false → f.skipSer = false → f.skipDe = false → f.name.ser = f.name.de)
    (hf : ∀ f ∈ fs, f.flatten = true → (f.skipSer = true ∧ f.skipDe = true) ∨ FlatTwoWay base decl f) :
    ∀ e ∈ o, ∃ f ∈ fs, e.1 ∈ claimed q base decl f := by
  induction h with
  | nil => intro e he; cases he
  | @skip f fs o _ _ ih | @leftOut f fs o _ _ _ ih =>
    intro e he
    obtain ⟨g, hm, hx⟩ := ih (fun g h => hn g (List.mem_cons_of_mem _ h)) (fun g h => hf g (List.mem_cons_of_mem _ h))
      e he
    exact ⟨g, List.mem_cons_of_mem _ hm, hx⟩
  | @member f fs o x hs hfl _ _ _ ih =>
    intro e he
    rcases List.mem_cons.1 he with rfl | he
    · refine ⟨f, List.mem_cons_self .., ?_⟩
      simp only [claimed, hfl, hs, Bool.false_eq_true, if_false]
      cases hd : f.skipDe with
      | true => simp
      | false => simp [hn f (List.mem_cons_self ..) hfl hs hd]
    · obtain ⟨g, hm, hx⟩ := ih (fun g h => hn g (List.mem_cons_of_mem _ h))
        (fun g h => hf g (List.mem_cons_of_mem _ h)) e he
      exact ⟨g, List.mem_cons_of_mem _ hm, hx⟩
  | @flatten f fs o p hs hfl hp _ ih =>
    intro e he
    rcases List.mem_append.1 he with he | he
    · refine ⟨f, List.mem_cons_self .., ?_⟩
      rcases hf f (List.mem_cons_self ..) hfl with ⟨h, -⟩ | h
      · rw [hs] at h; cases h
      · obtain ⟨ns, -, h2, h3⟩ := flat_members (w := w) (K := K) hT hfl h
        rw [h2]
        exact (h3 n p hp).1 e he
    · obtain ⟨g, hm, hx⟩ := ih (fun g h => hn g (List.mem_cons_of_mem _ h))
        (fun g h => hf g (List.mem_cons_of_mem _ h)) e he
      exact ⟨g, List.mem_cons_of_mem _ hm, hx⟩

/-- A field of a struct finds its member, or it may be missing. -/
theorem enc_own (hT : ∀ t, TwoWay q base decl (decl t)) {n : Nat} {cd : Bool} {fs : List (Field τ)}
    {o : List (String × Json)} (h : EncFields (SerializedAt w K base decl n) K base decl fs o)
    (hn : ∀ f ∈ fs, f.flatten = false → f.skipSer = false → f.skipDe = false → f.name.ser = f.name.de)
    (hmiss : ∀ f ∈ fs, f.flatten = false → f.skipSer = true ∨ f.skipSerIf = true → f.skipDe = true ∨
      MayMiss q base decl cd f)
    (hf : ∀ f ∈ fs, f.flatten = true → (f.skipSer = true ∧ f.skipDe = true) ∨ FlatTwoWay base decl f)
    (ha : fs.Pairwise fun f g => ∀ n ∈ claimed q base decl f, n ∉ claimed q base decl g) :
    ∀ f ∈ fs, f.skipDe = false → f.flatten = false →
      (∃ x, (f.name.de, x) ∈ o ∧ SerializedAt w K base decl n (fieldType base f) x ∧ K f x) ∨
      ((∀ e ∈ o, e.1 ≠ f.name.de) ∧ MayMiss q base decl cd f) := by
  have hown : ∀ f : Field τ, f.skipDe = false → f.flatten = false → f.name.de ∈ claimed q base decl f := by
    intro f h1 h2; simp [claimed, h1, h2]
  induction h with
  | nil => intro f hm; cases hm
  | @skip g fs o hs h ih | @leftOut g fs o hs hs' h ih =>
    intro f hm h1 h2
    have hn' := fun g h => hn g (List.mem_cons_of_mem _ h)
    have hf' := fun g h => hf g (List.mem_cons_of_mem _ h)
    obtain ⟨ha1, ha2⟩ := List.pairwise_cons.1 ha
    rcases List.mem_cons.1 hm with rfl | hm
    · refine .inr ⟨fun e he e' => ?_, ?_⟩
      · obtain ⟨g, hg, hc⟩ := enc_claims hT h hn' hf' e he
        exact ha1 g hg _ (hown f h1 h2) (e' ▸ hc)
      · rcases hmiss f (List.mem_cons_self ..) h2 (by simp [*]) with h | h
        · rw [h1] at h; cases h
        · exact h
    · exact ih hn' (fun g h => hmiss g (List.mem_cons_of_mem _ h)) hf' ha2 f hm h1 h2
  | @member g fs o x hs hfl hx hk h ih =>
    intro f hm h1 h2
    have hn' := fun g h => hn g (List.mem_cons_of_mem _ h)
    have hf' := fun g h => hf g (List.mem_cons_of_mem _ h)
    obtain ⟨ha1, ha2⟩ := List.pairwise_cons.1 ha
    rcases List.mem_cons.1 hm with rfl | hm
    · refine .inl ⟨x, ?_, hx, hk⟩
      rw [← hn f (List.mem_cons_self ..) h2 hs h1]
      exact List.mem_cons_self ..
    · rcases ih hn' (fun g h => hmiss g (List.mem_cons_of_mem _ h)) hf' ha2 f hm h1 h2 with ⟨y, hy, h⟩ | ⟨hy, h⟩
      · exact .inl ⟨y, List.mem_cons_of_mem _ hy, h⟩
      · refine .inr ⟨fun e he => ?_, h⟩
        rcases List.mem_cons.1 he with rfl | he
        · intro e'
          have e' : g.name.ser = f.name.de := e'
          refine ha1 f hm g.name.ser ?_ (e' ▸ hown f h1 h2)
          simp only [claimed, hfl, hs, Bool.false_eq_true, if_false]
          cases hd : g.skipDe with
          | true => simp
          | false => simp [hn g (List.mem_cons_self ..) hfl hs hd]
        · exact hy e he
  | @flatten g fs o p hs hfl hp h ih =>
    intro f hm h1 h2
    have hn' := fun g h => hn g (List.mem_cons_of_mem _ h)
    have hf' := fun g h => hf g (List.mem_cons_of_mem _ h)
    obtain ⟨ha1, ha2⟩ := List.pairwise_cons.1 ha
    rcases List.mem_cons.1 hm with rfl | hm
    · rw [h2] at hfl; cases hfl
    · rcases ih hn' (fun g h => hmiss g (List.mem_cons_of_mem _ h)) hf' ha2 f hm h1 h2 with ⟨y, hy, h⟩ | ⟨hy, h⟩
      · exact .inl ⟨y, List.mem_append_right _ hy, h⟩
      · refine .inr ⟨fun e he => ?_, h⟩
        rcases List.mem_append.1 he with he | he
        · rcases hf g (List.mem_cons_self ..) hfl with ⟨h, -⟩ | h
          · rw [hs] at h; cases h
          · obtain ⟨ns, -, h4, h3⟩ := flat_members (w := w) (K := K) hT hfl h
            intro e'
            exact ha1 f hm e.1 (h4 ▸ (h3 n p hp).1 e he) (e' ▸ hown f h1 h2)
        · exact hy e he

/-- The flattened fields of a struct are read from what is written for them. `P` holds for the names of members that
are left to them, and `rest` are the members that no field reads. -/
theorem enc_flattened (hT : ∀ t, TwoWay q base decl (decl t)) {X : τ → Json → Prop} {n : Nat}
    (hX : ∀ t j, SerializedAt w K base decl n t j → X t j) {P : String → Bool} {fs : List (Field τ)}
    {o : List (String × Json)} (h : EncFields (SerializedAt w K base decl n) K base decl fs o)
    (hn : ∀ f ∈ fs, f.flatten = false → f.skipSer = false → f.skipDe = false → f.name.ser = f.name.de)
    (hf : ∀ f ∈ fs, f.flatten = true → (f.skipSer = true ∧ f.skipDe = true) ∨ FlatTwoWay base decl f)
    (ha : fs.Pairwise fun f g => ∀ n ∈ claimed q base decl f, n ∉ claimed q base decl g)
    (hP : ∀ f ∈ fs, f.skipDe = false → f.flatten = false → P f.name.de = false)
    (hP' : ∀ f ∈ fs, f.skipDe = false → f.flatten = true → ∀ n ∈ claimed q base decl f, P n = true)
    {L rest : List (String × Json)} (hL : Obj.Sorted L) (hm : ∀ e, e ∈ L ↔ (e ∈ o ∧ P e.1 = true) ∨ e ∈ rest)
    (hr : ∀ f ∈ fs, f.flatten = true → ∀ e ∈ rest, e.1 ∉ claimed q base decl f) :
    ∃ left, ReadFlattened q X base decl fs L left ∧
      ((∀ f ∈ fs, f.skipSer = false → f.skipDe = false) → rest = [] → left = []) := by
  induction h generalizing L rest with
  | nil =>
    refine ⟨L, .nil, fun _ e => ?_⟩
    subst e
    exact List.eq_nil_iff_forall_not_mem.2 fun e he => by simpa using (hm e).1 he
  | @skip f fs o hs h ih =>
    obtain ⟨left, h1, h2⟩ := ih (fun g h => hn g (List.mem_cons_of_mem _ h))
      (fun g h => hf g (List.mem_cons_of_mem _ h)) (List.pairwise_cons.1 ha).2
      (fun g h => hP g (List.mem_cons_of_mem _ h)) (fun g h => hP' g (List.mem_cons_of_mem _ h)) hL hm
      (fun g h => hr g (List.mem_cons_of_mem _ h))
    refine ⟨left, .pass ?_ h1, fun h => h2 fun g hg => h g (List.mem_cons_of_mem _ hg)⟩
    cases hfl : f.flatten with
    | false => exact .inr rfl
    | true =>
      rcases hf f (List.mem_cons_self ..) hfl with h | h
      · exact .inl h.2
      · rw [h.written] at hs; cases hs
  | @leftOut f fs o hs hs' h ih =>
    have hn' := fun g h => hn g (List.mem_cons_of_mem _ h)
    have hf' := fun g h => hf g (List.mem_cons_of_mem _ h)
    obtain ⟨ha1, ha2⟩ := List.pairwise_cons.1 ha
    cases hfl : f.flatten with
    | false =>
      obtain ⟨left, h1, h2⟩ := ih hn' hf' ha2
        (fun g h => hP g (List.mem_cons_of_mem _ h)) (fun g h => hP' g (List.mem_cons_of_mem _ h)) hL hm
        (fun g h => hr g (List.mem_cons_of_mem _ h))
      exact ⟨left, .pass (.inr hfl) h1, fun h => h2 fun g hg => h g (List.mem_cons_of_mem _ hg)⟩
    | true =>
      rcases hf f (List.mem_cons_self ..) hfl with h' | hF
      · rw [hs] at h'; cases h'.1
      obtain ⟨ns, hw, hc, -⟩ := flat_members (w := w) (K := K) hT hfl hF
      have hno : ∀ e ∈ L, e.1 ∉ ns := by
        intro e he
        rcases (hm e).1 he with ⟨h1, -⟩ | h1
        · obtain ⟨g, hg, hg'⟩ := enc_claims hT h hn' hf' e h1
          exact fun hx => ha1 g hg _ (hc ▸ hx) hg'
        · exact hc ▸ hr f (List.mem_cons_self ..) hfl e h1
      have hleave : leave q decl (base f.ty) L = L := by
        unfold leave
        rw [hw]
        exact List.filter_eq_self.2 fun e he => by simpa using hno e he
      obtain ⟨left, h1, h2⟩ := ih hn' hf' ha2
        (fun g h => hP g (List.mem_cons_of_mem _ h)) (fun g h => hP' g (List.mem_cons_of_mem _ h)) hL hm
        (fun g h => hr g (List.mem_cons_of_mem _ h))
      obtain ⟨hq1, hq2⟩ := hF.leftOut hs'
      refine ⟨left, .none hF.read hfl hq1 hq2 (.inl ?_) (by rw [hleave]; exact h1),
        fun h => h2 fun g hg => h g (List.mem_cons_of_mem _ hg)⟩
      unfold seen
      rw [hw]
      exact List.filter_eq_nil_iff.2 fun e he => by simpa using hno e he
  | @member f fs o x hs hfl hx hk h ih =>
    have hn' := fun g h => hn g (List.mem_cons_of_mem _ h)
    have hf' := fun g h => hf g (List.mem_cons_of_mem _ h)
    obtain ⟨ha1, ha2⟩ := List.pairwise_cons.1 ha
    cases hp : P f.name.ser with
    | false =>
      have hm' : ∀ e, e ∈ L ↔ (e ∈ o ∧ P e.1 = true) ∨ e ∈ rest := by
        intro e
        rw [hm e, List.mem_cons]
        constructor
        · rintro (⟨rfl | h, h'⟩ | h)
          · rw [hp] at h'; cases h'
          · exact .inl ⟨h, h'⟩
          · exact .inr h
        · rintro (⟨h, h'⟩ | h)
          · exact .inl ⟨.inr h, h'⟩
          · exact .inr h
      obtain ⟨left, h1, h2⟩ := ih hn' hf' ha2
        (fun g h => hP g (List.mem_cons_of_mem _ h)) (fun g h => hP' g (List.mem_cons_of_mem _ h)) hL hm'
        (fun g h => hr g (List.mem_cons_of_mem _ h))
      exact ⟨left, .pass (.inr hfl) h1, fun h => h2 fun g hg => h g (List.mem_cons_of_mem _ hg)⟩
    | true =>
      have hd : f.skipDe = true := by
        cases hd : f.skipDe with
        | true => rfl
        | false =>
          rw [hn f (List.mem_cons_self ..) hfl hs hd, hP f (List.mem_cons_self ..) hd hfl] at hp
          cases hp
      have hm' : ∀ e, e ∈ L ↔ (e ∈ o ∧ P e.1 = true) ∨ e ∈ (f.name.ser, x) :: rest := by
        intro e
        rw [hm e, List.mem_cons, List.mem_cons]
        constructor
        · rintro (⟨rfl | h, h'⟩ | h)
          · exact .inr (.inl rfl)
          · exact .inl ⟨h, h'⟩
          · exact .inr (.inr h)
        · rintro (⟨h, h'⟩ | rfl | h)
          · exact .inl ⟨.inr h, h'⟩
          · exact .inl ⟨.inl rfl, hp⟩
          · exact .inr h
      obtain ⟨left, h1, -⟩ := ih hn' hf' ha2
        (fun g h => hP g (List.mem_cons_of_mem _ h)) (fun g h => hP' g (List.mem_cons_of_mem _ h)) hL hm' (by
          intro g hg hgf e he
          rcases List.mem_cons.1 he with rfl | he
          · exact ha1 g hg _ (by simp [claimed, hfl, hs, hd])
          · exact hr g (List.mem_cons_of_mem _ hg) hgf e he)
      refine ⟨left, .pass (.inr hfl) h1, fun h => ?_⟩
      have := h f (List.mem_cons_self ..) hs
      rw [hd] at this
      cases this
  | @flatten f fs o p hs hfl hp h ih =>
    have hn' := fun g h => hn g (List.mem_cons_of_mem _ h)
    have hf' := fun g h => hf g (List.mem_cons_of_mem _ h)
    obtain ⟨ha1, ha2⟩ := List.pairwise_cons.1 ha
    rcases hf f (List.mem_cons_self ..) hfl with h' | hF
    · rw [hs] at h'; cases h'.1
    obtain ⟨ns, hw, hc, hmem⟩ := flat_members (w := w) (K := K) hT hfl hF
    obtain ⟨hk, hcase⟩ := hmem n p hp
    have hin : ∀ e, e ∈ L ∧ e.1 ∈ ns ↔ e ∈ p := by
      intro e
      rw [hm e, List.mem_append]
      constructor
      · rintro ⟨⟨h1 | h1, -⟩ | h1, h2⟩
        · exact h1
        · obtain ⟨g, hg, hg'⟩ := enc_claims hT h hn' hf' e h1
          exact absurd hg' (ha1 g hg _ (hc ▸ h2))
        · exact absurd (hc ▸ h2) (hr f (List.mem_cons_self ..) hfl e h1)
      · intro h1
        exact ⟨.inl ⟨.inl h1, hP' f (List.mem_cons_self ..) hF.read hfl _ (hc ▸ hk e h1)⟩, hk e h1⟩
    have hout : ∀ e, e ∈ L ∧ e.1 ∉ ns ↔ (e ∈ o ∧ P e.1 = true) ∨ e ∈ rest := by
      intro e
      rw [hm e, List.mem_append]
      constructor
      · rintro ⟨⟨h1 | h1, h2⟩ | h1, h3⟩
        · exact absurd (hk e h1) h3
        · exact .inl ⟨h1, h2⟩
        · exact .inr h1
      · rintro (⟨h1, h2⟩ | h1)
        · refine ⟨.inl ⟨.inr h1, h2⟩, fun hx => ?_⟩
          obtain ⟨g, hg, hg'⟩ := enc_claims hT h hn' hf' e h1
          exact ha1 g hg _ (hc ▸ hx) hg'
        · exact ⟨.inr h1, hc ▸ hr f (List.mem_cons_self ..) hfl e h1⟩
    have hseen : ∀ e, e ∈ seen q decl (base f.ty) L ↔ e ∈ p := by
      intro e
      unfold seen
      rw [hw]
      simp only [List.mem_filter, List.contains_iff_mem]
      exact hin e
    have hsorted : Obj.Sorted (seen q decl (base f.ty) L) := by
      unfold seen
      rw [hw]
      exact List.Pairwise.filter _ hL
    have hleave : ∀ e, e ∈ leave q decl (base f.ty) L ↔ (e ∈ o ∧ P e.1 = true) ∨ e ∈ rest := by
      intro e
      unfold leave
      rw [hw]
      simp only [List.mem_filter, Bool.not_eq_true', List.contains_eq_mem, decide_eq_false_iff_not]
      exact hout e
    have hsorted' : Obj.Sorted (leave q decl (base f.ty) L) := by
      unfold leave
      rw [hw]
      exact List.Pairwise.filter _ hL
    have step := fun {L'} (h1 : Obj.Sorted L') h2 => ih (L := L') (rest := rest) hn' hf' ha2
        (fun g h => hP g (List.mem_cons_of_mem _ h)) (fun g h => hP' g (List.mem_cons_of_mem _ h)) h1 h2
        (fun g h => hr g (List.mem_cons_of_mem _ h))
    rcases hcase with ⟨hps, hS⟩ | ⟨rfl, e1, e2⟩ | ⟨s, vs, rfl, hsh, hv⟩
    · obtain ⟨left, h1, h2⟩ := step hsorted' hleave
      refine ⟨left, .part hF.read hfl (.inl ?_) h1, fun h => h2 fun g hg => h g (List.mem_cons_of_mem _ hg)⟩
      rw [sorted_eq_of_mem hsorted hps hseen]
      exact hX _ _ hS
    · obtain ⟨left, h1, h2⟩ := step hsorted' hleave
      refine ⟨left, .none hF.read hfl e1 e2 (.inl ?_) h1, fun h => h2 fun g hg => h g (List.mem_cons_of_mem _ hg)⟩
      exact List.eq_nil_iff_forall_not_mem.2 fun e he => by cases (hseen e).1 he
    · have hone : seen q decl (base f.ty) L = [(s, .null)] :=
        sorted_eq_of_mem hsorted (List.pairwise_singleton _ _) hseen
      have hrem : ∀ e, e ∈ Obj.remove L s ↔ (e ∈ o ∧ P e.1 = true) ∨ e ∈ rest := by
        intro e
        rw [Obj.mem_remove, ← hout e]
        constructor
        · rintro ⟨h1, h2⟩
          refine ⟨h1, fun h3 => h2 ?_⟩
          have := (hin e).1 ⟨h1, h3⟩
          rw [List.mem_singleton.1 this]
        · rintro ⟨h1, h2⟩
          refine ⟨h1, fun h3 => h2 ?_⟩
          rw [h3]
          exact hk _ (List.mem_cons_self ..)
      obtain ⟨left, h1, h2⟩ := step (Obj.sorted_remove hL s) hrem
      refine ⟨left, .one hF.read hfl hsh (n := s) (x := .null) ?_ (.inr hone) (.inr ⟨rfl, hv⟩) h1,
        fun h => h2 fun g hg => h g (List.mem_cons_of_mem _ hg)⟩
      rw [hone]
      exact List.mem_cons_self ..

section
variable {X : τ → Json → Prop} {n : Nat}

/-- The members of a struct are read from what is written for its fields. -/
theorem fields_back (hq : Documented q) (hT : ∀ t, TwoWay q base decl (decl t))
    (hX : ∀ t j, SerializedAt w K base decl n t j → X t j) {cd deny : Bool} {fs : List (Field τ)}
    (ht : TwoWayFields q base decl cd deny fs) {o o' : List (String × Json)}
    (h : EncFields (SerializedAt w K base decl n) K base decl fs o) (hs : Obj.Sorted o') (hp : o'.Perm o) :
    ReadFields q X (FieldRead K X base) base decl cd deny fs o' := by
  have hnames : ∀ f : Field τ, namesOf q f = [f.name.de] := fun f => by simp [namesOf, hq.aliases f]
  refine ⟨fun f hf h1 h2 => ?_, ?_⟩
  · unfold ReadMember
    rw [hnames f]
    rcases enc_own hT h ht.names ht.missing ht.flat ht.apart f hf h1 h2 with ⟨x, hx, hS, hk⟩ | ⟨hx, hm⟩
    · refine .inl ⟨_, List.mem_cons_self .., x, Obj.get_of_mem_sorted hs (hp.mem_iff.2 hx), ⟨hX _ _ hS, hk⟩,
        fun m hm hne => absurd (List.mem_singleton.1 hm) hne⟩
    · refine .inr ⟨fun m hm => ?_, hm⟩
      rw [List.mem_singleton.1 hm, Obj.get_eq_none]
      intro hmem
      obtain ⟨e, he, he'⟩ := List.mem_map.1 hmem
      exact hx e (hp.mem_iff.1 he) he'
  · have hsym : ∀ f ∈ fs, ∀ g ∈ fs, f ≠ g → ∀ n ∈ claimed q base decl f, n ∉ claimed q base decl g := by
      have : Std.Symm fun f g : Field τ => ∀ n ∈ claimed q base decl f, n ∉ claimed q base decl g :=
        ⟨fun f g h n h1 h2 => h n h2 h1⟩
      exact fun f hf g hg hne => ht.apart.forall hf hg hne
    obtain ⟨left, h1, h2⟩ := enc_flattened (P := fun n => !fs.any fun f => !f.skipDe && !f.flatten &&
      (namesOf q f).contains n) hT hX h ht.names ht.flat ht.apart
      (by
        intro f hf h1 h2
        simp only [Bool.not_eq_false', List.any_eq_true]
        exact ⟨f, hf, by simp [h1, h2, hnames f]⟩)
      (by
        intro f hf h1 h2 m hm
        simp only [Bool.not_eq_true', List.any_eq_false]
        intro g hg
        cases hgd : g.skipDe with
        | true => simp
        | false =>
          cases hgf : g.flatten with
          | true => simp
          | false =>
            simp only [hnames g, List.contains_iff_mem, List.mem_singleton, Bool.not_false, Bool.true_and]
            intro e
            refine hsym f hf g hg (fun e => ?_) m hm (by simp [claimed, hgd, hgf, e])
            rw [e, hgf] at h2
            cases h2)
      (L := unclaimed q fs o') (rest := []) (List.Pairwise.filter _ hs)
      (by
        intro e
        simp only [unclaimed, List.mem_filter, hp.mem_iff, List.not_mem_nil, or_false])
      (by intro f _ _ e he; cases he)
    exact ⟨left, h1, fun hd => h2 (ht.unread hd) rfl⟩

/-- The elements of a tuple struct. -/
theorem elems_back (hX : ∀ t j, SerializedAt w K base decl n t j → X t j) {cd : Bool} {fs : List (Field τ)} {l : List Json}
    (h : EncElems (SerializedAt w K base decl n) K base fs l)
    (ht : ∀ f ∈ fs, f.skipSer = f.skipDe ∧ (f.skipSer = false → f.skipSerIf = false)) :
    ReadElems q (FieldRead K X base) cd fs l := by
  induction h with
  | nil => exact .nil
  | @skip f fs l hs _ ih =>
    exact .skip ((ht f (List.mem_cons_self ..)).1 ▸ hs) (ih fun g h => ht g (List.mem_cons_of_mem _ h))
  | @leftOut f fs l hs hs' =>
    have := (ht f (List.mem_cons_self ..)).2 hs
    rw [hs'] at this
    cases this
  | @elem f fs l x hs hx hk _ ih =>
    exact .elem x ((ht f (List.mem_cons_self ..)).1 ▸ hs) ⟨hX _ _ hx, hk⟩ (ih fun g h => ht g (List.mem_cons_of_mem _ h))

/-- The contents of a struct or a variant. -/
theorem content_back (hq : Documented q) (hT : ∀ t, TwoWay q base decl (decl t))
    (hX : ∀ t j, SerializedAt w K base decl n t j → X t j) {seq cd deny : Bool} {fields : Fields τ}
    (ht : TwoWayContent q base decl cd deny fields) {j : Json} (hj : j.WF)
    (h : EncContent (SerializedAt w K base decl n) K base decl fields j) :
    ReadContent q X (FieldRead K X base) base decl seq cd deny fields j := by
  cases fields with
  | unit => exact h
  | newtype f => exact ⟨hX _ _ h.1, h.2⟩
  | tuple fs =>
    obtain ⟨l, e, h⟩ := h
    exact ⟨l, e, elems_back hX h ht⟩
  | struct fs =>
    obtain ⟨o, h, o', rfl, hp⟩ := h
    exact .inl ⟨o', rfl, fields_back hq hT hX ht h (wf_obj hj).1 hp⟩

/-- The contents of a variant. -/
theorem variant_back (hq : Documented q) (hT : ∀ t, TwoWay q base decl (decl t))
    (hX : ∀ t j, SerializedAt w K base decl n t j → X t j) {tag : TagType} {seq deny : Bool} {v : Variant τ}
    (ht : TwoWayVariant q base decl tag deny v) {j : Json} (hj : j.WF)
    (h : EncVariant (SerializedAt w K base decl n) K base decl v j) :
    ReadVariant q X (FieldRead K X base) base decl seq deny v j := by
  unfold EncVariant at h
  unfold ReadVariant
  cases hw : v.withTy with
  | some t =>
    rw [hw] at h
    exact hX _ _ h
  | none =>
    rw [hw] at h
    have h : EncContent (SerializedAt w K base decl n) K base decl (written v) j := h
    rw [written_readAs ht] at h
    refine content_back hq hT hX ?_ hj h
    have := ht.content hw
    unfold readAs
    cases hf : v.fields with
    | newtype f =>
      simp only
      split <;> trivial
    | unit => trivial
    | tuple fs => rw [hf] at this; exact this
    | struct fs => rw [hf] at this; exact this

/-- The members next to a tag. -/
theorem inside_back (hT : ∀ t, TwoWay q base decl (decl t)) (hX : ∀ t j, SerializedAt w K base decl n t j → X t j)
    {t : τ} (ht : NextToTag decl t) {o o' : List (String × Json)}
    (h : Members (SerializedAt w K base decl n) base decl t o) (hs : Obj.Sorted o') (hp : o'.Perm o) :
    ReadInside X decl t o' := by
  rcases ht with ⟨c, gs, hd, ⟨c1, c2, c3, c4⟩, e⟩ | ht
  · have key : ∀ j, SerializedAt w K base decl n t j → ∃ p, j = .obj p ∧ Obj.Sorted p := by
      intro j h
      cases n with
      | zero => exact h.elim
      | succ m =>
        have h2 := h.2
        rw [hd] at h2
        simp only [Encodes, EncContainer, c1, c2, c4, e] at h2
        obtain ⟨o, -, p, rfl, -⟩ := h2
        exact ⟨p, rfl, (wf_obj h.1).1⟩
    cases h with
    | obj _ h =>
      obtain ⟨p, e, hs'⟩ := key _ h
      cases e
      rw [sorted_eq_of_mem hs hs' fun e => hp.mem_iff]
      exact .inl (hX _ _ h)
    | null h => obtain ⟨p, e, -⟩ := key _ h; cases e
    | unitVariant _ _ _ _ h => obtain ⟨p, e, -⟩ := key _ h; cases e
  · have key : ∀ j, SerializedAt w K base decl n t j → j = .null := by
      intro j h
      cases n with
      | zero => exact h.elim
      | succ m =>
        have h2 := h.2
        rcases ht with hd | ⟨c, hd, c1, c2, c3, e⟩
        · rw [hd] at h2
          rcases h2 with ⟨-, h⟩ | ⟨h, -⟩ | ⟨h, -⟩ | ⟨h, -⟩ | ⟨h, -⟩ | ⟨h, -⟩ | ⟨h, -⟩
          · exact h
          all_goals exact absurd h (by decide)
        · have hc := hT t
          rw [hd] at h2 hc
          have c4 : c.intoTy = none := by rw [← (hc c1 c2).1, c3]
          simp only [Encodes, EncContainer, c1, c2, c4, e] at h2
          exact h2
    cases h with
    | obj _ h => cases key _ h
    | null h => exact .inr ⟨ht, List.perm_nil.1 hp⟩
    | unitVariant _ _ _ _ h => cases key _ h

/-- The variants of an enum. -/
theorem enum_back (hq : Documented q) (hT : ∀ t, TwoWay q base decl (decl t))
    (hX : ∀ t j, SerializedAt w K base decl n t j → X t j) {tag : TagType} {deny : Bool} {vs : List (Variant τ)}
    {v : Variant τ} (ht : TwoWayVariant q base decl tag deny v) {j : Json} (hj : j.WF)
    (h : EncEnum (SerializedAt w K base decl n) K base decl tag v j) :
    ReadEnum q X (FieldRead K X base) base decl tag deny vs v j := by
  unfold EncEnum at h
  unfold ReadEnum
  by_cases hu : v.untagged = true
  · rw [if_pos hu] at h ⊢
    exact variant_back hq hT hX ht hj h
  rw [if_neg hu] at h ⊢
  have hu' : v.untagged = false := by simpa using hu
  have hname := ht.name hu'
  have hmem : v.name.ser ∈ variantNames q v := by
    rw [hname]
    exact List.mem_cons_self ..
  cases tag with
  | none => exact variant_back hq hT hX ht hj h
  | external =>
    refine ⟨_, hmem, ?_⟩
    rcases h with ⟨h, e⟩ | ⟨h, x, rfl, hx⟩
    · exact .inl ⟨(bare_hollow ht).1 h, .inl e⟩
    · exact .inr ⟨fun h' => h ((bare_hollow ht).2 h'), x, rfl,
        variant_back hq hT hX ht ((wf_obj hj).2 _ (List.mem_cons_self ..)) hx⟩
  | internal tag =>
    obtain ⟨o, h, o', rfl, hp⟩ := h
    have hs := (wf_obj hj).1
    obtain ⟨f1, f2, f3⟩ := perm_cons_facts hs hp
    refine ⟨_, .inl ⟨o', rfl, f1, .inl ⟨hmem, ?_⟩⟩⟩
    have hs' := Obj.sorted_remove hs tag
    have hp' : (Obj.remove o' tag).Perm o := by
      unfold Obj.remove
      have hp := hp.filter (fun e => e.1 ≠ tag)
      rw [List.filter_cons_of_neg (by simp),
        List.filter_eq_self.2 (fun e (he : e ∈ o) => by simpa using (f2 e he).2)] at hp
      exact hp
    have hi := ht.internal tag rfl hu'
    unfold TwoWayTagged at hi
    unfold EncTagged at h
    unfold ReadTagged
    rw [← written_readAs ht]
    cases hw : v.withTy with
    | some t =>
      rw [hw] at h hi
      exact inside_back hT hX hi h hs' hp'
    | none =>
      rw [hw] at h hi
      have hc := ht.content hw
      cases hwr : written v with
      | unit =>
        rw [hwr] at h
        simp only at h
        subst h
        exact .inr fun _ => List.perm_nil.1 hp'
      | newtype f =>
        rw [hwr] at h
        have hf : v.fields = .newtype f ∧ f.skipSer = false := by
          unfold written at hwr
          cases hf : v.fields with
          | newtype g =>
            rw [hf] at hwr
            cases hg : g.skipSer with
            | true => simp [hg] at hwr
            | false =>
              simp only [hg, Bool.false_eq_true, if_false, Fields.newtype.injEq] at hwr
              subst hwr
              exact ⟨rfl, hg⟩
          | _ => rw [hf] at hwr; cases hwr
        exact inside_back hT hX (hi f hf.1 hf.2) h hs' hp'
      | tuple fs => rw [hwr] at h; exact h.elim
      | struct fs =>
        rw [hwr] at h
        have hf : v.fields = .struct fs := by
          unfold written at hwr
          cases hf : v.fields with
          | newtype g =>
            rw [hf] at hwr
            simp only at hwr
            split at hwr <;> cases hwr
          | struct gs => rw [hf] at hwr; exact hwr
          | _ => rw [hf] at hwr; cases hwr
        rw [hf] at hc
        exact fields_back hq hT hX hc h hs' hp'
  | adjacent tag content =>
    have hne := ht.adjacent tag content rfl
    rcases h with ⟨h, rfl⟩ | ⟨h, o, x, y, rfl, hp, rfl, hy⟩
    · refine ⟨_, .inl ⟨_, rfl, by simp [Obj.get], .inl ⟨hmem, .inl ⟨(bare_hollow ht).1 h, .inl ?_⟩, ?_⟩⟩⟩
      · simp [Obj.get, hne]
      · intro _ e he
        rw [List.mem_singleton.1 he]
        exact .inl rfl
    · have hs := (wf_obj hj).1
      have hy' : (content, y) ∈ o := hp.mem_iff.2 (by simp)
      refine ⟨_, .inl ⟨_, rfl, Obj.get_of_mem_sorted hs (hp.mem_iff.2 (List.mem_cons_self ..)), .inl ⟨hmem, .inr (.inl
        ⟨fun h' => h ((bare_hollow ht).2 h'), y, Obj.get_of_mem_sorted hs hy',
          variant_back hq hT hX ht ((wf_obj hj).2 _ hy') hy⟩), ?_⟩⟩⟩
      intro _ e he
      have := hp.mem_iff.1 he
      simp only [List.mem_cons, List.not_mem_nil, or_false] at this
      rcases this with rfl | rfl <;> simp

/-- A declaration is read from what is written for it. -/
theorem decl_back (hq : Documented q) (hT : ∀ t, TwoWay q base decl (decl t))
    (hX : ∀ t j, SerializedAt w K base decl n t j → X t j) {d : Decl τ} (ht : TwoWay q base decl d) {j : Json}
    (hj : j.WF) (h : Encodes w (SerializedAt w K base decl n) K base decl d j) :
    ReadDecl w q X (FieldRead K X base) base decl d j := by
  cases d with
  | std s =>
    have h : EncStd w X s j := encStd_mono hX h
    cases s with
    | formatted t f => exact ⟨h, fun s _ => ht s⟩
    | set t =>
      obtain ⟨l, e, h1, h2⟩ := h
      exact ⟨l, e, h1, .inr h2⟩
    | bound t => exact .inl h
    | range t => exact .inl h
    | duration => exact .inl h
    | systemTime => exact .inl h
    | cString => exact .inl h
    | bytes u => exact .inl h
    | decimal =>
      obtain ⟨s, e, h⟩ := h
      exact .inr ⟨s, e, .inl h⟩
    | _ => exact h
  | derived c =>
    unfold TwoWay at ht
    simp only [Encodes, EncContainer] at h
    simp only [ReadDecl, ReadContainer]
    cases hw : c.withTy with
    | some t => rw [hw] at h; exact hX _ _ h
    | none =>
      cases htr : c.transparent with
      | some f => rw [hw, htr] at h; exact ⟨hX _ _ h.1, h.2⟩
      | none =>
        obtain ⟨he, ht⟩ := ht hw htr
        rw [hw, htr, ← he] at h
        cases hf : c.fromTy with
        | some t => rw [hf] at h; exact hX _ _ h
        | none =>
          rw [hf] at h
          have ht := ht hf
          simp only at h ⊢
          cases hd : c.data with
          | struct fields =>
            rw [hd] at h ht
            exact content_back hq hT hX ht hj h
          | enum tag vs =>
            rw [hd] at h ht
            obtain ⟨v, hv, hs, h⟩ := h
            have ht := ht v hv hs
            exact ⟨v, hv, ht.read, enum_back hq hT hX ht hj h⟩

end

/-- C74 (`_partial`: for declarations that satisfy `TwoWay`; see `C74_Full`): serde reads what it writes, also if the
values of fields are restricted by their validation attributes or anything else. -/
theorem C74_read_partial (hq : Documented q) (hT : AllTwoWay q base decl) {t : τ} {j : Json}
    (h : SerializedIf w K base decl t j) : ReadIf w q K base decl t j := by
  intro X hX
  obtain ⟨n, h⟩ := h
  induction n generalizing t j with
  | zero => exact h.elim
  | succ n ih => exact hX _ _ (decl_back hq hT (fun t j h => ih h) (hT t) h.1 h.2)

theorem serialized_wf {t : τ} {j : Json} (h : SerializedIf w K base decl t j) : j.WF := by
  obtain ⟨n, h⟩ := h
  cases n with
  | zero => exact h.elim
  | succ n => exact h.1

/-- C74 (`_partial`: for the settings without transforms, declarations that satisfy `ReadOk` and `TwoWay`, and
`PlainName`s of definitions; see `C74_Full`): the root schema made under the `Deserialize` contract accepts also every
document that serde may write for a value of the type whose fields obey their validation attributes. -/
theorem C74_root_partial {D : Dialect} {env : Env} {Γ : τ → TypeDef τ} {I : TypeInfo τ} (hM : Modern D env)
    (hx : DecimalInputRx env) (hq : Documented q) (hG : Declared Γ decl I) (ho : OptionsKnown decl I)
    (hok : ∀ t, ReadOk false q.lenient decl I.base (decl t)) (hT : AllTwoWay q I.base decl) {n : Nat} {t : τ}
    {st : Settings} {r : Json} {g' : Gen τ} (h : rootSchemaFor Γ (run Γ n) t (Gen.new st) = some (r, g'))
    (hst : st.transforms = []) (hde : st.contract = .deserialize) {k : String} (hk : k = "$defs" ∨ k = "definitions")
    (hpath : PathDenotes st.definitionsPath [k]) (hfree : g'.defs ≠ [] → ∃ ds, At r [k] (.obj ds))
    (hplain : ∀ name d, Obj.get g'.defs name = some d → PlainName name) (hR : Resolves D env r) {j : Json}
    (hj : SerializedIf w (FieldObeys env) I.base decl t j) : Valid D env r j :=
  C64_root_partial hM hx hq hG ho hok h hst hde hk hpath hfree hplain hR (serialized_wf hj) (C74_read_partial hq hT hj)

end Verif
