import Verif.Spec.Deser
import Verif.Lemmas.Serde

/-!
# Facts about what serde reads

The rules are monotone, so the smallest relation closed under them is a fixed point of them.
-/

namespace Verif
open Spec

variable {τ : Type} {w : Nat} {q : Quirks τ} {S S' : τ → Json → Prop}
  {F F' : Field τ → Json → Prop} {base : τ → τ} {decl : τ → Decl τ}

theorem readStd_mono (h : ∀ t j, S t j → S' t j) {x : Std τ} {j : Json} (he : ReadStd w q S x j) :
    ReadStd w q S' x j := by
  have key : EncStd w S x j → EncStd w S' x j := fun he => encStd_mono h he
  cases x with
  | formatted t f => exact he
  | set t => obtain ⟨l, rfl, h1, h2⟩ := he; exact ⟨l, rfl, fun x hx => h _ _ (h1 x hx), h2⟩
  | bound t => exact he.imp key id
  | range t =>
    refine he.imp key fun ⟨h1, x, y, h2, h3, h4⟩ => ⟨h1, x, y, h2, h _ _ h3, h _ _ h4⟩
  | duration => exact he
  | systemTime => exact he
  | cString => exact he
  | bytes u8 => exact he.imp key id
  | decimal => exact he
  | _ => exact key he

theorem readFlattened_mono (h : ∀ t j, S t j → S' t j) {fs : List (Field τ)} {o o' : List (String × Json)}
    (he : ReadFlattened q S base decl fs o o') : ReadFlattened q S' base decl fs o o' := by
  induction he with
  | nil => exact .nil
  | pass h1 _ ih => exact .pass h1 ih
  | part h1 h2 h3 _ ih => exact .part h1 h2 (h3.imp (h _ _) id) ih
  | one h1 h2 h3 h4 h5 h6 _ ih => exact .one h1 h2 h3 h4 h5 (h6.imp (h _ _) id) ih
  | none h1 h2 h3 h4 h5 _ ih => exact .none h1 h2 h3 h4 h5 ih

theorem readFields_mono (h : ∀ t j, S t j → S' t j) {cd deny : Bool} {fs : List (Field τ)}
    (hF : ∀ f ∈ fs, ∀ x, F f x → F' f x) {o : List (String × Json)}
    (he : ReadFields q S F base decl cd deny fs o) : ReadFields q S' F' base decl cd deny fs o := by
  obtain ⟨h2, left, h3, h4⟩ := he
  refine ⟨fun f hf hs hfl => (h2 f hf hs hfl).imp ?_ id, left, readFlattened_mono h h3, h4⟩
  rintro ⟨n, hn, x, hx, hS, hm⟩
  exact ⟨n, hn, x, hx, hF f hf _ hS, hm⟩

theorem readElems_mono {cd : Bool} {fs : List (Field τ)} {l : List Json} (hF : ∀ f ∈ fs, ∀ x, F f x → F' f x)
    (he : ReadElems q F cd fs l) : ReadElems q F' cd fs l := by
  induction he with
  | nil => exact .nil
  | skip hs _ ih => exact .skip hs (ih fun f hf => hF f (List.mem_cons_of_mem _ hf))
  | elem x hs hx _ ih =>
    exact .elem x hs (hF _ List.mem_cons_self _ hx) (ih fun f hf => hF f (List.mem_cons_of_mem _ hf))
  | missing hl hs hd _ ih => exact .missing hl hs hd (ih fun f hf => hF f (List.mem_cons_of_mem _ hf))

theorem readContent_mono (h : ∀ t j, S t j → S' t j) {seq cd deny : Bool} {fields : Fields τ}
    (hF : ∀ f ∈ allFields fields, ∀ x, F f x → F' f x) {j : Json}
    (he : ReadContent q S F base decl seq cd deny fields j) : ReadContent q S' F' base decl seq cd deny fields j := by
  cases fields with
  | unit => exact he
  | newtype f => exact hF f List.mem_cons_self _ he
  | tuple fs => exact he.imp fun l => .imp id (readElems_mono hF)
  | struct fs =>
    refine he.imp (fun ⟨o, e, ho⟩ => ⟨o, e, readFields_mono h hF ho⟩) ?_
    rintro ⟨h1, h2, h3, l, e, hl⟩
    exact ⟨h1, h2, h3, l, e, readElems_mono hF hl⟩

theorem readAs_fields (v : Variant τ) : ∀ f ∈ allFields (readAs v), f ∈ allFields v.fields := by
  unfold readAs
  cases v.fields with
  | newtype f => dsimp only; split <;> simp [allFields]
  | _ => exact fun f hf => hf

theorem readVariant_mono (h : ∀ t j, S t j → S' t j) {seq deny : Bool} {v : Variant τ}
    (hF : ∀ f ∈ allFields v.fields, ∀ x, F f x → F' f x) {j : Json}
    (he : ReadVariant q S F base decl seq deny v j) : ReadVariant q S' F' base decl seq deny v j := by
  unfold ReadVariant at he ⊢
  cases hw : v.withTy with
  | some t => rw [hw] at he; exact h _ _ he
  | none => rw [hw] at he; exact readContent_mono h (fun f hf => hF f (readAs_fields v f hf)) he

theorem readInside_mono (h : ∀ t j, S t j → S' t j) {t : τ} {o : List (String × Json)} (he : ReadInside S decl t o) :
    ReadInside S' decl t o := he.imp (h _ _) id

theorem readTagged_mono (h : ∀ t j, S t j → S' t j) {deny : Bool} {v : Variant τ}
    (hF : ∀ f ∈ allFields v.fields, ∀ x, F f x → F' f x) {o : List (String × Json)}
    (he : ReadTagged q S F base decl deny v o) : ReadTagged q S' F' base decl deny v o := by
  have hF' := fun f hf => hF f (readAs_fields v f hf)
  unfold ReadTagged at he ⊢
  cases hw : v.withTy with
  | some t => rw [hw] at he; exact readInside_mono h he
  | none =>
    rw [hw] at he
    simp only at he ⊢
    cases hf : readAs v with
    | unit => rw [hf] at he; exact he
    | newtype f => rw [hf] at he; exact readInside_mono h he
    | tuple fs => rw [hf] at he; exact he
    | struct fs => rw [hf] at he hF'; exact readFields_mono h hF' he

theorem readBeside_mono (h : ∀ t j, S t j → S' t j) {deny : Bool} {v : Variant τ}
    (hF : ∀ f ∈ allFields v.fields, ∀ x, F f x → F' f x) {content : Option Json}
    (he : ReadBeside q S F base decl deny v content) : ReadBeside q S' F' base decl deny v content := by
  refine he.imp id (.imp ?_ id)
  rintro ⟨h1, x, hx, hv⟩
  exact ⟨h1, x, hx, readVariant_mono h hF hv⟩

theorem readEnum_mono (h : ∀ t j, S t j → S' t j) {tag : TagType} {deny : Bool} {vs : List (Variant τ)} {v : Variant τ}
    (hF : ∀ f ∈ allFields v.fields, ∀ x, F f x → F' f x) {j : Json}
    (he : ReadEnum q S F base decl tag deny vs v j) : ReadEnum q S' F' base decl tag deny vs v j := by
  unfold ReadEnum at he ⊢
  split at he
  · next hu => rw [if_pos hu]; exact readVariant_mono h hF he
  · next hu =>
    rw [if_neg hu]
    cases tag with
    | external =>
      obtain ⟨n, hn, he⟩ := he
      refine ⟨n, hn, he.imp id ?_⟩
      rintro ⟨h1, h2⟩
      exact ⟨h1, oneMember_mono (fun _ => readVariant_mono h hF) h2⟩
    | internal t =>
      obtain ⟨n, he⟩ := he
      refine ⟨n, he.imp ?_ ?_⟩
      · rintro ⟨o, rfl, h1, h2⟩
        exact ⟨o, rfl, h1, h2.imp (fun ⟨a, b⟩ => ⟨a, readTagged_mono h hF b⟩) id⟩
      · rintro ⟨h1, h2, l, fs, h3, h4, h5, h6⟩
        have hF' := fun f hf => hF f (readAs_fields v f hf)
        rw [h5] at hF'
        exact ⟨h1, h2, l, fs, h3, h4, h5, readElems_mono hF' h6⟩
    | adjacent t c =>
      obtain ⟨n, he⟩ := he
      refine ⟨n, he.imp ?_ ?_⟩
      · rintro ⟨o, rfl, h1, h2⟩
        exact ⟨o, rfl, h1, h2.imp (fun ⟨a, b, c⟩ => ⟨a, readBeside_mono h hF b, c⟩) id⟩
      · rintro ⟨h1, h2, x, h3, h4⟩
        exact ⟨h1, h2, x, h3, readVariant_mono h hF h4⟩
    | none => exact readVariant_mono h hF he

theorem readDecl_mono (h : ∀ t j, S t j → S' t j) {d : Decl τ} (hF : ∀ f ∈ declFields d, ∀ x, F f x → F' f x) {j : Json}
    (he : ReadDecl w q S F base decl d j) : ReadDecl w q S' F' base decl d j := by
  cases d with
  | std x => exact readStd_mono h he
  | derived c =>
    have he : ReadContainer q S F base decl c j := he
    show ReadContainer q S' F' base decl c j
    unfold ReadContainer at he ⊢
    cases hw : c.withTy with
    | some t => rw [hw] at he; exact h _ _ he
    | none =>
      rw [hw] at he
      cases ht : c.transparent with
      | some f => rw [ht] at he; exact hF f (by simp [declFields, ht]) _ he
      | none =>
        rw [ht] at he
        cases hf : c.fromTy with
        | some t => rw [hf] at he; exact h _ _ he
        | none =>
          rw [hf] at he
          dsimp only at he ⊢
          cases hd : c.data with
          | struct fields =>
            rw [hd] at he
            exact readContent_mono h (fun f hf => hF f (by simp [declFields, ht, hd, hf])) he
          | enum tag vs =>
            rw [hd] at he
            obtain ⟨v, hv, hs, he⟩ := he
            refine ⟨v, hv, hs, readEnum_mono h (fun f hf => hF f ?_) he⟩
            simp only [declFields, ht, hd, Option.toList_none, List.nil_append, List.mem_flatMap]
            exact ⟨v, hv, hf⟩

/-- What the rules say is read. -/
theorem read_intro {t : τ} {j : Json} (h : ReadDecl w q (Read w q base decl) (ofType (Read w q base decl) base) base decl
    (decl t) j) : Read w q base decl t j := by
  intro X hX
  exact hX t j (readDecl_mono (fun t j h => h X hX) (fun f _ x h => h X hX) h)

/-- What is read is what the rules say. -/
theorem read_iff {t : τ} {j : Json} : Read w q base decl t j ↔
    ReadDecl w q (Read w q base decl) (ofType (Read w q base decl) base) base decl (decl t) j :=
  ⟨fun h => h _ fun _ _ h => readDecl_mono (fun _ _ h => read_intro h) (fun _ _ _ h => read_intro h) h, read_intro⟩

/-- A weaker condition on the values of the fields. -/
theorem readIf_imp {K K' : Field τ → Json → Prop} (hk : ∀ t, ∀ f ∈ declFields (decl t), ∀ x, K f x → K' f x) {t : τ}
    {j : Json} (h : ReadIf w q K base decl t j) : ReadIf w q K' base decl t j :=
  fun X hX => h X fun t _ h => hX _ _ (readDecl_mono (fun _ _ h => h) (fun f hf x h => ⟨h.1, hk t f hf x h.2⟩) h)

/-- Without a condition on them. -/
theorem readIf_any {t : τ} {j : Json} : ReadIf w q anyValue base decl t j ↔ Read w q base decl t j :=
  ⟨fun h X hX => h X fun _ _ h => hX _ _ (readDecl_mono (fun _ _ h => h) (fun _ _ _ h => h.1) h),
   fun h X hX => h X fun _ _ h => hX _ _ (readDecl_mono (fun _ _ h => h) (fun _ _ _ h => ⟨h, trivial⟩) h)⟩

theorem readIf_read {K : Field τ → Json → Prop} {t : τ} {j : Json} (h : ReadIf w q K base decl t j) :
    Read w q base decl t j :=
  readIf_any.1 (readIf_imp (fun _ _ _ _ _ => trivial) h)

end Verif
