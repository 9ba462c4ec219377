import Verif.Spec.Serde

/-!
# The relation `Serialized` is closed under `Encodes`
-/

namespace Verif
open Spec

variable {τ : Type} {S S' : τ → Json → Prop} {K K' : Field τ → Json → Prop} {base : τ → τ}
  {decl : τ → Decl τ} {w : Nat}

theorem oneMember_mono {a : String} {P Q : Json → Prop} (h : ∀ j, P j → Q j) {j : Json} :
    OneMember a P j → OneMember a Q j := fun ⟨x, e, hx⟩ => ⟨x, e, h x hx⟩

theorem twoMembers_mono {a b : String} {P Q P' Q' : Json → Prop} (h : ∀ j, P j → P' j) (h' : ∀ j, Q j → Q' j)
    {j : Json} : TwoMembers a b P Q j → TwoMembers a b P' Q' j :=
  fun ⟨o, x, y, e, hp, hx, hy⟩ => ⟨o, x, y, e, hp, h x hx, h' y hy⟩

theorem encStd_mono (h : ∀ t j, S t j → S' t j) {x : Std τ} {j : Json} (he : EncStd w S x j) : EncStd w S' x j := by
  cases x with
  | option t => exact he.imp id (h t j)
  | seq t => exact he.imp fun l => .imp id fun hl x hx => h _ _ (hl x hx)
  | set t => exact he.imp fun l => .imp id (.imp (fun hl x hx => h _ _ (hl x hx)) id)
  | array n t => exact he.imp fun l => .imp id (.imp id fun hl x hx => h _ _ (hl x hx))
  | tuple ts => exact he.imp fun l => .imp id fun hl => hl.imp fun t x => h t x
  | map k v =>
    exact he.imp fun o => .imp id fun ho e he => (ho e he).imp (fun ⟨x, hx, hs⟩ => ⟨x, hx, h _ _ hs⟩) (h _ _)
  | result t e => exact he.imp (oneMember_mono (h t)) (oneMember_mono (h e))
  | bound t => exact he.imp id (.imp (oneMember_mono (h t)) (oneMember_mono (h t)))
  | range t => exact twoMembers_mono (h t) (h t) he
  | either l r => exact he.imp (oneMember_mono (h l)) (oneMember_mono (h r))
  | bytes u => exact he.imp fun l => .imp id fun hl x hx => h _ _ (hl x hx)
  | _ => exact he

theorem members_mono (h : ∀ t j, S t j → S' t j) {t : τ} {p : List (String × Json)} (hm : Members S base decl t p) :
    Members S' base decl t p := by
  cases hm with
  | obj p hp => exact .obj p (h _ _ hp)
  | null hp => exact .null (h _ _ hp)
  | unitVariant n u hw he hp => exact .unitVariant n u hw he (h _ _ hp)

theorem encFields_mono (h : ∀ t j, S t j → S' t j) {fs : List (Field τ)}
    (hk : ∀ f ∈ fs, ∀ x, K f x → K' f x) {o : List (String × Json)} (he : EncFields S K base decl fs o) : EncFields S' K' base decl fs o := by
  induction he with
  | nil => exact .nil
  | skip h1 _ ih => exact .skip h1 (ih fun f hf => hk f (List.mem_cons_of_mem _ hf))
  | leftOut h1 h2 _ ih => exact .leftOut h1 h2 (ih fun f hf => hk f (List.mem_cons_of_mem _ hf))
  | member x h1 h2 h3 h4 _ ih =>
    exact .member x h1 h2 (h _ _ h3) (hk _ (List.mem_cons_self ..) _ h4) (ih fun f hf => hk f (List.mem_cons_of_mem _ hf))
  | flatten p h1 h2 h3 _ ih =>
    exact .flatten p h1 h2 (members_mono h h3) (ih fun f hf => hk f (List.mem_cons_of_mem _ hf))

theorem encElems_mono (h : ∀ t j, S t j → S' t j) {fs : List (Field τ)}
    (hk : ∀ f ∈ fs, ∀ x, K f x → K' f x) {l : List Json} (he : EncElems S K base fs l) : EncElems S' K' base fs l := by
  induction he with
  | nil => exact .nil
  | skip h1 _ ih => exact .skip h1 (ih fun f hf => hk f (List.mem_cons_of_mem _ hf))
  | leftOut h1 h2 _ ih => exact .leftOut h1 h2 (ih fun f hf => hk f (List.mem_cons_of_mem _ hf))
  | elem x h1 h2 h3 _ ih =>
    exact .elem x h1 (h _ _ h2) (hk _ (List.mem_cons_self ..) _ h3) (ih fun f hf => hk f (List.mem_cons_of_mem _ hf))

theorem encContent_mono (h : ∀ t j, S t j → S' t j) {fs : Fields τ}
    (hk : ∀ f ∈ allFields fs, ∀ x, K f x → K' f x) {j : Json} (he : EncContent S K base decl fs j) : EncContent S' K' base decl fs j := by
  cases fs with
  | unit => exact he
  | newtype f => exact ⟨h _ _ he.1, hk f (List.mem_singleton.2 rfl) _ he.2⟩
  | tuple fs => exact he.imp fun l => .imp id (encElems_mono h hk)
  | struct fs => exact he.imp fun o => .imp (encFields_mono h hk) id

theorem written_fields (v : Variant τ) : ∀ f ∈ allFields (written v), f ∈ allFields v.fields := by
  unfold written
  cases v.fields with
  | newtype f => dsimp only; split <;> simp [allFields]
  | _ => exact fun f hf => hf

theorem encVariant_mono (h : ∀ t j, S t j → S' t j) {v : Variant τ}
    (hk : ∀ f ∈ allFields v.fields, ∀ x, K f x → K' f x) {j : Json} (he : EncVariant S K base decl v j) : EncVariant S' K' base decl v j := by
  unfold EncVariant at he ⊢
  cases hw : v.withTy with
  | some t => rw [hw] at he; exact h _ _ he
  | none => rw [hw] at he; exact encContent_mono h (fun f hf => hk f (written_fields v f hf)) he

theorem encTagged_mono (h : ∀ t j, S t j → S' t j) {v : Variant τ}
    (hk : ∀ f ∈ allFields v.fields, ∀ x, K f x → K' f x) {o : List (String × Json)} (he : EncTagged S K base decl v o) : EncTagged S' K' base decl v o := by
  unfold EncTagged at he ⊢
  cases hw : v.withTy with
  | some t => rw [hw] at he; exact members_mono h he
  | none =>
    rw [hw] at he
    simp only at he ⊢
    cases hf : written v with
    | unit => rw [hf] at he; exact he
    | newtype f => rw [hf] at he; exact members_mono h he
    | tuple fs => rw [hf] at he; exact he
    | struct fs =>
      rw [hf] at he
      exact encFields_mono h (fun f hm => hk f (written_fields v f (by rw [hf]; exact hm))) he

theorem encEnum_mono (h : ∀ t j, S t j → S' t j) {tag : TagType} {v : Variant τ}
    (hk : ∀ f ∈ allFields v.fields, ∀ x, K f x → K' f x) {j : Json} (he : EncEnum S K base decl tag v j) : EncEnum S' K' base decl tag v j := by
  unfold EncEnum at he ⊢
  by_cases hu : v.untagged = true
  · rw [if_pos hu] at he ⊢; exact encVariant_mono h hk he
  · rw [if_neg hu] at he ⊢
    cases tag with
    | external => exact he.imp id (.imp id (oneMember_mono fun _ => encVariant_mono h hk))
    | internal t => exact he.imp fun o => .imp (encTagged_mono h hk) id
    | adjacent t c => exact he.imp id (.imp id (twoMembers_mono (fun _ => id) fun _ => encVariant_mono h hk))
    | none => exact encVariant_mono h hk he

theorem encContainer_mono (h : ∀ t j, S t j → S' t j) {c : Container τ}
    (hk : ∀ f ∈ declFields (.derived c), ∀ x, K f x → K' f x) {j : Json} (he : EncContainer S K base decl c j) : EncContainer S' K' base decl c j := by
  unfold EncContainer at he ⊢
  cases hw : c.withTy with
  | some t => rw [hw] at he; exact h _ _ he
  | none =>
    cases ht : c.transparent with
    | some f =>
      rw [hw, ht] at he
      exact ⟨h _ _ he.1, hk f (by simp [declFields, ht]) _ he.2⟩
    | none =>
      cases hi : c.intoTy with
      | some t => rw [hw, ht, hi] at he; exact h _ _ he
      | none =>
        rw [hw, ht, hi] at he
        simp only at he ⊢
        cases hd : c.data with
        | struct fields =>
          rw [hd] at he
          exact encContent_mono h (fun f hf => hk f (by simp [declFields, ht, hd, hf])) he
        | enum tag vs =>
          rw [hd] at he
          obtain ⟨v, hv, hs, he⟩ := he
          refine ⟨v, hv, hs, encEnum_mono h (fun f hf => hk f ?_) he⟩
          simp only [declFields, ht, hd, Option.toList_none, List.nil_append, List.mem_flatMap]
          exact ⟨v, hv, hf⟩

/-- More is written if more is written for the types mentioned. -/
theorem encodes_mono (h : ∀ t j, S t j → S' t j) {d : Decl τ} (hk : ∀ f ∈ declFields d, ∀ x, K f x → K' f x) {j : Json}
    (he : Encodes w S K base decl d j) : Encodes w S' K' base decl d j := by
  cases d with
  | std x => exact encStd_mono h he
  | derived c => exact encContainer_mono h hk he

theorem serializedAt_succ {n : Nat} {t : τ} {j : Json} (h : SerializedAt w K base decl n t j) :
    SerializedAt w K base decl (n + 1) t j := by
  induction n generalizing t j with
  | zero => exact h.elim
  | succ n ih => exact ⟨h.1, encodes_mono (fun t j => ih) (fun _ _ _ h => h) h.2⟩

/-- The values whose fields satisfy `K` are among those whose fields satisfy `K'`. -/
theorem serializedAt_imp (hk : ∀ t, ∀ f ∈ declFields (decl t), ∀ x, K f x → K' f x) {n : Nat} {t : τ} {j : Json}
    (h : SerializedAt w K base decl n t j) : SerializedAt w K' base decl n t j := by
  induction n generalizing t j with
  | zero => exact h
  | succ n ih => exact ⟨h.1, encodes_mono (fun t j => ih) (hk t) h.2⟩

theorem SerializedIf.imp (hk : ∀ t, ∀ f ∈ declFields (decl t), ∀ x, K f x → K' f x) {t : τ} {j : Json}
    (h : SerializedIf w K base decl t j) : SerializedIf w K' base decl t j :=
  h.imp fun _ => serializedAt_imp hk

theorem SerializedIf.serialized {t : τ} {j : Json} (h : SerializedIf w K base decl t j) :
    Serialized w base decl t j :=
  SerializedIf.imp (fun _ _ _ _ _ => trivial) h

end Verif
