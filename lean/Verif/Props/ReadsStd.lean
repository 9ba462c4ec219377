import Verif.Props.AcceptsEnum
import Verif.Spec.Deser

/-!
# The schemas of standard types and what serde reads

Two claims are proved together, for the `Deserialize` contract: that the schema of a type accepts what serde reads,
and that serde reads what the schema accepts. The proofs by cases are the same for most constructs, so the direction
is a parameter.
-/

namespace Verif
open Spec

variable {τ : Type}

/-- One of the directions between "the schema accepts" and "serde reads": with `back` from the first to the second. -/
def Way (back : Bool) (v r : Prop) : Prop := if back then v → r else r → v

theorem way_true {v r : Prop} : Way true v r ↔ (v → r) := Iff.rfl
theorem way_false {v r : Prop} : Way false v r ↔ (r → v) := Iff.rfl

theorem Way.of_iff {b : Bool} {v r : Prop} (h : v ↔ r) : Way b v r := by
  cases b
  · exact h.2
  · exact h.1

theorem Way.congr {b : Bool} {v v' r r' : Prop} (h : Way b v r) (hv : v' ↔ v) (hr : r' ↔ r) : Way b v' r' := by
  cases b
  · exact fun x => hv.2 (h (hr.1 x))
  · exact fun x => hr.2 (h (hv.1 x))

theorem Way.trans {b : Bool} {v r u : Prop} (h : Way b v r) (h' : Way b r u) : Way b v u := by
  cases b
  · exact fun x => h (h' x)
  · exact fun x => h' (h x)

theorem Way.and {b : Bool} {v v' r r' : Prop} (h : Way b v r) (h' : Way b v' r') : Way b (v ∧ v') (r ∧ r') := by
  cases b
  · exact fun x => ⟨h x.1, h' x.2⟩
  · exact fun x => ⟨h x.1, h' x.2⟩

theorem Way.and_left {b : Bool} {c v r : Prop} (h : c → Way b v r) : Way b (c ∧ v) (c ∧ r) := by
  cases b
  · exact fun x => ⟨x.1, h x.1 x.2⟩
  · exact fun x => ⟨x.1, h x.1 x.2⟩

theorem Way.or {b : Bool} {v v' r r' : Prop} (h : Way b v r) (h' : Way b v' r') : Way b (v ∨ v') (r ∨ r') := by
  cases b
  · exact fun x => x.imp h h'
  · exact fun x => x.imp h h'

theorem Way.ex {b : Bool} {α : Sort _} {v r : α → Prop} (h : ∀ a, Way b (v a) (r a)) : Way b (∃ a, v a) (∃ a, r a) := by
  cases b
  · exact fun ⟨a, x⟩ => ⟨a, h a x⟩
  · exact fun ⟨a, x⟩ => ⟨a, h a x⟩

theorem Way.all {b : Bool} {α : Sort _} {v r : α → Prop} (h : ∀ a, Way b (v a) (r a)) : Way b (∀ a, v a) (∀ a, r a) := by
  cases b
  · exact fun x a => h a (x a)
  · exact fun x a => h a (x a)

theorem Way.forall₂ {b : Bool} {α β : Type} {v : β → Json → Prop} {r : α → Json → Prop} {as : List α} {bs : List β}
    {l : List Json} {T : α → β → Prop} (h1 : List.Forall₂ T as bs)
    (h : ∀ a c, T a c → ∀ x ∈ l, Way b (v c x) (r a x)) : Way b (List.Forall₂ v bs l) (List.Forall₂ r as l) := by
  cases b
  · intro h2
    induction h2 generalizing bs with
    | nil => cases h1; exact .nil
    | cons hx _ ih =>
      cases h1 with
      | cons ht h1 =>
        exact .cons (h _ _ ht _ List.mem_cons_self hx)
          (ih h1 fun a c hac x hx => h a c hac x (List.mem_cons_of_mem _ hx))
  · intro h2
    induction h2 generalizing as with
    | nil => cases h1; exact .nil
    | cons hx _ ih =>
      cases h1 with
      | cons ht h1 =>
        exact .cons (h _ _ ht _ List.mem_cons_self hx)
          (ih h1 fun a c hac x hx => h a c hac x (List.mem_cons_of_mem _ hx))

/-- The numbers of the document are small integers written as such, or not integers at all. serde reads `1.0` for no
integer type although it is an integer for JSON Schema, and the schemas of the wide integer types have no bounds. -/
inductive Spec.SmallNumbers : Json → Prop where
  | null : SmallNumbers .null
  | bool (b) : SmallNumbers (.bool b)
  | str (s) : SmallNumbers (.str s)
  | int (n) : -2 ^ 31 ≤ n → n < 2 ^ 31 → SmallNumbers (.num (.int n))
  | flt (q) : q.den ≠ 1 → SmallNumbers (.num (.flt q))
  | arr (l) : (∀ x ∈ l, SmallNumbers x) → SmallNumbers (.arr l)
  | obj (o) : (∀ e ∈ o, SmallNumbers e.2) → SmallNumbers (.obj o)

/-- What the regular expression for decimal numbers means under the `Deserialize` contract. -/
def Spec.DecimalInputRx (env : Env) : Prop :=
  ∀ s, DecimalText s ∨ ScientificText s → env.rx "^-?\\d+(\\.\\d+)?([eE]\\d+)?$" s = true

/-- The standard types for which serde reads everything that their schemas accept. Left out are: text in a format,
which the schema does not check; maps with keys other than texts, since `"007"` is no number for serde; and the types
whose schemas allow further members, which serde denies (or, for a decimal number, texts beyond its precision). -/
def Spec.ExactStd (decl : τ → Decl τ) : Std τ → Prop
  | .formatted t _ => t ≠ "string"
  | .map k _ => decl k = .std (.simple "string")
  | .result _ _ => False
  | .bound _ => False
  | .range _ => False
  | .duration => False
  | .systemTime => False
  | .osString => False
  | .cString => False
  | .decimal => False
  | _ => True

/-- The types that the contents of a struct or variant are read as, without going into a part of the document: the type
of the only field of a tuple struct, and the types of flattened fields, which get some of the members. -/
def Spec.InContent (base : τ → τ) (fields : Fields τ) (u : τ) : Prop :=
  (∃ f, fields = .newtype f ∧ fieldType base f = u) ∨
  ∃ fs, fields = .struct fs ∧ ∃ f ∈ fs, f.skipDe = false ∧ f.flatten = true ∧ base f.ty = u

/-- The types that a value of the declaration is read as, without going into a part of the document. -/
def Spec.InPlace (base : τ → τ) : Decl τ → τ → Prop
  | .std (.option t), u => u = t
  | .std _, _ => False
  | .derived c, u => c.withTy = some u ∨ (∃ f, c.transparent = some f ∧ fieldType base f = u) ∨ c.fromTy = some u ∨
    match c.data with
    | .struct fields => InContent base fields u
    | .enum tag vs => tag = .none ∧ ∃ v ∈ vs, v.withTy = some u ∨ InContent base v.fields u

section
variable {D : Dialect} {env : Env} {P : τ → Json → Prop} {decl : τ → Decl τ} {I : TypeInfo τ}
  {A : Answers τ} {w : Nat} {q : Quirks τ} {j s : Json} {b : Bool}

/-- The answers for the type agree, in this direction, with what is read for it, at this document. -/
def MatchesAt (D : Dialect) (env : Env) (b : Bool) (P : τ → Json → Prop) (A : Answers τ) (t : τ) (x : Json) : Prop :=
  ∀ s, A.sub t s ∨ A.direct t s → Way b (Valid D env s x) (P t x)

/-- The document is no larger than the other one. -/
structure Under (b : Bool) (j x : Json) : Prop where
  wf : x.WF
  numbers : b = true → SmallNumbers x
  size : sizeOf x ≤ sizeOf j

/-- The schema comes from a run of the body of `t` under the `Deserialize` contract, with answers that come from such
runs themselves or are references. -/
inductive FromBody (decl : τ → Decl τ) (I : TypeInfo τ) : τ → Json → Prop where
  | intro {t s} (A : Answers τ) : A.settings.contract = .deserialize →
      (∀ u v, A.direct u v → FromBody decl I u v) →
      (∀ s, A.sub I.unit s → s = nullSchema) →
      (∀ u v, A.sub u v → (∀ r, v ≠ Schema.newRef r) → FromBody decl I u v) →
      Returns A (bodyOf I (decl t)) s → FromBody decl I t s

/-- Where the answers of a run come from. -/
structure Comes (decl : τ → Decl τ) (I : TypeInfo τ) (A : Answers τ) : Prop where
  de : A.settings.contract = .deserialize
  ran : ∀ t s, A.direct t s → FromBody decl I t s
  unit : ∀ s, A.sub I.unit s → s = nullSchema
  ranSub : ∀ t s, A.sub t s → FromBody decl I t s ∨ ∃ r, s = Schema.newRef r

theorem FromBody.run {t : τ} (h : FromBody decl I t s) : ∃ A, Comes decl I A ∧ Returns A (bodyOf I (decl t)) s := by
  obtain ⟨A, h1, h2, h3, h4, h⟩ := h
  refine ⟨A, ⟨h1, h2, h3, fun u v hu => ?_⟩, h⟩
  by_cases hr : ∃ r, v = Schema.newRef r
  · exact .inr hr
  · exact .inl (h4 u v hu fun r hv => hr ⟨r, hv⟩)

theorem Comes.from (h : Comes decl I A) {t : τ} (hb : Returns A (bodyOf I (decl t)) s) : FromBody decl I t s :=
  .intro A h.de h.ran h.unit (fun u v hu hr => (h.ranSub u v hu).resolve_right fun ⟨r, hv⟩ => hr r hv) hb

/-- The references among the answers lead to schemas that come from such runs. -/
def Targets (D : Dialect) (env : Env) (decl : τ → Decl τ) (I : TypeInfo τ) (A : Answers τ) : Prop :=
  ∀ t s, A.sub t s → FromBody decl I t s ∨
    ∃ r v, s = Schema.newRef r ∧ (∀ i, (env.ref r i).ok = true ↔ Valid D env v i) ∧ FromBody decl I t v

/-- What is assumed of the answers that a body gets. -/
structure Asked (D : Dialect) (env : Env) (decl : τ → Decl τ) (I : TypeInfo τ) (A : Answers τ) : Prop extends
    Comes decl I A where
  refs : D.refSiblings = true
  nullSub : ∀ t s, A.sub t s → Nullable D env s
  nullDirect : ∀ t s, A.direct t s → Nullable D env s
  defs : ∀ d, A.defs d → ∀ n m, Obj.get d n = some (.obj m) →
    env.ref (rawRef A.settings.definitionsPath.toList n) = den D env (.obj m)

/-- What is assumed of the answers that a body gets, about the schemas it returns at this document. -/
structure Ready (D : Dialect) (env : Env) (b : Bool) (P : τ → Json → Prop) (decl : τ → Decl τ) (I : TypeInfo τ)
    (A : Answers τ) (j : Json) : Prop extends Asked D env decl I A where
  target : Targets D env decl I A
  deeper : ∀ t s, A.direct t s → ∃ A', Comes decl I A' ∧ Targets D env decl I A' ∧ Returns A' (bodyOf I (decl t)) s
  wf : j.WF
  numbers : b = true → SmallNumbers j
  all : b = false → ∀ t x, x.WF → MatchesAt D env b P A t x
  below : ∀ t x, x.WF → (b = true → SmallNumbers x) → sizeOf x < sizeOf j → MatchesAt D env b P A t x

theorem Asked.text (h : Asked D env decl I A) {t : τ} (hs : A.direct t s) (hd : decl t = .std (.simple "string")) :
    s = typeOnly "string" := by
  obtain ⟨A', -, h'⟩ := (h.ran t s hs).run
  rw [hd] at h'
  exact h'

theorem size_arr {l : List Json} {x : Json} (h : x ∈ l) : sizeOf x < sizeOf (Json.arr l) := by
  have := List.sizeOf_lt_of_mem h
  simp; omega

theorem size_obj {o : List (String × Json)} {e : String × Json} (h : e ∈ o) : sizeOf e.2 < sizeOf (Json.obj o) := by
  obtain ⟨k, x⟩ := e
  have := List.sizeOf_lt_of_mem h
  simp at this ⊢; omega

theorem size_key {o : List (String × Json)} {e : String × Json} (h : e ∈ o) :
    sizeOf (Json.str e.1) < sizeOf (Json.obj o) := by
  obtain ⟨k, x⟩ := e
  have := List.sizeOf_lt_of_mem h
  have hx : 0 < sizeOf x := by cases x <;> simp
  simp at this ⊢; omega

/-- Inside an array. -/
theorem Ready.elem {l : List Json} (h : Ready D env b P decl I A (.arr l)) {x : Json} (hx : x ∈ l) (t : τ) :
    MatchesAt D env b P A t x := by
  refine h.below t x ?_ (fun hb => ?_) (size_arr hx)
  · cases h.wf with | arr _ h => exact h x hx
  · cases h.numbers hb with | arr _ h => exact h x hx

/-- Inside an object. -/
theorem Ready.member {o : List (String × Json)} (h : Ready D env b P decl I A (.obj o)) {e : String × Json} (he : e ∈ o)
    (t : τ) : MatchesAt D env b P A t e.2 := by
  refine h.below t e.2 ?_ (fun hb => ?_) (size_obj he)
  · cases h.wf with | obj _ _ h => exact h e he
  · cases h.numbers hb with | obj _ h => exact h e he

/-- At a part of the document. -/
theorem Ready.inner {o : List (String × Json)} (h : Ready D env b P decl I A (.obj o)) {e : String × Json} (he : e ∈ o) :
    Ready D env b P decl I A e.2 where
  toAsked := h.toAsked
  target := h.target
  deeper := h.deeper
  wf := by cases h.wf with | obj _ _ h => exact h e he
  numbers := fun hb => by cases h.numbers hb with | obj _ h => exact h e he
  all := h.all
  below := fun t x hx hn hlt => h.below t x hx hn (Nat.lt_trans hlt (size_obj he))

theorem MatchesAt.sub {t : τ} {x : Json} (h : MatchesAt D env b P A t x) (hs : A.sub t s) : Way b (Valid D env s x) (P t x) :=
  h s (.inl hs)

theorem keyOf_wf {x : Json} {k : String} (h : KeyOf x k) : x.WF := by
  cases h
  · exact .str _
  · exact .num _
  · exact .bool _
  · exact .bool _

/-- The parts of a well-formed document are well-formed. -/
theorem encStd_wf {x : Std τ} (hj : j.WF) (h : EncStd w P x j) : EncStd w (fun t y => y.WF ∧ P t y) x j := by
  have harr : ∀ {l : List Json}, (Json.arr l).WF → ∀ x ∈ l, x.WF := by
    intro l h; cases h; assumption
  have hobj : ∀ {o : List (String × Json)}, (Json.obj o).WF → ∀ e ∈ o, e.2.WF := by
    intro l h; cases h; assumption
  have hone : ∀ {k : String} {t : τ}, OneMember k (P t) j → OneMember k (fun y => y.WF ∧ P t y) j := by
    rintro k t ⟨x, rfl, hx⟩
    exact ⟨x, rfl, hobj hj (k, x) (by simp), hx⟩
  cases x with
  | option t => exact h.imp id fun h => ⟨hj, h⟩
  | seq t => obtain ⟨l, rfl, h⟩ := h; exact ⟨l, rfl, fun x hx => ⟨harr hj x hx, h x hx⟩⟩
  | set t => obtain ⟨l, rfl, h, h'⟩ := h; exact ⟨l, rfl, fun x hx => ⟨harr hj x hx, h x hx⟩, h'⟩
  | array n t => obtain ⟨l, rfl, h', h⟩ := h; exact ⟨l, rfl, h', fun x hx => ⟨harr hj x hx, h x hx⟩⟩
  | tuple ts =>
    obtain ⟨l, rfl, h⟩ := h
    refine ⟨l, rfl, ?_⟩
    have hl := harr hj
    clear hj hone
    induction h with
    | nil => exact .nil
    | cons hx _ ih =>
      exact .cons ⟨hl _ List.mem_cons_self, hx⟩ (ih fun x hx => hl x (List.mem_cons_of_mem _ hx))
  | map k v =>
    obtain ⟨o, rfl, h⟩ := h
    refine ⟨o, rfl, fun e he => ?_⟩
    obtain ⟨⟨x, hk, hx⟩, hv⟩ := h e he
    exact ⟨⟨x, hk, keyOf_wf hk, hx⟩, hobj hj e he, hv⟩
  | result t e => exact h.imp hone hone
  | bound t => exact h.imp id fun h => h.imp hone hone
  | range t =>
    obtain ⟨o, x, y, rfl, hp, hx, hy⟩ := h
    exact ⟨o, x, y, rfl, hp, ⟨hobj hj ("start", x) (hp.mem_iff.2 (by simp)), hx⟩,
      ⟨hobj hj ("end", y) (hp.mem_iff.2 (by simp)), hy⟩⟩
  | either l r => exact h.imp hone hone
  | bytes u8 => obtain ⟨l, rfl, h⟩ := h; exact ⟨l, rfl, fun x hx => ⟨harr hj x hx, h x hx⟩⟩
  | _ => exact h

theorem typeMatch_two {a c : String} : typeMatch (.arr [.str a, .str c]) j = true ↔
    typeMatch (.str a) j = true ∨ typeMatch (.str c) j = true := by
  simp [typeMatch, typeMember]

/-- The schema of a standard type accepts what serde reads for it. -/
theorem std_accepts_read (hM : Modern D env) (hx : DecimalInputRx env) (hq : Documented q)
    (hr : Ready D env false P decl I A j) {x : Std τ} (h : Returns A (stdBody x) s) (he : ReadStd w q P x j) :
    Valid D env s j := by
  have hS : StdSound D env (fun t y => y.WF ∧ P t y) A := by
    refine ⟨fun t j h => h.1, hr.nullSub, fun t s h j hj => ?_, fun t s h j hj => ?_, hr.defs⟩
    · exact hr.all rfl t j hj.1 s (.inl h) hj.2
    · exact hr.all rfl t j hj.1 s (.inr h) hj.2
  have key : twoFaced x = false → EncStd w P x j → Valid D env s j := fun hc he =>
    std_accepts_of (w := w) hM hS (fun h => by rw [hc] at h; cases h) h hr.wf (encStd_wf hr.wf he)
  have harr : ∀ {l : List Json}, (Json.arr l).WF → ∀ x ∈ l, x.WF := by
    intro l h; cases h; assumption
  have hlax : ∀ {p : Prop}, q.lax = true ∧ p → False := fun h => by rw [hq.lax] at h; cases h.1
  cases x with
  | formatted t f => exact key rfl he.1
  | set t =>
    obtain ⟨l, rfl, h1, h2⟩ := he
    refine key rfl ⟨l, rfl, h1, h2.resolve_left ?_⟩
    rw [hq.lax]; exact Bool.false_ne_true
  | bound t => exact key rfl (he.resolve_right hlax)
  | range t => exact key rfl (he.resolve_right hlax)
  | duration => exact key rfl (he.resolve_right hlax)
  | systemTime => exact key rfl (he.resolve_right hlax)
  | cString =>
    simp only [stdBody, Returns] at h
    subst h
    rw [hr.de]
    unfold cStringSchema
    rw [valid_mkObj (by simp [Obj.keys]) (.inr rfl)]
    simp only [List.mem_cons, List.not_mem_nil, or_false, forall_eq_or_imp, forall_eq]
    rw [entryOk_type rfl, typeMatch_two, typeMatch_array, typeMatch_string,
      entryOk_items (sch_mkObj _).isSchema rfl]
    rcases he with ⟨l, rfl, hl⟩ | ⟨t, rfl, -⟩
    · refine ⟨.inl ⟨l, rfl⟩, ?_⟩
      intro y hy
      obtain ⟨n, rfl, h1, h2⟩ := hl y hy
      rw [valid_mkObj (by simp [Obj.keys]) (.inr rfl)]
      simp only [List.mem_cons, List.not_mem_nil, or_false, forall_eq_or_imp, forall_eq]
      rw [entryOk_type rfl, entryOk_minimum, entryOk_maximum, typeMatch_integer]
      refine ⟨⟨_, n, rfl, rfl⟩, ?_, ?_⟩
      · rintro x ⟨⟩; exact Rat.intCast_le_intCast.2 h1
      · rintro x ⟨⟩; exact Rat.intCast_le_intCast.2 h2
    · exact ⟨.inr ⟨t, rfl⟩, fun l' h => by cases h⟩
  | bytes u8 =>
    obtain ⟨s1, h1, h2⟩ := h
    simp only [Returns] at h2
    subst h2
    rw [hr.de]
    unfold bytesSchema
    rw [valid_mkObj (by simp [Obj.keys]) (.inr rfl)]
    simp only [List.mem_cons, List.not_mem_nil, or_false, forall_eq_or_imp, forall_eq]
    rw [entryOk_type rfl, typeMatch_two, typeMatch_array, typeMatch_string,
      entryOk_items (hr.nullSub _ _ h1).sch.isSchema rfl]
    rcases he with ⟨l, rfl, hl⟩ | ⟨t, rfl⟩
    · refine ⟨.inl ⟨l, rfl⟩, ?_⟩
      intro y hy
      exact hr.all rfl u8 y (harr hr.wf y hy) s1 (.inl h1) (hl y hy)
    · exact ⟨.inr ⟨t, rfl⟩, fun l' h => by cases h⟩
  | decimal =>
    simp only [stdBody, Returns] at h
    subst h
    rw [hr.de]
    unfold decimalSchema
    simp only
    rw [valid_mkObj (by simp [Obj.keys]) (.inr rfl)]
    simp only [List.mem_cons, List.not_mem_nil, or_false, forall_eq_or_imp, forall_eq]
    rw [entryOk_type rfl, typeMatch_two, entryOk_simple (by decide)]
    rcases he with ⟨x, rfl⟩ | ⟨t, rfl, ht⟩
    · exact ⟨.inr rfl, rfl⟩
    · refine ⟨.inl rfl, hx t ?_⟩
      rcases ht with h | h | h
      · exact .inl h
      · exact .inr h
      · exact (hlax h).elim
  | _ => exact key rfl he

theorem holds_small {t : IntTy} {n : Int} (hw : 32 ≤ w) (h1 : -2 ^ 31 ≤ n) (h2 : n < 2 ^ 31)
    (hb : Bounded t → Holds w t n) (hu : Unsigned t → 0 ≤ n) : Holds w t n := by
  have hp : (2 : Int) ^ 31 ≤ 2 ^ (w - 1) := by
    exact_mod_cast Nat.pow_le_pow_right (show 0 < 2 by decide) (show 31 ≤ w - 1 by omega)
  have hp' : (2 : Int) ^ 31 ≤ 2 ^ w := by
    exact_mod_cast Nat.pow_le_pow_right (show 0 < 2 by decide) (show 31 ≤ w by omega)
  cases t <;> simp [Bounded, Unsigned, Holds, bits] at hb hu ⊢ <;> omega

theorem int_reads {t : IntTy} (hw : 32 ≤ w) (hn : SmallNumbers j) (h : Valid D env (intSchema t) j) :
    ∃ n, j = .num (.int n) ∧ Holds w t n := by
  obtain ⟨n, ⟨x, rfl, hx⟩, h1, h2⟩ := (C40_exact w t).1 h
  cases hn with
  | int m hm1 hm2 =>
    have : m = n := Rat.intCast_inj.1 hx
    subst this
    exact ⟨m, rfl, holds_small hw hm1 hm2 h1 h2⟩
  | flt q hq =>
    exact absurd (show q.den = 1 by rw [show q = (n : Rat) from hx]; rfl) hq

theorem char_reads (h : Valid D env charSchema j) : ∃ c : Char, j = .str (String.ofList [c]) := by
  unfold charSchema at h
  rw [valid_mkObj (by simp [Obj.keys]) (.inr rfl)] at h
  simp only [List.mem_cons, List.not_mem_nil, or_false, forall_eq_or_imp, forall_eq] at h
  rw [entryOk_type rfl, typeMatch_string, entryOk_simple (by decide), entryOk_simple (by decide)] at h
  obtain ⟨⟨t, rfl⟩, h1, h2⟩ := h
  simp [simple, onLen, strLen, JNum.val] at h1 h2
  obtain ⟨c, hc⟩ : ∃ c, t.toList = [c] := by
    rw [← List.length_eq_one_iff]
    simp only [String.length_toList]
    exact_mod_cast Nat.le_antisymm (by exact_mod_cast h2) (by exact_mod_cast h1)
  exact ⟨c, by rw [← hc, String.ofList_toList]⟩

theorem simple_reads {t : String} (hn : SmallNumbers j) (h : typeMatch (.str t) j = true) : EncSimple t j := by
  unfold typeMatch typeName at h
  simp only at h
  unfold EncSimple
  split at h
  · exact .inl ⟨rfl, rfl⟩
  · exact .inr (.inl ⟨rfl, _, rfl⟩)
  · exact .inr (.inr (.inr (.inl ⟨rfl, _, rfl⟩)))
  · cases hn with
    | int m _ _ => exact .inr (.inr (.inr (.inr (.inl ⟨rfl, _, rfl⟩))))
    | flt q hq => exact absurd (by simpa [JNum.val] using h) hq
  · exact .inr (.inr (.inl ⟨rfl, _, rfl⟩))
  · exact .inr (.inr (.inr (.inr (.inr (.inr ⟨rfl, _, rfl⟩)))))
  · exact .inr (.inr (.inr (.inr (.inr (.inl ⟨rfl, _, rfl⟩)))))
  · cases h

/-- serde reads what the schema of a standard type accepts. -/
theorem std_reads (hM : Modern D env) (hw : 32 ≤ w) (hr : Ready D env true P decl I A j) {x : Std τ}
    (hok : ExactStd decl x) (hin : ∀ t, InPlace I.base (.std x) t → MatchesAt D env true P A t j)
    (h : Returns A (stdBody x) s) (he : Valid D env s j) : ReadStd w q P x j := by
  have hn := hr.numbers rfl
  cases x with
  | simple t => cases h; exact simple_reads hn ((valid_typeOnly_iff t).1 he)
  | formatted t f =>
    cases h
    have := simple_reads hn ((valid_typeFormat t f).1 he)
    refine ⟨this, ?_⟩
    rintro s rfl
    unfold EncSimple at this
    simp at this
    exact absurd this hok
  | int t => cases h; exact int_reads hw hn he
  | nonZero t =>
    cases h
    rw [C40_nonZero] at he
    obtain ⟨n, rfl, h⟩ := int_reads hw hn he.1
    refine ⟨n, rfl, h, ?_⟩
    rintro rfl
    exact he.2 ⟨_, rfl, rfl⟩
  | char => cases h; exact char_reads he
  | value => trivial
  | option t =>
    obtain ⟨s1, h1, rfl⟩ := h
    rw [(hr.nullSub t s1 h1).exact] at he
    exact he.imp id (hin t rfl s1 (.inl h1))
  | seq t =>
    obtain ⟨s1, h1, rfl⟩ := h
    obtain ⟨l, rfl, hl⟩ := (C42_seq (hr.nullSub t s1 h1).sch.isSchema).1 he
    exact ⟨l, rfl, fun x hx => (hr.elem hx t).sub h1 (hl x hx)⟩
  | set t =>
    obtain ⟨s1, h1, rfl⟩ := h
    obtain ⟨l, rfl, hl, hd⟩ := (C42_set (hr.nullSub t s1 h1).sch.isSchema).1 he
    exact ⟨l, rfl, fun x hx => (hr.elem hx t).sub h1 (hl x hx), .inr hd⟩
  | emptyArray => cases h; exact C42_emptyArray.1 he
  | array n t =>
    obtain ⟨s1, h1, rfl⟩ := h
    obtain ⟨l, rfl, hl, hd⟩ := (C42_array (hr.nullSub t s1 h1).sch.isSchema n).1 he
    exact ⟨l, rfl, hl, fun x hx => (hr.elem hx t).sub h1 (hd x hx)⟩
  | tuple ts =>
    obtain ⟨ss, h1, rfl⟩ := returns_subAll h
    obtain ⟨l, rfl, hl⟩ := (C42_tuple hM.items ss).1 he
    exact ⟨l, rfl, Way.forall₂ (b := true) h1 (fun t s ht x hx => (hr.elem hx t).sub ht) hl⟩
  | map k v =>
    obtain ⟨ks, h1, vs, h2, d, h3, rfl⟩ := h
    have hks := hr.text h1 hok
    subst hks
    rw [show typeOnly "string" = .obj [("type", .str "string")] from rfl, C43_string ⟨rfl, rfl⟩ vs rfl rfl rfl] at he
    obtain ⟨o, rfl, ho⟩ := he
    refine ⟨o, rfl, fun e he => ⟨⟨.str e.1, .str _, ?_⟩, (hr.member he v).sub h2 (ho e he)⟩⟩
    exact hr.below k (.str e.1) (.str _) (fun _ => .str _) (size_key he) _ (.inr h1) ((valid_typeOnly_iff _).2 rfl)
  | either l r =>
    obtain ⟨s1, h1, s2, h2, rfl⟩ := h
    unfold eitherSchema at he
    rw [valid_oneOf_two, valid_eitherSide hr.wf, valid_eitherSide hr.wf] at he
    rcases he with ⟨⟨x, rfl, hx⟩, -⟩ | ⟨-, ⟨x, rfl, hx⟩⟩
    · exact .inl ⟨x, rfl, (hr.member (e := ("Left", x)) (by simp) l).sub h1 hx⟩
    · exact .inr ⟨x, rfl, (hr.member (e := ("Right", x)) (by simp) r).sub h2 hx⟩
  | bytes u8 =>
    obtain ⟨s1, h1, h2⟩ := h
    simp only [Returns] at h2
    subst h2
    rw [hr.de] at he
    unfold bytesSchema at he
    rw [valid_mkObj (by simp [Obj.keys]) (.inr rfl)] at he
    simp only [List.mem_cons, List.not_mem_nil, or_false, forall_eq_or_imp, forall_eq] at he
    rw [entryOk_type rfl, typeMatch_two, typeMatch_array, typeMatch_string,
      entryOk_items (hr.nullSub _ _ h1).sch.isSchema rfl] at he
    rcases he with ⟨⟨l, rfl⟩ | ⟨t, rfl⟩, hl⟩
    · exact .inl ⟨l, rfl, fun x hx => (hr.elem hx u8).sub h1 (hl x hx)⟩
    · exact .inr ⟨t, rfl⟩
  | _ => exact hok.elim

end

end Verif
