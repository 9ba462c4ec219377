import Verif.Bound
import Verif.Props.TypeIds
import Mathlib.Data.List.Perm.Subperm

/-!
# C60: the id of a derived type mentions every type param that its schema depends on
-/

namespace Verif
open Params

namespace Spec

/-- What types and expressions mean, given what their parts mean. Type params are only replaced by types, so nothing
else of the surrounding program can depend on the arguments. -/
structure Interp (α : Type) where
  nest : String → List α → α
  named : List α → Bool → List (String × List α) → α
  /-- `T::A` and the like. -/
  assoc : α → List (String × List α) → α
  mac : String → List α → α
  expr : String → List α → α

section
variable {α : Type} (I : Interp α) (params : List String) (σ : String → α)

mutual
/-- The type that is meant, when the type params are replaced by types. -/
def mean : STy → α
  | .nest k l => I.nest k (meanAll l)
  | .path q leading segs =>
    match q, leading, segs with
    | [], false, .mk i args :: rest =>
      if i ∈ params then (if rest.isEmpty then σ i else I.assoc (σ i) (meanSegs rest))
      else I.named [] false ((i, meanAll args) :: meanSegs rest)
    | q, leading, segs => I.named (meanAll q) leading (meanSegs segs)
  | .mac k l => I.mac k (meanAll l)
def meanAll : List STy → List α
  | [] => []
  | t :: l => mean t :: meanAll l
def meanSegs : List Seg → List (String × List α)
  | [] => []
  | .mk i args :: l => (i, meanAll args) :: meanSegs l
end

end

/-- What a source means. -/
def meanSource {α : Type} (I : Interp α) (params : List String) (σ : String → α) : Source → α
  | .ty t => mean I params σ t
  | .expr e => I.expr e.text (meanAll I params σ e.types)

/-- All that the schema of a derived type is made of is determined by the arguments for the relevant type params. -/
def C60_Full : Prop :=
  ∀ (α : Type) (I : Interp α) (c : Container) (σ σ' : String → α),
    (∀ p ∈ c.rename, p ∈ c.all) → c.rename.Nodup → (∀ p ∈ relevant c, σ p = σ' p) →
    c.sources.map (meanSource I c.all σ) = c.sources.map (meanSource I c.all σ')

mutual
/-- The names at the beginning of all paths in a type. -/
def mentions : STy → List String
  | .nest _ l => mentionsAll l
  | .path q _ segs => mentionsAll q ++ (segs.head?.map Seg.ident).toList ++ mentionsSegs segs
  | .mac _ l => mentionsAll l
def mentionsAll : List STy → List String
  | [] => []
  | t :: l => mentions t ++ mentionsAll l
def mentionsSegs : List Seg → List String
  | [] => []
  | .mk _ args :: l => mentionsAll args ++ mentionsSegs l
end

mutual
/-- There are no types in macros, and no path from a type param ends in `PhantomData`. -/
def Overt (params : List String) : STy → Prop
  | .nest _ l => OvertAll params l
  | .path q leading segs => OvertAll params q ∧ OvertSegs params segs ∧
      ((segs.getLast?.map Seg.ident) = some "PhantomData" → leading = false → ∀ s ∈ segs.head?, s.ident ∉ params)
  | .mac _ l => l = []
def OvertAll (params : List String) : List STy → Prop
  | [] => True
  | t :: l => Overt params t ∧ OvertAll params l
def OvertSegs (params : List String) : List Seg → Prop
  | [] => True
  | .mk _ args :: l => OvertAll params args ∧ OvertSegs params l
end

/-- The paths that end in `PhantomData` mean `core::marker::PhantomData`, whose schema does not depend on its
argument. -/
def Interp.Phantom {α : Type} (I : Interp α) : Prop :=
  ∀ q leading segs segs', segs.map Prod.fst = segs'.map Prod.fst →
    (segs.getLast?.map Prod.fst) = some "PhantomData" → I.named q leading segs = I.named q leading segs'

/-- The types of a source. -/
def sourceTypes : Source → List STy
  | .ty t => [t]
  | .expr e => e.types

/-- What a field contributes besides its type or the type in `with`. -/
def fieldExtra (f : Field) : List Source :=
  (match f.withAttr with
    | some (.function e) => [.expr e]
    | _ => []) ++ (if f.withAttr.isSome && f.default then [.ty f.ty] else []) ++ f.exprs.map .expr

/-- What fields and variants contribute besides. -/
def dataExtra : Data → List Source
  | .struct fields => fields.flatMap fieldExtra
  | .enum variants => variants.flatMap fun v =>
      v.withAttr.toList.map WithAttr.source ++ v.exprs.map .expr ++ v.fields.flatMap fieldExtra

/-- The sources that the derive macro does not search for type params. -/
def extra (c : Container) : List Source :=
  (c.withAttr.toList.map WithAttr.source) ++ c.from.toList.map .ty ++ c.into.toList.map .ty ++ c.exprs.map .expr ++
    dataExtra c.data

/-- The type that a field is searched for. -/
def searched (f : Field) : Option STy :=
  match f.withAttr with
  | some (.type t) => some t
  | some (.function _) => none
  | none => some f.ty

/-- The type params of all other sources are relevant for some field, and the types that are searched are overt. -/
structure Searchable (c : Container) : Prop where
  rename : (∀ p ∈ c.rename, p ∈ c.all) ∧ c.rename.Nodup
  extra : ∀ s ∈ extra c, ∀ p ∈ mentionsAll (sourceTypes s), p ∈ c.all → p ∈ relevant c
  overt : ∀ f ∈ visited c.data, ∀ t ∈ searched f, Overt c.all t

end Spec

open Spec

section
variable {α : Type} {I : Interp α} {params : List String} {σ σ' : String → α}

theorem mean_path (q : List STy) (leading : Bool) (segs : List Seg) :
    mean I params σ (.path q leading segs) =
      if q = [] ∧ leading = false ∧ ∃ s ∈ segs.head?, s.ident ∈ params then
        (match segs with
          | [] => I.named [] false []
          | .mk i _ :: rest => if rest.isEmpty then σ i else I.assoc (σ i) (meanSegs I params σ rest))
      else I.named (meanAll I params σ q) leading (meanSegs I params σ segs) := by
  cases q with
  | cons a q => simp [mean]
  | nil =>
    cases leading with
    | true => simp [mean]
    | false =>
      cases segs with
      | nil => simp [mean]
      | cons s rest =>
        obtain ⟨i, args⟩ := s
        simp only [mean, List.head?_cons, Option.mem_def, Option.some.injEq, exists_eq_left', Seg.ident, true_and,
          meanAll, meanSegs]

mutual
/-- A type only depends on the type params that it mentions. -/
theorem mean_mentions : ∀ t : STy, (∀ p ∈ mentions t, p ∈ params → σ p = σ' p) → mean I params σ t = mean I params σ' t
  | .nest k l, h => by
      simp only [mean]
      rw [meanAll_mentions l (by simpa only [mentions] using h)]
  | .path q leading segs, h => by
      simp only [mentions, List.mem_append] at h
      have hq := meanAll_mentions q fun p hp => h p (Or.inl (Or.inl hp))
      have hs := meanSegs_mentions segs fun p hp => h p (Or.inr hp)
      rw [mean_path, mean_path, hq, hs]
      split
      · rename_i hc
        cases segs with
        | nil => rfl
        | cons s rest =>
          obtain ⟨i, args⟩ := s
          obtain ⟨-, -, s, hs1, hs2⟩ := hc
          cases hs1
          have hi : σ i = σ' i := h i (Or.inl (Or.inr (by simp [Seg.ident]))) hs2
          have hr : meanSegs I params σ rest = meanSegs I params σ' rest := by
            simp only [meanSegs, List.cons.injEq] at hs; exact hs.2
          simp only [hi, hr]
      · rfl
  | .mac k l, h => by
      simp only [mean]
      rw [meanAll_mentions l (by simpa only [mentions] using h)]
theorem meanAll_mentions : ∀ l : List STy, (∀ p ∈ mentionsAll l, p ∈ params → σ p = σ' p) →
    meanAll I params σ l = meanAll I params σ' l
  | [], _ => by simp only [meanAll]
  | t :: l, h => by
      simp only [mentionsAll, List.mem_append] at h
      simp only [meanAll]
      rw [mean_mentions t fun p hp => h p (Or.inl hp), meanAll_mentions l fun p hp => h p (Or.inr hp)]
theorem meanSegs_mentions : ∀ l : List Seg, (∀ p ∈ mentionsSegs l, p ∈ params → σ p = σ' p) →
    meanSegs I params σ l = meanSegs I params σ' l
  | [], _ => by simp only [meanSegs]
  | .mk i args :: l, h => by
      simp only [mentionsSegs, List.mem_append] at h
      simp only [meanSegs]
      rw [meanAll_mentions args fun p hp => h p (Or.inl hp), meanSegs_mentions l fun p hp => h p (Or.inr hp)]
end

theorem meanSegs_idents (segs : List Seg) : (meanSegs I params σ segs).map Prod.fst = segs.map Seg.ident := by
  induction segs with
  | nil => simp [meanSegs]
  | cons s l ih => obtain ⟨i, args⟩ := s; simp [meanSegs, ih, Seg.ident]

theorem isPhantom_iff (segs : List Seg) : isPhantom segs = true ↔ segs.getLast?.map Seg.ident = some "PhantomData" := by
  unfold isPhantom
  cases segs.getLast? <;> simp

mutual
/-- An overt type only depends on the type params that the visitor finds. -/
theorem mean_visit (hI : I.Phantom) : ∀ t : STy, Overt params t → (∀ p ∈ visit params t, σ p = σ' p) →
    mean I params σ t = mean I params σ' t
  | .nest k l, ho, h => by
      simp only [mean]
      rw [meanAll_visit hI l (by simpa only [Overt] using ho) (by simpa only [visit] using h)]
  | .path q leading segs, ho, h => by
      simp only [Overt] at ho
      simp only [visit, List.mem_append] at h
      have hq := meanAll_visit hI q ho.1 fun p hp => h p (Or.inl hp)
      rw [mean_path, mean_path, hq]
      by_cases hp : isPhantom segs = true
      · have hp' := (isPhantom_iff segs).1 hp
        have hn : ¬ (q = [] ∧ leading = false ∧ ∃ s ∈ segs.head?, s.ident ∈ params) := by
          rintro ⟨-, hl, s, hs, hm⟩
          exact ho.2.2 hp' hl s hs hm
        rw [if_neg hn, if_neg hn]
        apply hI
        · rw [meanSegs_idents, meanSegs_idents]
        · rw [← List.getLast?_map, meanSegs_idents, List.getLast?_map]; exact hp'
      · rw [if_neg hp] at h
        simp only [List.mem_append] at h
        have hs := meanSegs_visit hI segs ho.2.1 fun p hp => h p (Or.inr (Or.inr hp))
        rw [hs]
        split
        · rename_i hc
          cases segs with
          | nil => rfl
          | cons s rest =>
            obtain ⟨i, args⟩ := s
            obtain ⟨-, hl, s, hs1, hs2⟩ := hc
            cases hs1
            have hi : σ i = σ' i := by
              refine h i (Or.inr (Or.inl ?_))
              simp [headParam, hl, Seg.ident]
              exact hs2
            have hr : meanSegs I params σ rest = meanSegs I params σ' rest := by
              simp only [meanSegs, List.cons.injEq] at hs; exact hs.2
            simp only [hi, hr]
        · rfl
  | .mac k l, ho, _ => by
      simp only [Overt] at ho
      subst ho
      simp only [mean, meanAll]
theorem meanAll_visit (hI : I.Phantom) : ∀ l : List STy, OvertAll params l →
    (∀ p ∈ visitAll params l, σ p = σ' p) → meanAll I params σ l = meanAll I params σ' l
  | [], _, _ => by simp only [meanAll]
  | t :: l, ho, h => by
      simp only [OvertAll] at ho
      simp only [visitAll, List.mem_append] at h
      simp only [meanAll]
      rw [mean_visit hI t ho.1 fun p hp => h p (Or.inl hp), meanAll_visit hI l ho.2 fun p hp => h p (Or.inr hp)]
theorem meanSegs_visit (hI : I.Phantom) : ∀ l : List Seg, OvertSegs params l →
    (∀ p ∈ visitSegs params l, σ p = σ' p) → meanSegs I params σ l = meanSegs I params σ' l
  | [], _, _ => by simp only [meanSegs]
  | .mk i args :: l, ho, h => by
      simp only [OvertSegs] at ho
      simp only [visitSegs, List.mem_append] at h
      simp only [meanSegs]
      rw [meanAll_visit hI args ho.1 fun p hp => h p (Or.inl hp), meanSegs_visit hI l ho.2 fun p hp => h p (Or.inr hp)]
end

end

/-! ## The relevant type params -/

theorem mem_visited_all (params : List String) : ∀ p, ∀ t, p ∈ visit params t → p ∈ params := by
  intro p
  have hhead : ∀ leading segs, p ∈ headParam params leading segs → p ∈ params := by
    intro leading segs h
    unfold headParam at h
    split at h
    · cases h
    · split at h
      · split at h
        · rename_i hc
          cases List.mem_singleton.1 h
          exact List.elem_iff.1 hc
        · cases h
      · cases h
  intro t
  refine STy.rec (motive_1 := fun t => p ∈ visit params t → p ∈ params)
    (motive_2 := fun s => p ∈ visitSegs params [s] → p ∈ params)
    (motive_3 := fun l => p ∈ visitAll params l → p ∈ params)
    (motive_4 := fun l => p ∈ visitSegs params l → p ∈ params) ?_ ?_ ?_ ?_ ?_ ?_ ?_ ?_ t
  · intro k l h hp
    exact h (by simpa only [visit] using hp)
  · intro q leading segs hq hs hp
    simp only [visit, List.mem_append] at hp
    rcases hp with hp | hp
    · exact hq hp
    · split at hp
      · cases hp
      · rcases List.mem_append.1 hp with hp | hp
        · exact hhead _ _ hp
        · exact hs hp
  · intro k l _ hp
    simp [visit] at hp
  · intro i args h hp
    simp only [visitSegs, List.append_nil] at hp
    exact h hp
  · intro hp; simp [visitAll] at hp
  · intro t l h1 h2 hp
    simp only [visitAll, List.mem_append] at hp
    exact hp.elim h1 h2
  · intro hp; simp [visitSegs] at hp
  · rintro ⟨i, args⟩ l h1 h2 hp
    simp only [visitSegs, List.mem_append, List.append_nil] at hp h1
    exact hp.elim h1 h2

/-- If all type params are used for the name, they are all relevant. -/
theorem rename_covers (c : Container) (hsub : ∀ p ∈ c.rename, p ∈ c.all) (hnd : c.rename.Nodup)
    (hlen : ¬ c.all.length > c.rename.length) : ∀ p ∈ c.all, p ∈ c.rename := by
  have h := (List.subperm_of_subset hnd hsub).perm_of_length_le (by omega)
  exact fun p hp => h.mem_iff.2 hp

/-- What the visitor finds in a field is relevant. -/
theorem visitField_relevant (c : Container) (hsub : ∀ p ∈ c.rename, p ∈ c.all) (hnd : c.rename.Nodup)
    {f : Field} (hf : f ∈ visited c.data) {t : STy} (ht : searched f = some t) :
    ∀ p ∈ visit c.all t, p ∈ relevant c := by
  intro p hp
  have hall := mem_visited_all c.all p t hp
  have hv : visitField c.all f = visit c.all t := by
    unfold searched at ht
    unfold visitField
    split at ht <;> first | (cases ht; done) | (cases ht; simp [*])
  unfold relevant
  split
  · refine List.mem_filter.2 ⟨hall, ?_⟩
    rw [Bool.or_eq_true]
    refine Or.inr (List.any_eq_true.2 ⟨f, hf, List.elem_iff.2 ?_⟩)
    rw [hv]; exact hp
  · rename_i hlen
    exact rename_covers c hsub hnd hlen p hall

/-- The bounds are only for relevant type params. -/
theorem forBound_subset (c : Container) : ∀ p ∈ forBound c, p ∈ relevant c := by
  intro p hp
  unfold forBound at hp
  unfold relevant
  split at hp
  · rw [if_pos ‹_›]
    obtain ⟨h1, h2⟩ := List.mem_filter.1 hp
    refine List.mem_filter.2 ⟨h1, ?_⟩
    rw [Bool.or_eq_true] at h2 ⊢
    rcases h2 with h2 | h2
    · exact Or.inl h2
    · obtain ⟨f, hf, h⟩ := List.any_eq_true.1 h2
      rw [Bool.and_eq_true] at h
      exact Or.inr (List.any_eq_true.2 ⟨f, hf, h.2⟩)
  · rw [if_neg ‹_›]; exact hp

/-- The sources of a field are searched, or extra. -/
theorem field_sources (f : Field) {s : Source} (hs : s ∈ f.sources) :
    (∃ t, s = .ty t ∧ searched f = some t) ∨ s ∈ fieldExtra f := by
  unfold Field.sources at hs
  unfold searched fieldExtra
  simp only [List.mem_append] at hs ⊢
  rcases hs with (hs | hs) | hs
  · split at hs
    · rename_i w hw
      rw [hw]
      cases w with
      | type t =>
        simp only [WithAttr.source, List.mem_singleton] at hs
        exact Or.inl ⟨t, hs, rfl⟩
      | function e =>
        simp only [WithAttr.source, List.mem_singleton] at hs
        exact Or.inr (Or.inl (Or.inl (by simp [hs])))
    · rename_i hw
      rw [hw]
      exact Or.inl ⟨f.ty, List.mem_singleton.1 hs, rfl⟩
  · split at hs
    · rename_i hd
      cases List.mem_singleton.1 hs
      cases hw : f.withAttr with
      | none => exact Or.inl ⟨f.ty, rfl, rfl⟩
      | some w => exact Or.inr (Or.inl (Or.inr (by simp [hd])))
    · cases hs
  · exact Or.inr (Or.inr hs)

/-- Every source is searched, or extra. -/
theorem sources_cases (c : Container) {s : Source} (hs : s ∈ c.sources) :
    (∃ f ∈ visited c.data, ∃ t, s = .ty t ∧ searched f = some t) ∨ s ∈ extra c := by
  unfold Container.sources at hs
  unfold extra
  have hdata : s ∈ c.data.sources → (∃ f ∈ visited c.data, ∃ t, s = .ty t ∧ searched f = some t) ∨
      s ∈ dataExtra c.data := by
    intro h
    cases hd : c.data with
    | struct fields =>
      rw [hd] at h
      obtain ⟨f, hf, hs⟩ := List.mem_flatMap.1 h
      rcases field_sources f hs with ⟨t, h1, h2⟩ | h1
      · exact Or.inl ⟨f, hf, t, h1, h2⟩
      · exact Or.inr (List.mem_flatMap.2 ⟨f, (List.mem_filter.1 hf).1, h1⟩)
    | enum variants =>
      rw [hd] at h
      obtain ⟨v, hv, hs⟩ := List.mem_flatMap.1 h
      obtain ⟨hv, hskip⟩ := List.mem_filter.1 hv
      have hskip : v.skipped = false := by simpa using hskip
      unfold Variant.sources at hs
      rcases List.mem_append.1 hs with hs | hs
      · split at hs
        · rename_i w hw
          refine Or.inr (List.mem_flatMap.2 ⟨v, hv, ?_⟩)
          simp only [List.mem_append]
          refine Or.inl (Or.inl ?_)
          rw [hw]
          simpa using hs
        · obtain ⟨f, hf, hs⟩ := List.mem_flatMap.1 hs
          rcases field_sources f hs with ⟨t, h1, h2⟩ | h1
          · refine Or.inl ⟨f, List.mem_flatMap.2 ⟨v, hv, ?_⟩, t, h1, h2⟩
            rw [hskip]
            exact hf
          · refine Or.inr (List.mem_flatMap.2 ⟨v, hv, ?_⟩)
            exact List.mem_append.2 (Or.inr (List.mem_flatMap.2 ⟨f, (List.mem_filter.1 hf).1, h1⟩))
      · refine Or.inr (List.mem_flatMap.2 ⟨v, hv, ?_⟩)
        exact List.mem_append.2 (Or.inl (List.mem_append.2 (Or.inr hs)))
  rcases List.mem_append.1 hs with hs | hs
  · split at hs
    · rename_i w hw
      refine Or.inr ?_
      simp only [List.mem_append]
      refine Or.inl (Or.inl (Or.inl (Or.inl ?_)))
      rw [hw]
      simpa using hs
    · rcases List.mem_append.1 hs with hs | hs
      · refine Or.inr ?_
        simp only [List.mem_append] at hs ⊢
        rcases hs with hs | hs
        · exact Or.inl (Or.inl (Or.inl (Or.inr hs)))
        · exact Or.inl (Or.inl (Or.inr hs))
      · split at hs
        · cases hs
        · exact (hdata hs).imp id fun h => List.mem_append.2 (Or.inr h)
  · refine Or.inr ?_
    simp only [List.mem_append]
    exact Or.inl (Or.inr hs)

/-- **C60, in part.** What a derived schema is made of only depends on the arguments for the relevant type params,
which are the ones in the id, as long as the macro sees all types: type params that occur in `schema_with` functions,
in `with` of variants and containers, in `from` and `into`, in expressions, or in the type of a field with a default
and `with`, have to be relevant for some other reason, and types in macros, in a type named `PhantomData` that is not
the one of the standard library, and in `T::PhantomData`, must not be used. -/
theorem C60_partial {α : Type} (I : Interp α) (hI : I.Phantom) (c : Container) (hc : Searchable c) (σ σ' : String → α)
    (h : ∀ p ∈ relevant c, σ p = σ' p) :
    c.sources.map (meanSource I c.all σ) = c.sources.map (meanSource I c.all σ') := by
  refine List.map_congr_left fun s hs => ?_
  rcases sources_cases c hs with ⟨f, hf, t, rfl, ht⟩ | hs
  · exact mean_visit hI t (hc.overt f hf t ht) fun p hp =>
      h p (visitField_relevant c hc.rename.1 hc.rename.2 hf ht p hp)
  · have hm := hc.extra s hs
    cases s with
    | ty t =>
      exact mean_mentions t fun p hp hall => h p (hm p (by simpa [sourceTypes, mentionsAll] using hp) hall)
    | expr e =>
      simp only [meanSource]
      rw [meanAll_mentions e.types fun p hp hall => h p (hm p hp hall)]

/-- Together with C59: if two instances of a derived type have the same id, then they have the same const arguments
and their schemas are made of the same parts. -/
theorem C60_ids {P : Nat → IdDecl} (hP : Paths P) (I : Interp Ty) (hI : I.Phantom) (c : Container) (hc : Searchable c)
    (σ σ' : String → Ty) (d : Nat) (cs cs' : List (List Char))
    (hl : Legal P (.derived d cs ((relevant c).map σ))) (hl' : Legal P (.derived d cs' ((relevant c).map σ')))
    (hp : PlainIds (.derived d cs ((relevant c).map σ))) (hp' : PlainIds (.derived d cs' ((relevant c).map σ')))
    (h : (Ty.typeDef P (.derived d cs ((relevant c).map σ))).schemaId =
      (Ty.typeDef P (.derived d cs' ((relevant c).map σ'))).schemaId) :
    cs = cs' ∧ c.sources.map (meanSource I c.all σ) = c.sources.map (meanSource I c.all σ') := by
  have := (C59_partial hP hl hl' hp hp' h).1
  simp only [Ty.derived.injEq, true_and] at this
  exact ⟨this.1, C60_partial I hI c hc σ σ' (List.map_inj_left.1 this.2)⟩

/-! ## Examples -/

namespace C60x

/-- A path of one segment. -/
def name (n : String) (args : List STy := []) : STy := .path [] false [.mk n args]

/-- `struct S<T, U> { a: Vec<Option<T>>, b: PhantomData<U>, #[serde(with = "Hex")] c: U }` -/
def plain : Container where
  all := ["T", "U"]
  data := .struct [
    { ty := name "Vec" [name "Option" [name "T"]] },
    { ty := name "PhantomData" [name "U"] },
    { ty := name "U", withAttr := some (.type (name "Hex")) }]

example : relevant plain = ["T"] := by decide

/-- The hypotheses of `C60_partial` can be met. -/
example : Searchable plain where
  rename := ⟨(fun _ h => (by cases h)), List.nodup_nil⟩
  extra := by intro s hs; simp [extra, dataExtra, plain, fieldExtra] at hs
  overt := by
    intro f hf t ht
    simp only [plain, visited, List.filter_cons, List.filter_nil, Bool.not_false, if_true, List.mem_cons,
      List.not_mem_nil, or_false] at hf
    rcases hf with rfl | rfl | rfl <;> cases ht <;>
      simp [name, Overt, OvertAll, OvertSegs, plain, Seg.ident]

/-- Types as texts. -/
def texts : Interp (List String) where
  nest k l := k :: l.flatten
  named q leading segs := if (segs.getLast?.map Prod.fst) = some "PhantomData" then "PhantomData" :: q.flatten else
    q.flatten ++ [toString leading] ++ segs.flatMap fun s => s.1 :: s.2.flatten
  assoc a segs := a ++ segs.flatMap fun s => s.1 :: s.2.flatten
  mac k l := k :: l.flatten
  expr k l := k :: l.flatten

/-- With `PhantomData` as the name of another type. -/
def texts' : Interp (List String) where
  nest k l := k :: l.flatten
  named q leading segs := q.flatten ++ [toString leading] ++ segs.flatMap fun s => s.1 :: s.2.flatten
  assoc a segs := a ++ segs.flatMap fun s => s.1 :: s.2.flatten
  mac k l := k :: l.flatten
  expr k l := k :: l.flatten

example : Interp.Phantom texts := by
  intro q leading segs segs' h h1
  have h2 : (segs'.getLast?.map Prod.fst) = some "PhantomData" := by
    rw [← List.getLast?_map, ← h, List.getLast?_map]; exact h1
  simp [texts, h1, h2]

/-- The type param is replaced by `u8` or `String`, and this cannot be told from the relevant type params. -/
def Missed (I : Interp (List String)) (c : Container) : Prop :=
  relevant c = [] ∧ c.rename = [] ∧
    c.sources.map (meanSource I c.all fun _ => ["u8"]) ≠ c.sources.map (meanSource I c.all fun _ => ["String"])

instance (I : Interp (List String)) (c : Container) : Decidable (Missed I c) := by unfold Missed; infer_instance

/-- `#[schemars(schema_with = "f::<T>")]` -/
def function : Container where
  all := ["T"]
  data := .struct [{ ty := name "T", withAttr := some (.function ⟨"f::<T>", [name "T"]⟩) }]

theorem C60_function : Missed texts function := by decide

/-- `enum E<T> { #[schemars(with = "T")] A }` -/
def variant : Container where
  all := ["T"]
  data := .enum [{ fields := [], withAttr := some (.type (name "T")) }]

theorem C60_variant : Missed texts variant := by decide

/-- `#[schemars(title = "t", with = "Vec<T>")] struct S<T> { a: PhantomData<T> }`. Without the title, the id would be
that of `Vec<T>`. -/
def container : Container where
  all := ["T"]
  withAttr := some (.type (name "Vec" [name "T"]))
  data := .struct [{ ty := name "PhantomData" [name "T"] }]
  exprs := [⟨"\"t\"", []⟩]

theorem C60_container : Missed texts container := by decide

/-- `#[serde(from = "Vec<T>")] struct S<T> { #[serde(skip)] a: T }` -/
def conversion : Container where
  all := ["T"]
  «from» := some (name "Vec" [name "T"])
  data := .struct [{ ty := name "T", skipped := true }]

theorem C60_conversion : Missed texts conversion := by decide

/-- `#[serde(default)] #[schemars(with = "Hex")] a: T`: the default is `T::default()`, as `T` is written. -/
def defaulted : Container where
  all := ["T"]
  data := .struct [{ ty := name "T", withAttr := some (.type (name "Hex")), default := true }]

theorem C60_default : Missed texts defaulted := by decide

/-- `#[schemars(extend("x-max" = T::MAX))]` -/
def extension : Container where
  all := ["T"]
  data := .struct []
  exprs := [⟨"T::MAX", [name "T"]⟩]

theorem C60_extension : Missed texts extension := by decide

/-- `struct S<T> { a: my_type!(T) }` -/
def mac : Container where
  all := ["T"]
  data := .struct [{ ty := .mac "my_type" [name "T"] }]

theorem C60_macro : Missed texts mac := by decide

/-- `struct S<T> { a: my::PhantomData<T> }`, where `my::PhantomData<T>` is written like `T`. -/
def phantom : Container where
  all := ["T"]
  data := .struct [{ ty := .path [] false [.mk "my" [], .mk "PhantomData" [name "T"]] }]

theorem C60_phantom : Missed texts' phantom := by decide

/-- `struct S<T: Tr> { a: T::PhantomData }` -/
def assoc : Container where
  all := ["T"]
  data := .struct [{ ty := .path [] false [.mk "T" [], .mk "PhantomData" []] }]

theorem C60_assoc : Missed texts assoc := by decide

end C60x

/-- **C60 fails in full.** -/
theorem C60_Full_false : ¬ C60_Full := by
  intro h
  refine C60x.C60_variant.2.2 (h _ C60x.texts C60x.variant _ _ (fun _ h => (by cases h)) List.nodup_nil ?_)
  rw [C60x.C60_variant.1]
  intro p hp
  cases hp

end Verif
