import Verif.Props.Bound

/-!
# C75: the where clause of a derived implementation is enough
-/

namespace Verif
open Params

namespace Spec

/-- The types that a type is made of: its components, or the arguments in its path. -/
def components : STy → List STy
  | .nest _ l => l
  | .path q _ segs => q ++ segs.flatMap fun s => match s with | .mk _ args => args
  | .mac _ l => l

/-- Whether a type begins with a type param: the param itself, or `T::A`. -/
def FromParam (params : List String) : STy → Prop
  | .path [] false (.mk i _ :: _) => i ∈ params
  | _ => False

/-- The implementations of a program: which types have one, and which of their components must have one for that.
An implementation of `PhantomData` asks for nothing. -/
structure World where
  has : STy → Prop
  asks : STy → STy → Prop
  components : ∀ {t u}, asks t u → u ∈ components t
  phantom : ∀ {q leading segs u}, segs.getLast?.map Seg.ident = some "PhantomData" → ¬ asks (.path q leading segs) u

/-- `t: JsonSchema` follows from the predicates `P`. -/
inductive Implements (W : World) (params : List String) (P : List Pred) : STy → Prop
  | given {t : STy} (h : (⟨t⟩ : Pred) ∈ P) : Implements W params P t
  | impl {t : STy} (hp : ¬ FromParam params t) (h : W.has t)
      (ha : ∀ u, W.asks t u → Implements W params P u) : Implements W params P t

/-- The predicates of the declaration, and one for every type param. -/
def allBounds (c : Container) : List Pred := c.declared ++ c.all.map fun p => ⟨paramTy p⟩

/-- If all types that the derived implementation needs implement `JsonSchema` for type params that do, then the
where clause is enough for it. -/
def C75_Full : Prop :=
  ∀ (W : World) (c : Container), (∀ p ∈ c.rename, p ∈ c.all) → c.rename.Nodup →
    (∀ t ∈ c.needs, Implements W c.all (allBounds c) t) → ∀ t ∈ c.needs, Implements W c.all (wherePreds c) t

/-- The types needed for what is not a field: those in `with` on variants and on the container, and of
conversions. -/
def otherNeeds (c : Container) : List STy :=
  (match c.withAttr with
    | some w => w.needs
    | none => c.from.toList ++ c.into.toList) ++
  (match c.data with
    | .struct _ => []
    | .enum variants => variants.flatMap fun v => v.withAttr.toList.flatMap WithAttr.needs)

/-- No `bound` replaces the predicates of the container or of a field, the types that are searched have no types in
macros, and all type params of other types are bounded for a field or the name. -/
structure Boundable (c : Container) : Prop where
  rename : (∀ p ∈ c.rename, p ∈ c.all) ∧ c.rename.Nodup
  container : c.deBound = none
  field : ∀ f ∈ visited c.data, f.deBound = none
  overt : ∀ f ∈ visited c.data, ∀ t ∈ searched f, Overt c.all t
  other : ∀ t ∈ otherNeeds c, ∀ p ∈ mentions t, p ∈ c.all → p ∈ forBound c

/-- A program in which everything is implemented, as soon as all components are. -/
def strict : World where
  has _ := True
  asks t u := u ∈ Spec.components t ∧
    ∀ q leading segs, t = .path q leading segs → segs.getLast?.map Seg.ident ≠ some "PhantomData"
  components h := h.1
  phantom hp h := h.2 _ _ _ rfl hp

mutual
/-- Type params only occur by themselves, without `T::A` and `<T as ..>::A`. -/
def Direct (params : List String) : STy → Prop
  | .nest _ l => DirectAll params l
  | .path q leading segs => q = [] ∧ DirectSegs params segs ∧
      ∀ s ∈ segs.head?, leading = false → s.ident ∈ params → segs = [.mk s.ident []]
  | .mac _ l => l = []
def DirectAll (params : List String) : List STy → Prop
  | [] => True
  | t :: l => Direct params t ∧ DirectAll params l
def DirectSegs (params : List String) : List Seg → Prop
  | [] => True
  | .mk _ args :: l => DirectAll params args ∧ DirectSegs params l
end

/-- The bounds for all type params but one. -/
def boundsWithout (c : Container) (p : String) : List Pred := (c.all.filter (· ≠ p)).map fun q => ⟨paramTy q⟩

end Spec

open Spec

theorem mem_visitAll {params : List String} {p : String} {u : STy} : ∀ {l : List STy}, u ∈ l →
    p ∈ visit params u → p ∈ visitAll params l
  | t :: l, h, hp => by
    simp only [visitAll, List.mem_append]
    rcases List.mem_cons.1 h with rfl | h
    · exact .inl hp
    · exact .inr (mem_visitAll h hp)

theorem mem_visitSegs {params : List String} {p : String} {u : STy} {i : String} {args : List STy} :
    ∀ {l : List Seg}, Seg.mk i args ∈ l → u ∈ args → p ∈ visit params u → p ∈ visitSegs params l
  | .mk j args' :: l, h, hu, hp => by
    simp only [visitSegs, List.mem_append]
    rcases List.mem_cons.1 h with h | h
    · cases h; exact .inl (mem_visitAll hu hp)
    · exact .inr (mem_visitSegs h hu hp)

theorem mem_mentionsAll {p : String} {u : STy} : ∀ {l : List STy}, u ∈ l → p ∈ mentions u → p ∈ mentionsAll l
  | t :: l, h, hp => by
    simp only [mentionsAll, List.mem_append]
    rcases List.mem_cons.1 h with rfl | h
    · exact .inl hp
    · exact .inr (mem_mentionsAll h hp)

theorem mem_mentionsSegs {p : String} {u : STy} {i : String} {args : List STy} :
    ∀ {l : List Seg}, Seg.mk i args ∈ l → u ∈ args → p ∈ mentions u → p ∈ mentionsSegs l
  | .mk j args' :: l, h, hu, hp => by
    simp only [mentionsSegs, List.mem_append]
    rcases List.mem_cons.1 h with h | h
    · cases h; exact .inl (mem_mentionsAll hu hp)
    · exact .inr (mem_mentionsSegs h hu hp)

theorem mentions_component {t u : STy} {p : String} (hu : u ∈ components t) (hp : p ∈ mentions u) :
    p ∈ mentions t := by
  cases t with
  | nest k l => simp only [mentions]; exact mem_mentionsAll hu hp
  | mac k l => simp only [mentions]; exact mem_mentionsAll hu hp
  | path q leading segs =>
    simp only [mentions, List.mem_append]
    rcases List.mem_append.1 hu with hu | hu
    · exact .inl (.inl (mem_mentionsAll hu hp))
    · obtain ⟨⟨i, args⟩, hs, hu⟩ := List.mem_flatMap.1 hu
      exact .inr (mem_mentionsSegs hs hu hp)

theorem overt_mem {params : List String} {u : STy} : ∀ {l : List STy}, OvertAll params l → u ∈ l → Overt params u
  | t :: l, ho, h => by
    simp only [OvertAll] at ho
    rcases List.mem_cons.1 h with rfl | h
    · exact ho.1
    · exact overt_mem ho.2 h

theorem overt_seg {params : List String} {u : STy} {i : String} {args : List STy} :
    ∀ {l : List Seg}, OvertSegs params l → Seg.mk i args ∈ l → u ∈ args → Overt params u
  | .mk j args' :: l, ho, h, hu => by
    simp only [OvertSegs] at ho
    rcases List.mem_cons.1 h with h | h
    · cases h; exact overt_mem ho.1 hu
    · exact overt_seg ho.2 h hu

/-- Bounds for all params that a type mentions are as good as bounds for all. -/
theorem implements_mentions {W : World} {params : List String} {D P : List Pred} {t : STy}
    (h : Implements W params (D ++ params.map fun p => ⟨paramTy p⟩) t) (hD : ∀ d ∈ D, d ∈ P)
    (hP : ∀ p ∈ mentions t, p ∈ params → (⟨paramTy p⟩ : Pred) ∈ P) : Implements W params P t := by
  induction h with
  | given h =>
    rcases List.mem_append.1 h with h | h
    · exact .given (hD _ h)
    · obtain ⟨p, hp, e⟩ := List.mem_map.1 h
      cases e
      exact .given (hP p (by simp [paramTy, mentions, mentionsAll, mentionsSegs, Seg.ident]) hp)
  | impl hp h ha ih =>
    exact .impl hp h fun u hu => ih u hu fun p hm => hP p (mentions_component (W.components hu) hm)

/-- For an overt type it is enough to bound the params that the visitor finds. -/
theorem implements_visit {W : World} {params : List String} {D P : List Pred} {t : STy}
    (h : Implements W params (D ++ params.map fun p => ⟨paramTy p⟩) t) (hD : ∀ d ∈ D, d ∈ P)
    (ho : Overt params t) (hP : ∀ p ∈ visit params t, (⟨paramTy p⟩ : Pred) ∈ P) : Implements W params P t := by
  induction h with
  | given h =>
    rcases List.mem_append.1 h with h | h
    · exact .given (hD _ h)
    · obtain ⟨p, hp, e⟩ := List.mem_map.1 h
      cases e
      by_cases hph : p = "PhantomData"
      · subst hph
        exact absurd hp (by simpa [paramTy, Overt, OvertAll, OvertSegs, Seg.ident] using ho)
      · refine .given (hP p ?_)
        simp [paramTy, visit, visitAll, visitSegs, isPhantom, headParam, Seg.ident, hph, hp]
  | @impl t hp h ha ih =>
    refine .impl hp h fun u hu => ih u hu ?_ ?_
    · have hc := W.components hu
      cases t with
      | nest k l => simp only [Overt] at ho; exact overt_mem ho hc
      | mac k l => simp only [Overt] at ho; subst ho; cases hc
      | path q leading segs =>
        simp only [Overt] at ho
        rcases List.mem_append.1 hc with hc | hc
        · exact overt_mem ho.1 hc
        · obtain ⟨⟨i, args⟩, hs, hc⟩ := List.mem_flatMap.1 hc
          exact overt_seg ho.2.1 hs hc
    · intro p hpv
      refine hP p ?_
      have hc := W.components hu
      cases t with
      | nest k l => simp only [visit]; exact mem_visitAll hc hpv
      | mac k l => simp only [Overt] at ho; subst ho; cases hc
      | path q leading segs =>
        simp only [visit, List.mem_append]
        by_cases hph : isPhantom segs = true
        · exact absurd hu (W.phantom ((isPhantom_iff segs).1 hph))
        · rw [if_neg hph]
          rcases List.mem_append.1 hc with hc | hc
          · exact .inl (mem_visitAll hc hpv)
          · obtain ⟨⟨i, args⟩, hs, hc⟩ := List.mem_flatMap.1 hc
            exact .inr (List.mem_append.2 (.inr (mem_visitSegs hs hc hpv)))

theorem searched_needs {f : Field} {t : STy} (h : t ∈ f.needs) : searched f = some t := by
  unfold Field.needs at h
  unfold searched
  split at h
  · rename_i w hw
    cases w with
    | type t' => rw [hw]; simp only [WithAttr.needs, List.mem_singleton] at h; simp [h]
    | function e => simp [WithAttr.needs] at h
  · rename_i hw
    rw [hw]; simp only [List.mem_singleton] at h; simp [h]

/-- What is needed is needed for a field, for the name, or for something else. -/
theorem needs_cases (c : Container) {t : STy} (h : t ∈ c.needs) :
    (∃ f ∈ visited c.data, searched f = some t) ∨ t ∈ otherNeeds c ∨ ∃ p ∈ c.rename, t = paramTy p := by
  unfold Container.needs at h
  rcases List.mem_append.1 h with h | h
  swap
  · obtain ⟨p, hp, e⟩ := List.mem_map.1 h
    exact .inr (.inr ⟨p, hp, e.symm⟩)
  have hdata : t ∈ c.data.needs → (∃ f ∈ visited c.data, searched f = some t) ∨ t ∈ otherNeeds c := by
    intro h
    cases hd : c.data with
    | struct fields =>
      rw [hd] at h
      obtain ⟨f, hf, ht⟩ := List.mem_flatMap.1 h
      exact .inl ⟨f, hf, searched_needs ht⟩
    | enum variants =>
      rw [hd] at h
      obtain ⟨v, hv, ht⟩ := List.mem_flatMap.1 h
      obtain ⟨hv1, hv2⟩ := List.mem_filter.1 hv
      unfold Variant.needs at ht
      split at ht
      · rename_i w hw
        refine .inr (List.mem_append.2 (.inr ?_))
        rw [hd]
        exact List.mem_flatMap.2 ⟨v, hv1, List.mem_flatMap.2 ⟨w, by simp [hw], ht⟩⟩
      · obtain ⟨f, hf, ht⟩ := List.mem_flatMap.1 ht
        refine .inl ⟨f, List.mem_flatMap.2 ⟨v, hv1, ?_⟩, searched_needs ht⟩
        rw [if_neg (by simpa using hv2)]
        exact hf
  cases hw : c.withAttr with
  | some w =>
    rw [hw] at h
    exact .inr (.inl (List.mem_append.2 (.inl (by rw [hw]; exact h))))
  | none =>
    rw [hw] at h
    rcases List.mem_append.1 h with h | h
    · exact .inr (.inl (List.mem_append.2 (.inl (by rw [hw]; exact h))))
    · split at h
      · cases h
      · rcases hdata h with h | h
        · exact .inl h
        · exact .inr (.inl h)

theorem rename_forBound (c : Container) (hsub : ∀ p ∈ c.rename, p ∈ c.all) : ∀ p ∈ c.rename, p ∈ forBound c := by
  intro p hp
  unfold forBound
  split
  · refine List.mem_filter.2 ⟨hsub p hp, ?_⟩
    rw [Bool.or_eq_true]
    exact .inl (List.elem_iff.2 hp)
  · exact hp

theorem visit_forBound (c : Container) (hsub : ∀ p ∈ c.rename, p ∈ c.all) (hnd : c.rename.Nodup)
    {f : Field} (hf : f ∈ visited c.data) (hb : f.deBound = none) {t : STy} (ht : searched f = some t) :
    ∀ p ∈ visit c.all t, p ∈ forBound c := by
  intro p hp
  have hall := mem_visited_all c.all p t hp
  have hv : visitField c.all f = visit c.all t := by
    unfold searched at ht
    unfold visitField
    split at ht <;> first | (cases ht; done) | (cases ht; simp [*])
  unfold forBound
  split
  · refine List.mem_filter.2 ⟨hall, ?_⟩
    rw [Bool.or_eq_true]
    refine .inr (List.any_eq_true.2 ⟨f, hf, ?_⟩)
    rw [Bool.and_eq_true]
    exact ⟨by rw [hb]; rfl, List.elem_iff.2 (by rw [hv]; exact hp)⟩
  · rename_i hlen
    exact rename_covers c hsub hnd hlen p hall

/-- C75 without `bound` attributes.
Missing: `bound` attributes, which replace the predicates; types in macros; type params that only occur in types of
`with` on variants and containers or of conversions, for which it fails (`C75_Full_false` and the examples below). -/
theorem C75_partial (W : World) (c : Container) (hc : Boundable c)
    (h : ∀ t ∈ c.needs, Implements W c.all (allBounds c) t) : ∀ t ∈ c.needs, Implements W c.all (wherePreds c) t := by
  intro t ht
  have hD : ∀ d ∈ c.declared, d ∈ wherePreds c := fun d hd => by
    unfold wherePreds; simp [hd]
  have hB : ∀ p ∈ forBound c, (⟨paramTy p⟩ : Pred) ∈ wherePreds c := fun p hp => by
    unfold wherePreds; rw [hc.container]
    simp only [List.append_assoc, List.mem_append]
    exact .inr (.inl (List.mem_map.2 ⟨p, hp, rfl⟩))
  rcases needs_cases c ht with ⟨f, hf, hs⟩ | ho | ⟨p, hp, rfl⟩
  · exact implements_visit (h t ht) hD (hc.overt f hf t hs) fun p hp =>
      hB p (visit_forBound c hc.rename.1 hc.rename.2 hf (hc.field f hf) hs p hp)
  · exact implements_mentions (h t ht) hD fun p hp hall => hB p (hc.other t ho p hp hall)
  · exact .given (hB p (rename_forBound c hc.rename.1 p hp))

/-! ## No bound is superfluous -/

theorem not_implements_visit {params : List String} {P : List Pred} {p : String}
    (hP : ∀ d ∈ P, ∃ q, q ≠ p ∧ d = ⟨paramTy q⟩) (t : STy) (hd : Direct params t) (hv : p ∈ visit params t) :
    ¬ Implements strict params P t := by
  refine STy.rec (motive_1 := fun t => Direct params t → p ∈ visit params t → ¬ Implements strict params P t)
    (motive_2 := fun s => DirectSegs params [s] → p ∈ visitSegs params [s] →
      ∃ u ∈ (match s with | .mk _ args => args), ¬ Implements strict params P u)
    (motive_3 := fun l => DirectAll params l → p ∈ visitAll params l → ∃ u ∈ l, ¬ Implements strict params P u)
    (motive_4 := fun l => DirectSegs params l → p ∈ visitSegs params l →
      ∃ s ∈ l, ∃ u ∈ (match s with | .mk _ args => args), ¬ Implements strict params P u)
    ?_ ?_ ?_ ?_ ?_ ?_ ?_ ?_ t hd hv
  · intro k l ih hd hv hi
    obtain ⟨u, hu, hn⟩ := ih (by simpa only [Direct] using hd) (by simpa only [visit] using hv)
    cases hi with
    | given h => obtain ⟨q, _, e⟩ := hP _ h; cases e
    | impl _ _ ha => exact hn (ha u ⟨hu, fun _ _ _ e => by cases e⟩)
  · intro q leading segs _ ihs hd hv hi
    simp only [Direct] at hd
    obtain ⟨rfl, hds, hdh⟩ := hd
    simp only [visit, visitAll, List.nil_append] at hv
    split at hv
    · cases hv
    rename_i hph
    rcases List.mem_append.1 hv with hv | hv
    · have hfrom : leading = false ∧ segs = [.mk p []] ∧ p ∈ params := by
        unfold headParam at hv
        split at hv
        · cases hv
        rename_i hl
        have hl' : leading = false := by simpa using hl
        cases segs with
        | nil => cases hv
        | cons s rest =>
          dsimp only at hv
          by_cases hm : params.contains s.ident = true
          · rw [if_pos hm] at hv
            have hm' := List.elem_iff.1 hm
            cases List.mem_singleton.1 hv
            exact ⟨hl', hdh s rfl hl' hm', hm'⟩
          · rw [if_neg hm] at hv; cases hv
      obtain ⟨rfl, rfl, hmem⟩ := hfrom
      cases hi with
      | given h => obtain ⟨q, hne, e⟩ := hP _ h; cases e; exact hne rfl
      | impl hn _ _ => exact hn hmem
    · obtain ⟨s, hs, u, hu, hn⟩ := ihs hds hv
      cases hi with
      | given h =>
        obtain ⟨q, _, e⟩ := hP _ h
        cases e
        cases List.mem_singleton.1 hs
        cases hu
      | impl _ _ ha =>
        refine hn (ha u ⟨?_, ?_⟩)
        · exact List.mem_append.2 (.inr (List.mem_flatMap.2 ⟨s, hs, hu⟩))
        · intro _ _ segs' e
          cases e
          exact fun hx => hph ((isPhantom_iff segs).2 hx)
  · intro k l _ hd hv
    simp [visit] at hv
  · intro i args ih hd hv
    simp only [DirectSegs] at hd
    simp only [visitSegs, List.append_nil] at hv
    exact ih hd.1 hv
  · intro _ hv; simp [visitAll] at hv
  · intro t l ih1 ih2 hd hv
    simp only [DirectAll] at hd
    simp only [visitAll, List.mem_append] at hv
    rcases hv with hv | hv
    · exact ⟨t, List.mem_cons_self, ih1 hd.1 hv⟩
    · obtain ⟨u, hu, hn⟩ := ih2 hd.2 hv
      exact ⟨u, List.mem_cons_of_mem _ hu, hn⟩
  · intro _ hv; simp [visitSegs] at hv
  · rintro ⟨i, args⟩ l ih1 ih2 hd hv
    simp only [DirectSegs] at hd
    simp only [visitSegs, List.mem_append] at hv
    rcases hv with hv | hv
    · obtain ⟨u, hu, hn⟩ := ih1 (by simp only [DirectSegs]; exact ⟨hd.1, trivial⟩)
        (by simp only [visitSegs, List.append_nil]; exact hv)
      exact ⟨_, List.mem_cons_self, u, hu, hn⟩
    · obtain ⟨s, hs, h⟩ := ih2 hd.2 hv
      exact ⟨s, List.mem_cons_of_mem _ hs, h⟩

/-- C75, the other direction: every bound that is added is needed, in a program where all other types implement
`JsonSchema` as soon as their components do. Without it, some type that the implementation calls has no
implementation. -/
theorem C75_needed (c : Container) (hw : c.withAttr = none) (hf : c.from = none) (hi : c.into = none)
    (hv : ∀ vs, c.data = .enum vs → ∀ v ∈ vs, v.withAttr = none)
    (hd : ∀ f ∈ visited c.data, ∀ t ∈ searched f, Direct c.all t) {p : String} (hp : p ∈ forBound c)
    (hph : p ≠ "PhantomData") (hsub : ∀ p ∈ c.rename, p ∈ c.all) :
    ∃ t ∈ c.needs, ¬ Implements strict c.all (boundsWithout c p) t := by
  have hP : ∀ d ∈ boundsWithout c p, ∃ q, q ≠ p ∧ d = ⟨paramTy q⟩ := by
    intro d hd
    obtain ⟨q, hq, e⟩ := List.mem_map.1 hd
    exact ⟨q, by simpa using (List.mem_filter.1 hq).2, e.symm⟩
  have hname : p ∈ c.rename → ∃ t ∈ c.needs, ¬ Implements strict c.all (boundsWithout c p) t := by
    intro h
    refine ⟨paramTy p, List.mem_append.2 (.inr (List.mem_map.2 ⟨p, h, rfl⟩)), ?_⟩
    refine not_implements_visit hP _ ?_ ?_
    · simp [paramTy, Direct, DirectSegs, DirectAll, Seg.ident]
    · simp [paramTy, visit, visitAll, visitSegs, isPhantom, headParam, Seg.ident, hph, hsub p h]
  unfold forBound at hp
  split at hp
  swap
  · exact hname hp
  rcases Bool.or_eq_true _ _ ▸ (List.mem_filter.1 hp).2 with h | h
  · exact hname (List.elem_iff.1 h)
  obtain ⟨f, hfv, h⟩ := List.any_eq_true.1 h
  have hvis := List.elem_iff.1 ((Bool.and_eq_true _ _ ▸ h).2)
  have hs : ∃ t, searched f = some t ∧ t ∈ f.needs ∧ p ∈ visit c.all t := by
    unfold visitField at hvis
    unfold searched Field.needs
    split at hvis
    · rename_i t hwt; exact ⟨t, by rw [hwt], by rw [hwt]; simp [WithAttr.needs], hvis⟩
    · cases hvis
    · rename_i hwt; exact ⟨f.ty, by rw [hwt], by rw [hwt]; simp, hvis⟩
  obtain ⟨t, hst, htn, hpv⟩ := hs
  refine ⟨t, List.mem_append.2 (.inl ?_), not_implements_visit hP t (hd f hfv t hst) hpv⟩
  rw [hw, hf, hi]
  simp only [Option.toList_none, List.nil_append, Option.isSome_none, Bool.and_self, Bool.false_eq_true, if_false]
  cases hdt : c.data with
  | struct fields =>
    rw [hdt] at hfv
    exact List.mem_flatMap.2 ⟨f, hfv, htn⟩
  | enum variants =>
    rw [hdt] at hfv
    obtain ⟨v, hv1, hv2⟩ := List.mem_flatMap.1 hfv
    split at hv2
    · cases hv2
    rename_i hsk
    refine List.mem_flatMap.2 ⟨v, List.mem_filter.2 ⟨hv1, by simpa using hsk⟩, ?_⟩
    unfold Variant.needs
    rw [hv variants hdt v hv1]
    exact List.mem_flatMap.2 ⟨f, hv2, htn⟩

/-! ## Where it fails -/

namespace Wh

def name (n : String) (args : List STy := []) : STy := .path [] false [.mk n args]

/-- `struct S<T, U> { a: Vec<T>, #[serde(skip)] b: U, c: PhantomData<U> }` -/
def plain : Container where
  all := ["T", "U"]
  data := .struct [{ ty := name "Vec" [name "T"] }, { ty := name "U", skipped := true },
    { ty := name "PhantomData" [name "U"] }]

theorem vec_strict {params : List String} {P : List Pred} {t : STy} (hv : "Vec" ∉ params)
    (h : Implements strict params P t) : Implements strict params P (name "Vec" [t]) := by
  refine .impl hv trivial ?_
  rintro u ⟨hu, -⟩
  simp only [name, components, List.nil_append, List.flatMap_cons, List.flatMap_nil, List.append_nil,
    List.mem_singleton] at hu
  subst hu
  exact h

/-- The hypotheses of `C75_partial` and `C75_needed` hold. -/
example : Boundable plain ∧ (∀ t ∈ plain.needs, Implements strict plain.all (allBounds plain) t) ∧
    (∀ f ∈ visited plain.data, ∀ t ∈ searched f, Direct plain.all t) ∧ forBound plain = ["T"] := by
  have hv : visited plain.data = [{ ty := name "Vec" [name "T"] }, { ty := name "PhantomData" [name "U"] }] := rfl
  refine ⟨⟨⟨by decide, by decide⟩, rfl, ?_, ?_, ?_⟩, ?_, ?_, by decide⟩
  · rw [hv]; intro f hf; simp only [List.mem_cons, List.not_mem_nil, or_false] at hf
    rcases hf with rfl | rfl <;> rfl
  · rw [hv]; intro f hf; simp only [List.mem_cons, List.not_mem_nil, or_false] at hf
    rcases hf with rfl | rfl <;> intro t ht <;> cases ht <;>
      simp [name, Overt, OvertAll, OvertSegs, plain, Seg.ident]
  · intro t ht; cases ht
  · intro t ht
    have : plain.needs = [name "Vec" [name "T"], name "PhantomData" [name "U"]] := rfl
    rw [this] at ht
    simp only [List.mem_cons, List.not_mem_nil, or_false] at ht
    rcases ht with rfl | rfl
    · exact vec_strict (by decide) (.given (List.mem_append.2 (.inr (List.mem_map.2 ⟨"T", by decide, rfl⟩))))
    · exact .impl (by simp [FromParam, name, plain]) trivial fun u hu => absurd rfl (hu.2 [] false _ rfl)
  · rw [hv]; intro f hf; simp only [List.mem_cons, List.not_mem_nil, or_false] at hf
    rcases hf with rfl | rfl <;> intro t ht <;> cases ht <;>
      simp [name, Direct, DirectAll, DirectSegs, plain, Seg.ident]

/-- The where clause is not enough for a type that is implemented if the type params are. -/
def Missing (c : Container) : Prop :=
  (∀ p ∈ c.rename, p ∈ c.all) ∧ c.rename.Nodup ∧ (∀ t ∈ c.needs, Implements strict c.all (allBounds c) t) ∧
    ∃ t ∈ c.needs, ¬ Implements strict c.all (wherePreds c) t

/-- `T` is not implemented if nothing says so. -/
theorem not_param {params : List String} {P : List Pred} {p : String} (hp : p ∈ params)
    (h : (⟨paramTy p⟩ : Pred) ∉ P) : ¬ Implements strict params P (paramTy p) := by
  intro hi
  cases hi with
  | given hg => exact h hg
  | impl hn _ _ => exact hn hp

/-- `enum E<T> { #[schemars(with = "T")] A(String) }` -/
def variant : Container where
  all := ["T"]
  data := .enum [{ fields := [{ ty := name "String" }], withAttr := some (.type (paramTy "T")) }]

/-- `#[serde(from = "T")] struct S<T> { a: PhantomData<T> }` -/
def conversion : Container where
  all := ["T"]
  «from» := some (paramTy "T")
  data := .struct [{ ty := name "PhantomData" [name "T"] }]

/-- `T::A` -/
def assocTy : STy := .path [] false [.mk "T" [], .mk "A" []]

def boundField : Field := { ty := assocTy, deBound := some [⟨assocTy⟩] }

/-- `#[schemars(rename = "S_{T}")] struct S<T> where .. { #[serde(bound = "T::A: JsonSchema")] a: T::A }`: the
predicate is only used if some type param is not in the name. -/
def dropped : Container where
  all := ["T"]
  rename := ["T"]
  data := .struct [boundField]

end Wh

open Wh

/-- The type in `with` on a variant is not searched. -/
theorem C75_variant : Missing Wh.variant := by
  refine ⟨by decide, by decide, ?_, paramTy "T", List.mem_singleton.2 rfl, not_param (by decide) ?_⟩
  · intro t ht
    cases List.mem_singleton.1 ht
    exact .given (List.mem_singleton.2 rfl)
  · have : wherePreds Wh.variant = [] := rfl
    rw [this]; exact List.not_mem_nil

/-- The types of conversions are not searched. -/
theorem C75_conversion : Missing Wh.conversion := by
  refine ⟨by decide, by decide, ?_, paramTy "T", List.mem_cons_self, not_param (by decide) ?_⟩
  · intro t ht
    have : Wh.conversion.needs = [paramTy "T", name "PhantomData" [name "T"]] := rfl
    rw [this] at ht
    simp only [List.mem_cons, List.not_mem_nil, or_false] at ht
    rcases ht with rfl | rfl
    · exact .given (List.mem_singleton.2 rfl)
    · exact .impl (by simp [FromParam, name, Wh.conversion]) trivial fun u hu => absurd rfl (hu.2 [] false _ rfl)
  · have : wherePreds Wh.conversion = [] := rfl
    rw [this]; exact List.not_mem_nil

/-- C75 as stated is false. -/
theorem C75_Full_false : ¬ C75_Full := by
  intro h
  obtain ⟨h1, h2, h3, t, ht, hn⟩ := C75_variant
  exact hn (h strict Wh.variant h1 h2 h3 t ht)

/-- The predicates in the `bound` of a field are dropped if the name mentions all type params, and with them the
field's type is not implemented, although its `bound` says that it is. -/
theorem C75_dropped : (wherePreds Wh.dropped).length = 1 ∧
    ∃ f ∈ visited Wh.dropped.data, (∃ ps, f.deBound = some ps ∧ (⟨f.ty⟩ : Pred) ∈ ps) ∧ f.ty ∈ Wh.dropped.needs ∧
      ¬ Implements strict Wh.dropped.all (wherePreds Wh.dropped) f.ty := by
  refine ⟨rfl, Wh.boundField, List.mem_singleton.2 rfl, ⟨_, rfl, List.mem_singleton.2 rfl⟩, List.mem_cons_self, ?_⟩
  intro hi
  cases hi with
  | given hg =>
    have : wherePreds Wh.dropped = [⟨paramTy "T"⟩] := rfl
    rw [this] at hg
    have := List.mem_singleton.1 hg
    simp [paramTy, Wh.boundField, Wh.assocTy] at this
  | impl hn _ _ => exact hn (List.mem_singleton.2 rfl)

end Verif
