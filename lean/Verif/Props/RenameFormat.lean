import Verif.RenameFormat
import Verif.Lemmas.Encoding

/-!
# C55: rename format strings
-/

namespace Verif

/-- The format strings of `format!` with placeholders that are only names: `{{` and `}}` stand for braces, and
every other brace belongs to a placeholder. The second argument lists the placeholders. -/
inductive Spec.Format : List Char → List (List Char) → Prop
  | nil : Format [] []
  | lit {c s hs} : c ≠ '{' → c ≠ '}' → Format s hs → Format (c :: s) hs
  | openBrace {s hs} : Format s hs → Format ('{' :: '{' :: s) hs
  | closeBrace {s hs} : Format s hs → Format ('}' :: '}' :: s) hs
  | hole {name s hs} : '{' ∉ name → '}' ∉ name → Format s hs → Format ('{' :: name ++ '}' :: s) (name :: hs)

open Spec

theorem removePairs_cons_ne {c x : Char} (h : x ≠ c) (t : List Char) :
    removePairs c (x :: t) = x :: removePairs c t := by
  cases t with
  | nil => rfl
  | cons y t => rw [removePairs, if_neg (fun hc => h hc.1)]

theorem removePairs_append_no {c : Char} {a : List Char} (h : c ∉ a) (t : List Char) :
    removePairs c (a ++ t) = a ++ removePairs c t := by
  induction a with
  | nil => rfl
  | cons x a ih =>
    rw [List.cons_append, removePairs_cons_ne (fun hc => h (by simp [hc])),
      ih (fun hc => h (List.mem_cons_of_mem _ hc)), List.cons_append]

theorem removePairs_single {c y : Char} (h : y ≠ c) (t : List Char) :
    removePairs c (c :: y :: t) = c :: removePairs c (y :: t) := by
  rw [removePairs, if_neg (fun hc => h hc.2)]

/-- What remains of a format string after removing `{{`. -/
theorem removeOpen_hole {name s : List Char} (h : '{' ∉ name) :
    removePairs '{' ('{' :: name ++ '}' :: s) = '{' :: name ++ '}' :: removePairs '{' s := by
  cases name with
  | nil =>
    rw [List.cons_append, List.nil_append, removePairs_single (by decide), removePairs_cons_ne (by decide)]
    rfl
  | cons x name =>
    rw [List.cons_append, List.cons_append, removePairs_single (fun hc => h (by simp [hc])),
      removePairs_cons_ne (fun hc => h (by simp [hc])),
      removePairs_append_no (fun hc => h (List.mem_cons_of_mem _ hc)), removePairs_cons_ne (by decide)]
    rfl

theorem removeClose_cons {s : List Char} {hs : List (List Char)} (h : Format s hs) :
    removePairs '}' ('}' :: removePairs '{' s) = '}' :: removePairs '}' (removePairs '{' s) := by
  induction h with
  | nil => rfl
  | lit h1 h2 _ _ => rw [removePairs_cons_ne h1, removePairs_single h2]
  | openBrace _ ih =>
    rw [show ∀ t, removePairs '{' ('{' :: '{' :: t) = removePairs '{' t from
      fun t => by rw [removePairs, if_pos ⟨rfl, rfl⟩]]
    exact ih
  | closeBrace _ ih =>
    have h2 : ∀ t, removePairs '}' ('}' :: '}' :: t) = removePairs '}' t :=
      fun t => by rw [removePairs, if_pos ⟨rfl, rfl⟩]
    rw [removePairs_cons_ne (c := '{') (by decide), removePairs_cons_ne (c := '{') (by decide), h2, h2, ih]
  | hole h1 _ _ _ =>
    rw [removeOpen_hole h1, List.cons_append, removePairs_single (by decide)]

theorem splitOnce_append {name : List Char} (h : '}' ∉ name) (r : List Char) :
    splitOnce '}' (name ++ '}' :: r) = some (name, r) := by
  induction name with
  | nil => rw [List.nil_append, splitOnce, if_pos rfl]
  | cons x name ih =>
    rw [List.cons_append, splitOnce, if_neg (fun hc => h (by simp [hc])),
      ih (fun hc => h (List.mem_cons_of_mem _ hc))]
    rfl

/-- The segments that belong to the placeholders. -/
def Segments : List (List Char) → List (List Char) → Prop :=
  List.Forall₂ fun seg name => ∃ rest, splitOnce '}' seg = some (name, rest) ∧ '}' ∉ rest

theorem format_segments {s : List Char} {hs : List (List Char)} (h : Format s hs) :
    ∃ first rest, splitChar '{' (removePairs '}' (removePairs '{' s)) = first :: rest ∧ '}' ∉ first ∧
      Segments rest hs := by
  induction h with
  | nil => exact ⟨[], [], rfl, by simp, .nil⟩
  | @lit c _ _ h1 h2 _ ih =>
    obtain ⟨first, rest, he, hf, hr⟩ := ih
    refine ⟨c :: first, rest, ?_, ?_, hr⟩
    · rw [removePairs_cons_ne h1, removePairs_cons_ne h2, splitChar_cons_ne h1 he]
    · intro hc
      rcases List.mem_cons.1 hc with hc | hc
      · exact h2 hc.symm
      · exact hf hc
  | openBrace _ ih =>
    rw [show ∀ t, removePairs '{' ('{' :: '{' :: t) = removePairs '{' t from
      fun t => by rw [removePairs, if_pos ⟨rfl, rfl⟩]]
    exact ih
  | closeBrace _ ih =>
    rw [removePairs_cons_ne (c := '{') (by decide), removePairs_cons_ne (c := '{') (by decide),
      show ∀ t, removePairs '}' ('}' :: '}' :: t) = removePairs '}' t from
        fun t => by rw [removePairs, if_pos ⟨rfl, rfl⟩]]
    exact ih
  | @hole name s hs h1 h2 hf ih =>
    obtain ⟨first, rest, he, hf', hr⟩ := ih
    refine ⟨[], (name ++ '}' :: first) :: rest, ?_, by simp, .cons ⟨first, splitOnce_append h2 _, hf'⟩ hr⟩
    rw [removeOpen_hole h1, List.cons_append, removePairs_cons_ne (by decide), removePairs_append_no h2,
      removeClose_cons hf, splitChar_cons_self]
    congr 1
    have h3 : splitChar '{' ('}' :: removePairs '}' (removePairs '{' s)) = ('}' :: first) :: rest :=
      splitChar_cons_ne (by decide) he
    clear hr hf' hf h2 he
    induction name with
    | nil => exact h3
    | cons x name ih2 =>
      rw [List.cons_append, List.cons_append]
      exact splitChar_cons_ne (fun hc => h1 (by simp [hc])) (ih2 (fun hc => h1 (List.mem_cons_of_mem _ hc)))

theorem renameSegments_spec (types consts : List (List Char)) {segs hs : List (List Char)}
    (h : Segments segs hs) :
    ((renameSegments types consts segs).1 = [] ↔ ∀ p ∈ hs, p ∈ types ∨ p ∈ consts) ∧
    ∀ p, p ∈ (renameSegments types consts segs).2 ↔ p ∈ hs ∧ p ∈ types := by
  unfold Segments at h
  induction h with
  | nil => simp [renameSegments]
  | @cons seg name segs hs hh _ ih =>
    obtain ⟨rest, h1, h2⟩ := hh
    simp only [renameSegments, h1, if_neg h2, List.nil_append]
    by_cases ht : name ∈ types
    · simp only [if_pos ht]
      refine ⟨?_, ?_⟩
      · rw [ih.1]; simp [ht]
      · intro p
        rw [List.mem_cons, ih.2, List.mem_cons]
        constructor
        · rintro (rfl | h)
          · exact ⟨.inl rfl, ht⟩
          · exact ⟨.inr h.1, h.2⟩
        · rintro ⟨rfl | h, h'⟩
          · exact .inl rfl
          · exact .inr ⟨h, h'⟩
    · simp only [if_neg ht]
      have hfound : ∀ p, (p ∈ hs ∧ p ∈ types) ↔ (p ∈ name :: hs ∧ p ∈ types) := by
        intro p
        rw [List.mem_cons]
        constructor
        · exact fun h => ⟨.inr h.1, h.2⟩
        · rintro ⟨rfl | h, h'⟩
          · exact absurd h' ht
          · exact ⟨h, h'⟩
      by_cases hc : name ∈ consts
      · simp only [if_pos hc]
        refine ⟨?_, fun p => (ih.2 p).trans (hfound p)⟩
        rw [ih.1]; simp [hc]
      · simp only [if_neg hc]
        refine ⟨?_, fun p => (ih.2 p).trans (hfound p)⟩
        simp [ht, hc]

/-- A well formed format string is accepted exactly when all its placeholders are generic parameters, and the
type parameters found are exactly the placeholders that name one. -/
theorem C55_format {types consts hs : List (List Char)} {s : List Char} (h : Format s hs) :
    ((renameFormat types consts s).1 = [] ↔ ∀ p ∈ hs, p ∈ types ∨ p ∈ consts) ∧
    ∀ p, p ∈ (renameFormat types consts s).2 ↔ p ∈ hs ∧ p ∈ types := by
  unfold renameFormat
  by_cases hb : '{' ∈ s
  · rw [if_pos hb]
    obtain ⟨first, rest, he, hf, hr⟩ := format_segments h
    simp only [he, if_neg hf, List.nil_append]
    exact renameSegments_spec types consts hr
  · rw [if_neg hb]
    have : hs = [] := by
      induction h with
      | nil => rfl
      | lit _ _ _ ih => exact ih (fun hc => hb (List.mem_cons_of_mem _ hc))
      | openBrace _ _ => exact absurd (by simp) hb
      | closeBrace _ ih => exact ih (fun hc => hb (by simp [hc]))
      | hole _ _ _ _ => exact absurd (by simp) hb
    subst this
    simp

/-- Without `{` there is nothing to fill in: the text is taken as it is (schemars_derive/src/lib.rs:104). -/
theorem C55_no_brace (types consts : List (List Char)) {s : List Char} (h : '{' ∉ s) :
    renameFormat types consts s = ([], []) := by
  unfold renameFormat; rw [if_neg h]

/-- What `format!(s, type_params = …)` (schemars_derive/src/lib.rs:109-116) accepts: the string is well formed,
each placeholder is one of the arguments or a name in scope, and each argument is used. -/
def Spec.FormatMacro (s : List Char) (args scope : List (List Char)) : Prop :=
  ∃ hs, Format s hs ∧ (∀ p ∈ hs, p ∈ args ∨ p ∈ scope) ∧ ∀ p ∈ args, p ∈ hs

/-- The derived code compiles (so far as the name is concerned): no error is reported, and the generated
`format!` call is accepted. -/
def RenameCompiles (types consts : List (List Char)) (s : List Char) : Prop :=
  (renameFormat types consts s).1 = [] ∧
    ('{' ∈ s → FormatMacro s (renameFormat types consts s).2 consts)

/-- C55: a rename string with `{` is accepted exactly when it is a well formed format string and all its
placeholders are generic parameters. -/
theorem C55 (types consts : List (List Char)) {s : List Char} (hb : '{' ∈ s) :
    RenameCompiles types consts s ↔ ∃ hs, Format s hs ∧ ∀ p ∈ hs, p ∈ types ∨ p ∈ consts := by
  constructor
  · rintro ⟨h1, h2⟩
    obtain ⟨hs, hf, _, _⟩ := h2 hb
    exact ⟨hs, hf, (C55_format hf).1.1 h1⟩
  · rintro ⟨hs, hf, h⟩
    have hc := C55_format (types := types) (consts := consts) hf
    refine ⟨hc.1.2 h, fun _ => ⟨hs, hf, ?_, fun p hp => ((hc.2 p).1 hp).1⟩⟩
    intro p hp
    rcases h p hp with h | h
    · exact .inl ((hc.2 p).2 ⟨hp, h⟩)
    · exact .inr h

theorem removePairs_none {c : Char} {s : List Char} (h : ¬ [c, c] <:+: s) : removePairs c s = s := by
  induction s with
  | nil => rfl
  | cons x s ih =>
    have ih := ih fun hc => h (hc.trans (List.suffix_cons x s).isInfix)
    cases s with
    | nil => rfl
    | cons y t =>
      rw [removePairs, if_neg, ih]
      rintro ⟨rfl, rfl⟩
      exact h ⟨[], t, rfl⟩

theorem splitOnce_some {a p r : List Char} (h : splitOnce '}' a = some (p, r)) :
    '}' ∉ p ∧ ∀ x ∈ p, x ∈ a := by
  induction a generalizing p with
  | nil => cases h
  | cons x a ih =>
    unfold splitOnce at h
    split at h
    · cases h; simp
    · next hx =>
      simp only [Option.map_eq_some_iff, Prod.exists, Prod.mk.injEq] at h
      obtain ⟨p', r', h1, rfl, rfl⟩ := h
      have := ih h1
      refine ⟨fun hc => ?_, fun y hy => ?_⟩
      · rcases List.mem_cons.1 hc with hc | hc
        · exact hx hc.symm
        · exact this.1 hc
      · rcases List.mem_cons.1 hy with rfl | hy
        · exact List.mem_cons_self ..
        · exact List.mem_cons_of_mem _ (this.2 y hy)

/-- What it means that no error is found for the segments. -/
theorem renameSegments_ok {types consts : List (List Char)} {seg : List Char} {segs : List (List Char)}
    (h : (renameSegments types consts (seg :: segs)).1 = []) :
    (renameSegments types consts segs).1 = [] ∧
      ∃ p r, splitOnce '}' seg = some (p, r) ∧ '}' ∉ r ∧ (p ∈ types ∨ p ∈ consts) := by
  unfold renameSegments at h
  simp only at h
  cases hs : splitOnce '}' seg with
  | none => rw [hs] at h; simp at h
  | some e =>
    obtain ⟨p, r⟩ := e
    rw [hs] at h
    simp only at h
    by_cases ht : p ∈ types
    · rw [if_pos ht] at h
      simp only [List.append_eq_nil_iff] at h
      exact ⟨h.2, p, r, rfl, fun hr => by simp [hr] at h, .inl ht⟩
    · rw [if_neg ht] at h
      by_cases hc : p ∈ consts
      · rw [if_pos hc] at h
        simp only [List.append_eq_nil_iff] at h
        exact ⟨h.2, p, r, rfl, fun hr => by simp [hr] at h, .inr hc⟩
      · rw [if_neg hc] at h
        simp at h

theorem format_of_segments {types consts : List (List Char)} (s : List Char) :
    ∀ first segs, splitChar '{' s = first :: segs → (renameSegments types consts segs).1 = [] →
      '{' ∉ first ∧
      ('}' ∉ first → ∃ hs, Format s hs ∧ ∀ p ∈ hs, p ∈ types ∨ p ∈ consts) ∧
      ∀ p r, splitOnce '}' first = some (p, r) → '}' ∉ r →
        ∃ s' hs, s = p ++ '}' :: s' ∧ Format s' hs ∧ ∀ p ∈ hs, p ∈ types ∨ p ∈ consts := by
  induction s with
  | nil =>
    intro first segs he _
    cases he
    exact ⟨by simp, fun _ => ⟨[], .nil, by simp⟩, fun p r h => by cases h⟩
  | cons c s ih =>
    intro first segs he herr
    obtain ⟨f, sg, hf⟩ : ∃ f sg, splitChar '{' s = f :: sg := by
      cases h : splitChar '{' s with
      | nil => exact absurd h (splitChar_ne_nil _ _)
      | cons f sg => exact ⟨f, sg, rfl⟩
    by_cases hc : c = '{'
    · subst hc
      rw [splitChar_cons_self, hf] at he
      cases he
      obtain ⟨herr, p, r, hp, hr, hgood⟩ := renameSegments_ok herr
      obtain ⟨h1, -, h2⟩ := ih f sg hf herr
      obtain ⟨s', hs, rfl, hfmt, hall⟩ := h2 p r hp hr
      refine ⟨by simp, fun _ => ⟨p :: hs, .hole (fun hm => h1 ((splitOnce_some hp).2 _ hm)) (splitOnce_some hp).1 hfmt, ?_⟩,
        fun p r h => by cases h⟩
      intro q hq
      rcases List.mem_cons.1 hq with rfl | hq
      · exact hgood
      · exact hall q hq
    · rw [splitChar_cons_ne hc hf] at he
      cases he
      obtain ⟨h1, h2, h3⟩ := ih f _ hf herr
      refine ⟨fun hm => ?_, fun hn => ?_, fun p r hp hr => ?_⟩
      · rcases List.mem_cons.1 hm with hm | hm
        · exact hc hm.symm
        · exact h1 hm
      · obtain ⟨hs, hfmt, hall⟩ := h2 fun hm => hn (List.mem_cons_of_mem _ hm)
        exact ⟨hs, .lit hc (fun h => hn (by simp [h])) hfmt, hall⟩
      · unfold splitOnce at hp
        split at hp
        · next hc' =>
          subst hc'
          cases hp
          obtain ⟨hs, hfmt, hall⟩ := h2 hr
          exact ⟨s, hs, rfl, hfmt, hall⟩
        · simp only [Option.map_eq_some_iff, Prod.exists, Prod.mk.injEq] at hp
          obtain ⟨p', r', h4, rfl, rfl⟩ := hp
          obtain ⟨s', hs, rfl, hfmt, hall⟩ := h3 p' r' h4 hr
          exact ⟨s', hs, rfl, hfmt, hall⟩

/-- C55 for the function alone, without doubled braces: no error is reported exactly if the string is a well formed
format string and all its placeholders are generic parameters. -/
theorem C55_single {types consts : List (List Char)} {s : List Char} (hb : '{' ∈ s) (h1 : ¬ ['{', '{'] <:+: s)
    (h2 : ¬ ['}', '}'] <:+: s) :
    (renameFormat types consts s).1 = [] ↔ ∃ hs, Format s hs ∧ ∀ p ∈ hs, p ∈ types ∨ p ∈ consts := by
  constructor
  · intro h
    unfold renameFormat at h
    rw [if_pos hb, removePairs_none h1, removePairs_none h2] at h
    cases he : splitChar '{' s with
    | nil => exact absurd he (splitChar_ne_nil _ _)
    | cons first segs =>
      rw [he] at h
      simp only [List.append_eq_nil_iff] at h
      exact (format_of_segments s first segs he h.2).2.1 fun hm => by simp [hm] at h
  · rintro ⟨hs, hf, h⟩
    exact (C55_format hf).1.2 h

/-- The literal claim about the function alone. -/
def C55_Full : Prop := ∀ types consts s,
  (renameFormat types consts s).1 = [] ↔ ∃ hs, Format s hs ∧ ∀ p ∈ hs, p ∈ types ∨ p ∈ consts

theorem not_format_close {s : List Char} {c : Char} {hs : List (List Char)} (h : c ≠ '}') :
    ¬ Format ('}' :: c :: s) hs := by
  intro hf
  cases hf with
  | lit _ h2 _ => exact h2 rfl
  | closeBrace _ => exact h rfl

/-- It fails: removing `{{` first joins the braces around it, so `}{{}` passes (the generated `format!` call is
what rejects it). -/
theorem C55_function_alone_fails : ¬ C55_Full := by
  intro h
  obtain ⟨hs, hf, _⟩ := (h [] [] ['}', '{', '{', '}']).1 (by decide)
  exact not_format_close (by decide) hf

/-- A string without `{` is accepted whatever its closing braces are. -/
theorem C55_close_without_open : (renameFormat [] [] ['a', '}', 'b']).1 = [] := by decide

example : Format "A{{B}}{T}x".toList ["T".toList] :=
  .lit (by decide) (by decide) (.openBrace (.lit (by decide) (by decide) (.closeBrace
    (.hole (name := ['T']) (by decide) (by decide) (.lit (by decide) (by decide) .nil)))))
example : renameFormat ["T".toList] ["N".toList] "A{{B}}{T}{N}x".toList = ([], ["T".toList]) := by decide
example : renameFormat ["T".toList] [] "A{U}".toList = ([.notGeneric "U".toList], []) := by decide
example : (renameFormat ["T".toList] [] "x{T}y".toList).1 = [] :=
  (C55_single (by decide) (by decide) (by decide)).2 ⟨["T".toList], .lit (by decide) (by decide)
    (.hole (name := ['T']) (by decide) (by decide) (.lit (by decide) (by decide) .nil)), by decide⟩
example : RenameCompiles ["T".toList] [] "x{T}".toList :=
  (C55 _ _ (by decide)).2 ⟨["T".toList], .lit (by decide) (by decide)
    (.hole (name := ['T']) (by decide) (by decide) .nil), by decide⟩

end Verif
