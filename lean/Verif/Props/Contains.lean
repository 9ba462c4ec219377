import Verif.Spec.Regex
import Verif.Private
import Mathlib.Data.List.Induction

/-!
# C52: the pattern of `contains(...)` is the literal substring
-/

namespace Verif
open Spec

theorem regexEscape_cons (c : Char) (t : List Char) :
    regexEscape (c :: t) = (if c ∈ metaChars then ['\\', c] else [c]) ++ regexEscape t := rfl

theorem regexEscape_append (t t' : List Char) : regexEscape (t ++ t') = regexEscape t ++ regexEscape t' := by
  simp [regexEscape]

/-- The first character of an escaped text is a backslash or has no meaning. -/
theorem escape_head {x : Char} {s t : List Char} (h : x :: s = regexEscape t) :
    ∃ c t', t = c :: t' ∧
      ((c ∈ metaChars ∧ x = '\\' ∧ s = c :: regexEscape t') ∨ (c ∉ metaChars ∧ x = c ∧ s = regexEscape t')) := by
  cases t with
  | nil => cases h
  | cons c t' =>
    refine ⟨c, t', rfl, ?_⟩
    rw [regexEscape_cons] at h
    by_cases hc : c ∈ metaChars
    · rw [if_pos hc] at h
      simp only [List.cons_append, List.nil_append, List.cons.injEq] at h
      exact .inl ⟨hc, h.1, h.2⟩
    · rw [if_neg hc] at h
      simp only [List.cons_append, List.nil_append, List.cons.injEq] at h
      exact .inr ⟨hc, h.1, h.2⟩

theorem escape_not_head {x : Char} {s t : List Char} (hx : x ∈ metaChars) (hb : x ≠ '\\') :
    x :: s ≠ regexEscape t := by
  intro h
  obtain ⟨c, t', _, h1 | h1⟩ := escape_head h
  · exact hb h1.2.1
  · exact h1.1 (h1.2.1 ▸ hx)

/-- `r` matches exactly the text `t`. -/
def Literal (r : Re) (t : List Char) : Prop := ∀ b m a, r.Match b m a ↔ m = t

/-- The characters of the text that are escaped may be escaped. -/
def Escapable (mode : ReMode) (t : List Char) : Prop := ∀ c ∈ t, c ∈ metaChars → IdentityEscape mode c

/-- A parse of a beginning of an escaped text. -/
def Beginning (mode : ReMode) (cat : Cat) (s : List Char) (r : Re) : Prop :=
  ∀ rest t, s ++ rest = regexEscape t →
    match cat with
    | .atom | .term => ∃ c t', t = c :: t' ∧ s = regexEscape [c] ∧ rest = regexEscape t' ∧ r = .char c ∧
        Escapable mode [c]
    | .alternative | .disjunction => ∃ t1 t2, t = t1 ++ t2 ∧ s = regexEscape t1 ∧ rest = regexEscape t2 ∧
        Literal r t1 ∧ Escapable mode t1

theorem quantifier_head {q : List Char} {n : Nat} {max : Option Nat} (h : QuantifierPrefix q n max) :
    ∃ x s, q = x :: s ∧ x ∈ metaChars ∧ x ≠ '\\' := by
  cases h
  · exact ⟨_, _, rfl, by decide, by decide⟩
  · exact ⟨_, _, rfl, by decide, by decide⟩
  · exact ⟨_, _, rfl, by decide, by decide⟩
  · exact ⟨_, _, rfl, by decide, by decide⟩

theorem syntax_meta {c : Char} (h : c ∉ metaChars) : c ∉ syntaxChars := by
  intro h'
  exact h ((by decide : ∀ c ∈ syntaxChars, c ∈ metaChars) c h')

theorem parses_beginning {mode : ReMode} {cat : Cat} {s : List Char} {r : Re} (h : Parses mode cat s r) :
    Beginning mode cat s r := by
  induction h with
  | single _ ih => exact ih
  | bar h1 h2 ih1 ih2 =>
    intro rest t ht
    rw [List.append_assoc, List.cons_append] at ht
    obtain ⟨t1, t2, _, _, h', _⟩ := ih1 _ t ht
    exact absurd h' (escape_not_head (by decide) (by decide))
  | nil =>
    intro rest t ht
    exact ⟨[], t, rfl, rfl, ht, fun b m a => Iff.rfl, fun c hc => by cases hc⟩
  | @snoc s u r r' h1 h2 ih1 ih2 =>
    intro rest t ht
    rw [List.append_assoc] at ht
    obtain ⟨t1, t2, rfl, hs, h', hl, he⟩ := ih1 _ t ht
    obtain ⟨c, t3, rfl, hu, hr, rfl, he'⟩ := ih2 rest t2 h'
    refine ⟨t1 ++ [c], t3, by simp, by rw [hs, hu, regexEscape_append], hr, ?_, ?_⟩
    · intro b m a
      constructor
      · rintro ⟨m1, m2, rfl, hm1, hm2⟩
        rw [(hl _ _ _).1 hm1]
        simp only [Re.Match] at hm2
        rw [hm2]
      · rintro rfl
        exact ⟨t1, [c], rfl, (hl _ _ _).2 rfl, rfl⟩
    · intro x hx
      rcases List.mem_append.1 hx with hx | hx
      · exact he x hx
      · exact he' x hx
  | start => intro rest t ht; exact absurd ht (escape_not_head (by decide) (by decide))
  | stop => intro rest t ht; exact absurd ht (escape_not_head (by decide) (by decide))
  | plainAtom _ ih => exact ih
  | quantified h1 hq ih =>
    intro rest t ht
    obtain ⟨x, s', rfl, hx, hb⟩ := quantifier_head hq
    rw [List.append_assoc, List.cons_append] at ht
    obtain ⟨c, t', _, _, h', _⟩ := ih _ t ht
    exact absurd h' (escape_not_head hx hb)
  | lazy h1 hq ih =>
    intro rest t ht
    obtain ⟨x, s', rfl, hx, hb⟩ := quantifier_head hq
    rw [List.append_assoc, List.append_assoc, List.cons_append] at ht
    obtain ⟨c, t', _, _, h', _⟩ := ih _ t ht
    exact absurd h' (escape_not_head hx hb)
  | @patternChar c hc =>
    intro rest t ht
    obtain ⟨d, t', rfl, h1 | h1⟩ := escape_head ht
    · exact absurd (h1.2.1 ▸ (by decide : '\\' ∈ syntaxChars)) hc
    · obtain ⟨h1, rfl, h2⟩ := h1
      refine ⟨c, t', rfl, by rw [regexEscape_cons, if_neg h1]; rfl, h2, rfl, ?_⟩
      intro x hx hm
      rw [List.mem_singleton] at hx
      exact absurd (hx ▸ hm) h1
  | dot P => intro rest t ht; exact absurd ht (escape_not_head (by decide) (by decide))
  | @escape c hc =>
    intro rest t ht
    obtain ⟨d, t', rfl, h1 | h1⟩ := escape_head ht
    · obtain ⟨h1, _, h2⟩ := h1
      have h3 : c :: rest = d :: regexEscape t' := h2
      rw [List.cons.injEq] at h3
      obtain ⟨rfl, h3⟩ := h3
      refine ⟨c, t', rfl, by rw [regexEscape_cons, if_pos h1]; rfl, h3, rfl, ?_⟩
      intro x hx _
      rw [List.mem_singleton] at hx
      exact hx ▸ hc
    · exact absurd (h1.2.1 ▸ (by decide : '\\' ∈ metaChars)) h1.1
  | @otherEscape c s P hc =>
    intro rest t ht
    obtain ⟨d, t', rfl, h1 | h1⟩ := escape_head ht
    · obtain ⟨h1, _, h2⟩ := h1
      have h2 : c :: (s ++ rest) = d :: regexEscape t' := h2
      rw [List.cons.injEq] at h2
      exact absurd ((by decide : ∀ x ∈ metaChars, x.isAlphanum = false) d h1) (by rw [← h2.1, hc]; decide)
    · exact absurd (h1.2.1 ▸ (by decide : '\\' ∈ metaChars)) h1.1
  | group _ _ => intro rest t ht; exact absurd ht (escape_not_head (by decide) (by decide))
  | otherGroup s P => intro rest t ht; exact absurd ht (escape_not_head (by decide) (by decide))
  | cls s P => intro rest t ht; exact absurd ht (escape_not_head (by decide) (by decide))

theorem parses_escape {mode : ReMode} {t : List Char} (h : Escapable mode t) :
    ∃ r, Parses mode .disjunction (regexEscape t) r := by
  suffices ∃ r, Parses mode .alternative (regexEscape t) r from this.imp fun _ => .single
  induction t using List.reverseRecOn with
  | nil => exact ⟨_, .nil⟩
  | append_singleton t c ih =>
    obtain ⟨r, hr⟩ := ih fun x hx => h x (List.mem_append_left _ hx)
    rw [regexEscape_append, regexEscape_cons]
    by_cases hc : c ∈ metaChars
    · rw [if_pos hc]
      exact ⟨_, .snoc hr (.plainAtom (.escape (h c (by simp) hc)))⟩
    · rw [if_neg hc]
      exact ⟨_, .snoc hr (.plainAtom (.patternChar (syntax_meta hc)))⟩

theorem parses_literal {mode : ReMode} {t : List Char} {r : Re}
    (h : Parses mode .disjunction (regexEscape t) r) : Literal r t ∧ Escapable mode t := by
  obtain ⟨t1, t2, rfl, h1, h2, h3, h4⟩ := parses_beginning h [] t (List.append_nil _)
  cases t2 with
  | nil => rw [List.append_nil] at *; exact ⟨h3, h4⟩
  | cons c t2 =>
    rw [regexEscape_cons] at h2
    by_cases hc : c ∈ metaChars
    · rw [if_pos hc] at h2; cases h2
    · rw [if_neg hc] at h2; cases h2

theorem literal_finds {r : Re} {t : List Char} (h : Literal r t) (s : List Char) : r.Finds s ↔ t <:+: s := by
  constructor
  · rintro ⟨b, m, a, rfl, hm⟩
    rw [(h _ _ _).1 hm]
    exact ⟨b, a, rfl⟩
  · rintro ⟨b, a, rfl⟩
    exact ⟨b, t, a, rfl, (h _ _ _).2 rfl⟩

/-- The property, for one kind of regular expressions: the pattern is well formed, and it matches exactly the
texts that contain the substring. -/
def C52_Full (mode : ReMode) : Prop := ∀ t : List Char,
  (∃ r, Parses mode .disjunction (regexEscape t) r) ∧
  ∀ r, Parses mode .disjunction (regexEscape t) r → ∀ s, r.Finds s ↔ t <:+: s

/-- C52 for regular expressions without the `u` flag. -/
theorem C52_plain : C52_Full .plain := by
  intro t
  refine ⟨parses_escape ?_, fun r hr s => literal_finds (parses_literal hr).1 s⟩
  intro c _ hc
  have := (by decide : ∀ c ∈ metaChars, c.isAlphanum = false ∧ c ≠ '_') c hc
  exact this

/-- The characters that are escaped but may not be, with the `u` flag. -/
def overEscaped : List Char := ['#', '&', '-', '~']

theorem escapable_unicode (t : List Char) : Escapable .unicode t ↔ ∀ c ∈ t, c ∉ overEscaped := by
  constructor
  · intro h c hc ho
    have h1 := h c hc ((by decide : ∀ c ∈ overEscaped, c ∈ metaChars) c ho)
    rcases h1 with h1 | h1
    · exact (by decide : ∀ c ∈ overEscaped, c ∉ syntaxChars) c ho h1
    · exact (by decide : ∀ c ∈ overEscaped, c ≠ '/') c ho h1
  · intro h c hc hm
    refine .inl ?_
    by_contra hs
    refine h c hc ?_
    exact (by decide : ∀ c ∈ metaChars, c ∉ syntaxChars → c ∈ overEscaped) c hm hs

/-- With the `u` flag (which JSON Schema recommends) the pattern is well formed exactly for substrings without
`#`, `&`, `-` and `~`, and if it is, it matches the texts that contain the substring. -/
theorem C52_unicode (t : List Char) :
    ((∃ r, Parses .unicode .disjunction (regexEscape t) r) ↔ ∀ c ∈ t, c ∉ overEscaped) ∧
    ∀ r, Parses .unicode .disjunction (regexEscape t) r → ∀ s, r.Finds s ↔ t <:+: s := by
  refine ⟨⟨?_, ?_⟩, fun r hr s => literal_finds (parses_literal hr).1 s⟩
  · rintro ⟨r, hr⟩
    exact (escapable_unicode t).1 (parses_literal hr).2
  · intro h
    exact parses_escape ((escapable_unicode t).2 h)

/-- So the full statement fails with the `u` flag: `contains("a-b")` gives the pattern `a\-b`, which is not
well formed. -/
theorem C52_unicode_fails : ¬ C52_Full .unicode := by
  intro h
  exact (C52_unicode ['a', '-', 'b']).1.1 (h _).1 '-' (by decide) (by decide)

example : regexEscape "a.b#".toList = "a\\.b\\#".toList := by decide
example : mustContain (.obj [("type", .str "string")]) "1+1" =
    .obj [("pattern", .str "1\\+1"), ("type", .str "string")] := by decide

end Verif
