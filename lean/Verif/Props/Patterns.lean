import Verif.Spec.Pattern
import Verif.Spec.Deser
import Verif.TypeIds
import Verif.Props.ReadsStd

/-!
# C76: the fixed patterns match exactly the texts they are for
-/

namespace Verif
open Spec

/-! ## What a pattern means -/

theorem times_iff {M : List Char → List Char → List Char → Prop} {L : List Char → Prop}
    (h : ∀ b m a, M b m a ↔ L m) : ∀ (n : Nat) (b m a : List Char),
      Times M n b m a ↔ ∃ ps : List (List Char), ps.length = n ∧ m = ps.flatten ∧ ∀ p ∈ ps, L p
  | 0, b, m, a => by
    simp only [Times]
    constructor
    · rintro rfl; exact ⟨[], rfl, rfl, by simp⟩
    · rintro ⟨ps, h1, h2, _⟩
      rw [h2, List.eq_nil_of_length_eq_zero h1]; rfl
  | n + 1, b, m, a => by
    simp only [Times]
    constructor
    · rintro ⟨m1, m2, rfl, h1, h2⟩
      obtain ⟨ps, h3, h4, h5⟩ := (times_iff h n _ _ _).1 h2
      refine ⟨m1 :: ps, by simp [h3], by simp [h4], ?_⟩
      intro p hp
      rcases List.mem_cons.1 hp with rfl | hp
      · exact (h _ _ _).1 h1
      · exact h5 p hp
    · rintro ⟨ps, h1, h2, h3⟩
      cases ps with
      | nil => cases h1
      | cons p ps =>
        refine ⟨p, ps.flatten, by simpa using h2, (h _ _ _).2 (h3 p List.mem_cons_self), ?_⟩
        exact (times_iff h n _ _ _).2 ⟨ps, by simpa using h1, rfl, fun q hq => h3 q (List.mem_cons_of_mem _ hq)⟩

/-- What a pattern matches does not depend on what is around. -/
theorem match_iff : ∀ (r : Rx) (b m a : List Char), r.re.Match b m a ↔ r.Lang m
  | .chr c, b, m, a => Iff.rfl
  | .digit, b, m, a => Iff.rfl
  | .cls l, b, m, a => Iff.rfl
  | .group r, b, m, a => match_iff r b m a
  | .plainGroup r, b, m, a => match_iff r b m a
  | .star r, b, m, a => by
    simp only [Rx.re, Re.Match, Rx.Lang]
    constructor
    · rintro ⟨n, _, _, h⟩
      obtain ⟨ps, _, h2, h3⟩ := (times_iff (match_iff r) n _ _ _).1 h
      exact ⟨ps, h2, h3⟩
    · rintro ⟨ps, h2, h3⟩
      exact ⟨ps.length, Nat.zero_le _, (fun k e => by cases e), (times_iff (match_iff r) _ _ _ _).2 ⟨ps, rfl, h2, h3⟩⟩
  | .plus r, b, m, a => by
    simp only [Rx.re, Re.Match, Rx.Lang]
    constructor
    · rintro ⟨n, hn, _, h⟩
      obtain ⟨ps, h1, h2, h3⟩ := (times_iff (match_iff r) n _ _ _).1 h
      exact ⟨ps, (fun e => by subst e; simp at h1; omega), h2, h3⟩
    · rintro ⟨ps, h1, h2, h3⟩
      exact ⟨ps.length, List.length_pos_iff.2 h1, (fun k e => by cases e),
        (times_iff (match_iff r) _ _ _ _).2 ⟨ps, rfl, h2, h3⟩⟩
  | .opt r, b, m, a => by
    simp only [Rx.re, Re.Match, Rx.Lang]
    constructor
    · rintro ⟨n, _, hn, h⟩
      obtain ⟨ps, h1, h2, h3⟩ := (times_iff (match_iff r) n _ _ _).1 h
      have := hn 1 rfl
      match ps, h1 with
      | [], _ => exact .inl h2
      | [p], _ => exact .inr (by rw [h2]; simpa using h3 p List.mem_cons_self)
      | _ :: _ :: _, h1 => simp at h1; omega
    · rintro (rfl | h)
      · exact ⟨0, Nat.le_refl _, (fun k e => by cases e; decide), rfl⟩
      · exact ⟨1, Nat.zero_le _, (fun k e => by cases e; decide),
          (times_iff (match_iff r) _ _ _ _).2 ⟨[m], rfl, by simp, by simpa using h⟩⟩
  | .seq r r', b, m, a => by
    simp only [Rx.re, Re.Match, Rx.Lang]
    exact ⟨fun ⟨m1, m2, h, h1, h2⟩ => ⟨m1, m2, h, (match_iff r _ _ _).1 h1, (match_iff r' _ _ _).1 h2⟩,
      fun ⟨m1, m2, h, h1, h2⟩ => ⟨m1, m2, h, (match_iff r _ _ _).2 h1, (match_iff r' _ _ _).2 h2⟩⟩
  | .alt r r', b, m, a => by
    simp only [Rx.re, Re.Match, Rx.Lang, match_iff r, match_iff r']

/-- `^…$` finds exactly the texts that the pattern matches as a whole. -/
theorem whole_iff (r : Rx) (s : List Char) : r.whole.Finds s ↔ r.Lang s := by
  constructor
  · rintro ⟨b, m, a, rfl, m1, m2, rfl, ⟨m3, m4, rfl, ⟨rfl, rfl⟩, h⟩, h2, rfl⟩
    have ha : a = [] := h2
    subst ha
    simpa using (match_iff r _ _ _).1 h
  · intro h
    exact ⟨[], s, [], by simp, s, [], by simp, ⟨[], s, by simp, ⟨rfl, rfl⟩, (match_iff r _ _ _).2 h⟩, rfl, rfl⟩

/-- The same meaning. -/
def SameMatches (r r' : Re) : Prop := ∀ b m a, r.Match b m a ↔ r'.Match b m a

theorem sameMatches_rep {r r' : Re} (h : SameMatches r r') (min : Nat) (max : Option Nat) :
    SameMatches (.rep min max r) (.rep min max r') := by
  have ht : ∀ n b m a, Times r.Match n b m a ↔ Times r'.Match n b m a := by
    intro n
    induction n with
    | zero => intro b m a; exact Iff.rfl
    | succ n ih =>
      intro b m a
      simp only [Times, ih, h _ _ _]
  intro b m a
  simp only [Re.Match, ht]

theorem sameMatches_seq {r r' q q' : Re} (h : SameMatches r r') (h' : SameMatches q q') :
    SameMatches (.seq r q) (.seq r' q') := by
  intro b m a
  simp only [Re.Match, h _ _ _, h' _ _ _]

theorem sameMatches_emptySeq {r r' : Re} (h : SameMatches r r') : SameMatches (.seq .empty r) r' := by
  intro b m a
  simp only [Re.Match]
  constructor
  · rintro ⟨m1, m2, rfl, rfl, h1⟩
    simpa using (h _ _ _).1 h1
  · intro h1
    exact ⟨[], m, rfl, rfl, by simpa using (h _ _ _).2 h1⟩

theorem alphanum_syntax (c : Char) (h : c ∈ syntaxChars) : c.isAlphanum = false ∧ c ≠ '_' := by
  simp only [syntaxChars, List.mem_cons, List.not_mem_nil, or_false] at h
  rcases h with rfl | rfl | rfl | rfl | rfl | rfl | rfl | rfl | rfl | rfl | rfl | rfl | rfl | rfl <;> decide

theorem parses_lift {mode : ReMode} {s : List Char} {re re' : Re} (h : Parses mode .atom s re)
    (hs : SameMatches re re') : ∀ c : Cat, ∃ q, Parses mode c s q ∧ SameMatches q re'
  | .atom => ⟨re, h, hs⟩
  | .term => ⟨re, .plainAtom h, hs⟩
  | .alternative => ⟨_, by simpa using Parses.snoc .nil (.plainAtom h), sameMatches_emptySeq hs⟩
  | .disjunction => ⟨_, .single (by simpa using Parses.snoc .nil (.plainAtom h)), sameMatches_emptySeq hs⟩

theorem parses_term {mode : ReMode} {s : List Char} {re re' : Re} (h : Parses mode .term s re)
    (hs : SameMatches re re') : ∀ c : Cat, c ≠ .atom → ∃ q, Parses mode c s q ∧ SameMatches q re'
  | .atom, hc => absurd rfl hc
  | .term, _ => ⟨re, h, hs⟩
  | .alternative, _ => ⟨_, by simpa using Parses.snoc .nil h, sameMatches_emptySeq hs⟩
  | .disjunction, _ => ⟨_, .single (by simpa using Parses.snoc .nil h), sameMatches_emptySeq hs⟩

theorem parses_quantified {mode : ReMode} {r : Rx} {q : List Char} {n : Nat} {max : Option Nat}
    (ih : ∀ c : Cat, r.fits c = true → ∃ re, Parses mode c r.text re ∧ SameMatches re r.re)
    (hq : QuantifierPrefix q n max) (c : Cat)
    (h : ((match c with | .atom => false | _ => true) && r.fits .atom) = true) :
    ∃ re, Parses mode c (r.text ++ q) re ∧ SameMatches re (.rep n max r.re) := by
  simp only [Bool.and_eq_true] at h
  obtain ⟨re, h1, h2⟩ := ih .atom h.2
  refine parses_term (.quantified h1 hq) (sameMatches_rep h2 _ _) c ?_
  rintro rfl
  cases h.1

/-- The text of a pattern has this pattern as one of its readings by the grammar of ECMA-262, with and without the
`u` flag. -/
theorem parses_text (mode : ReMode) : ∀ (r : Rx) (c : Cat), r.fits c = true →
    ∃ re, Parses mode c r.text re ∧ SameMatches re r.re
  | .chr ch, c, _ => by
    unfold Rx.text
    split
    · rename_i hc
      refine parses_lift (re := .char ch) (.escape ?_) (fun _ _ _ => Iff.rfl) c
      cases mode
      · exact alphanum_syntax ch hc
      · exact .inl hc
    · rename_i hc
      exact parses_lift (.patternChar hc) (fun _ _ _ => Iff.rfl) c
  | .digit, c, _ => parses_lift (.otherEscape [] _ (by decide)) (fun _ _ _ => Iff.rfl) c
  | .cls l, c, _ => parses_lift (.cls _ _) (fun _ _ _ => Iff.rfl) c
  | .group r, c, h => by
    obtain ⟨re, h1, h2⟩ := parses_text mode r .disjunction h
    exact parses_lift (.group h1) h2 c
  | .plainGroup r, c, _ => parses_lift (re := .other r.re.Match) (.otherGroup _ _) (fun _ _ _ => Iff.rfl) c
  | .star r, c, h => parses_quantified (parses_text mode r) .star c h
  | .plus r, c, h => parses_quantified (parses_text mode r) .plus c h
  | .opt r, c, h => parses_quantified (parses_text mode r) .opt c h
  | .seq r r', c, h => by
    simp only [Rx.fits, Bool.and_eq_true] at h
    obtain ⟨re, h1, h2⟩ := parses_text mode r .alternative h.1.2
    obtain ⟨re', h3, h4⟩ := parses_text mode r' .term h.2
    have hp := Parses.snoc h1 h3
    cases c with
    | alternative => exact ⟨_, hp, sameMatches_seq h2 h4⟩
    | disjunction => exact ⟨_, .single hp, sameMatches_seq h2 h4⟩
    | term => cases h.1.1
    | atom => cases h.1.1
  | .alt r r', c, h => by
    simp only [Rx.fits, Bool.and_eq_true] at h
    obtain ⟨re, h1, h2⟩ := parses_text mode r .alternative h.1.2
    obtain ⟨re', h3, h4⟩ := parses_text mode r' .disjunction h.2
    cases c with
    | disjunction =>
      refine ⟨_, .bar h1 h3, fun b m a => ?_⟩
      simp only [Re.Match, Rx.re, h2 _ _ _, h4 _ _ _]
    | alternative => cases h.1.1
    | term => cases h.1.1
    | atom => cases h.1.1

theorem sameMatches_assoc (r q p : Re) : SameMatches (.seq (.seq r q) p) (.seq r (.seq q p)) := by
  intro b m a
  simp only [Re.Match]
  constructor
  · rintro ⟨m1, m2, rfl, ⟨m3, m4, rfl, h1, h2⟩, h3⟩
    exact ⟨m3, m4 ++ m2, by simp, by simpa using h1, m4, m2, rfl, h2, by simpa using h3⟩
  · rintro ⟨m1, m2, rfl, h1, m3, m4, rfl, h2, h3⟩
    exact ⟨m1 ++ m3, m4, by simp, ⟨m1, m3, rfl, by simpa using h1, h2⟩, by simpa using h3⟩

/-- The text of a pattern after another one. -/
theorem parses_append (mode : ReMode) : ∀ (r : Rx) (s : List Char) (re0 : Re), r.fits .alternative = true →
    Parses mode .alternative s re0 →
    ∃ re, Parses mode .alternative (s ++ r.text) re ∧ SameMatches re (.seq re0 r.re) := by
  have term : ∀ (r : Rx) (s : List Char) (re0 : Re), r.fits .term = true → Parses mode .alternative s re0 →
      ∃ re, Parses mode .alternative (s ++ r.text) re ∧ SameMatches re (.seq re0 r.re) := by
    intro r s re0 h hs
    obtain ⟨re, h1, h2⟩ := parses_text mode r .term h
    exact ⟨_, .snoc hs h1, sameMatches_seq (fun _ _ _ => Iff.rfl) h2⟩
  intro r
  induction r with
  | chr c => intro s re0 _ hs; exact term _ s re0 rfl hs
  | digit => intro s re0 _ hs; exact term _ s re0 rfl hs
  | cls l => intro s re0 _ hs; exact term _ s re0 rfl hs
  | group r => intro s re0 h hs; exact term _ s re0 h hs
  | plainGroup r => intro s re0 h hs; exact term _ s re0 h hs
  | star r => intro s re0 h hs; exact term _ s re0 h hs
  | plus r => intro s re0 h hs; exact term _ s re0 h hs
  | opt r => intro s re0 h hs; exact term _ s re0 h hs
  | alt r r' => intro s re0 h _; simp [Rx.fits] at h
  | seq r r' ih _ =>
    intro s re0 h hs
    simp only [Rx.fits, Bool.and_eq_true] at h
    obtain ⟨re, h1, h2⟩ := ih s re0 h.1.2 hs
    obtain ⟨re', h3, h4⟩ := parses_text mode r' .term h.2
    refine ⟨_, by simpa [Rx.text] using Parses.snoc h1 h3, fun b m a => ?_⟩
    exact (sameMatches_seq h2 h4 b m a).trans (sameMatches_assoc _ _ _ b m a)

/-! ## Repetitions -/

/-- The pattern matches single characters. -/
def OneChar (r : Rx) (P : Char → Prop) : Prop := ∀ m, r.Lang m ↔ ∃ c, m = [c] ∧ P c

theorem flatten_chars {L : List Char → Prop} {P : Char → Prop} (h : ∀ m, L m ↔ ∃ c, m = [c] ∧ P c) :
    ∀ ps : List (List Char), (∀ p ∈ ps, L p) → ∀ c ∈ ps.flatten, P c
  | [], _, c, hc => by cases hc
  | p :: ps, hp, c, hc => by
    rw [List.flatten_cons] at hc
    rcases List.mem_append.1 hc with hc | hc
    · obtain ⟨c', rfl, h1⟩ := (h p).1 (hp p List.mem_cons_self)
      cases List.mem_singleton.1 hc
      exact h1
    · exact flatten_chars h ps (fun q hq => hp q (List.mem_cons_of_mem _ hq)) c hc

theorem flatten_singletons : ∀ m : List Char, (m.map fun c => [c]).flatten = m
  | [] => rfl
  | c :: m => by simp [flatten_singletons m]

theorem star_iff {r : Rx} {P : Char → Prop} (h : OneChar r P) (m : List Char) :
    (Rx.star r).Lang m ↔ ∀ c ∈ m, P c := by
  constructor
  · rintro ⟨ps, rfl, hp⟩
    exact flatten_chars h ps hp
  · intro hm
    refine ⟨m.map fun c => [c], (flatten_singletons m).symm, ?_⟩
    intro p hp
    obtain ⟨c, hc, rfl⟩ := List.mem_map.1 hp
    exact (h _).2 ⟨c, rfl, hm c hc⟩

theorem plus_iff {r : Rx} {P : Char → Prop} (h : OneChar r P) (m : List Char) :
    (Rx.plus r).Lang m ↔ m ≠ [] ∧ ∀ c ∈ m, P c := by
  constructor
  · rintro ⟨ps, hne, rfl, hp⟩
    refine ⟨?_, flatten_chars h ps hp⟩
    cases ps with
    | nil => exact absurd rfl hne
    | cons p ps =>
      obtain ⟨c, rfl, _⟩ := (h p).1 (hp p List.mem_cons_self)
      simp
  · rintro ⟨hne, hm⟩
    refine ⟨m.map fun c => [c], by simpa using hne, (flatten_singletons m).symm, ?_⟩
    intro p hp
    obtain ⟨c, hc, rfl⟩ := List.mem_map.1 hp
    exact (h _).2 ⟨c, rfl, hm c hc⟩

theorem oneChar_digit : OneChar .digit IsDigit := fun _ => Iff.rfl

theorem oneChar_cls (l : List (Char × Char)) : OneChar (.cls l) (InRanges l) := fun _ => Iff.rfl

/-- `r(?:\.r)*` -/
theorem dotted_iff {r : Rx} {P : List Char → Prop} (h : ∀ m, r.Lang m ↔ P m) (m : List Char) :
    (Rx.seq r (.star (.plainGroup (.seq (.chr '.') r)))).Lang m ↔ Dotted P m := by
  constructor
  · rintro ⟨m1, m2, rfl, h1, ps, rfl, hp⟩
    induction ps generalizing m1 with
    | nil => simpa using Dotted.one ((h _).1 h1)
    | cons p ps ih =>
      obtain ⟨d, t, rfl, rfl, ht⟩ := hp p List.mem_cons_self
      have h2 := Dotted.cons ((h _).1 h1) (ih t ht fun q hq => hp q (List.mem_cons_of_mem _ hq))
      simpa using h2
  · intro hd
    induction hd with
    | one h1 => exact ⟨_, [], by simp, (h _).2 h1, [], rfl, by simp⟩
    | @cons s t h1 _ ih =>
      obtain ⟨m1, m2, rfl, h2, ps, rfl, hp⟩ := ih
      refine ⟨s, _, rfl, (h _).2 h1, ('.' :: m1) :: ps, by simp, ?_⟩
      intro p hq
      rcases List.mem_cons.1 hq with rfl | hq
      · exact ⟨['.'], m1, rfl, rfl, h2⟩
      · exact hp p hq

/-! ## The patterns -/

namespace Pat

/-- `\d+` -/
def digits : Rx := .plus .digit

/-- `-?\d+` -/
def signed : Rx := .seq (.opt (.chr '-')) digits

/-- `-?\d+(\.\d+)?` -/
def decimal : Rx := .seq signed (.opt (.group (.seq (.chr '.') digits)))

/-- `-?\d+(\.\d+)?([eE]\d+)?` -/
def decimalInput : Rx := .seq decimal (.opt (.group (.seq (.cls [('e', 'e'), ('E', 'E')]) digits)))

/-- `[1-9]\d*` -/
def positive : Rx := .seq (.cls [('1', '9')]) (.star .digit)

/-- `(0|[1-9]\d*)` -/
def number : Rx := .group (.alt (.chr '0') positive)

def idChars : Rx := .cls [('0', '9'), ('a', 'z'), ('A', 'Z'), ('-', '-')]

/-- `\d*[a-zA-Z-][0-9a-zA-Z-]*` -/
def alphanumeric : Rx := .seq (.seq (.star .digit) (.cls [('a', 'z'), ('A', 'Z'), ('-', '-')])) (.star idChars)

/-- `(?:0|[1-9]\d*|\d*[a-zA-Z-][0-9a-zA-Z-]*)` -/
def preRelease : Rx := .plainGroup (.alt (.chr '0') (.alt positive alphanumeric))

/-- `[0-9a-zA-Z-]+` -/
def build : Rx := .plus idChars

/-- `r(?:\.r)*` -/
def dotted (r : Rx) : Rx := .seq r (.star (.plainGroup (.seq (.chr '.') r)))

/-- The pattern of `semver::Version`. -/
def semver : Rx :=
  .seq (.seq (.seq (.seq (.seq (.seq number (.chr '.')) number) (.chr '.')) number)
    (.opt (.plainGroup (.seq (.chr '-') (.group (dotted preRelease))))))
    (.opt (.plainGroup (.seq (.chr '+') (.group (dotted build)))))

/-- All of them. -/
def all : List Rx := [digits, signed, decimal, decimalInput, semver]

end Pat

/-- C76: the patterns in the source are these. -/
theorem C76_texts : Pat.all.map Rx.anchored = ["^\\d+$", "^-?\\d+$", "^-?\\d+(\\.\\d+)?$",
    "^-?\\d+(\\.\\d+)?([eE]\\d+)?$", Fixed.semverPattern] := by decide +kernel

/-- C76: they are patterns by the grammar of ECMA-262, with and without the `u` flag, and can be read as meant. -/
theorem C76_syntax (mode : ReMode) {r : Rx} (h : r ∈ Pat.all) :
    ∃ re, Parses mode .disjunction r.anchored.toList re ∧ ∀ s, re.Finds s ↔ r.whole.Finds s := by
  have hf : r.fits .alternative = true := by
    have : ∀ r ∈ Pat.all, r.fits .alternative = true := by
      simp only [Pat.all, List.mem_cons, List.not_mem_nil, or_false]
      rintro r (rfl | rfl | rfl | rfl | rfl) <;> rfl
    exact this r h
  have h0 : Parses mode .alternative ['^'] (.seq .empty (.other fun b m _ => b = [] ∧ m = [])) := by
    simpa using Parses.snoc .nil .start
  obtain ⟨re, h1, h2⟩ := parses_append mode r _ _ hf h0
  refine ⟨_, .single (by simpa [Rx.anchored] using Parses.snoc h1 .stop), fun s => ?_⟩
  have hs : SameMatches _ r.whole := sameMatches_seq (fun b m a => (h2 b m a).trans
    (sameMatches_seq (sameMatches_emptySeq fun _ _ _ => Iff.rfl) (fun _ _ _ => Iff.rfl) b m a)) fun _ _ _ => Iff.rfl
  exact ⟨fun ⟨b, m, a, e, hm⟩ => ⟨b, m, a, e, (hs b m a).1 hm⟩, fun ⟨b, m, a, e, hm⟩ => ⟨b, m, a, e, (hs b m a).2 hm⟩⟩

/-! ## What they match -/

theorem digits_iff (m : List Char) : Pat.digits.Lang m ↔ Digits m := plus_iff oneChar_digit m

theorem signed_iff (m : List Char) : Pat.signed.Lang m ↔ SignedDigits m := by
  constructor
  · rintro ⟨m1, m2, rfl, rfl | rfl, h⟩
    · exact .inl ((digits_iff _).1 h)
    · exact .inr ⟨m2, rfl, (digits_iff _).1 h⟩
  · rintro (h | ⟨t, rfl, h⟩)
    · exact ⟨[], m, rfl, .inl rfl, (digits_iff _).2 h⟩
    · exact ⟨['-'], t, rfl, .inr rfl, (digits_iff _).2 h⟩

theorem decimal_iff (s : String) : Pat.decimal.Lang s.toList ↔ DecimalText s := by
  constructor
  · rintro ⟨m1, m2, e, ⟨sign, whole, rfl, hs, hw⟩, hf⟩
    refine ⟨sign, whole, m2, e, hs, (digits_iff _).1 hw, ?_⟩
    rcases hf with rfl | ⟨d, t, rfl, rfl, ht⟩
    · exact .inl rfl
    · exact .inr ⟨t, rfl, (digits_iff _).1 ht⟩
  · rintro ⟨sign, whole, rest, e, hs, hw, hf⟩
    refine ⟨sign ++ whole, rest, e, ⟨sign, whole, rfl, hs, (digits_iff _).2 hw⟩, ?_⟩
    rcases hf with rfl | ⟨t, rfl, ht⟩
    · exact .inl rfl
    · exact .inr ⟨['.'], t, rfl, rfl, (digits_iff _).2 ht⟩

theorem decimalInput_iff (s : String) : Pat.decimalInput.Lang s.toList ↔ DecimalText s ∨ ScientificText s := by
  constructor
  · rintro ⟨m1, m2, e, hd, rfl | ⟨d, t, rfl, ⟨c, rfl, r, hr, hc1, hc2⟩, ht⟩⟩
    · refine .inl ((decimal_iff s).1 ?_)
      rw [e, List.append_nil]; exact hd
    · refine .inr ⟨m1, c, t, e, (decimal_iff _).1 (by rw [String.toList_ofList]; exact hd), ?_, (digits_iff _).1 ht⟩
      simp only [List.mem_cons, List.not_mem_nil, or_false] at hr
      rcases hr with rfl | rfl
      · exact .inl (Char.le_antisymm hc2 hc1)
      · exact .inr (Char.le_antisymm hc2 hc1)
  · rintro (h | ⟨m, c, t, e, hm, hc, ht⟩)
    · exact ⟨s.toList, [], by simp, (decimal_iff s).2 h, .inl rfl⟩
    · refine ⟨m, c :: t, e, ?_, .inr ⟨[c], t, rfl, ⟨c, rfl, ?_⟩, (digits_iff _).2 ht⟩⟩
      · have := (decimal_iff _).2 hm
        rwa [String.toList_ofList] at this
      · rcases hc with rfl | rfl
        · exact ⟨('e', 'e'), by simp, Char.le_refl _, Char.le_refl _⟩
        · exact ⟨('E', 'E'), by simp, Char.le_refl _, Char.le_refl _⟩

theorem positive_iff (m : List Char) :
    Pat.positive.Lang m ↔ ∃ c rest, m = c :: rest ∧ IsDigit c ∧ c ≠ '0' ∧ ∀ x ∈ rest, IsDigit x := by
  constructor
  · rintro ⟨m1, m2, rfl, ⟨c, rfl, r, hr, h1, h2⟩, h⟩
    cases List.mem_singleton.1 hr
    refine ⟨c, m2, rfl, ⟨Char.le_trans (show ('0' : Char) ≤ '1' by decide) h1, h2⟩, ?_, (star_iff oneChar_digit _).1 h⟩
    rintro rfl
    exact absurd h1 (by decide)
  · rintro ⟨c, rest, rfl, ⟨h1, h2⟩, h3, h4⟩
    refine ⟨[c], rest, rfl, ⟨c, rfl, ('1', '9'), by simp, ?_, h2⟩, (star_iff oneChar_digit _).2 h4⟩
    have h5 : ('0').toNat ≤ c.toNat := h1
    have h6 : c.toNat ≠ ('0').toNat := fun e => h3 (Char.toNat_inj.1 e)
    show ('1').toNat ≤ c.toNat
    have h7 : ('0').toNat = 48 := rfl
    have h8 : ('1').toNat = 49 := rfl
    omega

theorem number_iff (m : List Char) : Pat.number.Lang m ↔ NumericId m := by
  show (m = ['0'] ∨ Pat.positive.Lang m) ↔ _
  rw [positive_iff]; rfl

theorem idChars_iff (c : Char) :
    InRanges [('0', '9'), ('a', 'z'), ('A', 'Z'), ('-', '-')] c ↔ IsDigit c ∨ IsNonDigit c := by
  simp only [InRanges, List.mem_cons, List.not_mem_nil, or_false, exists_eq_or_imp, exists_eq_left, IsDigit, IsNonDigit]
  constructor
  · rintro (h | h | h | h)
    · exact .inl h
    · exact .inr (.inl h)
    · exact .inr (.inr (.inl h))
    · exact .inr (.inr (.inr (Char.le_antisymm h.2 h.1)))
  · rintro (h | h | h | rfl)
    · exact .inl h
    · exact .inr (.inl h)
    · exact .inr (.inr (.inl h))
    · exact .inr (.inr (.inr ⟨Char.le_refl _, Char.le_refl _⟩))

theorem nonDigit_iff (c : Char) : InRanges [('a', 'z'), ('A', 'Z'), ('-', '-')] c ↔ IsNonDigit c := by
  simp only [InRanges, List.mem_cons, List.not_mem_nil, or_false, exists_eq_or_imp, exists_eq_left, IsNonDigit]
  constructor
  · rintro (h | h | h)
    · exact .inl h
    · exact .inr (.inl h)
    · exact .inr (.inr (Char.le_antisymm h.2 h.1))
  · rintro (h | h | rfl)
    · exact .inl h
    · exact .inr (.inl h)
    · exact .inr (.inr ⟨Char.le_refl _, Char.le_refl _⟩)

/-- The digits before the first character that is no digit. -/
theorem split_nonDigit : ∀ {m : List Char}, (∀ c ∈ m, IsDigit c ∨ IsNonDigit c) → (∃ c ∈ m, IsNonDigit c) →
    ∃ ds c rest, m = ds ++ c :: rest ∧ (∀ x ∈ ds, IsDigit x) ∧ IsNonDigit c
  | [], _, h => by obtain ⟨c, hc, _⟩ := h; cases hc
  | x :: m, ha, h => by
    by_cases hx : IsNonDigit x
    · exact ⟨[], x, m, rfl, by simp, hx⟩
    · have h' : ∃ c ∈ m, IsNonDigit c := by
        obtain ⟨c, hc, hn⟩ := h
        rcases List.mem_cons.1 hc with rfl | hc
        · exact absurd hn hx
        · exact ⟨c, hc, hn⟩
      obtain ⟨ds, c, rest, rfl, h1, h2⟩ := split_nonDigit (fun c hc => ha c (List.mem_cons_of_mem _ hc)) h'
      refine ⟨x :: ds, c, rest, rfl, ?_, h2⟩
      intro y hy
      rcases List.mem_cons.1 hy with rfl | hy
      · exact (ha y List.mem_cons_self).resolve_right hx
      · exact h1 y hy

theorem alphanumeric_iff (m : List Char) : Pat.alphanumeric.Lang m ↔ AlphanumericId m := by
  constructor
  · rintro ⟨m1, m2, rfl, ⟨m3, m4, rfl, h1, c, rfl, hc⟩, h2⟩
    have h1 := (star_iff oneChar_digit _).1 h1
    have h2 := (star_iff (oneChar_cls _) _).1 h2
    have hc := (nonDigit_iff c).1 hc
    refine ⟨?_, c, by simp, hc⟩
    intro x hx
    simp only [List.mem_append, List.mem_singleton] at hx
    rcases hx with (hx | rfl) | hx
    · exact .inl (h1 x hx)
    · exact .inr hc
    · exact (idChars_iff x).1 (h2 x hx)
  · rintro ⟨ha, hn⟩
    obtain ⟨ds, c, rest, rfl, h1, h2⟩ := split_nonDigit ha hn
    refine ⟨ds ++ [c], rest, by simp, ⟨ds, [c], rfl, (star_iff oneChar_digit _).2 h1, c, rfl, (nonDigit_iff c).2 h2⟩, ?_⟩
    exact (star_iff (oneChar_cls _) _).2 fun x hx => (idChars_iff x).2 (ha x (by simp [hx]))

theorem preRelease_iff (m : List Char) : Pat.preRelease.Lang m ↔ PreReleaseId m := by
  show (m = ['0'] ∨ Pat.positive.Lang m ∨ Pat.alphanumeric.Lang m) ↔ _
  rw [positive_iff, alphanumeric_iff, PreReleaseId, NumericId, ← or_assoc, or_comm]

theorem build_iff (m : List Char) : Pat.build.Lang m ↔ BuildId m := by
  refine (plus_iff (oneChar_cls _) m).trans ?_
  constructor
  · rintro ⟨hne, h⟩
    have h : ∀ c ∈ m, IsDigit c ∨ IsNonDigit c := fun c hc => (idChars_iff c).1 (h c hc)
    by_cases hn : ∃ c ∈ m, IsNonDigit c
    · exact .inl ⟨h, hn⟩
    · exact .inr ⟨hne, fun c hc => (h c hc).resolve_right fun hc' => hn ⟨c, hc, hc'⟩⟩
  · rintro (⟨h, c, hc, _⟩ | ⟨hne, h⟩)
    · exact ⟨List.ne_nil_of_mem hc, fun c hc => (idChars_iff c).2 (h c hc)⟩
    · exact ⟨hne, fun c hc => (idChars_iff c).2 (.inl (h c hc))⟩

/-- C76: the pattern of `semver::Version` matches exactly the valid semantic versions. -/
theorem C76_semver (s : List Char) : Pat.semver.whole.Finds s ↔ SemVerText s := by
  rw [whole_iff]
  constructor
  · rintro ⟨_, build, rfl, ⟨_, pre, rfl, ⟨_, patch, rfl, ⟨_, _, rfl, ⟨_, minor, rfl, ⟨major, _, rfl, h1, rfl⟩, h2⟩, rfl⟩,
      h3⟩, h4⟩, h5⟩
    refine ⟨major, minor, patch, pre, build, by simp, (number_iff _).1 h1, (number_iff _).1 h2, (number_iff _).1 h3,
      ?_, ?_⟩
    · rcases h4 with rfl | ⟨_, t, rfl, rfl, h⟩
      · exact .inl rfl
      · exact .inr ⟨t, rfl, (dotted_iff preRelease_iff t).1 h⟩
    · rcases h5 with rfl | ⟨_, t, rfl, rfl, h⟩
      · exact .inl rfl
      · exact .inr ⟨t, rfl, (dotted_iff build_iff t).1 h⟩
  · rintro ⟨major, minor, patch, pre, build, rfl, h1, h2, h3, h4, h5⟩
    refine ⟨_, build, rfl, ⟨_, pre, rfl, ⟨major ++ '.' :: minor ++ ['.'], patch, by simp, ⟨_, ['.'], rfl,
      ⟨major ++ ['.'], minor, by simp, ⟨major, ['.'], rfl, (number_iff _).2 h1, rfl⟩, (number_iff _).2 h2⟩, rfl⟩,
      (number_iff _).2 h3⟩, ?_⟩, ?_⟩
    · rcases h4 with rfl | ⟨t, rfl, h⟩
      · exact .inl rfl
      · exact .inr ⟨['-'], t, rfl, rfl, (dotted_iff preRelease_iff t).2 h⟩
    · rcases h5 with rfl | ⟨t, rfl, h⟩
      · exact .inl rfl
      · exact .inr ⟨['+'], t, rfl, rfl, (dotted_iff build_iff t).2 h⟩

/-- C76: the patterns of integers as keys match exactly the digits, without and with a sign. -/
theorem C76_digits (s : List Char) : (Pat.digits.whole.Finds s ↔ Digits s) ∧ (Pat.signed.whole.Finds s ↔ SignedDigits s) :=
  ⟨(whole_iff _ _).trans (digits_iff s), (whole_iff _ _).trans (signed_iff s)⟩

/-- C76: the pattern of decimal numbers that are written matches exactly those without an exponent. -/
theorem C76_decimal (s : String) : Pat.decimal.whole.Finds s.toList ↔ DecimalText s :=
  (whole_iff _ _).trans (decimal_iff s)

/-- C76: the pattern of decimal numbers that are read matches exactly those without a sign in the exponent. -/
theorem C76_decimalInput (s : String) : Pat.decimalInput.whole.Finds s.toList ↔ DecimalText s ∨ ScientificText s :=
  (whole_iff _ _).trans (decimalInput_iff s)

/-! ## The schemas -/

/-- The patterns of schemars mean what ECMA-262 says. -/
def Spec.FixedRx (env : Env) : Prop := ∀ r ∈ Pat.all, ∀ s : String, env.rx r.anchored s = true ↔ r.whole.Finds s.toList

open Classical in
/-- There are such evaluators. -/
example : ∃ env : Env, FixedRx env := by
  refine ⟨⟨fun _ _ => R.pass, fun p s => decide (∃ r ∈ Pat.all, p = r.anchored ∧ r.whole.Finds s.toList),
    fun _ _ _ => true⟩, fun r hr s => ?_⟩
  simp only [decide_eq_true_eq]
  constructor
  · rintro ⟨r', hr', e, h⟩
    have : (Pat.all.map Rx.anchored).Nodup := by rw [C76_texts]; decide +kernel
    have : r = r' := List.inj_on_of_nodup_map this hr hr' e
    rw [this]; exact h
  · intro h
    exact ⟨r, hr, rfl, h⟩

theorem fixedRx_at {env : Env} (h : FixedRx env) (i : Nat) {p : String} {r : Rx} (hr : Pat.all[i]? = some r)
    (hp : (Pat.all.map Rx.anchored)[i]? = some p) (s : String) : env.rx p s = true ↔ r.whole.Finds s.toList := by
  rw [List.getElem?_map, hr] at hp
  cases hp
  exact h r (List.mem_of_getElem? hr) s

/-- C76: what C43, C45, C64, C65 and C74 assume of regular expressions (`Modern`, `DecimalInputRx`) holds by the
meaning of the patterns. -/
theorem C76_assumed {D : Dialect} {env : Env} (h : FixedRx env) (hr : D.refSiblings = true)
    (hi : D.prefixItems = true) : Modern D env ∧ DecimalInputRx env := by
  refine ⟨⟨hr, hi, ⟨fun k => ?_, fun k => ?_⟩, fun s hs => ?_⟩, fun s hs => ?_⟩
  · exact (fixedRx_at h 0 rfl (by rw [C76_texts]; rfl) k).trans (C76_digits _).1
  · exact (fixedRx_at h 1 rfl (by rw [C76_texts]; rfl) k).trans (C76_digits _).2
  · exact ((fixedRx_at h 2 rfl (by rw [C76_texts]; rfl) s).trans (C76_decimal s)).2 hs
  · exact ((fixedRx_at h 3 rfl (by rw [C76_texts]; rfl) s).trans (C76_decimalInput s)).2 hs

/-- A text with a pattern. -/
theorem valid_patterned {D : Dialect} {env : Env} {i : Json} (p : String) :
    Valid D env (mkObj [("type", .str "string"), ("pattern", .str p)]) i ↔ ∃ s, i = .str s ∧ env.rx p s = true := by
  rw [valid_mkObj (by simp [Obj.keys]) (.inr rfl)]
  simp only [List.mem_cons, List.not_mem_nil, or_false, forall_eq_or_imp, forall_eq]
  rw [entryOk_type rfl, entryOk_simple (by decide)]
  cases i <;> simp [typeMatch, typeName, simple]

/-- C76: the schema of `semver::Version` accepts exactly the valid semantic versions. -/
theorem C76_semver_schema {D : Dialect} {env : Env} (h : FixedRx env) (i : Json) :
    Valid D env (mkObj [("type", .str "string"), ("pattern", .str Fixed.semverPattern)]) i ↔
      ∃ s, i = .str s ∧ SemVerText s.toList := by
  rw [valid_patterned]
  exact exists_congr fun s => and_congr_right fun _ =>
    (fixedRx_at h 4 rfl (by rw [C76_texts]; rfl) s).trans (C76_semver _)

/-- C76: the schema of decimal numbers accepts exactly the texts without an exponent under the `Serialize` contract,
and also those with an exponent without a sign, and all numbers, under the `Deserialize` contract. -/
theorem C76_decimal_schema {D : Dialect} {env : Env} (h : FixedRx env) (i : Json) :
    (Valid D env (decimalSchema .serialize) i ↔ ∃ s, i = .str s ∧ DecimalText s) ∧
    (Valid D env (decimalSchema .deserialize) i ↔
      (∃ x, i = .num x) ∨ ∃ s, i = .str s ∧ (DecimalText s ∨ ScientificText s)) := by
  constructor
  · unfold decimalSchema
    rw [valid_patterned]
    exact exists_congr fun s => and_congr_right fun _ =>
      (fixedRx_at h 2 rfl (by rw [C76_texts]; rfl) s).trans (C76_decimal s)
  · unfold decimalSchema
    simp only
    rw [valid_mkObj (by simp [Obj.keys]) (.inr rfl)]
    simp only [List.mem_cons, List.not_mem_nil, or_false, forall_eq_or_imp, forall_eq]
    rw [entryOk_type rfl, typeMatch_two, entryOk_simple (by decide)]
    have hx := fun s => (fixedRx_at h 3 rfl (by rw [C76_texts]; rfl) s).trans (C76_decimalInput s)
    cases i <;> simp [typeMatch, typeName, simple, hx]

/-- C76: the schema of `chrono::Weekday` accepts exactly the seven names. -/
theorem C76_weekday {D : Dialect} {env : Env} (i : Json) : Valid D env Fixed.weekdaySchema i ↔
    ∃ d ∈ ["Mon", "Tue", "Wed", "Thu", "Fri", "Sat", "Sun"], i = .str d := by
  unfold Fixed.weekdaySchema
  rw [valid_mkObj (by simp [Obj.keys]) (.inr rfl)]
  simp only [List.mem_cons, List.not_mem_nil, or_false, forall_eq_or_imp, forall_eq]
  rw [entryOk_type rfl, entryOk_simple (by decide)]
  cases i <;> simp [typeMatch, typeName, simple, jeq, canon]
  exact or_congr eq_comm (or_congr eq_comm (or_congr eq_comm (or_congr eq_comm (or_congr eq_comm
    (or_congr eq_comm eq_comm)))))

/-- C76: the schema of `chrono::TimeDelta` accepts exactly the pairs of an integer and a number of nanoseconds. -/
theorem C76_timeDelta {D : Dialect} {env : Env} (hp : D.prefixItems = true) (i : Json) :
    Valid D env Fixed.timeDeltaSchema i ↔ ∃ secs nanos n k, i = .arr [secs, nanos] ∧ IsInt secs n ∧ IsInt nanos k ∧
      0 ≤ k ∧ k < 1000000000 := by
  have e : Fixed.timeDeltaSchema = tupleImpl [typeFormat "integer" "int64",
    mkObj [("type", .str "integer"), ("minimum", .num (.int 0)), ("exclusiveMaximum", .num (.int 1000000000))]] := rfl
  have hn : ∀ j, Valid D env (mkObj [("type", .str "integer"), ("minimum", .num (.int 0)),
      ("exclusiveMaximum", .num (.int 1000000000))]) j ↔ ∃ k, IsInt j k ∧ 0 ≤ k ∧ k < 1000000000 := by
    intro j
    rw [valid_mkObj (by simp [Obj.keys]) (.inr rfl)]
    simp only [List.mem_cons, List.not_mem_nil, or_false, forall_eq_or_imp, forall_eq]
    rw [entryOk_type rfl, entryOk_minimum, typeMatch_integer, entryOk_simple (by decide)]
    constructor
    · rintro ⟨⟨x, n, rfl, hx⟩, h1, h2⟩
      refine ⟨n, ⟨x, rfl, hx⟩, (rat_le_int hx 0).1 (h1 x rfl), ?_⟩
      have h3 : x.val < ((1000000000 : Int) : Rat) := decide_eq_true_iff.1 h2
      rw [hx] at h3
      exact Rat.intCast_lt_intCast.1 h3
    · rintro ⟨n, ⟨x, rfl, hx⟩, h1, h2⟩
      refine ⟨⟨x, n, rfl, hx⟩, ?_, ?_⟩
      · rintro y hy; cases hy; exact (rat_le_int hx 0).2 h1
      · have h3 : x.val < ((1000000000 : Int) : Rat) := by rw [hx]; exact Rat.intCast_lt_intCast.2 h2
        exact decide_eq_true_iff.2 h3
  rw [e, C42_tuple hp]
  constructor
  · rintro ⟨l, rfl, h⟩
    cases h with
    | cons h1 h =>
      cases h with
      | cons h2 h =>
        cases h
        obtain ⟨x, n, rfl, hx⟩ := typeMatch_integer.1 ((valid_typeFormat _ _).1 h1)
        obtain ⟨k, hk, h3, h4⟩ := (hn _).1 h2
        exact ⟨_, _, n, k, rfl, ⟨x, rfl, hx⟩, hk, h3, h4⟩
  · rintro ⟨secs, nanos, n, k, rfl, ⟨x, rfl, hx⟩, hk, h3, h4⟩
    exact ⟨_, rfl, .cons ((valid_typeFormat _ _).2 (typeMatch_integer.2 ⟨x, n, rfl, hx⟩))
      (.cons ((hn _).2 ⟨k, hk, h3, h4⟩) .nil)⟩

/-! ## Negative exponents -/

theorem decimal_noExponent {m : List Char} (h : DecimalText (String.ofList m)) :
    ∀ c ∈ m, (decide (c ≠ 'e') && decide (c ≠ 'E')) = true := by
  obtain ⟨sign, whole, rest, e, hs, hw, hr⟩ := h
  rw [String.toList_ofList] at e
  subst e
  have hd : ∀ {l : List Char}, Digits l → ∀ c ∈ l, (decide (c ≠ 'e') && decide (c ≠ 'E')) = true := by
    intro l hl c hc
    have := (hl.2 c hc).2
    simp only [ne_eq, Bool.and_eq_true, decide_eq_true_eq]
    constructor <;> rintro rfl <;> exact absurd this (by decide)
  intro c hc
  simp only [List.mem_append] at hc
  rcases hc with (hc | hc) | hc
  · rcases hs with rfl | rfl
    · cases hc
    · cases List.mem_singleton.1 hc; rfl
  · exact hd hw c hc
  · rcases hr with rfl | ⟨t, rfl, ht⟩
    · cases hc
    · rcases List.mem_cons.1 hc with rfl | hc
      · rfl
      · exact hd ht c hc

theorem takeWhile_exponent {m r : List Char} {c : Char} (hm : ∀ c ∈ m, (decide (c ≠ 'e') && decide (c ≠ 'E')) = true)
    (hc : c = 'e' ∨ c = 'E') :
    (m ++ c :: r).takeWhile (fun c => decide (c ≠ 'e') && decide (c ≠ 'E')) = m := by
  rw [List.takeWhile_append_of_pos hm, List.takeWhile_cons_of_neg, List.append_nil]
  rcases hc with rfl | rfl <;> simp

/-- C76: no decimal number with a negative exponent is accepted, under either contract. `BigDecimal` writes such texts
for small numbers, and both libraries read them. -/
theorem C76_negative_exponent {D : Dialect} {env : Env} (h : FixedRx env) {s : String} (hs : SmallText s)
    (c : Contract) : ¬ Valid D env (decimalSchema c) (.str s) := by
  obtain ⟨m, e, d, hsl, hm, he, hd⟩ := hs
  have h1 : ¬ DecimalText s := by
    intro hdec
    have := decimal_noExponent (m := s.toList) (by rw [String.ofList_toList]; exact hdec) e (by rw [hsl]; simp)
    rcases he with rfl | rfl <;> simp at this
  have h2 : ¬ ScientificText s := by
    rintro ⟨m', e', d', hsl', hm', he', hd'⟩
    have e1 := takeWhile_exponent (r := '-' :: d) (decimal_noExponent hm) he
    have e2 := takeWhile_exponent (r := d') (decimal_noExponent hm') he'
    rw [← hsl] at e1
    rw [← hsl'] at e2
    have e3 : m = m' := e1.symm.trans e2
    subst e3
    have e4 := List.append_cancel_left (hsl.symm.trans hsl')
    cases e4
    exact absurd (hd'.2 '-' List.mem_cons_self).1 (by decide)
  cases c with
  | serialize =>
    intro hv
    obtain ⟨t, e, ht⟩ := (C76_decimal_schema h _).1.1 hv
    cases e; exact h1 ht
  | deserialize =>
    intro hv
    rcases (C76_decimal_schema h _).2.1 hv with ⟨x, e⟩ | ⟨t, e, ht⟩
    · cases e
    · cases e; exact ht.elim h1 h2

/-- `1E-10` is such a text, and `1.0.0-rc.1+b` a semantic version. -/
example : SmallText "1E-10" ∧ SemVerText "1.0.0-rc.1+b".toList := by
  refine ⟨⟨['1'], 'E', ['1', '0'], rfl, ⟨[], ['1'], [], rfl, .inl rfl, ⟨by decide, by decide⟩, .inl rfl⟩, .inr rfl,
    by decide, by decide⟩, ['1'], ['0'], ['0'], "-rc.1".toList, "+b".toList, rfl, ?_, .inl rfl, .inl rfl, ?_, ?_⟩
  · exact .inr ⟨'1', [], rfl, ⟨by decide, by decide⟩, (by decide), by simp⟩
  · refine .inr ⟨"rc.1".toList, rfl, Dotted.cons (s := ['r', 'c']) (.inl ⟨?_, 'r', by simp, .inl ⟨by decide, by decide⟩⟩)
      (.one (.inr (.inr ⟨'1', [], rfl, ⟨by decide, by decide⟩, (by decide), by simp⟩)))⟩
    intro c hc
    simp only [List.mem_cons, List.not_mem_nil, or_false] at hc
    rcases hc with rfl | rfl <;> exact .inr (.inl ⟨by decide, by decide⟩)
  · exact .inr ⟨['b'], rfl, .one (.inl ⟨(fun c hc => by cases List.mem_singleton.1 hc; exact .inr (.inl ⟨by decide, by decide⟩)),
      'b', by simp, .inl ⟨by decide, by decide⟩⟩)⟩

end Verif
