import Verif.Rustdoc
import Verif.Lemmas.Text

/-!
# C53: doc comments split into title and description
-/

namespace Verif

/-- The characters that Rust calls ASCII whitespace. -/
def Spec.isSpace (c : Char) : Bool := [' ', '\t', '\n', '\x0C', '\r'].contains c

/-- The text neither starts nor ends with ASCII whitespace. -/
def Spec.Trimmed (s : List Char) : Prop :=
  (∀ c, s.head? = some c → Spec.isSpace c = false) ∧ (∀ c, s.getLast? = some c → Spec.isSpace c = false)

/-- The text consists of ASCII whitespace. -/
def Spec.Blank (s : List Char) : Prop := ∀ c ∈ s, Spec.isSpace c = true

/-- What the title and description of a doc comment are. If the first line that is not blank starts with
`#`, the title is this line without the leading `#`s and without the surrounding whitespace, and the
description is everything after this line. Otherwise there is no title. -/
inductive Spec.Splits (doc : List Char) : List Char → List Char → Prop
  | titled {w h a t b w' d w''} : doc = w ++ h ++ a ++ t ++ b ++ w' ++ d ++ w'' →
      Blank w → h ≠ [] → (∀ c ∈ h, c = '#') → Blank a → (a = [] → t.head? ≠ some '#') → Blank b →
      '\n' ∉ a ++ t ++ b → (w' = [] → d = [] ∧ w'' = []) → (∀ c, w'.head? = some c → c = '\n') → Blank w' →
      Blank w'' → Trimmed t → Trimmed d → Splits doc t d
  | untitled {w d w''} : doc = w ++ d ++ w'' → Blank w → Blank w'' → Trimmed d → d.head? ≠ some '#' →
      Splits doc [] d

open Spec

section Bytes
variable {p : UInt8 → Bool} (hp : ∀ b, p b = true → b.toNat < 128)

/-- The predicate on characters that corresponds to a predicate on ASCII bytes. -/
def onChar (p : UInt8 → Bool) (c : Char) : Bool := decide (c.toNat < 128) && p (UInt8.ofNat c.toNat)

include hp

theorem encode_false {c : Char} (h : onChar p c = false) : ∀ b ∈ String.utf8EncodeChar c, p b = false := by
  intro b hb
  by_cases hc : c.toNat < 128
  · rw [encodeChar_ascii hc, List.mem_singleton] at hb
    subst hb
    unfold onChar at h
    simpa [hc] using h
  · have h1 := encodeChar_nonascii (Nat.le_of_not_lt hc) b hb
    cases hpb : p b with
    | false => rfl
    | true => have := hp b hpb; omega

omit hp in
theorem encode_true {c : Char} (h : onChar p c = true) : ∃ b, String.utf8EncodeChar c = [b] ∧ p b = true := by
  unfold onChar at h
  rw [Bool.and_eq_true, decide_eq_true_eq] at h
  exact ⟨_, encodeChar_ascii h.1, h.2⟩

omit hp in
theorem encode_ne_nil (c : Char) : String.utf8EncodeChar c ≠ [] := by
  intro hc
  exact absurd (congrArg List.length hc) (by simpa using Nat.ne_of_gt c.utf8Size_pos)

omit hp in
theorem dropWhile_append_false {q : UInt8 → Bool} {a b : List UInt8} (hn : a ≠ []) (h : ∀ x ∈ a, q x = false) :
    (a ++ b).dropWhile q = a ++ b := by
  cases a with
  | nil => exact absurd rfl hn
  | cons x a => rw [List.cons_append, List.dropWhile_cons, h x (by simp)]; rfl

theorem utf8_dropWhile (s : List Char) : (utf8 s).dropWhile p = utf8 (s.dropWhile (onChar p)) := by
  induction s with
  | nil => rfl
  | cons c s ih =>
    rw [utf8_cons, List.dropWhile_cons]
    cases h : onChar p c with
    | true =>
      obtain ⟨b, hb, hpb⟩ := encode_true h
      rw [hb, List.cons_append, List.nil_append, List.dropWhile_cons, hpb]
      simp [ih]
    | false =>
      rw [dropWhile_append_false (encode_ne_nil c) (encode_false hp h)]
      simp

theorem utf8_dropWhile_reverse (s : List Char) : ((utf8 s.reverse).reverse.dropWhile p).reverse =
    utf8 (s.dropWhile (onChar p)).reverse := by
  induction s with
  | nil => rfl
  | cons c s ih =>
    rw [List.reverse_cons, utf8_append, utf8_cons, utf8_nil, List.append_nil, List.reverse_append,
      List.dropWhile_cons]
    cases h : onChar p c with
    | true =>
      obtain ⟨b, hb, hpb⟩ := encode_true h
      rw [hb, List.reverse_singleton, List.cons_append, List.nil_append, List.dropWhile_cons, hpb]
      simpa using ih
    | false =>
      rw [dropWhile_append_false (by simp [encode_ne_nil c]) (fun x hx =>
        encode_false hp h x (List.mem_reverse.1 hx))]
      simp

end Bytes

theorem ws_ascii (b : UInt8) (h : isAsciiWhitespace b = true) : b.toNat < 128 := by
  unfold isAsciiWhitespace at h
  simp only [Bool.or_eq_true, beq_iff_eq] at h
  rcases h with (((h | h) | h) | h) | h <;> subst h <;> decide

theorem onChar_eq {p : UInt8 → Bool} {l : List Char} (hl : ∀ c ∈ l, c.toNat < 128)
    (hp : ∀ n, n < 128 → (p (UInt8.ofNat n) = true ↔ n ∈ l.map Char.toNat)) : onChar p = l.contains := by
  funext c
  rw [Bool.eq_iff_iff]
  unfold onChar
  rw [Bool.and_eq_true, decide_eq_true_eq, List.contains_iff_mem]
  constructor
  · rintro ⟨h, h2⟩
    obtain ⟨d, hd, hdc⟩ := List.mem_map.1 ((hp _ h).1 h2)
    have : c = d := by
      rw [← Char.ofNat_toNat c, ← Char.ofNat_toNat d, hdc]
    exact this ▸ hd
  · intro h
    exact ⟨hl c h, (hp _ (hl c h)).2 (List.mem_map_of_mem h)⟩

theorem onChar_space : onChar isAsciiWhitespace = isSpace := by
  unfold isSpace
  exact onChar_eq (by decide) (by decide)

theorem onChar_single {b : UInt8} {c : Char} (hb : c.toNat < 128) (h : b = UInt8.ofNat c.toNat) :
    onChar (· == b) = (· == c) := by
  have h1 : onChar (· == b) = [c].contains := by
    apply onChar_eq
    · intro d hd; rw [List.mem_singleton] at hd; subst hd; exact hb
    · intro n hn
      subst h
      rw [beq_iff_eq, List.map_singleton, List.mem_singleton]
      constructor
      · intro h
        have := congrArg UInt8.toNat h
        simp only [UInt8.toNat_ofNat'] at this
        omega
      · rintro rfl; rfl
  rw [h1]
  funext d
  rw [Bool.eq_iff_iff]
  simp

/-- Removing leading and trailing ASCII whitespace. -/
def trimChars (s : List Char) : List Char := ((s.dropWhile isSpace).reverse.dropWhile isSpace).reverse

theorem trimAscii_utf8 (s : List Char) : trimAscii (utf8 s) = utf8 (trimChars s) := by
  unfold trimAscii trimChars
  rw [utf8_dropWhile ws_ascii, onChar_space]
  have := utf8_dropWhile_reverse ws_ascii (s.dropWhile isSpace).reverse
  rw [List.reverse_reverse, onChar_space] at this
  exact this

theorem trimStart_utf8 (s : List Char) : trimStart 0x23 (utf8 s) = utf8 (s.dropWhile (· == '#')) := by
  unfold trimStart
  rw [utf8_dropWhile (p := (· == 0x23)) (by intro b h; rw [beq_iff_eq] at h; subst h; decide),
    onChar_single (c := '#') (by decide) (by decide)]

theorem strchr_eq (chr : UInt8) (b : List UInt8) :
    (strchr chr b).getD b.length = (b.takeWhile (· != chr)).length := by
  induction b with
  | nil => rfl
  | cons x b ih =>
    unfold strchr
    by_cases h : x = chr
    · rw [if_pos h, List.takeWhile_cons, if_neg (by simp [h])]; rfl
    · rw [if_neg h, List.takeWhile_cons, if_pos (by simp [h]), List.length_cons, List.length_cons, ← ih]
      cases strchr chr b <;> rfl

theorem subslice_front (b : List UInt8) {n : Nat} (h : n ≤ b.length) : subslice b 0 n = some (b.take n) := by
  unfold subslice
  rw [if_pos h, List.drop_zero, List.drop_reverse, List.reverse_reverse]
  congr 2; omega

theorem subslice_back (b : List UInt8) (n : Nat) : subslice b n b.length = some (b.drop n) := by
  unfold subslice
  rw [if_pos (Nat.le_refl _), Nat.sub_self, List.drop_zero, List.reverse_reverse]

theorem utf8_split (s : List Char) : (utf8 s).takeWhile (· != 0x0A) = utf8 (s.takeWhile (· != '\n')) ∧
    (utf8 s).dropWhile (· != 0x0A) = utf8 (s.dropWhile (· != '\n')) := by
  have hp : ∀ b : UInt8, (b == 0x0A) = true → b.toNat < 128 := by
    intro b h; rw [beq_iff_eq] at h; subst h; decide
  have he := onChar_single (b := 0x0A) (c := '\n') (by decide) (by decide)
  induction s with
  | nil => exact ⟨rfl, rfl⟩
  | cons c s ih =>
    rw [utf8_cons, List.takeWhile_cons, List.dropWhile_cons]
    cases h : (c == '\n') with
    | true =>
      rw [beq_iff_eq] at h; subst h
      have : String.utf8EncodeChar '\n' = [0x0A] := by decide
      rw [this]
      exact ⟨rfl, by simp [this]⟩
    | false =>
      have hf := encode_false (p := (· == 0x0A)) hp (c := c) (by rw [he]; exact h)
      have hne : (c != '\n') = true := by rw [bne, h]; rfl
      rw [if_pos hne, if_pos hne, utf8_cons, ← ih.1, ← ih.2]
      have h2 : ∀ x ∈ String.utf8EncodeChar c, (x != 0x0A) = true := by
        intro x hx; rw [bne, hf x hx]; rfl
      exact ⟨List.takeWhile_append_of_pos h2, List.dropWhile_append_of_pos h2⟩

/-- The result in terms of characters. -/
theorem getTitleAndDescription_eq (doc : List Char) : getTitleAndDescription doc =
    if (trimChars doc).head? = some '#' then
      some (trimChars (((trimChars doc).takeWhile (· != '\n')).dropWhile (· == '#')),
        trimChars ((trimChars doc).dropWhile (· != '\n')))
    else some ([], trimChars doc) := by
  unfold getTitleAndDescription
  rw [trimAscii_utf8]
  have hh : (utf8 (trimChars doc)).head? = some 0x23 ↔ (trimChars doc).head? = some '#' := by
    cases trimChars doc with
    | nil => simp
    | cons c s =>
      have hd : (String.utf8EncodeChar c ++ utf8 s).head? = (String.utf8EncodeChar c).head? := by
        cases he : String.utf8EncodeChar c with
        | nil => exact absurd he (encode_ne_nil c)
        | cons b r => rfl
      rw [utf8_cons, hd, List.head?_cons, Option.some.injEq]
      constructor
      · intro h
        have hp : ∀ b : UInt8, (b == 0x23) = true → b.toNat < 128 := by
          intro b h; rw [beq_iff_eq] at h; subst h; decide
        have he := onChar_single (b := 0x23) (c := '#') (by decide) (by decide)
        by_contra hc
        have := encode_false (p := (· == 0x23)) hp (c := c) (by rw [he]; simpa using hc) 0x23
          (List.mem_of_mem_head? h)
        cases this
      · rintro rfl; decide
  by_cases h : (trimChars doc).head? = some '#'
  · rw [if_pos h]
    simp only [hh.2 h, if_true]
    rw [strchr_eq, (utf8_split _).1]
    have hle : (utf8 ((trimChars doc).takeWhile (· != '\n'))).length ≤ (utf8 (trimChars doc)).length := by
      rw [← (utf8_split _).1]
      exact (List.takeWhile_sublist _).length_le
    have hcat : utf8 (trimChars doc) = utf8 ((trimChars doc).takeWhile (· != '\n')) ++
        utf8 ((trimChars doc).dropWhile (· != '\n')) := by
      rw [← utf8_append, List.takeWhile_append_dropWhile]
    rw [subslice_front _ hle, subslice_back, Option.bind_some, Option.bind_some]
    have h1 : (utf8 (trimChars doc)).take (utf8 ((trimChars doc).takeWhile (· != '\n'))).length =
        utf8 ((trimChars doc).takeWhile (· != '\n')) := by
      conv_lhs => rw [hcat]
      exact List.take_left
    have h2 : (utf8 (trimChars doc)).drop (utf8 ((trimChars doc).takeWhile (· != '\n'))).length =
        utf8 ((trimChars doc).dropWhile (· != '\n')) := by
      conv_lhs => rw [hcat]
      exact List.drop_left
    rw [h1, h2, trimStart_utf8, trimAscii_utf8, trimAscii_utf8]
    unfold toUtf8
    rw [fromUtf8_utf8, fromUtf8_utf8]
    rfl
  · rw [if_neg h, if_neg (fun hc => h (hh.1 hc))]
    unfold toUtf8
    rw [fromUtf8_utf8]
    rfl

theorem dropWhile_head (q : Char → Bool) (s : List Char) :
    ∀ c, (s.dropWhile q).head? = some c → q c = false := by
  induction s with
  | nil => intro c h; cases h
  | cons x s ih =>
    intro c h
    rw [List.dropWhile_cons] at h
    cases hx : q x with
    | true => rw [if_pos hx] at h; exact ih c h
    | false =>
      rw [hx] at h
      simp only [Bool.false_eq_true, if_false, List.head?_cons, Option.some.injEq] at h
      exact h ▸ hx

theorem mem_takeWhile_true {q : Char → Bool} {s : List Char} {c : Char} (h : c ∈ s.takeWhile q) : q c = true := by
  induction s with
  | nil => cases h
  | cons x s ih =>
    rw [List.takeWhile_cons] at h
    cases hx : q x with
    | true =>
      rw [if_pos hx] at h
      rcases List.mem_cons.1 h with h | h
      · exact h ▸ hx
      · exact ih h
    | false => rw [hx] at h; cases h

/-- Trimming only removes whitespace, and leaves none at the ends. -/
theorem trimChars_spec (s : List Char) : Trimmed (trimChars s) ∧
    ∃ w w', s = w ++ trimChars s ++ w' ∧ Blank w ∧ Blank w' := by
  let u := s.dropWhile isSpace
  have h1 : s = s.takeWhile isSpace ++ u := List.takeWhile_append_dropWhile.symm
  have h2 : u = (u.reverse.dropWhile isSpace).reverse ++ (u.reverse.takeWhile isSpace).reverse := by
    have : u.reverse = u.reverse.takeWhile isSpace ++ u.reverse.dropWhile isSpace :=
      List.takeWhile_append_dropWhile.symm
    have h := congrArg List.reverse this
    rwa [List.reverse_reverse, List.reverse_append] at h
  refine ⟨⟨?_, ?_⟩, s.takeWhile isSpace, (u.reverse.takeWhile isSpace).reverse, ?_, ?_, ?_⟩
  · intro c hc
    change ((u.reverse.dropWhile isSpace).reverse).head? = some c at hc
    apply dropWhile_head isSpace s c
    change u.head? = some c
    rw [h2]
    cases hd : (u.reverse.dropWhile isSpace).reverse with
    | nil => rw [hd] at hc; cases hc
    | cons x l => rw [hd] at hc; exact hc
  · intro c hc
    change ((u.reverse.dropWhile isSpace).reverse).getLast? = some c at hc
    rw [List.getLast?_reverse] at hc
    exact dropWhile_head isSpace _ c hc
  · change s = s.takeWhile isSpace ++ (u.reverse.dropWhile isSpace).reverse ++ _
    rw [List.append_assoc, ← h2]
    exact h1
  · intro c hc; exact mem_takeWhile_true hc
  · intro c hc; exact mem_takeWhile_true (List.mem_reverse.1 hc)

theorem newline_space : isSpace '\n' = true := by decide

/-- C53: the function never panics, and its result is the title and description of the doc comment. -/
theorem C53 (doc : List Char) : ∃ t d, getTitleAndDescription doc = some (t, d) ∧ Splits doc t d := by
  rw [getTitleAndDescription_eq]
  obtain ⟨htrim, w, w', hdoc, hw, hw'⟩ := trimChars_spec doc
  by_cases h : (trimChars doc).head? = some '#'
  · rw [if_pos h]
    refine ⟨_, _, rfl, ?_⟩
    generalize trimChars doc = u at *
    let first := u.takeWhile (· != '\n')
    let rest := u.dropWhile (· != '\n')
    have hu : u = first ++ rest := List.takeWhile_append_dropWhile.symm
    let x := first.dropWhile (· == '#')
    have hf : first = first.takeWhile (· == '#') ++ x := List.takeWhile_append_dropWhile.symm
    obtain ⟨ht, a, b, hx, ha, hb⟩ := trimChars_spec x
    obtain ⟨hd, r, r', hr, hr1, hr2⟩ := trimChars_spec rest
    have hnl : '\n' ∉ first := by
      intro hc
      have := mem_takeWhile_true hc
      simp at this
    have hhead : ∀ c, rest.head? = some c → c = '\n' := by
      intro c hc
      have := dropWhile_head _ _ c hc
      simpa using this
    -- a description that is not empty comes after a line break
    by_cases hrest : rest = []
    · -- the rest of the trailing whitespace belongs to the first line, or begins with a line break
      have hdnil : trimChars rest = [] := by rw [hrest]; rfl
      have hh : first.takeWhile (· == '#') ≠ [] := by
        intro hc
        rw [hu, hrest, List.append_nil] at h
        cases hfirst : first with
        | nil => rw [hfirst] at h; cases h
        | cons y l =>
          rw [hfirst] at h hc
          simp only [List.head?_cons, Option.some.injEq] at h
          subst h
          rw [List.takeWhile_cons] at hc
          simp at hc
      let w1 := w'.takeWhile (· != '\n')
      let w2 := w'.dropWhile (· != '\n')
      have hw12 : w' = w1 ++ w2 := List.takeWhile_append_dropWhile.symm
      refine .titled (w := w) (h := first.takeWhile (· == '#')) (a := a) (b := b ++ w1) (w' := w2) (w'' := [])
        ?_ hw hh (fun c hc => by simpa using mem_takeWhile_true hc) ha ?_ ?_ ?_ ?_ ?_ ?_ ?_ ht hd
      · change _ = w ++ first.takeWhile (· == '#') ++ a ++ trimChars x ++ (b ++ w1) ++ w2 ++ trimChars rest ++ []
        rw [hdnil]
        conv_lhs => rw [hdoc, hu, hrest, hf, hx, hw12]
        simp
      · intro hanil hc
        have := dropWhile_head (· == '#') first '#' (by
          change x.head? = _
          rw [hx, hanil, List.nil_append]
          change (trimChars x).head? = _ at hc
          cases hxt : trimChars x with
          | nil => rw [hxt] at hc; cases hc
          | cons y l => rw [hxt] at hc; exact hc)
        simp at this
      · intro c hc
        rcases List.mem_append.1 hc with hc | hc
        · exact hb c hc
        · exact hw' c (by rw [hw12]; exact List.mem_append_left _ hc)
      · intro hc
        rw [← List.append_assoc, List.mem_append] at hc
        rcases hc with hc | hc
        · exact hnl (by rw [hf, hx]; exact List.mem_append_right _ hc)
        · have := mem_takeWhile_true hc
          simp at this
      · intro _; exact ⟨hdnil, rfl⟩
      · intro c hc
        have := dropWhile_head _ _ c hc
        simpa using this
      · intro c hc; exact hw' c (by rw [hw12]; exact List.mem_append_right _ hc)
      · intro c hc; cases hc
    · have hh : first.takeWhile (· == '#') ≠ [] := by
        intro hc
        cases hfirst : first with
        | nil =>
          rw [hu, hfirst, List.nil_append] at h
          have := hhead _ h
          cases this
        | cons y l =>
          rw [hu, hfirst] at h
          rw [hfirst] at hc
          simp only [List.cons_append, List.head?_cons, Option.some.injEq] at h
          subst h
          rw [List.takeWhile_cons] at hc
          simp at hc
      have hrne : r ≠ [] := by
        intro hc
        cases hrc : rest with
        | nil => exact hrest hrc
        | cons y l =>
          have hy := hhead y (by rw [hrc]; rfl)
          subst hy
          cases htr : trimChars rest with
          | nil =>
            -- the whole rest would be trailing whitespace of a trimmed text
            have hlast : ∃ z, rest.getLast? = some z := by
              exact ⟨_, List.getLast?_eq_some_getLast hrest⟩
            obtain ⟨z, hz⟩ := hlast
            have h1 : isSpace z = false := htrim.2 z (by
              rw [hu, List.getLast?_append, hz]; rfl)
            have h2 : isSpace z = true := hr2 z (by
              rw [hr, htr, hc] at hz
              exact List.mem_of_mem_getLast? hz)
            rw [h1] at h2; cases h2
          | cons z l' =>
            have h1 := hd.1 z (by rw [htr]; rfl)
            rw [hr, hc, htr] at hrc
            simp only [List.nil_append, List.cons_append, List.cons.injEq] at hrc
            rw [hrc.1] at h1
            cases h1
      refine .titled (w := w) (h := first.takeWhile (· == '#')) (a := a) (b := b) (w' := r) (w'' := r' ++ w')
        ?_ hw hh (fun c hc => by simpa using mem_takeWhile_true hc) ha ?_ hb ?_ (fun hc => absurd hc hrne) ?_
        hr1 ?_ ht hd
      · change _ = w ++ first.takeWhile (· == '#') ++ a ++ trimChars x ++ b ++ r ++ trimChars rest ++ (r' ++ w')
        conv_lhs => rw [hdoc, hu, hf, hx, hr]
        simp
      · intro hanil hc
        have := dropWhile_head (· == '#') first '#' (by
          change x.head? = _
          rw [hx, hanil, List.nil_append]
          change (trimChars x).head? = _ at hc
          cases hxt : trimChars x with
          | nil => rw [hxt] at hc; cases hc
          | cons y l => rw [hxt] at hc; exact hc)
        simp at this
      · intro hc
        exact hnl (by rw [hf, hx]; exact List.mem_append_right _ hc)
      · intro c hc
        refine hhead c ?_
        rw [hr]
        cases hrc : r with
        | nil => exact absurd hrc hrne
        | cons y l => rw [hrc] at hc; exact hc
      · intro c hc
        rcases List.mem_append.1 hc with hc | hc
        · exact hr2 c hc
        · exact hw' c hc
  · rw [if_neg h]
    exact ⟨_, _, rfl, .untitled hdoc hw hw' htrim h⟩

/-- Neither whitespace nor `#`. -/
def Spec.isText (c : Char) : Bool := !isSpace c && c != '#'

theorem filter_blank {w : List Char} (h : Blank w) : w.filter isText = [] := by
  rw [List.filter_eq_nil_iff]
  intro c hc
  unfold isText
  rw [h c hc]; simp

theorem filter_hashes {h : List Char} (hh : ∀ c ∈ h, c = '#') : h.filter isText = [] := by
  rw [List.filter_eq_nil_iff]
  intro c hc
  rw [hh c hc]; decide

/-- Nothing but `#`s and whitespace is lost. -/
theorem C53_lossless {doc t d : List Char} (h : getTitleAndDescription doc = some (t, d)) :
    t.filter isText ++ d.filter isText = doc.filter isText := by
  obtain ⟨t', d', h', hs⟩ := C53 doc
  rw [h] at h'; cases h'
  cases hs with
  | titled hdoc hw hne hh ha _ hb _ _ _ hw' hw'' _ _ =>
    rw [hdoc]
    simp [filter_blank hw, filter_hashes hh, filter_blank ha, filter_blank hb, filter_blank hw', filter_blank hw'']
  | untitled hdoc hw hw'' _ _ =>
    rw [hdoc]
    simp [filter_blank hw, filter_blank hw'']

/-- Both parts are trimmed. -/
theorem C53_trimmed {doc t d : List Char} (h : getTitleAndDescription doc = some (t, d)) :
    Trimmed t ∧ Trimmed d := by
  obtain ⟨t', d', h', hs⟩ := C53 doc
  rw [h] at h'; cases h'
  cases hs with
  | titled _ _ _ _ _ _ _ _ _ _ _ _ ht hd => exact ⟨ht, hd⟩
  | untitled _ _ _ hd _ => exact ⟨⟨fun c h => (nomatch h), fun c h => (nomatch h)⟩, hd⟩

/-- The first character that is not whitespace is `#`. -/
def Spec.StartsWithHash (doc : List Char) : Prop := ∃ w rest, Blank w ∧ doc = w ++ '#' :: rest

/-- The literal claim: there is a title exactly when the trimmed text starts with `#`. -/
def C53_TitleFull : Prop := ∀ doc t d, getTitleAndDescription doc = some (t, d) → (t ≠ [] ↔ StartsWithHash doc)

/-- The title is not empty exactly when the trimmed text starts with `#` and its first line has a character
that is neither the beginning `#`s nor whitespace. (Missing from `C53_TitleFull`: a first line of `#`s and
whitespace only gives an empty title, `C53_title_fails`.) -/
theorem C53_title_partial {doc t d : List Char} (h : getTitleAndDescription doc = some (t, d)) :
    t ≠ [] ↔ ∃ w h line rest, Blank w ∧ h ≠ [] ∧ (∀ c ∈ h, c = '#') ∧ doc = w ++ h ++ line ++ rest ∧
      line.head? ≠ some '#' ∧ '\n' ∉ line ∧ (∀ c, rest.head? = some c → c = '\n') ∧ ¬ Blank line := by
  rw [getTitleAndDescription_eq] at h
  obtain ⟨htrim, w, w', hdoc, hw, hw'⟩ := trimChars_spec doc
  constructor
  · intro hne
    by_cases hh : (trimChars doc).head? = some '#'
    · obtain ⟨t', d', h', hs⟩ := C53 doc
      rw [getTitleAndDescription_eq, h] at h'; cases h'
      cases hs with
      | @titled w h a t b w' d w'' hdoc hw hn hh ha hat hb hnl hw' hhead _ _ ht hd =>
        refine ⟨w, h, a ++ t ++ b, w' ++ d ++ w'', hw, hn, hh, by rw [hdoc]; simp, ?_, hnl, ?_, ?_⟩
        · intro hc
          cases a with
          | nil =>
            apply hat rfl
            cases t with
            | nil => exact absurd rfl hne
            | cons x t => exact hc
          | cons x a =>
            simp only [List.cons_append, List.head?_cons, Option.some.injEq] at hc
            have := ha x (by simp)
            rw [hc] at this
            cases this
        · intro c hc
          cases hw'c : w' with
          | nil =>
            rw [hw'c, (hw' hw'c).1, (hw' hw'c).2] at hc
            cases hc
          | cons x l => rw [hw'c] at hc; exact hhead c (by rw [hw'c]; exact hc)
        · intro hbl
          cases t with
          | nil => exact hne rfl
          | cons x t =>
            have h1 := ht.1 x rfl
            have h2 := hbl x (by simp)
            rw [h1] at h2; cases h2
      | untitled _ _ _ _ _ => exact absurd rfl hne
    · rw [if_neg hh] at h
      cases h
      exact absurd rfl hne
  · rintro ⟨v, hs, line, rest, hv, hsne, hsh, hd, hl, hnl, hrest, hnb⟩
    -- the text between the whitespace
    have hlast : ∃ l1 x l2, line = l1 ++ x :: l2 ∧ isSpace x = false := by
      simp only [Blank, not_forall] at hnb
      obtain ⟨x, hx, hs'⟩ := hnb
      obtain ⟨l1, l2, hl⟩ := List.append_of_mem hx
      exact ⟨l1, x, l2, hl, by simpa using hs'⟩
    obtain ⟨l1, x, l2, hline, hx⟩ := hlast
    have hdw : doc.dropWhile isSpace = hs ++ line ++ rest := by
      rw [hd, List.append_assoc, List.append_assoc, List.dropWhile_append_of_pos (fun c hc => hv c hc)]
      cases hs with
      | nil => exact absurd rfl hsne
      | cons y l =>
        rw [hsh y (by simp)]
        rw [List.cons_append, List.dropWhile_cons, List.append_assoc, if_neg (by decide)]
        rfl
    -- the trailing whitespace is behind `x`
    have htc : ∃ l3 rest', trimChars doc = hs ++ (l1 ++ x :: l3) ++ rest' ∧ '\n' ∉ l3 ∧
        (∀ c, rest'.head? = some c → c = '\n') := by
      obtain ⟨u, hu1, hu2⟩ : ∃ u, trimChars doc = hs ++ l1 ++ x :: u ∧ ∃ v, l2 ++ rest = u ++ v := by
        unfold trimChars
        rw [hdw, hline]
        have : hs ++ (l1 ++ x :: l2) ++ rest = (hs ++ l1 ++ [x]) ++ (l2 ++ rest) := by simp
        rw [this, List.reverse_append, List.dropWhile_append]
        by_cases he : ((l2 ++ rest).reverse.dropWhile isSpace).isEmpty = true
        · rw [if_pos he]
          refine ⟨[], ?_, _, rfl⟩
          rw [List.reverse_append, List.reverse_singleton, List.singleton_append, List.dropWhile_cons, hx]
          simp
        · rw [if_neg he]
          refine ⟨((l2 ++ rest).reverse.dropWhile isSpace).reverse, by simp,
            ((l2 ++ rest).reverse.takeWhile isSpace).reverse, ?_⟩
          rw [← List.reverse_append, List.takeWhile_append_dropWhile, List.reverse_reverse]
      obtain ⟨v', hv'⟩ := hu2
      have hl2 : '\n' ∉ l2 := fun hc => hnl (by rw [hline]; simp [hc])
      rcases List.append_eq_append_iff.1 hv' with ⟨a, h1, h2⟩ | ⟨a, h1, h2⟩
      · refine ⟨l2, a, by rw [hu1, h1]; simp, hl2, ?_⟩
        intro c hc
        refine hrest c ?_
        rw [h2]
        cases a with
        | nil => cases hc
        | cons y a => exact hc
      · refine ⟨u, [], by rw [hu1]; simp, fun hc => hl2 (by rw [h1]; simp [hc]), fun c hc => by cases hc⟩
    obtain ⟨l3, rest', ht3, hn3, hr3⟩ := htc
    have hhead : (trimChars doc).head? = some '#' := by
      rw [ht3]
      cases hs with
      | nil => exact absurd rfl hsne
      | cons y l => rw [hsh y (by simp)]; rfl
    rw [if_pos hhead] at h
    have hfirst : (trimChars doc).takeWhile (· != '\n') = hs ++ (l1 ++ x :: l3) := by
      rw [ht3]
      have hall : ∀ c ∈ hs ++ (l1 ++ x :: l3), (c != '\n') = true := by
        intro c hc
        rw [bne_iff_ne]
        rintro rfl
        rcases List.mem_append.1 hc with hc | hc
        · cases hsh _ hc
        · rcases List.mem_append.1 hc with hc | hc
          · exact hnl (by rw [hline]; simp [hc])
          · rcases List.mem_cons.1 hc with hc | hc
            · rw [← hc] at hx; cases hx
            · exact hn3 hc
      rw [List.takeWhile_append_of_pos hall]
      cases rest' with
      | nil => simp
      | cons y r =>
        rw [hr3 y rfl, List.takeWhile_cons]
        simp
    rw [hfirst, List.dropWhile_append_of_pos (fun c hc => by rw [hsh c hc]; rfl)] at h
    simp only [Option.some.injEq, Prod.mk.injEq] at h
    intro ht
    have hmem : x ∈ (l1 ++ x :: l3).dropWhile (· == '#') := by
      have hh2 : (l1 ++ x :: l3).head? ≠ some '#' := by
        intro hc
        apply hl
        rw [hline]
        cases l1 with
        | nil => exact hc
        | cons y l => exact hc
      cases hq : l1 ++ x :: l3 with
      | nil => simp at hq
      | cons y q =>
        rw [List.dropWhile_cons, if_neg]
        · rw [← hq]; simp
        · intro hc
          rw [beq_iff_eq] at hc
          exact hh2 (by rw [hq, hc]; rfl)
    obtain ⟨_, v1, v2, hv12, hb1, hb2⟩ := trimChars_spec ((l1 ++ x :: l3).dropWhile (· == '#'))
    rw [h.1, ht, List.append_nil] at hv12
    rw [hv12] at hmem
    rcases List.mem_append.1 hmem with hm | hm
    · rw [hb1 x hm] at hx; cases hx
    · rw [hb2 x hm] at hx; cases hx

theorem dropWhile_blank {a x : List Char} (ha : Blank a) : (a ++ x).dropWhile isSpace = x.dropWhile isSpace := by
  induction a with
  | nil => rfl
  | cons c a ih =>
    rw [List.cons_append, List.dropWhile_cons_of_pos (ha c (by simp))]
    exact ih fun c hc => ha c (by simp [hc])

theorem dropSpace_head {x : List Char} (h : ∀ c, x.head? = some c → isSpace c = false) : x.dropWhile isSpace = x := by
  cases x with
  | nil => rfl
  | cons c x => rw [List.dropWhile_cons_of_neg (by simp [h c rfl])]

/-- The text between the whitespace is determined. -/
theorem trimmed_unique {a t b a' t' b' : List Char} (ha : Blank a) (hb : Blank b) (ht : Trimmed t) (ha' : Blank a')
    (hb' : Blank b') (ht' : Trimmed t') (h : a ++ t ++ b = a' ++ t' ++ b') : t = t' := by
  have key : ∀ {a t b : List Char}, Blank a → Blank b → Trimmed t →
      (((a ++ t ++ b).dropWhile isSpace).reverse.dropWhile isSpace).reverse = t := by
    intro a t b ha hb ht
    rw [List.append_assoc, dropWhile_blank ha]
    have hr : Blank b.reverse := fun c hc => hb c (List.mem_reverse.1 hc)
    cases t with
    | nil =>
      have : (b.dropWhile isSpace) = [] := by
        have := dropWhile_blank (x := []) hb
        simpa using this
      simp [this]
    | cons c t =>
      rw [dropSpace_head (x := c :: t ++ b) (fun q hq => ht.1 q hq), List.reverse_append, dropWhile_blank hr,
        dropSpace_head, List.reverse_reverse]
      intro q hq
      apply ht.2
      rw [List.head?_reverse] at hq
      exact hq
  rw [← key ha hb ht, h, key ha' hb' ht']

theorem takeWhile_split {p : Char → Bool} {x y : List Char} (hx : ∀ c ∈ x, p c = true)
    (hy : ∀ c, y.head? = some c → p c = false) : (x ++ y).takeWhile p = x ∧ (x ++ y).dropWhile p = y := by
  induction x with
  | nil =>
    cases y with
    | nil => exact ⟨rfl, rfl⟩
    | cons c y =>
      have := hy c rfl
      simp [this]
  | cons c x ih =>
    have hc := hx c (by simp)
    obtain ⟨h1, h2⟩ := ih fun c hc => hx c (by simp [hc])
    simp only [List.cons_append, List.takeWhile_cons, List.dropWhile_cons, hc, if_true, h1, h2, and_self]

theorem split_unique {p : Char → Bool} {x y x' y' : List Char} (hx : ∀ c ∈ x, p c = true)
    (hy : ∀ c, y.head? = some c → p c = false) (hx' : ∀ c ∈ x', p c = true)
    (hy' : ∀ c, y'.head? = some c → p c = false) (h : x ++ y = x' ++ y') : x = x' ∧ y = y' := by
  obtain ⟨h1, h2⟩ := takeWhile_split hx hy
  obtain ⟨h3, h4⟩ := takeWhile_split hx' hy'
  rw [h] at h1 h2
  exact ⟨h1.symm.trans h3, h2.symm.trans h4⟩

/-- A doc comment has one title and one description. -/
theorem Spec.Splits.unique {doc t d t' d' : List Char} (h : Splits doc t d) (h' : Splits doc t' d') :
    t = t' ∧ d = d' := by
  have hash : isSpace '#' = false := by decide
  have mixed : ∀ {w d w'' v g y : List Char}, Blank w → Blank w'' → Trimmed d → d.head? ≠ some '#' → Blank v → g ≠ [] →
      (∀ c ∈ g, c = '#') → w ++ d ++ w'' = v ++ g ++ y → False := by
    intro w d w'' v g y hw hw'' ht hd hv hg hh e
    cases g with
    | nil => exact hg rfl
    | cons c g =>
      obtain rfl := hh c (by simp)
      rw [List.append_assoc, List.append_assoc] at e
      cases d with
      | nil =>
        have hm : '#' ∈ w ++ ([] ++ w'') := by rw [e]; simp
        simp only [List.nil_append, List.mem_append] at hm
        rcases hm with hm | hm
        · rw [hw _ hm] at hash; cases hash
        · rw [hw'' _ hm] at hash; cases hash
      | cons q d =>
        have h1 := (split_unique (p := isSpace) (y := q :: d ++ w'') hw (fun c hc => ht.1 c hc) hv
          (y' := '#' :: g ++ y) (fun c hc => by cases hc; exact hash) e).2
        simp only [List.cons_append, List.cons.injEq] at h1
        exact hd (by rw [h1.1]; rfl)
  cases h with
  | untitled e hw hw'' ht hd =>
    cases h' with
    | untitled e' hw1 hw1'' ht1 hd1 => exact ⟨rfl, trimmed_unique hw hw'' ht hw1 hw1'' ht1 (e.symm.trans e')⟩
    | @titled v g a t b w' d u e' hw1 hn hh _ _ _ _ _ _ _ _ _ _ =>
      rw [e] at e'
      exact (mixed hw hw'' ht hd hw1 hn hh (y := a ++ t' ++ b ++ w' ++ d' ++ u) (by rw [e']; simp)).elim
  | @titled w h a t b x d y e hw hn hh ha hat hb hnl hxd hx hbx hby ht hd =>
    cases h' with
    | untitled e' hw1 hw1'' ht1 hd1 =>
      rw [e'] at e
      exact (mixed hw1 hw1'' ht1 hd1 hw hn hh (y := a ++ t ++ b ++ x ++ d ++ y) (by rw [e]; simp)).elim
    | @titled w1 h1 a1 t1 b1 x1 d1 y1 e1 hw1 hn1 hh1 ha1 hat1 hb1 hnl1 hxd1 hx1 hbx1 hby1 ht1 hd1 =>
      have head : ∀ {g z : List Char}, g ≠ [] → (∀ c ∈ g, c = '#') → ∀ c, (g ++ z).head? = some c →
          isSpace c = false := by
        intro g z hg hh c hc
        cases g with
        | nil => exact absurd rfl hg
        | cons q g => cases hc; rw [hh c (by simp)]; exact hash
      have lineHead : ∀ {a t b : List Char}, Blank a → Blank b → (a = [] → t.head? ≠ some '#') → ∀ c,
          (a ++ t ++ b).head? = some c → (c == '#') = false := by
        intro a t b ha hb hat c hc
        cases a with
        | cons q a =>
          cases hc
          refine beq_eq_false_iff_ne.2 ?_
          rintro rfl
          rw [ha _ (by simp)] at hash; cases hash
        | nil =>
          cases t with
          | cons q t =>
            cases hc
            refine beq_eq_false_iff_ne.2 ?_
            rintro rfl
            exact hat rfl rfl
          | nil =>
            cases b with
            | nil => cases hc
            | cons q b =>
              cases hc
              refine beq_eq_false_iff_ne.2 ?_
              rintro rfl
              rw [hb _ (by simp)] at hash; cases hash
      have line : ∀ {h z : List Char}, (∀ c ∈ h, c = '#') → '\n' ∉ z → ∀ c ∈ h ++ z, (c != '\n') = true := by
        intro h z hh hz c hc
        rw [bne_iff_ne]
        rintro rfl
        rcases List.mem_append.1 hc with hc | hc
        · exact absurd (hh _ hc) (by decide)
        · exact hz hc
      have after : ∀ {x d y : List Char}, (x = [] → d = [] ∧ y = []) → (∀ c, x.head? = some c → c = '\n') → ∀ c,
          (x ++ d ++ y).head? = some c → (c != '\n') = false := by
        intro x d y h0 h1 c hc
        cases x with
        | nil => obtain ⟨rfl, rfl⟩ := h0 rfl; cases hc
        | cons q x => cases hc; rw [h1 _ rfl]; decide
      rw [e] at e1
      have s1 := (split_unique (p := isSpace) (x := w) (y := h ++ (a ++ t ++ b ++ x ++ d ++ y)) hw (head hn hh) hw1
        (y' := h1 ++ (a1 ++ t' ++ b1 ++ x1 ++ d' ++ y1)) (head hn1 hh1) (by simpa using e1)).2
      obtain ⟨s2, s3⟩ := split_unique (p := (· != '\n')) (x := h ++ (a ++ t ++ b)) (y := x ++ d ++ y) (line hh hnl)
        (after hxd hx) (x' := h1 ++ (a1 ++ t' ++ b1)) (y' := x1 ++ d' ++ y1) (line hh1 hnl1) (after hxd1 hx1)
        (by simpa using s1)
      have s4 := (split_unique (p := (· == '#')) (fun c hc => by simp [hh c hc]) (lineHead ha hb hat)
        (fun c hc => by simp [hh1 c hc]) (lineHead ha1 hb1 hat1) s2).2
      exact ⟨trimmed_unique ha hb ht ha1 hb1 ht1 s4, trimmed_unique hbx hby hd hbx1 hby1 hd1 s3⟩

/-- C53: the result is the title and description of the doc comment, which are determined by it. -/
theorem C53_iff {doc t d : List Char} : getTitleAndDescription doc = some (t, d) ↔ Splits doc t d := by
  obtain ⟨t', d', h, hs⟩ := C53 doc
  rw [h]
  constructor
  · intro e; cases e; exact hs
  · intro hs'
    obtain ⟨rfl, rfl⟩ := hs.unique hs'
    rfl

/-- A doc comment `#` has no title although it starts with `#`. -/
theorem C53_title_fails : ¬ C53_TitleFull := by
  intro h
  have h1 : getTitleAndDescription ['#'] = some ([], []) := by
    rw [getTitleAndDescription_eq]; decide
  have h2 : StartsWithHash ['#'] := by
    refine ⟨[], [], ?_, rfl⟩
    intro c hc
    cases hc
  exact (h _ _ _ h1).2 h2 rfl

/-- `# Title #x`, a blank line and a description. -/
example : getTitleAndDescription "  ## Title #x \n\n about\nit ".toList =
    some ("Title #x".toList, "about\nit".toList) := by
  rw [getTitleAndDescription_eq]; decide

/-- No title. -/
example : getTitleAndDescription " about # it ".toList = some ([], "about # it".toList) := by
  rw [getTitleAndDescription_eq]; decide

end Verif
