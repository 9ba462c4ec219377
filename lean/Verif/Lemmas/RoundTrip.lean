import Verif.Lemmas.Encoding

namespace Verif
open Spec

theorem toDigit16_hexDigitU {n : Nat} (h : n < 16) : toDigit16 (hexDigitU n) = some n := by
  have : ∀ n < 16, toDigit16 (hexDigitU n) = some n := by decide
  exact this n h

theorem needsEncoding_false {b : UInt8} (h : needsEncoding b = false) :
    16 ≤ b.toNat ∧ b.toNat < 128 ∧ b.toNat ≠ 0x7E ∧ b.toNat ≠ 0x2F ∧ b.toNat ≠ 0x25 := by
  simp only [needsEncoding] at h
  split_ifs at h with h1 h2
  omega

theorem needsEncoding_high {b : UInt8} (h : 128 ≤ b.toNat) : needsEncoding b = true := by
  cases hb : needsEncoding b with
  | true => rfl
  | false => have := needsEncoding_false hb; omega

theorem toNat_ofNat_lt {n : Nat} (h : n < 128) : (Char.ofNat n).toNat = n := by
  have : ∀ n < 128, (Char.ofNat n).toNat = n := by decide
  exact this n h

theorem char_ofNat_toNat (c : Char) : Char.ofNat c.toNat = c := Char.ofNat_toNat c

theorem encodeByte_lit {b : UInt8} (h : needsEncoding b = false) :
    encodeByte b = [Char.ofNat b.toNat] := by
  obtain ⟨_, _, h3, h4, _⟩ := needsEncoding_false h
  simp [encodeByte, h, h3, h4]

theorem encodeByte_hex {b : UInt8} (h : needsEncoding b = true) (h1 : b.toNat ≠ 0x7E)
    (h2 : b.toNat ≠ 0x2F) (h3 : 16 ≤ b.toNat) :
    encodeByte b = ['%', hexDigitU (b.toNat / 16), hexDigitU (b.toNat % 16)] := by
  have : ¬ b.toNat < 16 := by omega
  simp [encodeByte, h, h1, h2, fmt2X, this]

/-- The bytes of the escaped token that one byte contributes. -/
def escByte (b : UInt8) : List UInt8 :=
  if b.toNat = 0x7E then [0x7E, 0x30] else if b.toNat = 0x2F then [0x7E, 0x31] else [b]

theorem encodeChar_tilde : String.utf8EncodeChar '~' = [0x7E] := by decide
theorem encodeChar_0 : String.utf8EncodeChar '0' = [0x30] := by decide
theorem encodeChar_1 : String.utf8EncodeChar '1' = [0x31] := by decide

theorem encodeChar_ofNat {b : UInt8} (h : b.toNat < 128) :
    String.utf8EncodeChar (Char.ofNat b.toNat) = [b] := by
  rw [encodeChar_ascii (by rw [toNat_ofNat_lt h]; exact h), toNat_ofNat_lt h]
  simp

theorem div_mod_byte (b : UInt8) : UInt8.ofNat (16 * (b.toNat / 16) + b.toNat % 16) = b := by
  rw [Nat.div_add_mod]; simp

theorem loopBytes_encodeByte {b : UInt8} (hb : 16 ≤ b.toNat) (r : List Char) :
    loopBytes (encodeByte b ++ r) = escByte b ++ loopBytes r := by
  by_cases h1 : b.toNat = 0x7E
  · simp [encodeByte, escByte, h1, loopBytes_ne, encodeChar_tilde, encodeChar_0]
  by_cases h2 : b.toNat = 0x2F
  · simp [encodeByte, escByte, h2, loopBytes_ne, encodeChar_tilde, encodeChar_1]
  have he : escByte b = [b] := by simp [escByte, h1, h2]
  cases h3 : needsEncoding b with
  | false =>
    have h4 := needsEncoding_false h3
    have hne : Char.ofNat b.toNat ≠ '%' := by
      intro hc
      have := congrArg Char.toNat hc
      rw [toNat_ofNat_lt h4.2.1] at this
      exact h4.2.2.2.2 this
    rw [encodeByte_lit h3, he, List.singleton_append, loopBytes_ne hne, encodeChar_ofNat h4.2.1]
  | true =>
    have hlt : b.toNat < 256 := b.toNat_lt
    rw [encodeByte_hex h3 h1 h2 hb, he]
    simp only [List.cons_append, List.nil_append]
    rw [loopBytes_pct_hex (toDigit16_hexDigitU (by omega)) (toDigit16_hexDigitU (by omega)),
      div_mod_byte]

theorem pctOctets_ne {c : Char} (h : c ≠ '%') (r : List Char) :
    pctOctets (c :: r) = String.utf8EncodeChar c ++ pctOctets r := by
  rw [pctOctets]
  intro a b t hc; exact absurd hc h

theorem pctOctets_encodeByte {b : UInt8} (hb : 16 ≤ b.toNat) (r : List Char) :
    pctOctets (encodeByte b ++ r) = escByte b ++ pctOctets r := by
  by_cases h1 : b.toNat = 0x7E
  · simp [encodeByte, escByte, h1, pctOctets_ne, encodeChar_tilde, encodeChar_0]
  by_cases h2 : b.toNat = 0x2F
  · simp [encodeByte, escByte, h2, pctOctets_ne, encodeChar_tilde, encodeChar_1]
  have he : escByte b = [b] := by simp [escByte, h1, h2]
  cases h3 : needsEncoding b with
  | false =>
    have h4 := needsEncoding_false h3
    have hne : Char.ofNat b.toNat ≠ '%' := by
      intro hc
      have := congrArg Char.toNat hc
      rw [toNat_ofNat_lt h4.2.1] at this
      exact h4.2.2.2.2 this
    rw [encodeByte_lit h3, he, List.singleton_append, pctOctets_ne hne, encodeChar_ofNat h4.2.1]
  | true =>
    have hlt : b.toNat < 256 := b.toNat_lt
    rw [encodeByte_hex h3 h1 h2 hb, he]
    simp only [List.cons_append, List.nil_append, pctOctets, hexVal_eq_toDigit16]
    rw [toDigit16_hexDigitU (by omega), toDigit16_hexDigitU (by omega)]
    simp only [div_mod_byte]

/-- The early exit of `encode_ref_name` agrees with the loop. -/
theorem encodeRefChars_eq (name : List Char) :
    encodeRefChars name = (utf8 name).flatMap encodeByte := by
  unfold encodeRefChars
  split
  · rfl
  · next h =>
    have h : ∀ b ∈ utf8 name, needsEncoding b = false := by
      intro b hb
      cases hn : needsEncoding b with
      | false => rfl
      | true => exact absurd (List.any_eq_true.2 ⟨b, hb, hn⟩) h
    clear * - h
    induction name with
    | nil => rfl
    | cons c t ih =>
      rw [utf8_cons, List.flatMap_append, ← ih (fun b hb => h b (by simp [hb]))]
      have hc : c.toNat < 128 := by
        by_contra hc
        have hne : String.utf8EncodeChar c ≠ [] := String.utf8EncodeChar_ne_nil
        obtain ⟨b, l, hbl⟩ : ∃ b l, String.utf8EncodeChar c = b :: l := by
          cases hx : String.utf8EncodeChar c with
          | nil => exact absurd hx hne
          | cons b l => exact ⟨b, l, rfl⟩
        have h1 := encodeChar_nonascii (c := c) (by omega) b (by simp [hbl])
        have h2 := h b (by simp [hbl])
        rw [needsEncoding_high h1] at h2
        cases h2
      rw [encodeChar_ascii hc]
      have h2 := h (UInt8.ofNat c.toNat) (by simp [encodeChar_ascii hc])
      have h3 : (UInt8.ofNat c.toNat).toNat = c.toNat := by
        simp only [UInt8.toNat_ofNat', Nat.reducePow]; omega
      simp only [List.flatMap_cons, List.flatMap_nil, List.append_nil, encodeByte_lit h2, h3]
      rw [char_ofNat_toNat]; rfl

theorem escByte_high {b : UInt8} (h : 128 ≤ b.toNat) : escByte b = [b] := by
  have h1 : b.toNat ≠ 0x7E := by omega
  have h2 : b.toNat ≠ 0x2F := by omega
  simp [escByte, h1, h2]

theorem flatMap_escByte_char (c : Char) :
    (String.utf8EncodeChar c).flatMap escByte =
      utf8 (if c = '~' then ['~', '0'] else if c = '/' then ['~', '1'] else [c]) := by
  by_cases hc : c.toNat < 128
  · have h3 : (UInt8.ofNat c.toNat).toNat = c.toNat := by
      simp only [UInt8.toNat_ofNat', Nat.reducePow]; omega
    rw [encodeChar_ascii hc]
    simp only [List.flatMap_cons, List.flatMap_nil, List.append_nil, escByte, h3]
    by_cases h1 : c = '~'
    · subst h1; decide
    by_cases h2 : c = '/'
    · subst h2; decide
    have e1 : c.toNat ≠ 0x7E := fun h => h1 (by rw [← char_ofNat_toNat c, h])
    have e2 : c.toNat ≠ 0x2F := fun h => h2 (by rw [← char_ofNat_toNat c, h])
    simp [h1, h2, e1, e2, encodeChar_ascii hc]
  · have h1 : c ≠ '~' := by rintro rfl; exact hc (by decide)
    have h2 : c ≠ '/' := by rintro rfl; exact hc (by decide)
    have hh := encodeChar_nonascii (c := c) (by omega)
    simp only [h1, h2, if_false, utf8_cons, utf8_nil, List.append_nil]
    generalize String.utf8EncodeChar c = l at hh
    induction l with
    | nil => rfl
    | cons b t ih =>
      rw [List.flatMap_cons, escByte_high (hh b (by simp)), ih (fun x hx => hh x (by simp [hx]))]
      rfl

theorem flatMap_escByte (name : List Char) : (utf8 name).flatMap escByte = utf8 (escapeToken name) := by
  induction name with
  | nil => rfl
  | cons c t ih =>
    rw [utf8_cons, List.flatMap_append, ih, flatMap_escByte_char, ← utf8_append]
    rfl

theorem utf8_ge_16 {name : List Char} (h : ∀ c ∈ name, 0x10 ≤ c.toNat) :
    ∀ b ∈ utf8 name, 16 ≤ b.toNat := by
  intro b hb
  obtain ⟨c, hc, hb⟩ := List.mem_flatMap.1 hb
  by_cases h1 : c.toNat < 128
  · rw [encodeChar_ascii h1] at hb
    simp only [List.mem_singleton] at hb
    have := h c hc
    subst hb
    simp only [UInt8.toNat_ofNat', Nat.reducePow]; omega
  · have := encodeChar_nonascii (c := c) (by omega) b hb; omega

theorem loopBytes_encode {name : List Char} (h : ∀ c ∈ name, 0x10 ≤ c.toNat) :
    loopBytes (encodeRefChars name) = utf8 (escapeToken name) := by
  rw [encodeRefChars_eq, ← flatMap_escByte]
  have h := utf8_ge_16 h
  generalize utf8 name = l at h
  induction l with
  | nil => rfl
  | cons b t ih =>
    rw [List.flatMap_cons, loopBytes_encodeByte (h b (by simp)), ih (fun x hx => h x (by simp [hx]))]
    rfl

theorem pctOctets_encode {name : List Char} (h : ∀ c ∈ name, 0x10 ≤ c.toNat) :
    pctOctets (encodeRefChars name) = utf8 (escapeToken name) := by
  rw [encodeRefChars_eq, ← flatMap_escByte]
  have h := utf8_ge_16 h
  generalize utf8 name = l at h
  induction l with
  | nil => rfl
  | cons b t ih =>
    rw [List.flatMap_cons, pctOctets_encodeByte (h b (by simp)), ih (fun x hx => h x (by simp [hx]))]
    rfl

theorem percentDecode_encode {name : List Char} (h : ∀ c ∈ name, 0x10 ≤ c.toNat) :
    percentDecodeChars (encodeRefChars name) = some (escapeToken name) := by
  rw [percentDecodeChars_eq, loopBytes_encode h, fromUtf8_utf8]

/-! ## Un-escaping -/

theorem replace2_cons_ne {a b o x : Char} (h : x ≠ a) (t : List Char) :
    replace2 a b o (x :: t) = x :: replace2 a b o t := by
  cases t with
  | nil => rfl
  | cons y t => simp [replace2, h]

theorem replace2_slash (t : List Char) :
    replace2 '~' '1' '/' (escapeToken t) =
      t.flatMap fun c => if c = '~' then ['~', '0'] else [c] := by
  induction t with
  | nil => rfl
  | cons c t ih =>
    have hc : escapeToken (c :: t) =
      (if c = '~' then ['~', '0'] else if c = '/' then ['~', '1'] else [c]) ++ escapeToken t := rfl
    rw [hc, List.flatMap_cons, ← ih]
    by_cases h1 : c = '~'
    · simp [h1, replace2, replace2_cons_ne]
    · by_cases h2 : c = '/'
      · simp [h2, replace2]
      · simp [h1, h2, replace2_cons_ne]

theorem unescape_escape (t : List Char) : unescapeToken (escapeToken t) = t := by
  unfold unescapeToken
  rw [replace2_slash]
  induction t with
  | nil => rfl
  | cons c t ih =>
    rw [List.flatMap_cons]
    by_cases h1 : c = '~'
    · simp [h1, replace2, ih]
    · simp [h1, replace2_cons_ne, ih]

theorem escapeToken_no_slash (t : List Char) : '/' ∉ escapeToken t := by
  induction t with
  | nil => simp [escapeToken]
  | cons c t ih =>
    have hc : escapeToken (c :: t) =
      (if c = '~' then ['~', '0'] else if c = '/' then ['~', '1'] else [c]) ++ escapeToken t := rfl
    rw [hc, List.mem_append, not_or]
    refine ⟨?_, ih⟩
    by_cases h1 : c = '~'
    · simp [h1]
    · by_cases h2 : c = '/'
      · simp [h2]
      · simp [h1, h2, Ne.symm h2]

theorem encodeByte_no_slash (b : UInt8) : '/' ∉ encodeByte b := by
  have : ∀ n < 256, '/' ∉ encodeByte (UInt8.ofNat n) := by
    set_option maxRecDepth 10000 in decide
  have h := this b.toNat b.toNat_lt
  simpa using h

theorem encodeRefChars_no_slash (name : List Char) : '/' ∉ encodeRefChars name := by
  rw [encodeRefChars_eq, List.mem_flatMap]
  rintro ⟨b, _, hb⟩
  exact encodeByte_no_slash b hb

end Verif
