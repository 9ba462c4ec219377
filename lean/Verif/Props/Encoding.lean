import Verif.Lemmas.RoundTrip

/-!
# C01, C02, C03: names in references
-/

namespace Verif
open Spec

/-! ## C01 -/

/-- What a reader of a `$ref` does with the last path segment, using the crate's own functions
(`percent_decode`, then the pointer un-escaping of `Value::pointer`). -/
def decodeRefName (s : String) : Option String :=
  (percentDecode s).map fun t => String.ofList (unescapeToken t.toList)

/-- C01, full statement: every name survives encoding and decoding. -/
def C01_Full : Prop := ∀ name : String, decodeRefName (encodeRefName name) = some name

/-- C01 is false: the name `"\n"` is encoded as `"% A"` (`{:2X}` pads with a space), which decodes to
the three characters `% A`. -/
theorem C01_refuted : ¬ C01_Full := by
  intro h
  have h1 := h "\n"
  have e1 : (encodeRefName "\n").toList = ['%', ' ', 'A'] := by decide
  have e2 : percentDecodeChars ['%', ' ', 'A'] = some ['%', ' ', 'A'] := by
    rw [percentDecodeChars_eq]
    have : loopBytes ['%', ' ', 'A'] = utf8 ['%', ' ', 'A'] := by decide
    rw [this, fromUtf8_utf8]
  simp only [decodeRefName, percentDecode, e1, e2, Option.map_some, String.toList_ofList] at h1
  exact absurd h1 (by decide)

/-- C01 for every name without characters below U+0010: decoding with the crate's own functions gives
the name back. Missing: names with characters below U+0010, for which it is false (`C01_refuted`). -/
theorem C01_roundtrip_partial (name : String) (h : ∀ c ∈ name.toList, 0x10 ≤ c.toNat) :
    decodeRefName (encodeRefName name) = some name := by
  simp [decodeRefName, percentDecode, encodeRefName, percentDecode_encode h, unescape_escape]

/-- C01 against the RFCs instead of the crate's decoder: the octets denoted by the encoded text are the
UTF-8 octets of the RFC 6901-escaped name. -/
theorem C01_denotes_partial (name : String) (h : ∀ c ∈ name.toList, 0x10 ≤ c.toNat) :
    pctOctets (encodeRefName name).toList = utf8 (escapeToken name.toList) := by
  simp [encodeRefName, pctOctets_encode h]

example : ∀ c ∈ "Foo/Bar~<🚀>".toList, 0x10 ≤ c.toNat := by decide
example : (encodeRefName "Foo/Bar~<🚀>") = "Foo~1Bar~0%3C%F0%9F%9A%80%3E" := by decide

/-- What encoding and decoding make of a character: `{:2X}` pads the digit of a character below U+0010 with a space,
and `%`, a space and a digit are decoded literally. -/
def decoded (c : Char) : List Char := if c.toNat < 0x10 then ['%', ' ', hexDigitU c.toNat] else [c]

private theorem loopBytes_low {n : Nat} (h : n < 16) (r : List Char) :
    loopBytes (encodeByte (UInt8.ofNat n) ++ r) = utf8 (escapeToken ['%', ' ', hexDigitU n]) ++ loopBytes r := by
  have e : ∀ n < 16, encodeByte (UInt8.ofNat n) = ['%', ' ', hexDigitU n] ∧ hexDigitU n ≠ '%' ∧
      utf8 (escapeToken ['%', ' ', hexDigitU n]) = 0x25 :: (String.utf8EncodeChar ' ' ++ String.utf8EncodeChar (hexDigitU n)) := by
    decide
  obtain ⟨e1, e2, e3⟩ := e n h
  rw [e1, e3, List.cons_append, List.cons_append, List.cons_append, List.nil_append, loopBytes_pct_lit, loopBytes_ne (by decide),
    loopBytes_ne e2]
  · simp
  · intro a b r' h'; cases h'; exact .inl (by decide)
  · intro b r' h'; cases h'

private theorem loopBytes_bytes {l : List UInt8} (h : ∀ b ∈ l, 16 ≤ b.toNat) (r : List Char) :
    loopBytes (l.flatMap encodeByte ++ r) = l.flatMap escByte ++ loopBytes r := by
  induction l with
  | nil => rfl
  | cons b t ih =>
    rw [List.flatMap_cons, List.append_assoc, loopBytes_encodeByte (h b (by simp)), ih (fun x hx => h x (by simp [hx])),
      List.flatMap_cons, List.append_assoc]

theorem loopBytes_name (name : List Char) :
    loopBytes ((utf8 name).flatMap encodeByte) = utf8 (escapeToken (name.flatMap decoded)) := by
  induction name with
  | nil => rfl
  | cons c t ih =>
    have esc : ∀ a b : List Char, escapeToken (a ++ b) = escapeToken a ++ escapeToken b := fun a b => List.flatMap_append
    rw [utf8_cons, List.flatMap_append, List.flatMap_cons, esc, utf8_append, ← ih]
    by_cases hc : c.toNat < 16
    · rw [encodeChar_ascii (by omega), List.flatMap_cons, List.flatMap_nil, List.append_nil, loopBytes_low hc, decoded, if_pos hc]
    · have h16 : ∀ b ∈ String.utf8EncodeChar c, 16 ≤ b.toNat := fun b hb =>
        utf8_ge_16 (name := [c]) (fun d hd => by rw [List.mem_singleton.1 hd]; omega) b (by simpa using hb)
      rw [loopBytes_bytes h16, decoded, if_neg hc, flatMap_escByte_char]
      simp [escapeToken]

/-- C01, exactly what every name becomes: the characters below U+0010 become three characters, all others survive. -/
theorem C01_decoded (name : String) :
    decodeRefName (encodeRefName name) = some (String.ofList (name.toList.flatMap decoded)) := by
  simp only [decodeRefName, percentDecode, encodeRefName, String.toList_ofList, percentDecodeChars_eq, encodeRefChars_eq,
    loopBytes_name, fromUtf8_utf8, Option.map_some, unescape_escape]

/-- C01: the names that survive are exactly those without characters below U+0010. -/
theorem C01_iff (name : String) :
    decodeRefName (encodeRefName name) = some name ↔ ∀ c ∈ name.toList, 0x10 ≤ c.toNat := by
  refine ⟨fun h => ?_, C01_roundtrip_partial name⟩
  rw [C01_decoded] at h
  have h := congrArg (fun s => s.toList.length) (Option.some.inj h)
  simp only [String.toList_ofList] at h
  generalize name.toList = l at h
  have grows : ∀ l : List Char, l.length ≤ (l.flatMap decoded).length := by
    intro l
    induction l with
    | nil => simp
    | cons c t ih =>
      rw [List.flatMap_cons, List.length_append, List.length_cons]
      have : 1 ≤ (decoded c).length := by unfold decoded; split <;> simp
      omega
  induction l with
  | nil => simp
  | cons c t ih =>
    rw [List.flatMap_cons, List.length_append, List.length_cons] at h
    have ht := grows t
    have hc : ¬ c.toNat < 0x10 := by
      intro hc
      rw [decoded, if_pos hc] at h
      simp only [List.length_cons, List.length_nil] at h
      omega
    intro d hd
    rcases List.mem_cons.1 hd with rfl | hd
    · omega
    · refine ih ?_ d hd
      rw [decoded, if_neg hc] at h
      simp only [List.length_cons, List.length_nil] at h
      omega

/-- The number of characters in the encoding of a byte is determined by the first one. -/
private def chunkLen (c : Char) : Nat := if c = '~' then 2 else if c = '%' then 3 else 1

private def chunkVal : List Char → Option Nat
  | ['~', '0'] => some 0x7E
  | ['~', '1'] => some 0x2F
  | ['%', ' ', d] => toDigit16 d
  | ['%', a, b] => (toDigit16 a).bind fun x => (toDigit16 b).map fun y => 16 * x + y
  | [c] => some c.toNat
  | _ => none

private theorem chunk_spec (b : UInt8) :
    chunkVal (encodeByte b) = some b.toNat ∧
      ∃ c t, encodeByte b = c :: t ∧ (encodeByte b).length = chunkLen c := by
  have h : ∀ n < 256, chunkVal (encodeByte (UInt8.ofNat n)) = some n ∧
      (encodeByte (UInt8.ofNat n)).length =
        (((encodeByte (UInt8.ofNat n)).head?).map chunkLen).getD 0 ∧
      encodeByte (UInt8.ofNat n) ≠ [] := by
    set_option maxRecDepth 20000 in decide
  have h1 := h b.toNat b.toNat_lt
  simp only [UInt8.ofNat_toNat] at h1
  refine ⟨h1.1, ?_⟩
  obtain ⟨_, h2, h3⟩ := h1
  cases hb : encodeByte b with
  | nil => exact absurd hb h3
  | cons c t => refine ⟨c, t, rfl, ?_⟩; rw [hb] at h2; simpa using h2

private theorem encodeByte_prefix {b b' : UInt8} {r r' : List Char}
    (h : encodeByte b ++ r = encodeByte b' ++ r') : b = b' ∧ r = r' := by
  obtain ⟨v, c, t, e, l⟩ := chunk_spec b
  obtain ⟨v', c', t', e', l'⟩ := chunk_spec b'
  have hc : c = c' := by
    rw [e, e'] at h; simp only [List.cons_append, List.cons.injEq] at h; exact h.1
  have hl : (encodeByte b).length = (encodeByte b').length := by rw [l, l', hc]
  obtain ⟨h1, h2⟩ := List.append_inj h hl
  rw [h1, v'] at v
  exact ⟨UInt8.toNat_inj.1 (Option.some.inj v).symm, h2⟩

/-- C01, second half, for every pair of names (control characters included): different names have
different encoded forms. -/
theorem C01_injective (n₁ n₂ : String) (h : encodeRefName n₁ = encodeRefName n₂) : n₁ = n₂ := by
  have h1 : encodeRefChars n₁.toList = encodeRefChars n₂.toList := by
    have := congrArg String.toList h
    simpa [encodeRefName] using this
  rw [encodeRefChars_eq, encodeRefChars_eq] at h1
  have key : ∀ l₁ l₂ : List UInt8, l₁.flatMap encodeByte = l₂.flatMap encodeByte → l₁ = l₂ := by
    intro l₁
    induction l₁ with
    | nil =>
      intro l₂ h
      cases l₂ with
      | nil => rfl
      | cons b t =>
        obtain ⟨_, c, s, e, _⟩ := chunk_spec b
        simp [e] at h
    | cons b t ih =>
      intro l₂ h
      cases l₂ with
      | nil =>
        obtain ⟨_, c, s, e, _⟩ := chunk_spec b
        simp [e] at h
      | cons b' t' =>
        obtain ⟨h1, h2⟩ := encodeByte_prefix h
        rw [h1, ih _ h2]
  exact String.toList_inj.1 (utf8_injective (key _ _ h1))

/-! ## C02 -/

/-- C02, full statement. -/
def C02_Full : Prop := ∀ name : String, IsFragment (encodeRefName name).toList = true

/-- C02 is false: `"\n"` is encoded with a space, which no URI fragment may contain. -/
theorem C02_refuted : ¬ C02_Full := fun h => absurd (h "\n") (by decide)

private theorem isFragment_encodeByte {b : UInt8} (hb : 16 ≤ b.toNat) (r : List Char) :
    IsFragment (encodeByte b ++ r) = IsFragment r := by
  by_cases h1 : b.toNat = 0x7E
  · have : encodeByte b = ['~', '0'] := by simp [encodeByte, h1]
    rw [this]
    simp [IsFragment, show fragmentChar '~' = true by decide, show fragmentChar '0' = true by decide]
  by_cases h2 : b.toNat = 0x2F
  · have : encodeByte b = ['~', '1'] := by simp [encodeByte, h2]
    rw [this]
    simp [IsFragment, show fragmentChar '~' = true by decide, show fragmentChar '1' = true by decide]
  cases h3 : needsEncoding b with
  | false =>
    have h4 := needsEncoding_false h3
    have hne : Char.ofNat b.toNat ≠ '%' := by
      intro hc
      have := congrArg Char.toNat hc
      rw [toNat_ofNat_lt h4.2.1] at this
      exact h4.2.2.2.2 this
    have hall : ∀ n < 128, needsEncoding (UInt8.ofNat n) = false →
        fragmentChar (Char.ofNat n) = true := by
      set_option maxRecDepth 20000 in decide
    have hf := hall b.toNat h4.2.1 (by simpa using h3)
    rw [encodeByte_lit h3, List.singleton_append, IsFragment, hf, Bool.true_and]
    intro a b t hc; exact absurd hc hne
  | true =>
    have hlt : b.toNat < 256 := b.toNat_lt
    rw [encodeByte_hex h3 h1 h2 hb]
    simp only [List.cons_append, List.nil_append, IsFragment, hexVal_eq_toDigit16]
    rw [toDigit16_hexDigitU (by omega), toDigit16_hexDigitU (by omega)]
    simp

/-- C02 for every name without characters below U+0010: the encoded text is a legal URI fragment.
Missing: names with characters below U+0010, for which it is false (`C02_refuted`). -/
theorem C02_fragment_partial (name : String) (h : ∀ c ∈ name.toList, 0x10 ≤ c.toNat) :
    IsFragment (encodeRefName name).toList = true := by
  simp only [encodeRefName, String.toList_ofList, encodeRefChars_eq]
  have h := utf8_ge_16 h
  generalize utf8 name.toList = l at h
  induction l with
  | nil => rfl
  | cons b t ih =>
    rw [List.flatMap_cons, isFragment_encodeByte (h b (by simp)), ih (fun x hx => h x (by simp [hx]))]

private theorem space_not_fragment {s : List Char} (h : IsFragment s = true) : ' ' ∉ s := by
  induction s using IsFragment.induct with
  | case1 a b r ih =>
    simp only [IsFragment, Bool.and_eq_true] at h
    have no : ∀ c, (hexVal c).isSome = true → c ≠ ' ' := by rintro c hc rfl; exact absurd hc (by decide)
    simp only [List.mem_cons, not_or]
    exact ⟨by decide, (no a h.1.1).symm, (no b h.1.2).symm, ih h.2⟩
  | case2 c r hc ih =>
    rw [IsFragment, Bool.and_eq_true] at h
    · rw [List.mem_cons, not_or]
      refine ⟨?_, ih h.2⟩
      rintro rfl
      exact absurd h.1 (by decide)
    · exact hc
  | case3 => simp

/-- C02: the names whose encoded text is a legal URI fragment are exactly those without characters below U+0010. -/
theorem C02_iff (name : String) :
    IsFragment (encodeRefName name).toList = true ↔ ∀ c ∈ name.toList, 0x10 ≤ c.toNat := by
  refine ⟨fun h c hc => ?_, C02_fragment_partial name⟩
  by_contra hl
  have hl : c.toNat < 16 := by omega
  refine space_not_fragment h ?_
  have e : ∀ n < 16, ' ' ∈ encodeByte (UInt8.ofNat n) := by decide
  rw [encodeRefName, String.toList_ofList, encodeRefChars_eq]
  refine List.mem_flatMap.2 ⟨UInt8.ofNat c.toNat, List.mem_flatMap.2 ⟨c, hc, ?_⟩, e _ hl⟩
  rw [encodeChar_ascii (by omega)]
  exact List.mem_singleton.2 rfl

/-- C02, second half, for every name: the encoded text is a single pointer segment. -/
theorem C02_no_slash (name : String) : '/' ∉ (encodeRefName name).toList := by
  simpa [encodeRefName] using encodeRefChars_no_slash name.toList

/-! ## C03 -/

/-- C03: without `%` nothing changes. -/
theorem C03_no_percent (s : String) (h : '%' ∉ s.toList) : percentDecode s = some s := by
  simp [percentDecode, percentDecodeChars, h]

example : '%' ∉ "#/$defs/Foo~1Bar".toList := by decide

/-- C03, full statement: the result is the text whose UTF-8 octets are the octets denoted by the input,
and `None` when there is no such text. -/
def C03_Full : Prop :=
  ∀ s : String, (∀ t : String, percentDecode s = some t ↔ pctOctets s.toList = utf8 t.toList)

/-- C03 is false: `u8::from_str_radix` accepts a sign, so `%+A` decodes to a line feed instead of being
kept literally. -/
theorem C03_refuted : ¬ C03_Full := by
  intro h
  have h1 := (h "%+A" "%+A").2 (by decide)
  have e2 : percentDecodeChars "%+A".toList = some ['\n'] := by
    rw [percentDecodeChars_eq]
    have : loopBytes "%+A".toList = utf8 ['\n'] := by decide
    rw [this, fromUtf8_utf8]
  simp only [percentDecode, e2, Option.map_some] at h1
  exact absurd h1 (by decide)

/-- C03 for every input without `%+` followed by a hexadecimal digit. Missing: exactly those inputs, for
which it is false (`C03_refuted`). -/
theorem C03_spec_partial (s : String) (h : NoPlus s.toList) (t : String) :
    percentDecode s = some t ↔ pctOctets s.toList = utf8 t.toList := by
  simp only [percentDecode, percentDecodeChars_eq, loopBytes_eq_pctOctets _ h,
    Option.map_eq_some_iff, fromUtf8_eq_some]
  constructor
  · rintro ⟨a, ha, rfl⟩; simpa using ha
  · intro ha; exact ⟨t.toList, ha, by simp⟩

/-- C03: `None` exactly when the denoted octets are not UTF-8. -/
theorem C03_none_partial (s : String) (h : NoPlus s.toList) :
    percentDecode s = none ↔ ∀ t : String, pctOctets s.toList ≠ utf8 t.toList := by
  have key := C03_spec_partial s h
  constructor
  · intro hn t ht
    rw [← key t, hn] at ht; cases ht
  · intro hn
    cases hx : percentDecode s with
    | none => rfl
    | some x => exact absurd ((key x).1 hx) (hn x)

example : NoPlus "%%%2020%%%".toList := by
  intro d r _ h
  have : '+' ∈ "%%%2020%%%".toList := h.subset (by simp)
  exact absurd this (by decide)

private theorem loopBytes_plus {d : Char} {y : Nat} (hd : toDigit16 d = some y) (r : List Char) :
    loopBytes ('%' :: '+' :: d :: r) = UInt8.ofNat y :: loopBytes r := by
  obtain ⟨f, rs, hf, _⟩ := splitChar_eq (c := '%') r
  have hnd : d ≠ '%' := by rintro rfl; rw [toDigit16_pct] at hd; cases hd
  have h1 := splitChar_cons_ne (c := '%') (x := '+') (by decide) (splitChar_cons_ne hnd hf)
  have hy := toDigit16_lt hd
  have h2 : decodeSegment ('+' :: d :: f) = UInt8.ofNat y :: utf8 f := by
    have h3 : u8FromHex ['+', d] = some (UInt8.ofNat y) := by
      have : y ≤ 255 := by omega
      simp [u8FromHex, hexFold, hd, this]
    simp [decodeSegment, strGet02, utf8Size_eq_one (toDigit16_ascii hd), utf8Size_eq_one (c := '+') (by decide), h3]
  simp [loopBytes, splitChar_cons_self, h1, hf, h2]

private theorem shorter (n : Nat) : ∀ s : List Char, s.length ≤ n →
    (loopBytes s).length ≤ (pctOctets s).length ∧ (¬ NoPlus s → (loopBytes s).length < (pctOctets s).length) := by
  induction n with
  | zero =>
    intro s h
    cases s with
    | nil => exact ⟨Nat.le_refl _, fun h => (h fun _ _ _ h => by simp at h).elim⟩
    | cons _ _ => simp at h
  | succ n ih =>
    intro s h
    have noplus : ∀ {c : Char} {r : List Char}, (∀ d r', (hexVal d).isSome → c :: r ≠ '%' :: '+' :: d :: r') → ¬ NoPlus (c :: r) →
        ¬ NoPlus r := by
      intro c r hno h hr
      refine h fun d r' hd hs => ?_
      rcases List.suffix_cons_iff.1 hs with e | hs
      · exact hno d r' hd e.symm
      · exact hr d r' hd hs
    cases s with
    | nil => exact ⟨Nat.le_refl _, fun h => (h fun _ _ _ h => by simp at h).elim⟩
    | cons c r =>
      have hr : r.length ≤ n := by simpa using h
      by_cases hc : c = '%'
      · subst hc
        have lit : (∀ a b r', r = a :: b :: r' → toDigit16 a = none ∨ toDigit16 b = none) →
            (∀ b r', r = '+' :: b :: r' → toDigit16 b = none) → pctOctets ('%' :: r) = 0x25 :: pctOctets r →
            (loopBytes ('%' :: r)).length ≤ (pctOctets ('%' :: r)).length ∧
              (¬ NoPlus ('%' :: r) → (loopBytes ('%' :: r)).length < (pctOctets ('%' :: r)).length) := by
          intro h1 h2 h3
          rw [loopBytes_pct_lit h1 h2, h3, List.length_cons, List.length_cons]
          obtain ⟨i1, i2⟩ := ih r hr
          refine ⟨Nat.succ_le_succ i1, fun hn => Nat.succ_lt_succ (i2 (noplus ?_ hn))⟩
          intro d r' hd e
          rw [hexVal_eq_toDigit16] at hd
          cases e
          rw [h2 d r' rfl] at hd
          cases hd
        match r, hr, lit with
        | [], _, lit => exact lit (fun _ _ _ h => by cases h) (fun _ _ h => by cases h) (by decide)
        | [a], _, lit =>
          refine lit (fun _ _ _ h => by cases h) (fun _ _ h => by cases h) ?_
          rw [pctOctets]
          · simp [encodeChar_pct]
          · intro _ _ _ _ h; cases h
        | a :: b :: r, hr, lit =>
          have hr' : r.length ≤ n := by simp only [List.length_cons] at hr; omega
          cases ha : toDigit16 a with
          | some x =>
            cases hb : toDigit16 b with
            | some y =>
              have e : pctOctets ('%' :: a :: b :: r) = UInt8.ofNat (16 * x + y) :: pctOctets r := by
                simp [pctOctets, hexVal_eq_toDigit16, ha, hb]
              rw [loopBytes_pct_hex ha hb, e, List.length_cons, List.length_cons]
              obtain ⟨i1, i2⟩ := ih r hr'
              refine ⟨Nat.succ_le_succ i1, fun hn => Nat.succ_lt_succ (i2 ?_)⟩
              refine noplus ?_ (noplus ?_ (noplus ?_ hn))
              · rintro d r' - e; cases e; rw [toDigit16_pct] at hb; cases hb
              · rintro d r' - e; cases e; rw [toDigit16_pct] at ha; cases ha
              · rintro d r' - e; cases e; rw [toDigit16_plus] at ha; cases ha
            | none =>
              refine lit (fun _ _ _ h => by cases h; exact .inr hb) (fun _ _ h => by cases h; exact hb) ?_
              simp [pctOctets, hexVal_eq_toDigit16, ha, hb]
          | none =>
            have e : pctOctets ('%' :: a :: b :: r) = 0x25 :: pctOctets (a :: b :: r) := by
              simp [pctOctets, hexVal_eq_toDigit16, ha]
            by_cases hp : a = '+' ∧ (toDigit16 b).isSome
            · obtain ⟨rfl, hp⟩ := hp
              obtain ⟨y, hy⟩ := Option.isSome_iff_exists.1 hp
              have hnb : b ≠ '%' := by rintro rfl; rw [toDigit16_pct] at hy; cases hy
              have i1 := (ih r hr').1
              have : (loopBytes ('%' :: '+' :: b :: r)).length < (pctOctets ('%' :: '+' :: b :: r)).length := by
                rw [loopBytes_plus hy, e, pctOctets_ne (by decide), pctOctets_ne hnb]
                have : (String.utf8EncodeChar '+').length = 1 := by decide
                simp only [List.length_cons, List.length_append]
                omega
              exact ⟨Nat.le_of_lt this, fun _ => this⟩
            · refine lit (fun _ _ _ h => by cases h; exact .inl ha) (fun _ _ h => ?_) e
              cases h
              cases hb : toDigit16 b with
              | none => rfl
              | some y => exact absurd ⟨rfl, by rw [hb]; rfl⟩ hp
      · rw [loopBytes_ne hc, pctOctets_ne hc, List.length_append, List.length_append]
        obtain ⟨i1, i2⟩ := ih r hr
        refine ⟨Nat.add_le_add_left i1 _, fun hn => Nat.add_lt_add_left (i2 (noplus ?_ hn)) _⟩
        rintro d r' - e; cases e; exact hc rfl

/-- C03: the inputs for which it holds are exactly those without `%+` and a digit, and those for which neither the denoted
octets nor the ones computed are UTF-8. -/
theorem C03_iff (s : String) :
    (∀ t : String, percentDecode s = some t ↔ pctOctets s.toList = utf8 t.toList) ↔
      NoPlus s.toList ∨ (percentDecode s = none ∧ ∀ t : String, pctOctets s.toList ≠ utf8 t.toList) := by
  constructor
  · intro h
    by_cases hp : NoPlus s.toList
    · exact .inl hp
    · refine .inr ?_
      have none : ∀ t, percentDecode s ≠ some t := by
        intro t ht
        have h1 := (h t).1 ht
        simp only [percentDecode, percentDecodeChars_eq, Option.map_eq_some_iff, fromUtf8_eq_some] at ht
        obtain ⟨a, ha, rfl⟩ := ht
        rw [String.toList_ofList] at h1
        have := (shorter _ _ (Nat.le_refl _)).2 hp
        rw [ha, h1] at this
        exact Nat.lt_irrefl _ this
      exact ⟨Option.eq_none_iff_forall_ne_some.2 none, fun t ht => none t ((h t).2 ht)⟩
  · intro h t
    rcases h with h | ⟨h1, h2⟩
    · exact C03_spec_partial s h t
    · rw [h1]
      exact ⟨fun h => (by cases h), fun h => absurd h (h2 t)⟩

/-- `C03_iff` fails for `%+A`. -/
example : ¬ NoPlus "%+A".toList := fun h => h 'A' [] (by decide) (by simp)

end Verif
