import Verif.Lemmas.Text
import Verif.Pointer

namespace Verif
open Spec

theorem hexVal_eq_toDigit16 (c : Char) : hexVal c = toDigit16 c := by
  have le : ∀ a b : Char, a ≤ b ↔ a.toNat ≤ b.toNat := fun a b => by
    show a.val ≤ b.val ↔ _
    rw [UInt32.le_iff_toNat_le]; rfl
  simp only [hexVal, toDigit16, le]
  have e1 : '0'.toNat = 48 := rfl
  have e2 : '9'.toNat = 57 := rfl
  have e3 : 'a'.toNat = 97 := rfl
  have e4 : 'f'.toNat = 102 := rfl
  have e5 : 'A'.toNat = 65 := rfl
  have e6 : 'F'.toNat = 70 := rfl
  simp only [e1, e2, e3, e4, e5, e6]
  split
  · rfl
  · split
    · congr 1; omega
    · split
      · congr 1; omega
      · rfl

theorem toDigit16_lt {c : Char} {n : Nat} (h : toDigit16 c = some n) : n < 16 := by
  simp only [toDigit16] at h; split_ifs at h <;> (cases h; omega)

theorem toDigit16_ascii {c : Char} {n : Nat} (h : toDigit16 c = some n) : c.toNat < 128 := by
  simp only [toDigit16] at h; split_ifs at h <;> (cases h; omega)

theorem utf8Size_eq_one {c : Char} (h : c.toNat < 128) : c.utf8Size = 1 := by
  have := String.length_utf8EncodeChar c
  rw [encodeChar_ascii h] at this
  exact this.symm

theorem utf8Size_one_iff {c : Char} : c.utf8Size = 1 ↔ c.toNat < 128 := by
  constructor
  · intro h
    simp only [Char.utf8Size] at h
    split_ifs at h with h1
    · rw [UInt32.le_iff_toNat_le] at h1
      exact Nat.lt_succ_of_le h1
    all_goals omega
  · exact utf8Size_eq_one

theorem toDigit16_plus : toDigit16 '+' = none := by decide
theorem toDigit16_pct : toDigit16 '%' = none := by decide

/-- The bytes of a two-digit segment. -/
theorem decodeSegment_hex {a b : Char} {x y : Nat} (r : List Char) (ha : toDigit16 a = some x)
    (hb : toDigit16 b = some y) :
    decodeSegment (a :: b :: r) = UInt8.ofNat (16 * x + y) :: utf8 r := by
  have h1 := utf8Size_eq_one (toDigit16_ascii ha)
  have h2 := utf8Size_eq_one (toDigit16_ascii hb)
  have h3 := toDigit16_lt ha
  have h4 := toDigit16_lt hb
  have hne : a ≠ '+' := by rintro rfl; rw [toDigit16_plus] at ha; cases ha
  have h5 : u8FromHex [a, b] = some (UInt8.ofNat (16 * x + y)) := by
    unfold u8FromHex
    split
    · simp_all
    · simp_all
    · next h => simp_all
    · next h => 
      have : x * 16 + y ≤ 255 := by omega
      have h' : x ≤ 255 := by omega
      simp [hexFold, ha, hb, this, h', Nat.mul_comm]
  simp [decodeSegment, strGet02, h1, h2, h5]

/-- A segment that does not start with two digits (nor with `+` and a digit) is literal. -/
theorem decodeSegment_lit {s : List Char}
    (h1 : ∀ a b r, s = a :: b :: r → toDigit16 a = none ∨ toDigit16 b = none)
    (h2 : ∀ b r, s = '+' :: b :: r → toDigit16 b = none) :
    decodeSegment s = 0x25 :: utf8 s := by
  unfold decodeSegment
  split
  · next p rest hp =>
    have hnone : u8FromHex p = none := by
      unfold strGet02 at hp
      split at hp
      · next c t =>
        split at hp
        · next hc =>
          split at hp
          · next d r =>
            split at hp
            · next hd =>
              cases hp
              unfold u8FromHex
              split
              · rfl
              · rfl
              · next t h =>
                cases h
                have := h2 d _ rfl
                simp [hexFold, this]
              · next t hh1 hh2 hh3 =>
                rcases h1 c d _ rfl with h | h
                · simp [hexFold, h]
                · cases hcd : toDigit16 c with
                  | none => simp [hexFold, hcd]
                  | some x =>
                    have := toDigit16_lt hcd
                    have h' : x ≤ 255 := by omega
                    simp [hexFold, hcd, h, h']
            · cases hp
          · cases hp
        · split at hp
          · next hc1 hc2 =>
            cases hp
            have : toDigit16 c = none := by
              cases hcd : toDigit16 c with
              | none => rfl
              | some x => exact absurd (utf8Size_eq_one (toDigit16_ascii hcd)) hc1
            unfold u8FromHex
            split <;> simp_all [hexFold]
          · cases hp
      · cases hp
    rw [hnone]
  · rfl

theorem splitChar_ne_nil (c : Char) (s : List Char) : splitChar c s ≠ [] := by
  induction s with
  | nil => simp [splitChar]
  | cons x t ih =>
    simp only [splitChar]
    split
    · simp
    · cases h : splitChar c t with
      | nil => exact absurd h ih
      | cons a b => simp

theorem splitChar_cons_self (c : Char) (s : List Char) : splitChar c (c :: s) = [] :: splitChar c s := by
  simp [splitChar]

theorem splitChar_cons_ne {c x : Char} (h : x ≠ c) {s first : List Char} {rest : List (List Char)}
    (hs : splitChar c s = first :: rest) : splitChar c (x :: s) = (x :: first) :: rest := by
  simp [splitChar, h, hs]

theorem splitChar_eq {c : Char} (s : List Char) :
    ∃ first rest, splitChar c s = first :: rest ∧ c ∉ first := by
  induction s with
  | nil => exact ⟨[], [], rfl, by simp⟩
  | cons x t ih =>
    obtain ⟨first, rest, h, hn⟩ := ih
    by_cases hx : x = c
    · subst hx; exact ⟨[], _, splitChar_cons_self _ _, by simp⟩
    · exact ⟨x :: first, rest, splitChar_cons_ne hx h, by simp [hn, Ne.symm hx]⟩

/-- The first segment determines the prefix of the string. -/
theorem splitChar_prefix {c : Char} {s first : List Char} {rest : List (List Char)}
    (h : splitChar c s = first :: rest) : first <+: s := by
  induction s generalizing first rest with
  | nil => simp [splitChar] at h; simp [h.1]
  | cons x t ih =>
    by_cases hx : x = c
    · subst hx; rw [splitChar_cons_self] at h; cases h; simp
    · obtain ⟨f, r, hf⟩ : ∃ f r, splitChar c t = f :: r := by
        cases h' : splitChar c t with
        | nil => exact absurd h' (splitChar_ne_nil _ _)
        | cons a b => exact ⟨a, b, rfl⟩
      rw [splitChar_cons_ne hx hf] at h
      cases h
      simpa using ih hf

theorem splitChar_no {c : Char} {s : List Char} (h : c ∉ s) : splitChar c s = [s] := by
  induction s with
  | nil => rfl
  | cons x t ih =>
    simp only [List.mem_cons, not_or] at h
    exact splitChar_cons_ne (Ne.symm h.1) (ih h.2)

theorem splitChar_append_sep {c : Char} (s t : List Char) (h : c ∉ s) :
    splitChar c (s ++ c :: t) = s :: splitChar c t := by
  induction s with
  | nil => exact splitChar_cons_self c t
  | cons x s ih =>
    simp only [List.mem_cons, not_or] at h
    exact splitChar_cons_ne (Ne.symm h.1) (ih h.2)

/-- The bytes assembled by the loop of `percent_decode`. -/
def loopBytes (s : List Char) : List UInt8 :=
  match splitChar '%' s with
  | [] => []
  | first :: rest => utf8 first ++ rest.flatMap decodeSegment

theorem loopBytes_ne {c : Char} (h : c ≠ '%') (s : List Char) :
    loopBytes (c :: s) = String.utf8EncodeChar c ++ loopBytes s := by
  obtain ⟨f, r, hf, _⟩ := splitChar_eq (c := '%') s
  simp [loopBytes, splitChar_cons_ne h hf, hf]

theorem loopBytes_pct_hex {a b : Char} {x y : Nat} (ha : toDigit16 a = some x)
    (hb : toDigit16 b = some y) (r : List Char) :
    loopBytes ('%' :: a :: b :: r) = UInt8.ofNat (16 * x + y) :: loopBytes r := by
  obtain ⟨f, rs, hf, _⟩ := splitChar_eq (c := '%') r
  have hna : a ≠ '%' := by rintro rfl; rw [toDigit16_pct] at ha; cases ha
  have hnb : b ≠ '%' := by rintro rfl; rw [toDigit16_pct] at hb; cases hb
  have h1 := splitChar_cons_ne hna (splitChar_cons_ne hnb hf)
  simp [loopBytes, splitChar_cons_self, h1, hf, decodeSegment_hex f ha hb]

theorem loopBytes_pct_lit {s : List Char}
    (h1 : ∀ a b r, s = a :: b :: r → toDigit16 a = none ∨ toDigit16 b = none)
    (h2 : ∀ b r, s = '+' :: b :: r → toDigit16 b = none) :
    loopBytes ('%' :: s) = 0x25 :: loopBytes s := by
  obtain ⟨f, rs, hf, _⟩ := splitChar_eq (c := '%') s
  obtain ⟨t, ht⟩ := splitChar_prefix hf
  have hl : decodeSegment f = 0x25 :: utf8 f := by
    apply decodeSegment_lit
    · rintro a b r rfl; exact h1 a b (r ++ t) (by simp [← ht])
    · rintro b r rfl; exact h2 b (r ++ t) (by simp [← ht])
  simp [loopBytes, splitChar_cons_self, hf, hl]

theorem Spec.NoPlus.tail {c : Char} {s : List Char} (h : NoPlus (c :: s)) : NoPlus s :=
  fun d r hd hs => h d r hd (hs.trans (List.suffix_cons c s))

theorem encodeChar_pct : String.utf8EncodeChar '%' = [0x25] := by decide

theorem loopBytes_eq_pctOctets (s : List Char) (h : NoPlus s) : loopBytes s = pctOctets s := by
  induction s using pctOctets.induct with
  | case1 a b r x y hy hx ih =>
    rw [hexVal_eq_toDigit16] at hx hy
    rw [loopBytes_pct_hex hx hy, ih h.tail.tail.tail]
    simp [pctOctets, hexVal_eq_toDigit16, hx, hy]
  | case2 a b r hx ih =>
    have h1 : toDigit16 a = none ∨ toDigit16 b = none := by
      simp only [hexVal_eq_toDigit16] at hx
      cases ha : toDigit16 a with
      | none => simp
      | some x =>
        cases hb : toDigit16 b with
        | none => simp
        | some y => exact (hx x y ha hb).elim
    rw [loopBytes_pct_lit, ih h.tail]
    · rcases h1 with h1 | h1
      · simp [pctOctets, hexVal_eq_toDigit16, h1]
      · cases ha : toDigit16 a <;> simp [pctOctets, hexVal_eq_toDigit16, h1, ha]
    · rintro a' b' r' hh; cases hh; exact h1
    · rintro b' r' hh
      cases hh
      cases hb : toDigit16 b with
      | none => rfl
      | some y =>
        exact absurd (List.suffix_refl _) (h b r (by simp [hexVal_eq_toDigit16, hb]))
  | case3 c r hc ih =>
    by_cases hp : c = '%'
    · subst hp
      rw [loopBytes_pct_lit, ih h.tail]
      · rw [pctOctets]
        · simp [encodeChar_pct]
        · exact hc
      · rintro a b r' rfl; exact (hc a b r' rfl rfl).elim
      · rintro b r' rfl; exact (hc _ b r' rfl rfl).elim
    · rw [loopBytes_ne hp, ih h.tail, pctOctets]
      exact hc
  | case4 => rfl

theorem percentDecodeChars_eq (s : List Char) : percentDecodeChars s = fromUtf8 (loopBytes s) := by
  unfold percentDecodeChars
  split
  · obtain ⟨f, rs, hf, _⟩ := splitChar_eq (c := '%') s
    simp [loopBytes, hf]
  · next h => simp [loopBytes, splitChar_no h, fromUtf8_utf8]

end Verif
