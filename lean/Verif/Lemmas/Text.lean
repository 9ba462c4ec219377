import Verif.Text
import Verif.Spec.Uri
import Verif.Encoding
import Mathlib.Tactic.IntervalCases
import Mathlib.Tactic.SplitIfs

namespace Verif
open Spec

@[simp] theorem utf8_nil : utf8 [] = [] := rfl
@[simp] theorem utf8_cons (c : Char) (s : List Char) :
    utf8 (c :: s) = String.utf8EncodeChar c ++ utf8 s := rfl
@[simp] theorem utf8_append (s t : List Char) : utf8 (s ++ t) = utf8 s ++ utf8 t := by
  simp [utf8]

theorem fromUtf8_utf8 (s : List Char) : fromUtf8 (utf8 s) = some s := by
  have h : (utf8 s).toByteArray = s.utf8Encode := by simp [utf8, List.utf8Encode]
  simp [fromUtf8, h]

theorem fromUtf8_eq_some {b : List UInt8} {s : List Char} : fromUtf8 b = some s ↔ b = utf8 s := by
  constructor
  · intro h
    simp only [fromUtf8, Option.map_eq_some_iff] at h
    obtain ⟨a, ha, rfl⟩ := h
    have h1 : (b.toByteArray.utf8Decode?).isSome := by simp [ha]
    have h2 := ByteArray.utf8Encode_get_utf8Decode? (b := b.toByteArray) (h := h1)
    simp only [ha, Option.get_some] at h2
    have h3 : (utf8 a.toList).toByteArray = b.toByteArray := by
      rw [← h2]; simp [utf8, List.utf8Encode]
    have h4 := congrArg (fun x : ByteArray => x.data.toList) h3
    simp only [List.data_toByteArray] at h4
    exact h4.symm
  · rintro rfl; exact fromUtf8_utf8 s

theorem fromUtf8_eq_none {b : List UInt8} : fromUtf8 b = none ↔ ∀ s, b ≠ utf8 s := by
  constructor
  · intro h s hs; rw [hs, fromUtf8_utf8] at h; cases h
  · intro h
    cases hb : fromUtf8 b with
    | none => rfl
    | some s => exact absurd (fromUtf8_eq_some.1 hb) (h s)

theorem utf8_injective {s t : List Char} (h : utf8 s = utf8 t) : s = t := by
  have := fromUtf8_utf8 s
  rw [h, fromUtf8_utf8] at this
  exact (Option.some.inj this).symm

/-- ASCII characters are encoded as themselves. -/
theorem encodeChar_ascii {c : Char} (h : c.toNat < 128) :
    String.utf8EncodeChar c = [UInt8.ofNat c.toNat] := by
  have h1 : c.utf8Size = 1 := by
    simp only [Char.utf8Size]
    rw [if_pos]
    rw [UInt32.le_iff_toNat_le]; exact Nat.le_of_lt_succ h
  rw [String.utf8EncodeChar_eq_singleton h1]
  congr 1

/-- All bytes of a non-ASCII character are at least 0x80. -/
theorem encodeChar_nonascii {c : Char} (h : 128 ≤ c.toNat) :
    ∀ b ∈ String.utf8EncodeChar c, 128 ≤ b.toNat := by
  have h4 : c.val.toNat = c.toNat := rfl
  have h5 : c.toNat < 0x110000 := by
    have := c.valid
    simp only [UInt32.isValidChar, Nat.isValidChar] at this
    omega
  intro b hb
  simp only [String.utf8EncodeChar, h4] at hb
  split_ifs at hb with h1 h2 h3
  · omega
  · simp only [List.mem_cons, List.not_mem_nil, or_false] at hb
    rcases hb with hb | hb <;> subst hb <;> simp only [UInt8.toNat_ofNat', Nat.reducePow] <;> omega
  · simp only [List.mem_cons, List.not_mem_nil, or_false] at hb
    rcases hb with hb | hb | hb <;> subst hb <;> simp only [UInt8.toNat_ofNat', Nat.reducePow] <;> omega
  · simp only [List.mem_cons, List.not_mem_nil, or_false] at hb
    rcases hb with hb | hb | hb | hb <;> subst hb <;>
      simp only [UInt8.toNat_ofNat', Nat.reducePow] <;> omega

theorem utf8_ascii_flatMap (l : List Char) (h : ∀ c ∈ l, c.toNat < 128) :
    utf8 l = l.map (fun c => UInt8.ofNat c.toNat) := by
  induction l with
  | nil => rfl
  | cons c t ih =>
    rw [utf8_cons, encodeChar_ascii (h c (by simp)), ih (fun x hx => h x (by simp [hx]))]
    rfl

end Verif
