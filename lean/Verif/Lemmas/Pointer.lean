import Verif.Lemmas.RoundTrip
import Verif.Lemmas.Obj
import Verif.Spec.JsonPointer
import Verif.Schema
import Mathlib.Data.List.Induction

namespace Verif
open Spec

/-! ## Decimal indices -/

theorem decFold_append (s t : List Char) (acc : Nat) :
    decFold (s ++ t) acc = (decFold s acc).bind (decFold t) := by
  induction s generalizing acc with
  | nil => rfl
  | cons c s ih =>
    simp only [List.cons_append, decFold]
    cases decDigit c with
    | none => rfl
    | some d => simp [ih]

theorem decDigit_lt {c : Char} {d : Nat} (h : decDigit c = some d) : d < 10 := by
  simp only [decDigit] at h; split_ifs at h; cases h; omega

theorem decDigit_digitChar {d : Nat} (h : d < 10) : decDigit d.digitChar = some d := by
  have : ∀ d < 10, decDigit d.digitChar = some d := by decide
  exact this d h

theorem digitChar_decDigit {c : Char} {d : Nat} (h : decDigit c = some d) : d.digitChar = c := by
  have hlt := decDigit_lt h
  simp only [decDigit] at h
  split_ifs at h with hc
  cases h
  have : ∀ d < 10, d.digitChar = Char.ofNat (48 + d) := by decide
  rw [this _ hlt, show 48 + (c.toNat - 48) = c.toNat by omega, char_ofNat_toNat]

theorem decFold_toDigits (n : Nat) : decFold (Nat.toDigits 10 n) 0 = some n := by
  induction n using Nat.strongRecOn with
  | _ n ih =>
    by_cases h : n < 10
    · rw [Nat.toDigits_of_lt_base h]; simp [decFold, decDigit_digitChar h]
    · rw [Nat.toDigits_of_base_le (by omega) (by omega), decFold_append, ih (n / 10) (by omega)]
      simp only [Option.bind_some, decFold, decDigit_digitChar (Nat.mod_lt n (by omega : 10 > 0))]
      congr 1; omega

theorem digitChar_ne_zero {d : Nat} (h : d < 10) (h0 : d ≠ 0) : d.digitChar ≠ '0' := by
  have : ∀ d < 10, d ≠ 0 → d.digitChar ≠ '0' := by decide
  exact this d h h0

theorem digitChar_ne_plus {d : Nat} (h : d < 10) : d.digitChar ≠ '+' := by
  have : ∀ d < 10, d.digitChar ≠ '+' := by decide
  exact this d h

theorem toDigits_head (n : Nat) : ∃ d t, Nat.toDigits 10 n = Nat.digitChar d :: t ∧ d < 10 ∧
    (n ≠ 0 → d ≠ 0) := by
  induction n using Nat.strongRecOn with
  | _ n ih =>
    by_cases h : n < 10
    · exact ⟨n, [], Nat.toDigits_of_lt_base h, h, id⟩
    · obtain ⟨d, t, h1, h2, h3⟩ := ih (n / 10) (by omega)
      refine ⟨d, t ++ [(n % 10).digitChar], ?_, h2, fun _ => h3 (by omega)⟩
      rw [Nat.toDigits_of_base_le (by omega) (by omega), h1]; rfl

theorem parseIndex_toDigits (n : Nat) : parseIndex (Nat.toDigits 10 n) = some n := by
  have hd := decFold_toDigits n
  obtain ⟨d, t, h1, h2, h3⟩ := toDigits_head n
  rw [h1] at hd ⊢
  simp only [parseIndex]
  rw [if_neg]
  · exact hd
  · rintro (h | ⟨h, ht⟩)
    · exact digitChar_ne_plus h2 h
    · by_cases hn : n = 0
      · subst hn; rw [Nat.toDigits_zero] at h1; exact ht (List.cons.inj h1).2.symm
      · exact digitChar_ne_zero h2 (h3 hn) h

theorem toDigits_of_decFold (s : List Char) (n : Nat) (hs : s ≠ []) (hz : s.head? = some '0' → s = ['0'])
    (h : decFold s 0 = some n) : Nat.toDigits 10 n = s := by
  induction s using List.reverseRecOn generalizing n with
  | nil => exact absurd rfl hs
  | append_singleton s c ih =>
    rw [decFold_append] at h
    cases hx : decFold s 0 with
    | none => rw [hx] at h; cases h
    | some m =>
      rw [hx] at h
      simp only [Option.bind_some, decFold] at h
      cases hd : decDigit c with
      | none => rw [hd] at h; cases h
      | some d =>
        rw [hd] at h
        simp only [Option.bind_some, Option.some.injEq] at h
        have hlt := decDigit_lt hd
        by_cases hse : s = []
        · subst hse
          simp only [decFold, Option.some.injEq] at hx
          subst hx
          have : n = d := by omega
          subst this
          rw [Nat.toDigits_of_lt_base hlt, digitChar_decDigit hd]; rfl
        · have hz' : s.head? = some '0' → s = ['0'] := by
            intro h0
            have h1 : (s ++ [c]).head? = some '0' := by
              cases s with
              | nil => exact absurd rfl hse
              | cons a s => simpa using h0
            have h2 := hz h1
            cases s with
            | nil => exact absurd rfl hse
            | cons a s => simp at h2
          have h1 := ih m hse hz' hx
          have hm : 0 < m := by
            rcases Nat.eq_zero_or_pos m with h0 | h0
            · subst h0
              rw [Nat.toDigits_zero] at h1
              have h2 : (s ++ [c]).head? = some '0' := by rw [← h1]; rfl
              have h3 := hz h2
              rw [← h1] at h3
              simp at h3
            · exact h0
          have h2 := Nat.toDigits_append_toDigits (b := 10) (n := m) (d := d) (by omega) hm hlt
          rw [Nat.toDigits_of_lt_base hlt, digitChar_decDigit hd, h1] at h2
          rw [h2]; congr 1; omega

theorem parseIndex_iff (s : List Char) (n : Nat) : parseIndex s = some n ↔ s = (Nat.repr n).toList := by
  rw [Nat.toList_repr]
  constructor
  · intro h
    cases s with
    | nil => simp [parseIndex] at h
    | cons c t =>
      simp only [parseIndex] at h
      split_ifs at h with hc
      refine (toDigits_of_decFold _ _ (by simp) ?_ h).symm
      intro h0
      simp only [List.head?_cons, Option.some.injEq] at h0
      subst h0
      simp only [true_and, not_or, not_not] at hc
      rw [hc.2]
  · rintro rfl; exact parseIndex_toDigits n

/-! ## Walking -/

theorem stepTok_some {j v : Json} {t : List Char} (h : stepTok j t = some v) :
    (∃ m, j = .obj m ∧ Obj.get m (String.ofList t) = some v) ∨
    (∃ l i, j = .arr l ∧ t = (Nat.repr i).toList ∧ l[i]? = some v) := by
  unfold stepTok at h
  split at h
  · exact Or.inl ⟨_, rfl, h⟩
  · next l =>
    cases hi : parseIndex t with
    | none => rw [hi] at h; cases h
    | some i => rw [hi] at h; exact Or.inr ⟨l, i, rfl, (parseIndex_iff _ _).1 hi, h⟩
  · cases h

theorem walkToks_iff_At (j : Json) (toks : List String) (w : Json) :
    walkToks j (toks.map String.toList) = some w ↔ At j toks w := by
  induction toks generalizing j with
  | nil =>
    simp only [List.map_nil, walkToks, Option.some.injEq]
    constructor
    · rintro rfl; exact .here _
    · intro h; cases h; rfl
  | cons k p ih =>
    simp only [List.map_cons, walkToks, Option.bind_eq_some_iff]
    constructor
    · rintro ⟨v, hv, hw⟩
      rw [ih] at hw
      rcases stepTok_some hv with ⟨m, rfl, h⟩ | ⟨l, i, rfl, h, hl⟩
      · rw [String.ofList_toList] at h
        exact .member h hw
      · have : k = Nat.repr i := String.toList_inj.1 h
        subst this
        exact .elem i hl hw
    · intro h
      cases h with
      | member h1 h2 => exact ⟨_, by simp [stepTok, h1], (ih _).2 h2⟩
      | elem i h1 h2 => exact ⟨_, by simp [stepTok, parseIndex_toDigits, h1], (ih _).2 h2⟩

theorem At_unique {j : Json} {p : List String} {v w : Json} (h1 : At j p v) (h2 : At j p w) : v = w := by
  rw [← walkToks_iff_At] at h1 h2
  rw [h1] at h2; exact Option.some.inj h2

theorem renderPointer_cons (t : String) (ts : List String) :
    renderPointer (t :: ts) = '/' :: (escapeToken t.toList ++ renderPointer ts) := by
  simp [renderPointer]

theorem splitChar_render (first : List Char) (h : '/' ∉ first) (ts : List String) :
    splitChar '/' (first ++ renderPointer ts) = first :: ts.map (fun t => escapeToken t.toList) := by
  induction ts generalizing first with
  | nil => simp only [renderPointer, List.flatMap_nil, List.append_nil, List.map_nil]; exact splitChar_no h
  | cons t ts ih =>
    rw [renderPointer_cons, splitChar_append_sep _ _ h, ih _ (escapeToken_no_slash _)]
    rfl

theorem pointerToks_render (ts : List String) :
    pointerToks (renderPointer ts) = some (ts.map String.toList) := by
  cases ts with
  | nil => rfl
  | cons t ts =>
    have h := splitChar_render [] (by simp) (t :: ts)
    rw [List.nil_append] at h
    simp only [pointerToks]
    rw [renderPointer_cons] at h ⊢
    simp [h, unescape_escape]

theorem valuePointer_render (j : Json) (ts : List String) (w : Json) :
    valuePointer j (renderPointer ts) = some w ↔ At j ts w := by
  rw [← walkToks_iff_At]; simp [valuePointer, pointerToks_render]

/-! ## Writing -/

theorem modifyToks_ne {j v : Json} {k k' : String} {p q : List String} {f : Json → Json} (hk : k ≠ k') :
    At (modifyToks j ((k :: p).map String.toList) f) (k' :: q) v ↔ At j (k' :: q) v := by
  rw [← walkToks_iff_At, ← walkToks_iff_At]
  simp only [List.map_cons, modifyToks, walkToks]
  have : stepTok (modifyTok j k.toList fun v => modifyToks v (p.map String.toList) f) k'.toList =
      stepTok j k'.toList := by
    cases j with
    | obj m => simp [modifyTok, stepTok, Obj.get_modify, hk]
    | arr l =>
      simp only [modifyTok]
      cases h1 : parseIndex k.toList with
      | none => simp [stepTok]
      | some i =>
        simp only [stepTok]
        cases h2 : parseIndex k'.toList with
        | none => rfl
        | some i' =>
          have : i ≠ i' := by
            rintro rfl
            rw [parseIndex_iff] at h1 h2
            exact hk (String.toList_inj.1 (h1.trans h2.symm))
          simp [List.getElem?_modify, this]
    | _ => rfl
  rw [this]

theorem stepTok_modifyTok (j : Json) (t : List Char) (f : Json → Json) :
    stepTok (modifyTok j t f) t = (stepTok j t).map f := by
  cases j with
  | obj m => simp [modifyTok, stepTok, Obj.get_modify]
  | arr l =>
    simp only [modifyTok, stepTok]
    cases parseIndex t with
    | none => rfl
    | some i => simp
  | _ => rfl

theorem modifyToks_self {j v : Json} {p : List String} {f : Json → Json} (h : At j p v) :
    At (modifyToks j (p.map String.toList) f) p (f v) := by
  rw [← walkToks_iff_At] at h ⊢
  induction p generalizing j with
  | nil => simp [walkToks] at h; subst h; rfl
  | cons k p ih =>
    simp only [List.map_cons, walkToks, Option.bind_eq_some_iff, modifyToks] at h ⊢
    obtain ⟨x, hx, hw⟩ := h
    refine ⟨_, ?_, ih hw⟩
    rw [stepTok_modifyTok, hx]; rfl

theorem modifyToks_frame {j : Json} {p q : List String} {f : Json → Json} (h1 : ¬ p <+: q)
    (h2 : ¬ q <+: p) (v : Json) :
    At (modifyToks j (p.map String.toList) f) q v ↔ At j q v := by
  induction p generalizing j q with
  | nil => exact absurd (List.nil_prefix) h1
  | cons k p ih =>
    cases q with
    | nil => exact absurd (List.nil_prefix) h2
    | cons k' q =>
      by_cases hk : k = k'
      · subst hk
        simp only [List.cons_prefix_cons, true_and] at h1 h2
        have key : ∀ j, At (modifyToks j (p.map String.toList) f) q v ↔ At j q v := fun j => ih h1 h2
        rw [← walkToks_iff_At, ← walkToks_iff_At]
        simp only [List.map_cons, walkToks, modifyToks, stepTok_modifyTok]
        simp only [← walkToks_iff_At] at key
        cases hs : stepTok j k.toList with
        | none => rfl
        | some x => simpa using key x
      · exact modifyToks_ne hk

end Verif
