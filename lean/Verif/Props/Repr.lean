import Verif.Spec.Repr
import Verif.Props.Accepted
import Verif.Props.Further
import Verif.Props.Enum
import Verif.Props.Item

/-!
# C79: `derive(JsonSchema_repr)`
-/

namespace Verif
open Spec

theorem cast_has {r : ReprInt} (hb : 0 < r.bits) {n : Int} (h : Spec.ReprInt.Has r n) : r.cast n = n := by
  unfold Spec.ReprInt.Has at h
  unfold ReprInt.cast
  obtain ⟨b, hb'⟩ : ∃ b, r.bits = b + 1 := ⟨r.bits - 1, by omega⟩
  rw [hb'] at h ⊢
  have hp : (0 : Int) < 2 ^ b := Int.pow_pos (by decide)
  have h2 : (2 : Int) ^ (b + 1) = 2 * 2 ^ b := by rw [pow_succ, Int.mul_comm]
  show (if r.signed then (n + 2 ^ (b + 1) / 2) % 2 ^ (b + 1) - 2 ^ (b + 1) / 2 else n % 2 ^ (b + 1) : Int) = n
  rw [h2]
  rw [h2] at h
  simp only [Nat.add_sub_cancel] at h
  have hd : (2 * 2 ^ b : Int) / 2 = 2 ^ b := by omega
  rw [hd]
  split
  · rename_i hs
    rw [if_pos hs] at h
    rw [Int.emod_eq_of_lt (by omega) (by omega)]
    omega
  · rename_i hs
    rw [if_neg hs] at h
    exact Int.emod_eq_of_lt h.1 h.2

theorem discriminantsFrom_spec (l : List (Option Int)) (next : Int) :
    (discriminantsFrom next l).length = l.length ∧
    (∀ (k : Nat) (d : Int), l[k]? = some (some d) → (discriminantsFrom next l)[k]? = some d) ∧
    (l[0]? = some none → (discriminantsFrom next l)[0]? = some next) ∧
    ∀ (k : Nat) (d : Int), l[k + 1]? = some none → (discriminantsFrom next l)[k]? = some d →
      (discriminantsFrom next l)[k + 1]? = some (d + 1) := by
  induction l generalizing next with
  | nil => simp [discriminantsFrom]
  | cons e l ih =>
    obtain ⟨h1, h2, h3, h4⟩ := ih (e.getD next + 1)
    rw [discriminantsFrom]
    refine ⟨by simp [h1], ?_, ?_, ?_⟩
    · intro k d hk
      cases k with
      | zero => simp at hk; simp [hk]
      | succ k => simpa using h2 k d (by simpa using hk)
    · intro h; simp at h; simp [h]
    · intro k d hk hd
      cases k with
      | zero =>
        simp only [List.getElem?_cons_zero, Option.some.injEq] at hd
        simp only [zero_add, List.getElem?_cons_succ] at hk ⊢
        rw [h3 hk, hd]
      | succ k => simpa using h4 k d (by simpa using hk) (by simpa using hd)

/-- There is only one list of discriminants. -/
theorem Spec.Discriminants.unique {l : List (Option Int)} {a b : List Int} (ha : Discriminants l a) (hb : Discriminants l b) :
    a = b := by
  refine List.ext_getElem? fun k => ?_
  induction k with
  | zero =>
    cases h : l[0]? with
    | none =>
      have := List.getElem?_eq_none_iff.1 h
      rw [List.getElem?_eq_none_iff.2 (by rw [ha.length]; exact this), List.getElem?_eq_none_iff.2 (by rw [hb.length]; exact this)]
    | some e => cases e with
      | none => rw [ha.first h, hb.first h]
      | some d => rw [ha.written 0 d h, hb.written 0 d h]
  | succ k ih =>
    cases h : l[k + 1]? with
    | none =>
      have := List.getElem?_eq_none_iff.1 h
      rw [List.getElem?_eq_none_iff.2 (by rw [ha.length]; exact this), List.getElem?_eq_none_iff.2 (by rw [hb.length]; exact this)]
    | some e => cases e with
      | none =>
        have hk : k < l.length := by
          have := (List.getElem?_eq_some_iff.1 h).1
          omega
        obtain ⟨d, hd⟩ : ∃ d, a[k]? = some d := ⟨_, List.getElem?_eq_getElem (by rw [ha.length]; exact hk)⟩
        rw [ha.next k d h hd, hb.next k d h (ih ▸ hd)]
      | some d => rw [ha.written _ d h, hb.written _ d h]

section
variable {τ σ V : Type} (S : Syntax τ) (C : Cases) (M : Meaning τ σ) (N : Values τ V)

/-- C79: the macro accepts a declaration exactly if `derive(JsonSchema)` accepts it (C77), and it delegates to another
type or is an enum of unit variants whose first `repr` attribute has a type. -/
theorem C79_accepts (i : ReprItem τ) :
    (deriveRepr S C M N i).isSome = true ↔
      ∃ d, deriveItem S C M N i.item = some d ∧
        ((∃ t, d.transparentType = some t) ∨
          (∃ r rest, i.reprs = some r :: rest) ∧
          ∃ vs, i.item.data = .enum vs ∧ ∀ v ∈ vs, v.fields = .unit) := by
  unfold deriveRepr
  cases deriveItem S C M N i.item with
  | none => simp
  | some d =>
    simp only [Option.bind_some, Option.some.injEq, exists_eq_left']
    cases ht : d.transparentType with
    | some t => simp
    | none =>
      have hr : ∀ l : List (Option ReprInt), (∃ r rest, l = some r :: rest) ↔ ∃ r, l.head?.join = some r := by
        intro l
        match l with
        | [] => simp
        | none :: l => simp
        | some r :: l => simp
      rw [hr]
      unfold ReprItem.type
      cases i.reprs.head?.join with
      | none => simp
      | some r =>
        cases hd : i.item.data with
        | struct f => simp
        | enum vs =>
          have hu : ∀ f : SrcFields τ (SrcAttrs τ), f.isUnit = true ↔ f = .unit := by
            intro f; cases f <;> simp [SrcFields.isUnit]
          simp only [Option.bind_some, reduceCtorEq, exists_false, false_or, Option.some.injEq, exists_eq',
            true_and, SrcData.enum.injEq, exists_eq_left', ← hu, ← List.all_eq_true]
          split
          · rename_i h; simp only [Option.isSome_some, true_iff]; exact h
          · rename_i h; simp only [Option.isSome_none, Bool.false_eq_true, false_iff]; exact h

/-- C79: the schema accepts exactly the documents that `serde_repr` writes: the discriminants of the variants, which have
the type of the `repr` attribute. Attributes must only annotate. -/
theorem C79_values {i : ReprItem τ} {d : DeriveInput σ} {ns ds : List Int} {r : ReprInt} {rest : List (Option ReprInt)}
    (h : deriveRepr S C M N i = some (.values d ns)) (hr : i.reprs = some r :: rest) (hb : 0 < r.bits)
    (hds : Discriminants i.explicit ds) (hfit : ∀ n ∈ ds, Spec.ReprInt.Has r n)
    (hann : ∀ f ∈ d.container.common.mutators, Annotates f) {A : Answers σ} {s : Json}
    (hs : Returns A (ReprOutput.values d ns).body s) (D : Dialect) (env : Env) (j : Json) :
    Valid D env s j ↔ ∃ n ∈ ds, IsInt j n := by
  have hn : ns = ds := by
    unfold deriveRepr at h
    simp only [Option.bind_eq_some_iff] at h
    obtain ⟨d', -, h⟩ := h
    split at h
    · cases h
    · simp only [ReprItem.type, hr, List.head?_cons, Option.join_some, Option.bind_some] at h
      split at h
      · cases h
      · split at h
        · simp only [Option.some.injEq, ReprOutput.values.injEq] at h
          obtain ⟨-, rfl⟩ := h
          obtain ⟨a, b, c, e⟩ := discriminantsFrom_spec i.explicit 0
          have : discriminantsFrom 0 i.explicit = ds := Discriminants.unique ⟨a, b, c, e⟩ hds
          rw [this]
          exact (List.map_congr_left fun n hn => cast_has hb (hfit n hn)).trans (List.map_id _)
        · cases h
  subst hn
  have hs : s = runMutators d.container.common.mutators (reprSchema ns) := hs
  rw [hs, runMutators_valid (s := reprSchema ns) hann (sch_mkObj _), C48_repr]

/-- C79: what delegates to another type is not checked: it need not be an enum, nor have a `repr` attribute. -/
theorem C79_unchecked (item : SrcItem τ (SrcAttrs τ)) {d : DeriveInput σ} {t : σ} (h : deriveItem S C M N item = some d)
    (ht : d.transparentType = some t) (reprs : List (Option ReprInt)) (explicit : List (Option Int)) :
    deriveRepr S C M N ⟨item, reprs, explicit⟩ = some (.delegates d t) := by
  unfold deriveRepr
  rw [h]
  simp only [Option.bind_some, ht]

end

/-! ## Examples -/

namespace ReprEx
open AttrMetaEx ItemEx

def unit (name : String) : SrcVariant String (SrcAttrs String) := ⟨name, .unit, []⟩

/-- `u8` and `i8`. -/
def byte : ReprInt := ⟨8, false⟩
def signedByte : ReprInt := ⟨8, true⟩

/-- The enum of schemars/tests/integration/enum_repr.rs. -/
def numbers : ReprItem String where
  item :=
    { ident := "Enum"
      attrs := [.serde (some [text "rename" "EnumWithReprAttr"])]
      data := .enum [unit "Zero", unit "One", unit "Five", unit "Six", unit "Three"] }
  reprs := [some byte]
  explicit := [none, none, some 5, none, some 3]

def ReprOutput.numbers? : ReprOutput String → Option (String × List Int)
  | .delegates _ _ => none
  | .values d ns => some (d.schemaName, ns)

example : ((deriveRepr lang cases meaning values numbers).bind ReprOutput.numbers?) =
    some ("EnumWithReprAttr", [0, 1, 5, 6, 3]) := by
  decide +kernel

example : Discriminants numbers.explicit [0, 1, 5, 6, 3] := by
  obtain ⟨a, b, c, d⟩ := discriminantsFrom_spec numbers.explicit 0
  exact ⟨a, b, c, d⟩

example : ∀ n ∈ ([0, 1, 5, 6, 3] : List Int), Spec.ReprInt.Has byte n := by
  unfold Spec.ReprInt.Has byte
  decide

/-- Negative discriminants. -/
example : ((deriveRepr lang cases meaning values { numbers with
      reprs := [some signedByte], explicit := [some (-128), none, some (-1), none, some 127] }).bind ReprOutput.numbers?) =
    some ("EnumWithReprAttr", [-128, -127, -1, 0, 127]) := by
  decide +kernel

/-- Only the first `repr` attribute counts, and with `#[repr(C, u8)]` there is no type. -/
example : (deriveRepr lang cases meaning values { numbers with reprs := [none, some byte] }).isSome = false ∧
    (deriveRepr lang cases meaning values { numbers with reprs := [] }).isSome = false ∧
    (deriveRepr lang cases meaning values { numbers with item := { numbers.item with
      data := .enum [⟨"A", .named [], []⟩] } }).isSome = false ∧
    (deriveRepr lang cases meaning values { numbers with item := { numbers.item with
      data := .struct .unit } }).isSome = false := by
  decide +kernel

/-- A struct without a `repr` attribute. -/
example : (deriveRepr lang cases meaning values ⟨wrapper, [], []⟩).isSome = true := by decide +kernel

end ReprEx

end Verif
