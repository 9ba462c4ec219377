import Verif.Item
import Verif.Delegate

/-!
# `derive(JsonSchema_repr)`

The macro for enums that `serde_repr` writes as their discriminants.

Simplifications: the argument of `#[repr(…)]` is one of the integer types that `serde_json::Value` can be made from, or
something that is not a type (`none`, as in `#[repr(C, u8)]`); with other types what is generated does not compile.
-/

namespace Verif

variable {τ σ V : Type}

/-- An integer type: the number of bits, and whether it is signed. `usize` and `isize` have 64 bits. -/
structure ReprInt where
  bits : Nat
  signed : Bool

/-- The cast `as` of Rust to an integer type. -/
def ReprInt.cast (r : ReprInt) (n : Int) : Int :=
  let m : Int := 2 ^ r.bits
  if r.signed then (n + m / 2) % m - m / 2 else n % m

/-- `syn::DeriveInput` with what `JsonSchema` does not look at: the arguments of the `repr` attributes in their order,
and the discriminants that are written beside the variants. -/
structure ReprItem (τ : Type) where
  item : SrcItem τ (SrcAttrs τ)
  reprs : List (Option ReprInt)
  explicit : List (Option Int)

/-- schemars_derive/src/attr/mod.rs:318-321: the first `repr` attribute counts. -/
def ReprItem.type (i : ReprItem τ) : Option ReprInt := i.reprs.head?.join

/-- The discriminants of an enum in Rust, with the value of the next one. -/
def discriminantsFrom (next : Int) : List (Option Int) → List Int
  | [] => []
  | e :: l => e.getD next :: discriminantsFrom (e.getD next + 1) l

/-- `Style::Unit`. -/
def SrcFields.isUnit {α : Type} : SrcFields τ α → Bool
  | .unit => true
  | _ => false

/-- What is derived: the implementation of another type, or the schema of `expr_for_repr`. -/
inductive ReprOutput (σ : Type) where
  | delegates (i : DeriveInput σ) (target : σ)
  | values (i : DeriveInput σ) (ns : List Int)

/-- schemars_derive/src/lib.rs:47-92, 143-147 (`derive_json_schema` with `repr`) and
schemars_derive/src/schema_exprs.rs:113-135 (`expr_for_repr`, the errors). -/
def deriveRepr (S : Syntax τ) (C : Cases) (M : Meaning τ σ) (N : Values τ V) (i : ReprItem τ) : Option (ReprOutput σ) :=
  (deriveItem S C M N i.item).bind fun d => match d.transparentType with
    | some t => some (.delegates d t)
    | none => i.type.bind fun r => match i.item.data with
      | .struct _ => none
      | .enum vs =>
        if vs.all fun v => v.fields.isUnit then some (.values d ((discriminantsFrom 0 i.explicit).map r.cast)) else none

/-- The body of the implementation: schemars_derive/src/lib.rs:79-81 and
schemars_derive/src/schema_exprs.rs:137-158 (`expr_for_repr`). -/
def ReprOutput.body : ReprOutput σ → Prog σ
  | .delegates _ t => .direct t .ret
  | .values d ns => reprProg ns d.container.common

end Verif
