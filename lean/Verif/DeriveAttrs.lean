import Mathlib.Order.Basic

/-!
# schemars_derive/src/attr/schemars_to_serde.rs: which serde attributes are in effect

An attribute `#[serde(…)]` or `#[schemars(…)]` is a list of items, or does not parse. Simplifications: the
tokens of an item are an arbitrary value of a type `α`, and those of another attribute one of a type `β`; the `BTreeMap`/`BTreeSet`s are lists, so errors are
reported in the order of the attributes.
-/

namespace Verif

/-- schemars_derive/src/attr/custom_meta.rs:6-11 (`CustomMeta`). -/
structure AttrItem (α : Type) where
  /-- the keyword, if the path is a single identifier -/
  ident : Option String
  /-- `!keyword` -/
  negated : Bool
  tokens : α
  deriving DecidableEq

/-- `syn::Attribute`, as far as it matters. `none` means that the items do not parse. -/
inductive Attr (α β : Type) where
  | serde (items : Option (List (AttrItem α)))
  | schemars (items : Option (List (AttrItem α)))
  | other (tokens : β)
  deriving DecidableEq

/-- The reported errors. -/
inductive AttrError where
  /-- a schemars attribute does not parse -/
  | syntaxError
  | duplicateUnset (keyword : String)
  | setAndUnset (keyword : String)
  | uselessUnset (keyword : String)
  deriving DecidableEq

/-- schemars_derive/src/attr/schemars_to_serde.rs:12-42 (`SERDE_KEYWORDS`). -/
def serdeKeywords : List String :=
  ["rename", "rename_all", "rename_all_fields", "deny_unknown_fields", "tag", "content", "untagged", "default",
    "skip", "skip_serializing", "skip_serializing_if", "skip_deserializing", "flatten", "remote", "transparent",
    "into", "from", "try_from", "bound", "serialize_with", "with"]

/-- schemars_derive/src/attr/schemars_to_serde.rs:44-46 (`SCHEMARS_KEYWORDS_PARSED_BY_SERDE`). -/
def schemarsKeywords : List String := serdeKeywords.take (serdeKeywords.length - 2)

section
variable {α β : Type}

/-- schemars_derive/src/attr/mod.rs:448-463 (`get_meta_items`) for `schemars`: the items, and the errors. -/
def schemarsItems : List (Attr α β) → List (AttrItem α) × List AttrError
  | [] => ([], [])
  | .schemars (some l) :: r => let (i, e) := schemarsItems r; (l ++ i, e)
  | .schemars none :: r => let (i, e) := schemarsItems r; (i, .syntaxError :: e)
  | _ :: r => schemarsItems r

/-- schemars_derive/src/attr/mod.rs:448-463 (`get_meta_items`) for `serde`: an attribute that does not parse is
left out. -/
def serdeItems : List (Attr α β) → List (AttrItem α)
  | [] => []
  | .serde (some l) :: r => l ++ serdeItems r
  | _ :: r => serdeItems r

/-- `at.path().is_ident("serde")`. -/
def Attr.isSerde : Attr α β → Bool
  | .serde _ => true
  | _ => false

/-- The local variables of `process_attrs`. -/
structure AttrState (α : Type) where
  effective : List (AttrItem α)
  unset : List String
  schemarsNames : List String
  serdeNames : List String
  errors : List AttrError

/-- schemars_derive/src/attr/schemars_to_serde.rs:88-110: one schemars item. -/
def attrSchemarsStep (st : AttrState α) (item : AttrItem α) : AttrState α :=
  match item.ident with
  | none => st
  | some keyword =>
    if item.negated then
      if keyword ∈ st.unset then { st with errors := st.errors ++ [.duplicateUnset keyword] }
      else { st with unset := st.unset ++ [keyword] }
    else if keyword ∈ schemarsKeywords then
      { st with schemarsNames := keyword :: st.schemarsNames, effective := st.effective ++ [item] }
    else st

/-- schemars_derive/src/attr/schemars_to_serde.rs:127-141: one serde item. -/
def attrSerdeStep (st : AttrState α) (item : AttrItem α) : AttrState α :=
  match item.ident with
  | none => st
  | some keyword =>
    { st with
      effective :=
        if keyword ∉ st.schemarsNames ∧ keyword ∉ st.unset ∧ keyword ∈ serdeKeywords ∧ keyword ≠ "bound" then
          st.effective ++ [item]
        else st.effective
      serdeNames := keyword :: st.serdeNames }

/-- schemars_derive/src/attr/schemars_to_serde.rs:76-166 (`process_attrs`): the new attributes, and the
errors. -/
def processAttrs (attrs : List (Attr α β)) : List (Attr α β) × List AttrError :=
  let serdeAttrs := attrs.filter Attr.isSerde
  let others := attrs.filter fun a => !a.isSerde
  let (items, syntaxErrors) := schemarsItems others
  let st := items.foldl attrSchemarsStep ⟨[], [], [], [], syntaxErrors⟩
  let bothErrors := (st.unset.filter fun k => decide (k ∈ st.schemarsNames)).map AttrError.setAndUnset
  let names := if "skip" ∈ st.schemarsNames then
      "skip_deserializing" :: "skip_serializing" :: st.schemarsNames
    else st.schemarsNames
  let st2 := (serdeItems serdeAttrs).foldl attrSerdeStep
    { st with schemarsNames := names, errors := st.errors ++ bothErrors }
  let uselessErrors := (st2.unset.filter fun k => decide (k ∉ st2.serdeNames)).map AttrError.uselessUnset
  (others ++ if st2.effective = [] then [] else [.serde (some st2.effective)],
    st2.errors ++ uselessErrors)

end

end Verif
