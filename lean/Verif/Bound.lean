import Mathlib.Data.List.Basic

/-!
# schemars_derive/src/bound.rs: the relevant type params of a derived type

The type params that `#[derive(JsonSchema)]` takes into the id of a type, and those for which it adds a
`JsonSchema` bound.

Simplifications: a type is what the visitor distinguishes. `nest` stands for arrays, function pointers, groups,
parentheses, pointers, references, slices, tuples, `impl Trait` and trait objects (whose trait bounds are paths):
all components are visited. The arguments of a path segment are its type arguments, associated types, inputs and
output; lifetimes and const arguments are left out. Sets of params are lists; `all_type_params` is sorted. Types
whose implementation is that of another type (schemars_derive/src/lib.rs:55-92, for `transparent` and `with` without
other attributes) have the id of the other type, and are left out.
-/

namespace Verif.Params

mutual
/-- `syn::Type`. -/
inductive STy where
  /-- All kinds of types whose components are visited. -/
  | nest (kind : String) (l : List STy)
  /-- A path, with the type of `<T as ..>::` if there is one, whether it begins with `::`, and its segments. -/
  | path (qself : List STy) (leading : Bool) (segs : List Seg)
  /-- `name!(..)`, with the types among its tokens. -/
  | mac (name : String) (l : List STy)
/-- `syn::PathSegment`. -/
inductive Seg where
  | mk (ident : String) (args : List STy)
end

def Seg.ident : Seg → String
  | .mk i _ => i

/-- Rust expressions in attributes, with the types that occur in them. -/
structure SExpr where
  text : String
  types : List STy

/-- A predicate `ty: JsonSchema` of a where clause. Predicates for other traits are left out. -/
structure Pred where
  ty : STy

/-- schemars_derive/src/attr/mod.rs (`WithAttr`). -/
inductive WithAttr where
  | type (t : STy)
  | function (f : SExpr)

structure Field where
  ty : STy
  withAttr : Option WithAttr := none
  /-- `skip_deserializing` and `skip_serializing`. -/
  skipped : Bool := false
  /-- The predicates of `#[serde(bound = ..)]`. -/
  deBound : Option (List Pred) := none
  /-- `#[serde(default)]`: the schema contains `<ty>::default()`. -/
  default : Bool := false
  /-- `#[serde(default = ..)]`, `skip_serializing_if`, `title`, `extend`, ... -/
  exprs : List SExpr := []

structure Variant where
  fields : List Field
  withAttr : Option WithAttr := none
  skipped : Bool := false
  exprs : List SExpr := []

inductive Data where
  | struct (fields : List Field)
  | enum (variants : List Variant)

structure Container where
  /-- The type params. -/
  all : List String
  /-- The predicates that the type is declared with. -/
  declared : List Pred := []
  /-- The predicates of `#[serde(bound = ..)]`. -/
  deBound : Option (List Pred) := none
  /-- `rename_type_params`: the type params in the rename format string. -/
  rename : List String := []
  withAttr : Option WithAttr := none
  /-- `#[serde(from = ..)]` or `#[serde(try_from = ..)]`, `#[serde(into = ..)]`. -/
  «from» : Option STy := none
  into : Option STy := none
  data : Data
  /-- The container's default, `title`, `extend`, ... -/
  exprs : List SExpr := []

/-! ## The visitor -/

section
variable (all : List String)

/-- schemars_derive/src/bound.rs:130-136: the path ends in `PhantomData`. -/
def isPhantom (segs : List Seg) : Bool :=
  match segs.getLast? with
  | some s => s.ident == "PhantomData"
  | none => false

/-- schemars_derive/src/bound.rs:138-148: the first segment, if it is a type param. -/
def headParam (leading : Bool) (segs : List Seg) : List String :=
  if leading then [] else
  match segs with
  | s :: _ => if all.contains s.ident then [s.ident] else []
  | [] => []

mutual
/-- schemars_derive/src/bound.rs:129-195, 229-244 (`visit_type`, `visit_path`, `visit_macro`): the type params that
are found. -/
def visit : STy → List String
  | .nest _ l => visitAll l
  | .path q leading segs =>
    visitAll q ++ (if isPhantom segs then [] else headParam all leading segs ++ visitSegs segs)
  | .mac _ _ => []
def visitAll : List STy → List String
  | [] => []
  | t :: l => visit t ++ visitAll l
/-- schemars_derive/src/bound.rs:197-227 (`visit_path_segment`, `visit_path_arguments`). -/
def visitSegs : List Seg → List String
  | [] => []
  | .mk _ args :: l => visitAll args ++ visitSegs l
end

/-- schemars_derive/src/bound.rs:119-128 (`visit_field`). -/
def visitField (f : Field) : List String :=
  match f.withAttr with
  | some (.type t) => visit all t
  | some (.function _) => []
  | none => visit all f.ty

end

/-- schemars_derive/src/bound.rs:32-57, 98-110: the fields that are visited. -/
def visited : Data → List Field
  | .struct fields => fields.filter fun f => !f.skipped
  | .enum variants => variants.flatMap fun v => if v.skipped then [] else v.fields.filter fun f => !f.skipped

/-- schemars_derive/src/bound.rs:11-59 (`relevant_type_params`). -/
def relevant (c : Container) : List String :=
  if c.all.length > c.rename.length then
    c.all.filter fun p => c.rename.contains p || (visited c.data).any fun f => (visitField c.all f).contains p
  else c.rename

/-- schemars_derive/src/bound.rs:11-59, 143-145 (`type_params_for_bound`). -/
def forBound (c : Container) : List String :=
  if c.all.length > c.rename.length then
    c.all.filter fun p =>
      c.rename.contains p || (visited c.data).any fun f => f.deBound.isNone && (visitField c.all f).contains p
  else c.rename

/-- The type that is just a param. -/
def paramTy (p : String) : STy := .path [] false [.mk p []]

/-- schemars_derive/src/bound.rs:11-96 (`find_trait_bounds`): the predicates of the derived implementation, with
those of the declaration (schemars_derive/src/ast/from_serde.rs:37-41). The implementation of a type without any
params, for which this function does nothing, is left out. -/
def wherePreds (c : Container) : List Pred :=
  c.declared ++
  (match c.deBound with
    | some ps => ps
    | none => (forBound c).map fun p => ⟨paramTy p⟩) ++
  (if c.all.length > c.rename.length then (visited c.data).flatMap fun f => f.deBound.getD [] else [])

/-! ## What a derived schema is made of -/

/-- A type whose schema is used, or an expression that is evaluated. -/
inductive Source where
  | ty (t : STy)
  | expr (e : SExpr)

/-- schemars_derive/src/schema_exprs.rs:201-251 (`type_for_schema`). -/
def WithAttr.source : WithAttr → Source
  | .type t => .ty t
  | .function f => .expr f

/-- schemars_derive/src/schema_exprs.rs:201-206, 766-779: the schema of a field and its default. -/
def Field.sources (f : Field) : List Source :=
  (match f.withAttr with
    | some w => [w.source]
    | none => [.ty f.ty]) ++ (if f.default then [.ty f.ty] else []) ++ f.exprs.map .expr

/-- schemars_derive/src/schema_exprs.rs:557-638. -/
def Variant.sources (v : Variant) : List Source :=
  (match v.withAttr with
    | some w => [w.source]
    | none => (v.fields.filter fun f => !f.skipped).flatMap Field.sources) ++ v.exprs.map .expr

/-- The fields and variants. -/
def Data.sources : Data → List Source
  | .struct fields => (fields.filter fun f => !f.skipped).flatMap Field.sources
  | .enum variants => (variants.filter fun v => !v.skipped).flatMap Variant.sources

/-- schemars_derive/src/schema_exprs.rs:51-110 (`expr_for_container`). A transparent field is one of the fields. -/
def Container.sources (c : Container) : List Source :=
  (match c.withAttr with
    | some w => [w.source]
    | none => c.from.toList.map .ty ++ c.into.toList.map .ty ++
      (if c.from.isSome && c.into.isSome then [] else c.data.sources)) ++ c.exprs.map .expr

/-! ## The types that must implement `JsonSchema` -/

/-- schemars_derive/src/schema_exprs.rs:201-251: a function needs no implementation. -/
def WithAttr.needs : WithAttr → List STy
  | .type t => [t]
  | .function _ => []

/-- schemars_derive/src/schema_exprs.rs:201-206. -/
def Field.needs (f : Field) : List STy :=
  match f.withAttr with
  | some w => w.needs
  | none => [f.ty]

/-- schemars_derive/src/schema_exprs.rs:557-638. -/
def Variant.needs (v : Variant) : List STy :=
  match v.withAttr with
  | some w => w.needs
  | none => (v.fields.filter fun f => !f.skipped).flatMap Field.needs

/-- The fields and variants. -/
def Data.needs : Data → List STy
  | .struct fields => (fields.filter fun f => !f.skipped).flatMap Field.needs
  | .enum variants => (variants.filter fun v => !v.skipped).flatMap Variant.needs

/-- schemars_derive/src/schema_exprs.rs:51-110 (`expr_for_container`), schemars_derive/src/lib.rs:100-117
(`schema_name`): the types whose `JsonSchema` implementation the derived one calls. The id does not need one
(`_schemars_maybe_schema_id`, schemars_derive/src/lib.rs:119-147). -/
def Container.needs (c : Container) : List STy :=
  (match c.withAttr with
    | some w => w.needs
    | none => c.from.toList ++ c.into.toList ++ (if c.from.isSome && c.into.isSome then [] else c.data.needs)) ++
  c.rename.map paramTy

end Verif.Params
