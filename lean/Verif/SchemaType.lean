import Verif.Schema

/-!
# The type `Schema` itself, and the macro `json_schema!`
-/

namespace Verif.Schema

/-- The argument of `json_schema!`: an object literal, `true` or `false`; others do not compile. -/
inductive MacroArg where
  | object (m : List (String × Json))
  | bool (b : Bool)

/-- schemars/src/macros.rs:100-113: `none` for the panic of `unwrap`. `json!` makes a map of the entries of the literal,
where the last one of a name counts. -/
def ofMacro : MacroArg → Option Json
  | .object m => tryFrom (mkObj m)
  | .bool b => some (ofBool b)

/-- schemars/src/schema.rs:468-479 (`JsonSchema for Schema`): name, id and schema. -/
def selfName : String := "Schema"
def selfId : String := "schemars::Schema"
def selfSchema : Option Json := ofMacro (.object [("type", .arr [.str "object", .str "boolean"])])

end Verif.Schema
