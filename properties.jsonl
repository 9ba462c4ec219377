{"id": "C01", "title": "Definition-name encoding round-trips", "statement": "Encoding a definition name for use in a `$ref` (`encode_ref_name`), then percent-decoding the fragment and un-escaping the JSON Pointer token, gives back exactly the original name. Consequently two different names never share one encoded form.", "quantifier": "every Unicode string used as a schema name", "why_tests_cant": "names are arbitrary strings; a test samples a handful of characters while the property is about every byte sequence", "anchors": ["schemars/src/encoding.rs:encode_ref_name", "schemars/src/encoding.rs:percent_decode"]}
{"id": "C02", "title": "Encoded names are legal URI-fragment text", "statement": "The text produced for a definition name contains only characters allowed in a URI fragment (unreserved, sub-delims, ':', '@', '/', '?', and '%' followed by two hex digits), and contains no '/' that is not part of an escape.", "quantifier": "every Unicode string used as a schema name", "why_tests_cant": "all byte values in all positions", "anchors": ["schemars/src/encoding.rs:encode_ref_name"]}
{"id": "C03", "title": "Percent-decoding contract", "statement": "`percent_decode` returns the input unchanged when it has no '%', replaces every '%' followed by two hex digits by that byte, treats any other '%' literally, returns None exactly when the resulting bytes are not UTF-8, and never panics.", "quantifier": "every input string", "why_tests_cant": "every placement of '%' and every byte pair after it", "anchors": ["schemars/src/encoding.rs:percent_decode"]}
{"id": "C04", "title": "Every generated $ref resolves through Schema::pointer", "statement": "For a root schema produced by a generator, looking up any `$ref` string handed out for a definition through `Schema::pointer` on that root schema returns the definition stored under the corresponding name.", "quantifier": "every definition name, definitions map, root object and definitions path", "why_tests_cant": "the space of names, paths and root contents is unbounded", "anchors": ["schemars/src/generate.rs:SchemaGenerator::subschema_for", "schemars/src/generate.rs:SchemaGenerator::add_definitions", "schemars/src/generate.rs:json_pointer_mut", "schemars/src/schema.rs:Schema::pointer"]}
{"id": "C05", "title": "Definitions path normalisation", "statement": "A single leading '#' and a single trailing '/' in `definitions_path` are ignored: paths differing only by those produce the same references and put definitions in the same place; the path's segments are created when missing, existing siblings are preserved, and nothing outside the path changes.", "quantifier": "every definitions_path string, every root object, every definitions map", "why_tests_cant": "unbounded strings and documents", "anchors": ["schemars/src/generate.rs:SchemaGenerator::definitions_path_stripped", "schemars/src/generate.rs:json_pointer_mut", "schemars/src/generate.rs:SchemaGenerator::add_definitions"]}
{"id": "C06", "title": "A Schema is always an object or a bool", "statement": "Whatever sequence of public Schema operations a program performs, the wrapped JSON value is an object or a bool, so `ensure_object`/`insert` never panic.", "quantifier": "every finite history of Schema API calls from every constructor", "why_tests_cant": "histories are unbounded and include in-place mutation through returned references", "anchors": ["schemars/src/schema.rs:Schema", "schemars/src/schema.rs:Schema::validate", "schemars/src/schema.rs:Schema::ensure_object", "schemars/src/schema.rs:Schema::pointer_mut"]}
{"id": "C07", "title": "Conversion from JSON accepts exactly objects and bools", "statement": "`Schema::try_from(value)` (owned, & and &mut) and deserialization succeed iff the value is an object or bool, and return that same value unchanged.", "quantifier": "every JSON value", "why_tests_cant": "infinitely many JSON values", "anchors": ["schemars/src/schema.rs:TryFrom<Value> for Schema", "schemars/src/schema.rs:Schema::validate"]}
{"id": "C08", "title": "Schema behaves as a map after coercion", "statement": "`insert`, `get`, `remove` on a schema obey map laws: get after insert returns the inserted value, other keys are untouched, insert returns the previous value, remove returns and deletes the value, bool schemas have no keys, remove does not change a bool schema, and insert on a bool schema first coerces it.", "quantifier": "every schema, key and value", "why_tests_cant": "universally quantified over values and keys", "anchors": ["schemars/src/schema.rs:Schema::insert", "schemars/src/schema.rs:Schema::get", "schemars/src/schema.rs:Schema::remove"]}
{"id": "C09", "title": "ensure_object preserves meaning", "statement": "`ensure_object` turns `true`/`false` into an object schema that accepts exactly the same instances, leaves object schemas untouched, and is idempotent.", "quantifier": "every schema and every JSON instance, under every reference environment", "why_tests_cant": "validity is quantified over every instance", "anchors": ["schemars/src/schema.rs:Schema::ensure_object"]}
{"id": "C10", "title": "Pointer lookup contract", "statement": "`pointer` follows RFC 6901 from the root, with '#'-prefixed pointers percent-decoded first; `pointer_mut` addresses the same location as `pointer`, and writing through it changes only that location; both return None for bool schemas.", "quantifier": "every schema and pointer string", "why_tests_cant": "unbounded documents and pointer strings", "anchors": ["schemars/src/schema.rs:Schema::pointer", "schemars/src/schema.rs:Schema::pointer_mut"]}
{"id": "C11", "title": "Ordered serialization loses nothing", "statement": "Serializing a Schema emits every entry of every (nested) object exactly once: parsing the output back gives an equal value.", "quantifier": "every schema, either map ordering feature", "why_tests_cant": "nesting depth and key sets are unbounded", "anchors": ["schemars/src/schema.rs:ser::OrderedKeywordWrapper"]}
{"id": "C12", "title": "Keyword order of serialized schemas", "statement": "In a serialized schema object, `$id,$schema,title,description,type,format,properties` come first in that order, `$defs,definitions` last, all others in map order in between; keys of `properties`/`patternProperties`/`dependentSchemas`/`$defs`/`definitions` maps, and everything under `examples`, `default` and `x-*`, keep map order.", "quantifier": "every schema object", "why_tests_cant": "every combination of present keywords and nesting", "anchors": ["schemars/src/schema.rs:ser::OrderedKeywordWrapper"]}
{"id": "C13", "title": "transform_subschemas visits exactly the direct subschemas", "statement": "`transform_subschemas(t, s)` applies t once to each bool/object value at the direct subschema keywords and changes nothing else: keys, non-subschema values and data inside `const`/`enum`/`default`/`examples` are untouched.", "quantifier": "every transform function and every schema", "why_tests_cant": "higher-order and over unbounded documents", "anchors": ["schemars/src/transform.rs:transform_subschemas"]}
{"id": "C14", "title": "RecursiveTransform reaches every nested subschema", "statement": "`RecursiveTransform(f)` applies f to the schema and then, recursively, to every subschema of the result; with an f that keeps the set of subschemas it terminates and every reachable subschema of the output is an image of f.", "quantifier": "every function f and every schema", "why_tests_cant": "nesting depth is unbounded", "anchors": ["schemars/src/transform.rs:RecursiveTransform"]}
{"id": "C15", "title": "ReplaceBoolSchemas removes bool schemas and keeps meaning", "statement": "After ReplaceBoolSchemas no reachable subschema is a bool (except `additionalProperties` when skipped), and the result accepts exactly the same instances as the input.", "quantifier": "every schema, instance, reference environment, both settings", "why_tests_cant": "unbounded nesting and instances", "anchors": ["schemars/src/transform.rs:ReplaceBoolSchemas"]}
{"id": "C16", "title": "RemoveRefSiblings isolates $ref and keeps meaning", "statement": "After RemoveRefSiblings no reachable subschema has `$ref` next to another keyword, and the result read under draft-07 rules (where siblings of `$ref` are ignored) accepts exactly what the input accepts under 2019-09+ rules.", "quantifier": "every schema, instance and reference environment", "why_tests_cant": "unbounded nesting and instances", "anchors": ["schemars/src/transform.rs:RemoveRefSiblings"]}
{"id": "C17", "title": "SetSingleExample", "statement": "After SetSingleExample no reachable subschema has `examples`; where it was a non-empty array its first element is the `example`; validity is unchanged.", "quantifier": "every schema and instance", "why_tests_cant": "unbounded nesting", "anchors": ["schemars/src/transform.rs:SetSingleExample"]}
{"id": "C18", "title": "ReplaceConstValue keeps meaning", "statement": "After ReplaceConstValue no reachable subschema has `const`, and the result accepts exactly the same instances.", "quantifier": "every schema and instance", "why_tests_cant": "unbounded nesting and instances", "anchors": ["schemars/src/transform.rs:ReplaceConstValue"]}
{"id": "C19", "title": "ReplacePrefixItems keeps meaning across dialects", "statement": "After ReplacePrefixItems no reachable subschema has `prefixItems`, and the result read under draft-07/2019-09 array rules accepts exactly what the input accepts under 2020-12 rules.", "quantifier": "every schema and instance", "why_tests_cant": "unbounded nesting and array lengths", "anchors": ["schemars/src/transform.rs:ReplacePrefixItems"]}
{"id": "C20", "title": "AddNullable keeps meaning for OpenAPI", "statement": "After AddNullable, the result read under OpenAPI 3.0 `nullable` rules accepts exactly what the input accepts under JSON Schema rules; no reachable `type` mentions \"null\" when remove_null_type is set.", "quantifier": "every schema and instance, all four settings", "why_tests_cant": "unbounded nesting and type lists", "anchors": ["schemars/src/transform.rs:AddNullable"]}
{"id": "C21", "title": "ReplaceUnevaluatedProperties never rejects previously valid instances", "statement": "After ReplaceUnevaluatedProperties no reachable subschema has `unevaluatedProperties`, every property named by the schema or its in-place subschemas stays allowed, and every instance valid before is valid after.", "quantifier": "every schema and instance", "why_tests_cant": "unbounded nesting of in-place applicators", "anchors": ["schemars/src/transform.rs:ReplaceUnevaluatedProperties", "schemars/src/transform.rs:GatherPropertyNames"]}
{"id": "C22", "title": "RestrictFormats keeps exactly the allowed formats", "statement": "RestrictFormats removes a string `format` iff it is neither in allowed_formats nor defined by the meta-schema in force for that subschema (nearest enclosing known `$schema`), leaves subtrees with an unknown `$schema` untouched, and changes nothing else.", "quantifier": "every schema, allowed set and setting", "why_tests_cant": "scoping over unbounded nesting", "anchors": ["schemars/src/transform.rs:RestrictFormats", "schemars/src/transform.rs:RestrictFormatsImpl"]}
{"id": "C23", "title": "Draft pipelines leave no forbidden keywords", "statement": "Applying the draft07 (resp. 2019-09, openapi3) transform list leaves no reachable `prefixItems`, `unevaluatedProperties` or `$ref` with siblings (as applicable to that dialect).", "quantifier": "every schema", "why_tests_cant": "interaction of several recursive rewrites over all schemas", "anchors": ["schemars/src/generate.rs:SchemaSettings::draft07", "schemars/src/generate.rs:SchemaSettings::openapi3", "schemars/src/transform.rs"]}
{"id": "C24", "title": "Built-in transforms are idempotent", "statement": "Applying a built-in transform a second time changes nothing.", "quantifier": "every schema, every built-in transform", "why_tests_cant": "unbounded nesting", "anchors": ["schemars/src/transform.rs"]}
{"id": "C25", "title": "Distinct types never share a definition name", "statement": "At every point of every generation history two distinct schema ids (or the same id under different contracts) are assigned distinct definition names, and an id's name never changes.", "quantifier": "every family of JsonSchema implementations and every history of generator calls", "why_tests_cant": "arbitrary user implementations and unbounded histories", "anchors": ["schemars/src/generate.rs:SchemaGenerator::subschema_for", "schemars/src/generate.rs:SchemaUid"]}
{"id": "C26", "title": "No dangling references", "statement": "When an outermost generator call returns, every `$ref` it ever handed out for a definition names an entry present in `definitions`.", "quantifier": "every family of JsonSchema implementations (including recursive and mutually recursive) and every history", "why_tests_cant": "unbounded type graphs and histories", "anchors": ["schemars/src/generate.rs:SchemaGenerator::subschema_for", "schemars/src/generate.rs:SchemaGenerator::insert_new_subschema_for"]}
{"id": "C27", "title": "No placeholder survives generation", "statement": "When an outermost call returns, no definition is the internal placeholder: each definition is the result of running its type's json_schema to completion.", "quantifier": "every family of JsonSchema implementations and every history", "why_tests_cant": "re-entrancy over unbounded recursive type graphs", "anchors": ["schemars/src/generate.rs:SchemaGenerator::insert_new_subschema_for"]}
{"id": "C28", "title": "subschema_for is idempotent", "statement": "Asking again for a type already generated returns the identical `$ref` schema and leaves the generator unchanged.", "quantifier": "every family of implementations, every type, every history", "why_tests_cant": "histories are unbounded", "anchors": ["schemars/src/generate.rs:SchemaGenerator::subschema_for"]}
{"id": "C29", "title": "Generation terminates on recursive types", "statement": "For a finite set of types in which every cycle passes through a non-inlined type, schema generation terminates, with and without inline_subschemas.", "quantifier": "every finite type graph", "why_tests_cant": "all graphs, all recursion patterns", "anchors": ["schemars/src/generate.rs:SchemaGenerator::subschema_for", "schemars/src/generate.rs:SchemaGenerator::json_schema_internal"]}
{"id": "C30", "title": "Generator bookkeeping is balanced", "statement": "Every generator call restores the set of in-progress types and the root-type stack, and never changes the settings.", "quantifier": "every family of implementations and call", "why_tests_cant": "re-entrant calls", "anchors": ["schemars/src/generate.rs:SchemaGenerator::json_schema_internal", "schemars/src/generate.rs:SchemaGenerator::root_schema_for"]}
{"id": "C31", "title": "Existing definitions are never overwritten by later calls", "statement": "Generating more types never removes or changes a definition that was complete before the call.", "quantifier": "every family of implementations and history", "why_tests_cant": "unbounded histories", "anchors": ["schemars/src/generate.rs:SchemaGenerator::subschema_for"]}
{"id": "C32", "title": "Root schema metadata", "statement": "`root_schema_for` always returns an object schema with `$schema` equal to the configured meta-schema, a `title` (the type's own if set, otherwise its schema name), and all definitions at the definitions path, before transforms are applied in order.", "quantifier": "every type, settings and generator state", "why_tests_cant": "arbitrary user types and settings", "anchors": ["schemars/src/generate.rs:SchemaGenerator::root_schema_for"]}
{"id": "C33", "title": "root_schema_for and into_root_schema_for agree", "statement": "Both methods return the same schema from the same generator state.", "quantifier": "every type, settings and generator state", "why_tests_cant": "arbitrary user types", "anchors": ["schemars/src/generate.rs:SchemaGenerator::root_schema_for", "schemars/src/generate.rs:SchemaGenerator::into_root_schema_for"]}
{"id": "C34", "title": "The root reference '#' denotes the requested root type", "statement": "In a generated root schema, every `$ref: \"#\"` stands for the type whose root schema this is.", "quantifier": "every family of implementations and every history on one generator", "why_tests_cant": "multi-root histories", "anchors": ["schemars/src/generate.rs:SchemaGenerator::subschema_for", "schemars/src/generate.rs:SchemaGenerator::root_schema_for"]}
{"id": "C35", "title": "A cloned generator keeps references unambiguous", "statement": "After cloning a generator, references generated by the clone still denote the schema of the requested type.", "quantifier": "every history before and after the clone", "why_tests_cant": "unbounded histories", "anchors": ["schemars/src/generate.rs:Clone for SchemaGenerator"]}
{"id": "C36", "title": "inline types are never referenced", "statement": "A type with inline_schema()=true is never given a definition or a `$ref`; with inline_subschemas, only types already in progress (recursive) get references.", "quantifier": "every family of implementations and history", "why_tests_cant": "arbitrary type graphs", "anchors": ["schemars/src/generate.rs:SchemaGenerator::subschema_for"]}
{"id": "C37", "title": "take_definitions leaves a usable generator", "statement": "`take_definitions` returns exactly the current definitions (transformed on request), empties the map, keeps names stable, and types requested afterwards are regenerated under the same name.", "quantifier": "every history", "why_tests_cant": "unbounded histories", "anchors": ["schemars/src/generate.rs:SchemaGenerator::take_definitions"]}
{"id": "C38", "title": "A schema inferred from a value accepts that value", "statement": "If `root_schema_for_value(v)` succeeds and `v` serializes to JSON, that JSON is valid against the returned schema.", "quantifier": "every serde data-model value", "why_tests_cant": "infinitely many values and nestings", "anchors": ["schemars/src/ser.rs:Serializer", "schemars/src/generate.rs:SchemaGenerator::root_schema_for_value"]}
{"id": "C39", "title": "Inferred schema shape", "statement": "Inference never emits a `$ref`; sequences get one item schema or an `anyOf` of pairwise distinct ones, maps get one value schema or `true`, tuples get fixed length.", "quantifier": "every serde data-model value", "why_tests_cant": "unbounded nesting", "anchors": ["schemars/src/ser.rs"]}
{"id": "C40", "title": "Integer types' schemas are exact up to documented bounds", "statement": "For each fixed-width integer type an integer JSON value that the type can hold is accepted; for 8/16-bit types and for sign, values outside the range are rejected; NonZero types additionally reject zero.", "quantifier": "every integer JSON value", "why_tests_cant": "all integers", "anchors": ["schemars/src/json_schema_impls/primitives.rs", "schemars/src/json_schema_impls/nonzero.rs"]}
{"id": "C41", "title": "Option<T> adds exactly null", "statement": "The schema for Option<T> (allow_null applied to T's schema) accepts an instance iff it is null or accepted by T's schema.", "quantifier": "every inner schema and instance", "why_tests_cant": "the inner schema is arbitrary", "anchors": ["schemars/src/_private/mod.rs:allow_null", "schemars/src/json_schema_impls/core.rs"]}
{"id": "C42", "title": "Sequence, set, array and tuple schemas", "statement": "An array instance is accepted by the schema of Vec<T>/set/[T;N]/tuple iff every element is accepted by its element schema and (for arrays and tuples) the length is exact, (for sets) elements are distinct.", "quantifier": "every element schema and instance", "why_tests_cant": "arbitrary element schemas and lengths", "anchors": ["schemars/src/json_schema_impls/sequences.rs", "schemars/src/json_schema_impls/array.rs", "schemars/src/json_schema_impls/tuple.rs"]}
{"id": "C43", "title": "Map schemas accept every serialized map", "statement": "For key types that serialize as strings, integers or unit-enum names, the schema of a map accepts every object whose keys come from the key type and whose values are accepted by the value schema; keys outside an enum/integer key type are rejected.", "quantifier": "every key schema of those shapes, value schema and instance", "why_tests_cant": "arbitrary key sets", "anchors": ["schemars/src/json_schema_impls/maps.rs"]}
{"id": "C44", "title": "Core enums and ranges", "statement": "Result, Bound, Range, Duration, SystemTime schemas accept exactly the objects serde produces shape-wise: the right variant key with a valid payload.", "quantifier": "every payload schema and instance", "why_tests_cant": "arbitrary payload schemas", "anchors": ["schemars/src/json_schema_impls/core.rs", "schemars/src/json_schema_impls/std_time.rs"]}
{"id": "C45", "title": "Derived schemas accept every serialized value", "statement": "For any (possibly recursive) set of derived structs and enums, the JSON that serde produces for a value of the type is valid against the schema generated under the Serialize contract.", "quantifier": "every set of type definitions, every value", "why_tests_cant": "universal over type definitions and values", "anchors": ["schemars_derive/src/schema_exprs.rs:expr_for_container", "schemars/src/generate.rs"]}
{"id": "C46", "title": "Struct properties and required", "statement": "For a derived struct, `properties` holds exactly the non-skipped fields under their contract-specific names, and `required` lists exactly those that are mandatory under the contract.", "quantifier": "every field list and attribute combination, both contracts", "why_tests_cant": "attribute combinations multiply", "anchors": ["schemars_derive/src/schema_exprs.rs:expr_for_struct", "schemars/src/_private/mod.rs:insert_object_property"]}
{"id": "C47", "title": "deny_unknown_fields", "statement": "A derived struct with deny_unknown_fields accepts an object iff its keys are declared fields, required ones are present and values are valid; without it unknown keys are allowed.", "quantifier": "every field list and instance", "why_tests_cant": "unbounded", "anchors": ["schemars_derive/src/schema_exprs.rs:expr_for_struct"]}
{"id": "C48", "title": "Enum representations", "statement": "For external, internal, adjacent and untagged representations the schema accepts exactly one variant's encoding: for tagged representations no instance matches two variants.", "quantifier": "every variant list and instance", "why_tests_cant": "unbounded variant lists", "anchors": ["schemars_derive/src/schema_exprs.rs:expr_for_enum", "schemars/src/_private/mod.rs"]}
{"id": "C49", "title": "Flattening merges both schemas", "statement": "`flatten(a, b)` keeps every property of both objects, requires what either requires, and an object accepted by the flattened schema satisfies both groups of property schemas.", "quantifier": "every pair of object schemas and instance", "why_tests_cant": "arbitrary schemas", "anchors": ["schemars/src/_private/mod.rs:flatten"]}
{"id": "C50", "title": "json_schema_for_flatten relaxes unknown-field denial", "statement": "Flattened subschemas no longer deny additional/unevaluated properties at any in-place position, optional flattened fields require nothing, unit enum variants become null-valued object properties.", "quantifier": "every schema", "why_tests_cant": "unbounded nesting", "anchors": ["schemars/src/_private/mod.rs:json_schema_for_flatten", "schemars/src/_private/mod.rs:AllowUnknownProperties"]}
{"id": "C51", "title": "Validation attributes only touch matching types", "statement": "`insert_validation_property` sets the keyword iff the schema's type includes the required type (integer counts as number), changes nothing otherwise, and the resulting schema accepts exactly the previously accepted instances that meet the bound.", "quantifier": "every schema, keyword and value", "why_tests_cant": "arbitrary schemas", "anchors": ["schemars/src/_private/mod.rs:insert_validation_property", "schemars/src/_private/mod.rs:apply_inner_validation"]}
{"id": "C52", "title": "contains() pattern is the literal substring", "statement": "The pattern generated for `contains(...)` matches a string iff it contains the given substring literally.", "quantifier": "every substring and subject string", "why_tests_cant": "all strings", "anchors": ["schemars/src/_private/regex_syntax.rs:escape", "schemars/src/_private/mod.rs:must_contain"]}
{"id": "C53", "title": "Doc comments split into title and description", "statement": "get_title_and_description never panics, returns trimmed text, yields a title exactly when the trimmed doc starts with '#', and loses nothing but '#'s and whitespace.", "quantifier": "every doc string", "why_tests_cant": "all strings including multi-byte ones", "anchors": ["schemars/src/_private/rustdoc.rs:get_title_and_description"]}
{"id": "C54", "title": "schemars attributes override serde attributes", "statement": "The effective serde attributes of an item are the schemars ones plus exactly those supported serde ones whose keyword is neither set nor unset by schemars; `skip` overrides both directions.", "quantifier": "every list of attributes", "why_tests_cant": "unbounded attribute lists", "anchors": ["schemars_derive/src/attr/schemars_to_serde.rs:process_attrs"]}
{"id": "C55", "title": "Rename format strings", "statement": "A rename format string is accepted iff all its placeholders are generic params of the type and its braces balance, and the set of type params found is exactly the placeholders naming type params.", "quantifier": "every format string and generics list", "why_tests_cant": "all strings", "anchors": ["schemars_derive/src/name.rs:get_rename_format_type_params"]}
{"id": "C56", "title": "RestrictFormats without a known meta-schema", "statement": "With infer_from_meta_schema set, if the JSON Schema version cannot be determined because `$schema` is missing or unknown, no `format` is removed (as documented).", "quantifier": "every schema, location and allowed set", "why_tests_cant": "It is a claim about every schema and nesting of $schema; the documented example has a known $schema at the root.", "anchors": ["schemars/src/transform.rs:RestrictFormats"]}
{"id": "C57", "title": "Settings' transforms reach every definition of a root schema", "statement": "For each of the provided settings, every definition appears at the definitions path of the generated root schema with all transforms of these settings applied to it.", "quantifier": "every family of JsonSchema implementations, every history and the four provided settings", "why_tests_cant": "arbitrary user types; which definitions escape depends on the interplay of the definitions path with the traversal", "anchors": ["schemars/src/generate.rs:SchemaGenerator::root_schema_for", "schemars/src/generate.rs:SchemaSettings::openapi3", "schemars/src/transform.rs:transform_subschemas"]}
{"id": "C58", "title": "The provided settings' transforms keep what a schema accepts", "statement": "For a schema whose keywords do not interact with the rewriting (no unevaluatedProperties, no array-form items, `$ref` beside a well formed allOf only, types and enums well formed), the transformed schema, read in the target dialect (draft-07, 2019-09, OpenAPI 3.0), accepts exactly the instances that the original accepts in 2020-12.", "quantifier": "every schema, every instance, every meaning of references, patterns and unknown keywords", "why_tests_cant": "unbounded nesting of schemas and instances; transforms act one after the other and can disturb each other", "anchors": ["schemars/src/generate.rs:SchemaSettings", "schemars/src/transform.rs"]}
{"id": "C59", "title": "Schema ids tell types apart", "statement": "Two types with the same schema_id have the same implementation of JsonSchema (as the trait documents: types that produce different schemas must have different ids), for all types built from the crate's own implementations and from derived types.", "quantifier": "every set of derived types and all types built from them, of any depth", "why_tests_cant": "infinitely many pairs of types; a collision depends on how module paths, names and arguments concatenate", "anchors": ["schemars_derive/src/lib.rs:derive_json_schema", "schemars/src/json_schema_impls", "schemars/src/lib.rs:JsonSchema::schema_id"]}
{"id": "C60", "title": "The id of a derived type mentions every type param its schema depends on", "statement": "If two instances of a generic type with derive(JsonSchema) have the same arguments for all relevant_type_params (those in the schema_id), then all types and expressions from which their schemas are made are the same.", "quantifier": "every container, every interpretation of the named types, macros and expressions, all arguments", "why_tests_cant": "infinitely many containers, types and attributes; a missed type param only shows when two instances meet in one document", "anchors": ["schemars_derive/src/bound.rs:find_trait_bounds", "schemars_derive/src/bound.rs:FindTyParams", "schemars_derive/src/lib.rs:derive_json_schema", "schemars_derive/src/schema_exprs.rs:expr_for_container"]}
{"id": "C61", "title": "Generated documents are valid JSON Schemas", "statement": "The document that root_schema_for makes with the settings for draft 7, 2019-09 or 2020-12 satisfies the meta-schema of that version: every known keyword, at any depth where a schema may be, has a value of the right kind.", "quantifier": "every family of derived and standard types, every contract, all attributes whose values suit their keywords", "why_tests_cant": "unbounded nesting of types; flattening, tagging and the transforms of the settings act on the schemas of arbitrary other types", "anchors": ["schemars/src/generate.rs:SchemaGenerator::root_schema_for", "schemars_derive/src/schema_exprs.rs", "schemars/src/_private/mod.rs:flatten", "schemars/src/transform.rs"]}
{"id": "C62", "title": "Attribute items mean what the documentation says", "statement": "If no error is reported, every setting read from the attributes of a field, variant or container is what the first item with its name says, with schemars before serde, validator and garde, including inner(...) to every depth. The items of a schemars attribute are accepted exactly when each is well formed and nothing is set twice, independently of their order. Doc comments are joined line by line, each without one leading space.", "quantifier": "every list of items of any shape and nesting, every outcome of the parsers of syn", "why_tests_cant": "infinitely many combinations of items; conflicts depend on pairs of items in different attributes", "anchors": ["schemars_derive/src/attr/mod.rs:FieldAttrs", "schemars_derive/src/attr/mod.rs:VariantAttrs", "schemars_derive/src/attr/mod.rs:ContainerAttrs", "schemars_derive/src/attr/parse_meta.rs", "schemars_derive/src/attr/validation.rs:ValidationAttrs", "schemars_derive/src/attr/doc.rs:get_doc"]}
{"id": "C63", "title": "Unsetting a serde attribute has the effect of removing it", "statement": "#[schemars(!k)] on a field, variant or container has the same effect as removing k from the serde attributes (as the documentation says), for each keyword k of serde that schemars passes on; !with and !serialize_with, and !rename on containers, are always errors.", "quantifier": "every list of attributes, every keyword", "why_tests_cant": "infinitely many combinations of attributes", "anchors": ["schemars_derive/src/attr/schemars_to_serde.rs:process_attrs", "schemars_derive/src/attr/mod.rs:AttrCtxt", "docs/_includes/attributes.md"]}
{"id": "C64", "title": "Schemas for deserialization accept whatever serde reads", "statement": "For every set of types and the Deserialize contract, the root schema accepts every JSON document that serde reads as a value of the type and whose fields obey their validation attributes.", "quantifier": "every set of possibly recursive derived and standard types, every document", "why_tests_cant": "infinitely many types and documents, recursion through definitions", "anchors": ["schemars_derive/src/schema_exprs.rs:SchemaExpr", "schemars/src/json_schema_impls", "schemars/src/generate.rs:Contract", "schemars/src/generate.rs:SchemaGenerator::into_root_schema_for"]}
{"id": "C65", "title": "serde reads whatever the schema for deserialization accepts", "statement": "For every set of types and the Deserialize contract, serde reads every JSON document that the root schema accepts as a value of the type.", "quantifier": "every set of possibly recursive derived and standard types, every document", "why_tests_cant": "infinitely many types and documents, recursion through definitions", "anchors": ["schemars_derive/src/schema_exprs.rs:SchemaExpr", "schemars/src/json_schema_impls", "schemars/src/generate.rs:Contract", "schemars/src/generate.rs:SchemaGenerator::into_root_schema_for"]}
{"id": "C66", "title": "Wrapper types are invisible", "statement": "Replacing wrapper types (Box, references, Rc, Cow and the other forwarded types, transparent structs and containers with `with` that have no attributes changing the schema) by the types they stand for, anywhere in a program, changes neither the schemas nor the definitions that are generated, nor which generations end.", "quantifier": "every program of derived, forwarded and hand-written implementations, every choice of wrappers to replace, every state of the generator, all settings", "why_tests_cant": "infinitely many programs, possibly recursive through the wrappers", "anchors": ["schemars_derive/src/lib.rs:get_transparent_type", "schemars_derive/src/lib.rs:derive_json_schema", "schemars/src/json_schema_impls/mod.rs:forward_impl", "schemars/src/json_schema_impls/wrapper.rs", "schemars_derive/src/attr/mod.rs:is_default", "schemars/src/generate.rs:SchemaGenerator"]}
{"id": "C67", "title": "Attributes are in the schema of what they are written on", "statement": "Each title, description, deprecated, example and extend attribute, and each doc comment, of a container, variant or field is a keyword with the given value in the schema of that container, variant or field, which is otherwise the same as without the attributes.", "quantifier": "every container, variant and field, every combination of attributes, every schema of the types involved, both contracts", "why_tests_cant": "infinitely many combinations of attributes, shapes and inner schemas", "anchors": ["schemars_derive/src/attr/mod.rs:CommonAttrs::add_mutators", "schemars_derive/src/schema_exprs.rs:expr_for_container", "schemars_derive/src/schema_exprs.rs:expr_for_field", "schemars_derive/src/schema_exprs.rs:expr_for_enum", "schemars_derive/src/schema_exprs.rs:expr_for_repr", "schemars_derive/src/ast/mod.rs:Field::add_mutators"]}
{"id": "C68", "title": "What is derived is what the attributes in effect mean", "statement": "For every struct or enum for which the derive macro succeeds, the container it works on has for each field, variant and the container itself exactly the names, skipping, flattening, defaults, tagging, transparency and conversions that the documentation of serde gives to the items in effect (those of schemars, and those of serde that are not overridden or unset), and the name of the schema follows from rename and remote.", "quantifier": "every declaration with any attributes in any order, any renaming functions, any types and expressions", "why_tests_cant": "infinitely many combinations of attributes, orders and shapes", "anchors": ["schemars_derive/src/ast/mod.rs:Container::from_ast", "schemars_derive/src/ast/mod.rs:Container::name", "schemars_derive/src/ast/from_serde.rs:FromSerde", "schemars_derive/src/attr/schemars_to_serde.rs:process_serde_attrs", "schemars_derive/src/lib.rs:derive_json_schema"]}
{"id": "C69", "title": "The default in a schema is what serde writes for a missing field", "statement": "The schema of a field of a struct gets the keyword default exactly if serde fills in a value when the field is missing and would write that value again, and the value of the keyword is what serde writes for it.", "quantifier": "every struct, every combination of default, skip, skip_serializing_if, serialize_with and with on fields and containers, all values", "why_tests_cant": "infinitely many declarations and values", "anchors": ["schemars_derive/src/schema_exprs.rs:field_default_expr", "schemars_derive/src/schema_exprs.rs:expr_for_struct"]}
{"id": "C70", "title": "Schemas from source accept what serde writes and reads from the same source", "statement": "For a program whose declarations leave it to serde how values are written and read (nothing in schemars, validate or garde attributes overrides a serde attribute, and no functions replace serde's), the schema that schemars derives from the source accepts every document that serde's own derive macros, applied to the same source, write; for the Deserialize contract it accepts exactly the documents that serde reads in documented forms.", "quantifier": "every program of standard types, structs and enums with every combination of serde attributes, all values and documents", "why_tests_cant": "infinitely many programs and documents; schemars and serde read the attributes by different routes", "anchors": ["schemars_derive/src/ast/from_serde.rs", "schemars_derive/src/attr/schemars_to_serde.rs:process_serde_attrs", "schemars_derive/src/lib.rs:derive_json_schema"]}
{"id": "C71", "title": "Schemars attributes behave identically to serde attributes", "statement": "For every declaration, the derive macro gives the same result if everything that its schemars attributes say in the words of serde is written in serde attributes instead, in place of the serde items that it overrides or unsets. Exceptions are bound, which is only respected in schemars attributes, rename on a container, which is a format string in a schemars attribute, and unsetting words that are not serde's. In particular the schema accepts what serde writes and reads for the rewritten program, under the conditions of C70.", "quantifier": "every struct and enum with any attributes on the container, variants and fields", "why_tests_cant": "infinitely many combinations of attributes, orders and shapes", "anchors": ["docs/_includes/attributes.md", "schemars_derive/src/attr/schemars_to_serde.rs:process_serde_attrs", "schemars_derive/src/lib.rs:derive_json_schema"]}
{"id": "C72", "title": "Annotations in the source end up in the schema", "statement": "What the derive macro makes of a declaration has, for the container, each variant and each field, the title, description, examples, extensions, transforms, deprecation, doc text, validation values, required flag and replaced type (with, schema_with) that the first item in effect with the name says, and the container is inlined and identified accordingly. Each keyword written at a container or field in this way is in the schema that is generated for it.", "quantifier": "every struct and enum with any attributes on the container, variants and fields, every meaning of the expressions in them, both contracts", "why_tests_cant": "infinitely many combinations of attributes, orders and shapes", "anchors": ["schemars_derive/src/attr/mod.rs:CommonAttrs::populate", "schemars_derive/src/attr/validation.rs", "schemars_derive/src/ast/from_serde.rs", "schemars_derive/src/schema_exprs.rs:type_for_schema", "schemars_derive/src/lib.rs:derive_json_schema"]}
{"id": "C73", "title": "Schemas and definitions do not depend on the order of calls", "statement": "For every set of types and settings without inline_subschemas, the schema that subschema_for returns for a type, and the definitions of a generator that was asked for some types, depend only on the types and not on the order or number of the calls: the definitions are the schemas of exactly the types that are needed.", "quantifier": "every set of types, every sequence of calls of subschema_for on a new generator", "why_tests_cant": "infinitely many types and sequences of calls, with recursion through types in progress", "anchors": ["schemars/src/generate.rs:SchemaGenerator::subschema_for", "schemars/src/generate.rs:SchemaGenerator::root_schema_for", "schemars/src/json_schema_impls/maps.rs"]}
{"id": "C74", "title": "Schemas for reading accept what is written", "statement": "For every type whose attributes do not tell writing from reading, serde reads the documents it writes, and the root schema made under the Deserialize contract (the default) accepts every document that serde writes for a value of the type.", "quantifier": "every set of type declarations, every value", "why_tests_cant": "infinitely many types, attributes and values; flattened fields must find their members again among all others", "anchors": ["schemars_derive/src/schema_exprs.rs:expr_for_struct", "schemars_derive/src/schema_exprs.rs:expr_for_enum", "schemars/src/generate.rs:Contract", "schemars/src/_private/mod.rs:flatten"]}
{"id": "C75", "title": "The where clause of a derived implementation is enough", "statement": "If all types whose JsonSchema implementation a derived implementation calls implement JsonSchema for type parameters that do, then they also do so from the where clause of the derived implementation; and no bound in it is superfluous.", "quantifier": "every container, every set of implementations in the program", "why_tests_cant": "infinitely many generic types and attribute combinations; failures are compile errors in user crates", "anchors": ["schemars_derive/src/bound.rs:find_trait_bounds", "schemars_derive/src/lib.rs:derive_json_schema"]}
{"id": "C76", "title": "The fixed patterns match exactly the texts they are for", "statement": "The regular expressions in the schemas of the standard types (integer keys of maps, decimal numbers, semver::Version) are patterns of ECMA-262 and match exactly the texts of the type: digits, signed digits, decimal numbers with or without an exponent, and the valid semantic versions of semver.org. The schemas of chrono::Weekday and TimeDelta accept exactly the documents of these types.", "quantifier": "every text", "why_tests_cant": "infinitely many texts; a wrong pattern shows only on rare forms such as leading zeros or hyphens in identifiers", "anchors": ["schemars/src/json_schema_impls/semver1.rs", "schemars/src/json_schema_impls/decimal.rs", "schemars/src/json_schema_impls/maps.rs", "schemars/src/json_schema_impls/chrono04.rs"]}
{"id": "C77", "title": "The derive macro accepts exactly the well-formed declarations", "statement": "derive(JsonSchema) gives an implementation exactly if every serde attribute in effect has a known word with what must follow it, nothing is given twice, the attributes of the declaration fit together (tag, content and untagged; transparent; from, try_from and into; default and flatten by the kind of data), and the schemars attributes of the container, the variants and the fields are read without error. In all other cases it gives a compile error.", "quantifier": "every struct and enum declaration with every list of attributes", "why_tests_cant": "infinitely many combinations of attributes; the compile-fail tests cover a few of them", "anchors": ["schemars_derive/src/lib.rs:derive_json_schema", "schemars_derive/src/ast/mod.rs:Container::from_ast", "schemars_derive/src/ast/from_serde.rs", "schemars_derive/src/attr/mod.rs", "schemars_derive/src/attr/schemars_to_serde.rs"]}
{"id": "C78", "title": "What the documents of the provided settings have at the top", "statement": "With the provided settings, for either contract, root_schema_for and schema_for! give a document whose $schema is the published URI of the version, whose title is that of the type's own schema or else its name, and which has every keyword of the type's own schema whose value is not a schema; root_schema_for_value and schema_for_value! give a document with this $schema, the name of the value's type as title, and the value as its example, in the keyword of the version. Schemas inside a document for a value have no title.", "quantifier": "every type, every value, every history of the generator", "why_tests_cant": "infinitely many types; each transform could drop or change a keyword at the root", "anchors": ["schemars/src/generate.rs:SchemaSettings", "schemars/src/generate.rs:SchemaGenerator::root_schema_for", "schemars/src/consts.rs:meta_schemas", "schemars/src/macros.rs", "schemars/src/ser.rs"]}
{"id": "C79", "title": "Enums with discriminants accept exactly their discriminants", "statement": "derive(JsonSchema_repr) gives an implementation exactly if derive(JsonSchema) does, and the declaration delegates to another type or is an enum of unit variants whose first repr attribute has an integer type. In the second case the schema accepts exactly the integers that are discriminants of the variants, which are what serde_repr writes: those written in the declaration, else 0 for the first variant and one more than the one before for the others.", "quantifier": "every enum declaration with every list of discriminants and attributes, every document", "why_tests_cant": "one enum is tested; infinitely many declarations and documents", "anchors": ["schemars_derive/src/schema_exprs.rs:expr_for_repr", "schemars_derive/src/attr/mod.rs:ContainerAttrs::new", "schemars_derive/src/lib.rs:derive_json_schema"]}
{"id": "C80", "title": "Documents for different settings accept the same", "statement": "The root schemas made for one type and one contract with two of the provided settings (draft07, draft2019_09, draft2020_12, openapi3), with or without inline_subschemas and titles of untagged variants, accept the same documents, each read by the rules of its version.", "quantifier": "every set of derived and standard types, every pair of settings, every document", "why_tests_cant": "infinitely many types and documents; snapshot tests compare documents, not what they accept", "anchors": ["schemars/src/generate.rs:SchemaSettings", "schemars/src/generate.rs:SchemaGenerator::subschema_for", "schemars/src/transform.rs"]}
{"id": "C81", "title": "The schema of the type Schema", "statement": "`json_schema!` never panics and gives an object whose entry of a name is the last one written, or the bool. The schema of the type `Schema` accepts exactly the values that can be read as a `Schema`, and accepts every written schema. Converting a schema to a map never reaches the `unreachable!`.", "quantifier": "every macro argument, every JSON value, every schema", "why_tests_cant": "infinitely many literals, values and schemas", "anchors": ["schemars/src/macros.rs:json_schema", "schemars/src/schema.rs:JsonSchema for Schema", "schemars/src/schema.rs:Schema::try_to_object"]}
{"id": "C82", "title": "Schemas made for OpenAPI 3.0 are schemas of OpenAPI 3.0", "statement": "With the openapi3 settings, each transformed schema is a Schema Object or a Reference Object of OpenAPI 3.0: it has only their keywords, `type` is one name other than null, `$ref` stands alone, `items` is one schema, and no schema is a bool apart from the value of `additionalProperties`.", "quantifier": "every schema of a standard or derived type", "why_tests_cant": "infinitely many types; snapshot tests do not validate documents against the schema of OpenAPI", "anchors": ["schemars/src/generate.rs:SchemaSettings::openapi3", "schemars/src/transform.rs"]}
{"id": "C83", "title": "The schemas of the crate's own types accept exactly the documents of these types", "statement": "The root schema of a type made of types with an implementation in the crate (primitives, options, sequences, sets, arrays, tuples, maps, Result, Bound, ranges, Either, times, OS strings, bytes, decimals, chrono, jiff, semver, url, uuid, Schema) accepts a document if and only if it is a document of the type: integers of up to 16 bits in range and others with the right sign, sequences and tuples element by element, sets without repeated elements, maps with keys of the form of the key type. The names and the use of definitions are as documented.", "quantifier": "every such type, nested to any depth, both contracts, every well-formed document", "why_tests_cant": "infinitely many types and documents; tests validate a few values of each type", "anchors": ["schemars/src/json_schema_impls/core.rs", "schemars/src/json_schema_impls/sequences.rs", "schemars/src/json_schema_impls/tuple.rs", "schemars/src/json_schema_impls/maps.rs", "schemars/src/json_schema_impls/primitives.rs", "schemars/src/json_schema_impls/arrayvec07.rs", "schemars/src/generate.rs:SchemaGenerator::root_schema_for"]}
{"id": "C84", "title": "Programs whose types have the ids of the crate", "statement": "For a program whose types have the ids, names and inlining choices of the crate and of the derive macro, ids tell the types apart; so the root schemas that are made for its types accept what is written (contract serialize), accept what can be read and only that (contract deserialize), and accept the same under different settings.", "quantifier": "every program of standard and derived types, every provided settings, every document", "why_tests_cant": "infinitely many programs and documents; tests use a few types whose ids never clash", "anchors": ["schemars/src/lib.rs:JsonSchema::schema_id", "schemars_derive/src/lib.rs:derive_json_schema", "schemars/src/generate.rs:SchemaGenerator::subschema_for"]}
{"id": "C85", "title": "Turning a value into a schema never panics", "statement": "Schema::validate, through which every value goes that is read as a schema or converted to one, takes exactly bools and objects; for any other value it gives an error that says what the value is, and it never panics.", "quantifier": "every JSON value, with every number that serde_json can represent", "why_tests_cant": "the numbers in question are far outside of what tests use, and only exist with a feature of serde_json that the tests do not enable", "anchors": ["schemars/src/schema.rs:Schema::validate"]}
{"id": "C86", "title": "The provided transforms do not panic", "statement": "None of the unwrap calls in the provided transforms fails, and none of their calls of Schema::insert and Schema::ensure_object is made on a value that is neither a bool nor an object; so each transform step on a schema ends without a panic.", "quantifier": "every schema, every configuration of the transforms", "why_tests_cant": "the type keyword and the other keywords read may have any value; tests use well-formed ones", "anchors": ["schemars/src/transform.rs:AddNullable", "schemars/src/transform.rs:ReplaceBoolSchemas", "schemars/src/transform.rs:ReplaceUnevaluatedProperties"]}
