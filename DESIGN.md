# Formal model of schemars: design

The subject is `GREsau/schemars` at the pinned commit in `/repo` (crates `schemars` and
`schemars_derive`). The code is read as text. Nothing is built or run. The model and the proofs are in
`/verif/lean/Verif`. Properties are listed in `properties.jsonl`, and the state of each one in `MANIFEST.json`.

## 1. Trusted base

* The Lean 4.33.0 kernel, and the three standard axioms `propext`, `Classical.choice`, `Quot.sound`.
  No other axiom is used. There is no `sorry`, `admit`, `native_decide` or `bv_decide`.
* The transcription from Rust to Lean. Every definition cites the file and lines it comes from and says
  where it simplifies.
* Models of code outside the repository, written from its documentation:
  * `serde_json::Value`, `Map` (default features: a `BTreeMap`, that is, a sorted association list),
    `Value::pointer`/`pointer_mut`;
  * `str::split`, `u8::from_str_radix`, `String::from_utf8` (via Lean's verified UTF-8 codec),
    `str::trim` on ASCII/Unicode white space as a character predicate;
  * serde's data model and the JSON that `serde_json` writes for it (for C38, C45).
* The JSON Schema semantics in `Verif/Spec/Sem.lean`. It is a specification, not code from the repository.

### Not modelled

* Rust memory, references and lifetimes. A mutable borrow is modelled as a functional update.
* Allocation failure, stack overflow, panics inside user code.
* Macro hygiene and token-level parsing by `syn`. Derive macros are modelled from the parsed AST on.
* `preserve_order` (insertion-ordered maps), except where a theorem quantifies over any entry order.
* Floating point rounding. A JSON number is an integer or a rational.
* Regular expressions are an abstract matching oracle, except for literal patterns (C52).
* `format` is an annotation, as in the JSON Schema default.

## 2. Layout

| module | content |
| --- | --- |
| `Verif/Json.lean` | JSON values and the sorted map |
| `Verif/Text.lean`, `Verif/Encoding.lean`, `Verif/Pointer.lean` | strings, `encoding.rs`, `serde_json` pointers |
| `Verif/Schema.lean`, `Verif/SerOrder.lean` | `schema.rs` |
| `Verif/Traverse.lean`, `Verif/Transform.lean` | `transform.rs` |
| `Verif/Generator.lean` | `generate.rs` |
| `Verif/Serde.lean`, `Verif/Infer.lean` | serde's data model and `serde_json`; `ser.rs` |
| `Verif/Private.lean`, `Verif/Impls.lean` | `_private/mod.rs`, `json_schema_impls/*` |
| `Verif/TypeIds.lean` | `schema_name` and `schema_id` of `json_schema_impls/*` and of derived types |
| `Verif/Bound.lean` | `schemars_derive/src/bound.rs`: the type params in the id of a derived type and those with a bound; the types and expressions a derived schema is made of |
| `Verif/Rustdoc.lean`, `Verif/RenameFormat.lean` | `_private/rustdoc.rs`, `schemars_derive/src/name.rs` |
| `Verif/DeriveAttrs.lean`, `Verif/ValidationAttrs.lean` | `schemars_derive/src/attr` |
| `Verif/AttrMeta.lean`, `Verif/Spec/AttrMeta.lean`, `Verif/Lemmas/AttrMeta.lean` | `schemars_derive/src/attr/{mod,parse_meta,validation,doc}.rs`: reading the items of the attributes |
| `Verif/Item.lean`, `Verif/Spec/Item.lean` | `schemars_derive/src/ast/{mod,from_serde}.rs`, `lib.rs`: from a declaration with its attributes to the container that the schema is made from; serde's library for reading its attributes (`serde_derive_internals`, not part of the repository) is modelled from its documentation |
| `Verif/Spec/Obeys.lean`, `Verif/Lemmas/Obeys.lean` | what the validation attributes ask of values (`Obeys`), and that they keep what obeys them (`Restricts`) |
| `Verif/Spec/Pattern.lean`, `Verif/Props/Patterns.lean` | regular expressions with their text and meaning, the grammar of semantic versions; what the fixed patterns match (C76) |
| `Verif/Spec/Accepted.lean`, `Verif/Props/Accepted.lean` | which serde attributes are well formed and fit together; the declarations the derive macro accepts (C77) |
| `Verif/Settings.lean`, `Verif/Spec/Preset.lean`, `Verif/Props/RootDocument.lean` | the methods of the settings and the macros `schema_for!`, `schema_for_value!`; what the documents of the provided settings have at the top (C78) |
| `Verif/Props/IsOption.lean` | which types say that they are options (C46) |
| `Verif/Repr.lean`, `Verif/Spec/Repr.lean`, `Verif/Props/Repr.lean` | `derive(JsonSchema_repr)`; discriminants of enums (C79) |
| `Verif/Props/Versions.lean` | C45, C64 and C65 for all provided settings at once; that their documents accept the same (C80) |
| `Verif/Props/VersionsWrapped.lean` | The same for types behind wrappers |
| `Verif/Number.lean`, `Verif/Props/Number.lean` | the numbers of `serde_json` with and without `arbitrary_precision`, `Schema::validate` with its errors (C85) |
| `Verif/Panics.lean`, `Verif/Props/Panics.lean` | the transforms with their panics (C86) |
| `Verif/SchemaType.lean`, `Verif/Props/SchemaType.lean` | `json_schema!` and `JsonSchema for Schema` (C81) |
| `Verif/Spec/OpenApi.lean`, `Verif/Lemmas/OasPlan.lean`, `Verif/Props/OpenApi.lean`, `Verif/Props/OpenApiTypes.lean` | Schema Objects of OpenAPI 3.0; what the transforms of the `openapi3` settings can express in it (C82) |
| `Verif/Lemmas/GeneratorCongr.lean`, `Verif/Props/CrateTypes.lean`, `Verif/Props/CrateTypesMore.lean`, `Verif/Props/CrateVersions.lean`, `Verif/Props/CrateResolves.lean` | runs depend only on the types that are asked for; the documents of the crate's own types and what their root schemas accept (C83) |
| `Verif/Props/AcceptsNever.lean` | options of types without values (C45) |
| `Verif/Props/Programs.lean` | programs whose types have the ids of the crate (C84) |
| `Verif/Props/WhereClause.lean` | the bounds of derived implementations (C75), over `Verif/Bound.lean` |
| `Verif/Spec/Source.lean`, `Verif/Lemmas/Strip.lean` | programs in source form, what serde makes of them without schemars (`Seen`), and what schemars does (`Derives`); that writing and reading do not depend on annotations |
| `Verif/Spec/Settled.lean` | items with the schemars attributes written as serde attributes (`settled`) |
| `Verif/Spec/Outcome.lean` | what a schema is without a generator (`Outcome`), and which types it needs (`Needed`) |
| `Verif/Spec/TwoWay.lean` | types that serde writes and reads alike (`TwoWay`) |
| `Verif/Spec/ItemAttrs.lean` | what the annotations of an item, its variants and fields mean (`ItemSays`, `SourceSays`) |
| `Verif/Derive.lean` | the rest of `schemars_derive` |
| `Verif/Delegate.lean` | `get_transparent_type` and the delegating implementation of `schemars_derive/src/lib.rs`, `forward_impl!` and `wrapper.rs` |
| `Verif/Spec/*` | specifications that do not mention the model |
| `Verif/Lemmas/*` | helper lemmas |
| `Verif/Props/*` | one theorem group per property, with `example`s showing that hypotheses can be met |

## 3. Modelling choices

* **JSON.** `Json` is an inductive type with `null, bool, num, str, arr, obj`. An object is a list of pairs.
  `insert` keeps the list sorted, `remove` filters, `get` finds the first match. The map laws hold for all
  lists. Theorems about serialized order assume only that keys are distinct.
* **Schema.** A `Json` that is a bool or an object. API functions that can panic return an explicit
  outcome. Transforms are total functions on `Json`. On values that are neither object nor bool (which the
  type invariant forbids) they do nothing.
* **Traversal.** `transform_subschemas` is a stateful traversal `σ → Json → Json × σ`. Recursive transforms
  are defined by structural recursion and proved to satisfy the equation in the code
  (`T s = local (transform_subschemas T s)`).
* **Generator.** User implementations of `JsonSchema` are arbitrary programs: a free monad over the
  generator API with arbitrary Lean continuations. The interpreter takes fuel for nested type calls.
  Invariants are proved for every program family and every fuel. Termination is proved separately.
  A ghost log records every call, so that theorems can speak about references handed out at any depth.
* **Semantics.** `Spec.den D env s i` computes whether the instance `i` is valid against `s` and which
  property names count as evaluated. The dialect `D` (draft-07, 2019-09, 2020-12, OpenAPI 3.0) is a
  parameter. References, regular expressions and unknown keywords are arbitrary functions in `env`.
  Theorems hold for every `env`, so they cover recursive schemas.

## 4. Plan for each property

| id | what is modelled | how it is proved |
| --- | --- | --- |
| C01 | `encode_ref_name`, `percent_decode`, pointer unescape | False for names with bytes below 0x10 (`{:2X}` pads with a space): refuted by a witness. Proved for all names without such bytes by induction over bytes, and for exactly those (`C01_iff`, `C01_decoded`) |
| C02 | `encode_ref_name` | Same split: refuted for bytes below 0x10, proved otherwise by induction; exactly then (`C02_iff`) |
| C03 | `percent_decode` | Independent recursive specification. `+` signs accepted by `from_str_radix` are a deviation: refuted in full, proved when no `%+` occurs; `C03_iff` says exactly when the two agree |
| C04 | `subschema_for` refs, `add_definitions`, `json_pointer_mut`, `Schema::pointer` | Round trip composed with pointer walk. Needs path segments that are plain. Refuted for paths that are not rooted. `C04_lookup` says what the reference for any name finds, `C04_iff` when it is the right definition |
| C05 | path stripping, `json_pointer_mut`, `add_definitions` | Induction on path segments |
| C06 | API history as list of operations | Refuted (`pointer_mut("")`). Proved for histories without root replacement |
| C07 | `validate`, `TryFrom` | Case analysis |
| C08 | `insert/get/remove/ensure_object` | Map laws by induction on the list |
| C09 | `ensure_object` | Against the semantics |
| C10 | `pointer`, `pointer_mut` | Independent RFC 6901 path walk. The "None for bool" claim is refuted for the empty pointer |
| C11, C12 | `OrderedKeywordWrapper` | Output is a permutation at each level, sorted by spec rank |
| C13 | `transform_subschemas` | Spec by location list. Frame property |
| C14 | `RecursiveTransform` | Equation and reachability induction |
| C15–C20 | each transform | Syntactic part by induction over reachability, semantic part by induction on schema against `Sem`. For C18 also the meaning of the result for every schema (`C18_exact`): two post-order transforms agree if their steps do on objects with the same view (`den_postOrder₂`) |
| C21 | `ReplaceUnevaluatedProperties` | Syntactic part, monotonicity of validity. Refuted where names come from `$ref` targets or patterns |
| C22 | `RestrictFormats` | Independent scoped specification |
| C23 | settings pipelines | Composition of closure properties. Refuted where traversal misses a keyword |
| C24 | all transforms | Local idempotence lifted |
| C25–C31, C36, C37 | generator state machine | Invariants by induction on fuel and program |
| C32, C33 | `root_schema_for` | Direct, from the interpreter |
| C34, C35 | multi-root `#`, `Clone` | Refuted by concrete histories. `#`: single-root histories, and earlier roots that do not mention themselves. Clones: `C35_exact` for all names |
| C38, C39 | `ser.rs` | Induction on data-model values. Refuted for keys that need escapes |
| C40–C44 | std impls | Against `Sem`, for all inner schemas. `C41_iff` says for exactly which of them `Option` adds null and nothing else |
| C45 | derive, standard types, generator | `Spec/Serde.lean` says what serde writes for a declaration. One induction over the run of the generator gives that every schema of a run is closed under `allow_null`, a second over the depth of serialization that every schema accepts what serde writes. The values of fields obey their validation attributes (`Spec/Obeys.lean`), and the keywords of these attributes keep what obeys (`restricts_attrs`). `Resolves` says that references are followed; `resolves_exists` shows that this can be met for recursive documents. `Props/AcceptsFlatten.lean` keeps the names that each field of a struct may write apart, and each flattened enum looks at its own names only. `Props/AcceptsMap.lean` shows that a flattened map only adds `additionalProperties` to the schema of the rest of the struct. The settings with transforms follow from C58: every schema of a run is `Tidy` (`Lemmas/Tidy.lean`, `Lemmas/TidyFlatten.lean`, `Lemmas/TidyDerive.lean`), so the transforms keep its meaning, and C57 finds the transformed definitions (`Props/AcceptsPipelines.lean`).. The names of the definitions may need escaping in references, but `%`, `~`, `/` and characters below U+0010 are excluded (`PlainName`) |
| C46–C48 | derive | Program built from a container AST |
| C49–C51 | `_private` helpers | Against `Sem` |
| C52 | regex escape | Against a grammar and matching relation for ECMAScript patterns, with and without the `u` flag |
| C53 | rustdoc | Induction on characters; `Splits` has at most one answer, so the code computes exactly it (`C53_iff`) |
| C54, C55 | derive attribute merging, rename formats | List induction |
| C56 | `RestrictFormats` without a known `$schema` | Refuted by a witness, proved for an unknown `$schema` |
| C58 | the transform lists of the provided settings | Composition of the single transforms, for schemas whose keywords do not interact (`Tame`) |
| C57 | `root_schema_for` with the provided settings | Each transform commutes with its action on the definitions member. Refuted for `openapi3` |
| C59 | names, ids and bodies of the crate's types and of derived types | The id is the text of a tree of words and brackets. Such a text can be read back (`Lemmas/Trees`), by induction on two trees at once, so ids are injective. Refuted where words touch |
| C60 | syntax of types, the visitor of bound.rs, the sources of a derived schema | Types are interpreted over any algebra, with any arguments for the type params. Induction on types: arguments that agree on what the visitor finds give the same meaning. Each source is a type that is visited, or is on the list of exceptions. With C59: equal ids give equal sources. |
| C61 | generator, derive, standard types, the transforms of three settings | `Spec/MetaSchema.lean` is a table of what the meta-schemas ask of each keyword. One induction over the run of the generator (as for C45): every schema is valid and, where it can be flattened, merges with others into valid schemas. Each transform turns what all versions ask into what its target version asks. A parameter says whether names in `required` must differ; if so, no field may be flattened, and the loop over the fields keeps that the names to come are not required yet (`NotRequired`). Refuted in full. |
| C62 | `Verif/AttrMeta.lean` | The loops over the items are one function `runItems`. For each setting: once it is set it stays (`Sets`), so the first item counts. For the errors: a run without errors is one in which every item is well formed and the settings are distinct (`strict_run`). `inner(…)` by induction over the items |
| C63 | C54, C62 | The effective serde items are the same (by C54, uniqueness of `Kept`), and the items `!k` are not looked at by any reader |
| C64 | as C45 | `Spec/Deser.lean` says what serde reads for a declaration, as the smallest relation closed under its rules; `Quirks` says how much beyond the documented forms is counted. `Way b v r` is one of the two directions of `v ↔ r`, so that the lemmas for structs, enums and standard types serve C64 and C65. C64 by induction over reading. The flattened fields are read one after the other from the members that are left (`ReadFlattened`); `fields_way` goes through the fields of the struct and through `ReadFlattened` at the same time. With flattened enums (`Props/ReadsWide.lean`) the schema is `allOf` of the struct and one part per enum: `wide_step` takes one field from both sides. A flattened map (`Props/ReadsMap.lean`) gets what a struct with the other fields would deny, so `map_way` is `fields_way` for that struct and one step for the map. `Read` is asked of each field through a relation `F`, so that `ReadIf` can also ask that the value obeys the validation attributes (`FieldRead`); the lemmas do not look into `F` |
| C65 | as C64 | Induction over the size of the document, and for the types read from the same document over a rank (`Grounded`: no type is an option, newtype, flattened field or untagged variant of itself without end). For the settings with transforms as C45: the schemas for reading are tidy too (`level_tidy`) |
| C66 | derive, generator | A program is the source of its implementations (`Source`). `Lemmas/Rename.lean` runs the generator on two families related by a function on types: `Mirrors` says that two partial results agree up to the names of types in the ghost log, and is closed under each call. Bodies of declarations with types replaced are the renamed bodies. Runs with more depth have the same results (`run_mono`), and `limit` collects the results at any depth, for the direction where the program with wrappers needs more depth. `Props/DelegateAccepts.lean` carries C45, C64 and C65 over to programs with wrappers |
| C67 | derive | `Spec/Annotations.lean` says which keyword an attribute is for (`Says`), and when a schema has what the attributes say and is otherwise another schema (`Carries`). Each statement made from the attributes is a `Sets1`; the list of statements is followed through the container, the fields of structs and tuples, and the variants. That answers are schemas is an invariant of the generator (`schema_runs`). Refuted for flattened fields |
| C68 | `Verif/Item.lean` | `Spec/Item.lean` says what each attribute means, with the list of items in effect (C54). The loops of serde's library are one function `serdeLoop`; for each variable there is a lemma on what one item does to it (`FieldStepped`, `VariantStepped`, `ContainerStepped`), and `loop_bool`/`loop_opt` give the result of the loop. |
| C69 | `Verif/Item.lean` | `Spec/Item.lean`: the value of a missing field (`missingValue`), what is written for a value (`writtenValue`). The variables for `default`, `skip_serializing_if` and `serialize_with` are known exactly from C68's loops; then by cases. |
| C70 | `Verif/Item.lean`, `Verif/Spec/Source.lean` | If no attribute disturbs serde's, the items that schemars hands to serde's library have the same effect as those written (`serdeContainer_same`); then the container of the schema is the one of serde, except for annotations (`C70_same`). `Serialized` and `Read` do not depend on annotations (`Lemmas/Strip.lean`), so that C45, C64 and C65 carry over. |
| C71 | `Verif/Item.lean`, `Verif/Spec/Settled.lean` | For one list of attributes, the items in effect and what is read by schemars itself are the same before and after (`SameAttrs`, with C54 and C63). What serde's library and schemars make of an item is natural in the attributes (`serdeContainer_map`, `deriveItem_map`). Success means that no list of attributes has errors (`derive_no_errors`) |
| C72 | `Verif/Item.lean`, `Verif/Spec/ItemAttrs.lean` | C62 for each list of attributes (`deriveField_reads` and the like), the values of what is read (`common_says`, `evaluates`), and the same walk over the item as for C71. The keywords in the source are those that C67 talks about (`C72_written`), so that C67 gives the schemas |
| C73 | generator | `Outcome` evaluates a body without state. Running a body adds to the definitions only the outcomes of needed types, each with the definitions of the types it refers to (`Tracks`), by induction over depth and outcome; for a run that starts without definitions these are exactly the needed ones (`Tracks.exact`) |
| C74 | serde, derive | For a relation closed under the rules for reading, by induction on the depth of writing: each form that is written is one of the documented forms that are read. A field finds its member because the names claimed by the fields are apart; a flattened field sees exactly the members that were written for it (`enc_flattened`). Then C64 |
| C75 | where clause of derived implementations | Spec: which types follow from a list of predicates, for any set of implementations. Induction on that derivation: what the visitor finds is enough. Converse in a program where every implementation asks for all components |
| C76 | fixed patterns | Spec: syntax trees of patterns with their text and meaning, the grammar of semantic versions. The texts are compared with the source by evaluation; the readings are parses by the grammar of ECMA-262; then languages, by the shape of the patterns |
| C77 | accepted declarations | Spec: a table of words for containers, variants and fields, with the form of what follows and the slots it fills; conditions on the declaration. One lemma relates any table to the reading loop, by induction over the items; the three readers are instances; the checks of the declaration follow by cases. |
| C78 | root documents | Spec: the published URIs, places of definitions and keywords for examples. From C32 and the action of each transform on one member of an object; for values from the shape of inferred schemas (C39), which says where titles are. |
| C79 | `JsonSchema_repr` | Spec: the discriminants of an enum by position, and the numbers of an integer type. The discriminants are unique; the cast does nothing to numbers of the type; then C48 and C77. |
| C80 | settings agree | From C64 and C65 for each of the settings: what both schemas accept is what serde reads. |
| C81 | type `Schema` | Evaluation of the one-keyword schema; case analysis of the wrapped value. |
| C82 | OpenAPI 3.0 | A class of schemas for each stage of the pipeline; each transform leads from one to the next, by induction on the schema. For types: the generator stores and returns only schemas of that class, by induction on the calls. |
| C83 | the crate's own types | Spec: the documents of each type, by recursion on the type. The proofs are for a set of types that has the parts of its types and whose ids tell its types apart (`Crates`): the types without `ArrayVec` (`crate_inj`), or the parts of one type if their ids differ. So a definition belongs to one type; then induction on the type, with the exact readings of C40-C44, C76. A key schema in a map is treated by its form. |
| C84 | programs with the ids of the crate | A program gives each of its types a type of `Verif/TypeIds.lean` and a declaration. Runs over the two kinds of types are the same up to renaming (`Verif/Lemmas/Rename.lean`), ids tell types apart by C59, and C45, C64, C65 and C80 apply. |
| C85 | reading a value as a schema | Case analysis of the value and of the representation of its number; bounds of the integer types against the range of `f64`. |
| C86 | panics of transforms | The steps once more, with `none` for a panic; case analysis. `has_type` and a removed keyword tell that the schema is an object. |

Findings (properties that are false of the code) are listed in section 5 as they are proved.

## 5. Findings

Each item is a statement that fails of the code, with the theorem that shows it.

| id | finding | theorem |
| --- | --- | --- |
| C01, C02 | A type name with a character below U+0010 is encoded with a padding space (`{byte:2X}`), so its reference is no legal URI and does not decode back | `C01_refuted`, `C02_refuted` |
| C03 | `%+A` is accepted as a percent escape, because `u8::from_str_radix` takes a sign | `C03_refuted` |
| C04 | References do not resolve when the definitions path is not rooted or contains a percent escape; the reference for the name U+0001 finds the definition named `% 1` | `C04_refuted_unrooted`, `C04_refuted_percent`, `C04_confused` |
| C06 | `pointer_mut("")` hands out the root value, so a `Schema` can become a number | `C06_refuted` |
| C10 | `pointer("")` on a bool schema is not `None` | `C10_bool_refuted` |
| C14 | `RecursiveTransform` does not end when the function adds subschemas | `C14_diverges` |
| C15 | With `skip_additional_properties` the whole subtree at `additionalProperties` keeps its bool schemas | `C15_Full_false` |
| C16 | `RemoveRefSiblings` loses the reference when `allOf` is not an array | `C16_valid_Full_false` |
| C18 | `ReplaceConstValue` overwrites an existing `enum` | `C18_valid_Full_false`, `C18_exact` |
| C19 | An `additionalItems` that had no meaning beside `prefixItems` gains one | `C19_valid_Full_false` |
| C20 | A `nullable` that was there before gains meaning; malformed `type` arrays keep null | `C20_valid_Full_false`, `C20_Full_false` |
| C21, C23, C24 | Nested `unevaluatedProperties` survives `ReplaceUnevaluatedProperties`, which is therefore not idempotent | `C21_Full_false`, `C23_draft07_false`, `C24_replaceUneval_false` |
| C23 | With 2019-09 settings, `prefixItems` below `unevaluatedProperties` survives | `C23_draft2019_false` |
| C29 | A cycle of inlined types never ends | `C29_inline_cycle` |
| C32 | When the type's own schema has a non-object at the definitions path, all definitions are dropped | `C32_Full_false` |
| C34 | On a generator used for several root types, `"$ref": "#"` can denote the wrong type | `C34_Full_false` |
| C35 | A cloned generator keeps definitions but forgets whose they are, so a type of the same name is confused with another | `C35_Full_false` |
| C56 | `RestrictFormats` removes formats when `$schema` is missing, against its documentation | `C56_Full_false` |
| C57 | With `openapi3` settings no transform reaches the definitions (`components` is not traversed) | `C57_openapi3_untouched`, `C57_Full_false` |
| C38 | NaN and infinities are `null` in JSON but get `{"type": "number"}` | `C38_nan_false` |
| C38 | A `serialize_map` key is stripped of quotes but not of escapes, so the schema of one key can be put at another | `C38_key_false` |
| C41 | `allow_null` turns `{"const": null}` into `{}`; beside `const`, an `enum` is lost; `{"not": {"type": "null"}}` is left as it is | `C41_Full_false`, `C41_const_enum`, `C41_rejects_null` |
| C58 | The OpenAPI 3.0 transforms change the meaning of `const` beside `enum` | `C58_Full_false` |
| C43 | A map looks up the definition of its key type by the escaped text of the reference: with an escaped name any key is allowed, or another type's definition is used | `C43_escaped_ignored`, `C43_Full_false` |
| C44 | The schemas of `Result` and `Bound` accept objects with further members, which serde rejects | `C44_Full_false` |
| C51 | A validation attribute replaces an existing bound even if it is looser: `range(max = 1000)` on `u8` accepts 300 | `C51_full_fails` |
| C52 | With the `u` flag, which JSON Schema recommends for `pattern`, the escapes of `# & - ~` are syntax errors | `C52_unicode`, `C52_unicode_fails` |
| C53 | The doc comment `#` has no title | `C53_title_fails` |
| C54 | `#[schemars(skip_serializing)]` does not override `#[serde(skip)]` | `C54_skip_serializing_keeps_skip` |
| C55 | The check of rename formats accepts `}{{}`; only the generated `format!` rejects it | `C55_function_alone_fails` |
| C49 | Flattening schemas that declare the same name keeps only the second schema of the name; of two references or two `additionalProperties` only the first is kept | `C49_full_fails`, `C49_same_name`, `C49_two_refs`, `C49_two_maps` |
| C50 | A flattened `Option` of a struct that flattens two enums still requires members of both; the target of a reference is neither made optional nor relaxed | `C50_optional_full_fails`, `C50_two_enums`, `C50_two_kinds`, `C50_reference_unchanged` |
| C48 | Two variants with one name and type make `oneOf` reject what serde writes for either | `C48_same_name` |
| C48 | The schema of an internally tagged newtype variant that refers to a schema which denies unknown members accepts nothing | `C48_internal_reference` |
| C45 | serde leaves out elements of tuple structs with `skip_serializing_if`; the schema still wants them | `C45_Full_false` |
| C45 | serde writes a newtype variant with a `skip_serializing` field as a unit variant; the schema wants the content | `C45_skipped_content` |
| C45 | A newtype variant of an internally tagged enum around a unit variant of another enum: serde writes `{"t": "V", "Unit": null}`, the schema accepts nothing | `C45_tagged_unit` |
| C45 | A flattened struct with `skip_serializing_if` still requires its members | `C45_flatten_if` |
| C21 | `ReplaceUnevaluatedProperties` rejects valid instances: it overwrites an existing `additionalProperties` | `C21_valid_Full_false`, `C21_valid_open` |
| C21 | The same for names that come from `patternProperties` of an in-place subschema, from `dependentSchemas` or from a `$ref` target | `C21_valid_pattern`, `C21_valid_dependent`, `C21_valid_ref` |
| C21 | The same under `not`, since elsewhere the result accepts more than before | `C21_valid_not` |
| C59 | The ids of const arguments are not separated: `Grid<1, 23>` and `Grid<12, 3>` share one definition | `C59_consts`, `C59_merged` |
| C59 | The same for type arguments: `Pair<m::A, mm::B>` and `Pair<m::Am, m::B>` | `C59_args` |
| C59 | `ArrayVec<T, CAP>` has no id of its own: its name, with the name of `T`, is used. Generic types over `ArrayVec`s of types with one name collide | `C59_arrayVec` |
| C59 | The id of a derived type uses the name from `rename` (and `module_path!()`, which omits functions and crate versions), so two types of a module renamed alike share one definition | `C59_renamed` |
| C60 | Type params in `from`/`try_from`/`into`, or in `with` of a container or variant, are not in the id: `#[serde(from = "Vec<T>")] struct S<T>` whose fields do not mention `T` otherwise has one id and one definition for all `T` | `C60x.C60_conversion`, `C60x.C60_container`, `C60x.C60_variant` |
| C60 | The same for type params in `schema_with = "f::<T>"` and in `extend`, `default` and other expressions | `C60x.C60_function`, `C60x.C60_extension`, `C60x.C60_default` |
| C60 | The visitor skips every path that ends in `PhantomData`, also `my::PhantomData<T>` and `T::PhantomData`, and macros | `C60x.C60_phantom`, `C60x.C60_assoc`, `C60x.C60_macro` |
| C45 | The definitions of the `openapi3` settings are not transformed: for `#[serde(tag = "t")] enum E { A(X), B(X) }` with `struct X(Y)` as a field, the variants are told apart by keywords beside `$ref` only, which OpenAPI 3.0 ignores. All values are rejected | `C45_openapi3_false` |
| C61 | An enum whose variants are all skipped under the contract gets `"oneOf": []`, which no meta-schema allows (and nothing says that it has no values) | `C61_Full_false` |
| C61 | `#[serde(flatten)]` of a struct with a field of the same name puts the name into `required` twice. The meta-schemas ask for distinct names | `C61_repeated` |
| C45 | A flattened enum with a documented unit variant: serde writes `{"A": null}`, but `remove_unit_variants` only finds the variants in `enum`, and the schema of the variant still wants the string `"A"` | `C45_flatten_documented` |
| C45 | A flattened enum `E { A, B(u32) }` beside a field `B`: serde writes `{"A": null, "B": 1}`, which both alternatives of `oneOf` accept | `C45_flatten_overlap` |
| C45 | `#[serde(skip_serializing_if)] x: u32` beside a flattened `HashMap<String, String>`: serde may leave out the field and write the key `x` of the map, which the schema rejects | `C45_flatten_left_out` |
| C45 | Two flattened maps: `flatten` keeps only the `additionalProperties` of the first one, and the values of the second are rejected | `C45_flatten_two_maps` |
| C45 | `deny_unknown_fields` with a flattened map: the schema keeps `"additionalProperties": false` and rejects every entry of the map. serde calls the combination unsupported, but it compiles | `C45_flatten_denied` |
| C63 | `#[schemars(!with)]` does not make schemars ignore `#[serde(with = "…")]`: it is always an error, as `with` is also an item of schemars. `!serialize_with` is reported as unknown, although it is in the list of keywords that can be unset | `C63_field_with`, `C63_variant_with` |
| C63 | `#[schemars(!rename)]` on a container is always an error, although the documentation offers it for any serde attribute | `C63_container_with` |
| C62 | `#[schemars(transform = "…")]` with a string that is no expression is accepted, and has no effect (a string that is one is reported) | example in `Props/AttrMeta.lean` |
| C62 | `inner(required)`, and keywords of serde such as `inner(rename = "…")`, are accepted and have no effect | examples in `Props/AttrMeta.lean` |
| C62 | `inner(!email)` is accepted and has no effect, but after `email` it is reported as a duplicate | example in `Props/AttrMeta.lean` |
| C62 | `#[validate(required(message = "…"))]`, which validator allows, is an error, while the formats may have arguments | example in `Props/AttrMeta.lean` |
| C64 | The names of `#[serde(alias = "…")]` are not in the schemas for deserialization, and with `additionalProperties: false` or `required` the documents are rejected. The attribute is not read at all | `C64_alias` |
| C64 | The tags that `#[serde(other)]` catches are rejected by the schema | `C64_other` |
| C64 | serde reads `enum T { V(#[serde(skip_deserializing)] u32) }` from `"V"`, the schema wants `{"V": 1}` (the documented form, and also the one it writes for `skip`) | `C64_skipped_content` |
| C64 | `None` is read for a missing member whose type is a `transparent` struct with a doc comment around an `Option`, or is read `from` an `Option`; the schema requires it | `C64_transparent_option`, `C64_from_option` |
| C64 | A newtype variant around an `Option` of an adjacently tagged enum is read also without the content, which the schema requires | `C64_adjacent_option` |
| C64 | With `deny_unknown_fields`, serde still ignores further members beside the tag of a unit variant (internally tagged) and reads the content null (adjacently tagged); the schemas do not | `C64_tagged_deny`, `C64_adjacent_null` |
| C64 | `struct T(u32, #[serde(default)] u32)` is read from an array with one element; the schema wants two | `C64_tuple_default` |
| C64 | serde reads structs (and `Duration`, `Range`) from arrays, unit variants from `{"A": null}` and sets with repeated elements; the schemas accept only the documented form | `C64_Full_false`, `C64_duration_array`, `C64_unit_object`, `C64_set` |
| C64 | `rust_decimal` reads `"1e-7"`, which the pattern of the schema for deserialization does not match, although it allows an exponent | `C64_decimal_exponent` |
| C65 | The schema of `Result` accepts `{"Ok": 1, "x": 2}`, and those of `Range` and `Duration` further members. serde rejects them; other enums have `additionalProperties: false` | `C65_result`, `C65_range` |
| C65 | The schema of a unit variant of an adjacently tagged enum accepts every content, serde only null | `C65_adjacent_content` |
| C65 | The pattern of integer keys of maps accepts `007`, which `serde_json` does not read | `C65_map_key` |
| C65 | The bounds of `u32` are only in the `format`, and `1.0` is an integer for JSON Schema but not for serde | `C65_Full_false`, `C65_float` |
| C64 | An optional flattened field is `None` if its members have the wrong types (serde drops the error); the schema rejects them, since the properties of the flattened struct stay | `C64_flatten_optional` |
| C64 | A flattened externally tagged enum is read from the first member that names a variant, the others are ignored; with members for two variants `oneOf` fails | `C64_flatten_enum` |
| C65 | With `deny_unknown_fields` on a struct whose flattened field has flattened fields itself, serde reads no document at all that has members for them; the schema accepts them | `C65_deny_nested` |
| C65 | `deny_unknown_fields` of a flattened struct is dropped from the schema, but serde obeys it if the struct has flattened fields itself | `C65_nested_deny` |
| C65 | If a field has the same name as a required one of a flattened struct, serde never reads the struct; the schema accepts the documents where one member serves both (and lists the name twice in `required`) | `C65_flatten_name` |
| C67 | The doc comment and the other attributes of a flattened field are dropped | `C67_Full_false`, `C67_flattened` |
| C67 | The title and description of a flattened struct become those of the outer struct if it has none | `C67_inherited` |
| C67 | `extend("default" = …)` on a field with a serde default is replaced by the serde default | `C67_default` |
| C64 | An optional flattened map is `None` if a value of it has the wrong type; the schema rejects the document | `C64_flatten_map` |
| C65 | A flattened map with values of a type without values (`enum E {}`, schema `false`): serde rejects every further member, but `AllowUnknownProperties` drops `additionalProperties: false`, so that the schema accepts them | `C65_flatten_never` |
| C65 | A flattened map before a flattened struct reads the members of the struct too and fails if they are not of its type; in the schema `additionalProperties` does not apply to them | `C65_flatten_map` |
| C70 | `#[serde(tag = "…")]` on a struct: serde writes the tag as a member; `schemars_derive` ignores the attribute, so that the schema does not have it, and rejects it with `deny_unknown_fields` | `C70_Full_false` |
| C70 | A `transparent` struct with one field that is only written and one that is only read: serde writes the first; the schema is that of the second, also for the `Serialize` contract, since `from_ast` asks serde's library for `Derive::Deserialize` | `C70_halves` |
| C66 | `#[serde(transparent)] #[schemars(schema_with = "f")] struct W(u32);`: `get_transparent_type` only looks at `with`, so the type delegates to `u32` and `f` is never called | `C66_schema_with` |
| C65 | As C51, for documents: with `#[schemars(range(max = 1000))] x: u8` the schema accepts `{"x": 300}`, which serde does not read | `C65_validation` |
| C73 | A map whose key type is an enum with a reference to a type that is being generated allows all keys; generated in another order it allows only the keys of that type | `C73_keys` |
| C74 | A field with `skip_serializing_if` but without `default` is required by the schema under the (default) `Deserialize` contract, though serde leaves it out: documents written by serde are rejected by the schema, and by serde | `Rd.C74_Full_false` |
| C75 | Types in `with` on a variant and of `from`/`into` are not searched for type params: `enum E<T> { #[schemars(with = "T")] A(String) }` does not compile without a declared bound | `C75_variant`, `C75_conversion` |
| C75 | `#[serde(bound = ..)]` on a field is dropped if the `rename` format string mentions all type params | `C75_dropped` |
| C45 | NaN and infinities are written as `null`, which the schemas of `f32` and `f64` reject | `C45_nonfinite` |
| C76 | The pattern of decimal numbers matches no negative exponent, which `BigDecimal` writes for small numbers (`1E-10`) and reads | `C76_negative_exponent` |
| C79 | `JsonSchema_repr` on a container that delegates (`transparent`, `with`) checks neither for `repr` nor for an enum | `C79_unchecked` |
| C79 | `JsonSchema_repr` looks at the first `repr` attribute only: `#[repr(align(4))] #[repr(u8)]` and `#[repr(u8, align(4))]`, which Rust allows, are reported as missing `repr` or do not compile | example in `Props/Repr.lean` |
| C80 | With `inline_subschemas`, a map whose key type wraps a type with an escaped definition name accepts fewer keys than without | `C80_inline` |
| C82 | With the `openapi3` settings, tuples have an array as `items`, which OpenAPI 3.0 does not allow | `C82_tuple` |
| C82 | With the `openapi3` settings, maps with integer keys use `patternProperties`, which OpenAPI 3.0 does not have; a reader that ignores it rejects every map that is not empty, because of `additionalProperties: false` | `C82_map` |
| C82 | With the `openapi3` settings, bools stay below `additionalProperties`: a map of `Vec<Value>` has `items: true` | `C82_deep` |
| C82 | With the `openapi3` settings, root documents have `$schema`, which OpenAPI 3.0 does not have | `C82_root` |
| C82 | With the `openapi3` settings, decimals, `CString` and `Bytes` have an array as `type` for the deserialize contract, which OpenAPI 3.0 does not allow | `C82_decimal` |
| C82 | With the `openapi3` settings, the type `Schema` has an array as `type` | `C82_schema` |
| C83 | `ArrayVec<T, N>` has no `schema_id`, so its id is its name, and the names of tuples are ambiguous: `((A, B), C)` and `((A, B, C),)` have one name. `Bound<ArrayVec<((A, B), C), 1>>` and `Bound<ArrayVec<((A, B, C),), 1>>` share one definition | `C83_Full_false` |
| C83 | Maps with keys of an unsigned `NonZero` type accept keys with a minus sign, maps with keys of an unsigned type do not | `C83_nonZeroKey` |
| C45, C64 | `Option` of an inlined enum without variants and with a doc comment: serde writes and reads null, the schema accepts nothing. `false` becomes `{"not": {}, "description": ..}`, to which `allow_null` adds nothing | `C45_never` |
| C83 | `Weak<T>` of the standard library has the schema of `T`, but serde writes and reads it like `Option<T>`: null for a value that is gone is rejected unless null is a document of `T` | `C83_weak` |
| C66 | `#[schemars(rename = "…")]` and `#[schemars(inline)]` on a `transparent` struct, or beside `with`, have no effect when the type delegates: name, id and inlining are those of the other type. A doc comment on the struct makes them count | `C66_answers`, `C66_ignored` |
| C66 | `#[serde(transparent)] struct W(#[serde(skip_serializing)] u32);` has no `writeOnly`, but has it with a doc comment: `FieldAttrs::is_default` does not look at the attributes of serde | `C66_write_only` |
| C76 | The schema of `semver::Version` accepts numbers of any length, such as `18446744073709551616.0.0`; `semver` reads numbers of 64 bits | `C76_semver_large` |
| C85 | With the feature `arbitrary_precision` of `serde_json`, reading `1e400` as a schema reaches the `unreachable!()` in `Schema::validate` and panics, instead of giving an error: `as_f64` gives nothing for numbers that are infinite as `f64`. The transforms also panic for such a number at the place of a subschema | `C85_iff`, `C85_visit`, `C85_Full_false` |
