{
 "claims": [
  {
   "property": "C01",
   "status": "partial",
   "theorems": [
    "Verif.C01_refuted",
    "Verif.C01_roundtrip_partial",
    "Verif.C01_denotes_partial",
    "Verif.C01_injective",
    "Verif.C01_decoded",
    "Verif.C01_iff"
   ],
   "note": "False as stated: a name containing U+0000..U+000F is encoded with a padding space (`{byte:2X}`) and does not decode back. Proved for every name without such characters, and proved (C01_iff) that exactly those names survive; C01_decoded says what every other name becomes; injectivity proved for all names."
  },
  {
   "property": "C02",
   "status": "partial",
   "theorems": [
    "Verif.C02_refuted",
    "Verif.C02_fragment_partial",
    "Verif.C02_no_slash",
    "Verif.C02_iff"
   ],
   "note": "Same padding space makes the result an illegal URI fragment. Proved for every name without U+0000..U+000F, and that exactly those give a legal fragment (C02_iff); absence of '/' proved for all names."
  },
  {
   "property": "C03",
   "status": "partial",
   "theorems": [
    "Verif.C03_refuted",
    "Verif.C03_no_percent",
    "Verif.C03_spec_partial",
    "Verif.C03_none_partial",
    "Verif.C03_iff"
   ],
   "note": "False as stated: `%+A` is accepted because u8::from_str_radix takes a sign. Proved equal to the RFC decoder for all inputs without a sign right after '%'; C03_iff says exactly for which inputs the two agree."
  },
  {
   "property": "C04",
   "status": "partial",
   "theorems": [
    "Verif.C04_refuted_unrooted",
    "Verif.C04_refuted_percent",
    "Verif.C04_confused",
    "Verif.C04_resolves_partial",
    "Verif.C04_lookup",
    "Verif.C04_iff",
    "Verif.C26_resolves"
   ],
   "note": "Fails for definition paths that are not rooted or that contain a percent escape. Proved for all rooted escape-free paths and all names without low control characters; for such paths C04_lookup says what the reference for any name finds, and C04_iff that it is the right definition exactly for those names."
  },
  {
   "property": "C05",
   "status": "proved",
   "theorems": [
    "Verif.C05_normalise",
    "Verif.C05_same_effect",
    "Verif.C05_target",
    "Verif.C05_frame",
    "Verif.C05_empty",
    "Verif.C05_obstructed",
    "Verif.C05_iff"
   ],
   "note": ""
  },
  {
   "property": "C06",
   "status": "partial",
   "theorems": [
    "Verif.C06_refuted",
    "Verif.C06_invariant_partial",
    "Verif.C06_constructors"
   ],
   "note": "`pointer_mut(\"\")` hands out the root value, so the invariant can be broken from safe code (witness). Proved for every sequence of API calls that does not write a non-schema through that hole."
  },
  {
   "property": "C07",
   "status": "proved",
   "theorems": [
    "Verif.C07_tryFrom"
   ],
   "note": ""
  },
  {
   "property": "C08",
   "status": "proved",
   "theorems": [
    "Verif.C08_insert",
    "Verif.C08_remove",
    "Verif.C08_bool_get",
    "Verif.C08_getMut",
    "Verif.C08_asObjectMut"
   ],
   "note": ""
  },
  {
   "property": "C09",
   "status": "proved",
   "theorems": [
    "Verif.C09_valid",
    "Verif.C09_idempotent"
   ],
   "note": ""
  },
  {
   "property": "C10",
   "status": "partial",
   "theorems": [
    "Verif.C10_pointer",
    "Verif.C10_pointer_bad",
    "Verif.C10_pointer_fragment",
    "Verif.C10_pointer_bad_utf8",
    "Verif.C10_pointerMut_isSome",
    "Verif.C10_pointerMut_read",
    "Verif.C10_pointerMut_frame",
    "Verif.C10_bool_refuted",
    "Verif.C10_bool_partial"
   ],
   "note": "The clause 'always None on a bool schema' is false for the empty pointer; everything else proved for all inputs."
  },
  {
   "property": "C11",
   "status": "proved",
   "theorems": [
    "Verif.C11_same",
    "Verif.C11_read_back"
   ],
   "note": ""
  },
  {
   "property": "C12",
   "status": "proved",
   "theorems": [
    "Verif.C12_order"
   ],
   "note": ""
  },
  {
   "property": "C13",
   "status": "proved",
   "theorems": [
    "Verif.C13_applied",
    "Verif.C13_frame",
    "Verif.C13_data",
    "Verif.C13_once",
    "Verif.C13_pure"
   ],
   "note": ""
  },
  {
   "property": "C14",
   "status": "proved",
   "theorems": [
    "Verif.C14_images",
    "Verif.C14_reaches",
    "Verif.C14_terminates",
    "Verif.C14_terminates_keep",
    "Verif.C14_diverges"
   ],
   "note": "The divergence of a transform that adds subschemas is also proved."
  },
  {
   "property": "C15",
   "status": "partial",
   "theorems": [
    "Verif.C15_no_bool",
    "Verif.C15_no_bool_partial",
    "Verif.C15_Full_false",
    "Verif.C15_skipped",
    "Verif.C15_valid"
   ],
   "note": "Validity proved for all schemas. Shape: full without skipping; with skip_additional_properties the whole subtree at additionalProperties is left alone (witness)."
  },
  {
   "property": "C16",
   "status": "partial",
   "theorems": [
    "Verif.C16_isolated",
    "Verif.C16_located",
    "Verif.C16_valid_partial",
    "Verif.C16_valid_Full_false"
   ],
   "note": "Shape proved for all schemas. Validity proved when `$ref` is a string, `allOf` an array, and subschemas that are not traversed have no siblings of `$ref` (witness for a malformed `allOf`)."
  },
  {
   "property": "C17",
   "status": "proved",
   "theorems": [
    "Verif.C17_no_examples",
    "Verif.C17_example",
    "Verif.C17_valid"
   ],
   "note": ""
  },
  {
   "property": "C18",
   "status": "partial",
   "theorems": [
    "Verif.C18_no_const",
    "Verif.C18_enum",
    "Verif.C18_valid_partial",
    "Verif.C18_exact",
    "Verif.C18_iff",
    "Verif.C18_valid_Full_false"
   ],
   "note": "Shape proved for all schemas. Validity proved when no schema has both `const` and `enum`, unless the `enum` has the value of the `const` (witness otherwise: `enum` is overwritten). C18_exact says what every other schema becomes: one that is equivalent to it without each `enum` beside a `const`."
  },
  {
   "property": "C19",
   "status": "partial",
   "theorems": [
    "Verif.C19_no_prefixItems_partial",
    "Verif.C19_Full_false",
    "Verif.C19_moved",
    "Verif.C19_valid_partial",
    "Verif.C19_valid_Full_false"
   ],
   "note": "Shape proved when no `prefixItems` is itself a schema (witness otherwise). Validity proved for schemas in the 2020-12 style (witness for one that mixes in `additionalItems`)."
  },
  {
   "property": "C20",
   "status": "partial",
   "theorems": [
    "Verif.C20_no_null_partial",
    "Verif.C20_Full_false",
    "Verif.C20_nullable",
    "Verif.C20_valid_partial",
    "Verif.C20_openapi_partial",
    "Verif.C20_valid_Full_false"
   ],
   "note": "Shape proved when no element of a `type` array is an array (witness otherwise). Validity proved when `nullable` is not used yet, types are well formed, and a null-only type has no other `const` (witness for an existing `nullable`). C20_openapi_partial: if the input is read as OpenAPI 3.0 too, an existing `nullable` does no harm."
  },
  {
   "property": "C21",
   "status": "partial",
   "theorems": [
    "Verif.C21_no_uneval_partial",
    "Verif.C21_Full_false",
    "Verif.C21_named",
    "Verif.C21_valid_partial",
    "Verif.C21_valid_Full_false",
    "Verif.C21_valid_open",
    "Verif.C21_valid_pattern",
    "Verif.C21_valid_dependent",
    "Verif.C21_valid_ref",
    "Verif.C21_valid_not"
   ],
   "note": "Nested `unevaluatedProperties` survives (witness, valid schema). Shape proved when it is not nested. Validity: proved that no valid instance becomes invalid, under the conditions in Spec.Loosens (no additionalProperties beside unevaluatedProperties, in-place subschemas that only use names, nothing to change under not/if/oneOf/dependentSchemas); without them it is refuted, with one witness per reason."
  },
  {
   "property": "C22",
   "status": "proved",
   "theorems": [
    "Verif.C22_restrict",
    "Verif.C22_no_new",
    "Verif.C22_valid"
   ],
   "note": ""
  },
  {
   "property": "C23",
   "status": "partial",
   "theorems": [
    "Verif.C23_draft07_partial",
    "Verif.C23_draft07_false",
    "Verif.C23_draft2019_partial",
    "Verif.C23_draft2019_false",
    "Verif.C23_openapi3_partial"
   ],
   "note": "Proved when `unevaluatedProperties` is not nested and `prefixItems`/`type` have the shape JSON Schema requires; witnesses for the failures."
  },
  {
   "property": "C24",
   "status": "partial",
   "theorems": [
    "Verif.C24_replaceBool",
    "Verif.C24_removeRefSiblings",
    "Verif.C24_setSingleExample",
    "Verif.C24_replaceConst",
    "Verif.C24_restrictFormats",
    "Verif.C24_addNullable_keep",
    "Verif.C24_addNullable_partial",
    "Verif.C24_replacePrefix_partial",
    "Verif.C24_replaceUneval_partial",
    "Verif.C24_addNullable_false",
    "Verif.C24_replacePrefix_false",
    "Verif.C24_replaceUneval_false"
   ],
   "note": "ReplaceUnevaluatedProperties is not idempotent on nested `unevaluatedProperties`; AddNullable and ReplacePrefixItems are not on malformed schemas. All others proved for all schemas."
  },
  {
   "property": "C25",
   "status": "proved",
   "theorems": [
    "Verif.C25_injective",
    "Verif.C25_stable",
    "Verif.C25_references",
    "Verif.C25_form"
   ],
   "note": "Stated for the name table and for every reference handed out, at any depth."
  },
  {
   "property": "C26",
   "status": "proved",
   "theorems": [
    "Verif.C26_call",
    "Verif.C26_history",
    "Verif.C26_resolves"
   ],
   "note": "References other than `#`. C26_resolves adds that they lead to the right definition through Schema::pointer in the root schema before transforms, under stated conditions on path and names."
  },
  {
   "property": "C27",
   "status": "proved",
   "theorems": [
    "Verif.C27_completed",
    "Verif.C27_no_placeholder"
   ],
   "note": ""
  },
  {
   "property": "C28",
   "status": "proved",
   "theorems": [
    "Verif.C28_reference",
    "Verif.C28_inline"
   ],
   "note": "Unchanged means all fields; the model's ghost log grows."
  },
  {
   "property": "C29",
   "status": "proved",
   "theorems": [
    "Verif.C29_terminates",
    "Verif.C29_bound",
    "Verif.C29_inline_cycle"
   ],
   "note": "A cycle of inlined types is also proved to diverge."
  },
  {
   "property": "C30",
   "status": "proved",
   "theorems": [
    "Verif.C30_balanced",
    "Verif.C30_idle",
    "Verif.C30_meaning"
   ],
   "note": ""
  },
  {
   "property": "C31",
   "status": "proved",
   "theorems": [
    "Verif.C31_kept",
    "Verif.C31_history"
   ],
   "note": ""
  },
  {
   "property": "C32",
   "status": "partial",
   "theorems": [
    "Verif.C32_root_partial",
    "Verif.C32_iff",
    "Verif.C32_Full_false"
   ],
   "note": "False when the type's own schema has a non-object at the definitions path: the definitions are dropped (witness). Proved otherwise, and that they are there exactly then (C32_iff), for every definitions path with a segment that is not `title` or `$schema`."
  },
  {
   "property": "C33",
   "status": "proved",
   "theorems": [
    "Verif.C33_same"
   ],
   "note": ""
  },
  {
   "property": "C34",
   "status": "partial",
   "theorems": [
    "Verif.C34_meaning",
    "Verif.C34_single_root_partial",
    "Verif.C34_several_roots_partial",
    "Verif.C34_Full_false"
   ],
   "note": "False for a generator used for several root types (witness). Proved for one root type, and for several if the earlier ones do not mention themselves; what `#` means when handed out is proved in general."
  },
  {
   "property": "C35",
   "status": "partial",
   "theorems": [
    "Verif.C35_exact",
    "Verif.C35_known_partial",
    "Verif.C35_distinct_names_partial",
    "Verif.C35_empty",
    "Verif.C35_Full_false"
   ],
   "note": "False when two types share a schema name, since a clone keeps the definitions but forgets the names (witness). C35_exact says what a reference of a clone leads to, whatever the names. The claim is proved when the name was free or that of the type (C35_known_partial), when names are distinct or there are no definitions yet."
  },
  {
   "property": "C36",
   "status": "proved",
   "theorems": [
    "Verif.C36_references",
    "Verif.C36_inline",
    "Verif.C36_definitions"
   ],
   "note": ""
  },
  {
   "property": "C37",
   "status": "proved",
   "theorems": [
    "Verif.C37_take",
    "Verif.C37_regenerated"
   ],
   "note": ""
  },
  {
   "property": "C56",
   "status": "partial",
   "theorems": [
    "Verif.C56_Full_false",
    "Verif.C56_unknown_partial",
    "Verif.C56_iff"
   ],
   "note": "The documented behaviour for a missing `$schema` is false; proved for an unknown `$schema`. C56_iff says exactly which formats are kept at every location: without any `$schema` those that are explicitly allowed."
  },
  {
   "property": "C38",
   "status": "partial",
   "theorems": [
    "Verif.C38_infer_partial",
    "Verif.C38_root",
    "Verif.C38_draft2020_partial",
    "Verif.C38_draft2019_partial",
    "Verif.C38_draft07_partial",
    "Verif.C38_openapi3_partial",
    "Verif.C38_into",
    "Verif.C38_examples",
    "Verif.C38_plainKeys",
    "Verif.C38_nan_false",
    "Verif.C38_key_false"
   ],
   "note": "False for NaN and infinities, and for map keys whose escaped text is another key (witnesses). Proved for all other values and all four provided settings, each in its own dialect; definitions already in the generator must be tame (C58)."
  },
  {
   "property": "C39",
   "status": "proved",
   "theorems": [
    "Verif.C39_titles",
    "Verif.C39_shape",
    "Verif.C39_noRef",
    "Verif.C39_seqItems",
    "Verif.C39_mapValues"
   ],
   "note": ""
  },
  {
   "property": "C58",
   "status": "partial",
   "theorems": [
    "Verif.C58_draft2019_partial",
    "Verif.C58_draft07_partial",
    "Verif.C58_openapi3_partial",
    "Verif.C58_Full_false"
   ],
   "note": "Proved for tame schemas. False for all schemas: `const` beside `enum`."
  },
  {
   "property": "C57",
   "status": "partial",
   "theorems": [
    "Verif.C57_drafts_partial",
    "Verif.C57_openapi3_untouched",
    "Verif.C57_Full_false"
   ],
   "note": "Proved for draft07, draft2019_09 and draft2020_12. False for openapi3: `components` is not traversed, so definitions are left exactly as generated (proved, with witness)."
  },
  {
   "property": "C41",
   "status": "partial",
   "theorems": [
    "Verif.C41_partial",
    "Verif.C41_iff",
    "Verif.C41_exact",
    "Verif.C41_exact_inPlace",
    "Verif.C41_mono",
    "Verif.C41_ref",
    "Verif.C41_nested",
    "Verif.C41_Full_false",
    "Verif.C41_rejects_null",
    "Verif.C41_const_enum"
   ],
   "note": "False for some inner schemas (`const: null`, `const` beside `enum`, another keyword that rejects null; witnesses). Proved for every schema with an applicator in place (in particular every `$ref`), and for the others when only `type`, `const` or `enum` keep null out. `C41_exact` says what is accepted for every schema, and `C41_iff` for exactly which schemas the claim holds."
  },
  {
   "property": "C40",
   "status": "proved",
   "theorems": [
    "Verif.C40_exact",
    "Verif.C40_accepts",
    "Verif.C40_nonZero"
   ],
   "note": ""
  },
  {
   "property": "C42",
   "status": "proved",
   "theorems": [
    "Verif.C42_seq",
    "Verif.C42_set",
    "Verif.C42_array",
    "Verif.C42_emptyArray",
    "Verif.C42_tuple"
   ],
   "note": "Tuples in a dialect with `prefixItems`; C19 covers the other form."
  },
  {
   "property": "C43",
   "status": "partial",
   "theorems": [
    "Verif.C43_accepts_partial",
    "Verif.C43_names_partial",
    "Verif.C43_enum",
    "Verif.C43_integer",
    "Verif.C43_pattern",
    "Verif.C43_string",
    "Verif.C43_ref",
    "Verif.C43_Full_false",
    "Verif.C43_escaped_ignored"
   ],
   "note": "Proved for every key schema when no definition name needs escaping, or when no name is the escaped text of another and the references are those of definitions. False otherwise: definitions are looked up by the escaped name."
  },
  {
   "property": "C44",
   "status": "partial",
   "theorems": [
    "Verif.C44_result",
    "Verif.C44_result_single",
    "Verif.C44_bound",
    "Verif.C44_bound_single",
    "Verif.C44_range",
    "Verif.C44_duration",
    "Verif.C44_systemTime",
    "Verif.C44_decimal",
    "Verif.C44_named",
    "Verif.C44_Full_false"
   ],
   "note": "Exact characterisations proved. False as stated: `Result` and `Bound` accept objects with further members."
  },
  {
   "property": "C51",
   "status": "partial",
   "theorems": [
    "Verif.C51_sets",
    "Verif.C51_unchanged",
    "Verif.C51_iff",
    "Verif.C51_overwrites",
    "Verif.C51_partial",
    "Verif.C51_inner",
    "Verif.C51_inner_unchanged",
    "Verif.C51_attrs",
    "Verif.C51_format",
    "Verif.C51_full_fails",
    "Verif.C51_ref_ignores"
   ],
   "note": "False when an existing bound is replaced by a looser one (witness: `range(max = 1000)` on u8), and for siblings of `$ref` in draft 7. Proved otherwise, for one keyword and for all validation attributes of a field including `inner`."
  },
  {
   "property": "C52",
   "status": "partial",
   "theorems": [
    "Verif.C52_plain",
    "Verif.C52_unicode",
    "Verif.C52_unicode_fails"
   ],
   "note": "Proved for regular expressions without the `u` flag. With the `u` flag, which JSON Schema recommends, the pattern is a syntax error exactly when the substring has one of `# & - ~`."
  },
  {
   "property": "C53",
   "status": "partial",
   "theorems": [
    "Verif.C53_iff",
    "Verif.C53",
    "Verif.C53_lossless",
    "Verif.C53_trimmed",
    "Verif.C53_attributes",
    "Verif.C53_title_partial",
    "Verif.C53_title_fails"
   ],
   "note": "The doc `#` has no title (witness). Everything else proved."
  },
  {
   "property": "C54",
   "status": "proved",
   "theorems": [
    "Verif.C54",
    "Verif.C54_unique",
    "Verif.C54_errors",
    "Verif.C54_skip",
    "Verif.C54_skip_serializing_keeps_skip"
   ],
   "note": ""
  },
  {
   "property": "C55",
   "status": "partial",
   "theorems": [
    "Verif.C55",
    "Verif.C55_format",
    "Verif.C55_no_brace",
    "Verif.C55_single",
    "Verif.C55_function_alone_fails",
    "Verif.C55_close_without_open"
   ],
   "note": "The function alone accepts unbalanced braces such as `}{{}` (witness); proved together with the `format!` call that is generated from the string. Strings without `{` are not checked."
  },
  {
   "property": "C49",
   "status": "partial",
   "theorems": [
    "Verif.C49_both",
    "Verif.C49_accepted",
    "Verif.C49_conjunction",
    "Verif.C49_additional",
    "Verif.C49_moved",
    "Verif.C49_true",
    "Verif.C49_false",
    "Verif.C49_properties",
    "Verif.C49_required",
    "Verif.C49_same_name",
    "Verif.C49_two_refs",
    "Verif.C49_two_maps",
    "Verif.C49_full_fails"
   ],
   "note": "False when both schemas declare one name with different schemas, or have different values of a keyword that is not combined (witnesses). Proved for pairs without such a conflict; declared and required names are proved for all pairs."
  },
  {
   "property": "C50",
   "status": "partial",
   "theorems": [
    "Verif.allowUnknown_eq",
    "Verif.C50_allow_unknown",
    "Verif.C50_in_place",
    "Verif.C50_optional",
    "Verif.C50_units",
    "Verif.C50_units_mixed",
    "Verif.C50_optional_full_fails",
    "Verif.C50_two_enums",
    "Verif.C50_two_kinds",
    "Verif.C50_reference_unchanged"
   ],
   "note": "The denial and the unit variants are proved for all schemas. That optional fields require nothing is proved for schemas of structs and enums without `allOf` or two kinds of alternatives, and false otherwise (witnesses); targets of references are not changed."
  },
  {
   "property": "C46",
   "status": "proved",
   "theorems": [
    "Verif.C46_struct",
    "Verif.C46_run",
    "Verif.C46_flatten",
    "Verif.C46_isOption",
    "Verif.C46_options"
   ],
   "note": "For fields without `flatten`, for runs of the generator, and with flattened fields in terms of what their schemas declare and require."
  },
  {
   "property": "C47",
   "status": "proved",
   "theorems": [
    "Verif.C47_struct",
    "Verif.C47_run",
    "Verif.C47_default",
    "Verif.valid_insertDefault"
   ],
   "note": "For fields with distinct names and without `flatten`; values are judged by the schemas of the fields."
  },
  {
   "property": "C48",
   "status": "partial",
   "theorems": [
    "Verif.C48_external",
    "Verif.C48_adjacent",
    "Verif.C48_untagged",
    "Verif.C48_internal",
    "Verif.C48_tagged",
    "Verif.C48_internal_unit",
    "Verif.C48_internal_struct",
    "Verif.C48_internal_shape",
    "Verif.C48_internal_open",
    "Verif.C48_newtype",
    "Verif.C48_repr",
    "Verif.C48_repr_type",
    "Verif.C48_same_name",
    "Verif.C48_internal_reference"
   ],
   "note": "Proved for variants with distinct names and attributes that only annotate; the content of a variant is judged by its own schema. For internal tags the schema of a variant is exact for unit, struct and open newtype variants. False for variants with one name, and for a newtype variant that refers to a schema that denies unknown members (witnesses)."
  },
  {
   "property": "C45",
   "status": "partial",
   "theorems": [
    "Verif.C45_root_partial",
    "Verif.C45_wrapped_partial",
    "Verif.C45_draft07_partial",
    "Verif.C45_draft2019_partial",
    "Verif.C45_openapi3_partial",
    "Verif.C45_versions_partial",
    "Verif.C45_versions_wrapped_partial",
    "Verif.C45_openapi3_false",
    "Verif.C45_Full_false",
    "Verif.C45_skipped_content",
    "Verif.C45_tagged_unit",
    "Verif.C45_flatten_if",
    "Verif.C45_flatten_documented",
    "Verif.C45_flatten_overlap",
    "Verif.C45_flatten_left_out",
    "Verif.C45_flatten_two_maps",
    "Verif.C45_flatten_denied",
    "Verif.C45_validation",
    "Verif.C45_nonfinite",
    "Verif.C45_never",
    "Verif.resolves_exists"
   ],
   "note": "Proved for every possibly recursive set of structs and enums of all representations over the standard types, for settings without transforms, for the draft07 and draft2019_09 settings, and for the openapi3 settings if there are no definitions (with definitions it is refuted). The fields of the value must obey their validation attributes (FieldObeys; needed, see C45_validation). The declarations must satisfy WideDecl: all other attributes only annotate, flattened fields are structs or (in structs) externally, adjacently or internally tagged enums or (beside own fields that are always written) one map with string keys or a Value, contents of internally tagged newtype variants are structs, no name occurs twice, no ref_variants. Definition names contain no %, ~, / or character below U+0010, and for the settings with transforms no attribute sets definitions. The full statement is refuted by nine witnesses."
  },
  {
   "property": "C59",
   "status": "partial",
   "theorems": [
    "Verif.C59_partial",
    "Verif.C59_merged",
    "Verif.C59_Full_false",
    "Verif.C59_consts",
    "Verif.C59_args",
    "Verif.C59_arrayVec",
    "Verif.C59_renamed"
   ],
   "note": "Proved for types without ArrayVec, when derived types have distinct paths and in their argument lists no id that is a word touches another word (in particular, for derived types with at most one argument). Refuted in full: arguments are concatenated without separator (Grid<1,23> and Grid<12,3>), the id of ArrayVec has the name of the element type in place of its id, and the id of a derived type has the name given by rename. C59_merged: the generator gives types with one id one definition."
  },
  {
   "property": "C60",
   "status": "partial",
   "theorems": [
    "Verif.C60_partial",
    "Verif.C60_ids",
    "Verif.C60_Full_false",
    "Verif.C60x.C60_function",
    "Verif.C60x.C60_variant",
    "Verif.C60x.C60_container",
    "Verif.C60x.C60_conversion",
    "Verif.C60x.C60_default",
    "Verif.C60x.C60_extension",
    "Verif.C60x.C60_macro",
    "Verif.C60x.C60_phantom",
    "Verif.C60x.C60_assoc"
   ],
   "note": "Proved when the type params of what the visitor does not see (schema_with functions, with on variants and containers, from/into, expressions, the default of a field with with) are relevant for another reason, no types are hidden in macros, and PhantomData is that of the standard library. C60_ids combines it with C59. Refuted in full, with one example for each condition."
  },
  {
   "property": "C61",
   "status": "partial",
   "theorems": [
    "Verif.C61_partial",
    "Verif.C61_draft2020_partial",
    "Verif.C61_draft2019_partial",
    "Verif.C61_draft07_partial",
    "Verif.C61_Full_false",
    "Verif.C61_repeated"
   ],
   "note": "Proved for all types and attributes whose values suit their keywords, for three settings and for custom settings without transforms, if no enum has all variants skipped. With the parameter b = true the names in required are proved to be distinct, for types without flattened fields whose field names and tags differ (NamesDiffer; internal tags on unit and struct variants); with b = false repeated names are tolerated, for all types. Refuted in full for both reasons: oneOf is empty if all variants are skipped, and flattened fields of one name are required twice."
  },
  {
   "property": "C62",
   "status": "proved",
   "theorems": [
    "Verif.C62_field",
    "Verif.C62_variant",
    "Verif.C62_container",
    "Verif.C62_field_errors",
    "Verif.C62_variant_errors",
    "Verif.C62_container_errors",
    "Verif.C62_field_order",
    "Verif.C62_container_order",
    "Verif.C62_exclusive",
    "Verif.C62_exclusive_patterns",
    "Verif.C62_doc"
   ],
   "note": "What syn makes of the tokens in an item is given, for any outcome. C62_field excludes negated items in validate attributes, and the theorems about errors consider items without an exclamation mark (except serde keywords, see C63). Examples record items that are accepted without effect."
  },
  {
   "property": "C63",
   "status": "proved",
   "theorems": [
    "Verif.C63_field",
    "Verif.C63_variant",
    "Verif.C63_container",
    "Verif.C63_field_with",
    "Verif.C63_variant_with",
    "Verif.C63_container_with"
   ],
   "note": "For all keywords that schemars passes on to serde, except rename on containers. The rest of the statement of the documentation is refuted: !with, !serialize_with and !rename on containers are always errors."
  },
  {
   "property": "C64",
   "status": "partial",
   "theorems": [
    "Verif.C64_root_partial",
    "Verif.C64_wrapped_partial",
    "Verif.C64_draft07_partial",
    "Verif.C64_draft2019_partial",
    "Verif.C64_openapi3_partial",
    "Verif.C64_versions_partial",
    "Verif.C64_versions_wrapped_partial",
    "Verif.C64_Full_false",
    "Verif.C64_unit_object",
    "Verif.C64_alias",
    "Verif.C64_other",
    "Verif.C64_set",
    "Verif.C64_adjacent_option",
    "Verif.C64_adjacent_null",
    "Verif.C64_tagged_deny",
    "Verif.C64_transparent_option",
    "Verif.C64_from_option",
    "Verif.C64_tuple_default",
    "Verif.C64_skipped_content",
    "Verif.C64_decimal_exponent",
    "Verif.C64_duration_array",
    "Verif.C64_flatten_optional",
    "Verif.C64_flatten_enum",
    "Verif.C64_flatten_map",
    "Verif.C64_validation"
   ],
   "note": "Proved for the documented forms (Documented q) and for values that obey the validation attributes of their fields (ReadIf with FieldObeys; C64_validation: serde itself does not check them), for every possibly recursive set of structs and enums of all representations over the standard types satisfying ReadOk false: attributes only annotate, flattened fields are structs (themselves with flattened structs) or options of structs, or (WideInput) also externally, internally or adjacently tagged enums of plain variants and options of them, whose members are apart from the other names, or (MapInput) one of them is a map or serde_json::Value after the flattened structs, no untagged variants in tagged enums, distinct names, a newtype variant of an internally tagged enum around a struct, no skipped content of a newtype variant. For settings without transforms, and for draft07, draft2019_09 and openapi3 (the last for schemas without definitions). The statement in full (C64_Full) is refuted by each of the other theorems."
  },
  {
   "property": "C65",
   "status": "partial",
   "theorems": [
    "Verif.C65_root_partial",
    "Verif.C65_wrapped_partial",
    "Verif.C65_draft07_partial",
    "Verif.C65_draft2019_partial",
    "Verif.C65_openapi3_partial",
    "Verif.C65_versions_partial",
    "Verif.C65_versions_wrapped_partial",
    "Verif.C65_Full_false",
    "Verif.C65_float",
    "Verif.C65_result",
    "Verif.C65_range",
    "Verif.C65_adjacent_content",
    "Verif.C65_map_key",
    "Verif.C65_deny_nested",
    "Verif.C65_nested_deny",
    "Verif.C65_flatten_name",
    "Verif.C65_flatten_never",
    "Verif.C65_flatten_map",
    "Verif.C65_validation"
   ],
   "note": "Proved for documents with small integers (SmallNumbers), for the types of C64 with the further conditions ReadOk true (no validation attributes, no Result, Bound, Range, Duration, no formatted strings, maps with string keys, adjacent unit variants only with deny_unknown_fields, flattened options only if serde's reading every failure as None is counted, flattened externally tagged enums only if further variant members are counted (Rf.flatEnum_between), deny_unknown_fields not with flattened structs that have flattened fields, flattened maps with values whose schema is not false and beside them only flattened structs without flattened fields) and Grounded. Together with C64 the schema accepts exactly what serde reads (NodeTy.exact, Rd.forms_exact, Rf.nested_exact, Rf.tagged_exact with flattened enums, Rf.mapped_exact with a flattened map, and for the settings with transforms NodeTy.exact07, exact2019, exact30). The statement in full (C65_Full) is refuted by each of the other theorems."
  },
  {
   "property": "C66",
   "status": "proved",
   "theorems": [
    "Verif.C66",
    "Verif.C66_calls",
    "Verif.C66_root",
    "Verif.C66_content",
    "Verif.C66_schema_with",
    "Verif.C66_answers",
    "Verif.C66_ignored",
    "Verif.C66_write_only",
    "Verif.implements_exists",
    "Verif.unwraps_exists"
   ],
   "note": "For every program (Source: derived, forwarded or hand-written implementations, all attributes) in which no type delegates to itself without end, every set of wrappers that is replaced (Unwraps), all settings and every state of the generator: the same schema, definitions and further state, in both directions, for json_schema, subschema_for, root_schema_for and into_root_schema_for. implements_exists: every such program has implementations; unwraps_exists: all wrappers can be replaced at once. C66_content: a derived type that delegates would have the same content with an implementation of its own, so that no attribute is lost; the exceptions are schema_with beside transparent (C66_schema_with) and writeOnly of the field (C66_write_only). rename and inline have no effect on such a type (C66_answers, C66_ignored)."
  },
  {
   "property": "C67",
   "status": "partial",
   "theorems": [
    "Verif.C67_attributes",
    "Verif.C67_container",
    "Verif.C67_repr",
    "Verif.C67_field",
    "Verif.C67_fields_partial",
    "Verif.C67_tuple",
    "Verif.C67_variants",
    "Verif.C67_run",
    "Verif.C67_flattened",
    "Verif.C67_Full_false",
    "Verif.C67_inherited",
    "Verif.C67_default"
   ],
   "note": "Proved for containers, repr enums, fields of structs and tuples that are not flattened and whose names differ from each other and from those in flattened schemas, and variants; the schema of a field may also have validation keywords, default, readOnly and writeOnly. In full it is refuted: attributes of flattened fields are dropped. Attributes with transforms (user functions) are left out."
  },
  {
   "property": "C68",
   "status": "proved",
   "theorems": [
    "Verif.C68",
    "Verif.C68_name"
   ],
   "note": "For every declaration that the derive macro accepts: fields, variants and the container (C68), and the name of the schema (C68_name). What serde's own library does with the attributes (serde_derive_internals, a dependency) is modelled from its documentation in Verif/Item.lean."
  },
  {
   "property": "C69",
   "status": "proved",
   "theorems": [
    "Verif.C69"
   ],
   "note": "For the fields of every struct that the derive macro accepts; default values, conditions and written values are arbitrary functions (Values)."
  },
  {
   "property": "C70",
   "status": "partial",
   "theorems": [
    "Verif.C70_same",
    "Verif.C70_written_partial",
    "Verif.C70_read",
    "Verif.C70_accepts_partial",
    "Verif.C70_readable_partial",
    "Verif.C70_reads_partial",
    "Verif.C70_Full_false",
    "Verif.C70_halves"
   ],
   "note": "C70_same: the container that the schema is made from is the one of serde's own derive macros, except for annotations. C70_written_partial and C70_read: hence serde writes and reads the same documents for both. The others carry C45, C64 and C65 (without validation attributes) over to source programs, with their conditions. Missing for writing: tagged structs and transparent structs with fields that are only written or only read, for which it fails (C70_Full_false, C70_halves); for the rest what C45, C64 and C65 miss."
  },
  {
   "property": "C71",
   "status": "proved",
   "theorems": [
    "Verif.C71_same",
    "Verif.C71",
    "Verif.C71_settled",
    "Verif.C71_left",
    "Verif.C71_derives",
    "Verif.C71_accepts_partial",
    "Verif.C71_readable_partial",
    "Verif.C71_reads_partial",
    "Verif.C71_rename"
   ],
   "note": "C71_same is the equality when processing the attributes reports no errors, C71 is for whatever is derived. The corollaries C71_accepts_partial, C71_readable_partial and C71_reads_partial add C70 for the rewritten program and have its conditions. C71_rename shows that the exception for rename is needed."
  },
  {
   "property": "C72",
   "status": "proved",
   "theorems": [
    "Verif.C72",
    "Verif.C72_written",
    "Verif.C72_run",
    "Verif.C72_field",
    "Verif.C72_property",
    "Verif.C68_id"
   ],
   "note": "C72 excludes negated items in validate attributes, which validator itself rejects. C72_run, C72_field and C72_property compose C72 with C67 and share its hypotheses: no transform attributes, and for C72_property the names of the fields are separate from those of flattened types. Keywords that validation sets are left to C51."
  },
  {
   "property": "C73",
   "status": "partial",
   "theorems": [
    "Verif.C73_definitions_partial",
    "Verif.C73_returned_partial",
    "Verif.C73_order_partial",
    "Verif.C73_root_partial",
    "Verif.C73_declared_partial",
    "Verif.C73_Full_false",
    "Verif.C73_keys"
   ],
   "note": "Proved when names and ids tell the types apart (Apart) and the bodies do not depend on the definitions (Known; for derived and standard types: the key types of maps refer to no definitions, C73_declared_partial). C73_root_partial is the same for a root schema from a new generator. Refuted in full: the first of two types with one name gets it (C73_Full_false), and a map whose key type refers to a type in progress allows all keys (C73_keys)."
  },
  {
   "property": "C74",
   "status": "partial",
   "theorems": [
    "Verif.C74_read_partial",
    "Verif.C74_root_partial",
    "Verif.C74_draft07_partial",
    "Verif.C74_draft2019_partial",
    "Verif.C74_openapi3_partial",
    "Verif.C74_source_read_partial",
    "Verif.C74_source_partial",
    "Verif.Rd.C74_Full_false",
    "Verif.Rd.C74_renamed",
    "Verif.Rd.C74_unread"
   ],
   "note": "Proved for declarations that satisfy TwoWay (names for writing are those for reading, what may be left out may be missing, flattened fields are structs or tagged enums or options of them, with names that are apart) and, for the schema, ReadOk. Not covered: flattened maps, values and internally tagged or untagged enums, and other types than structs beside a tag. Read says that a document is read as some value, not as which. Refuted in full by skip_serializing_if without default (C74_Full_false), names that differ, and a field that is written but not read in a type that denies unknown members."
  },
  {
   "property": "C75",
   "status": "partial",
   "theorems": [
    "Verif.C75_partial",
    "Verif.C75_needed",
    "Verif.C75_variant",
    "Verif.C75_conversion",
    "Verif.C75_dropped",
    "Verif.C75_Full_false"
   ],
   "note": "Proved for containers without bound attributes, when the types in with on variants and containers and of conversions use no other type params than the fields; C75_needed: each bound is needed (for type params that occur by themselves, not as T::A). Refuted in full: types of with on variants and of conversions are not searched; the bound of a field is dropped if the name mentions all type params."
  },
  {
   "property": "C76",
   "status": "proved",
   "theorems": [
    "Verif.C76_texts",
    "Verif.C76_syntax",
    "Verif.C76_semver",
    "Verif.C76_digits",
    "Verif.C76_decimal",
    "Verif.C76_decimalInput",
    "Verif.C76_assumed",
    "Verif.C76_semver_schema",
    "Verif.C76_decimal_schema",
    "Verif.C76_weekday",
    "Verif.C76_timeDelta",
    "Verif.C76_negative_exponent",
    "Verif.C76_semver_large"
   ],
   "note": "Proved for all texts. The texts for decimal numbers are those without a sign in the exponent: C76_negative_exponent shows that the others, which BigDecimal writes and both libraries read, are rejected. C76_assumed derives what C45, C64, C65 and C74 assume of regular expressions."
  },
  {
   "property": "C77",
   "status": "proved",
   "theorems": [
    "Verif.C77",
    "Verif.C77_serde"
   ],
   "note": "Proved for every declaration of the model: C77_serde is an equivalence between the reading of serde_derive_internals and a table of words with the form of what follows them; C77 adds the attributes of schemars, whose errors are described by C54_errors and C62. serde_derive_internals is not in the repository; its checks are modelled as its documentation describes them, and the checks of borrowed lifetimes, of bounds and of getters are left out (DESIGN.md)."
  },
  {
   "property": "C78",
   "status": "proved",
   "theorems": [
    "Verif.C78_settings",
    "Verif.C78_contract",
    "Verif.C78_transform",
    "Verif.C78_root",
    "Verif.C78_value",
    "Verif.C78_integers",
    "Verif.C78_schemaFor",
    "Verif.C78_schemaForValue",
    "Verif.C39_titles"
   ],
   "note": "Proved for all four settings. A preset whose contract, inline_subschemas or untagged_enum_variant_titles is changed is included; other meta-schemas, paths or transforms are those of C32."
  },
  {
   "property": "C79",
   "status": "proved",
   "theorems": [
    "Verif.C79_accepts",
    "Verif.C79_values",
    "Verif.C79_unchecked"
   ],
   "note": "Proved for every declaration, integer type and list of discriminants. C79_values is for attributes that only annotate (title, description, examples, deprecated and annotating extensions); what other extensions and transforms do is C17 and C48. C79_unchecked: a container that delegates is checked for neither repr nor enum."
  },
  {
   "property": "C80",
   "status": "partial",
   "theorems": [
    "Verif.C80_partial",
    "Verif.C80_crate_partial",
    "Verif.C80_wrapped_partial",
    "Verif.C80_Full_false",
    "Verif.C80_inline"
   ],
   "note": "Proved for the schemas for reading of the types for which C64 and C65 together are exact (ReadOk for both directions, no validation attributes), documents with small integers, plain names of definitions, and for OpenAPI 3.0 without definitions. Refuted in full: definitions of the openapi3 settings are not transformed (C80_Full_false), and a key type that refers to a definition with an escaped name restricts the keys only when inlined (C80_inline)."
  },
  {
   "property": "C81",
   "status": "proved",
   "theorems": [
    "Verif.C81_macro",
    "Verif.C81_reads",
    "Verif.C81_writes",
    "Verif.C81_tryToObject"
   ],
   "note": ""
  },
  {
   "property": "C82",
   "status": "partial",
   "theorems": [
    "Verif.C82_partial",
    "Verif.C82_types_partial",
    "Verif.C82_Full_false",
    "Verif.C82_tuple",
    "Verif.C82_map",
    "Verif.C82_deep",
    "Verif.C82_root",
    "Verif.C82_decimal",
    "Verif.C82_schema"
   ],
   "note": "Proved for the schemas that OpenAPI 3.0 can express (Translatable): they may use const, examples, $ref with siblings, types with null, unevaluatedProperties and bools as schemas, the last two not below additionalProperties. For programs (C82_types_partial): the subschemas and definitions of all standard and derived types without tuples, with string keys in maps, without values below maps that have bools as schemas, and with attributes that write keywords of OpenAPI 3.0. Refuted for tuples (C82_tuple), maps with integer keys (C82_map), bools below additionalProperties (C82_deep), decimals that are read (C82_decimal) and all root documents (C82_root)."
  },
  {
   "property": "C83",
   "status": "partial",
   "theorems": [
    "Verif.C83_partial",
    "Verif.C83_ids_partial",
    "Verif.C83_draft2020",
    "Verif.C83_versions_partial",
    "Verif.C83_versions_ids_partial",
    "Verif.C83_resolvable",
    "Verif.C83_resolvable_ids",
    "Verif.C83_generates",
    "Verif.C83_holds",
    "Verif.C83_weak",
    "Verif.C83_names",
    "Verif.C83_referenced",
    "Verif.C83_arrayVec",
    "Verif.C83_nonZeroKey",
    "Verif.C83_Full_false"
   ],
   "note": "Proved for all types of the crate without ArrayVec, and with ArrayVec if no two different parts of the type have one id (C83_ids_partial), for settings without transforms and for all provided settings (OpenAPI 3.0 without definitions), under both contracts, if references are followed and patterns mean what ECMA-262 says (C76); formats are not checked. Refuted with ArrayVec otherwise (C83_Full_false): its id is its name, and names of tuples are ambiguous, so two types can share one definition. C83_names, C83_referenced and C83_generates cover ArrayVec too. C83_holds: a root schema always exists and its references can be followed (settings without transforms)."
  },
  {
   "property": "C84",
   "status": "partial",
   "theorems": [
    "Verif.C84_partial",
    "Verif.C84_root",
    "Verif.C84_written_partial",
    "Verif.C84_read_partial",
    "Verif.C84_accepted_partial",
    "Verif.C84_same_partial",
    "Verif.C84_Full_false"
   ],
   "note": "Proved for types with plain ids (C59_partial: no ArrayVec, and no word touches another word in the argument list of a derived type), and within the limits of C45, C64, C65 and C80. C84_root: the documents made for the types with the ids of the crate are those of the declared types. Refuted in full: Grid<1, 23> and Grid<12, 3> have one id (C84_Full_false)."
  },
  {
   "property": "C85",
   "status": "partial",
   "theorems": [
    "Verif.C85_partial",
    "Verif.C85_iff",
    "Verif.C85_ok",
    "Verif.C85_error",
    "Verif.C85_signed",
    "Verif.C85_float",
    "Verif.C85_validate",
    "Verif.C85_visit",
    "Verif.C85_visit_other",
    "Verif.C85_Full_false"
   ],
   "note": "What is taken and what the errors say is proved for all values. It never panics without the feature arbitrary_precision of serde_json. With it, the unreachable! in Schema::validate is reached exactly for numbers that are not finite as f64 (C85_iff), such as 1e400 (C85_Full_false)."
  },
  {
   "property": "C86",
   "status": "proved",
   "theorems": [
    "Verif.C86_replaceBool",
    "Verif.C86_replaceBool_panics",
    "Verif.C86_setSingleExample",
    "Verif.C86_replaceConst",
    "Verif.C86_replacePrefix",
    "Verif.C86_addNullable",
    "Verif.C86_replaceUneval",
    "Verif.C86_postOrder",
    "Verif.C86_runs",
    "Verif.C86_addNullable_run"
   ],
   "note": "Each step with its panics is proved to end with the result of the step without them, for every value. So every run on a schema, which is any function with the recursion of the code, ends with the result of the transform (C86_replaceBool, C86_runs, C86_addNullable_run). The values at the places of subschemas go through Schema::validate before, see C85 for that. RemoveRefSiblings and RestrictFormats have no calls that can panic."
  }
 ]
}