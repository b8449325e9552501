{
 "claims": [
  {
   "property": "C01",
   "status": "proved",
   "theorems": [
    "Parsel.C01_struct_parse_ok",
    "Parsel.C01_struct_parse_err",
    "Parsel.C01_no_later_field"
   ],
   "note": ""
  },
  {
   "property": "C02",
   "status": "proved",
   "theorems": [
    "Parsel.C02_enum_parse_ok"
   ],
   "note": ""
  },
  {
   "property": "C03",
   "status": "proved",
   "theorems": [
    "Parsel.C03_enum_error",
    "Parsel.C03_either_error"
   ],
   "note": ""
  },
  {
   "property": "C04",
   "status": "proved",
   "theorems": [
    "Parsel.C04_furthest",
    "Parsel.C04_lexed",
    "Parsel.C04_in_group",
    "Parsel.C04_lexed_group",
    "Parsel.C04_either",
    "Parsel.C04_either_group",
    "Parsel.C04_end_of_input"
   ],
   "note": "Proved on all streams without invisible groups whose positions increase (all lexed streams without documentation comments: C04_lexed), inside groups without further condition, at top level if no variant fails at the end of the input; there it is refuted by a witness (C04_end_of_input), since the end of the input is located at the call site. A number with a minus sign that is rejected counts as failing at its literal. C04_either, C04_either_group: the same for Either."
  },
  {
   "property": "C05",
   "status": "proved",
   "theorems": [
    "Parsel.C05_empty_enum",
    "Parsel.C05_unit_struct",
    "Parsel.C05_unit_variant"
   ],
   "note": ""
  },
  {
   "property": "C06",
   "status": "proved",
   "theorems": [
    "Parsel.C06_chain_path",
    "Parsel.C06_nested"
   ],
   "note": ""
  },
  {
   "property": "C07",
   "status": "proved",
   "theorems": [
    "Parsel.C07_struct_print",
    "Parsel.C07_enum_print"
   ],
   "note": ""
  },
  {
   "property": "C08",
   "status": "proved",
   "theorems": [
    "Parsel.C08_enum_compiles_iff",
    "Parsel.C08_refuted"
   ],
   "note": "The claim as worded in the docs is false; proved: exact characterisation of when the generated code is right, and a counterexample (`tokens` as field name)."
  },
  {
   "property": "C09",
   "status": "proved",
   "theorems": [
    "Parsel.C09_union_rejected",
    "Parsel.C09_accepted_iff"
   ],
   "note": ""
  },
  {
   "property": "C10",
   "status": "proved",
   "theorems": [
    "Parsel.C10_where_clause",
    "Parsel.C10_malformed_attribute"
   ],
   "note": ""
  },
  {
   "property": "C11",
   "status": "proved",
   "theorems": [
    "Parsel.C11_reprint",
    "Parsel.C11_reprint_prefix"
   ],
   "note": "Relative to FloatLaws for float literals; `-0` read as LitInt prints as `0` (same value, the sign token is not kept)."
  },
  {
   "property": "C12",
   "status": "proved",
   "theorems": [
    "Parsel.C12_reads_back",
    "Parsel.C12_accepts",
    "Parsel.C12_unique",
    "Parsel.C12_checked",
    "Parsel.C12_injective",
    "Parsel.C12_parsed_survives",
    "Parsel.C12_parsed",
    "Parsel.C12_solid",
    "Parsel.C12_ambiguous"
   ],
   "note": "Grammars: LL(1) as defined in Spec/Predict.lean, with a checker that is proved sound (ll1, Spec/LL1.lean). Values: `Survives` excludes only what provably cannot come back (C37: non-negative Lit::Int; operators containing a quote; a Punctuated that ends in an item or separator without tokens); it always holds of parsed values but for -0 read as a Lit (C12_parsed_survives), and of all values of grammars that pass a computed check (C12_solid). Relative to FloatLaws for float literals. That the condition on grammars is needed is a theorem (C12_ambiguous)."
  },
  {
   "property": "C13",
   "status": "proved",
   "theorems": [
    "Parsel.C13_from_str_to_string",
    "Parsel.C13_checked",
    "Parsel.C13_solid"
   ],
   "note": "For LL(1) grammars (C12) and values whose leaves have a textual form; uses the model of proc_macro2's lexer. Relative to FloatLaws for float literals."
  },
  {
   "property": "C14",
   "status": "proved",
   "theorems": [
    "Parsel.C14_complete"
   ],
   "note": ""
  },
  {
   "property": "C15",
   "status": "proved",
   "theorems": [
    "Parsel.C15_accepted_iff",
    "Parsel.C15_remembered",
    "Parsel.C15_speculation_recorded"
   ],
   "note": ""
  },
  {
   "property": "C16",
   "status": "proved",
   "theorems": [
    "Parsel.C16_maybe_ok",
    "Parsel.C16_maybe_err"
   ],
   "note": ""
  },
  {
   "property": "C17",
   "status": "proved",
   "theorems": [
    "Parsel.C17_delimited_ok",
    "Parsel.C17_delimited_err",
    "Parsel.C17_delimited_print"
   ],
   "note": ""
  },
  {
   "property": "C18",
   "status": "proved",
   "theorems": [
    "Parsel.C18_punctuated_ok",
    "Parsel.C18_punctuated_consumes_all",
    "Parsel.C18_punctuated_err",
    "Parsel.C18_many_ok"
   ],
   "note": ""
  },
  {
   "property": "C19",
   "status": "proved",
   "theorems": [
    "Parsel.C19_separated_ok",
    "Parsel.C19_separated_err"
   ],
   "note": ""
  },
  {
   "property": "C20",
   "status": "proved",
   "theorems": [
    "Parsel.C20_any_ok",
    "Parsel.C20_any_never_fails"
   ],
   "note": ""
  },
  {
   "property": "C21",
   "status": "proved",
   "theorems": [
    "Parsel.C21_left_assoc_ok",
    "Parsel.C21_left_assoc_iff_separated",
    "Parsel.C21_left_assoc_print"
   ],
   "note": ""
  },
  {
   "property": "C22",
   "status": "proved",
   "theorems": [
    "Parsel.C22_right_assoc_ok",
    "Parsel.C22_right_assoc_iff_separated",
    "Parsel.C22_right_assoc_print"
   ],
   "note": ""
  },
  {
   "property": "C23",
   "status": "proved",
   "theorems": [
    "Parsel.C23_either_ok",
    "Parsel.C23_either_err"
   ],
   "note": ""
  },
  {
   "property": "C24",
   "status": "proved",
   "theorems": [
    "Parsel.C24_empty_eof_noteof",
    "Parsel.C24_print"
   ],
   "note": ""
  },
  {
   "property": "C25",
   "status": "proved",
   "theorems": [
    "Parsel.C25_custom_ident_ok",
    "Parsel.C25_custom_ident_err",
    "Parsel.C25_keyword_reported",
    "Parsel.C25_word_ok",
    "Parsel.C25_try_from"
   ],
   "note": ""
  },
  {
   "property": "C26",
   "status": "proved",
   "theorems": [
    "Parsel.C26_keyword_ok",
    "Parsel.C26_keyword_err",
    "Parsel.C26_other_word_reported",
    "Parsel.C26_partition"
   ],
   "note": ""
  },
  {
   "property": "C27",
   "status": "proved",
   "theorems": [
    "Parsel.C27_history",
    "Parsel.C27_step",
    "Parsel.C27_try_from",
    "Parsel.C27_parsed"
   ],
   "note": ""
  },
  {
   "property": "C28",
   "status": "proved",
   "theorems": [
    "Parsel.C28_decompositions"
   ],
   "note": ""
  },
  {
   "property": "C29",
   "status": "proved",
   "theorems": [
    "Parsel.C29_terminates",
    "Parsel.C29_terminates_parse2",
    "Parsel.C29_terminates_source"
   ],
   "note": ""
  },
  {
   "property": "C30",
   "status": "proved",
   "theorems": [
    "Parsel.C30_left_recursion",
    "Parsel.C30_cycle",
    "Parsel.C30_left_recursive_enum",
    "Parsel.C30_left_recursive_later",
    "Parsel.C30_any",
    "Parsel.C30_punctuated",
    "Parsel.C30_many",
    "Parsel.C30_separated",
    "Parsel.C30_leftAssoc_idle",
    "Parsel.C30_rightAssoc_idle",
    "Parsel.C30_leftAssoc_terminates",
    "Parsel.C30_outcome",
    "Parsel.C30_no_outcome"
   ],
   "note": ""
  },
  {
   "property": "C31",
   "status": "proved",
   "theorems": [
    "Parsel.C31_parses",
    "Parsel.C31_fails",
    "Parsel.C31_accepts",
    "Parsel.C31_rejects"
   ],
   "note": ""
  },
  {
   "property": "C32",
   "status": "proved",
   "theorems": [
    "Parsel.C32_reads_prefix"
   ],
   "note": ""
  },
  {
   "property": "C33",
   "status": "proved",
   "theorems": [
    "Parsel.C33_every_byte",
    "Parsel.C33_rust_literal",
    "Parsel.C33_injective"
   ],
   "note": ""
  },
  {
   "property": "C34",
   "status": "proved",
   "theorems": [
    "Parsel.C34_int",
    "Parsel.C34_int_overflow",
    "Parsel.C34_uint",
    "Parsel.C34_uint_overflow",
    "Parsel.C34_value_unique"
   ],
   "note": ""
  },
  {
   "property": "C35",
   "status": "proved",
   "theorems": [
    "Parsel.C35_bool",
    "Parsel.C35_byte",
    "Parsel.C35_char",
    "Parsel.C35_str",
    "Parsel.C35_byteStr",
    "Parsel.C35_float",
    "Parsel.C35_int",
    "Parsel.C35_uint",
    "Parsel.C35_rejected",
    "Parsel.C35_not_literal"
   ],
   "note": ""
  },
  {
   "property": "C36",
   "status": "proved",
   "theorems": [
    "Parsel.C36_bool",
    "Parsel.C36_byte",
    "Parsel.C36_int",
    "Parsel.C36_uint",
    "Parsel.C36_char",
    "Parsel.C36_str",
    "Parsel.C36_byteStr",
    "Parsel.C36_float"
   ],
   "note": "LitFloat is relative to the stated laws of f64 text (FloatLaws: shape of Display, reading Display back), shown satisfiable by a toy instance."
  },
  {
   "property": "C37",
   "status": "proved",
   "theorems": [
    "Parsel.C37_roundtrip",
    "Parsel.C37_nonneg_int_changes",
    "Parsel.C37_minus_zero_refuted"
   ],
   "note": "The unrestricted claim is false; proved for all values but non-negative Lit::Int, proved that every such value changes, and refuted by the input -0."
  },
  {
   "property": "C38",
   "status": "proved",
   "theorems": [
    "Parsel.C38_node_prints_iff",
    "Parsel.C38_value_prints_iff",
    "Parsel.C38_literal_panics_iff",
    "Parsel.C38_overflowing_float_refuted"
   ],
   "note": "The unrestricted claim is false (1e999). Proved: a parsed node prints exactly if it contains no infinite float and no non-word keyword."
  },
  {
   "property": "C39",
   "status": "proved",
   "theorems": [
    "Parsel.C39_literal_compare"
   ],
   "note": ""
  },
  {
   "property": "C40",
   "status": "proved",
   "theorems": [
    "Parsel.C40_reads_back",
    "Parsel.C40_reads_back_nested",
    "Parsel.C40_lexed_writable",
    "Parsel.C40_source"
   ],
   "note": "For all streams with a textual form (Spec.Writable: proper identifiers and literals; a joint flag only where the next token may follow directly), and all streams that the lexer produces; the lexer of proc_macro2 is part of the model."
  },
  {
   "property": "C41",
   "status": "proved",
   "theorems": [
    "Parsel.C41_compact",
    "Parsel.C41_one_line",
    "Parsel.C41_pretty_gaps",
    "Parsel.C41_same"
   ],
   "note": ""
  },
  {
   "property": "C42",
   "status": "proved",
   "theorems": [
    "Parsel.C42_write",
    "Parsel.C42_reliable",
    "Parsel.C42_history",
    "Parsel.C42_level_leaks"
   ],
   "note": "The level leak after an error is a theorem, too."
  },
  {
   "property": "C43",
   "status": "proved",
   "theorems": [
    "Parsel.C43_with_indent"
   ],
   "note": ""
  },
  {
   "property": "C44",
   "status": "proved",
   "theorems": [
    "Parsel.C44_group",
    "Parsel.C44_indented",
    "Parsel.C44_separator",
    "Parsel.C44_leaf"
   ],
   "note": ""
  },
  {
   "property": "C45",
   "status": "proved",
   "theorems": [
    "Parsel.C45_display",
    "Parsel.C45_formatter",
    "Parsel.C45_formatter_group",
    "Parsel.C45_either",
    "Parsel.C45_leaf"
   ],
   "note": "Relative to FloatLaws for float literals."
  },
  {
   "property": "C46",
   "status": "proved",
   "theorems": [
    "Parsel.C46_byte_range"
   ],
   "note": ""
  },
  {
   "property": "C47",
   "status": "proved",
   "theorems": [
    "Parsel.C47_char_range"
   ],
   "note": ""
  },
  {
   "property": "C48",
   "status": "proved",
   "theorems": [
    "Parsel.C48_byte_range_safe",
    "Parsel.C48_char_range_unbounded"
   ],
   "note": ""
  },
  {
   "property": "C49",
   "status": "proved",
   "theorems": [
    "Parsel.C49_display_one_based_inclusive",
    "Parsel.C49_display_injective"
   ],
   "note": ""
  },
  {
   "property": "C50",
   "status": "proved",
   "theorems": [
    "Parsel.C50_flip_sides",
    "Parsel.C50_map",
    "Parsel.C50_transpose",
    "Parsel.C50_iterator",
    "Parsel.C50_print_extend"
   ],
   "note": ""
  },
  {
   "property": "C51",
   "status": "proved",
   "theorems": [
    "Parsel.C51_position",
    "Parsel.C51_location",
    "Parsel.C51_rejected"
   ],
   "note": ""
  },
  {
   "property": "C52",
   "status": "proved",
   "theorems": [
    "Parsel.C52_typed",
    "Parsel.C52_typed_accepted"
   ],
   "note": ""
  },
  {
   "property": "C53",
   "status": "proved",
   "theorems": [
    "Parsel.C53_no_panic",
    "Parsel.C53_no_panic_parse2",
    "Parsel.C53_lexed",
    "Parsel.C53_no_panic_source"
   ],
   "note": "The only panic of the model is in EXTERNAL code: a literal token whose text is not a literal ; the theorem on token streams excludes such streams (the example shows the hypothesis is needed). C53_no_panic_source, for source texts, has no hypothesis: C53_lexed shows that every literal found by the lexer is read by syn's literal reader."
  },
  {
   "property": "C54",
   "status": "proved",
   "theorems": [
    "Parsel.C54_keyword_compare"
   ],
   "note": ""
  },
  {
   "property": "C55",
   "status": "proved",
   "theorems": [
    "Parsel.C55_maybe_views",
    "Parsel.C55_maybe_conversions"
   ],
   "note": ""
  },
  {
   "property": "C56",
   "status": "proved",
   "theorems": [
    "Parsel.C56_collect_values",
    "Parsel.C56_collect_pairs",
    "Parsel.C56_roundtrip",
    "Parsel.C56_views",
    "Parsel.C56_changed",
    "Parsel.C56_added",
    "Parsel.C56_any"
   ],
   "note": ""
  },
  {
   "property": "C57",
   "status": "proved",
   "theorems": [
    "Parsel.C57_deterministic",
    "Parsel.C57_record_irrelevant"
   ],
   "note": ""
  },
  {
   "property": "C58",
   "status": "proved",
   "theorems": [
    "Parsel.C58_refuted",
    "Parsel.C58_arms"
   ],
   "note": "False as worded: the code generated for an empty enum does not compile (C58_refuted). C58_arms: exactly when it compiles otherwise, and that there is an arm per variant."
  },
  {
   "property": "C59",
   "status": "proved",
   "theorems": [
    "Parsel.C59_keyword_prints_iff",
    "Parsel.C59_raw_keyword_refuted"
   ],
   "note": "Refuted for raw identifiers by witness; proved: a keyword value prints exactly if its spelling is a plain identifier."
  },
  {
   "property": "C60",
   "status": "proved",
   "theorems": [
    "Parsel.C60_lexed",
    "Parsel.C60_lexed_plain",
    "Parsel.C60_token",
    "Parsel.C60_visible",
    "Parsel.C60_node",
    "Parsel.C60_whole"
   ],
   "note": ""
  },
  {
   "property": "C61",
   "status": "proved",
   "theorems": [
    "Parsel.C61_separable",
    "Parsel.C61_separable_text",
    "Parsel.C61_reparse",
    "Parsel.C61_single_characters",
    "Parsel.C61_text",
    "Parsel.C61_checked",
    "Parsel.C61_computed",
    "Parsel.C61_needs_joins",
    "Parsel.C61_needs_no_minus_zero",
    "Parsel.C61_needs_unsigned",
    "Parsel.C61_needs_nonempty"
   ],
   "note": "Relative to FloatLaws and SignLaws (signs of f64 texts), shown satisfiable by signExt. Each condition is shown to be needed by a witness (C61_needs_*)."
  },
  {
   "property": "C62",
   "status": "proved",
   "theorems": [
    "Parsel.C62_write",
    "Parsel.C62_reformat",
    "Parsel.C62_format_node",
    "Parsel.C62_display",
    "Parsel.C62_idempotent",
    "Parsel.C62_stable",
    "Parsel.C62_computed"
   ],
   "note": "Idempotence inherits the conditions of C61 (any grammar, parsed values) or C12 (LL(1) grammars, any value)."
  },
  {
   "property": "C63",
   "status": "proved",
   "theorems": [
    "Parsel.C63_parses",
    "Parsel.C63_fails",
    "Parsel.C63_deterministic",
    "Parsel.C63_diverges",
    "Parsel.C63_accepts",
    "Parsel.C63_rejects",
    "Parsel.C63_unread_reported"
   ],
   "note": "The specification (Spec/Peg.lean) has no streams, forks, cells, fuel or error messages; the equivalence is proved in both directions. Divergence: on readable streams (C53)."
  },
  {
   "property": "C64",
   "status": "proved",
   "theorems": [
    "Parsel.C64_leaf",
    "Parsel.C64_leaf_fails"
   ],
   "note": "C64_leaf_fails: on readable streams (C53)."
  },
  {
   "property": "C65",
   "status": "proved",
   "theorems": [
    "Parsel.C65_print",
    "Parsel.C65_parsed",
    "Parsel.C65_containers"
   ],
   "note": "Hypothesis PrintsOk: distinct names (rustc requires them) and no field called `tokens` in a struct-like variant (C08)."
  },
  {
   "property": "C66",
   "status": "proved",
   "theorems": [
    "Parsel.C66_formatted",
    "Parsel.C66_displayed",
    "Parsel.C66_layout",
    "Parsel.C66_relayout",
    "Parsel.C66_accepts",
    "Parsel.C66_rejects",
    "Parsel.C66_same",
    "Parsel.C66_file"
   ],
   "note": "Layout: closed comments only (a line comment ends with its line break); a dot after a number, a sign after a number with an `e` and `'`, `#` after a word need white space. The lexer is a model of proc_macro2's fallback lexer (EXTERNAL). C66_file: also a byte order mark in front and an unclosed line comment at the end. C66_formatted and C66_displayed: what pretty, compact and to_string write is such a layout."
  },
  {
   "property": "C67",
   "status": "proved",
   "theorems": [
    "Parsel.C67_int",
    "Parsel.C67_uint",
    "Parsel.C67_float",
    "Parsel.C67_lit",
    "Parsel.C67_same_as_tokens"
   ],
   "note": "Relative to FloatLaws for floats. What syn::LitByte::new makes of a byte differs between versions of syn: a parameter of the model, assumed to keep the value."
  },
  {
   "property": "C68",
   "status": "proved",
   "theorems": [
    "Parsel.C68_built",
    "Parsel.C68_never_keyword",
    "Parsel.C68_never_empty",
    "Parsel.C68_reads_back",
    "Parsel.C68_complete"
   ],
   "note": "A positive Lit::Int (C37) and an Ident that is a Rust keyword are excluded: they are legal values, but are not read back."
  },
  {
   "property": "C69",
   "status": "proved",
   "theorems": [
    "Parsel.C69_wrapped",
    "Parsel.C69_wrapped_rejects",
    "Parsel.C69_made",
    "Parsel.C69_wrap_reads_back",
    "Parsel.C69_word_moved",
    "Parsel.C69_word"
   ],
   "note": ""
  },
  {
   "property": "C70",
   "status": "proved",
   "theorems": [
    "Parsel.C70_equivalence",
    "Parsel.C70_same_inputs",
    "Parsel.C70_box",
    "Parsel.C70_newtype",
    "Parsel.C70_left_separated",
    "Parsel.C70_right_separated",
    "Parsel.C70_either_enum",
    "Parsel.C70_either_assoc",
    "Parsel.C70_either_same",
    "Parsel.C70_maybe_empty",
    "Parsel.C70_names",
    "Parsel.C70_nested_struct",
    "Parsel.C70_nested_enum",
    "Parsel.C70_factor",
    "Parsel.C70_empty_field",
    "Parsel.C70_replace",
    "Parsel.C70_dead_variant",
    "Parsel.C70_either_comm",
    "Parsel.C70_variants_comm",
    "Parsel.C70_greedy",
    "Parsel.C70_any_unrolled",
    "Parsel.C70_any_recursive",
    "Parsel.C70_right_recursive",
    "Parsel.C70_keywords_disjoint"
   ],
   "note": "Equality includes divergence: where one type runs for ever, so does the other. Error messages and locations are not compared. Follows from the PEG semantics proved equivalent to the code in C63."
  },
  {
   "property": "C71",
   "status": "proved",
   "theorems": [
    "Parsel.C71_alike"
   ],
   "note": "Error messages (which mention the names) are not compared."
  },
  {
   "property": "C72",
   "status": "proved",
   "theorems": [
    "Parsel.C72_cycles",
    "Parsel.C72_fields",
    "Parsel.C72_from_str_display",
    "Parsel.C72_str_where",
    "Parsel.C72_mark_irrelevant"
   ],
   "note": "rustc's trait solver is modelled as the least set closed under the impls (no cycles), and the impls of library types ask for the trait of their type arguments."
  },
  {
   "property": "C73",
   "status": "proved",
   "theorems": [
    "Parsel.C73_eq",
    "Parsel.C73_locations",
    "Parsel.C73_equivalence",
    "Parsel.C73_hash",
    "Parsel.C73_display",
    "Parsel.C73_negative_zero",
    "Parsel.C73_layout",
    "Parsel.C73_from_str"
   ],
   "note": "Derived impls (rustc) are modelled as constructor plus children in order; == and hash of NotNan<f64> and of syn's tokens are assumptions (FloatCmpLaws)."
  },
  {
   "property": "C74",
   "status": "proved",
   "theorems": [
    "Parsel.C74_calls_suffice",
    "Parsel.C74_calls_needed",
    "Parsel.C74_calls_parse",
    "Parsel.C74_determined",
    "Parsel.C74_depth",
    "Parsel.C74_depth_delimiters",
    "Parsel.C74_json_depth",
    "Parsel.C74_iter_depth",
    "Parsel.C74_exponential",
    "Parsel.C74_iter_linear",
    "Parsel.C74_right_recursion",
    "Parsel.C74_right_assoc"
   ],
   "note": "work counts calls of Parse implementations (with multiplicity), not instructions; C74_calls_* show that the listed calls are exactly the ones the implementation depends on. Stack bytes per call are not modelled."
  },
  {
   "property": "C75",
   "status": "proved",
   "theorems": [
    "Parsel.C75_linear",
    "Parsel.C75_checked",
    "Parsel.C75_json",
    "Parsel.C75_iter",
    "Parsel.C75_decisive_needed"
   ],
   "note": "work counts calls of Parse implementations (C74), not instructions; cost of cloning token buffers and building error messages is not modelled."
  },
  {
   "property": "C76",
   "status": "proved",
   "theorems": [
    "Parsel.C76_sound",
    "Parsel.C76_complete",
    "Parsel.C76_printed",
    "Parsel.C76_language",
    "Parsel.C76_language_solid",
    "Parsel.C76_unambiguous",
    "Parsel.C76_ll1_needed",
    "Parsel.C76_separable_needed",
    "Parsel.C76_survives_needed"
   ],
   "note": "Exact equality (C76_language) for grammars with no operator that can be mistaken for a part of a longer one (separable, a computed check; C76_separable_needed); the values are those in which a Lit::Int is negative and no Punctuated ends in something without tokens (Survives: proved of everything accepted, and shown to be needed in C76_survives_needed); C76_language_solid is the statement without Survives for grammars where every value is so (a computed check). C76_complete covers other LL(1) grammars under an explicit condition on how operators are joined. Relative to FloatLaws and SignLaws for float literals; values without infinite floats."
  },
  {
   "property": "C77",
   "status": "proved",
   "theorems": [
    "Parsel.C77_bool",
    "Parsel.C77_bool_sentences",
    "Parsel.C77_iter_sentences",
    "Parsel.C77_rewrite",
    "Parsel.C77_bool_round_trip",
    "Parsel.C77_halts",
    "Parsel.C77_json",
    "Parsel.C77_json_round_trip"
   ],
   "note": "JSON half relative to FloatLaws and SignLaws, streams as the lexer makes them without -0, values without infinite floats; the Boolean half has no such conditions (round trip of text: FloatLaws as a parameter only)."
  },
  {
   "property": "C78",
   "status": "proved",
   "theorems": [
    "Parsel.C78_edit",
    "Parsel.C78_displayed",
    "Parsel.C78_pasted",
    "Parsel.C78_spaces_needed",
    "Parsel.C78_layout_needed"
   ],
   "note": "C78_edit is the general form; C78_displayed takes the text made by Display, C78_pasted a text that was read as the node. The edited value has to survive printing as in C76. C78_spaces_needed and C78_layout_needed show that the two conditions cannot be dropped."
  },
  {
   "property": "C79",
   "status": "proved",
   "theorems": [
    "Parsel.C79_template",
    "Parsel.C79_interpolated",
    "Parsel.C79_sound",
    "Parsel.C79_locations",
    "Parsel.C79_any_location",
    "Parsel.C79_any_location_rejected",
    "Parsel.C79_panics",
    "Parsel.C79_repeated",
    "Parsel.C79_not_hygienic"
   ],
   "note": "C79_interpolated (LL(1) grammars, nodes that survive printing as in C76) and C79_template (any grammar) are the main statements, C79_repeated adds repetitions; C79_not_hygienic is the counterexample without parentheses. The crate quote is modelled by its documented expansion (EXTERNAL); lifetimes in templates and interpolated values other than nodes are not modelled."
  },
  {
   "property": "C80",
   "status": "proved",
   "theorems": [
    "Parsel.C80_parses",
    "Parsel.C80_accepts",
    "Parsel.C80_fails",
    "Parsel.C80_one_chain",
    "Parsel.C80_one_tree",
    "Parsel.C80_only_tree",
    "Parsel.C80_values",
    "Parsel.C80_prints",
    "Parsel.C80_checked"
   ],
   "note": "C80_parses/C80_accepts/C80_fails (the parser), C80_one_tree/C80_only_tree (the tree is determined), C80_values (the type), C80_prints. Operators of different levels must not be prefixes of each other (C80_checked decides a sufficient condition); the last examples show what happens if two levels share an operator."
  },
  {
   "property": "C81",
   "status": "proved",
   "theorems": [
    "Parsel.C81_upgrade",
    "Parsel.C81_same_tokens",
    "Parsel.C81_accepts",
    "Parsel.C81_text",
    "Parsel.C81_back",
    "Parsel.C81_ll1_needed"
   ],
   "note": "C81_accepts (token streams), C81_text (source texts), C81_back (the way back), C81_ll1_needed (counterexample). Streams as in C76: made of ordinary tokens, without a literal -0 in two tokens; the old node can be printed."
  },
  {
   "property": "C82",
   "status": "proved",
   "theorems": [
    "Parsel.C82_congruence",
    "Parsel.C82_fields",
    "Parsel.C82_sound",
    "Parsel.C82_refactor",
    "Parsel.C82_programs",
    "Parsel.C82_blocks",
    "Parsel.C82_returns_needed"
   ],
   "note": "C82_congruence and C82_fields (exchanging parts), C82_sound (partial correctness of the rewritten program), C82_refactor/C82_programs (equivalence where it returns), C82_blocks (a worked refactoring of a recursive program), C82_returns_needed (counterexample)."
  },
  {
   "property": "C83",
   "status": "proved",
   "theorems": [
    "Parsel.C83_viable",
    "Parsel.C83_exact",
    "Parsel.C83_unread",
    "Parsel.C83_repair",
    "Parsel.C83_repair_exact",
    "Parsel.C83_source",
    "Parsel.C83_json",
    "Parsel.C83_shortened_needed"
   ],
   "note": "C83_viable (all productive grammars), C83_exact (groups read to the end), C83_unread (trailing tokens), C83_repair/C83_repair_exact (LL(1) grammars: the repaired stream is accepted), C83_source (texts), C83_json (README), C83_shortened_needed (the exception is needed). Samples and the other conditions are checked by evaluation (samples, groupsRead)."
  },
  {
   "property": "C84",
   "status": "proved",
   "theorems": [
    "Parsel.C84_exact",
    "Parsel.C84_source",
    "Parsel.C84_first",
    "Parsel.C84_json",
    "Parsel.C84_any_needed",
    "Parsel.C84_alternatives_needed",
    "Parsel.C84_end_needed",
    "Parsel.C84_ahead_needed"
   ],
   "note": "C84_exact (semantic conditions), C84_source (texts; the conditions are decided by the checker prompt), C84_first (LL(1), groups read to the end: both directions), C84_json (README). The conditions are needed: C84_any_needed (Any of something longer than a leaf), C84_alternatives_needed (variants that start alike), C84_end_needed (unfinished inputs; C04_end_of_input), C84_ahead_needed (operators of several characters)."
  },
  {
   "property": "C85",
   "status": "proved",
   "theorems": [
    "Parsel.C85_cmp",
    "Parsel.C85_trichotomy",
    "Parsel.C85_transitive",
    "Parsel.C85_equal",
    "Parsel.C85_locations",
    "Parsel.C85_partial_cmp",
    "Parsel.C85_layout"
   ],
   "note": "C85_cmp, C85_trichotomy, C85_transitive, C85_equal, C85_locations, C85_partial_cmp, C85_layout; EXTERNAL: derived Ord, Ord for NotNan<f64> (FloatOrdLaws), syn's Ident compares its text"
  },
  {
   "property": "C86",
   "status": "proved",
   "theorems": [
    "Parsel.C86_error",
    "Parsel.C86_same",
    "Parsel.C86_lexed",
    "Parsel.C86_laid",
    "Parsel.C86_layout",
    "Parsel.C86_relayout"
   ],
   "note": "C86_error, C86_same, C86_lexed, C86_laid, C86_layout, C86_relayout"
  },
  {
   "property": "C87",
   "status": "proved",
   "theorems": [
    "Parsel.C87_snippet",
    "Parsel.C87_ll1_needed"
   ],
   "note": "C87_snippet, C87_ll1_needed"
  },
  {
   "property": "C88",
   "status": "proved",
   "theorems": [
    "Parsel.C88_composed",
    "Parsel.C88_any",
    "Parsel.C88_separated",
    "Parsel.C88_many",
    "Parsel.C88_struct",
    "Parsel.C88_variant",
    "Parsel.C88_ll1_needed",
    "Parsel.C88_layout_needed"
   ],
   "note": "C88_composed, C88_any, C88_many, C88_separated, C88_struct, C88_variant, C88_ll1_needed, C88_layout_needed"
  },
  {
   "property": "C89",
   "status": "proved",
   "theorems": [
    "Parsel.C89_many_any",
    "Parsel.C89_separated",
    "Parsel.C89_trailing",
    "Parsel.C89_any_error",
    "Parsel.C89_many_error",
    "Parsel.C89_inside_differs",
    "Parsel.C89_item_needed"
   ],
   "note": "C89_many_any, C89_separated, C89_trailing, C89_any_error, C89_many_error, C89_inside_differs, C89_item_needed"
  },
  {
   "property": "C90",
   "status": "proved",
   "theorems": [
    "Parsel.C90_located",
    "Parsel.C90_only",
    "Parsel.C90_unclosed",
    "Parsel.C90_unexpected_close",
    "Parsel.C90_no_token"
   ],
   "note": "C90_located (every failing text), C90_only, C90_unclosed, C90_unexpected_close, C90_no_token (exact places)"
  },
  {
   "property": "C91",
   "status": "proved",
   "theorems": [
    "Parsel.C91_str",
    "Parsel.C91_byteStr",
    "Parsel.C91_char",
    "Parsel.C91_byte",
    "Parsel.C91_str_text",
    "Parsel.C91_byteStr_text",
    "Parsel.C91_char_text",
    "Parsel.C91_byte_text",
    "Parsel.C91_str_source"
   ],
   "note": "C91_str, C91_byteStr, C91_char, C91_byte: equivalence of acceptance with the grammars StrLit, CharLit (Spec/StrText) on the single token of the text; C91_…_text: every literal of the grammar, in every layout, is accepted with its value; C91_str_source: and nothing else, with the location."
  },
  {
   "property": "C92",
   "status": "proved",
   "theorems": [
    "Parsel.C92_uint",
    "Parsel.C92_int",
    "Parsel.C92_float",
    "Parsel.C92_apart",
    "Parsel.C92_uint_text",
    "Parsel.C92_int_text",
    "Parsel.C92_minus_text",
    "Parsel.C92_float_text",
    "Parsel.C92_minus_float_text",
    "Parsel.C92_uint_source",
    "Parsel.C92_lit_uint",
    "Parsel.C92_lit_float",
    "Parsel.C92_lit_int"
   ],
   "note": "C92_uint, C92_int, C92_float: equivalence of acceptance with the grammars IntLit (Spec/Literal) and FloatLit (Spec/NumText) on the tokens of the text; C92_…_text: every literal of the grammar, in every layout, is accepted with its value; C92_uint_source: and nothing else, with the location; C92_apart; C92_lit_uint, C92_lit_int, C92_lit_float: the kinds of Lit.  f64::from_str itself is external."
  },
  {
   "property": "C93",
   "status": "proved",
   "theorems": [
    "Parsel.C93_literal",
    "Parsel.C93_word",
    "Parsel.C93_keyword",
    "Parsel.C93_operator",
    "Parsel.C93_group"
   ],
   "note": "C93_literal, C93_word, C93_keyword, C93_operator, C93_group.  Documentation comments are excluded because their tokens are not written anywhere; the hypothesis is that no suffix of the text begins with one (C60 treats streams with documentation comments)."
  },
  {
   "property": "C94",
   "status": "proved",
   "theorems": [
    "Parsel.C94_doc",
    "Parsel.C94_doc_written",
    "Parsel.C94_substring",
    "Parsel.C94_minus_substring",
    "Parsel.C94_blank",
    "Parsel.C94_empty",
    "Parsel.C94_eof",
    "Parsel.C94_notEof",
    "Parsel.C94_ident",
    "Parsel.C94_word",
    "Parsel.C94_keyword",
    "Parsel.C94_bool",
    "Parsel.C94_str",
    "Parsel.C94_byteStr",
    "Parsel.C94_char",
    "Parsel.C94_byte",
    "Parsel.C94_uint",
    "Parsel.C94_int",
    "Parsel.C94_float",
    "Parsel.C94_lit",
    "Parsel.C94_operator"
   ],
   "note": "Both directions, at the level of the characters of the whole source text. The identifier characters are those of the model: letters, digits and underscores of ASCII and every non-ASCII character other than white space and the byte order mark (instead of XID_Start / XID_Continue)."
  },
  {
   "property": "C95",
   "status": "proved",
   "theorems": [
    "Parsel.C95_substring",
    "Parsel.C95_has_substring",
    "Parsel.C95_enclose",
    "Parsel.C95_inside"
   ],
   "note": "The converse (putting a parseable text between delimiters) is proved for laid out texts; it is not true of every text, as a body may end in a line comment that would swallow the closing delimiter."
  }
 ]
}