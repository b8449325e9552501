NOTES={
"C53":("proved","The only panic of the model is in EXTERNAL code: a literal token whose text is not a literal ; the theorem on token streams excludes such streams (the example shows the hypothesis is needed). C53_no_panic_source, for source texts, has no hypothesis: C53_lexed shows that every literal found by the lexer is read by syn's literal reader."),
"C08":("proved","The claim as worded in the docs is false; proved: exact characterisation of when the generated code is right, and a counterexample (`tokens` as field name)."),
"C58":("proved","False as worded: the code generated for an empty enum does not compile (C58_refuted). C58_arms: exactly when it compiles otherwise, and that there is an arm per variant."),
"C36":("proved","LitFloat is relative to the stated laws of f64 text (FloatLaws: shape of Display, reading Display back), shown satisfiable by a toy instance."),
"C37":("proved","The unrestricted claim is false; proved for all values but non-negative Lit::Int, proved that every such value changes, and refuted by the input -0."),
"C38":("proved","The unrestricted claim is false (1e999). Proved: a parsed node prints exactly if it contains no infinite float and no non-word keyword."),
"C59":("proved","Refuted for raw identifiers by witness; proved: a keyword value prints exactly if its spelling is a plain identifier."),
"C04":("proved","Proved on all streams without invisible groups whose positions increase (all lexed streams without documentation comments: C04_lexed), inside groups without further condition, at top level if no variant fails at the end of the input; there it is refuted by a witness (C04_end_of_input), since the end of the input is located at the call site. A number with a minus sign that is rejected counts as failing at its literal. C04_either, C04_either_group: the same for Either."),
"C11":("proved","Relative to FloatLaws for float literals; `-0` read as LitInt prints as `0` (same value, the sign token is not kept)."),
"C12":("proved","Grammars: LL(1) as defined in Spec/Predict.lean, with a checker that is proved sound (ll1, Spec/LL1.lean). Values: `Survives` excludes only what provably cannot come back (C37: non-negative Lit::Int; operators containing a quote; a Punctuated that ends in an item or separator without tokens); it always holds of parsed values but for -0 read as a Lit (C12_parsed_survives), and of all values of grammars that pass a computed check (C12_solid). Relative to FloatLaws for float literals. That the condition on grammars is needed is a theorem (C12_ambiguous)."),
"C13":("proved","For LL(1) grammars (C12) and values whose leaves have a textual form; uses the model of proc_macro2's lexer. Relative to FloatLaws for float literals."),
"C15":("proved",""),
"C40":("proved","For all streams with a textual form (Spec.Writable: proper identifiers and literals; a joint flag only where the next token may follow directly), and all streams that the lexer produces; the lexer of proc_macro2 is part of the model."),
"C42":("proved","The level leak after an error is a theorem, too."),
"C45":("proved","Relative to FloatLaws for float literals."),
"C61":("proved","Relative to FloatLaws and SignLaws (signs of f64 texts), shown satisfiable by signExt. Each condition is shown to be needed by a witness (C61_needs_*)."),
"C62":("proved","Idempotence inherits the conditions of C61 (any grammar, parsed values) or C12 (LL(1) grammars, any value)."),
"C63":("proved","The specification (Spec/Peg.lean) has no streams, forks, cells, fuel or error messages; the equivalence is proved in both directions. Divergence: on readable streams (C53)."),
"C64":("proved","C64_leaf_fails: on readable streams (C53)."),
"C65":("proved","Hypothesis PrintsOk: distinct names (rustc requires them) and no field called `tokens` in a struct-like variant (C08)."),
"C66":("proved","Layout: closed comments only (a line comment ends with its line break); a dot after a number, a sign after a number with an `e` and `'`, `#` after a word need white space. The lexer is a model of proc_macro2's fallback lexer (EXTERNAL). C66_file: also a byte order mark in front and an unclosed line comment at the end. C66_formatted and C66_displayed: what pretty, compact and to_string write is such a layout."),
"C67":("proved","Relative to FloatLaws for floats. What syn::LitByte::new makes of a byte differs between versions of syn: a parameter of the model, assumed to keep the value."),
"C68":("proved","A positive Lit::Int (C37) and an Ident that is a Rust keyword are excluded: they are legal values, but are not read back."),
"C69":("proved",""),
"C70":("proved","Equality includes divergence: where one type runs for ever, so does the other. Error messages and locations are not compared. Follows from the PEG semantics proved equivalent to the code in C63."),
"C71":("proved","Error messages (which mention the names) are not compared."),
"C72":("proved","rustc's trait solver is modelled as the least set closed under the impls (no cycles), and the impls of library types ask for the trait of their type arguments."),
"C73":("proved","Derived impls (rustc) are modelled as constructor plus children in order; == and hash of NotNan<f64> and of syn's tokens are assumptions (FloatCmpLaws)."),
"C74":("proved","work counts calls of Parse implementations (with multiplicity), not instructions; C74_calls_* show that the listed calls are exactly the ones the implementation depends on. Stack bytes per call are not modelled."),
"C75":("proved","work counts calls of Parse implementations (C74), not instructions; cost of cloning token buffers and building error messages is not modelled."),
"C76":("proved","Exact equality (C76_language) for grammars with no operator that can be mistaken for a part of a longer one (separable, a computed check; C76_separable_needed); the values are those in which a Lit::Int is negative and no Punctuated ends in something without tokens (Survives: proved of everything accepted, and shown to be needed in C76_survives_needed); C76_language_solid is the statement without Survives for grammars where every value is so (a computed check). C76_complete covers other LL(1) grammars under an explicit condition on how operators are joined. Relative to FloatLaws and SignLaws for float literals; values without infinite floats."),
"C77":("proved","JSON half relative to FloatLaws and SignLaws, streams as the lexer makes them without -0, values without infinite floats; the Boolean half has no such conditions (round trip of text: FloatLaws as a parameter only)."),
"C78":("proved","C78_edit is the general form; C78_displayed takes the text made by Display, C78_pasted a text that was read as the node. The edited value has to survive printing as in C76. C78_spaces_needed and C78_layout_needed show that the two conditions cannot be dropped."),
"C79":("proved","C79_interpolated (LL(1) grammars, nodes that survive printing as in C76) and C79_template (any grammar) are the main statements, C79_repeated adds repetitions; C79_not_hygienic is the counterexample without parentheses. The crate quote is modelled by its documented expansion (EXTERNAL); lifetimes in templates and interpolated values other than nodes are not modelled."),
"C80":("proved","C80_parses/C80_accepts/C80_fails (the parser), C80_one_tree/C80_only_tree (the tree is determined), C80_values (the type), C80_prints. Operators of different levels must not be prefixes of each other (C80_checked decides a sufficient condition); the last examples show what happens if two levels share an operator."),
"C81":("proved","C81_accepts (token streams), C81_text (source texts), C81_back (the way back), C81_ll1_needed (counterexample). Streams as in C76: made of ordinary tokens, without a literal -0 in two tokens; the old node can be printed."),
"C82":("proved","C82_congruence and C82_fields (exchanging parts), C82_sound (partial correctness of the rewritten program), C82_refactor/C82_programs (equivalence where it returns), C82_blocks (a worked refactoring of a recursive program), C82_returns_needed (counterexample)."),
"C83":("proved","C83_viable (all productive grammars), C83_exact (groups read to the end), C83_unread (trailing tokens), C83_repair/C83_repair_exact (LL(1) grammars: the repaired stream is accepted), C83_source (texts), C83_json (README), C83_shortened_needed (the exception is needed). Samples and the other conditions are checked by evaluation (samples, groupsRead)."),
"C84":("proved","C84_exact (semantic conditions), C84_source (texts; the conditions are decided by the checker prompt), C84_first (LL(1), groups read to the end: both directions), C84_json (README). The conditions are needed: C84_any_needed (Any of something longer than a leaf), C84_alternatives_needed (variants that start alike), C84_end_needed (unfinished inputs; C04_end_of_input), C84_ahead_needed (operators of several characters)."),
"C85":("proved","C85_cmp, C85_trichotomy, C85_transitive, C85_equal, C85_locations, C85_partial_cmp, C85_layout; EXTERNAL: derived Ord, Ord for NotNan<f64> (FloatOrdLaws), syn's Ident compares its text"),
"C86":("proved","C86_error, C86_same, C86_lexed, C86_laid, C86_layout, C86_relayout"),
"C87":("proved","C87_snippet, C87_ll1_needed"),
"C88":("proved","C88_composed, C88_any, C88_many, C88_separated, C88_struct, C88_variant, C88_ll1_needed, C88_layout_needed"),
"C89":("proved","C89_many_any, C89_separated, C89_trailing, C89_any_error, C89_many_error, C89_inside_differs, C89_item_needed"),
"C90":("proved","C90_located (every failing text), C90_only, C90_unclosed, C90_unexpected_close, C90_no_token (exact places)"),
"C91":("proved","C91_str, C91_byteStr, C91_char, C91_byte: equivalence of acceptance with the grammars StrLit, CharLit (Spec/StrText) on the single token of the text; C91_\u2026_text: every literal of the grammar, in every layout, is accepted with its value; C91_str_source: and nothing else, with the location."),
"C92":("proved","C92_uint, C92_int, C92_float: equivalence of acceptance with the grammars IntLit (Spec/Literal) and FloatLit (Spec/NumText) on the tokens of the text; C92_\u2026_text: every literal of the grammar, in every layout, is accepted with its value; C92_uint_source: and nothing else, with the location; C92_apart; C92_lit_uint, C92_lit_int, C92_lit_float: the kinds of Lit.  f64::from_str itself is external."),
"C93":("proved","C93_literal, C93_word, C93_keyword, C93_operator, C93_group.  Documentation comments are excluded because their tokens are not written anywhere; the hypothesis is that no suffix of the text begins with one (C60 treats streams with documentation comments)."),
"C94":("proved","Both directions, at the level of the characters of the whole source text. The identifier characters are those of the model: letters, digits and underscores of ASCII and every non-ASCII character other than white space and the byte order mark (instead of XID_Start / XID_Continue)."),
"C95":("proved","The converse (putting a parseable text between delimiters) is proved for laid out texts; it is not true of every text, as a body may end in a line comment that would swallow the closing delimiter."),
}
