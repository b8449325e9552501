#!/usr/bin/env python3
"""Generates /verif/properties.jsonl (run from anywhere)."""
import json, os
AST="parsel/src/ast.rs"; UT="parsel/src/util.rs"; DP="parsel_derive/src/parse.rs"
DT="parsel_derive/src/to_tokens.rs"; DU="parsel_derive/src/util.rs"
DD="parsel_derive/src/display.rs"; DF="parsel_derive/src/from_str.rs"
P=[]
def p(id,title,statement,quantifier,why,anchors):
    P.append(dict(id=id,title=title,statement=statement,quantifier=quantifier,why_tests_cant=why,anchors=anchors))

p("C01","Derived struct parser is sequencing in declaration order",
 "Parsing a struct that derives Parse succeeds exactly when its fields, parsed one after another in declaration order, each starting where the previous one stopped, all succeed; the node then holds those values in that order and the stream stands where the last field stopped. If some field fails, the whole parse fails and no later field is attempted.",
 "all structs (named, tuple, unit; any number of fields), all field parsers, all input streams",
 "Any finite set of structs and inputs leaves other arities, field parsers and streams untried.",
 [f"{DP}::expand_struct",f"{DP}::expand_fields"])
p("C02","Derived enum parser is ordered choice with full backtracking",
 "Parsing an enum that derives Parse tries the variants in source order from the same stream position and returns the first one that succeeds, leaving the stream exactly where that variant left it; tokens looked at by failed earlier variants are not consumed and have no effect; later variants are irrelevant.",
 "all enums with any number of variants, all variant parsers, all input streams",
 "Tests sample a few enums; the claim is about every list of variants and every stream, including streams where many variants fail late.",
 [f"{DP}::expand_enum",f"{DP}::expand_variants",f"{UT}::try_parse_variant"])
p("C03","Which error a failed alternation reports",
 "When every variant of a (non-empty) enum fails, the reported error is one of the variants' own errors, its span end is greatest among them, and among equally far ones it is the error of the last such variant. The same holds for Either with two alternatives.",
 "all numbers of variants and all errors they may produce",
 "The accumulator is folded over an arbitrary number of variants; ties and orderings are unbounded.",
 [f"{UT}::try_parse_variant",f"{DP}::expand_variants",f"{AST}::Either::parse"])
p("C04","The variant that got furthest in the token stream supplies the error",
 "README: when no variant parses, the error reported is that of the variant that advanced furthest in the token stream before failing; and likewise for the two sides of Either (the right one if both got equally far). (Holds when every variant failed at a token of the stream; it is FALSE when the furthest variant failed at the end of the top-level input, whose error is located at the call site.)",
 "all enums and Eithers and all token streams with positions increasing along the stream",
 "Depends on where each alternative fails for every possible stream, including failures at end of input.",
 [f"{UT}::try_parse_variant",f"{AST}::Either::parse","README.md::Span and Error Reporting"])
p("C05","Empty enums never parse; unit variants always parse",
 "Parsing an enum without variants fails on every input with its dedicated message; a unit struct or unit variant parses on every input and consumes nothing.",
 "all input streams",
 "Must hold for every stream.",
 [f"{DP}::expand_enum",f"{DP}::expand_fields"])
p("C06","Errors keep the innermost location and gain the full production path",
 "If a nested field fails, the error that reaches the caller has the span of the original innermost error, and its message is the original message prefixed by one 'error parsing Type::field' (or Enum::Variant::field) line per enclosing production, outermost first, with tuple fields named by their index.",
 "all nesting depths of derived productions and all underlying errors",
 "Depth of nesting is unbounded.",
 [f"{UT}::chain_error",f"{DP}::expand_fields"])
p("C07","Derived printing emits the fields in declaration order, of the active variant only",
 "to_tokens of a struct deriving ToTokens is the concatenation of its fields' tokens in declaration order; of an enum it is the concatenation of the fields of the active variant and nothing else.",
 "all struct/enum shapes and all values",
 "Every arity, shape and variant, not just sampled ones.",
 [f"{DT}::expand_struct",f"{DT}::expand_variants"])
p("C08","Deriving ToTokens works for every legal field name",
 "The code generated for ToTokens refers to the intended field and to the intended output stream whatever the fields are called. (FALSE for a struct-like enum variant with a field called `tokens` (or `r#tokens`), which captures the output parameter; true for all other names, and for structs.)",
 "all field and variant names",
 "Names are an infinite domain; tests use a handful.",
 [f"{DT}::expand_variants",f"{DT}::expand"])
p("C09","Unions are rejected by both derives",
 "Deriving Parse or ToTokens for a union is always a compile error and never produces an impl; for structs and enums with well-formed attributes an impl is always produced.",
 "all derive inputs",
 "Ranges over all item shapes.",
 [f"{DP}::expand",f"{DT}::expand",f"{DU}::add_bounds"])
p("C10","Generated where clause",
 "The where clause of a derived impl contains the user's own predicates unchanged and in order, followed by exactly one bound for each distinct type that occurs in at least one field not marked #[parsel(recursive)], and no bound for a type all of whose fields are so marked (so a type occurring in several fields is only exempted if all of them are marked). A malformed attribute on any field makes the derive fail.",
 "all derive inputs, all sets of field types and markings, all hash-set iteration orders",
 "Unbounded numbers of fields/variants and arbitrary hash iteration order.",
 [f"{DU}::add_bounds",f"{DU}::field_type","README.md::Recursive AST Nodes and Cyclic Constraints"])
p("C11","Printing a parsed node reproduces the input tokens",
 "If parsing a whole token stream as any grammar type succeeds, then printing the resulting node yields the original tokens in the original order - same identifiers, same punctuation characters, same nesting of delimiters, literals of the same value - with nothing lost, invented or reordered; only source locations, invisible (None-delimited) groups, the join flag of punctuation and the spelling of literals may differ.",
 "all grammars built from the crate's types and (mutually recursive) derived types, all token streams",
 "Universally quantified over grammars and inputs (tests/roundtrip.rs checks one of each).",
 ["parsel/tests/roundtrip.rs::to_tokens_of_parse_is_identity",f"{AST}::Parse impls",f"{AST}::ToTokens impls",f"{DP}",f"{DT}"])
p("C12","Parsing a printed node gives the node back (unambiguous grammars)",
 "For every grammar whose alternatives, optional parts, repetitions and separators are distinguishable by their first leaf (LL(1) at leaf level), every value of every type of the grammar survives to_tokens followed by parsing: the result equals the original and all tokens are consumed.",
 "all such grammars, all values of all their types, all continuations that cannot be mistaken for a continuation of the node",
 "Universally quantified over grammars and trees of unbounded depth (tests/roundtrip.rs checks one tree).",
 ["parsel/tests/roundtrip.rs::parse_of_to_tokens_is_identity",f"{AST}",f"{DP}",f"{DT}"])
p("C13","from_str undoes to_string",
 "For every value of an unambiguous grammar, displaying it (pretty or compact) and reading the text back with FromStr gives a value equal to the original (locations aside).",
 "all unambiguous grammars, all their values with printable leaves, both display modes",
 "Unbounded values; needs the printer, the lexer and the parser to agree on all of them.",
 [f"{DD}",f"{DF}",f"{UT}::format_ast_node",f"{AST}::Display/FromStr impls"])
p("C14","from_str / parse_str / parse2 accept only complete inputs",
 "A top-level parse returns Ok only if every token of the input, at every nesting level, was consumed by the grammar; leftover tokens after the production or inside any delimited group make it return Err.",
 "all grammars, all token streams",
 "All inputs with leftovers anywhere at any depth.",
 [f"{AST}::FromStr impls",f"{AST}::Paren::parse",f"{AST}::Bracket::parse",f"{AST}::Brace::parse"])
p("C15","Leftovers found during speculative parsing are not forgotten",
 "If a speculatively parsed alternative, optional prefix, separator or repetition item succeeded while leaving tokens unread inside a delimited group, the eventual top-level parse fails; conversely a discarded speculation (failed alternative, absent optional, end of a repetition) never makes a top-level parse fail.",
 "all alternatives/optionals/repetitions, all streams and histories of forks",
 "Depends on arbitrary nesting of forks.",
 [f"{UT}::try_parse_variant",f"{AST}::Maybe::parse",f"{AST}::Separated::parse",f"{AST}::Any::parse",f"{AST}::Either::parse"])
p("C16","Maybe: absent exactly when its prefix does not parse; committed once it does",
 "Parsing Maybe<P, T> never fails because of P: if P does not parse, the result is empty and nothing is consumed; if P parses, the result is present, T must parse next and its failure is the failure of the whole.",
 "all P, T, all streams",
 "All parsers and streams.",
 [f"{AST}::Maybe::parse"])
p("C17","Paren, Bracket and Brace accept exactly one group of their own delimiter",
 "Parsing succeeds only if the next token is a group with the matching delimiter whose contents start with the inner production; it consumes exactly that one token tree; printing yields exactly one group of that delimiter containing exactly the inner tokens.",
 "all inner types, all streams",
 "All contents and nestings.",
 [f"{AST}::Paren",f"{AST}::Bracket",f"{AST}::Brace"])
p("C18","Punctuated / Many consume the whole stream",
 "Punctuated<T, P> succeeds exactly if the entire remaining stream is an alternation T P T P ... with an optional trailing P (or nothing at all), and then leaves nothing; values and separators are stored in order. Many<T> is the same with nothing between the items.",
 "all T, P, all streams of any length",
 "Unbounded repetition.",
 [f"{AST}::Punctuated::parse",f"{AST}::Many"])
p("C19","Separated: one or more items, never a trailing separator",
 "Separated<T, P> succeeds exactly if the stream starts with T (P T)* where the repetition stops at the first place where P does not parse; a P that is not followed by T is an error; result is non-empty, has no trailing separator and keeps order.",
 "all T, P, all streams of any length",
 "Unbounded repetition.",
 [f"{AST}::Separated::parse"])
p("C20","Any: greedy, never fails, leaves the first non-matching item unread",
 "Any<T> collects consecutive Ts as long as T parses and stops in front of the first position where T fails, consuming nothing of it; it never returns an error.",
 "all T, all streams of any length",
 "Unbounded repetition.",
 [f"{AST}::Any::parse"])
p("C21","LeftAssoc builds the left-leaning tree of the parsed sequence",
 "Parsing a op1 b op2 c ... yields the tree ((a op1 b) op2 c) ...: it accepts exactly what Separated accepts, the in-order reading of the tree is the parsed sequence, and every right operand is a bare next-level operand. Printing gives the sequence back.",
 "all operand/operator types, all sequences of any length",
 "Unbounded number of operators.",
 [f"{AST}::LeftAssoc"])
p("C22","RightAssoc builds the right-leaning tree of the parsed sequence",
 "Parsing a op1 b op2 c ... yields a op1 (b op2 (c ...)); same acceptance as Separated, in-order reading is the parsed sequence, every left operand is a bare next-level operand, printing gives the sequence back.",
 "all operand/operator types, all sequences of any length",
 "Unbounded number of operators.",
 [f"{AST}::RightAssoc"])
p("C23","Either prefers the left alternative and backtracks",
 "Either<L, R> parses as Left exactly if L parses; as Right exactly if L does not and R does, from the same position; it consumes what the chosen side consumes.",
 "all L, R, all streams",
 "All parsers and streams.",
 [f"{AST}::Either::parse"])
p("C24","Empty, Eof and NotEof never consume and are complementary",
 "Empty always parses; at every point of every stream exactly one of Eof and NotEof parses, Eof exactly at the end of the current group or input; none of them consumes anything and all print nothing.",
 "all streams and positions",
 "All positions of all streams.",
 [f"{AST}::Empty",f"{AST}::Eof",f"{AST}::NotEof"])
p("C25","CustomIdent accepts exactly the words outside its keyword list",
 "CustomIdent<K> accepts exactly one identifier token and exactly those whose spelling (including any r# prefix) is not in the list; Word accepts every identifier token, including Rust keywords and underscore; TryFrom<Ident> agrees with parsing. A listed word is reported as a keyword, at that word.",
 "all keyword lists, all identifiers, all streams",
 "Infinitely many identifiers and lists.",
 [f"{AST}::CustomIdent",f"{AST}::Word",f"{AST}::KeywordList"])
p("C26","define_keywords!: keyword types and the identifier type partition the words",
 "A keyword type accepts exactly its own spelling. For any define_keywords! block, each word is accepted either by CustomIdent<Keywords> or by at least one of the block's keyword types, never by both; this includes the underscore entry. Any other word is reported at that word, naming the keyword that was expected.",
 "all keyword blocks and all identifier tokens",
 "Infinitely many words and blocks.",
 [f"{AST}::define_keywords"])
p("C27","Separated can never become empty or end in a separator",
 "Starting from any parsed or converted Separated, any sequence of insert, push, push_value, extend(values), extend(pairs), and changes through first_mut, last_mut, iter_mut, pairs_mut and IndexMut keeps it non-empty without trailing separator, so len, first, last, into_first_rest, into_last_rest never panic; TryFrom<Punctuated> accepts exactly the non-empty sequences without trailing separator. The only operations that can panic are insert with an index beyond the length and indexing beyond the end. Each operation changes the sequence of values and separators as documented and nothing else.",
 "all histories of mutating operations",
 "Arbitrary operation histories.",
 [f"{AST}::Separated"])
p("C28","into_first_rest / into_last_rest are lossless",
 "Both decompositions return all values and separators in order: first followed by (separator, value) pairs, respectively (value, separator) pairs followed by last, is the original sequence; and they are consistent with first(), last() and len().",
 "all Separated values of any length",
 "Unbounded length.",
 [f"{AST}::Separated::into_first_rest",f"{AST}::Separated::into_last_rest"])
p("C29","Parsing terminates for well-founded grammars",
 "If no type can reach itself without consuming a token first (no left recursion) and no repetition has a body that can succeed without consuming, then parsing any type of the grammar terminates on every input (with Ok or Err).",
 "all such grammars (any mutual recursion), all token streams",
 "Termination is about all inputs of all lengths.",
 ["README.md::Dealing with Left Recursion",f"{AST}::Any::parse",f"{AST}::Separated::parse",f"{AST}::LeftAssoc::parse"])
p("C30","Left recursion and empty repetition bodies diverge; LeftAssoc does not",
 "A production that starts by parsing itself (left recursion in the first alternative) never terminates on any input, and one whose later alternative does never terminates where all earlier alternatives fail; Any/Many, Separated, LeftAssoc and RightAssoc whose round succeeds without consuming never terminate there; the LeftAssoc formulation of the same left-recursive operator grammar always terminates.",
 "all inputs",
 "Non-termination (in Rust: endless recursion until the stack is gone, or an endless loop) cannot be settled by a test.",
 ["README.md::Dealing with Left Recursion",f"{AST}::Any::parse",f"{AST}::LeftAssoc"])
p("C31","Source locations never influence what is parsed",
 "Two token streams that differ only in source locations parse alike: both succeed, with values equal up to locations and the same number of tokens left, or both fail.",
 "all grammars, all pairs of such streams",
 "All streams and location assignments.",
 [f"{UT}::try_parse_variant",f"{AST}::Parse impls"])
p("C32","A production reads a prefix and leaves the rest untouched",
 "After any successful parse of any type the remaining stream is a suffix of the original one (up to entering invisible groups): no token is skipped, duplicated or reordered.",
 "all grammars, all streams",
 "All grammars and streams.",
 [f"{AST}::Parse impls",f"{DP}"])
p("C33","LitByte prints every byte as a valid byte literal",
 "For each of the 256 byte values the token printed by LitByte fits its fixed 8-byte buffer, is ASCII, is a byte literal by the grammar of the Rust reference (no unescaped quote, backslash or control character), and denotes that very byte.",
 "all bytes",
 "Finite but the claim combines buffer bound, escaping and reading back for each value.",
 [f"{AST}::LitByte::token"])
p("C34","Integer literals are accepted exactly when in range, never wrapped",
 "LitInt parses an integer literal (with optional minus sign) exactly if its value lies in i64's range and LitUint exactly if it lies in u64's range (no sign); the parsed value is the mathematical value of the literal.",
 "all integer literals of any length",
 "Infinitely many literals, boundaries at both ends.",
 [f"{AST}::LitInt",f"{AST}::LitUint",f"{AST}::Lit::try_from"])
p("C35","Lit classifies every literal consistently",
 "Lit parses a literal as the variant of its kind; an integer becomes Int exactly if it is written with a minus sign and Uint otherwise; the value agrees with the one the specific literal type (LitBool, LitStr, ...) would produce on the same input; C-string and unparseable literals are errors.",
 "all literal tokens",
 "Infinitely many literals.",
 [f"{AST}::Lit::try_from",f"{AST}::Lit::parse"])
p("C36","Literal types survive print and parse",
 "For LitBool, LitByte, LitInt, LitUint, LitChar, LitStr, LitByteStr (any value) and LitFloat (finite value), parsing the printed token gives back an equal literal with the same location, consuming exactly the printed tokens.",
 "all values of each literal type and all following tokens",
 "Infinite value domains (strings, byte strings, 64-bit integers).",
 [f"{AST}::impl_literal",f"{AST}::Lit*::token"])
p("C37","Lit survives print and parse",
 "Printing any Lit and parsing it back gives an equal Lit. (FALSE for Lit::Int holding a non-negative value, which reads back as Lit::Uint; in particular the input `-0` does not survive parse-print-parse. True for all other values.)",
 "all Lit values",
 "Infinite domain.",
 [f"{AST}::Lit",f"{AST}::Lit::try_from"])
p("C38","Printing a parsed node never panics",
 "Any node obtained by parsing can be printed without panicking. (FALSE: a float literal that overflows to infinity, such as 1e999, parses as LitFloat but its token() panics; true for nodes without infinite floats.)",
 "all grammars, all inputs",
 "All inputs; the failing ones are overflowing literals.",
 [f"{AST}::LitFloat::token",f"{AST}::LitFloat::try_from"])
p("C39","Literal equality, ordering and hashing agree and ignore locations",
 "For literal types, equality is equality of values, ordering is the order of values, equal literals hash alike, comparison with raw values agrees with comparison of literals, and none of it depends on locations.",
 "all pairs/triples of values and locations",
 "Infinite domain.",
 [f"{AST}::impl_literal"])
p("C40","Pretty-printed token streams read back as the same tokens",
 "Formatting a token stream with any whitespace indentation and lexing the text gives the same token stream back (locations aside), for all well-formed streams without invisible groups.",
 "all well-formed token streams of any size and nesting, all indentation strings",
 "tests/token_fmt_qc.rs samples random small streams.",
 [f"{UT}::TokenStreamFormatter::write","parsel/tests/token_fmt_qc.rs"])
p("C41","Compact output is one line and reads back as the same tokens",
 "Compact formatting adds no line break or indentation (the text has line breaks only inside literals) and lexing it gives the same token stream back; compact and pretty outputs read back identically.",
 "all well-formed token streams",
 "Unbounded streams.",
 [f"{UT}::TokenStreamFormatter::compact",f"{UT}::TokenStreamFormatter::write"])
p("C42","The formatter restores its nesting level; a failing writer only truncates",
 "After a successful write the formatter is back at its previous nesting level, so consecutive writes on one formatter are independent. If the underlying writer fails at any call, write returns an error and what was written is a prefix of the full output. (After such an error the level may stay raised: later writes are over-indented.)",
 "all streams, all failure points, all histories of writes",
 "Every failure point of every stream.",
 [f"{UT}::TokenStreamFormatter::write",f"{UT}::TokenStreamFormatter::write_indent"])
p("C43","with_indent accepts exactly whitespace",
 "with_indent succeeds exactly if every character of the indentation string is whitespace (including the empty string).",
 "all strings",
 "Infinite domain.",
 [f"{UT}::TokenStreamFormatter::with_indent"])
p("C44","Layout of pretty output",
 "In pretty output, the contents of a non-empty group start on a new line indented one level deeper than the line of the group, the closing delimiter is on its own line at the group's level, and an empty group is printed as just its two delimiters.",
 "all streams, levels and indentation strings",
 "Unbounded nesting.",
 [f"{UT}::TokenStreamFormatter::write"])
p("C45","Display honours the alternate flag",
 "Display of any node type prints the tokens of the node: compactly with the alternate flag, pretty without; both read back as the same tokens. Literals and words display exactly their token.",
 "all nodes",
 "All nodes.",
 [f"{UT}::format_ast_node",f"{UT}::format_tokens",f"{DD}",f"{AST}::Display impls"])
p("C46","byte_range and source_substring locate exactly the node's text",
 "For every source text and every node spanning a stretch of it, byte_range is the byte interval of exactly that stretch (multi-byte characters and line breaks included) and source_substring returns exactly that text.",
 "all source texts and all stretches",
 "All texts, including multi-byte and multi-line ones.",
 [f"{UT}::byte_offset",f"{UT}::SpannedExt"])
p("C47","char_range locates exactly the node's text",
 "For every source text and every stretch of it, char_range is the character interval of exactly that stretch.",
 "all source texts and all stretches",
 "All texts.",
 [f"{UT}::char_offset",f"{UT}::SpannedExt"])
p("C48","byte_range is always within the text and on character boundaries",
 "Whatever text a span is resolved against (even one it does not come from), both ends of byte_range are within the text, on character boundaries, and in order if the span's ends are in order; so source_substring never panics. (char_range offers no such guarantee: it can exceed the text or be inverted.)",
 "all texts and all spans",
 "All mismatched text/span pairs.",
 [f"{UT}::byte_offset",f"{UT}::char_offset",f"{UT}::SpannedExt::source_substring"])
p("C49","Formatted spans are 1-based, inclusive and unambiguous",
 "A span is displayed as start line:column..end line:column with 1-based start column and inclusive end column, and two spans display alike only if they are the same range.",
 "all spans",
 "Infinite domain.",
 [f"{UT}::SpanDisplay"])
p("C50","Either behaves as a lawful sum",
 "flip is an involution exchanging left and right; exactly one of left()/right() is present; map is functorial; transpose commutes with the injections; iterating an Either of iterators yields exactly the items of the active side wrapped in that side, from the front, back, nth, last and count alike.",
 "all values, functions and iterators",
 "All values and functions.",
 [f"{AST}::Either"])
p("C51","Reported error locations come from the input",
 "Every error of any grammar is located at a token of the input, at the closing delimiter of one of its groups, or (only at the end of the top-level input) at the location given for the end of input.",
 "all grammars, all inputs",
 "All failing inputs.",
 [f"{UT}::chain_error",f"{UT}::try_parse_variant",f"{AST}::Parse impls"])
p("C52","Parsed values conform to their grammar type",
 "Every successfully parsed value conforms to its type: Separated and both assoc trees are non-empty, enum values are an existing variant with all its fields of the declared types, CustomIdents are never keywords, and so on.",
 "all grammars, all inputs",
 "All grammars and inputs.",
 [f"{AST}::Parse impls",f"{DP}"])
p("C53","Parsing never panics",
 "No parse of any grammar on any input hits a panic (non-empty expectations, unreachable branches, separator assertions of the underlying list).",
 "all grammars, all inputs",
 "All grammars and inputs.",
 [f"{AST}::Separated",f"{AST}::LeftAssoc::parse",f"{AST}::RightAssoc::parse",f"{AST}::Punctuated::parse"])
p("C54","Keyword values compare consistently",
 "Values of one keyword type are all equal, ordered Equal and hash alike regardless of location; comparison with strings is comparison of the spelling; equality and ordering agree.",
 "all keywords, strings, locations",
 "Infinite domain.",
 [f"{AST}::define_keywords"])
p("C55","Maybe accessors and conversions agree",
 "prefix, inner and parts views of a Maybe are projections of the same optional pair; building from parts, option or value and taking apart gives back what was put in; iteration yields zero or one item accordingly; printing is the prefix then the rest, or nothing.",
 "all Maybe values",
 "All values.",
 [f"{AST}::Maybe"])
p("C56","Punctuated collections: building and taking apart are inverse",
 "Collecting values (default separators between them, none trailing) or pairs and iterating gives the same values/pairs in order; len, is_empty, indexing agree with iteration; printing is the interleaving of values and separators. The mutable views (iter_mut, pairs_mut, first_mut, last_mut, index) change exactly the items they show and leave all others and the separators alone; push_value, push_punct, push, insert and extend have exactly the documented effect and panic exactly when documented.",
 "all sequences of any length",
 "Unbounded length.",
 [f"{AST}::Punctuated",f"{AST}::Any"])
p("C57","Parsing is a function of the stream",
 "Parsing the same type on the same stream always gives the same outcome; a failed or discarded speculative parse leaves the parent stream exactly as before.",
 "all grammars, all streams",
 "All streams and fork histories.",
 [f"{UT}::try_parse_variant",f"{AST}::Maybe::parse",f"{AST}::Either::parse",f"{AST}::Any::parse"])

p("C58","Deriving ToTokens works for every enum, including an empty one",
 "The code generated by derive(ToTokens) for an enum has an arm for every variant and compiles. (FALSE for an enum without variants: the generated `match self {}` matches on a reference, which rustc rejects as non-exhaustive, although derive(Parse) supports empty enums.)",
 "all enums",
 "All enum shapes.",
 [f"{DT}::expand_enum"])
p("C59","Every keyword value can be printed",
 "A keyword type declared by define_keywords! that parses can also be printed. (FALSE for a keyword written as a raw identifier, e.g. `r#try => Try;`: its spelling contains `r#`, the type parses `r#try`, but token() calls Ident::new with that spelling and panics. True for all keywords that are not raw identifiers.)",
 "all keyword declarations",
 "All keyword spellings.",
 [f"{AST}::define_keywords"])
p("C60","Tokens and nodes are located where they are in the source text",
 "Parsing a source text (from_str): the span of every token, resolved against the source, is the text of that token (or the documentation comment it comes from); the tokens lie in the source one after the other with only white space and comments between them. For every node of the resulting tree that has any tokens, span() runs from the beginning of the first to the end of the last token the node was read from, and source_substring() is the source from there to there; for the whole tree it is the source without blanks at both ends.",
 "all source texts, all grammars, all nodes of the tree",
 "All source texts, grammars and trees.",
 [f"{UT}::SpannedExt",f"{UT}::byte_offset"])

p("C61","Parsing, printing and parsing again is stable in every grammar",
 "If a stream is accepted with the value v, then the tokens v prints as are accepted with exactly the value v again - in every grammar, not only LL(1) ones - provided that (1) the stream is as the lexer makes them, (2) it has no minus sign before an integer zero, (3) where printing separates punctuation characters that were joined in the input, no operator of the grammar has these two characters next to each other. For source text: from_str of to_string (pretty or compact) of a value returned by from_str gives that value up to locations. (Without any one of these conditions it is FALSE: witnesses.) Condition (3) holds for every input of a grammar, LL(1) or not, in which no operator can be followed by one that would extend it to a part of a longer operator: a check by computation.",
 "all grammars, all accepted streams and source texts",
 "All grammars and inputs; the second parse takes different branches at different positions.",
 [f"{UT}::try_parse_variant",f"{DP}::expand_enum",f"{DT}::expand",f"{AST}::Lit",f"{AST}::Maybe"])
p("C62","Printing does not depend on locations, and formatting is idempotent",
 "Values that differ only in source locations have the same to_string, pretty and compact (and panic alike), on every writer. So the text of a value, read again with from_str under the conditions of C61 or C13, gives a value with the same text; and formatting the tokens of formatted text again gives the same text.",
 "all values, all grammars, all texts, all writers, all indentations",
 "All values and texts.",
 [f"{UT}::TokenStreamFormatter::write",f"{UT}::format_ast_node",f"{AST}::Display"])

p("C63","A grammar accepts exactly what it says",
 "Reading the type definitions as a parsing expression grammar over plain token lists - sequences, first matching alternative, optional part decided by its prefix, greedy repetition, groups - parsing a type succeeds exactly if the grammar matches, with the value and remaining input of the match; it fails exactly if the grammar does not match; it runs for ever exactly if neither is derivable. For whole inputs: parse2 returns the value exactly if the grammar matches with nothing left unread at the end or inside a group, and otherwise reports what is left unread where it stands. The result does not depend on what was parsed before.",
 "all grammars, all inputs",
 "All grammars and inputs; the implementation is recursive and speculative.",
 [f"{DP}::expand",f"{UT}::try_parse_variant",f"{AST}::Maybe",f"{AST}::Punctuated",f"{AST}::Separated",f"{AST}::Any",f"{AST}::LeftAssoc",f"{AST}::RightAssoc",f"{AST}::Either"])
p("C64","Every leaf type reads exactly its tokens",
 "For each of Empty, Eof, NotEof, CustomIdent, Ident, keywords, operators and the literal types there is a description of the tokens it stands for (e.g. LitInt: an integer literal in any base, with or without minus sign, in the range of i64; Lit: unsigned if there is no minus sign). The parser succeeds exactly on these, takes exactly these tokens and returns their contents and location; on all other input it fails without consuming any.",
 "all leaf types, all inputs",
 "All inputs.",
 [f"{AST}::CustomIdent",f"{AST}::define_keywords",f"{AST}::Lit",f"{AST}::LitInt",f"{AST}::LitUint",f"{AST}::LitFloat",f"{AST}::Empty",f"{AST}::Eof",f"{AST}::NotEof"])

p("C65","Printing a tree emits the tokens of its leaves from left to right",
 "to_tokens of any value of any grammar type - through the code generated by derive(ToTokens), with its field accesses, patterns and variable names, and through the implementations of Maybe, Punctuated, Separated, Any, LeftAssoc, RightAssoc, Either, Box and the delimiters - emits the tokens of its leaves in order of the fields and elements, those between delimiters as one group with the location of the node, and nothing else; it panics exactly if printing one of the leaves panics.",
 "all grammars with distinct field and variant names (and no variant field named `tokens`, C08), all values of all types",
 "All grammars and values.",
 [f"{DT}::expand",f"{AST}::Maybe::to_tokens",f"{AST}::Separated::to_tokens",f"{AST}::LeftAssoc::to_tokens",f"{AST}::RightAssoc::to_tokens",f"{AST}::Either::to_tokens",f"{AST}::Paren::to_tokens"])

p("C66","White space and comments do not matter",
 "Two source texts that consist of the same tokens, with whatever white space and comments (other than documentation comments) before, between and after them - as long as neighbouring tokens do not run into one another and joined operators stay joined - are read alike by from_str: as the same tokens, locations aside; so for every grammar type either both are accepted, with values that differ only in locations, or both are rejected.",
 "all streams of tokens with a textual form, all their layouts, all grammars",
 "All texts: every layout, any nesting of comments and delimiters.",
 [f"{AST}::FromStr",f"{DF}::expand",f"{UT}::TokenStreamFormatter"])

p("C67","Literals survive the conversion to syn's literal types and back",
 "Converting a LitInt or LitUint to syn::LitInt never panics; converting a LitFloat to syn::LitFloat panics exactly if it is infinite. The result has the location of the node, and converting it back gives the same number. LitInt to LitUint this way, or the other way round, gives the same number if it is in range and an error at its location otherwise. Lit to syn::Lit and back gives the same literal, only an integer that is not negative comes back as unsigned. The conversion agrees with printing the node and parsing the tokens as a syn literal.",
 "all literal values in range, all locations",
 "All values of i64, u64, f64, char and all strings.",
 [f"{AST}::LitInt",f"{AST}::LitUint",f"{AST}::LitFloat",f"{AST}::Lit"])

p("C68","Nodes built or changed by hand are as good as parsed ones",
 "Whatever sequence of public API calls a program uses to make or change nodes - parsing, CustomIdent::try_from, Word::new, set_span, literals, delimiters, Maybe, Punctuated, Separated::try_from and all its changing operations, Any, LeftAssoc, RightAssoc, Either, public fields of user types - each resulting node obeys the rules that parsed nodes obey: a CustomIdent is never one of its keywords, a Separated never empty or ending in a separator. Conversely every such value can be made. So in an LL(1) grammar, printing such a node and parsing the tokens gives the node back.",
 "all grammars, all histories of API calls",
 "All histories of calls on trees of any size.",
 [f"{AST}::CustomIdent",f"{AST}::Word",f"{AST}::Separated",f"{AST}::Maybe",f"{AST}::Any",f"{AST}::Paren",f"{AST}::LeftAssoc"])

p("C69","Delimited nodes and words made by hand",
 "Paren<T>, Bracket<T>, Brace<T> accept a group around exactly those tokens that T accepts by themselves, with the same value, at the location of the group, and reject it exactly if T rejects the tokens. Paren::new(node, span) prints as one group around the tokens of the node at that location, Paren::from(node) at the location of the node; into_parts gives back the parts; a node that reads back still does when wrapped. Word::new(text, span) panics unless from_str reads the text as a word spelled just so (not raw); otherwise it is that word, at that location.",
 "all types, token streams, nodes and texts",
 "All inputs.",
 [f"{AST}::Paren",f"{AST}::Bracket",f"{AST}::Brace",f"{AST}::Word",f"{AST}::word",f"{AST}::ident"])

p("C70","Laws of grammars: refactorings that change neither language nor printout",
 "Call two types the same grammar if on every stream they both succeed, leaving the same rest and giving nodes that print as the same tokens, or both fail, or neither returns. Then: Box<T>, a struct with the single field T, and T are the same; LeftAssoc<O,T>, RightAssoc<O,T> and Separated<T,O> are the same; RightAssoc<O,T> is the right recursive struct { T, Maybe<O, Box<Self>> }; Any<T> is the recursive enum { Cons(T, Box<Self>), Nil } and the enum { (T, Any<T>), () }; Either<A,B> is the enum with these two variants, it is associative, idempotent, and commutative if A and B exclude each other; Maybe<P,Empty> is Either<P,Empty>; names of types, variants and fields do not matter; a struct-typed field can be replaced by the fields of the struct; a single-field variant of enum type by the variants of that enum; common leading fields of neighbouring variants can be factored out; Empty fields can be left out; a field type can be replaced by the same grammar; a variant whose fields begin with all fields of an earlier variant is dead; neighbouring variants that exclude each other can be swapped. A field T directly after a field Any<T> makes the struct unparsable. Same grammars accept and reject the same inputs.",
 "all programs, all types, all token streams",
 "equality of languages over all inputs and all programs is not testable",
 [f"{DP}::expand_fields",f"{DP}::expand_variants",f"{AST}::LeftAssoc",f"{AST}::RightAssoc",f"{AST}::Separated",f"{AST}::Any",f"{AST}::Either",f"{AST}::Maybe",f"{UT}::try_parse_variant"])

p("C71","Renaming declarations and adding or removing boxes does not change the grammar of a program",
 "If a relation between the declared types of two programs relates only types with the same number of variants and fields, in the same order, whose field types are equal up to boxes and up to exchanging related types, then related types are the same grammar: same inputs accepted and rejected, same rest left over, same tokens printed. This covers renaming of types, variants and fields, tuple versus named fields, struct versus single-variant enum, and boxes anywhere, in mutually recursive declarations.",
 "all pairs of programs, all relations between their types, all token streams",
 "ranges over all programs and all inputs",
 [f"{DP}::expand",f"{DP}::expand_fields",f"{DP}::expand_variants"])

p("C72","Recursive types: where clauses, the recursive attribute, and the derived FromStr and Display",
 "A family of derived types (whose unmarked fields only mention members of the family) satisfies the where clauses of its own derived Parse and ToTokens impls exactly if every cycle of types mentioning one another goes through a field marked #[parsel(recursive)]; then every type built from the family and the library's types implements the trait, marked fields included. A derived FromStr is usable exactly if Parse is, a derived Display exactly if ToTokens is: their where clauses are the user's plus one bound on Self. The mark has no influence on the generated parser and printer.",
 "all families of declarations, all placements of the mark, all hash-map orders",
 "ranges over all mutually recursive families of types; a missing mark is a compile error, outside unit tests",
 [f"{DU}::add_bounds",f"{DU}::field_type",f"{DP}::expand",f"{DT}::expand",f"{DF}::expand",f"{DD}::expand"])

p("C73","Equality and hashing of syntax trees",
 "Two nodes of one type are == exactly if they differ at most in source locations (and in the sign of floating-point zeros). Equality is an equivalence relation, equal nodes hash alike, and equal nodes without negative zeros have the same tokens and the same to_string. So what is parsed from two layouts of the same source text is equal, and in LL(1) grammars from_str(to_string(v)) == v. Caveat: 0.0 == -0.0, so equal nodes can have different texts.",
 "all node types, all pairs and triples of nodes, all layouts",
 "ranges over all trees; tests only compare chosen pairs",
 [f"{AST}::Maybe",f"{AST}::Paren",f"{AST}::Punctuated",f"{AST}::Separated",f"{AST}::Any",f"{AST}::LeftAssoc",f"{AST}::RightAssoc",f"{AST}::Either",f"{AST}::Lit",f"{AST}::impl_literal",f"{AST}::define_keywords"])

p("C74","Resources of parsing: depth of recursion and amount of work",
 "For a finite grammar without left recursion, the Parse implementations running at any moment are nested at most (number of tokens + 1) x (number of types) deep, whatever the input; if types contain themselves only through delimited groups, at most (nesting of delimiters + 1) x (number of types) deep, so repetitions, LeftAssoc and RightAssoc do not use stack per item. The right-recursive README grammar nests at least two implementations per operator, the same language written with RightAssoc at most 12 for any number of operators. Alternatives are tried without memory of earlier ones: the README Boolean grammar runs exactly (68*4^d-26)/3 implementations on a literal in d pairs of parentheses, the iterative variant 12d+10.",
 "all finite grammars, all inputs (accepted or not), all nesting depths d and numbers of operators",
 "stack depth and work are functions of unboundedly many inputs and grammars; tests sample a few and do not observe the call tree",
 [f"{DP}::expand_variants",f"{UT}::try_parse_variant",f"{AST}::LeftAssoc",f"{AST}::RightAssoc",f"{AST}::Separated",f"{AST}::Any",f"{AST}::Paren"])

p("C75","Grammars that are parsed in linear time",
 "If at every point of a grammar the input can open at most one of the things the parser may go on with (the alternatives of an enum or Either, what an optional part or repetition would continue with against what follows, variants that can be empty included), and there is no left recursion and no empty round, then parsing takes linear time: there is a constant, depending on the grammar only, such that on every input, accepted or rejected, at most constant x (number of tokens + 1) Parse implementations run, speculative parses that are given up included. The condition can be checked by computation; the JSON-like README grammar and the iterative Boolean grammar satisfy it. The README Boolean grammar, which does not, exceeds every linear bound although parsing it always ends.",
 "all finite grammars that satisfy the condition, all their types, all inputs and positions",
 "a bound for all inputs of all grammars of a class; tests measure a few inputs of a few grammars",
 [f"{DP}::expand_variants",f"{UT}::try_parse_variant",f"{AST}::Maybe",f"{AST}::Punctuated",f"{AST}::Separated",f"{AST}::Any",f"{AST}::LeftAssoc",f"{AST}::RightAssoc",f"{AST}::Either"])

p("C76","An LL(1) grammar accepts exactly the language its types describe",
 "Whatever is accepted as a value is a value of the type and stands for exactly the tokens of the stream, in every grammar. Conversely, in an LL(1) grammar every stream that a value of the type stands for, however its literals are spelled and with or without invisible groups, is accepted, as this value: nothing that the types describe as a context-free grammar is missed because an earlier alternative or a repetition was too greedy. Hence such a grammar is unambiguous. (Values that the parser cannot make are excepted: a Lit::Int that is not negative, and a Punctuated that ends in a separator or item without tokens, such as a NotEof at the end of Many. Where an operator can be followed by one that would extend it to a longer operator of the grammar, such as `=` `=` beside `==`, the tokens must not be written together: the grammar is checked for this.) In a grammar that is not LL(1), or that does not pass this check, the parser can miss sentences.",
 "all grammars (first half); all finite LL(1) grammars, all their values and all streams of tokens as the lexer makes them, without -0 (second half)",
 "equality of two infinite languages, for a class of grammars; tests sample streams of a few grammars",
 [f"{DP}::expand_variants",f"{DP}::expand_fields",f"{AST}::Any",f"{AST}::Separated",f"{AST}::Punctuated",f"{AST}::LeftAssoc",f"{AST}::RightAssoc",f"{AST}::Maybe",f"{AST}::Either"])

p("C77","The grammars of README.md",
 "The Boolean grammar of README.md (which is not LL(1)) accepts exactly the sentences of the context-free grammar term = true | false | ! term | ( expr ), conj = term | term & conj, expr = conj | conj `|` expr, and accepts a stream as a value iff the value is an Expr and stands for the tokens; every Expr, parsed or built by hand, can be printed and is parsed back from its tokens and from its text. Rewriting the grammar with RightAssoc and Any, as README.md suggests, does not change which streams are accepted. The JSON-like grammar accepts exactly the streams that its values stand for, and every Value is parsed back from its tokens and text. All three parsers end on every stream of readable literals. The two examples of README.md give the values shown there.",
 "all token streams, all values of the types of the README grammars, both output formats",
 "equality of infinite languages and round trips for infinitely many values; README shows one input for each grammar",
 [f"README.md::Value",f"README.md::Expr",f"{DP}::expand_variants",f"{AST}::RightAssoc",f"{AST}::Any",f"{AST}::Punctuated"])

p("C78","Editing the source text of a node",
 "In an LL(1) grammar whose operators cannot be mistaken for parts of longer ones (as in C76), when from_str accepts a source text as a value and the text is laid out as in C66: the location of any node of the value (if it has tokens) cuts the text into what comes before, the text of the node (which is what source_substring gives) and what comes after; and whatever text of another node is put in its place with a space on both sides - what to_string makes of it, or a text it was read from - from_str accepts the new text as the value with the new node in the place of the old one, locations aside, provided this is a printable value of the type that the parser can make (as in C76; and the new text has no `-0` in it). Without the spaces, or in a text that is not so laid out (`1.foo`), the edit can make the text unreadable.",
 "all LL(1) grammars that pass the check, all source texts, all nodes of the value at any depth, all replacement nodes and all their texts",
 "A refactoring tool replaces arbitrary nodes in arbitrary files; that tokens before and after the edit are neither merged nor split, and that the grammar reads the result with the same structure around the new node, depends on the lexer, the spans, and the whole grammar at once.",
 [f"{UT}::SpannedExt::source_substring",f"{UT}::SpannedExt::byte_range",f"{AST}::FromStr",f"{AST}::Display",f"{DP}::expand"])

p("C79","Interpolating nodes with try_parse_quote!",
 "In an LL(1) grammar whose operators cannot be mistaken for parts of longer ones (as in C76): a template of try_parse_quote! or try_parse_quote_spanned! that spells out a printable node, any parts of which may be interpolated with `#part` (or `#(#parts)sep*`), is parsed as exactly this node: interpolated parts as they are, with their own locations, and everything else at the location given to the macro (at the call site without one; literals then in a text of their own). In any grammar the same holds of a node that is read back from its printed form; whatever a template is parsed as stands for exactly its tokens, those of interpolated nodes included; the location given to the macro decides nothing but locations; and the macro panics only if an interpolated node cannot be printed. Interpolated nodes are not kept together, however: `#s * 3` with `s` = `1 + 2` is read as `1 + 2 * 3` unless it is put in parentheses.",
 "all grammars that pass the check, all templates of any size and depth, all nodes interpolated (parsed or built by hand), all locations",
 "Templates are filled at run time with nodes of any shape; that none of them runs into the tokens around it or is read with another structure depends on all pairs of node and context and on the whole grammar.",
 [f"{UT}::try_parse_quote",f"{UT}::try_parse_quote_spanned",f"{AST}::ToTokens",f"{DT}::expand",f"{DP}::expand"])

p("C80","Precedence and associativity",
 "For an expression type made of LeftAssoc and RightAssoc inside each other (any number of levels, the loosest outermost, with boxes and structs of one field around them) over any operand type, in which the operators of different levels can be told apart: parsing reads the longest chain operand, operator, operand, ... of operators of any level, and the result is the one tree over this chain that respects precedence and associativity, i.e. in which both operands of an operator contain only operators that bind more tightly, or just as tightly on the side its level is grouped to (left for LeftAssoc, right for RightAssoc). It fails exactly if an operand is missing at the start or after an operator. Every chain has exactly one such tree; the values of the type correspond one to one to these trees; and a value is printed as its chain, without added parentheses.",
 "all operand types, all numbers and mixtures of left and right levels, all grammars around them, all inputs, all values of the type",
 "Levels, operators and operands combine without bound; a test fixes one tower and a few chains, while grouping must be right for every chain of every length in every tower.",
 [f"{AST}::LeftAssoc",f"{AST}::RightAssoc",f"{AST}::LeftAssoc::parse",f"{AST}::RightAssoc::parse",f"{DP}::expand_enum"])

p("C81","Extending a grammar keeps old programs",
 "Take a program's grammar and extend its declarations: add variants to enums (anywhere), turn a struct into a variant of an enum, add fields that can be left out (Maybe, Any, Punctuated, Empty), make a pair of fields optional (Maybe), and put alternatives (Either or an enum), operator levels (LeftAssoc/RightAssoc), repetitions (Separated, Any) or boxes around the types of fields, or shorten the keyword lists of identifiers. If the extended grammar is LL(1) (and has no operators that can be mistaken for parts of longer ones), then every token stream and source text that the old grammar accepts - LL(1) or not - is accepted by the new one, as the counterpart of the same node (the same leaves at the same locations, with the new parts absent), which prints as the same tokens; conversely, if the old grammar is LL(1), whatever the new one reads as the counterpart of an old node is read by the old one as that node. Without the condition even a variant added at the end of an enum can break programs.",
 "all pairs of old grammar and extension, all streams and texts, all nodes",
 "It relates two grammars on all inputs; ordered choice and greedy repetition are not monotone, so that a new alternative can take input away from what follows it anywhere in the grammar.",
 [f"{DP}::expand_enum",f"{DP}::expand_fields",f"{AST}::Maybe",f"{AST}::Any",f"{AST}::Separated",f"{AST}::LeftAssoc",f"{AST}::Either"])

p("C82","Refactoring a recursive grammar",
 "Exchangeable types (C70) can be exchanged everywhere: inside containers and combinators, and in the fields of declarations. And whole programs can be rewritten: write new versions of some declarations next to the old ones (referring to the old ones), show each to be exchangeable for the old one, then give them the old names, so that they refer to each other. Whatever the rewritten program accepts or rejects, the old one accepts (as a node that prints as the same tokens) or rejects; where the rewritten program returns (for example because it has no left recursion and no empty repetition rounds), the two do exactly the same. If it does not return it may differ: struct Unit(a) and struct Unit2(Box<Unit>) are exchangeable, but struct Unit(Box<Unit>) hangs.",
 "all programs, all rewritings of them, all types and all streams",
 "Two grammars are compared on all inputs, and the rewriting goes through recursion: each new declaration is used inside of itself, at unbounded depth.",
 [f"{DP}::expand_enum",f"{DP}::expand_fields",f"{AST}::Any",f"{AST}::Maybe",f"{AST}::Either"])

p("C83","Everything before a reported error is fine",
 "If an input is rejected, then the tokens before the reported place are the beginning of something that the grammar allows: some value of the type stands for a token stream that agrees with the input up to that place (on its level and on the levels around it), and the location of the error is that of what is found there. In an LL(1) grammar that value's stream is accepted, so any rejected input can be repaired by changing only what comes at or after the reported place. One exception: the end of a group that was not read before the parser went on is left out (it is only complained about when nothing else is wrong); there is no exception if all groups are read to the end, as in the JSON grammar of README.md. If the node itself was read and the complaint is about unread tokens, the tokens before the first unread one stand for exactly that node.",
 "all grammars all of whose types have values, all types in them, and all rejected streams",
 "It relates the place of every error, over all inputs and all grammars, to the existence of other inputs that would have been accepted.",
 [f"{AST}::Parse impls",f"{DP}::expand_variants",f"{DP}::expand_fields",f"{UT}::try_parse_variant",f"{UT}::chain_error"])

p("C84","An error is reported at the first token that makes the input wrong",
 "In a grammar that never goes back by more than one leaf (what is optional or repeated is introduced by a leaf; alternatives are just leaves, or are told apart by their first token and cannot be empty), a rejected input is wrong at the reported token at the latest: no input that is the same up to and including that token is accepted, whatever follows it (if the token is punctuation, the same also in the few tokens behind it, because operators of several characters and negative numbers consist of several tokens). Or else the input is not wrong but unfinished: its tokens are the beginning of a value of the type. Together with C83, the reported token is the first one that makes the input wrong; in an LL(1) grammar whose groups are read to the end, such as the JSON grammar of README.md, everything before it is the beginning of an accepted input, and an unfinished input can be completed to an accepted one.",
 "all grammars of that kind all of whose types have values, all types in them, all rejected streams with increasing locations (all texts without documentation comments), and all other inputs that agree with them up to the reported token",
 "It says that none of infinitely many continuations of the input is accepted, for every grammar and every rejected input.",
 [f"{AST}::Parse impls",f"{DP}::expand_variants",f"{DP}::expand_fields",f"{UT}::try_parse_variant",f"{UT}::chain_error"])

p("C85","Nodes with an order are totally ordered, consistently with equality and regardless of locations",
 "For every node type that has an order (Empty, Eof, NotEof, identifiers, keywords, the eight literal types, Either, boxes, and user types deriving Ord over such types), cmp is a total order: it says Less exactly if the first node is the smaller one (the variant declared earlier or Left; within a variant the first field that differs; literals by value, texts lexicographically by code point), Greater exactly in the opposite case, and Equal exactly if == holds; it is transitive, also across equal nodes; equal nodes, and nodes that differ only in locations, compare alike with everything; partial_cmp (and <, <=, ...) always agrees with cmp; the layout of the sources two nodes were parsed from makes no difference.",
 "all programs (user types, recursive ones included), all types with an order, all their nodes of any size",
 "A sorted or searched collection breaks if the laws fail for one triple of nodes; there are infinitely many, of unbounded depth.",
 [f"{AST}::CustomIdent",f"{AST}::define_keywords",f"{AST}::impl_literal",f"{AST}::Either",f"{AST}::Empty",f"{AST}::Eof",f"{AST}::NotEof"])

p("C86","Errors do not depend on the layout of the source",
 "If the same tokens are written down twice, with different white space, line breaks and comments, and parsing one text fails, then parsing the other fails, too, with the same message (including the chain of enum, variant and field names), and the location of the error is that of the same token (the same opening delimiter, the end of the same group, the same number, the same unexpected token or group) in the other text. The same holds for any two token streams of the same tokens, without invisible groups, whose locations increase along the stream. That the locations increase is needed: if all tokens have the same location (as in a stream made by quote!), the error of another alternative may be reported.",
 "all programs, all types, all pairs of layouts of all token sequences, all rejected inputs",
 "The choice between the errors of alternatives compares source locations, so the message could depend on line breaks or comments anywhere in the text; the number of layouts is infinite.",
 [f"{UT}::try_parse_variant",f"{UT}::chain_error",f"{AST}::Either",f"{DP}::expand_enum"])

p("C87","The source text of a node parses back to the node",
 "In an LL(1) grammar whose operators cannot be misread next to each other: take any text that is accepted and laid out with white space and comments between its tokens, and any node of the resulting tree that has at least one token. The part of the source text at the node's location (as given by span() and source_substring()), cut out and parsed on its own as the node's type, is accepted and gives the same node, up to locations. Without one-token lookahead this fails: a node may depend on what follows it, as with enum E { Long(Word, NotEof), Short(Word) } in front of a semicolon.",
 "all LL(1) grammars, all accepted texts, all nodes at any depth of their trees",
 "A node's location must begin and end exactly at its own tokens, for every node of every tree, and parsing must not depend on the context; both range over infinitely many texts and grammars.",
 [f"{UT}::SpannedExt::source_substring",f"{UT}::SpannedExt::byte_range",f"{AST}",f"{DP}::expand"])

p("C88","Texts can be put together",
 "In an LL(1) grammar whose operators cannot be misread next to each other, source texts compose like values do: texts of the fields of a struct (or of an enum variant), written one after the other with spaces between them, are read as the struct (the variant) with the values of those texts; the text of a list followed by the text of another is the text of the list of all items (Any and Many), for Separated with the text of a separator between them; and delimiters around a text give the text of the Paren, Bracket or Brace node. Every part may come with its own white space and comments, may have been read by another type or even another program, or may be the output of to_string(). Each time the tree is that of the parts, up to locations. One-token lookahead is needed: with enum T { Call(Word, Paren<Empty>), Name(Word), Unit(Paren<Empty>) }, the lists 'f' and '()' together are a list of one item.",
 "all LL(1) grammars, all values, all ways to put a text of the value together from texts of its parts",
 "Code generators and macros build source text from fragments; that no fragment changes the reading of another must hold for all fragments, layouts and grammars.",
 [f"{AST}::Any",f"{AST}::Separated",f"{AST}::Many",f"{AST}::Paren",f"{DP}::expand"])

p("C89","How the repetition types compare",
 "As whole programs, Many<T> and Any<T> accept the same inputs with the same items, and Separated<T, P> accepts exactly the non-empty inputs that Punctuated<T, P> accepts without a trailing separator, with the same items and separators (if T and P need at least one token). With a trailing separator Separated fails, so that no struct starting with it accepts the input, not even one with an optional separator as the next field. Any<T> is only ever blamed for what it leaves unread ('unexpected token'), whereas Many<T> fails with the error of T at the place where Any<T> stops. Inside a delimited alternative they are not interchangeable: with enum E { A(Paren<Any<Ident>>), B(Paren<LitInt>) } the input '(5)' is rejected, with Many in the place of Any it is accepted as B.",
 "all grammars, all item and separator types that do not match the end of the input, all token streams without invisible groups",
 "Choosing between Any, Many, Punctuated and Separated is the most frequent decision of a grammar author; that the choice makes no difference (or exactly the stated difference) must hold for every input.",
 [f"{AST}::Any",f"{AST}::Many",f"{AST}::Punctuated",f"{AST}::Separated"])

p("C90","Texts that are no token streams: where the error is reported",
 "If a text is no token stream, parse_str (and with it every FromStr impl) fails on it for every type, with an error located at one place of the text where something is wrong: an opening delimiter that is not closed (while everything after it is in order), a closing delimiter, or something that is no token even by itself; the byte offset computed from the location is the number of bytes before this place. For texts laid out in any way up to the fault the place is exact: of several delimiters left open the error is at the innermost one; a closing delimiter of the wrong kind (or with nothing open) is reported at itself, whatever follows; a character without a meaning, a string literal or a comment that is not closed is reported where it begins, whatever follows.",
 "all texts; all layouts of all token sequences before the fault, all nestings of open delimiters, all texts after it; all result types",
 "The faults of a text can be anywhere in it and combined with everything else; a test only shows the location for the texts it tries.",
 [f"{AST}::FromStr",f"parsel/src/lib.rs::parse_str",f"{UT}::byte_range"])

p("C91","String, byte string, character and byte literals have the values that the Rust reference gives them",
 "LitStr accepts a source text exactly if it is one string literal (between white space and comments that are not documentation), and its value consists of the code points which the literal stands for: in a plain literal, a character stands for itself, a line break of two characters for a line feed, \\n \\r \\t \\\\ \\0 \\' \\\" for the usual characters, \\xHH (at most 7F) and \\u{H...} (one to six digits, underscores after the first, no surrogates) for the character with that number, and a backslash at the end of a line leaves out the line break and all white space after it; in a raw literal everything stands for itself, up to a quote with as many number signs as at the beginning (at most 255). LitByteStr, LitChar and LitByte accept exactly the byte string, character and byte literals with the corresponding values (bytes: only ASCII characters, \\xHH up to FF, no \\u). Any of them may have an identifier as a suffix, which is ignored.",
 "all source texts, all literals, all layouts around them",
 "escapes, line continuations, raw delimiters and suffixes combine without bound; the lexer and the reader of values each have their own state machine for plain, byte and raw literals, and a test fixes one text.",
 [f"{AST}::LitStr::parse",f"{AST}::LitByteStr::parse",f"{AST}::LitChar::parse",f"{AST}::LitByte::parse",f"{AST}::TryFrom<syn::LitStr>",f"{AST}::TryFrom<syn::LitByteStr>"])

p("C92","Integer and floating point literals have the values that the Rust reference gives them",
 "LitUint accepts a source text exactly if it is one integer literal (between white space and comments that are not documentation) whose value is in the range of u64; LitInt accepts exactly an integer literal, or a minus sign (possibly apart) and an integer literal, with a value in the range of i64; the parsed value is that of the literal in its base (decimal, 0x, 0o, 0b; underscores and the suffix do not count), and the location reaches from the sign to the end. LitFloat accepts exactly a floating point literal (digits, with underscores, and a point or an exponent or both, and a suffix), or a minus sign and one, and its value is what f64::from_str makes of its digits without underscores, plus sign and suffix. No text is accepted by both LitInt and LitFloat; Lit makes LitUint of unsigned integers, LitInt of a minus sign and an integer, LitFloat of floating point literals.",
 "all source texts, all literals, all layouts around them",
 "the lexer, the reader of integers and the reader of floats each decide on their own what an `e`, a point, a sign, an underscore or a letter after digits means (exponent, hexadecimal digit or suffix); they have to agree on every text.",
 [f"{AST}::LitInt::parse",f"{AST}::LitUint::parse",f"{AST}::LitFloat::parse",f"{AST}::Lit::parse",f"{AST}::TryFrom<syn::LitInt>",f"{AST}::TryFrom<syn::LitFloat>"])

p("C93","Every literal, word, operator and delimiter of a parsed tree is what is written at its location",
 "When from_str makes a value of a source text (without documentation comments), then every node inside it, at any depth, stands where its location says: a literal is written there by a literal of exactly its value (a negative number with its sign, and perhaps white space and comments after the sign); an identifier is literally the word there; a keyword is the keyword, in one place; an operator of several characters is written there in one piece and its locations are those of its characters in order; a Paren, Bracket or Brace reaches from its opening delimiter to its closing one, and the text between them consists of exactly the tokens that its contents stand for. SpanExt::source_substring of these locations returns that text.",
 "all grammars, all source texts without documentation comments, all values made of them, all nodes inside the values",
 "needs the lexer's positions, the joining of punctuation, the literal readers and the parsers of all node types to agree on every text and every grammar.",
 [f"{AST}::LitInt::parse",f"{AST}::Lit::parse",f"{AST}::CustomIdent",f"{AST}::Paren",f"{UT}::SpanExt::source_substring"])

p("C94","The whole source texts that each one-token node type accepts",
 "parse_str::<T>(src) succeeds for a node type of one token exactly if src is an optional byte order mark, white space and non-documentation comments (nested block comments, line comments closed by their line break), one token text, and again white space and comments, of which the last may be a line comment that runs to the end of the text. The token text has to be: for CustomIdent<K> one word (a letter or underscore and then letters, digits, underscores; or r# and such a word other than _, self, Self, super, crate) that is not in K::KEYWORDS as it is written, so r#-words are accepted even if the bare word is a keyword; for Word any word; for a keyword type its word; for LitBool true or false; for LitStr, LitByteStr, LitChar, LitByte one literal of that kind, with its value; for LitInt, LitUint, LitFloat one literal of that kind in range, for LitInt and LitFloat possibly after a minus sign with white space and comments between them; for Lit any of these, of the corresponding variant; for an operator type (a one- or multi-character punctuation token) its characters in a row, with nothing between them, none of which begins a comment. The location is that of the token text alone (from the sign on if there is one), for operators one location per character. Empty and Eof accept exactly the texts without a token, NotEof accepts no text. A documentation comment is not skipped like other comments: a text of nothing but one is read as the attribute #[doc = \"..\"] (#![doc = \"..\"] for //! and /*!) with exactly the content of the comment, every token located at the whole comment.",
 "all source texts, keyword lists, operators, values and locations",
 "A test tries a handful of spellings; that nothing else is accepted concerns infinitely many texts, and which white space and comments may surround a token is an infinite family as well.",
 [f"{AST}::CustomIdent",f"{AST}::Word",f"{AST}::Empty",f"{AST}::Eof",f"{AST}::NotEof",f"{AST}::define_keywords",f"{AST}::Lit::parse"])

p("C95","What is between delimiters is a text of its own",
 "If parse_str::<Paren<T>>(src) (or Bracket<T>, Brace<T>) succeeds, then src is an optional byte order mark, white space and non-documentation comments, the opening delimiter, a text body, the closing delimiter of the same kind, and white space and comments to the end; parse_str::<T>(body) succeeds too, and its value is the one inside the node, but for locations; the location of the node is exactly that of the delimiters and body. Nothing outside the delimiters and no other split of the text has any influence: what is between the delimiters may be cut out of the source and parsed on its own. In particular source_substring of the node's span begins and ends with the delimiters, and what is between them parses as a T. Conversely, a text that T accepts (laid out as tokens with white space and comments, not ending within a line comment, without documentation comments) may be put between delimiters, and the delimited type accepts that, with the same value inside.",
 "all source texts, all three kinds of delimiters, all inner node types of all grammars",
 "That the closing delimiter the parser takes is the matching one concerns all nestings of delimiters, comments, literals and documentation comments in which delimiter characters may occur, and all inner types.",
 [f"{AST}::Paren",f"{AST}::Bracket",f"{AST}::Brace"])

out=os.path.join(os.path.dirname(os.path.abspath(__file__)),"..","properties.jsonl")
with open(out,"w") as f:
    for x in P: f.write(json.dumps(x,ensure_ascii=False)+"\n")
print(len(P))
