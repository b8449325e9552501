# Formal model of H2CO3/parsel in Lean 4 - design

## 1. What the code is

`parsel` turns AST node types into parsers and printers. The crate itself contains

* `parsel/src/ast.rs` - helper node types (identifiers, keywords, literals, `Maybe`, `Paren`...,
  `Punctuated`, `Separated`, `Any`, `LeftAssoc`, `RightAssoc`, `Either`) with their `Parse` / `ToTokens` impls;
* `parsel/src/util.rs` - error chaining, the speculative-variant helper, offsets of spans, the token stream formatter;
* `parsel_derive/src/*.rs` - the code generators behind `#[derive(Parse, ToTokens, FromStr, Display)]`.

All token-level primitives (`ParseStream`, `fork`, `advance_to`, `parenthesized!`, `Punctuated`, lexing, `Literal`
constructors, ...) belong to the dependencies `syn` 2, `quote` 1 and `proc_macro2` 1 (non-proc-macro fallback
implementation), which are not in /repo. They are modelled as *executable definitions*
(marked `EXTERNAL`) written from the published behaviour of those crates and are part of the trusted base.

## 2. Layers of the model (`lean/Verif/Model`)

| file | models |
|---|---|
| `Token.lean` | EXTERNAL token trees, spans, positions (`proc_macro2`) |
| `Stream.lean` | EXTERNAL `syn` parse stream: cursor skipping invisible groups, `fork`, `advance_to`, unexpected-token cell, `error`, idents/puncts/keywords; top level `parse2` |
| `Literal.lean` | literal tokens: EXTERNAL reading/escaping; parsel's `Lit*`, `Lit`, `token()` and conversions |
| `Containers.lean` | EXTERNAL `syn::punctuated::Punctuated`; parsel `Punctuated`, `Separated`, `Any`, `Maybe`, `Either` APIs, assoc trees |
| `Combinators.lean` | `Parse`/`ToTokens` of every helper type, polymorphic in the sub-parsers exactly like the Rust generics; `chain_error`, `try_parse_variant` |
| `Derive.lean` | the derive code generators as functions from item descriptions to a small IR of the generated code, the meaning of that IR, and the `where` clause generator |
| `Grammar.lean` | deep embedding: type expressions, user definitions, values; interpreter `parse`, printer `toTokens` |
| `Format.lean` | `TokenStreamFormatter` with an arbitrary fallible writer |
| `Lex.lean` | EXTERNAL lexer of `proc_macro2` |
| `Offset.lean` | `byte_offset`, `char_offset`, `SpanDisplay` |
| `Quote.lean` | `try_parse_quote!`, `try_parse_quote_spanned!`; EXTERNAL `quote!`, `quote_spanned!` (expansion of templates) |
| `Print.lean`, `Convert.lean`, `Build.lean`, `Bounds.lean`, `Equality.lean` | printing code, literal conversions, building nodes by hand, `where` clauses, `==`/`Hash` |

Representation choices: text is `List Char`; a parser is a function `PState -> Res a` where `Res` is
`ok value state | err e | panic | oof`. `oof` ("out of fuel") appears only because loops and recursion take a
fuel argument; statements about termination say that some fuel avoids it, statements about divergence say that no fuel does,
and all other statements are independent of the amount of fuel.
`&mut` becomes a returned state; a panic is an explicit outcome.

## 3. Properties, model part and proof method

See the table in section 3 (kept in the same order as `properties.jsonl`).

| id | modelled by | proof |
|---|---|---|
| C01 | Derive + Combinators | IR evaluation = specification `Seq` relation, induction on the field list |
| C02 | Derive, `try_parse_variant` | IR evaluation = first-success specification, induction on the variants |
| C03 | `try_parse_variant`, Either | fold = "last maximum" specification, induction |
| C04 | + Stream, Lex, Spec/Furthest | simulation of the failures with their positions: on streams whose positions increase, the reported error is that of the variant that got furthest; refutation by witness at the end of the input |
| C05 | Derive | direct |
| C06 | `chain_error` | induction on nesting path |
| C07 | Derive (ToTokens IR) | induction on fields, variable lookup in match arms |
| C08 | Derive (ToTokens IR) | name capture: iff-characterisation + witness |
| C09 | Derive | case analysis |
| C10 | Derive `add_bounds` | membership/no-duplicates characterisation for any permutation |
| C11 | Grammar | induction on fuel and type: reprint relation |
| C12 | Spec/Predict.lean (LL(1) at the level of leaves and groups), Spec/LL1.lean (a checker, proved sound) | induction on the size of the value; each value reads back in front of every continuation that cannot be taken for a part of it |
| C13 | C12 + C40/C41 + C31 | composition |
| C14, C15 | Stream, Grammar | invariant on the unexpected cell |
| C16-C24 | Combinators | relational specifications, equivalence by induction |
| C25, C26 | Combinators | list membership |
| C27, C28 | Containers | invariant over operation histories; refinement to list of pairs |
| C29 | Grammar | lexicographic induction (input size, rank, type size) |
| C30 | Grammar | induction on fuel that result is always `oof` |
| C31 | Grammar | simulation relation between erased streams |
| C32 | Grammar | suffix invariant |
| C33 | LitText | `decide` over the whole 256 element table |
| C34-C38 | Literal, LitText | digit arithmetic, escape/unescape induction |
| C39, C54 | Literal, Combinators | order lemmas |
| C40-C44 | Format, Lex | nested induction on token trees; lexer consumes exactly what the formatter wrote |
| C45 | Format | corollary |
| C46-C48 | Offset | induction on text lines |
| C49 | Offset | injectivity of decimal notation |
| C50, C55, C56 | Containers | algebra |
| C51-C53, C57 | Grammar | induction on fuel; C53 for source texts: the literal reader of syn accepts every literal the lexer finds (Proofs/ReadLex: both loops over the digits, point, exponent and suffix of a number run in step) |
| C58, C59 | Derive, Grammar | exact characterisation and witness |
| C60 | Lex, Offset, Grammar, Spec/Source | invariant of the lexer (positions), induction on reading (what a node was read from), arithmetic of offsets |
| C61 | Grammar, Spec/Respell | printing a parsed value gives a stream that no parser of the grammar can tell from the input (`Respelled`); the interpreter is a function of streams up to that relation (the simulation of C31, generalised) |
| C62 | Format, Grammar | structural induction; then C61/C13/C40 |
| C63 | Grammar, Spec/Peg | a relational PEG semantics on token lists (mutual inductive relations for "matches" and "does not match"); soundness by induction on the fuel of the interpreter, completeness by induction on derivations, using the combinators `EOk`/`EErr` |
| C64 | Literal, Grammar, Spec/Peg | leaf by leaf from C24-C26, C33-C36; then C63 |
| C65 | Print (all `to_tokens` code, dispatching on types), Grammar | induction on typing derivations: running the compiled generated code and the container implementations equals the plain in-order walk `Val.toTokens` that all other printing theorems use |
| C66 | Lex (EXTERNAL lexer), parseStr | `Spec.Layout`: all the ways to write given tokens down; the lexer reads a token the same way whatever separates it from the next (locality lemmas, induction on layouts), comments and white space are skipped; then C31 |
| C67 | Convert (`From<Lit…> for syn::Lit…`) | `From<Lit…> for syn::Lit…` the token is made, then read by syn; by cases on the kind of literal, with the decimal lemmas of C34-C36 |
| C68 | Build, `Spec.Built` (the ways to come by a node) | Induction on `Built`; the private fields of CustomIdent and Separated are only changed by the modelled operations (C25, C27); then C12. Converse by recursion on typed values |
| C69 | Build (`new`, `From`, `into_parts`, `Word::new`) | From the grammar as a specification (C63), and the lexer's treatment of words (C40, C66) |
| C70 | Spec/Laws.lean (SameGrammar, alternatives, Disjoint) | laws proved on the parsing expression grammar of C63 (inversion lemmas, induction on matches for the recursive laws), transferred to the parser |
| C71 | Spec/Laws.lean (AlikeTy, Pointwise) | simulation by induction on the nine mutual match judgements of C63, used in both directions |
| C72 | Model/Bounds.lean (Implements, expandStr), Spec/Bounds.lean (Mentions, SameItem) | accessibility of the mention relation; a finite relation without cycles is well-founded |
| C73 | Model/Equality.lean (Val.eq, Val.hash), Spec/Equality.lean (mapFloats, FloatCmpLaws), Alike | mutual induction on pairs of trees; the consequences via C66 and C13 |
| C74 | Spec/Work.lean (calls, work, depth), Spec/Readme.lean (grammars) | measure induction: every call is at a smaller position, or at the same one and one StartsWith step down; exact counts by induction on d |
| C75 | Spec/Linear.lean (Opens, Disjoint, Decisive, checker), Spec/Work.lean (work) | amortised analysis by induction on fuel: work where nothing is read is bounded by a constant per StartsWith chain, everything else is paid for by the tokens read; checker sound by induction over its tables |
| C76 | Spec/Grammar.lean (Reads), Spec/Progress.lean (HasTy), Spec/Solid.lean, Spec/Joins.lean | C12 (printed form is accepted) carried over to every stream that the value stands for, by respelling (C61) and uniqueness of readings |
| C77 | Spec/Readme.lean (grammars and sentences transcribed) | induction on values and on derivations with the grammar semantics of C63 (alternatives refused where the sentence goes another way); JSON by C76 and the checkers |
| C78 | Spec/Edit.lean (Replaced), Proofs/LayoutAt.lean, Proofs/Edit.lean | the laid-out source is cut at the tokens of the node (positions of every token in a layout), the new text is a layout of the edited tokens, C76 on the edited tokens |
| C79 | Model/Quote.lean, Spec/Quote.lean (Quoted) | the expansion of a template that spells out a node is read as the node (induction over Quoted, with formed_own for interpolated nodes), then C76/C12; blindness to locations (C31) |
| C80 | Spec/Precedence.lean (Infix, Respects, Tower, Shows, Run, Missing) | induction over the tower: a run with one more level is runs of the tighter levels joined by its operators; uniqueness of respecting trees by comparing the positions of the root operators |
| C81 | Spec/Evolve.lean (Case, Wider, WiderSeq, Extends, Upgrade) | every node has a counterpart (induction on its size and on Wider) that stands for the same tokens (mutual induction over Upgrade), then C76_language of the new grammar |
| C82 | Spec/Refactor.lean (ThroughTy, Rewritten) | one lemma per type constructor for the congruence; mutual induction over the derivations (Matches/NoMatch) of the rewritten program, folding each new body back into the old declaration; determinism plus termination (C29) for the converse |
| C83 | Spec/Viable.lean (Keeps, Shortened, Blamed, Productive, samples, groupsRead) | induction on the parser's fuel: at a failure the parts read so far are kept and the missing fields are filled with samples; the result is accepted by completeness (C76) |
| C84 | Spec/Exact.lean (Agree, Blames, Prompt, Unfinished, checker prompt) | a node that is read in one stream ends at the same place in every stream that agrees with it there (mutual induction on the matching relation); then induction on the parser's fuel: the error of the variant that got furthest speaks for all variants, since locations increase |
| C85 | Model/Order.lean (cmp, partialCmp, which types are ordered), Spec/Order.lean (Below, DerivesOrd, FloatOrdLaws) | mutual induction on typing; transitivity as a chain law `u ≤ v ≤ w → cmp u w = (cmp u v).then (cmp v w)` |
| C86 | Spec/Relocate.lean (Twin, SameSpot, AfterStart) | a simulation between the two runs (Proofs/Relocate.lean: related positions, errors with the same message at related locations; the comparison of ends in `maxByEnd` gives the same answer since both streams are in order), instantiated in Proofs/RelocateUse.lean |
| C87 | Spec/Source.lean (Inside, nodeSpan), Spec/Layout.lean | Proofs/Snippet.lean: the tokens a node reads are a segment of the stream (C78's `Place`), they are located exactly at its stretch of text (C60), which is a layout of those tokens (`layout_split`); the language theorem C76 then gives the parse |
| C88 | Spec/Compose.lean (Composed, Pieces, spaced) | Proofs/Compose.lean: a composed text is a layout (`layout_append`) of tokens that the value reads; lexing gives those tokens (C66) and the language theorem (C76) the parse |
| C89 | Spec/Peg.lean (Matches, NoMatch) | Derivations of the parsing expression grammar of C63 are translated into each other (Props/Repeat.lean); the errors by induction over the items, with the cell of unexpected tokens factored out (Proofs/Cell.lean) |
| C90 | The lexer now returns the place where it gives up (Model/Lex.lean) | every failing round is matched with what is wrong there (Proofs/Fault.lean: a frame for each open delimiter says that its contents can be read elsewhere in the same way); for laid out texts the rounds are run up to the fault (Proofs/FaultAt.lean) |
| C91 | Model/Lex (scanners) and Model/Literal (values) against Spec/StrText (grammar of literals with their values) | induction over the body: the scanner stops at the first quote outside of escapes, cooking gives the codes of the grammar; raw bodies by the first closing delimiter (Proofs/StrText, Proofs/StrLit, Props/Strings) |
| C92 | Model/Lex (float, int, digits) and Model/Literal (parse_lit_int, parse_lit_float) against Spec/Literal and Spec/NumText (grammar of number literals) | induction over digits and exponent in each of the three state machines, and inversion of the lexer's float machine (Proofs/ReadLex, Proofs/NumText, Props/Numbers) |
| C93 | Model/Lex and all of Model/Grammar against Spec/Written (SpellsLit, CharSpans) and Spec/Source (Laid) | tokens of a node are a segment of the stream, segments are stretches of the text; joined punctuation is tight by an invariant of the lexer loop; literal grammars of C91 and C92 (Proofs/Written, Props/Written) |
| C94 | Model/Lex.lean, Model/Combinators.lean, Model/Literal.lean | what the lexer skips is decomposed into gaps; the lexer only adds to the tokens of the outermost level, so that a text of one token is read by one leaf round; with C91/C92 for the literals; operators by induction on their characters (Proofs/Lone, LoneText, LoneOp) |
| C95 | Model/Lex.lean, Model/Containers.lean | every round of the lexer inside a delimiter is also a round on the text cut off at the matching closing delimiter (inside_cut); the source text only fixes locations (lexFrom_alike); then C63 for the group and C31 for the contents (Proofs/LexInside, LoneGroup); the converse by C66 |

## 4. Trusted base

* **Lean 4.33 kernel.** Axioms: at most `propext`, `Classical.choice`, `Quot.sound` (checked by `vcheck`, and by `#print axioms`); none added.
  `decide +kernel` (evaluation by the kernel, no compiled code) is used for finite tables (256 bytes) and for concrete examples only.
* **The reading of /repo**: every definition in `lean/Verif/Model` cites the file and lines that it models.
* **The EXTERNAL definitions**, i.e. the behaviour of the dependencies, which are not in /repo:
  `syn` 2 (`ParseBuffer`, `Cursor`, `parenthesized!` etc., `Token![..]`, `syn::Ident`, `syn::Lit`, `Punctuated`, `parse2`/`parse_str`),
  `proc_macro2` 1 in its fallback implementation (token trees, spans with line/column, `Literal::*` constructors, the lexer, `Ident::new`),
  `quote` (interpolation, `ToTokens` of `Box`), std (`max_by_key` returns the last maximum, `Iterator`/`Vec` methods, decimal `Display` of integers).
* **Two assumptions about `f64`**, as structures that theorems take as hypotheses (not axioms), with instances that show they can hold:
  `FloatLaws` (the shape of `Display` of a finite number; reading it back gives the number) and `SignLaws` (only C61/C62: `Display` keeps the sign;
  negation is a function of the number). `f64` itself is an arbitrary type `Ext.F`.

### What is modelled

* `parsel/src/ast.rs`: `Parse`, `ToTokens`, `FromStr`, `Display` of every type; `TryFrom`/`From` conversions, iterators, constructors, `push*`, `insert`, `pop`,
  `first`/`last` etc. of the containers (Containers.lean); `define_keywords!`; equality and order of keywords and literals.
* `parsel/src/util.rs`: `chain_error`, `try_parse_variant`, `SpannedExt` (byte/char offsets and ranges, substrings), `SpanDisplay`, `TokenStreamFormatter`
  (all of it, with writers that may fail at any call), `format_*`.
* `parsel_derive/src`: `parse.rs`, `to_tokens.rs`, `display.rs`, `from_str.rs`, `util.rs` (`add_bounds`, `field_type`, attribute lookup) as functions to an IR
  of the generated code, whose meaning is another definition.
* All user grammars: type expressions over these types and user types (structs and enums, named/unnamed/unit, any recursion).

### What is not modelled

* Machine limits: the stack (recursion depth), memory, `usize` overflow of lengths. A Rust stack overflow is outside the model.
* `TokenStream`, `TokenTree` and other syn types as leaves of a grammar; user-written (not derived) `Parse` impls; `parsel_derive` on the token level
  (parsing the item and printing the generated code): items and code are trees.
* Hygiene of spans other than their location; `Span::join` is the nightly/fallback behaviour; `Debug`; `Default` of leaves other than what C50 needs.
* Name resolution of the generated code beyond local variables and fields (a field whose name is also a constant or unit struct in scope would make the
  shorthand pattern of a generated match arm refutable).
* Messages of syn's own errors are simplified (`expected ...`); a lex error is located where `proc_macro2` gives up (C90).
* The lexer: all non-ASCII characters other than white space and the BOM count as identifier letters (`identStart`/`identCont` in Token.lean); the rest
  (comments, documentation comments, raw strings, numbers, lifetimes, BOM) follows `proc_macro2/src/parse.rs`.
* Templates (C79): lifetimes, interpolated values that are not nodes of the model, and how rustc splits the macro call into tokens.
* `parse_terminated`-style loops are modelled by their published source; positions are those of the fallback (`span-locations`).

## 5. Findings (claims of the documentation or of common sense that the model refutes)

| where | finding |
|---|---|
| C04 | "the error of the variant that got furthest": an error at the end of the input is located at the call site (line 1, column 0), so the furthest variant loses |
| C08 | a field called `tokens` (or `r#tokens`) captures the parameter of the generated `to_tokens` |
| C11, C37 | `-0` read as `LitInt` prints as `0`; non-negative `Lit::Int` prints as what reads as `Lit::Uint` |
| C38 | `1e999` parses as infinity; printing it panics |
| C79 | a node interpolated by `try_parse_quote!` is not kept together: `#s * 3` with `s` = `1 + 2` is `1 + 2 * 3` |
| C42 | after a write error in the middle of a group, the formatter keeps its nesting level |
| C48 | `char_range` of a span beyond the end of the text is not clamped |
| C58 | `derive(ToTokens)` of an enum without variants does not compile |
| C59 | a keyword that is a raw identifier parses, but panics when printed |
| C12, C61 | an enum commits to the first variant that succeeds even if tokens are left over; printing separates joined characters (`+=` read as `+`, `=`), after which other variants may match |
| C29, C30 | left recursion, and repetition of something that can be empty, never returns |

## 6. Testing the theorems

`tools/mutate.py` applies the edits in `seeded/mutants*.py` to scratch copies of the model, rebuilds, and records in `seeded/LOG.jsonl` which theorems fail.
An edit counts as caught if a theorem of the property that it breaks fails, directly or because a lemma that it needs is false now.
