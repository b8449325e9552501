import Verif.Model.Token

/-
EXTERNAL: the parse stream of the crate `syn` 2 (`syn::parse::ParseBuffer`, `syn::buffer::Cursor`),
as used by parsel/src/ast.rs and parsel/src/util.rs.  None of it is defined in /repo.
-/

namespace Parsel

/-- EXTERNAL `syn::Error`: the location and text of its first message (all that
`Error::span` and `Display` show; parsel never combines errors). -/
structure Err where
  span : Span
  msg : Text
  deriving DecidableEq, Repr

/-- EXTERNAL `syn::parse::ParseBuffer`: unread tokens of the current nesting level, the span reported at
the end of that level (`scope`) and the shared "unexpected token" cell. -/
structure PState where
  cur : List TT
  scope : Span
  unexp : Option Span

/-- Outcome of running a piece of (terminating or diverging) Rust code:
`ok` / `err` are `Ok` / `Err`, `panic` is a panic, `oof` means that the fuel of the model was
used up before the code finished. -/
inductive Res (α : Type) where
  | ok (a : α) (s : PState)
  | err (e : Err)
  | panic
  | oof

/-- `fn parse(input: ParseStream<'_>) -> Result<T>`. -/
abbrev Parser (α : Type) := PState → Res α

/-- `result.map(f)` on the value. -/
def Res.map {α β : Type} (f : α → β) : Res α → Res β
  | .ok a s => .ok (f a) s
  | .err e => .err e
  | .panic => .panic
  | .oof => .oof

/-- `result.map_err(f)`. -/
def Res.mapErr {α : Type} (f : Err → Err) : Res α → Res α
  | .ok a s => .ok a s
  | .err e => .err (f e)
  | .panic => .panic
  | .oof => .oof

/-- The `?` operator / sequencing of parsing steps. -/
def Res.bind {α β : Type} : Res α → (α → PState → Res β) → Res β
  | .ok a s, k => k a s
  | .err e, _ => .err e
  | .panic, _ => .panic
  | .oof, _ => .oof

mutual
/-- EXTERNAL `Cursor::ignore_none` followed by reading the next entry: the next real token, entering
invisible (None-delimited) groups, together with the tokens after it. -/
def uncons : List TT → Option (TT × List TT)
  | [] => none
  | t :: ts =>
    match unconsT t with
    | some (x, inner) => some (x, inner ++ ts)
    | none => uncons ts
/-- Helper of `uncons` for a single token tree. -/
def unconsT : TT → Option (TT × List TT)
  | .group .none inner _ => uncons inner
  | .group .paren inner sp => some (.group .paren inner sp, [])
  | .group .bracket inner sp => some (.group .bracket inner sp, [])
  | .group .brace inner sp => some (.group .brace inner sp, [])
  | .ident s sp => some (.ident s sp, [])
  | .punct c j sp => some (.punct c j sp, [])
  | .lit r sp => some (.lit r sp, [])
end

/-- EXTERNAL `ParseBuffer::is_empty` (`cursor.eof()`): true only at the end of the level
(an unread invisible group counts as something). -/
def PState.isEmpty (s : PState) : Bool := s.cur.isEmpty

/-- EXTERNAL `ParseBuffer::span()`: next token (opening delimiter of a group), or the scope at the end. -/
def PState.headSpan (s : PState) : Span :=
  match s.cur with
  | [] => s.scope
  | t :: _ => t.errSpan

/-- EXTERNAL `ParseBuffer::error` / `Cursor::error` (`syn::error::new_at`). -/
def PState.error (s : PState) (msg : Text) : Err :=
  match s.cur with
  | [] => ⟨s.scope, "unexpected end of input, ".toList ++ msg⟩
  | t :: _ => ⟨t.errSpan, msg⟩

/-- EXTERNAL `ParseBuffer::fork`: same position, fresh "unexpected" cell. -/
def PState.fork (s : PState) : PState := { s with unexp := none }

/-- EXTERNAL `Speculative::advance_to`: take over the fork's position; take over an unexpected token seen
by the fork unless one is already recorded. (The chained-cell case of syn only matters
while a group parser of the fork is still alive, which never is the case in /repo.) -/
def PState.advanceTo (s f : PState) : PState :=
  { cur := f.cur, scope := s.scope, unexp := s.unexp.orElse (fun _ => f.unexp) }

/-- EXTERNAL `span_of_unexpected_ignoring_nones`: location of the first unread real token, if any. -/
def unexpectedSpan (ts : List TT) : Option Span := (uncons ts).map (fun p => p.1.span)

/-- EXTERNAL `impl Drop for ParseBuffer`: an unread token is recorded in the shared cell unless one is
already recorded.  Returns the new content of the cell. -/
def PState.dropUnexp (s : PState) : Option Span := s.unexp.orElse (fun _ => unexpectedSpan s.cur)

/-- EXTERNAL `IdentExt::parse_any` (used by ast.rs:130 and ast.rs:391): one identifier token. -/
def parseAnyIdent : Parser (Text × Span) := fun s =>
  match uncons s.cur with
  | some (.ident x sp, rest) => .ok (x, sp) { s with cur := rest }
  | _ => .err (s.error "expected ident".toList)

/-- EXTERNAL the words that `syn`'s `impl Parse for Ident` refuses (`accept_as_ident`). -/
def rustKeywords : List Text :=
  ["_", "abstract", "as", "async", "await", "become", "box", "break", "const", "continue", "crate",
   "do", "dyn", "else", "enum", "extern", "false", "final", "fn", "for", "if", "impl", "in", "let",
   "loop", "macro", "match", "mod", "move", "mut", "override", "priv", "pub", "ref", "return",
   "Self", "self", "static", "struct", "super", "trait", "true", "try", "type", "typeof", "unsafe",
   "unsized", "use", "virtual", "where", "while", "yield"].map String.toList

/-- EXTERNAL `impl Parse for Ident` of syn (type re-exported at ast.rs:27). -/
def parseRustIdent : Parser (Text × Span) := fun s =>
  match uncons s.cur with
  | some (.ident x sp, rest) =>
    if rustKeywords.contains x then
      .err (s.error ("expected identifier, found keyword `".toList ++ x ++ "`".toList))
    else .ok (x, sp) { s with cur := rest }
  | _ => .err (s.error "expected identifier".toList)

/-- EXTERNAL `syn::token::parsing::keyword`: the keyword tokens of `Token![...]` (`token::Fn`, ...). -/
def parseKwToken (kw : Text) : Parser Span := fun s =>
  match uncons s.cur with
  | some (.ident x sp, rest) =>
    if x = kw then .ok sp { s with cur := rest }
    else .err (s.error ("expected `".toList ++ kw ++ "`".toList))
  | _ => .err (s.error ("expected `".toList ++ kw ++ "`".toList))

/-- EXTERNAL loop of `syn::token::parsing::punct_helper`: every character but the last must be
`Joint`; the join flag of the last one is not looked at; `'` is not punctuation for syn. Returns the spans. -/
def punctLoop : Text → List TT → Option (List Span × List TT)
  | [], cur => some ([], cur)
  | [c], cur =>
    match uncons cur with
    | some (.punct c' _ sp, rest) => if c' ≠ '\'' ∧ c' = c then some ([sp], rest) else none
    | _ => none
  | c :: c2 :: cs, cur =>
    match uncons cur with
    | some (.punct c' spc sp, rest) =>
      if c' ≠ '\'' ∧ c' = c ∧ spc = .joint then
        match punctLoop (c2 :: cs) rest with
        | some (sps, rest') => some (sp :: sps, rest')
        | none => none
      else none
    | _ => none

/-- EXTERNAL span of the error of `punct_helper`: the first punctuation seen, else `input.span()`. -/
def punctErrSpan (s : PState) : Span :=
  match uncons s.cur with
  | some (.punct c' _ sp, _) => if c' ≠ '\'' then sp else s.headSpan
  | _ => s.headSpan

/-- EXTERNAL `syn::token::parsing::punct` for the operator tokens of `Token![...]` (`token::Plus`, ...). -/
def parsePunct (tok : Text) : Parser (List Span) := fun s =>
  match punctLoop tok s.cur with
  | some (sps, rest) => .ok sps { s with cur := rest }
  | none => .err ⟨punctErrSpan s, "expected `".toList ++ tok ++ "`".toList⟩

/-- EXTERNAL message of `parenthesized!` / `bracketed!` / `braced!`. -/
def delimMsg : Delim → Text
  | .paren => "expected parentheses".toList
  | .bracket => "expected square brackets".toList
  | .brace => "expected curly braces".toList
  | .none => "expected invisible group".toList

/-- EXTERNAL `syn::{parenthesized!, bracketed!, braced!}` followed by running `p` on the contents and
dropping the content buffer at the end of the scope (the shape of ast.rs:1066-1074, 1194-1202, 1329-1337).
The content buffer shares the unexpected cell of the outer stream. -/
def delimited {α : Type} (d : Delim) (p : Parser α) : Parser (Span × α) := fun s =>
  match uncons s.cur with
  | some (.group d' inner sp, rest) =>
    if d' = d then
      (p { cur := inner, scope := sp.closeOf, unexp := s.unexp }).bind fun v s' =>
        .ok (sp, v) { cur := rest, scope := s.scope, unexp := s'.dropUnexp }
    else .err (s.error (delimMsg d))
  | _ => .err (s.error (delimMsg d))

/-- EXTERNAL `impl Parse for TokenStream`: takes everything that is left on this level. -/
def parseTokenStream : Parser (List TT) := fun s => .ok s.cur { s with cur := [] }

/-- Result of a top-level entry point. -/
inductive Top (α : Type) where
  | ok (a : α)
  | err (e : Err)
  | panic
  | oof

/-- EXTERNAL `syn::parse2` (re-exported at lib.rs:66): run the parser on the whole stream, then reject
recorded unexpected tokens, then reject unread tokens. -/
def parse2 {α : Type} (p : Parser α) (ts : List TT) : Top α :=
  match p { cur := ts, scope := .callSite, unexp := none } with
  | .ok v s =>
    match s.unexp with
    | some sp => .err ⟨sp, "unexpected token".toList⟩
    | none =>
      match unexpectedSpan s.cur with
      | some sp => .err ⟨sp, "unexpected token".toList⟩
      | none => .ok v
  | .err e => .err e
  | .panic => .panic
  | .oof => .oof

end Parsel
