import Verif.Model.Grammar

/-
The token stream formatter: parsel/src/util.rs:356-696, `#[derive(Display)]` (parsel_derive/src/display.rs) and the hand-written `Display` impls.
-/

namespace Parsel

/-- EXTERNAL a `core::fmt::Write`, as far as the formatter can tell: what happens at the `n`-th write.  `none`: the text is written; `some k`: the
call fails after at most `k` characters of it were written. -/
abbrev Sink := Nat → Option Nat

/-- EXTERNAL `String` as a writer: never fails. -/
def Sink.reliable : Sink := fun _ => none

/-- util.rs:359-364 `TokenStreamFormatter`: nesting level, indentation string; of the writer, the text written so far and the number of writes. -/
structure Fmt where
  level : Nat
  indent : Option Text
  out : Text
  calls : Nat

/-- A step of the formatter: the formatter afterwards, and whether it succeeded (`fmt::Result`). -/
abbrev FmtStep := Fmt → Fmt × Bool

/-- EXTERNAL one call of `Write::write_str` / `write_char` (also through `write!`, whose pieces count as one write: a failure may come after any part
of the text). -/
def put (w : Sink) (t : Text) : FmtStep := fun f =>
  match w f.calls with
  | none => ({ f with out := f.out ++ t, calls := f.calls + 1 }, true)
  | some k => ({ f with out := f.out ++ t.take k, calls := f.calls + 1 }, false)

/-- The `?` operator. -/
def FmtStep.andThen (a b : FmtStep) : FmtStep := fun f =>
  match a f with
  | (f', true) => b f'
  | (f', false) => (f', false)

/-- Doing nothing, successfully. -/
def fmtOk : FmtStep := fun f => (f, true)

/-- The loop `for _ in 0..n` of `write_indent`. -/
def putTimes (w : Sink) (t : Text) : Nat → FmtStep
  | 0 => fmtOk
  | n + 1 => (put w t).andThen (putTimes w t n)

/-- util.rs:479-489 `write_indent`. -/
def writeIndent (w : Sink) : FmtStep := fun f =>
  match f.indent with
  | some s => putTimes w s f.level f
  | none => (f, true)

/-- util.rs:491-499 `write_newline`. -/
def writeNewline (w : Sink) (sp : Spacing) : FmtStep := fun f =>
  match f.indent with
  | some _ => put w ['\n'] f
  | none =>
    match sp with
    | .alone => put w [' '] f
    | .joint => (f, true)

/-- util.rs:501-504 `write_newline_and_indent`. -/
def writeNewlineAndIndent (w : Sink) (sp : Spacing) : FmtStep := (writeNewline w sp).andThen (writeIndent w)

/-- util.rs:440, 445 `self.indent_level += 1` and `-= 1`. -/
def setLevel (g : Nat → Nat) : FmtStep := fun f => ({ f with level := g f.level }, true)

/-- util.rs:427-430 the opening delimiter. -/
def openChar : Delim → Char
  | .paren => '('
  | .bracket => '['
  | .brace => '{'
  | .none => ' '

/-- util.rs:427-430 the closing delimiter. -/
def closeChar : Delim → Char
  | .paren => ')'
  | .bracket => ']'
  | .brace => '}'
  | .none => ' '

/-- util.rs:432-463 a delimited group; `inner` writes its contents. -/
def writeGroup (w : Sink) (d : Delim) (isEmpty : Bool) (inner : FmtStep) (last : Bool) (alone joint : FmtStep) : FmtStep :=
  (put w [openChar d]).andThen
    (FmtStep.andThen
      (if isEmpty then fmtOk
      else (setLevel (· + 1)).andThen ((writeNewline w .joint).andThen (inner.andThen ((setLevel (· - 1)).andThen (writeNewlineAndIndent w .joint)))))
      ((put w [closeChar d]).andThen
        (if last then alone else (writeNewlineAndIndent w .alone).andThen joint)))

mutual
/-- util.rs:403-468 the loop of `write` over the token trees that are left; `sp` is the variable `spacing`. -/
def writeLoop (w : Sink) : Spacing → List TT → FmtStep
  | _, [] => fmtOk
  | sp, t :: rest =>
    FmtStep.andThen (match sp with
      | .joint => fmtOk
      | .alone => put w [' ']) (writeTree w t rest.isEmpty (writeLoop w .alone rest) (writeLoop w .joint rest))
/-- util.rs:415-464 the `match tt` with what comes after it: `last` is `iter.peek().is_none()`, `alone` and `joint` are the rest of the loop with
that value of `spacing`.  (`spacing` is always `Alone` when this is reached.) -/
def writeTree (w : Sink) : TT → Bool → FmtStep → FmtStep → FmtStep
  | .lit repr _, _, alone, _ => (put w repr).andThen alone
  | .ident x _, _, alone, _ => (put w x).andThen alone
  | .punct c sp _, last, alone, joint =>
    (put w [c]).andThen
      (if (c = ',' ∨ c = ';') ∧ sp = .alone ∧ last = false then (writeNewlineAndIndent w sp).andThen joint
      else
        match sp with
        | .alone => alone
        | .joint => joint)
  | .group .none inner _, _, alone, _ => ((writeIndent w).andThen (writeLoop w .joint inner)).andThen alone
  | .group .paren inner _, last, alone, joint => writeGroup w .paren inner.isEmpty ((writeIndent w).andThen (writeLoop w .joint inner)) last alone joint
  | .group .bracket inner _, last, alone, joint => writeGroup w .bracket inner.isEmpty ((writeIndent w).andThen (writeLoop w .joint inner)) last alone joint
  | .group .brace inner _, last, alone, joint => writeGroup w .brace inner.isEmpty ((writeIndent w).andThen (writeLoop w .joint inner)) last alone joint
end

/-- util.rs:403-468 `TokenStreamFormatter::write`. -/
def write (w : Sink) (ts : List TT) : FmtStep := (writeIndent w).andThen (writeLoop w .joint ts)

/-- util.rs:384-396 `TokenStreamFormatter::with_indent`; `none` = `Err`. EXTERNAL `str::trim` leaves nothing exactly if there is only white space:
modelled as trimming the front, then the back. -/
def withIndent (s : Text) : Option Fmt :=
  if ((s.dropWhile isWhite).reverse.dropWhile isWhite).reverse.isEmpty then some ⟨0, some s, [], 0⟩ else none

/-- util.rs:574-580 `TokenStreamFormatter::pretty`. -/
def Fmt.pretty : Fmt := ⟨0, some "    ".toList, [], 0⟩

/-- util.rs:621-627 `TokenStreamFormatter::compact`. -/
def Fmt.compact : Fmt := ⟨0, none, [], 0⟩

/-- util.rs:651-655 `format_tokens_pretty`, 658-660 `format_tokens_compact`, 688-696 `format_tokens` with the given alternate flag: the text written and
whether it succeeded. -/
def formatTokens (w : Sink) (alternate : Bool) (ts : List TT) : Text × Bool :=
  match write w ts (if alternate then .compact else .pretty) with
  | (f, ok) => (f.out, ok)

variable [Ext]

/-- util.rs:633-649 `format_ast_node_pretty`, `format_ast_node_compact`, 671-677 `format_ast_node`: `Display` of the generic types and of user types
with `#[derive(Display)]` (parsel_derive/src/display.rs:25-29).  `none` = panic in `to_tokens`. -/
def formatNode (w : Sink) (alternate : Bool) (v : Val) : Option (Text × Bool) := v.toTokens.map (formatTokens w alternate)

/-- EXTERNAL `Display for proc_macro2::Literal`: its text. The text of the token of each literal type (ast.rs:2475-2584, 3207-3219), `none` = panic. -/
def litText : LitVal → Option Text
  | .bool b => some (if b then "true".toList else "false".toList)
  | .byte b => litByteRepr b
  | .int v => some (intLiteral v)
  | .uint v => some (natText v)
  | .float x => floatLiteral x
  | .char c => some (charLiteral c)
  | .str t => some (stringLiteral t)
  | .byteStr t => some (byteStringLiteral t)

/-- `Display` of the leaf types: nothing for `Empty`/`Eof`/`NotEof` (ast.rs:436, 519, 607), the identifier (108-112), the keyword (375-379), the literal's
token (2441-2445).  The token types of syn have no `Display`; they print what `format_ast_node` would print.  `none` = panic. -/
def displayLeaf (l : Leaf) (v : LeafVal) : Option Text :=
  match l, v with
  | _, .unit => some []
  | _, .ident x _ => some x
  | .keyword kw, .mark _ => some kw
  | .kwToken kw, .mark _ => some kw
  | .punct tok, .mark _ => some tok
  | _, .mark _ => none
  | _, .lit l _ => litText l

mutual
/-- `Display` (`to_string()`, or `format!("{:#}")` with the alternate flag) of every node type: leaves; the contents of `Either` (ast.rs:3942-3953);
`format_ast_node` for the other generic types (ast.rs:893, 1052, 1180, 1315, 1565, 1979, 2287, 3401, 3594) and, by `#[derive(Display)]`, for user
types.  `none` = panic. -/
def display (alternate : Bool) : Val → Option Text
  | .leaf l v => displayLeaf l v
  | .group d sp v => (formatNode .reliable alternate (.group d sp v)).map Prod.fst
  | .node tag vs =>
    match tag with
    | .eitherLeft => displayOnly alternate vs
    | .eitherRight => displayOnly alternate vs
    | tag => (formatNode .reliable alternate (.node tag vs)).map Prod.fst
/-- The only child of `Either::Left` or `Either::Right`. -/
def displayOnly (alternate : Bool) : List Val → Option Text
  | [] => none
  | v :: _ => display alternate v
end

end Parsel
