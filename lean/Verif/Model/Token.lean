/-
EXTERNAL: source positions, spans and token trees of the crate `proc_macro2`
(re-exported by parsel/src/lib.rs:57-63).  These types are not defined in /repo; they are the data
that every function of /repo works on.
-/

namespace Parsel

/-- Text is a list of Unicode scalar values (Rust `str`, compared by content). -/
abbrev Text := List Char

/-- EXTERNAL `proc_macro2::LineColumn` (re-export parsel/src/lib.rs:63): 1-based line, 0-based column
counted in characters. -/
structure LineCol where
  line : Nat
  column : Nat
  deriving DecidableEq, Repr

/-- EXTERNAL `impl Ord for LineColumn`: lexicographic, line first. `a.lt b` is `a < b`. -/
def LineCol.lt (a b : LineCol) : Bool :=
  decide (a.line < b.line) || (decide (a.line = b.line) && decide (a.column < b.column))

/-- EXTERNAL `a <= b` for `LineColumn`. -/
def LineCol.le (a b : LineCol) : Bool := !(b.lt a)

/-- EXTERNAL `proc_macro2::Span`, seen through `start()` / `end()`. -/
structure Span where
  start : LineCol
  stop : LineCol
  deriving DecidableEq, Repr

/-- EXTERNAL `Span::call_site()` of the fallback implementation: the empty range at the very start
of the (unspecified) source, i.e. line 1, column 0. -/
def Span.callSite : Span := ⟨⟨1, 0⟩, ⟨1, 0⟩⟩

/-- EXTERNAL `Span::join`: from the smaller start to the larger end. -/
def Span.join (a b : Span) : Span :=
  ⟨if b.start.lt a.start then b.start else a.start, if a.stop.lt b.stop then b.stop else a.stop⟩

/-- EXTERNAL `Group::span_open` (fallback `first_byte`): the first character of the span. -/
def Span.openOf (s : Span) : Span :=
  ⟨s.start, if s.start = s.stop then s.stop else ⟨s.start.line, s.start.column + 1⟩⟩

/-- EXTERNAL `Group::span_close` (fallback `last_byte`): the last character of the span. -/
def Span.closeOf (s : Span) : Span :=
  ⟨if s.start = s.stop then s.start else ⟨s.stop.line, s.stop.column - 1⟩, s.stop⟩

/-- EXTERNAL `proc_macro2::Delimiter`. -/
inductive Delim where
  | paren | bracket | brace | none
  deriving DecidableEq, Repr

/-- EXTERNAL `proc_macro2::Spacing`. -/
inductive Spacing where
  | alone | joint
  deriving DecidableEq, Repr

/-- EXTERNAL `proc_macro2::TokenTree`.  An identifier is its full spelling (including `r#`),
a literal is its source text, a group has one span from which the delimiters' spans are derived. -/
inductive TT where
  | ident (s : Text) (sp : Span)
  | punct (c : Char) (spc : Spacing) (sp : Span)
  | lit (repr : Text) (sp : Span)
  | group (d : Delim) (ts : List TT) (sp : Span)
  deriving Repr

/-- EXTERNAL `TokenTree::span()`. -/
def TT.span : TT → Span
  | .ident _ sp => sp
  | .punct _ _ sp => sp
  | .lit _ sp => sp
  | .group _ _ sp => sp

/-- EXTERNAL `syn::buffer::open_span_of_group`: the span used for errors at a token. -/
def TT.errSpan : TT → Span
  | .group _ _ sp => sp.openOf
  | t => t.span

/-- EXTERNAL `char::is_whitespace` (Unicode `White_Space`). -/
def isWhite (c : Char) : Bool :=
  [0x9, 0xA, 0xB, 0xC, 0xD, 0x20, 0x85, 0xA0, 0x1680, 0x2000, 0x2001, 0x2002, 0x2003, 0x2004, 0x2005, 0x2006, 0x2007, 0x2008, 0x2009,
    0x200A, 0x2028, 0x2029, 0x202F, 0x205F, 0x3000].contains c.toNat

/-- EXTERNAL white space for the lexer of `proc_macro2`: also the two directional marks. -/
def lexWhite (c : Char) : Bool := isWhite c || c.toNat == 0x200E || c.toNat == 0x200F

/-- EXTERNAL characters that an identifier may start with (`XID_Start` or `_`).  Simplification: of the characters beyond ASCII, all but white
space and the byte order mark count as letters. -/
def identStart (c : Char) : Bool := c.isAlpha || c = '_' || (decide (127 < c.toNat) && !lexWhite c && c.toNat != 0xFEFF)

/-- EXTERNAL characters that an identifier may go on with (`XID_Continue`), same simplification. -/
def identCont (c : Char) : Bool := c.isAlphanum || c = '_' || (decide (127 < c.toNat) && !lexWhite c && c.toNat != 0xFEFF)

mutual
/-- Number of token trees, at all levels (used as a measure only). -/
def TT.size : TT → Nat
  | .group _ ts _ => TT.sizes ts + 1
  | .ident _ _ => 1
  | .punct _ _ _ => 1
  | .lit _ _ => 1
/-- Sum of the sizes of a list of token trees (used as a measure only). -/
def TT.sizes : List TT → Nat
  | [] => 0
  | t :: ts => t.size + TT.sizes ts
end

end Parsel
