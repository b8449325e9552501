import Verif.Model.Lex
import Verif.Spec.Offset
import Verif.Spec.Progress

/-
Specification vocabulary: token streams that lie in a source text.
-/

namespace Parsel.Spec

/-- What follows the `/*` of a block comment: characters and nested comments, up to the `*/` that closes it. -/
inductive CommentBody : Text → Prop
  | close : CommentBody ['*', '/']
  | nested {a b} : CommentBody a → CommentBody b → CommentBody ('/' :: '*' :: (a ++ b))
  | char {c x} : (c = '/' → x.head? ≠ some '*') → (c = '*' → x.head? ≠ some '/') → CommentBody x → CommentBody (c :: x)

/-- A whole block comment. -/
inductive BlockComment : Text → Prop
  | mk {b} : CommentBody b → BlockComment ('/' :: '*' :: b)

/-- White space and comments that are not documentation. -/
inductive Blank : Text → Prop
  | nil : Blank []
  | white {c g} : lexWhite c = true → Blank g → Blank (c :: g)
  | line {x g} : '\n' ∉ x → Blank g → Blank (('/' :: '/' :: x) ++ g)
  | block {x g} : BlockComment x → Blank g → Blank (x ++ g)

/-- The characters of a visible delimiter. -/
inductive Delims : Delim → Char → Char → Prop
  | paren : Delims .paren '(' ')'
  | bracket : Delims .bracket '[' ']'
  | brace : Delims .brace '{' '}'

mutual
/-- The text `x`, right after `pre` in some source text, is spelled by the tokens `ts`, and their locations are that of the text; `docs` says whether
documentation comments (which stand for several tokens) are considered. -/
inductive Spelled [Ext] (docs : Bool) : Text → Text → List TT → Prop
  | ident {pre x} : Spelled docs pre x [.ident x (stretchSpan pre x)]
  | punct {pre c spc} : Spelled docs pre [c] [.punct c spc (stretchSpan pre [c])]
  | lit {pre x} : Spelled docs pre x [.lit x (stretchSpan pre x)]
  | group {pre d o c body inner} : Delims d o c → Laid docs (pre ++ [o]) body inner →
      Spelled docs pre (o :: body ++ [c]) [.group d inner (stretchSpan pre (o :: body ++ [c]))]
  | doc {pre x rest text inner} : docs = true → docComment (x ++ rest) = some (text, inner, rest) →
      Spelled docs pre x (docTokens text inner (stretchSpan pre x))
/-- The text `x`, right after `pre` in some source text, consists of the spellings of the tokens `ts`, in this order, with white space and comments
between them; the tokens are located where they are spelled. -/
inductive Laid [Ext] (docs : Bool) : Text → Text → List TT → Prop
  | blank {pre g} : Blank g → Laid docs pre g []
  | token {pre g x ts rest us} : Blank g → x ≠ [] → Spelled docs (pre ++ g) x ts → Laid docs (pre ++ g ++ x) rest us →
      Laid docs pre (g ++ x ++ rest) (ts ++ us)
end

/-- The byte order mark that a source text may begin with. -/
def IsBom (pre : Text) : Prop := pre = [] ∨ pre = ['\uFEFF']

/-- There is no invisible group in the stream. -/
def Visible (ts : List TT) : Prop := ∀ inner sp, ¬ Occurs (.group .none inner sp) ts

/-- The node `w` is `v` or a node inside it. -/
inductive Inside [Ext] (w : Val) : Val → Prop
  | here : Inside w w
  | group {d sp v} : Inside w v → Inside w (.group d sp v)
  | node {tag v vs} : v ∈ vs → Inside w v → Inside w (.node tag vs)

/-- `b` are tokens that follow each other in the stream, on any level. -/
inductive Segment (b : List TT) : List TT → Prop
  | here {a c} : Segment b (a ++ b ++ c)
  | inside {a d inner sp c} : Segment b inner → Segment b (a ++ .group d inner sp :: c)

/-- `y` is the text of the token `t` (of a group: with its delimiters at both ends). -/
inductive TokenText : Text → TT → Prop
  | ident {x sp} : TokenText x (.ident x sp)
  | punct {c spc sp} : TokenText [c] (.punct c spc sp)
  | lit {x sp} : TokenText x (.lit x sp)
  | group {d o c body inner sp} : Delims d o c → TokenText (o :: body ++ [c]) (.group d inner sp)

/-- Location from the beginning of the first to the end of the last of some tokens. -/
inductive FromTo : List TT → Span → Prop
  | one {t} : FromTo [t] t.span
  | more {t b u} : FromTo (t :: b ++ [u]) ⟨t.span.start, u.span.stop⟩

end Parsel.Spec
