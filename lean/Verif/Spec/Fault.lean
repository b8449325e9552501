import Verif.Spec.Layout

/-
Specification vocabulary: texts that are no token streams.
-/

namespace Parsel.Spec

/-- The text `x` in which the delimiters `ds` (the innermost one first) are still open: before, between and after them there are tokens and complete groups, laid out
in any way.  (Right after a delimiter there is no comment `/*ERROR*/`: `(/*ERROR*/)` is a token of its own.) -/
inductive OpenText : Text → List Delim → Prop
  | base {ts x} : Writable ts → Layout ts x → OpenText x []
  | up {q ds d o c ts x} : OpenText q ds → Delims d o c → Writable ts → Layout ts x → startsWith "/*ERROR*/".toList x = false → OpenText (q ++ o :: x) (d :: ds)

/-- Texts that begin with something that is no token. -/
inductive NoToken : Text → Prop
  /-- a character that has no meaning -/
  | char {c rest} : lexWhite c = false → c ∉ "()[]{}'\"".toList → c ∉ punctChars → identStart c = false → c.isDigit = false → NoToken (c :: rest)
  /-- a string literal that is not closed -/
  | string {rest} : '"' ∉ rest → NoToken ('"' :: rest)
  /-- a comment that is not closed -/
  | comment {rest} : (∀ a b, rest ≠ a ++ '*' :: '/' :: b) → NoToken ('/' :: '*' :: rest)

/-- What is wrong with a text, where `rest` follows the place in question: a delimiter is opened there that is not closed (while all other text that follows is in
order); or there is a closing delimiter; or something that is no token, even if written by itself. -/
inductive WrongHere [Ext] (rest : Text) : Prop
  | unclosed {d o c body ts} : Delims d o c → rest = o :: body → lex (' ' :: body) = some ts → WrongHere rest
  | close {d o c more} : Delims d o c → rest = c :: more → WrongHere rest
  | token : rest ≠ [] → (∀ c, rest.head? = some c → lexWhite c = false ∧ ∀ d o e, Delims d o e → c ≠ o ∧ c ≠ e) → lex (' ' :: rest) = none → WrongHere rest

/-- Whatever is to be read, `parse_str` fails on this text, with an error located at the (empty) stretch at the place `p`. -/
def FaultAt [Ext] (src : Text) (p : LineCol) : Prop :=
  ∀ (α : Type) (parser : Parser α), parseStr parser src = .err ⟨⟨p, p⟩, "cannot parse string into token stream".toList⟩

end Parsel.Spec
