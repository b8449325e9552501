import Verif.Spec.Format
import Verif.Spec.Source

/-
Specification vocabulary: the ways to lay out given tokens in a source text.
-/

namespace Parsel.Spec

/-- White space and comments between two tokens.  The comments are not documentation comments, and each is closed (a line comment by its line break). -/
inductive Gap : Text → Prop
  | nil : Gap []
  | white {c g} : lexWhite c = true → Gap g → Gap (c :: g)
  /-- `//x`, where neither `///` (unless `////`) nor `//!` -/
  | line {x g} : '\n' ∉ x → x.head? ≠ some '!' → (x.head? = some '/' → x.tail.head? = some '/') → Gap g → Gap ('/' :: '/' :: (x ++ '\n' :: g))
  /-- `x` is one whole block comment (they nest), neither `/**` (unless `/***` or `/**/`) nor `/*!` -/
  | block {x g} : BlockComment x → startsWith "/*!".toList x = false →
      (startsWith "/**".toList x = true → startsWith "/***".toList x = true ∨ x = "/**/".toList) → Gap g → Gap (x ++ g)

/-- White space and comments at the end of a source text: the last line comment need not be closed by a line break. -/
inductive Ending : Text → Prop
  | gap {g} : Gap g → Ending g
  | line {g x} : Gap g → '\n' ∉ x → x.head? ≠ some '!' → (x.head? = some '/' → x.tail.head? = some '/') → Ending (g ++ '/' :: '/' :: x)

/-- A word: a character that identifiers begin with (a letter or underscore), then characters of identifiers (letters, digits, underscores); or `r#` and a word
that may be raw. -/
inductive Word : Text → Prop
  | plain {c w} : identStart c = true → (∀ d ∈ w, identCont d = true) → Word (c :: w)
  | raw {c w} : identStart c = true → (∀ d ∈ w, identCont d = true) → c :: w ∉ ["_".toList, "super".toList, "self".toList, "Self".toList, "crate".toList] →
      Word ('r' :: '#' :: c :: w)

/-- There is nothing in the text but white space and comments. -/
inductive Unwritten : Text → Prop
  | mk {bom e} : IsBom bom → Ending e → Unwritten (bom ++ e)

/-- There is nothing in the text but `x`, at the given location, and white space and comments around it. -/
inductive OneToken : Text → Text → Span → Prop
  | mk {bom g x e} : IsBom bom → Gap g → Ending e → OneToken (bom ++ (g ++ (x ++ e))) x (stretchSpan (bom ++ g) x)

/-- There is nothing in the text but `body` between delimiters of the given kind, and white space and comments around them; the delimiters and what is between
them have the given location. -/
inductive OneGroup : Delim → Text → Text → Span → Prop
  | mk {bom g d o c body e} : IsBom bom → Gap g → Ending e → Delims d o c →
      OneGroup d (bom ++ (g ++ (o :: (body ++ [c]) ++ e))) body (stretchSpan (bom ++ g) (o :: (body ++ [c])))

/-- There is nothing in the text but a minus sign and `x`, which the given location reaches over, and white space and comments around and between them. -/
inductive MinusToken : Text → Text → Span → Prop
  | mk {bom g g' x e} : IsBom bom → Gap g → Gap g' → Ending e →
      MinusToken (bom ++ (g ++ '-' :: (g' ++ (x ++ e)))) x (stretchSpan (bom ++ g) ('-' :: (g' ++ x)))

/-- No comment begins in `x` when `rest` follows it. -/
def Uncommented (x rest : Text) : Prop :=
  ∀ a b, x = a ++ b → b ≠ [] → startsWith "//".toList (b ++ rest) = false ∧ startsWith "/*".toList (b ++ rest) = false

/-- What may directly follow the word or literal `w`: nothing, white space, a delimiter, a comment or a punctuation character other than `'` and `#`;
not a dot after a number, nor a sign after a number with an `e` in it. -/
structure Parts (w rest : Text) : Prop where
  next : ∀ c, rest.head? = some c → lexWhite c = true ∨ c ∈ "()[]{}".toList ∨ (c ∈ punctChars ∧ c ≠ '\'' ∧ c ≠ '#')
  number : (∃ d, w.head? = some d ∧ d.isDigit = true) →
    rest.head? ≠ some '.' ∧ ((rest.head? ≠ some '+' ∧ rest.head? ≠ some '-') ∨ ('e' ∉ w ∧ 'E' ∉ w))

/-- What may directly follow a punctuation character `c` that is not joined to the next one: anything but punctuation; or a comment (after a
character other than `/`). -/
def Clear (c : Char) (rest : Text) : Prop :=
  (∀ d, rest.head? = some d → d ∉ punctChars) ∨ (c ≠ '/' ∧ (startsWith "//".toList rest = true ∨ startsWith "/*".toList rest = true))

/-- There is no white space and no comment at the beginning. -/
def Tight (rest : Text) : Prop :=
  (∀ d, rest.head? = some d → lexWhite d = false) ∧ startsWith "//".toList rest = false ∧ startsWith "/*".toList rest = false

/-- The text consists of the given tokens, in this order, with white space and comments before, between and after them, as one likes: but two tokens
that would run into one another are kept apart, and joined punctuation is directly followed by the next token. -/
inductive Layout : List TT → Text → Prop
  | nil {g} : Gap g → Layout [] g
  | ident {g x sp ts rest} : Gap g → Parts x rest → Layout ts rest → Layout (.ident x sp :: ts) (g ++ (x ++ rest))
  | lit {g x sp ts rest} : Gap g → Parts x rest → Layout ts rest → Layout (.lit x sp :: ts) (g ++ (x ++ rest))
  | alone {g c sp ts rest} : Gap g → Clear c rest → Layout ts rest → Layout (.punct c .alone sp :: ts) (g ++ c :: rest)
  | joint {g c sp ts rest} : Gap g → Tight rest → Layout ts rest → Layout (.punct c .joint sp :: ts) (g ++ c :: rest)
  /-- not `(/*ERROR*/)`, which is a token of its own -/
  | group {g d o c inner body sp ts rest} : Gap g → Delims d o c → Layout inner body → startsWith "(/*ERROR*/)".toList (o :: body ++ [c]) = false → Layout ts rest →
      Layout (.group d inner sp :: ts) (g ++ o :: (body ++ c :: rest))

end Parsel.Spec
