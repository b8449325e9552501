import Verif.Model.Lex
import Verif.Spec.Locations

/-
Specification vocabulary for the formatter: which token streams have a textual form.
-/

namespace Parsel.Spec

/-- The text is exactly one literal (or `proc_macro2`'s text for an invalid expression). -/
def LitText (r : Text) : Prop := lexLiteral r = some [] ∨ r = "(/*ERROR*/)".toList

/-- The text is exactly one word (`r#` words included). -/
def IdentText (x : Text) : Prop := lexIdentAny x = some (x, [])

/-- `t` may directly follow the punctuation character `c`: another punctuation character (unless that makes a comment) or a quote that begins a
character literal; the name of a lifetime after a quote (or one of the string prefixes `r`, `b`, `br`, `c`, `cr` of a string literal). -/
inductive Follows : Char → TT → Prop
  | punct {c c' spc sp} : c ≠ '\'' → ¬ (c = '/' ∧ (c' = '/' ∨ c' = '*')) → Follows c (.punct c' spc sp)
  | char {c r sp} : c ≠ '\'' → r.head? = some '\'' → Follows c (.lit r sp)
  | lifetime {x sp} : Follows '\'' (.ident x sp)
  | strange {r sp i rest} : lexIdentAny r = some (i, '"' :: rest) → Follows '\'' (.lit r sp)

/-- The token streams that have a textual form: words and literals with proper text; a punctuation character that is not joined to what follows
is not a quote; one that is joined is directly followed by something that can be.  Groups of all delimiters (invisible ones, too) at any depth. -/
inductive Writable : List TT → Prop
  | nil : Writable []
  | ident {x sp ts} : IdentText x → Writable ts → Writable (.ident x sp :: ts)
  | lit {r sp ts} : LitText r → Writable ts → Writable (.lit r sp :: ts)
  | alone {c sp ts} : c ∈ punctChars → c ≠ '\'' → Writable ts → Writable (.punct c .alone sp :: ts)
  | joint {c sp t ts} : c ∈ punctChars → Follows c t → Writable (t :: ts) → Writable (.punct c .joint sp :: t :: ts)
  | group {d inner sp ts} : Writable inner → Writable ts → Writable (.group d inner sp :: ts)

mutual
/-- The text of a token tree, token by token: delimiters are tokens of their own, invisible ones have no text. -/
def textsT : TT → List Text
  | .ident x _ => [x]
  | .lit r _ => [r]
  | .punct c _ _ => [[c]]
  | .group .paren inner _ => ["(".toList] ++ texts inner ++ [")".toList]
  | .group .bracket inner _ => ["[".toList] ++ texts inner ++ ["]".toList]
  | .group .brace inner _ => ["{".toList] ++ texts inner ++ ["}".toList]
  | .group .none inner _ => texts inner
/-- The text of a stream, token by token. -/
def texts : List TT → List Text
  | [] => []
  | t :: ts => textsT t ++ texts ts
end

/-- `out` is made of the given pieces, in order, with only characters of `p` before, between and after them. -/
inductive Spaced (p : Char → Prop) : List Text → Text → Prop
  | nil {gap} : (∀ c ∈ gap, p c) → Spaced p [] gap
  | cons {gap t ts out} : (∀ c ∈ gap, p c) → Spaced p ts out → Spaced p (t :: ts) (gap ++ t ++ out)

/-- The text is an operator: punctuation characters that do not make a comment or a lifetime. -/
def OperatorText (tok : Text) : Prop :=
  tok ≠ [] ∧ (∀ c ∈ tok, c ∈ punctChars ∧ c ≠ '\'') ∧ ¬ "//".toList <:+: tok ∧ ¬ "/*".toList <:+: tok

variable [Ext]

/-- The leaf has a textual form: identifiers and the keywords and operators of syn are really identifiers and operators. -/
inductive LeafText : Leaf → LeafVal → Prop
  | unit {l} : LeafText l .unit
  | ident {l x sp} : IdentText x → LeafText l (.ident x sp)
  | keyword {kw sp} : LeafText (.keyword kw) (.mark [sp])
  | kwToken {kw sp} : IdentText kw → LeafText (.kwToken kw) (.mark [sp])
  | punct {tok sps} : OperatorText tok → sps.length = tok.length → LeafText (.punct tok) (.mark sps)
  | lit {k l sp} : LeafText (.lit k) (.lit l sp)

mutual
/-- All leaves of the value have a textual form. -/
def HasText : Val → Prop
  | .leaf l v => LeafText l v
  | .group d _ v => d ≠ .none ∧ HasText v
  | .node _ vs => HasTextL vs
/-- The same for a list of values. -/
def HasTextL : List Val → Prop
  | [] => True
  | v :: vs => HasText v ∧ HasTextL vs
end

end Parsel.Spec
