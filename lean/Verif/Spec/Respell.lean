import Verif.Spec.Locations
import Verif.Spec.Termination
import Verif.Spec.Source

/-
Specification vocabulary: token streams that are spelled differently without any parser of a grammar noticing.
-/

namespace Parsel.Spec

variable [Ext]

/-- Two literal tokens of the same kind and value, also if there is a minus sign before them. -/
inductive SameLit : Text → Text → Prop
  | refl {r} : SameLit r r
  | int {r r' n} : IntLit r n → IntLit r' n → SameLit r r'
  | float {r r' d d'} : r.head? ≠ some '-' → r'.head? ≠ some '-' → readLit r = some (.float d) → readLit r' = some (.float d') →
      Ext.floatOf d = Ext.floatOf d' → Ext.floatOf ('-' :: d) = Ext.floatOf ('-' :: d') → SameLit r r'
  | byte {r r' b} : readLit r = some (.byte b) → readLit r' = some (.byte b) → SameLit r r'
  | char {r r' c} : readLit r = some (.char c) → readLit r' = some (.char c) → SameLit r r'
  | str {r r' t} : readLit r = some (.str t) → readLit r' = some (.str t) → SameLit r r'
  | byteStr {r r' t} : readLit r = some (.byteStr t) → readLit r' = some (.byteStr t) → SameLit r r'

/-- Two token streams that differ at most in source locations, the spelling of literals, invisible groups that are only in the first one, and punctuation
characters that are joined to the next one in the first stream only, provided the two are not `Glued`. -/
inductive Respelled (Glued : Char → Char → Prop) : List TT → List TT → Prop
  | nil : Respelled Glued [] []
  | ident {x sp sp' a b} : Respelled Glued a b → Respelled Glued (.ident x sp :: a) (.ident x sp' :: b)
  | lit {r r' sp sp' a b} : SameLit r r' → Respelled Glued a b → Respelled Glued (.lit r sp :: a) (.lit r' sp' :: b)
  | punct {c spc sp sp' a b} : Respelled Glued a b → Respelled Glued (.punct c spc sp :: a) (.punct c spc sp' :: b)
  | unjoined {c sp sp' a b} : (∀ c' spc' sp'' rest, Next a (.punct c' spc' sp'') rest → ¬ Glued c c') → Respelled Glued a b →
      Respelled Glued (.punct c .joint sp :: a) (.punct c .alone sp' :: b)
  | group {d i j sp sp' a b} : d ≠ .none → Respelled Glued i j → Respelled Glued a b → Respelled Glued (.group d i sp :: a) (.group d j sp' :: b)
  | invisible {inner sp a b} : dissolve inner ≠ [] → Respelled Glued (inner ++ a) b → Respelled Glued (.group .none inner sp :: a) b

/-- `t` is the type or a part of it, at any depth. -/
def Within (env : Env) (t u : Ty) : Prop := u = t ∨ Chain (fun a b => PartOf env b a) t u

/-- Some operator of the type's grammar has `c` directly before `c'`. -/
def GluedIn (env : Env) (t : Ty) (c c' : Char) : Prop := ∃ tok, Within env t (.leaf (.punct tok)) ∧ [c, c'] <:+: tok

/-- What is assumed about the signs of `f64` texts (EXTERNAL, IEEE and `core::fmt`): the displayed text of a finite number has a minus sign if the text
that it was read from had one (also for zero); texts of the same number are texts of the same number with a minus sign before them, and conversely. -/
structure SignLaws : Prop where
  sign : ∀ d x, Ext.floatOf d = some x → Ext.finite x = true → ((Ext.floatText x).head? = some '-' ↔ d.head? = some '-')
  neg : ∀ c d c' d', c.isDigit = true → c'.isDigit = true →
    (Ext.floatOf (c :: d) = Ext.floatOf (c' :: d') ↔ Ext.floatOf ('-' :: c :: d) = Ext.floatOf ('-' :: c' :: d'))

/-- The stream is as the lexer makes them: no literal token has a sign of its own, and no invisible group is empty (the lexer makes none at all). -/
structure Ordinary (ts : List TT) : Prop where
  unsigned : ∀ r sp, Occurs (.lit r sp) ts → r.head? ≠ some '-'
  nonempty : ∀ inner sp, Occurs (.group .none inner sp) ts → dissolve inner ≠ []

/-- Nowhere in the stream is there a minus sign directly before an integer zero. -/
def NoMinusZero (ts : List TT) : Prop := ∀ spc sp r sp', Segment [.punct '-' spc sp, .lit r sp'] (dissolve ts) → ¬ IntLit r 0

/-- Two streams of tokens of the same kinds.  Where the join flag of a punctuation character differs, what follows in the first one is not a character that
it is `Glued` to. -/
inductive SameJoins (Glued : Char → Char → Prop) : List TT → List TT → Prop
  | nil : SameJoins Glued [] []
  | ident {x x' sp sp' a b} : SameJoins Glued a b → SameJoins Glued (.ident x sp :: a) (.ident x' sp' :: b)
  | lit {r r' sp sp' a b} : SameJoins Glued a b → SameJoins Glued (.lit r sp :: a) (.lit r' sp' :: b)
  | punct {c c' spc spc' sp sp' a b} : (spc = spc' ∨ ∀ c2 spc2 sp2 rest, a = .punct c2 spc2 sp2 :: rest → ¬ Glued c c2) → SameJoins Glued a b →
      SameJoins Glued (.punct c spc sp :: a) (.punct c' spc' sp' :: b)
  | group {d d' i j sp sp' a b} : SameJoins Glued i j → SameJoins Glued a b → SameJoins Glued (.group d i sp :: a) (.group d' j sp' :: b)

end Parsel.Spec
