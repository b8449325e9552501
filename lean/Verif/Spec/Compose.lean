import Verif.Spec.Layout
import Verif.Spec.Source
import Verif.Spec.Progress
import Verif.Spec.Format
import Verif.Spec.Respell
import Verif.Model.Lex

/-! Putting texts together (C88): texts of nodes, written one after the other with a space between them, or between delimiters. -/

namespace Parsel.Spec

section
variable [Ext]

mutual
/-- `x` is put together from texts of (parts of) the value `v`. A part may be a text that was read as that part by some type of some program, with its own
white space and comments. -/
inductive Composed : Val → Text → Prop
  /-- a text that is read as `v` by some type -/
  | read {env t v x ts n} : lex x = some ts → Layout ts x → parseStr (parse env n t) x = .ok v → Composed v x
  /-- the text that `to_string` makes of `v` -/
  | shown {env t v x alternate} : HasTy env t v → HasText v → v.toTokens ≠ none → display alternate v = some x → Composed v x
  /-- delimiters around a text -/
  | group {d o c sp v x} : Delims d o c → Composed v x → Composed (.group d sp v) (o :: ' ' :: (x ++ [' ', c]))
  | node {tag vs x} : ComposedL vs x → Composed (.node tag vs) x
/-- The same for values that follow each other. -/
inductive ComposedL : List Val → Text → Prop
  | nil : ComposedL [] []
  /-- `NotEof` has no text -/
  | notEof {vs x} : ComposedL vs x → ComposedL (.leaf .notEof .unit :: vs) x
  | one {v x} : Composed v x → ComposedL [v] x
  /-- the text of a whole list (or of another node) is a text of its items -/
  | parts {tag vs x} : Composed (.node tag vs) x → ComposedL vs x
  | append {vs ws x y} : ComposedL vs x → ComposedL ws y → ComposedL (vs ++ ws) (x ++ ' ' :: y)
end

/-- The texts `xs` are read, one by one, as the types `us`, and give the values `vs`. -/
inductive Pieces (env : Env) : List Ty → List Text → List Val → Prop
  | nil : Pieces env [] [] []
  | cons {u us x xs v vs ts n} : lex x = some ts → Layout ts x → NoMinusZero ts → parseStr (parse env n u) x = .ok v → v.toTokens ≠ none → Pieces env us xs vs →
      Pieces env (u :: us) (x :: xs) (v :: vs)

end

/-- Texts one after the other, with a space behind each. -/
def spaced : List Text → Text
  | [] => []
  | x :: xs => x ++ ' ' :: spaced xs

end Parsel.Spec
