import Verif.Spec.Grammar

/-
Specification vocabulary: one node of a value replaced by another.
-/

namespace Parsel.Spec

variable [Ext]

/-- The second value is the first one, except that the node `w'` is in the place of (one occurrence of) the node `w`. -/
inductive Replaced (w w' : Val) : Val → Val → Prop
  | here : Replaced w w' w w'
  | group {d sp v v'} : Replaced w w' v v' → Replaced w w' (.group d sp v) (.group d sp v')
  | node {tag l r v v'} : Replaced w w' v v' → Replaced w w' (.node tag (l ++ v :: r)) (.node tag (l ++ v' :: r))

end Parsel.Spec
