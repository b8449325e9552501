import Verif.Spec.Grammar

/-
Specification vocabulary: streams and values that differ only in source locations.
-/

namespace Parsel.Spec

/-- Two token streams that differ at most in source locations. -/
inductive SameShape : List TT → List TT → Prop
  | nil : SameShape [] []
  | ident {x sp sp' a b} : SameShape a b → SameShape (.ident x sp :: a) (.ident x sp' :: b)
  | punct {c spc sp sp' a b} : SameShape a b → SameShape (.punct c spc sp :: a) (.punct c spc sp' :: b)
  | lit {r sp sp' a b} : SameShape a b → SameShape (.lit r sp :: a) (.lit r sp' :: b)
  | group {d i j sp sp' a b} : SameShape i j → SameShape a b → SameShape (.group d i sp :: a) (.group d j sp' :: b)

variable [Ext]

/-- Contents of a leaf that differ at most in locations. -/
inductive LeafAlike : LeafVal → LeafVal → Prop
  | unit : LeafAlike .unit .unit
  | ident {x sp sp'} : LeafAlike (.ident x sp) (.ident x sp')
  | mark {sps sps'} : sps.length = sps'.length → LeafAlike (.mark sps) (.mark sps')
  | lit {l sp sp'} : LeafAlike (.lit l sp) (.lit l sp')

mutual
/-- Values that differ at most in locations (that are equal for the derived and hand-written `PartialEq`). -/
inductive Alike : Val → Val → Prop
  | leaf {l v w} : LeafAlike v w → Alike (.leaf l v) (.leaf l w)
  | group {d sp sp' v w} : Alike v w → Alike (.group d sp v) (.group d sp' w)
  | node {tag vs ws} : AlikeL vs ws → Alike (.node tag vs) (.node tag ws)
/-- The same for lists of values. -/
inductive AlikeL : List Val → List Val → Prop
  | nil : AlikeL [] []
  | cons {v w vs ws} : Alike v w → AlikeL vs ws → AlikeL (v :: vs) (w :: ws)
end

end Parsel.Spec
