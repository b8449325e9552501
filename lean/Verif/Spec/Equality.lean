import Verif.Model.Equality
import Verif.Spec.Locations

/-
Specification vocabulary: floats that are equal without being the same (`0.0` and `-0.0`).
-/

namespace Parsel.Spec

variable [Ext]

/-- What is assumed about `==` and `hash` of `NotNan<f64>` (EXTERNAL): numbers are equal if they are the same once `-0.0` is replaced by `0.0`; equal numbers
hash alike. -/
structure FloatCmpLaws (c : FloatCmp Ext.F) (plus : Ext.F → Ext.F) : Prop where
  eq : ∀ x y, c.eq x y = true ↔ plus x = plus y
  hash : ∀ x y, c.eq x y = true → c.hash x = c.hash y

/-- Replace the floats of a leaf. -/
def leafFloats (f : Ext.F → Ext.F) : LeafVal → LeafVal
  | .lit (.float x) sp => .lit (.float (f x)) sp
  | v => v

mutual
/-- Replace the floats of a node. -/
def mapFloats (f : Ext.F → Ext.F) : Val → Val
  | .leaf l v => .leaf l (leafFloats f v)
  | .group d sp v => .group d sp (mapFloats f v)
  | .node tag vs => .node tag (mapFloatsL f vs)
/-- Replace the floats of nodes. -/
def mapFloatsL (f : Ext.F → Ext.F) : List Val → List Val
  | [] => []
  | v :: vs => mapFloats f v :: mapFloatsL f vs
end

end Parsel.Spec
