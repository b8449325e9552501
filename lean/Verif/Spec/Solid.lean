import Verif.Spec.LL1
import Verif.Spec.Peg

/-
Specification: values that survive printing without further conditions, and grammars that have no others.
-/

namespace Parsel.Spec

variable [Ext]

mutual
/-- No `Lit` in the value is a `Lit::Int(0)` (which is what `-0` is read as). -/
def NoZero : Val → Prop
  | .leaf l v => l = .lit .any → ∀ sp, v ≠ .lit (.int 0) sp
  | .group _ _ v => NoZero v
  | .node _ vs => NoZeroL vs
/-- The same for a list of values. -/
def NoZeroL : List Val → Prop
  | [] => True
  | v :: vs => NoZero v ∧ NoZeroL vs
end

/-- The type is not `Lit`, not an operator with a quote, and not a `Punctuated` whose items or separators can be empty. -/
def SolidAt (env : Env) : Ty → Prop
  | .leaf (.punct tok) => '\'' ∉ tok
  | .leaf (.lit k) => k ≠ .any
  | .punctuated t p => ¬ CanBeEmpty env t ∧ ¬ CanBeEmpty env p
  | _ => True

/-- No type of the grammar is one of those. -/
def Solid (env : Env) (G : List Ty) : Prop := ∀ t ∈ G, SolidAt env t

/-- `SolidAt`, judging by the tables. -/
def Tables.solidAt (c : Tables) : Ty → Bool
  | .leaf (.punct tok) => !tok.contains '\''
  | .leaf (.lit .any) => false
  | .punctuated t p => !c.emp t && !c.emp p
  | _ => true

/-- The grammar made of the types `G` is solid, with the tables computed in `n` rounds. -/
def solid (env : Env) (G : List Ty) (n : Nat) : Bool :=
  let l := Tables.compute env G n
  G.all (Tables.ofLists l.1 l.2.1 l.2.2.1 l.2.2.2.1 l.2.2.2.2).solidAt

end Parsel.Spec
