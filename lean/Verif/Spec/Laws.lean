import Verif.Spec.Grammar
import Verif.Spec.Derive

/-
Specification vocabulary: when two types can be exchanged for one another.
-/

namespace Parsel.Spec

/-- The lists of field types that a declaration offers: a struct offers one, an enum one for each variant, in order. -/
def alternatives : TypeDef → List (List Ty)
  | .struct f => [fieldTypes f]
  | .enum vs => vs.map fun v => fieldTypes v.fields

/-- Two lists of the same length with related elements. -/
inductive Pointwise (R : α → β → Prop) : List α → List β → Prop
  | nil : Pointwise R [] []
  | cons {a b as bs} : R a b → Pointwise R as bs → Pointwise R (a :: as) (b :: bs)

/-- The same type up to boxes, and up to exchanging declared types that are related by `R`. -/
inductive AlikeTy (R : Text → Text → Prop) : Ty → Ty → Prop
  | leaf {l} : AlikeTy R (.leaf l) (.leaf l)
  | named {x y} : R x y → AlikeTy R (.named x) (.named y)
  | boxLeft {t u} : AlikeTy R t u → AlikeTy R (.boxed t) u
  | boxRight {t u} : AlikeTy R t u → AlikeTy R t (.boxed u)
  | maybe {p p' t t'} : AlikeTy R p p' → AlikeTy R t t' → AlikeTy R (.maybe p t) (.maybe p' t')
  | paren {t t'} : AlikeTy R t t' → AlikeTy R (.paren t) (.paren t')
  | bracket {t t'} : AlikeTy R t t' → AlikeTy R (.bracket t) (.bracket t')
  | brace {t t'} : AlikeTy R t t' → AlikeTy R (.brace t) (.brace t')
  | punctuated {t t' p p'} : AlikeTy R t t' → AlikeTy R p p' → AlikeTy R (.punctuated t p) (.punctuated t' p')
  | separated {t t' p p'} : AlikeTy R t t' → AlikeTy R p p' → AlikeTy R (.separated t p) (.separated t' p')
  | any {t t'} : AlikeTy R t t' → AlikeTy R (.any t) (.any t')
  | leftAssoc {o o' r r'} : AlikeTy R o o' → AlikeTy R r r' → AlikeTy R (.leftAssoc o r) (.leftAssoc o' r')
  | rightAssoc {o o' l l'} : AlikeTy R o o' → AlikeTy R l l' → AlikeTy R (.rightAssoc o l) (.rightAssoc o' l')
  | either {a a' b b'} : AlikeTy R a a' → AlikeTy R b b' → AlikeTy R (.either a b) (.either a' b')

variable [Ext]

/-- `t` in the program `env` and `u` in the program `env'` are the same grammar: on every stream, either both succeed, leaving the same rest (and the same
record of unread tokens), with values that print as the same tokens; or both fail; or neither returns. -/
structure SameGrammar (env env' : Env) (t u : Ty) : Prop where
  left : ∀ s v s', Parses env t s v s' → ∃ w, Parses env' u s w s' ∧ w.toTokens = v.toTokens
  right : ∀ s w s', Parses env' u s w s' → ∃ v, Parses env t s v s' ∧ v.toTokens = w.toTokens
  fails : ∀ s, (∃ e, Fails env t s e) ↔ ∃ e, Fails env' u s e

/-- Where one of the types can be parsed, the other one fails. -/
def Disjoint (env : Env) (t u : Ty) : Prop :=
  ∀ s v s', (Parses env t s v s' → ∃ e, Fails env u s e) ∧ (Parses env u s v s' → ∃ e, Fails env t s e)

end Parsel.Spec
