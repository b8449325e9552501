import Verif.Spec.Laws
import Verif.Spec.Termination

/-
Specification vocabulary: rewriting inside types, and whole (recursive) programs.
-/

namespace Parsel.Spec

/-- The same type up to parts that are related by `R`, wherever they occur in it. -/
inductive ThroughTy (R : Ty → Ty → Prop) : Ty → Ty → Prop
  | here {t u} : R t u → ThroughTy R t u
  | leaf {l} : ThroughTy R (.leaf l) (.leaf l)
  | boxed {t t'} : ThroughTy R t t' → ThroughTy R (.boxed t) (.boxed t')
  | maybe {p p' t t'} : ThroughTy R p p' → ThroughTy R t t' → ThroughTy R (.maybe p t) (.maybe p' t')
  | paren {t t'} : ThroughTy R t t' → ThroughTy R (.paren t) (.paren t')
  | bracket {t t'} : ThroughTy R t t' → ThroughTy R (.bracket t) (.bracket t')
  | brace {t t'} : ThroughTy R t t' → ThroughTy R (.brace t) (.brace t')
  | punctuated {t t' p p'} : ThroughTy R t t' → ThroughTy R p p' → ThroughTy R (.punctuated t p) (.punctuated t' p')
  | separated {t t' p p'} : ThroughTy R t t' → ThroughTy R p p' → ThroughTy R (.separated t p) (.separated t' p')
  | any {t t'} : ThroughTy R t t' → ThroughTy R (.any t) (.any t')
  | leftAssoc {o o' r r'} : ThroughTy R o o' → ThroughTy R r r' → ThroughTy R (.leftAssoc o r) (.leftAssoc o' r')
  | rightAssoc {o o' l l'} : ThroughTy R o o' → ThroughTy R l l' → ThroughTy R (.rightAssoc o l) (.rightAssoc o' l')
  | either {a a' b b'} : ThroughTy R a a' → ThroughTy R b b' → ThroughTy R (.either a b) (.either a' b')

/-- A program rewritten: in the program `env`, the new version of the declaration `x` is called `fresh x`, and it is exchangeable for `x` there; the program
`env'` has the new versions under the old names, so that all of them refer to each other and no longer to the old ones. -/
structure Rewritten [Ext] (env env' : Env) (fresh : Text → Text) : Prop where
  same : ∀ x, SameGrammar env env (.named x) (.named (fresh x))
  body : ∀ x, alternatives (env' x) = alternatives (env (fresh x))

end Parsel.Spec
