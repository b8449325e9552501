import Verif.Model.Build
import Verif.Spec.Containers
import Verif.Spec.Progress

/-
Specification vocabulary: all the ways in which a program can come by a node.
-/

namespace Parsel.Spec

variable [Ext]

/-- The separators of a sequence. -/
def seps (s : Punct Val Val) : List Val := s.inner.map Prod.snd

/-- `Built env t v`: a program can come by the value `v` of type `t` through the public API: by parsing, by making and changing identifiers and
literals, and by putting nodes together.  Fields of user types, and of `LeftAssoc` etc., are public; the contents of `CustomIdent` and `Separated` are not.
What is put into a node, or stored through a `&mut`, is itself built. -/
inductive Built (env : Env) : Ty → Val → Prop
  /-- from `Parse` or `FromStr` -/
  | parsed {t n s v s'} : parse env n t s = .ok v s' → Built env t v
  /-- `CustomIdent::try_from(ident)` -/
  | ident {kws id c} : customIdentTryFrom kws id = .ok c → Built env (.leaf (.customIdent kws)) (.leaf (.customIdent kws) (.ident c.1 c.2))
  /-- `Word::new`, `word` -/
  | word {x sp c} : wordNew x sp = some c → Built env (.leaf (.customIdent [])) (.leaf (.customIdent []) (.ident c.1 c.2))
  /-- `set_span` -/
  | setSpan {kws x sp} (sp') : Built env (.leaf (.customIdent kws)) (.leaf (.customIdent kws) (.ident x sp)) →
      Built env (.leaf (.customIdent kws)) (.leaf (.customIdent kws) (.ident (customIdentSetSpan (x, sp) sp').1 (customIdentSetSpan (x, sp) sp').2))
  /-- other leaves: a literal of any value (for `Lit`: other than a positive `Lit::Int`, C37), a keyword or operator at any place, an `Ident` that is no Rust keyword -/
  | leaf {l v} : (∀ kws, l ≠ .customIdent kws) → LeafTy l v → Built env (.leaf l) (.leaf l v)
  | struct {x fields vs} : env x = .struct fields → (fieldTypes fields).length = vs.length → (∀ tv ∈ (fieldTypes fields).zip vs, Built env tv.1 tv.2) →
      Built env (.named x) (.node (.ctor x x) vs)
  | enum {x variants w vs} : env x = .enum variants → w ∈ variants → (fieldTypes w.fields).length = vs.length →
      (∀ tv ∈ (fieldTypes w.fields).zip vs, Built env tv.1 tv.2) → Built env (.named x) (.node (.ctor x w.ident) vs)
  | boxed {t v} : Built env t v → Built env (.boxed t) v
  /-- `Maybe::default`, `From<Option<(P, T)>>`, `From<(P, T)>` -/
  | maybe {p t o} : (∀ x, o = some x → Built env p x.1) → (∀ x, o = some x → Built env t x.2) → Built env (.maybe p t) (.ofMaybe (.fromOptionParts o))
  /-- `Paren::new`, `From<(Paren, T)>`; likewise below -/
  | paren {t v} (sp) : Built env t v → Built env (.paren t) (delimNew .paren v sp)
  | bracket {t v} (sp) : Built env t v → Built env (.bracket t) (delimNew .bracket v sp)
  | brace {t v} (sp) : Built env t v → Built env (.brace t) (delimNew .brace v sp)
  /-- `Paren::from(node)` -/
  | parenOf {t v w} : Built env t v → delimFrom .paren v = some w → Built env (.paren t) w
  | bracketOf {t v w} : Built env t v → delimFrom .bracket v = some w → Built env (.bracket t) w
  | braceOf {t v w} : Built env t v → delimFrom .brace v = some w → Built env (.brace t) w
  /-- any `syn` sequence can be made a `Punctuated` -/
  | punctuated {t p s} : (∀ v ∈ s.values, Built env t v) → (∀ v ∈ seps s, Built env p v) → Built env (.punctuated t p) (.ofPunctuated s)
  /-- `Separated::try_from` -/
  | separated {t p x s} : Separated.tryFrom x = some s → (∀ v ∈ s.inner.values, Built env t v) → (∀ v ∈ seps s.inner, Built env p v) →
      Built env (.separated t p) (.ofSeparated s)
  /-- one of the operations of `Separated` -/
  | change {t p dflt op s s'} : Built env (.separated t p) (.ofSeparated s) → SepOp.run dflt op s = some s' → (∀ v ∈ s'.inner.values, Built env t v) →
      (∀ v ∈ seps s'.inner, Built env p v) → Built env (.separated t p) (.ofSeparated s')
  /-- `Any::from_iter`, `From<Vec>`, and all changes of the vector -/
  | any {t vs} : (∀ v ∈ vs, Built env t v) → Built env (.any t) (.ofAny (.fromIter vs))
  /-- `From<R>`, and the variants of `LeftAssoc`; likewise below -/
  | left {o r v} : Built env r v → Built env (.leftAssoc o r) (.ofLeft (.rhs v))
  | leftBin {o r l op v} : Built env (.leftAssoc o r) l → Built env o op → Built env r v → Built env (.leftAssoc o r) (.node .leftBin [l, op, v])
  | right {o l v} : Built env l v → Built env (.rightAssoc o l) (.ofRight (.lhs v))
  | rightBin {o l v op r} : Built env l v → Built env o op → Built env (.rightAssoc o l) r → Built env (.rightAssoc o l) (.node .rightBin [v, op, r])
  | eitherLeft {l r v} : Built env l v → Built env (.either l r) (.ofEither (.left v))
  | eitherRight {l r v} : Built env r v → Built env (.either l r) (.ofEither (.right v))

end Parsel.Spec
