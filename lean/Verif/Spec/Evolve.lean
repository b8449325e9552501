import Verif.Spec.Progress
import Verif.Spec.Grammar

/-
Specification: extensions of a grammar, and what becomes of the nodes.
-/

namespace Parsel.Spec

/-- `x` is a struct with these fields (`c = x`), or an enum with a variant `c` that has them. -/
inductive Case (env : Env) (x : Text) : Text → List Ty → Prop
  | struct {f} : env x = .struct f → Case env x x (fieldTypes f)
  | variant {ws w} : env x = .enum ws → w ∈ ws → Case env x w.ident (fieldTypes w.fields)

/-- Leaves: the same, or words with fewer exceptions. -/
inductive LeafWider : Leaf → Leaf → Prop
  | same {l} : LeafWider l l
  | words {kws kws'} : (∀ k ∈ kws', k ∈ kws) → LeafWider (.customIdent kws) (.customIdent kws')
  | anyWord {kws} : (∀ k ∈ kws, k ∈ rustKeywords) → LeafWider .rustIdent (.customIdent kws)

/-- A type that is written where there was another one: the same with wider parts, or another alternative, an operator level or a repetition around it.  (`env`: the
new declarations; declarations keep their names.) -/
inductive Wider (env : Env) : Ty → Ty → Prop
  | leaf {l m} : LeafWider l m → Wider env (.leaf l) (.leaf m)
  | named {x} : Wider env (.named x) (.named x)
  | maybe {p t p' t'} : Wider env p p' → Wider env t t' → Wider env (.maybe p t) (.maybe p' t')
  | paren {t t'} : Wider env t t' → Wider env (.paren t) (.paren t')
  | bracket {t t'} : Wider env t t' → Wider env (.bracket t) (.bracket t')
  | brace {t t'} : Wider env t t' → Wider env (.brace t) (.brace t')
  | punctuated {t p t' p'} : Wider env t t' → Wider env p p' → Wider env (.punctuated t p) (.punctuated t' p')
  | separated {t p t' p'} : Wider env t t' → Wider env p p' → Wider env (.separated t p) (.separated t' p')
  | any {t t'} : Wider env t t' → Wider env (.any t) (.any t')
  | leftAssoc {o t o' t'} : Wider env o o' → Wider env t t' → Wider env (.leftAssoc o t) (.leftAssoc o' t')
  | rightAssoc {o t o' t'} : Wider env o o' → Wider env t t' → Wider env (.rightAssoc o t) (.rightAssoc o' t')
  | either {l r l' r'} : Wider env l l' → Wider env r r' → Wider env (.either l r) (.either l' r')
  | unboxed {t t'} : Wider env t t' → Wider env (.boxed t) t'
  | boxed {t t'} : Wider env t t' → Wider env t (.boxed t')
  | orLeft {t t' u} : Wider env t t' → Wider env t (.either t' u)
  | orRight {t t' u} : Wider env t t' → Wider env t (.either u t')
  | orVariant {t t' x c} : Case env x c [t'] → Wider env t t' → Wider env t (.named x)
  | operandLeft {t t' o} : Wider env t t' → Wider env t (.leftAssoc o t')
  | operandRight {t t' o} : Wider env t t' → Wider env t (.rightAssoc o t')
  | first {t t' p} : Wider env t t' → Wider env t (.separated t' p)
  | repeated {t t'} : Wider env t t' → Wider env t (.any t')
  | present {t t'} : Wider env t t' → Wider env t (.maybe t' (.leaf .empty))

/-- Types of parts that can be left out. -/
inductive CanMiss : Ty → Prop
  | empty : CanMiss (.leaf .empty)
  | maybe {p t} : CanMiss (.maybe p t)
  | any {t} : CanMiss (.any t)
  | punctuated {t p} : CanMiss (.punctuated t p)

/-- Fields: wider ones, two that have become optional, and additional ones that can be left out. -/
inductive WiderSeq (env : Env) : List Ty → List Ty → Prop
  | nil : WiderSeq env [] []
  | cons {t u ts us} : Wider env t u → WiderSeq env ts us → WiderSeq env (t :: ts) (u :: us)
  | optional {p t p' t' ts us} : Wider env p p' → Wider env t t' → WiderSeq env ts us → WiderSeq env (p :: t :: ts) (.maybe p' t' :: us)
  | extra {u ts us} : CanMiss u → WiderSeq env ts us → WiderSeq env ts (u :: us)

/-- Each declaration is extended: a struct has wider fields or becomes one variant of an enum, an enum has at least the variants it had, with wider fields, in any
order and under any names. -/
def Extends (env env' : Env) : Prop := ∀ x c ts, Case env x c ts → ∃ c' us, Case env' x c' us ∧ WiderSeq env' ts us

section
variable [Ext]

/-- The node of a part that is left out. -/
def Missed : Ty → Val → Prop
  | .leaf l, v => v = .leaf l .unit
  | .maybe _ _, v => v = .node .maybe []
  | .any _, v => v = .node .any []
  | .punctuated _ _, v => v = .node .punctuated []
  | _, _ => False

mutual
/-- What a node of type `t` becomes when `t` is extended to `u`: the same leaves, at the same locations, in the same groups. -/
inductive Upgrade (env env' : Env) : Ty → Ty → Val → Val → Prop
  | leaf {l m c} : LeafWider l m → LeafTy l c → Upgrade env env' (.leaf l) (.leaf m) (.leaf l c) (.leaf m c)
  | named {x c c' ts us vs ws} : Case env x c ts → Case env' x c' us → Upgrades env env' ts us vs ws →
      Upgrade env env' (.named x) (.named x) (.node (.ctor x c) vs) (.node (.ctor x c') ws)
  | absent {p t p' t'} : Upgrade env env' (.maybe p t) (.maybe p' t') (.node .maybe []) (.node .maybe [])
  | maybe {p t p' t' v v' w w'} : Upgrade env env' p p' v v' → Upgrade env env' t t' w w' →
      Upgrade env env' (.maybe p t) (.maybe p' t') (.node .maybe [v, w]) (.node .maybe [v', w'])
  | paren {t t' sp v w} : Upgrade env env' t t' v w → Upgrade env env' (.paren t) (.paren t') (.group .paren sp v) (.group .paren sp w)
  | bracket {t t' sp v w} : Upgrade env env' t t' v w → Upgrade env env' (.bracket t) (.bracket t') (.group .bracket sp v) (.group .bracket sp w)
  | brace {t t' sp v w} : Upgrade env env' t t' v w → Upgrade env env' (.brace t) (.brace t') (.group .brace sp v) (.group .brace sp w)
  | punctuated {t p t' p' n vs ws} : UpgradeEach env env' (alternate t p n) (alternate t' p' n) vs ws →
      Upgrade env env' (.punctuated t p) (.punctuated t' p') (.node .punctuated vs) (.node .punctuated ws)
  | separated {t p t' p' n vs ws} : UpgradeEach env env' (alternate t p (2 * n + 1)) (alternate t' p' (2 * n + 1)) vs ws →
      Upgrade env env' (.separated t p) (.separated t' p') (.node .separated vs) (.node .separated ws)
  | any {t t' n vs ws} : UpgradeEach env env' (List.replicate n t) (List.replicate n t') vs ws → Upgrade env env' (.any t) (.any t') (.node .any vs) (.node .any ws)
  | leftRhs {o t o' t' v w} : Upgrade env env' t t' v w → Upgrade env env' (.leftAssoc o t) (.leftAssoc o' t') (.node .leftRhs [v]) (.node .leftRhs [w])
  | leftBin {o t o' t' l op r l' op' r'} : Upgrade env env' (.leftAssoc o t) (.leftAssoc o' t') l l' → Upgrade env env' o o' op op' → Upgrade env env' t t' r r' →
      Upgrade env env' (.leftAssoc o t) (.leftAssoc o' t') (.node .leftBin [l, op, r]) (.node .leftBin [l', op', r'])
  | rightLhs {o t o' t' v w} : Upgrade env env' t t' v w → Upgrade env env' (.rightAssoc o t) (.rightAssoc o' t') (.node .rightLhs [v]) (.node .rightLhs [w])
  | rightBin {o t o' t' l op r l' op' r'} : Upgrade env env' t t' l l' → Upgrade env env' o o' op op' → Upgrade env env' (.rightAssoc o t) (.rightAssoc o' t') r r' →
      Upgrade env env' (.rightAssoc o t) (.rightAssoc o' t') (.node .rightBin [l, op, r]) (.node .rightBin [l', op', r'])
  | left {l r l' r' v w} : Upgrade env env' l l' v w → Upgrade env env' (.either l r) (.either l' r') (.node .eitherLeft [v]) (.node .eitherLeft [w])
  | right {l r l' r' v w} : Upgrade env env' r r' v w → Upgrade env env' (.either l r) (.either l' r') (.node .eitherRight [v]) (.node .eitherRight [w])
  | unboxed {t t' v w} : Upgrade env env' t t' v w → Upgrade env env' (.boxed t) t' v w
  | boxed {t t' v w} : Upgrade env env' t t' v w → Upgrade env env' t (.boxed t') v w
  | orLeft {t t' u v w} : Upgrade env env' t t' v w → Upgrade env env' t (.either t' u) v (.node .eitherLeft [w])
  | orRight {t t' u v w} : Upgrade env env' t t' v w → Upgrade env env' t (.either u t') v (.node .eitherRight [w])
  | orVariant {t t' x c v w} : Case env' x c [t'] → Upgrade env env' t t' v w → Upgrade env env' t (.named x) v (.node (.ctor x c) [w])
  | operandLeft {t t' o v w} : Upgrade env env' t t' v w → Upgrade env env' t (.leftAssoc o t') v (.node .leftRhs [w])
  | operandRight {t t' o v w} : Upgrade env env' t t' v w → Upgrade env env' t (.rightAssoc o t') v (.node .rightLhs [w])
  | first {t t' p v w} : Upgrade env env' t t' v w → Upgrade env env' t (.separated t' p) v (.node .separated [w])
  | repeated {t t' v w} : Upgrade env env' t t' v w → Upgrade env env' t (.any t') v (.node .any [w])
  | present {t t' v w} : Upgrade env env' t t' v w → Upgrade env env' t (.maybe t' (.leaf .empty)) v (.node .maybe [w, .leaf .empty .unit])

/-- The same for items. -/
inductive UpgradeEach (env env' : Env) : List Ty → List Ty → List Val → List Val → Prop
  | nil : UpgradeEach env env' [] [] [] []
  | cons {t u ts us v w vs ws} : Upgrade env env' t u v w → UpgradeEach env env' ts us vs ws → UpgradeEach env env' (t :: ts) (u :: us) (v :: vs) (w :: ws)

/-- The same for fields. -/
inductive Upgrades (env env' : Env) : List Ty → List Ty → List Val → List Val → Prop
  | nil : Upgrades env env' [] [] [] []
  | cons {t u ts us v w vs ws} : Upgrade env env' t u v w → Upgrades env env' ts us vs ws → Upgrades env env' (t :: ts) (u :: us) (v :: vs) (w :: ws)
  | optional {p t p' t' ts us v v' w w' vs ws} : Upgrade env env' p p' v v' → Upgrade env env' t t' w w' → Upgrades env env' ts us vs ws →
      Upgrades env env' (p :: t :: ts) (.maybe p' t' :: us) (v :: w :: vs) (.node .maybe [v', w'] :: ws)
  | extra {u ts us w vs ws} : CanMiss u → Missed u w → Upgrades env env' ts us vs ws → Upgrades env env' ts (u :: us) vs (w :: ws)
end

end

end Parsel.Spec
