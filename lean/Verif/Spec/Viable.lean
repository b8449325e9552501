import Verif.Spec.Predict
import Verif.Spec.Source
import Verif.Spec.Peg
import Verif.Spec.Progress

/-
Specification vocabulary: the part of the input before a position is kept, the rest is replaced.
-/

namespace Parsel.Spec

/-- `b` is `a` without the last tokens of some of its groups, at any depth. -/
inductive Shortened : List TT → List TT → Prop
  | nil : Shortened [] []
  | token {t a b} : Shortened a b → Shortened (t :: a) (t :: b)
  | group {d i j gone sp a b} : Shortened i j → Shortened a b → Shortened (.group d (i ++ gone) sp :: a) (.group d j sp :: b)

/-- `cur` is a position in the stream `ts` whose end is reported at `scope`: the tokens from it to the end of its level, which is reported at `scope'`.
The stream `new` is the same as `ts` before this position, on its level and on the levels around it (or related by `Same`); everything
from the position on may be different. -/
inductive Keeps (Same : List TT → List TT → Prop) : List TT → Span → List TT → Span → List TT → Prop
  | here {before before' cur new scope} : Same before before' → Keeps Same (before ++ cur) scope cur scope (before' ++ new)
  | into {before before' d inner sp rest cur scope' new more scope} : Same before before' → Keeps Same inner sp.closeOf cur scope' new →
      Keeps Same (before ++ .group d inner sp :: rest) scope cur scope' (before' ++ .group d new sp :: more)

/-- The location `sp` is that of what is found at the position `cur` of a level that ends at `scope`: the next token, a number with its sign, or the end. -/
inductive Blamed : List TT → Span → Span → Prop
  | expected {cur scope sp} : LocAt cur scope sp → Blamed cur scope sp
  | unread {t cur scope} : Blamed (t :: cur) scope t.span

variable [Ext]

/-- Every type of the grammar has a value that can be printed. -/
def Productive (env : Env) (G : List Ty) : Prop := ∀ u ∈ G, ∃ w out, HasTy env u w ∧ w.toTokens = some out

/-- No literal token of the stream is an integer zero or has a sign of its own. -/
def Tame (ts : List TT) : Prop := ∀ r sp, Occurs (.lit r sp) ts → r.head? ≠ some '-' ∧ ¬ IntLit r 0

/-- Every type of the grammar has a value that can be printed and survives it, without zeros in it. -/
def Samples (env : Env) (G : List Ty) : Prop := ∀ u ∈ G, ∃ w out, HasTy env u w ∧ Survives w ∧ w.toTokens = some out ∧ Tame out

/-- No floating point literal of the stream is too large for an `f64`. -/
def NoOverflow (ts : List TT) : Prop := ∀ r sp, Occurs (.lit r sp) ts → ∀ d x, (readLit r = some (.float d) ∨ readFloatDigits ('-' :: r) = some d) →
  Ext.floatOf d = some x → Ext.finite x = true

/-- Everything that follows on the same level is part of a node of this type. -/
inductive ToLast (env : Env) : Ty → Prop
  | eof : ToLast env (.leaf .eof)
  | punctuated {t p} : ToLast env (.punctuated t p)
  | boxed {t} : ToLast env t → ToLast env (.boxed t)
  | either {l r} : ToLast env l → ToLast env r → ToLast env (.either l r)
  | struct {x fields u} : env x = .struct fields → (fieldTypes fields).getLast? = some u → ToLast env u → ToLast env (.named x)
  | enum {x vs} {last : VariantDef Ty → Ty} : env x = .enum vs → (∀ v ∈ vs, (fieldTypes v.fields).getLast? = some (last v)) → (∀ v ∈ vs, ToLast env (last v)) →
      ToLast env (.named x)

/-- The contents of every delimited group in the grammar are read to the closing delimiter. -/
def GroupsRead (env : Env) (G : List Ty) : Prop := ∀ g ∈ G, ∀ d t, GroupTy g d t → ToLast env t

/-! ### Finding a value of each type -/

/-- A leaf of the type `l`; `f` is what floating point literals get. -/
def sampleLeaf (f : Option Ext.F) : Leaf → Option LeafVal
  | .empty => some .unit
  | .eof => some .unit
  | .notEof => some .unit
  | .customIdent kws => (((List.range (kws.length + 1)).map fun n => List.replicate (n + 1) 'x').find? fun x => !kws.contains x).map fun x => .ident x .callSite
  | .rustIdent => some (.ident ['x'] .callSite)
  | .keyword _ => some (.mark [.callSite])
  | .kwToken _ => some (.mark [.callSite])
  | .punct tok => if '\'' ∈ tok then none else some (.mark (List.replicate tok.length .callSite))
  | .lit .bool => some (.lit (.bool true) .callSite)
  | .lit .byte => some (.lit (.byte 65) .callSite)
  | .lit .int => some (.lit (.int 1) .callSite)
  | .lit .uint => some (.lit (.uint 1) .callSite)
  | .lit .float => f.map fun x => .lit (.float x) .callSite
  | .lit .char => some (.lit (.char 'x') .callSite)
  | .lit .str => some (.lit (.str []) .callSite)
  | .lit .byteStr => some (.lit (.byteStr []) .callSite)
  | .lit .any => some (.lit (.uint 1) .callSite)

/-- All of the types have values in the table. -/
def sampleAll (tab : Ty → Option Val) : List Ty → Option (List Val)
  | [] => some []
  | u :: us => match tab u, sampleAll tab us with
    | some w, some ws => some (w :: ws)
    | _, _ => none

/-- A value of the type made of the values in the table. -/
def sampleOne (env : Env) (f : Option Ext.F) (tab : Ty → Option Val) : Ty → Option Val
  | .leaf l => (sampleLeaf f l).map (.leaf l)
  | .named x => match env x with
    | .struct fields => (sampleAll tab (fieldTypes fields)).map (.node (.ctor x x))
    | .enum vs => vs.findSome? fun v => (sampleAll tab (fieldTypes v.fields)).map (.node (.ctor x v.ident))
  | .boxed t => tab t
  | .maybe _ _ => some (.node .maybe [])
  | .paren t => (tab t).map (.group .paren .callSite)
  | .bracket t => (tab t).map (.group .bracket .callSite)
  | .brace t => (tab t).map (.group .brace .callSite)
  | .punctuated _ _ => some (.node .punctuated [])
  | .separated t _ => (tab t).map fun v => .node .separated [v]
  | .any _ => some (.node .any [])
  | .leftAssoc _ r => (tab r).map fun v => .node .leftRhs [v]
  | .rightAssoc _ l => (tab l).map fun v => .node .rightLhs [v]
  | .either l r => ((tab l).map fun v => .node .eitherLeft [v]).or ((tab r).map fun v => .node .eitherRight [v])

/-- A value of the type, searched `n` levels deep. -/
def sampleOf (env : Env) (f : Option Ext.F) : Nat → Ty → Option Val
  | 0, _ => none
  | n + 1, u => sampleOne env f (sampleOf env f n) u

mutual
/-- `Tame`, for a token. -/
def tameT : TT → Bool
  | .group _ ts _ => tame ts
  | .lit r _ => r.head? != some '-' && readNat r != some 0
  | .ident _ _ => true
  | .punct _ _ _ => true
/-- `Tame`, as a check. -/
def tame : List TT → Bool
  | [] => true
  | t :: ts => tameT t && tame ts
end

/-- A sample of every type is found within `n` levels. -/
def samples (env : Env) (f : Option Ext.F) (G : List Ty) (n : Nat) : Bool :=
  G.all fun u => match (sampleOf env f n u).bind Val.toTokens with
    | some out => tame out
    | none => false

/-- `ToLast`, searched `n` levels deep. -/
def toLast (env : Env) : Nat → Ty → Bool
  | 0, _ => false
  | n + 1, t => match t with
    | .leaf .eof => true
    | .punctuated _ _ => true
    | .boxed t => toLast env n t
    | .either l r => toLast env n l && toLast env n r
    | .named x => match env x with
      | .struct fields => match (fieldTypes fields).getLast? with
        | some u => toLast env n u
        | none => false
      | .enum vs => vs.all fun v => match (fieldTypes v.fields).getLast? with
        | some u => toLast env n u
        | none => false
    | _ => false

/-- `GroupsRead`, as a check. -/
def groupsRead (env : Env) (G : List Ty) (n : Nat) : Bool := G.all fun g => match g with
  | .paren t => toLast env n t
  | .bracket t => toLast env n t
  | .brace t => toLast env n t
  | _ => true

end Parsel.Spec
