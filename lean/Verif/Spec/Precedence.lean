import Verif.Spec.Peg
import Verif.Spec.Progress
import Verif.Spec.Linear

/-
Specification: expressions with infix operators.  What precedence and associativity mean, for trees and for sequences of operands and operators; the grammars for
them that are made of `LeftAssoc` and `RightAssoc`.
-/

namespace Parsel.Spec

/-- How operators of one level are grouped among themselves. -/
inductive Side where
  | left
  | right
  deriving DecidableEq

/-- A level of precedence: its side, and the type of its operators. -/
structure Level where
  side : Side
  op : Ty

section
variable [Ext]

/-- A tree of infix operators. -/
inductive Infix where
  | operand (v : Val)
  | binary (lhs : Infix) (op : Val) (rhs : Infix)

/-- The leftmost operand. -/
def Infix.first : Infix → Val
  | .operand v => v
  | .binary l _ _ => l.first

/-- The operators from left to right, each with the operand that follows it. -/
def Infix.rest : Infix → List (Val × Val)
  | .operand _ => []
  | .binary l op r => l.rest ++ (op, r.first) :: r.rest

/-- The operators, from left to right. -/
def Infix.ops (e : Infix) : List Val := e.rest.map Prod.fst

/-- An operator of one of the levels. -/
def OpOf (env : Env) (L : List Level) (op : Val) : Prop := ∃ l ∈ L, HasTy env l.op op

/-- The tree respects precedence and associativity (`L`: the levels, the loosest first): the operators in both operands of an operator bind more tightly than it does,
or just as tightly, on the side to which its level is grouped. -/
inductive Respects (env : Env) (L : List Level) : Infix → Prop
  | operand {v} : Respects env L (.operand v)
  | binary {looser lv tighter l op r} : L = looser ++ lv :: tighter → HasTy env lv.op op →
      (∀ o ∈ l.ops, OpOf env tighter o ∨ (lv.side = .left ∧ HasTy env lv.op o)) →
      (∀ o ∈ r.ops, OpOf env tighter o ∨ (lv.side = .right ∧ HasTy env lv.op o)) →
      Respects env L l → Respects env L r → Respects env L (.binary l op r)

/-- All operands are of the type. -/
def Infix.Over (env : Env) (A : Ty) : Infix → Prop
  | .operand v => HasTy env A v
  | .binary l _ r => l.Over env A ∧ r.Over env A

/-! ### the grammars -/

/-- `T` is a type for expressions with the levels `L` over operands of type `A`: `LeftAssoc` and `RightAssoc` inside each other, with boxes and structs of one field
around any of them. -/
inductive Tower (env : Env) (A : Ty) : List Level → Ty → Prop
  | operand : Tower env A [] A
  | left {L o T} : Tower env A L T → Tower env A (⟨.left, o⟩ :: L) (.leftAssoc o T)
  | right {L o T} : Tower env A L T → Tower env A (⟨.right, o⟩ :: L) (.rightAssoc o T)
  | boxed {l L T} : Tower env A (l :: L) T → Tower env A (l :: L) (.boxed T)
  | newtype {l L T x fields} : env x = .struct fields → fieldTypes fields = [T] → Tower env A (l :: L) T → Tower env A (l :: L) (.named x)

/-- The tree that a value of such a type stands for. -/
inductive Shows (env : Env) (A : Ty) : List Level → Ty → Val → Infix → Prop
  | operand {v} : HasTy env A v → Shows env A [] A v (.operand v)
  | leftRhs {L o T v e} : Shows env A L T v e → Shows env A (⟨.left, o⟩ :: L) (.leftAssoc o T) (.node .leftRhs [v]) e
  | leftBin {L o T l op r e f} : Shows env A (⟨.left, o⟩ :: L) (.leftAssoc o T) l e → HasTy env o op → Shows env A L T r f →
      Shows env A (⟨.left, o⟩ :: L) (.leftAssoc o T) (.node .leftBin [l, op, r]) (.binary e op f)
  | rightLhs {L o T v e} : Shows env A L T v e → Shows env A (⟨.right, o⟩ :: L) (.rightAssoc o T) (.node .rightLhs [v]) e
  | rightBin {L o T l op r e f} : Shows env A L T l e → HasTy env o op → Shows env A (⟨.right, o⟩ :: L) (.rightAssoc o T) r f →
      Shows env A (⟨.right, o⟩ :: L) (.rightAssoc o T) (.node .rightBin [l, op, r]) (.binary e op f)
  | boxed {l L T v e} : Shows env A (l :: L) T v e → Shows env A (l :: L) (.boxed T) v e
  | newtype {l L T x fields v e} : env x = .struct fields → fieldTypes fields = [T] → Shows env A (l :: L) T v e →
      Shows env A (l :: L) (.named x) (.node (.ctor x x) [v]) e

/-! ### the input -/

/-- The stream is an operand, an operator, an operand, ... as far as that goes: `first` is the first operand, `tail` what follows, and `rest` does not start with an
operator.  (`left`: the first token that was left unread in a group, as in `Matches`.) -/
inductive Run (env : Env) (L : List Level) (A : Ty) : List TT → Val → List (Val × Val) → List TT → Option Span → Prop
  | stop {ts a rest left} : Matches env A ts a rest left → (∀ l ∈ L, NoMatch env l.op rest) → Run env L A ts a [] rest left
  | more {looser lv tighter ts a mid l1 op next l2 b tail rest l3} : Matches env A ts a mid l1 → L = looser ++ lv :: tighter →
      Matches env lv.op mid op next l2 → (∀ l ∈ looser ++ tighter, NoMatch env l.op mid) → Run env L A next b tail rest l3 →
      Run env L A ts a ((op, b) :: tail) rest (l1.or (l2.or l3))

/-- The first operand, or an operand after an operator, is missing. -/
inductive Missing (env : Env) (L : List Level) (A : Ty) : List TT → Prop
  | here {ts} : NoMatch env A ts → Missing env L A ts
  | later {lv ts a mid l1 op next l2} : Matches env A ts a mid l1 → lv ∈ L → Matches env lv.op mid op next l2 → Missing env L A next → Missing env L A ts

/-- No stream starts with an operator of both types, and nothing is an operator of both types. -/
structure OpsApart (env : Env) (o p : Ty) : Prop where
  first : ∀ ts v rest left, Matches env o ts v rest left → NoMatch env p ts
  second : ∀ ts v rest left, Matches env p ts v rest left → NoMatch env o ts
  values : ∀ v, HasTy env o v → ¬ HasTy env p v

/-- The operators of different levels can be told apart. -/
def LevelsApart (env : Env) (L : List Level) : Prop := L.Pairwise fun a b => OpsApart env a.op b.op

end

/-! ### a check for that -/

/-- The leaves that an operator type is a choice of: a single operator or keyword, `Either`s, and structs and enums with one field (in each variant). -/
def choices (env : Env) : Nat → Ty → Option (List Leaf)
  | _, .leaf (.punct a) => some [.punct a]
  | _, .leaf (.keyword k) => some [.keyword k]
  | _, .leaf (.kwToken k) => some [.kwToken k]
  | n + 1, .boxed t => choices env n t
  | n + 1, .either l r => (choices env n l).bind fun a => (choices env n r).map fun b => a ++ b
  | n + 1, .named x => match env x with
    | .struct fields => match fieldTypes fields with
      | [t] => choices env n t
      | _ => none
    | .enum vs => vs.foldr (fun v acc => match fieldTypes v.fields with
      | [t] => (choices env n t).bind fun a => acc.map fun b => a ++ b
      | _ => none) (some [])
  | _, _ => none

/-- Both are choices of leaves, all of them disjoint. -/
def opsApart (env : Env) (n : Nat) (o p : Ty) : Bool :=
  match choices env n o, choices env n p with
  | some as, some bs => as.all fun a => bs.all fun b => disjoint (.leaf a) (.leaf b)
  | _, _ => false

/-- The operators of different levels can be told apart, as far as this check tells. -/
def levelsApart (env : Env) (n : Nat) : List Level → Bool
  | [] => true
  | l :: L => L.all (fun m => opsApart env n l.op m.op) && levelsApart env n L

end Parsel.Spec
