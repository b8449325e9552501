import Verif.Model.Equality
import Verif.Model.Containers

/-
`cmp` (`Ord`) and `partial_cmp` (`PartialOrd`, behind `<`) of nodes.  `Either` and user types derive them (EXTERNAL): the variant that is declared first is
the smaller one, within a variant the first field that differs decides.  `Maybe`, `Paren`, `Bracket`, `Brace`, `Punctuated`, `Separated`, `Any`, `Lit`,
`LeftAssoc`, `RightAssoc` and EXTERNAL syn's tokens have no order: types with fields of these types cannot derive one.
-/

namespace Parsel

/-- EXTERNAL lexicographic order of slices. -/
def cmpBytes : List (Fin 256) → List (Fin 256) → Ordering
  | [], [] => .eq
  | [], _ :: _ => .lt
  | _ :: _, [] => .gt
  | a :: as, b :: bs => (compare a.val b.val).then (cmpBytes as bs)

/-- EXTERNAL `Ord for bool`: `false` is smaller. -/
def cmpBool (a b : Bool) : Ordering := if a = b then .eq else if b then .lt else .gt

variable [Ext]

/-- ast.rs:2430-2434 `Ord` of the literal types compares the values (`LitV.cmp`); `f` is EXTERNAL `Ord for NotNan<f64>`.  Never used on literals of different
types (filled with `eq` here). -/
def LitVal.cmp (f : Ext.F → Ext.F → Ordering) : LitVal → LitVal → Ordering
  | .bool a, .bool b => cmpBool a b
  | .byte a, .byte b => compare a.val b.val
  | .int a, .int b => compare a b
  | .uint a, .uint b => compare a b
  | .float a, .float b => f a b
  | .char a, .char b => compare a.val.toNat b.val.toNat
  | .str a, .str b => cmpText a b
  | .byteStr a, .byteStr b => cmpBytes a b
  | _, _ => .eq

/-- `Ord` of the leaf types: `Empty`, `Eof`, `NotEof` (ast.rs:419, 502, 590 derived), `CustomIdent` (49 derived: the identifier, EXTERNAL compared by its text,
then the marker, which is the same), EXTERNAL `Ident`, keywords (359-363), literals. -/
def leafCmp (f : Ext.F → Ext.F → Ordering) : LeafVal → LeafVal → Ordering
  | .ident x _, .ident y _ => cmpText x y
  | .lit l _, .lit m _ => l.cmp f m
  | _, _ => .eq

/-- `PartialOrd` of the leaf types: derived (ast.rs:49, 419, 502, 590); of two values of one keyword type (348-357, `KeywordV.partialCmp`): compares their
strings; literals (2416-2421): what `cmp` says. -/
def leafPartialCmp (f : Ext.F → Ext.F → Ordering) : Leaf → LeafVal → LeafVal → Option Ordering
  | .keyword kw, .mark [sp], .mark [sp'] => (⟨sp⟩ : KeywordV Span kw).partialCmp (⟨sp'⟩ : KeywordV Span kw).asStr
  | _, .lit l _, .lit m _ => some (l.cmp f m)
  | _, v, w => some (leafCmp f v w)

/-- EXTERNAL the discriminant of a variant: its index.  (A struct has none; 0 here.) -/
def discriminant (env : Env) (ty ctor : Text) : Nat :=
  match env ty with
  | .struct _ => 0
  | .enum variants => variants.findIdx (·.ident == ctor)

/-- What the derived impls compare first: the discriminant; for `Either` (ast.rs:3682-3686) `Left` comes before `Right`. -/
def tagCmp (env : Env) : Tag → Tag → Ordering
  | .ctor x k, .ctor _ k' => compare (discriminant env x k) (discriminant env x k')
  | .eitherLeft, .eitherRight => .lt
  | .eitherRight, .eitherLeft => .gt
  | _, _ => .eq

mutual
/-- `Ord::cmp` of two nodes of one type: `Either` (ast.rs:3682 derived), user types (derived), leaves. -/
def Val.cmp (env : Env) (f : Ext.F → Ext.F → Ordering) : Val → Val → Ordering
  | .leaf _ v, .leaf _ w => leafCmp f v w
  | .node tag vs, .node tag' ws => (tagCmp env tag tag').then (Val.cmpL env f vs ws)
  | _, _ => .eq
/-- The fields one after the other. -/
def Val.cmpL (env : Env) (f : Ext.F → Ext.F → Ordering) : List Val → List Val → Ordering
  | v :: vs, w :: ws => (Val.cmp env f v w).then (Val.cmpL env f vs ws)
  | _, _ => .eq
end

mutual
/-- `PartialOrd::partial_cmp` of two nodes of one type, on which `<` and the others rely (same places).  EXTERNAL: the derived impls go on to the next field
only if the result is `Some(Equal)`. -/
def Val.partialCmp (env : Env) (f : Ext.F → Ext.F → Ordering) : Val → Val → Option Ordering
  | .leaf l v, .leaf _ w => leafPartialCmp f l v w
  | .node tag vs, .node tag' ws => if tagCmp env tag tag' = .eq then Val.partialCmpL env f vs ws else some (tagCmp env tag tag')
  | _, _ => some .eq
/-- The fields one after the other. -/
def Val.partialCmpL (env : Env) (f : Ext.F → Ext.F → Ordering) : List Val → List Val → Option Ordering
  | v :: vs, w :: ws =>
    match Val.partialCmp env f v w with
    | some .eq => Val.partialCmpL env f vs ws
    | r => r
  | _, _ => some .eq
end

/-- The leaf types with an `Ord` impl (ast.rs:49, 359, 419, 502, 590, 2430; EXTERNAL `Ident`); `Lit` (2971) has none. -/
def Leaf.ordered : Leaf → Bool
  | .empty | .eof | .notEof | .customIdent _ | .rustIdent | .keyword _ => true
  | .lit k => decide (k ≠ .any)
  | .kwToken _ | .punct _ => false

/-- The types with an `Ord` impl, `derives` being the user types with `#[derive(PartialEq, Eq, PartialOrd, Ord)]`. -/
def Ty.ordered (derives : Text → Bool) : Ty → Bool
  | .leaf l => l.ordered
  | .named x => derives x
  | .boxed t => t.ordered derives
  | .either l r => l.ordered derives && r.ordered derives
  | _ => false

end Parsel
