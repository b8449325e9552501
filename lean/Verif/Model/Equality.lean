import Verif.Model.Grammar

/-
`==` and `hash` of nodes.  The generic node types and (with `#[derive(PartialEq, Eq, Hash)]`, EXTERNAL) user types compare constructor and fields one after
the other; only leaves have impls of their own.
-/

namespace Parsel

/-- EXTERNAL `PartialEq` and `Hash` for `NotNan<f64>` (crate ordered-float): what they say and what they feed to the hasher. -/
structure FloatCmp (F : Type) where
  eq : F → F → Bool
  hash : F → List Nat

variable [Ext]

/-- ast.rs:2403-2407 `PartialEq` of the literal types, which compares the values (`LitV.eq`); 2971-2981 `#[derive(PartialEq)]` of `Lit`. -/
def LitVal.eq (c : FloatCmp Ext.F) : LitVal → LitVal → Bool
  | .bool a, .bool b => a == b
  | .byte a, .byte b => a == b
  | .int a, .int b => a == b
  | .uint a, .uint b => a == b
  | .float a, .float b => c.eq a b
  | .char a, .char b => a == b
  | .str a, .str b => a == b
  | .byteStr a, .byteStr b => a == b
  | _, _ => false

/-- ast.rs:2436-2440 `Hash` of the literal types; 2971-2981 `#[derive(Hash)]` of `Lit`, which feeds the discriminant first.  (The literal types themselves
have no discriminant; within one type it is the same for all values, so it makes no difference.) -/
def LitVal.hash (c : FloatCmp Ext.F) : LitVal → List Nat
  | .bool a => [0, if a then 1 else 0]
  | .byte a => [1, a.val]
  | .int a => [2, a.toNat, (-a).toNat]
  | .uint a => [3, a]
  | .float a => 4 :: c.hash a
  | .char a => [5, a.toNat]
  | .str a => 6 :: a.map Char.toNat
  | .byteStr a => 7 :: a.length :: a.map (·.val)

/-- `==` of the leaf types: `Empty`, `Eof`, `NotEof` (ast.rs:419, 502, 590 derived); `CustomIdent` (49 derived, EXTERNAL `Ident` compares the text); keywords
(337-344, of two values of the type) and EXTERNAL tokens of syn, which are always equal; literals. -/
def leafEq (c : FloatCmp Ext.F) : LeafVal → LeafVal → Bool
  | .unit, .unit => true
  | .ident x _, .ident y _ => x == y
  | .mark _, .mark _ => true
  | .lit l _, .lit m _ => l.eq c m
  | _, _ => false

/-- `Hash` of the leaf types: likewise (keywords: ast.rs:364-366). -/
def leafHash (c : FloatCmp Ext.F) : LeafVal → List Nat
  | .unit => []
  | .ident x _ => x.map Char.toNat
  | .mark _ => []
  | .lit l _ => l.hash c

/-- What the derived `Hash` feeds for the constructor (its discriminant; for `Maybe` that of the `Option`). -/
def tagHash : Tag → List Nat
  | .ctor _ k => k.map Char.toNat
  | .leftBin => [0] | .leftRhs => [1]
  | .rightBin => [0] | .rightLhs => [1]
  | .eitherLeft => [0] | .eitherRight => [1]
  | _ => []

mutual
/-- `==` of two nodes of one type: `Paren`, `Bracket`, `Brace` (ast.rs:978, 1106, 1241 derived; EXTERNAL delimiter tokens are always equal), the other
generic types (728, 1364, 1690, 2084, 3359, 3552, 3682 derived) and user types.  (The types of the two nodes are the same, so are the types of corresponding
leaves and groups; comparing them here makes no difference.) -/
def Val.eq (c : FloatCmp Ext.F) : Val → Val → Bool
  | .leaf l v, .leaf m w => decide (l = m) && leafEq c v w
  | .group d _ v, .group d' _ w => decide (d = d') && Val.eq c v w
  | .node tag vs, .node tag' ws => decide (tag = tag') && Val.eqL c vs ws
  | _, _ => false
/-- The children one after the other. -/
def Val.eqL (c : FloatCmp Ext.F) : List Val → List Val → Bool
  | [], [] => true
  | v :: vs, w :: ws => Val.eq c v w && Val.eqL c vs ws
  | _, _ => false
end

mutual
/-- `Hash` of a node (same places): constructor, number of children (fed by lists), children. -/
def Val.hash (c : FloatCmp Ext.F) : Val → List Nat
  | .leaf _ v => leafHash c v
  | .group _ _ v => Val.hash c v
  | .node tag vs => tagHash tag ++ vs.length :: Val.hashL c vs
/-- The children one after the other. -/
def Val.hashL (c : FloatCmp Ext.F) : List Val → List Nat
  | [] => []
  | v :: vs => Val.hash c v ++ Val.hashL c vs
end

end Parsel
