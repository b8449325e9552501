import Verif.Spec.Predict

/-
A checker for the condition `Grammar` of Predict.lean: from finitely many types it computes what can be empty, what can come first, and what a type may
still try to read at its end, and compares them.  Proofs/LL1.lean proves that a grammar that passes satisfies `Grammar`.
-/

namespace Parsel.Spec


/-! ### leaves and groups -/

/-- A set of words. -/
inductive Words where
  | only (l : List Text)
  | allBut (l : List Text)

/-- The words that a leaf reads and prints. -/
def words : Ty → Words
  | .leaf (.customIdent kws) => .allBut kws
  | .leaf .rustIdent => .allBut rustKeywords
  | .leaf (.keyword kw) => .only [kw]
  | .leaf (.kwToken kw) => .only [kw]
  | .leaf (.lit .bool) => .only ["true".toList, "false".toList]
  | .leaf (.lit .any) => .only ["true".toList, "false".toList]
  | _ => .only []

/-- No word belongs to both. -/
def Words.apart : Words → Words → Bool
  | .only l, .only m => l.all fun x => !m.contains x
  | .only l, .allBut m => l.all fun x => m.contains x
  | .allBut l, .only m => m.all fun x => l.contains x
  | .allBut _, .allBut _ => false

/-- Kinds of literal tokens; `Lit` has all of them. -/
def litClass : LitKind → Option Nat
  | .bool => some 0
  | .byte => some 1
  | .int => some 2
  | .uint => some 2
  | .float => some 3
  | .char => some 4
  | .str => some 5
  | .byteStr => some 6
  | .any => none

/-- Literals that may be printed with a minus sign. -/
def mayBeNegative : LitKind → Bool
  | .int => true
  | .float => true
  | .any => true
  | _ => false

/-- Literals that may be read with a minus sign. -/
def readsNegative : LitKind → Bool
  | .int => true
  | .uint => true
  | .float => true
  | .any => true
  | _ => false

/-- For operators, literals and groups: nothing printed for the second can be taken for the first. -/
def apartOther : Ty → Ty → Bool
  | .leaf (.punct a), .leaf (.punct b) => !a.isPrefixOf b
  | .leaf (.punct a), .leaf (.lit k) => !(mayBeNegative k && a == ['-'])
  | .leaf (.lit k), .leaf (.punct b) => !(readsNegative k && b == ['-'])
  | .leaf (.lit j), .leaf (.lit k) => match litClass j, litClass k with
    | some a, some b => a != b
    | _, _ => false
  | .paren _, .paren _ => false
  | .bracket _, .bracket _ => false
  | .brace _, .brace _ => false
  | _, _ => true

/-- Leaves (other than `NotEof`) and groups that take at least a token, and `Eof`. -/
def picky : Ty → Bool
  | .leaf .empty => false
  | .leaf .notEof => false
  | .leaf (.punct a) => !a.isEmpty
  | .leaf _ => true
  | .paren _ => true
  | .bracket _ => true
  | .brace _ => true
  | _ => false

/-- Nothing printed for the second can be taken for the first. -/
def apart (u w : Ty) : Bool :=
  u == .leaf .eof || w == .leaf .eof || w == .leaf .notEof ||
    picky u && picky w && (words u).apart (words w) && apartOther u w

/-- The type does not accept the end of the input. -/
def refusesEnd (u : Ty) : Bool := u == .leaf .notEof || picky u && u != .leaf .eof

/-! ### the tables -/

/-- What is known about the types of a grammar: which can be empty, which can be skipped, what comes first, what they may still read at their end, and
a number that goes down from a type to what it starts with. -/
structure Tables where
  emp : Ty → Bool
  skip : Ty → Bool
  first : Ty → List Ty
  grab : Ty → List Ty
  rank : Ty → Nat

namespace Tables
variable (c : Tables)

/-- What a sequence of types can start with (`ts` itself, not only leaves). -/
def starts : List Ty → List Ty
  | [] => []
  | t :: ts => t :: if c.emp t then starts ts else []

/-- The leaves and groups that a sequence can start with. -/
def seqFirst (ts : List Ty) : List Ty := (c.starts ts).flatMap c.first

/-- What a sequence may still read at its end. -/
def seqGrab : List Ty → List Ty
  | [] => []
  | t :: ts => (if ts.all c.emp then c.grab t else []) ++ seqGrab ts

/-- What the variants before a variant that can be empty can start with. -/
def earlier : List (List Ty) → List Ty
  | [] => []
  | v :: vs => (if vs.any fun w => w.all c.emp then c.seqFirst v else []) ++ earlier vs

/-- The parts of a type. -/
def parts (env : Env) : Ty → List Ty
  | .leaf _ => []
  | .named x => match env x with
    | .struct fields => fieldTypes fields
    | .enum vs => vs.flatMap fun v => fieldTypes v.fields
  | .boxed t => [t]
  | .maybe p t => [p, t]
  | .paren t => [t]
  | .bracket t => [t]
  | .brace t => [t]
  | .punctuated t p => [t, p]
  | .separated t p => [t, p]
  | .any t => [t]
  | .leftAssoc o r => [o, r]
  | .rightAssoc o l => [o, l]
  | .either l r => [l, r]

/-- Can the type be empty, judging by its parts? -/
def empStep (env : Env) : Ty → Bool
  | .leaf .empty => true
  | .leaf .eof => true
  | .leaf .notEof => true
  | .leaf (.punct a) => a.isEmpty
  | .leaf _ => false
  | .named x => match env x with
    | .struct fields => (fieldTypes fields).all c.emp
    | .enum vs => vs.any fun v => (fieldTypes v.fields).all c.emp
  | .boxed t => c.emp t
  | .maybe _ _ => true
  | .punctuated _ _ => true
  | .any _ => true
  | .separated t _ => c.emp t
  | .leftAssoc _ r => c.emp r
  | .rightAssoc _ l => c.emp l
  | .either l r => c.emp l || c.emp r
  | _ => false

/-- Can the type be skipped, judging by its parts? -/
def skipStep (env : Env) : Ty → Bool
  | .leaf .empty => true
  | .leaf (.punct a) => a.isEmpty
  | .leaf _ => false
  | .named x => match env x with
    | .struct fields => (fieldTypes fields).all c.skip
    | .enum vs => vs.any fun v => (fieldTypes v.fields).all c.skip
  | .boxed t => c.skip t
  | .maybe _ _ => true
  | .punctuated _ _ => true
  | .any _ => true
  | .separated t _ => c.skip t
  | .leftAssoc _ r => c.skip r
  | .rightAssoc _ l => c.skip l
  | .either l r => c.skip l || c.skip r
  | _ => false

/-- What the type starts with. -/
def startsOf (env : Env) : Ty → List Ty
  | .named x => match env x with
    | .struct fields => c.starts (fieldTypes fields)
    | .enum vs => vs.flatMap fun v => c.starts (fieldTypes v.fields)
  | .boxed t => [t]
  | .maybe p t => c.starts [p, t]
  | .punctuated t p => c.starts [t, p]
  | .separated t p => c.starts [t, p]
  | .any t => [t]
  | .leftAssoc o r => c.starts [r, o]
  | .rightAssoc o l => c.starts [l, o]
  | .either l r => [l, r]
  | _ => []

/-- The leaves and groups that the type can start with, judging by its parts. -/
def firstStep (env : Env) (t : Ty) : List Ty := (if picky t || t == .leaf .notEof then [t] else []) ++ (c.startsOf env t).flatMap c.first

/-- What the type may still read at its end, judging by its parts. -/
def grabStep (env : Env) : Ty → List Ty
  | .leaf .eof => [.leaf .notEof]
  | .leaf .notEof => [.leaf .eof]
  | .named x => match env x with
    | .struct fields => c.seqGrab (fieldTypes fields)
    | .enum vs => vs.flatMap (fun v => c.seqGrab (fieldTypes v.fields)) ++ c.earlier (vs.map fun v => fieldTypes v.fields)
  | .boxed t => c.grab t
  | .maybe p t => c.first p ++ c.seqGrab [p, t]
  | .punctuated _ _ => [.leaf .notEof]
  | .separated t p => c.first p ++ (c.grab t ++ if c.emp t then c.grab p else [])
  | .any t => c.first t ++ c.grab t
  | .leftAssoc o r => c.first o ++ (c.grab r ++ if c.emp r then c.grab o else [])
  | .rightAssoc o l => c.first o ++ (c.grab l ++ if c.emp l then c.grab o else [])
  | .either l r => (if c.emp r then c.first l else []) ++ (c.grab l ++ c.grab r)
  | _ => []

/-- The tables contain what follows from the parts. -/
def closedAt (env : Env) (G : List Ty) (t : Ty) : Bool :=
  (parts env t).all (fun u => G.contains u) && (!c.empStep env t || c.emp t) && (!c.skipStep env t || c.skip t) &&
    (c.firstStep env t).all (fun u => (c.first t).contains u) && (c.grabStep env t).all (fun u => (c.grab t).contains u) &&
    (c.startsOf env t).all fun u => decide (c.rank u < c.rank t)

/-! ### the conditions -/

/-- Each of the first list is apart from each of the second. -/
def allApart (us ws : List Ty) : Bool := us.all fun u => ws.all fun w => apart u w

/-- In the sequence, what comes later cannot be taken for a part of what comes before. -/
def seqApart : List Ty → Bool
  | [] => true
  | t :: ts => allApart (c.grab t) (c.seqFirst ts) && seqApart ts

/-- The same for `t p t p ...` of any length. -/
def altApart (t p : Ty) : Bool := allApart (c.grab t) (c.seqFirst [p, t]) && allApart (c.grab p) (c.seqFirst [t, p])

/-- Variants can be told apart. -/
def variantsApart : List (List Ty) → Bool
  | [] => true
  | v :: vs => (vs.isEmpty || !v.all c.skip) && vs.all (fun w => allApart (c.seqFirst v) (c.seqFirst w)) && variantsApart vs

/-- `Predictive`, judging by the tables. -/
def predictive (env : Env) : Ty → Bool
  | .named x => match env x with
    | .struct fields => c.seqApart (fieldTypes fields)
    | .enum vs => vs.all (fun v => c.seqApart (fieldTypes v.fields)) && c.variantsApart (vs.map fun v => fieldTypes v.fields)
  | .maybe p t => !c.skip p && c.seqApart [p, t]
  | .paren t => (c.grab t).all refusesEnd
  | .bracket t => (c.grab t).all refusesEnd
  | .brace t => (c.grab t).all refusesEnd
  | .punctuated t p => c.altApart t p && (c.grab t).all refusesEnd && (p == .leaf .notEof || (c.grab p).all refusesEnd)
  | .separated t p => !c.skip p && c.altApart t p
  | .any t => !c.skip t && allApart (c.grab t) (c.first t)
  | .leftAssoc o r => !c.skip o && c.altApart r o
  | .rightAssoc o l => !c.skip o && c.altApart l o
  | .either l r => !c.skip l && allApart (c.first l) (c.first r)
  | _ => true

/-- No round of a repetition can be empty. -/
def rounds : Ty → Bool
  | .punctuated t p => !(c.emp t && c.emp p)
  | .separated t p => !(c.emp t && c.emp p)
  | .leftAssoc o r => !(c.emp o && c.emp r)
  | .rightAssoc o l => !(c.emp o && c.emp l)
  | .any t => !c.emp t
  | _ => true

/-- The grammar passes. -/
def passes (env : Env) (G : List Ty) : Bool := G.all fun t => c.closedAt env G t && c.predictive env t && c.rounds t

/-! ### computing the tables -/

/-- Tables as association lists. -/
def ofLists (emp skip : List Ty) (first grab : List (Ty × List Ty)) (rank : List (Ty × Nat)) : Tables where
  emp t := emp.contains t
  skip t := skip.contains t
  first t := (first.find? fun x => x.1 == t).elim [] (·.2)
  grab t := (grab.find? fun x => x.1 == t).elim [] (·.2)
  rank t := (rank.find? fun x => x.1 == t).elim 0 (·.2)

/-- One round of the computation. -/
def improve (env : Env) (G : List Ty) (l : List Ty × List Ty × List (Ty × List Ty) × List (Ty × List Ty) × List (Ty × Nat)) :
    List Ty × List Ty × List (Ty × List Ty) × List (Ty × List Ty) × List (Ty × Nat) :=
  let c := ofLists l.1 l.2.1 l.2.2.1 l.2.2.2.1 l.2.2.2.2
  (G.filter (c.empStep env), G.filter (c.skipStep env), G.map fun t => (t, (c.firstStep env t).eraseDups),
    G.map fun t => (t, (c.grabStep env t).eraseDups), G.map fun t => (t, ((c.startsOf env t).map fun u => c.rank u + 1).foldl max 0))

/-- Tables after `n` rounds. -/
def compute (env : Env) (G : List Ty) : Nat → List Ty × List Ty × List (Ty × List Ty) × List (Ty × List Ty) × List (Ty × Nat)
  | 0 => ([], [], [], [], [])
  | n + 1 => improve env G (compute env G n)

end Tables

/-- The types that can be reached from the types `l` in `n` steps. -/
def typesFrom (env : Env) : Nat → List Ty → List Ty
  | 0, l => l
  | n + 1, l => typesFrom env n (l ++ l.flatMap (Tables.parts env)).eraseDups

/-- The grammar made of the types `G` passes with the tables computed in `n` rounds. -/
def ll1 (env : Env) (G : List Ty) (n : Nat) : Bool :=
  let l := Tables.compute env G n
  (Tables.ofLists l.1 l.2.1 l.2.2.1 l.2.2.2.1 l.2.2.2.2).passes env G

/-- Nothing is left open at the end of a `t`. -/
def closesAtEnd (env : Env) (G : List Ty) (n : Nat) (t : Ty) : Bool :=
  let l := Tables.compute env G n
  ((Tables.ofLists l.1 l.2.1 l.2.2.1 l.2.2.2.1 l.2.2.2.2).grab t).all refusesEnd

end Parsel.Spec
