import Verif.Spec.Peg
import Verif.Spec.LL1

/-
Specification vocabulary: grammars whose parser, on any input, can go at most one way (a strict form of LL(1)).
-/

namespace Parsel.Spec

section
variable [Ext]

/-- The input `ts` starts with the leaf `u`, or with a group that has the delimiters of `u`. -/
inductive Opens : Ty → List TT → Prop
  | leaf {l ts v rest} : LeafAt l ts v rest → Opens (.leaf l) ts
  | group {g d t ts inner sp rest} : GroupTy g d t → Next ts (.group d inner sp) rest → Opens g ts

/-- No input starts with both. -/
def NeverBoth (u w : Ty) : Prop := ∀ ts, Opens u ts → ¬ Opens w ts

/-- In the sequence of types `ts`, what comes later cannot be mistaken for a continuation of what comes before. -/
def SeqDisjoint (env : Env) (ts : List Ty) : Prop :=
  ∀ pre t post, ts = pre ++ t :: post → ∀ u w, Grabs env t u → SeqLead env post w → NeverBoth u w

/-- At most one way to go on, whatever the input. -/
def Decisive (env : Env) : Ty → Prop
  | .named x =>
    match env x with
    | .struct fields => SeqDisjoint env (fieldTypes fields)
    | .enum vs => (∀ v ∈ vs, SeqDisjoint env (fieldTypes v.fields)) ∧
        ∀ before v mid w after, vs = before ++ v :: (mid ++ w :: after) →
          ∀ u b, SeqLead env (fieldTypes v.fields) u → SeqLead env (fieldTypes w.fields) b → NeverBoth u b
  | .maybe p t => SeqDisjoint env [p, t]
  | .punctuated t p => ∀ n, SeqDisjoint env (alternate t p n)
  | .separated t p => ∀ n, SeqDisjoint env (alternate t p n)
  | .any t => ∀ u b, Grabs env t u → Lead env t b → NeverBoth u b
  | .leftAssoc o r => ∀ n, SeqDisjoint env (alternate r o n)
  | .rightAssoc o l => ∀ n, SeqDisjoint env (alternate l o n)
  | .either l r => ∀ u b, Lead env l u → Lead env r b → NeverBoth u b
  | _ => True

/-- A list of types that contains the parts of its types, without left recursion and empty rounds (C29), all of them decisive. -/
structure DecisiveGrammar (env : Env) (G : List Ty) : Prop where
  closed : ∀ t ∈ G, ∀ u, PartOf env u t → u ∈ G
  noLeftRecursion : ∀ t ∈ G, ¬ Chain (StartsWith env) t t
  rounds : ∀ t ∈ G, RoundsRead env t
  decisive : ∀ t ∈ G, Decisive env t

end

/-! ### a checker -/

/-- For operators, literals and groups: no input starts with both. -/
def disjointOther : Ty → Ty → Bool
  | .leaf (.punct a), .leaf (.punct b) => !a.isPrefixOf b && !b.isPrefixOf a
  | .leaf (.punct a), .leaf (.lit k) => !(mayBeNegative k && a == ['-'])
  | .leaf (.lit k), .leaf (.punct b) => !(mayBeNegative k && b == ['-'])
  | .leaf (.lit j), .leaf (.lit k) => match litClass j, litClass k with
    | some a, some b => a != b
    | _, _ => false
  | .paren _, .paren _ => false
  | .bracket _, .bracket _ => false
  | .brace _, .brace _ => false
  | _, _ => true

/-- No input starts with both. -/
def disjoint (u w : Ty) : Bool :=
  (u == .leaf .eof && w != .leaf .eof && (w == .leaf .notEof || picky w)) ||
  (w == .leaf .eof && u != .leaf .eof && (u == .leaf .notEof || picky u)) ||
  (u != .leaf .eof && w != .leaf .eof && picky u && picky w && (words u).apart (words w) && disjointOther u w)

namespace Tables
variable (c : Tables)

/-- Each of the first list is disjoint from each of the second. -/
def allDisjoint (us ws : List Ty) : Bool := us.all fun u => ws.all fun w => disjoint u w

/-- `SeqDisjoint`, judging by the tables. -/
def seqDisjoint : List Ty → Bool
  | [] => true
  | t :: ts => allDisjoint (c.grab t) (c.seqFirst ts) && seqDisjoint ts

/-- The same for `t p t p ...` of any length. -/
def altDisjoint (t p : Ty) : Bool := allDisjoint (c.grab t) (c.seqFirst [p, t]) && allDisjoint (c.grab p) (c.seqFirst [t, p])

/-- Variants are disjoint. -/
def variantsDisjoint : List (List Ty) → Bool
  | [] => true
  | v :: vs => vs.all (fun w => allDisjoint (c.seqFirst v) (c.seqFirst w)) && variantsDisjoint vs

/-- `Decisive`, judging by the tables. -/
def decisive (env : Env) : Ty → Bool
  | .named x => match env x with
    | .struct fields => c.seqDisjoint (fieldTypes fields)
    | .enum vs => vs.all (fun v => c.seqDisjoint (fieldTypes v.fields)) && c.variantsDisjoint (vs.map fun v => fieldTypes v.fields)
  | .maybe p t => c.seqDisjoint [p, t]
  | .punctuated t p => c.altDisjoint t p
  | .separated t p => c.altDisjoint t p
  | .any t => allDisjoint (c.grab t) (c.first t)
  | .leftAssoc o r => c.altDisjoint r o
  | .rightAssoc o l => c.altDisjoint l o
  | .either l r => allDisjoint (c.first l) (c.first r)
  | _ => true

/-- No left recursion and no empty rounds. -/
def ends (env : Env) (G : List Ty) : Bool := G.all fun t => c.closedAt env G t && c.rounds t

/-- The grammar passes. -/
def decides (env : Env) (G : List Ty) : Bool := G.all fun t => c.closedAt env G t && c.rounds t && c.decisive env t

end Tables

/-- The tables after `n` rounds. -/
def tablesOf (env : Env) (G : List Ty) (n : Nat) : Tables :=
  let l := Tables.compute env G n
  Tables.ofLists l.1 l.2.1 l.2.2.1 l.2.2.2.1 l.2.2.2.2

/-- Parsing the types `G` ends, as far as the tables computed in `n` rounds tell. -/
def ends (env : Env) (G : List Ty) (n : Nat) : Bool := (tablesOf env G n).ends env G

/-- The types `G` are a decisive grammar, as far as the tables computed in `n` rounds tell. -/
def decides (env : Env) (G : List Ty) (n : Nat) : Bool := (tablesOf env G n).decides env G

end Parsel.Spec
