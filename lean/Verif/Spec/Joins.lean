import Verif.Spec.LL1
import Verif.Spec.Source

/-
Specification: grammars in which no operator that ends somewhere, with what may come next, looks like a part of a longer operator (so that it does not matter
whether they are written with or without white space between them).  A check by computation.
-/

namespace Parsel.Spec

/-- Wherever an operator ends (its last character is not joined to the next one), its last character and a punctuation character that follows are not
`Glued`. -/
def Unglued (Glued : Char → Char → Prop) (ts : List TT) : Prop :=
  ∀ c sp c' spc' sp', Segment [.punct c .alone sp, .punct c' spc' sp'] ts → ¬ Glued c c'

/-- `c` directly before `c'` in the text. -/
def sideBySide (c c' : Char) : Text → Bool
  | a :: b :: r => (a == c && b == c') || sideBySide c c' (b :: r)
  | _ => false

/-- `c` directly before `c'` in an operator among the types. -/
def glues (G : List Ty) (c c' : Char) : Bool := G.any fun t => match t with
  | .leaf (.punct tok) => sideBySide c c' tok
  | _ => false

/-- The punctuation character that a leaf can begin with. -/
def beginChars : Ty → List Char
  | .leaf (.punct a) => a.head?.toList
  | .leaf (.lit k) => if mayBeNegative k then ['-'] else []
  | _ => []

namespace Tables
variable (c : Tables) (stop : Ty → List Char)

/-- The operator characters that a sequence can end with. -/
def seqStop : List Ty → List Char
  | [] => []
  | t :: ts => (if ts.all c.emp then stop t else []) ++ seqStop ts

/-- The operator characters that the type can end with, judging by its parts. -/
def stopStep (env : Env) : Ty → List Char
  | .leaf (.punct a) => a.getLast?.toList
  | .named x => match env x with
    | .struct fields => c.seqStop stop (fieldTypes fields)
    | .enum vs => vs.flatMap fun v => c.seqStop stop (fieldTypes v.fields)
  | .boxed t => stop t
  | .maybe p t => c.seqStop stop [p, t]
  | .punctuated t p => stop t ++ stop p
  | .separated t p => stop t ++ if c.emp t then stop p else []
  | .any t => stop t
  | .leftAssoc o r => stop r ++ if c.emp r then stop o else []
  | .rightAssoc o l => stop l ++ if c.emp l then stop o else []
  | .either l r => stop l ++ stop r
  | _ => []

/-- None of the characters is glued to one that one of the types can begin with. -/
def loose (G : List Ty) (cs : List Char) (us : List Ty) : Bool := cs.all fun a => us.all fun u => (beginChars u).all fun b => !glues G a b

/-- In the sequence, no operator at the end of a part is glued to what comes next. -/
def seqLoose (G : List Ty) : List Ty → Bool
  | [] => true
  | t :: ts => loose G (stop t) (c.seqFirst ts) && seqLoose G ts

/-- The same for `t p t p ...` of any length. -/
def altLoose (G : List Ty) (t p : Ty) : Bool := loose G (stop t) (c.seqFirst [p, t]) && loose G (stop p) (c.seqFirst [t, p])

/-- The same for all values of a type. -/
def looseAt (env : Env) (G : List Ty) : Ty → Bool
  | .named x => match env x with
    | .struct fields => c.seqLoose stop G (fieldTypes fields)
    | .enum vs => vs.all fun v => c.seqLoose stop G (fieldTypes v.fields)
  | .maybe p t => c.seqLoose stop G [p, t]
  | .punctuated t p => c.altLoose stop G t p
  | .separated t p => c.altLoose stop G t p
  | .any t => loose G (stop t) (c.first t)
  | .leftAssoc o r => c.seqLoose stop G [.leftAssoc o r, o, r]
  | .rightAssoc o l => c.seqLoose stop G [l, o, .rightAssoc o l]
  | _ => true

/-- The operator characters at the end, after `n` rounds of computation. -/
def stops (env : Env) (G : List Ty) : Nat → List (Ty × List Char)
  | 0 => []
  | n + 1 =>
    let l := stops env G n
    G.map fun t => (t, (c.stopStep (fun t => (l.find? fun x => x.1 == t).elim [] (·.2)) env t).eraseDups)

end Tables

/-- In the grammar made of the types `G` (of which there must be no left recursion) no operator is glued to what may come next, with the tables computed in `n` rounds. -/
def separable (env : Env) (G : List Ty) (n : Nat) : Bool :=
  let l := Tables.compute env G n
  let c := Tables.ofLists l.1 l.2.1 l.2.2.1 l.2.2.2.1 l.2.2.2.2
  let m := c.stops env G n
  let stop := fun t => (m.find? fun x => x.1 == t).elim [] (·.2)
  G.all fun t => c.closedAt env G t && (c.stopStep stop env t).all (fun a => (stop t).contains a) && c.looseAt stop env G t

end Parsel.Spec
