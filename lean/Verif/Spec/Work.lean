import Verif.Spec.Termination

/-
Specification vocabulary: the calls that a `Parse` implementation makes, and what follows from them: how many implementations run in the course
of a parse (work) and how deeply they are nested (depth of the call stack).
-/

namespace Parsel.Spec

variable [Ext]

/-- One `Parse` implementation, given the implementations `P` of all types: what `parse` does in one step (`k` bounds the rounds of its loop). -/
def parseWith (env : Env) (P : Ty → Parser Val) (k : Nat) : Ty → Parser Val
  | .leaf l, s => (leafParse l s).map fun v => .leaf l v
  | .named x, s => (evalParse P (env.code x) s).map fun nd => .node (.ctor x nd.ctor) nd.fields
  | .boxed t, s => P t s
  | .maybe p t, s => (maybeParse (P p) (P t) s).map Val.ofMaybe
  | .paren t, s => (parenParse (P t) s).map fun r => .group .paren r.1 r.2
  | .bracket t, s => (bracketParse (P t) s).map fun r => .group .bracket r.1 r.2
  | .brace t, s => (braceParse (P t) s).map fun r => .group .brace r.1 r.2
  | .punctuated t p, s => (punctuatedParse k (P t) (P p) s).map fun r => .node .punctuated (Val.interleave r)
  | .separated t p, s => (separatedParse k (P t) (P p) s).map fun r => .node .separated (Val.interleave r.inner)
  | .any t, s => (anyParse k (P t) s).map fun r => .node .any r.inner
  | .leftAssoc o r, s => (leftAssocParse k (P o) (P r) s).map Val.ofLeft
  | .rightAssoc o l, s => (rightAssocParse k (P o) (P l) s).map Val.ofRight
  | .either l r, s => (eitherParse (P l) (P r) s).map Val.ofEither

/-- A call: a type and the position at which it is parsed. -/
abbrev Call := Ty × PState

section
variable (P : Ty → Parser Val)

/-- Fields are parsed one after the other, up to the first that fails. -/
def seqCalls : List Ty → PState → List Call
  | [], _ => []
  | t :: ts, s => (t, s) :: (match P t s with
    | .ok _ s1 => seqCalls ts s1
    | _ => [])

/-- Whether the fields fail (as opposed to: parse, or do not return). -/
def seqFails : List Ty → PState → Bool
  | [], _ => false
  | t :: ts, s => match P t s with
    | .ok _ s1 => seqFails ts s1
    | .err _ => true
    | _ => false

/-- Alternatives are tried one after the other, each from the same position, as long as they fail. -/
def altCalls : List (List Ty) → PState → List Call
  | [], _ => []
  | ts :: alts, s => seqCalls P ts s ++ (if seqFails P ts s then altCalls alts s else [])

/-- The group that an opening delimiter `d` at the position starts is entered. -/
def insideCalls (d : Delim) (t : Ty) (s : PState) : List Call :=
  match uncons s.cur with
  | some (.group d' inner sp, _) => if d' = d then [(t, ⟨inner, sp.closeOf, s.unexp⟩)] else []
  | _ => []

/-- The rounds of `Punctuated`: value, separator, value, ... up to the end of the input. -/
def roundCalls (t p : Ty) : Nat → PState → List Call
  | 0, _ => []
  | k + 1, s =>
    if s.isEmpty then []
    else (t, s) :: (match P t s with
      | .ok _ s1 => if s1.isEmpty then [] else (p, s1) :: (match P p s1 with
        | .ok _ s2 => roundCalls t p k s2
        | _ => [])
      | _ => [])

/-- The rounds of `Separated`: separator, value, separator, ... up to a separator that fails. -/
def pairCalls (p t : Ty) : Nat → PState → List Call
  | 0, _ => []
  | k + 1, s => (p, s.fork) :: (match P p s.fork with
    | .ok _ f => (t, s.advanceTo f) :: (match P t (s.advanceTo f) with
      | .ok _ s1 => pairCalls p t k s1
      | _ => [])
    | _ => [])

/-- The rounds of `Any`: value after value up to one that fails. -/
def itemCalls (t : Ty) : Nat → PState → List Call
  | 0, _ => []
  | k + 1, s => (t, s.fork) :: (match P t s.fork with
    | .ok _ f => itemCalls t k (s.advanceTo f)
    | _ => [])

/-- A first value, then rounds of separator and value. -/
def listCalls (k : Nat) (t p : Ty) (s : PState) : List Call :=
  (t, s) :: (match P t s with
    | .ok _ s1 => pairCalls P p t k s1
    | _ => [])

/-- The calls that the `Parse` implementation of a type makes at a position, in order, each as often as it is made. -/
def calls (env : Env) (k : Nat) : Ty → PState → List Call
  | .leaf _, _ => []
  | .named x, s => match env x with
    | .struct fields => seqCalls P (fieldTypes fields) s
    | .enum vs => altCalls P (vs.map fun v => fieldTypes v.fields) s.fork
  | .boxed t, s => [(t, s)]
  | .maybe p t, s => (p, s.fork) :: (match P p s.fork with
    | .ok _ f => [(t, s.advanceTo f)]
    | _ => [])
  | .paren t, s => insideCalls .paren t s
  | .bracket t, s => insideCalls .bracket t s
  | .brace t, s => insideCalls .brace t s
  | .punctuated t p, s => roundCalls P t p k s
  | .separated t p, s => listCalls P k t p s
  | .any t, s => itemCalls P t k s
  | .leftAssoc o r, s => listCalls P k r o s
  | .rightAssoc o l, s => listCalls P k l o s
  | .either l r, s => altCalls P [[l], [r]] s.fork

end

/-- The number of `Parse` implementations that run when `t` is parsed at `s`, itself included. -/
def work (env : Env) : Nat → Ty → PState → Nat
  | 0, _, _ => 0
  | n + 1, t, s => 1 + ((calls (parse env n) env n t s).map fun c => work env n c.1 c.2).sum

/-- The nesting of the `Parse` implementations that run when `t` is parsed at `s`, itself included: the depth of the call stack. -/
def depth (env : Env) : Nat → Ty → PState → Nat
  | 0, _, _ => 0
  | n + 1, t, s => 1 + ((calls (parse env n) env n t s).map fun c => depth env n c.1 c.2).foldr max 0

/-- Parsing `t` at `s` comes to an end after `k` implementations have run. -/
def Works (env : Env) (t : Ty) (s : PState) (k : Nat) : Prop := ∃ n, parse env n t s ≠ .oof ∧ work env n t s = k

/-- Parsing `t` at `s` comes to an end having nested `k` implementations. -/
def Nests (env : Env) (t : Ty) (s : PState) (k : Nat) : Prop := ∃ n, parse env n t s ≠ .oof ∧ depth env n t s = k

/-- `u` is one of the types that `t` is made of, other than the contents of a delimited group. -/
def Beside (env : Env) (t u : Ty) : Prop := PartOf env u t ∧ ∀ v, t ≠ .paren v ∧ t ≠ .bracket v ∧ t ≠ .brace v

mutual
/-- Nesting of delimiters of a token. -/
def nestT : TT → Nat
  | .group _ ts _ => 1 + nest ts
  | _ => 0
/-- Nesting of delimiters of a stream. -/
def nest : List TT → Nat
  | [] => 0
  | t :: ts => max (nestT t) (nest ts)
end

end Parsel.Spec
