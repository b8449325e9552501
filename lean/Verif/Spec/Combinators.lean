import Verif.Model.Combinators

/-
Specification vocabulary for the helper node types: next token, optional part, repetitions, sequences, trees.
-/

namespace Parsel.Spec

variable {P T L R O : Type}

/-- `t` is the next token of the stream `ts` and `rest` is what follows it; invisible groups are transparent. -/
inductive Next : List TT → TT → List TT → Prop
  | here {t ts} : (∀ inner sp, t ≠ .group .none inner sp) → Next (t :: ts) t ts
  | enter {inner sp ts t rest} : Next (inner ++ ts) t rest → Next (.group .none inner sp :: ts) t rest

/-- The same position with an empty record of unexpected tokens: what a speculative parse starts from. -/
def fresh (s : PState) : PState := ⟨s.cur, s.scope, none⟩

/-- Going on from where a speculative parse that started at `s` ended (`f`): same nesting level, the position of `f`, and the
first recorded unexpected token. -/
def resume (s f : PState) : PState := ⟨f.cur, s.scope, if s.unexp.isSome then s.unexp else f.unexp⟩

/-- The whole rest of the stream reads as items `t` separated by `p`, optionally with a trailing `p`. -/
inductive Terminated (t : Parser T) (p : Parser P) : PState → List (Pair T P) → PState → Prop
  | nothing {s} : s.cur = [] → Terminated t p s [] s
  | last {s v s1} : s.cur ≠ [] → t s = .ok v s1 → s1.cur = [] → Terminated t p s [.stop v] s1
  | more {s v s1 q s2 rest s'} : s.cur ≠ [] → t s = .ok v s1 → s1.cur ≠ [] → p s1 = .ok q s2 →
      Terminated t p s2 rest s' → Terminated t p s (.punctuated v q :: rest) s'

/-- Reading the stream that way, an item or separator fails with `e`. -/
inductive TerminatedErr (t : Parser T) (p : Parser P) : PState → Err → Prop
  | item {s e} : s.cur ≠ [] → t s = .err e → TerminatedErr t p s e
  | sep {s v s1 e} : s.cur ≠ [] → t s = .ok v s1 → s1.cur ≠ [] → p s1 = .err e → TerminatedErr t p s e
  | more {s v s1 q s2 e} : s.cur ≠ [] → t s = .ok v s1 → s1.cur ≠ [] → p s1 = .ok q s2 →
      TerminatedErr t p s2 e → TerminatedErr t p s e

/-- From `s` on, separator-item pairs are read until the first place where the separator does not parse. -/
inductive SepTail (t : Parser T) (p : Parser P) : PState → List (P × T) → PState → Prop
  | stop {s e} : p (fresh s) = .err e → SepTail t p s [] s
  | more {s q f v s1 rest s'} : p (fresh s) = .ok q f → t (resume s f) = .ok v s1 → SepTail t p s1 rest s' →
      SepTail t p s ((q, v) :: rest) s'

/-- Reading separator-item pairs, a separator is not followed by an item: error `e`. -/
inductive SepTailErr (t : Parser T) (p : Parser P) : PState → Err → Prop
  | item {s q f e} : p (fresh s) = .ok q f → t (resume s f) = .err e → SepTailErr t p s e
  | more {s q f v s1 e} : p (fresh s) = .ok q f → t (resume s f) = .ok v s1 → SepTailErr t p s1 e → SepTailErr t p s e

/-- Items are read until the first place where no item parses. -/
inductive Greedy (t : Parser T) : PState → List T → PState → Prop
  | stop {s e} : t (fresh s) = .err e → Greedy t s [] s
  | more {s v f rest s'} : t (fresh s) = .ok v f → Greedy t (resume s f) rest s' → Greedy t s (v :: rest) s'

/-- In-order reading of a left-leaning tree: the leftmost operand, then operator-operand pairs. -/
def leftReading : LeftAssoc O R → R × List (O × R)
  | .rhs r => (r, [])
  | .binary l op r => ((leftReading l).1, (leftReading l).2 ++ [(op, r)])

/-- In-order reading of a right-leaning tree. -/
def rightReading : RightAssoc O L → L × List (O × L)
  | .lhs l => (l, [])
  | .binary l op r => (l, (op, (rightReading r).1) :: (rightReading r).2)

end Parsel.Spec
