import Verif.Model.Offset

/-
Specification vocabulary for source positions.
-/

namespace Parsel.Spec

/-- Position right after the text `pre`: lines are counted from 1 by line feeds, columns from 0 in characters since the last
line feed. -/
def posAfter (pre : Text) : LineCol := ⟨1 + pre.count '\n', (pre.reverse.takeWhile (fun c => c ≠ '\n')).length⟩

/-- The span of the stretch `mid` that comes after `pre` in some source text. -/
def stretchSpan (pre mid : Text) : Span := ⟨posAfter pre, posAfter (pre ++ mid)⟩

/-- `n` is the byte index of a character boundary of the text. -/
def IsBoundary (source : Text) (n : Nat) : Prop := ∃ a b, source = a ++ b ∧ n = utf8Len a

end Parsel.Spec
