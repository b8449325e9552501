import Verif.Spec.Furthest
import Verif.Spec.Locations

/-
Specification vocabulary: the same place in two streams that consist of the same tokens.
-/

namespace Parsel.Spec

/-- What stands at two positions (unread tokens, and where the end of the level is reported), has the locations `sp` and `sp'`: the end of the level; the next token
(of a group: its opening delimiter, or all of it); a number with a minus sign. -/
inductive Twin : List TT → Span → List TT → Span → Span → Span → Prop
  | stop {scope scope'} : Twin [] scope [] scope' scope scope'
  | token {t u a b scope scope'} : Twin (t :: a) scope (u :: b) scope' t.errSpan u.errSpan
  | whole {t u a b scope scope'} : Twin (t :: a) scope (u :: b) scope' t.span u.span
  | number {spc sp1 r sp2 a scope spc' sp1' r' sp2' b scope'} :
      Twin (.punct '-' spc sp1 :: .lit r sp2 :: a) scope (.punct '-' spc' sp1' :: .lit r' sp2' :: b) scope' (sp1.join sp2) (sp1'.join sp2')

/-- `sp` in `ts` and `sp'` in `ts'` are the locations of what stands behind the first `n` tokens (delimiters count); the same tokens follow there. -/
def SameSpot (ts ts' : List TT) (n : Nat) (sp sp' : Span) : Prop :=
  ∃ cur scope cur' scope', Passed ts .callSite n cur scope ∧ Passed ts' .callSite n cur' scope' ∧
    SameShape cur cur' ∧ Twin cur scope cur' scope' sp sp'

/-- All tokens are behind the very first position. -/
def AfterStart (ts : List TT) : Prop := ∀ p ∈ places ts, Span.callSite.stop.lt p = true

end Parsel.Spec
