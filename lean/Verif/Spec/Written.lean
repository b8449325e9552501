import Verif.Spec.Source
import Verif.Spec.StrText
import Verif.Spec.NumText

/-
Specification vocabulary: the text of a literal value, and the locations of the characters of an operator.
-/

namespace Parsel.Spec

/-- The text `x` is a literal (of a negative number: a minus sign, possibly white space and comments, and a literal) of value `l`. -/
inductive SpellsLit [Ext] : LitVal → Text → Prop
  | bool (b : Bool) : SpellsLit (.bool b) (if b then "true".toList else "false".toList)
  | int {x n} : IntLit x n → SpellsLit (.int n) x
  | minusInt {g x n} : Blank g → IntLit x n → SpellsLit (.int (-(n : Int))) ('-' :: (g ++ x))
  | uint {x n} : IntLit x n → SpellsLit (.uint n) x
  | float {x d f} : FloatLit x d → Ext.floatOf d = some f → SpellsLit (.float f) x
  | minusFloat {g x d f} : Blank g → FloatLit x d → Ext.floatOf ('-' :: d) = some f → SpellsLit (.float f) ('-' :: (g ++ x))
  | byte {x} {b : Byte} : CharLit true x b.val → SpellsLit (.byte b) x
  | char {x} {c : Char} : CharLit false x c.toNat → SpellsLit (.char c) x
  | str {x} {t : Text} : StrLit false x (t.map Char.toNat) → SpellsLit (.str t) x
  | byteStr {x} {t : List Byte} : StrLit true x (t.map Fin.val) → SpellsLit (.byteStr t) x

/-- The locations of the characters of `x`, one by one, right after `pre` in some source text. -/
inductive CharSpans : Text → Text → List Span → Prop
  | nil {pre} : CharSpans pre [] []
  | cons {pre c x sps} : CharSpans (pre ++ [c]) x sps → CharSpans pre (c :: x) (stretchSpan pre [c] :: sps)

end Parsel.Spec
