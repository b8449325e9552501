import Verif.Spec.Layout

/-
Specification vocabulary: documentation comments.
-/

namespace Parsel.Spec

/-- Every carriage return is followed by a line break. -/
def NoBareReturn (x : Text) : Prop := ∀ a b, x = a ++ '\r' :: b → b.head? = some '\n'

/-- `c` is a documentation comment of content `x`, written on the thing that it documents, or inside it. -/
inductive DocComment : Text → Text → Bool → Prop
  /-- `///x`, but not `////` -/
  | outerLine {x} : '\n' ∉ x → '\r' ∉ x → x.head? ≠ some '/' → DocComment ('/' :: '/' :: '/' :: x) x false
  /-- `//!x` -/
  | innerLine {x} : '\n' ∉ x → '\r' ∉ x → DocComment ('/' :: '/' :: '!' :: x) x true
  /-- `/**x*/`, but not `/***` nor `/**/` -/
  | outerBlock {x} : BlockComment ('/' :: '*' :: '*' :: (x ++ "*/".toList)) → x ≠ [] → x.head? ≠ some '*' → NoBareReturn x →
      DocComment ('/' :: '*' :: '*' :: (x ++ "*/".toList)) x false
  /-- `/*!x*/` -/
  | innerBlock {x} : BlockComment ('/' :: '*' :: '!' :: (x ++ "*/".toList)) → NoBareReturn x → DocComment ('/' :: '*' :: '!' :: (x ++ "*/".toList)) x true

end Parsel.Spec
