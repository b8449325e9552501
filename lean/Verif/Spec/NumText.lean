import Verif.Spec.Literal

/-
Specification vocabulary: floating point literals, as in the Rust reference ("Floating-point literals"), and the number that their text is read as.
-/

namespace Parsel.Spec

/-- Digits and underscores. -/
def Grouped (x : Text) : Prop := ∀ c ∈ x, c.isDigit = true ∨ c = '_'

/-- The digits without the underscores. -/
def digitsOf (x : Text) : Text := x.filter (· ≠ '_')

/-- What may follow the integral part: nothing, a point, or a point and digits (the first character is a digit).  Second: the same without underscores. -/
inductive Fraction : Text → Text → Prop
  | none : Fraction [] []
  | point : Fraction ['.'] ['.']
  | digits {d x} : d.isDigit = true → Grouped x → Fraction ('.' :: d :: x) ('.' :: d :: digitsOf x)

/-- The exponent, if there is one: `e` or `E`, a sign, and digits (at least one).  Second: the same with `e`, without underscores and plus sign. -/
inductive ExpPart : Text → Text → Prop
  | none : ExpPart [] []
  | plain {e x} : e = 'e' ∨ e = 'E' → Grouped x → (∃ c ∈ x, c.isDigit = true) → ExpPart (e :: x) ('e' :: digitsOf x)
  | plus {e u x} : e = 'e' ∨ e = 'E' → (∀ c ∈ u, c = '_') → Grouped x → (∃ c ∈ x, c.isDigit = true) → ExpPart (e :: (u ++ '+' :: x)) ('e' :: digitsOf x)
  | minus {e u x} : e = 'e' ∨ e = 'E' → (∀ c ∈ u, c = '_') → Grouped x → (∃ c ∈ x, c.isDigit = true) → ExpPart (e :: (u ++ '-' :: x)) ('e' :: '-' :: digitsOf x)

/-- `t` is a floating point literal without sign: digits with a point or an exponent or both, and a suffix, an identifier that cannot be taken for more digits or
for an exponent (and cannot follow the point directly); `r` is the text of the number in the form that `f64::from_str` reads. -/
def FloatLit (t r : Text) : Prop :=
  ∃ d int frac fr exp er suffix, t = d :: int ++ (frac ++ (exp ++ suffix)) ∧ r = d :: digitsOf int ++ (fr ++ er) ∧ d.isDigit = true ∧ Grouped int ∧ Fraction frac fr ∧
    ExpPart exp er ∧ (frac = [] → exp ≠ []) ∧ (frac = ['.'] → exp = [] ∧ suffix = []) ∧ suffixOk suffix = true ∧ suffix.head? ≠ some '_' ∧
    (exp = [] → ∀ c, suffix.head? = some c → c = 'e' ∨ c = 'E' → ¬ Exponent suffix.tail)

end Parsel.Spec
