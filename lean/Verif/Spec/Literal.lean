import Verif.Model.Literal
import Verif.Spec.Combinators

/-
Specification vocabulary for literals: the mathematical value of an integer literal, 64-bit ranges, and the assumed facts about
floating point text.
-/

namespace Parsel.Spec

/-- `c` is the digit of value `d` in the given base (at most 16). -/
def DigitIn (base : Nat) (c : Char) (d : Nat) : Prop :=
  d < base ∧ ("0123456789abcdef".toList[d]? = some c ∨ "0123456789ABCDEF".toList[d]? = some c)

/-- `t` consists of `n` digits and any number of underscores and has value `v` in the given base. -/
inductive Digits (base : Nat) : Text → Nat → Nat → Prop
  | nil : Digits base [] 0 0
  | digit {t n v c d} : Digits base t n v → DigitIn base c d → Digits base (t ++ [c]) (n + 1) (base * v + d)
  | under {t n v} : Digits base t n v → Digits base (t ++ ['_']) n v

/-- The base prefixes. -/
def basePrefixes : List (Text × Nat) := [([], 10), ("0x".toList, 16), ("0o".toList, 8), ("0b".toList, 2)]

/-- What makes the digits before an `e` the mantissa of a floating point number: digits, at least one, with underscores, up to the end or to a suffix. -/
def Exponent (t : Text) : Prop :=
  ∃ w rest, t = w ++ rest ∧ (∀ c ∈ w, c = '_' ∨ c.isDigit = true) ∧ (∃ c ∈ w, c.isDigit = true) ∧ suffixOk rest = true ∧ rest.head? ≠ some '_'

/-- What may follow the digits of an integer literal: nothing, or an identifier (such as `u8`) that cannot be taken for more digits
or for the exponent of a decimal number. -/
def IntSuffix (base : Nat) (t : Text) : Prop :=
  suffixOk t = true ∧ ∀ c, t.head? = some c →
    c ≠ '_' ∧ (∀ d, ¬ DigitIn base c d) ∧ (base = 10 → c = 'e' ∨ c = 'E' → ¬ Exponent t.tail)

/-- `t` is an integer literal without sign (optional base prefix, at least one digit, underscores anywhere after the first decimal
digit, optional suffix) and `v` is its value. -/
def IntLit (t : Text) (v : Nat) : Prop :=
  ∃ pre base body suffix n, (pre, base) ∈ basePrefixes ∧ t = pre ++ body ++ suffix ∧ Digits base body (n + 1) v ∧
    IntSuffix base suffix ∧
    (base = 10 → body.head? ≠ some '_' ∧ ∀ c, (body = ['0'] ∧ suffix.head? = some c) → c ≠ 'x' ∧ c ≠ 'o' ∧ c ≠ 'b')

/-- The values of Rust's `i64`. -/
def InI64 (v : Int) : Prop := -(2 ^ 63) ≤ v ∧ v ≤ 2 ^ 63 - 1

/-- The values of Rust's `u64`. -/
def InU64 (v : Nat) : Prop := v ≤ 2 ^ 64 - 1

/-- The next thing in the stream is an integer literal: `neg` says whether it has a minus sign, `n` is its absolute value, `sp` its
location, `rest` what follows.  The sign is a separate `-` token, or (in streams that were not lexed) part of the literal token. -/
inductive IntAt : List TT → Bool → Nat → Span → List TT → Prop
  | plain {ts repr sp rest n} : Next ts (.lit repr sp) rest → IntLit repr n → IntAt ts false n sp rest
  | minus {ts spc sp1 rest1 repr sp2 rest n} : Next ts (.punct '-' spc sp1) rest1 → Next rest1 (.lit repr sp2) rest → IntLit repr n →
      IntAt ts true n (sp1.join sp2) rest
  | inside {ts repr sp rest n} : Next ts (.lit ('-' :: repr) sp) rest → IntLit repr n → IntAt ts true n sp rest

/-- The integer with the given sign and absolute value. -/
def signed (neg : Bool) (n : Nat) : Int := if neg then -(n : Int) else n

/-- What is assumed about `f64` text (EXTERNAL, IEEE and `core::fmt`): a finite number is displayed as an optional minus sign, digits,
and possibly a point with more digits; reading the displayed text (with or without `.0` added) gives the number back. -/
structure FloatLaws [Ext] : Prop where
  shape : ∀ x : Ext.F, Ext.finite x = true → ∃ (neg : Bool) (a b : Text), a ≠ [] ∧ (∀ c ∈ a, c.isDigit = true) ∧ (∀ c ∈ b, c.isDigit = true) ∧
    (Ext.floatText x = (if neg then ['-'] else []) ++ a ∨ b ≠ [] ∧ Ext.floatText x = (if neg then ['-'] else []) ++ a ++ '.' :: b)
  reads : ∀ x : Ext.F, Ext.finite x = true → Ext.floatOf (Ext.floatText x) = some x
  reads0 : ∀ x : Ext.F, Ext.finite x = true → '.' ∉ Ext.floatText x → Ext.floatOf (Ext.floatText x ++ ".0".toList) = some x

/-- The literal values that Rust's types can hold. -/
def LitVal.InRange [Ext] : LitVal → Prop
  | .int v => InI64 v
  | .uint v => InU64 v
  | _ => True

/-- The float values that have a token. -/
def LitVal.Finite [Ext] : LitVal → Prop
  | .float x => Ext.finite x = true
  | _ => True

/-- The value of a hexadecimal digit. -/
def hexDigit (c : Char) : Option Nat :=
  if '0' ≤ c ∧ c ≤ '9' then some (c.toNat - 48) else if 'a' ≤ c ∧ c ≤ 'f' then some (c.toNat - 87) else if 'A' ≤ c ∧ c ≤ 'F' then some (c.toNat - 55) else none

/-- Byte literals and their values as the Rust reference has them ("Byte literals", `BYTE_LITERAL`): an ASCII character other than `'`, `\`, line feed,
carriage return and tab; or an escape `\xHH`, `\n`, `\r`, `\t`, `\\`, `\0`, `\'`, `\"`. -/
def byteLiteral : Text → Option Nat
  | ['b', '\'', c, '\''] => if c.toNat < 128 ∧ c ∉ ['\'', '\\', '\n', '\r', '\t'] then some c.toNat else none
  | ['b', '\'', '\\', e, '\''] =>
    if e = 'n' then some 10 else if e = 'r' then some 13 else if e = 't' then some 9 else if e = '0' then some 0
    else if e ∈ ['\\', '\'', '"'] then some e.toNat else none
  | ['b', '\'', '\\', 'x', h, l, '\''] => (hexDigit h).bind fun h => (hexDigit l).map fun l => 16 * h + l
  | _ => none

end Parsel.Spec
