import Verif.Spec.Literal

/-
Specification vocabulary: string, byte string, character and byte literals and their values, as in the Rust reference ("Character and string literals").  Characters are
given by their code points, bytes by their values.
-/

namespace Parsel.Spec

/-- The escapes of one character after the backslash, and what they stand for. -/
def shortEscapes : List (Char × Nat) := [('n', 10), ('r', 13), ('t', 9), ('\\', 92), ('0', 0), ('\'', 39), ('"', 34)]

/-- An escape sequence and what it stands for (`byte`: in a byte literal or byte string).  `\x` is limited to ASCII outside of bytes; `\u` has one to six digits, with
underscores after the first one, and stands for a character (not a surrogate, not above 10FFFF); it does not exist for bytes. -/
inductive Escape (byte : Bool) : Text → Nat → Prop
  | short {e n} : (e, n) ∈ shortEscapes → Escape byte ['\\', e] n
  | hex {a b h l} : DigitIn 16 a h → DigitIn 16 b l → (byte = false → 16 * h + l < 128) → Escape byte ['\\', 'x', a, b] (16 * h + l)
  | uni {t n v} : byte = false → Digits 16 t n v → 0 < n → n ≤ 6 → t.head? ≠ some '_' → v.isValidChar → Escape byte ('\\' :: 'u' :: '{' :: (t ++ ['}'])) v

/-- The white space that is skipped after a backslash at the end of a line. -/
inductive LineSkip : Text → Prop
  | nil : LineSkip []
  | white {c w} : c ∈ [' ', '\t', '\n'] → LineSkip w → LineSkip (c :: w)
  | crlf {w} : LineSkip w → LineSkip ('\r' :: '\n' :: w)

/-- What is between the quotes of a string literal (`byte`: of a byte string literal), and the code points (bytes) that it stands for. -/
inductive StrBody (byte : Bool) : Text → List Nat → Prop
  | nil : StrBody byte [] []
  /-- a character that stands for itself -/
  | char {c x ns} : c ∉ ['"', '\\', '\r'] → (byte = true → c.toNat < 128) → StrBody byte x ns → StrBody byte (c :: x) (c.toNat :: ns)
  /-- a line break of two characters is a line feed -/
  | crlf {x ns} : StrBody byte x ns → StrBody byte ('\r' :: '\n' :: x) (10 :: ns)
  | escape {e n x ns} : Escape byte e n → StrBody byte x ns → StrBody byte (e ++ x) (n :: ns)
  /-- a backslash at the end of a line: the line break and all white space after it are left out -/
  | skip {nl w x ns} : nl = "\n".toList ∨ nl = "\r\n".toList → LineSkip w → (∀ c, x.head? = some c → c ∉ [' ', '\t', '\n', '\r']) → StrBody byte x ns →
      StrBody byte ('\\' :: (nl ++ w ++ x)) ns

/-- What is between the quotes of a raw string literal with `n` number signs: a quote with `n` number signs does not occur in it, carriage returns only before line feeds. -/
structure RawBody (byte : Bool) (n : Nat) (x : Text) : Prop where
  open_ : ∀ a b, x ≠ a ++ '"' :: (List.replicate n '#' ++ b)
  cr : ∀ a b, x = a ++ '\r' :: b → b.head? = some '\n'
  ascii : byte = true → ∀ c ∈ x, c.toNat < 128

/-- The text of a string literal (`byte`: of a byte string literal), and the code points (bytes) that it stands for.  In a raw string literal everything stands for itself.
There may be a suffix, an identifier. -/
inductive StrLit (byte : Bool) : Text → List Nat → Prop
  | cooked {x ns suf} : StrBody byte x ns → suffixOk suf = true → StrLit byte ((if byte then ['b'] else []) ++ '"' :: (x ++ '"' :: suf)) ns
  | raw {n x suf} : n ≤ 255 → RawBody byte n x → suffixOk suf = true →
      StrLit byte ((if byte then ['b'] else []) ++ 'r' :: (List.replicate n '#' ++ '"' :: (x ++ '"' :: (List.replicate n '#' ++ suf)))) (x.map Char.toNat)

/-- The text of a character literal (`byte`: of a byte literal) and its value: any character other than the backslash, or an escape; there may be a suffix. -/
inductive CharLit (byte : Bool) : Text → Nat → Prop
  | plain {c suf} : c ≠ '\\' → (byte = true → c.toNat < 128) → suffixOk suf = true → CharLit byte ((if byte then ['b'] else []) ++ '\'' :: c :: '\'' :: suf) c.toNat
  | escape {e n suf} : Escape byte e n → suffixOk suf = true → CharLit byte ((if byte then ['b'] else []) ++ '\'' :: (e ++ '\'' :: suf)) n

end Parsel.Spec
