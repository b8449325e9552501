import Verif.Model.Combinators
import Verif.Model.Derive

/-
Literals: how `syn` reads the text of a literal token (EXTERNAL), how `proc_macro2` writes one (EXTERNAL), and parsel's literal
node types (parsel/src/ast.rs:2338-3250).
-/

namespace Parsel

/-- EXTERNAL a byte. -/
abbrev Byte := Fin 256

/-- EXTERNAL facts of the standard library that are not modelled in detail: non-NaN `f64` values with their reading and
displaying, and which characters `char::escape_debug` writes as `\u{..}`. -/
class Ext where
  /-- `NotNan<f64>` -/
  F : Type
  /-- `<NotNan<f64> as FromStr>::from_str` -/
  floatOf : Text → Option F
  /-- `f64::is_finite` -/
  finite : F → Bool
  /-- `Display for f64` -/
  floatText : F → Text
  /-- `char::escape_debug` uses `\u{..}` for this character (a combining or unprintable one) -/
  unprintable : Char → Bool

/-! ### Reading literal tokens (EXTERNAL `syn::lit::value`) -/

/-- EXTERNAL value of a hexadecimal digit. -/
def hexVal (c : Char) : Option Nat :=
  if '0' ≤ c ∧ c ≤ '9' then some (c.toNat - '0'.toNat)
  else if 'a' ≤ c ∧ c ≤ 'f' then some (c.toNat - 'a'.toNat + 10)
  else if 'A' ≤ c ∧ c ≤ 'F' then some (c.toNat - 'A'.toNat + 10)
  else none

/-- EXTERNAL the escapes `\n \r \t \\ \0 \' \"`: the code after the backslash and what it stands for. -/
def simpleEscape (c : Char) : Option Char :=
  if c = 'n' then some '\n' else if c = 'r' then some '\r' else if c = 't' then some '\t'
  else if c = '\\' then some '\\' else if c = '0' then some '\x00' else if c = '\'' then some '\''
  else if c = '"' then some '"' else none

/-- EXTERNAL `char::from_u32`. -/
def charOf (n : Nat) : Option Char := if h : n.isValidChar then some (Char.ofNatAux n h) else none

/-- State of reading the inside of a cooked literal. -/
inductive CookMode where
  /-- ordinary text -/
  | plain
  /-- after a backslash -/
  | esc
  /-- after `\x` -/
  | hex1
  /-- after `\x` and one digit of the given value -/
  | hex2 (hi : Nat)
  /-- after `\u` -/
  | uniOpen
  /-- inside `\u{`, value so far -/
  | uni (acc : Nat)
  /-- after `\` and a line break: skipping white space -/
  | skip
  /-- after a carriage return in a string: a line feed must follow -/
  | cr

/-- EXTERNAL body of `parse_lit_str_cooked` after the opening quote: value and what follows the closing quote (`none` = panic,
on text that is not a literal). -/
def cookStr : CookMode → Text → Option (Text × Text)
  | _, [] => none
  | .plain, c :: cs =>
    if c = '"' then some ([], cs)
    else if c = '\\' then cookStr .esc cs
    else if c = '\r' then cookStr .cr cs
    else (cookStr .plain cs).map fun r => (c :: r.1, r.2)
  | .cr, c :: cs => if c = '\n' then (cookStr .plain cs).map fun r => ('\n' :: r.1, r.2) else none
  | .esc, c :: cs =>
    if c = 'x' then cookStr .hex1 cs
    else if c = 'u' then cookStr .uniOpen cs
    else if c = '\n' ∨ c = '\r' then cookStr .skip cs
    else (simpleEscape c).bind fun v => (cookStr .plain cs).map fun r => (v :: r.1, r.2)
  | .hex1, c :: cs => (hexVal c).bind fun h => cookStr (.hex2 h) cs
  | .hex2 hi, c :: cs =>
    (hexVal c).bind fun lo =>
      if 16 * hi + lo ≤ 127 then
        (charOf (16 * hi + lo)).bind fun v => (cookStr .plain cs).map fun r => (v :: r.1, r.2)
      else none
  | .uniOpen, c :: cs => if c = '{' then cookStr (.uni 0) cs else none
  | .uni acc, c :: cs =>
    if c = '}' then (charOf acc).bind fun v => (cookStr .plain cs).map fun r => (v :: r.1, r.2)
    else if c = '_' then cookStr (.uni acc) cs
    else (hexVal c).bind fun h => cookStr (.uni (16 * acc + h)) cs
  | .skip, c :: cs =>
    if c = ' ' ∨ c = '\t' ∨ c = '\n' ∨ c = '\r' then cookStr .skip cs
    else if c = '"' then some ([], cs)
    else if c = '\\' then cookStr .esc cs
    else (cookStr .plain cs).map fun r => (c :: r.1, r.2)

/-- EXTERNAL `c as u8` for an ASCII character. -/
def byteOfChar (c : Char) : Option Byte := if h : c.toNat < 256 then some ⟨c.toNat, h⟩ else none

/-- EXTERNAL body of `parse_lit_byte_str_cooked` after the opening quote. -/
def cookBytes : CookMode → Text → Option (List Byte × Text)
  | _, [] => none
  | .plain, c :: cs =>
    if c = '"' then some ([], cs)
    else if c = '\\' then cookBytes .esc cs
    else if c = '\r' then cookBytes .cr cs
    else (byteOfChar c).bind fun b => (cookBytes .plain cs).map fun r => (b :: r.1, r.2)
  | .cr, c :: cs => if c = '\n' then (cookBytes .plain cs).map fun r => (10 :: r.1, r.2) else none
  | .esc, c :: cs =>
    if c = 'x' then cookBytes .hex1 cs
    else if c = '\n' ∨ c = '\r' then cookBytes .skip cs
    else (simpleEscape c).bind fun v => (byteOfChar v).bind fun b => (cookBytes .plain cs).map fun r => (b :: r.1, r.2)
  | .hex1, c :: cs => (hexVal c).bind fun h => cookBytes (.hex2 h) cs
  | .hex2 hi, c :: cs =>
    (hexVal c).bind fun lo => (cookBytes .plain cs).map fun r => (Fin.ofNat 256 (16 * hi + lo) :: r.1, r.2)
  | .uniOpen, _ :: _ => none
  | .uni _, _ :: _ => none
  | .skip, c :: cs =>
    if c = ' ' ∨ c = '\t' ∨ c = '\n' ∨ c = '\r' then cookBytes .skip cs
    else if c = '"' then some ([], cs)
    else if c = '\\' then cookBytes .esc cs
    else (byteOfChar c).bind fun b => (cookBytes .plain cs).map fun r => (b :: r.1, r.2)

/-- EXTERNAL the part of `parse_lit_char` / `parse_lit_byte` between the quotes: one character or escape. -/
def cookOne : Text → Option (Char × Text)
  | '\\' :: 'x' :: a :: b :: cs => (hexVal a).bind fun hi => (hexVal b).bind fun lo => (charOf (16 * hi + lo)).map fun v => (v, cs)
  | '\\' :: 'u' :: '{' :: cs => cookUni 0 cs
  | '\\' :: c :: cs => (simpleEscape c).map fun v => (v, cs)
  | c :: cs => if c = '\\' then none else some (c, cs)
  | [] => none
where
  /-- EXTERNAL the digits of `\u{..}`. -/
  cookUni : Nat → Text → Option (Char × Text)
    | _, [] => none
    | acc, c :: cs =>
      if c = '}' then (charOf acc).map fun v => (v, cs)
      else if c = '_' then cookUni acc cs
      else (hexVal c).bind fun h => cookUni (16 * acc + h) cs

/-- EXTERNAL `parse_lit_str_raw` after `r`: the text between the pounds and quotes (up to the last quote), `none` = panic. -/
def rawBody (s : Text) : Option Text :=
  let pounds := (s.takeWhile (· = '#')).length
  match s.drop pounds with
  | '"' :: inner =>
    let close := inner.length - 1 - (inner.reverse.takeWhile (· ≠ '"')).length
    if '"' ∈ inner ∧ (inner.drop (close + 1)).take pounds = List.replicate pounds '#' then some (inner.take close) else none
  | _ => none

/-- EXTERNAL `syn::ident::xid_ok` on a literal suffix: an identifier. -/
def suffixOk (s : Text) : Bool :=
  match s with
  | [] => true
  | c :: cs => identStart c && cs.all identCont

/-- EXTERNAL inner loop of `parse_lit_int`, after an `e` in base 10: what follows is the exponent of a floating point literal (`seen` = a digit was
read), not the rest of a suffix. -/
def expAhead : Bool → Text → Bool
  | seen, [] => seen
  | seen, c :: cs =>
    if c = '_' then expAhead seen cs
    else if c = '-' ∨ c = '+' then true
    else if c.isDigit then expAhead true cs
    else seen && suffixOk (c :: cs)

/-- EXTERNAL loop of `parse_lit_int` in the given base: accumulated value and whether a digit was seen; stops at the suffix. -/
def intLoop (base : Nat) : Nat → Bool → Text → Option (Nat × Bool × Text)
  | acc, seen, [] => some (acc, seen, [])
  | acc, seen, c :: cs =>
    if c = '_' then intLoop base acc seen cs
    else if base = 10 ∧ (c = '.' ∨ ((c = 'e' ∨ c = 'E') ∧ expAhead false cs = true)) then none
    else if '0' ≤ c ∧ c ≤ '9' then
      if c.toNat - '0'.toNat < base then intLoop base (base * acc + (c.toNat - '0'.toNat)) true cs else none
    else if 10 < base then
      match hexVal c with
      | some h => intLoop base (base * acc + h) true cs
      | none => some (acc, seen, c :: cs)
    else some (acc, seen, c :: cs)

/-- EXTERNAL `parse_lit_int` without sign: base prefix, digits, suffix. -/
def readNat (s : Text) : Option Nat :=
  let go (base : Nat) (body : Text) : Option Nat :=
    match intLoop base 0 false body with
    | some (v, true, suffix) => if suffixOk suffix then some v else none
    | _ => none
  match s with
  | '0' :: 'x' :: body => go 16 body
  | '0' :: 'o' :: body => go 8 body
  | '0' :: 'b' :: body => go 2 body
  | c :: body => if '0' ≤ c ∧ c ≤ '9' then go 10 (c :: body) else none
  | [] => none

/-- EXTERNAL `parse_lit_int`: the base-10 digits (with sign) of an integer literal. -/
def readIntDigits (s : Text) : Option Text :=
  match s with
  | '-' :: body => (readNat body).map fun n => '-' :: natText n
  | body => (readNat body).map natText

/-- Flags of the loop of `parse_lit_float`. -/
structure FloatFlags where
  dot : Bool
  e : Bool
  sign : Bool
  exponent : Bool

/-- EXTERNAL loop of `parse_lit_float`: the digits without underscores and `+`, and the suffix. -/
def floatLoop : FloatFlags → Text → Option (Text × FloatFlags × Text)
  | fl, [] => some ([], fl, [])
  | fl, c :: cs =>
    if c = '_' then floatLoop fl cs
    else if c.isDigit then
      (floatLoop { fl with exponent := fl.exponent || fl.e } cs).map fun r => (c :: r.1, r.2)
    else if c = '.' then
      if fl.e || fl.dot then none
      else (floatLoop { fl with dot := true } cs).map fun r => ('.' :: r.1, r.2)
    else if c = 'e' ∨ c = 'E' then
      match cs.find? (· ≠ '_') with
      | some d =>
        if d = '-' ∨ d = '+' ∨ d.isDigit then
          if fl.e then (if fl.exponent then some ([], fl, c :: cs) else none)
          else (floatLoop { fl with e := true } cs).map fun r => ('e' :: r.1, r.2)
        else some ([], fl, c :: cs)
      | none => some ([], fl, c :: cs)
    else if c = '-' ∨ c = '+' then
      if fl.sign || fl.exponent || !fl.e then none
      else if c = '-' then (floatLoop { fl with sign := true } cs).map fun r => ('-' :: r.1, r.2)
      else floatLoop { fl with sign := true } cs
    else some ([], fl, c :: cs)

/-- EXTERNAL `parse_lit_float`: the digits handed to the float parser of the standard library. -/
def readFloatDigits (s : Text) : Option Text :=
  let go (body : Text) : Option Text :=
    match body with
    | c :: _ =>
      if c.isDigit then
        match floatLoop ⟨false, false, false, false⟩ body with
        | some (digits, fl, suffix) => if (fl.e && !fl.exponent) || !suffixOk suffix then none else some digits
        | none => none
      else none
    | [] => none
  match s with
  | '-' :: body => (go body).map ('-' :: ·)
  | body => go body

/-- EXTERNAL `syn::Lit` except for booleans: kind and contents. -/
inductive SynLit where
  | str (v : Text)
  | byteStr (v : List Byte)
  | cstr
  | byte (v : Byte)
  | char (v : Char)
  | int (digits : Text)
  | float (digits : Text)
  | verbatim
  deriving DecidableEq

/-- EXTERNAL `syn::Lit::new`: reading the text of a literal token (`none` = panic, for text that is not a literal). -/
def readLit (repr : Text) : Option SynLit :=
  match repr with
  | '"' :: cs => (cookStr .plain cs).map fun r => .str r.1
  | 'r' :: cs => (rawBody cs).map .str
  | 'b' :: '"' :: cs => (cookBytes .plain cs).map fun r => .byteStr r.1
  | 'b' :: 'r' :: cs => (rawBody cs).bind fun t => (t.mapM byteOfChar).map .byteStr
  | 'b' :: '\'' :: cs => (cookOne cs).bind fun r => if r.2.head? = some '\'' then (byteOfChar r.1).map .byte else none
  | 'c' :: _ => some .cstr
  | '\'' :: cs => (cookOne cs).bind fun r => if r.2.head? = some '\'' then some (.char r.1) else none
  | _ =>
    if repr = "(/*ERROR*/)".toList then some .verbatim
    else
      match readIntDigits repr with
      | some d => some (.int d)
      | none => (readFloatDigits repr).map .float

/-- EXTERNAL value of `syn::Lit` as parsed from a stream. -/
inductive SynTok where
  | bool (v : Bool)
  | lit (l : SynLit)

/-- EXTERNAL `impl Parse for syn::Lit`: a literal token, `true`/`false`, or `-` followed by a number. -/
def synLitParse : Parser (SynTok × Span) := fun s =>
  match uncons s.cur with
  | some (.lit repr sp, rest) =>
    match readLit repr with
    | some l => .ok (.lit l, sp) { s with cur := rest }
    | none => .panic
  | some (.ident x sp, rest) =>
    if x = "true".toList then .ok (.bool true, sp) { s with cur := rest }
    else if x = "false".toList then .ok (.bool false, sp) { s with cur := rest }
    else .err (s.error "expected literal".toList)
  | some (.punct '-' _ sp, rest) =>
    match uncons rest with
    | some (.lit repr sp2, rest2) =>
      match readIntDigits ('-' :: repr) with
      | some d => .ok (.lit (.int d), sp.join sp2) { s with cur := rest2 }
      | none =>
        match readFloatDigits ('-' :: repr) with
        | some d => .ok (.lit (.float d), sp.join sp2) { s with cur := rest2 }
        | none => .err (s.error "expected literal".toList)
    | _ => .err (s.error "expected literal".toList)
  | _ => .err (s.error "expected literal".toList)

/-- EXTERNAL `impl Parse for syn::LitBool / LitByte / ...`: a `syn::Lit` of one kind, otherwise an error at the start. -/
def synKindParse {α : Type} (msg : Text) (pick : SynTok → Option α) : Parser (α × Span) := fun s =>
  match synLitParse s with
  | .ok (l, sp) s' =>
    match pick l with
    | some a => .ok (a, sp) s'
    | none => .err (s.error msg)
  | .err _ => .err (s.error msg)
  | .panic => .panic
  | .oof => .oof

/-! ### Numbers -/

/-- Outcome of the standard library's integer parser. -/
inductive ParseInt (α : Type) where
  | ok (v : α)
  | error (msg : Text)
  deriving DecidableEq

/-- EXTERNAL digit loop of `u64::from_str` / `i64::from_str`: every step is checked against the bound `hi` (`lo` below zero). -/
def checkedDigits (lo hi : Int) (neg : Bool) : Int → Text → ParseInt Int
  | acc, [] => .ok acc
  | acc, c :: cs =>
    if c.isDigit then
      let d : Int := ((c.toNat - '0'.toNat : Nat) : Int)
      let m := acc * 10
      if m < lo ∨ hi < m then .error (if neg then "number too small to fit in target type".toList
        else "number too large to fit in target type".toList)
      else
        let v := if neg then m - d else m + d
        if v < lo ∨ hi < v then .error (if neg then "number too small to fit in target type".toList
          else "number too large to fit in target type".toList)
        else checkedDigits lo hi neg v cs
    else .error "invalid digit found in string".toList

/-- EXTERNAL `<i64 as FromStr>::from_str` on the digits of an integer literal (never empty, no `+`). -/
def parseI64 (s : Text) : ParseInt Int :=
  match s with
  | '-' :: ds => checkedDigits (-9223372036854775808) 9223372036854775807 true 0 ds
  | ds => checkedDigits (-9223372036854775808) 9223372036854775807 false 0 ds

/-- EXTERNAL `<u64 as FromStr>::from_str`. -/
def parseU64 (s : Text) : ParseInt Int := checkedDigits 0 18446744073709551615 false 0 s

/-! ### parsel's literal nodes -/

/-- ast.rs:2462-2471 the raw values of the literal types, and the variants of `Lit` (2980-2989). -/
inductive LitVal [Ext] where
  | bool (v : Bool)
  | byte (v : Byte)
  | int (v : Int)
  | uint (v : Nat)
  | float (v : Ext.F)
  | char (v : Char)
  | str (v : Text)
  | byteStr (v : List Byte)

variable [Ext]

/-- ast.rs:2613-2622 `TryFrom<syn::LitInt> for LitInt` (via `base10_parse`). -/
def litIntOf (digits : Text) (sp : Span) : Except Err Int :=
  match parseI64 digits with
  | .ok v => .ok v
  | .error m => .error ⟨sp, m⟩

/-- ast.rs:2630-2638 `TryFrom<syn::LitInt> for LitUint`. -/
def litUintOf (digits : Text) (sp : Span) : Except Err Nat :=
  match parseU64 digits with
  | .ok v => .ok v.toNat
  | .error m => .error ⟨sp, m⟩

/-- ast.rs:2646-2654 `TryFrom<syn::LitFloat> for LitFloat`. -/
def litFloatOf (digits : Text) (sp : Span) : Except Err Ext.F :=
  match Ext.floatOf digits with
  | some v => .ok v
  | none => .error ⟨sp, "invalid float literal".toList⟩

/-- `Result::and_then` on a parsed value. -/
def Res.andThen {α β : Type} (r : Res (α × Span)) (f : α → Span → Except Err β) : Res (β × Span) :=
  r.bind fun a s =>
    match f a.1 a.2 with
    | .ok b => .ok (b, a.2) s
    | .error e => .err e

/-- ast.rs:2858-2862 `impl Parse for LitBool`. -/
def litBoolParse : Parser (Bool × Span) :=
  synKindParse "expected boolean literal".toList fun
    | .bool b => some b
    | .lit _ => none

/-- ast.rs:2864-2868 `impl Parse for LitByte`. -/
def litByteParse : Parser (Byte × Span) :=
  synKindParse "expected byte literal".toList fun
    | .lit (.byte b) => some b
    | _ => none

/-- EXTERNAL `impl Parse for syn::LitInt`. -/
def synIntParse : Parser (Text × Span) :=
  synKindParse "expected integer literal".toList fun
    | .lit (.int d) => some d
    | _ => none

/-- ast.rs:2870-2874 `impl Parse for LitInt`. -/
def litIntParse : Parser (Int × Span) := fun s => (synIntParse s).andThen litIntOf

/-- ast.rs:2876-2880 `impl Parse for LitUint`. -/
def litUintParse : Parser (Nat × Span) := fun s => (synIntParse s).andThen litUintOf

/-- ast.rs:2882-2886 `impl Parse for LitFloat`. -/
def litFloatParse : Parser (Ext.F × Span) := fun s =>
  (synKindParse "expected floating point literal".toList (fun
    | .lit (.float d) => some d
    | _ => none) s).andThen litFloatOf

/-- ast.rs:2888-2892 `impl Parse for LitChar`. -/
def litCharParse : Parser (Char × Span) :=
  synKindParse "expected character literal".toList fun
    | .lit (.char c) => some c
    | _ => none

/-- ast.rs:2894-2898 `impl Parse for LitStr`. -/
def litStrParse : Parser (Text × Span) :=
  synKindParse "expected string literal".toList fun
    | .lit (.str t) => some t
    | _ => none

/-- ast.rs:2900-2904 `impl Parse for LitByteStr`. -/
def litByteStrParse : Parser (List Byte × Span) :=
  synKindParse "expected byte string literal".toList fun
    | .lit (.byteStr t) => some t
    | _ => none

/-- ast.rs:3165-3190 `TryFrom<syn::Lit> for Lit`. (The text of the two error messages is abbreviated.) -/
def litTryFrom (l : SynTok) (sp : Span) : Except Err LitVal :=
  match l with
  | .bool b => .ok (.bool b)
  | .lit (.byte b) => .ok (.byte b)
  | .lit (.int d) =>
    if d.head? = some '-' then (litIntOf d sp).map .int else (litUintOf d sp).map .uint
  | .lit (.float d) => (litFloatOf d sp).map .float
  | .lit (.char c) => .ok (.char c)
  | .lit (.str t) => .ok (.str t)
  | .lit (.byteStr t) => .ok (.byteStr t)
  | .lit .verbatim => .error ⟨sp, "unparseable literal".toList⟩
  | .lit .cstr => .error ⟨sp, "unhandled literal".toList⟩

/-- ast.rs:3231-3235 `impl Parse for Lit`. -/
def litParse : Parser (LitVal × Span) := fun s => (synLitParse s).andThen litTryFrom

/-! ### Writing literal tokens -/

/-- EXTERNAL lower-case hexadecimal digits without leading zeros. -/
def hexText (n : Nat) : Text := Nat.toDigits 16 n

/-- EXTERNAL `char::escape_debug`. -/
def escapeDebug (c : Char) : Text :=
  if c = '\x00' then "\\0".toList
  else if c = '\t' then "\\t".toList
  else if c = '\r' then "\\r".toList
  else if c = '\n' then "\\n".toList
  else if c = '\'' then "\\'".toList
  else if c = '"' then "\\\"".toList
  else if c = '\\' then "\\\\".toList
  else if Ext.unprintable c then "\\u{".toList ++ hexText c.toNat ++ "}".toList
  else [c]

/-- EXTERNAL one character of `escape_utf8` of `proc_macro2`; `next` is the character after it. -/
def escapeUtf8Char (c : Char) (next : Option Char) : Text :=
  if c = '\x00' then
    (match next with
      | some d => if '0' ≤ d ∧ d ≤ '7' then "\\x00".toList else "\\0".toList
      | none => "\\0".toList)
  else if c = '\'' then [c]
  else escapeDebug c

/-- EXTERNAL `escape_utf8` of `proc_macro2`. -/
def escapeUtf8 : Text → Text
  | [] => []
  | c :: cs => escapeUtf8Char c cs.head? ++ escapeUtf8 cs

/-- EXTERNAL `Literal::string`. -/
def stringLiteral (t : Text) : Text := '"' :: (escapeUtf8 t ++ ['"'])

/-- EXTERNAL `Literal::character`. -/
def charLiteral (c : Char) : Text := '\'' :: ((if c = '"' then [c] else escapeDebug c) ++ ['\''])

/-- EXTERNAL upper-case hexadecimal digit. -/
def hexUpper (n : Nat) : Char := if n < 10 then Char.ofNat ('0'.toNat + n) else Char.ofNat ('A'.toNat + (n - 10))

/-- EXTERNAL lower-case hexadecimal digit. -/
def hexLower (n : Nat) : Char := if n < 10 then Char.ofNat ('0'.toNat + n) else Char.ofNat ('a'.toNat + (n - 10))

/-- EXTERNAL one byte of `Literal::byte_string`; `next` is the byte after it. -/
def escapeByte (b : Byte) (next : Option Byte) : Text :=
  if b.val = 0 then
    (match next with
      | some d => if 48 ≤ d.val ∧ d.val ≤ 55 then "\\x00".toList else "\\0".toList
      | none => "\\0".toList)
  else if b.val = 9 then "\\t".toList
  else if b.val = 10 then "\\n".toList
  else if b.val = 13 then "\\r".toList
  else if b.val = 34 then "\\\"".toList
  else if b.val = 92 then "\\\\".toList
  else if 32 ≤ b.val ∧ b.val ≤ 126 then [Char.ofNat b.val]
  else ['\\', 'x', hexUpper (b.val / 16), hexUpper (b.val % 16)]

/-- EXTERNAL loop of `Literal::byte_string`. -/
def escapeBytes : List Byte → Text
  | [] => []
  | b :: bs => escapeByte b bs.head? ++ escapeBytes bs

/-- EXTERNAL `Literal::byte_string`. -/
def byteStringLiteral (bs : List Byte) : Text := 'b' :: '"' :: (escapeBytes bs ++ ['"'])

/-- EXTERNAL `core::ascii::escape_default`. -/
def asciiEscapeDefault (b : Byte) : Text :=
  if b.val = 9 then "\\t".toList
  else if b.val = 13 then "\\r".toList
  else if b.val = 10 then "\\n".toList
  else if b.val = 39 then "\\'".toList
  else if b.val = 34 then "\\\"".toList
  else if b.val = 92 then "\\\\".toList
  else if 32 ≤ b.val ∧ b.val ≤ 126 then [Char.ofNat b.val]
  else ['\\', 'x', hexLower (b.val / 16), hexLower (b.val % 16)]

/-- ast.rs:2515-2533 the text that `LitByte::token` writes through its 8-byte buffer; `none` = panic: the text does not fit
(`expect` at 2522), or is not a literal (`expect` at 2529). -/
def litByteRepr (b : Byte) : Option Text :=
  let repr := "b'".toList ++ asciiEscapeDefault b ++ "'".toList
  if (repr.map Char.utf8Size).sum ≤ 8 then (readLit repr).map fun _ => repr else none

/-- EXTERNAL `Literal::i64_unsuffixed`. -/
def intLiteral (v : Int) : Text :=
  match v with
  | .ofNat n => natText n
  | .negSucc n => '-' :: natText (n + 1)

/-- EXTERNAL `Literal::f64_unsuffixed`: asserts that the number is finite (`none` = panic). -/
def floatLiteral (x : Ext.F) : Option Text :=
  if Ext.finite x then
    some (if (Ext.floatText x).contains '.' then Ext.floatText x else Ext.floatText x ++ ".0".toList)
  else none

/-- EXTERNAL pushing a literal into a `TokenStream` (`push_token_from_proc_macro`): a negative number becomes a `-` and the
absolute value, both with the whole span. -/
def pushLiteral (repr : Text) (sp : Span) : List TT :=
  match repr with
  | '-' :: body => [.punct '-' .alone sp, .lit body sp]
  | _ => [.lit repr sp]

/-- ast.rs:2475-2478 (`LitBool::token`), 2515 (`LitByte`), 2536 (`LitInt`), 2544 (`LitUint`), 2552 (`LitFloat`), 2560 (`LitChar`),
2568 (`LitStr`), 2576 (`LitByteStr`) with `impl ToTokens` (2453-2457), and `impl ToTokens for Lit` (3237-3250).  `none` = panic. -/
def litToTokens (l : LitVal) (sp : Span) : Option (List TT) :=
  match l with
  | .bool b => some [.ident (if b then "true".toList else "false".toList) sp]
  | .byte b => (litByteRepr b).map fun r => pushLiteral r sp
  | .int v => some (pushLiteral (intLiteral v) sp)
  | .uint v => some (pushLiteral (natText v) sp)
  | .float x => (floatLiteral x).map fun r => pushLiteral r sp
  | .char c => some (pushLiteral (charLiteral c) sp)
  | .str t => some (pushLiteral (stringLiteral t) sp)
  | .byteStr t => some (pushLiteral (byteStringLiteral t) sp)

end Parsel
