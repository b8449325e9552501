import Verif.Model.Format

/-
EXTERNAL: the lexer of `proc_macro2` 1.0 (`fallback.rs`, `parse.rs`: `TokenStream::from_str`), which `parsel::parse_str`, every `FromStr` impl of /repo and
the test parsel/tests/token_fmt_qc.rs rest on, and `syn::parse_str`.  None of it is defined in /repo.
-/

namespace Parsel

/-- `t` starts with `p`: what follows. -/
def stripPrefix : Text → Text → Option Text
  | [], t => some t
  | _ :: _, [] => none
  | p :: ps, c :: cs => if p = c then stripPrefix ps cs else none

/-- `str::starts_with`. -/
def startsWith (p t : Text) : Bool := (stripPrefix p t).isSome

/-! ### white space and comments -/

/-- `take_until_newline_or_eof`: the text up to the line break (or the end), and the input from there (after a carriage return). -/
def takeLine : Text → Text × Text
  | [] => ([], [])
  | '\n' :: cs => ([], '\n' :: cs)
  | '\r' :: '\n' :: cs => ([], '\n' :: cs)
  | c :: cs => (c :: (takeLine cs).1, (takeLine cs).2)

/-- Loop of `block_comment`: nesting depth, what was read (reversed); the comment and what follows. -/
def blockLoop : Nat → Text → Text → Option (Text × Text)
  | depth, read, '/' :: '*' :: cs => blockLoop (depth + 1) ('*' :: '/' :: read) cs
  | depth, read, '*' :: '/' :: cs => if depth = 1 then some ((('/' :: '*' :: read).reverse), cs) else blockLoop (depth - 1) ('/' :: '*' :: read) cs
  | depth, read, c :: cs => blockLoop depth (c :: read) cs
  | _, _, [] => none

/-- `block_comment`. -/
def blockComment (s : Text) : Option (Text × Text) := if startsWith "/*".toList s then blockLoop 0 [] s else none

/-- `skip_whitespace`: skips white space and comments that are not documentation; every round takes away a character, so the length of the text is
enough fuel. -/
def skipWhiteN : Nat → Text → Text
  | 0, s => s
  | n + 1, s =>
    if startsWith "//".toList s && (!startsWith "///".toList s || startsWith "////".toList s) && !startsWith "//!".toList s then
      skipWhiteN n (takeLine s).2
    else if startsWith "/**/".toList s then skipWhiteN n (s.drop 4)
    else if startsWith "/*".toList s && (!startsWith "/**".toList s || startsWith "/***".toList s) && !startsWith "/*!".toList s then
      match blockComment s with
      | some (_, rest) => skipWhiteN n rest
      | none => s
    else
      match s with
      | c :: cs => if lexWhite c then skipWhiteN n cs else s
      | [] => s

/-- `skip_whitespace`. -/
def skipWhite (s : Text) : Text := skipWhiteN s.length s

/-- `doc_comment_contents`: text of a documentation comment, whether it is an inner one (`//!`), and what follows. -/
def docComment (s : Text) : Option (Text × Bool × Text) :=
  let inner (c : Text) : Text := (c.drop 3).take (c.length - 5)
  if startsWith "//!".toList s then some ((takeLine (s.drop 3)).1, true, (takeLine (s.drop 3)).2)
  else if startsWith "/*!".toList s then (blockComment s).map fun r => (inner r.1, true, r.2)
  else if startsWith "///".toList s then
    if startsWith "/".toList (s.drop 3) then none else some ((takeLine (s.drop 3)).1, false, (takeLine (s.drop 3)).2)
  else if startsWith "/**".toList s && !startsWith "*".toList (s.drop 3) then (blockComment s).map fun r => (inner r.1, false, r.2)
  else none

/-- `scan_for_bare_cr` of `doc_comment`: every carriage return is followed by a line feed. -/
def noBareCr : Text → Bool
  | [] => true
  | '\r' :: cs => startsWith "\n".toList cs && noBareCr cs
  | _ :: cs => noBareCr cs

/-! ### identifiers -/

/-- `ident_not_raw`: the longest identifier at the start. -/
def lexPlainIdent : Text → Option (Text × Text)
  | [] => none
  | c :: cs => if identStart c then some (c :: cs.takeWhile identCont, cs.dropWhile identCont) else none

/-- `ident_any`: also `r#` identifiers, except for the words that cannot be raw. -/
def lexIdentAny (s : Text) : Option (Text × Text) :=
  match stripPrefix "r#".toList s with
  | some s' =>
    (lexPlainIdent s').bind fun r =>
      if r.1 ∈ ["_".toList, "super".toList, "self".toList, "Self".toList, "crate".toList] then none else some ("r#".toList ++ r.1, r.2)
  | none => lexPlainIdent s

/-- `ident`: not where a string or character literal begins. -/
def lexIdent (s : Text) : Option (Text × Text) :=
  if ["r\"", "r#\"", "r##", "b\"", "b'", "br\"", "br#", "c\"", "cr\"", "cr#"].any (fun p => startsWith p.toList s) then none else lexIdentAny s

/-- `literal_suffix`: what follows the suffix. -/
def literalSuffix (s : Text) : Text :=
  match lexPlainIdent s with
  | some r => r.2
  | none => s

/-! ### string literals -/

/-- The three kinds of string literals. -/
inductive StrKind where
  | str | byteStr | cStr
  deriving DecidableEq

/-- State of scanning a cooked string. -/
inductive Scan where
  /-- ordinary text -/
  | plain
  /-- after a carriage return -/
  | cr
  /-- after a backslash -/
  | esc
  /-- after `\x` -/
  | x1
  /-- after `\x` and a digit -/
  | x2 (zero : Bool)
  /-- after `\u` -/
  | uOpen
  /-- in `\u{..}`: number and value of the digits so far -/
  | uni (len value : Nat)
  /-- white space after a backslash and a line break -/
  | skip
  /-- the same after a carriage return -/
  | skipCr

/-- What a character does: `none` = not a literal, `some none` = end of the literal, `some (some m)` = go on. -/
abbrev ScanStep := Option (Option Scan)

/-- Ordinary characters of a cooked string. -/
def plainStep (k : StrKind) (c : Char) : ScanStep :=
  if c = '"' then some none
  else if c = '\r' then some (some .cr)
  else if c = '\\' then some (some .esc)
  else if k = .byteStr ∧ 127 < c.toNat then none
  else if k = .cStr ∧ c = '\x00' then none
  else some (some .plain)

/-- One character of `cooked_string` / `cooked_byte_string` / `cooked_c_string` with `backslash_x_char` / `_byte` / `_nonzero`, `backslash_u`,
`trailing_backslash`. -/
def scanStep (k : StrKind) : Scan → Char → ScanStep
  | .plain, c => plainStep k c
  | .cr, c => if c = '\n' then some (some .plain) else none
  | .esc, c =>
    if c = 'x' then some (some .x1)
    else if c = 'n' ∨ c = 'r' ∨ c = 't' ∨ c = '\\' ∨ c = '\'' ∨ c = '"' then some (some .plain)
    else if c = '0' ∧ k ≠ .cStr then some (some .plain)
    else if c = 'u' ∧ k ≠ .byteStr then some (some .uOpen)
    else if c = '\n' then some (some .skip)
    else if c = '\r' then some (some .skipCr)
    else none
  | .x1, c =>
    if (hexVal c).isSome ∧ (k = .str → '0' ≤ c ∧ c ≤ '7') then some (some (.x2 (decide (c = '0')))) else none
  | .x2 zero, c => if (hexVal c).isSome ∧ ¬ (k = .cStr ∧ zero = true ∧ c = '0') then some (some .plain) else none
  | .uOpen, c => if c = '{' then some (some (.uni 0 0)) else none
  | .uni len value, c =>
    if c = '_' ∧ 0 < len then some (some (.uni len value))
    else if c = '}' ∧ 0 < len then
      if (charOf value).isSome ∧ ¬ (k = .cStr ∧ value = 0) then some (some .plain) else none
    else
      match hexVal c with
      | some h => if len = 6 then none else some (some (.uni (len + 1) (16 * value + h)))
      | none => none
  | .skip, c =>
    if c = ' ' ∨ c = '\t' ∨ c = '\n' then some (some .skip)
    else if c = '\r' then some (some .skipCr)
    else plainStep k c
  | .skipCr, c => if c = '\n' then some (some .skip) else none

/-- The rest of a cooked string; what follows the closing quote. -/
def scanCooked (k : StrKind) : Scan → Text → Option Text
  | _, [] => none
  | m, c :: cs =>
    match scanStep k m c with
    | none => none
    | some none => some cs
    | some (some m') => scanCooked k m' cs

/-- `delimiter_of_raw_string`: number of `#` (at most 255) and what follows the opening quote. -/
def rawOpen : Nat → Text → Option (Nat × Text)
  | n, c :: cs => if c = '"' then (if n ≤ 255 then some (n, cs) else none) else if c = '#' then rawOpen (n + 1) cs else none
  | _, [] => none

/-- `raw_string` / `raw_byte_string` / `raw_c_string` after the opening quote. -/
def scanRaw (k : StrKind) (pounds : Nat) : Text → Option Text
  | [] => none
  | '"' :: cs =>
    match stripPrefix (List.replicate pounds '#') cs with
    | some rest => some rest
    | none => scanRaw k pounds cs
  | '\r' :: '\n' :: cs => scanRaw k pounds cs
  | '\r' :: _ => none
  | c :: cs => if (k = .byteStr ∧ 127 < c.toNat) ∨ (k = .cStr ∧ c = '\x00') then none else scanRaw k pounds cs

/-- A raw string after its `r`. -/
def lexRaw (k : StrKind) (s : Text) : Option Text := (rawOpen 0 s).bind fun r => (scanRaw k r.1 r.2).map literalSuffix

/-- A cooked string after its opening quote. -/
def lexCooked (k : StrKind) (s : Text) : Option Text := (scanCooked k .plain s).map literalSuffix

/-! ### character and byte literals -/

/-- The escape of a character literal, after the backslash. -/
def charEscape : Text → Option Text
  | 'x' :: a :: b :: cs => if '0' ≤ a ∧ a ≤ '7' ∧ (hexVal b).isSome then some cs else none
  | 'u' :: '{' :: cs => uni 0 0 cs
  | c :: cs => if c = 'n' ∨ c = 'r' ∨ c = 't' ∨ c = '\\' ∨ c = '0' ∨ c = '\'' ∨ c = '"' then some cs else none
  | [] => none
where
  /-- The digits of `\u{..}`. -/
  uni (len value : Nat) : Text → Option Text
    | [] => none
    | c :: cs =>
      if c = '_' ∧ 0 < len then uni len value cs
      else if c = '}' ∧ 0 < len then (if (charOf value).isSome then some cs else none)
      else
        match hexVal c with
        | some h => if len = 6 then none else uni (len + 1) (16 * value + h) cs
        | none => none

/-- `character` after the opening quote. -/
def lexChar (s : Text) : Option Text :=
  match s with
  | '\\' :: cs => (charEscape cs).bind close
  | _ :: cs => close cs
  | [] => none
where
  /-- The closing quote and the suffix. -/
  close : Text → Option Text
    | '\'' :: cs => some (literalSuffix cs)
    | _ => none

/-- `byte` after `b'`. -/
def lexByte (s : Text) : Option Text :=
  match s with
  | '\\' :: 'x' :: a :: b :: cs => if (hexVal a).isSome ∧ (hexVal b).isSome then lexChar.close cs else none
  | '\\' :: c :: cs =>
    if c = 'n' ∨ c = 'r' ∨ c = 't' ∨ c = '\\' ∨ c = '0' ∨ c = '\'' ∨ c = '"' then lexChar.close cs else none
  | c :: cs => if 127 < c.toNat then none else lexChar.close cs
  | [] => none

/-! ### numbers -/

/-- The exponent of `float_digits`; `before` is the result if it is not an exponent after all. -/
def floatExp (before : Option Text) : Bool → Bool → Text → Option Text
  | _, value, [] => if value then some [] else before
  | sign, value, c :: cs =>
    if c = '+' ∨ c = '-' then (if value then some (c :: cs) else if sign then before else floatExp before true value cs)
    else if c.isDigit then floatExp before sign true cs
    else if c = '_' then floatExp before sign value cs
    else if value then some (c :: cs) else before

/-- `float_digits` after the first digit; `dot` = a point was read. -/
def floatMain : Bool → Text → Option Text
  | dot, [] => if dot then some [] else none
  | dot, c :: cs =>
    if c.isDigit ∨ c = '_' then floatMain dot cs
    else if c = '.' then
      if dot then some (c :: cs)
      else if cs.head?.any (fun d => d == '.' || identStart d) then none
      else floatMain true cs
    else if c = 'e' ∨ c = 'E' then floatExp (if dot then some (c :: cs) else none) false false cs
    else if dot then some (c :: cs) else none

/-- The suffix of a number and `word_break`. -/
def numberEnd (s : Text) : Option Text :=
  match s with
  | [] => some []
  | c :: cs =>
    if identStart c then some (cs.dropWhile identCont)
    else if identCont c then none
    else some (c :: cs)

/-- `float`. -/
def lexFloat (s : Text) : Option Text :=
  match s with
  | c :: cs => if c.isDigit then (floatMain false cs).bind numberEnd else none
  | [] => none

/-- Loop of `digits`; `empty` = no digit yet. -/
def digitsLoop (base : Nat) : Bool → Text → Option Text
  | empty, [] => if empty then none else some []
  | empty, c :: cs =>
    if c.isDigit then (if base ≤ c.toNat - '0'.toNat then none else digitsLoop base false cs)
    else if (hexVal c).isSome then (if base ≤ 10 then (if empty then none else some (c :: cs)) else digitsLoop base false cs)
    else if c = '_' then (if empty = true ∧ base = 10 then none else digitsLoop base empty cs)
    else if empty then none else some (c :: cs)

/-- `digits`. -/
def lexDigits (s : Text) : Option Text :=
  match s with
  | '0' :: 'x' :: cs => digitsLoop 16 true cs
  | '0' :: 'o' :: cs => digitsLoop 8 true cs
  | '0' :: 'b' :: cs => digitsLoop 2 true cs
  | s => digitsLoop 10 true s

/-- `int`. -/
def lexInt (s : Text) : Option Text := (lexDigits s).bind numberEnd

/-- `literal_nocapture`: what follows the literal at the start of the text.  (The alternatives begin differently, except for the numbers.) -/
def lexLiteral (s : Text) : Option Text :=
  match s with
  | '"' :: cs => lexCooked .str cs
  | 'r' :: cs => lexRaw .str cs
  | 'b' :: '"' :: cs => lexCooked .byteStr cs
  | 'b' :: 'r' :: cs => lexRaw .byteStr cs
  | 'b' :: '\'' :: cs => lexByte cs
  | 'c' :: '"' :: cs => lexCooked .cStr cs
  | 'c' :: 'r' :: cs => lexRaw .cStr cs
  | '\'' :: cs => lexChar cs
  | s => (lexFloat s).orElse fun _ => lexInt s

/-! ### punctuation -/

/-- The characters of `punct_char`. -/
def punctChars : List Char := "~!@#$%^&*-=+|;:,<.>/?'".toList

/-- `punct_char`: not the `/` of a comment. -/
def punctChar (s : Text) : Option (Char × Text) :=
  match s with
  | c :: cs => if startsWith "//".toList s || startsWith "/*".toList s then none else if c ∈ punctChars then some (c, cs) else none
  | [] => none

/-- `punct`: a quote must be that of a lifetime. -/
def lexPunct (s : Text) : Option (Char × Spacing × Text) :=
  (punctChar s).bind fun r =>
    if r.1 = '\'' then
      (lexIdentAny r.2).bind fun i =>
        if startsWith "'".toList i.2 || (startsWith "#".toList i.2 && !startsWith "r#".toList r.2) then none else some (r.1, .joint, r.2)
    else some (r.1, if (punctChar r.2).isSome then .joint else .alone, r.2)

/-! ### tokens -/

/-- A leaf token before its location is known. -/
inductive LexLeaf where
  | lit (repr : Text)
  | punct (c : Char) (spc : Spacing)
  | ident (x : Text)

/-- The token tree of a leaf. -/
def LexLeaf.tree (l : LexLeaf) (sp : Span) : TT :=
  match l with
  | .lit r => .lit r sp
  | .punct c spc => .punct c spc sp
  | .ident x => .ident x sp

/-- The text `(/*ERROR*/)`. -/
def errorText : Text := "(/*ERROR*/)".toList

/-- `leaf_token`: a literal, a punctuation character or an identifier. -/
def lexLeaf (s : Text) : Option (LexLeaf × Text) :=
  match lexLiteral s with
  | some rest => some (.lit (s.take (s.length - rest.length)), rest)
  | none =>
    match lexPunct s with
    | some (c, spc, rest) => some (.punct c spc, rest)
    | none =>
      match lexIdent s with
      | some (x, rest) => some (.ident x, rest)
      | none => (stripPrefix errorText s).map fun rest => (.lit errorText, rest)

/-- The position after reading `t` at `p` (`FileInfo::offset_line_column`: lines and columns are counted in characters). -/
def advancePos (p : LineCol) : Text → LineCol
  | [] => p
  | c :: cs => advancePos (if c = '\n' then ⟨p.line + 1, 0⟩ else ⟨p.line, p.column + 1⟩) cs

/-- The position in `src` where `rest` is left. -/
def posOf (src rest : Text) : LineCol := advancePos ⟨1, 0⟩ (src.take (src.length - rest.length))

/-- `doc_comment`: the attribute `#[doc = ".."]` or `#![doc = ".."]`, all of it at the location of the comment. -/
def docTokens [Ext] (text : Text) (inner : Bool) (sp : Span) : List TT :=
  .punct '#' .alone sp :: ((if inner then [.punct '!' .alone sp] else []) ++
    [.group .bracket [.ident "doc".toList sp, .punct '=' .alone sp, .lit (stringLiteral text) sp] sp])

/-- The opening delimiters. -/
def openDelim (c : Char) : Option Delim :=
  if c = '(' then some .paren else if c = '[' then some .bracket else if c = '{' then some .brace else none

/-- The closing delimiters. -/
def closeDelim (c : Char) : Option Delim :=
  if c = ')' then some .paren else if c = ']' then some .bracket else if c = '}' then some .brace else none

/-- State of `token_stream`: the input, the tokens of the current level, the enclosing levels (where they begin, delimiter, tokens before). -/
structure LexState where
  input : Text
  tokens : List TT
  stack : List (LineCol × Delim × List TT)

/-- One round of `token_stream` on the source text `src`: the next state, or the result (`error`: where it gives up). -/
def lexRound [Ext] (src : Text) (st : LexState) : LexState ⊕ Except LineCol (List TT) :=
  let input := skipWhite st.input
  match (docComment input).filter (fun r => noBareCr r.1) with
  | some (text, inner, rest) => .inl ⟨rest, st.tokens ++ docTokens text inner ⟨posOf src input, posOf src rest⟩, st.stack⟩
  | none =>
    match input with
    | [] =>
      match st.stack with
      | [] => .inr (.ok st.tokens)
      | (lo, _, _) :: _ => .inr (.error lo)
    | c :: cs =>
      match (if startsWith errorText input then none else openDelim c) with
      | some d => .inl ⟨cs, [], (posOf src input, d, st.tokens) :: st.stack⟩
      | none =>
        match closeDelim c with
        | some d =>
          match st.stack with
          | [] => .inr (.error (posOf src input))
          | (lo, d', outer) :: stack =>
            if d = d' then .inl ⟨cs, outer ++ [.group d st.tokens ⟨lo, posOf src cs⟩], stack⟩ else .inr (.error (posOf src input))
        | none =>
          match lexLeaf input with
          | some (l, rest) => .inl ⟨rest, st.tokens ++ [l.tree ⟨posOf src input, posOf src rest⟩], st.stack⟩
          | none => .inr (.error (posOf src input))

/-- The loop of `token_stream`.  Every round takes away a character, so the length of the text plus one is enough fuel. -/
def lexLoop [Ext] (src : Text) : Nat → LexState → Except LineCol (List TT)
  | 0, st => .error (posOf src st.input)
  | n + 1, st =>
    match lexRound src st with
    | .inl st' => lexLoop src n st'
    | .inr r => r

/-- `token_stream` on the source text `src` from where `input` is left; `error` = `LexError`, with the place that its span (an empty one) is at. -/
def lexText [Ext] (src input : Text) : Except LineCol (List TT) := lexLoop src (input.length + 1) ⟨input, [], []⟩

/-- `TokenStream::from_str`: a byte order mark is skipped (it counts for the positions). -/
def lexAll [Ext] (src : Text) : Except LineCol (List TT) :=
  match src with
  | c :: cs => if c.toNat = 0xFEFF then lexText (c :: cs) cs else lexText (c :: cs) (c :: cs)
  | [] => lexText [] []

/-- The tokens of a text, if it is a token stream. -/
def lex [Ext] (src : Text) : Option (List TT) :=
  match lexAll src with
  | .ok ts => some ts
  | .error _ => none

/-- Where the `LexError` of a text that is no token stream is located. -/
def lexErrorSpan [Ext] (src : Text) : Span :=
  match lexAll src with
  | .ok _ => .callSite
  | .error p => ⟨p, p⟩

variable [Ext]

/-- EXTERNAL `syn::parse_str` (re-exported at lib.rs:67); with it the `FromStr` impls of ast.rs (114, 381, 1058, ...) and of `#[derive(FromStr)]`
(parsel_derive/src/from_str.rs:24-32).  `From<LexError> for syn::Error` keeps the
location and the text of the `LexError`. -/
def parseStr {α : Type} (p : Parser α) (src : Text) : Top α :=
  match lex src with
  | some ts => parse2 p ts
  | none => .err ⟨lexErrorSpan src, "cannot parse string into token stream".toList⟩

end Parsel
