import Verif.Model.Derive

/-
Locating nodes in the source text: parsel/src/util.rs:101-287.
-/

namespace Parsel

/-- EXTERNAL `str::len`: length in bytes of the UTF-8 encoding. -/
def utf8Len (t : Text) : Nat := (t.map Char.utf8Size).sum

/-- EXTERNAL `str::split_inclusive('\n')`: the lines, each with its terminating line feed if it has one; `line` is the part of
the current line already read. -/
def splitLinesAux (line : Text) : Text → List Text
  | [] => if line.isEmpty then [] else [line]
  | c :: cs => if c = '\n' then (line ++ [c]) :: splitLinesAux [] cs else splitLinesAux (line ++ [c]) cs

/-- EXTERNAL `str::split_inclusive('\n')`. -/
def splitLines (source : Text) : List Text := splitLinesAux [] source

/-- EXTERNAL `line.char_indices().nth(n)`, only the byte index. -/
def charIndexNth (line : Text) (n : Nat) : Option Nat :=
  if n < line.length then some (utf8Len (line.take n)) else none

/-- util.rs:188-207 `byte_offset`. -/
def byteOffset (source : Text) (loc : LineCol) : Nat :=
  let lines := splitLines source
  let lineOffset := ((lines.take (loc.line - 1)).map utf8Len).sum
  let charOffset :=
    match lines[loc.line - 1]? with
    | none => 0
    | some line => (charIndexNth line loc.column).getD (utf8Len line)
  lineOffset + charOffset

/-- util.rs:211-226 `char_offset`. -/
def charOffset (source : Text) (loc : LineCol) : Nat :=
  (((splitLines source).take (loc.line - 1)).flatMap id).length + loc.column

/-- util.rs:136-142 `SpannedExt::byte_range` of a node with span `sp`. -/
def byteRange (source : Text) (sp : Span) : Nat × Nat := (byteOffset source sp.start, byteOffset source sp.stop)

/-- util.rs:168-174 `SpannedExt::char_range`. -/
def charRange (source : Text) (sp : Span) : Nat × Nat := (charOffset source sp.start, charOffset source sp.stop)

/-- EXTERNAL `str::split_at_checked`: `none` if the byte index is beyond the text or not on a character boundary. -/
def splitAtByte : Text → Nat → Option (Text × Text)
  | t, 0 => some ([], t)
  | [], _ + 1 => none
  | c :: cs, n + 1 =>
    if c.utf8Size ≤ n + 1 then (splitAtByte cs (n + 1 - c.utf8Size)).map fun r => (c :: r.1, r.2) else none

/-- EXTERNAL indexing of `str` by a byte range: `none` = panic. -/
def sliceBytes (source : Text) (r : Nat × Nat) : Option Text :=
  if r.1 ≤ r.2 then
    (splitAtByte source r.2).bind fun a => (splitAtByte a.1 r.1).map Prod.snd
  else none

/-- util.rs:108-110 `SpannedExt::source_substring`; `none` = panic. -/
def sourceSubstring (source : Text) (sp : Span) : Option Text := sliceBytes source (byteRange source sp)

/-- util.rs:276-287 `Display for SpanDisplay`; 104-106 `format_span`. -/
def spanDisplay (sp : Span) : Text :=
  natText sp.start.line ++ ":".toList ++ natText (sp.start.column + 1) ++ "..".toList ++
    natText sp.stop.line ++ ":".toList ++ natText sp.stop.column

/-- EXTERNAL `Spanned::span` of syn (util.rs:177-184) for a node printing as the tokens `ts`: the first token's span joined with
the last one's; the call site if there is none. -/
def nodeSpan : List TT → Span
  | [] => .callSite
  | t :: ts => t.span.join ((t :: ts).getLast (by simp)).span

end Parsel
