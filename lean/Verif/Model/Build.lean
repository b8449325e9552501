import Verif.Model.Grammar
import Verif.Model.Offset

/-! Building and changing nodes by hand: `CustomIdent`, `Word`, delimiters, and the containers as nodes. -/

namespace Parsel

/-! ### identifiers (the value of a `CustomIdent` is its `Ident`: spelling and location) -/

/-- ast.rs:32-34 `ident`, EXTERNAL `Ident::new`: panics (`none`) unless the text is an identifier. -/
def identNew (name : Text) (sp : Span) : Option (Text × Span) := if identOk name then some (name, sp) else none

/-- ast.rs:174-179 `Word::new`; 37-39 `word` is this at the call site. -/
def wordNew (name : Text) (sp : Span) : Option (Text × Span) := identNew name sp

/-- ast.rs:60-62 `CustomIdent::set_span`. -/
def customIdentSetSpan (c : Text × Span) (sp : Span) : Text × Span := (c.1, sp)

/-- ast.rs:69-76 `PartialEq<T: AsRef<str>>`; EXTERNAL: an `Ident` compares with a string by its spelling (including `r#`). -/
def customIdentEqStr (c : Text × Span) (s : Text) : Bool := decide (c.1 = s)

variable [Ext]

/-! ### delimiters -/

/-- ast.rs:985-988 (`Paren`), 1113-1116 (`Bracket`), 1248-1251 (`Brace`) `new`; 1020-1024, 1148-1152, 1283-1287 `From<(token, T)>`. -/
def delimNew (d : Delim) (inner : Val) (sp : Span) : Val := .group d sp inner

/-- ast.rs:1013-1018, 1141-1146, 1276-1281 `From<T: Spanned>`: at the location of the inner node (`none`: `inner.span()` panics, as printing does). -/
def delimFrom (d : Delim) (inner : Val) : Option Val := inner.toTokens.map fun ts => .group d (nodeSpan ts) inner

/-- ast.rs:1007-1010, 1135-1138, 1270-1273 `into_parts`. -/
def delimIntoParts : Val → Option (Delim × Span × Val)
  | .group d sp v => some (d, sp, v)
  | _ => none

/-! ### containers as nodes (see Grammar.lean) -/

/-- `Separated` as a value. -/
def Val.ofSeparated (s : Separated Val Val) : Val := .node .separated (Val.interleave s.inner)
/-- `Punctuated` as a value. -/
def Val.ofPunctuated (s : Punct Val Val) : Val := .node .punctuated (Val.interleave s)
/-- `Any` as a value. -/
def Val.ofAny (a : AnyV Val) : Val := .node .any a.inner

end Parsel
