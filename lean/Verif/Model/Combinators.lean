import Verif.Model.Stream
import Verif.Model.Containers

/-
The `Parse` implementations of the helper types of parsel/src/ast.rs and the runtime helpers of
parsel/src/util.rs used by derived code.  They are polymorphic in the parsers of their type parameters, like the Rust
generics.  A Rust `loop` takes its number of rounds as a fuel argument; running out of it is `Res.oof`.
-/

namespace Parsel

/-- A call that may panic (`none`), at stream position `s`. -/
def Res.ofOption {α : Type} (o : Option α) (s : PState) : Res α :=
  match o with
  | some a => .ok a s
  | none => .panic

/-- EXTERNAL `core::cmp::max_by_key(v1, v2, f)`: the second argument unless the first one is strictly greater. -/
def maxByEnd (e1 e2 : Err) : Err := if e2.span.stop.lt e1.span.stop then e1 else e2

/-! ### Leaves -/

/-- ast.rs:443-445 `impl Parse for Empty`. -/
def emptyParse : Parser Unit := fun s => .ok () s

/-- ast.rs:526-532 `impl Parse for Eof`. -/
def eofParse : Parser Unit := fun s =>
  if s.isEmpty then .ok () s
  else .err (s.error "expected end of input or group, found garbage".toList)

/-- ast.rs:614-620 `impl Parse for NotEof`. -/
def notEofParse : Parser Unit := fun s =>
  if s.isEmpty then .err (s.error "unexpected end of input".toList) else .ok () s

/-- ast.rs:90-99 `TryFrom<Ident> for CustomIdent<K>`; `kws` is `K::KEYWORDS`.  An `Ident` compares with a string by its full
spelling. -/
def customIdentTryFrom (kws : List Text) (id : Text × Span) : Except Err (Text × Span) :=
  if kws.any (fun kw => decide (id.1 = kw)) then
    .error ⟨id.2, "expected identifier, found keyword".toList⟩
  else .ok id

/-- ast.rs:129-131 `impl Parse for CustomIdent<K>`. -/
def customIdentParse (kws : List Text) : Parser (Text × Span) := fun s =>
  (parseAnyIdent s).bind fun id s' =>
    match customIdentTryFrom kws id with
    | .ok v => .ok v s'
    | .error e => .err e

/-- ast.rs:145-147, 168 `Word = CustomIdent<AllowAll>` with an empty keyword list. -/
def wordParse : Parser (Text × Span) := customIdentParse []

/-- ast.rs:390-403 `Parse` for a keyword type generated by `define_keywords!`. -/
def keywordParse (kw : Text) : Parser Span := fun s =>
  (parseAnyIdent s).bind fun id s' =>
    if id.1 = kw then .ok id.2 s'
    else .err ⟨id.2, "expected keyword `".toList ++ kw ++ "`".toList⟩

/-- A `define_keywords!` block (ast.rs:265-268): the named keywords and whether the `_` entry is present. -/
structure KeywordBlock where
  kws : List Text
  underscore : Bool

/-- ast.rs:277-284 the generated `KEYWORDS` list. -/
def KeywordBlock.keywords (b : KeywordBlock) : List Text :=
  b.kws ++ (if b.underscore then ["_".toList] else [])

/-- ast.rs:270-271 the spellings for which keyword types are generated. -/
def KeywordBlock.types (b : KeywordBlock) : List Text :=
  b.kws.map id ++ (if b.underscore then ["_".toList] else [])

/-! ### Combinators -/

variable {α β P T L R O : Type}

/-- ast.rs:920-938 `impl Parse for Maybe<P, T>`. -/
def maybeParse (p : Parser P) (t : Parser T) : Parser (Maybe P T) := fun s =>
  match p s.fork with
  | .ok prefix_ f => (t (s.advanceTo f)).bind fun inner s' => .ok ⟨some (prefix_, inner)⟩ s'
  | .err _ => .ok Maybe.new s
  | .panic => .panic
  | .oof => .oof

/-- ast.rs:1067-1073 `impl Parse for Paren<T>`. -/
def parenParse (p : Parser T) : Parser (Span × T) := delimited .paren p
/-- ast.rs:1195-1201 `impl Parse for Bracket<T>`. -/
def bracketParse (p : Parser T) : Parser (Span × T) := delimited .bracket p
/-- ast.rs:1330-1336 `impl Parse for Brace<T>`. -/
def braceParse (p : Parser T) : Parser (Span × T) := delimited .brace p

/-- ast.rs:1076-1080, 1204-1208, 1339-1343 `impl ToTokens` for `Paren`, `Bracket`, `Brace` (`syn::token::*::surround`): one group
with the node's span around the inner tokens. -/
def delimToTokens (d : Delim) (sp : Span) (inner : List TT) : List TT := [.group d inner sp]

/-- EXTERNAL the loop of `syn::punctuated::Punctuated::parse_terminated_with` (called at ast.rs:1593). -/
def terminatedLoop (t : Parser T) (p : Parser P) : Nat → Punct T P → Parser (Punct T P)
  | 0, _, _ => .oof
  | n + 1, acc, s =>
    if s.isEmpty then .ok acc s
    else
      (t s).bind fun v s1 =>
        (Res.ofOption (acc.pushValue v) s1).bind fun acc1 s1 =>
          if s1.isEmpty then .ok acc1 s1
          else
            (p s1).bind fun q s2 =>
              (Res.ofOption (acc1.pushPunct q) s2).bind fun acc2 s2 => terminatedLoop t p n acc2 s2

/-- ast.rs:1592-1595 `impl Parse for Punctuated<T, P>`. -/
def punctuatedParse (fuel : Nat) (t : Parser T) (p : Parser P) : Parser (Punct T P) :=
  terminatedLoop t p fuel Punct.empty

/-- ast.rs:1648 `Many<T> = Punctuated<T, NotEof>`. -/
def manyParse (fuel : Nat) (t : Parser T) : Parser (Punct T Unit) := punctuatedParse fuel t notEofParse

/-- ast.rs:2012-2024 the loop of `impl Parse for Separated<T, P>`. -/
def separatedLoop (t : Parser T) (p : Parser P) : Nat → Punct T P → Parser (Punct T P)
  | 0, _, _ => .oof
  | n + 1, acc, s =>
    match p s.fork with
    | .ok punct f =>
      (t (s.advanceTo f)).bind fun value s1 =>
        (Res.ofOption (acc.pushPunct punct) s1).bind fun acc1 s1 =>
          (Res.ofOption (acc1.pushValue value) s1).bind fun acc2 s1 => separatedLoop t p n acc2 s1
    | .err _ => .ok acc s
    | .panic => .panic
    | .oof => .oof

/-- ast.rs:2006-2027 `impl Parse for Separated<T, P>`. -/
def separatedParse (fuel : Nat) (t : Parser T) (p : Parser P) : Parser (Separated T P) := fun s =>
  (t s).bind fun head s1 =>
    (Res.ofOption (Punct.empty.pushValue head) s1).bind fun acc s1 =>
      (separatedLoop t p fuel acc s1).map Separated.mk

/-- ast.rs:2314-2323 the loop of `impl Parse for Any<T>`. -/
def anyLoop (t : Parser T) : Nat → List T → Parser (List T)
  | 0, _, _ => .oof
  | n + 1, acc, s =>
    match t s.fork with
    | .ok item f => anyLoop t n (acc ++ [item]) (s.advanceTo f)
    | .err _ => .ok acc s
    | .panic => .panic
    | .oof => .oof

/-- ast.rs:2311-2326 `impl Parse for Any<T>`. -/
def anyParse (fuel : Nat) (t : Parser T) : Parser (AnyV T) := fun s =>
  (anyLoop t fuel [] s).map AnyV.mk

/-- ast.rs:3428-3445 `impl Parse for LeftAssoc<O, R>`. -/
def leftAssocParse (fuel : Nat) (o : Parser O) (r : Parser R) : Parser (LeftAssoc O R) := fun s =>
  (separatedParse fuel r o s).bind fun seq s' => Res.ofOption (leftAssocOf seq) s'

/-- ast.rs:3621-3638 `impl Parse for RightAssoc<O, L>`. -/
def rightAssocParse (fuel : Nat) (o : Parser O) (l : Parser L) : Parser (RightAssoc O L) := fun s =>
  (separatedParse fuel l o s).bind fun seq s' => Res.ofOption (rightAssocOf seq) s'

/-- ast.rs:3960-3980 `impl Parse for Either<L, R>`. -/
def eitherParse (l : Parser L) (r : Parser R) : Parser (Either L R) := fun s =>
  match l s.fork with
  | .ok left f => .ok (.left left) (s.advanceTo f)
  | .panic => .panic
  | .oof => .oof
  | .err leftError =>
    match r s.fork with
    | .ok right f => .ok (.right right) (s.advanceTo f)
    | .panic => .panic
    | .oof => .oof
    | .err rightError => .err (maxByEnd leftError rightError)

/-! ### Runtime helpers of derived code -/

/-- util.rs:294-317 `chain_error`. -/
def chainError (cause : Err) (enum_ ctor field : Text) : Err :=
  ⟨cause.span,
    if enum_.isEmpty then
      "error parsing ".toList ++ ctor ++ "::".toList ++ field ++ ", caused by:\n".toList ++ cause.msg
    else
      "error parsing ".toList ++ enum_ ++ "::".toList ++ ctor ++ "::".toList ++ field
        ++ ", caused by:\n".toList ++ cause.msg⟩

/-- util.rs:331-354 `try_parse_variant`. -/
def tryParseVariant (s : PState) (errorAcc : Option Err) (parser : Parser T) : Res T :=
  match parser s.fork with
  | .ok value f => .ok value (s.advanceTo f)
  | .err error =>
    .err (match errorAcc with
      | some acc => maxByEnd acc error
      | none => error)
  | .panic => .panic
  | .oof => .oof

end Parsel
