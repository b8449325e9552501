import Verif.Model.Literal

/-
Whole grammars: type expressions built from the crate's helper types and user types with derived `Parse` / `ToTokens`,
their values, the interpreter obtained by tying the knot between the generic implementations (Combinators.lean, Literal.lean) and the
generated code (Derive.lean), and printing.
-/

namespace Parsel

/-- The literal node types (ast.rs:2462-2471) and `Lit` (2980). -/
inductive LitKind where
  | bool | byte | int | uint | float | char | str | byteStr | any
  deriving DecidableEq

/-- Node types without type parameters. -/
inductive Leaf where
  /-- `Empty` (ast.rs:443) -/
  | empty
  /-- `Eof` (ast.rs:526) -/
  | eof
  /-- `NotEof` (ast.rs:614) -/
  | notEof
  /-- `CustomIdent<K>` with `K::KEYWORDS = kws` (ast.rs:129); `Word` is `customIdent []` -/
  | customIdent (kws : List Text)
  /-- `syn::Ident` (re-exported ast.rs:27) -/
  | rustIdent
  /-- a keyword type of `define_keywords!` (ast.rs:264-412) -/
  | keyword (kw : Text)
  /-- EXTERNAL keyword tokens `Token![fn]` of syn -/
  | kwToken (kw : Text)
  /-- EXTERNAL punctuation tokens `Token![+]` of syn -/
  | punct (tok : Text)
  /-- literals -/
  | lit (k : LitKind)
  deriving DecidableEq

/-- Types of AST nodes. `Many<T>` is `punctuated T (leaf notEof)` (ast.rs:1648). -/
inductive Ty where
  | leaf (l : Leaf)
  /-- a user-defined type deriving `Parse` and `ToTokens` -/
  | named (name : Text)
  /-- `Box<T>`, whose impls (EXTERNAL, syn/quote) delegate to `T` -/
  | boxed (t : Ty)
  /-- `Maybe<P, T>` -/
  | maybe (p t : Ty)
  /-- `Paren<T>`, `Bracket<T>`, `Brace<T>` -/
  | paren (t : Ty)
  | bracket (t : Ty)
  | brace (t : Ty)
  /-- `Punctuated<T, P>` -/
  | punctuated (t p : Ty)
  /-- `Separated<T, P>` -/
  | separated (t p : Ty)
  /-- `Any<T>` -/
  | any (t : Ty)
  /-- `LeftAssoc<O, R>` -/
  | leftAssoc (o r : Ty)
  /-- `RightAssoc<O, L>` -/
  | rightAssoc (o l : Ty)
  /-- `Either<L, R>` -/
  | either (l r : Ty)
  deriving DecidableEq

/-- Definition of a user type: a struct or an enum (unions are rejected by the derives, C09). -/
inductive TypeDef where
  | struct (fields : Fields Ty)
  | enum (variants : List (VariantDef Ty))

/-- All user types of a program, by name. -/
abbrev Env := Text → TypeDef

/-- The item that the derives see. -/
def TypeDef.item (name : Text) : TypeDef → DeriveInput Ty Unit
  | .struct fields => ⟨name, .struct fields, []⟩
  | .enum variants => ⟨name, .enum variants, []⟩

/-- The code that `#[derive(Parse)]` generates for the user type `name` (Derive.lean, `expandParseBody`, which cannot fail here). -/
def Env.code (env : Env) (name : Text) : ParseCode Ty :=
  match expandParseBody ((env name).item name) with
  | .ok c => c
  | .error _ => .enum []

variable [Ext]

/-- Values of the leaf types. -/
inductive LeafVal where
  | unit
  | ident (x : Text) (sp : Span)
  /-- a keyword or operator: only its locations are stored -/
  | mark (sps : List Span)
  | lit (l : LitVal) (sp : Span)

/-- The constructors of the generic node types, and of user types. -/
inductive Tag where
  /-- struct or enum variant `ctor` of the user type `ty` -/
  | ctor (ty ctor : Text)
  /-- `Maybe`: no child, or prefix and inner -/
  | maybe
  /-- `Punctuated`, `Separated`: values and separators alternating -/
  | punctuated | separated
  | any
  | leftRhs | leftBin | rightLhs | rightBin
  | eitherLeft | eitherRight
  deriving DecidableEq

/-- Values of all node types: a leaf, a delimited node, or a constructor with its children in order. -/
inductive Val where
  | leaf (l : Leaf) (v : LeafVal)
  | group (d : Delim) (sp : Span) (v : Val)
  | node (tag : Tag) (vs : List Val)

/-! ### Values of the generic containers -/

/-- `Maybe` as a value. -/
def Val.ofMaybe (m : Maybe Val Val) : Val :=
  .node .maybe (match m.inner with
    | some (p, t) => [p, t]
    | none => [])

/-- Values and separators of a `syn::Punctuated` in order. -/
def Val.interleave (p : Punct Val Val) : List Val := p.inner.flatMap (fun x => [x.1, x.2]) ++ p.last.toList

/-- `LeftAssoc` as a value. -/
def Val.ofLeft : LeftAssoc Val Val → Val
  | .rhs r => .node .leftRhs [r]
  | .binary l op r => .node .leftBin [ofLeft l, op, r]

/-- `RightAssoc` as a value. -/
def Val.ofRight : RightAssoc Val Val → Val
  | .lhs l => .node .rightLhs [l]
  | .binary l op r => .node .rightBin [l, op, ofRight r]

/-- `Either` as a value. -/
def Val.ofEither : Either Val Val → Val
  | .left l => .node .eitherLeft [l]
  | .right r => .node .eitherRight [r]

/-! ### Parsing -/

/-- `Parse` of the literal types (Literal.lean). -/
def litKindParse : LitKind → Parser (LitVal × Span)
  | .bool => fun s => (litBoolParse s).map fun r => (.bool r.1, r.2)
  | .byte => fun s => (litByteParse s).map fun r => (.byte r.1, r.2)
  | .int => fun s => (litIntParse s).map fun r => (.int r.1, r.2)
  | .uint => fun s => (litUintParse s).map fun r => (.uint r.1, r.2)
  | .float => fun s => (litFloatParse s).map fun r => (.float r.1, r.2)
  | .char => fun s => (litCharParse s).map fun r => (.char r.1, r.2)
  | .str => fun s => (litStrParse s).map fun r => (.str r.1, r.2)
  | .byteStr => fun s => (litByteStrParse s).map fun r => (.byteStr r.1, r.2)
  | .any => litParse

/-- `Parse` of the leaf types (Combinators.lean, Stream.lean, Literal.lean). -/
def leafParse : Leaf → Parser LeafVal
  | .empty => fun s => (emptyParse s).map fun _ => .unit
  | .eof => fun s => (eofParse s).map fun _ => .unit
  | .notEof => fun s => (notEofParse s).map fun _ => .unit
  | .customIdent kws => fun s => (customIdentParse kws s).map fun r => .ident r.1 r.2
  | .rustIdent => fun s => (parseRustIdent s).map fun r => .ident r.1 r.2
  | .keyword kw => fun s => (keywordParse kw s).map fun sp => .mark [sp]
  | .kwToken kw => fun s => (parseKwToken kw s).map fun sp => .mark [sp]
  | .punct tok => fun s => (parsePunct tok s).map fun sps => .mark sps
  | .lit k => fun s => (litKindParse k s).map fun r => .lit r.1 r.2

/-- The `Parse` implementation of every type: the generic implementations with the implementations of the type arguments plugged in, and the
generated code for user types.  The fuel bounds the depth of nested calls and the rounds of each loop. -/
def parse (env : Env) : Nat → Ty → Parser Val
  | 0, _, _ => .oof
  | _ + 1, .leaf l, s => (leafParse l s).map fun v => .leaf l v
  | n + 1, .named x, s => (evalParse (parse env n) (env.code x) s).map fun nd => .node (.ctor x nd.ctor) nd.fields
  | n + 1, .boxed t, s => parse env n t s
  | n + 1, .maybe p t, s => (maybeParse (parse env n p) (parse env n t) s).map Val.ofMaybe
  | n + 1, .paren t, s => (parenParse (parse env n t) s).map fun r => .group .paren r.1 r.2
  | n + 1, .bracket t, s => (bracketParse (parse env n t) s).map fun r => .group .bracket r.1 r.2
  | n + 1, .brace t, s => (braceParse (parse env n t) s).map fun r => .group .brace r.1 r.2
  | n + 1, .punctuated t p, s => (punctuatedParse n (parse env n t) (parse env n p) s).map fun r => .node .punctuated (Val.interleave r)
  | n + 1, .separated t p, s => (separatedParse n (parse env n t) (parse env n p) s).map fun r => .node .separated (Val.interleave r.inner)
  | n + 1, .any t, s => (anyParse n (parse env n t) s).map fun r => .node .any r.inner
  | n + 1, .leftAssoc o r, s => (leftAssocParse n (parse env n o) (parse env n r) s).map Val.ofLeft
  | n + 1, .rightAssoc o l, s => (rightAssocParse n (parse env n o) (parse env n l) s).map Val.ofRight
  | n + 1, .either l r, s => (eitherParse (parse env n l) (parse env n r) s).map Val.ofEither

/-! ### Printing -/

/-- EXTERNAL `Ident::new`: the text must be an identifier (with `_`, without `r#`); otherwise it panics.  Same simplification of identifier
characters as `suffixOk`. -/
def identOk (t : Text) : Bool := !t.isEmpty && suffixOk t

/-- EXTERNAL `syn::token::printing::punct`: all characters but the last are `Joint`. -/
def punctTokens : Text → List Span → List TT
  | [c], [sp] => [.punct c .alone sp]
  | c :: cs, sp :: sps => .punct c .joint sp :: punctTokens cs sps
  | _, _ => []

/-- `ToTokens` of the leaf types: nothing for `Empty`/`Eof`/`NotEof` (ast.rs:447, 534, 622), the identifier (ast.rs:133), the keyword
(ast.rs:405-409 with `token()` 312-314), EXTERNAL tokens of syn, literals. `none` = panic. -/
def leafToTokens (l : Leaf) (v : LeafVal) : Option (List TT) :=
  match l, v with
  | _, .unit => some []
  | _, .ident x sp => some [.ident x sp]
  | .keyword kw, .mark [sp] => if identOk kw then some [.ident kw sp] else none
  | .kwToken kw, .mark [sp] => some [.ident kw sp]
  | .punct tok, .mark sps => some (punctTokens tok sps)
  | _, .mark _ => none
  | _, .lit l sp => litToTokens l sp

mutual
/-- `ToTokens` of every type: leaves; `Paren`/`Bracket`/`Brace` (`delimToTokens`); for all other types, generic or derived, the tokens of the
children in order (Containers.lean `toTokens` functions; derived code: C07).  `none` = panic. -/
def Val.toTokens : Val → Option (List TT)
  | .leaf l v => leafToTokens l v
  | .group d sp v => (Val.toTokens v).map fun ts => delimToTokens d sp ts
  | .node _ vs => Val.toTokensL vs
/-- The tokens of a list of nodes, one after the other. -/
def Val.toTokensL : List Val → Option (List TT)
  | [] => some []
  | v :: vs => (Val.toTokens v).bind fun a => (Val.toTokensL vs).map fun b => a ++ b
end

end Parsel
