import Verif.Model.Grammar

/-
`ToTokens` of whole trees, as the code does it: the generated code for user types (Derive.lean), the implementations of the generic types
(Containers.lean), the leaves (Grammar.lean `leafToTokens`), each calling the implementation of its parts.
-/

namespace Parsel

variable [Ext]

/-- The code that `#[derive(ToTokens)]` generates for the user type `name`, compiled; `none` if it does not compile. -/
def Env.printCode (env : Env) (name : Text) : Option (List (Text × List Nat)) :=
  match expandPrintBody ((env name).item name) with
  | .ok c => compilePrint ((env name).item name).data c
  | .error _ => none

/-- The types of the fields of constructor `ctor` of the user type `name`. -/
def Env.ctorTypes (env : Env) (name ctor : Text) : List Ty :=
  match env name with
  | .struct fields => fields.defs.map (·.ty)
  | .enum variants =>
    match variants.find? (fun v => decide (v.ident = ctor)) with
    | some v => v.fields.defs.map (·.ty)
    | none => []

/-- Appending to one `TokenStream`, one after the other; a panic ends it. -/
def inOrder : List (Option (List TT)) → Option (List TT)
  | [] => some []
  | a :: as => a.bind fun x => (inOrder as).map fun y => x ++ y

/-- A value of type `Maybe` (inverse of `Val.ofMaybe`). -/
def Val.toMaybe : Val → Option (Maybe Val Val)
  | .node .maybe [] => some ⟨none⟩
  | .node .maybe [p, t] => some ⟨some (p, t)⟩
  | _ => none

/-- Values and separators as a `syn::Punctuated` (inverse of `Val.interleave`). -/
def Val.pairUp : List Val → Punct Val Val
  | [] => ⟨[], none⟩
  | [v] => ⟨[], some v⟩
  | v :: p :: rest => ⟨(v, p) :: (pairUp rest).inner, (pairUp rest).last⟩

/-- A value of type `LeftAssoc` (inverse of `Val.ofLeft`). -/
def Val.toLeft : Val → Option (LeftAssoc Val Val)
  | .node .leftRhs [r] => some (.rhs r)
  | .node .leftBin [l, op, r] => (toLeft l).map fun l => .binary l op r
  | _ => none

/-- A value of type `RightAssoc` (inverse of `Val.ofRight`). -/
def Val.toRight : Val → Option (RightAssoc Val Val)
  | .node .rightLhs [l] => some (.lhs l)
  | .node .rightBin [l, op, r] => (toRight r).map fun r => .binary l op r
  | _ => none

/-- A value of type `Either` (inverse of `Val.ofEither`). -/
def Val.toEither : Val → Option (Either Val Val)
  | .node .eitherLeft [l] => some (.left l)
  | .node .eitherRight [r] => some (.right r)
  | _ => none

/-- The `ToTokens` implementation of every type.  The fuel bounds the depth of nested calls.  `none`: panic, or out of fuel, or `v` is no value of
type `t`. -/
def printAs (env : Env) : Nat → Ty → Val → Option (List TT)
  | 0, _, _ => none
  | _ + 1, .leaf l, .leaf _ v => leafToTokens l v
  | n + 1, .named x, .node (.ctor _ c) vs =>
    (env.printCode x).bind fun exe =>
      inOrder (runPrint (fun p : Ty × Val => [printAs env n p.1 p.2]) (match env x with | .struct _ => true | .enum _ => false) exe
        ⟨c, (env.ctorTypes x c).zip vs⟩)
  /- EXTERNAL `impl ToTokens for Box<T>` -/
  | n + 1, .boxed t, v => printAs env n t v
  | n + 1, .maybe p t, v => v.toMaybe.bind fun m => inOrder (m.toTokens (fun a => [printAs env n p a]) (fun b => [printAs env n t b]))
  | n + 1, .paren t, .group .paren sp v => (printAs env n t v).map fun ts => delimToTokens .paren sp ts
  | n + 1, .bracket t, .group .bracket sp v => (printAs env n t v).map fun ts => delimToTokens .bracket sp ts
  | n + 1, .brace t, .group .brace sp v => (printAs env n t v).map fun ts => delimToTokens .brace sp ts
  /- ast.rs:1598-1607 -/
  | n + 1, .punctuated t p, .node .punctuated vs =>
    inOrder ((Val.pairUp vs).toTokens (fun a => [printAs env n t a]) (fun b => [printAs env n p b]))
  /- ast.rs:2030-2039 -/
  | n + 1, .separated t p, .node .separated vs =>
    inOrder ((Val.pairUp vs).toTokens (fun a => [printAs env n t a]) (fun b => [printAs env n p b]))
  | n + 1, .any t, .node .any vs => inOrder (AnyV.toTokens (fun a => [printAs env n t a]) ⟨vs⟩)
  | n + 1, .leftAssoc o r, v => v.toLeft.bind fun m => inOrder (m.toTokens (fun a => [printAs env n o a]) (fun b => [printAs env n r b]))
  | n + 1, .rightAssoc o l, v => v.toRight.bind fun m => inOrder (m.toTokens (fun a => [printAs env n o a]) (fun b => [printAs env n l b]))
  | n + 1, .either l r, v => v.toEither.bind fun m => inOrder (m.toTokens (fun a => [printAs env n l a]) (fun b => [printAs env n r b]))
  | _, _, _ => none

end Parsel
