import Verif.Spec.LL1

/-
The grammars of README.md, transcribed.
-/

namespace Parsel.Spec

/-- A field without attribute. -/
def plain (t : Ty) : FieldDef Ty := ⟨t, .ok false⟩

/-- A field with `#[parsel(recursive)]`. -/
def recursive (t : Ty) : FieldDef Ty := ⟨t, .ok true⟩

/-- `Token![...]`. -/
def op (s : String) : Ty := .leaf (.punct s.toList)

/-- A user type. -/
def user (s : String) : Ty := .named s.toList

/-- README.md lines 48-82: the JSON-like language (`enum Value`, `struct KeyValue`). -/
def jsonEnv : Env := fun x =>
  if x = "Value".toList then
    .enum [⟨"Null".toList, .unnamed [plain (.leaf (.kwToken "null".toList))]⟩,
      ⟨"Bool".toList, .unnamed [plain (.leaf (.lit .bool))]⟩,
      ⟨"Int".toList, .unnamed [plain (.leaf (.lit .int))]⟩,
      ⟨"Float".toList, .unnamed [plain (.leaf (.lit .float))]⟩,
      ⟨"Str".toList, .unnamed [plain (.leaf (.lit .str))]⟩,
      ⟨"Array".toList, .unnamed [recursive (.bracket (.punctuated (user "Value") (op ",")))]⟩,
      ⟨"Object".toList, .unnamed [recursive (.brace (.punctuated (user "KeyValue") (op ",")))]⟩]
  else if x = "KeyValue".toList then
    .struct (.named [("key".toList, plain (.leaf (.lit .str))), ("colon".toList, plain (op ":")), ("value".toList, plain (user "Value"))])
  else .enum []

/-- README.md lines 172-205: Boolean operations, right-recursive (`enum Expr`, `enum Conjunction`, `enum Term`). -/
def boolEnv : Env := fun x =>
  if x = "Expr".toList then
    .enum [⟨"Or".toList, .named [("lhs".toList, plain (user "Conjunction")), ("op".toList, plain (op "|")), ("rhs".toList, recursive (.boxed (user "Expr")))]⟩,
      ⟨"Conjunction".toList, .unnamed [plain (user "Conjunction")]⟩]
  else if x = "Conjunction".toList then
    .enum [⟨"And".toList, .named [("lhs".toList, plain (user "Term")), ("op".toList, plain (op "&")), ("rhs".toList, recursive (.boxed (user "Conjunction")))]⟩,
      ⟨"Term".toList, .unnamed [plain (user "Term")]⟩]
  else if x = "Term".toList then
    .enum [⟨"Literal".toList, .unnamed [plain (.leaf (.lit .bool))]⟩,
      ⟨"Not".toList, .unnamed [plain (op "!"), recursive (.boxed (user "Term"))]⟩,
      ⟨"Group".toList, .unnamed [recursive (.paren (.boxed (user "Expr")))]⟩]
  else .enum []

/-- The same language, written with `RightAssoc` and `Any` in place of the recursion of types beside each other, as README.md lines 263-287 suggest:
`struct Expr(RightAssoc<Or, RightAssoc<And, Term>>)`, `struct Term { nots: Any<Not>, atom: Atom }`, `enum Atom { Literal(LitBool), Group(Paren<Box<Expr>>) }`. -/
def iterEnv : Env := fun x =>
  if x = "Expr".toList then .struct (.unnamed [plain (.rightAssoc (op "|") (.rightAssoc (op "&") (user "Term")))])
  else if x = "Term".toList then .struct (.named [("nots".toList, plain (.any (op "!"))), ("atom".toList, plain (user "Atom"))])
  else if x = "Atom".toList then
    .enum [⟨"Literal".toList, .unnamed [plain (.leaf (.lit .bool))]⟩,
      ⟨"Group".toList, .unnamed [recursive (.paren (.boxed (user "Expr")))]⟩]
  else .enum []

/-- `true` in `d` pairs of parentheses. -/
inductive Parens : Nat → List TT → Prop
  | zero {sp : Span} : Parens 0 [.ident "true".toList sp]
  | succ {d : Nat} {ts : List TT} {sp : Span} : Parens d ts → Parens (d + 1) [.group .paren ts sp]

/-- `true | true | ... | true` with `m` operators. -/
inductive Ors : Nat → List TT → Prop
  | zero {sp : Span} : Ors 0 [.ident "true".toList sp]
  | succ {m : Nat} {ts : List TT} {sp sp' : Span} : Ors m ts → Ors (m + 1) (.ident "true".toList sp :: .punct '|' .alone sp' :: ts)

mutual
/-- The sentences of the Boolean language, as a context-free grammar over tokens: `term = true | false | ! term | ( expr )`, -/
inductive IsTerm : List TT → Prop
  | lit {b : Bool} {sp : Span} : IsTerm [.ident (if b then "true".toList else "false".toList) sp]
  | not {spc : Spacing} {sp : Span} {a : List TT} : IsTerm a → IsTerm (.punct '!' spc sp :: a)
  | group {sp : Span} {a : List TT} : IsExpr a → IsTerm [.group .paren a sp]
/-- `conj = term | term & conj`, -/
inductive IsConj : List TT → Prop
  | one {a : List TT} : IsTerm a → IsConj a
  | and {a b : List TT} {spc : Spacing} {sp : Span} : IsTerm a → IsConj b → IsConj (a ++ .punct '&' spc sp :: b)
/-- `expr = conj | conj | expr` (with the operator `|` in the second alternative). -/
inductive IsExpr : List TT → Prop
  | one {a : List TT} : IsConj a → IsExpr a
  | or {a b : List TT} {spc : Spacing} {sp : Span} : IsConj a → IsExpr b → IsExpr (a ++ .punct '|' spc sp :: b)
end

end Parsel.Spec
