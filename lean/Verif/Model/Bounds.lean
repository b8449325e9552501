import Verif.Model.Grammar

/-
`where` clauses of the derived impls at work: which types implement the traits.  Also `#[derive(FromStr)]` and `#[derive(Display)]`.
-/

namespace Parsel


/-- The two traits whose derives constrain the fields. -/
inductive Trait where
  | parse
  | toTokens

/-- The `where` predicates of the derived impl of `tr` for the user type `x` (parse.rs:23-36, to_tokens.rs:23-35), or the error of the derive. -/
def implPreds (order : List Ty → List Ty) (env : Env) (x : Text) : Trait → Except Text (List (Pred Ty Unit))
  | .parse => (expandParse order ((env x).item x)).map (·.preds)
  | .toTokens => (expandToTokens order ((env x).item x)).map (·.preds)

/-- EXTERNAL (rustc) `t: Parse` or `t: ToTokens`: there is an impl all of whose `where` clauses hold in turn; an obligation must not depend on itself (these
are not auto traits), so this is an inductive definition.  The impls of the crate ask for the trait of all their type arguments: `Maybe` (ast.rs:915-918,
941-944), `Paren` (1066, 1076), `Bracket` (1194, 1204), `Brace` (1329, 1339), `Punctuated` (1587-1590, 1598-1601), `Separated` (2001-2004, 2030-2033), `Any`
(2307-2309, 2329-2331), `LeftAssoc` (3423-3426, 3448-3451), `RightAssoc` (3616-3619, 3641-3644), `Either` (3955-3958, 3983-3986); `Box<T>` (syn, quote) asks
for `T`; leaves ask for nothing; user types ask for their generated `where` clause. -/
inductive Implements (order : List Ty → List Ty) (env : Env) (tr : Trait) : Ty → Prop
  | leaf {l} : Implements order env tr (.leaf l)
  | named {x preds} : implPreds order env x tr = .ok preds → (∀ t, Pred.bound t ∈ preds → Implements order env tr t) → Implements order env tr (.named x)
  | boxed {t} : Implements order env tr t → Implements order env tr (.boxed t)
  | maybe {p t} : Implements order env tr p → Implements order env tr t → Implements order env tr (.maybe p t)
  | paren {t} : Implements order env tr t → Implements order env tr (.paren t)
  | bracket {t} : Implements order env tr t → Implements order env tr (.bracket t)
  | brace {t} : Implements order env tr t → Implements order env tr (.brace t)
  | punctuated {t p} : Implements order env tr t → Implements order env tr p → Implements order env tr (.punctuated t p)
  | separated {t p} : Implements order env tr t → Implements order env tr p → Implements order env tr (.separated t p)
  | any {t} : Implements order env tr t → Implements order env tr (.any t)
  | leftAssoc {o r} : Implements order env tr o → Implements order env tr r → Implements order env tr (.leftAssoc o r)
  | rightAssoc {o l} : Implements order env tr o → Implements order env tr l → Implements order env tr (.rightAssoc o l)
  | either {a b} : Implements order env tr a → Implements order env tr b → Implements order env tr (.either a b)

/-- The traits derived on top of these. -/
inductive StrTrait where
  | fromStr
  | display

/-- A predicate of their `where` clauses: one of the user's, or `Self: Trait`. -/
inductive SelfPred (ρ : Type) where
  | user (p : ρ)
  | self (tr : Trait)

/-- parsel_derive/src/from_str.rs:9-35 and display.rs:9-33 `expand` (after parsing the item): the `where` clause; the data of the item is not looked at and
nothing can fail.  The bodies are `parse_str(string)` (`parseStr`, Lex.lean) and `format_ast_node(self, formatter)` (`formatNode`, Format.lean). -/
def expandStr {τ ρ : Type} (tr : StrTrait) (item : DeriveInput τ ρ) : List (SelfPred ρ) :=
  item.preds.map .user ++ [match tr with
    | .fromStr => .self .parse
    | .display => .self .toTokens]

/-- EXTERNAL (rustc) `x: FromStr` or `x: Display` for a user type that derives it: its `where` clauses hold (user types of an `Env` have no predicates of their
own). -/
def ImplementsStr (order : List Ty → List Ty) (env : Env) (x : Text) (tr : StrTrait) : Prop :=
  ∀ t, SelfPred.self t ∈ expandStr tr ((env x).item x) → Implements order env t (.named x)

end Parsel
