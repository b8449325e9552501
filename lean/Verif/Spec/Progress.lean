import Verif.Spec.Grammar
import Verif.Spec.Derive

/-
Specification vocabulary: positions reached while reading, locations of errors, paths of productions, types of values, and the structure of grammars
(what can be empty, what starts with what).
-/

namespace Parsel.Spec

/-! ### positions -/

/-- `b` is what is left of `a` after taking away tokens one by one. -/
inductive Steps : List TT → List TT → Prop
  | refl {a} : Steps a a
  | step {a t b c} : Next a t b → Steps b c → Steps a c

/-- ... at least one. -/
def Plus (a c : List TT) : Prop := ∃ t b, Next a t b ∧ Steps b c

/-- Reading the level `ts`, whose end is reported at `scope`, gets to the position `ts'` of a level whose end is reported at `scope'`: tokens are
taken away one by one, and delimited groups may be entered. -/
inductive Reach : List TT → Span → List TT → Span → Prop
  | refl {ts scope} : Reach ts scope ts scope
  | next {ts scope t rest ts' scope'} : Next ts t rest → Reach rest scope ts' scope' → Reach ts scope ts' scope'
  | enter {ts scope d inner sp rest ts' scope'} : Next ts (.group d inner sp) rest → Reach inner sp.closeOf ts' scope' →
      Reach ts scope ts' scope'

/-- A location that belongs to the position `ts` on a level whose end is reported at `scope`: that of the next token (of the opening delimiter if it is
a group), of a number with its minus sign, or of the end of the level. -/
inductive LocAt : List TT → Span → Span → Prop
  | stop {scope} : LocAt [] scope scope
  | head {t ts scope} : LocAt (t :: ts) scope t.errSpan
  | token {ts t rest scope} : Next ts t rest → (∀ d inner sp, t ≠ .group d inner sp) → LocAt ts scope t.span
  | number {ts spc sp1 rest r sp2 rest2 scope} : Next ts (.punct '-' spc sp1) rest → Next rest (.lit r sp2) rest2 → LocAt ts scope (sp1.join sp2)

/-- The token `t` occurs in the stream, at any nesting level. -/
inductive Occurs (t : TT) : List TT → Prop
  | head {ts} : Occurs t (t :: ts)
  | tail {u ts} : Occurs t ts → Occurs t (u :: ts)
  | inside {d inner sp ts} : Occurs t inner → Occurs t (.group d inner sp :: ts)

/-- Locations that belong to the input `ts`: of a token, of a delimiter of a group, of a number with its minus sign. -/
inductive InputLoc (ts : List TT) : Span → Prop
  | token {t} : Occurs t ts → InputLoc ts t.span
  | opening {d inner sp} : Occurs (.group d inner sp) ts → InputLoc ts sp.openOf
  | closing {d inner sp} : Occurs (.group d inner sp) ts → InputLoc ts sp.closeOf
  | number {spc sp1 r sp2} : Occurs (.punct '-' spc sp1) ts → Occurs (.lit r sp2) ts → InputLoc ts (sp1.join sp2)

/-! ### literals that are literals -/

mutual
/-- Every literal token of the tree has the text of a literal (true of everything that comes out of a lexer). -/
def ReadableT : TT → Prop
  | .group _ ts _ => Readable ts
  | .lit r _ => ∃ l, readLit r = some l
  | .ident _ _ => True
  | .punct _ _ _ => True
/-- The same for a stream. -/
def Readable : List TT → Prop
  | [] => True
  | t :: ts => ReadableT t ∧ Readable ts
end

/-! ### paths of productions -/

/-- The fields of a struct or variant: label and type. -/
def labelled (fs : Fields Ty) : List (Text × Ty) := (fieldLabels fs).zip (fieldTypes fs)

/-- From type `t`, through the parts of generic types and the fields of user types, one gets to type `u`; `path` lists the user types' fields passed on
the way (outermost first). -/
inductive Path (env : Env) : Ty → List Frame → Ty → Prop
  | here {t} : Path env t [] t
  | field {x fields l ft path u} : env x = .struct fields → (l, ft) ∈ labelled fields → Path env ft path u →
      Path env (.named x) (⟨[], x, l⟩ :: path) u
  | variant {x vs v l ft path u} : env x = .enum vs → v ∈ vs → (l, ft) ∈ labelled v.fields → Path env ft path u →
      Path env (.named x) (⟨x, v.ident, l⟩ :: path) u
  | boxed {t path u} : Path env t path u → Path env (.boxed t) path u
  | maybePrefix {p t path u} : Path env p path u → Path env (.maybe p t) path u
  | maybeInner {p t path u} : Path env t path u → Path env (.maybe p t) path u
  | paren {t path u} : Path env t path u → Path env (.paren t) path u
  | bracket {t path u} : Path env t path u → Path env (.bracket t) path u
  | brace {t path u} : Path env t path u → Path env (.brace t) path u
  | punctuatedItem {t p path u} : Path env t path u → Path env (.punctuated t p) path u
  | punctuatedSep {t p path u} : Path env p path u → Path env (.punctuated t p) path u
  | separatedItem {t p path u} : Path env t path u → Path env (.separated t p) path u
  | separatedSep {t p path u} : Path env p path u → Path env (.separated t p) path u
  | any {t path u} : Path env t path u → Path env (.any t) path u
  | leftOperand {o r path u} : Path env r path u → Path env (.leftAssoc o r) path u
  | leftOperator {o r path u} : Path env o path u → Path env (.leftAssoc o r) path u
  | rightOperand {o l path u} : Path env l path u → Path env (.rightAssoc o l) path u
  | rightOperator {o l path u} : Path env o path u → Path env (.rightAssoc o l) path u
  | eitherLeft {l r path u} : Path env l path u → Path env (.either l r) path u
  | eitherRight {l r path u} : Path env r path u → Path env (.either l r) path u

variable [Ext]

/-- What a failure finally is about, at a position: a leaf that does not parse, a group that is not there, or an enum without variants. -/
inductive Basic (env : Env) : Ty → PState → Err → Prop
  | leaf {l s e} : leafParse l s = .err e → Basic env (.leaf l) s e
  | paren {t s} : (∀ inner sp rest, ¬ Next s.cur (.group .paren inner sp) rest) → Basic env (.paren t) s (s.error "expected parentheses".toList)
  | bracket {t s} : (∀ inner sp rest, ¬ Next s.cur (.group .bracket inner sp) rest) →
      Basic env (.bracket t) s (s.error "expected square brackets".toList)
  | brace {t s} : (∀ inner sp rest, ¬ Next s.cur (.group .brace inner sp) rest) → Basic env (.brace t) s (s.error "expected curly braces".toList)
  | emptyEnum {x s} : env x = .enum [] → Basic env (.named x) s (s.error "parsing an empty choice (enum) always fails".toList)

/-! ### values of a type -/

/-- The contents that a leaf of each type can have. -/
inductive LeafTy : Leaf → LeafVal → Prop
  | empty : LeafTy .empty .unit
  | eof : LeafTy .eof .unit
  | notEof : LeafTy .notEof .unit
  | customIdent {kws x sp} : x ∉ kws → LeafTy (.customIdent kws) (.ident x sp)
  | rustIdent {x sp} : x ∉ rustKeywords → LeafTy .rustIdent (.ident x sp)
  | keyword {kw sp} : LeafTy (.keyword kw) (.mark [sp])
  | kwToken {kw sp} : LeafTy (.kwToken kw) (.mark [sp])
  | punct {tok sps} : sps.length = tok.length → LeafTy (.punct tok) (.mark sps)
  | bool {b sp} : LeafTy (.lit .bool) (.lit (.bool b) sp)
  | byte {b sp} : LeafTy (.lit .byte) (.lit (.byte b) sp)
  | int {v sp} : InI64 v → LeafTy (.lit .int) (.lit (.int v) sp)
  | uint {v sp} : InU64 v → LeafTy (.lit .uint) (.lit (.uint v) sp)
  | float {x sp} : LeafTy (.lit .float) (.lit (.float x) sp)
  | char {c sp} : LeafTy (.lit .char) (.lit (.char c) sp)
  | str {t sp} : LeafTy (.lit .str) (.lit (.str t) sp)
  | byteStr {t sp} : LeafTy (.lit .byteStr) (.lit (.byteStr t) sp)
  | any {l sp} : LitVal.InRange l → (∀ v, l = .int v → v ≤ 0) → LeafTy (.lit .any) (.lit l sp)

/-- `t p t p ...`, `n` types. -/
def alternate (t p : Ty) : Nat → List Ty
  | 0 => []
  | n + 1 => t :: alternate p t n

mutual
/-- `v` is a value of type `t`. -/
inductive HasTy (env : Env) : Ty → Val → Prop
  | leaf {l v} : LeafTy l v → HasTy env (.leaf l) (.leaf l v)
  | struct {x fields vs} : env x = .struct fields → HasTys env (fieldTypes fields) vs → HasTy env (.named x) (.node (.ctor x x) vs)
  | enum {x variants w vs} : env x = .enum variants → w ∈ variants → HasTys env (fieldTypes w.fields) vs →
      HasTy env (.named x) (.node (.ctor x w.ident) vs)
  | boxed {t v} : HasTy env t v → HasTy env (.boxed t) v
  | absent {p t} : HasTy env (.maybe p t) (.node .maybe [])
  | present {p t v w} : HasTy env p v → HasTy env t w → HasTy env (.maybe p t) (.node .maybe [v, w])
  | paren {t sp v} : HasTy env t v → HasTy env (.paren t) (.group .paren sp v)
  | bracket {t sp v} : HasTy env t v → HasTy env (.bracket t) (.group .bracket sp v)
  | brace {t sp v} : HasTy env t v → HasTy env (.brace t) (.group .brace sp v)
  | punctuated {t p n vs} : HasTys env (alternate t p n) vs → HasTy env (.punctuated t p) (.node .punctuated vs)
  | separated {t p n vs} : HasTys env (alternate t p (2 * n + 1)) vs → HasTy env (.separated t p) (.node .separated vs)
  | any {t n vs} : HasTys env (List.replicate n t) vs → HasTy env (.any t) (.node .any vs)
  | leftRhs {o r v} : HasTy env r v → HasTy env (.leftAssoc o r) (.node .leftRhs [v])
  | leftBin {o r l op v} : HasTy env (.leftAssoc o r) l → HasTy env o op → HasTy env r v → HasTy env (.leftAssoc o r) (.node .leftBin [l, op, v])
  | rightLhs {o l v} : HasTy env l v → HasTy env (.rightAssoc o l) (.node .rightLhs [v])
  | rightBin {o l v op r} : HasTy env l v → HasTy env o op → HasTy env (.rightAssoc o l) r →
      HasTy env (.rightAssoc o l) (.node .rightBin [v, op, r])
  | left {l r v} : HasTy env l v → HasTy env (.either l r) (.node .eitherLeft [v])
  | right {l r v} : HasTy env r v → HasTy env (.either l r) (.node .eitherRight [v])
/-- `vs` are values of the types `ts`. -/
inductive HasTys (env : Env) : List Ty → List Val → Prop
  | nil : HasTys env [] []
  | cons {t ts v vs} : HasTy env t v → HasTys env ts vs → HasTys env (t :: ts) (v :: vs)
end

end Parsel.Spec
