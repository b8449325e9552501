import Verif.Spec.Grammar
import Verif.Spec.Derive

/-
Specification: what each grammar means, as a parsing expression grammar over plain token lists.  Sequences, ordered choice, optional parts,
greedy repetitions and delimited groups, without streams, forks, cells, fuel or error messages.
-/

namespace Parsel.Spec

variable [Ext]

/-! ### Leaves -/

/-- The operator `tok` at the front of the stream: one punctuation token per character, all but the last one joined to the next. -/
inductive PunctAt : Text → List TT → List Span → List TT → Prop
  | nil {ts} : PunctAt [] ts [] ts
  | last {c ts spc sp rest} : c ≠ '\'' → Next ts (.punct c spc sp) rest → PunctAt [c] ts [sp] rest
  | more {c ts sp mid tok sps rest} : c ≠ '\'' → tok ≠ [] → Next ts (.punct c .joint sp) mid → PunctAt tok mid sps rest →
      PunctAt (c :: tok) ts (sp :: sps) rest

/-- A floating point literal at the front of the stream; `d` are its digits. -/
inductive FloatAt : List TT → Text → Span → List TT → Prop
  | plain {ts r sp rest d} : Next ts (.lit r sp) rest → readLit r = some (.float d) → FloatAt ts d sp rest
  | minus {ts spc sp1 mid r sp2 rest d} : Next ts (.punct '-' spc sp1) mid → Next mid (.lit r sp2) rest → (∀ n, ¬ IntLit r n) →
      readFloatDigits ('-' :: r) = some d → FloatAt ts d (sp1.join sp2) rest

/-- A literal of kind `k` (`any`: of any kind) and value `v` at the front of the stream. -/
inductive LitAt : LitKind → List TT → LitVal → Span → List TT → Prop
  | bool {k ts b sp rest} : k = .bool ∨ k = .any → Next ts (.ident (if b then "true".toList else "false".toList) sp) rest →
      LitAt k ts (.bool b) sp rest
  | byte {k ts r sp rest b} : k = .byte ∨ k = .any → Next ts (.lit r sp) rest → readLit r = some (.byte b) → LitAt k ts (.byte b) sp rest
  | int {ts neg n sp rest} : IntAt ts neg n sp rest → InI64 (signed neg n) → LitAt .int ts (.int (signed neg n)) sp rest
  | uint {k ts n sp rest} : k = .uint ∨ k = .any → IntAt ts false n sp rest → InU64 n → LitAt k ts (.uint n) sp rest
  | negative {ts n sp rest} : IntAt ts true n sp rest → InI64 (signed true n) → LitAt .any ts (.int (signed true n)) sp rest
  | float {k ts d sp rest x} : k = .float ∨ k = .any → FloatAt ts d sp rest → Ext.floatOf d = some x → LitAt k ts (.float x) sp rest
  | char {k ts r sp rest c} : k = .char ∨ k = .any → Next ts (.lit r sp) rest → readLit r = some (.char c) → LitAt k ts (.char c) sp rest
  | str {k ts r sp rest t} : k = .str ∨ k = .any → Next ts (.lit r sp) rest → readLit r = some (.str t) → LitAt k ts (.str t) sp rest
  | byteStr {k ts r sp rest t} : k = .byteStr ∨ k = .any → Next ts (.lit r sp) rest → readLit r = some (.byteStr t) →
      LitAt k ts (.byteStr t) sp rest

/-- A leaf of type `l` with contents `v` at the front of the stream `ts`; `rest` follows it. -/
inductive LeafAt : Leaf → List TT → LeafVal → List TT → Prop
  | empty {ts} : LeafAt .empty ts .unit ts
  | eof : LeafAt .eof [] .unit []
  | notEof {ts} : ts ≠ [] → LeafAt .notEof ts .unit ts
  | customIdent {kws ts x sp rest} : Next ts (.ident x sp) rest → x ∉ kws → LeafAt (.customIdent kws) ts (.ident x sp) rest
  | rustIdent {ts x sp rest} : Next ts (.ident x sp) rest → x ∉ rustKeywords → LeafAt .rustIdent ts (.ident x sp) rest
  | keyword {kw ts sp rest} : Next ts (.ident kw sp) rest → LeafAt (.keyword kw) ts (.mark [sp]) rest
  | kwToken {kw ts sp rest} : Next ts (.ident kw sp) rest → LeafAt (.kwToken kw) ts (.mark [sp]) rest
  | punct {tok ts sps rest} : PunctAt tok ts sps rest → LeafAt (.punct tok) ts (.mark sps) rest
  | lit {k ts v sp rest} : LitAt k ts v sp rest → LeafAt (.lit k) ts (.lit v sp) rest

/-- A literal is asked for and the next token claims to be a literal but is none (no lexer produces that; syn panics). -/
def BadLiteral (l : Leaf) (ts : List TT) : Prop := (∃ k, l = .lit k) ∧ ∃ r sp rest, Next ts (.lit r sp) rest ∧ readLit r = none

/-- There is no leaf of type `l` at the front of the stream. -/
def NoLeaf (l : Leaf) (ts : List TT) : Prop := (∀ v rest, ¬ LeafAt l ts v rest) ∧ ¬ BadLiteral l ts

/-! ### Trees -/

/-- Operators and operands grouped to the left. -/
def leftTree (acc : Val) : List (Val × Val) → Val
  | [] => acc
  | (op, r) :: rest => leftTree (.node .leftBin [acc, op, r]) rest

/-- Operators and operands grouped to the right. -/
def rightTree (first : Val) : List (Val × Val) → Val
  | [] => .node .rightLhs [first]
  | (op, r) :: rest => .node .rightBin [first, op, rightTree r rest]

/-- Location of the first token of the stream, if there is any. -/
inductive FirstUnread : List TT → Option Span → Prop
  | nothing {ts} : (∀ t rest, ¬ Next ts t rest) → FirstUnread ts none
  | token {ts t rest} : Next ts t rest → FirstUnread ts (some t.span)

/-- The delimiter that a type asks for. -/
inductive GroupTy : Ty → Delim → Ty → Prop
  | paren {t} : GroupTy (.paren t) .paren t
  | bracket {t} : GroupTy (.bracket t) .bracket t
  | brace {t} : GroupTy (.brace t) .brace t

/-! ### Grammars -/

mutual

/-- `t` at the front of `ts` is `v`, and `rest` follows.  `left` is the location of the first token that was left unread inside a delimited
group on the way. -/
inductive Matches (env : Env) : Ty → List TT → Val → List TT → Option Span → Prop
  | leaf {l ts v rest} : LeafAt l ts v rest → Matches env (.leaf l) ts (.leaf l v) rest none
  /-- a struct: its fields one after the other -/
  | struct {x fields ts vs rest left} : env x = .struct fields → MatchesSeq env (fieldTypes fields) ts vs rest left →
      Matches env (.named x) ts (.node (.ctor x x) vs) rest left
  /-- an enum: the first variant that matches -/
  | enum {x before v after ts vs rest left} : env x = .enum (before ++ v :: after) → (∀ u ∈ before, NoMatchSeq env (fieldTypes u.fields) ts) →
      MatchesSeq env (fieldTypes v.fields) ts vs rest left → Matches env (.named x) ts (.node (.ctor x v.ident) vs) rest left
  | boxed {t ts v rest left} : Matches env t ts v rest left → Matches env (.boxed t) ts v rest left
  /-- `Maybe`: the prefix and then the inner node, or nothing if there is no prefix -/
  | maybeSome {p t ts a mid l1 b rest l2} : Matches env p ts a mid l1 → Matches env t mid b rest l2 →
      Matches env (.maybe p t) ts (.node .maybe [a, b]) rest (l1.or l2)
  | maybeNone {p t ts} : NoMatch env p ts → Matches env (.maybe p t) ts (.node .maybe []) ts none
  /-- `Paren`, `Bracket`, `Brace`: a group; its contents start with the inner node -/
  | group {g d t ts inner sp rest v unread l1 l2} : GroupTy g d t → Next ts (.group d inner sp) rest → Matches env t inner v unread l1 →
      FirstUnread unread l2 → Matches env g ts (.group d sp v) rest (l1.or l2)
  | punctuated {t p ts vs rest left} : MatchesToEnd env t p ts vs rest left →
      Matches env (.punctuated t p) ts (.node .punctuated vs) rest left
  | separated {t p ts v mid l1 tail rest l2} : Matches env t ts v mid l1 → MatchesTail env p t mid tail rest l2 →
      Matches env (.separated t p) ts (.node .separated (v :: tail.flatMap fun x => [x.1, x.2])) rest (l1.or l2)
  | any {t ts vs rest left} : MatchesMany env t ts vs rest left → Matches env (.any t) ts (.node .any vs) rest left
  | leftAssoc {o r ts v mid l1 tail rest l2} : Matches env r ts v mid l1 → MatchesTail env o r mid tail rest l2 →
      Matches env (.leftAssoc o r) ts (leftTree (.node .leftRhs [v]) tail) rest (l1.or l2)
  | rightAssoc {o l ts v mid l1 tail rest l2} : Matches env l ts v mid l1 → MatchesTail env o l mid tail rest l2 →
      Matches env (.rightAssoc o l) ts (rightTree v tail) rest (l1.or l2)
  | eitherLeft {l r ts v rest left} : Matches env l ts v rest left → Matches env (.either l r) ts (.node .eitherLeft [v]) rest left
  | eitherRight {l r ts v rest left} : NoMatch env l ts → Matches env r ts v rest left →
      Matches env (.either l r) ts (.node .eitherRight [v]) rest left

/-- The types one after the other. -/
inductive MatchesSeq (env : Env) : List Ty → List TT → List Val → List TT → Option Span → Prop
  | nil {ts} : MatchesSeq env [] ts [] ts none
  | cons {t us ts v mid l1 vs rest l2} : Matches env t ts v mid l1 → MatchesSeq env us mid vs rest l2 →
      MatchesSeq env (t :: us) ts (v :: vs) rest (l1.or l2)

/-- Items separated by `p` up to the end of the level, a trailing `p` being allowed. -/
inductive MatchesToEnd (env : Env) : Ty → Ty → List TT → List Val → List TT → Option Span → Prop
  | done {t p} : MatchesToEnd env t p [] [] [] none
  | last {t p ts v left} : ts ≠ [] → Matches env t ts v [] left → MatchesToEnd env t p ts [v] [] left
  | more {t p ts v mid l1 q next l2 vs rest l3} : ts ≠ [] → Matches env t ts v mid l1 → mid ≠ [] → Matches env p mid q next l2 →
      MatchesToEnd env t p next vs rest l3 → MatchesToEnd env t p ts (v :: q :: vs) rest (l1.or (l2.or l3))

/-- As many pairs of `p` and `t` as there are. -/
inductive MatchesTail (env : Env) : Ty → Ty → List TT → List (Val × Val) → List TT → Option Span → Prop
  | done {p t ts} : NoMatch env p ts → MatchesTail env p t ts [] ts none
  | more {p t ts q mid l1 v next l2 tail rest l3} : Matches env p ts q mid l1 → Matches env t mid v next l2 →
      MatchesTail env p t next tail rest l3 → MatchesTail env p t ts ((q, v) :: tail) rest (l1.or (l2.or l3))

/-- As many `t` as there are. -/
inductive MatchesMany (env : Env) : Ty → List TT → List Val → List TT → Option Span → Prop
  | done {t ts} : NoMatch env t ts → MatchesMany env t ts [] ts none
  | more {t ts v mid l1 vs rest l2} : Matches env t ts v mid l1 → MatchesMany env t mid vs rest l2 →
      MatchesMany env t ts (v :: vs) rest (l1.or l2)

/-- There is no `t` at the front of `ts`. -/
inductive NoMatch (env : Env) : Ty → List TT → Prop
  | leaf {l ts} : NoLeaf l ts → NoMatch env (.leaf l) ts
  | struct {x fields ts} : env x = .struct fields → NoMatchSeq env (fieldTypes fields) ts → NoMatch env (.named x) ts
  | enum {x vs ts} : env x = .enum vs → (∀ v ∈ vs, NoMatchSeq env (fieldTypes v.fields) ts) → NoMatch env (.named x) ts
  | boxed {t ts} : NoMatch env t ts → NoMatch env (.boxed t) ts
  | maybe {p t ts a mid l1} : Matches env p ts a mid l1 → NoMatch env t mid → NoMatch env (.maybe p t) ts
  | noGroup {g d t ts} : GroupTy g d t → (∀ inner sp rest, ¬ Next ts (.group d inner sp) rest) → NoMatch env g ts
  | inGroup {g d t ts inner sp rest} : GroupTy g d t → Next ts (.group d inner sp) rest → NoMatch env t inner → NoMatch env g ts
  | punctuated {t p ts} : NoMatchToEnd env t p ts → NoMatch env (.punctuated t p) ts
  | separatedHead {t p ts} : NoMatch env t ts → NoMatch env (.separated t p) ts
  | separatedTail {t p ts v mid l1} : Matches env t ts v mid l1 → NoMatchTail env p t mid → NoMatch env (.separated t p) ts
  | leftAssocHead {o r ts} : NoMatch env r ts → NoMatch env (.leftAssoc o r) ts
  | leftAssocTail {o r ts v mid l1} : Matches env r ts v mid l1 → NoMatchTail env o r mid → NoMatch env (.leftAssoc o r) ts
  | rightAssocHead {o l ts} : NoMatch env l ts → NoMatch env (.rightAssoc o l) ts
  | rightAssocTail {o l ts v mid l1} : Matches env l ts v mid l1 → NoMatchTail env o l mid → NoMatch env (.rightAssoc o l) ts
  | either {l r ts} : NoMatch env l ts → NoMatch env r ts → NoMatch env (.either l r) ts

/-- One of the types is missing, the ones before it being there. -/
inductive NoMatchSeq (env : Env) : List Ty → List TT → Prop
  | here {t us ts} : NoMatch env t ts → NoMatchSeq env (t :: us) ts
  | later {t us ts v mid l1} : Matches env t ts v mid l1 → NoMatchSeq env us mid → NoMatchSeq env (t :: us) ts

/-- Something is left where an item or a separator is due, but it is missing. -/
inductive NoMatchToEnd (env : Env) : Ty → Ty → List TT → Prop
  | item {t p ts} : ts ≠ [] → NoMatch env t ts → NoMatchToEnd env t p ts
  | separator {t p ts v mid l1} : ts ≠ [] → Matches env t ts v mid l1 → mid ≠ [] → NoMatch env p mid → NoMatchToEnd env t p ts
  | later {t p ts v mid l1 q next l2} : ts ≠ [] → Matches env t ts v mid l1 → mid ≠ [] → Matches env p mid q next l2 →
      NoMatchToEnd env t p next → NoMatchToEnd env t p ts

/-- A separator is not followed by an item. -/
inductive NoMatchTail (env : Env) : Ty → Ty → List TT → Prop
  | here {p t ts q mid l1} : Matches env p ts q mid l1 → NoMatch env t mid → NoMatchTail env p t ts
  | later {p t ts q mid l1 v next l2} : Matches env p ts q mid l1 → Matches env t mid v next l2 → NoMatchTail env p t next →
      NoMatchTail env p t ts

end

end Parsel.Spec
