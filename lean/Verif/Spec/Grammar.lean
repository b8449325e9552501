import Verif.Model.Grammar
import Verif.Spec.Combinators
import Verif.Spec.Literal

/-
Specification vocabulary for whole grammars: outcomes, the tokens that a value stands for, equality of token streams up to what a reader
does not care about.
-/

namespace Parsel.Spec

variable [Ext]

/-- Parsing type `t` at `s` succeeds with value `v` and goes on at `s'`. -/
def Parses (env : Env) (t : Ty) (s : PState) (v : Val) (s' : PState) : Prop := ∃ n, parse env n t s = .ok v s'

/-- Parsing type `t` at `s` fails with error `e`. -/
def Fails (env : Env) (t : Ty) (s : PState) (e : Err) : Prop := ∃ n, parse env n t s = .err e

/-- Parsing type `t` at `s` panics. -/
def Panics (env : Env) (t : Ty) (s : PState) : Prop := ∃ n, parse env n t s = .panic

/-- Parsing type `t` at `s` never comes to an end. -/
def Diverges (env : Env) (t : Ty) (s : PState) : Prop := ∀ n, parse env n t s = .oof

/-- `parse2` (also: `from_str` after lexing) of the whole token stream as type `t` returns `Ok(v)`. -/
def Accepts (env : Env) (t : Ty) (ts : List TT) (v : Val) : Prop := ∃ n, parse2 (parse env n t) ts = .ok v

/-- ... returns `Err(e)`. -/
def Rejects (env : Env) (t : Ty) (ts : List TT) (e : Err) : Prop := ∃ n, parse2 (parse env n t) ts = .err e

mutual
/-- A token tree with invisible groups dissolved. -/
def dissolveT : TT → List TT
  | .group .none inner _ => dissolve inner
  | .group .paren inner sp => [.group .paren (dissolve inner) sp]
  | .group .bracket inner sp => [.group .bracket (dissolve inner) sp]
  | .group .brace inner sp => [.group .brace (dissolve inner) sp]
  | .ident x sp => [.ident x sp]
  | .punct c spc sp => [.punct c spc sp]
  | .lit r sp => [.lit r sp]
/-- A token stream with invisible groups dissolved, at all levels. -/
def dissolve : List TT → List TT
  | [] => []
  | t :: ts => dissolveT t ++ dissolve ts
end

/-- The tokens `ts` are a literal of value `l`; `sp` is its location. -/
inductive LitTokens : List TT → LitVal → Span → Prop
  | bool (b : Bool) (sp : Span) : LitTokens [.ident (if b then "true".toList else "false".toList) sp] (.bool b) sp
  | int {ts neg n sp} : IntAt ts neg n sp [] → LitTokens ts (.int (signed neg n)) sp
  | uint {ts n sp} : IntAt ts false n sp [] → LitTokens ts (.uint n) sp
  | float {r sp d x} : readLit r = some (.float d) → Ext.floatOf d = some x → LitTokens [.lit r sp] (.float x) sp
  | minusFloat {spc sp1 r sp2 d x} : (∀ n, ¬ IntLit r n) → readFloatDigits ('-' :: r) = some d → Ext.floatOf d = some x →
      LitTokens [.punct '-' spc sp1, .lit r sp2] (.float x) (sp1.join sp2)
  | byte {r sp b} : readLit r = some (.byte b) → LitTokens [.lit r sp] (.byte b) sp
  | char {r sp c} : readLit r = some (.char c) → LitTokens [.lit r sp] (.char c) sp
  | str {r sp t} : readLit r = some (.str t) → LitTokens [.lit r sp] (.str t) sp
  | byteStr {r sp t} : readLit r = some (.byteStr t) → LitTokens [.lit r sp] (.byteStr t) sp

/-- The tokens `ts` are the operator `tok`, one punctuation token per character, all but the last one joined to the next; `sps` are their
locations. -/
inductive PunctRun : Text → List Span → List TT → Prop
  | nil : PunctRun [] [] []
  | last {c spc sp} : PunctRun [c] [sp] [.punct c spc sp]
  | more {c sp tok sps ts} : PunctRun tok sps ts → tok ≠ [] → PunctRun (c :: tok) (sp :: sps) (.punct c .joint sp :: ts)

/-- The tokens that a leaf of type `l` with contents `v` stands for. -/
inductive LeafReads : Leaf → LeafVal → List TT → Prop
  | unit {l} : l = .empty ∨ l = .eof ∨ l = .notEof → LeafReads l .unit []
  | ident {l x sp} : (∃ kws, l = .customIdent kws) ∨ l = .rustIdent → LeafReads l (.ident x sp) [.ident x sp]
  | keyword {kw sp} : LeafReads (.keyword kw) (.mark [sp]) [.ident kw sp]
  | kwToken {kw sp} : LeafReads (.kwToken kw) (.mark [sp]) [.ident kw sp]
  | punct {tok sps ts} : PunctRun tok sps ts → LeafReads (.punct tok) (.mark sps) ts
  | lit {k v sp ts} : LitTokens ts v sp → LeafReads (.lit k) (.lit v sp) ts

mutual
/-- The value `v` stands for the tokens `ts`, in order, with the locations recorded in its leaves.  `left` says whether some delimited
group among them has contents beyond those that the value inside stands for. -/
def Reads (left : Bool) : Val → List TT → Prop
  | .leaf l v, ts => left = false ∧ LeafReads l v ts
  | .group d sp v, ts => ∃ a b i, ts = [.group d (a ++ b) sp] ∧ Reads i v a ∧ left = (i || !b.isEmpty)
  | .node _ vs, ts => ReadsL left vs ts
/-- The same for a list of values, one after the other. -/
def ReadsL (left : Bool) : List Val → List TT → Prop
  | [], ts => left = false ∧ ts = []
  | v :: vs, ts => ∃ a b i j, ts = a ++ b ∧ Reads i v a ∧ ReadsL j vs b ∧ left = (i || j)
end

/-- Two token streams are the same but for the spelling and splitting of literals (which denote the same value at the same location) and the
join flags of punctuation. -/
inductive SameTokens : List TT → List TT → Prop
  | nil : SameTokens [] []
  | ident {x sp a b} : SameTokens a b → SameTokens (.ident x sp :: a) (.ident x sp :: b)
  | punct {c spc spc' sp a b} : SameTokens a b → SameTokens (.punct c spc sp :: a) (.punct c spc' sp :: b)
  | group {d sp i j a b} : SameTokens i j → SameTokens a b → SameTokens (.group d i sp :: a) (.group d j sp :: b)
  | lit {l l' v sp a b} : LitTokens l v sp → LitTokens l' v sp → SameTokens a b → SameTokens (l ++ a) (l' ++ b)

mutual
/-- No float literal in the value is infinite, and no keyword in it is a raw identifier or otherwise not a plain word. -/
def Printable : Val → Prop
  | .leaf (.keyword kw) _ => identOk kw = true
  | .leaf _ (.lit l _) => LitVal.Finite l
  | .leaf _ _ => True
  | .group _ _ v => Printable v
  | .node _ vs => PrintableL vs
/-- The same for a list of values. -/
def PrintableL : List Val → Prop
  | [] => True
  | v :: vs => Printable v ∧ PrintableL vs
end

end Parsel.Spec
