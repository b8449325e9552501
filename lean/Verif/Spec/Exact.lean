import Verif.Spec.Viable
import Verif.Spec.Furthest
import Verif.Spec.Linear

/-
Specification vocabulary: streams that are the same up to and including a token; grammars in which nothing is tried that takes more than one leaf to
find out about.
-/

namespace Parsel.Spec

/-- The streams start with the same token (opening delimiter), or both are at their end.  After punctuation, this goes on for up to `k` tokens. -/
inductive Ahead : Nat → List TT → List TT → Prop
  | enough {a b} : Ahead 0 a b
  | stop {k} : Ahead k [] []
  | punct {k c spc sp a b} : Ahead k a b → Ahead (k + 1) (.punct c spc sp :: a) (.punct c spc sp :: b)
  | ident {k x sp a b} : Ahead (k + 1) (.ident x sp :: a) (.ident x sp :: b)
  | lit {k r sp a b} : Ahead (k + 1) (.lit r sp :: a) (.lit r sp :: b)
  | group {k d i j sp a b} : Ahead (k + 1) (.group d i sp :: a) (.group d j sp :: b)

/-- The streams are the same up to and including token number `n` (delimiters count, numbers start at 0; the number of a closing delimiter stands for the end of the
group); if this is punctuation, then also up to `k` tokens of what is directly behind it. -/
inductive Agree (k : Nat) : Nat → List TT → List TT → Prop
  | here {ts new} : Ahead k ts new → Agree k 0 ts new
  | over {t ts new n} : Agree k n ts new → Agree k (countT t + n) (t :: ts) (t :: new)
  | into {d i j sp ts new n} : Agree k n i j → Agree k (n + 1) (.group d i sp :: ts) (.group d j sp :: new)

/-- The location `sp` is that of token number `n` of the stream `ts`, whose end is reported at `scope`: of the token (opening delimiter) itself, of a number whose
literal it is, of a group that it opens, or, if it is the number of a closing delimiter or the first number that is too large, of the end of the level. -/
def Blames (ts : List TT) (scope : Span) (n : Nat) (sp : Span) : Prop :=
  ∃ m cur scope' j, Passed ts scope m cur scope' ∧ n = m + j ∧ (Looked cur scope' j sp ∨ ∃ t rest, cur = t :: rest ∧ j = 0 ∧ sp = t.span)

/-- An operator of at most `k` characters, or another leaf. -/
def Brief (k : Nat) (l : Leaf) : Prop := ∀ tok, l = .punct tok → tok.length ≤ k

/-- Just one leaf, maybe one of several. -/
inductive Single (env : Env) (k : Nat) : Ty → Prop
  | leaf {l} : Brief k l → Single env k (.leaf l)
  | boxed {t} : Single env k t → Single env k (.boxed t)
  | either {l r} : Single env k l → Single env k r → Single env k (.either l r)
  | struct {x fields u} : env x = .struct fields → fieldTypes fields = [u] → Single env k u → Single env k (.named x)
  | enum {x vs} {one : VariantDef Ty → Ty} : env x = .enum vs → (∀ v ∈ vs, fieldTypes v.fields = [one v]) → (∀ v ∈ vs, Single env k (one v)) → Single env k (.named x)

variable [Ext]

/-- The parser never goes back by more than one leaf: what is optional or repeated is introduced by a leaf, and alternatives are either just leaves, or none of them can
be empty and their first tokens tell them apart. -/
def Prompt (env : Env) (k : Nat) : Ty → Prop
  | .leaf l => Brief k l
  | .named x =>
    match env x with
    | .struct _ => True
    | .enum vs => Single env k (.named x) ∨
        (∀ v ∈ vs, ∃ t ∈ fieldTypes v.fields, ¬ CanBeEmpty env t) ∧
        ∀ before v mid w after, vs = before ++ v :: (mid ++ w :: after) → ∀ u b, SeqLead env (fieldTypes v.fields) u → SeqLead env (fieldTypes w.fields) b → NeverBoth u b
  | .maybe p _ => Single env k p
  | .separated _ p => Single env k p
  | .any t => Single env k t
  | .leftAssoc o _ => Single env k o
  | .rightAssoc o _ => Single env k o
  | .either l r => Single env k (.either l r) ∨ (¬ CanBeEmpty env l ∧ ¬ CanBeEmpty env r ∧ ∀ u b, Lead env l u → Lead env r b → NeverBoth u b)
  | _ => True

/-- The input can be completed: a value of this type starts with its tokens (up to what has been left unread in groups, C83), and goes on. -/
def Unfinished (env : Env) (t : Ty) (ts : List TT) : Prop := ∃ w start more, HasTy env t w ∧ Shortened ts start ∧ Reads false w (start ++ more)

/-! ### a checker -/

/-- `Single`, searched `n` levels deep. -/
def single (env : Env) (k : Nat) : Nat → Ty → Bool
  | 0, _ => false
  | n + 1, t => match t with
    | .leaf (.punct tok) => tok.length ≤ k
    | .leaf _ => true
    | .boxed t => single env k n t
    | .either l r => single env k n l && single env k n r
    | .named x => match env x with
      | .struct fields => match fieldTypes fields with
        | [u] => single env k n u
        | _ => false
      | .enum vs => vs.all fun v => match fieldTypes v.fields with
        | [u] => single env k n u
        | _ => false
    | _ => false

/-- `Prompt`, judging by the tables. -/
def promptAt (env : Env) (c : Tables) (k n : Nat) : Ty → Bool
  | .leaf (.punct tok) => tok.length ≤ k
  | .named x => match env x with
    | .struct _ => true
    | .enum vs => single env k n (.named x) ||
        (vs.all fun v => (fieldTypes v.fields).any fun t => !c.emp t) && c.variantsDisjoint (vs.map fun v => fieldTypes v.fields)
  | .maybe p _ => single env k n p
  | .separated _ p => single env k n p
  | .any t => single env k n t
  | .leftAssoc o _ => single env k n o
  | .rightAssoc o _ => single env k n o
  | .either l r => single env k n (.either l r) || (!c.emp l && !c.emp r && Tables.allDisjoint (c.first l) (c.first r))
  | _ => true

/-- The types `G` are a grammar of that kind, as far as the tables computed in `n` rounds tell. -/
def prompt (env : Env) (G : List Ty) (k n : Nat) : Bool :=
  let c := tablesOf env G n
  G.all fun t => c.closedAt env G t && promptAt env c k n t

end Parsel.Spec
