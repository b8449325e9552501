import Verif.Spec.Termination

/-
Specification vocabulary: grammars whose alternatives, optional parts and repetitions can be told apart by what comes first (LL(1) at the level of
leaves and groups).
-/

namespace Parsel.Spec

/-- The type can succeed without the input having to contain anything in particular: no leaf of it needs to be there. -/
inductive Skippable (env : Env) : Ty → Prop
  | empty : Skippable env (.leaf .empty)
  | punct : Skippable env (.leaf (.punct []))
  | struct {x fields} : env x = .struct fields → (∀ t ∈ fieldTypes fields, Skippable env t) → Skippable env (.named x)
  | enum {x vs v} : env x = .enum vs → v ∈ vs → (∀ t ∈ fieldTypes v.fields, Skippable env t) → Skippable env (.named x)
  | boxed {t} : Skippable env t → Skippable env (.boxed t)
  | maybe {p t} : Skippable env (.maybe p t)
  | punctuated {t p} : Skippable env (.punctuated t p)
  | any {t} : Skippable env (.any t)
  | separated {t p} : Skippable env t → Skippable env (.separated t p)
  | leftAssoc {o r} : Skippable env r → Skippable env (.leftAssoc o r)
  | rightAssoc {o l} : Skippable env l → Skippable env (.rightAssoc o l)
  | eitherLeft {l r} : Skippable env l → Skippable env (.either l r)
  | eitherRight {l r} : Skippable env r → Skippable env (.either l r)

/-- Leaves (that are not always there) and delimited groups: what a parse can start with. -/
def IsLead : Ty → Prop
  | .leaf .empty => False
  | .leaf (.punct []) => False
  | .leaf _ => True
  | .paren _ => True
  | .bracket _ => True
  | .brace _ => True
  | _ => False

/-- Parsing `t` may start with the leaf or group `u`. -/
def Lead (env : Env) (t u : Ty) : Prop := IsLead u ∧ (u = t ∨ Chain (StartsWith env) t u)

/-- Parsing the sequence of types `ts` may start with the leaf or group `u`. -/
def SeqLead (env : Env) (ts : List Ty) (u : Ty) : Prop := ∃ t, SeqStarts env ts t ∧ Lead env t u

/-- When a complete `t` has been read, the parser may still try whether `u` comes next — `u` must not be there, or what follows would be taken for a part
of the `t`.  (The end of the input is required by trying `NotEof`, something being there by trying `Eof`.) -/
inductive Grabs (env : Env) : Ty → Ty → Prop
  | eof : Grabs env (.leaf .eof) (.leaf .notEof)
  | notEof : Grabs env (.leaf .notEof) (.leaf .eof)
  | struct {x fields pre t post u} : env x = .struct fields → fieldTypes fields = pre ++ t :: post → (∀ y ∈ post, CanBeEmpty env y) → Grabs env t u →
      Grabs env (.named x) u
  | enum {x vs v pre t post u} : env x = .enum vs → v ∈ vs → fieldTypes v.fields = pre ++ t :: post → (∀ y ∈ post, CanBeEmpty env y) → Grabs env t u →
      Grabs env (.named x) u
  | earlier {x vs before v mid w after u} : env x = .enum vs → vs = before ++ v :: (mid ++ w :: after) → (∀ y ∈ fieldTypes w.fields, CanBeEmpty env y) →
      SeqLead env (fieldTypes v.fields) u → Grabs env (.named x) u
  | boxed {t u} : Grabs env t u → Grabs env (.boxed t) u
  | maybePrefix {p t u} : Lead env p u → Grabs env (.maybe p t) u
  | maybeInner {p t u} : Grabs env t u → Grabs env (.maybe p t) u
  | maybeEnd {p t u} : CanBeEmpty env t → Grabs env p u → Grabs env (.maybe p t) u
  | punctuated {t p} : Grabs env (.punctuated t p) (.leaf .notEof)
  | separator {t p u} : Lead env p u → Grabs env (.separated t p) u
  | separated {t p n pre x post u} : alternate t p (2 * n + 1) = pre ++ x :: post → (∀ y ∈ post, CanBeEmpty env y) → Grabs env x u →
      Grabs env (.separated t p) u
  | item {t u} : Lead env t u → Grabs env (.any t) u
  | any {t n pre x post u} : List.replicate n t = pre ++ x :: post → (∀ y ∈ post, CanBeEmpty env y) → Grabs env x u → Grabs env (.any t) u
  | leftOperator {o r u} : Lead env o u → Grabs env (.leftAssoc o r) u
  | leftAssoc {o r n pre x post u} : alternate r o (2 * n + 1) = pre ++ x :: post → (∀ y ∈ post, CanBeEmpty env y) → Grabs env x u →
      Grabs env (.leftAssoc o r) u
  | rightOperator {o l u} : Lead env o u → Grabs env (.rightAssoc o l) u
  | rightAssoc {o l n pre x post u} : alternate l o (2 * n + 1) = pre ++ x :: post → (∀ y ∈ post, CanBeEmpty env y) → Grabs env x u →
      Grabs env (.rightAssoc o l) u
  | eitherLeft {l r u} : Grabs env l u → Grabs env (.either l r) u
  | eitherRight {l r u} : Grabs env r u → Grabs env (.either l r) u
  | eitherFirst {l r u} : CanBeEmpty env r → Lead env l u → Grabs env (.either l r) u

variable [Ext]

/-- The stream `ts` does not start with a `u`. -/
def Refuses (env : Env) (u : Ty) (ts : List TT) : Prop := ∀ scope unexp, ∃ e, Fails env u ⟨ts, scope, unexp⟩ e

/-- Nothing that is printed for a `w`, whatever follows it, can be taken for a `u`. -/
def Apart (env : Env) (u w : Ty) : Prop := ∀ v ts, HasTy env w v → v.toTokens = some ts → ts ≠ [] → ∀ k, Refuses env u (ts ++ k)

/-- In the sequence of types `ts`, what comes later cannot be taken for a part of what comes before. -/
def SeqApart (env : Env) (ts : List Ty) : Prop :=
  ∀ pre t post, ts = pre ++ t :: post → ∀ u w, Grabs env t u → SeqLead env post w → Apart env u w

/-- The parser of the type can tell from what comes next which way to go (LL(1)). -/
def Predictive (env : Env) : Ty → Prop
  | .named x =>
    match env x with
    | .struct fields => SeqApart env (fieldTypes fields)
    | .enum vs => (∀ v ∈ vs, SeqApart env (fieldTypes v.fields)) ∧
        ∀ before v mid w after, vs = before ++ v :: (mid ++ w :: after) →
          (¬ ∀ t ∈ fieldTypes v.fields, Skippable env t) ∧
          ∀ u b, SeqLead env (fieldTypes v.fields) u → SeqLead env (fieldTypes w.fields) b → Apart env u b
  | .maybe p t => ¬ Skippable env p ∧ SeqApart env [p, t]
  | .paren t => ∀ u, Grabs env t u → Refuses env u []
  | .bracket t => ∀ u, Grabs env t u → Refuses env u []
  | .brace t => ∀ u, Grabs env t u → Refuses env u []
  | .punctuated t p => (∀ n, SeqApart env (alternate t p n)) ∧ (∀ u, Grabs env t u → Refuses env u []) ∧
      (p = .leaf .notEof ∨ ∀ u, Grabs env p u → Refuses env u [])
  | .separated t p => ¬ Skippable env p ∧ ∀ n, SeqApart env (alternate t p n)
  | .any t => ¬ Skippable env t ∧ ∀ n, SeqApart env (List.replicate n t)
  | .leftAssoc o r => ¬ Skippable env o ∧ ∀ n, SeqApart env (alternate r o n)
  | .rightAssoc o l => ¬ Skippable env o ∧ ∀ n, SeqApart env (alternate l o n)
  | .either l r => ¬ Skippable env l ∧ ∀ u w, Lead env l u → Lead env r w → Apart env u w
  | _ => True

/-- An LL(1) grammar: a list of types that contains the parts of its types, without left recursion and empty rounds (C29), all of them predictive. -/
structure Grammar (env : Env) (G : List Ty) : Prop where
  closed : ∀ t ∈ G, ∀ u, PartOf env u t → u ∈ G
  noLeftRecursion : ∀ t ∈ G, ¬ Chain (StartsWith env) t t
  rounds : ∀ t ∈ G, RoundsRead env t
  predictive : ∀ t ∈ G, Predictive env t

/-- The leaf has a token form that reads back: operators do not contain a quote; a `Lit::Int` is negative (C37). -/
def LeafSurvives : Leaf → LeafVal → Prop
  | .punct tok, _ => '\'' ∉ tok
  | .lit .any, .lit (.int v) _ => v < 0
  | _, _ => True

mutual
/-- Every leaf survives, and no `Punctuated` ends in an item or separator without any token (which would leave no trace). -/
def Survives : Val → Prop
  | .leaf l v => LeafSurvives l v
  | .group _ _ v => Survives v
  | .node tag vs => (tag = .punctuated → ∀ w, vs.getLast? = some w → w.toTokens ≠ some []) ∧ SurvivesL vs
/-- The same for a list of values. -/
def SurvivesL : List Val → Prop
  | [] => True
  | v :: vs => Survives v ∧ SurvivesL vs
end

end Parsel.Spec
