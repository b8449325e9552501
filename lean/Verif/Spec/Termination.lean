import Verif.Spec.Progress

/-
Specification vocabulary: the structure of grammars that decides about termination.
-/

namespace Parsel.Spec

/-- The type has a production that may read no token at all. -/
inductive CanBeEmpty (env : Env) : Ty → Prop
  | empty : CanBeEmpty env (.leaf .empty)
  | eof : CanBeEmpty env (.leaf .eof)
  | notEof : CanBeEmpty env (.leaf .notEof)
  | punct : CanBeEmpty env (.leaf (.punct []))
  | struct {x fields} : env x = .struct fields → (∀ t ∈ fieldTypes fields, CanBeEmpty env t) → CanBeEmpty env (.named x)
  | enum {x vs v} : env x = .enum vs → v ∈ vs → (∀ t ∈ fieldTypes v.fields, CanBeEmpty env t) → CanBeEmpty env (.named x)
  | boxed {t} : CanBeEmpty env t → CanBeEmpty env (.boxed t)
  | maybe {p t} : CanBeEmpty env (.maybe p t)
  | punctuated {t p} : CanBeEmpty env (.punctuated t p)
  | any {t} : CanBeEmpty env (.any t)
  | separated {t p} : CanBeEmpty env t → CanBeEmpty env (.separated t p)
  | leftAssoc {o r} : CanBeEmpty env r → CanBeEmpty env (.leftAssoc o r)
  | rightAssoc {o l} : CanBeEmpty env l → CanBeEmpty env (.rightAssoc o l)
  | eitherLeft {l r} : CanBeEmpty env l → CanBeEmpty env (.either l r)
  | eitherRight {l r} : CanBeEmpty env r → CanBeEmpty env (.either l r)

/-- A sequence of types may start with `u`: everything in front of it can be empty. -/
def SeqStarts (env : Env) (ts : List Ty) (u : Ty) : Prop := ∃ pre post, ts = pre ++ u :: post ∧ ∀ t ∈ pre, CanBeEmpty env t

/-- Parsing `t` may have to parse `u` before any token has been read. -/
inductive StartsWith (env : Env) : Ty → Ty → Prop
  | struct {x fields u} : env x = .struct fields → SeqStarts env (fieldTypes fields) u → StartsWith env (.named x) u
  | enum {x vs v u} : env x = .enum vs → v ∈ vs → SeqStarts env (fieldTypes v.fields) u → StartsWith env (.named x) u
  | boxed {t} : StartsWith env (.boxed t) t
  | maybe {p t u} : SeqStarts env [p, t] u → StartsWith env (.maybe p t) u
  | punctuated {t p u} : SeqStarts env [t, p] u → StartsWith env (.punctuated t p) u
  | separated {t p u} : SeqStarts env [t, p] u → StartsWith env (.separated t p) u
  | any {t} : StartsWith env (.any t) t
  | leftAssoc {o r u} : SeqStarts env [r, o] u → StartsWith env (.leftAssoc o r) u
  | rightAssoc {o l u} : SeqStarts env [l, o] u → StartsWith env (.rightAssoc o l) u
  | eitherLeft {l r} : StartsWith env (.either l r) l
  | eitherRight {l r} : StartsWith env (.either l r) r

/-- `u` is one of the types that `t` is made of. -/
inductive PartOf (env : Env) : Ty → Ty → Prop
  | struct {x fields u} : env x = .struct fields → u ∈ fieldTypes fields → PartOf env u (.named x)
  | enum {x vs v u} : env x = .enum vs → v ∈ vs → u ∈ fieldTypes v.fields → PartOf env u (.named x)
  | boxed {t} : PartOf env t (.boxed t)
  | maybe {p t u} : u ∈ [p, t] → PartOf env u (.maybe p t)
  | paren {t} : PartOf env t (.paren t)
  | bracket {t} : PartOf env t (.bracket t)
  | brace {t} : PartOf env t (.brace t)
  | punctuated {t p u} : u ∈ [t, p] → PartOf env u (.punctuated t p)
  | separated {t p u} : u ∈ [t, p] → PartOf env u (.separated t p)
  | any {t} : PartOf env t (.any t)
  | leftAssoc {o r u} : u ∈ [o, r] → PartOf env u (.leftAssoc o r)
  | rightAssoc {o l u} : u ∈ [o, l] → PartOf env u (.rightAssoc o l)
  | either {l r u} : u ∈ [l, r] → PartOf env u (.either l r)

/-- If the type is a repetition, a round of it cannot be empty. -/
def RoundsRead (env : Env) : Ty → Prop
  | .punctuated t p => ¬ (CanBeEmpty env t ∧ CanBeEmpty env p)
  | .separated t p => ¬ (CanBeEmpty env t ∧ CanBeEmpty env p)
  | .leftAssoc o r => ¬ (CanBeEmpty env o ∧ CanBeEmpty env r)
  | .rightAssoc o l => ¬ (CanBeEmpty env o ∧ CanBeEmpty env l)
  | .any t => ¬ CanBeEmpty env t
  | _ => True

/-- One or more steps. -/
inductive Chain {α : Type} (r : α → α → Prop) : α → α → Prop
  | one {a b} : r a b → Chain r a b
  | more {a b c} : r a b → Chain r b c → Chain r a c

/-- The very first thing that parsing `t` does, on every input, is to parse `u`. -/
inductive FirstParses (env : Env) : Ty → Ty → Prop
  | struct {x fields u us} : env x = .struct fields → fieldTypes fields = u :: us → FirstParses env (.named x) u
  | enum {x v vs u us} : env x = .enum (v :: vs) → fieldTypes v.fields = u :: us → FirstParses env (.named x) u
  | boxed {t} : FirstParses env (.boxed t) t
  | maybe {p t} : FirstParses env (.maybe p t) p
  | separated {t p} : FirstParses env (.separated t p) t
  | any {t} : FirstParses env (.any t) t
  | leftAssoc {o r} : FirstParses env (.leftAssoc o r) r
  | rightAssoc {o l} : FirstParses env (.rightAssoc o l) l
  | either {l r} : FirstParses env (.either l r) l

/-! ### what a parse is certain to do -/

variable [Ext]

/-- `t` parses at `s` without reading anything. -/
def Idles (env : Env) (t : Ty) (s : PState) : Prop := ∃ v s', Parses env t s v s' ∧ s'.cur = s.cur

/-- Parsing `t` at `s` comes to an end: with a value or with an error. -/
def Halts (env : Env) (t : Ty) (s : PState) : Prop := (∃ v s', Parses env t s v s') ∨ ∃ e, Fails env t s e

/-- The types `ts` parse one after the other from `s`, up to `s'`. -/
inductive SeqParses (env : Env) : List Ty → PState → PState → Prop
  | nil {s} : SeqParses env [] s s
  | cons {t ts s v s1 s2} : Parses env t s v s1 → SeqParses env ts s1 s2 → SeqParses env (t :: ts) s s2

/-- The sequence of types `ts` does not parse at `s`: one of them fails after those before it have parsed. -/
def SeqFails (env : Env) (ts : List Ty) (s : PState) : Prop :=
  ∃ pre t post s1 e, ts = pre ++ t :: post ∧ SeqParses env pre s s1 ∧ Fails env t s1 e

/-- The sequence of types `ts`, parsed from `s`, comes to parse `u` at `s'`. -/
def SeqRuns (env : Env) (ts : List Ty) (s : PState) (u : Ty) (s' : PState) : Prop :=
  ∃ pre post, ts = pre ++ u :: post ∧ SeqParses env pre s s'

/-- Parsing `t` at `s` is certain to parse `u` at `s'` on the way. -/
inductive Runs (env : Env) : Ty → PState → Ty → PState → Prop
  | struct {x fields s u s'} : env x = .struct fields → SeqRuns env (fieldTypes fields) s u s' → Runs env (.named x) s u s'
  | enum {x before v after s u s'} : env x = .enum (before ++ v :: after) → (∀ w ∈ before, SeqFails env (fieldTypes w.fields) s.fork) →
      SeqRuns env (fieldTypes v.fields) s.fork u s' → Runs env (.named x) s u s'
  | boxed {t s} : Runs env (.boxed t) s t s
  | maybePrefix {p t s} : Runs env (.maybe p t) s p s.fork
  | maybeInner {p t s v f} : Parses env p s.fork v f → Runs env (.maybe p t) s t (s.advanceTo f)
  | paren {t s inner sp rest} : Next s.cur (.group .paren inner sp) rest → Runs env (.paren t) s t ⟨inner, sp.closeOf, s.unexp⟩
  | bracket {t s inner sp rest} : Next s.cur (.group .bracket inner sp) rest → Runs env (.bracket t) s t ⟨inner, sp.closeOf, s.unexp⟩
  | brace {t s inner sp rest} : Next s.cur (.group .brace inner sp) rest → Runs env (.brace t) s t ⟨inner, sp.closeOf, s.unexp⟩
  | punctuated {t p s} : s.cur ≠ [] → Runs env (.punctuated t p) s t s
  | separated {t p s} : Runs env (.separated t p) s t s
  | any {t s} : Runs env (.any t) s t s.fork
  | leftAssoc {o r s} : Runs env (.leftAssoc o r) s r s
  | rightAssoc {o l s} : Runs env (.rightAssoc o l) s l s
  | eitherLeft {l r s} : Runs env (.either l r) s l s.fork
  | eitherRight {l r s e} : Fails env l s.fork e → Runs env (.either l r) s r s.fork

end Parsel.Spec
