import Verif.Model.Derive

/-
Specification vocabulary for derived code: sequencing, ordered choice, error selection.  Nothing here mentions the
generated code.
-/

namespace Parsel.Spec

variable {τ ρ V : Type}

/-- Field types of a struct or variant in declaration order. -/
def fieldTypes (fs : Fields τ) : List τ := fs.defs.map (·.ty)

/-- How fields are called in error messages: by name, or by zero-based decimal position. -/
def fieldLabels : Fields τ → List Text
  | .named fs => fs.map Prod.fst
  | .unnamed fs => (List.range fs.length).map natText
  | .unit => []

/-- The types `ts`, parsed one after another, each where the previous one stopped, all succeed with values `vs`. -/
inductive SeqOk (P : τ → Parser V) : List τ → PState → List V → PState → Prop
  | nil (s) : SeqOk P [] s [] s
  | cons {t ts s v s1 vs s2} : P t s = .ok v s1 → SeqOk P ts s1 vs s2 → SeqOk P (t :: ts) s (v :: vs) s2

/-- Parsing the types `ts` one after another, the first failure is at position `i` with error `e`
(all earlier ones succeeded; later ones are not mentioned). -/
inductive SeqErr (P : τ → Parser V) : List τ → PState → Nat → Err → Prop
  | here {t ts s e} : P t s = .err e → SeqErr P (t :: ts) s 0 e
  | there {t ts s v s1 i e} : P t s = .ok v s1 → SeqErr P ts s1 i e → SeqErr P (t :: ts) s (i + 1) e

/-- The line that an enclosing production adds in front of an error message; `enum_ = []` means: a struct. -/
def errorLine (enum_ ctor field : Text) : Text :=
  if enum_ = [] then "error parsing ".toList ++ ctor ++ "::".toList ++ field ++ ", caused by:\n".toList
  else "error parsing ".toList ++ enum_ ++ "::".toList ++ ctor ++ "::".toList ++ field ++ ", caused by:\n".toList

/-- Elementwise relation between two lists of the same length. -/
inductive Each {α β : Type} (R : α → β → Prop) : List α → List β → Prop
  | nil : Each R [] []
  | cons {a b as bs} : R a b → Each R as bs → Each R (a :: as) (b :: bs)

/-- The error that one variant `v` of enum `en`, tried alone from the position of `s`, ends with: the error of its first
failing field with the line naming that field put in front. -/
def VariantErr (P : τ → Parser V) (en : Text) (s : PState) (v : VariantDef τ) (e : Err) : Prop :=
  ∃ i l e0, SeqErr P (fieldTypes v.fields) { s with unexp := none } i e0 ∧ (fieldLabels v.fields)[i]? = some l ∧
    e = ⟨e0.span, errorLine en v.ident l ++ e0.msg⟩

/-- `e` is the last one among those elements of `errs` whose span ends furthest. -/
def IsLastFurthest (errs : List Err) (e : Err) : Prop :=
  ∃ pre post, errs = pre ++ e :: post ∧
    (∀ x ∈ pre, x.span.stop.le e.span.stop = true) ∧ (∀ x ∈ post, x.span.stop.lt e.span.stop = true)

/-- One enclosing production on the way to an error: enum name (`[]` for a struct), constructor, field. -/
structure Frame where
  enum_ : Text
  ctor : Text
  field : Text

/-- Message of an error with message `msg` below the productions `path` (outermost first). -/
def renderPath (path : List Frame) (msg : Text) : Text :=
  path.flatMap (fun f => errorLine f.enum_ f.ctor f.field) ++ msg

/-- All fields of an item. -/
def allFields (item : DeriveInput τ ρ) : List (FieldDef τ) :=
  match item.data with
  | .struct fs => fs.defs
  | .enum vs => vs.flatMap fun v => v.fields.defs
  | .union => []

/-- Names of the fields of a struct-like struct or variant; to rustc a field `r#x` is a field named `x`. -/
def fieldNames : Fields τ → List Text
  | .named fs => fs.map fun f => identName f.1
  | _ => []

end Parsel.Spec
