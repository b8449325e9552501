import Verif.Spec.Derive
import Verif.Spec.Termination

/-
Specification vocabulary: which declared types mention which.
-/

namespace Parsel.Spec

/-- The declared type `x` occurs in the type. -/
def NamedIn (x : Text) : Ty → Prop
  | .leaf _ => False
  | .named y => x = y
  | .boxed t => NamedIn x t
  | .maybe p t => NamedIn x p ∨ NamedIn x t
  | .paren t => NamedIn x t
  | .bracket t => NamedIn x t
  | .brace t => NamedIn x t
  | .punctuated t p => NamedIn x t ∨ NamedIn x p
  | .separated t p => NamedIn x t ∨ NamedIn x p
  | .any t => NamedIn x t
  | .leftAssoc o r => NamedIn x o ∨ NamedIn x r
  | .rightAssoc o l => NamedIn x o ∨ NamedIn x l
  | .either a b => NamedIn x a ∨ NamedIn x b

/-- All the fields of a declaration. -/
def declFields : TypeDef → List (FieldDef Ty)
  | .struct f => f.defs
  | .enum vs => vs.flatMap fun v => v.fields.defs

/-- `y` occurs in the type of a field of `x` that is not marked `#[parsel(recursive)]`. -/
def Mentions (env : Env) (x y : Text) : Prop := ∃ f ∈ declFields (env x), f.attr = .ok false ∧ NamedIn y f.ty

/-- The same fields but for their attributes. -/
def SameButMarks : Fields τ → Fields τ → Prop
  | .named fs, .named gs => fs.map (fun f => (f.1, f.2.ty)) = gs.map fun f => (f.1, f.2.ty)
  | .unnamed fs, .unnamed gs => fs.map (·.ty) = gs.map (·.ty)
  | .unit, .unit => True
  | _, _ => False

/-- The same item but for the attributes of its fields (and the user's predicates). -/
inductive SameItem : DeriveInput τ ρ → DeriveInput τ ρ → Prop
  | struct {x : Text} {f g : Fields τ} {p q : List ρ} : SameButMarks f g → SameItem ⟨x, .struct f, p⟩ ⟨x, .struct g, q⟩
  | enum {x : Text} {p q : List ρ} {vs ws : List (VariantDef τ)} : vs.map (·.ident) = ws.map (·.ident) → (∀ v w, (v, w) ∈ vs.zip ws → SameButMarks v.fields w.fields) →
      SameItem ⟨x, .enum vs, p⟩ ⟨x, .enum ws, q⟩

end Parsel.Spec
