import Verif.Model.Quote
import Verif.Spec.Grammar
import Verif.Spec.Source
import Verif.Spec.Format

/-
Specification: templates that spell out a node, in which any of its parts may be interpolated instead.
-/

namespace Parsel.Spec
variable [Ext]

/-- Where the tokens that are written in a template are: at the given location, without one at the call site ... -/
def writtenAt : Option Span → Span
  | none => .callSite
  | some sp => sp

/-- ... except for literals, which are then in a text of their own. -/
def literalAt : Option Span → Text → Span
  | none, raw => stretchSpan [] raw
  | some sp, _ => sp

mutual
/-- The template `ps` spells out the node `v`, whose locations are those of the template; parts of `v` may be interpolated. -/
inductive Quoted (sp : Option Span) : Val → List Piece → Prop
  /-- `#v` -/
  | node {v} : Quoted sp v [.node v]
  | unit {l} : Quoted sp (.leaf l .unit) []
  | ident {l x} : (∃ kws, l = .customIdent kws) ∨ l = .rustIdent → Quoted sp (.leaf l (.ident x (writtenAt sp))) [.ident x]
  | keyword {kw} : Quoted sp (.leaf (.keyword kw) (.mark [writtenAt sp])) [.ident kw]
  | kwToken {kw} : Quoted sp (.leaf (.kwToken kw) (.mark [writtenAt sp])) [.ident kw]
  | punct {tok} : Quoted sp (.leaf (.punct tok) (.mark (tok.map fun _ => writtenAt sp))) [.op tok]
  | bool {k b} : Quoted sp (.leaf (.lit k) (.lit (.bool b) (writtenAt sp))) [.ident (if b then "true".toList else "false".toList)]
  | lit {k v s raw} : LitText raw → LitTokens [.lit raw (literalAt sp raw)] v s → Quoted sp (.leaf (.lit k) (.lit v s)) [.lit raw]
  /-- `-5` -/
  | minus {k v s raw} : LitText raw → LitTokens [.punct '-' .alone (writtenAt sp), .lit raw (literalAt sp raw)] v s →
      Quoted sp (.leaf (.lit k) (.lit v s)) [.op ['-'], .lit raw]
  | group {d v ps} : Quoted sp v ps → Quoted sp (.group d (writtenAt sp) v) [.group d ps]
  | parts {tag vs ps} : QuotedL sp vs ps → Quoted sp (.node tag vs) ps
/-- The same for lists of nodes. -/
inductive QuotedL (sp : Option Span) : List Val → List Piece → Prop
  | nil : QuotedL sp [] []
  | cons {v ps vs qs} : Quoted sp v ps → QuotedL sp vs qs → QuotedL sp (v :: vs) (ps ++ qs)
end

mutual
/-- The node is interpolated in the piece. -/
def PieceHas (v : Val) : Piece → Prop
  | .node w => w = v
  | .group _ ps => TemplateHas v ps
  | _ => False
/-- The node is interpolated in the template, at any depth. -/
def TemplateHas (v : Val) : List Piece → Prop
  | [] => False
  | p :: ps => PieceHas v p ∨ TemplateHas v ps
end

end Parsel.Spec
