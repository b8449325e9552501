import Verif.Model.Lex

/-! `try_parse_quote!` and `try_parse_quote_spanned!` (parsel/src/util.rs), with the parts of the crate `quote` that they use. -/

namespace Parsel
variable [Ext]

/-- A piece of a template: a token that is written in the macro call, or `#node`.  (EXTERNAL: the tokens of the macro call are those of rustc, so that an
operator, however many characters it has, is one piece.  Lifetimes are not modelled; neither are interpolated values that are not nodes of this model.) -/
inductive Piece where
  | ident (x : Text)
  | op (tok : Text)
  | lit (raw : Text)
  | group (d : Delim) (ps : List Piece)
  | node (v : Val)

/-- EXTERNAL `quote::__private::respan_token_tree`. -/
def respanT (sp : Span) : TT → TT
  | .ident x _ => .ident x sp
  | .punct c spc _ => .punct c spc sp
  | .lit r _ => .lit r sp
  | .group d ts _ => .group d (go sp ts) sp
where
  /-- The same for streams. -/
  go (sp : Span) : List TT → List TT
    | [] => []
    | t :: ts => respanT sp t :: go sp ts

/-- EXTERNAL `quote::__private::parse` (of `quote!`), `parse_spanned` (of `quote_spanned!`): how literals of the template become tokens. `none` = panic. -/
def quoteLit (sp : Option Span) (raw : Text) : Option (List TT) :=
  match sp with
  | none => lex raw
  | some sp => (lex raw).map (respanT.go sp)

mutual
/-- EXTERNAL `quote!` (`sp` is `none`: everything that is written in the template is at the call site) and `quote_spanned!` (at `sp`), token by token
(`quote_token!`, `push_ident`, `push_group`, `push_add` and so on); an interpolated node is printed with `ToTokens`, as it is: not in a group. `none` = panic. -/
def expandPiece (sp : Option Span) : Piece → Option (List TT)
  | .ident x => some [.ident x (sp.getD .callSite)]
  | .op tok => some (punctTokens tok (tok.map fun _ => sp.getD .callSite))
  | .lit raw => quoteLit sp raw
  | .group d ps => (expand sp ps).map fun ts => [.group d ts (sp.getD .callSite)]
  | .node v => v.toTokens
/-- The same for whole templates. -/
def expand (sp : Option Span) : List Piece → Option (List TT)
  | [] => some []
  | p :: ps =>
    match expandPiece sp p, expand sp ps with
    | some a, some b => some (a ++ b)
    | _, _ => none
end

/-- EXTERNAL `#(#nodes)sep*` in a template: the nodes, with the separator between them. -/
def repeatPieces (sep : Option Text) : List Val → List Piece
  | [] => []
  | [v] => [.node v]
  | v :: vs => .node v :: (sep.map Piece.op).toList ++ repeatPieces sep vs

/-- util.rs:36-41 `try_parse_quote!` (`sp` is `none`), 86-91 `try_parse_quote_spanned!`: `parse2` of what the template stands for; an error is returned
(with `?`) by the surrounding function. -/
def tryParseQuote {α : Type} (p : Parser α) (sp : Option Span) (ps : List Piece) : Top α :=
  match expand sp ps with
  | some ts => parse2 p ts
  | none => .panic

end Parsel
