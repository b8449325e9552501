import Verif.Spec.Quote
import Verif.Proofs.Own
import Verif.Proofs.LayoutAt
import Verif.Proofs.Edit
import Verif.Props.Layout

/-! Templates and what they stand for. -/

namespace Parsel
open Spec
variable [Ext]

/-- No literal token has a sign of its own. -/
def Unsigned (ts : List TT) : Prop := ∀ r sp, Occurs (.lit r sp) ts → r.head? ≠ some '-'

omit [Ext] in
theorem Unsigned.append {a b : List TT} (ha : Unsigned a) (hb : Unsigned b) : Unsigned (a ++ b) := fun r sp h => by
  rcases occurs_append h with h | h
  · exact ha r sp h
  · exact hb r sp h

omit [Ext] in
theorem Unsigned.nil : Unsigned [] := fun _ _ h => by cases h

omit [Ext] in
theorem Unsigned.group {d : Delim} {i : List TT} {s : Span} (h : Unsigned i) : Unsigned [.group d i s] := fun r sp ho => by
  cases ho with
  | tail h => cases h
  | inside ho => exact h r sp ho

omit [Ext] in
theorem Unsigned.ident {x : Text} {s : Span} : Unsigned [.ident x s] := fun r sp ho => by
  cases ho with
  | tail h => cases h

omit [Ext] in
theorem Unsigned.lit {r : Text} {s : Span} (h : LitText r) : Unsigned [.lit r s] := fun r sp ho => by
  cases ho with
  | head => exact litText_unsigned h
  | tail h => cases h

omit [Ext] in
theorem unsigned_run : ∀ {tok : Text} {sps : List Span}, Unsigned (punctTokens tok sps)
  | [], _ => by rw [show punctTokens [] _ = [] by cases ‹List Span› <;> rfl]; exact .nil
  | [c], [] => Unsigned.nil
  | [c], [sp] => fun r s ho => by
    cases ho with
    | tail h => cases h
  | [c], sp :: sp' :: sps => fun r s ho => by
    have ho : Occurs (.lit r s) (.punct c .joint sp :: punctTokens [] (sp' :: sps)) := ho
    cases ho with
    | tail h => cases h
  | c :: c' :: tok, [] => Unsigned.nil
  | c :: c' :: tok, sp :: sps => fun r s ho => by
    have ho : Occurs (.lit r s) (.punct c .joint sp :: punctTokens (c' :: tok) sps) := ho
    cases ho with
    | tail h => exact unsigned_run r s h

theorem unsigned_writable {ts : List TT} (h : Writable ts) : Unsigned ts := fun r sp ho => litText_unsigned ((writable_occurs h ho).2 r sp rfl)

theorem unsigned_leaf (laws : FloatLaws) {l : Leaf} {v : LeafVal} {out : List TT} (ho : leafToTokens l v = some out) : Unsigned out := by
  unfold leafToTokens at ho
  split at ho
  all_goals first
    | (simp only [Option.some.injEq] at ho; subst ho; first | exact .nil | exact .ident | exact unsigned_run)
    | (simp only [Option.ite_none_right_eq_some, Option.some.injEq] at ho; obtain ⟨_, rfl⟩ := ho; exact .ident)
    | exact unsigned_writable (litToTokens_writable laws ho).1
    | cases ho

mutual
theorem toTokens_unsigned (laws : FloatLaws) : ∀ {v : Val} {out : List TT}, v.toTokens = some out → Unsigned out
  | .leaf l v, out, ho => unsigned_leaf laws ho
  | .group d sp v, out, ho => by
    simp only [Val.toTokens, Option.map_eq_some_iff] at ho
    obtain ⟨x, hx, rfl⟩ := ho
    exact .group (toTokens_unsigned laws hx)
  | .node _ vs, out, ho => toTokensL_unsigned laws (by simpa only [Val.toTokens] using ho)
theorem toTokensL_unsigned (laws : FloatLaws) : ∀ {vs : List Val} {out : List TT}, Val.toTokensL vs = some out → Unsigned out
  | [], out, ho => by
    simp only [Val.toTokensL, Option.some.injEq] at ho
    subst ho; exact .nil
  | v :: vs, out, ho => by
    obtain ⟨a, b, ha, hb, rfl⟩ := toTokensL_cons ho
    exact (toTokens_unsigned laws ha).append (toTokensL_unsigned laws hb)
end

/-- A literal alone in a text. -/
theorem lex_single {r : Text} (h : LitText r) : lex r = some [.lit r (stretchSpan [] r)] := by
  have hl : Layout [.lit r .callSite] ([] ++ (r ++ [])) := .lit .nil ⟨by simp, by simp⟩ (.nil .nil)
  have hw : Writable [.lit r .callSite] := .lit h .nil
  rw [List.nil_append, List.append_nil] at hl
  obtain ⟨us, hu, _⟩ := lex_layout hl hw
  obtain ⟨hs, ha⟩ := lex_layout_at hl hw hu
  cases hs with
  | lit hs =>
    cases hs
    rw [hu]
    rename_i sp' _
    suffices h : ∀ us x, LayoutAt [] us x → us = [.lit r sp'] → x = r → sp' = stretchSpan [] r by rw [h _ _ ha rfl rfl]
    intro us x ha e1 e2
    cases ha with
    | lit hg hp ht =>
      rename_i g x _ rest
      simp only [List.cons.injEq, TT.lit.injEq, List.nil_append] at e1
      obtain ⟨⟨rfl, h2⟩, _⟩ := e1
      have := congrArg List.length e2
      simp only [List.length_append] at this
      have hg0 : g = [] := List.eq_nil_of_length_eq_zero (by omega)
      subst hg0
      exact h2.symm
    | _ => simp at e1

theorem quoteLit_single {r : Text} (h : LitText r) (sp : Option Span) : quoteLit sp r = some [.lit r (literalAt sp r)] := by
  cases sp with
  | none => exact lex_single h
  | some sp => simp only [quoteLit, lex_single h]; rfl

omit [Ext] in
theorem writtenAt_eq (sp : Option Span) : sp.getD .callSite = writtenAt sp := by cases sp <;> rfl

theorem expand_append {sp : Option Span} : ∀ {ps qs : List Piece} {a b : List TT}, expand sp ps = some a → expand sp qs = some b → expand sp (ps ++ qs) = some (a ++ b)
  | [], qs, a, b, ha, hb => by
    simp only [expand, Option.some.injEq] at ha
    subst ha; exact hb
  | p :: ps, qs, a, b, ha, hb => by
    rw [expand] at ha
    split at ha
    · rename_i x y hx hy
      cases ha
      rw [List.cons_append, expand, hx, expand_append hy hb]
      simp
    · cases ha

theorem expand_one {sp : Option Span} {p : Piece} {a : List TT} (h : expandPiece sp p = some a) : expand sp [p] = some a := by
  simp [expand, h]

omit [Ext] in
theorem dissolve_run : ∀ (tok : Text) (sps : List Span), dissolve (punctTokens tok sps) = punctTokens tok sps
  | [], [] => rfl
  | [], _ :: _ => rfl
  | [_], [] => rfl
  | [_], [_] => rfl
  | [c], sp :: sp' :: sps => rfl
  | _ :: _ :: _, [] => rfl
  | c :: c' :: tok, sp :: sps => by
    show dissolve (.punct c .joint sp :: punctTokens (c' :: tok) sps) = _
    simp only [dissolve, dissolveT]
    rw [dissolve_run]; rfl

mutual
/-- What a template that spells out a node stands for. -/
theorem quoted_expands (laws : FloatLaws) {sp : Option Span} : ∀ {v : Val} {ps : List Piece}, Quoted sp v ps → Formed v → Printable v →
    ∃ ts, expand sp ps = some ts ∧ Reads false v ts ∧ dissolve ts = ts ∧ Unsigned ts
  | v, _, .node, hf, hp => by
    obtain ⟨out, ho⟩ := Option.isSome_iff_exists.mp ((formed_prints hf).mpr hp)
    obtain ⟨h1, h2⟩ := formed_own laws hf ho
    exact ⟨out, expand_one ho, h1, h2, toTokens_unsigned laws ho⟩
  | _, _, .unit, hf, _ => by
    refine ⟨[], rfl, ⟨rfl, .unit ?_⟩, rfl, .nil⟩
    cases hf <;> simp
  | _, _, .ident (x := x) h, _, _ => ⟨[.ident x (writtenAt sp)], by simp [expand, expandPiece, writtenAt_eq], ⟨rfl, .ident h⟩, rfl, .ident⟩
  | _, _, .keyword (kw := kw), _, _ => ⟨[.ident kw (writtenAt sp)], by simp [expand, expandPiece, writtenAt_eq], ⟨rfl, .keyword⟩, rfl, .ident⟩
  | _, _, .kwToken (kw := kw), _, _ => ⟨[.ident kw (writtenAt sp)], by simp [expand, expandPiece, writtenAt_eq], ⟨rfl, .kwToken⟩, rfl, .ident⟩
  | _, _, .punct (tok := tok), _, _ => ⟨punctTokens tok (tok.map fun _ => writtenAt sp), by simp [expand, expandPiece, writtenAt_eq],
      ⟨rfl, .punct (punctTokens_run (by simp))⟩, dissolve_run _ _, unsigned_run⟩
  | _, _, .bool (b := b), _, _ => ⟨[.ident (if b then "true".toList else "false".toList) (writtenAt sp)], by simp only [expand, expandPiece, writtenAt_eq, List.append_nil],
      ⟨rfl, .lit (.bool b _)⟩, rfl, .ident⟩
  | _, _, .lit (raw := raw) ht h, _, _ => ⟨[.lit raw (literalAt sp raw)], expand_one (quoteLit_single ht sp), ⟨rfl, .lit h⟩, rfl, .lit ht⟩
  | _, _, .minus (raw := raw) ht h, _, _ => ⟨[.punct '-' .alone (writtenAt sp), .lit raw (literalAt sp raw)], by
        have h1 : expandPiece sp (.op ['-']) = some [.punct '-' .alone (writtenAt sp)] := by simp [expandPiece, punctTokens, writtenAt_eq]
        exact expand_append (expand_one h1) (expand_one (quoteLit_single ht sp)),
      ⟨rfl, .lit h⟩, rfl, Unsigned.append (a := [_]) (unsigned_run (tok := ['-']) (sps := [_])) (.lit ht)⟩
  | _, _, .group (d := d) h, hf, hp => by
    obtain ⟨ts, h1, h2, h3, h4⟩ := quoted_expands laws h hf.2 hp
    refine ⟨[.group d ts (writtenAt sp)], by simp [expand, expandPiece, writtenAt_eq, h1], ⟨ts, [], false, by simp, h2, rfl⟩, ?_, .group h4⟩
    have hd := hf.1
    cases d <;> simp_all [dissolve, dissolveT]
  | _, _, .parts h, hf, hp => quotedL_expands laws h hf hp
/-- The same for lists. -/
theorem quotedL_expands (laws : FloatLaws) {sp : Option Span} : ∀ {vs : List Val} {ps : List Piece}, QuotedL sp vs ps → FormedL vs → PrintableL vs →
    ∃ ts, expand sp ps = some ts ∧ ReadsL false vs ts ∧ dissolve ts = ts ∧ Unsigned ts
  | _, _, .nil, _, _ => ⟨[], rfl, ⟨rfl, rfl⟩, rfl, .nil⟩
  | _, _, .cons h1 h2, hf, hp => by
    obtain ⟨a, a1, a2, a3, a4⟩ := quoted_expands laws h1 hf.1 hp.1
    obtain ⟨b, b1, b2, b3, b4⟩ := quotedL_expands laws h2 hf.2 hp.2
    exact ⟨a ++ b, expand_append a1 b1, ⟨a, b, false, false, rfl, a2, b2, rfl⟩, by rw [dissolve_append, a3, b3], a4.append b4⟩
end

end Parsel
