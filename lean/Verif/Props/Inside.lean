import Verif.Proofs.LoneGroup
import Verif.Props.Peg
import Verif.Props.Snippet
import Verif.Props.Written
import Verif.Props.Layout

/-!
C95: a node in delimiters is its contents: what the text between the delimiters is.
-/

namespace Parsel

open Spec

section

variable [Ext]

/-- What a delimited node type accepts in a stream without invisible groups: one group, whose contents the inner type accepts. -/
theorem group_accepts {env : Env} {g t : Ty} {d : Delim} {ts : List TT} {v : Val} (hg : GroupTy g d t) (hv : Visible ts) :
    Accepts env g ts v ↔ ∃ inner sp w, ts = [.group d inner sp] ∧ v = .group d sp w ∧ Accepts env t inner w := by
  rw [C63_accepts]
  constructor
  · rintro ⟨rest, hm, hr⟩
    have key : ∀ l, Matches env g ts v rest l → l = none →
        ∃ inner sp w unread l1 l2, v = .group d sp w ∧ Next ts (.group d inner sp) rest ∧ Matches env t inner w unread l1 ∧ FirstUnread unread l2 ∧ l1.or l2 = none := by
      intro l hm hn
      cases hg <;>
      · cases hm with
        | group hg h1 h2 h3 => cases hg; exact ⟨_, _, _, _, _, _, rfl, h1, h2, h3, hn⟩
    obtain ⟨inner, sp, w, unread, l1, l2, rfl, h1, h2, h3, h4⟩ := key none hm rfl
    have e := next_visible hv h1
    subst e
    have hrest : rest = [] := by
      cases rest with
      | nil => rfl
      | cons x r =>
        refine absurd (Next.here fun inner sp hx => ?_) (hr x r)
        subst hx
        exact absurd .head (hv.tail _ _)
    subst hrest
    refine ⟨inner, sp, w, rfl, rfl, C63_accepts.mpr ⟨unread, ?_, ?_⟩⟩
    · cases l1 with
      | none => exact h2
      | some s => cases h4
    · cases h3 with
      | nothing h => exact h
      | token h => cases l1 <;> cases h4
  · rintro ⟨inner, sp, w, rfl, rfl, h⟩
    obtain ⟨unread, h1, h2⟩ := C63_accepts.mp h
    refine ⟨[], .group (l1 := none) (l2 := none) hg (.here fun i s hh => ?_) h1 (.nothing h2), fun x r hx => by cases hx⟩
    cases hg <;> cases hh

/-- **C95**: what `Paren<T>`, `Bracket<T>` and `Brace<T>` accept is, but for white space and comments around it, a text between such delimiters that `T` accepts; the
value is that of the text between the delimiters, at its location, and the location of the node is that of the delimiters and what is between them. -/
theorem C95_inside {env : Env} {g t : Ty} {d : Delim} {src : Text} {v : Val} (hg : GroupTy g d t) (h : AcceptsStr env g src v) :
    ∃ body sp w w', OneGroup d src body sp ∧ v = .group d sp w ∧ AcceptsStr env t body w' ∧ Alike w w' := by
  obtain ⟨ts, hl, ha, _⟩ := acceptsStr_reads h
  obtain ⟨inner, sp, w, rfl, rfl, hw⟩ := (group_accepts hg (C60_visible hl)).mp ha
  obtain ⟨bom, g, o, body, c, e, inner', rfl, hb, hgap, he, hd, rfl, hl', hs⟩ := lex_group hl
  obtain ⟨w', ⟨m, hm⟩, hal⟩ := C31_accepts hs hw
  refine ⟨body, _, w, w', .mk hb hgap he hd, rfl, ⟨m, ?_⟩, hal⟩
  unfold parseStr
  simp only [hl']
  exact hm

end

section
attribute [local instance] signExt

/-- What is met: an optional byte order mark, comments, brackets, and inside them names separated by commas, with comments. -/
def insideSrc : Text := "\uFEFF/*a*/ [ x/*b*/, y // c\n] // d".toList

theorem inside_accepts : ∃ v, AcceptsStr demoEnv (.bracket (.separated (.leaf (.customIdent [])) (.leaf (.punct ",".toList)))) insideSrc v := acceptsStr_of (n := 5) (by decide +kernel)

example : ∃ body sp v w w', OneGroup .bracket insideSrc body sp ∧ AcceptsStr demoEnv (.bracket (.separated (.leaf (.customIdent [])) (.leaf (.punct ",".toList)))) insideSrc v ∧ v = .group .bracket sp w ∧
    AcceptsStr demoEnv (.separated (.leaf (.customIdent [])) (.leaf (.punct ",".toList))) body w' ∧ Alike w w' := by
  obtain ⟨v, hv⟩ := inside_accepts
  obtain ⟨body, sp, w, w', h1, h2, h3, h4⟩ := C95_inside .bracket hv
  exact ⟨body, sp, v, w, w', h1, hv, h2, h3, h4⟩

/-- `( x ) y` is not a parenthesized name: there is something after it. -/
example {env : Env} {kws : List Text} {v : Val} : ¬ AcceptsStr env (.paren (.leaf (.customIdent kws))) "(x) y".toList v := by
  intro h
  obtain ⟨ts, hl, ha, _⟩ := acceptsStr_reads h
  obtain ⟨inner, sp, w, rfl, _, _⟩ := (group_accepts .paren (C60_visible hl)).mp ha
  have : (lex "(x) y".toList).map List.length = some 2 := by decide +kernel
  rw [hl] at this
  cases this

end

end Parsel
