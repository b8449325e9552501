import Verif.Proofs.ReadLex
import Verif.Props.Errors
import Verif.Props.Termination
import Verif.Props.RoundTrip

/-!
C53, C29, C20 for source texts: every literal that the lexer finds has a value, so that no text makes a parser panic.
-/

namespace Parsel

open Spec

section
variable [Ext]

/-- **C53**, the streams that come from texts: every literal token, on any level, has a value. -/
theorem C53_lexed {src : Text} {ts : List TT} (h : lex src = some ts) : Readable ts := writable_readable (lex_writable h).1

/-- **C53**, source texts: no text, whatever it is, makes the parser of any type of any grammar panic. -/
theorem C53_no_panic_source {env : Env} {t : Ty} (src : Text) (n : Nat) : parseStr (parse env n t) src ≠ .panic := by
  unfold parseStr
  split
  · rename_i ts hl
    exact C53_no_panic_parse2 (C53_lexed hl) n
  · simp

/-- **C29**, source texts: a grammar without left recursion whose rounds read something accepts or rejects every text. -/
theorem C29_terminates_source {env : Env} {G : List Ty} (closed : ∀ t ∈ G, ∀ u, PartOf env u t → u ∈ G)
    (noLeftRecursion : ∀ t ∈ G, ¬ Chain (StartsWith env) t t) (rounds : ∀ t ∈ G, RoundsRead env t) {t : Ty} (ht : t ∈ G) (src : Text) :
    (∃ v, AcceptsStr env t src v) ∨ ∃ e n, parseStr (parse env n t) src = .err e := by
  unfold AcceptsStr parseStr
  cases hl : lex src with
  | none => exact .inr ⟨_, 0, rfl⟩
  | some ts =>
    rcases C29_terminates_parse2 closed noLeftRecursion rounds ht (C53_lexed hl) with ⟨v, n, h⟩ | ⟨e, n, h⟩
    · exact .inl ⟨v, n, h⟩
    · exact .inr ⟨e, n, h⟩

/-- The type `Let` of the example accepts or rejects every text. -/
example (src : Text) : (∃ v, AcceptsStr demoEnv (.named "Let".toList) src v) ∨ ∃ e n, parseStr (parse demoEnv n (.named "Let".toList)) src = .err e :=
  C29_terminates_source demo_closed demo_no_left demo_rounds (by simp [demoG]) src

end

section
attribute [local instance] toyExt

/-- An `e` without an exponent after it begins a suffix; with an exponent the literal is a floating point number. -/
example : readLit "1e_x".toList = some (.int "1".toList) ∧ readLit "1ECMA".toList = some (.int "1".toList) ∧ readLit "0xE".toList = some (.int "14".toList) ∧
    readLit "1e_5x".toList = some (.float "1e5".toList) ∧ readLit "1.5e".toList = some (.float "1.5".toList) ∧ readLit "1e5e6".toList = some (.float "1e5".toList) := by
  decide +kernel

example : lex "1e_x 1e5e6 ".toList = some [.lit "1e_x".toList (⟨⟨1, 0⟩, ⟨1, 4⟩⟩), .lit "1e5e6".toList (⟨⟨1, 5⟩, ⟨1, 10⟩⟩)] := rfl

end

end Parsel
