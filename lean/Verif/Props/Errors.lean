import Verif.Proofs.Typed
import Verif.Proofs.Locate
import Verif.Props.Grammar

/-! Whole grammars: errors (C06, C51), types of values (C52), panics (C53). -/

namespace Parsel
open Spec

section
variable [Ext]

/-- **C06.** Whatever the nesting: an error that reaches the caller comes from a basic failure (a leaf that does not parse, a group that is not
there, an enum without variants) at a position of the input that was reached; the location is the one of that failure, and its message is the message
of that failure behind one line per production and field passed on the way from the type `t` to the failing type `u`, outermost first. -/
theorem C06_nested {env : Env} {t : Ty} {s : PState} {e : Err} (h : Fails env t s e) :
    ∃ path u s0 e0, Path env t path u ∧ Reach s.cur s.scope s0.cur s0.scope ∧ Basic env u s0 e0 ∧
      e.span = e0.span ∧ e.msg = renderPath path e0.msg := by
  obtain ⟨n, h⟩ := h
  obtain ⟨path, u, s0, e0, h1, h2, h3, rfl⟩ := parse_origin env n t s e h
  exact ⟨path, u, s0, e0, h1, h2, h3, rfl, rfl⟩

/-- **C51.** The location of an error belongs to a position that was reached: it is the one of the next token there (opening delimiter of a group),
of a number with its minus sign, or of the end of the level if nothing follows there. -/
theorem C51_position {env : Env} {t : Ty} {s : PState} {e : Err} (h : Fails env t s e) :
    ∃ ts scope, Reach s.cur s.scope ts scope ∧ LocAt ts scope e.span := by
  obtain ⟨path, u, s0, e0, _, h2, h3, h4, _⟩ := C06_nested h
  exact ⟨s0.cur, s0.scope, h2, h4 ▸ basic_loc h3⟩

/-- **C51.** The location of an error is that of a token, delimiter or number of the input, or the end of the input if the parser got there. -/
theorem C51_location {env : Env} {t : Ty} {s : PState} {e : Err} (h : Fails env t s e) :
    InputLoc s.cur e.span ∨ e.span = s.scope ∧ Reach s.cur s.scope [] s.scope := by
  obtain ⟨ts, scope, h1, h2⟩ := C51_position h
  rcases reach_loc h1 h2 with h | ⟨rfl, rfl, h4⟩
  · exact .inl h
  · exact .inr ⟨h4, h1⟩

/-- **C51** for whole streams: the same for everything that `parse2` rejects, including leftovers ("unexpected token"). -/
theorem C51_rejected {env : Env} {t : Ty} {ts : List TT} {e : Err} (h : Rejects env t ts e) :
    InputLoc ts e.span ∨ e.span = .callSite ∧ Reach ts .callSite [] .callSite := by
  obtain ⟨n, h⟩ := h
  cases h1 : parse env n t ⟨ts, .callSite, none⟩ with
  | ok v s' =>
    simp only [parse2, h1] at h
    have hr : Reach ts .callSite s'.cur s'.scope := (parse_moves_true env n _ _ _ _ h1).reach
    cases hu : s'.unexp with
    | some sp =>
      simp only [hu, Top.err.injEq] at h
      rcases parse_recorded env n _ _ _ _ h1 with h2 | ⟨us, sc, u, rest, h3, h4, h5⟩
      · rw [hu] at h2; cases h2
      · rw [hu] at h5
        simp only [Option.some.injEq] at h5
        left
        rw [← h, h5]
        exact .token ((reach_occurs h3).1 _ (next_occurs h4).1)
    | none =>
      simp only [hu, unexpectedSpan] at h
      cases hc : uncons s'.cur with
      | none => simp only [hc, Option.map_none] at h; cases h
      | some y =>
        simp only [hc, Option.map_some, Top.err.injEq] at h
        left
        rw [← h]
        exact .token ((reach_occurs hr).1 _ (next_occurs ((uncons_iff _ y.1 y.2).mp hc)).1)
  | err e' =>
    simp only [parse2, h1, Top.err.injEq] at h
    rw [← h]
    exact C51_location ⟨n, h1⟩
  | panic => simp only [parse2, h1] at h; cases h
  | oof => simp only [parse2, h1] at h; cases h

/-- **C52.** A successfully parsed value is a value of the type it was parsed as. -/
theorem C52_typed {env : Env} {t : Ty} {s s' : PState} {v : Val} (h : Parses env t s v s') : HasTy env t v := by
  obtain ⟨n, h⟩ := h
  exact parse_hasTy env n t s v s' h

/-- **C52** for whole streams. -/
theorem C52_typed_accepted {env : Env} {t : Ty} {ts : List TT} {v : Val} (h : Accepts env t ts v) : HasTy env t v := by
  obtain ⟨s', h⟩ := accepts_parses h
  exact C52_typed h

/-- **C53.** If every literal token of the input has the text of a literal, no parse of any grammar panics. -/
theorem C53_no_panic {env : Env} {t : Ty} {s : PState} (h : Readable s.cur) : ¬ Panics env t s := by
  rintro ⟨n, hn⟩
  exact parse_no_panic env n t s h hn

/-- **C53** for whole streams. -/
theorem C53_no_panic_parse2 {env : Env} {t : Ty} {ts : List TT} (h : Readable ts) (n : Nat) : parse2 (parse env n t) ts ≠ .panic := by
  intro h2
  cases h1 : parse env n t ⟨ts, .callSite, none⟩ with
  | ok v s' =>
    simp only [parse2, h1] at h2
    split at h2
    · cases h2
    · split at h2 <;> cases h2
  | err e' => simp only [parse2, h1] at h2; cases h2
  | panic => exact parse_no_panic env n t _ h h1
  | oof => simp only [parse2, h1] at h2; cases h2

end

section
attribute [local instance] toyExt

/-- `let x = y + ;` -/
def badTokens : List TT :=
  [.ident "let".toList (spAt 0 3), .ident "x".toList (spAt 4 5), .punct '=' .alone (spAt 6 7),
   .ident "y".toList (spAt 8 9), .punct '+' .alone (spAt 10 11), .punct ';' .alone (spAt 12 13)]

/-- The example fails below two productions. -/
theorem bad_fails : Fails demoEnv (.named "Let".toList) ⟨badTokens, .callSite, none⟩
    ⟨spAt 12 13, "error parsing Let::value, caused by:\nerror parsing Expr::Var::0, caused by:\nexpected ident".toList⟩ := ⟨20, rfl⟩

example : Rejects demoEnv (.named "Let".toList) badTokens
    ⟨spAt 12 13, "error parsing Let::value, caused by:\nerror parsing Expr::Var::0, caused by:\nexpected ident".toList⟩ := ⟨20, rfl⟩
/-- An error at the end of the input has no location of the input. -/
example : Rejects demoEnv (.named "Expr".toList) [] ⟨.callSite,
    "error parsing Expr::Var::0, caused by:\nunexpected end of input, expected ident".toList⟩ := ⟨20, rfl⟩
set_option maxRecDepth 4000 in
/-- An error at the end of a group is located at its closing delimiter. -/
example : Rejects demoEnv (.named "Expr".toList) [.group .paren [.lit "7".toList (spAt 1 2), .punct '+' .alone (spAt 3 4)] (spAt 0 5)]
    ⟨spAt 4 5, "error parsing Expr::Group::0, caused by:\nerror parsing Expr::Var::0, caused by:\nunexpected end of input, expected ident".toList⟩ :=
  ⟨20, rfl⟩
example : HasTy demoEnv (.named "Let".toList) demoVal := C52_typed_accepted demo_accepts
example : Readable demoTokens := by
  simp only [demoTokens, Readable, ReadableT, and_true, true_and]
  exact ⟨_, rfl⟩
/-- Text that is no literal does make the parser panic. -/
example : Panics demoEnv (.named "Expr".toList) ⟨[.lit "".toList spA], .callSite, none⟩ := ⟨20, rfl⟩
end

end Parsel
