import Verif.Proofs.RelocateUse
import Verif.Props.Layout
import Verif.Props.Viable

/-! C86: errors do not depend on the layout of the source. -/

namespace Parsel
open Spec

section
variable [Ext]

/-- **C86.** Two streams consist of the same tokens, and in each of them the locations increase: if one is rejected, then so is the other, with the same
message, and the error is located at the same token (at the end of the same group, at the same number). -/
theorem C86_error {env : Env} {t : Ty} {ts ts' : List TT} {e : Err} (hs : SameShape ts ts') (hv : Visible ts) (ho : InOrder ts ∧ AfterStart ts)
    (ho' : InOrder ts' ∧ AfterStart ts') (h : Rejects env t ts e) :
    ∃ e' n, Rejects env t ts' e' ∧ e'.msg = e.msg ∧ SameSpot ts ts' n e.span e'.span := by
  obtain ⟨e', h1, ⟨n, h2⟩, h3⟩ := parse2_paired (couples hs hv ho.1 ho'.1 ho.2 ho'.2) ⟨hs, 0, .here, .here⟩ h
  exact ⟨e', n, h1, h3.symm, h2⟩

theorem rejects_unique {env : Env} {t : Ty} {ts : List TT} {e e' : Err} (h : Rejects env t ts e) (h' : Rejects env t ts e') : e = e' := by
  obtain ⟨n, h⟩ := h
  obtain ⟨m, h'⟩ := h'
  have e1 : parse env n t ⟨ts, .callSite, none⟩ = parse env m t ⟨ts, .callSite, none⟩ := by
    refine parse_unique ?_ ?_
    · intro ho; unfold parse2 at h; rw [ho] at h; cases h
    · intro ho; unfold parse2 at h'; rw [ho] at h'; cases h'
  unfold parse2 at h h'
  rw [e1, h'] at h
  cases h
  rfl

/-- There is only one such error: whatever error the other stream is rejected with is this one. -/
theorem C86_same {env : Env} {t : Ty} {ts ts' : List TT} {e e' : Err} (hs : SameShape ts ts') (hv : Visible ts) (ho : InOrder ts ∧ AfterStart ts)
    (ho' : InOrder ts' ∧ AfterStart ts') (h : Rejects env t ts e) (h' : Rejects env t ts' e') : e'.msg = e.msg ∧ ∃ n, SameSpot ts ts' n e.span e'.span := by
  obtain ⟨e1, n, h1, h2, h3⟩ := C86_error hs hv ho ho' h
  have : e1 = e' := rejects_unique h1 h'
  subst this
  exact ⟨h2, n, h3⟩

/-- The tokens of a text without documentation comments are visible, in order and behind the start, ... -/
theorem C86_lexed {src : Text} {ts : List TT} (h : lex src = some ts) (hd : ∀ a b, src = a ++ b → docComment b = none) :
    Visible ts ∧ InOrder ts ∧ AfterStart ts := by
  obtain ⟨bom, x, _, rfl, hl⟩ := C60_lexed_plain h hd
  exact ⟨laid_visible hl, between_ordered (laid_between hl)⟩

/-- ... and so are those of any text in which tokens are laid out (whatever they contain). -/
theorem C86_laid {ts us : List TT} {x : Text} (hw : Writable ts) (h : Layout ts x) (hl : lex x = some us) : Visible us ∧ InOrder us ∧ AfterStart us := by
  obtain ⟨_, ha⟩ := lex_layout_at h hw hl
  exact ⟨C60_visible hl, between_ordered (layoutAt_between ha (lex_writable hl).1)⟩

/-- **C86** for `from_str`: two layouts of the same tokens (white space, line breaks and comments may differ) are rejected with the same message at the
same token. -/
theorem C86_layout {env : Env} {t : Ty} {ts : List TT} {x y : Text} {e : Err} {n : Nat} (hw : Writable ts) (hx : Layout ts x) (hy : Layout ts y)
    (h : parseStr (parse env n t) x = .err e) : ∃ e' m k us vs, parseStr (parse env m t) y = .err e' ∧ e'.msg = e.msg ∧ lex x = some us ∧ lex y = some vs ∧
      SameShape us vs ∧ SameSpot us vs k e.span e'.span := by
  obtain ⟨us, vs, h1, h2, h3⟩ := C66_same hw hx hy
  simp only [parseStr, h1] at h
  obtain ⟨v1, o1⟩ := C86_laid hw hx h1
  obtain ⟨_, o2⟩ := C86_laid hw hy h2
  obtain ⟨e', k, ⟨m, h4⟩, h5, h6⟩ := C86_error h3 v1 o1 o2 ⟨n, h⟩
  exact ⟨e', m, k, us, vs, by simp only [parseStr, h2]; exact h4, h5, h1, h2, h3, h6⟩

/-- The same for a source text and another layout of its tokens. -/
theorem C86_relayout {env : Env} {t : Ty} {src x : Text} {ts : List TT} {e : Err} {n : Nat} (hl : lex src = some ts)
    (hd : ∀ a b, src = a ++ b → docComment b = none) (hx : Layout ts x) (h : parseStr (parse env n t) src = .err e) :
    ∃ e' m k us, parseStr (parse env m t) x = .err e' ∧ e'.msg = e.msg ∧ lex x = some us ∧ SameShape ts us ∧ SameSpot ts us k e.span e'.span := by
  obtain ⟨us, h2, h3⟩ := C66_relayout hl hx
  simp only [parseStr, hl] at h
  obtain ⟨v1, o1⟩ := C86_lexed hl hd
  obtain ⟨_, o2⟩ := C86_laid (lex_writable hl).1 hx h2
  obtain ⟨e', k, ⟨m, h4⟩, h5, h6⟩ := C86_error h3 v1 o1 o2 ⟨n, h⟩
  exact ⟨e', m, k, us, by simp only [parseStr, h2]; exact h4, h5, h2, h3, h6⟩

end

/-! ### examples -/

section
attribute [local instance] signExt

/-- `(1 +) * 2` in another layout. -/
def badSumB : Text := "( // one\n 1/**/+ )\n  *2".toList

theorem badSum_laid : Layout badSum "(1 +) * 2".toList ∧ Layout badSum badSumB := by
  have spc : Gap [' '] := .white (by decide) .nil
  have nl : Gap "\n  ".toList := .white (by decide) (.white (by decide) (.white (by decide) .nil))
  have g1 : Gap " // one\n ".toList := .white (by decide) (.line (x := " one".toList) (by decide) (by decide) (by decide) spc)
  have g2 : Gap "/**/".toList := .block (x := "/**/".toList) (block_iff.mp (by decide +kernel)) (by decide) (fun _ => .inr rfl) .nil
  have end2 : Parts "2".toList [] := ⟨by simp, by simp⟩
  refine ⟨?_, ?_⟩
  · refine .group (g := []) (body := "1 +".toList) .nil .paren ?_ (by decide) ?_
    · refine .lit (g := []) (rest := " +".toList) .nil (parts_cons (by decide) (by decide) (by decide)) ?_
      exact .alone (g := [' ']) (rest := []) spc (.inl (by simp)) (.nil .nil)
    · refine .alone (g := [' ']) (rest := " 2".toList) spc (clear_cons (by decide)) ?_
      exact .lit (g := [' ']) (rest := []) spc end2 (.nil .nil)
  · refine .group (g := []) (body := " // one\n 1/**/+ ".toList) .nil .paren ?_ (by decide) ?_
    · refine .lit (g := " // one\n ".toList) (rest := "/**/+ ".toList) g1 (parts_cons (by decide) (by decide) (by decide)) ?_
      exact .alone (g := "/**/".toList) (rest := " ".toList) g2 (clear_cons (by decide)) (.nil spc)
    · refine .alone (g := "\n  ".toList) (rest := "2".toList) nl (clear_cons (by decide)) ?_
      exact .lit (g := []) (rest := []) .nil end2 (.nil .nil)

/-- The hypotheses of `C86_layout` are met by the two texts: `(1 +) * 2` is rejected at its closing parenthesis, and so is the other text, with the same
message. -/
example : ∃ e e' n m k us vs, parseStr (parse sumEnv n (.named "Sum".toList)) "(1 +) * 2".toList = .err e ∧ e.span = (spAt 0 5).closeOf ∧
    parseStr (parse sumEnv m (.named "Sum".toList)) badSumB = .err e' ∧ e'.msg = e.msg ∧ lex "(1 +) * 2".toList = some us ∧ lex badSumB = some vs ∧
    SameShape us vs ∧ SameSpot us vs k e.span e'.span := by
  obtain ⟨e, ⟨n, h⟩, he⟩ := badSum_rejected
  have h' : parseStr (parse sumEnv n (.named "Sum".toList)) "(1 +) * 2".toList = .err e := by simp only [parseStr, badSum_lex]; exact h
  obtain ⟨e', m, k, us, vs, h1, h2⟩ := C86_layout (lex_writable badSum_lex).1 badSum_laid.1 badSum_laid.2 h'
  exact ⟨e, e', n, m, k, us, vs, h', he, h1, h2⟩

/-- `a` words separated by commas, or the word `c`. -/
def wordsOrC : Ty := .either (.separated (.leaf (.keyword "a".toList)) (.leaf (.punct [',']))) (.leaf (.keyword "c".toList))

/-- `a , x`, with any locations. -/
def commaX (p q r : Span) : List TT := [.ident "a".toList p, .punct ',' .alone q, .ident "x".toList r]

/-- That the locations increase is needed: `a, x` is about `x`, where an `a` was expected. If all three tokens have the same location (as they do in a
stream made by `quote!`), the error is about the first token, where a `c` was expected. -/
example : Rejects demoEnv wordsOrC (commaX (spAt 0 1) (spAt 1 2) (spAt 3 4)) ⟨spAt 3 4, "expected keyword `a`".toList⟩ ∧
    Rejects demoEnv wordsOrC (commaX (spAt 0 1) (spAt 0 1) (spAt 0 1)) ⟨spAt 0 1, "expected keyword `c`".toList⟩ ∧
    SameShape (commaX (spAt 0 1) (spAt 1 2) (spAt 3 4)) (commaX (spAt 0 1) (spAt 0 1) (spAt 0 1)) :=
  ⟨⟨20, rfl⟩, ⟨20, rfl⟩, .ident (.punct (.ident .nil))⟩

/-- With increasing locations it is about `x` wherever the tokens are: on three lines, say. -/
example : ∃ e', Rejects demoEnv wordsOrC (commaX ⟨⟨1, 0⟩, ⟨1, 1⟩⟩ ⟨⟨2, 0⟩, ⟨2, 1⟩⟩ ⟨⟨3, 5⟩, ⟨3, 6⟩⟩) e' ∧ e'.msg = "expected keyword `a`".toList := by
  obtain ⟨e', _, h1, h2, _⟩ := C86_error (env := demoEnv) (t := wordsOrC) (ts := commaX (spAt 0 1) (spAt 1 2) (spAt 3 4))
    (ts' := commaX ⟨⟨1, 0⟩, ⟨1, 1⟩⟩ ⟨⟨2, 0⟩, ⟨2, 1⟩⟩ ⟨⟨3, 5⟩, ⟨3, 6⟩⟩) (e := ⟨spAt 3 4, "expected keyword `a`".toList⟩) (.ident (.punct (.ident .nil)))
    (by intro i sp h; rcases h with _ | (_ | (_ | h)); cases h) ⟨by unfold InOrder; decide, by unfold AfterStart; decide⟩
    ⟨by unfold InOrder; decide, by unfold AfterStart; decide⟩ ⟨20, rfl⟩
  exact ⟨e', h1, h2⟩

end

end Parsel
