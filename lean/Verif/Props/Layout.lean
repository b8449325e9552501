import Verif.Proofs.Relayout
import Verif.Proofs.LexWritable
import Verif.Props.Source
import Verif.Props.Locations

/-!
C66: white space and comments do not matter.
-/

namespace Parsel

open Spec

section
variable [Ext]

/-- **C66.** However tokens that have a textual form are laid out - with white space and comments between them as one likes, as long as they do not run
into one another -: the text is lexed as these tokens, locations aside. -/
theorem C66_layout {ts : List TT} {x : Text} (hw : Writable ts) (h : Layout ts x) : ∃ ts', lex x = some ts' ∧ SameShape ts ts' := lex_layout h hw

/-- In particular the tokens of any source text, laid out in another way. -/
theorem C66_relayout {src x : Text} {ts : List TT} (hl : lex src = some ts) (h : Layout ts x) : ∃ ts', lex x = some ts' ∧ SameShape ts ts' :=
  lex_layout h (lex_writable hl).1

/-- **C66** for `from_str`: another layout of the same tokens is accepted, too, with a value that differs only in locations, ... -/
theorem C66_accepts {env : Env} {t : Ty} {src x : Text} {ts : List TT} {v : Val} (hl : lex src = some ts) (h : Layout ts x)
    (ha : AcceptsStr env t src v) : ∃ w, AcceptsStr env t x w ∧ Alike v w := by
  obtain ⟨ts', hx, hs⟩ := C66_relayout hl h
  obtain ⟨n, ha⟩ := ha
  unfold parseStr at ha
  simp only [hl] at ha
  obtain ⟨w, ⟨m, hm⟩, hv⟩ := C31_accepts hs ⟨n, ha⟩
  refine ⟨w, ⟨m, ?_⟩, hv⟩
  unfold parseStr
  simp only [hx]
  exact hm

/-- ... or is rejected, too. -/
theorem C66_rejects {env : Env} {t : Ty} {src x : Text} {ts : List TT} {e : Err} {n : Nat} (hl : lex src = some ts) (h : Layout ts x)
    (hr : parseStr (parse env n t) src = .err e) : ∃ m e', parseStr (parse env m t) x = .err e' := by
  obtain ⟨ts', hx, hs⟩ := C66_relayout hl h
  unfold parseStr at hr
  simp only [hl] at hr
  obtain ⟨e', m, hm⟩ := C31_rejects hs ⟨n, hr⟩
  refine ⟨m, e', ?_⟩
  unfold parseStr
  simp only [hx]
  exact hm

/-- Two layouts of the same tokens are read alike. -/
theorem C66_same {ts : List TT} {x y : Text} (hw : Writable ts) (hx : Layout ts x) (hy : Layout ts y) :
    ∃ us vs, lex x = some us ∧ lex y = some vs ∧ SameShape us vs := by
  obtain ⟨us, h1, h2⟩ := C66_layout hw hx
  obtain ⟨vs, h3, h4⟩ := C66_layout hw hy
  exact ⟨us, vs, h1, h3, sameShape_trans h2.symm h4⟩

end

/-! ### gaps -/

theorem blockLoop_plain : ∀ (b read k : Text), (∀ c ∈ b, c ≠ '*' ∧ c ≠ '/') →
    blockLoop 1 read (b ++ '*' :: '/' :: k) = some (read.reverse ++ (b ++ "*/".toList), k) := by
  intro b
  induction b with
  | nil => intro read k _; simp [blockLoop]
  | cons c b ih =>
    intro read k h
    have hc := h c List.mem_cons_self
    rw [List.cons_append, blockLoop]
    · rw [ih _ _ (fun d hd => h d (List.mem_cons_of_mem _ hd))]
      simp
    · intro e1 e2; exact absurd e2 hc.2
    · intro e1 e2; exact absurd e2 hc.1

/-- Any text without `*` and `/` makes a comment between tokens, unless it begins with `!`. -/
theorem gap_comment {b : Text} (h : ∀ c ∈ b, c ≠ '*' ∧ c ≠ '/') (h1 : b.head? ≠ some '!') {g : Text} (hg : Gap g) :
    Gap ('/' :: '*' :: (b ++ "*/".toList) ++ g) := by
  refine .block (block_iff.mp ?_) ?_ ?_ hg
  · show (if _ then _ else _) = _
    have hs : startsWith "/*".toList ('/' :: '*' :: (b ++ "*/".toList)) = true := startsWith_iff.mpr ⟨b ++ "*/".toList, rfl⟩
    rw [if_pos hs]
    show blockLoop 1 ['*', '/'] (b ++ '*' :: '/' :: []) = _
    rw [blockLoop_plain b _ _ h]
    simp
  · rw [Bool.eq_false_iff]; intro hs
    obtain ⟨r, hr⟩ := startsWith_iff.mp hs
    cases b with
    | nil => simp at hr
    | cons c b => simp at hr h1; exact h1 hr.1
  · intro hs
    obtain ⟨r, hr⟩ := startsWith_iff.mp hs
    cases b with
    | nil => exact .inr rfl
    | cons c b => simp at hr; exact absurd hr.1 (h c List.mem_cons_self).1

theorem gap_spaces {w : Text} (h : ∀ c ∈ w, lexWhite c = true) : Gap w := by
  induction w with
  | nil => exact .nil
  | cons c w ih => exact .white (h c List.mem_cons_self) (ih fun d hd => h d (List.mem_cons_of_mem _ hd))

/-! ### an example: the text `let x=1-y+(2);`, laid out in another way -/

section
attribute [local instance] toyExt

def layoutA : Text := "let x=1-y+(2);".toList
def layoutB : Text := " let/**/x/* the\n name */=1-y+ ( // two\n 2 ) ; //// end\n".toList

def layoutTokens : List TT :=
  let sp : Nat → Nat → Span := fun a b => ⟨⟨1, a⟩, ⟨1, b⟩⟩
  [.ident "let".toList (sp 0 3), .ident "x".toList (sp 4 5), .punct '=' .alone (sp 5 6), .lit "1".toList (sp 6 7), .punct '-' .alone (sp 7 8),
    .ident "y".toList (sp 8 9), .punct '+' .alone (sp 9 10), .group .paren [.lit "2".toList (sp 11 12)] (sp 10 13), .punct ';' .alone (sp 13 14)]

theorem layout_lexed : lex layoutA = some layoutTokens := by rfl

theorem parts_cons {w : Text} {c : Char} {s : Text} (h : lexWhite c = true ∨ c ∈ "()[]{}".toList ∨ (c ∈ punctChars ∧ c ≠ '\'' ∧ c ≠ '#'))
    (h1 : c ≠ '.') (h2 : (c ≠ '+' ∧ c ≠ '-') ∨ ('e' ∉ w ∧ 'E' ∉ w)) : Parts w (c :: s) :=
  ⟨fun d hd => by simp at hd; subst hd; exact h, fun _ => ⟨by simpa using h1, by simpa using h2⟩⟩

theorem clear_cons {c d : Char} {s : Text} (h : d ∉ punctChars) : Clear c (d :: s) := .inl fun e he => by simp at he; subst he; exact h

theorem layout_other : Layout layoutTokens layoutB := by
  have spc : Gap [' '] := .white (by decide) .nil
  have g1 : Gap "/* the\n name */".toList := by
    have := gap_comment (b := " the\n name ".toList) (by decide) (by decide) .nil
    exact this
  have g2 : Gap " // two\n ".toList := .white (by decide) (.line (x := " two".toList) (by decide) (by decide) (by decide) spc)
  have g3 : Gap " //// end\n".toList := .white (by decide) (.line (x := "// end".toList) (by decide) (by decide) (by decide) .nil)
  have g0 : Gap "/**/".toList := .block (x := "/**/".toList) (g := []) (block_iff.mp (by decide)) (by decide) (by decide) .nil
  refine .ident (g := [' ']) spc (parts_cons (by decide) (by decide) (by decide)) ?_
  refine .ident g0 (parts_cons (by decide) (by decide) (by decide)) ?_
  refine .alone g1 (clear_cons (by decide)) ?_
  refine .lit .nil (parts_cons (by decide) (by decide) (by decide)) ?_
  refine .alone .nil (clear_cons (by decide)) ?_
  refine .ident .nil (parts_cons (by decide) (by decide) (by decide)) ?_
  refine .alone .nil (clear_cons (by decide)) ?_
  refine .group (g := [' ']) (body := " // two\n 2 ".toList) spc .paren (.lit g2 (parts_cons (by decide) (by decide) (by decide)) (.nil spc)) (by decide) ?_
  exact .alone spc (clear_cons (by decide)) (.nil g3)

/-- The hypotheses of the theorems are met: the text is accepted (by the grammar of the small language), its tokens have the other layout. -/
example : ∃ v w, AcceptsStr miniEnv (.named "Prog".toList) layoutA v ∧ AcceptsStr miniEnv (.named "Prog".toList) layoutB w ∧ Alike v w := by
  obtain ⟨v, hv⟩ := acceptsStr_of (env := miniEnv) (t := .named "Prog".toList) (src := layoutA) (n := 60) (by decide +kernel)
  obtain ⟨w, hw⟩ := C66_accepts layout_lexed layout_other hv
  exact ⟨v, w, hv, hw⟩

end

end Parsel
