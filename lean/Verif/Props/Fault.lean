import Verif.Proofs.FaultAt
import Verif.Spec.Fault
import Verif.Props.Offset
import Verif.Props.Layout

/-
C90  Texts that are no token streams: where the error is reported.
-/

namespace Parsel

open Spec

section
variable [Ext]

theorem faultAt_of {src : Text} {p : LineCol} (h : lexAll src = .error p) : FaultAt src p := by
  intro α parser
  unfold parseStr lex lexErrorSpan
  rw [h]

/-- Every text that is no token stream is rejected, whatever is to be read, and the error is located at a place where something is wrong: an opening delimiter that is
not closed, a closing delimiter, or something that is no token.  Its byte offset in the text is that of this place. -/
theorem C90_located {src : Text} (h : lex src = none) : ∃ q rest, src = q ++ rest ∧ WrongHere rest ∧ FaultAt src (posAfter q) ∧
    byteRange src ⟨posAfter q, posAfter q⟩ = (utf8Len q, utf8Len q) := by
  cases ha : lexAll src with
  | ok ts => rw [lex_some.mpr ha] at h; cases h
  | error p =>
    obtain ⟨q, rest, h1, rfl, h3⟩ := lexAll_wrong ha
    refine ⟨q, rest, h1, h3, faultAt_of ha, ?_⟩
    have := (C46_byte_range q [] rest).1
    simpa [stretchSpan, h1, utf8Len] using this

/-- A token stream is never rejected in this way (a parser that skips everything accepts it). -/
theorem C90_only {src : Text} {p : LineCol} (h : FaultAt src p) : lex src = none := by
  cases hl : lex src with
  | none => rfl
  | some ts =>
    have := h Unit (fun s => .ok () { s with cur := [] })
    unfold parseStr at this
    rw [hl] at this
    simp [parse2, unexpectedSpan, uncons] at this

/-- A delimiter that is not closed, with any laid out tokens before and after it (and other delimiters open outside): the error is at this delimiter, the innermost one
that is open. -/
theorem C90_unclosed {q x : Text} {ds : List Delim} {d : Delim} {o c : Char} {ts : List TT} (h : OpenText q ds) (hd : Delims d o c) (hw : Writable ts) (hl : Layout ts x)
    (hx : startsWith "/*ERROR*/".toList x = false) : FaultAt (q ++ o :: x) (posAfter q) := faultAt_of (lexAll_unclosed h hd hw hl hx rfl)

/-- A closing delimiter that is not the one of the innermost open delimiter: the error is at this closing delimiter, whatever follows. -/
theorem C90_unexpected_close {q more : Text} {ds : List Delim} {d : Delim} {o c : Char} (h : OpenText q ds) (hd : Delims d o c) (hne : ds.head? ≠ some d) :
    FaultAt (q ++ c :: more) (posAfter q) := faultAt_of (lexAll_close h hd hne rfl)

/-- Something that is no token, after white space: the error is there, whatever follows. -/
theorem C90_no_token {q rest : Text} {ds : List Delim} {w : Char} (h : OpenText q ds) (hw : lexWhite w = true) (hr : NoToken rest) :
    FaultAt (q ++ w :: rest) (posAfter (q ++ [w])) := faultAt_of (lexAll_noToken h hw hr rfl)

end

section
attribute [local instance] toyExt

theorem faultWord : OpenText "f(a".toList [.paren] :=
  .up (q := "f".toList) (o := '(') (c := ')') (x := "a".toList)
    (.base (ts := [.ident "f".toList .callSite]) (.ident rfl .nil)
      (.ident (g := []) (x := "f".toList) .nil ⟨fun c hc => by simp at hc, fun _ => ⟨by simp, .inl (by simp)⟩⟩ (.nil .nil)))
    .paren (ts := [.ident "a".toList .callSite]) (.ident rfl .nil)
    (.ident (g := []) (x := "a".toList) .nil ⟨fun c hc => by simp at hc, fun _ => ⟨by simp, .inl (by simp)⟩⟩ (.nil .nil)) rfl

theorem faultEnd : Layout [.lit "1".toList .callSite] " 1\n".toList :=
  .lit (g := " ".toList) (x := "1".toList) (rest := "\n".toList) (.white (by decide) .nil) (parts_cons (.inl (by decide)) (by decide) (.inl (by decide)))
    (.nil (.white (by decide) .nil))

/-- `f(a[ 1`, with the brackets and the parentheses open: the error is at the brackets. -/
example : FaultAt "f(a[ 1\n".toList ⟨1, 3⟩ :=
  C90_unclosed (o := '[') (c := ']') (x := " 1\n".toList) faultWord .bracket (.lit (.inl rfl) .nil) faultEnd rfl

/-- `f(a} )`: the error is at the brace; `f(a) ` is in order. -/
example : FaultAt "f(a} )".toList ⟨1, 3⟩ := C90_unexpected_close (more := " )".toList) faultWord .brace (by decide)

/-- ``f(a `)``, `f(a "xy)` and `f(a /* )`. -/
example : FaultAt "f(a `)".toList ⟨1, 4⟩ ∧ FaultAt "f(a \"xy)".toList ⟨1, 4⟩ ∧ FaultAt "f(a /* )".toList ⟨1, 4⟩ := by
  refine ⟨C90_no_token (w := ' ') faultWord (by decide) (.char (by decide) (by decide) (by decide) (by decide) (by decide)),
    C90_no_token (w := ' ') faultWord (by decide) (.string (by decide)), C90_no_token (w := ' ') faultWord (by decide) (.comment (rest := " )".toList) fun a b e => ?_)⟩
  have h1 : '/' ∈ a ++ '*' :: '/' :: b := by simp
  have h2 : '/' ∉ " )".toList := by decide
  rw [e] at h2
  exact h2 h1

example : lex "f(a} )".toList = none := by decide +kernel

end

end Parsel
