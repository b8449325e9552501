import Verif.Proofs.DocText
import Verif.Proofs.StrLit
import Verif.Proofs.LitText
import Verif.Props.Lone
import Verif.Props.Inside
import Verif.Props.Offset

/-!
C94: what the lexer makes of a documentation comment.
-/

namespace Parsel

open Spec

section

variable [Ext]

/-- **C94**: a text of nothing but a documentation comment (and white space and other comments) is read as the attribute `#[doc = ".."]` (`#![doc = ".."]` for
an inner one), with a string literal of exactly the content of the comment; every token has the location of the whole comment. -/
theorem C94_doc {bom g c e x : Text} {b : Bool} (hb : IsBom bom) (hg : Gap g) (h : DocComment c x b) (he : Ending e)
    (hl : startsWith "//".toList c = true → e = [] ∨ ∃ e', e = '\n' :: e') : ∃ r sp, sp = stretchSpan (bom ++ g) c ∧ StrLit false r (x.map Char.toNat) ∧
      lex (bom ++ (g ++ (c ++ e))) = some (.punct '#' .alone sp :: ((if b then [.punct '!' .alone sp] else []) ++
        [.group .bracket [.ident "doc".toList sp, .punct '=' .alone sp, .lit r sp] sp])) := by
  refine ⟨stringLiteral x, _, rfl, (strLit_iff _ _).mp ⟨?_, readLit_string x⟩, lone_doc hb hg h he hl⟩
  rcases litText_string x with k | k
  · exact k
  · exact absurd k (by simp [stringLiteral])

/-- **C94**: hence such a text is neither empty nor a text of one token, and `Empty` rejects it. -/
theorem C94_doc_written {bom g c e x : Text} {b : Bool} (hb : IsBom bom) (hg : Gap g) (h : DocComment c x b) (he : Ending e)
    (hl : startsWith "//".toList c = true → e = [] ∨ ∃ e', e = '\n' :: e') : ¬ Unwritten (bom ++ (g ++ (c ++ e))) := by
  intro hu
  have h1 := C94_blank.mpr hu
  rw [lone_doc hb hg h he hl] at h1
  cases h1

omit [Ext] in
/-- **C94**: what `source_substring` cuts out for the location of a node of one token is the text of the token, with its sign, without the white space and comments
around it. -/
theorem C94_substring {src x : Text} {sp : Span} (h : OneToken src x sp) : sourceSubstring src sp = some x := by
  cases h with
  | @mk bom g x e _ _ _ =>
    have := (C46_byte_range (bom ++ g) x e).2
    simpa using this

omit [Ext] in
/-- ... of a negative number: from the sign to the end of the number. -/
theorem C94_minus_substring {src x : Text} {sp : Span} (h : MinusToken src x sp) : ∃ g, Gap g ∧ sourceSubstring src sp = some ('-' :: (g ++ x)) := by
  cases h with
  | @mk bom g g' x e _ _ hg' _ =>
    have := (C46_byte_range (bom ++ g) ('-' :: (g' ++ x)) e).2
    exact ⟨g', hg', by simpa using this⟩

/-- **C95** by `source_substring`: what it cuts out for the location of a `Paren<T>`, `Bracket<T>` or `Brace<T>` begins and ends with the delimiters, and what is
between them is parsed as a `T`, with the value that is in the node. -/
theorem C95_substring {env : Env} {g t : Ty} {d : Delim} {src x : Text} {sp : Span} {w : Val} (hg : GroupTy g d t) (h : AcceptsStr env g src (.group d sp w))
    (hx : sourceSubstring src sp = some x) : ∃ o body c w', x = o :: (body ++ [c]) ∧ Delims d o c ∧ AcceptsStr env t body w' ∧ Alike w w' := by
  obtain ⟨body, sp', w1, w', h1, h2, h3, h4⟩ := C95_inside hg h
  cases h2
  cases h1 with
  | @mk bom gap d o c body e _ _ _ hd =>
    have := (C46_byte_range (bom ++ gap) (o :: (body ++ [c])) e).2
    have e1 : bom ++ gap ++ (o :: (body ++ [c])) ++ e = bom ++ (gap ++ (o :: (body ++ [c]) ++ e)) := by simp
    rw [e1, hx] at this
    cases this
    exact ⟨o, body, c, w', rfl, hd, h3, h4⟩

/-- ... and there is such a text for every node that was parsed. -/
theorem C95_has_substring {env : Env} {g t : Ty} {d : Delim} {src : Text} {v : Val} (hg : GroupTy g d t) (h : AcceptsStr env g src v) :
    ∃ sp w x, v = .group d sp w ∧ sourceSubstring src sp = some x := by
  obtain ⟨body, sp, w, w', h1, h2, _, _⟩ := C95_inside hg h
  cases h1 with
  | @mk bom gap d o c body e _ _ _ hd =>
    have := (C46_byte_range (bom ++ gap) (o :: (body ++ [c])) e).2
    have e1 : bom ++ gap ++ (o :: (body ++ [c])) ++ e = bom ++ (gap ++ (o :: (body ++ [c]) ++ e)) := by simp
    rw [e1] at this
    exact ⟨_, _, _, h2, this⟩

/-- **C95**, conversely: a text that `T` accepts may be put between delimiters (with white space and comments around them), and `Paren<T>`, `Bracket<T>`, `Brace<T>`
accept that, with the same value inside.  `Layout` says that the text does not end within a line comment and has no documentation comments. -/
theorem C95_enclose {env : Env} {g t : Ty} {d : Delim} {before after body : Text} {o c : Char} {inner : List TT} {w : Val} (hg : GroupTy g d t) (hd : Delims d o c)
    (hb : Gap before) (ha : Gap after) (hl : lex body = some inner) (hlay : Layout inner body) (hn : startsWith "(/*ERROR*/)".toList (o :: body ++ [c]) = false)
    (h : AcceptsStr env t body w) : ∃ sp w', AcceptsStr env g (before ++ o :: (body ++ c :: after)) (.group d sp w') ∧ Alike w w' := by
  obtain ⟨ts, hl', hacc, _⟩ := acceptsStr_reads h
  rw [hl] at hl'
  cases hl'
  obtain ⟨ts', h1, h2⟩ := C66_layout (.group (d := d) (sp := .callSite) (lex_writable hl).1 .nil) (.group hb hd hlay hn (.nil ha))
  cases h2 with
  | @group _ _ inner' _ sp _ _ hi hr =>
    cases hr
    obtain ⟨w', hw', hal⟩ := C31_accepts hi hacc
    obtain ⟨m, hm⟩ := (group_accepts hg (C60_visible h1)).mpr ⟨inner', sp, w', rfl, rfl, hw'⟩
    refine ⟨sp, w', ⟨m, ?_⟩, hal⟩
    unfold parseStr
    simp only [h1]
    exact hm

end

section
attribute [local instance] signExt

/-- In `/*a*/ [ x/*b*/, y // c` and a line below `] // d`, what is cut out for the node is from bracket to bracket. -/
example : ∃ v sp w, AcceptsStr demoEnv (.bracket (.separated (.leaf (.customIdent [])) (.leaf (.punct ",".toList)))) insideSrc v ∧ v = .group .bracket sp w ∧
    ∃ x body w', sourceSubstring insideSrc sp = some x ∧ x = '[' :: (body ++ [']']) ∧
      AcceptsStr demoEnv (.separated (.leaf (.customIdent [])) (.leaf (.punct ",".toList))) body w' ∧ Alike w w' := by
  obtain ⟨v, hv⟩ := inside_accepts
  obtain ⟨sp, w, x, rfl, hx⟩ := C95_has_substring .bracket hv
  obtain ⟨o, body, c, w', h1, h2, h3, h4⟩ := C95_substring .bracket hv hx
  cases h2
  exact ⟨_, sp, w, hv, rfl, x, body, w', hx, h1, h3, h4⟩

end

section
attribute [local instance] toyExt

/-- `x` is a name, hence ` {x}` is one in braces. -/
example : ∃ sp w', AcceptsStr demoEnv (.brace (.leaf (.customIdent []))) " {x}".toList (.group .brace sp w') ∧
    Alike (.leaf (.customIdent []) (.ident "x".toList (stretchSpan [] "x".toList))) w' :=
  C95_enclose (before := " ".toList) (after := []) (body := "x".toList) (o := '{') (c := '}') .brace .brace (.white (by decide) .nil) .nil
    (inner := [.ident "x".toList (stretchSpan [] "x".toList)]) rfl
    (.ident (g := []) (x := "x".toList) (rest := []) .nil ⟨(fun c hc => by cases hc), (fun h => by obtain ⟨d, h1, h2⟩ := h; cases h1; revert h2; decide)⟩ (.nil .nil)) (by decide) ⟨3, rfl⟩

/-- A text of one word. -/
example : OneToken " x // y".toList "x".toList (stretchSpan " ".toList "x".toList) :=
  .mk (bom := []) (g := " ".toList) (x := "x".toList) (e := " // y".toList) (.inl rfl) (.white (by decide) .nil)
    (.line (g := " ".toList) (.white (by decide) .nil) (by decide) (by decide) (by decide))

/-- `/*a*/ /** b /* c */ */ // d`, where the documentation contains a comment. -/
example : ∃ r sp, sp = stretchSpan "/*a*/ ".toList "/** b /* c */ */".toList ∧ StrLit false r (" b /* c */ ".toList.map Char.toNat) ∧
    lex "/*a*/ /** b /* c */ */ // d".toList = some [.punct '#' .alone sp,
      .group .bracket [.ident "doc".toList sp, .punct '=' .alone sp, .lit r sp] sp] :=
  C94_doc (bom := []) (g := "/*a*/ ".toList) (c := "/** b /* c */ */".toList) (e := " // d".toList) (.inl rfl)
    (.block (x := "/*a*/".toList) (block_iff.mp (by decide)) (by decide) (by decide) (.white (by decide) .nil))
    (.outerBlock (x := " b /* c */ ".toList) (block_iff.mp (by decide)) (by decide) (by decide)
      (fun a b e => absurd (show '\r' ∈ " b /* c */ ".toList by rw [e]; simp) (by decide)))
    (.line (g := " ".toList) (.white (by decide) .nil) (by decide) (by decide) (by decide)) (fun h => absurd h (by decide))

/-- `//! x` to the end of the text. -/
example : ∃ r sp, sp = stretchSpan [] "//! x".toList ∧ StrLit false r (" x".toList.map Char.toNat) ∧
    lex "//! x".toList = some [.punct '#' .alone sp, .punct '!' .alone sp, .group .bracket [.ident "doc".toList sp, .punct '=' .alone sp, .lit r sp] sp] :=
  C94_doc (bom := []) (g := []) (c := "//! x".toList) (e := []) (.inl rfl) .nil (.innerLine (x := " x".toList) (by decide) (by decide)) (.gap .nil) (fun _ => .inl rfl)

end

end Parsel
