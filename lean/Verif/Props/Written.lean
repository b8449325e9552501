import Verif.Proofs.Written
import Verif.Props.Readme
import Verif.Props.Furthest

/-!
C93: the literals, words, operators and delimiters of a parsed tree are what is written in the source at their locations.
-/

namespace Parsel

open Spec

section
variable [Ext]

omit [Ext] in
theorem segment_within {b ts : List TT} (hs : Segment b ts) {t : TT} (h : Occurs t b) : Occurs t ts := by
  induction hs with
  | here => exact occurs_append_left _ (occurs_append_right _ h)
  | inside _ ih => exact occurs_append_right _ (.inside ih)

omit [Ext] in
theorem or_false' {a b : Bool} (h : false = (a || b)) : a = false ∧ b = false := by
  cases a <;> cases b <;> simp_all

theorem readsL_whole : ∀ {vs : List Val} {ts : List TT} {v : Val}, ReadsL false vs ts → v ∈ vs → ∃ a b c, ts = a ++ b ++ c ∧ Reads false v b
  | [], _, _, _, hm => by cases hm
  | w :: ws, ts, v, h, hm => by
    simp only [ReadsL] at h
    obtain ⟨a, b, i, j, rfl, h1, h2, e⟩ := h
    obtain ⟨rfl, rfl⟩ := or_false' e
    rcases List.mem_cons.mp hm with rfl | hm
    · exact ⟨[], a, b, rfl, h1⟩
    · obtain ⟨x, y, z, rfl, hr⟩ := readsL_whole h2 hm
      exact ⟨a ++ x, y, z, by simp, hr⟩

/-- A node of a value with nothing left over in its groups. -/
theorem reads_whole {w v : Val} (hw : Inside w v) : ∀ {ts : List TT}, Reads false v ts → ∃ b, Reads false w b ∧ Segment b ts := by
  induction hw with
  | here =>
    intro ts h
    exact ⟨ts, h, by simpa using Segment.here (b := ts) (a := []) (c := [])⟩
  | group _ ih =>
    intro ts h
    simp only [Reads] at h
    obtain ⟨a, b, i, rfl, hr, e⟩ := h
    obtain ⟨rfl, e⟩ := or_false' e
    obtain ⟨x, h1, h2⟩ := ih hr
    exact ⟨x, h1, .inside (a := []) (c := []) (by simpa using h2.widen [] b)⟩
  | node hm _ ih =>
    intro ts h
    simp only [Reads] at h
    obtain ⟨a, b, c, rfl, hr⟩ := readsL_whole h hm
    obtain ⟨x, h1, h2⟩ := ih hr
    exact ⟨x, h1, h2.widen a c⟩

/-- A node of a value that `from_str` makes of a text without documentation comments: its tokens, and their part of the text. -/
theorem node_laid {env : Env} {t : Ty} {src : Text} {v w : Val} (h : AcceptsStr env t src v) (hd : ∀ a b, src = a ++ b → docComment b = none)
    (hw : Inside w v) : ∃ b pre mid post, src = pre ++ mid ++ post ∧ Laid false pre mid b ∧ Reads false w b ∧ Visible b ∧ JointOk src b ∧
      ∀ r sp, Occurs (.lit r sp) b → LitText r := by
  obtain ⟨ts, hl, _, hr⟩ := acceptsStr_reads h
  obtain ⟨bom, x, _, hs, hla⟩ := C60_lexed_plain hl hd
  obtain ⟨b, hrb, hseg⟩ := reads_whole hw hr
  obtain ⟨a, mid, c, rfl, hm⟩ := laid_segment hseg hla
  refine ⟨b, bom ++ a, mid, c, by rw [hs]; simp, hm, hrb, fun i s ho => C60_visible hl i s (segment_within hseg ho),
    fun c s ho => lex_joint hd hl c s (segment_within hseg ho), fun r s ho => (writable_occurs (lex_writable hl).1 (segment_within hseg ho)).2 r s rfl⟩

/-- What is written where one token is. -/
theorem token_written {src pre mid post : Text} {t : TT} (hs : src = pre ++ mid ++ post) (h : Laid false pre mid [t]) :
    ∃ p x q, src = p ++ x ++ q ∧ t.span = stretchSpan p x ∧ TokenText x t := by
  obtain ⟨g, y, g', rfl, _, _, h1, h2⟩ := laid_single h
  exact ⟨pre ++ g, y, g' ++ post, by rw [hs]; simp, h2, h1⟩

theorem substring_of {src p x q : Text} (h : src = p ++ x ++ q) : sourceSubstring src (stretchSpan p x) = some x := by
  rw [h]; exact (C46_byte_range p x q).2

theorem litText_verbatim {r : Text} {l : SynLit} (h : LitText r) (hr : readLit r = some l) (hl : l ≠ .verbatim) : lexLiteral r = some [] := by
  rcases h with h | h
  · exact h
  · rw [h] at hr
    have : readLit "(/*ERROR*/)".toList = some .verbatim := rfl
    rw [this] at hr
    cases hr
    exact absurd rfl hl

theorem intAt_plain {ts : List TT} {n : Nat} {sp : Span} (hv : Visible ts) (h : IntAt ts false n sp []) : ∃ r, ts = [.lit r sp] ∧ IntLit r n := by
  cases h with
  | plain h hi => exact ⟨_, next_visible hv h, hi⟩

/-- The digits of a negative floating point number are those of the literal without the sign. -/
theorem minus_float {r d : Text} (hw : LitText r) (hi : ∀ n, ¬ IntLit r n) (hd : readFloatDigits ('-' :: r) = some d) : ∃ d', d = '-' :: d' ∧ FloatLit r d' := by
  have hu : r.head? ≠ some '-' := litText_unsigned hw
  have e1 : readFloatDigits ('-' :: r) = (readFloatDigits r).map ('-' :: ·) := by
    unfold readFloatDigits
    split
    · rename_i body e
      injection e with _ e
      subst e
      split
      · rename_i body; exact absurd rfl hu
      · rfl
    · rename_i h; exact absurd rfl (h r)
  rw [e1] at hd
  obtain ⟨d', hd', rfl⟩ := Option.map_eq_some_iff.mp hd
  obtain ⟨c, cs, rfl, hdig⟩ : ∃ c cs, r = c :: cs ∧ c.isDigit = true := by
    unfold readFloatDigits at hd'
    split at hd'
    · exact absurd rfl hu
    · cases r with
      | nil => cases hd'
      | cons c cs =>
        simp only at hd'
        split at hd'
        · rename_i hc; exact ⟨c, cs, rfl, hc⟩
        · cases hd'
  have hn : readNat (c :: cs) = none := by
    cases hn : readNat (c :: cs) with
    | none => rfl
    | some n => exact absurd ((readNat_iff _ _).mp hn) (hi n)
  have hrl : readLit (c :: cs) = some (.float d') := by
    rw [readLit_digit hdig, readIntDigits_digit hdig, hn, hd']
    rfl
  rcases hw with h1 | h1
  · exact ⟨d', rfl, floatLit_iff.mp ⟨h1, hrl⟩⟩
  · injection h1 with h1 _; subst h1; exact absurd hdig (by decide)

/-- **C93**, literals: a literal of the tree (also inside lists, groups and so on) is written in the source at its location, by a literal of that value
(negative numbers: with the sign, from which the location reaches to the end of the number). -/
theorem C93_literal {env : Env} {t : Ty} {src : Text} {v : Val} (h : AcceptsStr env t src v) (hd : ∀ a b, src = a ++ b → docComment b = none)
    {k : LitKind} {l : LitVal} {sp : Span} (hw : Inside (.leaf (.lit k) (.lit l sp)) v) :
    ∃ pre x post, src = pre ++ x ++ post ∧ sp = stretchSpan pre x ∧ sourceSubstring src sp = some x ∧ SpellsLit l x := by
  obtain ⟨b, pre, mid, post, hs, hla, hr, hv, _, hlit⟩ := node_laid h hd hw
  have one : ∀ {r : Text} {l : LitVal}, b = [.lit r sp] → SpellsLit l r →
      ∃ pre x post, src = pre ++ x ++ post ∧ sp = stretchSpan pre x ∧ sourceSubstring src sp = some x ∧ SpellsLit l x := by
    rintro r l rfl hl
    obtain ⟨p, x, q, h1, h2, h3⟩ := token_written hs hla
    cases h3
    simp only [TT.span] at h2
    exact ⟨p, _, q, h1, h2, by rw [h2]; exact substring_of h1, hl⟩
  have two : ∀ {r : Text} {spc sp1 sp2} {l : LitVal}, b = [.punct '-' spc sp1, .lit r sp2] → sp = sp1.join sp2 → (∀ g, Blank g → SpellsLit l ('-' :: (g ++ r))) →
      ∃ pre x post, src = pre ++ x ++ post ∧ sp = stretchSpan pre x ∧ sourceSubstring src sp = some x ∧ SpellsLit l x := by
    rintro r spc sp1 sp2 l rfl rfl hl
    obtain ⟨g, g', z, rfl, h1, h2⟩ := laid_pair hla
    have e : src = (pre ++ g) ++ '-' :: (g' ++ r) ++ (z ++ post) := by rw [hs]; simp
    exact ⟨pre ++ g, _, z ++ post, e, h2, by rw [h2]; exact substring_of e, hl g' h1⟩
  simp only [Reads] at hr
  obtain ⟨_, hr⟩ := hr
  cases hr with
  | lit hr =>
    cases hr with
    | bool bb =>
      obtain ⟨p, x, q, h1, h2, h3⟩ := token_written hs hla
      cases h3
      simp only [TT.span] at h2
      exact ⟨p, _, q, h1, h2, by rw [h2]; exact substring_of h1, .bool bb⟩
    | int hi =>
      cases hi with
      | plain h hi => exact one (next_visible hv h) (.int hi)
      | inside h hi =>
        have e := next_visible hv h
        exact absurd rfl (litText_unsigned (hlit _ _ (by rw [e]; exact .head)))
      | minus h h2 hi =>
        have e := next_visible hv h
        subst e
        have e := next_visible (visible_tail hv) h2
        subst e
        exact two rfl rfl (fun g hg => .minusInt hg hi)
    | uint hi =>
      obtain ⟨r, e, hi⟩ := intAt_plain hv hi
      exact one e (.uint hi)
    | float hr hx =>
      exact one rfl (.float (floatLit_iff.mp ⟨litText_verbatim (hlit _ _ .head) hr (by simp), hr⟩) hx)
    | @minusFloat spc sp1 r sp2 d x hn hd' hx =>
      have hr : readFloatDigits ('-' :: r) = some d := hd'
      have hw : LitText r := hlit _ _ (.tail .head)
      obtain ⟨d', rfl, hf⟩ := minus_float hw hn hr
      exact two rfl rfl (fun g hg => .minusFloat hg hf hx)
    | byte hr => exact one rfl (.byte ((byteLit_iff _ _).mp ⟨litText_verbatim (hlit _ _ .head) hr (by simp), hr⟩))
    | char hr => exact one rfl (.char ((charLit_iff _ _).mp ⟨litText_verbatim (hlit _ _ .head) hr (by simp), hr⟩))
    | str hr => exact one rfl (.str ((strLit_iff _ _).mp ⟨litText_verbatim (hlit _ _ .head) hr (by simp), hr⟩))
    | byteStr hr => exact one rfl (.byteStr ((byteStrLit_iff _ _).mp ⟨litText_verbatim (hlit _ _ .head) hr (by simp), hr⟩))

/-- **C93**, identifiers: ... an identifier is the word at its location. -/
theorem C93_word {env : Env} {t : Ty} {src : Text} {v : Val} (h : AcceptsStr env t src v) (hd : ∀ a b, src = a ++ b → docComment b = none)
    {lf : Leaf} {x : Text} {sp : Span} (hw : Inside (.leaf lf (.ident x sp)) v) :
    ∃ pre post, src = pre ++ x ++ post ∧ sp = stretchSpan pre x ∧ sourceSubstring src sp = some x := by
  obtain ⟨b, pre, mid, post, hs, hla, hr, _⟩ := node_laid h hd hw
  simp only [Reads] at hr
  obtain ⟨_, hr⟩ := hr
  cases hr with
  | ident _ =>
    obtain ⟨p, y, q, h1, h2, h3⟩ := token_written hs hla
    cases h3
    simp only [TT.span] at h2
    exact ⟨p, q, h1, h2, by rw [h2]; exact substring_of h1⟩

/-- **C93**, keywords: ... a keyword (of the macro `define_keywords`, or a token of syn) is written at its location, which is one. -/
theorem C93_keyword {env : Env} {t : Ty} {src : Text} {v : Val} (h : AcceptsStr env t src v) (hd : ∀ a b, src = a ++ b → docComment b = none)
    {lf : Leaf} {kw : Text} (hk : lf = .keyword kw ∨ lf = .kwToken kw) {sps : List Span} (hw : Inside (.leaf lf (.mark sps)) v) :
    ∃ pre post, src = pre ++ kw ++ post ∧ sps = [stretchSpan pre kw] ∧ sourceSubstring src (stretchSpan pre kw) = some kw := by
  obtain ⟨b, pre, mid, post, hs, hla, hr, _⟩ := node_laid h hd hw
  simp only [Reads] at hr
  obtain ⟨_, hr⟩ := hr
  have one : ∀ {sp}, b = [.ident kw sp] → ∃ pre post, src = pre ++ kw ++ post ∧ [sp] = [stretchSpan pre kw] ∧ sourceSubstring src (stretchSpan pre kw) = some kw := by
    rintro sp rfl
    obtain ⟨p, y, q, h1, h2, h3⟩ := token_written hs hla
    cases h3
    simp only [TT.span] at h2
    exact ⟨p, q, h1, by rw [h2], substring_of h1⟩
  rcases hk with rfl | rfl
  · cases hr with
    | keyword => exact one rfl
  · cases hr with
    | kwToken => exact one rfl

/-- **C93**, operators: ... an operator is written in one piece; its locations are those of its characters, one by one. -/
theorem C93_operator {env : Env} {t : Ty} {src : Text} {v : Val} (h : AcceptsStr env t src v) (hd : ∀ a b, src = a ++ b → docComment b = none)
    {tok : Text} {sps : List Span} (hw : Inside (.leaf (.punct tok) (.mark sps)) v) :
    ∃ pre post, src = pre ++ tok ++ post ∧ CharSpans pre tok sps ∧ sourceSubstring src (stretchSpan pre tok) = some tok := by
  obtain ⟨b, pre, mid, post, hs, hla, hr, _, hj, _⟩ := node_laid h hd hw
  simp only [Reads] at hr
  obtain ⟨_, hr⟩ := hr
  cases hr with
  | punct hr =>
    by_cases ht : tok = []
    · subst ht
      cases hr with
      | nil => exact ⟨src, [], by simp, .nil, substring_of (q := []) (by simp)⟩
    · obtain ⟨g, g', rfl, _, _, hc⟩ := laid_run hr hs hj hla ht
      have e : src = (pre ++ g) ++ tok ++ (g' ++ post) := by rw [hs]; simp
      exact ⟨pre ++ g, g' ++ post, e, hc, substring_of e⟩

/-- **C93**, delimiters: ... the location of `Paren`, `Bracket` and `Brace` is that of the text from the opening to the closing delimiter, and the text between them consists of the tokens that the contents stand for. -/
theorem C93_group {env : Env} {t : Ty} {src : Text} {v : Val} (h : AcceptsStr env t src v) (hd : ∀ a b, src = a ++ b → docComment b = none)
    {d : Delim} {sp : Span} {w : Val} (hw : Inside (.group d sp w) v) :
    ∃ pre o body c post, src = pre ++ (o :: body ++ [c]) ++ post ∧ Delims d o c ∧ sp = stretchSpan pre (o :: body ++ [c]) ∧
      sourceSubstring src sp = some (o :: body ++ [c]) ∧ ∃ ts, Laid false (pre ++ [o]) body ts ∧ Reads false w ts := by
  obtain ⟨b, pre, mid, post, hs, hla, hr, _, hj, _⟩ := node_laid h hd hw
  simp only [Reads] at hr
  obtain ⟨a, c, i, rfl, hr, e⟩ := hr
  obtain ⟨rfl, e⟩ := or_false' e
  have hc : c = [] := by
    cases c with
    | nil => rfl
    | cons x y => exact absurd e (by simp)
  subst hc
  rw [List.append_nil] at hla
  obtain ⟨g, y, z, rfl, _, _, hsp, hrest⟩ := laid_cons hla rfl
  cases hsp with
  | @group _ _ o c' body inner hde hb =>
    have e : src = (pre ++ g) ++ (o :: body ++ [c']) ++ (z ++ post) := by rw [hs]; simp
    exact ⟨pre ++ g, o, body, c', z ++ post, e, hde, rfl, substring_of e, _, hb, hr⟩

end

section
attribute [local instance] toyExt

/-- A name, a number in parentheses, an operator and a string. -/
def invokeEnv : Env := fun x =>
  if x = "Call".toList then
    .struct (.named [("name".toList, fld (.leaf (.customIdent []))), ("arg".toList, fld (.paren (.leaf (.lit .int)))), ("op".toList, fld (.leaf (.punct "->".toList))),
      ("text".toList, fld (.leaf (.lit .str)))])
  else .enum []

/-- The number has a comment after its sign, the string is on another line. -/
def invokeSrc : Text := "f (- /*m*/0x1F) ->\n\"a\\n\"".toList

/-- The value that is made of it. -/
def invokeVal (tag : Tag) (kws : List Text) : Val := .node tag
  [.leaf (.customIdent kws) (.ident "f".toList ⟨⟨1, 0⟩, ⟨1, 1⟩⟩),
    .group .paren ⟨⟨1, 2⟩, ⟨1, 15⟩⟩ (.leaf (.lit .int) (.lit (.int (-31)) ⟨⟨1, 3⟩, ⟨1, 14⟩⟩)),
    .leaf (.punct "->".toList) (.mark [⟨⟨1, 16⟩, ⟨1, 17⟩⟩, ⟨⟨1, 17⟩, ⟨1, 18⟩⟩]),
    .leaf (.lit .str) (.lit (.str "a\n".toList) ⟨⟨2, 0⟩, ⟨2, 5⟩⟩)]

/-- Whether this is `invokeVal`. -/
def isInvoke : Top Val → Bool
  | .ok (.node _ [.leaf (.customIdent _) (.ident x s1), .group .paren s2 (.leaf (.lit .int) (.lit (.int n) s3)), .leaf (.punct tok) (.mark sps),
      .leaf (.lit .str) (.lit (.str y) s4)]) =>
    decide (x = "f".toList ∧ s1 = ⟨⟨1, 0⟩, ⟨1, 1⟩⟩ ∧ s2 = ⟨⟨1, 2⟩, ⟨1, 15⟩⟩ ∧ n = -31 ∧ s3 = ⟨⟨1, 3⟩, ⟨1, 14⟩⟩ ∧ tok = "->".toList ∧
      sps = [⟨⟨1, 16⟩, ⟨1, 17⟩⟩, ⟨⟨1, 17⟩, ⟨1, 18⟩⟩] ∧ y = "a\n".toList ∧ s4 = ⟨⟨2, 0⟩, ⟨2, 5⟩⟩)
  | _ => false

theorem invoke_accepted : ∃ tag kws, AcceptsStr invokeEnv (.named "Call".toList) invokeSrc (invokeVal tag kws) := by
  have h : isInvoke (parseStr (parse invokeEnv 20 (.named "Call".toList)) invokeSrc) = true := by decide +kernel
  unfold isInvoke at h
  split at h
  · rename_i hp
    obtain ⟨rfl, rfl, rfl, rfl, rfl, rfl, rfl, rfl, rfl⟩ := of_decide_eq_true h
    exact ⟨_, _, 20, hp⟩
  · cases h

theorem invoke_plain : ∀ a b, invokeSrc = a ++ b → docComment b = none := noDoc_of (by decide +kernel)

/-- The number -31 is written with the comment inside. -/
example : ∃ pre x post, invokeSrc = pre ++ x ++ post ∧ (⟨⟨1, 3⟩, ⟨1, 14⟩⟩ : Span) = stretchSpan pre x ∧ sourceSubstring invokeSrc ⟨⟨1, 3⟩, ⟨1, 14⟩⟩ = some x ∧ SpellsLit (.int (-31)) x :=
  have ⟨_, _, h⟩ := invoke_accepted
  C93_literal h invoke_plain (k := .int) (.node (.tail _ (.head _)) (.group .here))

example : sourceSubstring invokeSrc ⟨⟨1, 3⟩, ⟨1, 14⟩⟩ = some "- /*m*/0x1F".toList := by decide +kernel

example : ∃ pre x post, invokeSrc = pre ++ x ++ post ∧ (⟨⟨2, 0⟩, ⟨2, 5⟩⟩ : Span) = stretchSpan pre x ∧ sourceSubstring invokeSrc ⟨⟨2, 0⟩, ⟨2, 5⟩⟩ = some x ∧
    SpellsLit (.str "a\n".toList) x :=
  have ⟨_, _, h⟩ := invoke_accepted
  C93_literal h invoke_plain (k := .str) (.node (.tail _ (.tail _ (.tail _ (.head _)))) .here)

example : ∃ pre post, invokeSrc = pre ++ "f".toList ++ post ∧ (⟨⟨1, 0⟩, ⟨1, 1⟩⟩ : Span) = stretchSpan pre "f".toList ∧
    sourceSubstring invokeSrc ⟨⟨1, 0⟩, ⟨1, 1⟩⟩ = some "f".toList :=
  have ⟨_, _, h⟩ := invoke_accepted
  C93_word h invoke_plain (.node (.head _) .here)

example : ∃ pre post, invokeSrc = pre ++ "->".toList ++ post ∧ CharSpans pre "->".toList [⟨⟨1, 16⟩, ⟨1, 17⟩⟩, ⟨⟨1, 17⟩, ⟨1, 18⟩⟩] ∧
    sourceSubstring invokeSrc (stretchSpan pre "->".toList) = some "->".toList :=
  have ⟨_, _, h⟩ := invoke_accepted
  C93_operator h invoke_plain (.node (.tail _ (.tail _ (.head _))) .here)

example : ∃ w pre o body c post, invokeSrc = pre ++ (o :: body ++ [c]) ++ post ∧ Delims .paren o c ∧ (⟨⟨1, 2⟩, ⟨1, 15⟩⟩ : Span) = stretchSpan pre (o :: body ++ [c]) ∧
    sourceSubstring invokeSrc ⟨⟨1, 2⟩, ⟨1, 15⟩⟩ = some (o :: body ++ [c]) ∧ ∃ ts, Laid false (pre ++ [o]) body ts ∧ Reads false w ts :=
  have ⟨_, _, h⟩ := invoke_accepted
  ⟨_, C93_group h invoke_plain (.node (.tail _ (.head _)) .here)⟩

/-- A keyword and its place. -/
theorem let_accepted : ∃ v, AcceptsStr demoEnv (.named "Let".toList) "let x = 1;".toList v ∧ Inside (.leaf (.keyword "let".toList) (.mark [⟨⟨1, 0⟩, ⟨1, 3⟩⟩])) v := by
  have h : (match parseStr (parse demoEnv 20 (.named "Let".toList)) "let x = 1;".toList with
    | .ok (.node _ (.leaf (.keyword kw) (.mark sps) :: _)) => decide (kw = "let".toList ∧ sps = [⟨⟨1, 0⟩, ⟨1, 3⟩⟩])
    | _ => false) = true := by decide +kernel
  split at h
  · rename_i hp
    obtain ⟨rfl, rfl⟩ := of_decide_eq_true h
    exact ⟨_, ⟨20, hp⟩, .node (.head _) .here⟩
  · cases h

example : ∃ pre post, "let x = 1;".toList = pre ++ "let".toList ++ post ∧ [(⟨⟨1, 0⟩, ⟨1, 3⟩⟩ : Span)] = [stretchSpan pre "let".toList] ∧
    sourceSubstring "let x = 1;".toList (stretchSpan pre "let".toList) = some "let".toList := by
  obtain ⟨v, h, hw⟩ := let_accepted
  exact C93_keyword h (noDoc_of (by decide +kernel)) (.inl rfl) hw

end

end Parsel
