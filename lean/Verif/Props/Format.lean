import Verif.Proofs.Display
import Verif.Props.Locations
import Verif.Proofs.Typed

/-! Properties of the formatter and of `Display`: C40, C41, C42, C43, C44, C45. -/

namespace Parsel
open Spec

/-! ### C43 -/

theorem white_ends (s : Text) : ((s.dropWhile isWhite).reverse.dropWhile isWhite).reverse.isEmpty = true ↔ ∀ c ∈ s, isWhite c = true := by
  have nil : ∀ t : Text, t.dropWhile isWhite = [] ↔ ∀ c ∈ t, isWhite c = true := by
    intro t
    induction t with
    | nil => simp
    | cons c cs ih =>
      by_cases h : isWhite c = true
      · simp [h, ih]
      · simp [h]
  rw [List.isEmpty_iff, List.reverse_eq_nil_iff, nil]
  constructor
  · intro h
    have hd : s.dropWhile isWhite = [] := by
      cases hs : s.dropWhile isWhite with
      | nil => rfl
      | cons c cs =>
        have h1 := dropWhile_head isWhite s c (by rw [hs]; rfl)
        have h2 := h c (by rw [hs]; simp)
        rw [h1] at h2; cases h2
    exact (nil s).mp hd
  · intro h c hc
    rw [(nil s).mpr h] at hc
    simp at hc

/-- **C43.** `with_indent` accepts a string exactly if it consists of white space; the formatter then starts at level 0 with that indentation. -/
theorem C43_with_indent (s : Text) :
    ((∀ c ∈ s, isWhite c = true) → withIndent s = some ⟨0, some s, [], 0⟩) ∧ ((∃ c ∈ s, isWhite c = false) → withIndent s = none) := by
  constructor
  · intro h
    unfold withIndent
    rw [(white_ends s).mpr h]
    rfl
  · rintro ⟨c, hc, hw⟩
    unfold withIndent
    cases hb : ((s.dropWhile isWhite).reverse.dropWhile isWhite).reverse.isEmpty with
    | false => rfl
    | true => have := (white_ends s).mp hb c hc; rw [hw] at this; cases this

example : withIndent " \t\u3000".toList = some ⟨0, some " \t\u3000".toList, [], 0⟩ ∧ withIndent [] = some ⟨0, some [], [], 0⟩ ∧
    withIndent " x ".toList = none := ⟨rfl, rfl, rfl⟩

/-! ### C42 -/

/-- The text that a formatter with the given indentation writes at a level. -/
def Spec.fullText (ind : Option Text) (L : Nat) (ts : List TT) : Text := (write .reliable ts ⟨L, ind, [], 0⟩).1.out

theorem fullText_eq (ind : Option Text) (L : Nat) (ts : List TT) : fullText ind L ts = writeText ind L ts := by
  have := (write_reliable ts ⟨L, ind, [], 0⟩).2.1
  simpa [fullText] using this

/-- Several `write` calls on one formatter, stopping at the first error. -/
def Spec.writes (w : Sink) : List (List TT) → FmtStep
  | [] => fmtOk
  | ts :: tss => (write w ts).andThen (Spec.writes w tss)

/-- **C42.** For every writer, formatter state and stream: `write` succeeds exactly if none of the calls it makes to the writer fails.
If it succeeds, it has appended the text it would write on a fresh formatter at the same level, and level and indentation are as before.
If it fails, it made no call after the failing one, and it has appended a prefix of that text. -/
theorem C42_write (w : Sink) (ts : List TT) (f : Fmt) :
    ((write w ts f).2 = true ↔ ∀ i, f.calls ≤ i → i < (write w ts f).1.calls → w i = none) ∧
    ((write w ts f).2 = true → (write w ts f).1.out = f.out ++ fullText f.indent f.level ts ∧
      (write w ts f).1.level = f.level ∧ (write w ts f).1.indent = f.indent) ∧
    ((write w ts f).2 = false → (∃ p, p <+: fullText f.indent f.level ts ∧ (write w ts f).1.out = f.out ++ p) ∧
      f.calls < (write w ts f).1.calls ∧ w ((write w ts f).1.calls - 1) ≠ none) := by
  obtain ⟨h0, h1, h2⟩ := does_write w f.indent f.level ts f rfl rfl
  rw [fullText_eq]
  refine ⟨⟨fun h => (h1 h).2.2.2, fun h => ?_⟩, fun h => ⟨(h1 h).1, (h1 h).2.1, (h1 h).2.2.1⟩, fun h => ⟨(h2 h).1, (h2 h).2.1, (h2 h).2.2.1⟩⟩
  cases hr : (write w ts f).2 with
  | true => rfl
  | false =>
    obtain ⟨_, k1, k2, _⟩ := h2 hr
    exact absurd (h _ (by omega) (by omega)) k2

/-- A writer that never fails gets the whole text. -/
theorem C42_reliable (ts : List TT) (f : Fmt) : (write .reliable ts f).2 = true :=
  (write_reliable ts f).1

/-- Consecutive writes do not influence each other: the text is that of each stream on a fresh formatter at the same level. -/
theorem C42_history (w : Sink) : ∀ (tss : List (List TT)) (f : Fmt), (writes w tss f).2 = true →
    (writes w tss f).1.out = f.out ++ (tss.map (fullText f.indent f.level)).flatten ∧ (writes w tss f).1.level = f.level ∧
      (writes w tss f).1.indent = f.indent
  | [], f, _ => ⟨by simp [writes, fmtOk], rfl, rfl⟩
  | ts :: tss, f, h => by
    obtain ⟨_, h1, _⟩ := C42_write w ts f
    unfold writes FmtStep.andThen at h ⊢
    cases hf : write w ts f with
    | mk f' r =>
      rw [hf] at h1 h
      cases r with
      | false => cases h
      | true =>
        obtain ⟨k1, k2, k3⟩ := h1 rfl
        replace k1 : f'.out = f.out ++ fullText f.indent f.level ts := k1
        replace k2 : f'.level = f.level := k2
        replace k3 : f'.indent = f.indent := k3
        obtain ⟨m1, m2, m3⟩ := C42_history w tss f' h
        exact ⟨by rw [m1, k1, k2, k3]; simp, m2.trans k2, m3.trans k3⟩

/-- `f(a, b)` -/
def callTokens : List TT :=
  [.ident "f".toList .callSite, .group .paren [.ident "a".toList .callSite, .punct ',' .alone .callSite, .ident "b".toList .callSite] .callSite]

/-- A writer that fails at the 6th call, after one character: what was written is cut off there. -/
def brokenSink : Sink := fun i => if i = 5 then some 1 else none

example : write brokenSink callTokens .pretty = (⟨1, some "    ".toList, "f (\n    a".toList, 6⟩, false) := rfl

/-- After an error the level stays raised: a second write on the same formatter is indented although it is not in a group. -/
theorem C42_level_leaks : ∃ (w : Sink) (ts : List TT), (write w ts .pretty).2 = false ∧ (write w ts .pretty).1.level = 1 ∧
    (write .reliable [.ident "x".toList .callSite] (write w ts .pretty).1).1.out = "f (\n    a    x".toList :=
  ⟨brokenSink, callTokens, rfl, rfl, rfl⟩

/-! ### C40, C41 -/

variable [Ext]

/-- **C40.** Every stream that has a textual form, formatted with any indentation that `with_indent` accepts (from any level of nesting, after
anything written before), reads back as the same tokens - invisible groups dissolved, locations aside. -/
theorem C40_reads_back {s : Text} {f : Fmt} (hf : withIndent s = some f) {ts : List TT} (h : Writable ts) :
    (write .reliable ts f).2 = true ∧ ∃ ts', lex (write .reliable ts f).1.out = some ts' ∧ SameShape (dissolve ts) ts' := by
  have hw : ∀ c ∈ s, isWhite c = true := by
    intro c hc
    cases hb : isWhite c with
    | true => rfl
    | false => rw [(C43_with_indent s).2 ⟨c, hc, hb⟩] at hf; cases hf
  rw [(C43_with_indent s).1 hw] at hf
  cases hf
  refine ⟨(write_reliable ts _).1, ?_⟩
  have := fullText_eq (some s) 0 ts
  unfold fullText at this
  rw [this]
  exact lex_writeText (by intro s' e c hc; cases e; exact hw c hc) h 0

/-- The same at any level. -/
theorem C40_reads_back_nested {s : Text} (hs : ∀ c ∈ s, isWhite c = true) {ts : List TT} (h : Writable ts) (L : Nat) :
    ∃ ts', lex (fullText (some s) L ts) = some ts' ∧ SameShape (dissolve ts) ts' := by
  rw [fullText_eq]
  exact lex_writeText (by intro s' e c hc; cases e; exact hs c hc) h L

/-- Whatever text is lexed: its tokens have a textual form ... -/
theorem C40_lexed_writable {src : Text} {ts : List TT} (h : lex src = some ts) : Writable ts ∧ dissolve ts = ts := lex_writable h

/-- ... so formatting them with any indentation, and lexing the result, gives the same tokens. -/
theorem C40_source {src : Text} {ts : List TT} (h : lex src = some ts) {s : Text} {f : Fmt} (hf : withIndent s = some f) :
    ∃ ts', lex (write .reliable ts f).1.out = some ts' ∧ SameShape ts ts' := by
  obtain ⟨h1, h2⟩ := lex_writable h
  have := (C40_reads_back hf h1).2
  rwa [h2] at this

/-- **C41.** Compact output reads back as the same tokens; it consists of the tokens' texts with nothing but spaces between them; so line breaks and
tabs occur in it only inside tokens. -/
theorem C41_compact {ts : List TT} :
    (Writable ts → ∃ ts', lex (formatTokens .reliable true ts).1 = some ts' ∧ SameShape (dissolve ts) ts') ∧
    Spaced (· = ' ') (texts ts) (formatTokens .reliable true ts).1 ∧ (formatTokens .reliable true ts).2 = true := by
  rw [formatTokens_reliable]
  refine ⟨fun h => lex_writeText (by intro s e; cases e) h 0, Spec.Spaced.imp ?_ (writeText_spaced none 0 ts), rfl⟩
  rintro c (hc | ⟨s, hs, _⟩)
  · exact hc
  · cases hs

omit [Ext] in
theorem spaced_mem {p : Char → Prop} {ts : List Text} {out : Text} (h : Spaced p ts out) {c : Char} (hc : c ∈ out) : p c ∨ ∃ t ∈ ts, c ∈ t := by
  induction h with
  | nil hg => exact .inl (hg c hc)
  | @cons gap t ts out hg _ ih =>
    rcases List.mem_append.mp hc with hc | hc
    · rcases List.mem_append.mp hc with hc | hc
      · exact .inl (hg c hc)
      · exact .inr ⟨t, List.mem_cons_self, hc⟩
    · rcases ih hc with h | ⟨u, hu, hcu⟩
      · exact .inl h
      · exact .inr ⟨u, List.mem_cons_of_mem _ hu, hcu⟩

omit [Ext] in
/-- No line break in compact output unless a token contains one. -/
theorem C41_one_line (ts : List TT) (h : ∀ t ∈ texts ts, '\n' ∉ t) : '\n' ∉ (formatTokens .reliable true ts).1 := by
  rw [formatTokens_reliable]
  intro hn
  rcases spaced_mem (writeText_spaced none 0 ts) hn with (hc | ⟨s, hs, _⟩) | ⟨t, ht, hc⟩
  · exact absurd hc (by decide)
  · cases hs
  · exact h t ht hc

omit [Ext] in
/-- Pretty output: nothing but spaces and line breaks between the tokens' texts. -/
theorem C41_pretty_gaps (ts : List TT) : Spaced (fun c => c = ' ' ∨ c = '\n') (texts ts) (formatTokens .reliable false ts).1 := by
  rw [formatTokens_reliable]
  refine Spec.Spaced.imp ?_ (writeText_spaced _ 0 ts)
  rintro c (hc | ⟨s, hs, hc⟩)
  · exact .inl hc
  · cases hs
    rcases hc with hc | hc
    · exact .inr hc
    · left; revert c; decide

omit [Ext] in
theorem sameShape_trans {a b c : List TT} (h : SameShape a b) (h' : SameShape b c) : SameShape a c := by
  induction h generalizing c with
  | nil => exact h'
  | ident _ ih => cases h' with | ident h' => exact .ident (ih h')
  | punct _ ih => cases h' with | punct h' => exact .punct (ih h')
  | lit _ ih => cases h' with | lit h' => exact .lit (ih h')
  | group _ _ i1 i2 => cases h' with | group k1 k2 => exact .group (i1 k1) (i2 k2)

/-- Compact and pretty output of a stream read back as the same tokens. -/
theorem C41_same {ts : List TT} (h : Writable ts) : ∃ a b, lex (formatTokens .reliable true ts).1 = some a ∧
    lex (formatTokens .reliable false ts).1 = some b ∧ SameShape a b := by
  obtain ⟨a, h1, h2⟩ := C41_compact.1 h
  have h3 := formatTokens_reliable false ts
  obtain ⟨b, h4, h5⟩ := lex_writeText pretty_white h 0
  refine ⟨a, b, h1, by rw [h3]; exact h4, ?_⟩
  exact sameShape_trans h2.symm h5

omit [Ext] in
/-- `<'a, "x">::f(-1, &&[]);` with an invisible group around `f`. -/
def variedTokens : List TT :=
  let sp := Span.callSite
  [.punct '<' .joint sp, .punct '\'' .joint sp, .ident "a".toList sp, .punct ',' .alone sp, .lit "\"x\\n\"".toList sp, .punct '>' .joint sp,
   .punct ':' .joint sp, .punct ':' .alone sp, .group .none [.ident "f".toList sp] sp,
   .group .paren [.punct '-' .alone sp, .lit "1".toList sp, .punct ',' .alone sp, .punct '&' .joint sp, .punct '&' .alone sp, .group .bracket [] sp] sp,
   .punct ';' .alone sp]

omit [Ext] in
theorem varied_writable : Writable variedTokens := by
  have id : ∀ x : Text, lexIdentAny x = some (x, []) → IdentText x := fun _ h => h
  have li : ∀ x : Text, lexLiteral x = some [] → LitText x := fun _ h => .inl h
  exact .joint (by decide) (.punct (by decide) (by decide)) (.joint (by decide) .lifetime (.ident (id _ (by decide)) (.alone (by decide) (by decide)
    (.lit (li _ (by decide)) (.joint (by decide) (.punct (by decide) (by decide)) (.joint (by decide) (.punct (by decide) (by decide))
    (.alone (by decide) (by decide) (.group (.ident (id _ (by decide)) .nil) (.group (.alone (by decide) (by decide) (.lit (li _ (by decide))
    (.alone (by decide) (by decide) (.joint (by decide) (.punct (by decide) (by decide)) (.alone (by decide) (by decide) (.group .nil .nil))))))
    (.alone (by decide) (by decide) .nil))))))))))

omit [Ext] in
example : formatTokens .reliable false variedTokens = ("<'a ,\n\"x\\n\" >:: f (\n    - 1 ,\n    && []\n)\n;".toList, true) ∧
    formatTokens .reliable true variedTokens = ("<'a , \"x\\n\" >:: f (- 1 , && []) ;".toList, true) := by decide +kernel

end Parsel

namespace Parsel
open Spec
section
attribute [local instance] toyExt
example : (lex "fn f() { let x = 'a'; /* no */ g::<'b>(r\"q\", 1.5e3_f64); } /// doc".toList).map List.length = some 6 := by decide +kernel
/-- The hypothesis of C40 is needed: a punctuation character joined to a word does not stay joined. -/
example : lex (formatTokens .reliable true [.punct '+' .joint .callSite, .ident "a".toList .callSite]).1 =
    some [.punct '+' .alone ⟨⟨1, 0⟩, ⟨1, 1⟩⟩, .ident "a".toList ⟨⟨1, 1⟩, ⟨1, 2⟩⟩] := rfl
/-- ... and two joined slashes become a comment. -/
example : lex (formatTokens .reliable true [.punct '/' .joint .callSite, .punct '/' .alone .callSite]).1 = some [] := rfl
end

/-! ### C44 -/

theorem indent_some (s : Text) (L : Nat) : indentText (some s) L = (List.replicate L s).flatten := rfl

/-- **C44.** In pretty output at level `L` with indentation `s`: the output begins with `L` copies of `s`.  What stands before a token does not depend on
it or on what follows it.  A non-empty group: the opening delimiter, a line break, the contents as they are written at level `L + 1`, a line break,
`L` copies of `s` and the closing delimiter.  An empty group: just the two delimiters.  After a group with something behind it: a line break, and
the rest as it is written at level `L`. -/
theorem C44_group (s : Text) (L : Nat) (pre : List TT) : ∃ before : Text, ∀ (d : Delim) (inner : List TT) (sp : Span) (post : List TT), d ≠ .none →
    fullText (some s) L (pre ++ .group d inner sp :: post) =
      before ++ [openChar d] ++
      (if inner = [] then [] else "\n".toList ++ fullText (some s) (L + 1) inner ++ "\n".toList ++ (List.replicate L s).flatten) ++ [closeChar d] ++
      (if post = [] then [] else "\n".toList ++ fullText (some s) L post) := by
  obtain ⟨A, hA⟩ := writeText_before (some s) L pre
  refine ⟨A, fun d inner sp post hd => ?_⟩
  simp only [fullText_eq]
  rw [hA, treeText_group _ _ hd]
  unfold groupText
  cases inner with
  | nil =>
    cases post with
    | nil => simp [loopText]
    | cons t ts => simp [writeText, newlineText, indent_some]
  | cons u us =>
    cases post with
    | nil => simp [writeText, newlineText, indent_some, loopText]
    | cons t ts => simp [writeText, newlineText, indent_some]

/-- The output begins with the indentation of its level. -/
theorem C44_indented (s : Text) (L : Nat) (ts : List TT) : ∃ line, fullText (some s) L ts = (List.replicate L s).flatten ++ line := by
  rw [fullText_eq]
  exact ⟨_, rfl⟩

/-- Separators `,` and `;` that are not joined to what follows, and have something behind them, end the line. -/
theorem C44_separator (s : Text) (L : Nat) (pre : List TT) : ∃ before : Text, ∀ (c : Char) (sp : Span) (post : List TT), c = ',' ∨ c = ';' → post ≠ [] →
    fullText (some s) L (pre ++ .punct c .alone sp :: post) = before ++ [c] ++ "\n".toList ++ fullText (some s) L post := by
  obtain ⟨A, hA⟩ := writeText_before (some s) L pre
  refine ⟨A, fun c sp post hc hp => ?_⟩
  simp only [fullText_eq]
  rw [hA]
  cases post with
  | nil => exact absurd rfl hp
  | cons t ts => simp [treeText, hc, writeText, newlineText, indent_some]

/-- Words, literals and other punctuation characters that are not joined to what follows are followed by one space, joined ones by nothing (the rest is
as it is written on its own, without the indentation of its first line). -/
theorem C44_leaf (s : Text) (L : Nat) (pre : List TT) : ∃ before : Text, ∀ (t : TT) (post : List TT) (line : Text), post ≠ [] →
    fullText (some s) L post = (List.replicate L s).flatten ++ line →
    (∀ x sp, t = .ident x sp ∨ t = .lit x sp → fullText (some s) L (pre ++ t :: post) = before ++ x ++ " ".toList ++ line) ∧
    (∀ c sp, t = .punct c .alone sp → c ≠ ',' → c ≠ ';' → fullText (some s) L (pre ++ t :: post) = before ++ [c] ++ " ".toList ++ line) ∧
    (∀ c sp, t = .punct c .joint sp → fullText (some s) L (pre ++ t :: post) = before ++ [c] ++ line) := by
  obtain ⟨A, hA⟩ := writeText_before (some s) L pre
  refine ⟨A, fun t post line hp hl => ?_⟩
  simp only [fullText_eq] at hl ⊢
  have hline : loopText (some s) L .joint post = line := List.append_cancel_left hl
  have halone : loopText (some s) L .alone post = ' ' :: line := by
    rw [loopText_alone]
    cases post with
    | nil => exact absurd rfl hp
    | cons u us => rw [← hline]; rfl
  rw [hA, hline, halone]
  refine ⟨?_, ?_, ?_⟩
  · rintro x sp (rfl | rfl) <;> simp [treeText]
  · rintro c sp rfl h1 h2
    simp [treeText, h1, h2]
  · rintro c sp rfl
    simp [treeText]

example : fullText (some "  ".toList) 0 callTokens = "f (\n  a ,\n  b\n)".toList ∧ fullText (some "  ".toList) 1 callTokens = "  f (\n    a ,\n    b\n  )".toList := by decide +kernel

/-! ### C45 -/

section
variable [Ext]

/-- **C45.** `to_string()` and `format!("{:#}")` of every value whose leaves have a textual form, and that can be printed at all: the output consists of the
texts of the value's tokens, separated by spaces - and line breaks, but only without the alternate flag - and reads back as the value's tokens. -/
theorem C45_display (laws : FloatLaws) (alternate : Bool) {env : Env} {t : Ty} {v : Val} (hv : HasTy env t v) (ht : HasText v) {ts : List TT}
    (h : v.toTokens = some ts) : ∃ text ts', display alternate v = some text ∧
      Spaced (fun c => c = ' ' ∨ alternate = false ∧ c = '\n') (texts ts) text ∧ lex text = some ts' ∧ SameShape ts ts' :=
  display_reads laws alternate hv ht h

/-- Generic nodes and user types: exactly the formatter's output for the tokens. -/
theorem C45_formatter (alternate : Bool) {tag : Tag} (hn : tag ≠ .eitherLeft ∧ tag ≠ .eitherRight) {vs : List Val} {ts : List TT}
    (h : (Val.node tag vs).toTokens = some ts) :
    display alternate (.node tag vs) = some (fullText (if alternate then none else some "    ".toList) 0 ts) := by
  have : display alternate (.node tag vs) = (formatNode .reliable alternate (.node tag vs)).map Prod.fst := by
    cases tag <;> simp_all [display]
  rw [this, formatNode, h, fullText_eq]
  simp only [Option.map_some, formatTokens_reliable]

/-- Parenthesised, bracketed and braced nodes: likewise. -/
theorem C45_formatter_group (alternate : Bool) {d : Delim} {sp : Span} {v : Val} {ts : List TT} (h : (Val.group d sp v).toTokens = some ts) :
    display alternate (.group d sp v) = some (fullText (if alternate then none else some "    ".toList) 0 ts) := by
  rw [display, formatNode, h, fullText_eq]
  simp only [Option.map_some, formatTokens_reliable]

/-- `Either` displays as the active side does. -/
theorem C45_either (alternate : Bool) (v : Val) : display alternate (.node .eitherLeft [v]) = display alternate v ∧
    display alternate (.node .eitherRight [v]) = display alternate v := by
  constructor <;> simp only [display, displayOnly]

/-- Leaves - identifiers, keywords, literals -: exactly the text of their tokens, in both modes. -/
theorem C45_leaf (laws : FloatLaws) (alternate : Bool) {l : Leaf} {v : LeafVal} {ts : List TT} (hl : LeafText l v) (h : leafToTokens l v = some ts) :
    display alternate (.leaf l v) = some (texts ts).flatten := by
  obtain ⟨_, h1, _⟩ := displayLeaf_reads laws hl h
  rw [display]; exact h1

end

section
attribute [local instance] toyExt
theorem demo_hasText : HasText demoVal := by
  have id : ∀ x : Text, lexIdentAny x = some (x, []) → IdentText x := fun _ h => h
  have op : ∀ c : Char, c ∈ punctChars → c ≠ '\'' → OperatorText [c] := by
    intro c h1 h2
    refine ⟨by simp, fun d hd => by rw [List.mem_singleton.mp hd]; exact ⟨h1, h2⟩, ?_, ?_⟩ <;>
    · intro h
      have := h.length_le
      simp at this
  exact ⟨.keyword, .ident (id _ (by decide)), .punct (op _ (by decide) (by decide)) rfl,
    ⟨⟨⟨.ident (id _ (by decide)), trivial⟩, trivial⟩, .punct (op _ (by decide) (by decide)) rfl, ⟨⟨by simp, ⟨.lit, trivial⟩, trivial⟩, trivial⟩, trivial⟩,
    ⟨.punct (op _ (by decide) (by decide)) rfl, .unit, trivial⟩, trivial⟩

example : display false demoVal = some "let x = y + (\n    7\n)\n;".toList ∧ display true demoVal = some "let x = y + (7) ;".toList := by decide +kernel
example : ∃ ts, HasTy demoEnv (.named "Let".toList) demoVal ∧ HasText demoVal ∧ demoVal.toTokens = some ts := by
  obtain ⟨s', hp⟩ := accepts_parses demo_accepts
  exact ⟨_, hp.elim fun n hn => parse_hasTy _ n _ _ _ _ hn, demo_hasText, rfl⟩
end

/-- The operators of syn (`Token![..]`) have a textual form. -/
example : ∀ tok ∈ ["&", "&&", "&=", "@", "^", "^=", ":", ",", "$", ".", "..", "...", "..=", "=", "==", "=>", ">=", ">", "<-", "<=", "<", "-", "-=",
    "!=", "!", "|", "|=", "||", "::", "%", "%=", "+", "+=", "#", "?", "->", ";", "<<", "<<=", ">>", ">>=", "/", "/=", "*", "*=", "~"].map String.toList,
    OperatorText tok := by
  unfold OperatorText
  decide +kernel

end Parsel
