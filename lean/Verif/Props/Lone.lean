import Verif.Proofs.LoneText
import Verif.Proofs.LoneOp
import Verif.Props.Numbers
import Verif.Props.Written

/-!
C94: exactly the source texts that the node types of one token, and those of no token, accept.
-/

namespace Parsel

open Spec

section

theorem intLit_digit {t : Text} {v : Nat} (h : IntLit t v) : ∃ d ds, t = d :: ds ∧ d.isDigit = true := by
  obtain ⟨pre, base, body, suf, n, hp, e, hD, hs, h10⟩ := h
  simp only [basePrefixes, List.mem_cons, Prod.mk.injEq, List.not_mem_nil, or_false] at hp
  rcases hp with ⟨rfl, rfl⟩ | ⟨rfl, rfl⟩ | ⟨rfl, rfl⟩ | ⟨rfl, rfl⟩
  · obtain ⟨hu, hx⟩ := h10 rfl
    have hsp := digits_grouped hD
    have hne := digits_ne_nil hD
    cases body with
    | nil => exact absurd rfl hne
    | cons c b =>
      have hc : c.isDigit = true := by
        rcases hsp c List.mem_cons_self with h | h
        · exact h
        · subst h; exact absurd rfl hu
      exact ⟨c, b ++ suf, by rw [e]; rfl, hc⟩
  all_goals exact ⟨'0', _, by rw [e]; rfl, by decide⟩

theorem floatLit_digit {t r : Text} (h : FloatLit t r) : ∃ d ds, t = d :: ds ∧ d.isDigit = true := by
  obtain ⟨c, int, _, _, _, _, _, rfl, _, hd, _⟩ := h
  exact ⟨c, _, rfl, hd⟩

variable [Ext]

theorem one_literal {src r : Text} {sp : Span} (hr : LitText r) : lex src = some [.lit r sp] ↔ OneToken src r sp := by
  rw [lone_literal]
  constructor
  · rintro ⟨bom, g, e, rfl, hb, hg, he, _, rfl⟩
    exact .mk hb hg he
  · intro h
    cases h with
    | mk hb hg he => exact ⟨_, _, _, rfl, hb, hg, he, hr, rfl⟩

theorem one_minus {src r : Text} {sp : Span} (hr : LitText r) (hd : ∃ d ds, r = d :: ds ∧ d.isDigit = true) :
    (∃ spc q sp2, lex src = some [.punct '-' spc q, .lit r sp2] ∧ sp = q.join sp2) ↔ MinusToken src r sp := by
  have join : ∀ p g' : Text, (stretchSpan p ['-']).join (stretchSpan (p ++ '-' :: g') r) = stretchSpan p ('-' :: (g' ++ r)) := by
    intro p g'
    have h1 : (posAfter (p ++ '-' :: g')).lt (posAfter p) = false := by
      have := posAfter_le ('-' :: g') p
      simpa [LineCol.le] using this
    have h2 : (posAfter (p ++ ['-'])).lt (posAfter (p ++ '-' :: g' ++ r)) = true := by
      obtain ⟨d, ds, rfl, _⟩ := hd
      have := posAfter_lt (a := p ++ ['-']) (b := g' ++ d :: ds) (by simp)
      simpa using this
    unfold Span.join stretchSpan
    simp only [h1, h2, if_true]
    simp
  constructor
  · rintro ⟨spc, q, sp2, hl, rfl⟩
    obtain ⟨bom, g, g', e, rfl, hb, hg, hg', he, _, rfl, rfl⟩ := (lone_minus hd).mp ⟨spc, hl⟩
    have e1 : bom ++ (g ++ '-' :: g') = bom ++ g ++ '-' :: g' := by simp
    rw [e1, join]
    exact .mk hb hg hg' he
  · intro h
    cases h with
    | @mk bom g g' x e hb hg hg' he =>
      obtain ⟨spc, hl⟩ := (lone_minus (src := bom ++ (g ++ '-' :: (g' ++ (r ++ e)))) hd).mpr ⟨bom, g, g', e, rfl, hb, hg, hg', he, hr, rfl, rfl⟩
      have e1 : bom ++ (g ++ '-' :: g') = bom ++ g ++ '-' :: g' := by simp
      exact ⟨spc, _, _, hl, by rw [e1, join]⟩

/-- **C94**: the texts without tokens are exactly those of white space and comments: they are what `Empty` and `Eof` accept, and what `NotEof` never does. -/
theorem C94_blank {src : Text} : lex src = some [] ↔ Unwritten src := by
  rw [lone_blank]
  constructor
  · rintro ⟨bom, e, rfl, hb, he⟩; exact .mk hb he
  · rintro ⟨hb, he⟩; exact ⟨_, _, rfl, hb, he⟩

theorem C94_empty {src : Text} : parseStr emptyParse src = .ok () ↔ Unwritten src := by
  rw [← C94_blank, text_whole (Q := fun ts _ rest => rest = ts)]
  · constructor
    · rintro ⟨ts, hl, h⟩; rw [hl, h]
    · intro hl; exact ⟨[], hl, rfl⟩
  · intro s v s'
    unfold emptyParse
    constructor
    · intro h; cases h; exact ⟨_, rfl, rfl⟩
    · rintro ⟨rest, rfl, rfl⟩; rfl
  · intro ts v rest _ h; exact ⟨[], h ▸ rfl⟩

theorem C94_eof {src : Text} : parseStr eofParse src = .ok () ↔ Unwritten src := by
  rw [← C94_empty]
  unfold parseStr
  split
  · rename_i ts hl
    unfold parse2 eofParse emptyParse
    have hv := C60_visible hl
    cases ts with
    | nil => rfl
    | cons t ts =>
      have h1 : unexpectedSpan (t :: ts) ≠ none := by
        unfold unexpectedSpan
        intro hh
        have hd := (dissolve_eq_nil_iff _).mpr (Option.map_eq_none_iff.mp hh)
        rw [dissolve_visible hv] at hd
        cases hd
      have h2 : (PState.mk (t :: ts) .callSite none).isEmpty = false := rfl
      cases h3 : unexpectedSpan (t :: ts) with
      | none => exact absurd h3 h1
      | some sp => simp [PState.isEmpty, h3]
  · rfl

theorem C94_notEof {src : Text} : parseStr notEofParse src ≠ .ok () := by
  intro h
  unfold parseStr at h
  split at h
  · rename_i ts hl
    have hv := C60_visible hl
    unfold parse2 notEofParse at h
    cases ts with
    | nil => simp [PState.isEmpty] at h
    | cons t ts =>
      have h1 : unexpectedSpan (t :: ts) ≠ none := by
        unfold unexpectedSpan
        intro hh
        have hd := (dissolve_eq_nil_iff _).mpr (Option.map_eq_none_iff.mp hh)
        rw [dissolve_visible hv] at hd
        cases hd
      cases h3 : unexpectedSpan (t :: ts) with
      | none => exact absurd h3 h1
      | some sp => simp [PState.isEmpty, h3] at h
  · cases h

theorem one_word {src x : Text} {sp : Span} : lex src = some [.ident x sp] ↔ OneToken src x sp ∧ Word x := by
  rw [lone_word]
  constructor
  · rintro ⟨bom, g, e, rfl, hb, hg, he, hx, rfl⟩
    exact ⟨.mk hb hg he, hx⟩
  · rintro ⟨h, hx⟩
    cases h with
    | mk hb hg he => exact ⟨_, _, _, rfl, hb, hg, he, hx, rfl⟩

theorem next_takes {ts rest : List TT} {t : TT} (hv : Visible ts) (h : Next ts t rest) : ∃ pre, ts = pre ++ rest := ⟨[t], next_visible hv h⟩

/-- A parser of one word, run on a source text. -/
theorem word_text {α : Type} {p : Parser α} {Q : Text → Span → α → Prop}
    (hp : ∀ {s v s'}, p s = .ok v s' ↔ ∃ x sp, Q x sp v ∧ ∃ rest, Next s.cur (.ident x sp) rest ∧ s' = { s with cur := rest }) {src : Text} {v : α} :
    parseStr p src = .ok v ↔ ∃ x sp, Q x sp v ∧ OneToken src x sp ∧ Word x := by
  rw [text_whole (Q := fun ts v rest => ∃ x sp, Q x sp v ∧ Next ts (.ident x sp) rest)]
  · constructor
    · rintro ⟨ts, hl, x, sp, hq, hn⟩
      have e := next_visible (C60_visible hl) hn
      subst e
      exact ⟨x, sp, hq, one_word.mp hl⟩
    · rintro ⟨x, sp, hq, hw⟩
      exact ⟨_, one_word.mpr hw, x, sp, hq, next_cons (by simp) _⟩
  · intro s v s'
    rw [hp]
    constructor
    · rintro ⟨x, sp, hq, rest, hn, hs⟩; exact ⟨rest, ⟨x, sp, hq, hn⟩, hs⟩
    · rintro ⟨rest, ⟨x, sp, hq, hn⟩, hs⟩; exact ⟨x, sp, hq, rest, hn, hs⟩
  · rintro ts v rest hv ⟨x, sp, _, hn⟩
    exact next_takes hv hn

/-- **C94**: an identifier type accepts exactly the texts that are one word that is none of its keywords; the name is the word, as it is written (a raw word is no
keyword, so it is accepted). -/
theorem C94_ident {kws : List Text} {src x : Text} {sp : Span} :
    parseStr (customIdentParse kws) src = .ok (x, sp) ↔ OneToken src x sp ∧ Word x ∧ x ∉ kws := by
  rw [word_text (Q := fun x sp v => v = (x, sp) ∧ x ∉ kws)]
  · constructor
    · rintro ⟨x, sp, ⟨h, hk⟩, ho, hw⟩
      cases h
      exact ⟨ho, hw, hk⟩
    · rintro ⟨ho, hw, hk⟩; exact ⟨x, sp, ⟨rfl, hk⟩, ho, hw⟩
  · rintro s ⟨x, sp⟩ s'
    rw [C25_custom_ident_ok]
    constructor
    · rintro ⟨h1, h2⟩; exact ⟨x, sp, ⟨rfl, h1⟩, h2⟩
    · rintro ⟨x', sp', ⟨h, h1⟩, h2⟩; cases h; exact ⟨h1, h2⟩

/-- **C94**: `Word` accepts exactly the texts that are one word. -/
theorem C94_word {src x : Text} {sp : Span} : parseStr wordParse src = .ok (x, sp) ↔ OneToken src x sp ∧ Word x := by
  unfold wordParse
  rw [C94_ident]
  simp

/-- **C94**: a keyword type accepts exactly the texts that are its word. -/
theorem C94_keyword {kw src : Text} {sp : Span} : parseStr (keywordParse kw) src = .ok sp ↔ OneToken src kw sp ∧ Word kw := by
  rw [word_text (Q := fun x sp v => v = sp ∧ x = kw)]
  · constructor
    · rintro ⟨x, sp, ⟨rfl, rfl⟩, h⟩; exact h
    · intro h; exact ⟨kw, sp, ⟨rfl, rfl⟩, h⟩
  · intro s v s'
    rw [C26_keyword_ok]
    constructor
    · rintro ⟨rest, h1, h2⟩; exact ⟨kw, v, ⟨rfl, rfl⟩, rest, h1, h2⟩
    · rintro ⟨x, sp, ⟨rfl, rfl⟩, rest, h1, h2⟩; exact ⟨rest, h1, h2⟩

/-- **C94**: `LitBool` accepts exactly the texts that are the word `true` or `false`. -/
theorem C94_bool {src : Text} {b : Bool} {sp : Span} :
    parseStr litBoolParse src = .ok (b, sp) ↔ OneToken src (if b then "true".toList else "false".toList) sp := by
  rw [word_text (Q := fun x sp v => v.2 = sp ∧ x = if v.1 then "true".toList else "false".toList)]
  · constructor
    · rintro ⟨x, sp, ⟨h, rfl⟩, ho, _⟩; cases h; exact ho
    · intro h
      refine ⟨_, sp, ⟨rfl, rfl⟩, h, word_iff.mp ?_⟩
      cases b
      · show lexIdentAny "false".toList = some ("false".toList, []); decide +kernel
      · show lexIdentAny "true".toList = some ("true".toList, []); decide +kernel
  · rintro s ⟨b, sp⟩ s'
    unfold litBoolParse synKindParse
    constructor
    · intro h
      split at h
      · rename_i l sp' s1 hs
        split at h
        · rename_i a hpk
          cases h
          unfold synLitParse at hs
          split at hs
          · split at hs
            · cases hs; cases hpk
            · cases hs
          · rename_i x sp2 rest hu
            have hn := (uncons_iff _ _ _).mp hu
            split at hs
            · rename_i hx; cases hs; cases hpk; exact ⟨x, _, ⟨rfl, hx⟩, rest, hn, rfl⟩
            · split at hs
              · rename_i hx; cases hs; cases hpk; exact ⟨x, _, ⟨rfl, hx⟩, rest, hn, rfl⟩
              · cases hs
          · split at hs
            · split at hs
              · cases hs; cases hpk
              · split at hs
                · cases hs; cases hpk
                · cases hs
            · cases hs
          · cases hs
        · cases h
      · cases h
      · cases h
      · cases h
    · rintro ⟨x, sp', ⟨rfl, rfl⟩, rest, hn, rfl⟩
      have hu := (uncons_iff _ _ _).mpr hn
      cases b <;> simp [synLitParse, hu]

/-- **C94**: the string, byte string, character and byte literal types accept exactly the texts that are one literal of their kind. -/
theorem C94_str {src v : Text} {sp : Span} : parseStr litStrParse src = .ok (v, sp) ↔ ∃ r, OneToken src r sp ∧ StrLit false r (v.map Char.toNat) := by
  rw [C91_str]
  exact exists_congr fun r => and_congr_left fun h => one_literal (strLit_text h)

theorem C94_byteStr {src : Text} {v : List Byte} {sp : Span} :
    parseStr litByteStrParse src = .ok (v, sp) ↔ ∃ r, OneToken src r sp ∧ StrLit true r (v.map Fin.val) := by
  rw [C91_byteStr]
  exact exists_congr fun r => and_congr_left fun h => one_literal (.inl ((byteStrLit_iff r v).mpr h).1)

theorem C94_char {src : Text} {v : Char} {sp : Span} : parseStr litCharParse src = .ok (v, sp) ↔ ∃ r, OneToken src r sp ∧ CharLit false r v.toNat := by
  rw [C91_char]
  exact exists_congr fun r => and_congr_left fun h => one_literal (.inl ((charLit_iff r v).mpr h).1)

theorem C94_byte {src : Text} {v : Byte} {sp : Span} : parseStr litByteParse src = .ok (v, sp) ↔ ∃ r, OneToken src r sp ∧ CharLit true r v.val := by
  rw [C91_byte]
  exact exists_congr fun r => and_congr_left fun h => one_literal (.inl ((byteLit_iff r v).mpr h).1)

/-- **C94**: the number types accept exactly the texts that are one literal of their kind in the range of the type, after a minus sign if the type is signed. -/
theorem C94_uint {src : Text} {v : Nat} {sp : Span} : parseStr litUintParse src = .ok (v, sp) ↔ ∃ r, OneToken src r sp ∧ IntLit r v ∧ InU64 v := by
  rw [C92_uint]
  exact exists_congr fun r => and_congr_left fun h => one_literal (.inl (intLit_lexed h.1))

theorem C94_int {src : Text} {v : Int} {sp : Span} : parseStr litIntParse src = .ok (v, sp) ↔
    InI64 v ∧ ∃ r n, IntLit r n ∧ ((OneToken src r sp ∧ v = n) ∨ (MinusToken src r sp ∧ v = -(n : Int))) := by
  rw [C92_int]
  constructor
  · rintro (⟨r, n, hl, hi, hv, hr⟩ | ⟨spc, q, r, sp2, n, hl, hs, hi, hv, hr⟩)
    · exact ⟨hr, r, n, hi, .inl ⟨(one_literal (.inl (intLit_lexed hi))).mp hl, hv⟩⟩
    · exact ⟨hr, r, n, hi, .inr ⟨(one_minus (.inl (intLit_lexed hi)) (intLit_digit hi)).mp ⟨spc, q, sp2, hl, hs⟩, hv⟩⟩
  · rintro ⟨hr, r, n, hi, ⟨ho, hv⟩ | ⟨ho, hv⟩⟩
    · exact .inl ⟨r, n, (one_literal (.inl (intLit_lexed hi))).mpr ho, hi, hv, hr⟩
    · obtain ⟨spc, q, sp2, hl, hs⟩ := (one_minus (.inl (intLit_lexed hi)) (intLit_digit hi)).mpr ho
      exact .inr ⟨spc, q, r, sp2, n, hl, hs, hi, hv, hr⟩

theorem C94_float {src : Text} {x : Ext.F} {sp : Span} : parseStr litFloatParse src = .ok (x, sp) ↔
    ∃ r d, FloatLit r d ∧ ((OneToken src r sp ∧ Ext.floatOf d = some x) ∨ (MinusToken src r sp ∧ Ext.floatOf ('-' :: d) = some x)) := by
  have text : ∀ {r d}, FloatLit r d → LitText r := fun h => .inl (floatLit_iff.mpr h).1
  rw [C92_float]
  constructor
  · rintro (⟨r, d, hl, hi, hv⟩ | ⟨spc, q, r, sp2, d, hl, hs, hi, hv⟩)
    · exact ⟨r, d, hi, .inl ⟨(one_literal (text hi)).mp hl, hv⟩⟩
    · exact ⟨r, d, hi, .inr ⟨(one_minus (text hi) (floatLit_digit hi)).mp ⟨spc, q, sp2, hl, hs⟩, hv⟩⟩
  · rintro ⟨r, d, hi, ⟨ho, hv⟩ | ⟨ho, hv⟩⟩
    · exact .inl ⟨r, d, (one_literal (text hi)).mpr ho, hi, hv⟩
    · obtain ⟨spc, q, sp2, hl, hs⟩ := (one_minus (text hi) (floatLit_digit hi)).mpr ho
      exact .inr ⟨spc, q, r, sp2, d, hl, hs, hi, hv⟩

/-- **C94**: `Lit` accepts exactly the texts that one of these types accepts, and is of its kind; for integers it is unsigned without a sign and signed with one. -/
theorem C94_lit {src : Text} {v : LitVal} {sp : Span} : parseStr litParse src = .ok (v, sp) ↔
    match v with
    | .bool b => OneToken src (if b then "true".toList else "false".toList) sp
    | .byte b => ∃ r, OneToken src r sp ∧ CharLit true r b.val
    | .char c => ∃ r, OneToken src r sp ∧ CharLit false r c.toNat
    | .str t => ∃ r, OneToken src r sp ∧ StrLit false r (t.map Char.toNat)
    | .byteStr t => ∃ r, OneToken src r sp ∧ StrLit true r (t.map Fin.val)
    | .uint n => ∃ r, OneToken src r sp ∧ IntLit r n ∧ InU64 n
    | .int i => InI64 i ∧ ∃ r n, IntLit r n ∧ MinusToken src r sp ∧ i = -(n : Int)
    | .float x => ∃ r d, FloatLit r d ∧ ((OneToken src r sp ∧ Ext.floatOf d = some x) ∨ (MinusToken src r sp ∧ Ext.floatOf ('-' :: d) = some x)) := by
  cases v with
  | bool b => exact (text_through (q := litBoolParse) (p := litParse) (f := fun a => (LitVal.bool a.1, a.2)) (v := (b, sp)) (fun s s' => C35_bool s s' b sp)).trans C94_bool
  | byte b => exact (text_through (q := litByteParse) (p := litParse) (f := fun a => (LitVal.byte a.1, a.2)) (v := (b, sp)) (fun s s' => C35_byte s s' b sp)).trans C94_byte
  | char c => exact (text_through (q := litCharParse) (p := litParse) (f := fun a => (LitVal.char a.1, a.2)) (v := (c, sp)) (fun s s' => C35_char s s' c sp)).trans C94_char
  | str t => exact (text_through (q := litStrParse) (p := litParse) (f := fun a => (LitVal.str a.1, a.2)) (v := (t, sp)) (fun s s' => C35_str s s' t sp)).trans C94_str
  | byteStr t =>
    exact (text_through (q := litByteStrParse) (p := litParse) (f := fun a => (LitVal.byteStr a.1, a.2)) (v := (t, sp)) (fun s s' => C35_byteStr s s' t sp)).trans C94_byteStr
  | uint n =>
    rw [C92_lit_uint]
    exact exists_congr fun r => and_congr_left fun h => one_literal (.inl (intLit_lexed h.1))
  | int i =>
    rw [C92_lit_int]
    constructor
    · rintro ⟨spc, q, r, sp2, n, hl, hs, hi, hv, hr⟩
      exact ⟨hr, r, n, hi, (one_minus (.inl (intLit_lexed hi)) (intLit_digit hi)).mp ⟨spc, q, sp2, hl, hs⟩, hv⟩
    · rintro ⟨hr, r, n, hi, ho, hv⟩
      obtain ⟨spc, q, sp2, hl, hs⟩ := (one_minus (.inl (intLit_lexed hi)) (intLit_digit hi)).mpr ho
      exact ⟨spc, q, r, sp2, n, hl, hs, hi, hv, hr⟩
  | float x =>
    rw [C92_lit_float, ← C92_float, C94_float]

theorem punctAt_takes {tok : Text} {ts : List TT} {sps : List Span} {rest : List TT} (h : PunctAt tok ts sps rest) : Visible ts → ∃ pre, ts = pre ++ rest := by
  induction h with
  | nil => exact fun _ => ⟨[], rfl⟩
  | last _ hn => intro hv; exact next_takes hv hn
  | more _ _ hn _ ih =>
    intro hv
    have e := next_visible hv hn
    subst e
    obtain ⟨pre, rfl⟩ := ih (fun i sp ho => hv i sp (.tail ho))
    exact ⟨_ :: pre, rfl⟩

/-- **C94**: an operator type accepts exactly the texts that are its characters in a row, with no comment beginning between them; its locations are those of the
characters. -/
theorem C94_operator {tok src : Text} {sps : List Span} (hne : tok ≠ []) : parseStr (parsePunct tok) src = .ok sps ↔
    ∃ bom g e, src = bom ++ (g ++ (tok ++ e)) ∧ IsBom bom ∧ Gap g ∧ Ending e ∧ CharSpans (bom ++ g) tok sps ∧
      (∀ c ∈ tok, c ∈ punctChars ∧ c ≠ '\'') ∧ Uncommented tok e := by
  rw [text_whole (Q := fun ts v rest => PunctAt tok ts v rest)]
  · constructor
    · rintro ⟨ts, hl, h⟩
      have ho := (opTokens_iff hne (C60_visible hl)).mp h
      obtain ⟨bom, rest, hs, hb, he⟩ := lexAll_cut src
      have hl' := lex_some.mp hl
      rw [he] at hl'
      obtain ⟨g, e, rfl, hg, h1, h2, h3, h4⟩ := lone_op_reads ho hs (acc := []) (by simpa using hl')
      exact ⟨bom, g, e, hs, hb, hg, h1, h2, h3, h4⟩
    · rintro ⟨bom, g, e, rfl, hb, hg, he, hc, hch, hun⟩
      obtain ⟨ts, ho, hl⟩ := lone_op_writes (src := bom ++ (g ++ (tok ++ e))) hc hne (acc := []) (by simp) he hch hun
      have hbom : ∀ c, (g ++ (tok ++ e)).head? = some c → c.toNat ≠ 0xFEFF := by
        apply gap_bom hg
        cases tok with
        | nil => exact absurd rfl hne
        | cons d t => intro c hc; simp at hc; subst hc; exact bom_punct _ (hch _ List.mem_cons_self).1
      have hl' : lex (bom ++ (g ++ (tok ++ e))) = some ts := by
        rw [lex_some, lexAll_of hb hbom, lexFrom_gap hg, hl]
        simp
      exact ⟨ts, hl', (opTokens_iff hne (C60_visible hl')).mpr ho⟩
  · intro s v s'
    unfold parsePunct
    constructor
    · intro h
      split at h
      · rename_i sps' rest hp
        cases h
        exact ⟨rest, (punctLoop_at _ _ _ _).mp hp, rfl⟩
      · cases h
    · rintro ⟨rest, hp, rfl⟩
      rw [(punctLoop_at _ _ _ _).mpr hp]
  · exact fun hv h => punctAt_takes h hv

/-- **C66** for whole files: a byte order mark before a layout and a line comment at its end, which no line break closes, change nothing. -/
theorem C66_file {ts : List TT} {x bom z : Text} {w : Char} (hw : Writable ts) (h : Layout ts x) (hb : IsBom bom) (hwhite : lexWhite w = true)
    (hz : '\n' ∉ z) (h1 : z.head? ≠ some '!') (h2 : z.head? = some '/' → z.tail.head? = some '/') :
    ∃ ts', lex (bom ++ (x ++ w :: '/' :: '/' :: z)) = some ts' ∧ SameShape ts ts' := by
  obtain ⟨ts', hs, e⟩ := layout_reads (bom ++ (x ++ w :: '/' :: '/' :: z)) h hw (k := w :: '/' :: '/' :: z) [] [] (brk_cons (white_break hwhite) _)
  refine ⟨ts', lex_some.mpr ?_, hs⟩
  have hbom : ∀ c, (x ++ w :: '/' :: '/' :: z).head? = some c → c.toNat ≠ 0xFEFF := by
    cases hx : x with
    | nil => intro c hc; simp at hc; subst hc; exact bom_break _ (white_break hwhite)
    | cons d x' =>
      intro c hc
      simp at hc
      exact layout_bom h hw c (by rw [hx, hc]; rfl)
  rw [lexAll_of hb hbom, e]
  simpa using (lone_end (src := bom ++ (x ++ w :: '/' :: '/' :: z)) (acc := ts')).mpr (.line (g := [w]) (.white hwhite .nil) hz h1 h2)

end

/-! ### the hypotheses are met -/

section

attribute [local instance] toyExt

/-- A file of one word: a byte order mark, a comment before it and one after it that nothing closes. -/
theorem file_word : OneToken "\uFEFF /*m*/ r#fn // the end".toList "r#fn".toList ⟨⟨1, 8⟩, ⟨1, 12⟩⟩ :=
  .mk (bom := ['\uFEFF']) (g := " /*m*/ ".toList) (x := "r#fn".toList) (e := " // the end".toList) (.inr rfl)
    (.white (by decide) (.block (x := "/*m*/".toList) (block_iff.mp (by decide)) (by decide) (by decide) (.white (by decide) .nil)))
    (.line (g := " ".toList) (x := " the end".toList) (.white (by decide) .nil) (by decide) (by decide) (by decide))

/-- It is accepted, also where `fn` is a keyword: the raw word is none. -/
example : parseStr (customIdentParse ["fn".toList]) "\uFEFF /*m*/ r#fn // the end".toList = .ok ("r#fn".toList, ⟨⟨1, 8⟩, ⟨1, 12⟩⟩) :=
  C94_ident.mpr ⟨file_word, .raw (c := 'f') (w := ['n']) (by decide) (by decide) (by decide), by decide⟩

/-- `r#self` is not accepted by any identifier type. -/
example (kws : List Text) (sp : Span) : parseStr (customIdentParse kws) "r#self".toList ≠ .ok ("r#self".toList, sp) := by
  intro h
  cases (C94_ident.mp h).2.1 with
  | plain _ hw => exact absurd (hw '#' (by decide)) (by decide)
  | raw _ _ hm => exact hm (by decide)

/-- A text of two comments. -/
example : parseStr eofParse " /*a*/ // b".toList = .ok () :=
  C94_eof.mpr (.mk (bom := []) (.inl rfl) (.line (g := " /*a*/ ".toList) (x := " b".toList)
    (.white (by decide) (.block (x := "/*a*/".toList) (block_iff.mp (by decide)) (by decide) (by decide) (.white (by decide) .nil))) (by decide) (by decide) (by decide)))

/-- `=>` with a comment after it; `= >` is not accepted. -/
example : parseStr (parsePunct "=>".toList) " => // x".toList = .ok [⟨⟨1, 1⟩, ⟨1, 2⟩⟩, ⟨⟨1, 2⟩, ⟨1, 3⟩⟩] :=
  (C94_operator (by decide)).mpr ⟨[], " ".toList, " // x".toList, rfl, .inl rfl, .white (by decide) .nil,
    .line (g := " ".toList) (x := " x".toList) (.white (by decide) .nil) (by decide) (by decide) (by decide), .cons (.cons .nil), by decide, fun a b hab hb => by
      have e := congrArg (List.drop a.length) hab
      rw [List.drop_left] at e
      have hlen := congrArg List.length hab
      have : a.length < 2 := by
        cases b with
        | nil => exact absurd rfl hb
        | cons => simp at hlen; omega
      rcases Nat.lt_succ_iff_lt_or_eq.mp this with h | h
      · have : a.length = 0 := by omega
        rw [this] at e; subst e; decide
      · rw [h] at e; subst e; decide⟩

end

end Parsel
