import Verif.Proofs.StrLit
import Verif.Props.Source
import Verif.Props.Layout
import Verif.Proofs.Reparse

/-!
C91: the string, byte string, character and byte literals of the source text and their values.
-/

namespace Parsel

open Spec

section
variable [Ext]

/-- A parser of one kind of literal reads a literal token. -/
theorem kind_token {α : Type} {msg : Text} {pick : SynTok → Option α} (hb : ∀ b, pick (.bool b) = none) (hi : ∀ d, pick (.lit (.int d)) = none)
    (hf : ∀ d, pick (.lit (.float d)) = none) {s s' : PState} {a : α} {sp : Span} (h : synKindParse msg pick s = .ok (a, sp) s') :
    ∃ r l rest, uncons s.cur = some (.lit r sp, rest) ∧ readLit r = some l ∧ pick (.lit l) = some a ∧ s' = { s with cur := rest } := by
  unfold synKindParse at h
  split at h
  · rename_i l sp1 s1 hs
    split at h
    · rename_i hpk
      cases h
      unfold synLitParse at hs
      split at hs
      · rename_i repr sp2 rest hu
        split at hs
        · rename_i hrd
          cases hs
          exact ⟨_, _, _, hu, hrd, hpk, rfl⟩
        · cases hs
      · split at hs
        · cases hs; rw [hb] at hpk; cases hpk
        · split at hs
          · cases hs; rw [hb] at hpk; cases hpk
          · cases hs
      · split at hs
        · split at hs
          · cases hs; rw [hi] at hpk; cases hpk
          · split at hs
            · cases hs; rw [hf] at hpk; cases hpk
            · cases hs
        · cases hs
      · cases hs
    · cases h
  · cases h
  · cases h
  · cases h

/-- A parser of one kind of literal, run on a source text: the text is one literal token of that kind. -/
theorem kind_text {α : Type} {msg : Text} {pick : SynTok → Option α} (hb : ∀ b, pick (.bool b) = none) (hi : ∀ d, pick (.lit (.int d)) = none)
    (hf : ∀ d, pick (.lit (.float d)) = none) (hv : pick (.lit .verbatim) = none) {src : Text} {a : α} {sp : Span} :
    parseStr (synKindParse msg pick) src = .ok (a, sp) ↔
      ∃ r l, lex src = some [.lit r sp] ∧ (lexLiteral r = some [] ∧ readLit r = some l) ∧ pick (.lit l) = some a := by
  constructor
  · intro h
    unfold parseStr at h
    split at h
    · rename_i ts hl
      have hvis := C60_visible hl
      unfold parse2 at h
      split at h
      · rename_i v s' hp
        split at h
        · cases h
        · split at h
          · cases h
          · rename_i hend
            cases h
            obtain ⟨r, l, rest, hu, hrd, hpk, rfl⟩ := kind_token hb hi hf hp
            have e : ts = .lit r sp :: rest := next_visible hvis ((uncons_iff _ _ _).mp hu)
            have hrv : Visible rest := fun i sp ho => hvis i sp (e ▸ .tail ho)
            have hnil : rest = [] := by
              unfold unexpectedSpan at hend
              have hd := (dissolve_eq_nil_iff _).mpr (Option.map_eq_none_iff.mp hend)
              rwa [dissolve_visible hrv] at hd
            subst hnil
            refine ⟨r, l, e ▸ hl, ⟨?_, hrd⟩, hpk⟩
            have hw := (lex_writable hl).1
            rw [e] at hw
            rcases (writable_occurs hw .head).2 r _ rfl with h1 | h1
            · exact h1
            · subst h1
              have : readLit "(/*ERROR*/)".toList = some .verbatim := rfl
              rw [this] at hrd
              cases hrd
              rw [hv] at hpk; cases hpk
      · cases h
      · cases h
      · cases h
    · cases h
  · rintro ⟨r, l, hl, ⟨-, hr⟩, hp⟩
    unfold parseStr
    rw [hl]
    have h1 : synLitParse { cur := [.lit r sp], scope := .callSite, unexp := none } = .ok (.lit l, sp) { cur := [], scope := .callSite, unexp := none } := by
      unfold synLitParse
      rw [show uncons [TT.lit r sp] = some (.lit r sp, []) from next_lit]
      simp only [hr]
    simp only [parse2, synKindParse, h1, hp]
    rfl

/-- **C91**, strings: `LitStr` accepts exactly the texts that are one string literal (between white space and comments), and its value is that of the literal. -/
theorem C91_str {src v : Text} {sp : Span} :
    parseStr litStrParse src = .ok (v, sp) ↔ ∃ r, lex src = some [.lit r sp] ∧ StrLit false r (v.map Char.toNat) := by
  unfold litStrParse
  rw [kind_text (fun _ => rfl) (fun _ => rfl) (fun _ => rfl) rfl]
  constructor
  · rintro ⟨r, l, hl, hr, hp⟩
    cases l <;> simp only [Option.some.injEq, reduceCtorEq] at hp
    subst hp
    exact ⟨r, hl, (strLit_iff r _).mp hr⟩
  · rintro ⟨r, hl, hr⟩
    exact ⟨r, .str v, hl, (strLit_iff r v).mpr hr, rfl⟩

/-- **C91**, byte strings. -/
theorem C91_byteStr {src : Text} {v : List Byte} {sp : Span} :
    parseStr litByteStrParse src = .ok (v, sp) ↔ ∃ r, lex src = some [.lit r sp] ∧ StrLit true r (v.map Fin.val) := by
  unfold litByteStrParse
  rw [kind_text (fun _ => rfl) (fun _ => rfl) (fun _ => rfl) rfl]
  constructor
  · rintro ⟨r, l, hl, hr, hp⟩
    cases l <;> simp only [Option.some.injEq, reduceCtorEq] at hp
    subst hp
    exact ⟨r, hl, (byteStrLit_iff r _).mp hr⟩
  · rintro ⟨r, hl, hr⟩
    exact ⟨r, .byteStr v, hl, (byteStrLit_iff r v).mpr hr, rfl⟩

/-- **C91**, characters. -/
theorem C91_char {src : Text} {v : Char} {sp : Span} :
    parseStr litCharParse src = .ok (v, sp) ↔ ∃ r, lex src = some [.lit r sp] ∧ CharLit false r v.toNat := by
  unfold litCharParse
  rw [kind_text (fun _ => rfl) (fun _ => rfl) (fun _ => rfl) rfl]
  constructor
  · rintro ⟨r, l, hl, hr, hp⟩
    cases l <;> simp only [Option.some.injEq, reduceCtorEq] at hp
    subst hp
    exact ⟨r, hl, (charLit_iff r _).mp hr⟩
  · rintro ⟨r, hl, hr⟩
    exact ⟨r, .char v, hl, (charLit_iff r v).mpr hr, rfl⟩

/-- **C91**, bytes. -/
theorem C91_byte {src : Text} {v : Byte} {sp : Span} :
    parseStr litByteParse src = .ok (v, sp) ↔ ∃ r, lex src = some [.lit r sp] ∧ CharLit true r v.val := by
  unfold litByteParse
  rw [kind_text (fun _ => rfl) (fun _ => rfl) (fun _ => rfl) rfl]
  constructor
  · rintro ⟨r, l, hl, hr, hp⟩
    cases l <;> simp only [Option.some.injEq, reduceCtorEq] at hp
    subst hp
    exact ⟨r, hl, (byteLit_iff r _).mp hr⟩
  · rintro ⟨r, hl, hr⟩
    exact ⟨r, .byte v, hl, (byteLit_iff r v).mpr hr, rfl⟩

/-! ### from the text -/

theorem strLit_text {r v : Text} (h : StrLit false r (v.map Char.toNat)) : LitText r := .inl ((strLit_iff r v).mpr h).1

/-- A literal between gaps is lexed as one token. -/
theorem lone_lit {g r g' : Text} (hr : LitText r) (hg : Gap g) (hg' : Gap g') (hp : Parts r g') : ∃ sp, lex (g ++ (r ++ g')) = some [.lit r sp] := by
  obtain ⟨ts', h1, h2⟩ := lex_layout (.lit (sp := ⟨⟨1, 0⟩, ⟨1, 0⟩⟩) hg hp (.nil hg')) (.lit hr .nil)
  cases h2 with
  | lit h3 => cases h3; exact ⟨_, h1⟩

/-- **C91**: every string literal of the grammar, between white space and comments as one likes, is accepted by `LitStr`, with its value. -/
theorem C91_str_text {g r g' v : Text} (h : StrLit false r (v.map Char.toNat)) (hg : Gap g) (hg' : Gap g') (hp : Parts r g') :
    ∃ sp, parseStr litStrParse (g ++ (r ++ g')) = .ok (v, sp) := by
  obtain ⟨sp, hl⟩ := lone_lit (.inl ((strLit_iff r v).mpr h).1) hg hg' hp
  exact ⟨sp, C91_str.mpr ⟨r, hl, h⟩⟩

/-- ... and every byte string literal by `LitByteStr`. -/
theorem C91_byteStr_text {g r g' : Text} {v : List Byte} (h : StrLit true r (v.map Fin.val)) (hg : Gap g) (hg' : Gap g') (hp : Parts r g') :
    ∃ sp, parseStr litByteStrParse (g ++ (r ++ g')) = .ok (v, sp) := by
  obtain ⟨sp, hl⟩ := lone_lit (.inl ((byteStrLit_iff r v).mpr h).1) hg hg' hp
  exact ⟨sp, C91_byteStr.mpr ⟨r, hl, h⟩⟩

/-- ... and every character literal by `LitChar`. -/
theorem C91_char_text {g r g' : Text} {v : Char} (h : CharLit false r v.toNat) (hg : Gap g) (hg' : Gap g') (hp : Parts r g') :
    ∃ sp, parseStr litCharParse (g ++ (r ++ g')) = .ok (v, sp) := by
  obtain ⟨sp, hl⟩ := lone_lit (.inl ((charLit_iff r v).mpr h).1) hg hg' hp
  exact ⟨sp, C91_char.mpr ⟨r, hl, h⟩⟩

/-- ... and every byte literal by `LitByte`. -/
theorem C91_byte_text {g r g' : Text} {v : Byte} (h : CharLit true r v.val) (hg : Gap g) (hg' : Gap g') (hp : Parts r g') :
    ∃ sp, parseStr litByteParse (g ++ (r ++ g')) = .ok (v, sp) := by
  obtain ⟨sp, hl⟩ := lone_lit (.inl ((byteLit_iff r v).mpr h).1) hg hg' hp
  exact ⟨sp, C91_byte.mpr ⟨r, hl, h⟩⟩

theorem spelled_some {docs : Bool} {pre x : Text} {ts : List TT} (h : Spelled docs pre x ts) : ts ≠ [] := by
  cases h with
  | doc _ _ => intro h; unfold docTokens at h; split at h <;> cases h
  | _ => simp

theorem laid_none {docs : Bool} {pre x : Text} {ts : List TT} (h : Laid docs pre x ts) (hn : ts = []) : Blank x := by
  cases h with
  | blank hg => exact hg
  | token _ _ hs _ => exact absurd (List.append_eq_nil_iff.mp hn).1 (spelled_some hs)

/-- One literal token is spelled by its text. -/
theorem lone_laid {docs : Bool} {pre x r : Text} {sp : Span} {ts : List TT} (h : Laid docs pre x ts) (hn : ts = [.lit r sp]) :
    ∃ g g', Blank g ∧ Blank g' ∧ x = g ++ r ++ g' ∧ sp = stretchSpan (pre ++ g) r := by
  cases h with
  | blank _ => cases hn
  | token hg _ hs hrest =>
    cases hs with
    | lit => cases hn; exact ⟨_, _, hg, laid_none hrest rfl, rfl, rfl⟩
    | ident => cases hn
    | punct => cases hn
    | group => cases hn
    | doc => unfold docTokens at hn; split at hn <;> cases hn

/-- **C91**: ... and nothing else: an accepted text is such a literal, at the location of the value, between white space and comments (there may be a byte order mark). -/
theorem C91_str_source {src v : Text} {sp : Span} (h : parseStr litStrParse src = .ok (v, sp)) :
    ∃ bom g r g', src = bom ++ g ++ r ++ g' ∧ IsBom bom ∧ Blank g ∧ Blank g' ∧ StrLit false r (v.map Char.toNat) ∧ sp = stretchSpan (bom ++ g) r := by
  obtain ⟨r, hl, hs⟩ := C91_str.mp h
  obtain ⟨bom, x, hb, rfl, hx⟩ := C60_lexed hl
  obtain ⟨g, g', h1, h2, rfl, rfl⟩ := lone_laid hx rfl
  exact ⟨bom, g, r, g', by simp, hb, h1, h2, hs, rfl⟩

end

/-! ### concrete literals -/

section
attribute [local instance] toyExt

/-- Digits may be in either case, with underscores. -/
theorem demo_digits : Digits 16 "1F_600".toList 5 0x1F600 :=
  .digit (t := "1F_60".toList) (.digit (t := "1F_6".toList) (.digit (t := "1F_".toList) (.under (t := "1F".toList)
    (.digit (t := "1".toList) (.digit (t := []) .nil (d := 1) ⟨by decide, .inl rfl⟩) (d := 15) ⟨by decide, .inr rfl⟩))
    (d := 6) ⟨by decide, .inl rfl⟩) (d := 0) ⟨by decide, .inl rfl⟩) (d := 0) ⟨by decide, .inl rfl⟩

/-- A string with escapes of all kinds and a two-character line break, which is one character of the value. -/
theorem demo_cooked : StrLit false ("\"a\\n\\x4a\\u{1F_600}b\r\n\"".toList) ("a\nJ😀b\n".toList.map Char.toNat) := by
  refine .cooked (x := "a\\n\\x4a\\u{1F_600}b\r\n".toList) (suf := []) ?_ rfl
  refine .char (by decide) (by decide) ?_
  refine .escape (e := "\\n".toList) (.short (by decide)) ?_
  refine .escape (e := "\\x4a".toList) (n := 16 * 4 + 10) (.hex ⟨by decide, .inl rfl⟩ ⟨by decide, .inl rfl⟩ (by decide)) ?_
  refine .escape (e := "\\u{1F_600}".toList) (.uni rfl demo_digits (by decide) (by decide) (by decide) (by decide)) ?_
  exact .char (by decide) (by decide) (.crlf .nil)

example : ∃ sp, parseStr litStrParse (" ".toList ++ ("\"a\\n\\x4a\\u{1F_600}b\r\n\"".toList ++ " ".toList)) = .ok ("a\nJ😀b\n".toList, sp) :=
  C91_str_text demo_cooked (.white (by decide) .nil) (.white (by decide) .nil) (parts_cons (by decide) (by decide) (by decide))

/-- A backslash at the end of a line swallows the white space up to the next character. -/
theorem demo_skip : StrLit false "\"a\\\n  \r\n\tb\"".toList ("ab".toList.map Char.toNat) := by
  refine .cooked (x := "a\\\n  \r\n\tb".toList) (suf := []) ?_ rfl
  refine .char (by decide) (by decide) ?_
  refine .skip (nl := "\n".toList) (w := "  \r\n\t".toList) (x := "b".toList) (.inl rfl) ?_ (by decide) (.char (by decide) (by decide) .nil)
  exact .white (by decide) (.white (by decide) (.crlf (.white (by decide) .nil)))

/-- Quotes and backslashes stand for themselves in a raw string, which may have a suffix. -/
theorem demo_raw : StrLit false "r#\"a\"\\\r\nb\"#suf".toList ("a\"\\\r\nb".toList.map Char.toNat) := by
  refine .raw (n := 1) (x := "a\"\\\r\nb".toList) (suf := "suf".toList) (by decide) ⟨?_, ?_, by decide⟩ (by decide)
  · intro a b h
    match a, h with
    | [], h => cases h
    | [_], h => cases h
    | [_, _], h => cases h
    | [_, _, _], h => cases h
    | [_, _, _, _], h => cases h
    | [_, _, _, _, _], h => cases h
    | [_, _, _, _, _, _], h => cases h
    | _ :: _ :: _ :: _ :: _ :: _ :: _ :: _, h => cases h
  · intro a b h
    match a, h with
    | [], h => cases h
    | [_], h => cases h
    | [_, _], h => cases h
    | [_, _, _], h => cases h; rfl
    | [_, _, _, _], h => cases h
    | [_, _, _, _, _], h => cases h
    | [_, _, _, _, _, _], h => cases h
    | _ :: _ :: _ :: _ :: _ :: _ :: _ :: _, h => cases h

example : ∃ sp, parseStr litStrParse ([] ++ ("r#\"a\"\\\r\nb\"#suf".toList ++ "/**/".toList)) = .ok ("a\"\\\r\nb".toList, sp) :=
  C91_str_text demo_raw .nil (.block (x := "/**/".toList) (block_iff.mp (by decide +kernel)) (by decide) (fun _ => .inr rfl) .nil)
    (parts_cons (by decide) (by decide) (by decide))

/-- The line break of two characters is one byte of a byte string, too. -/
theorem demo_byteStr : StrLit true "b\"\\xff\r\n\"".toList (([255, 10] : List Byte).map Fin.val) := by
  refine .cooked (x := "\\xff\r\n".toList) (suf := []) ?_ rfl
  exact .escape (e := "\\xff".toList) (n := 16 * 15 + 15) (.hex ⟨by decide, .inl rfl⟩ ⟨by decide, .inl rfl⟩ (by decide)) (.crlf .nil)

example : ∃ sp, parseStr litByteStrParse ([] ++ ("b\"\\xff\r\n\"".toList ++ [])) = .ok (([255, 10] : List Byte), sp) :=
  C91_byteStr_text demo_byteStr .nil .nil ⟨by simp, fun _ => ⟨by simp, .inl ⟨by simp, by simp⟩⟩⟩

example : ∃ sp, parseStr litCharParse ([] ++ ("'\\u{1F_600}'".toList ++ [])) = .ok ('😀', sp) :=
  C91_char_text (.escape (e := "\\u{1F_600}".toList) (suf := []) (.uni rfl demo_digits (by decide) (by decide) (by decide) (by decide)) rfl)
    .nil .nil ⟨by simp, fun _ => ⟨by simp, .inl ⟨by simp, by simp⟩⟩⟩

example : ∃ sp, parseStr litByteParse ([] ++ ("b'\\''".toList ++ [])) = .ok ((39 : Byte), sp) :=
  C91_byte_text (.escape (e := "\\'".toList) (suf := []) (.short (by decide)) rfl)
    .nil .nil ⟨by simp, fun _ => ⟨by simp, .inl ⟨by simp, by simp⟩⟩⟩

/-- A surrogate is no character, and a lone carriage return may not be in a string: there are no such literals. -/
example (v : Char) : ¬ CharLit false "'\\u{d800}'".toList v.toNat := by
  rw [← charLit_iff]
  rintro ⟨h, -⟩
  revert h
  decide +kernel

example (v : Text) : ¬ StrLit false "\"a\rb\"".toList (v.map Char.toNat) := by
  rw [← strLit_iff]
  rintro ⟨h, -⟩
  revert h
  decide +kernel

end

end Parsel
