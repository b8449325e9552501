import Verif.Proofs.NumText
import Verif.Proofs.Peg
import Verif.Props.Strings

/-!
C92: the integer and floating point literals of the source text and their values.
-/

namespace Parsel

open Spec

section
variable [Ext]

/-- A parser that takes tokens from the front, run on a source text: it takes all tokens. -/
theorem text_whole {α : Type} {p : Parser α} {Q : List TT → α → List TT → Prop}
    (hp : ∀ {s v s'}, p s = .ok v s' ↔ ∃ rest, Q s.cur v rest ∧ s' = { s with cur := rest })
    (hq : ∀ {ts v rest}, Visible ts → Q ts v rest → ∃ pre, ts = pre ++ rest) {src : Text} {v : α} :
    parseStr p src = .ok v ↔ ∃ ts, lex src = some ts ∧ Q ts v [] := by
  constructor
  · intro h
    unfold parseStr at h
    split at h
    · rename_i ts hl
      have hvis := C60_visible hl
      unfold parse2 at h
      split at h
      · rename_i v s' hr
        split at h
        · cases h
        · split at h
          · cases h
          · rename_i hend
            cases h
            obtain ⟨rest, hQ, rfl⟩ := hp.mp hr
            obtain ⟨pre, e⟩ := hq hvis hQ
            have hrv : Visible rest := fun i sp ho => hvis i sp (by rw [show ts = pre ++ rest from e]; exact occurs_append_right _ ho)
            have hnil : rest = [] := by
              unfold unexpectedSpan at hend
              have hd := (dissolve_eq_nil_iff _).mpr (Option.map_eq_none_iff.mp hend)
              rwa [dissolve_visible hrv] at hd
            subst hnil
            exact ⟨ts, hl, hQ⟩
      · cases h
      · cases h
      · cases h
    · cases h
  · rintro ⟨ts, hl, hQ⟩
    unfold parseStr
    rw [hl]
    have := hp (s := { cur := ts, scope := .callSite, unexp := none }).mpr ⟨[], hQ, rfl⟩
    simp only [parse2, this]
    rfl

theorem visible_tail {t : TT} {ts : List TT} (h : Visible (t :: ts)) : Visible ts := fun i sp ho => h i sp (.tail ho)

theorem intAt_takes {ts rest : List TT} {neg : Bool} {n : Nat} {sp : Span} (hv : Visible ts) (h : IntAt ts neg n sp rest) : ∃ pre, ts = pre ++ rest := by
  cases h with
  | plain h _ => exact ⟨[_], next_visible hv h⟩
  | inside h _ => exact ⟨[_], next_visible hv h⟩
  | minus h h2 _ =>
    have e := next_visible hv h
    subst e
    have e := next_visible (visible_tail hv) h2
    subst e
    exact ⟨[_, _], rfl⟩

/-- An integer literal as the whole text. -/
theorem intAt_lexed {src : Text} {ts : List TT} (hl : lex src = some ts) {neg : Bool} {n : Nat} {sp : Span} :
    IntAt ts neg n sp [] ↔ (neg = false ∧ ∃ r, ts = [.lit r sp] ∧ IntLit r n) ∨
      (neg = true ∧ ∃ spc q r sp2, ts = [.punct '-' spc q, .lit r sp2] ∧ sp = q.join sp2 ∧ IntLit r n) := by
  have hv := C60_visible hl
  constructor
  · intro h
    cases h with
    | plain h hi => exact .inl ⟨rfl, _, next_visible hv h, hi⟩
    | inside h hi =>
      have e := next_visible hv h
      have hw := (lex_writable hl).1
      rw [e] at hw
      exact absurd rfl (litText_unsigned ((writable_occurs hw .head).2 _ _ rfl))
    | minus h h2 hi =>
      have e := next_visible hv h
      subst e
      have e := next_visible (visible_tail hv) h2
      subst e
      exact .inr ⟨rfl, _, _, _, _, rfl, rfl, hi⟩
  · rintro (⟨rfl, r, rfl, hi⟩ | ⟨rfl, spc, q, r, sp2, rfl, rfl, hi⟩)
    · exact .plain (next_cons (by simp) _) hi
    · exact .minus (next_cons (by simp) _) (next_cons (by simp) _) hi

/-- The acceptance of a text by a parser whose results are those of another one. -/
theorem text_through {α β : Type} {p : Parser α} {q : Parser β} {f : β → α} {v : β} (h : ∀ s s', p s = .ok (f v) s' ↔ q s = .ok v s') {src : Text} :
    parseStr p src = .ok (f v) ↔ parseStr q src = .ok v := by
  have top : ∀ {γ : Type} {p : Parser γ} {v : γ} {ts : List TT}, parse2 p ts = .ok v ↔
      ∃ s', p { cur := ts, scope := .callSite, unexp := none } = .ok v s' ∧ s'.unexp = none ∧ unexpectedSpan s'.cur = none := by
    intro γ p v ts
    unfold parse2
    constructor
    · intro h
      split at h
      · rename_i v' s' hr
        split at h
        · cases h
        · rename_i hu
          split at h
          · cases h
          · rename_i hx
            cases h
            exact ⟨s', hr, hu, hx⟩
      · cases h
      · cases h
      · cases h
    · rintro ⟨s', h1, h2, h3⟩
      simp only [h1, h2, h3]
  unfold parseStr
  split
  · simp only [top, h]
  · simp

/-- The sign of the integer at the front is unique. -/
theorem intAt_sign {ts rest rest' : List TT} {neg neg' : Bool} {n n' : Nat} {sp : Span} (h : IntAt ts neg n sp rest) (h' : IntAt ts neg' n' sp rest') :
    neg = neg' ∧ rest = rest' := by
  have a := synInt_of_intAt (s := ⟨ts, .callSite, none⟩) h
  have b := synInt_of_intAt (s := ⟨ts, .callSite, none⟩) h'
  rw [a] at b
  injection b with b1 b2
  injection b1 with b1 _
  injection b1 with b1
  injection b1 with b1
  injection b2 with b2
  refine ⟨?_, b2⟩
  have h1 := signedDigits_head neg n
  rw [b1, signedDigits_head] at h1
  cases neg <;> cases neg' <;> simp_all

/-- **C92**: `LitUint` accepts exactly the texts that are one integer literal (between white space and comments) within the range of `u64`, and its value is that of
the literal. -/
theorem C92_uint {src : Text} {v : Nat} {sp : Span} :
    parseStr litUintParse src = .ok (v, sp) ↔ ∃ r, lex src = some [.lit r sp] ∧ IntLit r v ∧ InU64 v := by
  rw [text_whole (Q := fun ts a rest => IntAt ts false a.1 a.2 rest ∧ InU64 a.1)]
  · constructor
    · rintro ⟨ts, hl, h, hv⟩
      rcases (intAt_lexed hl).mp h with ⟨_, r, rfl, hi⟩ | ⟨h, _⟩
      · exact ⟨r, hl, hi, hv⟩
      · cases h
    · rintro ⟨r, hl, hi, hv⟩
      exact ⟨_, hl, (intAt_lexed hl).mpr (.inl ⟨rfl, r, rfl, hi⟩), hv⟩
  · rintro s ⟨v, sp⟩ s'
    rw [C34_uint]
    constructor
    · rintro ⟨rest, h1, h2, h3⟩; exact ⟨rest, ⟨h1, h2⟩, h3⟩
    · rintro ⟨rest, ⟨h1, h2⟩, h3⟩; exact ⟨rest, h1, h2, h3⟩
  · exact fun hv h => intAt_takes hv h.1

/-- **C92**: `LitInt` accepts exactly the texts that are one integer literal, or a minus sign followed by one, within the range of `i64`; its value is that of the literal
with the sign, and its location reaches from the sign to the end. -/
theorem C92_int {src : Text} {v : Int} {sp : Span} :
    parseStr litIntParse src = .ok (v, sp) ↔
      (∃ r n, lex src = some [.lit r sp] ∧ IntLit r n ∧ v = n ∧ InI64 v) ∨
      ∃ spc q r sp2 n, lex src = some [.punct '-' spc q, .lit r sp2] ∧ sp = q.join sp2 ∧ IntLit r n ∧ v = -(n : Int) ∧ InI64 v := by
  rw [text_whole (Q := fun ts a rest => ∃ neg n, IntAt ts neg n a.2 rest ∧ a.1 = signed neg n ∧ InI64 a.1)]
  · constructor
    · rintro ⟨ts, hl, neg, n, h, hs, hv⟩
      rcases (intAt_lexed hl).mp h with ⟨rfl, r, rfl, hi⟩ | ⟨rfl, spc, q, r, sp2, rfl, rfl, hi⟩
      · exact .inl ⟨r, n, hl, hi, hs, hv⟩
      · exact .inr ⟨spc, q, r, sp2, n, hl, rfl, hi, hs, hv⟩
    · rintro (⟨r, n, hl, hi, hs, hv⟩ | ⟨spc, q, r, sp2, n, hl, rfl, hi, hs, hv⟩)
      · exact ⟨_, hl, false, n, (intAt_lexed hl).mpr (.inl ⟨rfl, r, rfl, hi⟩), hs, hv⟩
      · exact ⟨_, hl, true, n, (intAt_lexed hl).mpr (.inr ⟨rfl, spc, q, r, sp2, rfl, rfl, hi⟩), hs, hv⟩
  · rintro s ⟨v, sp⟩ s'
    rw [C34_int]
    constructor
    · rintro ⟨neg, n, rest, h1, h2, h3, h4⟩; exact ⟨rest, ⟨neg, n, h1, h2, h3⟩, h4⟩
    · rintro ⟨rest, ⟨neg, n, h1, h2, h3⟩, h4⟩; exact ⟨neg, n, rest, h1, h2, h3, h4⟩
  · rintro ts v rest hv ⟨neg, n, h, _⟩
    exact intAt_takes hv h

theorem floatAt_takes {ts rest : List TT} {d : Text} {sp : Span} (hv : Visible ts) (h : FloatAt ts d sp rest) : ∃ pre, ts = pre ++ rest := by
  cases h with
  | plain h _ => exact ⟨[_], next_visible hv h⟩
  | minus h h2 _ _ =>
    have e := next_visible hv h
    subst e
    have e := next_visible (visible_tail hv) h2
    subst e
    exact ⟨[_, _], rfl⟩

/-- A floating point literal as the whole text. -/
theorem floatAt_lexed {src : Text} {ts : List TT} (hl : lex src = some ts) {d : Text} {sp : Span} :
    FloatAt ts d sp [] ↔ (∃ r, ts = [.lit r sp] ∧ FloatLit r d) ∨
      ∃ spc q r sp2 d', ts = [.punct '-' spc q, .lit r sp2] ∧ sp = q.join sp2 ∧ FloatLit r d' ∧ d = '-' :: d' := by
  have hv := C60_visible hl
  have hw := (lex_writable hl).1
  have verb : readLit "(/*ERROR*/)".toList = some .verbatim := rfl
  constructor
  · intro h
    cases h with
    | plain h hi =>
      have e := next_visible hv h
      rw [e] at hw
      rcases (writable_occurs hw .head).2 _ _ rfl with h1 | h1
      · exact .inl ⟨_, e, floatLit_iff.mp ⟨h1, hi⟩⟩
      · rw [h1, verb] at hi; cases hi
    | @minus _ _ _ r _ _ _ h h2 hi hd =>
      have e := next_visible hv h
      subst e
      have e := next_visible (visible_tail hv) h2
      subst e
      have e1 : readFloatDigits ('-' :: r) = (readFloatDigits r).map ('-' :: ·) := by
        have hu : r.head? ≠ some '-' := litText_unsigned ((writable_occurs hw (.tail .head)).2 _ _ rfl)
        unfold readFloatDigits
        split
        · rename_i body e
          injection e with _ e
          subst e
          split
          · rename_i body; exact absurd rfl hu
          · rfl
        · rename_i h; exact absurd rfl (h r)
      rw [e1] at hd
      obtain ⟨d', hd', rfl⟩ := Option.map_eq_some_iff.mp hd
      obtain ⟨c, cs, rfl, hdig⟩ : ∃ c cs, r = c :: cs ∧ c.isDigit = true := by
        have hu : r.head? ≠ some '-' := litText_unsigned ((writable_occurs hw (.tail .head)).2 _ _ rfl)
        unfold readFloatDigits at hd'
        split at hd'
        · exact absurd rfl hu
        · cases r with
          | nil => cases hd'
          | cons c cs =>
            simp only at hd'
            split at hd'
            · rename_i hc; exact ⟨c, cs, rfl, hc⟩
            · cases hd'
      have hn : readNat (c :: cs) = none := by
        cases hn : readNat (c :: cs) with
        | none => rfl
        | some n => exact absurd ((readNat_iff _ _).mp hn) (hi n)
      have hrl : readLit (c :: cs) = some (.float d') := by
        rw [readLit_digit hdig, readIntDigits_digit hdig, hn, hd']
        rfl
      rcases (writable_occurs hw (.tail .head)).2 _ _ rfl with h1 | h1
      · exact .inr ⟨_, _, _, _, d', rfl, rfl, floatLit_iff.mp ⟨h1, hrl⟩, rfl⟩
      · injection h1 with h1 _; subst h1; exact absurd hdig (by decide)
  · rintro (⟨r, rfl, hf⟩ | ⟨spc, q, r, sp2, d', rfl, rfl, hf, rfl⟩)
    · exact .plain (next_cons (by simp) _) (floatLit_readLit hf)
    · refine .minus (next_cons (by simp) _) (next_cons (by simp) _) ?_ ?_
      · intro n hn
        have := (readNat_iff _ _).mpr hn
        rw [floatLit_not_int hf] at this
        cases this
      · have hr := floatLit_reads hf
        obtain ⟨c, int, _, _, _, _, _, rfl, _, hd, _⟩ := hf
        have hu : c ≠ '-' := by rintro rfl; exact absurd hd (by decide)
        unfold readFloatDigits at hr ⊢
        split at hr
        · rename_i h; injection h with h _; exact absurd h hu
        · simp only at hr ⊢
          rw [hr]
          rfl

/-- **C92**: `LitFloat` accepts exactly the texts that are one floating point literal, or a minus sign followed by one, whose digits `f64::from_str` turns into a number. -/
theorem C92_float {src : Text} {x : Ext.F} {sp : Span} :
    parseStr litFloatParse src = .ok (x, sp) ↔
      (∃ r d, lex src = some [.lit r sp] ∧ FloatLit r d ∧ Ext.floatOf d = some x) ∨
      ∃ spc q r sp2 d, lex src = some [.punct '-' spc q, .lit r sp2] ∧ sp = q.join sp2 ∧ FloatLit r d ∧ Ext.floatOf ('-' :: d) = some x := by
  rw [text_whole (Q := fun ts a rest => ∃ d, FloatAt ts d a.2 rest ∧ Ext.floatOf d = some a.1)]
  · constructor
    · rintro ⟨ts, hl, d, h, hv⟩
      rcases (floatAt_lexed hl).mp h with ⟨r, rfl, hi⟩ | ⟨spc, q, r, sp2, d', rfl, rfl, hi, rfl⟩
      · exact .inl ⟨r, d, hl, hi, hv⟩
      · exact .inr ⟨spc, q, r, sp2, d', hl, rfl, hi, hv⟩
    · rintro (⟨r, d, hl, hi, hv⟩ | ⟨spc, q, r, sp2, d, hl, rfl, hi, hv⟩)
      · exact ⟨_, hl, d, (floatAt_lexed hl).mpr (.inl ⟨r, rfl, hi⟩), hv⟩
      · exact ⟨_, hl, _, (floatAt_lexed hl).mpr (.inr ⟨spc, q, r, sp2, d, rfl, rfl, hi, rfl⟩), hv⟩
  · rintro s ⟨v, sp⟩ s'
    rw [litFloatParse_ok]
    constructor
    · rintro ⟨d, h, hx⟩
      obtain ⟨rest, h', rfl⟩ := floatAt_iff.mp h
      exact ⟨rest, ⟨d, h', hx⟩, rfl⟩
    · rintro ⟨rest, ⟨d, h, hx⟩, rfl⟩
      exact ⟨d, floatAt_iff.mpr ⟨rest, h, rfl⟩, hx⟩
  · rintro ts v rest hv ⟨d, h, _⟩
    exact floatAt_takes hv h

/-- The tokens of a text are unique, and a literal is not both an integer and a float: no text is accepted by both `LitFloat` and `LitInt`. -/
theorem C92_apart {src : Text} {v : Int} {x : Ext.F} {sp sp' : Span} (h : parseStr litIntParse src = .ok (v, sp)) :
    parseStr litFloatParse src ≠ .ok (x, sp') := by
  intro h'
  have no : ∀ {r n d}, IntLit r n → ¬ FloatLit r d := by
    intro r n d h1 h2
    have := (readNat_iff _ _).mpr h1
    rw [floatLit_not_int h2] at this
    cases this
  rcases C92_int.mp h with ⟨r, n, hl, hi, _⟩ | ⟨spc, q, r, sp2, n, hl, _, hi, _⟩
  all_goals
    rcases C92_float.mp h' with ⟨r', d, hl', hf, _⟩ | ⟨spc', q', r', sp2', d, hl', _, hf, _⟩
    all_goals
      rw [hl] at hl'
      cases hl'
      try exact no hi hf

/-! ### from the text -/

/-- A minus sign and a literal between gaps are lexed as two tokens. -/
theorem minus_lit {g g' g'' r : Text} (hr : LitText r) (hg : Gap g) (hg' : Gap g') (hc : Clear '-' (g' ++ (r ++ g''))) (hg'' : Gap g'') (hp : Parts r g'') :
    ∃ spc q sp, lex (g ++ '-' :: (g' ++ (r ++ g''))) = some [.punct '-' spc q, .lit r sp] := by
  obtain ⟨ts', h1, h2⟩ := lex_layout (.alone (sp := ⟨⟨1, 0⟩, ⟨1, 0⟩⟩) hg hc (.lit (sp := ⟨⟨1, 0⟩, ⟨1, 0⟩⟩) hg' hp (.nil hg'')))
    (.alone (by decide) (by decide) (.lit hr .nil))
  cases h2 with
  | punct h3 => cases h3 with
    | lit h4 => cases h4; exact ⟨_, _, _, h1⟩

/-- **C92**: every integer literal in the range, between white space and comments as one likes, is accepted, with its value. -/
theorem C92_uint_text {g r g' : Text} {v : Nat} (h : IntLit r v) (hv : InU64 v) (hg : Gap g) (hg' : Gap g') (hp : Parts r g') :
    ∃ sp, parseStr litUintParse (g ++ (r ++ g')) = .ok (v, sp) := by
  obtain ⟨sp, hl⟩ := lone_lit (.inl (intLit_lexed h)) hg hg' hp
  exact ⟨sp, C92_uint.mpr ⟨r, hl, h, hv⟩⟩

theorem C92_int_text {g r g' : Text} {n : Nat} (h : IntLit r n) (hv : InI64 n) (hg : Gap g) (hg' : Gap g') (hp : Parts r g') :
    ∃ sp, parseStr litIntParse (g ++ (r ++ g')) = .ok ((n : Int), sp) := by
  obtain ⟨sp, hl⟩ := lone_lit (.inl (intLit_lexed h)) hg hg' hp
  exact ⟨sp, C92_int.mpr (.inl ⟨r, n, hl, h, rfl, hv⟩)⟩

/-- ... also with a minus sign, which may be apart. -/
theorem C92_minus_text {g r g' g'' : Text} {n : Nat} (h : IntLit r n) (hv : InI64 (-(n : Int))) (hg : Gap g) (hg' : Gap g') (hc : Clear '-' (g' ++ (r ++ g'')))
    (hg'' : Gap g'') (hp : Parts r g'') : ∃ sp, parseStr litIntParse (g ++ '-' :: (g' ++ (r ++ g''))) = .ok (-(n : Int), sp) := by
  obtain ⟨spc, q, sp, hl⟩ := minus_lit (.inl (intLit_lexed h)) hg hg' hc hg'' hp
  exact ⟨_, C92_int.mpr (.inr ⟨spc, q, r, sp, n, hl, rfl, h, rfl, hv⟩)⟩

theorem C92_float_text {g r g' d : Text} {x : Ext.F} (h : FloatLit r d) (hx : Ext.floatOf d = some x) (hg : Gap g) (hg' : Gap g') (hp : Parts r g') :
    ∃ sp, parseStr litFloatParse (g ++ (r ++ g')) = .ok (x, sp) := by
  obtain ⟨sp, hl⟩ := lone_lit (.inl (floatLit_iff.mpr h).1) hg hg' hp
  exact ⟨sp, C92_float.mpr (.inl ⟨r, d, hl, h, hx⟩)⟩

theorem C92_minus_float_text {g r g' g'' d : Text} {x : Ext.F} (h : FloatLit r d) (hx : Ext.floatOf ('-' :: d) = some x) (hg : Gap g) (hg' : Gap g')
    (hc : Clear '-' (g' ++ (r ++ g''))) (hg'' : Gap g'') (hp : Parts r g'') :
    ∃ sp, parseStr litFloatParse (g ++ '-' :: (g' ++ (r ++ g''))) = .ok (x, sp) := by
  obtain ⟨spc, q, sp, hl⟩ := minus_lit (.inl (floatLit_iff.mpr h).1) hg hg' hc hg'' hp
  exact ⟨_, C92_float.mpr (.inr ⟨spc, q, r, sp, d, hl, rfl, h, hx⟩)⟩

/-- **C92**: ... and nothing else: an accepted text is such a literal, at the location of the value, between white space and comments (there may be a byte order mark). -/
theorem C92_uint_source {src : Text} {v : Nat} {sp : Span} (h : parseStr litUintParse src = .ok (v, sp)) :
    ∃ bom g r g', src = bom ++ g ++ r ++ g' ∧ IsBom bom ∧ Blank g ∧ Blank g' ∧ IntLit r v ∧ InU64 v ∧ sp = stretchSpan (bom ++ g) r := by
  obtain ⟨r, hl, hi, hv⟩ := C92_uint.mp h
  obtain ⟨bom, x, hb, rfl, hx⟩ := C60_lexed hl
  obtain ⟨g, g', h1, h2, rfl, rfl⟩ := lone_laid hx rfl
  exact ⟨bom, g, r, g', by simp, hb, h1, h2, hi, hv, rfl⟩

/-! ### `Lit` -/

/-- **C92**: `Lit` makes a number without sign of an integer literal, a number with sign of a minus sign and an integer literal, a float of a floating point literal. -/
theorem C92_lit_uint {src : Text} {v : Nat} {sp : Span} : parseStr litParse src = .ok (.uint v, sp) ↔ ∃ r, lex src = some [.lit r sp] ∧ IntLit r v ∧ InU64 v := by
  rw [← C92_uint]
  exact text_through (p := litParse) (q := litUintParse) (f := fun a => (LitVal.uint a.1, a.2)) (v := (v, sp)) fun s s' => C35_uint s s' v sp

theorem C92_lit_float {src : Text} {x : Ext.F} {sp : Span} : parseStr litParse src = .ok (.float x, sp) ↔
    (∃ r d, lex src = some [.lit r sp] ∧ FloatLit r d ∧ Ext.floatOf d = some x) ∨
      ∃ spc q r sp2 d, lex src = some [.punct '-' spc q, .lit r sp2] ∧ sp = q.join sp2 ∧ FloatLit r d ∧ Ext.floatOf ('-' :: d) = some x := by
  rw [← C92_float]
  exact text_through (p := litParse) (q := litFloatParse) (f := fun a => (LitVal.float a.1, a.2)) (v := (x, sp)) fun s s' => C35_float s s' x sp

theorem C92_lit_int {src : Text} {v : Int} {sp : Span} : parseStr litParse src = .ok (.int v, sp) ↔
    ∃ spc q r sp2 n, lex src = some [.punct '-' spc q, .lit r sp2] ∧ sp = q.join sp2 ∧ IntLit r n ∧ v = -(n : Int) ∧ InI64 v := by
  have : parseStr litParse src = .ok (.int v, sp) ↔ ∃ ts, lex src = some ts ∧ ∃ n, IntAt ts true n sp [] ∧ v = signed true n ∧ InI64 v := by
    refine (text_through (p := litParse) (q := fun s => (litParse s).bind fun a s' => match a.1 with | .int v => .ok (v, a.2) s' | _ => .err (s.error []))
      (f := fun a => (LitVal.int a.1, a.2)) (v := (v, sp)) ?_).trans ?_
    · intro s s'
      cases h : litParse s with
      | ok a t =>
        obtain ⟨l, sp⟩ := a
        cases l <;> simp [Res.bind]
      | _ => simp [Res.bind]
    · rw [text_whole (Q := fun ts a rest => ∃ n, IntAt ts true n a.2 rest ∧ a.1 = signed true n ∧ InI64 a.1)]
      · rintro s ⟨v, sp⟩ s'
        have e : ((litParse s).bind fun a s' => match a.1 with | .int v => Res.ok (v, a.2) s' | _ => .err (s.error [])) = .ok (v, sp) s' ↔
            litParse s = .ok (.int v, sp) s' := by
          cases h : litParse s with
          | ok a t =>
            obtain ⟨l, sp⟩ := a
            cases l <;> simp [Res.bind]
          | _ => simp [Res.bind]
        rw [e, C35_int, C34_int]
        constructor
        · rintro ⟨⟨neg, n, rest, h1, h2, h3, h4⟩, m, rest', h5⟩
          obtain ⟨rfl, rfl⟩ := intAt_sign h1 h5
          exact ⟨rest, ⟨n, h1, h2, h3⟩, h4⟩
        · rintro ⟨rest, ⟨n, h1, h2, h3⟩, h4⟩
          exact ⟨⟨true, n, rest, h1, h2, h3, h4⟩, n, rest, h1⟩
      · rintro ts v rest hv ⟨n, h, _⟩
        exact intAt_takes hv h
  rw [this]
  constructor
  · rintro ⟨ts, hl, n, h, hs, hv⟩
    rcases (intAt_lexed hl).mp h with ⟨h, _⟩ | ⟨_, spc, q, r, sp2, rfl, rfl, hi⟩
    · cases h
    · exact ⟨spc, q, r, sp2, n, hl, rfl, hi, hs, hv⟩
  · rintro ⟨spc, q, r, sp2, n, hl, rfl, hi, hs, hv⟩
    exact ⟨_, hl, n, (intAt_lexed hl).mpr (.inr ⟨rfl, spc, q, r, sp2, rfl, rfl, hi⟩), hs, hv⟩

end

/-! ### concrete literals -/

local instance {x : Text} : Decidable (Grouped x) := inferInstanceAs (Decidable (∀ c ∈ x, _))

/-- With underscores, point, exponent and suffix. -/
theorem demo_float : FloatLit "1_0.5_0E_+1_2f64".toList "10.50e12".toList :=
  ⟨'1', "_0".toList, ".5_0".toList, _, "E_+1_2".toList, _, "f64".toList, rfl, rfl, by decide, by decide, .digits (x := "_0".toList) (by decide) (by decide),
    .plus (u := "_".toList) (x := "1_2".toList) (.inr rfl) (by decide) (by decide) (by decide), by decide, by decide, by decide, by decide, fun h => nomatch h⟩

/-- A point may end the literal; then there is no suffix. -/
example : FloatLit "1.".toList "1.".toList :=
  ⟨'1', [], ['.'], _, [], _, [], rfl, rfl, by decide, by decide, .point, .none, by decide, by decide, by decide, by decide, by simp⟩

/-- Too large for a finite number. -/
theorem demo_huge : FloatLit "1e999".toList "1e999".toList :=
  ⟨'1', [], [], _, "e999".toList, _, [], rfl, rfl, by decide, by decide, .none, .plain (x := "999".toList) (.inl rfl) (by decide) (by decide),
    by decide, by decide, by decide, by decide, fun h => nomatch h⟩

/-- `e` is the suffix here. -/
example : FloatLit "1.0e_x".toList "1.0".toList ∧ ∀ r, ¬ FloatLit "1e_x".toList r := by
  refine ⟨⟨'1', [], ".0".toList, _, [], _, "e_x".toList, rfl, rfl, by decide, by decide, .digits (x := []) (by decide) (by decide), .none, by decide, by decide, by decide,
    by decide, ?_⟩, ?_⟩
  · rintro _ c ⟨⟩ _ h
    have := (exponent_iff (c := 'e') (t := "_x".toList) (by decide)).mpr h
    exact absurd this (by decide)
  · intro r h
    have := floatLit_lexed h
    exact absurd this (by decide)

theorem demo_hex : IntLit "0xFF_ffu16".toList 65535 := (readNat_iff _ _).mp (by decide)

section
attribute [local instance] toyExt

example : ∃ sp, parseStr litUintParse (" ".toList ++ ("0xFF_ffu16".toList ++ " // end\n".toList)) = .ok (65535, sp) :=
  C92_uint_text demo_hex (by unfold InU64; decide) (.white (by decide) .nil)
    (.white (by decide) (.line (x := " end".toList) (by decide) (by decide) (by decide) .nil)) (parts_cons (by decide) (by decide) (by decide))

/-- The sign and the literal may be apart; the smallest number has no counterpart without sign. -/
example : ∃ sp, parseStr litIntParse ([] ++ '-' :: (" ".toList ++ ("9223372036854775808".toList ++ []))) = .ok (-9223372036854775808, sp) :=
  C92_minus_text (g := []) (g' := " ".toList) (g'' := []) (r := "9223372036854775808".toList) (n := 9223372036854775808) ((readNat_iff _ _).mp (by decide +kernel)) (by unfold InI64; decide)
    .nil (.white (by decide) .nil) (clear_cons (by decide)) .nil ⟨by simp, fun _ => ⟨by simp, .inl ⟨by simp, by simp⟩⟩⟩

example : ∃ sp, parseStr litFloatParse ([] ++ ("1e999".toList ++ [])) = .ok ((none : Option Nat), sp) :=
  C92_float_text demo_huge rfl .nil .nil ⟨by simp, fun _ => ⟨by simp, .inl ⟨by simp, by simp⟩⟩⟩

/-- The hypothesis of `C92_apart` and of `C92_uint_source` is met. -/
example : ∃ (v : Int) (sp : Span), parseStr litIntParse "1_000".toList = .ok (v, sp) :=
  ⟨_, (C92_int_text (g := []) (g' := []) (r := "1_000".toList) (n := 1000) ((readNat_iff _ _).mp (by decide)) (by unfold InI64; decide) .nil .nil
    ⟨by simp, fun _ => ⟨by simp, .inl ⟨by simp, by simp⟩⟩⟩)⟩

end

end Parsel
