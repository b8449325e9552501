import Verif.Model.Lex
import Verif.Proofs.Literal

/-! The lexer reads a token the same way, whatever comes after the token, if that begins like white space,
a delimiter or most punctuation characters. -/

namespace Parsel

/-- All white space of the lexer, and the closing delimiters. -/
def breakChars : List Char :=
  [0x9, 0xA, 0xB, 0xC, 0xD, 0x20, 0x85, 0xA0, 0x1680, 0x2000, 0x2001, 0x2002, 0x2003, 0x2004, 0x2005, 0x2006, 0x2007, 0x2008, 0x2009,
    0x200A, 0x2028, 0x2029, 0x202F, 0x205F, 0x3000, 0x200E, 0x200F, 0x28, 0x29, 0x5B, 0x5D, 0x7B, 0x7D].map Char.ofNat

/-- Nothing is left, or something that separates tokens. -/
def Brk (x : Text) : Prop := ∀ c, x.head? = some c → c ∈ breakChars

theorem brk_nil : Brk [] := by simp [Brk]
theorem brk_cons {c : Char} (h : c ∈ breakChars) (x : Text) : Brk (c :: x) := by
  intro d hd
  simp at hd
  exact hd ▸ h

theorem brk_append {a b : Text} (ha : Brk a) (hb : Brk b) : Brk (a ++ b) := by
  cases a with
  | nil => exact hb
  | cons c cs => exact brk_cons (ha c rfl) _

theorem white_break {c : Char} (h : lexWhite c = true) : c ∈ breakChars := by
  have hc : c = Char.ofNat c.toNat := (Char.ofNat_toNat c).symm
  rw [hc]
  apply List.mem_map.mpr
  refine ⟨c.toNat, ?_, rfl⟩
  simp only [lexWhite, isWhite, Bool.or_eq_true, List.contains_iff_mem, List.mem_cons, List.not_mem_nil, or_false, beq_iff_eq] at h
  simp only [List.mem_cons, List.not_mem_nil, or_false]
  omega

/-- What a character that separates tokens is not. -/
structure Separates (c : Char) : Prop where
  start : identStart c = false
  cont : identCont c = false
  digit : c.isDigit = false
  hex : hexVal c = none
  punct : c ∉ punctChars
  quote : c ≠ '"'
  pound : c ≠ '#'
  under : c ≠ '_'
  other : c ∉ "xobrceE\\".toList

theorem break_separates : ∀ c ∈ breakChars, Separates c := by
  have : ∀ c ∈ breakChars, identStart c = false ∧ identCont c = false ∧ c.isDigit = false ∧ hexVal c = none ∧ c ∉ punctChars ∧ c ≠ '"' ∧ c ≠ '#' ∧
      c ≠ '_' ∧ c ∉ "xobrceE\\".toList := by decide
  intro c hc
  obtain ⟨a, b, d, e, f, g, h, i, j⟩ := this c hc
  exact ⟨a, b, d, e, f, g, h, i, j⟩

theorem brk_separates {c : Char} {x : Text} (h : Brk (c :: x)) : Separates c := break_separates c (h c rfl)

/-- What a character is not that may directly follow a word or a literal (white space, delimiters, most punctuation). -/
structure SepChar (c : Char) : Prop where
  start : identStart c = false
  cont : identCont c = false
  digit : c.isDigit = false
  hex : hexVal c = none
  quote : c ≠ '"'
  pound : c ≠ '#'
  apos : c ≠ '\''
  under : c ≠ '_'
  other : c ∉ "xobrceE\\".toList

/-- Nothing is left, or something that may directly follow a word. -/
def Sep (x : Text) : Prop := ∀ c, x.head? = some c → SepChar c

theorem sep_head {c : Char} {x : Text} (h : Sep (c :: x)) : SepChar c := h c rfl

theorem Separates.sep {c : Char} (h : Separates c) : SepChar c :=
  ⟨h.start, h.cont, h.digit, h.hex, h.quote, h.pound, fun e => h.punct (by rw [e]; decide), h.under, h.other⟩

theorem Brk.sep {x : Text} (h : Brk x) : Sep x := fun c hc => (break_separates c (h c hc)).sep

/-- What may directly follow the number `a`, on top of `Sep`. -/
structure NumSep (a x : Text) : Prop where
  dot : x.head? ≠ some '.'
  sign : (x.head? ≠ some '+' ∧ x.head? ≠ some '-') ∨ ('e' ∉ a ∧ 'E' ∉ a)

theorem Brk.numSep {x : Text} (h : Brk x) (a : Text) : NumSep a x := by
  have : ∀ c ∈ punctChars, x.head? ≠ some c := fun c hc he => (break_separates c (h c he)).punct hc
  exact ⟨this _ (by decide), .inl ⟨this _ (by decide), this _ (by decide)⟩⟩

theorem NumSep.tail {c : Char} {a x : Text} (h : NumSep (c :: a) x) : NumSep a x :=
  ⟨h.dot, h.sign.imp id fun h => ⟨fun hm => h.1 (List.mem_cons_of_mem _ hm), fun hm => h.2 (List.mem_cons_of_mem _ hm)⟩⟩

/-! ### pieces -/

theorem stripPrefix_append {p : Text} : ∀ {a r : Text}, stripPrefix p a = some r → ∀ x, stripPrefix p (a ++ x) = some (r ++ x) := by
  induction p with
  | nil => intro a r h x; simp [stripPrefix] at h ⊢; rw [h]
  | cons q ps ih =>
    intro a r h x
    cases a with
    | nil => simp [stripPrefix] at h
    | cons c cs =>
      simp only [stripPrefix, List.cons_append] at h ⊢
      split at h
      · rename_i hq; rw [if_pos hq]; exact ih h x
      · cases h

theorem stripPrefix_none {p : Text} : ∀ {a : Text} {x : Text}, stripPrefix p a = none → (∀ c, x.head? = some c → c ∉ p) → stripPrefix p (a ++ x) = none := by
  induction p with
  | nil => intro a x h; simp [stripPrefix] at h
  | cons q ps ih =>
    intro a x h hx
    cases a with
    | nil =>
      cases x with
      | nil => rfl
      | cons c cs =>
        have := hx c rfl
        have hq : q ≠ c := fun e => this (by rw [e]; exact List.mem_cons_self)
        simp [stripPrefix, hq]
    | cons c cs =>
      simp only [stripPrefix, List.cons_append] at h ⊢
      split at h
      · rename_i hq; rw [if_pos hq]; exact ih h (fun c hc hm => hx c hc (List.mem_cons_of_mem _ hm))
      · rename_i hq; rw [if_neg hq]

theorem dropWhile_append_brk {p : Char → Bool} (cs x : Text) (h : ∀ c, x.head? = some c → p c = false) :
    (cs ++ x).dropWhile p = cs.dropWhile p ++ x ∧ (cs ++ x).takeWhile p = cs.takeWhile p := by
  induction cs with
  | nil =>
    cases x with
    | nil => simp
    | cons c x => have := h c rfl; simp [this]
  | cons c cs ih =>
    simp only [List.cons_append, List.dropWhile_cons, List.takeWhile_cons]
    split
    · exact ⟨ih.1, by rw [ih.2]⟩
    · simp

theorem lexPlainIdent_append (a : Text) {x : Text} (h : Sep x) : lexPlainIdent (a ++ x) = (lexPlainIdent a).map fun r => (r.1, r.2 ++ x) := by
  cases a with
  | nil =>
    cases x with
    | nil => rfl
    | cons c x => have := (sep_head h).start; simp [lexPlainIdent, this]
  | cons c cs =>
    simp only [List.cons_append, lexPlainIdent]
    split
    · have := dropWhile_append_brk (p := identCont) cs x (fun c hc => (h c hc).cont)
      simp [this.1, this.2]
    · rfl

theorem lexIdentAny_append {a : Text} {r : Text × Text} (h : lexIdentAny a = some r) {x : Text} (hx : Sep x) :
    lexIdentAny (a ++ x) = some (r.1, r.2 ++ x) := by
  unfold lexIdentAny at h ⊢
  cases hs : stripPrefix "r#".toList a with
  | some a' =>
    rw [hs] at h
    rw [stripPrefix_append hs x]
    simp only at h ⊢
    rw [lexPlainIdent_append a' hx]
    cases hp : lexPlainIdent a' with
    | none => rw [hp] at h; cases h
    | some q =>
      rw [hp] at h
      simp only [Option.bind_some, Option.map_some] at h ⊢
      split at h
      · cases h
      · rename_i hm
        rw [if_neg hm]
        cases h
        rfl
  | none =>
    rw [hs] at h
    have hno : stripPrefix "r#".toList (a ++ x) = none := stripPrefix_none hs (fun c hc hm => by
      have hsep := hx c hc
      rcases List.mem_cons.mp hm with e | hm
      · exact hsep.other (by rw [e]; decide)
      · rcases List.mem_cons.mp hm with e | hm
        · exact hsep.pound e
        · cases hm)
    rw [hno]
    simp only at h ⊢
    rw [lexPlainIdent_append a hx, h]
    rfl

theorem literalSuffix_append (a : Text) {x : Text} (h : Sep x) : literalSuffix (a ++ x) = literalSuffix a ++ x := by
  unfold literalSuffix
  rw [lexPlainIdent_append a h]
  cases lexPlainIdent a <;> rfl

/-! ### strings -/

theorem scanCooked_append {k : StrKind} : ∀ {m : Scan} {a r : Text}, scanCooked k m a = some r → ∀ x, scanCooked k m (a ++ x) = some (r ++ x)
  | m, [], r, h, x => by simp [scanCooked] at h
  | m, c :: cs, r, h, x => by
    simp only [scanCooked, List.cons_append] at h ⊢
    cases hs : scanStep k m c with
    | none => rw [hs] at h; cases h
    | some o =>
      rw [hs] at h
      cases o with
      | none => simp only [Option.some.injEq] at h; simp [h]
      | some m' => exact scanCooked_append h x

theorem rawOpen_append : ∀ {n : Nat} {a : Text} {r : Nat × Text}, rawOpen n a = some r → ∀ x, rawOpen n (a ++ x) = some (r.1, r.2 ++ x)
  | n, [], r, h, x => by simp [rawOpen] at h
  | n, c :: cs, r, h, x => by
    simp only [rawOpen, List.cons_append] at h ⊢
    split at h
    · rename_i hc
      rw [if_pos hc]
      split at h
      · rename_i hn; rw [if_pos hn]; cases h; rfl
      · cases h
    · rename_i hc
      rw [if_neg hc]
      split at h
      · rename_i hp; rw [if_pos hp]; exact rawOpen_append h x
      · cases h

theorem scanRaw_quote (k : StrKind) (n : Nat) (cs : Text) : scanRaw k n ('"' :: cs) =
    match stripPrefix (List.replicate n '#') cs with
    | some rest => some rest
    | none => scanRaw k n cs := by rw [scanRaw.eq_def]; rfl

theorem scanRaw_crlf (k : StrKind) (n : Nat) (cs : Text) : scanRaw k n ('\r' :: '\n' :: cs) = scanRaw k n cs := by rw [scanRaw.eq_def]; rfl

theorem scanRaw_cr (k : StrKind) (n : Nat) (cs : Text) (h : cs.head? ≠ some '\n') : scanRaw k n ('\r' :: cs) = none := by
  rw [scanRaw.eq_def]
  split
  · simp_all
  · simp_all
  · simp_all
  · rfl
  · rename_i h1 h2 heq; cases heq; exact absurd rfl (h2 )

theorem scanRaw_other (k : StrKind) (n : Nat) (c : Char) (cs : Text) (h1 : c ≠ '"') (h2 : c ≠ '\r') : scanRaw k n (c :: cs) =
    if (k = .byteStr ∧ 127 < c.toNat) ∨ (k = .cStr ∧ c = '\x00') then none else scanRaw k n cs := by
  rw [scanRaw.eq_def]
  split <;> simp_all

theorem scanRaw_append {k : StrKind} {n : Nat} : ∀ {m : Nat} {a r : Text}, a.length ≤ m → scanRaw k n a = some r → ∀ {x : Text}, (∀ c, x.head? = some c → c ≠ '#') →
    scanRaw k n (a ++ x) = some (r ++ x)
  | _, [], r, _, h, x, hx => by simp [scanRaw] at h
  | 0, c :: cs, r, hl, h, x, hx => by simp at hl
  | m + 1, c :: cs, r, hl, h, x, hx => by
    simp only [List.length_cons, Nat.add_le_add_iff_right] at hl
    by_cases h1 : c = '"'
    · subst h1
      rw [List.cons_append, scanRaw_quote] at *
      cases hs : stripPrefix (List.replicate n '#') cs with
      | some rest =>
        rw [hs] at h
        rw [stripPrefix_append hs x]
        cases h; rfl
      | none =>
        rw [hs] at h
        rw [stripPrefix_none hs (fun c hc hm => hx c hc (List.eq_of_mem_replicate hm))]
        exact scanRaw_append hl h hx
    · by_cases h2 : c = '\r'
      · subst h2
        by_cases h3 : cs.head? = some '\n'
        · cases cs with
          | nil => simp at h3
          | cons d ds =>
            simp at h3
            subst h3
            rw [scanRaw_crlf] at h
            rw [List.cons_append, List.cons_append, scanRaw_crlf]
            exact scanRaw_append (m := m) (by simp at hl; omega) h hx
        · rw [scanRaw_cr k n cs h3] at h; cases h
      · rw [scanRaw_other k n c cs h1 h2] at h
        rw [List.cons_append, scanRaw_other k n c _ h1 h2]
        split at h
        · cases h
        · rename_i hn
          rw [if_neg hn]
          exact scanRaw_append hl h hx

theorem lexRaw_append {k : StrKind} {a r : Text} (h : lexRaw k a = some r) {x : Text} (hx : Sep x) : lexRaw k (a ++ x) = some (r ++ x) := by
  unfold lexRaw at h ⊢
  cases ho : rawOpen 0 a with
  | none => rw [ho] at h; cases h
  | some q =>
    rw [ho] at h
    rw [rawOpen_append ho x]
    simp only [Option.bind_some] at h ⊢
    cases hs : scanRaw k q.1 q.2 with
    | none => rw [hs] at h; cases h
    | some t =>
      rw [hs] at h
      rw [scanRaw_append (Nat.le_refl _) hs (fun c hc => (hx c hc).pound)]
      simp only [Option.map_some, Option.some.injEq] at h ⊢
      rw [literalSuffix_append t hx, h]

theorem lexCooked_append {k : StrKind} {a r : Text} (h : lexCooked k a = some r) {x : Text} (hx : Sep x) : lexCooked k (a ++ x) = some (r ++ x) := by
  unfold lexCooked at h ⊢
  cases hs : scanCooked k .plain a with
  | none => rw [hs] at h; cases h
  | some t =>
    rw [hs] at h
    rw [scanCooked_append hs x]
    simp only [Option.map_some, Option.some.injEq] at h ⊢
    rw [literalSuffix_append t hx, h]

/-! ### characters and bytes -/

theorem close_append {a r : Text} (h : lexChar.close a = some r) {x : Text} (hx : Sep x) : lexChar.close (a ++ x) = some (r ++ x) := by
  unfold lexChar.close at h
  split at h
  · rename_i cs
    cases h
    simp only [List.cons_append, lexChar.close]
    rw [literalSuffix_append cs hx]
  · cases h

theorem charUni_append : ∀ {len value : Nat} {a r : Text}, charEscape.uni len value a = some r → ∀ x, charEscape.uni len value (a ++ x) = some (r ++ x)
  | len, value, [], r, h, x => by simp [charEscape.uni] at h
  | len, value, c :: cs, r, h, x => by
    simp only [charEscape.uni, List.cons_append] at h ⊢
    split at h
    · rename_i hc; rw [if_pos hc]; exact charUni_append h x
    · rename_i hc
      rw [if_neg hc]
      split at h
      · rename_i hd
        rw [if_pos hd]
        split at h
        · rename_i he; rw [if_pos he]; cases h; rfl
        · cases h
      · rename_i hd
        rw [if_neg hd]
        cases hh : hexVal c with
        | none => rw [hh] at h; cases h
        | some v =>
          rw [hh] at h
          simp only at h ⊢
          split at h
          · cases h
          · rename_i hl; rw [if_neg hl]; exact charUni_append h x

theorem charEscape_append {a r : Text} (h : charEscape a = some r) (x : Text) : charEscape (a ++ x) = some (r ++ x) := by
  unfold charEscape at h
  split at h
  · rename_i p q cs
    split at h
    · rename_i hc
      simp only [List.cons_append, charEscape]
      rw [if_pos hc]
      cases h; rfl
    · cases h
  · rename_i cs
    simp only [List.cons_append, charEscape]
    exact charUni_append h x
  · rename_i c cs h1 h2
    split at h
    · rename_i hc
      cases h
      rw [List.cons_append, charEscape.eq_def]
      split
      · simp_all
      · simp_all
      · rename_i heq; cases heq; rw [if_pos hc]
      · simp_all
    · cases h
  · cases h

theorem lexChar_append {a r : Text} (h : lexChar a = some r) {x : Text} (hx : Sep x) : lexChar (a ++ x) = some (r ++ x) := by
  unfold lexChar at h
  split at h
  · rename_i cs
    cases he : charEscape cs with
    | none => rw [he] at h; cases h
    | some t =>
      rw [he] at h
      simp only [List.cons_append, lexChar]
      rw [charEscape_append he x]
      exact close_append h hx
  · rename_i c cs hne
    have : lexChar (c :: (cs ++ x)) = lexChar.close (cs ++ x) := by
      rw [lexChar.eq_def]
      split
      · simp_all
      · rename_i heq; cases heq; rfl
      · simp_all
    rw [List.cons_append, this]
    exact close_append h hx
  · cases h

theorem lexByte_append {a r : Text} (h : lexByte a = some r) {x : Text} (hx : Sep x) : lexByte (a ++ x) = some (r ++ x) := by
  unfold lexByte at h
  split at h
  · rename_i p q cs
    split at h
    · rename_i hc
      simp only [List.cons_append, lexByte]
      rw [if_pos hc]
      exact close_append h hx
    · cases h
  · rename_i c cs h1
    split at h
    · rename_i hc
      rw [List.cons_append, List.cons_append, lexByte.eq_def]
      split
      · simp_all
      · rename_i heq; cases heq; rw [if_pos hc]; exact close_append h hx
      · rename_i h9 heq; cases heq; exact absurd rfl (h9 _ _ rfl)
      · simp_all
    · cases h
  · rename_i c cs h1 h2
    split at h
    · cases h
    · rename_i hc
      rw [List.cons_append, lexByte.eq_def]
      split
      · rename_i heq
        simp only [List.cons.injEq] at heq
        obtain ⟨e, heq⟩ := heq
        cases cs with
        | nil => simp [lexChar.close] at h
        | cons d ds => exact absurd e (fun e => h2 d ds e rfl)
      · rename_i heq
        simp only [List.cons.injEq] at heq
        obtain ⟨e, heq⟩ := heq
        cases cs with
        | nil => simp [lexChar.close] at h
        | cons d ds => exact absurd e (fun e => h2 d ds e rfl)
      · rename_i heq; cases heq; rw [if_neg hc]; exact close_append h hx
      · simp_all
  · cases h

/-! ### numbers -/

/-- Apply to what is left. -/
abbrev addRest (x : Text) (o : Option Text) : Option Text := o.map (· ++ x)

theorem floatExp_append {x : Text} (hx : Sep x) (hn : x.head? ≠ some '+' ∧ x.head? ≠ some '-') : ∀ (a : Text) (before : Option Text) (sign value : Bool),
    floatExp (addRest x before) sign value (a ++ x) = addRest x (floatExp before sign value a)
  | [], before, sign, value => by
    cases x with
    | nil => simp [floatExp]; cases value <;> simp
    | cons c x =>
      have h := sep_head hx
      have h1 : c ≠ '+' := fun e => hn.1 (by rw [e]; rfl)
      have h2 : c ≠ '-' := fun e => hn.2 (by rw [e]; rfl)
      simp [floatExp, h.digit, h.under, h1, h2]
      cases value <;> simp
  | c :: cs, before, sign, value => by
    simp only [List.cons_append, floatExp]
    repeat' split
    all_goals first | rfl | exact floatExp_append hx hn cs before _ _

theorem floatMain_append {x : Text} (hx : Sep x) : ∀ (a : Text) (_ : NumSep a x) (dot : Bool), floatMain dot (a ++ x) = addRest x (floatMain dot a)
  | [], hn, dot => by
    cases x with
    | nil => simp [floatMain]
    | cons c x =>
      have h := sep_head hx
      have h1 : c ≠ '.' := fun e => hn.dot (by rw [e]; rfl)
      have h2 : c ≠ 'e' := fun e => h.other (by rw [e]; decide)
      have h3 : c ≠ 'E' := fun e => h.other (by rw [e]; decide)
      simp [floatMain, h.digit, h.under, h1, h2, h3]
  | c :: cs, hn, dot => by
    simp only [List.cons_append, floatMain]
    by_cases h1 : c.isDigit = true ∨ c = '_'
    · rw [if_pos h1, if_pos h1]; exact floatMain_append hx cs hn.tail dot
    · rw [if_neg h1, if_neg h1]
      by_cases h2 : c = '.'
      · rw [if_pos h2, if_pos h2]
        cases dot with
        | true => rfl
        | false =>
          have : (cs ++ x).head?.any (fun d => d == '.' || identStart d) = cs.head?.any (fun d => d == '.' || identStart d) := by
            cases cs with
            | nil =>
              cases x with
              | nil => rfl
              | cons d x =>
                have h := sep_head hx
                have h1 : d ≠ '.' := fun e => hn.dot (by rw [e]; rfl)
                simp [h1, h.start]
            | cons d ds => rfl
          rw [this]
          simp only [Bool.false_eq_true, if_false]
          split
          · rfl
          · exact floatMain_append hx cs hn.tail true
      · rw [if_neg h2, if_neg h2]
        by_cases h3 : c = 'e' ∨ c = 'E'
        · rw [if_pos h3, if_pos h3]
          have hs : x.head? ≠ some '+' ∧ x.head? ≠ some '-' := by
            rcases hn.sign with h | h
            · exact h
            · rcases h3 with e | e
              · exact absurd (by rw [e]; exact List.mem_cons_self) h.1
              · exact absurd (by rw [e]; exact List.mem_cons_self) h.2
          rw [← floatExp_append hx hs]
          cases dot <;> rfl
        · rw [if_neg h3, if_neg h3]
          cases dot <;> rfl

theorem numberEnd_append {x : Text} (hx : Sep x) (a : Text) : numberEnd (a ++ x) = addRest x (numberEnd a) := by
  cases a with
  | nil =>
    cases x with
    | nil => rfl
    | cons c x =>
      have h := sep_head hx
      simp [numberEnd, h.start, h.cont]
  | cons c cs =>
    simp only [List.cons_append, numberEnd]
    split
    · rw [(dropWhile_append_brk (p := identCont) cs x (fun c hc => (hx c hc).cont)).1]; rfl
    · split <;> rfl

theorem addRest_bind {x : Text} (o : Option Text) (f : Text → Option Text) (h : ∀ a, f (a ++ x) = addRest x (f a)) :
    (addRest x o).bind f = addRest x (o.bind f) := by
  cases o with
  | none => rfl
  | some a => exact h a

theorem lexFloat_append {x : Text} (hx : Sep x) (a : Text) (hn : NumSep a x) : lexFloat (a ++ x) = addRest x (lexFloat a) := by
  cases a with
  | nil =>
    cases x with
    | nil => rfl
    | cons c x => simp [lexFloat, (sep_head hx).digit]
  | cons c cs =>
    simp only [List.cons_append, lexFloat]
    split
    · rw [floatMain_append hx _ hn.tail]; exact addRest_bind _ _ (numberEnd_append hx)
    · rfl

theorem digitsLoop_append {x : Text} (hx : Sep x) (base : Nat) : ∀ (a : Text) (empty : Bool),
    digitsLoop base empty (a ++ x) = addRest x (digitsLoop base empty a)
  | [], empty => by
    cases x with
    | nil => simp [digitsLoop]; cases empty <;> simp
    | cons c x =>
      have h := sep_head hx
      simp [digitsLoop, h.digit, h.hex, h.under]
      cases empty <;> simp
  | c :: cs, empty => by
    simp only [List.cons_append, digitsLoop]
    repeat' split
    all_goals first | rfl | exact digitsLoop_append hx base cs _

theorem lexDigits_other {s : Text} (h1 : ∀ cs, s ≠ '0' :: 'x' :: cs) (h2 : ∀ cs, s ≠ '0' :: 'o' :: cs) (h3 : ∀ cs, s ≠ '0' :: 'b' :: cs) :
    lexDigits s = digitsLoop 10 true s := by
  unfold lexDigits
  split
  · exact absurd rfl (h1 _)
  · exact absurd rfl (h2 _)
  · exact absurd rfl (h3 _)
  · rfl

theorem brk_not_append {x a cs : Text} {c d : Char} (hx : Sep x) (hd : d ∈ "xob".toList) (h : a ++ x = c :: d :: cs) (hc : ¬ SepChar c) :
    ∃ ds, a = c :: d :: ds := by
  match a with
  | [] => exact absurd (hx c (by rw [List.nil_append] at h; rw [h]; rfl)) hc
  | [e] =>
    simp at h
    have := (hx d (by rw [h.2]; rfl)).other
    exfalso
    apply this
    revert hd
    simp
    rintro (rfl | rfl | rfl) <;> simp
  | e :: f :: g =>
    simp at h
    exact ⟨g, by rw [h.1, h.2.1]⟩

theorem lexDigits_append {x : Text} (hx : Sep x) (a : Text) : lexDigits (a ++ x) = addRest x (lexDigits a) := by
  by_cases h1 : ∃ cs, a = '0' :: 'x' :: cs
  · obtain ⟨cs, rfl⟩ := h1; exact digitsLoop_append hx _ _ _
  by_cases h2 : ∃ cs, a = '0' :: 'o' :: cs
  · obtain ⟨cs, rfl⟩ := h2; exact digitsLoop_append hx _ _ _
  by_cases h3 : ∃ cs, a = '0' :: 'b' :: cs
  · obtain ⟨cs, rfl⟩ := h3; exact digitsLoop_append hx _ _ _
  have h0 : ¬ SepChar '0' := fun h => absurd h.digit (by decide)
  rw [lexDigits_other (fun cs h => h1 (brk_not_append hx (by decide) h h0)) (fun cs h => h2 (brk_not_append hx (by decide) h h0))
    (fun cs h => h3 (brk_not_append hx (by decide) h h0)),
    lexDigits_other (fun cs h => h1 ⟨cs, h⟩) (fun cs h => h2 ⟨cs, h⟩) (fun cs h => h3 ⟨cs, h⟩)]
  exact digitsLoop_append hx _ _ _

theorem lexInt_append {x : Text} (hx : Sep x) (a : Text) : lexInt (a ++ x) = addRest x (lexInt a) := by
  unfold lexInt
  rw [lexDigits_append hx]
  exact addRest_bind _ _ (numberEnd_append hx)

/-! ### literals -/

theorem lexDigits_head {s r : Text} (h : lexDigits s = some r) : ∃ c cs, s = c :: cs ∧ c.isDigit = true := by
  unfold lexDigits at h
  split at h
  · exact ⟨_, _, rfl, by decide⟩
  · exact ⟨_, _, rfl, by decide⟩
  · exact ⟨_, _, rfl, by decide⟩
  · cases s with
    | nil => simp [digitsLoop] at h
    | cons c cs =>
      refine ⟨c, cs, rfl, ?_⟩
      simp only [digitsLoop] at h
      by_cases hd : c.isDigit = true
      · exact hd
      · rw [if_neg hd] at h
        split at h
        · simp at h
        · split at h
          · simp at h
          · simp at h

theorem number_head {s r : Text} (h : ((lexFloat s).orElse fun _ => lexInt s) = some r) : ∃ c cs, s = c :: cs ∧ c.isDigit = true := by
  cases hf : lexFloat s with
  | some t =>
    unfold lexFloat at hf
    split at hf
    · rename_i c cs
      split at hf
      · rename_i hd; exact ⟨c, cs, rfl, hd⟩
      · cases hf
    · cases hf
  | none =>
    rw [hf] at h
    replace h : lexInt s = some r := h
    unfold lexInt at h
    cases hd : lexDigits s with
    | none => rw [hd] at h; cases h
    | some t => exact lexDigits_head hd

theorem lexLiteral_other {s : Text} (h1 : ∀ c, s.head? = some c → c ∉ "\"rbc'".toList) :
    lexLiteral s = (lexFloat s).orElse fun _ => lexInt s := by
  unfold lexLiteral
  split <;> first | rfl | exact absurd (h1 _ rfl) (by decide)

theorem digit_not_start {c : Char} (h : c.isDigit = true) : c ∉ "\"rbc'".toList := by
  intro hm
  rw [isDigit_iff] at h
  revert h
  revert c
  decide

theorem lexLiteral_append {a r : Text} (h : lexLiteral a = some r) {x : Text} (hx : Sep x)
    (hn : (∃ c, a.head? = some c ∧ c.isDigit = true) → NumSep a x) : lexLiteral (a ++ x) = some (r ++ x) := by
  unfold lexLiteral at h
  split at h
  · exact lexCooked_append h hx
  · exact lexRaw_append h hx
  · exact lexCooked_append h hx
  · exact lexRaw_append h hx
  · exact lexByte_append h hx
  · exact lexCooked_append h hx
  · exact lexRaw_append h hx
  · exact lexChar_append h hx
  · obtain ⟨c, cs, rfl, hd⟩ := number_head h
    rw [lexLiteral_other (by intro d he; simp at he; subst he; exact digit_not_start hd), lexFloat_append hx _ (hn ⟨c, rfl, hd⟩), lexInt_append hx]
    cases hf : lexFloat (c :: cs) with
    | some t => rw [hf] at h; cases h; rfl
    | none => rw [hf] at h; replace h : lexInt (c :: cs) = some r := h; rw [h]; rfl

end Parsel
