import Verif.Proofs.LexCut
import Verif.Spec.Format

/-! The text of every literal value is a literal for the lexer. -/

namespace Parsel

open Spec

/-! ### strings -/

theorem scan_step {k : StrKind} {m m' : Scan} {c : Char} (h : scanStep k m c = some (some m')) (X : Text) :
    scanCooked k m (c :: X) = scanCooked k m' X := by
  rw [scanCooked, h]

theorem scan_uni_digit {k : StrKind} {len v d : Nat} (hd : d < 16) (hl : len < 6) (X : Text) :
    scanCooked k (.uni len v) (Nat.digitChar d :: X) = scanCooked k (.uni (len + 1) (16 * v + d)) X := by
  obtain ⟨h1, h2, h3⟩ := hexVal_digitChar hd
  apply scan_step
  simp only [scanStep]
  rw [if_neg (fun h => h3 h.1), if_neg (fun h => h2 h.1), h1]
  simp only
  rw [if_neg (by omega)]

theorem scan_hexText (k : StrKind) : ∀ (j n : Nat), n < 16 ^ (j + 1) → j < 6 → ∃ len, 0 < len ∧ len ≤ j + 1 ∧
    ∀ X, scanCooked k (.uni 0 0) (hexText n ++ X) = scanCooked k (.uni len n) X
  | 0, n, hn, _ => by
    refine ⟨1, by omega, by omega, fun X => ?_⟩
    have hn : n < 16 := by simpa using hn
    rw [hexText_lt hn, List.singleton_append, scan_uni_digit hn (by omega)]
    simp
  | j + 1, n, hn, hj => by
    by_cases h : n < 16
    · refine ⟨1, by omega, by omega, fun X => ?_⟩
      rw [hexText_lt h, List.singleton_append, scan_uni_digit h (by omega)]
      simp
    · have hq : n / 16 < 16 ^ (j + 1) := by
        rw [Nat.div_lt_iff_lt_mul (by decide)]
        rw [Nat.pow_succ] at hn
        exact hn
      obtain ⟨len, h1, h2, h3⟩ := scan_hexText k j (n / 16) hq (by omega)
      refine ⟨len + 1, by omega, by omega, fun X => ?_⟩
      rw [hexText_ge (by omega), List.append_assoc, h3, List.singleton_append, scan_uni_digit (Nat.mod_lt _ (by decide)) (by omega)]
      congr 2
      omega

theorem char_lt (c : Char) : c.toNat < 16 ^ (5 + 1) := by
  have h : c.toNat.isValidChar := c.valid
  rcases h with h | h
  · omega
  · omega

theorem scan_uni (c : Char) (X : Text) : scanCooked .str (.uni 0 0) (hexText c.toNat ++ '}' :: X) = scanCooked .str .plain X := by
  obtain ⟨len, h1, h2, h3⟩ := scan_hexText .str 5 c.toNat (char_lt c) (by decide)
  rw [h3]
  apply scan_step
  simp only [scanStep]
  rw [if_neg (fun h => absurd h.1 (by decide)), if_pos ⟨trivial, h1⟩, charOf_toNat]
  simp

section
variable [Ext]

theorem scan_escapeDebug (c : Char) (X : Text) : scanCooked .str .plain (escapeDebug c ++ X) = scanCooked .str .plain X := by
  rcases escapeDebug_cases c with ⟨hc, h⟩ | ⟨hc, h⟩ | ⟨hc, h⟩ | ⟨hc, h⟩ | ⟨hc, h⟩ | ⟨hc, h⟩ | ⟨hc, h⟩ | h | ⟨h, h1, _, h3, h4, _⟩
  any_goals (rw [h]; rfl)
  · rw [h]
    have e : ('\\' :: 'u' :: '{' :: (hexText c.toNat ++ ['}'])) ++ X = '\\' :: 'u' :: '{' :: (hexText c.toNat ++ '}' :: X) := by simp
    rw [e, ← scan_uni c X]
    rfl
  · rw [h, List.singleton_append]
    apply scan_step
    simp [scanStep, plainStep, h1, h3, h4]

theorem scan_escapeUtf8Char (c : Char) (next : Option Char) (X : Text) :
    scanCooked .str .plain (escapeUtf8Char c next ++ X) = scanCooked .str .plain X := by
  unfold escapeUtf8Char
  by_cases h0 : c = '\x00'
  · rw [if_pos h0]
    cases next with
    | none => rfl
    | some d =>
      simp only []
      by_cases hd : '0' ≤ d ∧ d ≤ '7'
      · rw [if_pos hd]; rfl
      · rw [if_neg hd]; rfl
  · rw [if_neg h0]
    by_cases h1 : c = '\''
    · rw [if_pos h1, h1]; rfl
    · rw [if_neg h1]
      exact scan_escapeDebug c X

theorem scan_escapeUtf8 : ∀ (t : Text) (rest : Text), scanCooked .str .plain (escapeUtf8 t ++ '"' :: rest) = some rest
  | [], rest => rfl
  | c :: cs, rest => by
    rw [escapeUtf8, List.append_assoc, scan_escapeUtf8Char, scan_escapeUtf8 cs rest]

theorem litText_string (t : Text) : LitText (stringLiteral t) := by
  left
  show (scanCooked .str .plain (escapeUtf8 t ++ ['"'])).map literalSuffix = some []
  rw [scan_escapeUtf8]
  rfl

/-! ### characters -/

omit [Ext] in
theorem esc_uni_digit {len v d : Nat} (hd : d < 16) (hl : len < 6) (X : Text) :
    charEscape.uni len v (Nat.digitChar d :: X) = charEscape.uni (len + 1) (16 * v + d) X := by
  obtain ⟨h1, h2, h3⟩ := hexVal_digitChar hd
  rw [charEscape.uni, if_neg (fun h => h3 h.1), if_neg (fun h => h2 h.1), h1]
  simp only
  rw [if_neg (by omega)]

omit [Ext] in
theorem esc_hexText : ∀ (j n : Nat), n < 16 ^ (j + 1) → j < 6 → ∃ len, 0 < len ∧ len ≤ j + 1 ∧
    ∀ X, charEscape.uni 0 0 (hexText n ++ X) = charEscape.uni len n X
  | 0, n, hn, _ => by
    refine ⟨1, by omega, by omega, fun X => ?_⟩
    have hn : n < 16 := by simpa using hn
    rw [hexText_lt hn, List.singleton_append, esc_uni_digit hn (by omega)]
    simp
  | j + 1, n, hn, hj => by
    by_cases h : n < 16
    · refine ⟨1, by omega, by omega, fun X => ?_⟩
      rw [hexText_lt h, List.singleton_append, esc_uni_digit h (by omega)]
      simp
    · have hq : n / 16 < 16 ^ (j + 1) := by
        rw [Nat.div_lt_iff_lt_mul (by decide)]
        rw [Nat.pow_succ] at hn
        exact hn
      obtain ⟨len, h1, h2, h3⟩ := esc_hexText j (n / 16) hq (by omega)
      refine ⟨len + 1, by omega, by omega, fun X => ?_⟩
      rw [hexText_ge (by omega), List.append_assoc, h3, List.singleton_append, esc_uni_digit (Nat.mod_lt _ (by decide)) (by omega)]
      congr 1
      omega

theorem litText_char (c : Char) : LitText (charLiteral c) := by
  left
  show lexChar ((if c = '"' then [c] else escapeDebug c) ++ ['\'']) = some []
  by_cases hq : c = '"'
  · rw [if_pos hq, hq]; rfl
  · rw [if_neg hq]
    rcases escapeDebug_cases c with ⟨hc, h⟩ | ⟨hc, h⟩ | ⟨hc, h⟩ | ⟨hc, h⟩ | ⟨hc, h⟩ | ⟨hc, h⟩ | ⟨hc, h⟩ | h | ⟨h, h1, _, h3, h4, _⟩
    any_goals (rw [h]; rfl)
    · rw [h]
      have e : ('\\' :: 'u' :: '{' :: (hexText c.toNat ++ ['}'])) ++ ['\''] = '\\' :: 'u' :: '{' :: (hexText c.toNat ++ ['}', '\'']) := by simp
      rw [e, lexChar_esc]
      have e2 : charEscape ('u' :: '{' :: (hexText c.toNat ++ ['}', '\''])) = charEscape.uni 0 0 (hexText c.toNat ++ ['}', '\'']) := by
        rw [charEscape.eq_def]; rfl
      obtain ⟨len, h1, h2, h3⟩ := esc_hexText 5 c.toNat (char_lt c) (by decide)
      rw [e2, h3, charEscape.uni, if_neg (fun h => absurd h.1 (by decide)), if_pos ⟨rfl, h1⟩, charOf_toNat]
      rfl
    · rw [h, List.singleton_append, lexChar_plain _ h4]
      rfl

/-! ### bytes -/

omit [Ext] in
theorem scan_escapeByte (b : Byte) (next : Option Byte) (X : Text) :
    scanCooked .byteStr .plain (escapeByte b next ++ X) = scanCooked .byteStr .plain X := by
  unfold escapeByte
  by_cases h0 : b.val = 0
  · rw [if_pos h0]
    cases next with
    | none => rfl
    | some d =>
      simp only []
      by_cases hd : 48 ≤ d.val ∧ d.val ≤ 55
      · rw [if_pos hd]; rfl
      · rw [if_neg hd]; rfl
  rw [if_neg h0]
  by_cases h1 : b.val = 9
  · rw [if_pos h1]; rfl
  rw [if_neg h1]
  by_cases h2 : b.val = 10
  · rw [if_pos h2]; rfl
  rw [if_neg h2]
  by_cases h3 : b.val = 13
  · rw [if_pos h3]; rfl
  rw [if_neg h3]
  by_cases h4 : b.val = 34
  · rw [if_pos h4]; rfl
  rw [if_neg h4]
  by_cases h5 : b.val = 92
  · rw [if_pos h5]; rfl
  rw [if_neg h5]
  by_cases h6 : 32 ≤ b.val ∧ b.val ≤ 126
  · rw [if_pos h6, List.singleton_append]
    have hn : (Char.ofNat b.val).toNat = b.val := by
      have : b.val.isValidChar := Or.inl (by omega)
      simp [Char.ofNat, this, Char.toNat, Char.ofNatAux, UInt32.toNat]
    have hne : ∀ c : Char, c.toNat ≠ b.val → Char.ofNat b.val ≠ c := by
      intro c hc he; rw [← he, hn] at hc; exact hc rfl
    apply scan_step
    simp only [scanStep, plainStep]
    rw [if_neg (hne '"' (by intro h; exact h4 h.symm)), if_neg (hne '\r' (by intro h; exact h3 h.symm)),
      if_neg (hne '\\' (by intro h; exact h5 h.symm)), if_neg (by rw [hn]; omega), if_neg (by simp)]
  rw [if_neg h6]
  have hq : b.val / 16 < 16 := by have := b.isLt; omega
  have hr : b.val % 16 < 16 := Nat.mod_lt _ (by decide)
  have e1 : scanCooked .byteStr .plain (['\\', 'x', hexUpper (b.val / 16), hexUpper (b.val % 16)] ++ X) =
      scanCooked .byteStr .x1 (hexUpper (b.val / 16) :: hexUpper (b.val % 16) :: X) := rfl
  rw [e1]
  have s1 : scanStep .byteStr .x1 (hexUpper (b.val / 16)) = some (some (.x2 (decide (hexUpper (b.val / 16) = '0')))) := by
    simp only [scanStep]
    rw [hexUpper_val ⟨b.val / 16, hq⟩]
    simp
  rw [scan_step s1]
  apply scan_step
  simp only [scanStep]
  rw [hexUpper_val ⟨b.val % 16, hr⟩]
  simp

omit [Ext] in
theorem scan_escapeBytes : ∀ (t : List Byte) (rest : Text), scanCooked .byteStr .plain (escapeBytes t ++ '"' :: rest) = some rest
  | [], rest => rfl
  | b :: bs, rest => by rw [escapeBytes, List.append_assoc, scan_escapeByte, scan_escapeBytes bs rest]

omit [Ext] in
theorem litText_byteString (t : List Byte) : LitText (byteStringLiteral t) := by
  left
  show (scanCooked .byteStr .plain (escapeBytes t ++ ['"'])).map literalSuffix = some []
  rw [scan_escapeBytes]
  rfl

omit [Ext] in
set_option maxRecDepth 20000 in
theorem lexByte_repr : ∀ b : Byte, lexByte (asciiEscapeDefault b ++ ['\'']) = some [] := by decide

omit [Ext] in
theorem litText_byte {b : Byte} {r : Text} (h : litByteRepr b = some r) : LitText r := by
  have hr : r = 'b' :: '\'' :: (asciiEscapeDefault b ++ ['\'']) := by
    simp only [litByteRepr] at h
    split at h
    · cases hl : readLit ("b'".toList ++ asciiEscapeDefault b ++ "'".toList) with
      | none => rw [hl] at h; cases h
      | some q => rw [hl] at h; cases h; rfl
    · cases h
  rw [hr]
  left
  exact lexByte_repr b

/-! ### numbers -/

omit [Ext] in
theorem floatMain_digits : ∀ (a : Text), (∀ c ∈ a, c.isDigit = true) → ∀ (dot : Bool) (X : Text), floatMain dot (a ++ X) = floatMain dot X
  | [], _, dot, X => rfl
  | c :: cs, h, dot, X => by
    rw [List.cons_append, floatMain, if_pos (.inl (h c List.mem_cons_self))]
    exact floatMain_digits cs (fun d hd => h d (List.mem_cons_of_mem _ hd)) dot X

omit [Ext] in
theorem digit_lt {c : Char} (h : c.isDigit = true) : c.toNat - '0'.toNat < 10 := by
  rw [isDigit_iff, char_le_iff, char_le_iff] at h
  have e9 : '9'.toNat = 57 := rfl
  have e0 : '0'.toNat = 48 := rfl
  omega

omit [Ext] in
theorem digitsLoop_digits : ∀ (a : Text), (∀ c ∈ a, c.isDigit = true) → ∀ (empty : Bool), digitsLoop 10 empty a = if empty = true ∧ a = [] then none else some []
  | [], _, empty => by cases empty <;> rfl
  | c :: cs, h, empty => by
    have hc := h c List.mem_cons_self
    rw [digitsLoop, if_pos hc, if_neg (by have := digit_lt hc; omega), digitsLoop_digits cs (fun d hd => h d (List.mem_cons_of_mem _ hd))]
    simp

omit [Ext] in
theorem lexLiteral_digits {a : Text} (hne : a ≠ []) (h : ∀ c ∈ a, c.isDigit = true) : lexLiteral a = some [] := by
  cases a with
  | nil => exact absurd rfl hne
  | cons c cs =>
    have hc := h c List.mem_cons_self
    rw [lexLiteral_other (by intro d hd; simp at hd; rw [← hd]; exact digit_not_start hc)]
    have hf : lexFloat (c :: cs) = none := by
      have : floatMain false cs = none := by
        have := floatMain_digits cs (fun d hd => h d (List.mem_cons_of_mem _ hd)) false []
        rw [List.append_nil] at this
        rw [this]; rfl
      simp [lexFloat, hc, this]
    have hd : lexDigits (c :: cs) = some [] := by
      have hno : ∀ (d : Char) (ds : Text), d.isDigit = false → c :: cs ≠ '0' :: d :: ds := by
        intro d ds hd he
        have := h d (by rw [he]; simp)
        rw [hd] at this; cases this
      rw [lexDigits_other (fun ds => hno 'x' ds (by decide)) (fun ds => hno 'o' ds (by decide)) (fun ds => hno 'b' ds (by decide)),
        digitsLoop_digits _ h]
      simp
    rw [hf]
    show (lexDigits (c :: cs)).bind numberEnd = some []
    rw [hd]; rfl

omit [Ext] in
theorem lexLiteral_decimal {a b : Text} (hne : a ≠ []) (ha : ∀ c ∈ a, c.isDigit = true) (hb : ∀ c ∈ b, c.isDigit = true) :
    lexLiteral (a ++ '.' :: b) = some [] := by
  cases a with
  | nil => exact absurd rfl hne
  | cons c cs =>
    have hc := ha c List.mem_cons_self
    rw [List.cons_append, lexLiteral_other (by intro d hd; simp at hd; rw [← hd]; exact digit_not_start hc)]
    have hdot : b.head?.any (fun d => d == '.' || identStart d) = false := by
      cases b with
      | nil => rfl
      | cons d ds =>
        have hd := hb d List.mem_cons_self
        have h1 : d ≠ '.' := by rintro rfl; revert hd; decide
        have h2 : identStart d = false := by
          have hr := (isDigit_iff d).mp hd
          rw [char_le_iff, char_le_iff] at hr
          have hc : d = Char.ofNat d.toNat := (Char.ofNat_toNat d).symm
          have : ∀ n : Nat, 48 ≤ n → n ≤ 57 → identStart (Char.ofNat n) = false := by
            intro n h1 h2
            have : n = 48 ∨ n = 49 ∨ n = 50 ∨ n = 51 ∨ n = 52 ∨ n = 53 ∨ n = 54 ∨ n = 55 ∨ n = 56 ∨ n = 57 := by omega
            rcases this with rfl | rfl | rfl | rfl | rfl | rfl | rfl | rfl | rfl | rfl <;> decide
          rw [hc]
          exact this _ hr.1 hr.2
        simp [h1, h2]
    have hm : floatMain false (cs ++ '.' :: b) = some [] := by
      rw [floatMain_digits cs (fun d hd => ha d (List.mem_cons_of_mem _ hd)), floatMain, if_neg (by decide), if_pos rfl, hdot]
      simp only [Bool.false_eq_true, if_false]
      have := floatMain_digits b hb true []
      rw [List.append_nil] at this
      rw [this]; rfl
    have hf : lexFloat (c :: (cs ++ '.' :: b)) = some [] := by
      simp only [lexFloat, hc, if_true, hm]
      rfl
    rw [hf]; rfl

end

end Parsel
