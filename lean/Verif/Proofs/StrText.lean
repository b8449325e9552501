import Verif.Spec.StrText
import Verif.Proofs.Literal
import Verif.Proofs.LexWritable

/-! String literals: what the lexer takes for one, and its value. -/

namespace Parsel

open Spec

/-- The kind of string literal. -/
def kindOf (byte : Bool) : StrKind := if byte then .byteStr else .str

theorem hex_char {c : Char} {d : Nat} (h : DigitIn 16 c d) : hexVal c = some d ∧ c ≠ '_' ∧ c ≠ '}' := by
  have e := (hexVal_iff c d).mpr h
  refine ⟨e, ?_, ?_⟩
  · rintro rfl; rw [show hexVal '_' = none by decide] at e; cases e
  · rintro rfl; rw [show hexVal '}' = none by decide] at e; cases e

theorem digits_len {t : Text} {n v : Nat} (h : Digits 16 t n v) : n ≤ t.length := by
  induction h with
  | nil => simp
  | digit _ _ ih => simp; exact ih
  | under _ ih => simp; omega

theorem digits_zero {t : Text} {n v : Nat} (h : Digits 16 t n v) : n = 0 → ∀ c ∈ t, c = '_' := by
  induction h with
  | nil => simp
  | digit => intro h; omega
  | under _ ih =>
    intro h c hc
    rcases List.mem_append.mp hc with hc | hc
    · exact ih h c hc
    · simpa using hc

theorem digits_pos {t : Text} {n v : Nat} (h : Digits 16 t n v) (hne : t ≠ []) (hh : t.head? ≠ some '_') : 0 < n := by
  rcases Nat.eq_zero_or_pos n with h0 | h0
  · cases t with
    | nil => exact absurd rfl hne
    | cons c t => exact absurd (digits_zero h h0 c List.mem_cons_self) (fun e => hh (by rw [e]; rfl))
  · exact h0

theorem pow_step (n a v d : Nat) : 16 * (16 ^ n * a + v) + d = 16 ^ (n + 1) * a + (16 * v + d) := by
  rw [Nat.mul_add, Nat.pow_succ, Nat.mul_comm (16 ^ n) 16, Nat.mul_assoc, Nat.add_assoc]

theorem head_front {t : Text} {c : Char} (h : (t ++ [c]).head? ≠ some '_') : t.head? ≠ some '_' := by
  cases t with
  | nil => simp
  | cons d t => exact h

/-! ### escapes are read -/

theorem scan_digits {t : Text} {n v : Nat} (h : Digits 16 t n v) : ∀ {l a : Nat} (z : Text), l + n ≤ 6 → (l = 0 → t.head? ≠ some '_') →
    scanCooked .str (.uni l a) (t ++ z) = scanCooked .str (.uni (l + n) (16 ^ n * a + v)) z := by
  induction h with
  | nil => intro l a z _ _; simp
  | @digit t n v c d _ hd ih =>
    intro l a z hl hh
    obtain ⟨e, h1, h2⟩ := hex_char hd
    rw [List.append_assoc, ih _ (by omega) (fun h => head_front (hh h))]
    have : l + n ≠ 6 := by omega
    simp only [List.singleton_append, scanCooked, scanStep, h1, h2, e, false_and, if_false, this]
    rw [pow_step]
    rfl
  | @under t n v hd ih =>
    intro l a z hl hh
    rw [List.append_assoc, ih _ hl (fun h => head_front (hh h))]
    have hp : 0 < l + n := by
      rcases Nat.eq_zero_or_pos l with h0 | h0
      · have hh := hh h0
        have : t ≠ [] := by rintro rfl; exact hh rfl
        have := digits_pos hd this (head_front hh)
        omega
      · omega
    simp [scanCooked, scanStep, hp]

theorem cook_digits {t : Text} {n v : Nat} (h : Digits 16 t n v) : ∀ {a : Nat} (z : Text),
    cookStr (.uni a) (t ++ z) = cookStr (.uni (16 ^ n * a + v)) z := by
  induction h with
  | nil => intro a z; simp
  | @digit t n v c d _ hd ih =>
    intro a z
    obtain ⟨e, h1, h2⟩ := hex_char hd
    rw [List.append_assoc, ih, List.singleton_append, cookStr, if_neg h2, if_neg h1, e, Option.bind_some, pow_step]
  | @under t n v hd ih =>
    intro a z
    rw [List.append_assoc, ih, List.singleton_append, cookStr, if_neg (by decide), if_pos rfl]

theorem charOf_valid {v : Nat} (h : v.isValidChar) : ∃ c, charOf v = some c ∧ c.toNat = v := by
  unfold charOf
  rw [dif_pos h]
  refine ⟨_, rfl, ?_⟩
  have := charOf_toNat (Char.ofNatAux v h)
  rfl

theorem ascii_valid {v : Nat} (h : v < 128) : v.isValidChar := by unfold Nat.isValidChar; omega

theorem hex_low {c : Char} {h : Nat} (hd : DigitIn 16 c h) : ('0' ≤ c ∧ c ≤ '7') ↔ h < 8 := by
  have e := (hexVal_iff c h).mpr hd
  unfold hexVal at e
  simp only [char_le_iff] at e ⊢
  have e0 : '0'.toNat = 48 := rfl
  have e7 : '7'.toNat = 55 := rfl
  have e9 : '9'.toNat = 57 := rfl
  have ea : 'a'.toNat = 97 := rfl
  have ef : 'f'.toNat = 102 := rfl
  have eA : 'A'.toNat = 65 := rfl
  have eF : 'F'.toNat = 70 := rfl
  split at e
  · simp at e; omega
  · split at e
    · simp at e; omega
    · split at e
      · simp at e; omega
      · cases e

theorem scan_escape {byte : Bool} {e : Text} {n : Nat} (h : Escape byte e n) (s : Text) :
    scanCooked (kindOf byte) .plain (e ++ s) = scanCooked (kindOf byte) .plain s := by
  cases h with
  | @short e n h =>
    have h1 : scanStep (kindOf byte) .plain '\\' = some (some .esc) := by cases byte <;> rfl
    have h2 : scanStep (kindOf byte) .esc e = some (some .plain) := by
      simp only [shortEscapes, List.mem_cons, List.not_mem_nil, or_false, Prod.mk.injEq] at h
      rcases h with h | h | h | h | h | h | h <;> (rw [h.1]; cases byte <;> rfl)
    simp only [List.cons_append, List.nil_append, scanCooked, h1, h2]
  | @hex a b h l ha hb hl =>
    obtain ⟨e1, _, _⟩ := hex_char ha
    obtain ⟨e2, _, _⟩ := hex_char hb
    have h1 : scanStep (kindOf byte) .plain '\\' = some (some .esc) := by cases byte <;> rfl
    have h2 : scanStep (kindOf byte) .esc 'x' = some (some .x1) := rfl
    have h3 : scanStep (kindOf byte) .x1 a = some (some (.x2 (decide (a = '0')))) := by
      simp only [scanStep]
      rw [if_pos]
      refine ⟨by rw [e1]; rfl, fun hk => (hex_low ha).mpr ?_⟩
      have : byte = false := by cases byte <;> simp [kindOf] at hk ⊢
      have := hl this
      omega
    have h4 : scanStep (kindOf byte) (.x2 (decide (a = '0'))) b = some (some .plain) := by
      simp only [scanStep]
      rw [if_pos]
      refine ⟨by rw [e2]; rfl, fun hk => ?_⟩
      have := hk.1
      cases byte <;> simp [kindOf] at this
    simp only [List.cons_append, List.nil_append, scanCooked, h1, h2, h3, h4]
  | @uni t n v hb hd h0 h6 hh hv =>
    subst hb
    obtain ⟨c, hc, _⟩ := charOf_valid hv
    have e1 : scanCooked .str .plain ('\\' :: 'u' :: '{' :: (t ++ '}' :: s)) = scanCooked .str (.uni 0 0) (t ++ '}' :: s) := rfl
    show scanCooked .str .plain (('\\' :: 'u' :: '{' :: (t ++ ['}'])) ++ s) = scanCooked .str .plain s
    have e2 : ('\\' :: 'u' :: '{' :: (t ++ ['}'])) ++ s = '\\' :: 'u' :: '{' :: (t ++ '}' :: s) := by simp
    rw [e2, e1, scan_digits hd _ (by omega) (fun _ => hh)]
    simp [scanCooked, scanStep, h0, hc]

theorem cookStr_escape {e : Text} {n : Nat} (h : Escape false e n) : ∃ c : Char, c.toNat = n ∧
    ∀ s, cookStr .plain (e ++ s) = (cookStr .plain s).map fun r => (c :: r.1, r.2) := by
  cases h with
  | @short e n h =>
    have : ∀ p ∈ shortEscapes, p.1 ≠ 'x' ∧ p.1 ≠ 'u' ∧ p.1 ≠ '\n' ∧ p.1 ≠ '\r' ∧ ∃ v ∈ simpleEscape p.1, v.toNat = p.2 := by decide
    obtain ⟨h1, h2, h3, h4, c, hc, he⟩ := this _ h
    refine ⟨c, he, fun s => ?_⟩
    simp only [List.cons_append, List.nil_append]
    rw [cookStr, if_neg (by decide), if_pos rfl, cookStr, if_neg h1, if_neg h2, if_neg (by simp [h3, h4]), hc]
    rfl
  | @hex a b h l ha hb hl =>
    obtain ⟨e1, _, _⟩ := hex_char ha
    obtain ⟨e2, _, _⟩ := hex_char hb
    obtain ⟨c, hc, he⟩ := charOf_valid (ascii_valid (hl rfl))
    refine ⟨c, he, fun s => ?_⟩
    have : 16 * h + l ≤ 127 := by have := hl rfl; omega
    simp only [List.cons_append, List.nil_append]
    rw [cookStr, if_neg (by decide), if_pos rfl, cookStr, if_pos rfl, cookStr, e1, Option.bind_some, cookStr, e2, Option.bind_some, if_pos this, hc, Option.bind_some]
  | @uni t n v hb hd h0 h6 hh hv =>
    obtain ⟨c, hc, he⟩ := charOf_valid hv
    refine ⟨c, he, fun s => ?_⟩
    have e1 : cookStr .plain ('\\' :: 'u' :: '{' :: (t ++ '}' :: s)) = cookStr (.uni 0) (t ++ '}' :: s) := rfl
    have e2 : ('\\' :: 'u' :: '{' :: (t ++ ['}'])) ++ s = '\\' :: 'u' :: '{' :: (t ++ '}' :: s) := by simp
    rw [e2, e1, cook_digits hd, cookStr, if_pos rfl]
    simp [hc]

theorem cookBytes_escape {e : Text} {n : Nat} (h : Escape true e n) : ∃ b : Byte, b.val = n ∧
    ∀ s, cookBytes .plain (e ++ s) = (cookBytes .plain s).map fun r => (b :: r.1, r.2) := by
  cases h with
  | @short e n h =>
    have : ∀ p ∈ shortEscapes, p.1 ≠ 'x' ∧ p.1 ≠ '\n' ∧ p.1 ≠ '\r' ∧ ∃ v ∈ simpleEscape p.1, v.toNat = p.2 ∧ v.toNat < 256 := by decide
    obtain ⟨h1, h3, h4, c, hc, he, hl⟩ := this _ h
    have hb : byteOfChar c = some ⟨c.toNat, hl⟩ := by rw [byteOfChar, dif_pos hl]
    refine ⟨⟨c.toNat, hl⟩, he, fun s => ?_⟩
    simp only [List.cons_append, List.nil_append]
    rw [cookBytes, if_neg (by decide), if_pos rfl, cookBytes, if_neg h1, if_neg (by simp [h3, h4]), hc, Option.bind_some, hb]
    rfl
  | @hex a b h l ha hb hl =>
    obtain ⟨e1, _, _⟩ := hex_char ha
    obtain ⟨e2, _, _⟩ := hex_char hb
    have h1 := ha.1
    have h2 := hb.1
    refine ⟨⟨16 * h + l, by omega⟩, rfl, fun s => ?_⟩
    simp only [List.cons_append, List.nil_append]
    rw [cookBytes, if_neg (by decide), if_pos rfl, cookBytes, if_pos rfl, cookBytes, e1, Option.bind_some, cookBytes, e2, Option.bind_some]
    have : Fin.ofNat 256 (16 * h + l) = ⟨16 * h + l, by omega⟩ := Fin.ext (Nat.mod_eq_of_lt (by omega))
    rw [this]
  | uni hb => cases hb

/-! ### bodies are read -/

theorem scan_lineSkip {k : StrKind} {w : Text} (h : LineSkip w) (s : Text) : scanCooked k .skip (w ++ s) = scanCooked k .skip s := by
  induction h with
  | nil => rfl
  | white hc _ ih =>
    rw [List.cons_append, scanCooked]
    simp only [List.mem_cons, List.not_mem_nil, or_false] at hc
    simp only [scanStep, hc, if_true]
    exact ih
  | crlf _ ih => exact ih

theorem scan_skip_end {k : StrKind} {s : Text} (h : ∀ c, s.head? = some c → c ∉ [' ', '\t', '\n', '\r']) : scanCooked k .skip s = scanCooked k .plain s := by
  cases s with
  | nil => rfl
  | cons c s =>
    have := h c rfl
    simp only [List.mem_cons, List.not_mem_nil, or_false, not_or] at this
    obtain ⟨h1, h2, h3, h4⟩ := this
    simp only [scanCooked, scanStep, h1, h2, h3, h4, or_self, if_false]

theorem cook_lineSkip {w : Text} (h : LineSkip w) (s : Text) : cookStr .skip (w ++ s) = cookStr .skip s ∧ cookBytes .skip (w ++ s) = cookBytes .skip s := by
  induction h with
  | nil => exact ⟨rfl, rfl⟩
  | white hc _ ih =>
    simp only [List.mem_cons, List.not_mem_nil, or_false] at hc
    rw [List.cons_append, cookStr, cookBytes, if_pos (by rcases hc with h | h | h <;> simp [h]), if_pos (by rcases hc with h | h | h <;> simp [h])]
    exact ih
  | crlf _ ih => exact ih

theorem cook_skip_end {s : Text} (h : ∀ c, s.head? = some c → c ∉ [' ', '\t', '\n', '\r']) : cookStr .skip s = cookStr .plain s ∧ cookBytes .skip s = cookBytes .plain s := by
  cases s with
  | nil => exact ⟨rfl, rfl⟩
  | cons c s =>
    have := h c rfl
    simp only [List.mem_cons, List.not_mem_nil, or_false, not_or] at this
    obtain ⟨h1, h2, h3, h4⟩ := this
    constructor
    · rw [cookStr, cookStr]; simp only [h1, h2, h3, h4, or_self, if_false]
    · rw [cookBytes, cookBytes]; simp only [h1, h2, h3, h4, or_self, if_false]

theorem quote_head {x : Text} (h : ∀ c, x.head? = some c → c ∉ [' ', '\t', '\n', '\r']) (rest : Text) :
    ∀ c, (x ++ '"' :: rest).head? = some c → c ∉ [' ', '\t', '\n', '\r'] := by
  cases x with
  | nil => intro c hc; simp at hc; subst hc; decide
  | cons d x => exact h

theorem scan_body {byte : Bool} {x : Text} {ns : List Nat} (h : StrBody byte x ns) (rest : Text) : scanCooked (kindOf byte) .plain (x ++ '"' :: rest) = some rest := by
  induction h with
  | nil => cases byte <;> rfl
  | @char c x ns hc hb _ ih =>
    simp only [List.mem_cons, List.not_mem_nil, or_false, not_or] at hc
    have hk : ¬ (kindOf byte = .byteStr ∧ 127 < c.toNat) := by
      rintro ⟨h1, h2⟩
      have : byte = true := by cases byte <;> simp [kindOf] at h1 ⊢
      have := hb this
      omega
    have hz : ¬ (kindOf byte = .cStr ∧ c = '\x00') := by rintro ⟨h1, _⟩; cases byte <;> simp [kindOf] at h1
    rw [List.cons_append, scanCooked]
    simp only [scanStep, plainStep, hc.1, hc.2.1, hc.2.2, hk, hz, if_false]
    exact ih
  | crlf _ ih =>
    cases byte <;> exact ih
  | escape he _ ih => rw [List.append_assoc, scan_escape he]; exact ih
  | @skip nl w x ns hn hw hx _ ih =>
    have e : scanCooked (kindOf byte) .plain ('\\' :: (nl ++ w ++ x) ++ '"' :: rest) = scanCooked (kindOf byte) .skip (w ++ (x ++ '"' :: rest)) := by
      rw [List.cons_append, List.append_assoc, List.append_assoc]
      rcases hn with rfl | rfl <;> cases byte <;> rfl
    rw [e, scan_lineSkip hw, scan_skip_end (quote_head hx rest)]
    exact ih

theorem cookStr_body {x : Text} {ns : List Nat} (h : StrBody false x ns) (rest : Text) :
    ∃ v : Text, v.map Char.toNat = ns ∧ cookStr .plain (x ++ '"' :: rest) = some (v, rest) := by
  induction h with
  | nil => exact ⟨[], rfl, rfl⟩
  | @char c x ns hc hb _ ih =>
    obtain ⟨v, h1, h2⟩ := ih
    simp only [List.mem_cons, List.not_mem_nil, or_false, not_or] at hc
    refine ⟨c :: v, by rw [List.map_cons, h1], ?_⟩
    rw [List.cons_append, cookStr_plain hc.1 hc.2.1 hc.2.2, h2]
    rfl
  | crlf _ ih =>
    obtain ⟨v, h1, h2⟩ := ih
    exact ⟨'\n' :: v, by rw [List.map_cons, h1]; rfl, congrArg (Option.map fun r : Text × Text => ('\n' :: r.1, r.2)) h2⟩
  | escape he _ ih =>
    obtain ⟨v, h1, h2⟩ := ih
    obtain ⟨c, hc, e⟩ := cookStr_escape he
    refine ⟨c :: v, by rw [List.map_cons, h1, hc], ?_⟩
    rw [List.append_assoc, e, h2]
    rfl
  | @skip nl w x ns hn hw hx _ ih =>
    obtain ⟨v, h1, h2⟩ := ih
    refine ⟨v, h1, ?_⟩
    have e : cookStr .plain ('\\' :: (nl ++ w ++ x) ++ '"' :: rest) = cookStr .skip (w ++ (x ++ '"' :: rest)) := by
      rw [List.cons_append, List.append_assoc, List.append_assoc]
      rcases hn with rfl | rfl <;> rfl
    rw [e, (cook_lineSkip hw _).1, (cook_skip_end (quote_head hx rest)).1]
    exact h2

theorem cookBytes_body {x : Text} {ns : List Nat} (h : StrBody true x ns) (rest : Text) :
    ∃ v : List Byte, v.map Fin.val = ns ∧ cookBytes .plain (x ++ '"' :: rest) = some (v, rest) := by
  induction h with
  | nil => exact ⟨[], rfl, rfl⟩
  | @char c x ns hc hb _ ih =>
    obtain ⟨v, h1, h2⟩ := ih
    simp only [List.mem_cons, List.not_mem_nil, or_false, not_or] at hc
    have hb := hb rfl
    refine ⟨⟨c.toNat, by omega⟩ :: v, by rw [List.map_cons, h1], ?_⟩
    rw [List.cons_append, cookBytes, if_neg hc.1, if_neg hc.2.1, if_neg hc.2.2, byteOfChar, dif_pos (by omega), Option.bind_some, h2]
    rfl
  | crlf _ ih =>
    obtain ⟨v, h1, h2⟩ := ih
    exact ⟨10 :: v, by rw [List.map_cons, h1]; rfl, congrArg (Option.map fun r : List Byte × Text => (10 :: r.1, r.2)) h2⟩
  | escape he _ ih =>
    obtain ⟨v, h1, h2⟩ := ih
    obtain ⟨b, hb, e⟩ := cookBytes_escape he
    refine ⟨b :: v, by rw [List.map_cons, h1, hb], ?_⟩
    rw [List.append_assoc, e, h2]
    rfl
  | @skip nl w x ns hn hw hx _ ih =>
    obtain ⟨v, h1, h2⟩ := ih
    refine ⟨v, h1, ?_⟩
    have e : cookBytes .plain ('\\' :: (nl ++ w ++ x) ++ '"' :: rest) = cookBytes .skip (w ++ (x ++ '"' :: rest)) := by
      rw [List.cons_append, List.append_assoc, List.append_assoc]
      rcases hn with rfl | rfl <;> rfl
    rw [e, (cook_lineSkip hw _).2, (cook_skip_end (quote_head hx rest)).2]
    exact h2

/-! ### what is read is a body -/

theorem scan_uni_inv : ∀ {s : Text} {l a : Nat} {t r : Text}, Digits 16 t l a → (t.head? ≠ some '_') → l ≤ 6 → (t = [] ∨ 0 < l) →
    scanCooked .str (.uni l a) s = some r →
    ∃ t' n v s', s = t' ++ '}' :: s' ∧ Digits 16 (t ++ t') n v ∧ 0 < n ∧ n ≤ 6 ∧ (t ++ t').head? ≠ some '_' ∧ v.isValidChar ∧ scanCooked .str .plain s' = some r
  | [], _, _, _, _, _, _, _, _, h => by simp [scanCooked] at h
  | c :: s, l, a, t, r, hd, hh, hl, hp, h => by
    rw [scanCooked] at h
    simp only [scanStep] at h
    by_cases h1 : c = '_' ∧ 0 < l
    · rw [if_pos h1] at h
      have hne : t ≠ [] := by rintro rfl; have := digits_len hd; simp at this; omega
      obtain ⟨t', n, v, s', e, h2, h3, h4, h5, h6, h7⟩ := scan_uni_inv (t := t ++ ['_']) hd.under
        (by cases t with | nil => exact absurd rfl hne | cons => exact hh) hl (.inr h1.2) h
      rw [List.append_assoc] at h2 h5
      exact ⟨'_' :: t', n, v, s', by rw [h1.1, e]; rfl, h2, h3, h4, h5, h6, h7⟩
    · rw [if_neg h1] at h
      by_cases h2 : c = '}' ∧ 0 < l
      · rw [if_pos h2] at h
        by_cases h3 : (charOf a).isSome = true ∧ ¬(StrKind.str = StrKind.cStr ∧ a = 0)
        · rw [if_pos h3] at h
          have hv : a.isValidChar := by
            have := h3.1
            unfold charOf at this
            split at this
            · assumption
            · cases this
          exact ⟨[], l, a, s, by rw [h2.1]; rfl, by rwa [List.append_nil], h2.2, hl, by rwa [List.append_nil], hv, h⟩
        · rw [if_neg h3] at h; cases h
      · rw [if_neg h2] at h
        cases hx : hexVal c with
        | none => rw [hx] at h; cases h
        | some d =>
          rw [hx] at h
          simp only at h
          by_cases h6 : l = 6
          · rw [if_pos h6] at h; cases h
          · rw [if_neg h6] at h
            have hdig := (hexVal_iff c d).mp hx
            have hc := (hex_char hdig).2.1
            obtain ⟨t', n, v, s', e, g2, g3, g4, g5, g6, g7⟩ := scan_uni_inv (t := t ++ [c]) (hd.digit hdig)
              (by cases t with | nil => simpa using hc | cons => exact hh) (by omega) (.inr (by omega)) h
            rw [List.append_assoc] at g2 g5
            exact ⟨c :: t', n, v, s', by rw [e]; rfl, g2, g3, g4, g5, g6, g7⟩

theorem scan_skip_inv {k : StrKind} {r : Text} : ∀ (n : Nat) {s : Text}, s.length ≤ n → scanCooked k .skip s = some r →
    ∃ w s', LineSkip w ∧ s = w ++ s' ∧ (∀ c, s'.head? = some c → c ∉ [' ', '\t', '\n', '\r']) ∧ scanCooked k .plain s' = some r
  | _, [], _, h => by simp [scanCooked] at h
  | 0, _ :: _, hn, _ => by simp at hn
  | n + 1, c :: s, hn, h => by
    simp only [List.length_cons] at hn
    by_cases h1 : c = ' ' ∨ c = '\t' ∨ c = '\n'
    · rw [scanCooked] at h
      simp only [scanStep, h1, if_true] at h
      obtain ⟨w, s', hw, e, hh, hs⟩ := scan_skip_inv n (by omega) h
      exact ⟨c :: w, s', .white (by simpa using h1) hw, by rw [e]; rfl, hh, hs⟩
    · by_cases h2 : c = '\r'
      · subst h2
        have h' : scanCooked k .skipCr s = some r := h
        cases s with
        | nil => simp [scanCooked] at h'
        | cons d s =>
          rw [scanCooked] at h'
          simp only [scanStep] at h'
          by_cases hd : d = '\n'
          · subst hd
            simp only [if_true] at h'
            simp only [List.length_cons] at hn
            obtain ⟨w, s', hw, e, hh, hs⟩ := scan_skip_inv n (by omega) h'
            exact ⟨'\r' :: '\n' :: w, s', .crlf hw, by rw [e]; rfl, hh, hs⟩
          · rw [if_neg hd] at h'; cases h'
      · have hh : ∀ e, (c :: s).head? = some e → e ∉ [' ', '\t', '\n', '\r'] := by
          intro e he
          simp only [List.head?_cons, Option.some.injEq] at he
          subst he
          simp only [not_or] at h1
          simp [h1, h2]
        exact ⟨[], c :: s, .nil, rfl, hh, (scan_skip_end hh) ▸ h⟩

theorem scan_esc_inv {byte : Bool} {s r : Text} (h : scanCooked (kindOf byte) .esc s = some r) :
    (∃ e n s', '\\' :: s = e ++ s' ∧ e ≠ [] ∧ Escape byte e n ∧ scanCooked (kindOf byte) .plain s' = some r) ∨
    (∃ nl w s', (nl = "\n".toList ∨ nl = "\r\n".toList) ∧ LineSkip w ∧ s = nl ++ w ++ s' ∧ (∀ c, s'.head? = some c → c ∉ [' ', '\t', '\n', '\r']) ∧
      scanCooked (kindOf byte) .plain s' = some r) := by
  cases s with
  | nil => simp [scanCooked] at h
  | cons c s =>
    rw [scanCooked] at h
    simp only [scanStep] at h
    by_cases hx : c = 'x'
    · subst hx
      simp only [if_true] at h
      left
      cases s with
      | nil => simp [scanCooked] at h
      | cons a s =>
        rw [scanCooked] at h
        simp only [scanStep] at h
        by_cases h1 : (hexVal a).isSome = true ∧ (kindOf byte = StrKind.str → '0' ≤ a ∧ a ≤ '7')
        · rw [if_pos h1] at h
          simp only at h
          cases s with
          | nil => simp [scanCooked] at h
          | cons b s =>
            rw [scanCooked] at h
            simp only [scanStep] at h
            split at h
            · cases h
            · split at * <;> simp_all
            · rename_i m e
              split at e
              · rename_i h2
                cases e
                obtain ⟨hi, hhi⟩ := Option.isSome_iff_exists.mp h1.1
                obtain ⟨lo, hlo⟩ := Option.isSome_iff_exists.mp h2.1
                have d1 := (hexVal_iff a hi).mp hhi
                have d2 := (hexVal_iff b lo).mp hlo
                refine ⟨['\\', 'x', a, b], 16 * hi + lo, s, rfl, by simp, .hex d1 d2 ?_, h⟩
                rintro rfl
                have := (hex_low d1).mp (h1.2 rfl)
                have := d2.1
                omega
              · cases e
        · rw [if_neg h1] at h; cases h
    · rw [if_neg hx] at h
      by_cases hs : c = 'n' ∨ c = 'r' ∨ c = 't' ∨ c = '\\' ∨ c = '\'' ∨ c = '"'
      · rw [if_pos hs] at h
        left
        have : ∃ n, (c, n) ∈ shortEscapes := by
          rcases hs with rfl | rfl | rfl | rfl | rfl | rfl <;> exact ⟨_, by simp [shortEscapes]; rfl⟩
        obtain ⟨n, hn⟩ := this
        exact ⟨['\\', c], n, s, rfl, by simp, .short hn, h⟩
      · rw [if_neg hs] at h
        by_cases h0 : c = '0' ∧ kindOf byte ≠ .cStr
        · rw [if_pos h0] at h
          left
          exact ⟨['\\', c], 0, s, rfl, by simp, .short (by rw [h0.1]; decide), h⟩
        · rw [if_neg h0] at h
          by_cases hu : c = 'u' ∧ kindOf byte ≠ .byteStr
          · rw [if_pos hu] at h
            left
            have hb : byte = false := by cases byte <;> simp [kindOf] at hu ⊢
            subst hb
            obtain ⟨rfl, _⟩ := hu
            simp only at h
            cases s with
            | nil => simp [scanCooked] at h
            | cons b s =>
              rw [scanCooked] at h
              simp only [scanStep] at h
              by_cases hb : b = '{'
              · subst hb
                simp only [if_true] at h
                obtain ⟨t', n, v, s', e, g2, g3, g4, g5, g6, g7⟩ := scan_uni_inv (t := []) .nil (by simp) (by omega) (.inl rfl) h
                exact ⟨'\\' :: 'u' :: '{' :: (t' ++ ['}']), v, s', by rw [e]; simp, by simp, .uni rfl g2 g3 g4 g5 g6, g7⟩
              · rw [if_neg hb] at h; cases h
          · rw [if_neg hu] at h
            right
            by_cases hn : c = '\n'
            · rw [if_pos hn] at h
              obtain ⟨w, s', hw, e, hh, hs⟩ := scan_skip_inv _ (Nat.le_refl _) h
              exact ⟨"\n".toList, w, s', .inl rfl, hw, by rw [hn, e]; rfl, hh, hs⟩
            · rw [if_neg hn] at h
              by_cases hr : c = '\r'
              · rw [if_pos hr] at h
                simp only at h
                cases s with
                | nil => simp [scanCooked] at h
                | cons d s =>
                  rw [scanCooked] at h
                  simp only [scanStep] at h
                  by_cases hd : d = '\n'
                  · rw [if_pos hd] at h
                    obtain ⟨w, s', hw, e, hh, hs⟩ := scan_skip_inv _ (Nat.le_refl _) h
                    exact ⟨"\r\n".toList, w, s', .inr rfl, hw, by rw [hr, hd, e]; rfl, hh, hs⟩
                  · rw [if_neg hd] at h; cases h
              · rw [if_neg hr] at h; cases h

theorem scan_inv {byte : Bool} {r : Text} : ∀ (n : Nat) {s : Text}, s.length ≤ n → scanCooked (kindOf byte) .plain s = some r →
    ∃ x ns, s = x ++ '"' :: r ∧ StrBody byte x ns
  | _, [], _, h => by simp [scanCooked] at h
  | 0, _ :: _, hn, _ => by simp at hn
  | n + 1, c :: s, hn, h => by
    simp only [List.length_cons] at hn
    by_cases hq : c = '"'
    · subst hq
      have : some s = some r := by cases byte <;> exact h
      cases this
      exact ⟨[], [], rfl, .nil⟩
    · by_cases hc : c = '\r'
      · subst hc
        have h' : scanCooked (kindOf byte) .cr s = some r := by cases byte <;> exact h
        cases s with
        | nil => simp [scanCooked] at h'
        | cons d s =>
          rw [scanCooked] at h'
          simp only [scanStep] at h'
          by_cases hd : d = '\n'
          · subst hd
            simp only [if_true] at h'
            simp only [List.length_cons] at hn
            obtain ⟨x, ns, e, hx⟩ := scan_inv n (by omega) h'
            exact ⟨'\r' :: '\n' :: x, 10 :: ns, by rw [e]; rfl, .crlf hx⟩
          · rw [if_neg hd] at h'; cases h'
      · by_cases hb : c = '\\'
        · subst hb
          have h' : scanCooked (kindOf byte) .esc s = some r := by cases byte <;> exact h
          rcases scan_esc_inv h' with ⟨e, m, s', he, hne, hx, hs⟩ | ⟨nl, w, s', hnl, hw, he, hh, hs⟩
          · have hl := congrArg List.length he
            have := List.length_pos_iff.mpr hne
            simp only [List.length_cons, List.length_append] at hl
            obtain ⟨x, ns, e2, hb⟩ := scan_inv n (by omega) hs
            exact ⟨e ++ x, m :: ns, by rw [he, e2]; simp, .escape hx hb⟩
          · have hl := congrArg List.length he
            simp only [List.length_append] at hl
            obtain ⟨x, ns, e2, hb⟩ := scan_inv n (by omega) hs
            refine ⟨'\\' :: (nl ++ w ++ x), ns, by rw [he, e2]; simp, .skip hnl hw ?_ hb⟩
            intro c hc
            apply hh
            rw [e2]
            cases x with
            | nil => cases hc
            | cons => exact hc
        · have hc3 : c ∉ ['"', '\\', '\r'] := by simp [hq, hc, hb]
          rw [scanCooked] at h
          simp only [scanStep, plainStep, hq, hc, hb, if_false] at h
          by_cases h1 : kindOf byte = .byteStr ∧ 127 < c.toNat
          · rw [if_pos h1] at h; cases h
          · rw [if_neg h1] at h
            by_cases h2 : kindOf byte = .cStr ∧ c = '\x00'
            · rw [if_pos h2] at h; cases h
            · rw [if_neg h2] at h
              obtain ⟨x, ns, e, hx⟩ := scan_inv n (by omega) h
              refine ⟨c :: x, c.toNat :: ns, by rw [e]; rfl, .char hc3 ?_ hx⟩
              rintro rfl
              by_cases hl : 127 < c.toNat
              · exact absurd ⟨rfl, hl⟩ h1
              · omega

end Parsel
