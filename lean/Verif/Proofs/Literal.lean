import Verif.Spec.Literal
import Verif.Proofs.Decimal
import Verif.Proofs.Combinators

/-! Literals: helper lemmas. -/

namespace Parsel
open Spec

/-! ### Digits -/

theorem char_toNat_inj {c d : Char} (h : c.toNat = d.toNat) : c = d := Char.ext (UInt32.toNat_inj.mp h)

theorem char_le_iff (a b : Char) : a ≤ b ↔ a.toNat ≤ b.toNat := by
  rw [Char.le_def]; exact UInt32.le_iff_toNat_le

theorem hexVal_iff (c : Char) (d : Nat) : hexVal c = some d ↔ DigitIn 16 c d := by
  constructor
  · intro h
    unfold hexVal at h
    simp only [char_le_iff] at h
    have key : ∀ n : Nat, n < 128 → c.toNat = n → c = Char.ofNat n := by
      intro n hn he
      apply char_toNat_inj
      rw [he]
      have : n.isValidChar := Or.inl (by omega)
      simp [Char.ofNat, this, Char.toNat, Char.ofNatAux, UInt32.toNat]
    split at h
    · rename_i hc
      have e0 : '0'.toNat = 48 := rfl
      have e9 : '9'.toNat = 57 := rfl
      rw [e0, e9] at hc
      injection h with h
      rw [e0] at h
      have hc' := key c.toNat (by omega) rfl
      have hd : d = 0 ∨ d = 1 ∨ d = 2 ∨ d = 3 ∨ d = 4 ∨ d = 5 ∨ d = 6 ∨ d = 7 ∨ d = 8 ∨ d = 9 := by omega
      have hn : c.toNat = 48 + d := by omega
      rw [hn] at hc'
      rcases hd with h | h | h | h | h | h | h | h | h | h <;> subst h <;> rw [hc'] <;> exact ⟨by decide, by decide⟩
    · split at h
      · rename_i hc
        have e0 : 'a'.toNat = 97 := rfl
        have e9 : 'f'.toNat = 102 := rfl
        rw [e0, e9] at hc
        injection h with h
        rw [e0] at h
        have hc' := key c.toNat (by omega) rfl
        have hd : d = 10 ∨ d = 11 ∨ d = 12 ∨ d = 13 ∨ d = 14 ∨ d = 15 := by omega
        have hn : c.toNat = 87 + d := by omega
        rw [hn] at hc'
        rcases hd with h | h | h | h | h | h <;> subst h <;> rw [hc'] <;> exact ⟨by decide, by decide⟩
      · split at h
        · rename_i hc
          have e0 : 'A'.toNat = 65 := rfl
          have e9 : 'F'.toNat = 70 := rfl
          rw [e0, e9] at hc
          injection h with h
          rw [e0] at h
          have hc' := key c.toNat (by omega) rfl
          have hd : d = 10 ∨ d = 11 ∨ d = 12 ∨ d = 13 ∨ d = 14 ∨ d = 15 := by omega
          have hn : c.toNat = 55 + d := by omega
          rw [hn] at hc'
          rcases hd with h | h | h | h | h | h <;> subst h <;> rw [hc'] <;> exact ⟨by decide, by decide⟩
        · exact absurd h (by simp)
  · rintro ⟨hd, h⟩
    have hd' : d = 0 ∨ d = 1 ∨ d = 2 ∨ d = 3 ∨ d = 4 ∨ d = 5 ∨ d = 6 ∨ d = 7 ∨ d = 8 ∨ d = 9 ∨ d = 10 ∨ d = 11 ∨ d = 12 ∨ d = 13 ∨
      d = 14 ∨ d = 15 := by omega
    rcases hd' with e | e | e | e | e | e | e | e | e | e | e | e | e | e | e | e <;> subst e <;>
      rcases h with h | h <;> (injection h with h; subst h; decide)

theorem digitIn_hexVal {base : Nat} {c : Char} {d : Nat} (h : DigitIn base c d) : hexVal c = some d := by
  have hlt : d < 16 := by
    rcases h.2 with h | h
    · have := (List.getElem?_eq_some_iff.mp h).1; exact this
    · have := (List.getElem?_eq_some_iff.mp h).1; exact this
  exact (hexVal_iff c d).mpr ⟨hlt, h.2⟩

theorem digitIn_of_hexVal {base : Nat} {c : Char} {d : Nat} (h : hexVal c = some d) (hd : d < base) : DigitIn base c d :=
  ⟨hd, ((hexVal_iff c d).mp h).2⟩

theorem hexVal_digit {c : Char} (h : '0' ≤ c ∧ c ≤ '9') : hexVal c = some (c.toNat - '0'.toNat) := by
  unfold hexVal; rw [if_pos h]

theorem hexVal_nondigit {c : Char} {d : Nat} (h : ¬ ('0' ≤ c ∧ c ≤ '9')) (hd : hexVal c = some d) : 10 ≤ d := by
  unfold hexVal at hd
  rw [if_neg h] at hd
  simp only [char_le_iff] at hd
  split at hd
  · injection hd with hd; omega
  · split at hd
    · injection hd with hd; omega
    · exact absurd hd (by simp)

/-- The bases of integer literals. -/
def OkBase (base : Nat) : Prop := base = 2 ∨ base = 8 ∨ base = 10 ∨ base = 16

theorem intLoop_digit {base : Nat} (_hb : OkBase base) {c : Char} {d : Nat} (h : DigitIn base c d) (acc : Nat) (seen : Bool) (cs : Text) :
    intLoop base acc seen (c :: cs) = intLoop base (base * acc + d) true cs := by
  have hx := digitIn_hexVal h
  have hlt := h.1
  have hu : c ≠ '_' := by
    rintro rfl
    rw [show hexVal '_' = none from by decide] at hx
    exact absurd hx (by simp)
  rw [intLoop, if_neg hu]
  by_cases hdig : '0' ≤ c ∧ c ≤ '9'
  · have he : ¬ (base = 10 ∧ (c = '.' ∨ ((c = 'e' ∨ c = 'E') ∧ expAhead false cs = true))) := by
      rintro ⟨_, rfl | ⟨rfl | rfl, _⟩⟩ <;> exact absurd hdig (by decide)
    rw [if_neg he, if_pos hdig]
    rw [hexVal_digit hdig] at hx
    injection hx with hx
    rw [hx, if_pos hlt]
  · have h10 := hexVal_nondigit hdig hx
    have hb10 : 10 < base := by omega
    rw [if_neg (by omega), if_neg hdig, if_pos hb10, hx]

theorem intLoop_under (base acc : Nat) (seen : Bool) (cs : Text) :
    intLoop base acc seen ('_' :: cs) = intLoop base acc seen cs := by
  rw [intLoop, if_pos rfl]

theorem intLoop_digits {base : Nat} (hb : OkBase base) {body : Text} {n v : Nat} (h : Digits base body n v) :
    ∀ tail, intLoop base 0 false (body ++ tail) = intLoop base v (decide (n ≠ 0)) tail := by
  induction h with
  | nil => intro tail; rfl
  | digit _ hd ih =>
    intro tail
    rw [List.append_assoc, ih, List.singleton_append, intLoop_digit hb hd]
    simp
  | under _ ih =>
    intro tail
    rw [List.append_assoc, ih, List.singleton_append, intLoop_under]

theorem suffixOk_head {c : Char} {cs : Text} (h : suffixOk (c :: cs) = true) : ¬ ('0' ≤ c ∧ c ≤ '9') := by
  intro hd
  simp only [suffixOk, identStart, Bool.and_eq_true, Bool.or_eq_true, decide_eq_true_eq] at h
  simp only [char_le_iff] at hd
  have e0 : '0'.toNat = 48 := rfl
  have e9 : '9'.toNat = 57 := rfl
  have h9 : c.toNat ≤ 57 := by rw [e9] at hd; exact hd.2
  have h0 : 48 ≤ c.toNat := by rw [e0] at hd; exact hd.1
  rcases h.1 with (h | h) | h
  · simp only [Char.isAlpha, Char.isUpper, Char.isLower, Bool.or_eq_true, Bool.and_eq_true, decide_eq_true_eq, UInt32.le_iff_toNat_le,
      ge_iff_le] at h
    have : c.val.toNat = c.toNat := rfl
    rcases h with h | h
    · have := h.1; simp at this; omega
    · have := h.1; simp at this; omega
  · subst h; exact absurd h9 (by decide)
  · exact absurd h.1.1 (by omega)

theorem isDigit_iff (c : Char) : c.isDigit = true ↔ '0' ≤ c ∧ c ≤ '9' := by
  simp [Char.isDigit, Char.le_def]

/-- After the `e` of a suffix. -/
theorem expAhead_iff : ∀ (seen : Bool) (t : Text), t.all identCont = true →
    (expAhead seen t = true ↔ ∃ w rest, t = w ++ rest ∧ (∀ c ∈ w, c = '_' ∨ c.isDigit = true) ∧ (seen = true ∨ ∃ c ∈ w, c.isDigit = true) ∧
      suffixOk rest = true ∧ rest.head? ≠ some '_')
  | seen, [], _ => by
    rw [expAhead]
    constructor
    · intro h
      exact ⟨[], [], rfl, by simp, .inl h, rfl, by simp⟩
    · rintro ⟨w, rest, e, h1, h2, -, -⟩
      obtain ⟨rfl, rfl⟩ := List.append_eq_nil_iff.mp e.symm
      simpa using h2
  | seen, c :: cs, ha => by
    obtain ⟨hc, ha'⟩ : identCont c = true ∧ cs.all identCont = true := by simpa using ha
    have ih := fun s => expAhead_iff s cs ha'
    -- a digit or underscore belongs to `w`
    have step : ∀ s', (c = '_' ∨ c.isDigit = true) → (s' = true ↔ seen = true ∨ c.isDigit = true) →
        ((∃ w rest, cs = w ++ rest ∧ (∀ c ∈ w, c = '_' ∨ c.isDigit = true) ∧ (s' = true ∨ ∃ c ∈ w, c.isDigit = true) ∧ suffixOk rest = true ∧
          rest.head? ≠ some '_') ↔
        ∃ w rest, c :: cs = w ++ rest ∧ (∀ c ∈ w, c = '_' ∨ c.isDigit = true) ∧ (seen = true ∨ ∃ c ∈ w, c.isDigit = true) ∧ suffixOk rest = true ∧
          rest.head? ≠ some '_') := by
      intro s' hd hs
      constructor
      · rintro ⟨w, rest, rfl, h1, h2, h3, h4⟩
        refine ⟨c :: w, rest, rfl, ?_, ?_, h3, h4⟩
        · intro d hd'
          rcases List.mem_cons.mp hd' with rfl | hd'
          · exact hd
          · exact h1 d hd'
        · rcases h2 with h2 | ⟨d, h2, h2'⟩
          · rcases hs.mp h2 with h2 | h2
            · exact .inl h2
            · exact .inr ⟨c, List.mem_cons_self, h2⟩
          · exact .inr ⟨d, List.mem_cons_of_mem _ h2, h2'⟩
      · rintro ⟨w, rest, e, h1, h2, h3, h4⟩
        cases w with
        | nil =>
          exfalso
          rw [List.nil_append] at e
          subst e
          rcases hd with rfl | hd
          · exact h4 rfl
          · rw [isDigit_iff] at hd
            exact suffixOk_head h3 hd
        | cons d w =>
          injection e with e1 e2
          subst e1
          refine ⟨w, rest, e2, fun x hx => h1 x (List.mem_cons_of_mem _ hx), ?_, h3, h4⟩
          rcases h2 with h2 | ⟨x, h2, h2'⟩
          · exact .inl (hs.mpr (.inl h2))
          · rcases List.mem_cons.mp h2 with rfl | h2
            · exact .inl (hs.mpr (.inr h2'))
            · exact .inr ⟨x, h2, h2'⟩
    rw [expAhead]
    by_cases hu : c = '_'
    · rw [if_pos hu, ih, step seen (.inl hu) ?_]
      have : c.isDigit = false := by subst hu; decide
      simp [this]
    · rw [if_neg hu]
      have hsign : ¬ (c = '-' ∨ c = '+') := by
        rintro (rfl | rfl) <;> exact absurd hc (by decide)
      rw [if_neg hsign]
      by_cases hd : c.isDigit = true
      · rw [if_pos hd, ih, step true (.inr hd) (by simp [hd])]
      · rw [if_neg hd]
        constructor
        · intro h
          rw [Bool.and_eq_true] at h
          exact ⟨[], c :: cs, rfl, by simp, .inl h.1, h.2, by simpa using hu⟩
        · rintro ⟨w, rest, e, h1, h2, h3, h4⟩
          cases w with
          | nil =>
            rw [List.nil_append] at e
            subst e
            simp only [List.not_mem_nil, false_and, exists_false, or_false] at h2
            rw [h2, h3]; rfl
          | cons d w =>
            injection e with e1 e2
            subst e1
            rcases h1 c List.mem_cons_self with h | h
            · exact absurd h hu
            · exact absurd h hd

theorem exponent_iff {c : Char} {t : Text} (h : suffixOk (c :: t) = true) : expAhead false t = true ↔ Exponent t := by
  have : t.all identCont = true := by
    simp only [suffixOk, Bool.and_eq_true] at h
    exact h.2
  rw [expAhead_iff false t this]
  simp only [Bool.false_eq_true, false_or]
  rfl

theorem intLoop_suffix {base : Nat} {suffix : Text} (h : IntSuffix base suffix) (acc : Nat) (seen : Bool) (hb : OkBase base) :
    intLoop base acc seen suffix = some (acc, seen, suffix) := by
  cases suffix with
  | nil => rfl
  | cons c cs =>
    obtain ⟨hs, hc⟩ := h
    obtain ⟨hu, hd, he⟩ := hc c rfl
    have hnd := suffixOk_head hs
    have hdot : ¬ (base = 10 ∧ (c = '.' ∨ ((c = 'e' ∨ c = 'E') ∧ expAhead false cs = true))) := by
      rintro ⟨h10, rfl | ⟨h, h'⟩⟩
      · exact absurd hs (by simp [suffixOk, identStart, Char.isAlpha, Char.isUpper, Char.isLower])
      · exact he h10 h ((exponent_iff hs).mp h')
    rw [intLoop, if_neg hu, if_neg hdot, if_neg hnd]
    by_cases h10 : 10 < base
    · rw [if_pos h10]
      cases hx : hexVal c with
      | none => rfl
      | some d =>
        have : base = 16 := by rcases hb with h | h | h | h <;> omega
        exact absurd (digitIn_of_hexVal (base := base) hx (by have := ((hexVal_iff c d).mp hx).1; omega)) (hd d)
    · rw [if_neg h10]

theorem intLoop_sound {base : Nat} (hb : OkBase base) : ∀ (t : Text) (t0 : Text) (n acc v : Nat) (seen' : Bool) (suf : Text),
    Digits base t0 n acc → intLoop base acc (decide (n ≠ 0)) t = some (v, seen', suf) →
    ∃ body n', t = body ++ suf ∧ Digits base (t0 ++ body) n' v ∧ seen' = decide (n' ≠ 0) ∧
      ∀ c, suf.head? = some c → c ≠ '_' ∧ (∀ d, ¬ DigitIn base c d) ∧ (base = 10 → c = 'e' ∨ c = 'E' → expAhead false suf.tail = false)
  | [], t0, n, acc, v, seen', suf, hD, h => by
    rw [intLoop] at h
    injection h with h; injection h with h1 h2; injection h2 with h2 h3
    subst h1 h2 h3
    exact ⟨[], n, rfl, by simpa using hD, rfl, by simp⟩
  | c :: cs, t0, n, acc, v, seen', suf, hD, h => by
    by_cases hu : c = '_'
    · subst hu
      rw [intLoop_under] at h
      obtain ⟨body, n', e, hD', hs, hc⟩ := intLoop_sound hb cs _ n acc v seen' suf (Digits.under hD) h
      exact ⟨'_' :: body, n', by rw [e]; rfl, by simpa using hD', hs, hc⟩
    · by_cases hdig : ∃ d, DigitIn base c d
      · obtain ⟨d, hd⟩ := hdig
        rw [intLoop_digit hb hd] at h
        have h' : intLoop base (base * acc + d) (decide (n + 1 ≠ 0)) cs = some (v, seen', suf) := by
          simpa using h
        obtain ⟨body, n', e, hD', hs, hc⟩ := intLoop_sound hb cs _ (n + 1) _ v seen' suf (Digits.digit hD hd) h'
        exact ⟨c :: body, n', by rw [e]; rfl, by simpa using hD', hs, hc⟩
      · have hnd : ∀ d, ¬ DigitIn base c d := fun d hd => hdig ⟨d, hd⟩
        rw [intLoop, if_neg hu] at h
        by_cases he : base = 10 ∧ (c = '.' ∨ ((c = 'e' ∨ c = 'E') ∧ expAhead false cs = true))
        · rw [if_pos he] at h; exact absurd h (by simp)
        · rw [if_neg he] at h
          have fin : some (acc, decide (n ≠ 0), c :: cs) = some (v, seen', suf) → ∃ body n', c :: cs = body ++ suf ∧ Digits base (t0 ++ body) n' v ∧ seen' = decide (n' ≠ 0) ∧
              ∀ c, suf.head? = some c → c ≠ '_' ∧ (∀ d, ¬ DigitIn base c d) ∧ (base = 10 → c = 'e' ∨ c = 'E' → expAhead false suf.tail = false) := by
            intro h
            injection h with h; injection h with h1 h2; injection h2 with h2 h3
            subst h1 h2 h3
            refine ⟨[], n, rfl, by simpa using hD, rfl, ?_⟩
            intro x hx
            injection hx with hx; subst hx
            exact ⟨hu, hnd, fun h10 h => Bool.eq_false_iff.mpr fun h' => he ⟨h10, Or.inr ⟨h, h'⟩⟩⟩
          by_cases hdg : '0' ≤ c ∧ c ≤ '9'
          · rw [if_pos hdg] at h
            split at h
            · rename_i hlt
              exact absurd (digitIn_of_hexVal (hexVal_digit hdg) hlt) (hnd _)
            · exact absurd h (by simp)
          · rw [if_neg hdg] at h
            by_cases h10 : 10 < base
            · rw [if_pos h10] at h
              cases hx : hexVal c with
              | none => rw [hx] at h; exact fin h
              | some d =>
                have : base = 16 := by rcases hb with h | h | h | h <;> omega
                exact absurd (digitIn_of_hexVal (base := base) hx (by have := ((hexVal_iff c d).mp hx).1; omega)) (hnd d)
            · rw [if_neg h10] at h; exact fin h

/-- The digit part of `readNat`. -/
theorem readNat_go {base : Nat} (hb : OkBase base) (body : Text) (v : Nat) :
    (match intLoop base 0 false body with
      | some (v, true, suffix) => if suffixOk suffix then some v else none
      | _ => none) = some v ↔ ∃ b suffix n, body = b ++ suffix ∧ Digits base b (n + 1) v ∧ IntSuffix base suffix := by
  constructor
  · intro h
    split at h
    · rename_i v' suf he
      split at h
      · rename_i hs
        injection h with h; subst h
        obtain ⟨b, n', e, hD, hseen, hc⟩ := intLoop_sound hb body [] 0 0 v' true suf Digits.nil he
        simp only [List.nil_append] at hD
        have hn : n' ≠ 0 := of_decide_eq_true hseen.symm
        obtain ⟨n, rfl⟩ := Nat.exists_eq_succ_of_ne_zero hn
        refine ⟨b, suf, n, e, hD, hs, fun c h => ⟨(hc c h).1, (hc c h).2.1, fun h10 hce hx => ?_⟩⟩
        cases suf with
        | nil => cases h
        | cons x t =>
          have := (hc c h).2.2 h10 hce
          rw [List.tail_cons, (exponent_iff hs).mpr hx] at this
          cases this
      · exact absurd h (by simp)
    · exact absurd h (by simp)
  · rintro ⟨b, suffix, n, e, hD, hs⟩
    rw [e, intLoop_digits hb hD, intLoop_suffix hs _ _ hb]
    simp [hs.1]

theorem digits_mem {base : Nat} {t : Text} {n v : Nat} (h : Digits base t n v) : ∀ c ∈ t, c = '_' ∨ ∃ d, DigitIn base c d := by
  induction h with
  | nil => simp
  | digit _ hd ih =>
    intro c hc
    rcases List.mem_append.mp hc with hc | hc
    · exact ih c hc
    · rw [List.mem_singleton.mp hc]; exact Or.inr ⟨_, hd⟩
  | under _ ih =>
    intro c hc
    rcases List.mem_append.mp hc with hc | hc
    · exact ih c hc
    · exact Or.inl (List.mem_singleton.mp hc)

theorem digitIn10_range {c : Char} {d : Nat} (h : DigitIn 10 c d) : '0' ≤ c ∧ c ≤ '9' := by
  by_cases hr : '0' ≤ c ∧ c ≤ '9'
  · exact hr
  · have := hexVal_nondigit hr (digitIn_hexVal h)
    have := h.1
    omega

theorem digits_ne_nil {base : Nat} {t : Text} {n v : Nat} (h : Digits base t (n + 1) v) : t ≠ [] := by
  intro he
  subst he
  generalize hn : n + 1 = m at h
  generalize ht : ([] : Text) = t at h
  cases h with
  | nil => omega
  | digit => simp at ht
  | under => simp at ht

theorem readNat_iff (t : Text) (v : Nat) : readNat t = some v ↔ IntLit t v := by
  constructor
  · intro h
    unfold readNat at h
    split at h
    · obtain ⟨b, suf, n, e, hD, hs⟩ := (readNat_go (Or.inr (Or.inr (Or.inr rfl))) _ _).mp h
      exact ⟨"0x".toList, 16, b, suf, n, by simp [basePrefixes], by rw [e]; rfl, hD, hs, by simp⟩
    · obtain ⟨b, suf, n, e, hD, hs⟩ := (readNat_go (Or.inr (Or.inl rfl)) _ _).mp h
      exact ⟨"0o".toList, 8, b, suf, n, by simp [basePrefixes], by rw [e]; rfl, hD, hs, by simp⟩
    · obtain ⟨b, suf, n, e, hD, hs⟩ := (readNat_go (Or.inl rfl) _ _).mp h
      exact ⟨"0b".toList, 2, b, suf, n, by simp [basePrefixes], by rw [e]; rfl, hD, hs, by simp⟩
    · rename_i c body hx ho hbb
      split at h
      · rename_i hd
        obtain ⟨b, suf, n, e, hD, hs⟩ := (readNat_go (Or.inr (Or.inr (Or.inl rfl))) _ _).mp h
        refine ⟨[], 10, b, suf, n, by simp [basePrefixes], by rw [e]; rfl, hD, hs, fun _ => ⟨?_, ?_⟩⟩
        · intro hh
          have hne := digits_ne_nil hD
          cases b with
          | nil => exact hne rfl
          | cons x xs =>
            injection hh with hh; subst hh
            injection e with e1 e2
            subst e1
            exact absurd hd (by decide)
        · rintro d ⟨h1, h2⟩
          subst h1
          cases suf with
          | nil => simp at h2
          | cons y ys =>
            injection h2 with h2; subst h2
            injection e with e1 e2
            subst e1
            exact ⟨fun h => hx ys rfl (by rw [e2, h]; rfl), fun h => ho ys rfl (by rw [e2, h]; rfl),
              fun h => hbb ys rfl (by rw [e2, h]; rfl)⟩
      · exact absurd h (by simp)
    · exact absurd h (by simp)
  · rintro ⟨pre, base, b, suf, n, hp, e, hD, hs, h10⟩
    simp only [basePrefixes, List.mem_cons, Prod.mk.injEq, List.not_mem_nil, or_false] at hp
    rcases hp with ⟨rfl, rfl⟩ | ⟨rfl, rfl⟩ | ⟨rfl, rfl⟩ | ⟨rfl, rfl⟩
    · obtain ⟨hu, hx⟩ := h10 rfl
      have hgo := (readNat_go (Or.inr (Or.inr (Or.inl rfl))) (b ++ suf) v).mpr ⟨b, suf, n, rfl, hD, hs⟩
      simp only [List.nil_append] at e
      have hne := digits_ne_nil hD
      cases b with
      | nil => exact absurd rfl hne
      | cons c b' =>
        have hc : '0' ≤ c ∧ c ≤ '9' := by
          rcases digits_mem hD c (by simp) with h | ⟨d, h⟩
          · subst h; simp at hu
          · exact digitIn10_range h
        have hpre : ∀ y ys, t = '0' :: y :: ys → y ≠ 'x' ∧ y ≠ 'o' ∧ y ≠ 'b' := by
          intro y ys ht
          rw [e] at ht
          injection ht with h1 h2
          subst h1
          cases b' with
          | nil =>
            change suf = y :: ys at h2
            exact hx y ⟨rfl, by rw [h2]; rfl⟩
          | cons z zs =>
            injection h2 with h2 _
            subst h2
            rcases digits_mem hD z (by simp) with h | ⟨d, h⟩
            · subst h; decide
            · have := digitIn10_range h
              refine ⟨?_, ?_, ?_⟩ <;> (rintro rfl; exact absurd this (by decide))
        unfold readNat
        split
        · exact absurd rfl (hpre _ _ rfl).1
        · exact absurd rfl (hpre _ _ rfl).2.1
        · exact absurd rfl (hpre _ _ rfl).2.2
        · rename_i c' body' _ _ _
          injection e with e1 e2
          subst e1 e2
          rw [if_pos hc]
          exact hgo
        · cases e
    · have hgo := (readNat_go (Or.inr (Or.inr (Or.inr rfl))) (b ++ suf) v).mpr ⟨b, suf, n, rfl, hD, hs⟩
      rw [e]; exact hgo
    · have hgo := (readNat_go (Or.inr (Or.inl rfl)) (b ++ suf) v).mpr ⟨b, suf, n, rfl, hD, hs⟩
      rw [e]; exact hgo
    · have hgo := (readNat_go (Or.inl rfl) (b ++ suf) v).mpr ⟨b, suf, n, rfl, hD, hs⟩
      rw [e]; exact hgo

/-! ### Machine integers -/

/-- Value of more decimal digits after a number. -/
def decFrom (a : Nat) (cs : Text) : Nat := cs.foldl (fun acc c => 10 * acc + (c.toNat - '0'.toNat)) a

theorem decFrom_ge (cs : Text) : ∀ a, a ≤ decFrom a cs := by
  induction cs with
  | nil => intro a; exact Nat.le_refl a
  | cons c cs ih =>
    intro a
    exact Nat.le_trans (by omega) (ih (10 * a + (c.toNat - '0'.toNat)))

theorem checkedDigits_pos (lo : Int) (hi : Nat) (hlo : lo ≤ 0) : ∀ (cs : Text) (a : Nat), (∀ c ∈ cs, c.isDigit = true) → a ≤ hi →
    checkedDigits lo hi false a cs =
      if decFrom a cs ≤ hi then .ok (decFrom a cs : Nat) else .error "number too large to fit in target type".toList
  | [], a, _, ha => by rw [checkedDigits]; exact (if_pos ha).symm
  | c :: cs, a, hc, ha => by
    have hge := decFrom_ge cs (10 * a + (c.toNat - '0'.toNat))
    have hdef : decFrom a (c :: cs) = decFrom (10 * a + (c.toNat - '0'.toNat)) cs := rfl
    rw [checkedDigits, if_pos (hc c (by simp))]
    simp only [Bool.false_eq_true, if_false]
    by_cases h1 : (a : Int) * 10 < lo ∨ (hi : Int) < (a : Int) * 10
    · rw [if_pos h1, if_neg (by omega)]
    · rw [if_neg h1]
      by_cases h2 : (a : Int) * 10 + ((c.toNat - '0'.toNat : Nat) : Int) < lo ∨ (hi : Int) < (a : Int) * 10 + ((c.toNat - '0'.toNat : Nat) : Int)
      · rw [if_pos h2, if_neg (by omega)]
      · rw [if_neg h2]
        have e : (a : Int) * 10 + ((c.toNat - '0'.toNat : Nat) : Int) = ((10 * a + (c.toNat - '0'.toNat) : Nat) : Int) := by omega
        rw [e, hdef]
        exact checkedDigits_pos lo hi hlo cs _ (fun x hx => hc x (List.mem_cons_of_mem _ hx)) (by omega)

theorem checkedDigits_neg (lo : Nat) (hi : Int) (hhi : 0 ≤ hi) : ∀ (cs : Text) (a : Nat), (∀ c ∈ cs, c.isDigit = true) → a ≤ lo →
    checkedDigits (-lo) hi true (-a) cs =
      if decFrom a cs ≤ lo then .ok (-(decFrom a cs : Nat)) else .error "number too small to fit in target type".toList
  | [], a, _, ha => by rw [checkedDigits]; exact (if_pos ha).symm
  | c :: cs, a, hc, ha => by
    have hge := decFrom_ge cs (10 * a + (c.toNat - '0'.toNat))
    have hdef : decFrom a (c :: cs) = decFrom (10 * a + (c.toNat - '0'.toNat)) cs := rfl
    rw [checkedDigits, if_pos (hc c (by simp))]
    simp only [if_true]
    by_cases h1 : -(a : Int) * 10 < -(lo : Int) ∨ hi < -(a : Int) * 10
    · rw [if_pos h1, if_neg (by omega)]
    · rw [if_neg h1]
      by_cases h2 : -(a : Int) * 10 - ((c.toNat - '0'.toNat : Nat) : Int) < -(lo : Int) ∨ hi < -(a : Int) * 10 - ((c.toNat - '0'.toNat : Nat) : Int)
      · rw [if_pos h2, if_neg (by omega)]
      · rw [if_neg h2]
        have e : -(a : Int) * 10 - ((c.toNat - '0'.toNat : Nat) : Int) = -((10 * a + (c.toNat - '0'.toNat) : Nat) : Int) := by omega
        rw [e, hdef]
        exact checkedDigits_neg lo hi hhi cs _ (fun x hx => hc x (List.mem_cons_of_mem _ hx)) (by omega)

theorem decFrom_natText (n : Nat) : decFrom 0 (natText n) = n := decVal_natText n

theorem natText_head_ne_minus (n : Nat) : (natText n).head? ≠ some '-' := by
  intro h
  have := natText_isDigit (n := n) (c := '-') (List.mem_of_mem_head? h)
  exact absurd this (by decide)

theorem parseI64_nat (n : Nat) :
    parseI64 (natText n) = if n ≤ 2 ^ 63 - 1 then .ok (n : Int) else .error "number too large to fit in target type".toList := by
  unfold parseI64
  split
  · rename_i ds he
    exact absurd (by rw [he]; rfl) (natText_head_ne_minus n)
  · have := checkedDigits_pos (-9223372036854775808) 9223372036854775807 (by decide) (natText n) 0 (fun c hc => natText_isDigit hc) (by decide)
    rw [decFrom_natText] at this
    exact this

theorem parseI64_neg (n : Nat) :
    parseI64 ('-' :: natText n) = if n ≤ 2 ^ 63 then .ok (-(n : Int)) else .error "number too small to fit in target type".toList := by
  have := checkedDigits_neg 9223372036854775808 9223372036854775807 (by decide) (natText n) 0 (fun c hc => natText_isDigit hc) (by decide)
  rw [decFrom_natText] at this
  exact this

theorem parseU64_nat (n : Nat) :
    parseU64 (natText n) = if n ≤ 2 ^ 64 - 1 then .ok (n : Int) else .error "number too large to fit in target type".toList := by
  have := checkedDigits_pos 0 18446744073709551615 (by decide) (natText n) 0 (fun c hc => natText_isDigit hc) (by decide)
  rw [decFrom_natText] at this
  exact this

theorem parseU64_neg (t : Text) : parseU64 ('-' :: t) = .error "invalid digit found in string".toList := rfl

/-! ### Integer literal tokens -/

theorem intLit_head {t : Text} {v : Nat} (h : IntLit t v) : ∃ c cs, t = c :: cs ∧ c.isDigit = true := by
  obtain ⟨pre, base, b, suf, n, hp, e, hD, _, h10⟩ := h
  simp only [basePrefixes, List.mem_cons, Prod.mk.injEq, List.not_mem_nil, or_false] at hp
  rcases hp with ⟨rfl, rfl⟩ | ⟨rfl, rfl⟩ | ⟨rfl, rfl⟩ | ⟨rfl, rfl⟩
  · cases b with
    | nil => exact absurd rfl (digits_ne_nil hD)
    | cons c b' =>
      refine ⟨c, b' ++ suf, e, ?_⟩
      rcases digits_mem hD c (by simp) with h | ⟨d, h⟩
      · subst h; exact absurd rfl (h10 rfl).1
      · exact (isDigit_iff c).mpr (digitIn10_range h)
  · exact ⟨'0', 'x' :: (b ++ suf), e, rfl⟩
  · exact ⟨'0', 'o' :: (b ++ suf), e, rfl⟩
  · exact ⟨'0', 'b' :: (b ++ suf), e, rfl⟩

theorem readIntDigits_digit {c : Char} {cs : Text} (h : c.isDigit = true) : readIntDigits (c :: cs) = (readNat (c :: cs)).map natText := by
  unfold readIntDigits
  split
  · rename_i he; injection he with he _; subst he; exact absurd h (by decide)
  · rfl

/-- Reading a literal token that starts with a digit. -/
theorem readLit_digit {c : Char} {cs : Text} (h : c.isDigit = true) :
    readLit (c :: cs) = (match readIntDigits (c :: cs) with
      | some d => some (.int d)
      | none => (readFloatDigits (c :: cs)).map .float) := by
  unfold readLit
  split <;> (try (rename_i he; injection he with he _; subst he; exact absurd h (by decide)))
  have hn : ¬ (c :: cs = "(/*ERROR*/)".toList) := by
    intro he
    injection he with he _
    subst he
    exact absurd h (by decide)
  rw [if_neg hn]
  cases readIntDigits (c :: cs) <;> rfl

theorem readLit_int {t : Text} {v : Nat} (h : IntLit t v) : readLit t = some (.int (natText v)) := by
  obtain ⟨c, cs, rfl, hc⟩ := intLit_head h
  rw [readLit_digit hc, readIntDigits_digit hc, (readNat_iff _ _).mpr h]
  rfl

/-! ### Escapes -/

theorem charOf_toNat (c : Char) : charOf c.toNat = some c := by
  unfold charOf
  have h : c.toNat.isValidChar := c.valid
  rw [dif_pos h]
  congr 1

theorem hexVal_digitChar {d : Nat} (h : d < 16) :
    hexVal (Nat.digitChar d) = some d ∧ Nat.digitChar d ≠ '}' ∧ Nat.digitChar d ≠ '_' := by
  have hd' : d = 0 ∨ d = 1 ∨ d = 2 ∨ d = 3 ∨ d = 4 ∨ d = 5 ∨ d = 6 ∨ d = 7 ∨ d = 8 ∨ d = 9 ∨ d = 10 ∨ d = 11 ∨ d = 12 ∨ d = 13 ∨
      d = 14 ∨ d = 15 := by omega
  rcases hd' with e | e | e | e | e | e | e | e | e | e | e | e | e | e | e | e <;> subst e <;> decide

theorem hexText_lt {n : Nat} (h : n < 16) : hexText n = [Nat.digitChar n] := by
  rw [hexText, Nat.toDigits_eq_if (by decide), if_pos h]

theorem hexText_ge {n : Nat} (h : 16 ≤ n) : hexText n = hexText (n / 16) ++ [Nat.digitChar (n % 16)] := by
  rw [hexText, Nat.toDigits_eq_if (by decide), if_neg (by omega)]
  rfl

theorem cookStr_uni_digit (a d : Nat) (h : d < 16) (X : Text) :
    cookStr (.uni a) (Nat.digitChar d :: X) = cookStr (.uni (16 * a + d)) X := by
  obtain ⟨h1, h2, h3⟩ := hexVal_digitChar h
  rw [cookStr, if_neg h2, if_neg h3, h1]
  rfl

theorem cookStr_hexText (n : Nat) : ∀ X, cookStr (.uni 0) (hexText n ++ X) = cookStr (.uni n) X := by
  induction n using Nat.strongRecOn with
  | _ n ih =>
    intro X
    by_cases h : n < 16
    · rw [hexText_lt h, List.singleton_append, cookStr_uni_digit 0 n h]
      simp
    · rw [hexText_ge (by omega), List.append_assoc, ih (n / 16) (by omega), List.singleton_append,
        cookStr_uni_digit _ _ (Nat.mod_lt _ (by decide))]
      congr 2
      omega

theorem cookUni_digit (a d : Nat) (h : d < 16) (X : Text) :
    cookOne.cookUni a (Nat.digitChar d :: X) = cookOne.cookUni (16 * a + d) X := by
  obtain ⟨h1, h2, h3⟩ := hexVal_digitChar h
  rw [cookOne.cookUni, if_neg h2, if_neg h3, h1]
  rfl

theorem cookUni_hexText (n : Nat) : ∀ X, cookOne.cookUni 0 (hexText n ++ X) = cookOne.cookUni n X := by
  induction n using Nat.strongRecOn with
  | _ n ih =>
    intro X
    by_cases h : n < 16
    · rw [hexText_lt h, List.singleton_append, cookUni_digit 0 n h]
      simp
    · rw [hexText_ge (by omega), List.append_assoc, ih (n / 16) (by omega), List.singleton_append,
        cookUni_digit _ _ (Nat.mod_lt _ (by decide))]
      congr 1
      omega

section
variable [Ext]

theorem escapeDebug_cases (c : Char) :
    (c = '\x00' ∧ escapeDebug c = "\\0".toList) ∨ (c = '\t' ∧ escapeDebug c = "\\t".toList) ∨
    (c = '\r' ∧ escapeDebug c = "\\r".toList) ∨ (c = '\n' ∧ escapeDebug c = "\\n".toList) ∨
    (c = '\'' ∧ escapeDebug c = "\\'".toList) ∨ (c = '"' ∧ escapeDebug c = "\\\"".toList) ∨
    (c = '\\' ∧ escapeDebug c = "\\\\".toList) ∨
    (escapeDebug c = '\\' :: 'u' :: '{' :: (hexText c.toNat ++ ['}'])) ∨
    (escapeDebug c = [c] ∧ c ≠ '\r' ∧ c ≠ '\'' ∧ c ≠ '"' ∧ c ≠ '\\' ∧ c ≠ '\n') := by
  unfold escapeDebug
  by_cases h0 : c = '\x00'
  · exact Or.inl ⟨h0, if_pos h0⟩
  rw [if_neg h0]
  by_cases h1 : c = '\t'
  · exact Or.inr (Or.inl ⟨h1, if_pos h1⟩)
  rw [if_neg h1]
  by_cases h2 : c = '\r'
  · exact Or.inr (Or.inr (Or.inl ⟨h2, if_pos h2⟩))
  rw [if_neg h2]
  by_cases h3 : c = '\n'
  · exact Or.inr (Or.inr (Or.inr (Or.inl ⟨h3, if_pos h3⟩)))
  rw [if_neg h3]
  by_cases h4 : c = '\''
  · exact Or.inr (Or.inr (Or.inr (Or.inr (Or.inl ⟨h4, if_pos h4⟩))))
  rw [if_neg h4]
  by_cases h5 : c = '"'
  · exact Or.inr (Or.inr (Or.inr (Or.inr (Or.inr (Or.inl ⟨h5, if_pos h5⟩)))))
  rw [if_neg h5]
  by_cases h6 : c = '\\'
  · exact Or.inr (Or.inr (Or.inr (Or.inr (Or.inr (Or.inr (Or.inl ⟨h6, if_pos h6⟩))))))
  rw [if_neg h6]
  refine Or.inr (Or.inr (Or.inr (Or.inr (Or.inr (Or.inr (Or.inr ?_))))))
  by_cases h7 : Ext.unprintable c = true
  · rw [if_pos h7]; exact Or.inl rfl
  · rw [if_neg h7]; exact Or.inr ⟨rfl, h2, h4, h5, h6, h3⟩

omit [Ext] in
/-- What `cookStr` does with one ordinary character. -/
theorem cookStr_plain {c : Char} (h1 : c ≠ '"') (h2 : c ≠ '\\') (h3 : c ≠ '\r') (X : Text) :
    cookStr .plain (c :: X) = (cookStr .plain X).map fun r => (c :: r.1, r.2) := by
  rw [cookStr, if_neg h1, if_neg h2, if_neg h3]

theorem cookStr_escapeDebug (c : Char) (X : Text) :
    cookStr .plain (escapeDebug c ++ X) = (cookStr .plain X).map fun r => (c :: r.1, r.2) := by
  rcases escapeDebug_cases c with ⟨hc, h⟩ | ⟨hc, h⟩ | ⟨hc, h⟩ | ⟨hc, h⟩ | ⟨hc, h⟩ | ⟨hc, h⟩ | ⟨hc, h⟩ | h | ⟨h, h1, _, h3, h4, _⟩
  any_goals (rw [h, hc]; rfl)
  · rw [h]
    have e : ('\\' :: 'u' :: '{' :: (hexText c.toNat ++ ['}'])) ++ X = '\\' :: 'u' :: '{' :: (hexText c.toNat ++ '}' :: X) := by simp
    rw [e]
    have e2 : cookStr .plain ('\\' :: 'u' :: '{' :: (hexText c.toNat ++ '}' :: X)) = cookStr (.uni 0) (hexText c.toNat ++ '}' :: X) := rfl
    rw [e2, cookStr_hexText, cookStr, if_pos rfl, charOf_toNat]
    rfl
  · rw [h, List.singleton_append, cookStr_plain h3 h4 h1]

theorem cookStr_escapeUtf8Char (c : Char) (next : Option Char) (X : Text) :
    cookStr .plain (escapeUtf8Char c next ++ X) = (cookStr .plain X).map fun r => (c :: r.1, r.2) := by
  unfold escapeUtf8Char
  by_cases h0 : c = '\x00'
  · rw [if_pos h0, h0]
    cases next with
    | none => rfl
    | some d =>
      simp only []
      by_cases hd : '0' ≤ d ∧ d ≤ '7'
      · rw [if_pos hd]; rfl
      · rw [if_neg hd]; rfl
  · rw [if_neg h0]
    by_cases h1 : c = '\''
    · rw [if_pos h1, h1]
      rfl
    · rw [if_neg h1]
      exact cookStr_escapeDebug c X

theorem cookStr_escapeUtf8 : ∀ (t : Text) (rest : Text), cookStr .plain (escapeUtf8 t ++ '"' :: rest) = some (t, rest)
  | [], rest => by rw [escapeUtf8, List.nil_append, cookStr, if_pos rfl]
  | c :: cs, rest => by
    rw [escapeUtf8, List.append_assoc, cookStr_escapeUtf8Char, cookStr_escapeUtf8 cs rest]
    rfl

theorem readLit_string (t : Text) : readLit (stringLiteral t) = some (.str t) := by
  have : readLit (stringLiteral t) = (cookStr .plain (escapeUtf8 t ++ ['"'])).map fun r => .str r.1 := rfl
  rw [this, cookStr_escapeUtf8]
  rfl

omit [Ext] in
theorem cookOne_plain {c : Char} (h : c ≠ '\\') (X : Text) : cookOne (c :: X) = some (c, X) := by
  unfold cookOne
  split
  · rename_i he; injection he with he _; exact absurd he h
  · rename_i he; injection he with he _; exact absurd he h
  · rename_i he; injection he with he _; exact absurd he h
  · rename_i c' cs' _ _ _ he
    injection he with h1 h2
    subst h1 h2
    rw [if_neg h]
  · rename_i he; cases he

theorem readLit_char (c : Char) : readLit (charLiteral c) = some (.char c) := by
  have key : ∀ X, cookOne ((if c = '"' then [c] else escapeDebug c) ++ '\'' :: X) = some (c, '\'' :: X) := by
    intro X
    by_cases hq : c = '"'
    · rw [if_pos hq, hq]; rfl
    · rw [if_neg hq]
      rcases escapeDebug_cases c with ⟨hc, h⟩ | ⟨hc, h⟩ | ⟨hc, h⟩ | ⟨hc, h⟩ | ⟨hc, h⟩ | ⟨hc, h⟩ | ⟨hc, h⟩ | h | ⟨h, h1, _, h3, h4, _⟩
      any_goals (rw [h, hc]; rfl)
      · rw [h]
        have e : ('\\' :: 'u' :: '{' :: (hexText c.toNat ++ ['}'])) ++ '\'' :: X = '\\' :: 'u' :: '{' :: (hexText c.toNat ++ '}' :: '\'' :: X) := by simp
        rw [e]
        have e2 : cookOne ('\\' :: 'u' :: '{' :: (hexText c.toNat ++ '}' :: '\'' :: X)) = cookOne.cookUni 0 (hexText c.toNat ++ '}' :: '\'' :: X) := by
          cases hexText c.toNat <;> rfl
        rw [e2, cookUni_hexText, cookOne.cookUni, if_pos rfl, charOf_toNat]
        rfl
      · rw [h, List.singleton_append, cookOne_plain h4]
  have e : readLit (charLiteral c) =
      (cookOne ((if c = '"' then [c] else escapeDebug c) ++ ['\''])).bind fun r => if r.2.head? = some '\'' then some (.char r.1) else none := rfl
  rw [e, key]
  rfl
end

theorem hexUpper_val (k : Fin 16) : hexVal (hexUpper k.val) = some k.val := by revert k; decide

theorem cookBytes_escapeByte (b : Byte) (next : Option Byte) (X : Text) :
    cookBytes .plain (escapeByte b next ++ X) = (cookBytes .plain X).map fun r => (b :: r.1, r.2) := by
  have fix : ∀ k : Nat, (hk : k < 256) → b.val = k → b = ⟨k, hk⟩ := fun k hk h => Fin.ext h
  unfold escapeByte
  by_cases h0 : b.val = 0
  · rw [if_pos h0, fix 0 (by decide) h0]
    cases next with
    | none => rfl
    | some d =>
      simp only []
      by_cases hd : 48 ≤ d.val ∧ d.val ≤ 55
      · rw [if_pos hd]; rfl
      · rw [if_neg hd]; rfl
  rw [if_neg h0]
  by_cases h1 : b.val = 9
  · rw [if_pos h1, fix 9 (by decide) h1]; rfl
  rw [if_neg h1]
  by_cases h2 : b.val = 10
  · rw [if_pos h2, fix 10 (by decide) h2]; rfl
  rw [if_neg h2]
  by_cases h3 : b.val = 13
  · rw [if_pos h3, fix 13 (by decide) h3]; rfl
  rw [if_neg h3]
  by_cases h4 : b.val = 34
  · rw [if_pos h4, fix 34 (by decide) h4]; rfl
  rw [if_neg h4]
  by_cases h5 : b.val = 92
  · rw [if_pos h5, fix 92 (by decide) h5]; rfl
  rw [if_neg h5]
  by_cases h6 : 32 ≤ b.val ∧ b.val ≤ 126
  · rw [if_pos h6, List.singleton_append]
    have hn : (Char.ofNat b.val).toNat = b.val := by
      have : b.val.isValidChar := Or.inl (by omega)
      simp [Char.ofNat, this, Char.toNat, Char.ofNatAux, UInt32.toNat]
    have hne : ∀ c : Char, c.toNat ≠ b.val → Char.ofNat b.val ≠ c := by
      intro c hc he; rw [← he, hn] at hc; exact hc rfl
    rw [cookBytes, if_neg (hne '"' (by intro h; exact h4 h.symm)), if_neg (hne '\\' (by intro h; exact h5 h.symm)),
      if_neg (hne '\r' (by intro h; exact h3 h.symm))]
    have hb : byteOfChar (Char.ofNat b.val) = some b := by
      unfold byteOfChar
      rw [dif_pos (by rw [hn]; exact b.isLt)]
      congr 1
      exact Fin.ext hn
    rw [hb]
    rfl
  rw [if_neg h6]
  have e1 : cookBytes .plain (['\\', 'x', hexUpper (b.val / 16), hexUpper (b.val % 16)] ++ X)
      = (hexVal (hexUpper (b.val / 16))).bind fun h => cookBytes (.hex2 h) (hexUpper (b.val % 16) :: X) := rfl
  have hq : b.val / 16 < 16 := by have := b.isLt; omega
  have hr : b.val % 16 < 16 := Nat.mod_lt _ (by decide)
  rw [e1, hexUpper_val ⟨b.val / 16, hq⟩]
  have e2 : cookBytes (.hex2 (b.val / 16)) (hexUpper (b.val % 16) :: X)
      = (hexVal (hexUpper (b.val % 16))).bind fun lo => (cookBytes .plain X).map fun r => (Fin.ofNat 256 (16 * (b.val / 16) + lo) :: r.1, r.2) := rfl
  show cookBytes (.hex2 (b.val / 16)) (hexUpper (b.val % 16) :: X) = _
  rw [e2, hexUpper_val ⟨b.val % 16, hr⟩]
  have e3 : Fin.ofNat 256 (16 * (b.val / 16) + b.val % 16) = b := by
    apply Fin.ext
    show (16 * (b.val / 16) + b.val % 16) % 256 = b.val
    have := b.isLt
    omega
  show (cookBytes .plain X).map (fun r => (Fin.ofNat 256 (16 * (b.val / 16) + b.val % 16) :: r.1, r.2)) = _
  rw [e3]

theorem cookBytes_escapeBytes : ∀ (t : List Byte) (rest : Text), cookBytes .plain (escapeBytes t ++ '"' :: rest) = some (t, rest)
  | [], rest => by rw [escapeBytes, List.nil_append, cookBytes, if_pos rfl]
  | b :: bs, rest => by
    rw [escapeBytes, List.append_assoc, cookBytes_escapeByte, cookBytes_escapeBytes bs rest]
    rfl

theorem readLit_byteString (t : List Byte) : readLit (byteStringLiteral t) = some (.byteStr t) := by
  have : readLit (byteStringLiteral t) = (cookBytes .plain (escapeBytes t ++ ['"'])).map fun r => .byteStr r.1 := rfl
  rw [this, cookBytes_escapeBytes]
  rfl

/-! ### Floating point text -/

theorem intLoop_dot : ∀ (a : Text), (∀ c ∈ a, c.isDigit = true) → ∀ (acc : Nat) (seen : Bool) (X : Text),
    intLoop 10 acc seen (a ++ '.' :: X) = none
  | [], _, acc, seen, X => by
    rw [List.nil_append, intLoop, if_neg (by decide), if_pos ⟨rfl, Or.inl rfl⟩]
  | c :: cs, h, acc, seen, X => by
    have hd := (isDigit_iff c).mp (h c (by simp))
    have hlt : c.toNat - '0'.toNat < 10 := by
      have h2 := hd.2
      rw [char_le_iff] at h2
      have e0 : '0'.toNat = 48 := rfl
      have e9 : '9'.toNat = 57 := rfl
      omega
    rw [List.cons_append, intLoop_digit (Or.inr (Or.inr (Or.inl rfl))) (digitIn_of_hexVal (hexVal_digit hd) hlt)]
    exact intLoop_dot cs (fun x hx => h x (List.mem_cons_of_mem _ hx)) _ _ X

theorem readNat_dot {d : Char} {a : Text} (ha : ∀ c ∈ d :: a, c.isDigit = true) (X : Text) : readNat (d :: a ++ '.' :: X) = none := by
  have h10 := intLoop_dot (d :: a) ha 0 false X
  have nx : ∀ y ys, a ++ '.' :: X = y :: ys → y ≠ 'x' ∧ y ≠ 'o' ∧ y ≠ 'b' := by
    intro y ys h
    cases a with
    | nil => injection h with h _; subst h; decide
    | cons e es =>
      injection h with h _; subst h
      have := ha e (by simp)
      refine ⟨?_, ?_, ?_⟩ <;> (rintro rfl; exact absurd this (by decide))
  unfold readNat
  split
  · rename_i he; injection he with _ he; exact absurd rfl (nx _ _ he).1
  · rename_i he; injection he with _ he; exact absurd rfl (nx _ _ he).2.1
  · rename_i he; injection he with _ he; exact absurd rfl (nx _ _ he).2.2
  · rename_i c' b' _ _ _ he
    rw [← he, if_pos]
    · have h10' : intLoop 10 0 false (d :: a ++ '.' :: X) = none := h10
      simp only []
      rw [h10']
    · injection he with he _
      subst he
      exact (isDigit_iff _).mp (ha _ (by simp))
  · rfl

theorem floatLoop_digits : ∀ (a : Text), (∀ c ∈ a, c.isDigit = true) → ∀ (fl : FloatFlags) (X : Text), fl.e = false →
    floatLoop fl (a ++ X) = (floatLoop fl X).map fun r => (a ++ r.1, r.2)
  | [], _, fl, X, _ => by
    rw [List.nil_append]
    cases floatLoop fl X <;> rfl
  | c :: cs, h, fl, X, he => by
    have hc := h c (by simp)
    have hu : c ≠ '_' := by rintro rfl; exact absurd hc (by decide)
    rw [List.cons_append, floatLoop, if_neg hu, if_pos hc]
    have e : ({ fl with exponent := fl.exponent || fl.e } : FloatFlags) = fl := by cases fl; simp_all
    rw [e, floatLoop_digits cs (fun x hx => h x (List.mem_cons_of_mem _ hx)) fl X he]
    cases floatLoop fl X <;> rfl

theorem floatLoop_decimal {a b : Text} (ha : ∀ c ∈ a, c.isDigit = true) (hb : ∀ c ∈ b, c.isDigit = true) :
    floatLoop ⟨false, false, false, false⟩ (a ++ '.' :: b) = some (a ++ '.' :: b, ⟨true, false, false, false⟩, []) := by
  have h1 : floatLoop ⟨false, false, false, false⟩ ('.' :: b) = (floatLoop ⟨true, false, false, false⟩ b).map fun r => ('.' :: r.1, r.2) := by
    rw [floatLoop]
    rfl
  have h2 := floatLoop_digits b hb ⟨true, false, false, false⟩ [] rfl
  rw [List.append_nil] at h2
  rw [floatLoop_digits a ha _ _ rfl, h1, h2]
  simp [floatLoop]

theorem readFloat_decimal {d : Char} {a b : Text} (ha : ∀ c ∈ d :: a, c.isDigit = true) (hb : ∀ c ∈ b, c.isDigit = true) :
    readFloatDigits (d :: a ++ '.' :: b) = some (d :: a ++ '.' :: b) ∧
    readFloatDigits ('-' :: (d :: a ++ '.' :: b)) = some ('-' :: (d :: a ++ '.' :: b)) := by
  have hf := floatLoop_decimal ha hb
  have hd : d.isDigit = true := ha d (by simp)
  have go : (match d :: a ++ '.' :: b with
    | c :: _ =>
      if c.isDigit then
        match floatLoop ⟨false, false, false, false⟩ (d :: a ++ '.' :: b) with
        | some (digits, fl, suffix) => if (fl.e && !fl.exponent) || !suffixOk suffix then none else some digits
        | none => none
      else none
    | [] => none) = some (d :: a ++ '.' :: b) := by
    simp only [List.cons_append, hd, if_true]
    rw [List.cons_append] at hf
    rw [hf]
    simp [suffixOk]
  constructor
  · unfold readFloatDigits
    split
    · rename_i he
      injection he with he _
      subst he
      exact absurd hd (by decide)
    · exact go
  · show Option.map _ (match d :: a ++ '.' :: b with
    | c :: _ =>
      if c.isDigit then
        match floatLoop ⟨false, false, false, false⟩ (d :: a ++ '.' :: b) with
        | some (digits, fl, suffix) => if (fl.e && !fl.exponent) || !suffixOk suffix then none else some digits
        | none => none
      else none
    | [] => none) = _
    rw [go]
    rfl

/-! ### Literals in a stream -/

theorem synLit_lit {s : PState} {repr : Text} {sp : Span} {rest : List TT} {l : SynLit} (h : Next s.cur (.lit repr sp) rest)
    (hl : readLit repr = some l) : synLitParse s = .ok (.lit l, sp) { s with cur := rest } := by
  rw [synLitParse, (uncons_iff _ _ _).mpr h]
  simp only [hl]

theorem synLit_minus {s : PState} {spc : Spacing} {sp1 sp2 : Span} {rest1 rest : List TT} {repr : Text}
    (h1 : Next s.cur (.punct '-' spc sp1) rest1) (h2 : Next rest1 (.lit repr sp2) rest) :
    synLitParse s = (match readIntDigits ('-' :: repr) with
      | some d => .ok (.lit (.int d), sp1.join sp2) { s with cur := rest }
      | none =>
        match readFloatDigits ('-' :: repr) with
        | some d => .ok (.lit (.float d), sp1.join sp2) { s with cur := rest }
        | none => .err (s.error "expected literal".toList)) := by
  rw [synLitParse, (uncons_iff _ _ _).mpr h1]
  simp only []
  rw [(uncons_iff _ _ _).mpr h2]
  simp only []
  cases readIntDigits ('-' :: repr) with
  | some d => rfl
  | none => cases readFloatDigits ('-' :: repr) <;> rfl

theorem readIntDigits_minus {t : Text} {n : Nat} (h : IntLit t n) : readIntDigits ('-' :: t) = some ('-' :: natText n) := by
  show (readNat t).map _ = _
  rw [(readNat_iff _ _).mpr h]
  rfl

theorem readIntDigits_some {t d : Text} (h : readIntDigits t = some d) :
    (∃ n, IntLit t n ∧ d = natText n) ∨ (∃ body n, t = '-' :: body ∧ IntLit body n ∧ d = '-' :: natText n) := by
  unfold readIntDigits at h
  split at h
  · rename_i body
    cases hr : readNat body with
    | none => rw [hr] at h; exact absurd h (by simp)
    | some n =>
      rw [hr] at h
      injection h with h
      exact Or.inr ⟨body, n, rfl, (readNat_iff _ _).mp hr, h.symm⟩
  · rename_i hr0
    cases hr : readNat t with
    | none => rw [hr] at h; exact absurd h (by simp)
    | some n =>
      rw [hr] at h
      injection h with h
      exact Or.inl ⟨n, (readNat_iff _ _).mp hr, h.symm⟩

theorem readLit_some_int {t d : Text} (h : readLit t = some (.int d)) : readIntDigits t = some d := by
  unfold readLit at h
  split at h
  · rename_i cs; cases hr : cookStr .plain cs <;> rw [hr] at h <;> simp at h
  · rename_i cs; cases hr : rawBody cs <;> rw [hr] at h <;> simp at h
  · rename_i cs; cases hr : cookBytes .plain cs <;> rw [hr] at h <;> simp at h
  · rename_i cs
    cases hr : rawBody cs with
    | none => rw [hr] at h; simp at h
    | some b => rw [hr] at h; simp only [Option.bind_some] at h; cases hm : b.mapM byteOfChar <;> rw [hm] at h <;> simp at h
  · rename_i cs
    cases hr : cookOne cs with
    | none => rw [hr] at h; simp at h
    | some r =>
      rw [hr] at h
      simp only [Option.bind_some] at h
      split at h
      · cases hm : byteOfChar r.1 <;> rw [hm] at h <;> simp at h
      · simp at h
  · simp at h
  · rename_i cs
    cases hr : cookOne cs with
    | none => rw [hr] at h; simp at h
    | some r =>
      rw [hr] at h
      simp only [Option.bind_some] at h
      split at h <;> simp at h
  · split at h
    · simp at h
    · split at h
      · rename_i d' he
        injection h with h; injection h with h; subst h
        exact he
      · cases hr : readFloatDigits t <;> rw [hr] at h <;> simp at h

theorem readLit_minus {t : Text} {n : Nat} (h : IntLit t n) : readLit ('-' :: t) = some (.int ('-' :: natText n)) := by
  have e : readLit ('-' :: t) = (if ('-' :: t : Text) = "(/*ERROR*/)".toList then some .verbatim
    else
      match readIntDigits ('-' :: t) with
      | some d => some (.int d)
      | none => (readFloatDigits ('-' :: t)).map .float) := rfl
  have hne : ¬ (('-' :: t : Text) = "(/*ERROR*/)".toList) := by
    intro he; injection he with he _; exact absurd he (by decide)
  rw [e, if_neg hne, readIntDigits_minus h]

/-- The digits of an integer literal as the standard library's parsers get them. -/
def signedDigits (neg : Bool) (n : Nat) : Text := if neg then '-' :: natText n else natText n

theorem synInt_of_intAt {s : PState} {neg : Bool} {n : Nat} {sp : Span} {rest : List TT} (h : IntAt s.cur neg n sp rest) :
    synLitParse s = .ok (.lit (.int (signedDigits neg n)), sp) { s with cur := rest } := by
  cases h with
  | plain h1 h2 => exact synLit_lit h1 (readLit_int h2)
  | minus h1 h2 h3 => rw [synLit_minus h1 h2, readIntDigits_minus h3]; rfl
  | inside h1 h2 => exact synLit_lit h1 (readLit_minus h2)

theorem intAt_of_synInt {s s' : PState} {d : Text} {sp : Span} (h : synLitParse s = .ok (.lit (.int d), sp) s') :
    ∃ neg n rest, IntAt s.cur neg n sp rest ∧ d = signedDigits neg n ∧ s' = { s with cur := rest } := by
  unfold synLitParse at h
  split at h
  · rename_i repr sp' rest hu
    split at h
    · rename_i l hl
      injection h with h1 h2
      injection h1 with h1 h3
      injection h1 with h1
      subst h1 h2 h3
      rcases readIntDigits_some (readLit_some_int hl) with ⟨n, hn, hd⟩ | ⟨body, n, hb, hn, hd⟩
      · exact ⟨false, n, rest, .plain ((uncons_iff _ _ _).mp hu) hn, hd, rfl⟩
      · subst hb
        exact ⟨true, n, rest, .inside ((uncons_iff _ _ _).mp hu) hn, hd, rfl⟩
    · exact absurd h (by simp)
  · split at h
    · injection h with h1 h2; injection h1 with h1 _; exact absurd h1 (by simp)
    · split at h
      · injection h with h1 h2; injection h1 with h1 _; exact absurd h1 (by simp)
      · exact absurd h (by simp)
  · rename_i spc sp1 rest1 hu
    split at h
    · rename_i repr sp2 rest2 hu2
      split at h
      · rename_i d' hd'
        injection h with h1 h2
        injection h1 with h1 h3
        injection h1 with h1
        injection h1 with h1
        subst h1 h2 h3
        have : ∃ n, IntLit repr n ∧ d' = '-' :: natText n := by
          have e : readIntDigits ('-' :: repr) = (readNat repr).map fun n => '-' :: natText n := rfl
          rw [e] at hd'
          cases hr : readNat repr with
          | none => rw [hr] at hd'; exact absurd hd' (by simp)
          | some n => rw [hr] at hd'; injection hd' with hd'; exact ⟨n, (readNat_iff _ _).mp hr, hd'.symm⟩
        obtain ⟨n, hn, hd⟩ := this
        exact ⟨true, n, rest2, .minus ((uncons_iff _ _ _).mp hu) ((uncons_iff _ _ _).mp hu2) hn, hd, rfl⟩
      · split at h
        · injection h with h1 h2; injection h1 with h1 _; injection h1 with h1; exact absurd h1 (by simp)
        · exact absurd h (by simp)
    · exact absurd h (by simp)
  · exact absurd h (by simp)

theorem synIntParse_ok {s s' : PState} {d : Text} {sp : Span} :
    synIntParse s = .ok (d, sp) s' ↔ synLitParse s = .ok (.lit (.int d), sp) s' := by
  unfold synIntParse synKindParse
  cases h : synLitParse s with
  | ok a s1 =>
    obtain ⟨l, sp1⟩ := a
    simp only []
    cases l with
    | bool b => simp
    | lit l => cases l <;> simp
  | err e => simp
  | panic => simp
  | oof => simp

end Parsel
