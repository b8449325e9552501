import Verif.Model.Convert
import Verif.Props.Literal

/-!
C67: conversions to the literal types of `syn` and back.
-/

namespace Parsel

open Spec

section
variable [Ext]

omit [Ext] in
theorem readInt_intLiteral (v : Int) : readIntDigits (intLiteral v) = some (intLiteral v) := by
  have hn : ∀ n, readIntDigits (natText n) = some (natText n) := by
    intro n
    obtain ⟨c, cs, he, hc⟩ := intLit_head (intLit_natText n)
    have := readIntDigits_digit (cs := cs) hc
    rw [← he, (readNat_iff _ _).mpr (intLit_natText n)] at this
    exact this
  cases v with
  | ofNat n => exact hn n
  | negSucc n => exact readIntDigits_minus (intLit_natText (n + 1))

omit [Ext] in
theorem litIntToSyn_eq (v : Int) (sp : Span) : litIntToSyn v sp = some (intLiteral v, sp) := by rw [litIntToSyn, readInt_intLiteral]; rfl

omit [Ext] in
theorem litUintToSyn_eq (v : Nat) (sp : Span) : litUintToSyn v sp = some (natText v, sp) := by
  have := readInt_intLiteral (v : Int)
  rw [litUintToSyn]
  rw [show intLiteral (v : Int) = natText v from rfl] at this
  rw [this]; rfl

/-- **C67** (integers). `syn::LitInt::from(lit)` never panics and keeps the location; converted back, as `LitInt` it is the same number; as `LitUint`
it is the same number, too, if that is not negative, and otherwise an error at that location. -/
theorem C67_int {v : Int} (hv : InI64 v) (sp : Span) : ∃ d, litIntToSyn v sp = some (d, sp) ∧ litIntOf d sp = .ok v ∧
    (∀ n : Nat, litUintOf d sp = .ok n ↔ v = n) ∧ (v < 0 → ∃ msg, litUintOf d sp = .error ⟨sp, msg⟩) := by
  refine ⟨_, litIntToSyn_eq v sp, ?_, ?_, ?_⟩
  · unfold InI64 at hv
    cases v with
    | ofNat n =>
      have := parseI64_nat n
      rw [if_pos (by simp at hv; omega)] at this
      simp only [litIntOf, intLiteral, this]; rfl
    | negSucc n =>
      have := parseI64_neg (n + 1)
      rw [if_pos (by simp at hv; omega)] at this
      simp only [litIntOf, intLiteral, this]; rfl
  · intro m
    unfold InI64 at hv
    cases v with
    | ofNat n =>
      have := parseU64_nat n
      rw [if_pos (by simp at hv; omega)] at this
      simp only [litUintOf, intLiteral, this, Except.ok.injEq, Int.toNat_natCast]
      constructor
      · rintro rfl; rfl
      · intro h; exact Int.ofNat.inj h
    | negSucc n =>
      simp only [litUintOf, intLiteral, parseU64_neg, reduceCtorEq]
  · intro h
    cases v with
    | ofNat n => exact absurd h (by simp)
    | negSucc n => exact ⟨_, rfl⟩

/-- **C67** (unsigned integers), likewise; as `LitInt` it is the same number if that is in the range of `i64`, and otherwise an error. -/
theorem C67_uint {v : Nat} (hv : InU64 v) (sp : Span) : ∃ d, litUintToSyn v sp = some (d, sp) ∧ litUintOf d sp = .ok v ∧
    (∀ i : Int, litIntOf d sp = .ok i ↔ i = v ∧ InI64 i) ∧ (¬ InI64 v → ∃ msg, litIntOf d sp = .error ⟨sp, msg⟩) := by
  refine ⟨_, litUintToSyn_eq v sp, ?_, ?_, ?_⟩
  · have := parseU64_nat v
    unfold InU64 at hv
    rw [if_pos (by omega)] at this
    simp only [litUintOf, this, Int.toNat_natCast]
  · intro i
    have := parseI64_nat v
    by_cases h : v ≤ 2 ^ 63 - 1
    · rw [if_pos h] at this
      simp only [litIntOf, this, Except.ok.injEq]
      constructor
      · rintro rfl; exact ⟨rfl, by unfold InI64; omega⟩
      · rintro ⟨rfl, _⟩; rfl
    · rw [if_neg h] at this
      simp only [litIntOf, this, reduceCtorEq, false_iff]
      rintro ⟨rfl, hi⟩
      unfold InI64 at hi
      omega
  · intro h
    have := parseI64_nat v
    rw [if_neg (by unfold InI64 at h; omega)] at this
    simp only [litIntOf, this]
    exact ⟨_, rfl⟩

theorem litFloatToSyn_eq (laws : FloatLaws) {x : Ext.F} (hx : Ext.finite x = true) (sp : Span) : ∃ d, litFloatToSyn x sp = some (d, sp) ∧ Ext.floatOf d = some x ∧
    floatLiteral x = some d := by
  obtain ⟨neg, c, a, b, ha, hb, ht, hf⟩ := floatLiteral_shape laws x hx
  obtain ⟨hr1, hr2⟩ := readFloat_decimal ha hb
  refine ⟨_, ?_, hf, ht⟩
  rw [litFloatToSyn, ht]
  cases neg with
  | false => simp only [Bool.false_eq_true, if_false, List.nil_append, Option.bind_some, hr1]; rfl
  | true => simp only [if_true, List.singleton_append, Option.bind_some, hr2]; rfl

/-- **C67** (floating point numbers). `syn::LitFloat::from(lit)` panics exactly if the number is infinite; otherwise it keeps the location, and
converted back it is the same number. -/
theorem C67_float (laws : FloatLaws) (x : Ext.F) (sp : Span) : (litFloatToSyn x sp = none ↔ Ext.finite x = false) ∧
    (Ext.finite x = true → ∃ d, litFloatToSyn x sp = some (d, sp) ∧ litFloatOf d sp = .ok x) := by
  constructor
  · constructor
    · intro h
      cases hf : Ext.finite x with
      | false => rfl
      | true => obtain ⟨d, h1, _⟩ := litFloatToSyn_eq laws hf sp; rw [h] at h1; cases h1
    · intro h
      simp [litFloatToSyn, floatLiteral, h]
  · intro h
    obtain ⟨d, h1, h2, _⟩ := litFloatToSyn_eq laws h sp
    exact ⟨d, h1, by rw [litFloatOf, h2]⟩

/-- What becomes of a `Lit` by converting it to a `syn::Lit` and back: an integer that is not negative becomes unsigned. -/
def Spec.unsignedIfNat : LitVal → LitVal
  | .int (.ofNat n) => .uint n
  | l => l

/-- **C67** (`Lit`). `syn::Lit::from(lit)` panics exactly if it is an infinite floating point number (bytes aside).  Otherwise it keeps the location, and
`Lit::try_from` gives the literal back; only, an integer that is not negative comes back as the unsigned integer of the same value. -/
theorem C67_lit (laws : FloatLaws) {byteNew : Byte → Option Byte} (hb : ∀ b, byteNew b = some b) {l : LitVal} (hr : Spec.LitVal.InRange l) (sp : Span) :
    (litToSyn byteNew l sp = none ↔ ¬ Spec.LitVal.Finite l) ∧
    (Spec.LitVal.Finite l → ∃ t, litToSyn byteNew l sp = some (t, sp) ∧ litTryFrom t sp = .ok (unsignedIfNat l)) := by
  have fin : ∀ {l : LitVal} {t : SynTok}, litToSyn byteNew l sp = some (t, sp) → Spec.LitVal.Finite l → litTryFrom t sp = .ok (unsignedIfNat l) →
      (litToSyn byteNew l sp = none ↔ ¬ Spec.LitVal.Finite l) ∧
      (Spec.LitVal.Finite l → ∃ t, litToSyn byteNew l sp = some (t, sp) ∧ litTryFrom t sp = .ok (unsignedIfNat l)) := by
    intro l t h1 h2 h3
    exact ⟨by simp [h1, h2], fun _ => ⟨t, h1, h3⟩⟩
  cases l with
  | bool b => exact fin (t := .bool b) rfl trivial rfl
  | byte b => exact fin (t := .lit (.byte b)) (by simp [litToSyn, hb]) trivial rfl
  | int v =>
    obtain ⟨d, h1, h2, h3, _⟩ := C67_int (show InI64 v from hr) sp
    have hd : d = intLiteral v := by have := litIntToSyn_eq v sp; rw [h1] at this; simpa using this
    refine fin (t := .lit (.int d)) (by simp [litToSyn, h1]) trivial ?_
    subst hd
    cases v with
    | ofNat n =>
      simp only [litTryFrom]
      rw [if_neg (show (intLiteral (Int.ofNat n)).head? ≠ some '-' from natText_head_ne_minus n), (h3 n).mpr rfl]
      rfl
    | negSucc n =>
      simp only [litTryFrom]
      rw [if_pos (show (intLiteral (Int.negSucc n)).head? = some '-' from rfl), h2]
      rfl
  | uint v =>
    obtain ⟨d, h1, h2, _, _⟩ := C67_uint (show InU64 v from hr) sp
    have hd : d = natText v := by have := litUintToSyn_eq v sp; rw [h1] at this; simpa using this
    refine fin (t := .lit (.int d)) (by simp [litToSyn, h1]) trivial ?_
    subst hd
    simp only [litTryFrom]
    rw [if_neg (natText_head_ne_minus v), h2]
    rfl
  | float x =>
    obtain ⟨h1, h2⟩ := C67_float laws x sp
    constructor
    · simp only [litToSyn, Option.map_eq_none_iff, h1, Spec.LitVal.Finite]; simp
    · intro hf
      obtain ⟨d, h3, h4⟩ := h2 hf
      exact ⟨.lit (.float d), by simp [litToSyn, h3], by simp only [litTryFrom, h4]; rfl⟩
  | char c => exact fin (t := .lit (.char c)) (by simp [litToSyn, readLit_char]) trivial rfl
  | str t => exact fin (t := .lit (.str t)) (by simp [litToSyn, readLit_string]) trivial rfl
  | byteStr t => exact fin (t := .lit (.byteStr t)) (by simp [litToSyn, readLit_byteString]) trivial rfl

/-- **C67** (conversion and tokens agree). Converting a literal node to a `syn` literal gives the same as printing it and reading the tokens with `syn`'s
parser, locations included (bytes aside). -/
theorem C67_same_as_tokens (laws : FloatLaws) {byteNew : Byte → Option Byte} {l : LitVal} (hnb : ∀ b, l ≠ .byte b) {sp : Span} {toks : List TT} (h : litToTokens l sp = some toks)
    (s : PState) (rest : List TT) (hs : s.cur = toks ++ rest) :
    ∃ t, litToSyn byteNew l sp = some (t, sp) ∧ synLitParse s = .ok (t, sp) { s with cur := rest } := by
  have one : ∀ {r : Text} {t : SynLit}, r.head? ≠ some '-' → readLit r = some t → toks = pushLiteral r sp → synLitParse s = .ok (.lit t, sp) { s with cur := rest } := by
    intro r t h1 h2 h3
    rw [pushLiteral_plain h1] at h3
    exact synLit_lit (by rw [hs, h3]; exact next_cons (by simp) _) h2
  cases l with
  | bool b =>
    refine ⟨.bool b, rfl, ?_⟩
    simp only [litToTokens, Option.some.injEq] at h
    subst h
    have hn := (uncons_iff _ _ _).mpr (next_cons (t := .ident (if b then "true".toList else "false".toList) sp) (by simp) rest)
    rw [synLitParse, hs, List.singleton_append, hn]
    cases b with
    | true => rfl
    | false => rfl
  | byte b => exact absurd rfl (hnb b)
  | int v =>
    refine ⟨.lit (.int (intLiteral v)), by simp [litToSyn, litIntToSyn_eq], ?_⟩
    simp only [litToTokens, Option.some.injEq] at h
    have := synInt_of_intAt (s := s) (neg := decide (v < 0)) (n := v.natAbs) (sp := sp) (rest := rest) (by rw [hs, ← h]; exact intAt_printed v sp rest)
    rw [this]
    have e : signedDigits (decide (v < 0)) v.natAbs = intLiteral v := by
      cases v with
      | ofNat n => simp [signedDigits, intLiteral]
      | negSucc n => simp [signedDigits, intLiteral]
    rw [e]
  | uint v =>
    refine ⟨.lit (.int (natText v)), by simp [litToSyn, litUintToSyn_eq], ?_⟩
    simp only [litToTokens, Option.some.injEq] at h
    exact one (natText_head_ne_minus v) (readLit_int (intLit_natText v)) h.symm
  | float x =>
    have hf : Ext.finite x = true := by
      cases hf : Ext.finite x with
      | true => rfl
      | false => simp [litToTokens, floatLiteral, hf] at h
    obtain ⟨d, h1, h2, h3⟩ := litFloatToSyn_eq laws hf sp
    refine ⟨.lit (.float d), by simp [litToSyn, h1], ?_⟩
    simp only [litToTokens, h3, Option.map_some, Option.some.injEq] at h
    obtain ⟨toks', e1, e2⟩ := C36_float laws x hf sp s rest
    simp only [litToTokens, h3, Option.map_some, Option.some.injEq] at e1
    obtain ⟨d', e3, _⟩ := litFloatParse_ok.mp (e2 (by rw [hs, ← h, e1]))
    rw [e3]
    obtain ⟨neg, c, a, b, ha, hb, ht, _⟩ := floatLiteral_shape laws x hf
    rw [h3] at ht
    injection ht with ht
    have hd : c.isDigit = true := ha c (by simp)
    obtain ⟨hr1, hr2⟩ := readFloat_decimal ha hb
    have hnat := readNat_dot ha b
    cases neg with
    | false =>
      simp only [Bool.false_eq_true, if_false, List.nil_append] at ht
      rw [List.cons_append] at hnat hr1 ht
      have hl : readLit d = some (.float d) := by
        rw [ht, readLit_digit hd, readIntDigits_digit hd, hnat, hr1]; rfl
      have := one (by rw [ht]; intro he; injection he with he; subst he; exact absurd hd (by decide)) hl h.symm
      rw [this] at e3
      exact this ▸ e3.symm
    | true =>
      simp only [if_true, List.singleton_append] at ht
      have hp : toks = [.punct '-' .alone sp, .lit (c :: a ++ '.' :: b) sp] := by rw [← h, ht]; rfl
      have := synLit_minus (s := s) (spc := .alone) (sp1 := sp) (sp2 := sp) (rest1 := .lit (c :: a ++ '.' :: b) sp :: rest) (rest := rest)
        (repr := c :: a ++ '.' :: b) (by rw [hs, hp]; exact next_cons (by simp) _) (next_cons (by simp) _)
      have hi : readIntDigits ('-' :: (c :: a ++ '.' :: b)) = none := by
        show (readNat _).map _ = none
        rw [hnat]; rfl
      rw [hi, hr2] at this
      simp only at this
      rw [e3] at this
      simp only [Res.ok.injEq, Prod.mk.injEq] at this
      rw [this.1.1, ht]
  | char c =>
    refine ⟨.lit (.char c), by simp [litToSyn, readLit_char], ?_⟩
    simp only [litToTokens, Option.some.injEq] at h
    exact one (by simp [charLiteral]) (readLit_char c) h.symm
  | str t =>
    refine ⟨.lit (.str t), by simp [litToSyn, readLit_string], ?_⟩
    simp only [litToTokens, Option.some.injEq] at h
    exact one (by simp [stringLiteral]) (readLit_string t) h.symm
  | byteStr t =>
    refine ⟨.lit (.byteStr t), by simp [litToSyn, readLit_byteString], ?_⟩
    simp only [litToTokens, Option.some.injEq] at h
    exact one (by simp [byteStringLiteral]) (readLit_byteString t) h.symm

end

section
attribute [local instance] toyExt

/-- The hypotheses are met: e.g. the smallest `i64`. -/
example : InI64 (-9223372036854775808) ∧ litIntToSyn (-9223372036854775808) spA = some ("-9223372036854775808".toList, spA) :=
  ⟨by unfold InI64; omega, by rw [litIntToSyn_eq]; decide +kernel⟩

example : ∃ t, litToSyn some (.int 7) spA = some (t, spA) ∧ litTryFrom t spA = .ok (.uint 7) :=
  (C67_lit toyExt_laws (byteNew := some) (fun _ => rfl) (l := .int 7) (show InI64 7 by unfold InI64; omega) spA).2 trivial

end

end Parsel
