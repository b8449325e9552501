import Verif.Proofs.Literal
import Verif.Props.Combinators

/-! Properties of literals: C33-C38. -/

namespace Parsel
open Spec

/-- Drop a final `.0`. -/
def toyStrip (t : Text) : Text := if t.drop (t.length - 2) = ".0".toList then t.take (t.length - 2) else t

/-- A stand-in for `f64` used in examples only: natural numbers and infinity. -/
@[reducible] def toyExt : Ext where
  F := Option Nat
  floatOf t :=
    if t = "1e999".toList then some none
    else if toyStrip t ≠ [] ∧ (toyStrip t).all Char.isDigit = true then some (some (decVal (toyStrip t))) else none
  finite x := x.isSome
  floatText x := match x with
    | some n => natText n
    | none => "inf".toList
  unprintable _ := false

/-- An arbitrary location for examples. -/
def spA : Span := ⟨⟨1, 3⟩, ⟨1, 9⟩⟩

theorem natText_all (n : Nat) : (natText n).all Char.isDigit = true := List.all_eq_true.mpr fun _ h => natText_isDigit h

theorem natText_no_dot0 (n : Nat) : ¬ ((natText n).drop ((natText n).length - 2) = ".0".toList) := by
  intro h
  have : '.' ∈ natText n := List.mem_of_mem_drop (i := (natText n).length - 2) (by rw [h]; decide)
  exact absurd (natText_isDigit this) (by decide)

theorem toyExt_laws : @FloatLaws toyExt := by
  have text : ∀ n, @Ext.floatText toyExt (some n) = natText n := fun _ => rfl
  refine @FloatLaws.mk toyExt ?_ ?_ ?_
  · intro x hx
    cases x with
    | none => cases hx
    | some n => exact ⟨false, natText n, [], natText_ne_nil n, fun c hc => natText_isDigit hc, by simp, Or.inl (by rw [text]; rfl)⟩
  · intro x hx
    cases x with
    | none => cases hx
    | some n =>
      have h1 : ¬ natText n = "1e999".toList := by
        intro h
        have : 'e' ∈ natText n := by rw [h]; decide
        exact absurd (natText_isDigit this) (by decide)
      have h2 : toyStrip (natText n) = natText n := if_neg (natText_no_dot0 n)
      have : (if natText n = "1e999".toList then some none
        else if toyStrip (natText n) ≠ [] ∧ (toyStrip (natText n)).all Char.isDigit = true then some (some (decVal (toyStrip (natText n)))) else none)
          = some (some n) := by
        rw [if_neg h1, h2, if_pos ⟨natText_ne_nil n, natText_all n⟩, decVal_natText]
      exact this
  · intro x hx _
    cases x with
    | none => cases hx
    | some n =>
      have hd : (natText n ++ ".0".toList).drop ((natText n ++ ".0".toList).length - 2) = ".0".toList := by
        have : (natText n ++ ".0".toList).length - 2 = (natText n).length := by
          rw [List.length_append]; exact Nat.add_sub_cancel _ 2
        rw [this, List.drop_left]
      have ht : (natText n ++ ".0".toList).take ((natText n ++ ".0".toList).length - 2) = natText n := by
        have : (natText n ++ ".0".toList).length - 2 = (natText n).length := by
          rw [List.length_append]; exact Nat.add_sub_cancel _ 2
        rw [this, List.take_left]
      have h1 : ¬ natText n ++ ".0".toList = "1e999".toList := by
        intro h
        have : '.' ∈ "1e999".toList := by rw [← h]; exact List.mem_append_right _ (by decide)
        exact absurd this (by decide)
      have h2 : toyStrip (natText n ++ ".0".toList) = natText n := by unfold toyStrip; rw [if_pos hd, ht]
      have : (if natText n ++ ".0".toList = "1e999".toList then some none
        else if toyStrip (natText n ++ ".0".toList) ≠ [] ∧ (toyStrip (natText n ++ ".0".toList)).all Char.isDigit = true then
          some (some (decVal (toyStrip (natText n ++ ".0".toList)))) else none) = some (some n) := by
        rw [if_neg h1, h2, if_pos ⟨natText_ne_nil n, natText_all n⟩, decVal_natText]
      exact this

/-! ### C33 -/

/-- C33: for each of the 256 bytes, the text printed by `LitByte` fits the 8-byte buffer (no panic), is ASCII, and read as a
literal it is a byte literal for that very byte. -/
theorem C33_every_byte (b : Byte) : ∃ repr, litByteRepr b = some repr ∧ repr.length ≤ 8 ∧ (∀ c ∈ repr, c.toNat < 128) ∧
    repr.head? = some 'b' ∧ readLit repr = some (.byte b) := by
  have table : ∀ b : Byte, (litByteRepr b).any (fun repr => decide (repr.length ≤ 8) && repr.all (fun c => decide (c.toNat < 128)) &&
      decide (repr.head? = some 'b') && decide (readLit repr = some (.byte b))) = true := by
    decide +kernel
  have h := table b
  cases hr : litByteRepr b with
  | none => rw [hr] at h; exact absurd h (by simp)
  | some repr =>
    rw [hr] at h
    simp only [Option.any_some, Bool.and_eq_true, decide_eq_true_eq, List.all_eq_true] at h
    exact ⟨repr, rfl, h.1.1.1, h.1.1.2, h.1.2, h.2⟩

/-- C33: and by the rules of the Rust reference it is a byte literal, too (the readers of `syn` and `proc_macro2` are more tolerant), of that value. -/
theorem C33_rust_literal (b : Byte) : ∃ repr, litByteRepr b = some repr ∧ byteLiteral repr = some b.val := by
  have table : ∀ b : Byte, (litByteRepr b).any (fun repr => decide (byteLiteral repr = some b.val)) = true := by decide +kernel
  have h := table b
  cases hr : litByteRepr b with
  | none => rw [hr] at h; exact absurd h (by simp)
  | some repr =>
    rw [hr] at h
    simp only [Option.any_some, decide_eq_true_eq] at h
    exact ⟨repr, rfl, h⟩

/-- C33: distinct bytes are printed differently. -/
theorem C33_injective (a b : Byte) (h : litByteRepr a = litByteRepr b) : a = b := by
  obtain ⟨r, hr, _, _, _, h1⟩ := C33_every_byte a
  obtain ⟨r', hr', _, _, _, h2⟩ := C33_every_byte b
  rw [hr, hr'] at h
  injection h with h
  subst h
  rw [h1] at h2
  injection h2 with h2
  injection h2

example : litByteRepr 0 = some "b'\\x00'".toList ∧ litByteRepr 39 = some "b'\\''".toList ∧ litByteRepr 97 = some "b'a'".toList := by
  decide

/-! ### C34 -/

section
variable [Ext]

omit [Ext] in
theorem andThen_ok {α β : Type} {r : Res (α × Span)} {f : α → Span → Except Err β} {b : β} {sp : Span} {s' : PState} :
    r.andThen f = .ok (b, sp) s' ↔ ∃ a, r = .ok (a, sp) s' ∧ f a sp = .ok b := by
  unfold Res.andThen
  cases r with
  | ok a s1 =>
    obtain ⟨a, sp1⟩ := a
    show (match f a sp1 with
      | .ok b => Res.ok (b, sp1) s1
      | .error e => .err e) = _ ↔ _
    cases hf : f a sp1 with
    | ok b' =>
      simp only [Res.ok.injEq, Prod.mk.injEq]
      constructor
      · rintro ⟨⟨rfl, rfl⟩, rfl⟩; exact ⟨a, ⟨⟨rfl, rfl⟩, rfl⟩, hf⟩
      · rintro ⟨a', ⟨⟨rfl, rfl⟩, rfl⟩, h⟩
        rw [hf] at h
        injection h with h
        exact ⟨⟨h, rfl⟩, rfl⟩
    | error e =>
      simp only [Res.ok.injEq, Prod.mk.injEq, reduceCtorEq, false_iff, not_exists, not_and]
      rintro a' ⟨⟨rfl, rfl⟩, rfl⟩ h
      rw [hf] at h; cases h
  | err e => simp [Res.bind]
  | panic => simp [Res.bind]
  | oof => simp [Res.bind]

omit [Ext] in
theorem andThen_err {α β : Type} {f : α → Span → Except Err β} {a : α} {sp : Span} {s' : PState} {e : Err} (h : f a sp = .error e) :
    (Res.ok (a, sp) s').andThen f = .err e := by
  show (match f a sp with
      | .ok b => Res.ok (b, sp) s'
      | .error e => .err e) = _
  rw [h]

omit [Ext] in
theorem litInt_of (neg : Bool) (n : Nat) (sp : Span) :
    (∃ m, litIntOf (signedDigits neg n) sp = if -(2 ^ 63) ≤ signed neg n ∧ signed neg n ≤ 2 ^ 63 - 1 then .ok (signed neg n) else .error ⟨sp, m⟩) := by
  cases neg with
  | false =>
    refine ⟨"number too large to fit in target type".toList, ?_⟩
    unfold litIntOf signedDigits signed
    simp only [Bool.false_eq_true, if_false]
    rw [parseI64_nat]
    by_cases h : n ≤ 2 ^ 63 - 1
    · rw [if_pos h, if_pos (by omega)]
    · rw [if_neg h, if_neg (by omega)]
  | true =>
    refine ⟨"number too small to fit in target type".toList, ?_⟩
    unfold litIntOf signedDigits signed
    simp only [if_true]
    rw [parseI64_neg]
    by_cases h : n ≤ 2 ^ 63
    · rw [if_pos h, if_pos (by omega)]
    · rw [if_neg h, if_neg (by omega)]

omit [Ext] in
/-- C34 (LitInt, acceptance): `LitInt` parses exactly if the next thing is an integer literal, with or without minus sign, whose
mathematical value lies in the range of `i64`; the result is that value at its location, and exactly that literal is consumed. -/
theorem C34_int (s s' : PState) (v : Int) (sp : Span) :
    litIntParse s = .ok (v, sp) s' ↔
      ∃ neg n rest, IntAt s.cur neg n sp rest ∧ v = signed neg n ∧ InI64 v ∧ s' = { s with cur := rest } := by
  unfold litIntParse
  rw [andThen_ok]
  constructor
  · rintro ⟨d, hr, hv⟩
    obtain ⟨neg, n, rest, hI, hd, hs⟩ := intAt_of_synInt (synIntParse_ok.mp hr)
    subst hd hs
    obtain ⟨m, hm⟩ := litInt_of neg n sp
    rw [hm] at hv
    by_cases hc : -(2 ^ 63) ≤ signed neg n ∧ signed neg n ≤ 2 ^ 63 - 1
    · rw [if_pos hc] at hv
      injection hv with hv
      subst hv
      exact ⟨neg, n, rest, hI, rfl, hc, rfl⟩
    · rw [if_neg hc] at hv; cases hv
  · rintro ⟨neg, n, rest, hI, rfl, hc, rfl⟩
    refine ⟨_, synIntParse_ok.mpr (synInt_of_intAt hI), ?_⟩
    obtain ⟨m, hm⟩ := litInt_of neg n sp
    rw [hm]
    exact if_pos hc

omit [Ext] in
/-- C34 (LitInt, out of range): an integer literal outside the range of `i64` is an error located at the literal; it never wraps. -/
theorem C34_int_overflow (s : PState) (neg : Bool) (n : Nat) (sp : Span) (rest : List TT) (h : IntAt s.cur neg n sp rest)
    (hv : ¬ InI64 (signed neg n)) : ∃ msg, litIntParse s = .err ⟨sp, msg⟩ := by
  obtain ⟨m, hm⟩ := litInt_of neg n sp
  refine ⟨m, ?_⟩
  unfold litIntParse
  rw [synIntParse_ok.mpr (synInt_of_intAt h)]
  exact andThen_err (hm.trans (if_neg hv))

omit [Ext] in
theorem litUint_of (neg : Bool) (n : Nat) (sp : Span) :
    (∃ m, litUintOf (signedDigits neg n) sp = if neg = false ∧ n ≤ 2 ^ 64 - 1 then .ok n else .error ⟨sp, m⟩) := by
  cases neg with
  | false =>
    refine ⟨"number too large to fit in target type".toList, ?_⟩
    unfold litUintOf signedDigits
    simp only [Bool.false_eq_true, if_false]
    rw [parseU64_nat]
    by_cases h : n ≤ 2 ^ 64 - 1
    · rw [if_pos h, if_pos ⟨trivial, h⟩]; rfl
    · rw [if_neg h, if_neg (by omega)]
  | true =>
    refine ⟨"invalid digit found in string".toList, ?_⟩
    unfold litUintOf signedDigits
    simp only [if_true, parseU64_neg, Bool.true_eq_false, false_and, if_false]

omit [Ext] in
/-- C34 (LitUint, acceptance): `LitUint` parses exactly if the next thing is an integer literal without sign whose value lies in
the range of `u64`. -/
theorem C34_uint (s s' : PState) (v : Nat) (sp : Span) :
    litUintParse s = .ok (v, sp) s' ↔ ∃ rest, IntAt s.cur false v sp rest ∧ InU64 v ∧ s' = { s with cur := rest } := by
  unfold litUintParse
  rw [andThen_ok]
  constructor
  · rintro ⟨d, hr, hv⟩
    obtain ⟨neg, n, rest, hI, hd, hs⟩ := intAt_of_synInt (synIntParse_ok.mp hr)
    subst hd hs
    obtain ⟨m, hm⟩ := litUint_of neg n sp
    rw [hm] at hv
    by_cases hc : neg = false ∧ n ≤ 2 ^ 64 - 1
    · rw [if_pos hc] at hv
      injection hv with hv
      obtain ⟨rfl, hc⟩ := hc
      subst hv
      exact ⟨rest, hI, hc, rfl⟩
    · rw [if_neg hc] at hv; cases hv
  · rintro ⟨rest, hI, hc, rfl⟩
    refine ⟨_, synIntParse_ok.mpr (synInt_of_intAt hI), ?_⟩
    obtain ⟨m, hm⟩ := litUint_of false v sp
    rw [hm]
    exact if_pos ⟨rfl, hc⟩

omit [Ext] in
/-- C34 (LitUint, rejection): a literal with a minus sign (even `-0`) or beyond the range of `u64` is an error at the literal. -/
theorem C34_uint_overflow (s : PState) (neg : Bool) (n : Nat) (sp : Span) (rest : List TT) (h : IntAt s.cur neg n sp rest)
    (hv : neg = true ∨ ¬ InU64 n) : ∃ msg, litUintParse s = .err ⟨sp, msg⟩ := by
  obtain ⟨m, hm⟩ := litUint_of neg n sp
  refine ⟨m, ?_⟩
  unfold litUintParse
  rw [synIntParse_ok.mpr (synInt_of_intAt h)]
  refine andThen_err (hm.trans (if_neg ?_))
  rintro ⟨h1, h2⟩
  rcases hv with hv | hv
  · rw [h1] at hv; exact absurd hv (by decide)
  · exact hv h2

omit [Ext] in
/-- C34: the value of an integer literal is unique. -/
theorem C34_value_unique {t : Text} {v w : Nat} (h1 : IntLit t v) (h2 : IntLit t w) : v = w := by
  have := (readNat_iff t v).mpr h1
  rw [(readNat_iff t w).mpr h2] at this
  injection this with this
  exact this.symm

example : IntLit "0xFF_ffu16".toList 65535 := (readNat_iff _ _).mp (by decide)
example : IntLit "1_000".toList 1000 := (readNat_iff _ _).mp (by decide)
example : ¬ InI64 (signed false 9223372036854775808) ∧ InI64 (signed true 9223372036854775808) := by
  unfold InI64 signed; decide
example : IntAt [.punct '-' .alone spA, .lit "9223372036854775808".toList spA] true 9223372036854775808 spA [] :=
  .minus (.here (by simp)) (.here (by simp)) ((readNat_iff _ _).mp (by decide))

/-! ### C35 -/

/-- Outcome of `Lit` in terms of the underlying token. -/
theorem litParse_ok {s s' : PState} {l : LitVal} {sp : Span} :
    litParse s = .ok (l, sp) s' ↔ ∃ t, synLitParse s = .ok (t, sp) s' ∧ litTryFrom t sp = .ok l := by
  exact andThen_ok

omit [Ext] in
theorem synKind_ok {α : Type} {msg : Text} {pick : SynTok → Option α} {s s' : PState} {a : α} {sp : Span} :
    synKindParse msg pick s = .ok (a, sp) s' ↔ ∃ t, synLitParse s = .ok (t, sp) s' ∧ pick t = some a := by
  unfold synKindParse
  cases hr : synLitParse s with
  | ok b s1 =>
    obtain ⟨t, sp1⟩ := b
    simp only []
    cases hp : pick t with
    | none =>
      simp only [Res.ok.injEq, Prod.mk.injEq, reduceCtorEq, false_iff, not_exists, not_and]
      rintro t' ⟨⟨rfl, _⟩, _⟩ h
      rw [hp] at h; cases h
    | some a' =>
      simp only [Res.ok.injEq, Prod.mk.injEq]
      constructor
      · rintro ⟨⟨rfl, rfl⟩, rfl⟩
        exact ⟨t, ⟨⟨rfl, rfl⟩, rfl⟩, hp⟩
      · rintro ⟨t', ⟨⟨rfl, rfl⟩, rfl⟩, h⟩
        rw [hp] at h
        injection h with h
        exact ⟨⟨h, rfl⟩, rfl⟩
  | err e => simp
  | panic => simp
  | oof => simp

theorem litTryFrom_int {d : Text} {sp : Span} {l : LitVal} (h : litTryFrom (.lit (.int d)) sp = .ok l) :
    (d.head? = some '-' ∧ ∃ v, l = .int v ∧ litIntOf d sp = .ok v) ∨ (d.head? ≠ some '-' ∧ ∃ v, l = .uint v ∧ litUintOf d sp = .ok v) := by
  unfold litTryFrom at h
  simp only [] at h
  by_cases hd : d.head? = some '-'
  · rw [if_pos hd] at h
    cases hi : litIntOf d sp with
    | ok v => rw [hi] at h; injection h with h; exact Or.inl ⟨hd, v, h.symm, rfl⟩
    | error e => rw [hi] at h; cases h
  · rw [if_neg hd] at h
    cases hi : litUintOf d sp with
    | ok v => rw [hi] at h; injection h with h; exact Or.inr ⟨hd, v, h.symm, rfl⟩
    | error e => rw [hi] at h; cases h

/-- Which underlying tokens `Lit` turns into which variant. -/
theorem litTryFrom_ok {t : SynTok} {sp : Span} {l : LitVal} (h : litTryFrom t sp = .ok l) :
    match l with
    | .bool b => t = .bool b
    | .byte b => t = .lit (.byte b)
    | .int v => ∃ d, t = .lit (.int d) ∧ d.head? = some '-' ∧ litIntOf d sp = .ok v
    | .uint v => ∃ d, t = .lit (.int d) ∧ d.head? ≠ some '-' ∧ litUintOf d sp = .ok v
    | .float x => ∃ d, t = .lit (.float d) ∧ Ext.floatOf d = some x
    | .char c => t = .lit (.char c)
    | .str x => t = .lit (.str x)
    | .byteStr x => t = .lit (.byteStr x) := by
  cases t with
  | bool b => unfold litTryFrom at h; injection h with h; subst h; rfl
  | lit k =>
    cases k with
    | int d =>
      rcases litTryFrom_int h with ⟨hd, v, rfl, hv⟩ | ⟨hd, v, rfl, hv⟩
      · exact ⟨d, rfl, hd, hv⟩
      · exact ⟨d, rfl, hd, hv⟩
    | float d =>
      unfold litTryFrom litFloatOf at h
      simp only [] at h
      cases hf : Ext.floatOf d with
      | none => rw [hf] at h; cases h
      | some x => rw [hf] at h; injection h with h; subst h; exact ⟨d, rfl, hf⟩
    | str x => unfold litTryFrom at h; injection h with h; subst h; rfl
    | byteStr x => unfold litTryFrom at h; injection h with h; subst h; rfl
    | byte x => unfold litTryFrom at h; injection h with h; subst h; rfl
    | char x => unfold litTryFrom at h; injection h with h; subst h; rfl
    | cstr => unfold litTryFrom at h; cases h
    | verbatim => unfold litTryFrom at h; cases h

/-- C35 (booleans): `Lit` yields `Lit::Bool` exactly where `LitBool` parses, with the same value, location and rest. -/
theorem C35_bool (s s' : PState) (v : Bool) (sp : Span) : litParse s = .ok (.bool v, sp) s' ↔ litBoolParse s = .ok (v, sp) s' := by
  unfold litBoolParse
  rw [litParse_ok, synKind_ok]
  constructor
  · rintro ⟨t, h1, h2⟩; exact ⟨t, h1, by have := litTryFrom_ok h2; simp only [] at this; rw [this]⟩
  · rintro ⟨t, h1, h2⟩
    refine ⟨t, h1, ?_⟩
    cases t with
    | bool b => injection h2 with h2; subst h2; rfl
    | lit k => cases h2

/-- C35 (bytes). -/
theorem C35_byte (s s' : PState) (v : Byte) (sp : Span) : litParse s = .ok (.byte v, sp) s' ↔ litByteParse s = .ok (v, sp) s' := by
  unfold litByteParse
  rw [litParse_ok, synKind_ok]
  constructor
  · rintro ⟨t, h1, h2⟩; exact ⟨t, h1, by have := litTryFrom_ok h2; simp only [] at this; rw [this]⟩
  · rintro ⟨t, h1, h2⟩
    refine ⟨t, h1, ?_⟩
    cases t with
    | bool b => cases h2
    | lit k => cases k <;> first | (injection h2 with h2; subst h2; rfl) | cases h2

/-- C35 (characters). -/
theorem C35_char (s s' : PState) (v : Char) (sp : Span) : litParse s = .ok (.char v, sp) s' ↔ litCharParse s = .ok (v, sp) s' := by
  unfold litCharParse
  rw [litParse_ok, synKind_ok]
  constructor
  · rintro ⟨t, h1, h2⟩; exact ⟨t, h1, by have := litTryFrom_ok h2; simp only [] at this; rw [this]⟩
  · rintro ⟨t, h1, h2⟩
    refine ⟨t, h1, ?_⟩
    cases t with
    | bool b => cases h2
    | lit k => cases k <;> first | (injection h2 with h2; subst h2; rfl) | cases h2

/-- C35 (strings). -/
theorem C35_str (s s' : PState) (v : Text) (sp : Span) : litParse s = .ok (.str v, sp) s' ↔ litStrParse s = .ok (v, sp) s' := by
  unfold litStrParse
  rw [litParse_ok, synKind_ok]
  constructor
  · rintro ⟨t, h1, h2⟩; exact ⟨t, h1, by have := litTryFrom_ok h2; simp only [] at this; rw [this]⟩
  · rintro ⟨t, h1, h2⟩
    refine ⟨t, h1, ?_⟩
    cases t with
    | bool b => cases h2
    | lit k => cases k <;> first | (injection h2 with h2; subst h2; rfl) | cases h2

/-- C35 (byte strings). -/
theorem C35_byteStr (s s' : PState) (v : List Byte) (sp : Span) :
    litParse s = .ok (.byteStr v, sp) s' ↔ litByteStrParse s = .ok (v, sp) s' := by
  unfold litByteStrParse
  rw [litParse_ok, synKind_ok]
  constructor
  · rintro ⟨t, h1, h2⟩; exact ⟨t, h1, by have := litTryFrom_ok h2; simp only [] at this; rw [this]⟩
  · rintro ⟨t, h1, h2⟩
    refine ⟨t, h1, ?_⟩
    cases t with
    | bool b => cases h2
    | lit k => cases k <;> first | (injection h2 with h2; subst h2; rfl) | cases h2

theorem litFloatParse_ok {s s' : PState} {x : Ext.F} {sp : Span} :
    litFloatParse s = .ok (x, sp) s' ↔ ∃ d, synLitParse s = .ok (.lit (.float d), sp) s' ∧ Ext.floatOf d = some x := by
  unfold litFloatParse
  rw [andThen_ok]
  constructor
  · rintro ⟨d, hr, hf⟩
    obtain ⟨t, ht, hp⟩ := synKind_ok.mp hr
    have : t = .lit (.float d) := by
      cases t with
      | bool b => cases hp
      | lit k => cases k <;> first | (injection hp with hp; subst hp; rfl) | cases hp
    subst this
    refine ⟨d, ht, ?_⟩
    unfold litFloatOf at hf
    cases hx : Ext.floatOf d with
    | none => rw [hx] at hf; cases hf
    | some y => rw [hx] at hf; injection hf with hf; rw [hf]
  · rintro ⟨d, h1, h2⟩
    refine ⟨d, synKind_ok.mpr ⟨_, h1, rfl⟩, ?_⟩
    unfold litFloatOf
    rw [h2]

/-- C35 (floating point numbers). -/
theorem C35_float (s s' : PState) (v : Ext.F) (sp : Span) : litParse s = .ok (.float v, sp) s' ↔ litFloatParse s = .ok (v, sp) s' := by
  rw [litParse_ok, litFloatParse_ok]
  constructor
  · rintro ⟨t, h1, h2⟩
    obtain ⟨d, rfl, hd⟩ := litTryFrom_ok h2
    exact ⟨d, h1, hd⟩
  · rintro ⟨d, h1, h2⟩
    refine ⟨_, h1, ?_⟩
    simp only [litTryFrom, litFloatOf, h2]
    rfl

omit [Ext] in
theorem signedDigits_head (neg : Bool) (n : Nat) : (signedDigits neg n).head? = some '-' ↔ neg = true := by
  cases neg with
  | true => simp [signedDigits]
  | false => simp only [signedDigits, Bool.false_eq_true, if_false, iff_false]; exact natText_head_ne_minus n

/-- C35 (integers with sign): `Lit` yields `Lit::Int` exactly where the literal is written with a minus sign and `LitInt` parses, with
the same value. -/
theorem C35_int (s s' : PState) (v : Int) (sp : Span) :
    litParse s = .ok (.int v, sp) s' ↔ litIntParse s = .ok (v, sp) s' ∧ ∃ n rest, IntAt s.cur true n sp rest := by
  rw [litParse_ok, C34_int]
  constructor
  · rintro ⟨t, h1, h2⟩
    obtain ⟨d, rfl, hd, hv⟩ := litTryFrom_ok h2
    obtain ⟨neg, n, rest, hI, rfl, rfl⟩ := intAt_of_synInt h1
    obtain rfl := (signedDigits_head neg n).mp hd
    obtain ⟨m, hm⟩ := litInt_of true n sp
    rw [hm] at hv
    by_cases hc : -(2 ^ 63) ≤ signed true n ∧ signed true n ≤ 2 ^ 63 - 1
    · rw [if_pos hc] at hv
      injection hv with hv
      subst hv
      exact ⟨⟨true, n, rest, hI, rfl, hc, rfl⟩, n, rest, hI⟩
    · rw [if_neg hc] at hv; cases hv
  · rintro ⟨⟨neg, n, rest, hI, rfl, hc, rfl⟩, n', rest', hI'⟩
    have e1 := synInt_of_intAt hI
    have e2 := synInt_of_intAt hI'
    rw [e1] at e2
    injection e2 with e2 _
    injection e2 with e2 _
    injection e2 with e2
    injection e2 with e2
    have : neg = true := (signedDigits_head neg n).mp (by rw [e2]; exact (signedDigits_head true n').mpr rfl)
    subst this
    refine ⟨_, e1, ?_⟩
    obtain ⟨m, hm⟩ := litInt_of true n sp
    simp only [litTryFrom]
    rw [if_pos ((signedDigits_head true n).mpr rfl), hm]
    rw [show (if -2 ^ 63 ≤ signed true n ∧ signed true n ≤ 2 ^ 63 - 1 then (Except.ok (signed true n) : Except Err Int)
      else .error ⟨sp, m⟩) = .ok (signed true n) from if_pos hc]
    rfl

/-- C35 (integers without sign): `Lit` yields `Lit::Uint` exactly where `LitUint` parses, with the same value. -/
theorem C35_uint (s s' : PState) (v : Nat) (sp : Span) : litParse s = .ok (.uint v, sp) s' ↔ litUintParse s = .ok (v, sp) s' := by
  rw [litParse_ok, C34_uint]
  constructor
  · rintro ⟨t, h1, h2⟩
    obtain ⟨d, rfl, hd, hv⟩ := litTryFrom_ok h2
    obtain ⟨neg, n, rest, hI, rfl, rfl⟩ := intAt_of_synInt h1
    obtain ⟨m, hm⟩ := litUint_of neg n sp
    rw [hm] at hv
    by_cases hc : neg = false ∧ n ≤ 2 ^ 64 - 1
    · rw [if_pos hc] at hv
      injection hv with hv
      subst hv
      obtain ⟨rfl, hc⟩ := hc
      exact ⟨rest, hI, hc, rfl⟩
    · rw [if_neg hc] at hv; cases hv
  · rintro ⟨rest, hI, hc, rfl⟩
    refine ⟨_, synInt_of_intAt hI, ?_⟩
    obtain ⟨m, hm⟩ := litUint_of false v sp
    simp only [litTryFrom]
    rw [if_neg (by rw [signedDigits_head]; decide), hm, if_pos ⟨rfl, hc⟩]
    rfl

/-- C35: C-string literals and unparseable literals are errors located at the literal. -/
theorem C35_rejected (s : PState) (repr : Text) (sp : Span) (rest : List TT) (h : Next s.cur (.lit repr sp) rest)
    (hk : readLit repr = some .cstr ∨ readLit repr = some .verbatim) : ∃ msg, litParse s = .err ⟨sp, msg⟩ := by
  unfold litParse Res.andThen
  rcases hk with hk | hk
  · rw [synLit_lit h hk]; exact ⟨_, rfl⟩
  · rw [synLit_lit h hk]; exact ⟨_, rfl⟩

/-- C35: what is not a literal, `true`, `false` or a minus sign is rejected by `Lit`. -/
theorem C35_not_literal (s : PState) (hl : ∀ repr sp rest, ¬ Next s.cur (.lit repr sp) rest) (hm : ∀ j sp rest, ¬ Next s.cur (.punct '-' j sp) rest)
    (hi : ∀ sp rest, ¬ Next s.cur (.ident "true".toList sp) rest ∧ ¬ Next s.cur (.ident "false".toList sp) rest) :
    litParse s = .err (s.error "expected literal".toList) := by
  have e : synLitParse s = .err (s.error "expected literal".toList) := by
    unfold synLitParse
    split
    · rename_i hu; exact absurd ((uncons_iff _ _ _).mp hu) (hl _ _ _)
    · rename_i x sp rest hu
      have hu' := (uncons_iff _ _ _).mp hu
      rw [if_neg (by rintro rfl; exact (hi _ _).1 hu'), if_neg (by rintro rfl; exact (hi _ _).2 hu')]
    · rename_i hu; exact absurd ((uncons_iff _ _ _).mp hu) (hm _ _ _)
    · rfl
  unfold litParse
  rw [e]
  rfl

example : @litParse toyExt ⟨[.lit "0x10".toList spA], .callSite, none⟩ = .ok (@LitVal.uint toyExt 16, spA) ⟨[], .callSite, none⟩ := rfl
example : @litParse toyExt ⟨[.punct '-' .alone spA, .lit "5".toList spA], .callSite, none⟩ = .ok (@LitVal.int toyExt (-5), spA) ⟨[], .callSite, none⟩ := rfl
example : readLit "c\"x\"".toList = some .cstr := by decide

/-! ### C36 -/

omit [Ext] in
theorem next_cons {t : TT} (h : ∀ inner sp, t ≠ .group .none inner sp) (ts : List TT) : Next (t :: ts) t ts := .here h

omit [Ext] in
theorem join_self (sp : Span) : sp.join sp = sp := by
  unfold Span.join
  simp

omit [Ext] in
theorem intLit_natText (n : Nat) : IntLit (natText n) n := by
  rw [← readNat_iff]
  have hD : ∀ n, ∃ k, Digits 10 (natText n) (k + 1) n := by
    intro n
    induction n using Nat.strongRecOn with
    | _ n ih =>
      have dig : ∀ d, d < 10 → DigitIn 10 (Nat.digitChar d) d := fun d hd =>
        digitIn_of_hexVal (hexVal_digitChar (by omega)).1 hd
      by_cases h : n < 10
      · rw [natText_lt n h]
        refine ⟨0, ?_⟩
        have := Digits.digit (base := 10) Digits.nil (dig n h)
        simpa using this
      · rw [natText_ge n (by omega)]
        obtain ⟨k, hk⟩ := ih (n / 10) (by omega)
        refine ⟨k + 1, ?_⟩
        have := Digits.digit hk (dig (n % 10) (Nat.mod_lt _ (by decide)))
        have e : 10 * (n / 10) + n % 10 = n := by omega
        rw [e] at this
        exact this
  obtain ⟨k, hk⟩ := hD n
  rw [readNat_iff]
  refine ⟨[], 10, natText n, [], k, by simp [basePrefixes], by simp, hk, ⟨rfl, by simp⟩, fun _ => ⟨?_, by simp⟩⟩
  intro h
  exact absurd (natText_isDigit (List.mem_of_mem_head? h)) (by decide)

omit [Ext] in
theorem pushLiteral_plain {repr : Text} {sp : Span} (h : repr.head? ≠ some '-') : pushLiteral repr sp = [.lit repr sp] := by
  unfold pushLiteral
  split
  · exact absurd rfl h
  · rfl

omit [Ext] in
/-- The stream after printing an integer reads as that integer. -/
theorem intAt_printed (v : Int) (sp : Span) (rest : List TT) :
    IntAt (pushLiteral (intLiteral v) sp ++ rest) (decide (v < 0)) v.natAbs sp rest := by
  cases v with
  | ofNat n =>
    have e : pushLiteral (intLiteral (.ofNat n)) sp = [.lit (natText n) sp] := pushLiteral_plain (natText_head_ne_minus n)
    rw [e]
    exact .plain (next_cons (by simp) _) (intLit_natText n)
  | negSucc n =>
    have e : pushLiteral (intLiteral (.negSucc n)) sp = [.punct '-' .alone sp, .lit (natText (n + 1)) sp] := rfl
    rw [e]
    have := IntAt.minus (ts := [.punct '-' .alone sp, .lit (natText (n + 1)) sp] ++ rest) (next_cons (by simp) _)
      (next_cons (by simp) rest) (intLit_natText (n + 1))
    rw [join_self] at this
    have hneg : decide (Int.negSucc n < 0) = true := decide_eq_true (Int.negSucc_lt_zero n)
    rw [hneg]
    exact this

omit [Ext] in
theorem signed_natAbs (v : Int) : signed (decide (v < 0)) v.natAbs = v := by
  unfold signed
  by_cases h : v < 0
  · rw [decide_eq_true h]; simp only [if_true]; omega
  · rw [decide_eq_false h]; simp only [Bool.false_eq_true, if_false]; omega

/-- C36 (LitBool): print, then parse with anything following: the same value at the same location, the printed token consumed. -/
theorem C36_bool (v : Bool) (sp : Span) (s : PState) (rest : List TT) :
    ∃ toks, litToTokens (.bool v) sp = some toks ∧ (s.cur = toks ++ rest → litBoolParse s = .ok (v, sp) { s with cur := rest }) := by
  refine ⟨_, rfl, fun h => ?_⟩
  unfold litBoolParse
  rw [synKind_ok]
  refine ⟨.bool v, ?_, rfl⟩
  unfold synLitParse
  rw [h]
  cases v <;> rfl

/-- C36 (LitByte). -/
theorem C36_byte (v : Byte) (sp : Span) (s : PState) (rest : List TT) :
    ∃ toks, litToTokens (.byte v) sp = some toks ∧ (s.cur = toks ++ rest → litByteParse s = .ok (v, sp) { s with cur := rest }) := by
  obtain ⟨repr, h1, _, _, h2, h3⟩ := C33_every_byte v
  refine ⟨[.lit repr sp], ?_, fun h => ?_⟩
  · unfold litToTokens
    simp only [h1, Option.map_some]
    rw [pushLiteral_plain (by rw [h2]; decide)]
  · unfold litByteParse
    rw [synKind_ok]
    exact ⟨_, synLit_lit (by rw [h]; exact next_cons (by simp) _) h3, rfl⟩

/-- C36 (LitInt): any `i64`. -/
theorem C36_int (v : Int) (hv : InI64 v) (sp : Span) (s : PState) (rest : List TT) :
    ∃ toks, litToTokens (.int v) sp = some toks ∧ (s.cur = toks ++ rest → litIntParse s = .ok (v, sp) { s with cur := rest }) := by
  refine ⟨_, rfl, fun h => ?_⟩
  rw [C34_int]
  exact ⟨_, _, rest, by rw [h]; exact intAt_printed v sp rest, (signed_natAbs v).symm, hv, rfl⟩

/-- C36 (LitUint): any `u64`. -/
theorem C36_uint (v : Nat) (hv : InU64 v) (sp : Span) (s : PState) (rest : List TT) :
    ∃ toks, litToTokens (.uint v) sp = some toks ∧ (s.cur = toks ++ rest → litUintParse s = .ok (v, sp) { s with cur := rest }) := by
  refine ⟨_, rfl, fun h => ?_⟩
  rw [C34_uint]
  have := intAt_printed (.ofNat v) sp rest
  exact ⟨rest, by rw [h]; exact this, hv, rfl⟩

/-- C36 (LitChar): any character. -/
theorem C36_char (v : Char) (sp : Span) (s : PState) (rest : List TT) :
    ∃ toks, litToTokens (.char v) sp = some toks ∧ (s.cur = toks ++ rest → litCharParse s = .ok (v, sp) { s with cur := rest }) := by
  refine ⟨[.lit (charLiteral v) sp], rfl, fun h => ?_⟩
  unfold litCharParse
  rw [synKind_ok]
  exact ⟨_, synLit_lit (by rw [h]; exact next_cons (by simp) _) (readLit_char v), rfl⟩

/-- C36 (LitStr): any text. -/
theorem C36_str (v : Text) (sp : Span) (s : PState) (rest : List TT) :
    ∃ toks, litToTokens (.str v) sp = some toks ∧ (s.cur = toks ++ rest → litStrParse s = .ok (v, sp) { s with cur := rest }) := by
  refine ⟨[.lit (stringLiteral v) sp], rfl, fun h => ?_⟩
  unfold litStrParse
  rw [synKind_ok]
  exact ⟨_, synLit_lit (by rw [h]; exact next_cons (by simp) _) (readLit_string v), rfl⟩

/-- C36 (LitByteStr): any bytes. -/
theorem C36_byteStr (v : List Byte) (sp : Span) (s : PState) (rest : List TT) :
    ∃ toks, litToTokens (.byteStr v) sp = some toks ∧ (s.cur = toks ++ rest → litByteStrParse s = .ok (v, sp) { s with cur := rest }) := by
  refine ⟨[.lit (byteStringLiteral v) sp], rfl, fun h => ?_⟩
  unfold litByteStrParse
  rw [synKind_ok]
  exact ⟨_, synLit_lit (by rw [h]; exact next_cons (by simp) _) (readLit_byteString v), rfl⟩

/-- Text of a finite float: sign, digits, point, digits, and it reads back. -/
theorem floatLiteral_shape (laws : FloatLaws) (x : Ext.F) (hx : Ext.finite x = true) :
    ∃ (neg : Bool) (d : Char) (a b : Text), (∀ c ∈ d :: a, c.isDigit = true) ∧ (∀ c ∈ b, c.isDigit = true) ∧
      floatLiteral x = some ((if neg then ['-'] else []) ++ (d :: a ++ '.' :: b)) ∧
      Ext.floatOf ((if neg then ['-'] else []) ++ (d :: a ++ '.' :: b)) = some x := by
  obtain ⟨neg, a, b, hne, ha, hb, h⟩ := laws.shape x hx
  cases a with
  | nil => exact absurd rfl hne
  | cons d a =>
    unfold floatLiteral
    rw [if_pos hx]
    rcases h with h | ⟨_, h⟩
    · have hnd : '.' ∉ Ext.floatText x := by
        rw [h]
        intro hm
        rcases List.mem_append.mp hm with hm | hm
        · cases neg
          · simp at hm
          · simp at hm
        · exact absurd (ha _ hm) (by decide)
      have hc : (Ext.floatText x).contains '.' = false := by
        rw [← Bool.not_eq_true, List.contains_iff_mem]; exact hnd
      refine ⟨neg, d, a, ['0'], ha, by simp, ?_, ?_⟩
      · rw [if_neg (by rw [hc]; decide), h]
        simp
      · have := laws.reads0 x hx hnd
        rw [h] at this
        simpa using this
    · have hc : (Ext.floatText x).contains '.' = true := by
        rw [List.contains_iff_mem, h]; simp
      refine ⟨neg, d, a, b, ha, hb, ?_, ?_⟩
      · rw [if_pos hc, h]
        simp
      · have := laws.reads x hx
        rw [h] at this
        simpa using this

/-- C36 (LitFloat): any finite number, under the stated assumptions on the standard library's float text. -/
theorem C36_float (laws : FloatLaws) (v : Ext.F) (hv : Ext.finite v = true) (sp : Span) (s : PState) (rest : List TT) :
    ∃ toks, litToTokens (.float v) sp = some toks ∧ (s.cur = toks ++ rest → litFloatParse s = .ok (v, sp) { s with cur := rest }) := by
  obtain ⟨neg, d, a, b, ha, hb, ht, hf⟩ := floatLiteral_shape laws v hv
  have hd : d.isDigit = true := ha d (by simp)
  obtain ⟨hr1, hr2⟩ := readFloat_decimal ha hb
  have hnat := readNat_dot ha b
  unfold litToTokens
  simp only [ht, Option.map_some]
  refine ⟨_, rfl, fun h => ?_⟩
  rw [litFloatParse_ok]
  cases neg with
  | false =>
    simp only [Bool.false_eq_true, if_false, List.nil_append] at h hf
    have hp : pushLiteral (d :: a ++ '.' :: b) sp = [.lit (d :: a ++ '.' :: b) sp] :=
      pushLiteral_plain (by intro he; injection he with he; subst he; exact absurd hd (by decide))
    rw [hp] at h
    refine ⟨_, synLit_lit (by rw [h]; exact next_cons (by simp) _) ?_, hf⟩
    rw [List.cons_append] at hnat hr1 ⊢
    rw [readLit_digit hd, readIntDigits_digit hd, hnat, hr1]
    rfl
  | true =>
    simp only [if_true, List.singleton_append] at h hf
    have hp : pushLiteral ('-' :: (d :: a ++ '.' :: b)) sp = [.punct '-' .alone sp, .lit (d :: a ++ '.' :: b) sp] := rfl
    rw [hp] at h
    refine ⟨_, ?_, hf⟩
    rw [synLit_minus (spc := .alone) (sp1 := sp) (sp2 := sp) (rest1 := .lit (d :: a ++ '.' :: b) sp :: rest) (rest := rest)
      (repr := d :: a ++ '.' :: b) (by rw [h]; exact next_cons (by simp) _) (next_cons (by simp) _)]
    have : readIntDigits ('-' :: (d :: a ++ '.' :: b)) = none := by
      show (readNat _).map _ = none
      rw [hnat]; rfl
    rw [this]
    simp only [hr2, join_self]

example : @FloatLaws toyExt ∧ @Ext.finite toyExt (some 7) = true := ⟨toyExt_laws, rfl⟩
example : @litToTokens toyExt (@LitVal.str toyExt "a\"\n".toList) spA = some [.lit "\"a\\\"\\n\"".toList spA] := rfl

/-! ### C37, C38 -/

/-- The values of `Lit` that survive printing and parsing: all but non-negative `Lit::Int`. -/
def LitVal.Canonical : LitVal → Prop
  | .int v => v < 0
  | _ => True

/-- C37: every `Lit` in range, with finite float and not a non-negative `Lit::Int`, survives printing and parsing. -/
theorem C37_roundtrip (laws : FloatLaws) (l : LitVal) (hr : Spec.LitVal.InRange l) (hf : Spec.LitVal.Finite l) (hc : LitVal.Canonical l)
    (sp : Span) (s : PState) (rest : List TT) :
    ∃ toks, litToTokens l sp = some toks ∧ (s.cur = toks ++ rest → litParse s = .ok (l, sp) { s with cur := rest }) := by
  cases l with
  | bool v => obtain ⟨t, h1, h2⟩ := C36_bool v sp s rest; exact ⟨t, h1, fun h => (C35_bool _ _ _ _).mpr (h2 h)⟩
  | byte v => obtain ⟨t, h1, h2⟩ := C36_byte v sp s rest; exact ⟨t, h1, fun h => (C35_byte _ _ _ _).mpr (h2 h)⟩
  | int v =>
    obtain ⟨t, h1, h2⟩ := C36_int v hr sp s rest
    refine ⟨t, h1, fun h => (C35_int _ _ _ _).mpr ⟨h2 h, v.natAbs, rest, ?_⟩⟩
    have := intAt_printed v sp rest
    rw [decide_eq_true (show v < 0 from hc)] at this
    injection h1 with h1
    rw [h, ← h1]
    exact this
  | uint v => obtain ⟨t, h1, h2⟩ := C36_uint v hr sp s rest; exact ⟨t, h1, fun h => (C35_uint _ _ _ _).mpr (h2 h)⟩
  | float v => obtain ⟨t, h1, h2⟩ := C36_float laws v hf sp s rest; exact ⟨t, h1, fun h => (C35_float _ _ _ _).mpr (h2 h)⟩
  | char v => obtain ⟨t, h1, h2⟩ := C36_char v sp s rest; exact ⟨t, h1, fun h => (C35_char _ _ _ _).mpr (h2 h)⟩
  | str v => obtain ⟨t, h1, h2⟩ := C36_str v sp s rest; exact ⟨t, h1, fun h => (C35_str _ _ _ _).mpr (h2 h)⟩
  | byteStr v => obtain ⟨t, h1, h2⟩ := C36_byteStr v sp s rest; exact ⟨t, h1, fun h => (C35_byteStr _ _ _ _).mpr (h2 h)⟩

/-- C37 (the exception): every non-negative `Lit::Int` reads back as `Lit::Uint`, which is a different value. -/
theorem C37_nonneg_int_changes (v : Nat) (hv : InI64 v) (sp : Span) (s : PState) (rest : List TT) :
    ∃ toks, litToTokens (.int v) sp = some toks ∧ (s.cur = toks ++ rest → litParse s = .ok (.uint v, sp) { s with cur := rest }) ∧
      LitVal.int v ≠ LitVal.uint v := by
  refine ⟨_, rfl, fun h => ?_, by simp⟩
  rw [C35_uint, C34_uint]
  refine ⟨rest, ?_, ?_, rfl⟩
  · rw [h]; exact intAt_printed v sp rest
  · unfold InI64 at hv; unfold InU64; omega

/-- C37 (refutation of the unrestricted claim): the input `-0` parses as a `Lit` whose printed form parses as a different `Lit`. -/
theorem C37_minus_zero_refuted (sp : Span) : ∃ (l l' : LitVal) (toks : List TT) (s1 s2 : PState),
    litParse ⟨[.punct '-' .alone sp, .lit "0".toList sp], .callSite, none⟩ = .ok (l, sp) s1 ∧
    litToTokens l sp = some toks ∧ litParse ⟨toks, .callSite, none⟩ = .ok (l', sp) s2 ∧ l ≠ l' := by
  refine ⟨.int 0, .uint 0, [.lit "0".toList sp], ⟨[], .callSite, none⟩, ⟨[], .callSite, none⟩, ?_, rfl, rfl, by simp⟩
  rw [C35_int, C34_int]
  have h : IntAt [.punct '-' .alone sp, .lit "0".toList sp] true 0 sp [] := by
    have := IntAt.minus (ts := [.punct '-' .alone sp, .lit "0".toList sp]) (next_cons (by simp) _) (next_cons (by simp) [])
      ((readNat_iff _ _).mp (show readNat "0".toList = some 0 by decide))
    rw [join_self] at this
    exact this
  exact ⟨⟨true, 0, [], h, by decide, by unfold InI64; decide, rfl⟩, 0, [], h⟩

/-- C38 (literals): printing a literal panics exactly for an infinite float. -/
theorem C38_literal_panics_iff (l : LitVal) (sp : Span) :
    litToTokens l sp = none ↔ ∃ x, l = .float x ∧ Ext.finite x = false := by
  cases l with
  | float x =>
    unfold litToTokens floatLiteral
    cases hx : Ext.finite x with
    | false => simp [hx]
    | true => simp [hx]
  | byte b =>
    obtain ⟨repr, h1, _⟩ := C33_every_byte b
    unfold litToTokens
    simp [h1]
  | bool v => simp [litToTokens]
  | int v => simp [litToTokens]
  | uint v => simp [litToTokens]
  | char v => simp [litToTokens]
  | str v => simp [litToTokens]
  | byteStr v => simp [litToTokens]

/-- C38 (refutation of the unrestricted claim): if reading `1e999` overflows to infinity (as it does for `f64`), then the literal
`1e999` parses as a `LitFloat` that cannot be printed. -/
theorem C38_overflowing_float_refuted (x : Ext.F) (h1 : Ext.floatOf "1e999".toList = some x) (h2 : Ext.finite x = false) (sp : Span) :
    litFloatParse ⟨[.lit "1e999".toList sp], .callSite, none⟩ = .ok (x, sp) ⟨[], .callSite, none⟩ ∧ litToTokens (.float x) sp = none := by
  refine ⟨?_, (C38_literal_panics_iff _ _).mpr ⟨x, rfl, h2⟩⟩
  rw [litFloatParse_ok]
  exact ⟨"1e999".toList, rfl, h1⟩

example : @Ext.floatOf toyExt "1e999".toList = some none ∧ @Ext.finite toyExt none = false := ⟨rfl, rfl⟩

end

end Parsel
