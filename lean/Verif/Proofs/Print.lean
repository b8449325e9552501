import Verif.Proofs.Reads

/-! Printing values and the tokens they stand for (C11, C38). -/

namespace Parsel
open Spec
variable [Ext]

theorem Spec.SameTokens.append {a b a' b' : List TT} (h : SameTokens a b) (h' : SameTokens a' b') : SameTokens (a ++ a') (b ++ b') := by
  induction h with
  | nil => exact h'
  | ident _ ih => exact .ident ih
  | punct _ ih => exact .punct ih
  | group h1 _ _ ih => exact .group h1 ih
  | lit h1 h2 _ ih => rw [List.append_assoc, List.append_assoc]; exact .lit h1 h2 ih

theorem litTokens_of_parse {k : LitKind} {toks : List TT} {v : LitVal} {sp : Span}
    (h : litKindParse k ⟨toks, sp, none⟩ = .ok (v, sp) ⟨[], sp, none⟩) : LitTokens (dissolve toks) v sp := by
  obtain ⟨pre, rest, h1, h2, h3⟩ := litKind_reads h
  simp only [PState.mk.injEq, and_true] at h3
  subst h3
  simp only [dissolve, List.append_nil] at h1
  rw [h1]; exact h2

omit [Ext] in
theorem dissolve_pushLiteral (r : Text) (sp : Span) : dissolve (pushLiteral r sp) = pushLiteral r sp := by
  unfold pushLiteral; split <;> rfl

theorem dissolve_litToTokens {l : LitVal} {sp : Span} {out : List TT} (h : litToTokens l sp = some out) : dissolve out = out := by
  cases l with
  | bool b => simp only [litToTokens, Option.some.injEq] at h; subst h; rfl
  | byte b => obtain ⟨r, _, rfl⟩ := Option.map_eq_some_iff.mp h; exact dissolve_pushLiteral _ _
  | int v => simp only [litToTokens, Option.some.injEq] at h; subst h; exact dissolve_pushLiteral _ _
  | uint v => simp only [litToTokens, Option.some.injEq] at h; subst h; exact dissolve_pushLiteral _ _
  | float x => obtain ⟨r, _, rfl⟩ := Option.map_eq_some_iff.mp h; exact dissolve_pushLiteral _ _
  | char c => simp only [litToTokens, Option.some.injEq] at h; subst h; exact dissolve_pushLiteral _ _
  | str c => simp only [litToTokens, Option.some.injEq] at h; subst h; exact dissolve_pushLiteral _ _
  | byteStr c => simp only [litToTokens, Option.some.injEq] at h; subst h; exact dissolve_pushLiteral _ _

theorem litTokens_printed (laws : FloatLaws) {l : LitVal} {sp : Span} {out : List TT} (h : litToTokens l sp = some out) :
    LitTokens out l sp := by
  rw [← dissolve_litToTokens h]
  cases l with
  | bool b =>
    obtain ⟨t, h1, h2⟩ := C36_bool b sp ⟨out, sp, none⟩ []
    rw [h] at h1; injection h1 with h1; subst h1
    exact litTokens_of_parse (k := .bool) (by simp only [litKindParse, h2 (by simp)]; rfl)
  | byte b =>
    obtain ⟨t, h1, h2⟩ := C36_byte b sp ⟨out, sp, none⟩ []
    rw [h] at h1; injection h1 with h1; subst h1
    exact litTokens_of_parse (k := .byte) (by simp only [litKindParse, h2 (by simp)]; rfl)
  | int v =>
    simp only [litToTokens, Option.some.injEq] at h
    subst h
    rw [dissolve_pushLiteral]
    have := intAt_printed v sp []
    rw [List.append_nil] at this
    have h2 := LitTokens.int this
    rwa [signed_natAbs] at h2
  | uint v =>
    simp only [litToTokens, Option.some.injEq] at h
    subst h
    rw [dissolve_pushLiteral]
    have := intAt_printed (.ofNat v) sp []
    rw [List.append_nil] at this
    exact .uint this
  | float x =>
    have hx : Ext.finite x = true := by
      cases hf : Ext.finite x with
      | true => rfl
      | false => simp [litToTokens, floatLiteral, hf] at h
    obtain ⟨t, h1, h2⟩ := C36_float laws x hx sp ⟨out, sp, none⟩ []
    rw [h] at h1; injection h1 with h1; subst h1
    exact litTokens_of_parse (k := .float) (by simp only [litKindParse, h2 (by simp)]; rfl)
  | char c =>
    obtain ⟨t, h1, h2⟩ := C36_char c sp ⟨out, sp, none⟩ []
    rw [h] at h1; injection h1 with h1; subst h1
    exact litTokens_of_parse (k := .char) (by simp only [litKindParse, h2 (by simp)]; rfl)
  | str c =>
    obtain ⟨t, h1, h2⟩ := C36_str c sp ⟨out, sp, none⟩ []
    rw [h] at h1; injection h1 with h1; subst h1
    exact litTokens_of_parse (k := .str) (by simp only [litKindParse, h2 (by simp)]; rfl)
  | byteStr c =>
    obtain ⟨t, h1, h2⟩ := C36_byteStr c sp ⟨out, sp, none⟩ []
    rw [h] at h1; injection h1 with h1; subst h1
    exact litTokens_of_parse (k := .byteStr) (by simp only [litKindParse, h2 (by simp)]; rfl)

theorem punctRun_printed {tok : Text} {sps : List Span} {ts : List TT} (h : PunctRun tok sps ts) :
    SameTokens ts (punctTokens tok sps) := by
  induction h with
  | nil => exact .nil
  | last => exact .punct .nil
  | @more c sp tok sps ts h hne ih =>
    cases h with
    | nil => exact absurd rfl hne
    | last => exact .punct ih
    | more h hne' => exact .punct ih

theorem leaf_printed (laws : FloatLaws) {l : Leaf} {v : LeafVal} {ts out : List TT} (h : LeafReads l v ts)
    (ho : leafToTokens l v = some out) : SameTokens ts out := by
  cases h with
  | unit hl => simp only [leafToTokens, Option.some.injEq] at ho; subst ho; exact .nil
  | ident hl => simp only [leafToTokens, Option.some.injEq] at ho; subst ho; exact .ident .nil
  | keyword =>
    simp only [leafToTokens] at ho
    split at ho
    · injection ho with ho; subst ho; exact .ident .nil
    · cases ho
  | kwToken => simp only [leafToTokens, Option.some.injEq] at ho; subst ho; exact .ident .nil
  | punct hp => simp only [leafToTokens, Option.some.injEq] at ho; subst ho; exact punctRun_printed hp
  | lit hl =>
    simp only [leafToTokens] at ho
    have := SameTokens.lit hl (litTokens_printed laws ho) .nil
    simpa using this

mutual
theorem reads_printed (laws : FloatLaws) : ∀ (v : Val) (ts out : List TT), Reads false v ts → v.toTokens = some out → SameTokens ts out
  | .leaf l v, ts, out, h, ho => by
    simp only [Reads] at h
    simp only [Val.toTokens] at ho
    exact leaf_printed laws h.2 ho
  | .group d sp v, ts, out, h, ho => by
    simp only [Reads] at h
    obtain ⟨a, b, i, rfl, hr, hl⟩ := h
    simp only [Bool.false_eq, Bool.or_eq_false_iff, Bool.not_eq_false', List.isEmpty_iff] at hl
    obtain ⟨rfl, rfl⟩ := hl
    simp only [Val.toTokens] at ho
    obtain ⟨o, h1, rfl⟩ := Option.map_eq_some_iff.mp ho
    rw [List.append_nil]
    exact .group (reads_printed laws v a o hr h1) .nil
  | .node tag vs, ts, out, h, ho => by
    simp only [Reads] at h
    simp only [Val.toTokens] at ho
    exact readsL_printed laws vs ts out h ho
theorem readsL_printed (laws : FloatLaws) : ∀ (vs : List Val) (ts out : List TT), ReadsL false vs ts → Val.toTokensL vs = some out →
    SameTokens ts out
  | [], ts, out, h, ho => by
    simp only [ReadsL] at h
    simp only [Val.toTokensL, Option.some.injEq] at ho
    rw [h.2, ← ho]; exact .nil
  | v :: vs, ts, out, h, ho => by
    simp only [ReadsL] at h
    obtain ⟨a, b, i, j, rfl, h1, h2, hl⟩ := h
    simp only [Bool.false_eq, Bool.or_eq_false_iff] at hl
    obtain ⟨rfl, rfl⟩ := hl
    simp only [Val.toTokensL] at ho
    obtain ⟨o1, h3, h4⟩ := Option.bind_eq_some_iff.mp ho
    obtain ⟨o2, h5, rfl⟩ := Option.map_eq_some_iff.mp h4
    exact (reads_printed laws v a o1 h1 h3).append (readsL_printed laws vs b o2 h2 h5)
end

theorem litToTokens_isSome (l : LitVal) (sp : Span) : (litToTokens l sp).isSome = true ↔ Spec.LitVal.Finite l := by
  have h := C38_literal_panics_iff l sp
  cases ht : litToTokens l sp with
  | none =>
    obtain ⟨x, rfl, hx⟩ := h.mp ht
    simp [Spec.LitVal.Finite, hx]
  | some out =>
    simp only [Option.isSome_some, true_iff]
    cases l with
    | float x =>
      simp only [Spec.LitVal.Finite]
      cases hx : Ext.finite x with
      | true => rfl
      | false => rw [h.mpr ⟨x, rfl, hx⟩] at ht; cases ht
    | _ => trivial

mutual
theorem printable_iff : ∀ (v : Val) (i : Bool) (ts : List TT), Reads i v ts → (v.toTokens.isSome = true ↔ Printable v)
  | .leaf l v, i, ts, h => by
    simp only [Reads] at h
    simp only [Val.toTokens]
    cases h.2 with
    | unit hl => rcases hl with rfl | rfl | rfl <;> simp [leafToTokens, Printable]
    | ident hl => rcases hl with ⟨k, rfl⟩ | rfl <;> simp [leafToTokens, Printable]
    | keyword => rename_i kw sp; simp only [leafToTokens, Printable]; cases identOk kw <;> simp
    | kwToken => simp [leafToTokens, Printable]
    | punct hp => simp [leafToTokens, Printable]
    | lit hl => simp only [leafToTokens, Printable]; exact litToTokens_isSome _ _
  | .group d sp v, i, ts, h => by
    simp only [Reads] at h
    obtain ⟨a, b, i, rfl, hr, hl⟩ := h
    simp only [Val.toTokens, Printable, Option.isSome_map]
    exact printable_iff v _ _ hr
  | .node tag vs, i, ts, h => by
    simp only [Reads] at h
    simp only [Val.toTokens, Printable]
    exact printableL_iff vs _ _ h
theorem printableL_iff : ∀ (vs : List Val) (i : Bool) (ts : List TT), ReadsL i vs ts → ((Val.toTokensL vs).isSome = true ↔ PrintableL vs)
  | [], i, ts, h => by simp [Val.toTokensL, PrintableL]
  | v :: vs, i, ts, h => by
    simp only [ReadsL] at h
    obtain ⟨a, b, i, j, rfl, h1, h2, hl⟩ := h
    simp only [PrintableL, Val.toTokensL]
    rw [← printable_iff v _ _ h1, ← printableL_iff vs _ _ h2]
    cases v.toTokens with
    | none => simp
    | some a => simp
end

end Parsel
