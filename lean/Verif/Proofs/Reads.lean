import Verif.Spec.Grammar
import Verif.Proofs.Mono
import Verif.Props.Literal

/-! What a successful parse has read (C11, C14, C15, C32). -/

namespace Parsel
open Spec

section

theorem dissolve_append : ∀ (a b : List TT), dissolve (a ++ b) = dissolve a ++ dissolve b
  | [], b => rfl
  | t :: ts, b => by simp only [List.cons_append, dissolve, dissolve_append ts b, List.append_assoc]

theorem dissolveT_not_none {t : TT} (h : ∀ inner sp, t ≠ .group .none inner sp) : ∃ t', dissolveT t = [t'] := by
  cases t with
  | group d inner sp => cases d <;> first | exact ⟨_, rfl⟩ | exact absurd rfl (h inner sp)
  | ident => exact ⟨_, rfl⟩
  | punct => exact ⟨_, rfl⟩
  | lit => exact ⟨_, rfl⟩

theorem dissolve_next {ts rest : List TT} {t : TT} (h : Next ts t rest) : dissolve ts = dissolveT t ++ dissolve rest := by
  induction h with
  | here h => rfl
  | enter _ ih => rw [← ih, dissolve_append]; rfl

theorem dissolve_eq_nil_iff (ts : List TT) : dissolve ts = [] ↔ uncons ts = none := by
  constructor
  · intro h
    cases hu : uncons ts with
    | none => rfl
    | some x =>
      obtain ⟨t, rest⟩ := x
      have hn := (uncons_iff _ _ _).mp hu
      obtain ⟨t', ht⟩ := dissolveT_not_none (next_not_none hn)
      rw [dissolve_next hn, ht] at h
      cases h
  · exact dissolve_of_uncons_none ts
where
  dissolve_of_uncons_none : ∀ ts, uncons ts = none → dissolve ts = []
    | [], _ => rfl
    | t :: ts, h => by
      simp only [uncons] at h
      cases hu : unconsT t with
      | some x => rw [hu] at h; cases h
      | none =>
        rw [hu] at h
        simp only [dissolve, dissolveT_of_none t hu, dissolve_of_uncons_none ts h, List.append_nil]
  dissolveT_of_none : ∀ t, unconsT t = none → dissolveT t = []
    | .group .none inner _, h => by
      simp only [unconsT] at h
      simp only [dissolveT, dissolve_of_uncons_none inner h]
    | .group .paren _ _, h => by simp [unconsT] at h
    | .group .bracket _ _, h => by simp [unconsT] at h
    | .group .brace _ _, h => by simp [unconsT] at h
    | .ident _ _, h => by simp [unconsT] at h
    | .punct _ _ _, h => by simp [unconsT] at h
    | .lit _ _, h => by simp [unconsT] at h

theorem dropUnexp_isSome (s : PState) : s.dropUnexp.isSome = (s.unexp.isSome || !(dissolve s.cur).isEmpty) := by
  unfold PState.dropUnexp unexpectedSpan
  cases hx : s.unexp with
  | some x => rfl
  | none =>
    show (Option.map _ _).isSome = _
    cases hu : uncons s.cur with
    | none => rw [(dissolve_eq_nil_iff _).mpr hu]; rfl
    | some y =>
      have : dissolve s.cur ≠ [] := fun h => by rw [(dissolve_eq_nil_iff _).mp h] at hu; cases hu
      cases hd : dissolve s.cur with
      | nil => exact absurd hd this
      | cons => rfl

end

variable [Ext]

/-! ### leaves -/

omit [Ext] in
theorem intAt_dissolve {ts rest : List TT} {neg : Bool} {n : Nat} {sp : Span} (h : IntAt ts neg n sp rest) :
    ∃ pre, dissolve ts = pre ++ dissolve rest ∧ IntAt pre neg n sp [] := by
  cases h with
  | plain h1 h2 => exact ⟨_, dissolve_next h1, .plain (.here (by simp)) h2⟩
  | minus h1 h2 h3 =>
    exact ⟨_ :: [_], by rw [dissolve_next h1, dissolve_next h2]; rfl, .minus (.here (by simp)) (.here (by simp)) h3⟩
  | inside h1 h2 => exact ⟨_, dissolve_next h1, .inside (.here (by simp)) h2⟩

/-- Tokens of a `syn` literal. -/
inductive SynTokens : List TT → SynTok → Span → Prop
  | bool (b : Bool) (sp : Span) : SynTokens [.ident (if b then "true".toList else "false".toList) sp] (.bool b) sp
  | lit {r sp l} : readLit r = some l → SynTokens [.lit r sp] (.lit l) sp
  | minusInt {spc sp1 r sp2 d} : readIntDigits ('-' :: r) = some d →
      SynTokens [.punct '-' spc sp1, .lit r sp2] (.lit (.int d)) (sp1.join sp2)
  | minusFloat {spc sp1 r sp2 d} : readIntDigits ('-' :: r) = none → readFloatDigits ('-' :: r) = some d →
      SynTokens [.punct '-' spc sp1, .lit r sp2] (.lit (.float d)) (sp1.join sp2)

omit [Ext] in
theorem synLit_tokens {s s' : PState} {t : SynTok} {sp : Span} (h : synLitParse s = .ok (t, sp) s') :
    ∃ pre rest, dissolve s.cur = pre ++ dissolve rest ∧ SynTokens pre t sp ∧ s' = { s with cur := rest } := by
  unfold synLitParse at h
  split at h
  · rename_i repr sp' rest hu
    split at h
    · rename_i l hl
      simp only [Res.ok.injEq, Prod.mk.injEq] at h
      obtain ⟨⟨rfl, rfl⟩, rfl⟩ := h
      exact ⟨_, rest, dissolve_next ((uncons_iff _ _ _).mp hu), .lit hl, rfl⟩
    · cases h
  · rename_i x sp' rest hu
    split at h
    · rename_i hx
      simp only [Res.ok.injEq, Prod.mk.injEq] at h
      obtain ⟨⟨rfl, rfl⟩, rfl⟩ := h
      subst hx
      exact ⟨_, rest, dissolve_next ((uncons_iff _ _ _).mp hu), .bool true _, rfl⟩
    · split at h
      · rename_i hx
        simp only [Res.ok.injEq, Prod.mk.injEq] at h
        obtain ⟨⟨rfl, rfl⟩, rfl⟩ := h
        subst hx
        exact ⟨_, rest, dissolve_next ((uncons_iff _ _ _).mp hu), .bool false _, rfl⟩
      · cases h
  · rename_i spc sp1 rest hu
    split at h
    · rename_i repr sp2 rest2 hu2
      have e : dissolve s.cur = [.punct '-' spc sp1, .lit repr sp2] ++ dissolve rest2 := by
        rw [dissolve_next ((uncons_iff _ _ _).mp hu), dissolve_next ((uncons_iff _ _ _).mp hu2)]; rfl
      split at h
      · rename_i d hd
        simp only [Res.ok.injEq, Prod.mk.injEq] at h
        obtain ⟨⟨rfl, rfl⟩, rfl⟩ := h
        exact ⟨_, rest2, e, .minusInt hd, rfl⟩
      · rename_i hn
        split at h
        · rename_i d hd
          simp only [Res.ok.injEq, Prod.mk.injEq] at h
          obtain ⟨⟨rfl, rfl⟩, rfl⟩ := h
          exact ⟨_, rest2, e, .minusFloat hn hd, rfl⟩
        · cases h
    · cases h
  · cases h

theorem litKind_reads {k : LitKind} {s s' : PState} {v : LitVal} {sp : Span} (h : litKindParse k s = .ok (v, sp) s') :
    ∃ pre rest, dissolve s.cur = pre ++ dissolve rest ∧ LitTokens pre v sp ∧ s' = { s with cur := rest } := by
  have hbool : ∀ b, litBoolParse s = .ok (b, sp) s' →
      ∃ pre rest, dissolve s.cur = pre ++ dissolve rest ∧ LitTokens pre (.bool b) sp ∧ s' = { s with cur := rest } := by
    intro b hb
    unfold litBoolParse at hb
    rw [synKind_ok] at hb
    obtain ⟨t, ht, hp⟩ := hb
    obtain ⟨pre, rest, h1, h2, h3⟩ := synLit_tokens ht
    refine ⟨pre, rest, h1, ?_, h3⟩
    cases h2 <;> simp at hp
    subst hp; exact .bool _ _
  have hbyte : ∀ b, litByteParse s = .ok (b, sp) s' →
      ∃ pre rest, dissolve s.cur = pre ++ dissolve rest ∧ LitTokens pre (.byte b) sp ∧ s' = { s with cur := rest } := by
    intro b hb
    unfold litByteParse at hb
    rw [synKind_ok] at hb
    obtain ⟨t, ht, hp⟩ := hb
    obtain ⟨pre, rest, h1, h2, h3⟩ := synLit_tokens ht
    refine ⟨pre, rest, h1, ?_, h3⟩
    cases h2 with
    | lit hl => split at hp <;> simp at hp; rename_i he; injection he with he; subst he; subst hp; exact .byte hl
    | bool => simp at hp
    | minusInt => simp at hp
    | minusFloat => simp at hp
  have hchar : ∀ b, litCharParse s = .ok (b, sp) s' →
      ∃ pre rest, dissolve s.cur = pre ++ dissolve rest ∧ LitTokens pre (.char b) sp ∧ s' = { s with cur := rest } := by
    intro b hb
    unfold litCharParse at hb
    rw [synKind_ok] at hb
    obtain ⟨t, ht, hp⟩ := hb
    obtain ⟨pre, rest, h1, h2, h3⟩ := synLit_tokens ht
    refine ⟨pre, rest, h1, ?_, h3⟩
    cases h2 with
    | lit hl => split at hp <;> simp at hp; rename_i he; injection he with he; subst he; subst hp; exact .char hl
    | bool => simp at hp
    | minusInt => simp at hp
    | minusFloat => simp at hp
  have hstr : ∀ b, litStrParse s = .ok (b, sp) s' →
      ∃ pre rest, dissolve s.cur = pre ++ dissolve rest ∧ LitTokens pre (.str b) sp ∧ s' = { s with cur := rest } := by
    intro b hb
    unfold litStrParse at hb
    rw [synKind_ok] at hb
    obtain ⟨t, ht, hp⟩ := hb
    obtain ⟨pre, rest, h1, h2, h3⟩ := synLit_tokens ht
    refine ⟨pre, rest, h1, ?_, h3⟩
    cases h2 with
    | lit hl => split at hp <;> simp at hp; rename_i he; injection he with he; subst he; subst hp; exact .str hl
    | bool => simp at hp
    | minusInt => simp at hp
    | minusFloat => simp at hp
  have hbstr : ∀ b, litByteStrParse s = .ok (b, sp) s' →
      ∃ pre rest, dissolve s.cur = pre ++ dissolve rest ∧ LitTokens pre (.byteStr b) sp ∧ s' = { s with cur := rest } := by
    intro b hb
    unfold litByteStrParse at hb
    rw [synKind_ok] at hb
    obtain ⟨t, ht, hp⟩ := hb
    obtain ⟨pre, rest, h1, h2, h3⟩ := synLit_tokens ht
    refine ⟨pre, rest, h1, ?_, h3⟩
    cases h2 with
    | lit hl => split at hp <;> simp at hp; rename_i he; injection he with he; subst he; subst hp; exact .byteStr hl
    | bool => simp at hp
    | minusInt => simp at hp
    | minusFloat => simp at hp
  have hint : ∀ b, litIntParse s = .ok (b, sp) s' →
      ∃ pre rest, dissolve s.cur = pre ++ dissolve rest ∧ LitTokens pre (.int b) sp ∧ s' = { s with cur := rest } := by
    intro b hb
    obtain ⟨neg, n, rest, h1, rfl, _, h3⟩ := (C34_int _ _ _ _).mp hb
    obtain ⟨pre, h4, h5⟩ := intAt_dissolve h1
    exact ⟨pre, rest, h4, .int h5, h3⟩
  have huint : ∀ b, litUintParse s = .ok (b, sp) s' →
      ∃ pre rest, dissolve s.cur = pre ++ dissolve rest ∧ LitTokens pre (.uint b) sp ∧ s' = { s with cur := rest } := by
    intro b hb
    obtain ⟨rest, h1, _, h3⟩ := (C34_uint _ _ _ _).mp hb
    obtain ⟨pre, h4, h5⟩ := intAt_dissolve h1
    exact ⟨pre, rest, h4, .uint h5, h3⟩
  have hfloat : ∀ b, litFloatParse s = .ok (b, sp) s' →
      ∃ pre rest, dissolve s.cur = pre ++ dissolve rest ∧ LitTokens pre (.float b) sp ∧ s' = { s with cur := rest } := by
    intro b hb
    rw [litFloatParse_ok] at hb
    obtain ⟨d, ht, hp⟩ := hb
    obtain ⟨pre, rest, h1, h2, h3⟩ := synLit_tokens ht
    refine ⟨pre, rest, h1, ?_, h3⟩
    cases h2 with
    | lit hl => exact .float hl hp
    | minusFloat hn hl => exact .minusFloat (fun n h => by rw [readIntDigits_minus h] at hn; cases hn) hl hp
  have split3 : ∀ {α : Type} {r : Res (α × Span)} {f : α → LitVal}, (r.map fun x => (f x.1, x.2)) = .ok (v, sp) s' →
      ∃ a, r = .ok (a, sp) s' ∧ v = f a := by
    intro α r f h
    obtain ⟨⟨a, sp'⟩, h1, h2⟩ := Res.map_ok.mp h
    injection h2 with h2 h3
    subst h3
    exact ⟨a, h1, h2.symm⟩
  cases k with
  | bool => obtain ⟨a, h', rfl⟩ := split3 h; exact hbool a h'
  | byte => obtain ⟨a, h', rfl⟩ := split3 h; exact hbyte a h'
  | int => obtain ⟨a, h', rfl⟩ := split3 h; exact hint a h'
  | uint => obtain ⟨a, h', rfl⟩ := split3 h; exact huint a h'
  | float => obtain ⟨a, h', rfl⟩ := split3 h; exact hfloat a h'
  | char => obtain ⟨a, h', rfl⟩ := split3 h; exact hchar a h'
  | str => obtain ⟨a, h', rfl⟩ := split3 h; exact hstr a h'
  | byteStr => obtain ⟨a, h', rfl⟩ := split3 h; exact hbstr a h'
  | any =>
    cases v with
    | bool b => exact hbool b ((C35_bool _ _ _ _).mp h)
    | byte b => exact hbyte b ((C35_byte _ _ _ _).mp h)
    | int b => exact hint b ((C35_int _ _ _ _).mp h).1
    | uint b => exact huint b ((C35_uint _ _ _ _).mp h)
    | float b => exact hfloat b ((C35_float _ _ _ _).mp h)
    | char b => exact hchar b ((C35_char _ _ _ _).mp h)
    | str b => exact hstr b ((C35_str _ _ _ _).mp h)
    | byteStr b => exact hbstr b ((C35_byteStr _ _ _ _).mp h)

omit [Ext] in
theorem punctLoop_reads : ∀ (tok : Text) (cur : List TT) (sps : List Span) (rest : List TT), punctLoop tok cur = some (sps, rest) →
    ∃ pre, dissolve cur = pre ++ dissolve rest ∧ PunctRun tok sps pre
  | [], cur, sps, rest, h => by
    simp only [punctLoop, Option.some.injEq, Prod.mk.injEq] at h
    obtain ⟨rfl, rfl⟩ := h
    exact ⟨[], rfl, .nil⟩
  | [c], cur, sps, rest, h => by
    simp only [punctLoop] at h
    split at h
    · rename_i c' spc sp rest' hu
      split at h
      · rename_i hc
        simp only [Option.some.injEq, Prod.mk.injEq] at h
        obtain ⟨rfl, rfl⟩ := h
        rw [← hc.2]
        exact ⟨_, dissolve_next ((uncons_iff _ _ _).mp hu), .last⟩
      · cases h
    · cases h
  | c :: c2 :: cs, cur, sps, rest, h => by
    simp only [punctLoop] at h
    split at h
    · rename_i c' spc sp rest' hu
      split at h
      · rename_i hc
        split at h
        · rename_i sps' rest'' hr
          simp only [Option.some.injEq, Prod.mk.injEq] at h
          obtain ⟨rfl, rfl⟩ := h
          obtain ⟨pre, h1, h2⟩ := punctLoop_reads (c2 :: cs) rest' sps' rest'' hr
          refine ⟨_ :: pre, by rw [dissolve_next ((uncons_iff _ _ _).mp hu), h1]; rfl, ?_⟩
          rw [← hc.2.1, hc.2.2]
          exact .more h2 (by simp)
        · cases h
      · cases h
    · cases h

theorem leaf_reads {l : Leaf} {s s' : PState} {v : LeafVal} (h : leafParse l s = .ok v s') :
    ∃ pre rest, dissolve s.cur = pre ++ dissolve rest ∧ LeafReads l v pre ∧ s' = { s with cur := rest } := by
  cases l with
  | empty =>
    simp only [leafParse, emptyParse, Res.map_okc, Res.ok.injEq] at h
    obtain ⟨rfl, rfl⟩ := h
    exact ⟨[], s.cur, rfl, .unit (.inl rfl), rfl⟩
  | eof =>
    simp only [leafParse, eofParse] at h
    split at h
    · simp only [Res.map_okc, Res.ok.injEq] at h
      obtain ⟨rfl, rfl⟩ := h
      exact ⟨[], s.cur, rfl, .unit (.inr (.inl rfl)), rfl⟩
    · cases h
  | notEof =>
    simp only [leafParse, notEofParse] at h
    split at h
    · cases h
    · simp only [Res.map_okc, Res.ok.injEq] at h
      obtain ⟨rfl, rfl⟩ := h
      exact ⟨[], s.cur, rfl, .unit (.inr (.inr rfl)), rfl⟩
  | customIdent kws =>
    obtain ⟨⟨x, sp⟩, h1, rfl⟩ := Res.map_ok.mp h
    obtain ⟨⟨y, sp'⟩, s1, h2, h3⟩ := Res.bind_ok.mp h1
    simp only [parseAnyIdent] at h2
    split at h2
    · rename_i z sp1 rest hu
      simp only [Res.ok.injEq, Prod.mk.injEq] at h2
      obtain ⟨⟨rfl, rfl⟩, rfl⟩ := h2
      simp only [customIdentTryFrom] at h3
      split at h3
      · rename_i hv
        split at hv
        · cases hv
        · simp only [Res.ok.injEq, Except.ok.injEq] at h3 hv
          subst hv
          obtain ⟨h4, rfl⟩ := h3
          injection h4 with h4 h5
          subst h4; subst h5
          exact ⟨_, rest, dissolve_next ((uncons_iff _ _ _).mp hu), .ident (.inl ⟨kws, rfl⟩), rfl⟩
      · cases h3
    · cases h2
  | rustIdent =>
    obtain ⟨⟨x, sp⟩, h1, rfl⟩ := Res.map_ok.mp h
    simp only [parseRustIdent] at h1
    split at h1
    · rename_i z sp1 rest hu
      split at h1
      · cases h1
      · simp only [Res.ok.injEq, Prod.mk.injEq] at h1
        obtain ⟨⟨rfl, rfl⟩, rfl⟩ := h1
        exact ⟨_, rest, dissolve_next ((uncons_iff _ _ _).mp hu), .ident (.inr rfl), rfl⟩
    · cases h1
  | keyword kw =>
    obtain ⟨sp, h1, rfl⟩ := Res.map_ok.mp h
    obtain ⟨⟨y, sp'⟩, s1, h2, h3⟩ := Res.bind_ok.mp h1
    simp only [parseAnyIdent] at h2
    split at h2
    · rename_i z sp1 rest hu
      simp only [Res.ok.injEq, Prod.mk.injEq] at h2
      obtain ⟨⟨rfl, rfl⟩, rfl⟩ := h2
      split at h3
      · rename_i hk
        simp only [Res.ok.injEq] at h3
        obtain ⟨rfl, rfl⟩ := h3
        simp only [] at hk
        subst hk
        exact ⟨_, rest, dissolve_next ((uncons_iff _ _ _).mp hu), .keyword, rfl⟩
      · cases h3
    · cases h2
  | kwToken kw =>
    obtain ⟨sp, h1, rfl⟩ := Res.map_ok.mp h
    simp only [parseKwToken] at h1
    split at h1
    · rename_i z sp1 rest hu
      split at h1
      · rename_i hk
        simp only [Res.ok.injEq] at h1
        obtain ⟨rfl, rfl⟩ := h1
        subst hk
        exact ⟨_, rest, dissolve_next ((uncons_iff _ _ _).mp hu), .kwToken, rfl⟩
      · cases h1
    · cases h1
  | punct tok =>
    obtain ⟨sps, h1, rfl⟩ := Res.map_ok.mp h
    simp only [parsePunct] at h1
    split at h1
    · rename_i sps' rest hp
      simp only [Res.ok.injEq] at h1
      obtain ⟨rfl, rfl⟩ := h1
      obtain ⟨pre, h2, h3⟩ := punctLoop_reads _ _ _ _ hp
      exact ⟨pre, rest, h2, .punct h3, rfl⟩
    · cases h1
  | lit k =>
    obtain ⟨⟨x, sp⟩, h1, rfl⟩ := Res.map_ok.mp h
    obtain ⟨pre, rest, h2, h3, h4⟩ := litKind_reads h1
    exact ⟨pre, rest, h2, .lit h3, h4⟩

/-! ### expressions -/

theorem readsL_append {i j : Bool} : ∀ {vs ws : List Val} {a b : List TT}, ReadsL i vs a → ReadsL j ws b → ReadsL (i || j) (vs ++ ws) (a ++ b)
  | [], ws, a, b, ha, hb => by
    simp only [ReadsL] at ha
    obtain ⟨rfl, rfl⟩ := ha
    simpa using hb
  | v :: vs, ws, a, b, ha, hb => by
    simp only [ReadsL] at ha
    obtain ⟨a1, a2, i1, i2, rfl, h1, h2, rfl⟩ := ha
    simp only [List.cons_append, ReadsL]
    exact ⟨a1, a2 ++ b, i1, i2 || j, by simp, h1, readsL_append h2 hb, by simp [Bool.or_assoc]⟩

theorem readsL_single {i : Bool} {v : Val} {a : List TT} : ReadsL i [v] a ↔ Reads i v a := by
  simp only [ReadsL]
  constructor
  · rintro ⟨a1, b, i1, j, rfl, h1, ⟨rfl, rfl⟩, rfl⟩; simpa using h1
  · intro h; exact ⟨a, [], i, false, by simp, h, ⟨rfl, rfl⟩, by simp⟩

theorem leftV_reads : ∀ {vs : List Val} {acc : Val} {i j : Bool} {a b : List TT}, Reads i acc a → ReadsL j vs b →
    Reads (i || j) (leftV acc vs) (a ++ b)
  | [], acc, i, j, a, b, h1, h2 => by
    simp only [ReadsL] at h2
    obtain ⟨rfl, rfl⟩ := h2
    simpa [leftV] using h1
  | [o], acc, i, j, a, b, h1, h2 => by
    have := readsL_append (readsL_single.mpr h1) h2
    simp only [leftV, Reads]; exact this
  | o :: r :: rest, acc, i, j, a, b, h1, h2 => by
    simp only [ReadsL] at h2
    obtain ⟨b1, b2, j1, j2, rfl, h4, ⟨b3, b4, j3, j4, rfl, h5, h6, rfl⟩, rfl⟩ := h2
    simp only [leftV]
    have : Reads (i || (j1 || j3)) (.node .leftBin [acc, o, r]) (a ++ (b1 ++ b3)) := by
      simp only [Reads, ReadsL]
      exact ⟨a, b1 ++ b3, i, j1 || j3, rfl, h1, ⟨b1, b3, j1, j3, rfl, h4, ⟨b3, [], j3, false, by simp, h5, ⟨rfl, rfl⟩, by simp⟩, rfl⟩, rfl⟩
    have := leftV_reads this h6
    simpa [Bool.or_assoc] using this

theorem rightV_reads : ∀ {vs : List Val} {v0 : Val} {i j : Bool} {a b : List TT}, Reads i v0 a → ReadsL j vs b →
    Reads (i || j) (rightV v0 vs) (a ++ b)
  | [], v0, i, j, a, b, h1, h2 => by
    simp only [ReadsL] at h2
    obtain ⟨rfl, rfl⟩ := h2
    simp only [rightV, Reads]
    simpa using readsL_single.mpr h1
  | [o], acc, i, j, a, b, h1, h2 => by
    have := readsL_append (readsL_single.mpr h1) h2
    simp only [rightV, Reads]; exact this
  | o :: r :: rest, v0, i, j, a, b, h1, h2 => by
    simp only [ReadsL] at h2
    obtain ⟨b1, b2, j1, j2, rfl, h4, ⟨b3, b4, j3, j4, rfl, h5, h6, rfl⟩, rfl⟩ := h2
    simp only [rightV]
    have := rightV_reads h5 h6
    simp only [Reads, ReadsL]
    exact ⟨a, b1 ++ (b3 ++ b4), i, j1 || (j3 || j4), rfl, h1, ⟨b1, b3 ++ b4, j1, j3 || j4, rfl, h4, readsL_single.mpr this, rfl⟩, rfl⟩

theorem build_reads {bu : Builder} {vs : List Val} {i : Bool} {a : List TT} (h : ReadsL i vs a) : Reads i (bu.apply vs) a := by
  cases bu with
  | node tag => exact h
  | left =>
    cases vs with
    | nil => exact h
    | cons v vs =>
      simp only [ReadsL] at h
      obtain ⟨a1, a2, i1, i2, rfl, h1, h2, rfl⟩ := h
      have h1' : Reads i1 (.node .leftRhs [v]) a1 := by simpa only [Reads] using readsL_single.mpr h1
      exact leftV_reads h1' h2
  | right =>
    cases vs with
    | nil => exact h
    | cons v vs =>
      simp only [ReadsL] at h
      obtain ⟨a1, a2, i1, i2, rfl, h1, h2, rfl⟩ := h
      exact rightV_reads h1 h2

/-- What a step has done to the stream. -/
def StepReads (s : PState) (vs : List Val) (s' : PState) : Prop :=
  s'.scope = s.scope ∧ ∃ pre i, dissolve s.cur = pre ++ dissolve s'.cur ∧ ReadsL i vs pre ∧ s'.unexp.isSome = (s.unexp.isSome || i)

theorem StepReads.refl (s : PState) : StepReads s [] s := ⟨rfl, [], false, rfl, by simp [ReadsL], by simp⟩

theorem StepReads.trans {s s1 s2 : PState} {vs ws : List Val} (h1 : StepReads s vs s1) (h2 : StepReads s1 ws s2) :
    StepReads s (vs ++ ws) s2 := by
  obtain ⟨e1, p1, i1, d1, r1, u1⟩ := h1
  obtain ⟨e2, p2, i2, d2, r2, u2⟩ := h2
  exact ⟨e2.trans e1, p1 ++ p2, i1 || i2, by rw [d1, d2, List.append_assoc], readsL_append r1 r2, by rw [u2, u1, Bool.or_assoc]⟩

theorem StepReads.advance {s f : PState} {vs : List Val} (h : StepReads s.fork vs f) : StepReads s vs (s.advanceTo f) := by
  obtain ⟨e, p, i, d, r, u⟩ := h
  refine ⟨rfl, p, i, d, r, ?_⟩
  have hf : f.unexp.isSome = i := by rw [u]; rfl
  unfold PState.advanceTo
  cases hx : s.unexp with
  | some x => rfl
  | none => simpa using hf

theorem termN_reads {pa pb : Parser (List Val)} (ha : ∀ s vs s', pa s = .ok vs s' → StepReads s vs s')
    (hb : ∀ s vs s', pb s = .ok vs s' → StepReads s vs s') : ∀ k s vs s', termN pa pb k s = .ok vs s' → StepReads s vs s'
  | 0, _, _, _, h => by cases h
  | k + 1, s, vs, s', h => by
    simp only [termN] at h
    split at h
    · simp only [Res.ok.injEq] at h; obtain ⟨rfl, rfl⟩ := h; exact .refl _
    · obtain ⟨v1, s1, h1, h2⟩ := Res.bind_ok.mp h
      split at h2
      · simp only [Res.ok.injEq] at h2; obtain ⟨rfl, rfl⟩ := h2; exact ha _ _ _ h1
      · obtain ⟨v2, s2, h3, h4⟩ := Res.bind_ok.mp h2
        obtain ⟨r, h5, rfl⟩ := Res.map_ok.mp h4
        exact (ha _ _ _ h1).trans ((hb _ _ _ h3).trans (termN_reads ha hb k s2 r s' h5))

theorem starN_reads {pa pb : Parser (List Val)} (ha : ∀ s vs s', pa s = .ok vs s' → StepReads s vs s')
    (hb : ∀ s vs s', pb s = .ok vs s' → StepReads s vs s') : ∀ k s vs s', starN pa pb k s = .ok vs s' → StepReads s vs s'
  | 0, _, _, _, h => by cases h
  | k + 1, s, vs, s', h => by
    simp only [starN] at h
    cases h1 : pa s.fork with
    | ok v1 f =>
      rw [h1] at h
      obtain ⟨v2, s2, h3, h4⟩ := Res.bind_ok.mp h
      obtain ⟨r, h5, rfl⟩ := Res.map_ok.mp h4
      exact (ha _ _ _ h1).advance.trans ((hb _ _ _ h3).trans (starN_reads ha hb k s2 r s' h5))
    | err e => rw [h1] at h; simp only [Res.ok.injEq] at h; obtain ⟨rfl, rfl⟩ := h; exact .refl _
    | panic => rw [h1] at h; cases h
    | oof => rw [h1] at h; cases h

theorem delimited_reads {d : Delim} {p : Parser Val} (hd : d ≠ .none) (hp : ∀ s v s', p s = .ok v s' → StepReads s [v] s')
    {s s' : PState} {sp : Span} {v : Val} (h : delimited d p s = .ok (sp, v) s') : StepReads s [.group d sp v] s' := by
  simp only [delimited] at h
  split at h
  · rename_i d' inner sp' rest hu
    split at h
    · rename_i hd'
      subst hd'
      obtain ⟨v1, s1, h1, h2⟩ := Res.bind_ok.mp h
      simp only [Res.ok.injEq, Prod.mk.injEq] at h2
      obtain ⟨⟨rfl, rfl⟩, rfl⟩ := h2
      obtain ⟨e, pre, i, hdis, hr, hu1⟩ := hp _ _ _ h1
      refine ⟨rfl, [.group d' (pre ++ dissolve s1.cur) sp'], i || !(dissolve s1.cur).isEmpty, ?_, ?_, ?_⟩
      · rw [dissolve_next ((uncons_iff _ _ _).mp hu)]
        simp only [] at hdis
        rw [← hdis]
        cases d' <;> first | rfl | exact absurd rfl hd
      · rw [readsL_single] at hr ⊢
        exact ⟨pre, _, i, rfl, hr, rfl⟩
      · show s1.dropUnexp.isSome = _
        rw [dropUnexp_isSome, hu1, Bool.or_assoc]
    · cases h
  · cases h

/-- The delimiters used by an expression are visible. -/
def E.Visible : E → Prop
  | .delim d _ => d ≠ .none
  | .seq a b => a.Visible ∧ b.Visible
  | .label _ _ _ a => a.Visible
  | .attempt a => a.Visible
  | .opt a b => a.Visible ∧ b.Visible
  | .alt a b => a.Visible ∧ b.Visible
  | .term a b => a.Visible ∧ b.Visible
  | .star a b => a.Visible ∧ b.Visible
  | .build _ a => a.Visible
  | _ => True

theorem exec_reads {P : Ty → Parser Val} (hP : ∀ t s v s', P t s = .ok v s' → StepReads s [v] s') (k : Nat) :
    ∀ (e : E), e.Visible → ∀ s vs s', exec P k e s = .ok vs s' → StepReads s vs s' := by
  intro e
  induction e with
  | ret => intro _ s vs s' h; simp only [exec, Res.ok.injEq] at h; obtain ⟨rfl, rfl⟩ := h; exact .refl _
  | leaf l =>
    intro _ s vs s' h
    obtain ⟨v, h1, rfl⟩ := Res.map_ok.mp h
    obtain ⟨pre, rest, h2, h3, rfl⟩ := leaf_reads h1
    exact ⟨rfl, pre, false, h2, readsL_single.mpr ⟨rfl, h3⟩, by simp⟩
  | ty t => intro _ s vs s' h; obtain ⟨v, h1, rfl⟩ := Res.map_ok.mp h; exact hP _ _ _ _ h1
  | delim d t =>
    intro hv s vs s' h
    obtain ⟨⟨sp, v⟩, h1, rfl⟩ := Res.map_ok.mp h
    exact delimited_reads hv (hP t) h1
  | fail msg => intro _ s vs s' h; cases h
  | seq a b iha ihb =>
    intro hv s vs s' h
    obtain ⟨v1, s1, h1, h2⟩ := Res.bind_ok.mp h
    obtain ⟨v2, h3, rfl⟩ := Res.map_ok.mp h2
    exact (iha hv.1 _ _ _ h1).trans (ihb hv.2 _ _ _ h3)
  | label en c f a iha => intro hv s vs s' h; exact iha hv _ _ _ (Res.mapErr_ok.mp h)
  | attempt a iha =>
    intro hv s vs s' h
    simp only [exec] at h
    cases h1 : exec P k a s.fork with
    | ok v1 f => rw [h1] at h; simp only [Res.ok.injEq] at h; obtain ⟨rfl, rfl⟩ := h; exact (iha hv _ _ _ h1).advance
    | err e => rw [h1] at h; cases h
    | panic => rw [h1] at h; cases h
    | oof => rw [h1] at h; cases h
  | opt a b iha ihb =>
    intro hv s vs s' h
    simp only [exec] at h
    cases h1 : exec P k a s.fork with
    | ok v1 f =>
      rw [h1] at h
      obtain ⟨v2, h3, rfl⟩ := Res.map_ok.mp h
      exact (iha hv.1 _ _ _ h1).advance.trans (ihb hv.2 _ _ _ h3)
    | err e => rw [h1] at h; simp only [Res.ok.injEq] at h; obtain ⟨rfl, rfl⟩ := h; exact .refl _
    | panic => rw [h1] at h; cases h
    | oof => rw [h1] at h; cases h
  | alt a b iha ihb =>
    intro hv s vs s' h
    simp only [exec] at h
    cases h1 : exec P k a s with
    | ok v1 f => rw [h1] at h; simp only [Res.ok.injEq] at h; obtain ⟨rfl, rfl⟩ := h; exact iha hv.1 _ _ _ h1
    | err e =>
      rw [h1] at h
      simp only [] at h
      cases h2 : exec P k b s.fork with
      | ok v1 f => rw [h2] at h; simp only [Res.ok.injEq] at h; obtain ⟨rfl, rfl⟩ := h; exact (ihb hv.2 _ _ _ h2).advance
      | err e => rw [h2] at h; cases h
      | panic => rw [h2] at h; cases h
      | oof => rw [h2] at h; cases h
    | panic => rw [h1] at h; cases h
    | oof => rw [h1] at h; cases h
  | term a b iha ihb => intro hv s vs s' h; exact termN_reads (iha hv.1) (ihb hv.2) k _ _ _ h
  | star a b iha ihb => intro hv s vs s' h; exact starN_reads (iha hv.1) (ihb hv.2) k _ _ _ h
  | build bu a iha =>
    intro hv s vs s' h
    obtain ⟨v, h1, rfl⟩ := Res.map_ok.mp h
    obtain ⟨e, pre, i, hd, hr, hu⟩ := iha hv _ _ _ h1
    exact ⟨e, pre, i, hd, readsL_single.mpr (build_reads hr), hu⟩

theorem initsE_visible (is : List (FieldInit Ty)) : (initsE is).Visible := by
  induction is with
  | nil => trivial
  | cons i is ih => exact ⟨trivial, ih⟩

theorem altsE_visible (x : Text) (cs : List (CtorCode Ty)) : ∀ e : E, e.Visible → (altsE x e cs).Visible := by
  induction cs with
  | nil => intro e h; exact h
  | cons c cs ih => intro e h; exact ih _ ⟨h, initsE_visible _⟩

theorem body_visible (env : Env) (t : Ty) : (body env t).Visible := by
  cases t with
  | named x =>
    simp only [body]
    cases env.code x with
    | struct c => exact initsE_visible _
    | enum cs =>
      cases cs with
      | nil => trivial
      | cons c cs => exact altsE_visible x cs _ (initsE_visible _)
  | _ => simp [body, E.Visible]

theorem parse_reads (env : Env) : ∀ (n : Nat) (t : Ty) (s : PState) (v : Val) (s' : PState), parse env n t s = .ok v s' → StepReads s [v] s'
  | 0, _, _, _, _, h => by cases h
  | n + 1, t, s, v, s', h => by
    have h1 : exec (parse env n) n (body env t) s = .ok [v] s' := by rw [← parse_core, h]; rfl
    exact exec_reads (fun t s v s' h => parse_reads env n t s v s' h) n _ (body_visible env t) _ _ _ h1

end Parsel
