import Verif.Spec.Peg
import Verif.Proofs.Mono
import Verif.Proofs.Origin
import Verif.Proofs.Typed
import Verif.Proofs.Reads
import Verif.Props.Literal
import Verif.Props.Combinators

/-! The parser model and the parsing expression grammar of Spec/Peg agree. -/

namespace Parsel
open Spec

variable [Ext]

/-! ### leaves -/

omit [Ext] in
theorem punctLoop_at : ∀ (tok : Text) (cur : List TT) (sps : List Span) (rest : List TT),
    punctLoop tok cur = some (sps, rest) ↔ PunctAt tok cur sps rest
  | [], cur, sps, rest => by
    constructor
    · intro h; simp only [punctLoop, Option.some.injEq, Prod.mk.injEq] at h; obtain ⟨rfl, rfl⟩ := h; exact .nil
    · intro h; cases h; rfl
  | [c], cur, sps, rest => by
    constructor
    · intro h
      unfold punctLoop at h
      split at h
      · rename_i c' spc sp rest' hu
        split at h
        · rename_i hc
          obtain ⟨hc, rfl⟩ := hc
          simp only [Option.some.injEq, Prod.mk.injEq] at h; obtain ⟨rfl, rfl⟩ := h
          exact .last hc ((uncons_iff _ _ _).mp hu)
        · cases h
      · cases h
    · intro h
      cases h with
      | last hc hn =>
        simp only [punctLoop, (uncons_iff _ _ _).mpr hn]
        rw [if_pos ⟨hc, trivial⟩]
      | more _ h => exact absurd rfl h
  | c :: c2 :: cs, cur, sps, rest => by
    constructor
    · intro h
      unfold punctLoop at h
      split at h
      · rename_i c' spc sp rest' hu
        split at h
        · rename_i hc
          obtain ⟨hc, rfl, rfl⟩ := hc
          split at h
          · rename_i sps' rest'' hl
            simp only [Option.some.injEq, Prod.mk.injEq] at h; obtain ⟨rfl, rfl⟩ := h
            exact .more hc (by simp) ((uncons_iff _ _ _).mp hu) ((punctLoop_at (c2 :: cs) _ _ _).mp hl)
          · cases h
        · cases h
      · cases h
    · intro h
      cases h with
      | more hc _ hn h' =>
        simp only [punctLoop, (uncons_iff _ _ _).mpr hn]
        rw [if_pos ⟨hc, trivial, trivial⟩, (punctLoop_at (c2 :: cs) _ _ _).mpr h']

omit [Ext] in
/-- What `syn::Lit` finds, by kind. -/
theorem synLit_iff {s s' : PState} {t : SynTok} {sp : Span} :
    synLitParse s = .ok (t, sp) s' ↔ ∃ rest, s' = { s with cur := rest } ∧
      ((∃ b, t = .bool b ∧ Next s.cur (.ident (if b then "true".toList else "false".toList) sp) rest) ∨
       (∃ l r, t = .lit l ∧ Next s.cur (.lit r sp) rest ∧ readLit r = some l) ∨
       (∃ spc sp1 mid r sp2, sp = sp1.join sp2 ∧ Next s.cur (.punct '-' spc sp1) mid ∧ Next mid (.lit r sp2) rest ∧
          ((∃ d, t = .lit (.int d) ∧ readIntDigits ('-' :: r) = some d) ∨
           ∃ d, t = .lit (.float d) ∧ readIntDigits ('-' :: r) = none ∧ readFloatDigits ('-' :: r) = some d))) := by
  constructor
  · intro h
    unfold synLitParse at h
    split at h
    · rename_i r sp' rest hu
      have hn := (uncons_iff _ _ _).mp hu
      split at h
      · rename_i l hl
        simp only [Res.ok.injEq, Prod.mk.injEq] at h
        obtain ⟨⟨rfl, rfl⟩, rfl⟩ := h
        exact ⟨rest, rfl, .inr (.inl ⟨l, r, rfl, hn, hl⟩)⟩
      · cases h
    · rename_i x sp' rest hu
      have hn := (uncons_iff _ _ _).mp hu
      split at h
      · rename_i hx
        subst hx
        simp only [Res.ok.injEq, Prod.mk.injEq] at h
        obtain ⟨⟨rfl, rfl⟩, rfl⟩ := h
        exact ⟨rest, rfl, .inl ⟨true, rfl, hn⟩⟩
      · split at h
        · rename_i hx
          subst hx
          simp only [Res.ok.injEq, Prod.mk.injEq] at h
          obtain ⟨⟨rfl, rfl⟩, rfl⟩ := h
          exact ⟨rest, rfl, .inl ⟨false, rfl, hn⟩⟩
        · cases h
    · rename_i spc sp1 mid hu
      have hn := (uncons_iff _ _ _).mp hu
      split at h
      · rename_i r sp2 rest hu2
        have hn2 := (uncons_iff _ _ _).mp hu2
        split at h
        · rename_i d hd
          simp only [Res.ok.injEq, Prod.mk.injEq] at h
          obtain ⟨⟨rfl, rfl⟩, rfl⟩ := h
          exact ⟨rest, rfl, .inr (.inr ⟨spc, sp1, mid, r, sp2, rfl, hn, hn2, .inl ⟨d, rfl, hd⟩⟩)⟩
        · rename_i hi
          split at h
          · rename_i d hd
            simp only [Res.ok.injEq, Prod.mk.injEq] at h
            obtain ⟨⟨rfl, rfl⟩, rfl⟩ := h
            exact ⟨rest, rfl, .inr (.inr ⟨spc, sp1, mid, r, sp2, rfl, hn, hn2, .inr ⟨d, rfl, hi, hd⟩⟩)⟩
          · cases h
      · cases h
    · cases h
  · rintro ⟨rest, rfl, h⟩
    rcases h with ⟨b, rfl, hn⟩ | ⟨l, r, rfl, hn, hl⟩ | ⟨spc, sp1, mid, r, sp2, rfl, hn, hn2, h⟩
    · unfold synLitParse
      rw [(uncons_iff _ _ _).mpr hn]
      cases b
      · simp only [Bool.false_eq_true, if_false]
        rw [if_neg (by decide), if_pos trivial]
      · simp only [if_true]
    · exact synLit_lit hn hl
    · rw [synLit_minus hn hn2]
      rcases h with ⟨d, rfl, hd⟩ | ⟨d, rfl, hi, hd⟩
      · rw [hd]
      · rw [hi, hd]

omit [Ext] in
theorem intDigits_none {r : Text} : readIntDigits ('-' :: r) = none ↔ ∀ n, ¬ IntLit r n := by
  constructor
  · intro h n hn
    rw [readIntDigits_minus hn] at h; cases h
  · intro h
    show (readNat r).map _ = none
    cases hr : readNat r with
    | none => rfl
    | some n => exact absurd ((readNat_iff _ _).mp hr) (h n)

omit [Ext] in
theorem floatAt_iff {s s' : PState} {d : Text} {sp : Span} :
    synLitParse s = .ok (.lit (.float d), sp) s' ↔ ∃ rest, FloatAt s.cur d sp rest ∧ s' = { s with cur := rest } := by
  rw [synLit_iff]
  constructor
  · rintro ⟨rest, rfl, h⟩
    refine ⟨rest, ?_, rfl⟩
    rcases h with ⟨b, h, hn⟩ | ⟨l, r, h, hn, hl⟩ | ⟨spc, sp1, mid, r, sp2, rfl, hn, hn2, h⟩
    · cases h
    · injection h with h; subst h; exact .plain hn hl
    · rcases h with ⟨d, h, hd⟩ | ⟨d, h, hi, hd⟩
      · injection h with h; cases h
      · injection h with h; injection h with h; subst h
        exact .minus hn hn2 (intDigits_none.mp hi) hd
  · rintro ⟨rest, h, rfl⟩
    refine ⟨rest, rfl, ?_⟩
    cases h with
    | plain hn hl => exact .inr (.inl ⟨_, _, rfl, hn, hl⟩)
    | minus hn hn2 hi hd => exact .inr (.inr ⟨_, _, _, _, _, rfl, hn, hn2, .inr ⟨_, rfl, intDigits_none.mpr hi, hd⟩⟩)

theorem litKind_at {k : LitKind} {s s' : PState} {v : LitVal} {sp : Span} :
    litKindParse k s = .ok (v, sp) s' ↔ ∃ rest, LitAt k s.cur v sp rest ∧ s' = { s with cur := rest } := by
  have hbool : ∀ {b s'}, litBoolParse s = .ok (b, sp) s' ↔
      ∃ rest, Next s.cur (.ident (if b then "true".toList else "false".toList) sp) rest ∧ s' = { s with cur := rest } := by
    intro b s'
    unfold litBoolParse
    rw [synKind_ok]
    constructor
    · rintro ⟨t, h, hp⟩
      cases t with
      | lit l => cases hp
      | bool c =>
        injection hp with hp; subst hp
        obtain ⟨rest, rfl, h'⟩ := synLit_iff.mp h
        refine ⟨rest, ?_, rfl⟩
        rcases h' with ⟨b, h, hn⟩ | ⟨l, r, h, hn, hl⟩ | ⟨spc, sp1, mid, r, sp2, rfl, hn, hn2, ⟨d, h, hd⟩ | ⟨d, h, hi, hd⟩⟩
        · injection h with h; subst h; exact hn
        · cases h
        · cases h
        · cases h
    · rintro ⟨rest, hn, rfl⟩
      exact ⟨.bool b, synLit_iff.mpr ⟨rest, rfl, .inl ⟨b, rfl, hn⟩⟩, rfl⟩
  have hplain : ∀ {l : SynLit} {s'}, (∀ d, l ≠ .int d) → (∀ d, l ≠ .float d) → (synLitParse s = .ok (.lit l, sp) s' ↔
      ∃ rest, (∃ r, Next s.cur (.lit r sp) rest ∧ readLit r = some l) ∧ s' = { s with cur := rest }) := by
    intro l s' h1 h2
    rw [synLit_iff]
    constructor
    · rintro ⟨rest, rfl, h⟩
      refine ⟨rest, ?_, rfl⟩
      rcases h with ⟨b, h, hn⟩ | ⟨l, r, h, hn, hl⟩ | ⟨spc, sp1, mid, r, sp2, rfl, hn, hn2, ⟨d, h, hd⟩ | ⟨d, h, hi, hd⟩⟩
      · cases h
      · injection h with h; subst h; exact ⟨r, hn, hl⟩
      · injection h with h; exact absurd h (h1 d)
      · injection h with h; exact absurd h (h2 d)
    · rintro ⟨rest, ⟨r, hn, hl⟩, rfl⟩
      exact ⟨rest, rfl, .inr (.inl ⟨l, r, rfl, hn, hl⟩)⟩
  have hbyte : ∀ {b s'}, litByteParse s = .ok (b, sp) s' ↔
      ∃ rest, (∃ r, Next s.cur (.lit r sp) rest ∧ readLit r = some (.byte b)) ∧ s' = { s with cur := rest } := by
    intro b s'
    rw [← hplain (by simp) (by simp)]
    unfold litByteParse
    rw [synKind_ok]
    constructor
    · rintro ⟨t, h, hp⟩
      cases t with
      | bool _ => cases hp
      | lit l => cases l <;> first | (injection hp with hp; subst hp; exact h) | cases hp
    · intro h; exact ⟨_, h, rfl⟩
  have hchar : ∀ {b s'}, litCharParse s = .ok (b, sp) s' ↔
      ∃ rest, (∃ r, Next s.cur (.lit r sp) rest ∧ readLit r = some (.char b)) ∧ s' = { s with cur := rest } := by
    intro b s'
    rw [← hplain (by simp) (by simp)]
    unfold litCharParse
    rw [synKind_ok]
    constructor
    · rintro ⟨t, h, hp⟩
      cases t with
      | bool _ => cases hp
      | lit l => cases l <;> first | (injection hp with hp; subst hp; exact h) | cases hp
    · intro h; exact ⟨_, h, rfl⟩
  have hstr : ∀ {b s'}, litStrParse s = .ok (b, sp) s' ↔
      ∃ rest, (∃ r, Next s.cur (.lit r sp) rest ∧ readLit r = some (.str b)) ∧ s' = { s with cur := rest } := by
    intro b s'
    rw [← hplain (by simp) (by simp)]
    unfold litStrParse
    rw [synKind_ok]
    constructor
    · rintro ⟨t, h, hp⟩
      cases t with
      | bool _ => cases hp
      | lit l => cases l <;> first | (injection hp with hp; subst hp; exact h) | cases hp
    · intro h; exact ⟨_, h, rfl⟩
  have hbyteStr : ∀ {b s'}, litByteStrParse s = .ok (b, sp) s' ↔
      ∃ rest, (∃ r, Next s.cur (.lit r sp) rest ∧ readLit r = some (.byteStr b)) ∧ s' = { s with cur := rest } := by
    intro b s'
    rw [← hplain (by simp) (by simp)]
    unfold litByteStrParse
    rw [synKind_ok]
    constructor
    · rintro ⟨t, h, hp⟩
      cases t with
      | bool _ => cases hp
      | lit l => cases l <;> first | (injection hp with hp; subst hp; exact h) | cases hp
    · intro h; exact ⟨_, h, rfl⟩
  have hfloat : ∀ {x s'}, litFloatParse s = .ok (x, sp) s' ↔
      ∃ rest, (∃ d, FloatAt s.cur d sp rest ∧ Ext.floatOf d = some x) ∧ s' = { s with cur := rest } := by
    intro x s'
    rw [litFloatParse_ok]
    constructor
    · rintro ⟨d, h, hx⟩
      obtain ⟨rest, h', rfl⟩ := floatAt_iff.mp h
      exact ⟨rest, ⟨d, h', hx⟩, rfl⟩
    · rintro ⟨rest, ⟨d, h, hx⟩, rfl⟩
      exact ⟨d, floatAt_iff.mpr ⟨rest, h, rfl⟩, hx⟩
  cases k with
  | bool =>
    simp only [litKindParse, Res.map_ok, Prod.exists, Prod.mk.injEq]
    constructor
    · rintro ⟨b, sp', h, rfl, rfl⟩
      obtain ⟨rest, hn, rfl⟩ := hbool.mp h
      exact ⟨rest, .bool (.inl rfl) hn, rfl⟩
    · rintro ⟨rest, h, rfl⟩
      cases h with
      | bool _ hn => exact ⟨_, _, hbool.mpr ⟨rest, hn, rfl⟩, rfl, rfl⟩
      | _ h => rcases h with h | h <;> cases h
  | byte =>
    simp only [litKindParse, Res.map_ok, Prod.exists, Prod.mk.injEq]
    constructor
    · rintro ⟨b, sp', h, rfl, rfl⟩
      obtain ⟨rest, ⟨r, hn, hr⟩, rfl⟩ := hbyte.mp h
      exact ⟨rest, .byte (.inl rfl) hn hr, rfl⟩
    · rintro ⟨rest, h, rfl⟩
      cases h with
      | byte _ hn hr => exact ⟨_, _, hbyte.mpr ⟨rest, ⟨_, hn, hr⟩, rfl⟩, rfl, rfl⟩
      | _ h => rcases h with h | h <;> cases h
  | int =>
    simp only [litKindParse, Res.map_ok, Prod.exists, Prod.mk.injEq]
    constructor
    · rintro ⟨b, sp', h, rfl, rfl⟩
      obtain ⟨neg, n, rest, hi, rfl, hv, rfl⟩ := (C34_int _ _ _ _).mp h
      exact ⟨rest, .int hi hv, rfl⟩
    · rintro ⟨rest, h, rfl⟩
      cases h with
      | int hi hv => exact ⟨_, _, (C34_int _ _ _ _).mpr ⟨_, _, rest, hi, rfl, hv, rfl⟩, rfl, rfl⟩
      | _ h => rcases h with h | h <;> cases h
  | uint =>
    simp only [litKindParse, Res.map_ok, Prod.exists, Prod.mk.injEq]
    constructor
    · rintro ⟨b, sp', h, rfl, rfl⟩
      obtain ⟨rest, hi, hv, rfl⟩ := (C34_uint _ _ _ _).mp h
      exact ⟨rest, .uint (.inl rfl) hi hv, rfl⟩
    · rintro ⟨rest, h, rfl⟩
      cases h with
      | uint _ hi hv => exact ⟨_, _, (C34_uint _ _ _ _).mpr ⟨rest, hi, hv, rfl⟩, rfl, rfl⟩
      | _ h => rcases h with h | h <;> cases h
  | float =>
    simp only [litKindParse, Res.map_ok, Prod.exists, Prod.mk.injEq]
    constructor
    · rintro ⟨b, sp', h, rfl, rfl⟩
      obtain ⟨rest, ⟨d, hd, hx⟩, rfl⟩ := hfloat.mp h
      exact ⟨rest, .float (.inl rfl) hd hx, rfl⟩
    · rintro ⟨rest, h, rfl⟩
      cases h with
      | float _ hd hx => exact ⟨_, _, hfloat.mpr ⟨rest, ⟨_, hd, hx⟩, rfl⟩, rfl, rfl⟩
      | _ h => rcases h with h | h <;> cases h
  | char =>
    simp only [litKindParse, Res.map_ok, Prod.exists, Prod.mk.injEq]
    constructor
    · rintro ⟨b, sp', h, rfl, rfl⟩
      obtain ⟨rest, ⟨r, hn, hr⟩, rfl⟩ := hchar.mp h
      exact ⟨rest, .char (.inl rfl) hn hr, rfl⟩
    · rintro ⟨rest, h, rfl⟩
      cases h with
      | char _ hn hr => exact ⟨_, _, hchar.mpr ⟨rest, ⟨_, hn, hr⟩, rfl⟩, rfl, rfl⟩
      | _ h => rcases h with h | h <;> cases h
  | str =>
    simp only [litKindParse, Res.map_ok, Prod.exists, Prod.mk.injEq]
    constructor
    · rintro ⟨b, sp', h, rfl, rfl⟩
      obtain ⟨rest, ⟨r, hn, hr⟩, rfl⟩ := hstr.mp h
      exact ⟨rest, .str (.inl rfl) hn hr, rfl⟩
    · rintro ⟨rest, h, rfl⟩
      cases h with
      | str _ hn hr => exact ⟨_, _, hstr.mpr ⟨rest, ⟨_, hn, hr⟩, rfl⟩, rfl, rfl⟩
      | _ h => rcases h with h | h <;> cases h
  | byteStr =>
    simp only [litKindParse, Res.map_ok, Prod.exists, Prod.mk.injEq]
    constructor
    · rintro ⟨b, sp', h, rfl, rfl⟩
      obtain ⟨rest, ⟨r, hn, hr⟩, rfl⟩ := hbyteStr.mp h
      exact ⟨rest, .byteStr (.inl rfl) hn hr, rfl⟩
    · rintro ⟨rest, h, rfl⟩
      cases h with
      | byteStr _ hn hr => exact ⟨_, _, hbyteStr.mpr ⟨rest, ⟨_, hn, hr⟩, rfl⟩, rfl, rfl⟩
      | _ h => rcases h with h | h <;> cases h
  | any =>
    show litParse s = .ok (v, sp) s' ↔ _
    cases v with
    | bool b =>
      rw [C35_bool, hbool]
      constructor
      · rintro ⟨rest, hn, rfl⟩; exact ⟨rest, .bool (.inr rfl) hn, rfl⟩
      · rintro ⟨rest, h, rfl⟩; cases h with | bool _ hn => exact ⟨rest, hn, rfl⟩
    | byte b =>
      rw [C35_byte, hbyte]
      constructor
      · rintro ⟨rest, ⟨r, hn, hr⟩, rfl⟩; exact ⟨rest, .byte (.inr rfl) hn hr, rfl⟩
      · rintro ⟨rest, h, rfl⟩; cases h with | byte _ hn hr => exact ⟨rest, ⟨_, hn, hr⟩, rfl⟩
    | int i =>
      rw [C35_int, C34_int]
      constructor
      · rintro ⟨⟨neg, n, rest, hi, rfl, hv, rfl⟩, m, rest', hj⟩
        have h1 := synInt_of_intAt hi
        rw [synInt_of_intAt hj] at h1
        have h2 : signedDigits true m = signedDigits neg n := by
          simp only [Res.ok.injEq, Prod.mk.injEq, SynTok.lit.injEq, SynLit.int.injEq] at h1
          exact h1.1.1
        have h3 : neg = true := by
          have := (signedDigits_head true m).mpr rfl
          rw [h2] at this
          exact (signedDigits_head neg n).mp this
        subst h3
        exact ⟨rest, .negative hi hv, rfl⟩
      · rintro ⟨rest, h, rfl⟩
        cases h with
        | negative hi hv => exact ⟨⟨_, _, rest, hi, rfl, hv, rfl⟩, _, _, hi⟩
    | uint n =>
      rw [C35_uint, C34_uint]
      constructor
      · rintro ⟨rest, hi, hv, rfl⟩; exact ⟨rest, .uint (.inr rfl) hi hv, rfl⟩
      · rintro ⟨rest, h, rfl⟩; cases h with | uint _ hi hv => exact ⟨rest, hi, hv, rfl⟩
    | float x =>
      rw [C35_float, hfloat]
      constructor
      · rintro ⟨rest, ⟨r, hn, hr⟩, rfl⟩; exact ⟨rest, .float (.inr rfl) hn hr, rfl⟩
      · rintro ⟨rest, h, rfl⟩; cases h with | float _ hn hr => exact ⟨rest, ⟨_, hn, hr⟩, rfl⟩
    | char x =>
      rw [C35_char, hchar]
      constructor
      · rintro ⟨rest, ⟨r, hn, hr⟩, rfl⟩; exact ⟨rest, .char (.inr rfl) hn hr, rfl⟩
      · rintro ⟨rest, h, rfl⟩; cases h with | char _ hn hr => exact ⟨rest, ⟨_, hn, hr⟩, rfl⟩
    | str x =>
      rw [C35_str, hstr]
      constructor
      · rintro ⟨rest, ⟨r, hn, hr⟩, rfl⟩; exact ⟨rest, .str (.inr rfl) hn hr, rfl⟩
      · rintro ⟨rest, h, rfl⟩; cases h with | str _ hn hr => exact ⟨rest, ⟨_, hn, hr⟩, rfl⟩
    | byteStr x =>
      rw [C35_byteStr, hbyteStr]
      constructor
      · rintro ⟨rest, ⟨r, hn, hr⟩, rfl⟩; exact ⟨rest, .byteStr (.inr rfl) hn hr, rfl⟩
      · rintro ⟨rest, h, rfl⟩; cases h with | byteStr _ hn hr => exact ⟨rest, ⟨_, hn, hr⟩, rfl⟩

/-- The leaf parsers accept exactly what the specification says. -/
theorem leaf_at {l : Leaf} {s s' : PState} {v : LeafVal} :
    leafParse l s = .ok v s' ↔ ∃ rest, LeafAt l s.cur v rest ∧ s' = { s with cur := rest } := by
  have he := C24_empty_eof_noteof s
  have self : ∀ {cur : List TT}, s.cur = cur → s = { s with cur := cur } := by rintro _ rfl; rfl
  cases l with
  | empty =>
    simp only [leafParse, Res.map_ok]
    constructor
    · rintro ⟨a, h, rfl⟩
      rw [he.1] at h; injection h with _ h; subst h
      exact ⟨_, .empty, rfl⟩
    · rintro ⟨rest, h, rfl⟩; cases h; exact ⟨(), he.1, rfl⟩
  | eof =>
    simp only [leafParse, Res.map_ok]
    constructor
    · rintro ⟨a, h, rfl⟩
      obtain ⟨h1, rfl⟩ := (he.2.1 s').mp h
      exact ⟨[], by rw [h1]; exact .eof, self h1⟩
    · rintro ⟨rest, h, rfl⟩
      generalize hc : s.cur = c at h
      cases h
      exact ⟨(), (he.2.1 _).mpr ⟨hc, (self hc).symm⟩, rfl⟩
  | notEof =>
    simp only [leafParse, Res.map_ok]
    constructor
    · rintro ⟨a, h, rfl⟩
      obtain ⟨h1, rfl⟩ := (he.2.2.1 s').mp h
      exact ⟨_, .notEof h1, rfl⟩
    · rintro ⟨rest, h, rfl⟩
      cases h with
      | notEof h => exact ⟨(), (he.2.2.1 _).mpr ⟨h, rfl⟩, rfl⟩
  | customIdent kws =>
    simp only [leafParse, Res.map_ok, Prod.exists]
    constructor
    · rintro ⟨x, sp, h, rfl⟩
      obtain ⟨hk, rest, hn, rfl⟩ := (C25_custom_ident_ok _ _ _ _ _).mp h
      exact ⟨rest, .customIdent hn hk, rfl⟩
    · rintro ⟨rest, h, rfl⟩
      cases h with
      | customIdent hn hk => exact ⟨_, _, (C25_custom_ident_ok _ _ _ _ _).mpr ⟨hk, rest, hn, rfl⟩, rfl⟩
  | rustIdent =>
    simp only [leafParse, Res.map_ok, Prod.exists]
    have hr : ∀ x sp s', parseRustIdent s = .ok (x, sp) s' ↔ x ∉ rustKeywords ∧ ∃ rest, Next s.cur (.ident x sp) rest ∧ s' = { s with cur := rest } := by
      intro x sp s'
      unfold parseRustIdent
      constructor
      · intro h
        split at h
        · rename_i y spy rest hu
          split at h
          · cases h
          · rename_i hk
            simp only [Res.ok.injEq, Prod.mk.injEq] at h
            obtain ⟨⟨rfl, rfl⟩, rfl⟩ := h
            exact ⟨fun hm => hk (List.contains_iff_mem.mpr hm), rest, (uncons_iff _ _ _).mp hu, rfl⟩
        · cases h
      · rintro ⟨hk, rest, hn, rfl⟩
        rw [(uncons_iff _ _ _).mpr hn]
        simp only []
        rw [if_neg (fun hc => hk (List.contains_iff_mem.mp hc))]
    constructor
    · rintro ⟨x, sp, h, rfl⟩
      obtain ⟨hk, rest, hn, rfl⟩ := (hr _ _ _).mp h
      exact ⟨rest, .rustIdent hn hk, rfl⟩
    · rintro ⟨rest, h, rfl⟩
      cases h with
      | rustIdent hn hk => exact ⟨_, _, (hr _ _ _).mpr ⟨hk, rest, hn, rfl⟩, rfl⟩
  | keyword kw =>
    simp only [leafParse, Res.map_ok]
    constructor
    · rintro ⟨sp, h, rfl⟩
      obtain ⟨rest, hn, rfl⟩ := (C26_keyword_ok _ _ _ _).mp h
      exact ⟨rest, .keyword hn, rfl⟩
    · rintro ⟨rest, h, rfl⟩
      cases h with
      | keyword hn => exact ⟨_, (C26_keyword_ok _ _ _ _).mpr ⟨rest, hn, rfl⟩, rfl⟩
  | kwToken kw =>
    simp only [leafParse, Res.map_ok]
    have hr : ∀ sp s', parseKwToken kw s = .ok sp s' ↔ ∃ rest, Next s.cur (.ident kw sp) rest ∧ s' = { s with cur := rest } := by
      intro sp s'
      unfold parseKwToken
      constructor
      · intro h
        split at h
        · rename_i y spy rest hu
          split at h
          · rename_i hy
            subst hy
            simp only [Res.ok.injEq] at h
            obtain ⟨rfl, rfl⟩ := h
            exact ⟨rest, (uncons_iff _ _ _).mp hu, rfl⟩
          · cases h
        · cases h
      · rintro ⟨rest, hn, rfl⟩
        rw [(uncons_iff _ _ _).mpr hn]
        simp only []
        rw [if_pos trivial]
    constructor
    · rintro ⟨sp, h, rfl⟩
      obtain ⟨rest, hn, rfl⟩ := (hr _ _).mp h
      exact ⟨rest, .kwToken hn, rfl⟩
    · rintro ⟨rest, h, rfl⟩
      cases h with
      | kwToken hn => exact ⟨_, (hr _ _).mpr ⟨rest, hn, rfl⟩, rfl⟩
  | punct tok =>
    simp only [leafParse, Res.map_ok]
    constructor
    · rintro ⟨sps, h, rfl⟩
      unfold parsePunct at h
      split at h
      · rename_i sps' rest hl
        simp only [Res.ok.injEq] at h
        obtain ⟨rfl, rfl⟩ := h
        exact ⟨rest, .punct ((punctLoop_at _ _ _ _).mp hl), rfl⟩
      · cases h
    · rintro ⟨rest, h, rfl⟩
      cases h with
      | punct hp =>
        refine ⟨_, ?_, rfl⟩
        unfold parsePunct
        rw [(punctLoop_at _ _ _ _).mpr hp]
  | lit k =>
    simp only [leafParse, Res.map_ok, Prod.exists]
    constructor
    · rintro ⟨x, sp, h, rfl⟩
      obtain ⟨rest, h', rfl⟩ := litKind_at.mp h
      exact ⟨rest, .lit h', rfl⟩
    · rintro ⟨rest, h, rfl⟩
      cases h with
      | lit h => exact ⟨_, _, litKind_at.mpr ⟨rest, h, rfl⟩, rfl⟩

omit [Ext] in
theorem synLit_bad {s : PState} {r : Text} {sp : Span} {rest : List TT} (h : Next s.cur (.lit r sp) rest) (hr : readLit r = none) :
    synLitParse s = .panic := by
  unfold synLitParse
  rw [(uncons_iff _ _ _).mpr h]
  simp only [hr]

theorem lit_bad {k : LitKind} {s : PState} (h : synLitParse s = .panic) : litKindParse k s = .panic := by
  cases k <;> simp only [litKindParse, litBoolParse, litByteParse, litIntParse, synIntParse, litUintParse, litFloatParse, litCharParse, litStrParse,
    litByteStrParse, synKindParse, litParse, h] <;> rfl

/-- ... and fail exactly if there is no leaf. -/
theorem leaf_not {l : Leaf} {s : PState} : (∃ e, leafParse l s = .err e) ↔ NoLeaf l s.cur := by
  constructor
  · rintro ⟨e, he⟩
    refine ⟨fun v rest h => ?_, ?_⟩
    · rw [leaf_at.mpr ⟨rest, h, rfl⟩] at he; cases he
    · rintro ⟨⟨k, rfl⟩, r, sp, rest, hn, hr⟩
      simp only [leafParse, lit_bad (synLit_bad hn hr)] at he
      cases he
  · rintro ⟨h1, h2⟩
    have := leaf_outcome l s
    cases hl : leafParse l s with
    | ok v s' => obtain ⟨rest, h, _⟩ := leaf_at.mp hl; exact absurd h (h1 v rest)
    | err e => exact ⟨e, rfl⟩
    | oof => rw [hl] at this; cases this
    | panic =>
      rw [hl] at this
      cases this with
      | panic hn hr =>
        exfalso
        cases l with
        | lit k => exact h2 ⟨⟨k, rfl⟩, _, _, _, hn, hr⟩
        | empty => cases hl
        | eof => simp only [leafParse, eofParse] at hl; split at hl <;> cases hl
        | notEof => simp only [leafParse, notEofParse] at hl; split at hl <;> cases hl
        | customIdent kws =>
          simp only [leafParse, customIdentParse, parseAnyIdent, (uncons_iff _ _ _).mpr hn] at hl; cases hl
        | rustIdent => simp only [leafParse, parseRustIdent, (uncons_iff _ _ _).mpr hn] at hl; cases hl
        | keyword kw => simp only [leafParse, keywordParse, parseAnyIdent, (uncons_iff _ _ _).mpr hn] at hl; cases hl
        | kwToken kw => simp only [leafParse, parseKwToken, (uncons_iff _ _ _).mpr hn] at hl; cases hl
        | punct tok =>
          simp only [leafParse, parsePunct] at hl
          cases hp : punctLoop tok s.cur <;> rw [hp] at hl <;> cases hl

end Parsel
