import Verif.Proofs.LexWritable
import Verif.Spec.Literal
import Verif.Proofs.Decimal

/-! The tokens of a value have a textual form. -/

namespace Parsel

open Spec

theorem identOk_text {x : Text} (h : identOk x = true) : IdentText x := by
  unfold identOk suffixOk at h
  cases x with
  | nil => cases h
  | cons c cs =>
    simp only [List.isEmpty_cons, Bool.not_false, Bool.true_and, Bool.and_eq_true, List.all_eq_true] at h
    have hr : stripPrefix "r#".toList (c :: cs) = none := by
      cases hs : stripPrefix "r#".toList (c :: cs) with
      | none => rfl
      | some r =>
        have e := stripPrefix_eq hs
        have e' : c :: cs = 'r' :: '#' :: r := e
        have := h.2 '#' (by cases e'; simp)
        exact absurd this (by decide)
    have hw : ∀ a : Text, (∀ c ∈ a, identCont c = true) → a.takeWhile identCont = a ∧ a.dropWhile identCont = [] := by
      intro a
      induction a with
      | nil => exact fun _ => ⟨rfl, rfl⟩
      | cons d ds ih =>
        intro ha
        obtain ⟨i1, i2⟩ := ih fun e he => ha e (List.mem_cons_of_mem _ he)
        simp [ha d List.mem_cons_self, i1, i2]
    obtain ⟨htw, hdw⟩ := hw cs h.2
    unfold IdentText lexIdentAny
    rw [hr]
    simp only [lexPlainIdent, h.1, if_true, htw, hdw]

theorem punctTokens_writable : ∀ (tok : Text) (sps : List Span), OperatorText tok → sps.length = tok.length → Writable (punctTokens tok sps) := by
  intro tok
  induction tok with
  | nil => intro sps h; exact absurd rfl h.1
  | cons c cs ih =>
    intro sps h hl
    obtain ⟨_, h2, h3, h4⟩ := h
    obtain ⟨hc, hq⟩ := h2 c List.mem_cons_self
    cases sps with
    | nil => simp at hl
    | cons sp sps =>
      simp at hl
      cases cs with
      | nil =>
        have : sps = [] := by simpa using hl
        subst this
        exact .alone hc hq .nil
      | cons d ds =>
        have hs : OperatorText (d :: ds) := ⟨by simp, fun e he => h2 e (List.mem_cons_of_mem _ he),
          fun hh => h3 (hh.trans (List.suffix_cons c _).isInfix), fun hh => h4 (hh.trans (List.suffix_cons c _).isInfix)⟩
        have hw := ih sps hs hl
        have hcc : ¬ (c = '/' ∧ (d = '/' ∨ d = '*')) := by
          rintro ⟨rfl, rfl | rfl⟩
          · exact h3 ⟨[], ds, rfl⟩
          · exact h4 ⟨[], ds, rfl⟩
        cases sps with
        | nil => simp at hl
        | cons sp' sps =>
          have e : punctTokens (c :: d :: ds) (sp :: sp' :: sps) = .punct c .joint sp :: punctTokens (d :: ds) (sp' :: sps) := rfl
          have e2 : ∃ spc rest, punctTokens (d :: ds) (sp' :: sps) = .punct d spc sp' :: rest := by
            cases ds with
            | nil =>
              cases sps with
              | nil => exact ⟨_, _, rfl⟩
              | cons s ss => simp at hl
            | cons e es => exact ⟨_, _, rfl⟩
          obtain ⟨spc, rest, e2⟩ := e2
          rw [e, e2]
          rw [e2] at hw
          exact .joint hc (.punct hq hcc) hw

theorem punctTokens_solid : ∀ (tok : Text) (sps : List Span), Solid (punctTokens tok sps) := by
  intro tok
  induction tok with
  | nil => intro sps; rfl
  | cons c cs ih =>
    intro sps
    cases sps with
    | nil => cases cs <;> rfl
    | cons sp sps =>
      have : punctTokens (c :: cs) (sp :: sps) = [.punct c .alone sp] ∨ punctTokens (c :: cs) (sp :: sps) = .punct c .joint sp :: punctTokens cs sps := by
        cases cs with
        | nil => cases sps with
          | nil => exact .inl rfl
          | cons s ss => exact .inr rfl
        | cons d ds => exact .inr rfl
      rcases this with h | h
      · rw [h]; rfl
      · rw [h]
        have := ih sps
        unfold Solid at *
        show [TT.punct c .joint sp] ++ dissolve (punctTokens cs sps) = _
        rw [this]; rfl

theorem litText_nat (n : Nat) : LitText (natText n) := .inl (lexLiteral_digits (natText_ne_nil n) fun _ h => natText_isDigit h)

variable [Ext]

/-- The text of a literal's token: a literal, or a minus sign and a number. -/
def SignedLit (r : Text) : Prop := r.head? ≠ some '-' ∧ LitText r ∨ ∃ body c cs, r = '-' :: body ∧ LitText body ∧ body = c :: cs ∧ c.isDigit = true

omit [Ext] in
theorem litText_no_minus {r : Text} (h : LitText r) : r.head? ≠ some '-' := by
  rcases h with h | h
  · obtain ⟨c, cs, e, hc⟩ := litText_start h
    rw [e]
    intro hh
    simp at hh
    subst hh
    rcases hc with hc | hc
    · revert hc; decide
    · revert hc; decide
  · rw [h]; decide

omit [Ext] in
theorem signedLit_of {r : Text} (h : LitText r) : SignedLit r := .inl ⟨litText_no_minus h, h⟩

omit [Ext] in
theorem digits_cons {a : Text} (hne : a ≠ []) (h : ∀ c ∈ a, c.isDigit = true) (b : Text) : ∃ c cs, a ++ b = c :: cs ∧ c.isDigit = true := by
  cases a with
  | nil => exact absurd rfl hne
  | cons c cs => exact ⟨c, cs ++ b, rfl, h c List.mem_cons_self⟩

omit [Ext] in
theorem signedLit_int (v : Int) : SignedLit (intLiteral v) := by
  cases v with
  | ofNat n => exact signedLit_of (litText_nat n)
  | negSucc n =>
    obtain ⟨c, cs, h1, h2⟩ := digits_cons (natText_ne_nil (n + 1)) (fun _ h => natText_isDigit h) []
    rw [List.append_nil] at h1
    exact .inr ⟨natText (n + 1), c, cs, rfl, litText_nat _, h1, h2⟩

theorem signedLit_float (laws : FloatLaws) {x : Ext.F} {r : Text} (h : floatLiteral x = some r) : SignedLit r := by
  unfold floatLiteral at h
  split at h
  · rename_i hf
    cases h
    obtain ⟨neg, a, b, hne, ha, hb, hs⟩ := laws.shape x hf
    have fin : ∀ body : Text, LitText body → (∃ c cs, body = c :: cs ∧ c.isDigit = true) → SignedLit ((if neg then ['-'] else []) ++ body) := by
      intro body hl hd
      cases neg with
      | false => exact signedLit_of hl
      | true => obtain ⟨c, cs, e, hc⟩ := hd; exact .inr ⟨body, c, cs, rfl, hl, e, hc⟩
    have nodot : '.' ∉ (if neg then ['-'] else []) ++ a := by
      intro hm
      rcases List.mem_append.mp hm with hm | hm
      · cases neg <;> simp at hm
      · exact absurd (ha _ hm) (by decide)
    rcases hs with hs | ⟨hb', hs⟩
    · have : (Ext.floatText x).contains '.' = false := by rw [hs]; simpa using nodot
      rw [this, hs]
      simp only [Bool.false_eq_true, if_false, List.append_assoc]
      exact fin _ (.inl (lexLiteral_decimal (b := ['0']) hne ha (by decide))) (digits_cons hne ha _)
    · have : (Ext.floatText x).contains '.' = true := by rw [hs]; simp
      rw [this, hs]
      simp only [if_true, List.append_assoc]
      exact fin _ (.inl (lexLiteral_decimal hne ha hb)) (digits_cons hne ha _)
  · cases h

theorem litText_signed (laws : FloatLaws) {l : LitVal} {r : Text} (h : litText l = some r) : SignedLit r ∨ ∃ b, l = .bool b := by
  cases l with
  | bool b => exact .inr ⟨b, rfl⟩
  | byte b => exact .inl (signedLit_of (litText_byte h))
  | int v => cases h; exact .inl (signedLit_int v)
  | uint v => cases h; exact .inl (signedLit_of (litText_nat v))
  | float x => exact .inl (signedLit_float laws h)
  | char c => cases h; exact .inl (signedLit_of (litText_char c))
  | str t => cases h; exact .inl (signedLit_of (litText_string t))
  | byteStr t => cases h; exact .inl (signedLit_of (litText_byteString t))

/-- The tokens of a literal, in terms of its text. -/
theorem litToTokens_text (l : LitVal) (sp : Span) : litToTokens l sp =
    match l with
    | .bool b => some [.ident (if b then "true".toList else "false".toList) sp]
    | l => (litText l).map fun r => pushLiteral r sp := by
  cases l <;> rfl

omit [Ext] in
theorem pushLiteral_signed {r : Text} (h : SignedLit r) (sp : Span) :
    LitText r ∧ pushLiteral r sp = [.lit r sp] ∨
    ∃ body c cs, r = '-' :: body ∧ LitText body ∧ body = c :: cs ∧ c.isDigit = true ∧ pushLiteral r sp = [.punct '-' .alone sp, .lit body sp] := by
  rcases h with ⟨h1, h2⟩ | ⟨body, c, cs, e, h2, h3, h4⟩
  · left
    refine ⟨h2, ?_⟩
    unfold pushLiteral
    split
    · exact absurd rfl h1
    · rfl
  · exact .inr ⟨body, c, cs, e, h2, h3, h4, by rw [e]; rfl⟩

theorem litToTokens_writable (laws : FloatLaws) {l : LitVal} {sp : Span} {ts : List TT} (h : litToTokens l sp = some ts) : Writable ts ∧ Solid ts := by
  rw [litToTokens_text] at h
  by_cases hb : ∃ b, l = .bool b
  · obtain ⟨b, rfl⟩ := hb
    cases h
    refine ⟨.ident (show lexIdentAny _ = _ by cases b <;> decide) .nil, rfl⟩
  · have h' : (litText l).map (fun r => pushLiteral r sp) = some ts := by
      cases l
      · exact absurd ⟨_, rfl⟩ hb
      all_goals exact h
    cases hr : litText l with
    | none => rw [hr] at h'; cases h'
    | some r =>
      rw [hr] at h'
      have h' : pushLiteral r sp = ts := by simpa using h'
      subst h'
      have hs := (litText_signed laws hr).resolve_right hb
      rcases pushLiteral_signed hs sp with ⟨h1, e⟩ | ⟨body, c, cs, _, h1, _, _, e⟩
      · rw [e]; exact ⟨.lit h1 .nil, rfl⟩
      · rw [e]; exact ⟨.alone (by decide) (by decide) (.lit h1 .nil), rfl⟩

theorem leafToTokens_writable (laws : FloatLaws) {l : Leaf} {v : LeafVal} {ts : List TT} (hl : LeafText l v) (h : leafToTokens l v = some ts) :
    Writable ts ∧ Solid ts := by
  cases hl with
  | unit => cases h; exact ⟨.nil, rfl⟩
  | ident hx => cases h; exact ⟨.ident hx .nil, rfl⟩
  | @keyword kw sp =>
    have h : (if identOk kw then some [TT.ident kw sp] else none) = some ts := h
    split at h
    · cases h; exact ⟨.ident (identOk_text (by assumption)) .nil, rfl⟩
    · cases h
  | kwToken hx => cases h; exact ⟨.ident hx .nil, rfl⟩
  | @punct tok sps ht hn =>
    have h : some (punctTokens tok sps) = some ts := by
      rw [← h]
      unfold leafToTokens
      split <;> simp_all
    cases h
    exact ⟨punctTokens_writable _ _ ht hn, punctTokens_solid _ _⟩
  | lit => exact litToTokens_writable laws h

mutual
theorem toTokens_writable (laws : FloatLaws) : ∀ {v : Val} {ts : List TT}, HasText v → v.toTokens = some ts → Writable ts ∧ Solid ts
  | .leaf l v, ts, hv, h => leafToTokens_writable laws hv h
  | .group d sp v, ts, hv, h => by
    rw [Val.toTokens] at h
    cases ht : v.toTokens with
    | none => rw [ht] at h; cases h
    | some us =>
      rw [ht] at h
      cases h
      obtain ⟨h1, h2⟩ := toTokens_writable laws hv.2 ht
      exact ⟨.group h1 .nil, solid_group hv.1 h2 sp⟩
  | .node _ vs, ts, hv, h => toTokensL_writable laws (vs := vs) hv h
theorem toTokensL_writable (laws : FloatLaws) : ∀ {vs : List Val} {ts : List TT}, HasTextL vs → Val.toTokensL vs = some ts → Writable ts ∧ Solid ts
  | [], ts, _, h => by cases h; exact ⟨.nil, rfl⟩
  | v :: vs, ts, hv, h => by
    rw [Val.toTokensL] at h
    cases ha : v.toTokens with
    | none => rw [ha] at h; cases h
    | some a =>
      rw [ha] at h
      cases hb : Val.toTokensL vs with
      | none => rw [hb] at h; cases h
      | some b =>
        rw [hb] at h
        cases h
        obtain ⟨h1, h2⟩ := toTokens_writable laws hv.1 ha
        obtain ⟨h3, h4⟩ := toTokensL_writable laws hv.2 hb
        exact ⟨Writable.append h1 h3, h2.append h4⟩
end

end Parsel
