import Verif.Spec.NumText
import Verif.Proofs.ReadLex
import Verif.Proofs.LitText

/-! Number literals: the tokens and their values. -/

namespace Parsel

open Spec

theorem lexLiteral_number {c : Char} {cs : Text} (h : c.isDigit = true) : lexLiteral (c :: cs) = (lexFloat (c :: cs)).orElse fun _ => lexInt (c :: cs) := by
  refine lexLiteral_other ?_
  intro d hd
  simp at hd
  subst hd
  intro hm
  have key : ∀ x ∈ "\"rbc'".toList, x.isDigit = false := by decide
  rw [key c hm] at h
  cases h

/-- Identifier characters begin identifiers, except for digits. -/
theorem cont_start {c : Char} (h : identCont c = true) (hd : c.isDigit = false) : identStart c = true := by
  unfold identCont at h
  unfold identStart
  simp only [Char.isAlphanum, hd, Bool.or_false] at h
  exact h

/-! ### integers -/

theorem digits_underscores {base : Nat} {t : Text} {n v : Nat} (h : Digits base t n v) : n = 0 → ∀ c ∈ t, c = '_' := by
  induction h with
  | nil => simp
  | digit => intro h; omega
  | under _ ih =>
    intro hn c hc
    rcases List.mem_append.mp hc with hc | hc
    · exact ih hn c hc
    · exact List.mem_singleton.mp hc

theorem digitsLoop_digit {base : Nat} (hb : OkBase base) {c : Char} {d : Nat} (h : DigitIn base c d) (empty : Bool) (cs : Text) :
    digitsLoop base empty (c :: cs) = digitsLoop base false cs := by
  have hx := digitIn_hexVal h
  have hlt := h.1
  rw [digitsLoop]
  by_cases hd : c.isDigit = true
  · rw [if_pos hd]
    have := hexVal_digit ((isDigit_iff c).mp hd)
    rw [hx] at this
    injection this with this
    rw [if_neg (by omega)]
  · rw [if_neg hd, if_pos (by rw [hx]; rfl)]
    have := hexVal_nondigit (fun h => hd ((isDigit_iff c).mpr h)) hx
    rw [if_neg (by omega)]

theorem digitsLoop_grouped {base : Nat} (hb : OkBase base) {body : Text} {n v : Nat} (h : Digits base body n v) :
    (base = 10 → body.head? ≠ some '_') → ∀ tail, digitsLoop base true (body ++ tail) = digitsLoop base (decide (n = 0)) tail := by
  have head : ∀ {t : Text} {c : Char}, (base = 10 → (t ++ [c]).head? ≠ some '_') → (base = 10 → t.head? ≠ some '_') := by
    intro t c h hb
    cases t with
    | nil => simp
    | cons => exact h hb
  induction h with
  | nil => intro _ tail; rfl
  | digit _ hd ih =>
    intro hh tail
    rw [List.append_assoc, ih (head hh), List.singleton_append, digitsLoop_digit hb hd]
    simp
  | @under t n v h1 ih =>
    intro hh tail
    rw [List.append_assoc, ih (head hh), List.singleton_append, digitsLoop, if_neg (by decide), if_neg (by decide), if_pos rfl, if_neg]
    rintro ⟨h2, h3⟩
    have h2 : n = 0 := of_decide_eq_true h2
    have := digits_underscores h1 h2
    cases t with
    | nil => exact hh h3 rfl
    | cons c t => exact hh h3 (by rw [this c List.mem_cons_self]; rfl)

theorem digitsLoop_suffix {base : Nat} (hb : OkBase base) {suf : Text} (h : IntSuffix base suf) : digitsLoop base false suf = some suf := by
  cases suf with
  | nil => rfl
  | cons c cs =>
    obtain ⟨hs, hc⟩ := h
    obtain ⟨hu, hd, _⟩ := hc c rfl
    rw [digitsLoop, if_neg (by rw [(suffix_plain hs).1]; decide)]
    by_cases hx : (hexVal c).isSome = true
    · rw [if_pos hx]
      obtain ⟨d, hd'⟩ := Option.isSome_iff_exists.mp hx
      by_cases h10 : base ≤ 10
      · rw [if_pos h10]; rfl
      · exfalso
        have h16 : base = 16 := by rcases hb with h | h | h | h <;> omega
        exact hd d (digitIn_of_hexVal hd' (by have := ((hexVal_iff c d).mp hd').1; omega))
    · rw [if_neg hx, if_neg hu]; rfl

theorem digits_grouped {t : Text} {n v : Nat} (h : Digits 10 t n v) : Grouped t := by
  intro c hc
  rcases digits_mem h c hc with h | ⟨d, h⟩
  · exact .inr h
  · exact .inl ((isDigit_iff c).mpr (digitIn10_range h))

/-- After an `e` that does not begin an exponent. -/
theorem floatExp_fails {before : Option Text} : ∀ {sign value : Bool} {cs : Text}, cs.all identCont = true → expAhead value cs = false →
    floatExp before sign value cs = before
  | sign, value, [], _, h => by
    rw [expAhead] at h
    subst h
    rfl
  | sign, value, c :: cs, ha, h => by
    simp only [List.all_cons, Bool.and_eq_true] at ha
    have hs : ¬ (c = '+' ∨ c = '-') := fun h => by rw [sign_not_cont h] at ha; exact absurd ha.1 (by decide)
    rw [floatExp, if_neg hs]
    rw [expAhead] at h
    by_cases hu : c = '_'
    · rw [if_pos hu] at h
      have hd : ¬ c.isDigit = true := by subst hu; decide
      rw [if_neg hd, if_pos hu]
      exact floatExp_fails ha.2 h
    · rw [if_neg hu, if_neg (by rintro (h | h); exact hs (.inr h); exact hs (.inl h))] at h
      by_cases hd : c.isDigit = true
      · rw [if_pos hd] at h ⊢
        exact floatExp_fails ha.2 h
      · rw [if_neg hd] at h ⊢
        rw [if_neg hu]
        have : suffixOk (c :: cs) = true := by
          simp only [suffixOk, Bool.and_eq_true]
          exact ⟨cont_start ha.1 (by simpa using hd), ha.2⟩
        rw [this, Bool.and_true] at h
        subst h
        rfl

theorem floatMain_grouped {dot : Bool} : ∀ {x : Text}, Grouped x → ∀ s, floatMain dot (x ++ s) = floatMain dot s
  | [], _, _ => rfl
  | c :: x, h, s => by
    rw [List.cons_append, floatMain, if_pos (h c List.mem_cons_self)]
    exact floatMain_grouped (fun d hd => h d (List.mem_cons_of_mem _ hd)) s

/-- Every integer literal is a token. -/
theorem intLit_lexed {t : Text} {v : Nat} (h : IntLit t v) : lexLiteral t = some [] := by
  obtain ⟨pre, base, body, suf, n, hp, e, hD, hs, h10⟩ := h
  have ne := numberEnd_nil.mpr hs.1
  simp only [basePrefixes, List.mem_cons, Prod.mk.injEq, List.not_mem_nil, or_false] at hp
  have other : ∀ {b : Nat} {x : Char} (hb : OkBase b) (hn : b ≠ 10), Digits b body (n + 1) v → IntSuffix b suf →
      x.isDigit = false → x ≠ '_' → x ≠ '.' → x ≠ 'e' → x ≠ 'E' → lexInt ('0' :: x :: (body ++ suf)) = (digitsLoop b true (body ++ suf)).bind numberEnd →
      lexLiteral ('0' :: x :: (body ++ suf)) = some [] := by
    intro b x hb hn hD hs h1 h2 h3 h4 h5 hl
    rw [lexLiteral_number (by decide)]
    have hf : lexFloat ('0' :: x :: (body ++ suf)) = none := by
      show (floatMain false (x :: (body ++ suf))).bind numberEnd = none
      rw [floatMain, if_neg (by simp [h1, h2]), if_neg h3, if_neg (by simp [h4, h5])]
      rfl
    rw [hf]
    simp only [Option.orElse_none]
    rw [hl, digitsLoop_grouped hb hD (fun h => absurd h hn)]
    rw [show (decide (n + 1 = 0)) = false by simp, digitsLoop_suffix hb hs]
    exact numberEnd_nil.mpr hs.1
  rcases hp with ⟨rfl, rfl⟩ | ⟨rfl, rfl⟩ | ⟨rfl, rfl⟩ | ⟨rfl, rfl⟩
  · obtain ⟨hu, hx⟩ := h10 rfl
    have hsp := digits_grouped hD
    have hb : OkBase 10 := .inr (.inr (.inl rfl))
    have hl := digitsLoop_grouped hb hD (fun _ => hu) suf
    rw [show (decide (n + 1 = 0)) = false by simp, digitsLoop_suffix hb hs] at hl
    have hne := digits_ne_nil hD
    cases body with
    | nil => exact absurd rfl hne
    | cons c b =>
      have hc : c.isDigit = true := by
        rcases hsp c List.mem_cons_self with h | h
        · exact h
        · subst h; exact absurd rfl hu
      rw [e, List.nil_append, List.cons_append, lexLiteral_number hc]
      have hf : lexFloat (c :: (b ++ suf)) = none := by
        unfold lexFloat
        simp only [hc, if_true]
        rw [floatMain_grouped (fun d hd => hsp d (List.mem_cons_of_mem _ hd))]
        cases suf with
        | nil => rfl
        | cons x s =>
          obtain ⟨p1, p2, p3, p4⟩ := suffix_plain hs.1
          obtain ⟨q1, _, q3⟩ := hs.2 x rfl
          rw [floatMain, if_neg (by simp [p1, q1]), if_neg p2]
          by_cases he : x = 'e' ∨ x = 'E'
          · rw [if_pos he]
            have hh := hs.1
            simp only [suffixOk, Bool.and_eq_true] at hh
            have : expAhead false s = false := by
              rw [Bool.eq_false_iff]
              exact fun h => q3 rfl he ((exponent_iff hs.1).mp h)
            rw [floatExp_fails hh.2 this]
            rfl
          · rw [if_neg he]; rfl
      rw [hf]
      simp only [Option.orElse_none]
      unfold lexInt lexDigits
      have plain : ∀ y, (y = 'x' ∨ y = 'o' ∨ y = 'b') → ∀ k, c :: (b ++ suf) ≠ '0' :: y :: k := by
        intro y hy k he
        injection he with h1 h2
        subst h1
        cases b with
        | nil =>
          rw [List.nil_append] at h2
          have := hx y ⟨rfl, by rw [h2]; rfl⟩
          rcases hy with h | h | h
          · exact this.1 h
          · exact this.2.1 h
          · exact this.2.2 h
        | cons z b =>
          injection h2 with h2 _
          subst h2
          rcases hsp z (by simp) with h | h
          · rcases hy with rfl | rfl | rfl <;> exact absurd h (by decide)
          · subst h; rcases hy with h | h | h <;> exact absurd h (by decide)
      split
      · rename_i k he; exact absurd he (plain 'x' (.inl rfl) k)
      · rename_i k he; exact absurd he (plain 'o' (.inr (.inl rfl)) k)
      · rename_i k he; exact absurd he (plain 'b' (.inr (.inr rfl)) k)
      · rw [show c :: (b ++ suf) = c :: b ++ suf from rfl, hl]
        exact ne
  · rw [e]; exact other (.inr (.inr (.inr rfl))) (by decide) hD hs (by decide) (by decide) (by decide) (by decide) (by decide) rfl
  · rw [e]; exact other (.inr (.inl rfl)) (by decide) hD hs (by decide) (by decide) (by decide) (by decide) (by decide) rfl
  · rw [e]; exact other (.inl rfl) (by decide) hD hs (by decide) (by decide) (by decide) (by decide) (by decide) rfl

/-! ### floating point numbers: reading -/

theorem Spec.Grouped.tail {c : Char} {x : Text} (h : Grouped (c :: x)) : Grouped x := fun d hd => h d (List.mem_cons_of_mem _ hd)

theorem Spec.Grouped.cons {c : Char} {x : Text} (hc : c.isDigit = true ∨ c = '_') (h : Grouped x) : Grouped (c :: x) := by
  intro d hd
  rcases List.mem_cons.mp hd with rfl | hd
  · exact hc
  · exact h d hd

theorem under_grouped {u : Text} (h : ∀ c ∈ u, c = '_') : Grouped u := fun c hc => .inr (h c hc)

/-- The digits of the exponent. -/
theorem floatExp_grouped {before : Option Text} {sign : Bool} : ∀ {x : Text} {value : Bool}, Grouped x → ∀ s,
    floatExp before sign value (x ++ s) = floatExp before sign (value || x.any (·.isDigit)) s
  | [], value, _, s => by simp
  | c :: x, value, h, s => by
    have hs : ¬ (c = '+' ∨ c = '-') := by
      rintro (rfl | rfl) <;> rcases h _ List.mem_cons_self with h | h <;> exact absurd h (by decide)
    rw [List.cons_append, floatExp, if_neg hs]
    by_cases hd : c.isDigit = true
    · rw [if_pos hd, floatExp_grouped h.tail]
      simp [hd]
    · rw [if_neg hd, if_pos ((h c List.mem_cons_self).resolve_left hd), floatExp_grouped h.tail]
      simp [hd]

theorem floatExp_end {before : Option Text} {sign : Bool} {suf : Text} (h : suffixOk suf = true) (hu : suf.head? ≠ some '_') :
    floatExp before sign true suf = some suf := by
  cases suf with
  | nil => rfl
  | cons c cs =>
    obtain ⟨h1, _, h3, h4⟩ := suffix_plain h
    rw [floatExp, if_neg (by rintro (h | h); exact h3 h; exact h4 h), if_neg (by simp [h1]), if_neg (by rintro rfl; exact hu rfl), if_pos rfl]

theorem any_digit {x : Text} (h : ∃ c ∈ x, c.isDigit = true) : x.any (·.isDigit) = true := by
  simpa using h

theorem no_digit {u : Text} (h : ∀ c ∈ u, c = '_') : u.any (·.isDigit) = false := by
  rw [Bool.eq_false_iff]
  intro hh
  rw [List.any_eq_true] at hh
  obtain ⟨c, hc, hd⟩ := hh
  rw [h c hc] at hd
  exact absurd hd (by decide)

/-- The text after `e`. -/
theorem exp_taken {before : Option Text} {e : Char} {exp er suf : Text} (h : ExpPart (e :: exp) er) (hs : suffixOk suf = true) (hu : suf.head? ≠ some '_') :
    (e = 'e' ∨ e = 'E') ∧ floatExp before false false (exp ++ suf) = some suf ∧ expAhead false (exp ++ suf) = true := by
  have ahead : ∀ {x : Text} {seen : Bool}, Grouped x → expAhead seen (x ++ suf) = (seen || x.any (·.isDigit)) := by
    intro x
    induction x with
    | nil =>
      intro seen _
      cases suf with
      | nil => simp [expAhead]
      | cons c cs =>
        obtain ⟨h1, _, h3, h4⟩ := suffix_plain hs
        rw [List.nil_append, expAhead, if_neg (by rintro rfl; exact hu rfl), if_neg (by rintro (h | h); exact h4 h; exact h3 h), if_neg (by simp [h1]), hs]
        simp
    | cons c x ih =>
      intro seen hx
      rw [List.cons_append, expAhead]
      by_cases hc : c = '_'
      · rw [if_pos hc, ih hx.tail]
        have : c.isDigit = false := by subst hc; decide
        simp [this]
      · have hd := (hx c List.mem_cons_self).resolve_right hc
        rw [if_neg hc, if_neg (by rintro (rfl | rfl) <;> exact absurd hd (by decide)), if_pos hd, ih hx.tail]
        simp [hd]
  have signs : ∀ {u x : Text} {c : Char}, (∀ d ∈ u, d = '_') → (c = '+' ∨ c = '-') → Grouped x → (∃ d ∈ x, d.isDigit = true) →
      floatExp before false false ((u ++ c :: x) ++ suf) = some suf ∧ expAhead false ((u ++ c :: x) ++ suf) = true := by
    intro u x c hu2 hc hx hd
    constructor
    · rw [List.append_assoc, floatExp_grouped (under_grouped hu2), no_digit hu2, List.cons_append, floatExp, if_pos hc]
      simp only [Bool.or_self, Bool.false_eq_true, if_false]
      rw [floatExp_grouped hx, any_digit hd]
      exact floatExp_end hs hu
    · rw [List.append_assoc]
      clear hd hx
      induction u with
      | nil =>
        rw [List.nil_append, List.cons_append, expAhead, if_neg (by rintro rfl; rcases hc with h | h <;> cases h),
          if_pos (by rcases hc with h | h; exact .inr h; exact .inl h)]
      | cons d u ih =>
        rw [List.cons_append, expAhead, if_pos (hu2 d List.mem_cons_self)]
        exact ih fun y hy => hu2 y (List.mem_cons_of_mem _ hy)
  cases h with
  | plain he hx hd =>
    refine ⟨he, ?_, ?_⟩
    · rw [floatExp_grouped hx, any_digit hd]
      exact floatExp_end hs hu
    · rw [ahead hx, any_digit hd]
      rfl
  | plus he hu2 hx hd => exact ⟨he, signs hu2 (.inl rfl) hx hd⟩
  | minus he hu2 hx hd => exact ⟨he, signs hu2 (.inr rfl) hx hd⟩

/-- After the digits of the fraction, or of the integral part if there is an exponent. -/
theorem floatMain_exp {dot : Bool} {exp er suf : Text} (h : ExpPart exp er) (hn : dot = false → exp ≠ []) (hs : suffixOk suf = true)
    (hu : suf.head? ≠ some '_') (hx : exp = [] → ∀ c, suf.head? = some c → c = 'e' ∨ c = 'E' → ¬ Exponent suf.tail) :
    (floatMain dot (exp ++ suf)).bind numberEnd = some [] := by
  cases exp with
  | cons e exp =>
    obtain ⟨he, h1, _⟩ := exp_taken (before := if dot then some (e :: (exp ++ suf)) else none) h hs hu
    have p1 : ¬ (e.isDigit = true ∨ e = '_') := by rcases he with rfl | rfl <;> decide
    have p2 : e ≠ '.' := by rcases he with rfl | rfl <;> decide
    rw [List.cons_append, floatMain, if_neg p1, if_neg p2, if_pos he, h1]
    exact numberEnd_nil.mpr hs
  | nil =>
    cases dot with
    | false => exact absurd rfl (hn rfl)
    | true =>
      rw [List.nil_append]
      cases suf with
      | nil => rfl
      | cons c cs =>
        obtain ⟨p1, p2, _, _⟩ := suffix_plain hs
        have hu' : c ≠ '_' := by rintro rfl; exact hu rfl
        rw [floatMain, if_neg (by simp [p1, hu']), if_neg p2]
        by_cases he : c = 'e' ∨ c = 'E'
        · rw [if_pos he]
          have hh := hs
          simp only [suffixOk, Bool.and_eq_true] at hh
          have : expAhead false cs = false := by
            rw [Bool.eq_false_iff]
            exact fun h => hx rfl c rfl he ((exponent_iff hs).mp h)
          rw [floatExp_fails hh.2 this, if_pos rfl, Option.bind_some]
          exact numberEnd_nil.mpr hs
        · rw [if_neg he, if_pos rfl, Option.bind_some]
          exact numberEnd_nil.mpr hs

theorem floatLit_lexed {t r : Text} (h : FloatLit t r) : lexFloat t = some [] := by
  obtain ⟨d, int, frac, fr, exp, er, suf, rfl, rfl, hd, hi, hf, he, h1, h2, hs, hu, hx⟩ := h
  show (if d.isDigit = true then (floatMain false (int ++ (frac ++ (exp ++ suf)))).bind numberEnd else none) = some []
  rw [if_pos hd, floatMain_grouped hi]
  cases hf with
  | none => rw [List.nil_append]; exact floatMain_exp he (fun _ => h1 rfl) hs hu hx
  | point =>
    obtain ⟨rfl, rfl⟩ := h2 rfl
    rfl
  | @digits c x hc hx' =>
    rw [List.cons_append, floatMain, if_neg (by decide), if_pos rfl, if_neg (by decide), if_neg]
    · rw [List.cons_append, floatMain, if_pos (.inl hc), floatMain_grouped hx']
      exact floatMain_exp he (by simp) hs hu hx
    · have : c ≠ '.' := by rintro rfl; exact absurd hc (by decide)
      have hst : identStart c = false := by
        rw [Bool.eq_false_iff]
        intro hst
        have : suffixOk [c] = true := by simp [suffixOk, hst]
        rw [(suffix_plain this).1] at hc
        cases hc
      simp [this, hst]

/-! ### floating point numbers: the value -/

theorem floatLoop_grouped {fl : FloatFlags} : ∀ {x : Text}, Grouped x → ∀ s,
    floatLoop fl (x ++ s) = (floatLoop { fl with exponent := fl.exponent || (fl.e && x.any (·.isDigit)) } s).map fun r => (digitsOf x ++ r.1, r.2)
  | [], _, s => by
    simp only [List.nil_append, List.any_nil, Bool.and_false, Bool.or_false, digitsOf, List.filter_nil]
    cases floatLoop fl s <;> rfl
  | c :: x, h, s => by
    rw [List.cons_append, floatLoop]
    by_cases hu : c = '_'
    · rw [if_pos hu, floatLoop_grouped h.tail]
      have : c.isDigit = false := by subst hu; decide
      subst hu
      simp [this, digitsOf]
    · have hd := (h c List.mem_cons_self).resolve_right hu
      rw [if_neg hu, if_pos hd, floatLoop_grouped h.tail, Option.map_map]
      have e : (fl.exponent || fl.e || fl.e && x.any (·.isDigit)) = (fl.exponent || fl.e && (c :: x).any (·.isDigit)) := by
        simp only [List.any_cons, hd, Bool.true_or, Bool.and_true]
        cases fl.exponent <;> cases fl.e <;> rfl
      simp only [e]
      congr 1
      funext r
      simp [digitsOf, hu]

theorem floatLoop_exp {dot : Bool} {exp er suf : Text} (h : ExpPart exp er) (hs : suffixOk suf = true)
    (hu : suf.head? ≠ some '_') (hx : exp = [] → ∀ c, suf.head? = some c → c = 'e' ∨ c = 'E' → ¬ Exponent suf.tail) :
    ∃ fl, floatLoop ⟨dot, false, false, false⟩ (exp ++ suf) = some (er, fl, suf) ∧ (fl.e = true → fl.exponent = true) := by
  have stop : ∀ {fl : FloatFlags}, fl.e = true → fl.exponent = true → floatLoop fl suf = some ([], fl, suf) := by
    intro fl h1 h2
    cases suf with
    | nil => rfl
    | cons c cs => exact floatLoop_suffix hs (by rintro rfl; exact hu rfl) (fun _ => h2) (fun h => by rw [h1] at h; cases h)
  have start : ∀ {e d : Char} {k : Text}, (e = 'e' ∨ e = 'E') → k.find? (· ≠ '_') = some d → (d = '-' ∨ d = '+' ∨ d.isDigit = true) →
      floatLoop ⟨dot, false, false, false⟩ (e :: k) = (floatLoop ⟨dot, true, false, false⟩ k).map fun r => ('e' :: r.1, r.2) := by
    intro e d k he hf hd
    have p1 : e ≠ '_' := by rcases he with rfl | rfl <;> decide
    have p2 : ¬ e.isDigit = true := by rcases he with rfl | rfl <;> decide
    have p3 : e ≠ '.' := by rcases he with rfl | rfl <;> decide
    rw [floatLoop, if_neg p1, if_neg p2, if_neg p3, if_pos he, hf]
    simp only
    rw [if_pos hd, if_neg (by decide)]
  have find : ∀ {u k : Text} {c : Char}, (∀ d ∈ u, d = '_') → c ≠ '_' → (u ++ c :: k).find? (· ≠ '_') = some c := by
    intro u k c hu hc
    induction u with
    | nil => simp [hc]
    | cons d u ih =>
      have := hu d List.mem_cons_self
      subst this
      simp only [List.cons_append, List.find?_cons]
      simpa using ih fun y hy => hu y (List.mem_cons_of_mem _ hy)
  have findx : ∀ {x : Text}, Grouped x → (∃ c ∈ x, c.isDigit = true) → ∀ k, ∃ d, (x ++ k).find? (· ≠ '_') = some d ∧ d.isDigit = true := by
    intro x
    induction x with
    | nil => rintro _ ⟨c, hc, _⟩; cases hc
    | cons d x ih =>
      intro hx hd k
      by_cases hc : d = '_'
      · subst hc
        obtain ⟨y, hy, hy'⟩ := hd
        rcases List.mem_cons.mp hy with rfl | hy
        · exact absurd hy' (by decide)
        · obtain ⟨z, hz, hz'⟩ := ih hx.tail ⟨y, hy, hy'⟩ k
          exact ⟨z, by simpa using hz, hz'⟩
      · exact ⟨d, by simp [hc], (hx d List.mem_cons_self).resolve_right hc⟩
  cases h with
  | none =>
    rw [List.nil_append]
    refine ⟨⟨dot, false, false, false⟩, ?_, by simp⟩
    cases suf with
    | nil => rfl
    | cons c cs =>
      refine floatLoop_suffix hs (by rintro rfl; exact hu rfl) (fun h => by cases h) ?_
      intro _ he d hf hd
      refine hx rfl c rfl he ((exponent_iff hs).mp ?_)
      have hall : cs.all identCont = true := by
        simp only [suffixOk, Bool.and_eq_true] at hs
        exact hs.2
      have hdig : d.isDigit = true := by
        rcases hd with rfl | rfl | h
        · have := List.all_eq_true.mp hall _ (List.mem_of_find?_eq_some hf)
          exact absurd this (by decide)
        · have := List.all_eq_true.mp hall _ (List.mem_of_find?_eq_some hf)
          exact absurd this (by decide)
        · exact h
      have more : ∀ {k : Text}, k.all identCont = true → expAhead true k = true := by
        intro k
        induction k with
        | nil => intro _; rfl
        | cons y k ih =>
          intro hk
          have hk' := hk
          simp only [List.all_cons, Bool.and_eq_true] at hk
          rw [expAhead]
          split
          · exact ih hk.2
          · split
            · rfl
            · split
              · exact ih hk.2
              · rename_i hy
                simp only [Bool.true_and, suffixOk, Bool.and_eq_true]
                exact ⟨cont_start hk.1 (by simpa using hy), hk.2⟩
      clear hs hu hx stop start
      induction cs with
      | nil => cases hf
      | cons y cs ih =>
        rw [expAhead]
        simp only [List.all_cons, Bool.and_eq_true] at hall
        by_cases hy : y = '_'
        · rw [if_pos hy]
          subst hy
          exact ih (by simpa using hf) hall.2
        · have : (y :: cs).find? (· ≠ '_') = some y := by simp [hy]
          rw [this] at hf
          cases hf
          rw [if_neg hy, if_neg (by rintro (rfl | rfl) <;> exact absurd hdig (by decide)), if_pos hdig]
          exact more hall.2
  | @plain e x he hx' hd =>
    obtain ⟨d, hf, hd'⟩ := findx hx' hd suf
    rw [List.cons_append, start he hf (.inr (.inr hd')), floatLoop_grouped hx', stop rfl (by simp [any_digit hd])]
    exact ⟨_, by simp; rfl, by simp [any_digit hd]⟩
  | @plus e u x he hu2 hx' hd =>
    rw [List.cons_append, List.append_assoc, List.cons_append, start he (find hu2 (by decide)) (.inr (.inl rfl)), floatLoop_grouped (under_grouped hu2), no_digit hu2]
    rw [floatLoop, if_neg (by decide), if_neg (by decide), if_neg (by decide), if_neg (by decide), if_pos (by decide), if_neg (by simp), if_neg (by decide),
      floatLoop_grouped hx', stop rfl (by simp [any_digit hd])]
    have : digitsOf u = [] := by simpa [digitsOf] using hu2
    exact ⟨_, by simp [this]; rfl, by simp [any_digit hd]⟩
  | @minus e u x he hu2 hx' hd =>
    rw [List.cons_append, List.append_assoc, List.cons_append, start he (find hu2 (by decide)) (.inl rfl), floatLoop_grouped (under_grouped hu2), no_digit hu2]
    rw [floatLoop, if_neg (by decide), if_neg (by decide), if_neg (by decide), if_neg (by decide), if_pos (by decide), if_neg (by simp), if_pos rfl,
      floatLoop_grouped hx', stop rfl (by simp [any_digit hd])]
    have : digitsOf u = [] := by simpa [digitsOf] using hu2
    exact ⟨_, by simp [this]; rfl, by simp [any_digit hd]⟩

/-- Digits are copied. -/
theorem fraction_loop {frac fr exp er suf : Text} (hf : Fraction frac fr) (he : ExpPart exp er) (h2 : frac = ['.'] → exp = [] ∧ suf = [])
    (hs : suffixOk suf = true) (hu : suf.head? ≠ some '_') (hx : exp = [] → ∀ c, suf.head? = some c → c = 'e' ∨ c = 'E' → ¬ Exponent suf.tail) :
    ∃ fl, floatLoop ⟨false, false, false, false⟩ (frac ++ (exp ++ suf)) = some (fr ++ er, fl, suf) ∧ (fl.e = true → fl.exponent = true) := by
  cases hf with
  | none =>
    rw [List.nil_append]
    exact floatLoop_exp he hs hu hx
  | point =>
    obtain ⟨rfl, rfl⟩ := h2 rfl
    cases he
    exact ⟨_, rfl, by simp⟩
  | @digits c x hc hx' =>
    obtain ⟨fl, h, hfl⟩ := floatLoop_exp (dot := true) he hs hu hx
    refine ⟨fl, ?_, hfl⟩
    have hcu : c ≠ '_' := by rintro rfl; exact absurd hc (by decide)
    rw [List.cons_append, floatLoop, if_neg (by decide), if_neg (by decide), if_pos rfl, if_neg (by decide), floatLoop_grouped (Spec.Grouped.cons (.inl hc) hx')]
    simp only [Bool.false_and, Bool.or_false]
    rw [h]
    simp [digitsOf, hcu]

theorem floatLit_reads {t r : Text} (h : FloatLit t r) : readFloatDigits t = some r := by
  obtain ⟨d, int, frac, fr, exp, er, suf, rfl, rfl, hd, hi, hf, he, h1, h2, hs, hu, hx⟩ := h
  obtain ⟨fl, hl, hfl⟩ := fraction_loop hf he h2 hs hu hx
  have hdu : d ≠ '_' := by rintro rfl; exact absurd hd (by decide)
  have e : floatLoop ⟨false, false, false, false⟩ (d :: int ++ (frac ++ (exp ++ suf))) = some (d :: digitsOf int ++ (fr ++ er), fl, suf) := by
    rw [floatLoop_grouped (Spec.Grouped.cons (.inl hd) hi)]
    simp only [Bool.false_and, Bool.or_false]
    rw [hl]
    simp [digitsOf, hdu]
  have hfl' : (fl.e && !fl.exponent) = false := by
    cases h : fl.e with
    | false => rfl
    | true => rw [hfl h]; rfl
  unfold readFloatDigits
  split
  · rename_i body e'
    injection e' with e' _
    subst e'
    exact absurd hd (by decide)
  · rw [List.cons_append] at e ⊢
    simp only [hd, if_true, e, hfl', hs]
    rfl

theorem intLoop_grouped : ∀ {x : Text} {acc : Nat} {seen : Bool}, Grouped x → ∀ {s : Text},
    (∀ acc seen, intLoop 10 acc seen s = none) → intLoop 10 acc seen (x ++ s) = none
  | [], _, _, _, _, hs => hs _ _
  | c :: x, acc, seen, h, s, hs => by
    rw [List.cons_append, intLoop]
    by_cases hu : c = '_'
    · rw [if_pos hu]
      exact intLoop_grouped h.tail hs
    · have hd := (h c List.mem_cons_self).resolve_right hu
      rw [if_neg hu, if_neg, if_pos ((isDigit_iff c).mp hd)]
      · split
        · exact intLoop_grouped h.tail hs
        · rfl
      · rintro ⟨_, rfl | ⟨rfl | rfl, _⟩⟩ <;> exact absurd hd (by decide)

theorem floatLit_not_int {t r : Text} (h : FloatLit t r) : readNat t = none := by
  obtain ⟨d, int, frac, fr, exp, er, suf, rfl, rfl, hd, hi, hf, he, h1, h2, hs, hu, hx⟩ := h
  have stop : ∀ acc seen, intLoop 10 acc seen (frac ++ (exp ++ suf)) = none := by
    intro acc seen
    have dot : ∀ k, intLoop 10 acc seen ('.' :: k) = none := by
      intro k
      rw [intLoop, if_neg (by decide), if_pos ⟨rfl, .inl rfl⟩]
    cases hf with
    | point => exact dot _
    | digits _ _ => exact dot _
    | none =>
      cases exp with
      | nil => exact absurd rfl (h1 rfl)
      | cons e exp =>
        obtain ⟨p1, _, p2⟩ := exp_taken (before := none) he hs hu
        rw [List.nil_append, List.cons_append, intLoop, if_neg (by rcases p1 with rfl | rfl <;> decide), if_pos ⟨rfl, .inr ⟨p1, p2⟩⟩]
  have hl : intLoop 10 0 false (d :: int ++ (frac ++ (exp ++ suf))) = none := intLoop_grouped (Spec.Grouped.cons (.inl hd) hi) stop
  have second : ∀ {y k}, (y = 'x' ∨ y = 'o' ∨ y = 'b') → d :: int ++ (frac ++ (exp ++ suf)) = '0' :: y :: k → False := by
    intro y k hy e
    rw [List.cons_append] at e
    injection e with _ e
    cases int with
    | cons z int =>
      injection e with e _
      subst e
      rcases hi z List.mem_cons_self with h | h
      · rcases hy with rfl | rfl | rfl <;> exact absurd h (by decide)
      · subst h; rcases hy with h | h | h <;> cases h
    | nil =>
      rw [List.nil_append] at e
      cases hf with
      | point => injection e with e _; subst e; rcases hy with h | h | h <;> cases h
      | digits _ _ => injection e with e _; subst e; rcases hy with h | h | h <;> cases h
      | none =>
        cases exp with
        | nil => exact absurd rfl (h1 rfl)
        | cons e' exp =>
          obtain ⟨p1, _, _⟩ := exp_taken (before := none) he hs hu
          injection e with e _
          subst e
          rcases p1 with rfl | rfl <;> rcases hy with h | h | h <;> cases h
  unfold readNat
  split
  · rename_i e; exact (second (.inl rfl) e).elim
  · rename_i e; exact (second (.inr (.inl rfl)) e).elim
  · rename_i e; exact (second (.inr (.inr rfl)) e).elim
  · rename_i c body _ _ _ e
    rw [e] at hl
    simp only [hl]
    split <;> rfl
  · rfl

theorem floatLit_readLit {t r : Text} (h : FloatLit t r) : readLit t = some (.float r) := by
  have h1 := floatLit_not_int h
  have h2 := floatLit_reads h
  obtain ⟨d, int, frac, fr, exp, er, suf, rfl, _, hd, _⟩ := h
  rw [List.cons_append] at *
  rw [readLit_digit hd, readIntDigits_digit hd, h1, h2]
  rfl

/-! ### floating point numbers: every one that is lexed -/

/-- What `floatExp` has read. -/
theorem floatExp_inv {before : Option Text} : ∀ {sign value : Bool} {cs : Text},
    (before.bind numberEnd = some [] → value = true ∨ (cs.all identCont = true ∧ expAhead false cs = true)) →
    (floatExp before sign value cs).bind numberEnd = some [] →
    ∃ y suf, cs = y ++ suf ∧ suffixOk suf = true ∧ suf.head? ≠ some '_' ∧
      ((Grouped y ∧ (value = true ∨ ∃ c ∈ y, c.isDigit = true)) ∨
        ∃ u c x, y = u ++ c :: x ∧ value = false ∧ sign = false ∧ (∀ c ∈ u, c = '_') ∧ (c = '+' ∨ c = '-') ∧ Grouped x ∧ ∃ c ∈ x, c.isDigit = true)
  | sign, value, [], hb, h => by
    refine ⟨[], [], rfl, rfl, by simp, .inl ⟨fun c hc => by (cases hc), ?_⟩⟩
    cases value with
    | true => exact .inl rfl
    | false =>
      rcases hb h with h | ⟨_, h⟩
      · cases h
      · cases h
  | sign, value, c :: cs, hb, h => by
    rw [floatExp] at h
    by_cases hs : c = '+' ∨ c = '-'
    · rw [if_pos hs] at h
      have nb : before.bind numberEnd = some [] → value = true := by
        intro hh
        rcases hb hh with h | ⟨h, _⟩
        · exact h
        · rw [List.all_cons, sign_not_cont hs] at h
          cases h
      cases value with
      | true =>
        exfalso
        rw [if_pos rfl] at h
        obtain ⟨_, _, h3, h4⟩ := suffix_plain (numberEnd_nil.mp h)
        rcases hs with hs | hs
        · exact h3 hs
        · exact h4 hs
      | false =>
        rw [if_neg (by decide)] at h
        cases sign with
        | true => exact absurd (nb h) (by decide)
        | false =>
          rw [if_neg (by decide)] at h
          obtain ⟨y, suf, rfl, h1, h2, ⟨h3, h4⟩ | ⟨_, _, _, _, _, h, _⟩⟩ := floatExp_inv (fun hh => absurd (nb hh) (by decide)) h
          · refine ⟨c :: y, suf, rfl, h1, h2, .inr ⟨[], c, y, rfl, rfl, rfl, fun c hc => by (cases hc), hs, h3, ?_⟩⟩
            rcases h4 with h | h
            · cases h
            · exact h
          · cases h
    · rw [if_neg hs] at h
      by_cases hd : c.isDigit = true
      · rw [if_pos hd] at h
        obtain ⟨y, suf, rfl, h1, h2, ⟨h3, h4⟩ | ⟨_, _, _, _, h, _⟩⟩ := floatExp_inv (fun _ => .inl rfl) h
        · exact ⟨c :: y, suf, rfl, h1, h2, .inl ⟨h3.cons (.inl hd), .inr ⟨c, List.mem_cons_self, hd⟩⟩⟩
        · cases h
      · rw [if_neg hd] at h
        by_cases hu : c = '_'
        · rw [if_pos hu] at h
          subst hu
          have hb' : before.bind numberEnd = some [] → value = true ∨ (cs.all identCont = true ∧ expAhead false cs = true) := by
            intro hh
            rcases hb hh with h | ⟨h1, h2⟩
            · exact .inl h
            · rw [List.all_cons, Bool.and_eq_true] at h1
              rw [expAhead, if_pos rfl] at h2
              exact .inr ⟨h1.2, h2⟩
          obtain ⟨y, suf, rfl, h1, h2, ⟨h3, h4⟩ | ⟨u, c, x, rfl, h4, h5, h6, h7⟩⟩ := floatExp_inv hb' h
          · refine ⟨'_' :: y, suf, rfl, h1, h2, .inl ⟨h3.cons (.inr rfl), ?_⟩⟩
            rcases h4 with h | ⟨d, h, h'⟩
            · exact .inl h
            · exact .inr ⟨d, List.mem_cons_of_mem _ h, h'⟩
          · refine ⟨'_' :: (u ++ c :: x), suf, rfl, h1, h2, .inr ⟨'_' :: u, c, x, rfl, h4, h5, ?_, h7⟩⟩
            intro d hd
            rcases List.mem_cons.mp hd with h | h
            · exact h
            · exact h6 d h
        · rw [if_neg hu] at h
          cases value with
          | true =>
            rw [if_pos rfl] at h
            exact ⟨[], c :: cs, rfl, numberEnd_nil.mp h, by simpa using hu, .inl ⟨fun c hc => by (cases hc), .inl rfl⟩⟩
          | false =>
            rw [if_neg (by decide)] at h
            rcases hb h with h | ⟨_, h⟩
            · cases h
            · rw [expAhead, if_neg hu, if_neg (by rintro (h | h); exact hs (.inr h); exact hs (.inl h)), if_neg hd] at h
              cases h

theorem floatMain_inv : ∀ {dot : Bool} {s : Text}, (floatMain dot s).bind numberEnd = some [] →
    ∃ x frac fr exp er suf, s = x ++ (frac ++ (exp ++ suf)) ∧ Grouped x ∧ Fraction frac fr ∧ (dot = true → frac = []) ∧ ExpPart exp er ∧
      (dot = false → frac = [] → exp ≠ []) ∧ (frac = ['.'] → exp = [] ∧ suf = []) ∧ suffixOk suf = true ∧ suf.head? ≠ some '_' ∧
      (exp = [] → ∀ c, suf.head? = some c → c = 'e' ∨ c = 'E' → ¬ Exponent suf.tail)
  | dot, [], h => by
    cases dot with
    | false => cases h
    | true => exact ⟨[], [], [], [], [], [], rfl, fun c hc => by (cases hc), .none, by simp, .none, by simp, by simp, rfl, by simp, by simp⟩
  | dot, c :: cs, h => by
    rw [floatMain] at h
    by_cases hd : c.isDigit = true ∨ c = '_'
    · rw [if_pos hd] at h
      obtain ⟨x, frac, fr, exp, er, suf, rfl, h1, h2⟩ := floatMain_inv h
      exact ⟨c :: x, frac, fr, exp, er, suf, rfl, h1.cons hd, h2⟩
    · rw [if_neg hd] at h
      have plain : dot = true → suffixOk (c :: cs) = true → (c = 'e' ∨ c = 'E' → ¬ Exponent cs) →
          ∃ x frac fr exp er suf, c :: cs = x ++ (frac ++ (exp ++ suf)) ∧ Grouped x ∧ Fraction frac fr ∧ (dot = true → frac = []) ∧ ExpPart exp er ∧
            (dot = false → frac = [] → exp ≠ []) ∧ (frac = ['.'] → exp = [] ∧ suf = []) ∧ suffixOk suf = true ∧ suf.head? ≠ some '_' ∧
            (exp = [] → ∀ c, suf.head? = some c → c = 'e' ∨ c = 'E' → ¬ Exponent suf.tail) := by
        intro h1 h2 h3
        refine ⟨[], [], [], [], [], c :: cs, rfl, fun c hc => by (cases hc), .none, fun _ => rfl, .none, ?_, by simp, h2, ?_, ?_⟩
        · intro h; rw [h1] at h; cases h
        · rintro ⟨⟩; exact hd (.inr rfl)
        · rintro _ _ ⟨⟩ he; exact h3 he
      by_cases hp : c = '.'
      · rw [if_pos hp] at h
        subst hp
        cases dot with
        | true =>
          rw [if_pos rfl, Option.bind_some] at h
          exact absurd (suffix_plain (numberEnd_nil.mp h)).2.1 (by simp)
        | false =>
          rw [if_neg (by decide)] at h
          split at h
          · cases h
          · rename_i hn
            obtain ⟨x, frac, fr, exp, er, suf, rfl, h1, h2, h3, h4, h5, h6, h7, h8, h9⟩ := floatMain_inv h
            obtain rfl := h3 rfl
            rw [List.nil_append] at *
            have hh : ∀ y k, x ++ (exp ++ suf) = y :: k → identStart y = false := by
              intro y k e
              rw [e] at hn
              cases hy : identStart y with
              | false => rfl
              | true => exact absurd (by simp [hy]) hn
            cases x with
            | cons d x =>
              have hd : d.isDigit = true := by
                refine (h1 d List.mem_cons_self).resolve_right ?_
                rintro rfl
                exact absurd (hh _ _ rfl) (by decide)
              exact ⟨[], '.' :: d :: x, _, exp, er, suf, rfl, fun c hc => by (cases hc), .digits hd h1.tail, by simp, h4, by simp, by simp, h7, h8, h9⟩
            | nil =>
              have he : exp = [] := by
                cases exp with
                | nil => rfl
                | cons e exp =>
                  exfalso
                  have := hh e _ rfl
                  rcases (exp_taken (before := none) h4 h7 h8).1 with rfl | rfl <;> exact absurd this (by decide)
              subst he
              have hs : suf = [] := by
                cases suf with
                | nil => rfl
                | cons e suf =>
                  exfalso
                  have := hh e _ rfl
                  simp [suffixOk, this] at h7
              subst hs
              exact ⟨[], ['.'], _, [], er, [], rfl, fun c hc => by (cases hc), .point, by simp, h4, by simp, by simp, h7, h8, h9⟩
      · rw [if_neg hp] at h
        by_cases he : c = 'e' ∨ c = 'E'
        · rw [if_pos he] at h
          by_cases hfall : dot = true ∧ suffixOk (c :: cs) = true ∧ expAhead false cs = false
          · refine plain hfall.1 hfall.2.1 fun _ hx => ?_
            have := (exponent_iff hfall.2.1).mpr hx
            rw [hfall.2.2] at this
            cases this
          · have hb : (if dot then some (c :: cs) else none).bind numberEnd = some [] → false = true ∨ (cs.all identCont = true ∧ expAhead false cs = true) := by
              intro hh
              cases dot with
              | false => cases hh
              | true =>
                rw [if_pos rfl, Option.bind_some] at hh
                have hs := numberEnd_nil.mp hh
                refine .inr ⟨?_, ?_⟩
                · simp only [suffixOk, Bool.and_eq_true] at hs
                  exact hs.2
                · cases hx : expAhead false cs with
                  | true => rfl
                  | false => exact absurd ⟨rfl, hs, hx⟩ hfall
            obtain ⟨y, suf, rfl, h1, h2, hy⟩ := floatExp_inv hb h
            have : ∃ er, ExpPart (c :: y) er := by
              rcases hy with ⟨h3, h | h⟩ | ⟨u, z, x, rfl, _, _, h3, rfl | rfl, h4, h5⟩
              · cases h
              · exact ⟨_, .plain he h3 h⟩
              · exact ⟨_, .plus he h3 h4 h5⟩
              · exact ⟨_, .minus he h3 h4 h5⟩
            obtain ⟨er, hE⟩ := this
            exact ⟨[], [], [], c :: y, er, suf, rfl, fun c hc => by (cases hc), .none, fun _ => rfl, hE, by simp, by simp, h1, h2, by simp⟩
        · rw [if_neg he] at h
          cases dot with
          | false => cases h
          | true =>
            rw [if_pos rfl] at h
            exact plain rfl (numberEnd_nil.mp h) fun h => absurd h he

theorem lexFloat_inv {t : Text} (h : lexFloat t = some []) : ∃ r, FloatLit t r := by
  cases t with
  | nil => cases h
  | cons d cs =>
    unfold lexFloat at h
    simp only at h
    split at h
    · rename_i hd
      obtain ⟨x, frac, fr, exp, er, suf, rfl, h1, h2, _, h4, h5, h6⟩ := floatMain_inv h
      exact ⟨_, d, x, frac, fr, exp, er, suf, rfl, rfl, hd, h1, h2, h4, h5 rfl, h6⟩
    · cases h

/-- A literal that the lexer accepts and that has a number as its value starts with a digit and is a float or an integer literal. -/
theorem number_lexed {t : Text} {l : SynLit} (h : lexLiteral t = some []) (hr : readLit t = some l) (hl : (∃ d, l = .int d) ∨ ∃ d, l = .float d) :
    (∃ r, FloatLit t r ∧ l = .float r) ∨ ∃ v, IntLit t v ∧ l = .int (natText v) := by
  have main : ∀ {c cs}, t = c :: cs → c.isDigit = true → ((∃ r, FloatLit t r ∧ l = .float r) ∨ ∃ v, IntLit t v ∧ l = .int (natText v)) := by
    intro c cs e hd
    cases hn : readNat t with
    | some v =>
      have hi := (readNat_iff _ _).mp hn
      rw [readLit_int hi] at hr
      cases hr
      exact .inr ⟨v, hi, rfl⟩
    | none =>
      rw [e, lexLiteral_number hd, ← e] at h
      cases hf : lexFloat t with
      | some x =>
        rw [hf] at h
        obtain ⟨r, hF⟩ := lexFloat_inv (hf.trans h)
        rw [floatLit_readLit hF] at hr
        cases hr
        exact .inl ⟨r, hF, rfl⟩
      | none =>
        rw [hf, e] at h
        rw [e] at hf hn
        obtain ⟨v, hv⟩ := lexInt_reads hd (by rw [hf]; simp) h
        rw [hn] at hv
        cases hv
  have no : ∀ {α : Type} {f : α → SynLit} {o : Option α}, (∀ a d, f a ≠ .int d) → (∀ a d, f a ≠ .float d) → readLit t = o.map f → False := by
    intro α f o h1 h2 e
    rw [hr] at e
    obtain ⟨a, _, e⟩ := Option.map_eq_some_iff.mp e.symm
    rcases hl with ⟨d, rfl⟩ | ⟨d, rfl⟩
    · exact h1 a d e
    · exact h2 a d e
  obtain ⟨c, cs, e, hd⟩ : ∃ c cs, t = c :: cs ∧ c.isDigit = true := by
    have h0 := h
    unfold lexLiteral at h
    split at h
    · rename_i cs
      exact (no (f := fun r => .str r.1) (o := cookStr .plain cs) (by simp) (by simp) rfl).elim
    · rename_i cs
      exact (no (f := .str) (o := rawBody cs) (by simp) (by simp) rfl).elim
    · rename_i cs
      exact (no (f := fun r => .byteStr r.1) (o := cookBytes .plain cs) (by simp) (by simp) rfl).elim
    · rename_i cs
      refine (no (f := .byteStr) (o := (rawBody cs).bind fun t => t.mapM byteOfChar) (by simp) (by simp) ?_).elim
      rw [Option.map_bind]
      rfl
    · rename_i cs
      exfalso
      have e : readLit ('b' :: '\'' :: cs) = (cookOne cs).bind fun r => if r.2.head? = some '\'' then (byteOfChar r.1).map .byte else none := rfl
      rw [hr] at e
      obtain ⟨r, _, e⟩ := Option.bind_eq_some_iff.mp e.symm
      split at e
      · obtain ⟨a, _, e⟩ := Option.map_eq_some_iff.mp e
        rcases hl with ⟨d, rfl⟩ | ⟨d, rfl⟩ <;> cases e
      · cases e
    · exact (no (o := some ()) (f := fun _ => .cstr) (by simp) (by simp) rfl).elim
    · exact (no (o := some ()) (f := fun _ => .cstr) (by simp) (by simp) rfl).elim
    · rename_i cs
      exfalso
      have e : readLit ('\'' :: cs) = (cookOne cs).bind fun r => if r.2.head? = some '\'' then some (.char r.1) else none := rfl
      rw [hr] at e
      obtain ⟨r, _, e⟩ := Option.bind_eq_some_iff.mp e.symm
      split at e
      · rcases hl with ⟨d, rfl⟩ | ⟨d, rfl⟩ <;> cases e
      · cases e
    · cases t with
      | nil => cases h
      | cons c cs =>
        refine ⟨c, cs, rfl, Classical.byContradiction fun hd => ?_⟩
        rw [Bool.not_eq_true] at hd
        have hf : lexFloat (c :: cs) = none := by simp [lexFloat, hd]
        rw [hf] at h
        simp only [Option.orElse_none, lexInt] at h
        obtain ⟨rest, hl, _⟩ := Option.bind_eq_some_iff.mp h
        unfold lexDigits at hl
        split at hl
        · rename_i e; injection e with e _; subst e; exact absurd hd (by decide)
        · rename_i e; injection e with e _; subst e; exact absurd hd (by decide)
        · rename_i e; injection e with e _; subst e; exact absurd hd (by decide)
        · rw [digitsLoop, if_neg (by simp [hd])] at hl
          simp at hl
  exact main e hd

/-- The literals that are lexed as one token and have a number with a fraction as their value. -/
theorem floatLit_iff {t r : Text} : (lexLiteral t = some [] ∧ readLit t = some (.float r)) ↔ FloatLit t r := by
  constructor
  · rintro ⟨h, hr⟩
    rcases number_lexed h hr (.inr ⟨r, rfl⟩) with ⟨r', hF, e⟩ | ⟨_, _, e⟩
    · cases e; exact hF
    · cases e
  · intro h
    refine ⟨?_, floatLit_readLit h⟩
    have hl := floatLit_lexed h
    obtain ⟨d, int, frac, fr, exp, er, suf, rfl, _, hd, _⟩ := h
    rw [List.cons_append] at *
    rw [lexLiteral_number hd, hl]
    rfl

end Parsel
