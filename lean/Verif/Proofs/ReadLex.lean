import Verif.Proofs.StrLit
import Verif.Proofs.Literal

/-! The reader of literals agrees with the lexer: every literal token that the lexer finds has a value. -/

namespace Parsel

open Spec

/-! ### numbers -/

theorem numberEnd_nil {s : Text} : numberEnd s = some [] ↔ suffixOk s = true := by
  cases s with
  | nil => simp [numberEnd, suffixOk]
  | cons c cs =>
    simp only [numberEnd, suffixOk]
    by_cases h : identStart c = true
    · simp only [h, if_true, Bool.true_and, Option.some.injEq]
      induction cs with
      | nil => simp
      | cons d cs ih =>
        simp only [List.dropWhile, List.all_cons]
        cases hd : identCont d with
        | true => simpa using ih
        | false => simp
    · rw [if_neg h]
      by_cases h2 : identCont c = true
      · rw [if_pos h2]; simp [h]
      · rw [if_neg h2]; simp [h]

theorem sign_not_cont {c : Char} (h : c = '+' ∨ c = '-') : identCont c = false := by
  rcases h with rfl | rfl <;> decide

theorem suffix_plain {c : Char} {cs : Text} (h : suffixOk (c :: cs) = true) : c.isDigit = false ∧ c ≠ '.' ∧ c ≠ '+' ∧ c ≠ '-' := by
  refine ⟨?_, ?_, ?_, ?_⟩
  · rw [Bool.eq_false_iff]
    intro hd
    exact suffixOk_head h ((isDigit_iff c).mp hd)
  all_goals
    rintro rfl
    simp only [suffixOk, Bool.and_eq_true] at h
    exact absurd h.1 (by decide)

/-- A suffix ends the loop of the reader of floating point numbers, unless it begins with an exponent. -/
theorem floatLoop_suffix {c : Char} {cs : Text} (h : suffixOk (c :: cs) = true) (hu : c ≠ '_') {fl : FloatFlags} (he : fl.e = true → fl.exponent = true)
    (hx : fl.e = false → c = 'e' ∨ c = 'E' → ∀ d, cs.find? (· ≠ '_') = some d → ¬ (d = '-' ∨ d = '+' ∨ d.isDigit = true)) :
    floatLoop fl (c :: cs) = some ([], fl, c :: cs) := by
  obtain ⟨h1, h2, h3, h4⟩ := suffix_plain h
  rw [floatLoop, if_neg hu, if_neg (by rw [h1]; decide), if_neg h2]
  by_cases hce : c = 'e' ∨ c = 'E'
  · rw [if_pos hce]
    split
    · rename_i d hd
      split
      · rename_i hs
        cases hfe : fl.e with
        | true => simp [he hfe]
        | false => exact absurd hs (hx hfe hce d hd)
      · rfl
    · rfl
  · rw [if_neg hce, if_neg (by rintro (h | h); exact h4 h; exact h3 h)]

/-- What follows an `e` begins like an exponent. -/
def expStart (cs : Text) : Bool :=
  match cs.find? (· ≠ '_') with
  | some d => d = '-' || d = '+' || d.isDigit
  | none => false

theorem floatExp_back {before : Option Text} : ∀ {cs : Text}, expStart cs = false → floatExp before false false cs = before
  | [], _ => rfl
  | c :: cs, h => by
    by_cases hu : c = '_'
    · subst hu
      rw [floatExp, if_neg (by decide), if_neg (by decide), if_pos rfl]
      exact floatExp_back (by simpa [expStart] using h)
    · have : (c :: cs).find? (· ≠ '_') = some c := by simp [hu]
      unfold expStart at h
      rw [this] at h
      simp only [Bool.or_eq_false_iff, decide_eq_false_iff_not] at h
      rw [floatExp, if_neg (by rintro (e | e); exact h.1.2 e; exact h.1.1 e), if_neg (by simp [h.2]), if_neg hu]
      rfl

theorem floatExp_reads {before : Option Text} {dot : Bool} : ∀ {sign value : Bool} {cs : Text},
    (before.bind numberEnd = some [] → value = true ∨ (cs.all identCont = true ∧ expStart cs = true)) →
    (floatExp before sign value cs).bind numberEnd = some [] →
    ∃ d fl suf, floatLoop ⟨dot, true, sign, value⟩ cs = some (d, fl, suf) ∧ fl.exponent = true ∧ suffixOk suf = true
  | sign, value, [], hb, h => by
    rw [floatExp] at h
    cases value with
    | true => exact ⟨[], _, [], rfl, rfl, rfl⟩
    | false =>
      rcases hb (by simpa using h) with h1 | h1
      · cases h1
      · exact absurd h1.2 (by decide)
  | sign, value, c :: cs, hb, h => by
    by_cases hs : c = '+' ∨ c = '-'
    · have hnc := sign_not_cont hs
      rw [floatExp, if_pos hs] at h
      have hnb : value = false → before.bind numberEnd ≠ some [] := by
        intro hv h1
        rcases hb h1 with h2 | h2
        · rw [hv] at h2; cases h2
        · simp [hnc] at h2
      cases value with
      | true =>
        rw [if_pos rfl, Option.bind_some, numberEnd_nil] at h
        obtain ⟨_, _, h3, h4⟩ := suffix_plain h
        rcases hs with h1 | h1
        · exact absurd h1 h3
        · exact absurd h1 h4
      | false =>
        rw [if_neg (by decide)] at h
        cases sign with
        | true =>
          rw [if_pos rfl] at h
          exact absurd h (hnb rfl)
        | false =>
          rw [if_neg (by decide)] at h
          obtain ⟨d, fl, suf, e1, e2, e3⟩ := floatExp_reads (dot := dot) (fun h1 => absurd h1 (hnb rfl)) h
          rcases hs with rfl | rfl
          · refine ⟨d, fl, suf, ?_, e2, e3⟩
            rw [floatLoop, if_neg (by decide), if_neg (by decide), if_neg (by decide), if_neg (by decide), if_pos (by decide), if_neg (by simp),
              if_neg (by decide)]
            exact e1
          · refine ⟨'-' :: d, fl, suf, ?_, e2, e3⟩
            rw [floatLoop, if_neg (by decide), if_neg (by decide), if_neg (by decide), if_neg (by decide), if_pos (by decide), if_neg (by simp),
              if_pos rfl, e1]
            rfl
    · rw [floatExp, if_neg hs] at h
      by_cases hd : c.isDigit = true
      · rw [if_pos hd] at h
        obtain ⟨d, fl, suf, e1, e2, e3⟩ := floatExp_reads (dot := dot) (fun _ => .inl rfl) h
        refine ⟨c :: d, fl, suf, ?_, e2, e3⟩
        have hu : c ≠ '_' := by rintro rfl; exact absurd hd (by decide)
        rw [floatLoop, if_neg hu, if_pos hd]
        simp only [Bool.or_true]
        rw [e1]
        rfl
      · rw [if_neg hd] at h
        by_cases hu : c = '_'
        · rw [if_pos hu] at h
          obtain ⟨d, fl, suf, e1, e2, e3⟩ := floatExp_reads (dot := dot) (fun h1 => by
            rcases hb h1 with h2 | ⟨h2, h3⟩
            · exact .inl h2
            · refine .inr ⟨?_, ?_⟩
              · simp only [List.all_cons, Bool.and_eq_true] at h2
                exact h2.2
              · subst hu
                simpa [expStart] using h3) h
          exact ⟨d, fl, suf, by rw [floatLoop, if_pos hu]; exact e1, e2, e3⟩
        · rw [if_neg hu] at h
          cases value with
          | true =>
            rw [if_pos rfl, Option.bind_some, numberEnd_nil] at h
            exact ⟨[], _, c :: cs, floatLoop_suffix h hu (fun _ => rfl) (fun h => by cases h), rfl, h⟩
          | false =>
            rw [if_neg (by decide)] at h
            rcases hb h with h1 | ⟨_, h1⟩
            · cases h1
            · unfold expStart at h1
              have : (c :: cs).find? (· ≠ '_') = some c := by simp [hu]
              rw [this] at h1
              simp only [Bool.or_eq_true, decide_eq_true_eq] at h1
              rcases h1 with (h1 | h1) | h1
              · exact absurd (.inr h1) hs
              · exact absurd (.inl h1) hs
              · exact absurd h1 hd

theorem floatMain_reads : ∀ {dot : Bool} {s : Text}, (floatMain dot s).bind numberEnd = some [] →
    ∃ d fl suf, floatLoop ⟨dot, false, false, false⟩ s = some (d, fl, suf) ∧ (fl.e = true → fl.exponent = true) ∧ suffixOk suf = true
  | dot, [], h => ⟨[], _, [], rfl, by simp, rfl⟩
  | dot, c :: cs, h => by
    rw [floatMain] at h
    by_cases hdu : c.isDigit = true ∨ c = '_'
    · rw [if_pos hdu] at h
      obtain ⟨d, fl, suf, e1, e2, e3⟩ := floatMain_reads h
      by_cases hu : c = '_'
      · exact ⟨d, fl, suf, by rw [floatLoop, if_pos hu]; exact e1, e2, e3⟩
      · have hd : c.isDigit = true := hdu.resolve_right hu
        refine ⟨c :: d, fl, suf, ?_, e2, e3⟩
        rw [floatLoop, if_neg hu, if_pos hd]
        simp only [Bool.or_false]
        rw [e1]
        rfl
    · rw [if_neg hdu] at h
      have hd : c.isDigit = false := by
        rw [Bool.eq_false_iff]; exact fun h => hdu (.inl h)
      have hu : c ≠ '_' := fun h => hdu (.inr h)
      by_cases hdot : c = '.'
      · rw [if_pos hdot] at h
        cases dot with
        | true =>
          rw [if_pos rfl, Option.bind_some, numberEnd_nil] at h
          exact absurd hdot (suffix_plain h).2.1
        | false =>
          rw [if_neg (by decide)] at h
          split at h
          · cases h
          · obtain ⟨d, fl, suf, e1, e2, e3⟩ := floatMain_reads h
            refine ⟨'.' :: d, fl, suf, ?_, e2, e3⟩
            rw [floatLoop, if_neg hu, if_neg (by simp [hd]), if_pos hdot]
            simp only [Bool.or_false, Bool.false_eq_true, if_false]
            rw [e1]
            rfl
      · rw [if_neg hdot] at h
        by_cases hce : c = 'e' ∨ c = 'E'
        · rw [if_pos hce] at h
          cases hx : expStart cs with
          | false =>
            rw [floatExp_back hx] at h
            cases dot with
            | false => cases h
            | true =>
              rw [if_pos rfl, Option.bind_some, numberEnd_nil] at h
              refine ⟨[], _, c :: cs, floatLoop_suffix h hu (fun h => by cases h) ?_, (fun h => by cases h), h⟩
              intro _ _ d hf hs
              unfold expStart at hx
              rw [hf] at hx
              simp only [Bool.or_eq_false_iff, decide_eq_false_iff_not] at hx
              rcases hs with hs | hs | hs
              · exact hx.1.1 hs
              · exact hx.1.2 hs
              · rw [hx.2] at hs; cases hs
          | true =>
            obtain ⟨d, fl, suf, e1, e2, e3⟩ := floatExp_reads (dot := dot) (fun h1 => .inr ⟨by
              cases dot with
              | false => cases h1
              | true =>
                rw [if_pos rfl, Option.bind_some, numberEnd_nil] at h1
                simp only [suffixOk, Bool.and_eq_true] at h1
                exact h1.2, hx⟩) h
            refine ⟨'e' :: d, fl, suf, ?_, fun _ => e2, e3⟩
            unfold expStart at hx
            rw [floatLoop, if_neg hu, if_neg (by simp [hd]), if_neg hdot, if_pos hce]
            split at hx
            · rename_i x hf
              rw [hf]
              simp only [Bool.or_eq_true, decide_eq_true_eq] at hx
              simp only
              rw [if_pos (by rcases hx with (h | h) | h; exact .inl h; exact .inr (.inl h); exact .inr (.inr h)), if_neg (by decide), e1]
              rfl
            · cases hx
        · rw [if_neg hce] at h
          cases dot with
          | false => cases h
          | true =>
            rw [if_pos rfl, Option.bind_some, numberEnd_nil] at h
            exact ⟨[], _, c :: cs, floatLoop_suffix h hu (fun h => by cases h) (fun _ h' => absurd h' hce), (fun h => by cases h), h⟩

theorem lexFloat_reads {c : Char} {cs : Text} (h : lexFloat (c :: cs) = some []) : ∃ d, readFloatDigits (c :: cs) = some d := by
  unfold lexFloat at h
  simp only at h
  split at h
  · rename_i hd
    obtain ⟨d, fl, suf, e1, e2, e3⟩ := floatMain_reads h
    have hu : c ≠ '_' := by rintro rfl; exact absurd hd (by decide)
    have hm : c ≠ '-' := by rintro rfl; exact absurd hd (by decide)
    have e : floatLoop ⟨false, false, false, false⟩ (c :: cs) = some (c :: d, fl, suf) := by
      rw [floatLoop, if_neg hu, if_pos hd]
      simp only [Bool.or_false]
      rw [e1]
      rfl
    unfold readFloatDigits
    split
    · rename_i hc; injection hc with hc _; exact absurd hc hm
    · simp only [hd, if_true, e]
      refine ⟨c :: d, ?_⟩
      rw [if_neg]
      rw [Bool.or_eq_true, Bool.and_eq_true]
      rintro (⟨h1, h2⟩ | h1)
      · rw [e2 h1] at h2; cases h2
      · rw [e3] at h1; cases h1
  · cases h

theorem floatExp_takes {before : Option Text} : ∀ {sign value : Bool} {cs : Text}, cs.all identCont = true → expAhead value cs = true →
    (floatExp before sign value cs).bind numberEnd = some []
  | sign, value, [], _, h => by
    rw [expAhead] at h
    subst h
    rfl
  | sign, value, c :: cs, ha, h => by
    simp only [List.all_cons, Bool.and_eq_true] at ha
    have hs : ¬ (c = '+' ∨ c = '-') := fun h => by rw [sign_not_cont h] at ha; exact absurd ha.1 (by decide)
    rw [floatExp, if_neg hs]
    rw [expAhead] at h
    by_cases hu : c = '_'
    · rw [if_pos hu] at h
      have hd : ¬ c.isDigit = true := by subst hu; decide
      rw [if_neg hd, if_pos hu]
      exact floatExp_takes ha.2 h
    · rw [if_neg hu, if_neg (by rintro (h | h); exact hs (.inr h); exact hs (.inl h))] at h
      by_cases hd : c.isDigit = true
      · rw [if_pos hd] at h ⊢
        exact floatExp_takes ha.2 h
      · rw [if_neg hd] at h ⊢
        rw [Bool.and_eq_true] at h
        rw [if_neg hu, if_pos h.1]
        exact numberEnd_nil.mpr h.2

theorem digitsLoop_reads {base : Nat} (hb : OkBase base) : ∀ {empty : Bool} {s : Text} (acc : Nat), (digitsLoop base empty s).bind numberEnd = some [] →
    (∃ v suf, intLoop base acc (!empty) s = some (v, true, suf) ∧ suffixOk suf = true) ∨
    (base = 10 ∧ ∃ x e cs, s = x ++ e :: cs ∧ (∀ c ∈ x, c.isDigit = true ∨ c = '_') ∧ (e = 'e' ∨ e = 'E') ∧ expAhead false cs = true ∧ cs.all identCont = true)
  | empty, [], acc, h => by
    rw [digitsLoop] at h
    cases empty with
    | true => cases h
    | false => exact .inl ⟨acc, [], rfl, rfl⟩
  | empty, c :: cs, acc, h => by
    have more : ∀ {empty' acc'}, (c.isDigit = true ∨ c = '_') → intLoop base acc (!empty) (c :: cs) = intLoop base acc' (!empty') cs →
        (digitsLoop base empty' cs).bind numberEnd = some [] →
        (∃ v suf, intLoop base acc (!empty) (c :: cs) = some (v, true, suf) ∧ suffixOk suf = true) ∨
        (base = 10 ∧ ∃ x e cs', c :: cs = x ++ e :: cs' ∧ (∀ c ∈ x, c.isDigit = true ∨ c = '_') ∧ (e = 'e' ∨ e = 'E') ∧ expAhead false cs' = true ∧
          cs'.all identCont = true) := by
      intro empty' acc' hc e h
      rcases digitsLoop_reads hb acc' h with ⟨v, suf, h1, h2⟩ | ⟨h1, x, e', cs', h2, h3, h4⟩
      · exact .inl ⟨v, suf, by rw [e]; exact h1, h2⟩
      · refine .inr ⟨h1, c :: x, e', cs', by rw [h2]; rfl, ?_, h4⟩
        intro d hd
        rcases List.mem_cons.mp hd with rfl | hd
        · exact hc
        · exact h3 d hd
    rw [digitsLoop] at h
    by_cases hd : c.isDigit = true
    · rw [if_pos hd] at h
      split at h
      · cases h
      · rename_i hlt
        have hr := (isDigit_iff c).mp hd
        have hdi : DigitIn base c (c.toNat - '0'.toNat) := digitIn_of_hexVal (hexVal_digit hr) (by omega)
        exact more (empty' := false) (.inl hd) (intLoop_digit hb hdi acc _ cs) h
    · rw [if_neg hd] at h
      have hr : ¬ ('0' ≤ c ∧ c ≤ '9') := fun h => hd ((isDigit_iff c).mpr h)
      -- the suffix begins here
      have stop : suffixOk (c :: cs) = true → c ≠ '_' → empty = false → (10 < base → hexVal c = none) →
        (∃ v suf, intLoop base acc (!empty) (c :: cs) = some (v, true, suf) ∧ suffixOk suf = true) ∨
        (base = 10 ∧ ∃ x e cs', c :: cs = x ++ e :: cs' ∧ (∀ c ∈ x, c.isDigit = true ∨ c = '_') ∧ (e = 'e' ∨ e = 'E') ∧ expAhead false cs' = true ∧
          cs'.all identCont = true) := by
        intro hs hu he hx
        obtain ⟨_, h2, _, _⟩ := suffix_plain hs
        by_cases hexp : base = 10 ∧ (c = '.' ∨ ((c = 'e' ∨ c = 'E') ∧ expAhead false cs = true))
        · obtain ⟨h10, h3 | ⟨h3, h4⟩⟩ := hexp
          · exact absurd h3 h2
          · simp only [suffixOk, Bool.and_eq_true] at hs
            exact .inr ⟨h10, [], c, cs, rfl, by simp, h3, h4, hs.2⟩
        · left
          refine ⟨acc, c :: cs, ?_, hs⟩
          subst he
          rw [intLoop, if_neg hu, if_neg hexp, if_neg hr]
          split
          · rename_i h10
            rw [hx h10]
            rfl
          · rfl
      by_cases hx : (hexVal c).isSome = true
      · rw [if_pos hx] at h
        have hu : c ≠ '_' := by rintro rfl; exact absurd hx (by decide)
        split at h
        · rename_i h10
          cases empty with
          | true => cases h
          | false =>
            rw [if_neg (by decide), Option.bind_some, numberEnd_nil] at h
            exact stop h hu rfl (fun h' => by omega)
        · rename_i h10
          obtain ⟨d, hd'⟩ := Option.isSome_iff_exists.mp hx
          have h16 : base = 16 := by rcases hb with h | h | h | h <;> omega
          have hdi : DigitIn base c d := digitIn_of_hexVal hd' (by have := ((hexVal_iff c d).mp hd').1; omega)
          rcases digitsLoop_reads hb (base * acc + d) h with ⟨v, suf, h1, h2⟩ | ⟨h1, _⟩
          · exact .inl ⟨v, suf, by rw [intLoop_digit hb hdi]; exact h1, h2⟩
          · omega
      · rw [if_neg hx] at h
        by_cases hu : c = '_'
        · rw [if_pos hu] at h
          split at h
          · cases h
          · subst hu
            exact more (.inr rfl) (intLoop_under base acc _ cs) h
        · rw [if_neg hu] at h
          cases empty with
          | true => cases h
          | false =>
            rw [if_neg (by decide), Option.bind_some, numberEnd_nil] at h
            exact stop h hu rfl (fun _ => Option.not_isSome_iff_eq_none.mp hx)

theorem floatMain_mantissa {e : Char} {cs : Text} (he : e = 'e' ∨ e = 'E') (ha : cs.all identCont = true) (hx : expAhead false cs = true) :
    ∀ {x : Text}, (∀ c ∈ x, c.isDigit = true ∨ c = '_') → (floatMain false (x ++ e :: cs)).bind numberEnd = some []
  | [], _ => by
    have hd : ¬ (e.isDigit = true ∨ e = '_') := by rcases he with rfl | rfl <;> decide
    have hdot : e ≠ '.' := by rcases he with rfl | rfl <;> decide
    rw [List.nil_append, floatMain, if_neg hd, if_neg hdot, if_pos he]
    exact floatExp_takes ha hx
  | c :: x, h => by
    rw [List.cons_append, floatMain, if_pos (h c List.mem_cons_self)]
    exact floatMain_mantissa he ha hx fun d hd => h d (List.mem_cons_of_mem _ hd)

theorem lexInt_reads {c : Char} {cs : Text} (hc : c.isDigit = true) (hf : lexFloat (c :: cs) ≠ some []) (h : lexInt (c :: cs) = some []) :
    ∃ v, readNat (c :: cs) = some v := by
  have fin : ∀ {base body}, OkBase base → base ≠ 10 → (digitsLoop base true body).bind numberEnd = some [] →
      ∃ v, (match intLoop base 0 false body with
        | some (v, true, suffix) => if suffixOk suffix then some v else none
        | _ => none) = some v := by
    intro base body hb hn h
    rcases digitsLoop_reads hb 0 h with ⟨v, suf, h1, h2⟩ | ⟨h1, _⟩
    · exact ⟨v, by rw [show false = !true from rfl, h1]; simp [h2]⟩
    · exact absurd h1 hn
  unfold lexInt lexDigits at h
  unfold readNat
  split at h
  · rename_i body e
    injection e with e1 e2
    subst e1 e2
    exact fin (.inr (.inr (.inr rfl))) (by decide) h
  · rename_i body e
    injection e with e1 e2
    subst e1 e2
    exact fin (.inr (.inl rfl)) (by decide) h
  · rename_i body e
    injection e with e1 e2
    subst e1 e2
    exact fin (.inl rfl) (by decide) h
  · rename_i hx ho hb
    split
    · rename_i body e; exact absurd e (hx body)
    · rename_i body e; exact absurd e (ho body)
    · rename_i body e; exact absurd e (hb body)
    · rename_i d body _ _ _ e
      injection e with e1 e2
      subst e1 e2
      rw [if_pos ((isDigit_iff c).mp hc)]
      rcases digitsLoop_reads (.inr (.inr (.inl rfl))) 0 h with ⟨v, suf, h1, h2⟩ | ⟨_, x, e, cs', h1, h2, h3, h4, h5⟩
      · refine ⟨v, ?_⟩
        show (match intLoop 10 0 false (c :: cs) with
          | some (v, true, suffix) => if suffixOk suffix then some v else none
          | _ => none) = some v
        rw [show false = !true from rfl, h1]
        simp [h2]
      · exfalso
        apply hf
        cases x with
        | nil =>
          injection h1 with h1 _
          subst h1
          rcases h3 with rfl | rfl <;> exact absurd hc (by decide)
        | cons y x =>
          injection h1 with h1 h1'
          subst h1 h1'
          unfold lexFloat
          simp only [hc, if_true]
          exact floatMain_mantissa h3 h5 h4 fun d hd => h2 d (List.mem_cons_of_mem _ hd)
    · rename_i e; cases e

/-! ### all literals -/

theorem mapM_raw {x : Text} (h : ∀ c ∈ x, c.toNat < 128) : ∃ v, x.mapM byteOfChar = some v := by
  obtain ⟨v, h, _⟩ := mapM_bytes h
  exact ⟨v, h⟩

/-- Every text that the lexer takes for a literal has a value. -/
theorem lexLiteral_reads {r : Text} (h : lexLiteral r = some []) : ∃ l, readLit r = some l := by
  unfold lexLiteral at h
  split at h
  · rename_i cs
    obtain ⟨x, ns, suf, rfl, hx, hs⟩ := lexCooked_iff (byte := false).mp h
    obtain ⟨w, hw, e⟩ := cookStr_body hx suf
    refine ⟨.str w, ?_⟩
    show (cookStr .plain _).map _ = _
    rw [e]; rfl
  · rename_i cs
    obtain ⟨n, x, suf, rfl, hn, hx, hs⟩ := lexRaw_iff (byte := false).mp h
    refine ⟨.str x, ?_⟩
    show (rawBody _).map _ = _
    rw [rawBody_eq (suffix_quote hs)]; rfl
  · rename_i cs
    obtain ⟨x, ns, suf, rfl, hx, hs⟩ := lexCooked_iff (byte := true).mp h
    obtain ⟨w, hw, e⟩ := cookBytes_body hx suf
    refine ⟨.byteStr w, ?_⟩
    show (cookBytes .plain _).map _ = _
    rw [e]; rfl
  · rename_i cs
    obtain ⟨n, x, suf, rfl, hn, hx, hs⟩ := lexRaw_iff (byte := true).mp h
    obtain ⟨v, hv⟩ := mapM_raw (hx.ascii rfl)
    refine ⟨.byteStr v, ?_⟩
    show (rawBody _).bind _ = _
    rw [rawBody_eq (suffix_quote hs), Option.bind_some, hv]; rfl
  · rename_i cs
    cases cs with
    | nil => cases h
    | cons c s =>
      by_cases hc : c = '\\'
      · subst hc
        obtain ⟨e, n, suf, he, hx, hs⟩ := lexByte_inv h
        obtain ⟨w, hw, e2⟩ := cookOne_escape hx ('\'' :: suf)
        have hn := escape_byte hx
        refine ⟨.byte ⟨n, hn⟩, ?_⟩
        show (cookOne _).bind _ = _
        subst hw
        rw [he, e2, Option.bind_some, if_pos (by rfl), byteOf_eq hn]; rfl
      · rw [lexByte_other hc] at h
        split at h
        · cases h
        · rename_i hlt
          obtain ⟨t, rfl, _⟩ := close_iff.mp h
          have hn : c.toNat < 256 := by omega
          refine ⟨.byte ⟨c.toNat, hn⟩, ?_⟩
          show (cookOne _).bind _ = _
          rw [cookOne_plain hc, Option.bind_some, if_pos (by rfl), byteOf_eq hn]; rfl
  · exact ⟨.cstr, rfl⟩
  · exact ⟨.cstr, rfl⟩
  · rename_i cs
    cases cs with
    | nil => cases h
    | cons c s =>
      by_cases hc : c = '\\'
      · subst hc
        obtain ⟨t, h1, h2⟩ := Option.bind_eq_some_iff.mp h
        obtain ⟨e, n, he, hx⟩ := charEscape_inv h1
        obtain ⟨u, rfl, _⟩ := close_iff.mp h2
        obtain ⟨w, hw, e2⟩ := cookOne_escape hx ('\'' :: u)
        refine ⟨.char w, ?_⟩
        show (cookOne _).bind _ = _
        rw [he, e2, Option.bind_some, if_pos (by rfl)]
      · rw [lexChar_other hc] at h
        obtain ⟨t, rfl, _⟩ := close_iff.mp h
        refine ⟨.char c, ?_⟩
        show (cookOne _).bind _ = _
        rw [cookOne_plain hc, Option.bind_some, if_pos (by rfl)]
  · rename_i h1 h2 h3 h4 h5 h6 h7 h8
    cases r with
    | nil => cases h
    | cons c cs =>
      have hd : c.isDigit = true := by
        refine Classical.byContradiction fun hd => ?_
        rw [Bool.not_eq_true] at hd
        have hf : lexFloat (c :: cs) = none := by simp [lexFloat, hd]
        rw [hf] at h
        simp only [Option.orElse_none, lexInt] at h
        obtain ⟨rest, hl, _⟩ := Option.bind_eq_some_iff.mp h
        unfold lexDigits at hl
        split at hl
        · rename_i e; injection e with e _; subst e; exact absurd hd (by decide)
        · rename_i e; injection e with e _; subst e; exact absurd hd (by decide)
        · rename_i e; injection e with e _; subst e; exact absurd hd (by decide)
        · rw [digitsLoop, if_neg (by simp [hd])] at hl
          simp at hl
      rw [readLit_digit hd, readIntDigits_digit hd]
      cases hn : readNat (c :: cs) with
      | some v => exact ⟨_, rfl⟩
      | none =>
        cases hf : lexFloat (c :: cs) with
        | some x =>
          rw [hf] at h
          obtain ⟨d, e⟩ := lexFloat_reads (hf.trans h)
          exact ⟨.float d, by rw [e]; rfl⟩
        | none =>
          rw [hf] at h
          obtain ⟨v, e⟩ := lexInt_reads hd (by rw [hf]; simp) h
          rw [hn] at e; cases e

theorem litText_reads {r : Text} (h : LitText r) : ∃ l, readLit r = some l := by
  rcases h with h | rfl
  · exact lexLiteral_reads h
  · exact ⟨.verbatim, rfl⟩

/-- Tokens that come from a text have values. -/
theorem writable_readable {ts : List TT} (h : Writable ts) : Readable ts := by
  induction h with
  | nil => trivial
  | lit hr _ ih => exact ⟨litText_reads hr, ih⟩
  | ident _ _ ih => exact ⟨trivial, ih⟩
  | _ => simp_all [Readable, ReadableT]

end Parsel
