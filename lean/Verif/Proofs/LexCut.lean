import Verif.Proofs.LexLocal

/-! A token cut out of a text is read alone as in the text. -/

namespace Parsel

theorem stripPrefix_eq {p : Text} : ∀ {s r : Text}, stripPrefix p s = some r → s = p ++ r := by
  induction p with
  | nil => intro s r h; simp [stripPrefix] at h; rw [h]; rfl
  | cons q ps ih =>
    intro s r h
    cases s with
    | nil => simp [stripPrefix] at h
    | cons c cs =>
      simp only [stripPrefix] at h
      split at h
      · rename_i hq; rw [ih h, hq]; rfl
      · cases h

theorem stripPrefix_self (p : Text) : stripPrefix p p = some [] := by
  induction p with
  | nil => rfl
  | cons q ps ih => simp [stripPrefix, ih]

theorem stripPrefix_append_self (p r : Text) : stripPrefix p (p ++ r) = some r := by
  simpa using stripPrefix_append (stripPrefix_self p) r

theorem startsWith_iff {p s : Text} : startsWith p s = true ↔ ∃ r, s = p ++ r := by
  unfold startsWith
  constructor
  · intro h
    obtain ⟨r, hr⟩ := Option.isSome_iff_exists.mp h
    exact ⟨r, stripPrefix_eq hr⟩
  · rintro ⟨r, rfl⟩
    rw [stripPrefix_append_self]; rfl

theorem identCont_of_start {c : Char} (h : identStart c = true) : identCont c = true := by
  simp only [identStart, identCont, Char.isAlphanum, Bool.or_eq_true, decide_eq_true_eq] at h ⊢
  rcases h with (h | h) | h
  · exact .inl (.inl (.inl h))
  · exact .inl (.inr h)
  · exact .inr h

theorem takeWhile_dropWhile_self (p : Char → Bool) (cs : Text) : (cs.takeWhile p).dropWhile p = [] ∧ (cs.takeWhile p).takeWhile p = cs.takeWhile p := by
  induction cs with
  | nil => exact ⟨rfl, rfl⟩
  | cons c cs ih =>
    simp only [List.takeWhile_cons]
    split
    · rename_i h; simp [h, ih.1, ih.2]
    · exact ⟨rfl, rfl⟩

theorem takeWhile_holds (p : Char → Bool) (cs : Text) : ∀ c ∈ cs.takeWhile p, p c = true := by
  induction cs with
  | nil => simp
  | cons d cs ih =>
    intro c hc
    simp only [List.takeWhile_cons] at hc
    split at hc
    · rename_i hd
      rcases List.mem_cons.mp hc with rfl | hc
      · exact hd
      · exact ih c hc
    · simp at hc

theorem dropWhile_head (p : Char → Bool) (cs : Text) : ∀ c, (cs.dropWhile p).head? = some c → p c = false := by
  induction cs with
  | nil => intro c h; cases h
  | cons d cs ih =>
    intro c h
    simp only [List.dropWhile_cons] at h
    split at h
    · exact ih c h
    · rename_i hn; simp at h; rw [← h]; simpa using hn

/-- Nothing is left, or something that does not continue a word. -/
def WordEnd (x : Text) : Prop := ∀ c, x.head? = some c → identCont c = false

theorem lexPlainIdent_cut {s : Text} {r : Text × Text} (h : lexPlainIdent s = some r) :
    s = r.1 ++ r.2 ∧ lexPlainIdent r.1 = some (r.1, []) ∧ WordEnd r.2 ∧ (∃ c cs, r.1 = c :: cs ∧ identStart c = true) ∧ ∀ c ∈ r.1, identCont c = true := by
  cases s with
  | nil => cases h
  | cons c cs =>
    simp only [lexPlainIdent] at h
    split at h
    · rename_i hc
      cases h
      refine ⟨by simp [List.takeWhile_append_dropWhile], ?_, fun d hd => dropWhile_head identCont cs d hd, ⟨c, _, rfl, hc⟩, ?_⟩
      · simp only [lexPlainIdent, hc, if_true]
        rw [(takeWhile_dropWhile_self identCont cs).1, (takeWhile_dropWhile_self identCont cs).2]
      · intro d hd
        rcases List.mem_cons.mp hd with rfl | hd
        · exact identCont_of_start hc
        · exact takeWhile_holds identCont cs d hd
    · cases h

theorem literalSuffix_cut (s : Text) : ∃ a, s = a ++ literalSuffix s ∧ literalSuffix a = [] ∧ (∀ c, a.head? = some c → identStart c = true) := by
  unfold literalSuffix
  cases h : lexPlainIdent s with
  | none => exact ⟨[], rfl, rfl, by simp⟩
  | some r =>
    obtain ⟨h1, h2, _, ⟨c, cs, h3, h4⟩, _⟩ := lexPlainIdent_cut h
    refine ⟨r.1, h1, by rw [h2], ?_⟩
    rw [h3]; intro d hd; simp at hd; rw [← hd]; exact h4

theorem lexIdentAny_cut {s : Text} {r : Text × Text} (h : lexIdentAny s = some r) :
    s = r.1 ++ r.2 ∧ lexIdentAny r.1 = some (r.1, []) ∧ WordEnd r.2 := by
  unfold lexIdentAny at h
  cases hs : stripPrefix "r#".toList s with
  | some s' =>
    rw [hs] at h
    simp only at h
    cases hp : lexPlainIdent s' with
    | none => rw [hp] at h; cases h
    | some q =>
      rw [hp] at h
      simp only [Option.bind_some] at h
      split at h
      · cases h
      · rename_i hn
        cases h
        obtain ⟨h1, h2, h3, _⟩ := lexPlainIdent_cut hp
        refine ⟨by rw [stripPrefix_eq hs, h1, List.append_assoc], ?_, h3⟩
        unfold lexIdentAny
        rw [stripPrefix_append_self]
        simp only [h2, Option.bind_some]
        rw [if_neg hn]
  | none =>
    rw [hs] at h
    obtain ⟨h1, h2, h3, _⟩ := lexPlainIdent_cut h
    refine ⟨h1, ?_, h3⟩
    have : stripPrefix "r#".toList r.1 = none := by
      cases hq : stripPrefix "r#".toList r.1 with
      | none => rfl
      | some t => rw [h1, stripPrefix_append hq] at hs; cases hs
    unfold lexIdentAny
    rw [this]
    exact h2

/-! ### strings -/

theorem scanCooked_cut {k : StrKind} : ∀ {m : Scan} {s r : Text}, scanCooked k m s = some r → ∃ a, s = a ++ r ∧ scanCooked k m a = some []
  | m, [], r, h => by simp [scanCooked] at h
  | m, c :: cs, r, h => by
    simp only [scanCooked] at h
    cases hs : scanStep k m c with
    | none => rw [hs] at h; cases h
    | some o =>
      rw [hs] at h
      cases o with
      | none =>
        simp only [Option.some.injEq] at h
        exact ⟨[c], by rw [h]; rfl, by simp [scanCooked, hs]⟩
      | some m' =>
        obtain ⟨a, ha, hb⟩ := scanCooked_cut h
        exact ⟨c :: a, by rw [ha]; rfl, by simp [scanCooked, hs, hb]⟩

theorem rawOpen_cut : ∀ {n : Nat} {s : Text} {r : Nat × Text}, rawOpen n s = some r → ∃ a, s = a ++ r.2 ∧ rawOpen n a = some (r.1, [])
  | n, [], r, h => by simp [rawOpen] at h
  | n, c :: cs, r, h => by
    simp only [rawOpen] at h
    split at h
    · rename_i hc
      split at h
      · rename_i hn; cases h; exact ⟨[c], rfl, by simp [rawOpen, hc, hn]⟩
      · cases h
    · rename_i hc
      split at h
      · rename_i hp
        obtain ⟨a, ha, hb⟩ := rawOpen_cut h
        exact ⟨c :: a, by rw [ha]; rfl, by simp only [rawOpen]; rw [if_neg hc, if_pos hp, hb]⟩
      · cases h

theorem scanRaw_cut {k : StrKind} {n : Nat} : ∀ {m : Nat} {s r : Text}, s.length ≤ m → scanRaw k n s = some r →
    ∃ a, s = a ++ r ∧ scanRaw k n a = some []
  | _, [], r, _, h => by simp [scanRaw] at h
  | 0, c :: cs, r, hl, h => by simp at hl
  | m + 1, c :: cs, r, hl, h => by
    simp only [List.length_cons, Nat.add_le_add_iff_right] at hl
    by_cases h1 : c = '"'
    · subst h1
      rw [scanRaw_quote] at h
      cases hs : stripPrefix (List.replicate n '#') cs with
      | some rest =>
        rw [hs] at h
        cases h
        exact ⟨'"' :: List.replicate n '#', by rw [stripPrefix_eq hs]; rfl, by rw [scanRaw_quote, stripPrefix_self]⟩
      | none =>
        rw [hs] at h
        obtain ⟨a, ha, hb⟩ := scanRaw_cut hl h
        refine ⟨'"' :: a, by rw [ha]; rfl, ?_⟩
        rw [scanRaw_quote]
        cases hq : stripPrefix (List.replicate n '#') a with
        | none => exact hb
        | some t => rw [ha, stripPrefix_append hq] at hs; cases hs
    · by_cases h2 : c = '\r'
      · subst h2
        by_cases h3 : cs.head? = some '\n'
        · cases cs with
          | nil => simp at h3
          | cons d ds =>
            simp at h3
            subst h3
            rw [scanRaw_crlf] at h
            obtain ⟨a, ha, hb⟩ := scanRaw_cut (m := m) (by simp at hl; omega) h
            exact ⟨'\r' :: '\n' :: a, by rw [ha]; rfl, by rw [scanRaw_crlf, hb]⟩
        · rw [scanRaw_cr k n cs h3] at h; cases h
      · rw [scanRaw_other k n c cs h1 h2] at h
        split at h
        · cases h
        · rename_i hn
          obtain ⟨a, ha, hb⟩ := scanRaw_cut hl h
          exact ⟨c :: a, by rw [ha]; rfl, by rw [scanRaw_other k n c a h1 h2, if_neg hn, hb]⟩

theorem start_not_pound {c : Char} (h : identStart c = true) : c ≠ '#' := by
  rintro rfl; revert h; decide

theorem lexRaw_cut {k : StrKind} {s r : Text} (h : lexRaw k s = some r) : ∃ a, s = a ++ r ∧ lexRaw k a = some [] := by
  unfold lexRaw at h
  cases ho : rawOpen 0 s with
  | none => rw [ho] at h; cases h
  | some q =>
    rw [ho] at h
    simp only [Option.bind_some] at h
    cases hs : scanRaw k q.1 q.2 with
    | none => rw [hs] at h; cases h
    | some t =>
      rw [hs] at h
      simp only [Option.map_some, Option.some.injEq] at h
      obtain ⟨a, ha, ha'⟩ := rawOpen_cut ho
      obtain ⟨b, hb, hb'⟩ := scanRaw_cut (Nat.le_refl _) hs
      obtain ⟨c, hc, hc', hh⟩ := literalSuffix_cut t
      rw [h] at hc
      refine ⟨a ++ (b ++ c), by rw [ha, hb, hc]; simp, ?_⟩
      unfold lexRaw
      rw [rawOpen_append ha' (b ++ c)]
      simp only [Option.bind_some, List.nil_append]
      rw [scanRaw_append (Nat.le_refl _) hb' (fun d hd => start_not_pound (hh d hd))]
      simp [hc']

theorem lexCooked_cut {k : StrKind} {s r : Text} (h : lexCooked k s = some r) : ∃ a, s = a ++ r ∧ lexCooked k a = some [] := by
  unfold lexCooked at h
  cases hs : scanCooked k .plain s with
  | none => rw [hs] at h; cases h
  | some t =>
    rw [hs] at h
    simp only [Option.map_some, Option.some.injEq] at h
    obtain ⟨b, hb, hb'⟩ := scanCooked_cut hs
    obtain ⟨c, hc, hc', hh⟩ := literalSuffix_cut t
    rw [h] at hc
    refine ⟨b ++ c, by rw [hb, hc]; simp, ?_⟩
    unfold lexCooked
    rw [scanCooked_append hb' c]
    simp [hc']

/-! ### characters and bytes -/

theorem close_cut {s r : Text} (h : lexChar.close s = some r) : ∃ a, s = a ++ r ∧ lexChar.close a = some [] := by
  unfold lexChar.close at h
  split at h
  · rename_i cs
    cases h
    obtain ⟨c, hc, hc', hh⟩ := literalSuffix_cut cs
    exact ⟨'\'' :: c, by rw [List.cons_append, ← hc], by simp [lexChar.close, hc']⟩
  · cases h

theorem charUni_cut : ∀ {len value : Nat} {s r : Text}, charEscape.uni len value s = some r → ∃ a, s = a ++ r ∧ charEscape.uni len value a = some []
  | len, value, [], r, h => by simp [charEscape.uni] at h
  | len, value, c :: cs, r, h => by
    simp only [charEscape.uni] at h
    split at h
    · rename_i hc
      obtain ⟨a, ha, hb⟩ := charUni_cut h
      exact ⟨c :: a, by rw [ha]; rfl, by simp only [charEscape.uni]; rw [if_pos hc, hb]⟩
    · rename_i hc
      split at h
      · rename_i hd
        split at h
        · rename_i he; cases h; exact ⟨[c], rfl, by simp only [charEscape.uni]; rw [if_neg hc, if_pos hd, if_pos he]⟩
        · cases h
      · rename_i hd
        cases hh : hexVal c with
        | none => rw [hh] at h; cases h
        | some v =>
          rw [hh] at h
          simp only at h
          split at h
          · cases h
          · rename_i hl
            obtain ⟨a, ha, hb⟩ := charUni_cut h
            exact ⟨c :: a, by rw [ha]; rfl, by simp only [charEscape.uni]; rw [if_neg hc, if_neg hd, hh]; simp only; rw [if_neg hl, hb]⟩

theorem charEscape_cut {s r : Text} (h : charEscape s = some r) : ∃ a, s = a ++ r ∧ charEscape a = some [] := by
  unfold charEscape at h
  split at h
  · rename_i p q cs
    split at h
    · rename_i hc
      cases h
      exact ⟨['x', p, q], rfl, by simp only [charEscape]; rw [if_pos hc]⟩
    · cases h
  · rename_i cs
    obtain ⟨a, ha, hb⟩ := charUni_cut h
    exact ⟨'u' :: '{' :: a, by rw [ha]; rfl, by simp only [charEscape]; exact hb⟩
  · rename_i c cs h1 h2
    split at h
    · rename_i hc
      cases h
      refine ⟨[c], rfl, ?_⟩
      rw [charEscape.eq_def]
      split
      · simp_all
      · simp_all
      · rename_i heq; cases heq; rw [if_pos hc]
      · simp_all
    · cases h
  · cases h

theorem lexChar_esc (cs : Text) : lexChar ('\\' :: cs) = (charEscape cs).bind lexChar.close := rfl

theorem lexChar_plain {c : Char} (cs : Text) (h : c ≠ '\\') : lexChar (c :: cs) = lexChar.close cs := by
  rw [lexChar.eq_def]
  split
  · simp_all
  · rename_i heq; cases heq; rfl
  · simp_all

theorem lexChar_cut {s r : Text} (h : lexChar s = some r) : ∃ a, s = a ++ r ∧ lexChar a = some [] := by
  cases s with
  | nil => cases h
  | cons c cs =>
    by_cases hc : c = '\\'
    · subst hc
      rw [lexChar_esc] at h
      cases he : charEscape cs with
      | none => rw [he] at h; cases h
      | some t =>
        rw [he] at h
        obtain ⟨a, ha, ha'⟩ := charEscape_cut he
        obtain ⟨b, hb, hb'⟩ := close_cut (show lexChar.close t = some r from h)
        refine ⟨'\\' :: (a ++ b), by rw [ha, hb]; simp, ?_⟩
        rw [lexChar_esc, charEscape_append ha' b]
        exact hb'
    · rw [lexChar_plain cs hc] at h
      obtain ⟨b, hb, hb'⟩ := close_cut h
      exact ⟨c :: b, by rw [hb]; rfl, by rw [lexChar_plain b hc, hb']⟩

theorem lexByte_plain {c : Char} (cs : Text) (h : c ≠ '\\') : lexByte (c :: cs) = if 127 < c.toNat then none else lexChar.close cs := by
  rw [lexByte.eq_def]
  split
  · simp_all
  · simp_all
  · rename_i heq; cases heq; rfl
  · simp_all

theorem lexByte_esc {c : Char} (cs : Text) (h : c ≠ 'x') : lexByte ('\\' :: c :: cs) =
    if c = 'n' ∨ c = 'r' ∨ c = 't' ∨ c = '\\' ∨ c = '0' ∨ c = '\'' ∨ c = '"' then lexChar.close cs else none := by
  rw [lexByte.eq_def]
  split
  · simp_all
  · rename_i heq; cases heq; rfl
  · rename_i h9 heq; cases heq; exact absurd rfl (h9 _ _ rfl)
  · simp_all

theorem lexByte_cut {s r : Text} (h : lexByte s = some r) : ∃ a, s = a ++ r ∧ lexByte a = some [] := by
  unfold lexByte at h
  split at h
  · rename_i p q cs
    split at h
    · rename_i hc
      obtain ⟨b, hb, hb'⟩ := close_cut h
      exact ⟨'\\' :: 'x' :: p :: q :: b, by rw [hb]; rfl, by simp only [lexByte]; rw [if_pos hc, hb']⟩
    · cases h
  · rename_i c cs h1
    split at h
    · rename_i hc
      obtain ⟨b, hb, hb'⟩ := close_cut h
      have hx : c ≠ 'x' := by rintro rfl; revert hc; decide
      exact ⟨'\\' :: c :: b, by rw [hb]; rfl, by rw [lexByte_esc b hx, if_pos hc, hb']⟩
    · cases h
  · rename_i c cs h1 h2
    split at h
    · cases h
    · rename_i hc
      by_cases he : c = '\\'
      · cases cs with
        | nil => simp [lexChar.close] at h
        | cons d ds => exact absurd rfl (h2 d ds he)
      · obtain ⟨b, hb, hb'⟩ := close_cut h
        exact ⟨c :: b, by rw [hb]; rfl, by rw [lexByte_plain b he, if_neg hc, hb']⟩
  · cases h

/-! ### numbers -/

theorem wordEnd_start {x : Text} (h : WordEnd x) : ∀ c, x.head? = some c → identStart c = false := by
  intro c hc
  cases hs : identStart c with
  | false => rfl
  | true => exact absurd (identCont_of_start hs) (by rw [h c hc]; simp)

theorem digit_cont {c : Char} (h : c.isDigit = true) : identCont c = true := by simp [identCont, Char.isAlphanum, h]

theorem hex_cont {c : Char} (h : (hexVal c).isSome = true) : identCont c = true := by
  have : c.isDigit = true ∨ c.isAlpha = true := by
    unfold hexVal at h
    split at h
    · rename_i hd; exact .inl ((isDigit_iff c).mpr hd)
    · split at h
      · rename_i hd
        right
        simp only [char_le_iff] at hd
        simp only [Char.isAlpha, Char.isLower, Bool.or_eq_true, Bool.and_eq_true, decide_eq_true_eq, ge_iff_le, UInt32.le_iff_toNat_le]
        have h1 : c.val.toNat = c.toNat := rfl
        right
        simp at hd ⊢
        omega
      · split at h
        · rename_i hd
          right
          simp only [char_le_iff] at hd
          simp only [Char.isAlpha, Char.isUpper, Bool.or_eq_true, Bool.and_eq_true, decide_eq_true_eq, ge_iff_le, UInt32.le_iff_toNat_le]
          have h1 : c.val.toNat = c.toNat := rfl
          left
          simp at hd ⊢
          omega
        · cases h
  simp only [identCont, Char.isAlphanum, Bool.or_eq_true]
  exact .inl (.inl this.symm)

theorem floatExp_short : ∀ (s : Text) {before : Option Text} {sign value : Bool} {q : Text}, floatExp before sign value s = some q →
    before = some q ∨ ∃ a, s = a ++ q
  | [], before, sign, value, q, h => by
    simp only [floatExp] at h
    split at h
    · cases h; exact .inr ⟨[], rfl⟩
    · exact .inl h
  | c :: cs, before, sign, value, q, h => by
    simp only [floatExp] at h
    repeat' split at h
    all_goals first
      | (simp only [Option.some.injEq] at h; exact .inr ⟨[], h⟩)
      | (left; exact h)
      | (rcases floatExp_short cs h with h | ⟨a, h⟩
         · exact .inl h
         · exact .inr ⟨c :: a, by rw [h]; rfl⟩)

theorem floatMain_short : ∀ (s : Text) {dot : Bool} {q : Text}, floatMain dot s = some q → ∃ a, s = a ++ q
  | [], dot, q, h => by
    simp only [floatMain] at h
    split at h
    · cases h; exact ⟨[], rfl⟩
    · cases h
  | c :: cs, dot, q, h => by
    simp only [floatMain] at h
    split at h
    · obtain ⟨a, h⟩ := floatMain_short cs h; exact ⟨c :: a, by rw [h]; rfl⟩
    · split at h
      · split at h
        · simp only [Option.some.injEq] at h; exact ⟨[], h⟩
        · split at h
          · cases h
          · obtain ⟨a, h⟩ := floatMain_short cs h; exact ⟨c :: a, by rw [h]; rfl⟩
      · split at h
        · rcases floatExp_short cs h with h | ⟨a, h⟩
          · split at h
            · simp only [Option.some.injEq] at h; exact ⟨[], h⟩
            · cases h
          · exact ⟨c :: a, by rw [h]; rfl⟩
        · split at h
          · simp only [Option.some.injEq] at h; exact ⟨[], h⟩
          · cases h

theorem append_absurd {a b c : Text} {d : Char} (h : b = a ++ (c ++ d :: b)) : False := by
  have := congrArg List.length h
  simp at this
  omega

theorem floatExp_cut {x : Text} (hx : WordEnd x) : ∀ (a : Text) {before : Option Text} {sign value : Bool} {r : Text},
    floatExp (addRest x before) sign value (a ++ x) = some (r ++ x) → floatExp before sign value a = some r
  | [], before, sign, value, r, h => by
    have key : ∀ b : Option Text, addRest x b = some (r ++ x) → b = some r := by
      intro b hb
      cases b with
      | none => cases hb
      | some t => simp [addRest] at hb; rw [hb]
    rw [List.nil_append] at h
    simp only [floatExp]
    cases x with
    | nil =>
      simp only [floatExp, List.append_nil] at h
      cases value with
      | true => simpa using h
      | false => exact key _ (by simpa [addRest] using h)
    | cons c x =>
      have hc := hx c rfl
      have h1 : ¬ c.isDigit = true := fun e => by rw [digit_cont e] at hc; cases hc
      have h2 : c ≠ '_' := by rintro rfl; revert hc; decide
      simp only [floatExp] at h
      rw [if_neg h1, if_neg h2] at h
      cases value with
      | true =>
        have : some (c :: x) = some (r ++ c :: x) := by
          split at h <;> simpa using h
        simp at this
        rw [this]; rfl
      | false =>
        simp only [Bool.false_eq_true, if_false] at h ⊢
        split at h
        · split at h
          · exact key _ h
          · rcases floatExp_short x h with h | ⟨a, h⟩
            · exact key _ h
            · exact (append_absurd h).elim
        · exact key _ h
  | c :: cs, before, sign, value, r, h => by
    have key : ∀ b : Option Text, addRest x b = some (r ++ x) → b = some r := by
      intro b hb
      cases b with
      | none => cases hb
      | some t => simp [addRest] at hb; rw [hb]
    simp only [List.cons_append, floatExp] at h ⊢
    split
    · rename_i hc
      rw [if_pos hc] at h
      split
      · rename_i hv; rw [if_pos hv] at h; exact key (some (c :: cs)) h
      · rename_i hv
        rw [if_neg hv] at h
        split
        · rename_i hs; rw [if_pos hs] at h; exact key _ h
        · rename_i hs; rw [if_neg hs] at h; exact floatExp_cut hx cs h
    · rename_i hc
      rw [if_neg hc] at h
      split
      · rename_i hd; rw [if_pos hd] at h; exact floatExp_cut hx cs h
      · rename_i hd
        rw [if_neg hd] at h
        split
        · rename_i hu; rw [if_pos hu] at h; exact floatExp_cut hx cs h
        · rename_i hu
          rw [if_neg hu] at h
          split
          · rename_i hv; rw [if_pos hv] at h; exact key (some (c :: cs)) h
          · rename_i hv; rw [if_neg hv] at h; exact key _ h

theorem floatMain_cut {x : Text} (hx : WordEnd x) : ∀ (a : Text) {dot : Bool} {r : Text}, floatMain dot (a ++ x) = some (r ++ x) →
    floatMain dot a = some r
  | [], dot, r, h => by
    rw [List.nil_append] at h
    cases x with
    | nil => simpa using h
    | cons c x =>
      have hc := hx c rfl
      have h1 : ¬ (c.isDigit = true ∨ c = '_') := by
        rintro (e | rfl)
        · rw [digit_cont e] at hc; cases hc
        · revert hc; decide
      have h2 : ¬ (c = 'e' ∨ c = 'E') := by
        rintro (rfl | rfl)
        · revert hc; decide
        · revert hc; decide
      simp only [floatMain] at h ⊢
      rw [if_neg h1] at h
      split at h
      · cases dot with
        | true => simp at h; rw [h]; rfl
        | false =>
          simp only [Bool.false_eq_true, if_false] at h
          split at h
          · cases h
          · obtain ⟨a, h⟩ := floatMain_short x h
            exact (append_absurd h).elim
      · cases dot with
        | true => simp at h; rw [h]; rfl
        | false => cases h
  | c :: cs, dot, r, h => by
    simp only [List.cons_append, floatMain] at h ⊢
    have key : some (c :: (cs ++ x)) = some (r ++ x) → some (c :: cs) = some r := by
      intro e
      have e := Option.some.inj e
      rw [← List.cons_append] at e
      rw [List.append_cancel_right e]
    split
    · rename_i h1; rw [if_pos h1] at h; exact floatMain_cut hx cs h
    · rename_i h1
      rw [if_neg h1] at h
      split
      · rename_i h2
        rw [if_pos h2] at h
        cases dot with
        | true => exact key h
        | false =>
          simp only [Bool.false_eq_true, if_false] at h ⊢
          split at h
          · cases h
          · rename_i hn
            rw [if_neg]
            · exact floatMain_cut hx cs h
            · intro he
              apply hn
              cases cs with
              | nil => simp at he
              | cons d ds => simpa using he
      · rename_i h2
        rw [if_neg h2] at h
        split
        · rename_i h3
          rw [if_pos h3] at h
          apply floatExp_cut hx cs
          rw [← h]
          cases dot <;> rfl
        · rename_i h3
          rw [if_neg h3] at h
          cases dot with
          | true => exact key h
          | false => cases h

theorem numberEnd_cut {s r : Text} (h : numberEnd s = some r) :
    ∃ a, s = a ++ r ∧ numberEnd a = some [] ∧ WordEnd r ∧ ∀ c ∈ a, identCont c = true := by
  unfold numberEnd at h
  split at h
  · cases h; exact ⟨[], rfl, rfl, by simp [WordEnd], by simp⟩
  · rename_i c cs
    split at h
    · rename_i hc
      cases h
      obtain ⟨h1, h2, h3, h4, h5⟩ := lexPlainIdent_cut (s := c :: cs) (r := (c :: cs.takeWhile identCont, cs.dropWhile identCont)) (by simp [lexPlainIdent, hc])
      refine ⟨_, h1, ?_, h3, h5⟩
      simp only [numberEnd, hc, if_true]
      rw [(takeWhile_dropWhile_self identCont cs).1]
    · split at h
      · cases h
      · rename_i hn hc
        cases h
        exact ⟨[], rfl, rfl, fun d hd => by simp at hd; rw [← hd]; simpa using hc, by simp⟩

theorem numberEnd_wordEnd {x : Text} (hx : WordEnd x) (a : Text) : numberEnd (a ++ x) = addRest x (numberEnd a) := by
  cases a with
  | nil =>
    cases x with
    | nil => rfl
    | cons c x => simp [numberEnd, wordEnd_start hx c rfl, hx c rfl]
  | cons c cs =>
    simp only [List.cons_append, numberEnd]
    split
    · rw [(dropWhile_append_brk (p := identCont) cs x hx).1]; rfl
    · split <;> rfl

theorem lexFloat_cut {s r : Text} (h : lexFloat s = some r) : ∃ a, s = a ++ r ∧ lexFloat a = some [] := by
  unfold lexFloat at h
  split at h
  · rename_i c cs
    split at h
    · rename_i hd
      cases hf : floatMain false cs with
      | none => rw [hf] at h; cases h
      | some t =>
        rw [hf] at h
        obtain ⟨b, hb, hb', hw, _⟩ := numberEnd_cut (show numberEnd t = some r from h)
        obtain ⟨a, ha⟩ := floatMain_short cs hf
        refine ⟨c :: (a ++ b), by rw [ha, hb]; simp, ?_⟩
        have : floatMain false (a ++ b) = some b := floatMain_cut hw (a ++ b) (by rw [List.append_assoc, ← hb, ← ha]; exact hf)
        simp only [lexFloat, hd, if_true, this, Option.bind_some, hb']
    · cases h
  · cases h

theorem digitsLoop_short (base : Nat) : ∀ (s : Text) {empty : Bool} {q : Text}, digitsLoop base empty s = some q →
    ∃ a, s = a ++ q ∧ ∀ c ∈ a, identCont c = true
  | [], empty, q, h => by
    simp only [digitsLoop] at h
    split at h
    · cases h
    · cases h; exact ⟨[], rfl, by simp⟩
  | c :: cs, empty, q, h => by
    have step : ∀ {e : Bool}, identCont c = true → digitsLoop base e cs = some q → ∃ a, c :: cs = a ++ q ∧ ∀ d ∈ a, identCont d = true := by
      intro e hc h
      obtain ⟨a, ha, hb⟩ := digitsLoop_short base cs h
      refine ⟨c :: a, by rw [ha]; rfl, ?_⟩
      intro d hd
      rcases List.mem_cons.mp hd with rfl | hd
      · exact hc
      · exact hb d hd
    simp only [digitsLoop] at h
    split at h
    · rename_i hd
      split at h
      · cases h
      · exact step (digit_cont hd) h
    · split at h
      · rename_i hh
        split at h
        · split at h
          · cases h
          · simp only [Option.some.injEq] at h; exact ⟨[], h, by simp⟩
        · exact step (hex_cont hh) h
      · split at h
        · rename_i hu
          split at h
          · cases h
          · exact step (by rw [hu]; decide) h
        · split at h
          · cases h
          · simp only [Option.some.injEq] at h; exact ⟨[], h, by simp⟩

theorem digitsLoop_cut {x : Text} (hx : WordEnd x) (base : Nat) : ∀ (a : Text) {empty : Bool} {r : Text},
    digitsLoop base empty (a ++ x) = some (r ++ x) → digitsLoop base empty a = some r
  | [], empty, r, h => by
    rw [List.nil_append] at h
    cases x with
    | nil => simpa using h
    | cons c x =>
      have hc := hx c rfl
      have h1 : ¬ c.isDigit = true := fun e => by rw [digit_cont e] at hc; cases hc
      have h2 : ¬ (hexVal c).isSome = true := fun e => by rw [hex_cont e] at hc; cases hc
      have h3 : c ≠ '_' := by rintro rfl; revert hc; decide
      simp only [digitsLoop] at h ⊢
      rw [if_neg h1, if_neg h2, if_neg h3] at h
      cases empty with
      | true => cases h
      | false => simp at h; rw [h]; rfl
  | c :: cs, empty, r, h => by
    simp only [List.cons_append, digitsLoop] at h ⊢
    have key : some (c :: (cs ++ x)) = some (r ++ x) → some (c :: cs) = some r := by
      intro e
      have e := Option.some.inj e
      rw [← List.cons_append] at e
      rw [List.append_cancel_right e]
    repeat' split
    all_goals simp_all only [if_true, if_false, reduceCtorEq, Bool.false_eq_true]
    all_goals first | exact key h | exact digitsLoop_cut hx base cs h | simp at h

theorem wordEnd_not_append {x a cs : Text} {d : Char} (hx : WordEnd x) (hd : identCont d = true) (h : a ++ x = '0' :: d :: cs) :
    ∃ ds, a = '0' :: d :: ds := by
  match a with
  | [] =>
    have := hx '0' (by rw [List.nil_append] at h; rw [h]; rfl)
    exact absurd this (by decide)
  | [e] =>
    simp at h
    have := hx d (by rw [h.2]; rfl)
    rw [hd] at this; cases this
  | e :: f :: g =>
    simp at h
    exact ⟨g, by rw [h.1, h.2.1]⟩

theorem lexDigits_short {s q : Text} (h : lexDigits s = some q) : ∃ a, s = a ++ q ∧ ∀ c ∈ a, identCont c = true := by
  have pre : ∀ {d : Char} {base : Nat} {cs : Text}, identCont d = true → digitsLoop base true cs = some q →
      ∃ a, '0' :: d :: cs = a ++ q ∧ ∀ c ∈ a, identCont c = true := by
    intro d base cs hd h
    obtain ⟨a, ha, hb⟩ := digitsLoop_short base cs h
    refine ⟨'0' :: d :: a, by rw [ha]; rfl, ?_⟩
    intro e he
    rcases List.mem_cons.mp he with rfl | he
    · decide
    · rcases List.mem_cons.mp he with rfl | he
      · exact hd
      · exact hb e he
  unfold lexDigits at h
  split at h
  · exact pre (by decide) h
  · exact pre (by decide) h
  · exact pre (by decide) h
  · exact digitsLoop_short 10 s h

theorem lexDigits_cut {x : Text} (hx : WordEnd x) {a r : Text} (h : lexDigits (a ++ x) = some (r ++ x)) : lexDigits a = some r := by
  by_cases h1 : ∃ cs, a = '0' :: 'x' :: cs
  · obtain ⟨cs, rfl⟩ := h1; exact digitsLoop_cut hx 16 cs h
  by_cases h2 : ∃ cs, a = '0' :: 'o' :: cs
  · obtain ⟨cs, rfl⟩ := h2; exact digitsLoop_cut hx 8 cs h
  by_cases h3 : ∃ cs, a = '0' :: 'b' :: cs
  · obtain ⟨cs, rfl⟩ := h3; exact digitsLoop_cut hx 2 cs h
  rw [lexDigits_other (fun cs h => h1 (wordEnd_not_append hx (by decide) h)) (fun cs h => h2 (wordEnd_not_append hx (by decide) h))
    (fun cs h => h3 (wordEnd_not_append hx (by decide) h))] at h
  rw [lexDigits_other (fun cs h => h1 ⟨cs, h⟩) (fun cs h => h2 ⟨cs, h⟩) (fun cs h => h3 ⟨cs, h⟩)]
  exact digitsLoop_cut hx 10 a h

theorem lexInt_cut {s r : Text} (h : lexInt s = some r) :
    ∃ a, s = a ++ r ∧ lexInt a = some [] ∧ WordEnd r ∧ ∀ c ∈ a, identCont c = true := by
  unfold lexInt at h
  cases hd : lexDigits s with
  | none => rw [hd] at h; cases h
  | some t =>
    rw [hd] at h
    obtain ⟨b, hb, hb', hw, hbc⟩ := numberEnd_cut (show numberEnd t = some r from h)
    obtain ⟨a, ha, hac⟩ := lexDigits_short hd
    refine ⟨a ++ b, by rw [ha, hb]; simp, ?_, hw, ?_⟩
    · have : lexDigits (a ++ b) = some b := lexDigits_cut hw (by rw [List.append_assoc, ← hb, ← ha]; exact hd)
      unfold lexInt
      rw [this]
      exact hb'
    · intro c hc
      rcases List.mem_append.mp hc with hc | hc
      · exact hac c hc
      · exact hbc c hc

theorem floatExp_word {x : Text} (hx : WordEnd x) : ∀ (a : Text) {sign value : Bool} {q : Text}, floatExp none sign value a = some q →
    floatExp none sign value (a ++ x) = some (q ++ x)
  | [], sign, value, q, h => by
    simp only [floatExp] at h
    split at h
    · rename_i hv
      cases h
      subst hv
      cases x with
      | nil => rfl
      | cons c x =>
        have hc := hx c rfl
        have h1 : ¬ c.isDigit = true := fun e => by rw [digit_cont e] at hc; cases hc
        have h2 : c ≠ '_' := by rintro rfl; revert hc; decide
        simp only [List.nil_append, floatExp, if_neg h1, if_neg h2, if_true]
        split <;> rfl
    · cases h
  | c :: cs, sign, value, q, h => by
    simp only [List.cons_append, floatExp] at h ⊢
    repeat' split
    all_goals simp_all only [if_true, if_false, reduceCtorEq, Bool.false_eq_true, Option.some.injEq]
    all_goals first | (rw [← h]; rfl) | exact floatExp_word hx cs h

theorem floatMain_word {x : Text} (hx : WordEnd x) : ∀ (a : Text) {q : Text}, (∀ c ∈ a, identCont c = true) → floatMain false a = some q →
    floatMain false (a ++ x) = some (q ++ x)
  | [], q, _, h => by simp [floatMain] at h
  | c :: cs, q, hc, h => by
    simp only [List.cons_append, floatMain] at h ⊢
    split
    · rename_i h1; rw [if_pos h1] at h; exact floatMain_word hx cs (fun d hd => hc d (List.mem_cons_of_mem _ hd)) h
    · rename_i h1
      rw [if_neg h1] at h
      have h2 : c ≠ '.' := by
        rintro rfl
        exact absurd (hc '.' List.mem_cons_self) (by decide)
      rw [if_neg h2] at h ⊢
      split
      · rename_i h3
        rw [if_pos h3] at h
        exact floatExp_word hx cs h
      · rename_i h3; rw [if_neg h3] at h; cases h

theorem lexFloat_word {x : Text} (hx : WordEnd x) {a q : Text} (hc : ∀ c ∈ a, identCont c = true) (h : lexFloat a = some q) :
    lexFloat (a ++ x) = some (q ++ x) := by
  cases a with
  | nil => cases h
  | cons c cs =>
    simp only [lexFloat, List.cons_append] at h ⊢
    split at h
    · rename_i hd
      rw [if_pos hd]
      cases hf : floatMain false cs with
      | none => rw [hf] at h; cases h
      | some t =>
        rw [hf] at h
        rw [floatMain_word hx cs (fun d hd => hc d (List.mem_cons_of_mem _ hd)) hf]
        simp only [Option.bind_some] at h ⊢
        rw [numberEnd_wordEnd hx, h]; rfl
    · cases h

/-! ### literals -/

theorem lexLiteral_cut {s r : Text} (h : lexLiteral s = some r) : ∃ a, s = a ++ r ∧ lexLiteral a = some [] ∧ a ≠ [] := by
  unfold lexLiteral at h
  split at h
  · obtain ⟨a, ha, hb⟩ := lexCooked_cut h; exact ⟨'"' :: a, by rw [ha]; rfl, hb, by simp⟩
  · obtain ⟨a, ha, hb⟩ := lexRaw_cut h; exact ⟨'r' :: a, by rw [ha]; rfl, hb, by simp⟩
  · obtain ⟨a, ha, hb⟩ := lexCooked_cut h; exact ⟨'b' :: '"' :: a, by rw [ha]; rfl, hb, by simp⟩
  · obtain ⟨a, ha, hb⟩ := lexRaw_cut h; exact ⟨'b' :: 'r' :: a, by rw [ha]; rfl, hb, by simp⟩
  · obtain ⟨a, ha, hb⟩ := lexByte_cut h; exact ⟨'b' :: '\'' :: a, by rw [ha]; rfl, hb, by simp⟩
  · obtain ⟨a, ha, hb⟩ := lexCooked_cut h; exact ⟨'c' :: '"' :: a, by rw [ha]; rfl, hb, by simp⟩
  · obtain ⟨a, ha, hb⟩ := lexRaw_cut h; exact ⟨'c' :: 'r' :: a, by rw [ha]; rfl, hb, by simp⟩
  · obtain ⟨a, ha, hb⟩ := lexChar_cut h; exact ⟨'\'' :: a, by rw [ha]; rfl, hb, by simp⟩
  · have dig : ∀ a : Text, (∃ q, ((lexFloat a).orElse fun _ => lexInt a) = some q) → lexLiteral a = (lexFloat a).orElse fun _ => lexInt a := by
      rintro a ⟨q, hq⟩
      obtain ⟨c, cs, rfl, hd⟩ := number_head hq
      exact lexLiteral_other (by intro d he; simp at he; subst he; exact digit_not_start hd)
    cases hf : lexFloat s with
    | some t =>
      rw [hf] at h
      cases h
      obtain ⟨a, ha, hb⟩ := lexFloat_cut hf
      refine ⟨a, ha, ?_, by rintro rfl; cases hb⟩
      rw [dig a ⟨[], by rw [hb]; rfl⟩, hb]; rfl
    | none =>
      rw [hf] at h
      obtain ⟨a, ha, hb, hw, hc⟩ := lexInt_cut (show lexInt s = some r from h)
      have hn : lexFloat a = none := by
        cases hq : lexFloat a with
        | none => rfl
        | some q => rw [ha, lexFloat_word hw hc hq] at hf; cases hf
      refine ⟨a, ha, ?_, ?_⟩
      · rw [dig a ⟨[], by rw [hn, hb]; rfl⟩, hn, hb]; rfl
      · rintro rfl; revert hb; decide

end Parsel
