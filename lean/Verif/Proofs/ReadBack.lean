import Verif.Proofs.LexRounds
import Verif.Proofs.Format
import Verif.Proofs.Blind

/-! What the formatter writes is read back as the same tokens. -/

namespace Parsel

open Spec

/-! ### leaves at the start of a text -/

theorem identStart_facts {c : Char} (h : identStart c = true) : c ∉ breakChars ∧ c ∉ punctChars ∧ c.isDigit = false ∧ c ∉ "\"'([{)]}/\\#".toList := by
  have h1 : ∀ c ∈ breakChars ++ punctChars ++ "0123456789".toList ++ "\"'([{)]}/\\#".toList, identStart c = false := by decide
  have h2 : ∀ l : List Char, (∀ c ∈ l, c ∈ breakChars ++ punctChars ++ "0123456789".toList ++ "\"'([{)]}/\\#".toList) → c ∉ l := by
    intro l hl hc
    rw [h1 c (hl c hc)] at h
    cases h
  refine ⟨h2 _ (by decide), h2 _ (by decide), ?_, h2 _ (by decide)⟩
  rw [Bool.eq_false_iff]
  intro hd
  rw [isDigit_iff, char_le_iff, char_le_iff] at hd
  have : c ∈ "0123456789".toList := by
    have hc : c = Char.ofNat c.toNat := (Char.ofNat_toNat c).symm
    have : ∀ n : Nat, 48 ≤ n → n ≤ 57 → Char.ofNat n ∈ "0123456789".toList := by
      intro n h1 h2
      have : n = 48 ∨ n = 49 ∨ n = 50 ∨ n = 51 ∨ n = 52 ∨ n = 53 ∨ n = 54 ∨ n = 55 ∨ n = 56 ∨ n = 57 := by omega
      rcases this with rfl | rfl | rfl | rfl | rfl | rfl | rfl | rfl | rfl | rfl <;> decide
    rw [hc]
    exact this _ hd.1 hd.2
  exact h2 "0123456789".toList (by decide) this

theorem identText_start {x : Text} (h : IdentText x) : ∃ c cs, x = c :: cs ∧ identStart c = true := by
  unfold IdentText lexIdentAny at h
  cases hs : stripPrefix "r#".toList x with
  | some y =>
    have := stripPrefix_eq hs
    exact ⟨'r', '#' :: y, this, by decide⟩
  | none =>
    rw [hs] at h
    obtain ⟨_, _, _, ⟨c, cs, h1, h2⟩, _⟩ := lexPlainIdent_cut h
    exact ⟨c, cs, h1, h2⟩

theorem identText_shape {x : Text} (h : IdentText x) : (∀ c ∈ x, identCont c = true) ∨ ∃ y, x = 'r' :: '#' :: y ∧ ∀ c ∈ y, identCont c = true := by
  unfold IdentText lexIdentAny at h
  cases hs : stripPrefix "r#".toList x with
  | some y =>
    rw [hs] at h
    simp only at h
    have hx := stripPrefix_eq hs
    cases hp : lexPlainIdent y with
    | none => rw [hp] at h; cases h
    | some q =>
      rw [hp] at h
      simp only [Option.bind_some] at h
      split at h
      · cases h
      · obtain ⟨h1, _, _, _, h5⟩ := lexPlainIdent_cut hp
        have : q.2 = [] := congrArg Prod.snd (Option.some.inj h)
        rw [this, List.append_nil] at h1
        exact .inr ⟨y, hx, by rw [h1]; exact h5⟩
  | none =>
    rw [hs] at h
    exact .inl (lexPlainIdent_cut h).2.2.2.2

theorem lexInt_nondigit {c : Char} (h : c.isDigit = false) (cs : Text) : lexInt (c :: cs) = none := by
  cases hi : lexInt (c :: cs) with
  | none => rfl
  | some r =>
    unfold lexInt at hi
    cases hd : lexDigits (c :: cs) with
    | none => rw [hd] at hi; cases hi
    | some t =>
      obtain ⟨d, ds, h1, h2⟩ := lexDigits_head hd
      cases h1
      rw [h] at h2; cases h2

theorem lexFloat_nondigit {c : Char} (h : c.isDigit = false) (cs : Text) : lexFloat (c :: cs) = none := by
  simp [lexFloat, h]

theorem number_nondigit {c : Char} (h : c.isDigit = false) (cs : Text) : ((lexFloat (c :: cs)).orElse fun _ => lexInt (c :: cs)) = none := by
  rw [lexFloat_nondigit h, lexInt_nondigit h]; rfl

/-- After `r`, `br`, `cr`: what follows a word is not a raw string. -/
theorem rawOpen_word : ∀ (n : Nat) (y k : Text), (∀ c ∈ y, identCont c = true) → (y = [] → Sep k) → rawOpen n (y ++ k) = none
  | n, [], k, _, hk => by
    have hk := hk rfl
    cases k with
    | nil => rfl
    | cons c k => have h := sep_head hk; simp [rawOpen, h.quote, h.pound]
  | n, c :: cs, k, h, _ => by
    have hc := h c List.mem_cons_self
    have h1 : c ≠ '"' := by rintro rfl; revert hc; decide
    have h2 : c ≠ '#' := by rintro rfl; revert hc; decide
    simp [rawOpen, h1, h2]

theorem lexRaw_word {k : StrKind} {y t : Text} (h : ∀ c ∈ y, identCont c = true) (ht : Sep t) : lexRaw k (y ++ t) = none := by
  unfold lexRaw
  rw [rawOpen_word 0 y t h (fun _ => ht)]
  rfl

theorem lexRaw_rawWord {k : StrKind} {y t : Text} (h : ∀ c ∈ y, identCont c = true) (ht : Sep t) : lexRaw k ('#' :: (y ++ t)) = none := by
  unfold lexRaw
  have : rawOpen 0 ('#' :: (y ++ t)) = rawOpen 1 (y ++ t) := by simp [rawOpen]
  rw [this, rawOpen_word 1 y t h (fun _ => ht)]
  rfl

theorem ident_not_literal {x : Text} (h : IdentText x) {k : Text} (hk : Sep k) : lexLiteral (x ++ k) = none := by
  obtain ⟨c, cs, rfl, hc⟩ := identText_start h
  have hf := identStart_facts hc
  rcases identText_shape h with hall | ⟨y, he, hall⟩
  · have hq : ∀ (z : Text) (e : Char), (e = '"' ∨ e = '\'') → (∀ d ∈ z, identCont d = true) → ∀ t, z ++ k ≠ e :: t := by
      intro z e he hz t ht
      cases z with
      | nil =>
        rw [List.nil_append] at ht
        have := sep_head (ht ▸ hk : Sep (e :: t))
        rcases he with rfl | rfl
        · exact this.quote rfl
        · exact this.apos rfl
      | cons d ds =>
        simp at ht
        have := hz d List.mem_cons_self
        rw [ht.1] at this
        rcases he with rfl | rfl <;> · revert this; decide
    have hcs : ∀ d ∈ cs, identCont d = true := fun d hd => hall d (List.mem_cons_of_mem _ hd)
    have hr : ∀ (t : Text) (kk : StrKind), cs ++ k = 'r' :: t → lexRaw kk t = none := by
      intro t kk ht
      cases cs with
      | nil =>
        rw [List.nil_append] at ht
        exact absurd (by decide) (sep_head (ht ▸ hk : Sep ('r' :: t))).other
      | cons d ds =>
        simp at ht
        rw [← ht.2]
        exact lexRaw_word (fun e he => hcs e (List.mem_cons_of_mem _ he)) hk
    rw [List.cons_append]
    unfold lexLiteral
    split
    · rename_i heq; cases heq; exact absurd hc (by decide)
    · rename_i heq; cases heq; exact lexRaw_word hcs hk
    · rename_i heq; simp only [List.cons.injEq] at heq; exact absurd heq.2 (hq cs '"' (.inl rfl) hcs _)
    · rename_i t heq; simp only [List.cons.injEq] at heq; exact hr t _ heq.2
    · rename_i heq; simp only [List.cons.injEq] at heq; exact absurd heq.2 (hq cs '\'' (.inr rfl) hcs _)
    · rename_i heq; simp only [List.cons.injEq] at heq; exact absurd heq.2 (hq cs '"' (.inl rfl) hcs _)
    · rename_i t heq; simp only [List.cons.injEq] at heq; exact hr t _ heq.2
    · rename_i heq; cases heq; exact absurd hc (by decide)
    · exact number_nondigit hf.2.2.1 _
  · cases he
    show lexRaw .str ('#' :: (y ++ k)) = none
    exact lexRaw_rawWord hall hk

theorem word_walk {k : Text} (hk : Sep k) {e : Char} (he : ¬ SepChar e) (he' : identCont e = false) : ∀ (a z t : Text), (∀ d ∈ z, identCont d = true) →
    (∀ d ∈ a, identCont d = true) → z ++ k ≠ a ++ e :: t
  | [], [], t, _, _, h => by
    rw [List.nil_append, List.nil_append] at h
    exact he (hk e (by rw [h]; rfl))
  | [], d :: z, t, hz, _, h => by
    simp at h
    have := hz d List.mem_cons_self
    rw [h.1, he'] at this; cases this
  | b :: a, [], t, _, ha, h => by
    rw [List.nil_append] at h
    exact absurd (hk b (by rw [h]; rfl)).cont (by rw [ha b List.mem_cons_self]; decide)
  | b :: a, d :: z, t, hz, ha, h => by
    simp at h
    exact word_walk hk he he' a z t (fun x hx => hz x (List.mem_cons_of_mem _ hx)) (fun x hx => ha x (List.mem_cons_of_mem _ hx)) h.2

theorem ident_prefix {x : Text} (h : IdentText x) {k : Text} (hk : Sep k) :
    ["r\"", "r#\"", "r##", "b\"", "b'", "br\"", "br#", "c\"", "cr\"", "cr#"].any (fun p => startsWith p.toList (x ++ k)) = false := by
  rw [List.any_eq_false]
  intro p hp hs
  obtain ⟨r, hr⟩ := startsWith_iff.mp hs
  have hw := fun e he he' => word_walk hk (e := e) he he'
  rcases identText_shape h with hall | ⟨y, rfl, hall⟩
  · simp only [List.mem_cons, List.not_mem_nil, or_false] at hp
    rcases hp with rfl | rfl | rfl | rfl | rfl | rfl | rfl | rfl | rfl | rfl
    · exact hw '"' (fun h => h.quote rfl) (by decide) ['r'] x r hall (by decide) hr
    · exact hw '#' (fun h => h.pound rfl) (by decide) ['r'] x ('"' :: r) hall (by decide) hr
    · exact hw '#' (fun h => h.pound rfl) (by decide) ['r'] x ('#' :: r) hall (by decide) hr
    · exact hw '"' (fun h => h.quote rfl) (by decide) ['b'] x r hall (by decide) hr
    · exact hw '\'' (fun h => h.apos rfl) (by decide) ['b'] x r hall (by decide) hr
    · exact hw '"' (fun h => h.quote rfl) (by decide) ['b', 'r'] x r hall (by decide) hr
    · exact hw '#' (fun h => h.pound rfl) (by decide) ['b', 'r'] x r hall (by decide) hr
    · exact hw '"' (fun h => h.quote rfl) (by decide) ['c'] x r hall (by decide) hr
    · exact hw '"' (fun h => h.quote rfl) (by decide) ['c', 'r'] x r hall (by decide) hr
    · exact hw '#' (fun h => h.pound rfl) (by decide) ['c', 'r'] x r hall (by decide) hr
  · simp only [List.mem_cons, List.not_mem_nil, or_false] at hp
    rcases hp with rfl | rfl | rfl | rfl | rfl | rfl | rfl | rfl | rfl | rfl
    · simp at hr
    · exact hw '"' (fun h => h.quote rfl) (by decide) [] y r hall (by decide) (by simpa using hr)
    · exact hw '#' (fun h => h.pound rfl) (by decide) [] y r hall (by decide) (by simpa using hr)
    all_goals simp at hr

theorem punctChar_none {c : Char} (h : c ∉ punctChars) (s : Text) : punctChar (c :: s) = none := by
  unfold punctChar
  split
  · rename_i d ds heq
    cases heq
    rw [if_neg h]
    split <;> rfl
  · rfl

theorem lexPunct_none {c : Char} (h : c ∉ punctChars) (s : Text) : lexPunct (c :: s) = none := by
  unfold lexPunct
  rw [punctChar_none h]; rfl

theorem tokStart_cons {c : Char} {s : Text} (hw : lexWhite c = false) (hs : c ≠ '/') : TokStart (c :: s) :=
  ⟨fun d hd => by simp at hd; rw [← hd]; exact hw, slash_head (by simpa using hs)⟩

theorem not_white {c : Char} (h : c ∉ breakChars) : lexWhite c = false := by
  rw [Bool.eq_false_iff]
  exact fun hw => h (white_break hw)

theorem noDelim {c : Char} (h : c ∉ "([{)]}".toList) : openDelim c = none ∧ closeDelim c = none := by
  simp at h
  simp [openDelim, closeDelim, h]

/-- The beginning of a word: it can only be a word. -/
theorem lexLeaf_ident {x : Text} (h : IdentText x) {k : Text} (hk : Sep k) :
    lexLeaf (x ++ k) = some (.ident x, k) ∧ TokStart (x ++ k) ∧
      ∀ c, (x ++ k).head? = some c → openDelim c = none ∧ closeDelim c = none := by
  obtain ⟨c, cs, hx, hc⟩ := identText_start h
  have hf := identStart_facts hc
  refine ⟨?_, ?_, ?_⟩
  · unfold lexLeaf
    rw [ident_not_literal h hk]
    have h2 : lexPunct (x ++ k) = none := by rw [hx, List.cons_append]; exact lexPunct_none hf.2.1 _
    have h3 : lexIdent (x ++ k) = some (x, k) := by
      unfold lexIdent
      rw [if_neg (by rw [ident_prefix h hk]; simp)]
      simpa using lexIdentAny_append h hk
    simp only [h2, h3]
  · rw [hx, List.cons_append]
    exact tokStart_cons (not_white hf.1) (by rintro rfl; exact hf.2.2.2 (by decide))
  · intro d hd
    rw [hx, List.cons_append] at hd
    simp at hd
    subst hd
    exact noDelim (fun hm => hf.2.2.2 (by revert hm; simp; rintro (rfl | rfl | rfl | rfl | rfl | rfl) <;> decide))

/-- How a literal may begin. -/
theorem litText_start {r : Text} (h : lexLiteral r = some []) : ∃ c cs, r = c :: cs ∧ (c ∈ "\"rbc'".toList ∨ c.isDigit = true) := by
  cases r with
  | nil => exact absurd h (by decide)
  | cons c cs =>
    refine ⟨c, cs, rfl, ?_⟩
    by_cases hc : c ∈ "\"rbc'".toList
    · exact .inl hc
    · rw [lexLiteral_other (by intro d hd; simp at hd; rw [← hd]; exact hc)] at h
      obtain ⟨d, ds, h1, h2⟩ := number_head h
      cases h1
      exact .inr h2

theorem start_facts {c : Char} (h : c ∈ "\"rbc'".toList ∨ c.isDigit = true) : c ∉ breakChars ∧ c ≠ '/' ∧ openDelim c = none ∧ closeDelim c = none := by
  have h1 : ∀ c ∈ "\"rbc'0123456789".toList, c ∉ breakChars ∧ c ≠ '/' ∧ openDelim c = none ∧ closeDelim c = none := by decide
  apply h1
  rcases h with h | h
  · simp at h; rcases h with rfl | rfl | rfl | rfl | rfl <;> decide
  · rw [isDigit_iff, char_le_iff, char_le_iff] at h
    have hc : c = Char.ofNat c.toNat := (Char.ofNat_toNat c).symm
    have : ∀ n : Nat, 48 ≤ n → n ≤ 57 → Char.ofNat n ∈ "\"rbc'0123456789".toList := by
      intro n h1 h2
      have : n = 48 ∨ n = 49 ∨ n = 50 ∨ n = 51 ∨ n = 52 ∨ n = 53 ∨ n = 54 ∨ n = 55 ∨ n = 56 ∨ n = 57 := by omega
      rcases this with rfl | rfl | rfl | rfl | rfl | rfl | rfl | rfl | rfl | rfl <;> decide
    rw [hc]
    exact this _ h.1 h.2

/-- A literal token. -/
theorem lexLeaf_lit {r : Text} (h : LitText r) {k : Text} (hk : Sep k)
    (hnum : (∃ c, r.head? = some c ∧ c.isDigit = true) → NumSep r k) :
    lexLeaf (r ++ k) = some (.lit r, k) ∧ TokStart (r ++ k) ∧
      ∀ c, (r ++ k).head? = some c → (startsWith errorText (r ++ k) = true ∨ openDelim c = none) ∧ closeDelim c = none := by
  rcases h with h | rfl
  · obtain ⟨c, cs, hr, hc⟩ := litText_start h
    obtain ⟨f1, f2, f3, f4⟩ := start_facts hc
    refine ⟨?_, ?_, ?_⟩
    · unfold lexLeaf
      have := lexLiteral_append h hk hnum
      rw [List.nil_append] at this
      rw [this]
      simp
    · rw [hr, List.cons_append]
      exact tokStart_cons (not_white f1) f2
    · intro d hd
      rw [hr, List.cons_append] at hd
      simp at hd
      subst hd
      exact ⟨.inr f3, f4⟩
  · have hs : stripPrefix errorText ("(/*ERROR*/)".toList ++ k) = some k := stripPrefix_append_self _ _
    refine ⟨?_, ?_, ?_⟩
    · unfold lexLeaf
      have h1 : lexLiteral ("(/*ERROR*/)".toList ++ k) = none := by
        show lexLiteral ('(' :: ("/*ERROR*/)".toList ++ k)) = none
        rw [lexLiteral_other (by intro d hd; simp at hd; rw [← hd]; decide)]
        exact number_nondigit (by decide) _
      have h2 : lexPunct ("(/*ERROR*/)".toList ++ k) = none := lexPunct_none (c := '(') (by decide) _
      have h3 : lexIdent ("(/*ERROR*/)".toList ++ k) = none := by
        cases hi : lexIdent ("(/*ERROR*/)".toList ++ k) with
        | none => rfl
        | some q =>
          have := lexIdent_eq hi
          have hn : lexIdentAny ('(' :: ("/*ERROR*/)".toList ++ k)) = none := by
            unfold lexIdentAny
            have : stripPrefix "r#".toList ('(' :: ("/*ERROR*/)".toList ++ k)) = none := rfl
            rw [this]
            rfl
          rw [show lexIdentAny ("(/*ERROR*/)".toList ++ k) = none from hn] at this
          cases this
      rw [h1, h2, h3, hs]
      rfl
    · exact tokStart_cons (c := '(') (by decide) (by decide)
    · intro c hc
      replace hc : some '(' = some c := hc
      cases hc
      exact ⟨.inl (startsWith_iff.mpr ⟨k, rfl⟩), by decide⟩

/-! ### punctuation -/

theorem punct_facts {c : Char} (h : c ∈ punctChars) : c ∉ breakChars ∧ c.isDigit = false ∧ openDelim c = none ∧ closeDelim c = none ∧
    (c ≠ '\'' → c ∉ "\"rbc'".toList) := by
  revert c
  decide

theorem lexLiteral_punct {c : Char} (h : c ∈ punctChars) (hq : c ≠ '\'') (s : Text) : lexLiteral (c :: s) = none := by
  obtain ⟨_, h2, _, _, h5⟩ := punct_facts h
  rw [lexLiteral_other (by intro d hd; simp at hd; rw [← hd]; exact h5 hq)]
  exact number_nondigit h2 _

theorem startsWith_cons2 {a b c : Char} {s : Text} : startsWith [a, b] (c :: s) = true ↔ c = a ∧ s.head? = some b := by
  rw [startsWith_iff]
  constructor
  · rintro ⟨r, hr⟩
    cases hr
    exact ⟨rfl, rfl⟩
  · rintro ⟨rfl, h⟩
    cases s with
    | nil => cases h
    | cons d s => simp at h; exact ⟨s, by rw [h]; rfl⟩

theorem noComment_cons {c : Char} {s : Text} (h : ¬ (c = '/' ∧ (s.head? = some '/' ∨ s.head? = some '*'))) : NoComment (c :: s) := by
  constructor <;> rw [Bool.eq_false_iff] <;> intro hs
  · have := startsWith_cons2 (a := '/') (b := '/') |>.mp hs
    exact h ⟨this.1, .inl this.2⟩
  · have := startsWith_cons2 (a := '/') (b := '*') |>.mp hs
    exact h ⟨this.1, .inr this.2⟩

theorem punctChar_some {c : Char} {s : Text} (h : c ∈ punctChars) (hn : NoComment (c :: s)) : punctChar (c :: s) = some (c, s) := by
  unfold punctChar
  split
  · rename_i d ds heq
    cases heq
    rw [hn.1, hn.2, if_pos h]
    rfl
  · simp_all

theorem brk_head {k : Text} (hk : Brk k) {c : Char} (hc : c ∉ breakChars) : k.head? ≠ some c := fun h => hc (hk c h)

/-- A punctuation character that is not followed by another one. -/
theorem lexLeaf_single {c : Char} (h : c ∈ punctChars) (hq : c ≠ '\'') {k : Text} (hp : punctChar k = none) (hn : NoComment (c :: k)) :
    lexLeaf (c :: k) = some (.punct c .alone, k) ∧ TokStart (c :: k) := by
  refine ⟨?_, ⟨fun d hd => ?_, hn⟩⟩
  · unfold lexLeaf
    rw [lexLiteral_punct h hq]
    have : lexPunct (c :: k) = some (c, .alone, k) := by
      unfold lexPunct
      rw [punctChar_some h hn]
      simp only [Option.bind_some, if_neg hq, hp]
      rfl
    rw [this]
  · simp at hd; rw [← hd]; exact not_white (punct_facts h).1

/-- A punctuation character that is followed by a separator. -/
theorem lexLeaf_alone {c : Char} (h : c ∈ punctChars) (hq : c ≠ '\'') {k : Text} (hk : Brk k) :
    lexLeaf (c :: k) = some (.punct c .alone, k) ∧ TokStart (c :: k) := by
  refine lexLeaf_single h hq ?_ (noComment_cons (by
    rintro ⟨_, h | h⟩
    · exact brk_head hk (by decide) h
    · exact brk_head hk (by decide) h))
  cases k with
  | nil => rfl
  | cons d k => exact punctChar_none (brk_separates hk).punct k

/-- A punctuation character that is directly followed by another one. -/
theorem lexLeaf_joint {c c' : Char} {k : Text} (h : c ∈ punctChars) (hq : c ≠ '\'') (h' : c' ∈ punctChars) (hcc : ¬ (c = '/' ∧ (c' = '/' ∨ c' = '*')))
    (hn' : NoComment (c' :: k)) : lexLeaf (c :: c' :: k) = some (.punct c .joint, c' :: k) ∧ TokStart (c :: c' :: k) := by
  have hn : NoComment (c :: c' :: k) := noComment_cons (by simpa using hcc)
  refine ⟨?_, ⟨fun d hd => ?_, hn⟩⟩
  · unfold lexLeaf
    rw [lexLiteral_punct h hq]
    have : lexPunct (c :: c' :: k) = some (c, .joint, c' :: k) := by
      unfold lexPunct
      rw [punctChar_some h hn]
      simp only [Option.bind_some, if_neg hq, punctChar_some h' hn']
      rfl
    rw [this]
  · simp at hd; rw [← hd]; exact not_white (punct_facts h).1

/-- The quote of a lifetime. -/
theorem lexLeaf_quote {i k rest : Text} (hi : lexIdentAny k = some (i, rest)) (h1 : rest.head? ≠ some '\'') (h2 : rest.head? ≠ some '#') :
    lexLeaf ('\'' :: k) = some (.punct '\'' .joint, k) ∧ TokStart ('\'' :: k) := by
  refine ⟨?_, tokStart_cons (by decide) (by decide)⟩
  obtain ⟨he, hit, _⟩ := lexIdentAny_cut hi
  obtain ⟨c, cs, hc, hs⟩ := identText_start hit
  have hne : c ≠ '\\' := by rintro rfl; revert hs; decide
  have hclose : lexChar k = none := by
    have hk : k = c :: (cs ++ rest) := by rw [he]; show i ++ rest = _; rw [show i = c :: cs from hc]; rfl
    rw [hk, lexChar_plain _ hne]
    unfold lexChar.close
    split
    · rename_i t heq
      exfalso
      cases cs with
      | nil => rw [List.nil_append] at heq; exact h1 (by rw [heq]; rfl)
      | cons d ds =>
        simp at heq
        rcases identText_shape hit with hall | ⟨y, hy, _⟩
        · have := hall d (by rw [hc]; simp)
          rw [heq.1] at this
          revert this; decide
        · rw [hc] at hy
          simp at hy
          rw [heq.1] at hy
          exact absurd hy.2.1 (by decide)
    · rfl
  have hlit : lexLiteral ('\'' :: k) = none := hclose
  have hp : lexPunct ('\'' :: k) = some ('\'', .joint, k) := by
    unfold lexPunct
    rw [punctChar_some (by decide) (slash_head (by simp))]
    simp only [Option.bind_some, if_true, hi]
    have e1 : startsWith "'".toList rest = false := by
      rw [Bool.eq_false_iff]; intro h
      obtain ⟨r, rfl⟩ := startsWith_iff.mp h
      exact h1 rfl
    have e2 : startsWith "#".toList rest = false := by
      rw [Bool.eq_false_iff]; intro h
      obtain ⟨r, rfl⟩ := startsWith_iff.mp h
      exact h2 rfl
    rw [e1, e2]
    rfl
  unfold lexLeaf
  rw [hlit, hp]

/-! ### whole streams -/

/-- The indentation is white space. -/
def WhiteIndent (ind : Option Text) : Prop := ∀ s, ind = some s → ∀ c ∈ s, isWhite c = true

theorem indent_white {ind : Option Text} (h : WhiteIndent ind) (L : Nat) : ∀ c ∈ indentText ind L, lexWhite c = true := by
  intro c hc
  cases ind with
  | none => simp [indentText] at hc
  | some s =>
    simp only [indentText, List.mem_flatten, List.mem_replicate] at hc
    obtain ⟨l, ⟨_, rfl⟩, hc⟩ := hc
    simp [lexWhite, h l rfl c hc]

theorem newline_white (ind : Option Text) (sp : Spacing) : ∀ c ∈ newlineText ind sp, lexWhite c = true := by
  intro c hc
  cases ind with
  | some s => simp [newlineText] at hc; subst hc; decide
  | none =>
    cases sp with
    | alone => simp [newlineText] at hc; subst hc; decide
    | joint => simp [newlineText] at hc

theorem newline_indent_white {ind : Option Text} (h : WhiteIndent ind) (sp : Spacing) (L : Nat) :
    ∀ c ∈ newlineText ind sp ++ indentText ind L, lexWhite c = true := by
  intro c hc
  rcases List.mem_append.mp hc with hc | hc
  · exact newline_white ind sp c hc
  · exact indent_white h L c hc

theorem brk_white {w k : Text} (h : ∀ c ∈ w, lexWhite c = true) (hk : Brk k) : Brk (w ++ k) := by
  cases w with
  | nil => exact hk
  | cons c w => exact brk_cons (white_break (h c List.mem_cons_self)) _

theorem brk_newline {ind : Option Text} (h : WhiteIndent ind) (L : Nat) (s : Text) : Brk ((newlineText ind .alone ++ indentText ind L) ++ s) := by
  cases ind with
  | none => exact brk_cons (by decide) _
  | some t => exact brk_cons (by decide) _

theorem loopText_alone (ind : Option Text) (L : Nat) (ts : List TT) :
    loopText ind L .alone ts = (if ts.isEmpty then [] else [' ']) ++ loopText ind L .joint ts := by
  cases ts with
  | nil => simp [loopText]
  | cons t ts => simp [loopText]

theorem brk_alone (ind : Option Text) (L : Nat) (ts : List TT) {k : Text} (hk : Brk k) : Brk (loopText ind L .alone ts ++ k) := by
  rw [loopText_alone]
  cases ts with
  | nil => exact hk
  | cons t ts => exact brk_cons (by decide) _

/-- What comes after a group: nothing but separators first. -/
def afterText (ind : Option Text) (L : Nat) (ts : List TT) : Text :=
  if ts.isEmpty then loopText ind L .alone ts else (newlineText ind .alone ++ indentText ind L) ++ loopText ind L .joint ts

theorem brk_after {ind : Option Text} (h : WhiteIndent ind) (L : Nat) (ts : List TT) {k : Text} (hk : Brk k) : Brk (afterText ind L ts ++ k) := by
  unfold afterText
  split
  · exact brk_alone ind L ts hk
  · rw [List.append_assoc]; exact brk_newline h L _

theorem after_skip {ind : Option Text} (h : WhiteIndent ind) (L : Nat) (ts : List TT) : ∃ w, (∀ c ∈ w, lexWhite c = true) ∧
    afterText ind L ts = w ++ loopText ind L .joint ts := by
  unfold afterText
  split
  · rename_i he
    refine ⟨[], by simp, ?_⟩
    rw [loopText_alone, he]; rfl
  · exact ⟨_, newline_indent_white h .alone L, rfl⟩

theorem alone_skip (ind : Option Text) (L : Nat) (ts : List TT) : ∃ w, (∀ c ∈ w, lexWhite c = true) ∧
    loopText ind L .alone ts = w ++ loopText ind L .joint ts := by
  rw [loopText_alone]
  refine ⟨_, ?_, rfl⟩
  intro c hc
  split at hc
  · cases hc
  · simp at hc; subst hc; decide

/-- What a punctuation character that is not joined to the next token is followed by. -/
def sepText (ind : Option Text) (L : Nat) (c : Char) (ts : List TT) : Text :=
  if (c = ',' ∨ c = ';') ∧ ts.isEmpty = false then (newlineText ind .alone ++ indentText ind L) ++ loopText ind L .joint ts else loopText ind L .alone ts

theorem brk_sep {ind : Option Text} (h : WhiteIndent ind) (L : Nat) (c : Char) (ts : List TT) {k : Text} (hk : Brk k) : Brk (sepText ind L c ts ++ k) := by
  unfold sepText
  split
  · rw [List.append_assoc]; exact brk_newline h L _
  · exact brk_alone ind L ts hk

theorem sep_skip {ind : Option Text} (h : WhiteIndent ind) (L : Nat) (c : Char) (ts : List TT) : ∃ w, (∀ c ∈ w, lexWhite c = true) ∧
    sepText ind L c ts = w ++ loopText ind L .joint ts := by
  unfold sepText
  split
  · exact ⟨_, newline_indent_white h .alone L, rfl⟩
  · exact alone_skip ind L ts

theorem loop_ident (ind : Option Text) (L : Nat) (x : Text) (sp : Span) (ts : List TT) :
    loopText ind L .joint (.ident x sp :: ts) = x ++ loopText ind L .alone ts := by simp [loopText, treeText]

theorem loop_lit (ind : Option Text) (L : Nat) (r : Text) (sp : Span) (ts : List TT) :
    loopText ind L .joint (.lit r sp :: ts) = r ++ loopText ind L .alone ts := by simp [loopText, treeText]

theorem loop_punct_alone (ind : Option Text) (L : Nat) (c : Char) (sp : Span) (ts : List TT) :
    loopText ind L .joint (.punct c .alone sp :: ts) = c :: sepText ind L c ts := by
  simp only [loopText, treeText, sepText, List.nil_append, List.singleton_append]
  simp

theorem loop_punct_joint (ind : Option Text) (L : Nat) (c : Char) (sp : Span) (ts : List TT) :
    loopText ind L .joint (.punct c .joint sp :: ts) = c :: loopText ind L .joint ts := by
  simp [loopText, treeText]

theorem loop_none (ind : Option Text) (L : Nat) (inner : List TT) (sp : Span) (ts : List TT) :
    loopText ind L .joint (.group .none inner sp :: ts) = indentText ind L ++ (loopText ind L .joint inner ++ loopText ind L .alone ts) := by
  simp [loopText, treeText]

/-- The inside of a group with its line breaks. -/
def insideText (ind : Option Text) (L : Nat) (inner : List TT) : Text :=
  if inner.isEmpty then []
  else (newlineText ind .joint ++ indentText ind (L + 1)) ++ (loopText ind (L + 1) .joint inner ++ (newlineText ind .joint ++ indentText ind L))

theorem loop_group (ind : Option Text) (L : Nat) (d : Delim) (hd : d ≠ .none) (inner : List TT) (sp : Span) (ts : List TT) :
    loopText ind L .joint (.group d inner sp :: ts) = openChar d :: (insideText ind L inner ++ closeChar d :: afterText ind L ts) := by
  cases d with
  | none => exact absurd rfl hd
  | _ =>
    simp only [loopText, treeText, groupText, insideText, afterText, List.nil_append, List.singleton_append, List.append_assoc]

theorem bom_list : ∀ c ∈ "\"rbc'([{".toList, c.toNat ≠ 0xFEFF := by decide
theorem bom_punct : ∀ c ∈ punctChars, c.toNat ≠ 0xFEFF := by decide
theorem bom_break : ∀ c ∈ breakChars, c.toNat ≠ 0xFEFF := by decide

/-- How the written text begins. -/
structure StartOk (s : Text) : Prop where
  comment : NoComment s
  bom : ∀ c, s.head? = some c → c.toNat ≠ 0xFEFF

theorem startOk_brk {k : Text} (hk : Brk k) : StartOk k :=
  ⟨slash_head (brk_head hk (by decide)), fun c hc => bom_break c (hk c hc)⟩

theorem startOk_cons {c : Char} (h1 : c ≠ '/') (h2 : c.toNat ≠ 0xFEFF) (s : Text) : StartOk (c :: s) :=
  ⟨slash_head (by simpa using h1), fun d hd => by simp at hd; rw [← hd]; exact h2⟩

theorem follows_head {ind : Option Text} {L : Nat} {c : Char} {t : TT} (h : Follows c t) (ts : List TT) (hc : c ≠ '\'') (k : Text) :
    ∃ c' s, loopText ind L .joint (t :: ts) ++ k = c' :: s ∧ ¬ (c = '/' ∧ (c' = '/' ∨ c' = '*')) ∧ ((∃ spc sp, t = .punct c' spc sp) ∨ c' = '\'') := by
  cases h with
  | @punct _ c' spc sp _ h2 =>
    cases spc with
    | alone => rw [loop_punct_alone]; exact ⟨c', _, rfl, h2, .inl ⟨_, _, rfl⟩⟩
    | joint => rw [loop_punct_joint]; exact ⟨c', _, rfl, h2, .inl ⟨_, _, rfl⟩⟩
  | @char _ r sp _ hr =>
    rw [loop_lit]
    cases r with
    | nil => cases hr
    | cons d r =>
      simp at hr
      subst hr
      exact ⟨'\'', _, rfl, by simp, .inr rfl⟩
  | lifetime => exact absurd rfl hc
  | strange _ => exact absurd rfl hc

theorem startOk_loop {ind : Option Text} (hi : WhiteIndent ind) {ts : List TT} (h : Writable ts) : ∀ (L : Nat) {k : Text}, Brk k →
    StartOk (loopText ind L .joint ts ++ k) := by
  induction h with
  | nil => intro L k hk; exact startOk_brk hk
  | @ident x sp ts hx _ _ =>
    intro L k hk
    obtain ⟨c, cs, rfl, hc⟩ := identText_start hx
    rw [loop_ident]
    refine startOk_cons (by rintro rfl; revert hc; decide) ?_ _
    intro e
    simp [identStart, e] at hc
    have : c = Char.ofNat 0xFEFF := by rw [← e, Char.ofNat_toNat]
    rw [this] at hc
    revert hc
    decide
  | @lit r sp ts hr _ _ =>
    intro L k hk
    rw [loop_lit]
    rcases hr with hr | rfl
    · obtain ⟨c, cs, rfl, hc⟩ := litText_start hr
      refine startOk_cons (start_facts hc).2.1 ?_ _
      rcases hc with hc | hc
      · exact bom_list c (by simp at hc; rcases hc with rfl | rfl | rfl | rfl | rfl <;> decide)
      · rw [isDigit_iff, char_le_iff, char_le_iff] at hc; have := hc.2; simp at this; omega
    · exact startOk_cons (c := '(') (by decide) (by decide) _
  | @alone c sp ts hc hq _ _ =>
    intro L k hk
    rw [loop_punct_alone, List.cons_append]
    refine ⟨(lexLeaf_alone hc hq (brk_sep hi L c ts hk)).2.comment, ?_⟩
    intro d hd
    simp at hd
    subst hd
    exact bom_punct c hc
  | @joint c sp t ts hc hf _ ih =>
    intro L k hk
    rw [loop_punct_joint, List.cons_append]
    refine ⟨?_, fun d hd => by simp at hd; subst hd; exact bom_punct c hc⟩
    by_cases hq : c = '\''
    · exact slash_head (by rw [hq]; simp)
    · obtain ⟨c', s, he, hn, _⟩ := follows_head (ind := ind) (L := L) hf ts hq k
      rw [he]
      exact noComment_cons (by simpa using hn)
  | @group d inner sp ts _ _ ih1 ih2 =>
    intro L k hk
    by_cases hd : d = .none
    · subst hd
      rw [loop_none, List.append_assoc, List.append_assoc]
      have := ih1 L (brk_alone ind L ts hk)
      cases hw : indentText ind L with
      | nil => exact this
      | cons c w =>
        have hc := indent_white hi L c (by rw [hw]; exact List.mem_cons_self)
        exact startOk_brk (brk_cons (white_break hc) _)
    · rw [loop_group ind L d hd]
      have : openChar d ≠ '/' ∧ (openChar d).toNat ≠ 0xFEFF := by cases d <;> first | exact absurd rfl hd | decide
      exact startOk_cons this.1 this.2 _

theorem dissolve_group {d : Delim} (hd : d ≠ .none) (inner : List TT) (sp : Span) (ts : List TT) :
    dissolve (.group d inner sp :: ts) = .group d (dissolve inner) sp :: dissolve ts := by
  cases d <;> first | exact absurd rfl hd | simp [dissolve, dissolveT]

end Parsel
