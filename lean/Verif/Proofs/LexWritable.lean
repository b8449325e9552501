import Verif.Proofs.ReadStream
import Verif.Proofs.LitText
import Verif.Proofs.Reads

/-! Everything the lexer produces has a textual form. -/

namespace Parsel

open Spec

theorem Writable.append {a b : List TT} (ha : Writable a) (hb : Writable b) : Writable (a ++ b) := by
  induction ha with
  | nil => exact hb
  | ident h _ ih => exact .ident h ih
  | lit h _ ih => exact .lit h ih
  | alone h h' _ ih => exact .alone h h' ih
  | joint h h' _ ih => exact .joint h h' ih
  | group h _ _ ih => exact .group h ih

/-- The stream goes on well with the token `t`. -/
def GoesOn (ts : List TT) (t : TT) : Prop := ∀ rest, Writable (t :: rest) → Writable (ts ++ t :: rest)

theorem goesOn_of {ts : List TT} (h : Writable ts) (t : TT) : GoesOn ts t := fun _ hr => Writable.append h hr

/-- What the input looks like after a punctuation character that is joined to it. -/
inductive Joins : Char → Text → Prop
  | punct {c c' s} : c ≠ '\'' → ¬ (c = '/' ∧ (c' = '/' ∨ c' = '*')) → NoComment (c' :: s) → c' ∈ punctChars → Joins c (c' :: s)
  | quote {s i rest} : lexIdentAny s = some (i, rest) → rest.head? ≠ some '\'' → (rest.head? = some '#' → startsWith "r#".toList s = true) → Joins '\'' s

theorem head_not {a : Char} {s : Text} (h : startsWith [a] s = false) : s.head? ≠ some a := by
  intro hs
  cases s with
  | nil => simp at hs
  | cons b s =>
    simp at hs
    subst hs
    have : startsWith [b] (b :: s) = true := startsWith_iff.mpr ⟨s, rfl⟩
    rw [this] at h
    cases h

theorem head_is {a : Char} {s : Text} (h : s.head? = some a) : startsWith [a] s = true := by
  cases s with
  | nil => simp at h
  | cons b s => simp at h; subst h; exact startsWith_iff.mpr ⟨s, rfl⟩

theorem lexPunct_joint {s rest : Text} {c : Char} (h : lexPunct s = some (c, .joint, rest)) : s = c :: rest ∧ c ∈ punctChars ∧ Joins c rest := by
  have hp := lexPunct_eq h
  obtain ⟨h1, h2, h3, h4⟩ := punctChar_eq hp
  simp only at h1 h2
  refine ⟨h1, h2, ?_⟩
  rw [lexPunct, hp] at h
  simp only [Option.bind_some] at h
  split at h
  · rename_i hc
    subst hc
    cases hi : lexIdentAny rest with
    | none => rw [hi] at h; cases h
    | some i =>
      rw [hi] at h
      simp only [Option.bind_some] at h
      split at h
      · cases h
      · rename_i hn
        simp only [Bool.or_eq_true, not_or, Bool.not_eq_true, Bool.and_eq_true, Bool.not_eq_eq_eq_not, Bool.not_true, not_and, Bool.not_eq_false] at hn
        exact .quote (i := i.1) (rest := i.2) hi (head_not hn.1) (fun hh => hn.2 (head_is hh))
  · rename_i hc
    simp only [Option.some.injEq, Prod.mk.injEq, true_and, and_true] at h
    cases hr : punctChar rest with
    | none => rw [hr] at h; cases h
    | some q =>
      obtain ⟨k1, k2, k3, k4⟩ := punctChar_eq hr
      rw [k1]
      refine .punct hc ?_ ⟨?_, ?_⟩ k2
      · rintro ⟨rfl, hx | hx⟩
        · rw [h1, k1, hx] at h3; revert h3; simp [startsWith, stripPrefix]
        · rw [h1, k1, hx] at h4; revert h4; simp [startsWith, stripPrefix]
      · rw [← k1]; exact k3
      · rw [← k1]; exact k4

theorem lexPunct_alone {s rest : Text} {c : Char} (h : lexPunct s = some (c, .alone, rest)) : s = c :: rest ∧ c ∈ punctChars ∧ c ≠ '\'' := by
  have hp := lexPunct_eq h
  obtain ⟨h1, h2, h3, h4⟩ := punctChar_eq hp
  simp only at h1 h2
  refine ⟨h1, h2, ?_⟩
  rw [lexPunct, hp] at h
  simp only [Option.bind_some] at h
  split at h
  · cases hi : lexIdentAny rest with
    | none => rw [hi] at h; cases h
    | some i =>
      rw [hi] at h
      simp only [Option.bind_some] at h
      split at h <;> cases h
  · assumption

theorem lexIdentAny_start {s i rest : Text} (h : lexIdentAny s = some (i, rest)) : ∃ c cs, s = c :: cs ∧ identStart c = true := by
  obtain ⟨h1, h2, _⟩ := lexIdentAny_cut h
  obtain ⟨c, cs, e, hc⟩ := identText_start h2
  simp only at h1 e
  rw [e] at h1
  exact ⟨c, cs ++ rest, h1, hc⟩

theorem rawOpen_shape {n : Nat} {s : Text} {r : Nat × Text} (h : rawOpen n s = some r) : (∃ cs, s = '"' :: cs) ∨ ∃ cs, s = '#' :: cs := by
  cases s with
  | nil => cases h
  | cons c cs =>
    rw [rawOpen] at h
    split at h
    · rename_i hc; subst hc; exact .inl ⟨cs, rfl⟩
    · split at h
      · rename_i hc; subst hc; exact .inr ⟨cs, rfl⟩
      · cases h

theorem lexRaw_shape {k : StrKind} {s r : Text} (h : lexRaw k s = some r) : (∃ cs, s = '"' :: cs) ∨ ∃ cs, s = '#' :: cs := by
  unfold lexRaw at h
  cases ho : rawOpen 0 s with
  | none => rw [ho] at h; cases h
  | some q => exact rawOpen_shape ho

theorem rawPound {k : StrKind} {cs r : Text} (h : lexRaw k ('#' :: cs) = some r) : (∃ q, cs = '"' :: q) ∨ ∃ q, cs = '#' :: q := by
  unfold lexRaw at h
  rw [rawOpen] at h
  simp only [show ('#' = '"') = False by decide, if_false, if_true] at h
  cases ho : rawOpen (0 + 1) cs with
  | none => rw [ho] at h; cases h
  | some q => exact rawOpen_shape ho

/-- A literal whose beginning would also be a word. -/
theorem literal_after_quote {r x i rest : Text} (h : lexLiteral r = some []) (hi : lexIdentAny (r ++ x) = some (i, rest)) (hq : rest.head? ≠ some '\'')
    (hp : rest.head? = some '#' → startsWith "r#".toList (r ++ x) = true) : ∃ i rest', lexIdentAny r = some (i, '"' :: rest') := by
  rw [lexLiteral.eq_def] at h
  split at h
  · obtain ⟨c, cs, e, hc⟩ := lexIdentAny_start hi
    cases e
    exact absurd hc (by decide)
  · rcases lexRaw_shape h with ⟨q, rfl⟩ | ⟨q, rfl⟩
    · exact ⟨"r".toList, q, rfl⟩
    · rcases rawPound h with ⟨q, rfl⟩ | ⟨q, rfl⟩
      · exact absurd (hi.symm.trans (show lexIdentAny ('r' :: '#' :: '"' :: (q ++ x)) = none from rfl)) (by simp)
      · exact absurd (hi.symm.trans (show lexIdentAny ('r' :: '#' :: '#' :: (q ++ x)) = none from rfl)) (by simp)
  · exact ⟨"b".toList, _, rfl⟩
  · rename_i cs
    rcases lexRaw_shape h with ⟨q, rfl⟩ | ⟨q, rfl⟩
    · exact ⟨"br".toList, q, rfl⟩
    · have := hi.symm.trans (show lexIdentAny ('b' :: 'r' :: '#' :: (q ++ x)) = some ("br".toList, '#' :: (q ++ x)) from rfl)
      cases this
      exact absurd (hp rfl) (by simp [startsWith, stripPrefix])
  · rename_i cs
    have := hi.symm.trans (show lexIdentAny ('b' :: '\'' :: (cs ++ x)) = some ("b".toList, '\'' :: (cs ++ x)) from rfl)
    cases this
    exact absurd rfl hq
  · exact ⟨"c".toList, _, rfl⟩
  · rename_i cs
    rcases lexRaw_shape h with ⟨q, rfl⟩ | ⟨q, rfl⟩
    · exact ⟨"cr".toList, q, rfl⟩
    · have := hi.symm.trans (show lexIdentAny ('c' :: 'r' :: '#' :: (q ++ x)) = some ("cr".toList, '#' :: (q ++ x)) from rfl)
      cases this
      exact absurd (hp rfl) (by simp [startsWith, stripPrefix])
  · obtain ⟨c, cs, e, hc⟩ := lexIdentAny_start hi
    cases e
    exact absurd hc (by decide)
  · obtain ⟨d, ds, e, hd⟩ := number_head h
    obtain ⟨c, cs, e', hc⟩ := lexIdentAny_start hi
    rw [e] at e'
    cases e'
    have := (identStart_facts hc).2.2.1
    rw [hd] at this
    cases this

theorem error_head {r : Text} (h : r = errorText) {x : Text} : (r ++ x).head? = some '(' := by subst h; rfl

/-- A token that follows a joined punctuation character in the text may follow it in the stream. -/
theorem joins_follows {c : Char} {s rest : Text} {l : LexLeaf} (h : Joins c s) (hl : lexLeaf s = some (l, rest)) (sp : Span) : Follows c (l.tree sp) := by
  obtain ⟨h1, h2, h3⟩ := lexLeaf_cut hl
  cases h with
  | @punct _ c' s hc hcc hn hp =>
    cases l with
    | lit r =>
      refine .char hc ?_
      simp only [LexLeaf.text] at h1
      simp only at h3
      rcases h3 with h3 | h3
      · obtain ⟨d, ds, e, hd⟩ := litText_start h3
        rw [e] at h1
        cases h1
        rw [e]
        have hf := punct_facts hp
        rcases hd with hd | hd
        · have : ∀ d ∈ "\"rbc'".toList, d ∈ punctChars → d = '\'' := by decide
          simp [this _ hd hp]
        · rw [hf.2.1] at hd; cases hd
      · have := error_head h3 (x := rest)
        rw [← h1] at this
        simp at this
        subst this
        exact absurd hp (by decide)
    | punct d spc =>
      refine .punct hc ?_
      simp only [LexLeaf.text] at h1
      cases h1
      exact hcc
    | ident x =>
      simp only at h3
      simp only [LexLeaf.text] at h1
      obtain ⟨d, ds, e, hd⟩ := identText_start h3
      rw [e] at h1
      cases h1
      exact absurd hp (identStart_facts hd).2.1
  | @quote _ i rest' hi hq hp =>
    cases l with
    | lit r =>
      simp only [LexLeaf.text] at h1
      simp only at h3
      rcases h3 with h3 | h3
      · rw [h1] at hi hp
        obtain ⟨i', q, e⟩ := literal_after_quote h3 hi hq hp
        exact .strange e
      · obtain ⟨d, ds, e, hd⟩ := lexIdentAny_start hi
        have := error_head h3 (x := rest)
        rw [← h1, e] at this
        simp at this
        subst this
        exact absurd hd (by decide)
    | punct d spc =>
      obtain ⟨d', ds, e, hd⟩ := lexIdentAny_start hi
      simp only [LexLeaf.text] at h1
      rw [e] at h1
      cases h1
      obtain ⟨_, hm, _⟩ := punctChar_eq (lexPunct_eq h3.2)
      exact absurd hm (identStart_facts hd).2.1
    | ident x => exact .lifetime

theorem joins_start {c : Char} {s : Text} (h : Joins c s) : TokStart s ∧ ∃ d ds, s = d :: ds ∧ openDelim d = none ∧ closeDelim d = none := by
  cases h with
  | punct hc hcc hn hp =>
    have hf := punct_facts hp
    exact ⟨⟨fun d hd => by simp at hd; subst hd; exact not_white hf.1, hn⟩, _, _, rfl, hf.2.2.1, hf.2.2.2.1⟩
  | quote hi =>
    obtain ⟨d, ds, e, hd⟩ := lexIdentAny_start hi
    have hf := identStart_facts hd
    have h1 : d ≠ '/' := fun h => hf.2.2.2 (h ▸ (by decide))
    have h2 := noDelim (c := d) (fun hh => hf.2.2.2 (by
      have : ∀ d ∈ "([{)]}".toList, d ∈ "\"'([{)]}/\\#".toList := by decide
      exact this d hh))
    rw [e]
    exact ⟨tokStart_cons (not_white hf.1) h1, d, ds, rfl, h2.1, h2.2⟩

/-- No invisible groups at any level. -/
def Solid (ts : List TT) : Prop := dissolve ts = ts

theorem Solid.append {a b : List TT} (ha : Solid a) (hb : Solid b) : Solid (a ++ b) := by
  unfold Solid at *
  rw [dissolve_append, ha, hb]

theorem solid_group {d : Delim} (hd : d ≠ .none) {inner : List TT} (h : Solid inner) (sp : Span) : Solid [.group d inner sp] := by
  unfold Solid at *
  rw [dissolve_group hd, h]
  rfl

theorem solid_leaf (l : LexLeaf) (sp : Span) : Solid [l.tree sp] := by cases l <;> rfl

/-- The invariant of the lexer. -/
structure LexInv (st : LexState) : Prop where
  solid : Solid st.tokens
  stack : ∀ e ∈ st.stack, Writable e.2.2 ∧ Solid e.2.2 ∧ e.2.1 ≠ .none
  tokens : Writable st.tokens ∨ ∃ c, Joins c st.input ∧ ∀ t, Follows c t → GoesOn st.tokens t

variable [Ext]

theorem docTokens_writable (text : Text) (inner : Bool) (sp : Span) : Writable (docTokens text inner sp) := by
  have hg : Writable [TT.group .bracket [.ident "doc".toList sp, .punct '=' .alone sp, .lit (stringLiteral text) sp] sp] :=
    .group (.ident (show lexIdentAny _ = _ by decide) (.alone (by decide) (by decide) (.lit (litText_string text) .nil))) .nil
  unfold docTokens
  refine .alone (by decide) (by decide) ?_
  cases inner with
  | true => exact .alone (by decide) (by decide) hg
  | false => exact hg

theorem docTokens_solid (text : Text) (inner : Bool) (sp : Span) : Solid (docTokens text inner sp) := by
  cases inner <;> rfl

omit [Ext] in
theorem goesOn_leaf {st : LexState} (h : LexInv st) {l : LexLeaf} {rest : Text} (hs : lexLeaf (skipWhite st.input) = some (l, rest)) (sp : Span) :
    GoesOn st.tokens (l.tree sp) := by
  rcases h.tokens with hw | ⟨c, hj, hg⟩
  · exact goesOn_of hw _
  · obtain ⟨h1, _⟩ := joins_start hj
    rw [tokStart_skip h1] at hs
    exact hg _ (joins_follows hj hs sp)

omit [Ext] in
theorem inv_leaf {st : LexState} (h : LexInv st) {l : LexLeaf} {rest : Text} (hs : lexLeaf (skipWhite st.input) = some (l, rest)) (sp : Span) :
    LexInv ⟨rest, st.tokens ++ [l.tree sp], st.stack⟩ := by
  have hg := goesOn_leaf h hs sp
  refine ⟨h.solid.append (solid_leaf l sp), h.stack, ?_⟩
  obtain ⟨_, _, h3⟩ := lexLeaf_cut hs
  cases l with
  | lit r => exact .inl (hg [] (.lit h3 .nil))
  | ident x => exact .inl (hg [] (.ident h3 .nil))
  | punct c spc =>
    obtain ⟨_, h4⟩ := h3
    cases spc with
    | alone =>
      obtain ⟨_, h5, h6⟩ := lexPunct_alone h4
      exact .inl (hg [] (.alone h5 h6 .nil))
    | joint =>
      obtain ⟨_, h5, h6⟩ := lexPunct_joint h4
      refine .inr ⟨c, h6, fun t ht rest hr => ?_⟩
      rw [List.append_assoc]
      exact hg (t :: rest) (.joint h5 ht hr)

theorem lexInv_round {src : Text} {st st' : LexState} (h : LexInv st) (hr : lexRound src st = .inl st') : LexInv st' := by
  -- nothing but a leaf can come after a joined punctuation character
  have settled : (¬ ∃ l rest, lexLeaf (skipWhite st.input) = some (l, rest) ∧ ∃ sp, st' = ⟨rest, st.tokens ++ [l.tree sp], st.stack⟩) → Writable st.tokens := by
    intro hn
    rcases h.tokens with hw | ⟨c, hj, hg⟩
    · exact hw
    · exfalso
      obtain ⟨h1, d, ds, e, hd, hd'⟩ := joins_start hj
      unfold lexRound at hr
      simp only [tokStart_skip h1, tokStart_doc h1, Option.filter_none] at hr
      rw [tokStart_skip h1] at hn
      rw [e] at hr hn
      simp only [hd, hd', ite_self] at hr
      cases hl : lexLeaf (d :: ds) with
      | none => rw [hl] at hr; cases hr
      | some q => rw [hl] at hr; cases hr; exact hn ⟨_, _, hl, _, rfl⟩
  by_cases hn : ∃ l rest, lexLeaf (skipWhite st.input) = some (l, rest) ∧ ∃ sp, st' = ⟨rest, st.tokens ++ [l.tree sp], st.stack⟩
  · obtain ⟨l, rest, hl, sp, rfl⟩ := hn
    exact inv_leaf h hl sp
  · have hw := settled hn
    unfold lexRound at hr
    simp only at hr
    split at hr
    · cases hr
      exact ⟨h.solid.append (docTokens_solid _ _ _), h.stack, .inl (Writable.append hw (docTokens_writable _ _ _))⟩
    · split at hr
      · split at hr <;> cases hr
      · rename_i c cs hc
        split at hr
        · rename_i d hd
          cases hr
          refine ⟨rfl, fun e he => ?_, .inl .nil⟩
          rcases List.mem_cons.mp he with rfl | he
          · refine ⟨hw, h.solid, ?_⟩
            have : openDelim c = some d := by
              split at hd
              · cases hd
              · exact hd
            unfold openDelim at this
            repeat (split at this; · cases this; simp)
            cases this
          · exact h.stack e he
        · split at hr
          · rename_i d hd
            split at hr
            · cases hr
            · rename_i lo d' outer stack hst
              split at hr
              · rename_i hdd
                subst hdd
                cases hr
                obtain ⟨k1, k2, k3⟩ := h.stack _ (hst ▸ List.mem_cons_self)
                exact ⟨k2.append (solid_group k3 h.solid _), fun e he => h.stack e (hst ▸ List.mem_cons_of_mem _ he),
                  .inl (Writable.append k1 (.group hw .nil))⟩
              · cases hr
          · split at hr
            · rename_i l rest hl
              cases hr
              exact inv_leaf h hl _
            · cases hr

omit [Ext] in
theorem joins_nil {c : Char} : ¬ Joins c [] := fun h => by
  obtain ⟨_, d, ds, e, _⟩ := joins_start h
  cases e

theorem lexLoop_writable (src : Text) : ∀ (n : Nat) (st : LexState) {ts : List TT}, LexInv st → lexLoop src n st = .ok ts → Writable ts ∧ Solid ts
  | 0, _, _, _, h => by cases h
  | n + 1, st, ts, hi, h => by
    rw [lexLoop] at h
    cases hr : lexRound src st with
    | inl st' => rw [hr] at h; exact lexLoop_writable src n st' (lexInv_round hi hr) h
    | inr r =>
      rw [hr] at h
      simp only at h
      subst h
      rcases hi.tokens with hw | ⟨c, hj, hg⟩
      · unfold lexRound at hr
        simp only at hr
        repeat' split at hr
        all_goals try cases hr
        exact ⟨hw, hi.solid⟩
      · exfalso
        obtain ⟨h1, d, ds, e, hd, hd'⟩ := joins_start hj
        unfold lexRound at hr
        simp only [tokStart_skip h1, tokStart_doc h1, Option.filter_none] at hr
        rw [e] at hr
        simp only [hd, hd', ite_self] at hr
        cases hl : lexLeaf (d :: ds) with
        | none => rw [hl] at hr; cases hr
        | some q => rw [hl] at hr; cases hr

/-- Whatever text was read, its tokens have a textual form and no invisible groups. -/
theorem lex_writable {src : Text} {ts : List TT} (h : lex src = some ts) : Writable ts ∧ dissolve ts = ts := by
  have start : ∀ s : Text, LexInv ⟨s, [], []⟩ := fun s => ⟨rfl, by simp, .inl .nil⟩
  have text : ∀ s s' : Text, lexText s s' = .ok ts → Writable ts ∧ dissolve ts = ts := fun s s' hs => lexLoop_writable s _ _ (start s') hs
  rw [lex_some] at h
  unfold lexAll at h
  split at h
  · split at h
    · exact text _ _ h
    · exact text _ _ h
  · exact text _ _ h

end Parsel
