import Verif.Proofs.LexPos
import Verif.Proofs.LayoutAt
import Verif.Spec.Fault

/-! Where the lexer gives up. -/

namespace Parsel
open Spec

theorem skipWhiteN_fix : ∀ (n : Nat) (s : Text), s.length ≤ n → ∀ m, skipWhiteN m (skipWhiteN n s) = skipWhiteN n s
  | 0, s, hs, m => by
    have : s = [] := by simpa using hs
    subst this
    cases m with
    | zero => rfl
    | succ m => rfl
  | n + 1, s, hs, m => by
    by_cases h1 : (startsWith "//".toList s && (!startsWith "///".toList s || startsWith "////".toList s) && !startsWith "//!".toList s) = true
    · have e : skipWhiteN (n + 1) s = skipWhiteN n (takeLine s).2 := by rw [skipWhiteN.eq_def]; simp only [if_pos h1]
      rw [e]
      have : startsWith "//".toList s = true := by
        simp only [Bool.and_eq_true] at h1; exact h1.1.1
      have := takeLine_slash this
      exact skipWhiteN_fix n _ (by omega) m
    by_cases h2 : startsWith "/**/".toList s = true
    · have e : skipWhiteN (n + 1) s = skipWhiteN n (s.drop 4) := by rw [skipWhiteN.eq_def]; simp only [if_neg h1, if_pos h2]
      rw [e]
      exact skipWhiteN_fix n _ (by have := startsWith_len h2; simp at this ⊢; omega) m
    by_cases h3 : (startsWith "/*".toList s && (!startsWith "/**".toList s || startsWith "/***".toList s) && !startsWith "/*!".toList s) = true
    · cases hb : blockComment s with
      | none =>
        have e : ∀ k, skipWhiteN k s = s := by
          intro k
          cases k with
          | zero => rfl
          | succ k => rw [skipWhiteN.eq_def]; simp only [if_neg h1, if_neg h2, if_pos h3, hb]
        rw [e, e]
      | some r =>
        have e : skipWhiteN (n + 1) s = skipWhiteN n r.2 := by rw [skipWhiteN.eq_def]; simp only [if_neg h1, if_neg h2, if_pos h3, hb]
        rw [e]
        exact skipWhiteN_fix n _ (by have := blockComment_le hb; omega) m
    · cases s with
      | nil =>
        have : ∀ k, skipWhiteN k [] = [] := fun k => by cases k <;> rfl
        rw [this, this]
      | cons c cs =>
        by_cases h4 : lexWhite c = true
        · have e : skipWhiteN (n + 1) (c :: cs) = skipWhiteN n cs := by
            rw [skipWhiteN.eq_def]
            simp only [if_neg h1, if_neg h2, if_neg h3, h4, if_true]
          rw [e]
          exact skipWhiteN_fix n _ (by simp at hs; omega) m
        · have e : ∀ k, skipWhiteN k (c :: cs) = c :: cs := by
            intro k
            cases k with
            | zero => rfl
            | succ k =>
              rw [skipWhiteN.eq_def]
              simp only [if_neg h1, if_neg h2, if_neg h3, h4, Bool.false_eq_true, if_false]
          rw [e, e]

theorem skipWhite_fix (s : Text) : skipWhite (skipWhite s) = skipWhite s := skipWhiteN_fix _ _ (Nat.le_refl _) _

section
variable [Ext]

/-- The kinds of the open delimiters. -/
def kinds (stk : List (LineCol × Delim × List TT)) : List Delim := stk.map (·.2.1)

/-- Read elsewhere, in the same way: the same input, the same delimiters open (from some level on). -/
structure Elsewhere (st st2 : LexState) (below : List Delim) : Prop where
  input : st2.input = st.input
  stack : kinds st.stack = kinds st2.stack ++ below

theorem lexRound_elsewhere {src src2 : Text} {st st' st2 : LexState} {below : List Delim} (h : lexRound src st = .inl st') (he : Elsewhere st st2 below)
    (hb : below.length ≤ st'.stack.length) : ∃ st2', lexRound src2 st2 = .inl st2' ∧ Elsewhere st' st2' below := by
  obtain ⟨i, acc, stk⟩ := st
  obtain ⟨i2, acc2, stk2⟩ := st2
  obtain ⟨h1, h2⟩ := he
  simp only at h1 h2
  subst h1
  unfold lexRound at h ⊢
  simp only at h ⊢
  generalize skipWhite i2 = w at h ⊢
  split at h
  · rename_i hd
    cases h
    exact ⟨_, rfl, rfl, h2⟩
  · rename_i hd
    cases w with
    | nil => cases stk <;> cases h
    | cons c cs =>
      simp only at h ⊢
      split at h
      · rename_i d ho
        cases h
        try simp only [ho]
        exact ⟨_, rfl, rfl, by simp only [kinds, List.map_cons, List.cons_append]; exact congrArg _ h2⟩
      · rename_i ho
        try simp only [ho]
        split at h
        · rename_i d hc
          try simp only [hc]
          split at h
          · cases h
          · rename_i lo d' outer stack
            split at h
            · rename_i hdd
              cases h
              subst hdd
              simp only at hb
              cases stk2 with
              | nil =>
                have := congrArg List.length h2
                simp [kinds] at this
                omega
              | cons f stk2 =>
                obtain ⟨lo2, d2, outer2⟩ := f
                simp only [kinds, List.map_cons, List.cons_append, List.cons.injEq] at h2
                obtain ⟨e, h2⟩ := h2
                simp only [← e, if_true]
                exact ⟨_, rfl, rfl, h2⟩
            · cases h
        · rename_i hc
          try simp only [hc]
          split at h
          · rename_i l rest hl
            cases h
            try simp only [hl]
            exact ⟨_, rfl, rfl, h2⟩
          · cases h

/-- Every open delimiter is where the stack says, and what follows it is read by itself just as it is read there. -/
def Frames (src : Text) (st : LexState) : Prop := ∀ above lo d outer below, st.stack = above ++ (lo, d, outer) :: below →
  ∃ q o c body, src = q ++ o :: body ∧ lo = posAfter q ∧ Delims d o c ∧
    ∃ st2, lexFrom (' ' :: body) ⟨body, [], []⟩ = lexFrom (' ' :: body) st2 ∧ Elsewhere st st2 (d :: kinds below)

theorem frames_keep {src : Text} {st st' : LexState} (h : lexRound src st = .inl st') {q : Text} {o c : Char} {body : Text} {lo : LineCol} {d : Delim} {below : List Delim}
    (hf : src = q ++ o :: body ∧ lo = posAfter q ∧ Delims d o c ∧
      ∃ st2, lexFrom (' ' :: body) ⟨body, [], []⟩ = lexFrom (' ' :: body) st2 ∧ Elsewhere st st2 (d :: below)) (hb : below.length < st'.stack.length) :
    src = q ++ o :: body ∧ lo = posAfter q ∧ Delims d o c ∧
      ∃ st2, lexFrom (' ' :: body) ⟨body, [], []⟩ = lexFrom (' ' :: body) st2 ∧ Elsewhere st' st2 (d :: below) := by
  obtain ⟨h1, h2, h3, st2, h4, h5⟩ := hf
  obtain ⟨st2', h6, h7⟩ := lexRound_elsewhere (src2 := ' ' :: body) h h5 (by simpa using Nat.succ_le_of_lt hb)
  exact ⟨h1, h2, h3, st2', h4.trans (lexFrom_step h6), h7⟩

theorem frames_step {src : Text} {st st' : LexState} {pre : Text} (hs : src = pre ++ st.input) (hf : Frames src st) (h : lexRound src st = .inl st') : Frames src st' := by
  intro above lo d outer below hst
  have hlen : below.length < st'.stack.length := by rw [hst]; simp; omega
  have hk : (kinds below).length < st'.stack.length := by simpa [kinds] using hlen
  -- how the stack changes
  have shape : st'.stack = st.stack ∨ (∃ f, st.stack = f :: st'.stack) ∨
      ∃ d c e cs, st' = ⟨cs, [], (posOf src (skipWhite st.input), d, st.tokens) :: st.stack⟩ ∧ skipWhite st.input = c :: cs ∧ Delims d c e := by
    unfold lexRound at h
    simp only at h
    split at h
    · cases h; exact .inl rfl
    · split at h
      · split at h <;> cases h
      · rename_i c cs hi
        split at h
        · rename_i d ho
          cases h
          have ho : openDelim c = some d := by
            split at ho
            · cases ho
            · exact ho
          obtain ⟨e, hde⟩ := openDelim_eq ho
          exact .inr (.inr ⟨d, c, e, cs, rfl, hi, hde⟩)
        · split at h
          · split at h
            · cases h
            · rename_i hstk
              split at h
              · cases h; exact .inr (.inl ⟨_, hstk⟩)
              · cases h
          · split at h
            · cases h; exact .inl rfl
            · cases h
  rcases shape with e | ⟨f, e⟩ | ⟨d', c', e', cs, rfl, hi, hde⟩
  · obtain ⟨q, o, c, body, hq⟩ := hf above lo d outer below (by rw [← e]; exact hst)
    exact ⟨q, o, c, body, frames_keep h hq hk⟩
  · obtain ⟨q, o, c, body, hq⟩ := hf (f :: above) lo d outer below (by rw [e, hst]; rfl)
    exact ⟨q, o, c, body, frames_keep h hq hk⟩
  · cases above with
    | nil =>
      simp only [List.nil_append, List.cons.injEq, Prod.mk.injEq] at hst
      obtain ⟨⟨rfl, rfl, rfl⟩, rfl⟩ := hst
      obtain ⟨g, hg, _⟩ := skipWhite_cut st.input
      have hsrc : src = (pre ++ g) ++ c' :: cs := by rw [hs]; rw [← hi, List.append_assoc, ← hg]
      exact ⟨pre ++ g, c', e', cs, hsrc, by rw [hi]; exact posOf_eq hsrc, hde, ⟨cs, [], []⟩, rfl, rfl, rfl⟩
    | cons f above =>
      simp only [List.cons_append, List.cons.injEq] at hst
      obtain ⟨q, o, c, body, hq⟩ := hf above lo d outer below hst.2
      exact ⟨q, o, c, body, frames_keep h hq hk⟩

theorem lexAll_space (s : Text) : lexAll (' ' :: s) = lexFrom (' ' :: s) ⟨s, [], []⟩ := by
  rw [lexAll_plain (by intro c hc; simp at hc; subst hc; decide)]
  exact lexFrom_white (w := [' ']) (by decide) s [] []

theorem closeDelim_ex {c : Char} {d : Delim} (h : closeDelim c = some d) : ∃ o, Delims d o c := by
  unfold closeDelim at h
  split at h
  · rename_i e; subst e; cases h; exact ⟨_, .paren⟩
  · split at h
    · rename_i e; subst e; cases h; exact ⟨_, .bracket⟩
    · split at h
      · rename_i e; subst e; cases h; exact ⟨_, .brace⟩
      · cases h

theorem lexLoop_wrong {src : Text} : ∀ (n : Nat) (st : LexState) {pre : Text} {p : LineCol}, st.input.length < n → src = pre ++ st.input → Frames src st →
    lexLoop src n st = .error p → ∃ q rest, src = q ++ rest ∧ p = posAfter q ∧ WrongHere rest
  | 0, _, _, _, hn, _, _, _ => by omega
  | n + 1, st, pre, p, hn, hs, hf, h => by
    rw [lexLoop] at h
    cases hr : lexRound src st with
    | inl st' =>
      rw [hr] at h
      simp only at h
      have hlt := lexRound_le hr
      have : ∃ pre', src = pre' ++ st'.input := by
        have hi : LexPosInv true [] src ⟨st.input, [], []⟩ → True := fun _ => trivial
        clear hi
        unfold lexRound at hr
        simp only at hr
        obtain ⟨g, hg, _⟩ := skipWhite_cut st.input
        have hsrc : src = (pre ++ g) ++ skipWhite st.input := by rw [hs, List.append_assoc, ← hg]
        split at hr
        · rename_i text inner rest hd
          cases hr
          obtain ⟨x, hx, _⟩ := docComment_cut (Option.eq_some_of_filter_eq_some hd)
          exact ⟨pre ++ g ++ x, by rw [hsrc, hx]; simp⟩
        · split at hr
          · split at hr <;> cases hr
          · rename_i c cs hi
            have hcs : src = (pre ++ g ++ [c]) ++ cs := by rw [hsrc, hi]; simp
            split at hr
            · cases hr; exact ⟨_, hcs⟩
            · split at hr
              · split at hr
                · cases hr
                · split at hr
                  · cases hr; exact ⟨_, hcs⟩
                  · cases hr
              · split at hr
                · rename_i l rest hl
                  cases hr
                  obtain ⟨h1, _⟩ := lexLeaf_cut hl
                  exact ⟨pre ++ g ++ l.text, by rw [hsrc, h1]; simp⟩
                · cases hr
      obtain ⟨pre', hs'⟩ := this
      exact lexLoop_wrong n st' (by omega) hs' (frames_step hs hf hr) h
    | inr r =>
      rw [hr] at h
      simp only at h
      subst h
      obtain ⟨g, hg, _⟩ := skipWhite_cut st.input
      have hsrc : src = (pre ++ g) ++ skipWhite st.input := by rw [hs, List.append_assoc, ← hg]
      have hfix := skipWhite_fix st.input
      unfold lexRound at hr
      simp only at hr
      split at hr
      · cases hr
      · rename_i hd
        split at hr
        · rename_i hi
          split at hr
          · cases hr
          · rename_i lo d outer below hst
            cases hr
            obtain ⟨q, o, c, body, h1, h2, h3, st2, h4, h5⟩ := hf [] _ _ _ _ hst
            refine ⟨q, o :: body, h1, h2, .unclosed (ts := st2.tokens) h3 rfl ?_⟩
            rw [lex_some, lexAll_space, h4]
            apply lexFrom_done
            have hk : st2.stack = [] := by
              have := h5.stack
              rw [hst] at this
              have := congrArg List.length this
              simp [kinds] at this
              exact this
            unfold lexRound
            simp only [h5.input, hi, hk]
            rfl
        · rename_i c cs hi
          have bad : ∀ {k}, lexRound (' ' :: c :: cs) ⟨c :: cs, [], []⟩ = .inr (.error k) → lex (' ' :: c :: cs) = none := by
            intro k hk
            unfold lex
            rw [lexAll_space, lexFrom_done hk]
          split at hr
          · cases hr
          · rename_i ho
            split at hr
            · rename_i d hc
              obtain ⟨o, hde⟩ := closeDelim_ex hc
              have : p = posOf src (skipWhite st.input) := by
                split at hr
                · cases hr; rfl
                · split at hr
                  · cases hr
                  · cases hr; rfl
              subst this
              exact ⟨pre ++ g, _, hsrc, posOf_eq hsrc, .close hde hi⟩
            · rename_i hc
              split at hr
              · cases hr
              · rename_i hl
                cases hr
                refine ⟨pre ++ g, _, hsrc, posOf_eq hsrc, .token (by rw [hi]; simp) ?_ ?_⟩
                · intro c' hc'
                  rw [hi] at hc' hfix
                  simp only [List.head?_cons, Option.some.injEq] at hc'
                  subst hc'
                  refine ⟨?_, fun d o e hde => ⟨?_, ?_⟩⟩
                  · rw [Bool.eq_false_iff]
                    intro hw
                    rw [skipWhite_white hw] at hfix
                    have := skipWhite_le cs
                    rw [hfix] at this
                    simp at this
                    omega
                  · rintro rfl
                    have h1 := (delims_facts hde).1
                    split at ho
                    · rename_i he
                      obtain ⟨r, hr⟩ := startsWith_iff.mp he
                      rw [hi] at hr hl
                      rw [hr] at hl
                      unfold lexLeaf at hl
                      split at hl
                      · cases hl
                      · split at hl
                        · cases hl
                        · split at hl
                          · cases hl
                          · rw [stripPrefix_append_self] at hl; cases hl
                    · rw [h1] at ho; cases ho
                  · rintro rfl
                    have h1 := (delims_facts hde).2.1
                    rw [h1] at hc; cases hc
                · rw [hi] at hd hl hfix ⊢
                  have hcl : closeDelim c = none := hc
                  rw [hi] at ho
                  refine bad (k := posOf (' ' :: c :: cs) (c :: cs)) ?_
                  unfold lexRound
                  simp only [hfix, hd, ho, hcl, hl]

theorem lexAll_wrong {src : Text} {p : LineCol} (h : lexAll src = .error p) : ∃ q rest, src = q ++ rest ∧ p = posAfter q ∧ WrongHere rest := by
  have start : ∀ i : Text, Frames src ⟨i, [], []⟩ := by
    intro i above lo d outer below he
    simp at he
  unfold lexAll at h
  split at h
  · rename_i c cs
    split at h
    · exact lexLoop_wrong (pre := [c]) _ _ (by simp) rfl (start _) h
    · exact lexLoop_wrong (pre := []) _ _ (by simp) rfl (start _) h
  · exact lexLoop_wrong (pre := []) _ _ (by simp) rfl (start _) h

end

end Parsel
