import Verif.Proofs.LexCut
import Verif.Spec.Format

/-! The rounds of the lexer. -/

namespace Parsel

open Spec

/-! ### every round takes something away -/

theorem takeLine_le : ∀ s : Text, (takeLine s).2.length ≤ s.length := by
  intro s
  fun_induction takeLine s with
  | case1 => simp
  | case2 cs => simp
  | case3 cs => simp
  | case4 c cs _ _ ih => simp only [List.length_cons]; omega

theorem blockLoop_le : ∀ (depth : Nat) (read s : Text) {r : Text × Text}, blockLoop depth read s = some r → r.2.length < s.length := by
  intro depth read s
  fun_induction blockLoop depth read s with
  | case1 depth read cs ih => intro r h; have := ih h; simp only [List.length_cons]; omega
  | case2 read cs => intro r h; cases h; simp only [List.length_cons]; omega
  | case3 depth read cs hne ih => intro r h; have := ih h; simp only [List.length_cons]; omega
  | case4 depth read c cs _ _ ih => intro r h; have := ih h; simp only [List.length_cons]; omega
  | case5 => intro r h; cases h

theorem blockComment_le {s : Text} {r : Text × Text} (h : blockComment s = some r) : r.2.length < s.length := by
  unfold blockComment at h
  split at h
  · exact blockLoop_le _ _ _ h
  · cases h

theorem startsWith_len {p s : Text} (h : startsWith p s = true) : p.length ≤ s.length := by
  obtain ⟨r, rfl⟩ := startsWith_iff.mp h
  simp

theorem startsWith_trans {p q s : Text} (h : startsWith q s = true) (hp : startsWith p q = true) : startsWith p s = true := by
  obtain ⟨r, rfl⟩ := startsWith_iff.mp h
  obtain ⟨t, rfl⟩ := startsWith_iff.mp hp
  exact startsWith_iff.mpr ⟨t ++ r, by simp⟩

theorem takeLine_slash {s : Text} (h : startsWith "//".toList s = true) : (takeLine s).2.length < s.length := by
  obtain ⟨r, rfl⟩ := startsWith_iff.mp h
  have e : (takeLine ('/' :: '/' :: r)).2 = (takeLine r).2 := rfl
  have := takeLine_le r
  show (takeLine ('/' :: '/' :: r)).2.length < ('/' :: '/' :: r).length
  rw [e]
  simp only [List.length_cons]
  omega

theorem skipWhiteN_fuel : ∀ (n m : Nat) (s : Text), s.length ≤ n → s.length ≤ m → skipWhiteN n s = skipWhiteN m s
  | 0, m, s, hn, hm => by
    have : s = [] := by simpa using hn
    subst this
    cases m with
    | zero => rfl
    | succ m => simp [skipWhiteN, startsWith, stripPrefix]
  | n + 1, 0, s, hn, hm => by
    have : s = [] := by simpa using hm
    subst this
    simp [skipWhiteN, startsWith, stripPrefix]
  | n + 1, m + 1, s, hn, hm => by
    simp only [skipWhiteN]
    split
    · rename_i h
      simp only [Bool.and_eq_true] at h
      have := takeLine_slash h.1.1
      exact skipWhiteN_fuel n m _ (by omega) (by omega)
    · split
      · rename_i h
        have := startsWith_len h
        simp at this
        apply skipWhiteN_fuel n m
        · simp; omega
        · simp; omega
      · split
        · cases hb : blockComment s with
          | none => rfl
          | some r =>
            have := blockComment_le hb
            exact skipWhiteN_fuel n m _ (by omega) (by omega)
        · split
          · rename_i c cs
            simp at hn hm
            split
            · exact skipWhiteN_fuel n m _ hn hm
            · rfl
          · rfl

theorem skipWhiteN_le : ∀ (n : Nat) (s : Text), (skipWhiteN n s).length ≤ s.length
  | 0, s => by simp [skipWhiteN]
  | n + 1, s => by
    simp only [skipWhiteN]
    split
    · exact Nat.le_trans (skipWhiteN_le n _) (takeLine_le s)
    · split
      · have := skipWhiteN_le n (s.drop 4); simp at this; omega
      · split
        · cases hb : blockComment s with
          | none => simp
          | some r =>
            have := blockComment_le hb
            have := skipWhiteN_le n r.2
            simp only
            omega
        · split
          · split
            · rename_i cs _ _ _ _
              have := skipWhiteN_le n cs; simp; omega
            · simp
          · simp

theorem skipWhite_le (s : Text) : (skipWhite s).length ≤ s.length := skipWhiteN_le _ _

theorem docComment_le {s : Text} {r : Text × Bool × Text} (h : docComment s = some r) : r.2.2.length < s.length := by
  have line : ∀ p : Text, p.length = 3 → startsWith p s = true → (takeLine (s.drop 3)).2.length < s.length := by
    intro p hp h
    have h1 := startsWith_len h
    have h2 := takeLine_le (s.drop 3)
    simp at h2
    omega
  simp only [docComment] at h
  split at h
  · rename_i hs; cases h; exact line "//!".toList rfl hs
  · split at h
    · cases hb : blockComment s with
      | none => rw [hb] at h; cases h
      | some q => rw [hb] at h; cases h; exact blockComment_le hb
    · split at h
      · rename_i hs
        split at h
        · cases h
        · cases h; exact line "///".toList rfl hs
      · split at h
        · cases hb : blockComment s with
          | none => rw [hb] at h; cases h
          | some q => rw [hb] at h; cases h; exact blockComment_le hb
        · cases h

theorem punctChar_eq {s : Text} {r : Char × Text} (h : punctChar s = some r) :
    s = r.1 :: r.2 ∧ r.1 ∈ punctChars ∧ startsWith "//".toList s = false ∧ startsWith "/*".toList s = false := by
  unfold punctChar at h
  split at h
  · rename_i c cs
    split at h
    · cases h
    · rename_i hn
      split at h
      · rename_i hc
        cases h
        simp only [Bool.or_eq_true, not_or, Bool.not_eq_true] at hn
        exact ⟨rfl, hc, hn⟩
      · cases h
  · cases h

theorem lexPunct_eq {s : Text} {r : Char × Spacing × Text} (h : lexPunct s = some r) : punctChar s = some (r.1, r.2.2) := by
  unfold lexPunct at h
  cases hp : punctChar s with
  | none => rw [hp] at h; cases h
  | some q =>
    rw [hp] at h
    simp only [Option.bind_some] at h
    split at h
    · cases hi : lexIdentAny q.2 with
      | none => rw [hi] at h; cases h
      | some i =>
        rw [hi] at h
        simp only [Option.bind_some] at h
        split at h
        · cases h
        · cases h; rfl
    · cases h; rfl

theorem lexIdent_eq {s : Text} {r : Text × Text} (h : lexIdent s = some r) : lexIdentAny s = some r := by
  unfold lexIdent at h
  split at h
  · cases h
  · exact h

theorem lexIdentAny_nil : lexIdentAny [] = none := by decide

/-- The text of a leaf token. -/
def LexLeaf.text : LexLeaf → Text
  | .lit r => r
  | .punct c _ => [c]
  | .ident x => x

/-- What `leaf_token` finds. -/
theorem lexLeaf_cut {s : Text} {l : LexLeaf} {rest : Text} (h : lexLeaf s = some (l, rest)) :
    s = l.text ++ rest ∧ l.text ≠ [] ∧
      (match l with
        | .lit r => LitText r
        | .punct c spc => lexLiteral s = none ∧ lexPunct s = some (c, spc, rest)
        | .ident x => IdentText x) := by
  unfold lexLeaf at h
  cases hl : lexLiteral s with
  | some r =>
    rw [hl] at h
    cases h
    obtain ⟨a, ha, hb, hne⟩ := lexLiteral_cut hl
    have e : s.take (s.length - rest.length) = a := by rw [ha]; simp
    simp only [LexLeaf.text]
    rw [e]
    exact ⟨ha, hne, .inl hb⟩
  | none =>
    rw [hl] at h
    simp only at h
    cases hp : lexPunct s with
    | some q =>
      obtain ⟨c, spc, rest'⟩ := q
      rw [hp] at h
      cases h
      have := punctChar_eq (lexPunct_eq hp)
      exact ⟨this.1, by simp [LexLeaf.text], rfl, rfl⟩
    | none =>
      rw [hp] at h
      simp only at h
      cases hi : lexIdent s with
      | some q =>
        obtain ⟨x, rest'⟩ := q
        rw [hi] at h
        cases h
        obtain ⟨h1, h2, _⟩ := lexIdentAny_cut (lexIdent_eq hi)
        refine ⟨h1, ?_, h2⟩
        rintro e
        simp only [LexLeaf.text] at e
        simp only at h2
        rw [e] at h2
        rw [lexIdentAny_nil] at h2; cases h2
      | none =>
        rw [hi] at h
        simp only at h
        cases hs : stripPrefix errorText s with
        | none => rw [hs] at h; cases h
        | some q =>
          rw [hs] at h
          cases h
          exact ⟨stripPrefix_eq hs, by show errorText ≠ []; decide, .inr rfl⟩

variable [Ext]

theorem lexRound_le {src : Text} {st st' : LexState} (h : lexRound src st = .inl st') : st'.input.length < st.input.length := by
  have hs := skipWhite_le st.input
  have hs' := hs
  unfold lexRound at h
  simp only at h
  split at h
  · rename_i text inner rest hd
    cases h
    have := docComment_le (Option.eq_some_of_filter_eq_some hd)
    simp only at this ⊢
    omega
  · split at h
    · split at h <;> cases h
    · rename_i c cs hc
      rw [hc] at hs
      simp at hs
      split at h
      · cases h; simp only; omega
      · split at h
        · split at h
          · cases h
          · split at h
            · cases h; simp only; omega
            · cases h
        · split at h
          · rename_i l rest hl
            cases h
            obtain ⟨h1, h2, _⟩ := lexLeaf_cut hl
            have := congrArg List.length h1
            have h3 := List.length_pos_iff.mpr h2
            rw [List.length_append] at this
            simp only
            omega
          · cases h

theorem lexLoop_fuel (src : Text) : ∀ (n m : Nat) (st : LexState), st.input.length < n → st.input.length < m → lexLoop src n st = lexLoop src m st
  | 0, m, st, hn, hm => by omega
  | n + 1, 0, st, hn, hm => by omega
  | n + 1, m + 1, st, hn, hm => by
    simp only [lexLoop]
    cases h : lexRound src st with
    | inr r => rfl
    | inl st' =>
      have := lexRound_le h
      exact lexLoop_fuel src n m st' (by omega) (by omega)

theorem lex_some {src : Text} {ts : List TT} : lex src = some ts ↔ lexAll src = .ok ts := by
  unfold lex
  split
  · rename_i us h; rw [h]; simp
  · rename_i p h; rw [h]; simp

theorem lexAll_plain {src : Text} (hb : ∀ c, src.head? = some c → c.toNat ≠ 0xFEFF) : lexAll src = lexText src src := by
  unfold lexAll
  cases src with
  | nil => rfl
  | cons c cs => simp only [if_neg (hb c rfl)]

/-- The lexer from a state on. -/
def lexFrom (src : Text) (st : LexState) : Except LineCol (List TT) := lexLoop src (st.input.length + 1) st

theorem lexText_from (src input : Text) : lexText src input = lexFrom src ⟨input, [], []⟩ := rfl

theorem lexFrom_step {src : Text} {st st' : LexState} (h : lexRound src st = .inl st') : lexFrom src st = lexFrom src st' := by
  have := lexRound_le h
  unfold lexFrom
  rw [lexLoop, h]
  exact lexLoop_fuel src _ _ st' (by omega) (by omega)

theorem lexFrom_done {src : Text} {st : LexState} {r : Except LineCol (List TT)} (h : lexRound src st = .inr r) : lexFrom src st = r := by
  unfold lexFrom
  rw [lexLoop, h]

/-! ### white space -/

omit [Ext] in
theorem slash_head {s : Text} (h : s.head? ≠ some '/') : startsWith "//".toList s = false ∧ startsWith "/*".toList s = false := by
  constructor <;>
  · rw [Bool.eq_false_iff]
    intro hs
    obtain ⟨r, rfl⟩ := startsWith_iff.mp hs
    simp at h

/-- Not the beginning of a comment. -/
def NoComment (s : Text) : Prop := startsWith "//".toList s = false ∧ startsWith "/*".toList s = false

omit [Ext] in
theorem noComment_longer {s p : Text} (h : NoComment s) (hp : startsWith "//".toList p = true ∨ startsWith "/*".toList p = true) :
    startsWith p s = false := by
  rw [Bool.eq_false_iff]
  intro hs
  rcases hp with hp | hp
  · have := startsWith_trans hs hp; rw [h.1] at this; cases this
  · have := startsWith_trans hs hp; rw [h.2] at this; cases this

omit [Ext] in
theorem skipWhiteN_noComment {s : Text} (h : NoComment s) (n : Nat) : skipWhiteN (n + 1) s =
    match s with
    | c :: cs => if lexWhite c then skipWhiteN n cs else s
    | [] => s := by
  rw [skipWhiteN.eq_def]
  simp only [h.1, h.2, noComment_longer h (p := "/**/".toList) (.inr (by decide)), Bool.false_and, Bool.false_eq_true, if_false]
  cases s <;> rfl

omit [Ext] in
theorem white_not_slash {c : Char} (h : lexWhite c = true) : c ≠ '/' := by rintro rfl; revert h; decide

omit [Ext] in
theorem skipWhite_white {c : Char} (h : lexWhite c = true) (s : Text) : skipWhite (c :: s) = skipWhite s := by
  have : NoComment (c :: s) := slash_head (by simpa using white_not_slash h)
  unfold skipWhite
  rw [List.length_cons, skipWhiteN_noComment this]
  simp [h]

omit [Ext] in
theorem skipWhite_append {w : Text} (h : ∀ c ∈ w, lexWhite c = true) (s : Text) : skipWhite (w ++ s) = skipWhite s := by
  induction w with
  | nil => rfl
  | cons c w ih =>
    rw [List.cons_append, skipWhite_white (h c List.mem_cons_self), ih (fun d hd => h d (List.mem_cons_of_mem _ hd))]

/-- A token begins here. -/
structure TokStart (s : Text) : Prop where
  white : ∀ c, s.head? = some c → lexWhite c = false
  comment : NoComment s

omit [Ext] in
theorem tokStart_skip {s : Text} (h : TokStart s) : skipWhite s = s := by
  unfold skipWhite
  cases s with
  | nil => rfl
  | cons c cs =>
    rw [List.length_cons, skipWhiteN_noComment h.comment]
    simp [h.white c rfl]

omit [Ext] in
theorem tokStart_doc {s : Text} (h : TokStart s) : docComment s = none := by
  simp only [docComment, noComment_longer h.comment (p := "//!".toList) (.inl (by decide)), noComment_longer h.comment (p := "/*!".toList) (.inr (by decide)),
    noComment_longer h.comment (p := "///".toList) (.inl (by decide)), noComment_longer h.comment (p := "/**".toList) (.inr (by decide)),
    Bool.false_and, Bool.false_eq_true, if_false]

theorem lexRound_same {src : Text} {i j : Text} (h : skipWhite i = skipWhite j) (acc : List TT) (stk : List (LineCol × Delim × List TT)) :
    lexRound src ⟨i, acc, stk⟩ = lexRound src ⟨j, acc, stk⟩ := by
  unfold lexRound
  simp only [h]

theorem lexFrom_same {src : Text} {i j : Text} (h : skipWhite i = skipWhite j) (acc : List TT) (stk : List (LineCol × Delim × List TT)) :
    lexFrom src ⟨i, acc, stk⟩ = lexFrom src ⟨j, acc, stk⟩ := by
  have hr := lexRound_same h acc stk (src := src)
  cases hj : lexRound src ⟨j, acc, stk⟩ with
  | inr r => rw [lexFrom_done hj, lexFrom_done (hr.trans hj)]
  | inl st => rw [lexFrom_step hj, lexFrom_step (hr.trans hj)]

theorem lexFrom_white {src w : Text} (h : ∀ c ∈ w, lexWhite c = true) (s : Text) (acc : List TT) (stk : List (LineCol × Delim × List TT)) :
    lexFrom src ⟨w ++ s, acc, stk⟩ = lexFrom src ⟨s, acc, stk⟩ := lexFrom_same (skipWhite_append h s) acc stk

theorem lexFrom_end (src : Text) (acc : List TT) : lexFrom src ⟨[], acc, []⟩ = .ok acc := rfl

theorem lexFrom_leaf_at {src s rest : Text} {l : LexLeaf} {acc : List TT} {stk : List (LineCol × Delim × List TT)} (h : TokStart s)
    (hd : ∀ c, s.head? = some c → (startsWith errorText s = true ∨ openDelim c = none) ∧ closeDelim c = none) (hl : lexLeaf s = some (l, rest)) :
    lexFrom src ⟨s, acc, stk⟩ = lexFrom src ⟨rest, acc ++ [l.tree ⟨posOf src s, posOf src rest⟩], stk⟩ := by
  refine lexFrom_step ?_
  unfold lexRound
  simp only [tokStart_skip h, tokStart_doc h, Option.filter_none]
  cases s with
  | nil => obtain ⟨h1, h2, _⟩ := lexLeaf_cut hl; simp at h1; exact absurd h1.1 h2
  | cons c cs =>
    obtain ⟨h1, h2⟩ := hd c rfl
    have h3 : (if startsWith errorText (c :: cs) then none else openDelim c) = none := by
      rcases h1 with h1 | h1
      · rw [if_pos h1]
      · rw [h1]; simp
    simp only [h3, h2, hl]

theorem lexFrom_leaf {src s rest : Text} {l : LexLeaf} {acc : List TT} {stk : List (LineCol × Delim × List TT)} (h : TokStart s)
    (hd : ∀ c, s.head? = some c → (startsWith errorText s = true ∨ openDelim c = none) ∧ closeDelim c = none) (hl : lexLeaf s = some (l, rest)) :
    ∃ sp, lexFrom src ⟨s, acc, stk⟩ = lexFrom src ⟨rest, acc ++ [l.tree sp], stk⟩ := ⟨_, lexFrom_leaf_at h hd hl⟩

theorem lexFrom_open_at {src s : Text} {c : Char} {d : Delim} {acc : List TT} {stk : List (LineCol × Delim × List TT)} (h : openDelim c = some d)
    (he : startsWith errorText (c :: s) = false) : lexFrom src ⟨c :: s, acc, stk⟩ = lexFrom src ⟨s, [], (posOf src (c :: s), d, acc) :: stk⟩ := by
  have ht : TokStart (c :: s) := by
    unfold openDelim at h
    constructor
    · intro e he; simp at he; subst he
      split at h
      · rename_i e; subst e; decide
      · split at h
        · rename_i e; subst e; decide
        · split at h
          · rename_i e; subst e; decide
          · cases h
    · apply slash_head
      simp only [List.head?_cons, ne_eq, Option.some.injEq]
      rintro rfl
      simp at h
  refine lexFrom_step ?_
  unfold lexRound
  simp only [tokStart_skip ht, tokStart_doc ht, Option.filter_none, he]
  simp [h]

theorem lexFrom_open {src s : Text} {c : Char} {d : Delim} {acc : List TT} {stk : List (LineCol × Delim × List TT)} (h : openDelim c = some d)
    (he : startsWith errorText (c :: s) = false) : ∃ lo, lexFrom src ⟨c :: s, acc, stk⟩ = lexFrom src ⟨s, [], (lo, d, acc) :: stk⟩ :=
  ⟨_, lexFrom_open_at h he⟩

theorem lexFrom_close_at {src s : Text} {c : Char} {d : Delim} {lo : LineCol} {acc outer : List TT} {stk : List (LineCol × Delim × List TT)}
    (h : closeDelim c = some d) :
    lexFrom src ⟨c :: s, acc, (lo, d, outer) :: stk⟩ = lexFrom src ⟨s, outer ++ [.group d acc ⟨lo, posOf src s⟩], stk⟩ := by
  have hc : c = ')' ∨ c = ']' ∨ c = '}' := by
    unfold closeDelim at h
    split at h
    · exact .inl ‹_›
    · split at h
      · exact .inr (.inl ‹_›)
      · split at h
        · exact .inr (.inr ‹_›)
        · cases h
  have ht : TokStart (c :: s) := by
    constructor
    · intro e he; simp at he; subst he
      rcases hc with rfl | rfl | rfl <;> decide
    · apply slash_head
      rcases hc with rfl | rfl | rfl <;> simp
  have ho : openDelim c = none := by rcases hc with rfl | rfl | rfl <;> decide
  refine lexFrom_step ?_
  unfold lexRound
  simp only [tokStart_skip ht, tokStart_doc ht, Option.filter_none, ho]
  simp [h]

theorem lexFrom_close {src s : Text} {c : Char} {d : Delim} {lo : LineCol} {acc outer : List TT} {stk : List (LineCol × Delim × List TT)}
    (h : closeDelim c = some d) :
    ∃ sp, lexFrom src ⟨c :: s, acc, (lo, d, outer) :: stk⟩ = lexFrom src ⟨s, outer ++ [.group d acc sp], stk⟩ := ⟨_, lexFrom_close_at h⟩

end Parsel
