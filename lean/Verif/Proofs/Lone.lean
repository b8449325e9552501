import Verif.Proofs.Relayout
import Verif.Proofs.LayoutAt
import Verif.Proofs.LexPos

/-
Texts of no, one or two tokens: exactly which they are.
-/

namespace Parsel

open Spec

/-! ### skipped text -/

theorem takeLine_rest : ∀ s : Text, (takeLine s).2 = [] ∨ ∃ r, (takeLine s).2 = '\n' :: r := by
  intro s
  fun_induction takeLine s with
  | case1 => exact .inl rfl
  | case2 => exact .inr ⟨_, rfl⟩
  | case3 => exact .inr ⟨_, rfl⟩
  | case4 _ _ _ _ ih => exact ih

theorem not_start {p s : Text} (h : ¬ startsWith p s = true) : startsWith p s = false := by simpa using h

theorem takeLine_all : ∀ {x : Text}, '\n' ∉ x → (takeLine x).2 = [] := by
  intro x
  fun_induction takeLine x with
  | case1 => intro _; rfl
  | case2 => intro h; simp at h
  | case3 => intro h; simp at h
  | case4 _ _ _ _ ih => intro h; exact ih fun hm => h (List.mem_cons_of_mem _ hm)

/-- A line comment that nothing closes. -/
theorem skipWhite_open {x : Text} (h : '\n' ∉ x) (h1 : x.head? ≠ some '!') (h2 : x.head? = some '/' → x.tail.head? = some '/') :
    skipWhite ('/' :: '/' :: x) = [] := by
  have e3 : (takeLine ('/' :: '/' :: x)).2 = [] := by
    show (takeLine x).2 = []
    exact takeLine_all h
  have hl : startsWith "//".toList ('/' :: '/' :: x) = true := startsWith_iff.mpr ⟨x, rfl⟩
  have c1 : startsWith "//!".toList ('/' :: '/' :: x) = false := by
    rw [Bool.eq_false_iff]; intro hh
    obtain ⟨z, hz⟩ := startsWith_iff.mp hh
    have : x = '!' :: z := by simpa using hz
    exact h1 (by rw [this]; rfl)
  have c2 : (!startsWith "///".toList ('/' :: '/' :: x) || startsWith "////".toList ('/' :: '/' :: x)) = true := by
    cases hh : startsWith "///".toList ('/' :: '/' :: x) with
    | false => rfl
    | true =>
      obtain ⟨z, hz⟩ := startsWith_iff.mp hh
      have : x = '/' :: z := by simpa using hz
      have hz2 := h2 (by rw [this]; rfl)
      rw [this] at hz2
      cases z with
      | nil => cases hz2
      | cons b z => simp at hz2; rw [this, hz2]; exact startsWith_iff.mpr ⟨z, rfl⟩
  rw [skipWhite, List.length_cons, skipWhiteN, if_pos (by rw [hl, c1, c2]; rfl), e3]
  cases (('/' :: x).length) <;> rfl

/-- What is skipped before a token is a gap; if nothing comes after it, the last line comment may be open. -/
theorem skipWhite_gap_cut : ∀ (n : Nat) (s : Text), s.length ≤ n → ∃ g, s = g ++ skipWhite s ∧ (Gap g ∨ (skipWhite s = [] ∧ Ending g))
  | 0, s, h => by
    have : s = [] := List.length_eq_zero_iff.mp (Nat.le_zero.mp h)
    subst this
    exact ⟨[], rfl, .inl .nil⟩
  | n + 1, [], _ => ⟨[], rfl, .inl .nil⟩
  | n + 1, c :: cs, h => by
    simp only [List.length_cons, Nat.add_le_add_iff_right] at h
    by_cases hl : startsWith "//".toList (c :: cs) = true
    · obtain ⟨r, hr⟩ := startsWith_iff.mp hl
      have hr' : c = '/' ∧ cs = '/' :: r := by simpa using hr
      obtain ⟨rfl, rfl⟩ := hr'
      clear hr
      by_cases hc : r.head? ≠ some '!' ∧ (r.head? = some '/' → r.tail.head? = some '/')
      · obtain ⟨x, h1, h2⟩ := takeLine_cut r
        have hx : x.head? ≠ some '!' ∧ (x.head? = some '/' → x.tail.head? = some '/') := by
          rcases takeLine_rest r with e | ⟨q, e⟩
          · rw [e, List.append_nil] at h1
            rw [← h1]; exact hc
          · rw [e] at h1
            cases x with
            | nil => simp
            | cons a x =>
              rw [h1] at hc
              refine ⟨by simpa using hc.1, fun ha => ?_⟩
              have := hc.2 (by simpa using ha)
              cases x with
              | nil => simp at this
              | cons b x => simpa using this
        rcases takeLine_rest r with e | ⟨q, e⟩
        · rw [e, List.append_nil] at h1
          have hs : skipWhite ('/' :: '/' :: r) = [] := by
            rw [h1]; exact skipWhite_open h2 hx.1 hx.2
          refine ⟨'/' :: '/' :: x, ?_, .inr ⟨hs, .line (g := []) .nil h2 hx.1 hx.2⟩⟩
          show '/' :: '/' :: r = '/' :: '/' :: x ++ skipWhite ('/' :: '/' :: r)
          rw [hs, List.append_nil, h1]
        · rw [e] at h1
          have hs : skipWhite ('/' :: '/' :: r) = skipWhite q := by
            rw [h1]; exact skipWhite_line h2 hx.1 hx.2 q
          have hq : q.length ≤ n := by
            have := congrArg List.length h1
            simp at this h
            omega
          obtain ⟨g, h3, h4⟩ := skipWhite_gap_cut n q hq
          refine ⟨'/' :: '/' :: (x ++ '\n' :: g), ?_, ?_⟩
          · show '/' :: '/' :: r = '/' :: '/' :: (x ++ '\n' :: g) ++ skipWhite ('/' :: '/' :: r)
            rw [hs]
            have : r = x ++ '\n' :: (g ++ skipWhite q) := by rw [← h3]; exact h1
            rw [this]
            simp
          · show Gap _ ∨ (skipWhite ('/' :: '/' :: r) = [] ∧ _)
            rw [hs]
            rcases h4 with h4 | ⟨h4, h5⟩
            · exact .inl (.line h2 hx.1 hx.2 h4)
            · refine .inr ⟨h4, ?_⟩
              cases h5 with
              | gap hg => exact .gap (.line h2 hx.1 hx.2 hg)
              | line hg k1 k2 k3 =>
                have := Ending.line (.line h2 hx.1 hx.2 hg) k1 k2 k3
                simpa using this
      · have hs : skipWhite ('/' :: '/' :: r) = '/' :: '/' :: r := by
          rw [skipWhite, List.length_cons, skipWhiteN]
          have c1 : (startsWith "//".toList ('/' :: '/' :: r) && (!startsWith "///".toList ('/' :: '/' :: r) || startsWith "////".toList ('/' :: '/' :: r)) &&
              !startsWith "//!".toList ('/' :: '/' :: r)) = false := by
            cases r with
            | nil => exact absurd ⟨by simp, by simp⟩ hc
            | cons a r =>
              by_cases ha : a = '!'
              · subst ha
                have : startsWith "//!".toList ('/' :: '/' :: '!' :: r) = true := startsWith_iff.mpr ⟨r, rfl⟩
                rw [this]; simp
              · have ha2 : a = '/' := by
                  by_cases ha2 : a = '/'
                  · exact ha2
                  · exact absurd ⟨by simpa using ha, by simp [ha2]⟩ hc
                subst ha2
                have hr2 : r.head? ≠ some '/' := fun hh => hc ⟨by simp, fun _ => by simpa using hh⟩
                have e1 : startsWith "///".toList ('/' :: '/' :: '/' :: r) = true := startsWith_iff.mpr ⟨r, rfl⟩
                have e2 : startsWith "////".toList ('/' :: '/' :: '/' :: r) = false := by
                  rw [Bool.eq_false_iff]; intro hh
                  obtain ⟨z, hz⟩ := startsWith_iff.mp hh
                  have : r = '/' :: z := by simpa using hz
                  exact hr2 (by rw [this]; rfl)
                rw [e1, e2]; rfl
          rw [if_neg (by rw [c1]; simp)]
          have n1 : startsWith "/**/".toList ('/' :: '/' :: r) = false := by
            rw [Bool.eq_false_iff]; intro hh
            obtain ⟨z, hz⟩ := startsWith_iff.mp hh
            simp at hz
          have n2 : startsWith "/*".toList ('/' :: '/' :: r) = false := by
            rw [Bool.eq_false_iff]; intro hh
            obtain ⟨z, hz⟩ := startsWith_iff.mp hh
            simp at hz
          rw [n1, n2]
          rfl
        exact ⟨[], hs.symm, .inl .nil⟩
    · by_cases hb : startsWith "/*".toList (c :: cs) = true
      · by_cases hd : startsWith "/*!".toList (c :: cs) = false ∧ (startsWith "/**".toList (c :: cs) = true → startsWith "/***".toList (c :: cs) = true ∨
            startsWith "/**/".toList (c :: cs) = true)
        · cases hbc : blockComment (c :: cs) with
          | none =>
            have hs : skipWhite (c :: cs) = c :: cs := by
              rw [skipWhite, List.length_cons, skipWhiteN, not_start hl]
              by_cases h4 : startsWith "/**/".toList (c :: cs) = true
              · obtain ⟨z, hz⟩ := startsWith_iff.mp h4
                rw [hz] at hbc
                have := blockComment_append (x := "/**/".toList) (r := ("/**/".toList, [])) (by decide) z
                rw [this] at hbc
                cases hbc
              · rw [not_start h4]
                simp only [Bool.false_and, Bool.false_eq_true, if_false]
                split
                · rw [hbc]
                · rename_i hh
                  exfalso
                  apply hh
                  rw [hb, hd.1]
                  cases h3 : startsWith "/**".toList (c :: cs) with
                  | false => rfl
                  | true =>
                    rcases hd.2 h3 with k | k
                    · rw [k]; rfl
                    · exact absurd k h4
            exact ⟨[], hs.symm, .inl .nil⟩
          | some r =>
            obtain ⟨h1, h2⟩ := blockComment_cut hbc
            obtain ⟨a, b, z, hx⟩ := blockComment_start h2
            have hlen : 4 ≤ r.1.length := by rw [hx]; simp
            have sw : ∀ p : Text, p.length ≤ 4 → startsWith p (c :: cs) = startsWith p r.1 := fun p hp => by
              rw [h1]; exact startsWith_short r.2 (Nat.le_trans hp hlen)
            have d1 : startsWith "/*!".toList r.1 = false := by rw [← sw _ (by decide)]; exact hd.1
            have d2 : startsWith "/**".toList r.1 = true → startsWith "/***".toList r.1 = true ∨ r.1 = "/**/".toList := by
              intro hh
              rw [← sw _ (by decide)] at hh
              rcases hd.2 hh with k | k
              · exact .inl (by rw [← sw _ (by decide)]; exact k)
              · rw [sw _ (by decide)] at k
                obtain ⟨z, hz⟩ := startsWith_iff.mp k
                refine .inr ?_
                rw [hz] at h2
                have := blockComment_append (x := "/**/".toList) (r := ("/**/".toList, [])) (by decide) z
                rw [this] at h2
                simp only [Option.some.injEq, Prod.mk.injEq, List.nil_append] at h2
                rw [hz, h2.2]
                rfl
            have hs : skipWhite (c :: cs) = skipWhite r.2 := by
              rw [h1]; exact skipWhite_block h2 d1 d2 r.2
            have hq : r.2.length ≤ n := by
              have := congrArg List.length h1
              simp at this h
              omega
            obtain ⟨g, h3, h4⟩ := skipWhite_gap_cut n r.2 hq
            refine ⟨r.1 ++ g, ?_, ?_⟩
            · rw [hs, List.append_assoc, ← h3]; exact h1
            · rw [hs]
              rcases h4 with h4 | ⟨h4, h5⟩
              · exact .inl (.block (block_iff.mp h2) d1 d2 h4)
              · refine .inr ⟨h4, ?_⟩
                cases h5 with
                | gap hg => exact .gap (.block (block_iff.mp h2) d1 d2 hg)
                | line hg k1 k2 k3 =>
                  have := Ending.line (.block (block_iff.mp h2) d1 d2 hg) k1 k2 k3
                  simpa using this
        · have hs : skipWhite (c :: cs) = c :: cs := by
            have h4 : startsWith "/**/".toList (c :: cs) = false := by
              rw [Bool.eq_false_iff]; intro hh
              refine hd ⟨?_, fun _ => .inr hh⟩
              obtain ⟨z, hz⟩ := startsWith_iff.mp hh
              rw [hz]; rfl
            rw [skipWhite, List.length_cons, skipWhiteN, not_start hl, h4]
            simp only [Bool.false_and, Bool.false_eq_true, if_false]
            rw [if_neg]
            · split
              · rename_i hw
                exact absurd hb (by rw [(slash_head (s := c :: cs) (by simpa using white_not_slash hw)).2]; simp)
              · rfl
            · intro hh
              simp only [Bool.and_eq_true, Bool.or_eq_true, Bool.not_eq_true'] at hh
              exact hd ⟨hh.2, fun h3 => by
                rcases hh.1.2 with k | k
                · rw [k] at h3; cases h3
                · exact .inl k⟩
          exact ⟨[], hs.symm, .inl .nil⟩
      · have hn : NoComment (c :: cs) := ⟨not_start hl, not_start hb⟩
        by_cases hw : lexWhite c = true
        · obtain ⟨g, h3, h4⟩ := skipWhite_gap_cut n cs h
          rw [skipWhite_white hw]
          refine ⟨c :: g, by rw [List.cons_append, ← h3], ?_⟩
          rcases h4 with h4 | ⟨h4, h5⟩
          · exact .inl (.white hw h4)
          · refine .inr ⟨h4, ?_⟩
            cases h5 with
            | gap hg => exact .gap (.white hw hg)
            | line hg k1 k2 k3 => exact .line (.white hw hg) k1 k2 k3
        · have hs : skipWhite (c :: cs) = c :: cs := tokStart_skip ⟨fun d hd => by simp at hd; subst hd; simpa using hw, hn⟩
          exact ⟨[], hs.symm, .inl .nil⟩

theorem ending_skip {e : Text} (h : Ending e) : skipWhite e = [] := by
  cases h with
  | gap hg => have := skipWhite_gap hg []; rw [List.append_nil] at this; rw [this]; rfl
  | line hg h1 h2 h3 => rw [skipWhite_gap hg]; exact skipWhite_open h1 h2 h3

theorem ending_iff {e : Text} : Ending e ↔ skipWhite e = [] := by
  refine ⟨ending_skip, fun h => ?_⟩
  obtain ⟨g, h1, h2⟩ := skipWhite_gap_cut _ e (Nat.le_refl _)
  rw [h, List.append_nil] at h1
  subst h1
  rcases h2 with h2 | ⟨_, h2⟩
  · exact .gap h2
  · exact h2

theorem skip_gap {s : Text} (h : skipWhite s ≠ []) : ∃ g, s = g ++ skipWhite s ∧ Gap g := by
  obtain ⟨g, h1, h2⟩ := skipWhite_gap_cut _ s (Nat.le_refl _)
  rcases h2 with h2 | ⟨h2, _⟩
  · exact ⟨g, h1, h2⟩
  · exact absurd h2 h

theorem ending_head {e : Text} (h : Ending e) : ∀ c, e.head? = some c → lexWhite c = true ∨ (c = '/' ∧ ¬ NoComment e) := by
  intro c hc
  have key : ∀ g : Text, (∃ d s, g = d :: s ∧ lexWhite d = true) ∨ startsWith "//".toList g = true ∨ startsWith "/*".toList g = true → g.head? = some c →
      lexWhite c = true ∨ (c = '/' ∧ ¬ NoComment g) := by
    rintro g (⟨d, s, rfl, hd⟩ | h | h) hg
    · simp at hg; subst hg; exact .inl hd
    · obtain ⟨z, rfl⟩ := startsWith_iff.mp h
      simp at hg
      exact .inr ⟨hg.symm, fun hh => by have := hh.1; rw [h] at this; cases this⟩
    · obtain ⟨z, rfl⟩ := startsWith_iff.mp h
      simp at hg
      exact .inr ⟨hg.symm, fun hh => by have := hh.2; rw [h] at this; cases this⟩
  refine key e ?_ hc
  cases h with
  | gap hg => exact gap_head hg (by rintro rfl; cases hc)
  | @line g x hg h1 h2 h3 =>
    cases g with
    | nil => exact .inr (.inl (startsWith_iff.mpr ⟨x, rfl⟩))
    | cons d g =>
      rcases gap_head hg (by simp) with ⟨d', s, he, hd⟩ | h | h
      · cases he; exact .inl ⟨_, _, rfl, hd⟩
      · obtain ⟨z, hz⟩ := startsWith_iff.mp h
        exact .inr (.inl (startsWith_iff.mpr ⟨z ++ '/' :: '/' :: x, by rw [hz]; simp⟩))
      · obtain ⟨z, hz⟩ := startsWith_iff.mp h
        exact .inr (.inr (startsWith_iff.mpr ⟨z ++ '/' :: '/' :: x, by rw [hz]; simp⟩))

theorem ending_sep {e : Text} (h : Ending e) : Sep e := by
  intro c hc
  rcases ending_head h c hc with hw | ⟨rfl, _⟩
  · exact (break_separates c (white_break hw)).sep
  · exact sepChar_punct '/' (by decide) (by decide) (by decide)

theorem ending_num {e : Text} (h : Ending e) (a : Text) : NumSep a e := by
  have : ∀ c ∈ ".+-".toList, e.head? ≠ some c := by
    intro c hm hc
    rcases ending_head h c hc with hw | ⟨rfl, _⟩
    · have key : ∀ c ∈ ".+-".toList, lexWhite c = false := by decide
      have := key c hm
      rw [hw] at this; cases this
    · revert hm; decide
  exact ⟨this _ (by decide), .inl ⟨this _ (by decide), this _ (by decide)⟩⟩

variable [Ext]

/-! ### the lexer only adds to what it has -/

/-- The tokens of the outermost level: those of the innermost level and the levels around it. -/
def frontOf : List TT → List (LineCol × Delim × List TT) → List TT
  | ts, [] => ts
  | _, (_, _, outer) :: stack => frontOf outer stack

/-- The tokens of the outermost level. -/
def LexState.front (st : LexState) : List TT := frontOf st.tokens st.stack

omit [Ext] in
theorem frontOf_add (ts m : List TT) (stack : List (LineCol × Delim × List TT)) :
    (stack = [] ∧ frontOf (ts ++ m) stack = frontOf ts stack ++ m) ∨ (stack ≠ [] ∧ frontOf (ts ++ m) stack = frontOf ts stack) := by
  cases stack with
  | nil => exact .inl ⟨rfl, rfl⟩
  | cons q qs => exact .inr ⟨by simp, rfl⟩

theorem round_front {src : Text} {st st' : LexState} (h : lexRound src st = .inl st') :
    ∃ m, st'.front = st.front ++ m ∧ (st.stack ≠ [] → (st'.stack ≠ [] ∧ m = []) ∨ ∃ d inner sp, m = [.group d inner sp]) := by
  have same : ∀ (ts : List TT) (i : Text), ∃ m, (LexState.mk i (st.tokens ++ ts) st.stack).front = st.front ++ m ∧
      (st.stack ≠ [] → (st.stack ≠ [] ∧ m = []) ∨ ∃ d inner sp, m = [.group d inner sp]) := by
    intro ts i
    rcases frontOf_add st.tokens ts st.stack with ⟨h1, h2⟩ | ⟨h1, h2⟩
    · exact ⟨ts, h2, fun hh => absurd h1 hh⟩
    · exact ⟨[], by rw [List.append_nil]; exact h2, fun hh => .inl ⟨hh, rfl⟩⟩
  unfold lexRound at h
  simp only at h
  split at h
  · cases h; exact same _ _
  · split at h
    · split at h <;> cases h
    · split at h
      · cases h
        exact ⟨[], by rw [List.append_nil]; rfl, fun _ => .inl ⟨by simp, rfl⟩⟩
      · split at h
        · split at h
          · cases h
          · rename_i lo d' outer stack hst
            split at h
            · cases h
              unfold LexState.front
              rw [hst]
              rcases frontOf_add outer [.group _ st.tokens ⟨lo, posOf src _⟩] stack with ⟨h1, h2⟩ | ⟨h1, h2⟩
              · exact ⟨_, h2, fun _ => .inr ⟨_, _, _, rfl⟩⟩
              · exact ⟨[], by rw [List.append_nil]; exact h2, fun _ => .inl ⟨h1, rfl⟩⟩
            · cases h
        · split at h
          · cases h; exact same _ _
          · cases h

theorem round_done {src : Text} {st : LexState} {ts : List TT} (h : lexRound src st = .inr (.ok ts)) :
    st.stack = [] ∧ ts = st.tokens ∧ skipWhite st.input = [] := by
  unfold lexRound at h
  simp only at h
  split at h
  · cases h
  · split at h
    · rename_i hi
      split at h
      · rename_i hs; cases h; exact ⟨hs, rfl, hi⟩
      · cases h
    · split at h
      · cases h
      · split at h
        · split at h
          · cases h
          · split at h <;> cases h
        · split at h <;> cases h

theorem lexFrom_front {src : Text} {ts : List TT} : ∀ (n : Nat) (st : LexState), st.input.length ≤ n → lexFrom src st = .ok ts →
    ∃ m, ts = st.front ++ m ∧ (st.stack ≠ [] → ∃ d inner sp m', m = .group d inner sp :: m')
  | n, st, hn, h => by
    cases hr : lexRound src st with
    | inr r =>
      rw [lexFrom_done hr] at h
      subst h
      obtain ⟨h1, h2, _⟩ := round_done hr
      refine ⟨[], ?_, fun hh => absurd h1 hh⟩
      unfold LexState.front
      rw [h1, h2, List.append_nil]
      rfl
    | inl st' =>
      have hle := lexRound_le hr
      rw [lexFrom_step hr] at h
      obtain ⟨m1, e1, p1⟩ := round_front hr
      cases n with
      | zero => omega
      | succ n =>
        obtain ⟨m2, e2, p2⟩ := lexFrom_front n st' (by omega) h
        refine ⟨m1 ++ m2, by rw [e2, e1, List.append_assoc], fun hh => ?_⟩
        rcases p1 hh with ⟨k1, rfl⟩ | ⟨d, inner, sp, rfl⟩
        · exact p2 k1
        · exact ⟨d, inner, sp, m2, rfl⟩

/-! ### one token -/

theorem lone_end {src i : Text} {acc : List TT} : lexFrom src ⟨i, acc, []⟩ = .ok acc ↔ Ending i := by
  rw [ending_iff]
  constructor
  · intro h
    cases hr : lexRound src ⟨i, acc, []⟩ with
    | inr r =>
      rw [lexFrom_done hr] at h
      subst h
      exact (round_done hr).2.2
    | inl st' =>
      exfalso
      rw [lexFrom_step hr] at h
      obtain ⟨m, e, p⟩ := lexFrom_front _ st' (Nat.le_refl _) h
      unfold lexRound at hr
      simp only at hr
      split at hr
      · cases hr
        simp [LexState.front, frontOf, docTokens] at e
      · split at hr
        · cases hr
        · split at hr
          · cases hr
            obtain ⟨_, _, _, m', rfl⟩ := p (by simp)
            simp [LexState.front, frontOf] at e
          · split at hr
            · cases hr
            · split at hr
              · cases hr
                simp [LexState.front, frontOf] at e
              · cases hr
  · intro h
    have := lexFrom_same (src := src) (i := i) (j := []) (by rw [h]; rfl) acc []
    rw [this, lexFrom_end]

theorem lone_leaf {src i : Text} {acc ts : List TT} {t : TT} (ht : ∀ d inner sp, .group d inner sp ∉ t :: ts)
    (h : lexFrom src ⟨i, acc, []⟩ = .ok (acc ++ t :: ts)) :
    ∃ g l rest, i = g ++ (l.text ++ rest) ∧ Gap g ∧ lexLeaf (l.text ++ rest) = some (l, rest) ∧ t = l.tree ⟨posOf src (l.text ++ rest), posOf src rest⟩ ∧
      lexFrom src ⟨rest, acc ++ [t], []⟩ = .ok (acc ++ [t] ++ ts) := by
  cases hr : lexRound src ⟨i, acc, []⟩ with
  | inr r =>
    rw [lexFrom_done hr] at h
    subst h
    have := (round_done hr).2.1
    simp at this
  | inl st' =>
    rw [lexFrom_step hr] at h
    obtain ⟨m, e, p⟩ := lexFrom_front _ st' (Nat.le_refl _) h
    unfold lexRound at hr
    simp only at hr
    split at hr
    · cases hr
      simp only [LexState.front, frontOf, docTokens, List.append_assoc, List.append_cancel_left_eq] at e
      exfalso
      rw [e] at ht
      exact ht _ _ _ (List.mem_append_left _ (List.mem_cons_of_mem _ (List.mem_append_right _ (List.mem_singleton.mpr rfl))))
    · split at hr
      · cases hr
      · rename_i c cs hin
        split at hr
        · cases hr
          obtain ⟨_, _, _, m', rfl⟩ := p (by simp)
          simp [LexState.front, frontOf] at e
          exact absurd (by rw [e.1]; exact List.mem_cons_self) (ht _ _ _)
        · split at hr
          · cases hr
          · split at hr
            · rename_i l rest hl
              cases hr
              simp [LexState.front, frontOf] at e
              obtain ⟨k1, _⟩ := lexLeaf_cut hl
              obtain ⟨g, hg, hgap⟩ := skip_gap (s := i) (by rw [hin]; simp)
              rw [k1] at hg hl
              refine ⟨g, l, rest, hg, hgap, hl, ?_, ?_⟩
              · rw [e.1, k1]
              · rw [e.1]; simpa [e.1] using h
            · cases hr

end Parsel
