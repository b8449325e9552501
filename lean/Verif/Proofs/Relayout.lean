import Verif.Spec.Layout
import Verif.Proofs.ReadStream
import Verif.Proofs.Comments

/-! However tokens are laid out, the lexer reads the same tokens. -/

namespace Parsel

open Spec

/-! ### comments -/

theorem startsWith_short {p : Text} : ∀ {x : Text} (k : Text), p.length ≤ x.length → startsWith p (x ++ k) = startsWith p x := by
  induction p with
  | nil => intro x k _; rfl
  | cons c p ih =>
    intro x k h
    cases x with
    | nil => simp at h
    | cons d x =>
      by_cases hc : c = d
      · have := ih (x := x) k (by simpa using h)
        simp only [startsWith] at this ⊢
        simp [stripPrefix, hc, this]
      · simp [startsWith, stripPrefix, hc]

theorem blockLoop_append (k : Text) : ∀ (depth : Nat) (read s : Text) {r : Text × Text}, blockLoop depth read s = some r →
    blockLoop depth read (s ++ k) = some (r.1, r.2 ++ k) := by
  intro depth read s
  induction depth, read, s using blockLoop.induct with
  | case1 depth read cs ih => intro r h; rw [blockLoop] at h; exact ih h
  | case2 read cs => 
    intro r h
    simp [blockLoop] at h ⊢
    subst h
    exact ⟨rfl, rfl⟩
  | case3 depth read cs hd ih =>
    intro r h
    simp only [List.cons_append, blockLoop, if_neg hd] at h ⊢
    exact ih h
  | case4 depth read c cs h1 h2 ih =>
    intro r h
    rw [blockLoop] at h
    · cases cs with
      | nil => simp [blockLoop] at h
      | cons d cs =>
        have := ih h
        rw [List.cons_append, List.cons_append, blockLoop]
        · exact this
        · intro e1 e2 e3; cases e3; exact h1 _ e2 rfl
        · intro e1 e2 e3; cases e3; exact h2 _ e2 rfl
    · exact h1
    · exact h2
  | case5 depth read => intro r h; simp [blockLoop] at h

theorem blockLoop_len : ∀ (depth : Nat) (read s : Text) {r : Text × Text}, blockLoop depth read s = some r → 1 ≤ depth → 2 ≤ s.length := by
  intro depth read s r h _
  match s with
  | [] => simp [blockLoop] at h
  | [c] => 
    rw [blockLoop] at h
    · simp [blockLoop] at h
    · intros; simp_all
    · intros; simp_all
  | _ :: _ :: _ => simp

theorem blockComment_start {x : Text} {r : Text × Text} (h : blockComment x = some r) : ∃ a b z, x = '/' :: '*' :: a :: b :: z := by
  unfold blockComment at h
  split at h
  · rename_i hs
    obtain ⟨y, rfl⟩ := startsWith_iff.mp hs
    replace h : blockLoop 1 ['*', '/'] y = some r := by simpa [blockLoop] using h
    have := blockLoop_len _ _ _ h (Nat.le_refl _)
    match y, this with
    | a :: b :: z, _ => exact ⟨a, b, z, rfl⟩
  · cases h

theorem blockComment_append {x : Text} {r : Text × Text} (h : blockComment x = some r) (k : Text) : blockComment (x ++ k) = some (r.1, r.2 ++ k) := by
  have hs : startsWith "/*".toList (x ++ k) = true ∧ blockLoop 0 [] x = some r := by
    unfold blockComment at h
    split at h
    · rename_i hs
      obtain ⟨y, rfl⟩ := startsWith_iff.mp hs
      exact ⟨startsWith_iff.mpr ⟨y ++ k, rfl⟩, h⟩
    · cases h
  unfold blockComment
  rw [if_pos hs.1]
  exact blockLoop_append k _ _ _ hs.2

theorem takeLine_to {x : Text} (h : '\n' ∉ x) (g : Text) : (takeLine (x ++ '\n' :: g)).2 = '\n' :: g := by
  induction x with
  | nil => simp [takeLine]
  | cons c x ih =>
    simp only [List.mem_cons, not_or] at h
    have ih := ih h.2
    rw [List.cons_append, takeLine.eq_def]
    split
    · rename_i heq; cases heq
    · rename_i heq; cases heq; exact absurd rfl h.1
    · rename_i cs heq
      simp only [List.cons.injEq] at heq
      cases x with
      | nil => simp at heq; rw [heq.2]
      | cons d x => simp at heq h; exact absurd heq.2.1.symm h.2.1
    · rename_i heq
      simp only [List.cons.injEq] at heq
      rw [← heq.2]; exact ih

theorem skipWhiteN_skip {n : Nat} {s : Text} (h : s.length ≤ n) : skipWhiteN n s = skipWhite s := skipWhiteN_fuel _ _ _ h (Nat.le_refl _)

theorem skipWhite_line {x : Text} (h : '\n' ∉ x) (h1 : x.head? ≠ some '!') (h2 : x.head? = some '/' → x.tail.head? = some '/') (g : Text) :
    skipWhite ('/' :: '/' :: (x ++ '\n' :: g)) = skipWhite g := by
  have e1 : startsWith "//".toList ('/' :: '/' :: (x ++ '\n' :: g)) = true := startsWith_iff.mpr ⟨_, rfl⟩
  have e2 : startsWith "//!".toList ('/' :: '/' :: (x ++ '\n' :: g)) = false := by
    rw [Bool.eq_false_iff]; intro hs
    obtain ⟨r, hr⟩ := startsWith_iff.mp hs
    cases x with
    | nil => simp at hr
    | cons c x => simp at hr h1; exact h1 hr.1
  have e3 : (!startsWith "///".toList ('/' :: '/' :: (x ++ '\n' :: g)) || startsWith "////".toList ('/' :: '/' :: (x ++ '\n' :: g))) = true := by
    cases hs : startsWith "///".toList ('/' :: '/' :: (x ++ '\n' :: g)) with
    | false => rfl
    | true =>
      obtain ⟨r, hr⟩ := startsWith_iff.mp hs
      simp only [Bool.not_true, Bool.false_or]
      cases x with
      | nil => simp at hr
      | cons c x =>
        simp at hr
        obtain ⟨rfl, hr⟩ := hr
        have := h2 rfl
        cases x with
        | nil => simp at this
        | cons d x => simp at this; subst this; exact startsWith_iff.mpr ⟨x ++ '\n' :: g, rfl⟩
  have ht : (takeLine ('/' :: '/' :: (x ++ '\n' :: g))).2 = '\n' :: g := takeLine_to (x := '/' :: '/' :: x) (by simpa using h) g
  rw [skipWhite, List.length_cons, skipWhiteN, if_pos (by rw [e1, e2, e3]; rfl), ht]
  rw [skipWhiteN_skip (by simp; omega), skipWhite_white (by decide)]

theorem skipWhite_block {x : Text} (h : blockComment x = some (x, [])) (h1 : startsWith "/*!".toList x = false)
    (h2 : startsWith "/**".toList x = true → startsWith "/***".toList x = true ∨ x = "/**/".toList) (g : Text) : skipWhite (x ++ g) = skipWhite g := by
  obtain ⟨a, b, z, hx⟩ := blockComment_start h
  have hl : 4 ≤ x.length := by rw [hx]; simp
  have sw : ∀ p : Text, p.length ≤ 4 → startsWith p (x ++ g) = startsWith p x := fun p hp => startsWith_short g (Nat.le_trans hp hl)
  have e0 : startsWith "//".toList (x ++ g) = false := by rw [hx]; rfl
  have e1 : startsWith "/*".toList (x ++ g) = true := by rw [hx]; exact startsWith_iff.mpr ⟨_, rfl⟩
  have hfuel : g.length ≤ (x ++ g).length - 1 := by simp; omega
  obtain ⟨m, hm⟩ : ∃ m, (x ++ g).length = m + 1 := ⟨(x ++ g).length - 1, by simp; omega⟩
  have hm' : g.length ≤ m := by omega
  rw [skipWhite, hm, skipWhiteN.eq_def]
  dsimp only
  rw [if_neg (by rw [e0]; simp)]
  by_cases h4 : startsWith "/**/".toList (x ++ g) = true
  · rw [if_pos h4]
    have : x = "/**/".toList := by
      rw [sw _ (by decide)] at h4
      obtain ⟨r, hr⟩ := startsWith_iff.mp h4
      rw [hr] at h
      have : blockComment ("/**/".toList ++ r) = some ("/**/".toList, r) := by
        have := blockComment_append (x := "/**/".toList) (r := ("/**/".toList, [])) (by decide) r
        simpa using this
      rw [this] at h
      simp only [Option.some.injEq, Prod.mk.injEq] at h
      rw [hr, h.2]; rfl
    rw [show List.drop 4 (x ++ g) = g by rw [this]; rfl]
    exact skipWhiteN_skip hm'
  · rw [if_neg h4]
    have e2 : startsWith "/*!".toList (x ++ g) = false := by rw [sw _ (by decide)]; exact h1
    have e3 : (!startsWith "/**".toList (x ++ g) || startsWith "/***".toList (x ++ g)) = true := by
      rw [sw _ (by decide), sw _ (by decide)]
      cases hs : startsWith "/**".toList x with
      | false => rfl
      | true =>
        rcases h2 hs with h | h
        · rw [h]; rfl
        · exact absurd (by rw [h]; exact startsWith_iff.mpr ⟨g, rfl⟩) h4
    rw [if_pos (by rw [e1, e2, e3]; rfl), blockComment_append h]
    exact skipWhiteN_skip hm'

theorem skipWhite_gap {g : Text} (h : Gap g) (k : Text) : skipWhite (g ++ k) = skipWhite k := by
  induction h with
  | nil => rfl
  | white hc _ ih => rw [List.cons_append, skipWhite_white hc, ih]
  | @line x g h1 h2 h3 _ ih =>
    have := skipWhite_line h1 h2 h3 (g ++ k)
    rw [← ih, ← this]
    simp
  | @block x g h1 h2 h3 _ ih => rw [List.append_assoc, skipWhite_block (block_iff.mpr h1) h2 h3, ih]

/-- How a gap begins. -/
theorem gap_head {g : Text} (h : Gap g) (hne : g ≠ []) : (∃ c s, g = c :: s ∧ lexWhite c = true) ∨ startsWith "//".toList g = true ∨ startsWith "/*".toList g = true := by
  cases h with
  | nil => exact absurd rfl hne
  | white hc _ => exact .inl ⟨_, _, rfl, hc⟩
  | line => exact .inr (.inl (startsWith_iff.mpr ⟨_, rfl⟩))
  | @block x g h1 =>
    obtain ⟨a, b, z, hx⟩ := blockComment_start (block_iff.mpr h1)
    exact .inr (.inr (by rw [hx]; exact startsWith_iff.mpr ⟨_, rfl⟩))

/-! ### what follows a token -/

theorem sepChar_delim : ∀ c ∈ "()[]{}".toList, SepChar c := by
  have : ∀ c ∈ "()[]{}".toList, identStart c = false ∧ identCont c = false ∧ c.isDigit = false ∧ hexVal c = none ∧ c ≠ '"' ∧ c ≠ '#' ∧ c ≠ '\'' ∧
      c ≠ '_' ∧ c ∉ "xobrceE\\".toList := by decide
  intro c hc
  obtain ⟨a, b, d, e, f, g, h, i, j⟩ := this c hc
  exact ⟨a, b, d, e, f, g, h, i, j⟩

theorem sepChar_punct : ∀ c ∈ punctChars, c ≠ '\'' → c ≠ '#' → SepChar c := by
  have : ∀ c ∈ punctChars, identStart c = false ∧ identCont c = false ∧ c.isDigit = false ∧ hexVal c = none ∧ c ≠ '"' ∧
      c ≠ '_' ∧ c ∉ "xobrceE\\".toList := by decide
  intro c hc h1 h2
  obtain ⟨a, b, d, e, f, i, j⟩ := this c hc
  exact ⟨a, b, d, e, f, h2, h1, i, j⟩

theorem parts_sep {w rest k : Text} (h : Parts w rest) (hk : Brk k) : Sep (rest ++ k) := by
  cases rest with
  | nil => exact hk.sep
  | cons c rest =>
    intro d hd
    simp at hd
    subst hd
    rcases h.next c rfl with h | h | ⟨h1, h2, h3⟩
    · exact (break_separates c (white_break h)).sep
    · exact sepChar_delim c h
    · exact sepChar_punct c h1 h2 h3

theorem parts_num {w rest k : Text} (h : Parts w rest) (hk : Brk k) (hw : ∃ d, w.head? = some d ∧ d.isDigit = true) : NumSep w (rest ++ k) := by
  cases rest with
  | nil => exact hk.numSep w
  | cons c rest => exact ⟨(h.number hw).1, (h.number hw).2⟩

theorem punctChar_comment {s : Text} (h : startsWith "//".toList s = true ∨ startsWith "/*".toList s = true) : punctChar s = none := by
  cases s with
  | nil => rfl
  | cons c s => rw [punctChar, if_pos (by rcases h with h | h <;> rw [h] <;> simp)]

theorem clear_punct {c : Char} {rest k : Text} (h : Clear c rest) (hk : Brk k) : punctChar (rest ++ k) = none ∧ NoComment (c :: (rest ++ k)) := by
  rcases h with h | ⟨h1, h2⟩
  · have : ∀ d, (rest ++ k).head? = some d → d ∉ punctChars := by
      cases rest with
      | nil => exact fun d hd => (break_separates d (hk d hd)).punct
      | cons e rest => exact h
    constructor
    · cases hr : rest ++ k with
      | nil => rfl
      | cons d s => exact punctChar_none (this d (by rw [hr]; rfl)) s
    · refine noComment_cons ?_
      rintro ⟨_, h | h⟩
      · exact this _ h (by decide)
      · exact this _ h (by decide)
  · constructor
    · apply punctChar_comment
      rcases h2 with h2 | h2
      · obtain ⟨r, rfl⟩ := startsWith_iff.mp h2; exact .inl (startsWith_iff.mpr ⟨r ++ k, by simp⟩)
      · obtain ⟨r, rfl⟩ := startsWith_iff.mp h2; exact .inr (startsWith_iff.mpr ⟨r ++ k, by simp⟩)
    · exact slash_head (by simpa using h1)

theorem tight_gap {g s : Text} (hg : Gap g) (ht : Tight (g ++ s)) : g = [] := by
  cases hgd : decide (g = []) with
  | true => exact of_decide_eq_true hgd
  | false =>
    exfalso
    have hne := of_decide_eq_false hgd
    rcases gap_head hg hne with ⟨c, t, rfl, hc⟩ | h | h
    · have := ht.1 c rfl; rw [hc] at this; cases this
    · obtain ⟨r, rfl⟩ := startsWith_iff.mp h
      have := ht.2.1
      rw [show startsWith "//".toList ("//".toList ++ r ++ s) = true from startsWith_iff.mpr ⟨r ++ s, by simp⟩] at this
      cases this
    · obtain ⟨r, rfl⟩ := startsWith_iff.mp h
      have := ht.2.2
      rw [show startsWith "/*".toList ("/*".toList ++ r ++ s) = true from startsWith_iff.mpr ⟨r ++ s, by simp⟩] at this
      cases this

theorem tight_append {c : Char} {rest k : Text} (h : Tight (c :: rest)) (hk : Brk k) : NoComment (c :: (rest ++ k)) := by
  refine noComment_cons ?_
  rintro ⟨rfl, h2⟩
  cases rest with
  | nil =>
    rcases h2 with h2 | h2
    · exact brk_head hk (by decide) h2
    · exact brk_head hk (by decide) h2
  | cons d rest =>
    simp at h2
    rcases h2 with rfl | rfl
    · have := h.2.1
      rw [show startsWith "//".toList ('/' :: '/' :: rest) = true from startsWith_iff.mpr ⟨rest, rfl⟩] at this
      cases this
    · have := h.2.2
      rw [show startsWith "/*".toList ('/' :: '*' :: rest) = true from startsWith_iff.mpr ⟨rest, rfl⟩] at this
      cases this

theorem delims_facts {d : Delim} {o c : Char} (h : Delims d o c) : openDelim o = some d ∧ closeDelim c = some d ∧ c ∈ breakChars ∧
    o.toNat ≠ 0xFEFF ∧ (o = '(' → c = ')') := by
  cases h <;> decide

theorem not_errorText {d : Delim} {o c : Char} {body : Text} (hd : Delims d o c) (h : startsWith errorText (o :: body ++ [c]) = false) (q : Text) :
    startsWith errorText (o :: (body ++ c :: q)) = false := by
  rw [Bool.eq_false_iff] at h ⊢
  intro hs
  apply h
  obtain ⟨r, hr⟩ := startsWith_iff.mp hs
  have hr' : (o :: body ++ [c]) ++ q = errorText ++ r := by rw [← hr]; simp
  rcases List.append_eq_append_iff.mp hr' with ⟨z, hz, _⟩ | ⟨z, hz, _⟩
  · have ho : o = '(' := by
      rw [errorText_eq] at hr
      exact (List.cons.inj hr).1
    have hc := (delims_facts hd).2.2.2.2 ho
    subst hc
    cases z with
    | nil => rw [List.append_nil] at hz; rw [← hz]; exact startsWith_iff.mpr ⟨[], by simp⟩
    | cons e z =>
      exfalso
      have h1 : ')' ∈ errorText.dropLast := by
        rw [hz, List.dropLast_append_of_ne_nil (by simp)]
        simp
      revert h1
      decide
  · exact startsWith_iff.mpr ⟨z, hz⟩

variable [Ext]

theorem lexFrom_gap {src g : Text} (h : Gap g) (s : Text) (acc : List TT) (stk : List (LineCol × Delim × List TT)) :
    lexFrom src ⟨g ++ s, acc, stk⟩ = lexFrom src ⟨s, acc, stk⟩ := lexFrom_same (skipWhite_gap h s) acc stk

/-! ### whole texts -/

theorem layout_joint {c : Char} {t : TT} {ts : List TT} {rest k : Text} (hc : c ∈ punctChars) (hf : Follows c t) (hw : Writable (t :: ts)) (ht : Tight rest)
    (hl : Layout (t :: ts) rest) (hk : Brk k) : lexLeaf (c :: (rest ++ k)) = some (.punct c .joint, rest ++ k) ∧ TokStart (c :: (rest ++ k)) := by
  cases hf with
  | @punct _ c' spc sp h1 h2 =>
    have hc' : c' ∈ punctChars := by cases hw <;> assumption
    cases hl with
    | alone hg _ _ =>
      have := tight_gap hg ht; subst this
      exact lexLeaf_joint hc h1 hc' h2 (tight_append ht hk)
    | joint hg _ _ =>
      have := tight_gap hg ht; subst this
      exact lexLeaf_joint hc h1 hc' h2 (tight_append ht hk)
  | @char _ r sp h1 h2 =>
    cases hl with
    | lit hg _ _ =>
      have := tight_gap hg ht; subst this
      cases r with
      | nil => cases h2
      | cons d r =>
        simp at h2
        subst h2
        exact lexLeaf_joint hc h1 (by decide) (by simp) (tight_append ht hk)
  | @lifetime x sp =>
    have hx : IdentText x := by cases hw; assumption
    cases hl with
    | @ident g _ _ _ rest' hg hp _ =>
      have := tight_gap hg ht; subst this
      have hb := parts_sep hp hk
      rw [List.nil_append, List.append_assoc]
      refine lexLeaf_quote (i := x) (rest := rest' ++ k) (by simpa using lexIdentAny_append hx hb) ?_ ?_
      · exact fun h => (hb _ h).apos rfl
      · exact fun h => (hb _ h).pound rfl
  | @strange r sp i rest0 hr =>
    cases hl with
    | @lit g _ _ _ rest' hg hp _ =>
      have := tight_gap hg ht; subst this
      rw [List.nil_append, List.append_assoc]
      exact lexLeaf_quote (lexIdentAny_append hr (parts_sep hp hk)) (by simp) (by simp)

theorem layout_reads (src : Text) {ts : List TT} {x : Text} (h : Layout ts x) : Writable ts → ∀ {k : Text} (acc : List TT)
    (stk : List (LineCol × Delim × List TT)), Brk k →
    ∃ ts', SameShape ts ts' ∧ lexFrom src ⟨x ++ k, acc, stk⟩ = lexFrom src ⟨k, acc ++ ts', stk⟩ := by
  induction h with
  | nil hg =>
    intro _ k acc stk hk
    exact ⟨[], .nil, by rw [lexFrom_gap hg]; simp⟩
  | @ident g x sp ts rest hg hp _ ih =>
    intro hw k acc stk hk
    cases hw with
    | ident hx hw =>
      rw [List.append_assoc, lexFrom_gap hg, List.append_assoc]
      obtain ⟨h1, h2, h3⟩ := lexLeaf_ident hx (parts_sep hp hk)
      obtain ⟨sp', e1⟩ := lexFrom_leaf (src := src) (acc := acc) (stk := stk) h2 (fun c hc => ⟨.inr (h3 c hc).1, (h3 c hc).2⟩) h1
      obtain ⟨ts', hs, e3⟩ := ih hw (acc ++ [LexLeaf.tree (.ident x) sp']) stk hk
      refine ⟨.ident x sp' :: ts', .ident hs, ?_⟩
      rw [e1, e3]
      simp [LexLeaf.tree]
  | @lit g x sp ts rest hg hp _ ih =>
    intro hw k acc stk hk
    cases hw with
    | lit hx hw =>
      rw [List.append_assoc, lexFrom_gap hg, List.append_assoc]
      obtain ⟨h1, h2, h3⟩ := lexLeaf_lit hx (parts_sep hp hk) (parts_num hp hk)
      obtain ⟨sp', e1⟩ := lexFrom_leaf (src := src) (acc := acc) (stk := stk) h2 h3 h1
      obtain ⟨ts', hs, e3⟩ := ih hw (acc ++ [LexLeaf.tree (.lit x) sp']) stk hk
      refine ⟨.lit x sp' :: ts', .lit hs, ?_⟩
      rw [e1, e3]
      simp [LexLeaf.tree]
  | @alone g c sp ts rest hg hcl _ ih =>
    intro hw k acc stk hk
    cases hw with
    | alone hc hq hw =>
      rw [List.append_assoc, lexFrom_gap hg, List.cons_append]
      obtain ⟨f1, f2⟩ := clear_punct hcl hk
      obtain ⟨h1, h2⟩ := lexLeaf_single hc hq f1 f2
      have hp := punct_facts hc
      obtain ⟨sp', e1⟩ := lexFrom_leaf (src := src) (acc := acc) (stk := stk) h2
        (fun d hd => by simp at hd; subst hd; exact ⟨.inr hp.2.2.1, hp.2.2.2.1⟩) h1
      obtain ⟨ts', hs, e3⟩ := ih hw (acc ++ [LexLeaf.tree (.punct c .alone) sp']) stk hk
      refine ⟨.punct c .alone sp' :: ts', .punct hs, ?_⟩
      rw [e1, e3]
      simp [LexLeaf.tree]
  | @joint g c sp ts rest hg ht hl ih =>
    intro hw k acc stk hk
    cases hw with
    | @joint _ _ t ts hc hf hw =>
      rw [List.append_assoc, lexFrom_gap hg, List.cons_append]
      have key := layout_joint hc hf hw ht hl hk
      have hp := punct_facts hc
      obtain ⟨sp', e1⟩ := lexFrom_leaf (src := src) (acc := acc) (stk := stk) key.2
        (fun d hd => by simp at hd; subst hd; exact ⟨.inr hp.2.2.1, hp.2.2.2.1⟩) key.1
      obtain ⟨ts', hs, e3⟩ := ih hw (acc ++ [LexLeaf.tree (.punct c .joint) sp']) stk hk
      refine ⟨.punct c .joint sp' :: ts', .punct hs, ?_⟩
      rw [e1, e3]
      simp [LexLeaf.tree]
  | @group g d o c inner body sp ts rest hg hd _ he _ ih1 ih2 =>
    intro hw k acc stk hk
    cases hw with
    | group hw1 hw2 =>
      have ho := delims_facts hd
      rw [List.append_assoc, lexFrom_gap hg, List.cons_append, List.append_assoc, List.cons_append]
      obtain ⟨lo, e1⟩ := lexFrom_open (src := src) (acc := acc) (stk := stk) ho.1 (not_errorText hd he (rest ++ k))
      obtain ⟨ts1, hs1, e2⟩ := ih1 hw1 [] ((lo, d, acc) :: stk) (brk_cons ho.2.2.1 (rest ++ k))
      obtain ⟨sp', e3⟩ := lexFrom_close (src := src) (s := rest ++ k) (lo := lo) (acc := ts1) (outer := acc) (stk := stk) ho.2.1
      obtain ⟨ts2, hs2, e4⟩ := ih2 hw2 (acc ++ [.group d ts1 sp']) stk hk
      refine ⟨.group d ts1 sp' :: ts2, .group hs1 hs2, ?_⟩
      rw [e1, e2, List.nil_append, e3, e4]
      simp

omit [Ext] in
theorem gap_bom {g s : Text} (h : Gap g) (hs : ∀ c, s.head? = some c → c.toNat ≠ 0xFEFF) : ∀ c, (g ++ s).head? = some c → c.toNat ≠ 0xFEFF := by
  cases g with
  | nil => exact hs
  | cons d g =>
    intro c hc
    simp at hc
    subst hc
    rcases gap_head h (by simp) with ⟨c, t, he, hc⟩ | h | h
    · cases he; exact bom_break _ (white_break hc)
    · obtain ⟨r, hr⟩ := startsWith_iff.mp h; cases hr; decide
    · obtain ⟨r, hr⟩ := startsWith_iff.mp h; cases hr; decide

omit [Ext] in
theorem layout_bom {ts : List TT} {x : Text} (h : Layout ts x) (hw : Writable ts) : ∀ c, x.head? = some c → c.toNat ≠ 0xFEFF := by
  cases h with
  | nil hg => have := gap_bom hg (s := []) (by simp); rwa [List.append_nil] at this
  | @ident g x sp ts rest hg hp _ =>
    refine gap_bom hg ?_
    cases hw with
    | ident hx _ =>
      obtain ⟨c, cs, rfl, hc⟩ := identText_start hx
      intro d hd e
      simp at hd
      subst hd
      simp [identStart, e] at hc
      have : c = Char.ofNat 0xFEFF := by rw [← e, Char.ofNat_toNat]
      rw [this] at hc
      revert hc
      decide
  | @lit g x sp ts rest hg hp _ =>
    refine gap_bom hg ?_
    cases hw with
    | lit hr _ =>
      rcases hr with hr | rfl
      · obtain ⟨c, cs, rfl, hc⟩ := litText_start hr
        intro d hd
        simp at hd
        subst hd
        rcases hc with hc | hc
        · exact bom_list c (by simp at hc; rcases hc with rfl | rfl | rfl | rfl | rfl <;> decide)
        · rw [isDigit_iff, char_le_iff, char_le_iff] at hc; have := hc.2; simp at this; omega
      · intro d hd
        replace hd : some '(' = some d := hd
        cases hd
        decide
  | @alone g c sp ts rest hg _ _ =>
    refine gap_bom hg ?_
    intro d hd
    simp at hd
    subst hd
    cases hw with
    | alone hc _ _ => exact bom_punct c hc
  | @joint g c sp ts rest hg _ _ =>
    refine gap_bom hg ?_
    intro d hd
    simp at hd
    subst hd
    cases hw with
    | joint hc _ _ => exact bom_punct c hc
  | @group g d o c inner body sp ts rest hg hd _ _ _ =>
    refine gap_bom hg ?_
    intro e he
    simp at he
    subst he
    exact (delims_facts hd).2.2.2.1

/-- Reading a layout from a fresh start. -/
theorem lex_layout {ts : List TT} {x : Text} (h : Layout ts x) (hw : Writable ts) : ∃ ts', lex x = some ts' ∧ SameShape ts ts' := by
  obtain ⟨ts', hs, e⟩ := layout_reads x h hw (k := []) [] [] brk_nil
  refine ⟨ts', ?_, hs⟩
  have hl : lexText x x = .ok ts' := by
    rw [lexText_from]
    rw [List.append_nil] at e
    rw [e]
    exact lexFrom_end _ _
  have hb := layout_bom h hw
  rw [lex_some, lexAll_plain hb]
  exact hl

end Parsel
