import Verif.Spec.Docs
import Verif.Proofs.LexInside

/-! Texts of one documentation comment. -/

namespace Parsel

open Spec

theorem takeLine_doc {x : Text} (h1 : '\n' ∉ x) (h2 : '\r' ∉ x) {e : Text} (he : e = [] ∨ ∃ e', e = '\n' :: e') : takeLine (x ++ e) = (x, e) := by
  induction x with
  | nil => rcases he with rfl | ⟨e', rfl⟩ <;> rfl
  | cons c x ih =>
    simp only [List.mem_cons, not_or] at h1 h2
    rw [List.cons_append, takeLine_other (Ne.symm h1.1) (fun hh => absurd hh.symm h2.1), ih h1.2 h2.2]

theorem noBareCr_of : ∀ {x : Text}, NoBareReturn x → noBareCr x = true
  | [], _ => rfl
  | c :: x, h => by
    have ih : noBareCr x = true := noBareCr_of fun a b e => h (c :: a) b (by rw [e]; rfl)
    rw [noBareCr.eq_def]
    split
    · rfl
    · rename_i cs heq
      obtain ⟨e1, e2⟩ := List.cons.inj heq
      subst e1 e2
      rw [ih, Bool.and_true]
      have := h [] x rfl
      cases x with
      | nil => cases this
      | cons d x => simp at this; subst this; exact startsWith_iff.mpr ⟨x, rfl⟩
    · rename_i heq
      obtain ⟨_, e2⟩ := List.cons.inj heq
      rw [← e2]; exact ih

theorem noBareCr_line {x : Text} (h : '\r' ∉ x) : noBareCr x = true := noBareCr_of fun a b e => absurd (by rw [e]; simp) h

theorem starts_not {p s : Text} (h : ∀ z, s ≠ p ++ z) : startsWith p s = false := by
  rw [Bool.eq_false_iff]; intro hh
  obtain ⟨z, hz⟩ := startsWith_iff.mp hh
  exact h z hz

theorem block_inner {c : Char} {x e : Text} (hb : BlockComment ('/' :: '*' :: c :: (x ++ "*/".toList))) :
    blockComment ('/' :: '*' :: c :: (x ++ "*/".toList ++ e)) = some ('/' :: '*' :: c :: (x ++ "*/".toList), e) := by
  have := blockComment_append (block_iff.mpr hb) e
  simpa using this

theorem inner_text {c : Char} {x : Text} : (('/' :: '*' :: c :: (x ++ "*/".toList)).drop 3).take (('/' :: '*' :: c :: (x ++ "*/".toList)).length - 5) = x := by
  have : ('/' :: '*' :: c :: (x ++ "*/".toList)).length - 5 = x.length := by simp
  rw [this]
  show (x ++ "*/".toList).take x.length = x
  simp

/-- The lexer at a documentation comment. -/
theorem doc_lexed {c x : Text} {b : Bool} (h : DocComment c x b) {e : Text} (he : startsWith "//".toList c = true → e = [] ∨ ∃ e', e = '\n' :: e') :
    docComment (c ++ e) = some (x, b, e) ∧ noBareCr x = true ∧ skipWhite (c ++ e) = c ++ e := by
  cases h with
  | outerLine h1 h2 h3 =>
    replace he := he rfl
    have hx : (x ++ e).head? ≠ some '/' := by
      cases x with
      | nil => rcases he with rfl | ⟨e', rfl⟩ <;> simp
      | cons d x => exact h3
    have n4 : startsWith "/".toList (x ++ e) = false := starts_not fun z hz => hx (by rw [hz]; rfl)
    have n5 : startsWith "////".toList ('/' :: '/' :: '/' :: (x ++ e)) = false := n4
    refine ⟨?_, noBareCr_line h2, ?_⟩
    · show (if startsWith "/".toList (x ++ e) = true then none else some ((takeLine (x ++ e)).1, false, (takeLine (x ++ e)).2)) = _
      rw [n4, takeLine_doc h1 h2 he]
      rfl
    · show skipWhiteN (('/' :: '/' :: (x ++ e)).length + 1) ('/' :: '/' :: '/' :: (x ++ e)) = _
      rw [skipWhiteN, n5]
      rfl
  | innerLine h1 h2 =>
    replace he := he rfl
    refine ⟨?_, noBareCr_line h2, ?_⟩
    · show some ((takeLine (x ++ e)).1, true, (takeLine (x ++ e)).2) = _
      rw [takeLine_doc h1 h2 he]
    · show skipWhiteN (('/' :: '!' :: (x ++ e)).length + 1) ('/' :: '/' :: '!' :: (x ++ e)) = _
      rw [skipWhiteN]
      rfl
  | outerBlock hb hne h3 h4 =>
    have hb2 := block_inner (e := e) hb
    have hx : (x ++ "*/".toList ++ e).head? ≠ some '*' := by
      cases x with
      | nil => exact absurd rfl hne
      | cons d x => exact h3
    have hy : (x ++ "*/".toList ++ e).head? ≠ some '/' := by
      cases x with
      | nil => exact absurd rfl hne
      | cons d x =>
        intro hh
        simp at hh
        subst hh
        cases hb with
        | mk hb =>
          generalize hq : '*' :: ('/' :: x ++ "*/".toList) = q at hb
          cases hb with
          | close => simp at hq
          | nested _ _ => simp at hq
          | char _ k _ =>
            obtain ⟨rfl, rfl⟩ := List.cons.inj hq
            exact k rfl rfl
    have n4 : startsWith "*".toList (x ++ "*/".toList ++ e) = false := starts_not fun z hz => hx (by rw [hz]; rfl)
    have n5 : startsWith "/***".toList ('/' :: '*' :: '*' :: (x ++ "*/".toList ++ e)) = false := n4
    have n6 : startsWith "/".toList (x ++ "*/".toList ++ e) = false := starts_not fun z hz => hy (by rw [hz]; rfl)
    have n7 : startsWith "/**/".toList ('/' :: '*' :: '*' :: (x ++ "*/".toList ++ e)) = false := n6
    refine ⟨?_, noBareCr_of h4, ?_⟩
    · show docComment ('/' :: '*' :: '*' :: (x ++ "*/".toList ++ e)) = _
      unfold docComment
      rw [hb2]
      rw [show List.drop 3 ('/' :: '*' :: '*' :: (x ++ "*/".toList ++ e)) = x ++ "*/".toList ++ e from rfl, n4]
      show some ((List.take _ (List.drop 3 _)), false, e) = _
      rw [inner_text]
    · show skipWhiteN (('/' :: '*' :: (x ++ "*/".toList ++ e)).length + 1) ('/' :: '*' :: '*' :: (x ++ "*/".toList ++ e)) = _
      rw [skipWhiteN, n7, n5]
      rfl
  | innerBlock hb h4 =>
    have hb2 := block_inner (e := e) hb
    refine ⟨?_, noBareCr_of h4, ?_⟩
    · show docComment ('/' :: '*' :: '!' :: (x ++ "*/".toList ++ e)) = _
      unfold docComment
      rw [hb2]
      show some ((List.take _ (List.drop 3 _)), true, e) = _
      rw [inner_text]
    · show skipWhiteN (('/' :: '!' :: (x ++ "*/".toList ++ e)).length + 2) ('/' :: '*' :: '!' :: (x ++ "*/".toList ++ e)) = _
      rw [skipWhiteN]
      rfl

variable [Ext]

theorem doc_start {c x : Text} {b : Bool} (h : DocComment c x b) : ∃ z, c = '/' :: z := by cases h <;> exact ⟨_, rfl⟩

theorem lone_doc {bom g c e x : Text} {b : Bool} (hb : IsBom bom) (hg : Gap g) (h : DocComment c x b) (he : Ending e)
    (hl : startsWith "//".toList c = true → e = [] ∨ ∃ e', e = '\n' :: e') :
    lex (bom ++ (g ++ (c ++ e))) = some (docTokens x b (stretchSpan (bom ++ g) c)) := by
  rw [lex_some]
  obtain ⟨h1, h2, h3⟩ := doc_lexed h hl
  obtain ⟨z, hz⟩ := doc_start h
  rw [lexAll_of hb (gap_bom hg (by rw [hz]; intro d hd; simp at hd; subst hd; decide)), lexFrom_gap hg, lexFrom_doc_at h3 h1 h2]
  have := posOf_span (src := bom ++ (g ++ (c ++ e))) (p := bom ++ g) (x := c) (rest := e) (k := []) (by simp)
  rw [List.append_nil] at this
  rw [this]
  exact lone_end.mpr he

end Parsel
