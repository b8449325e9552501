import Verif.Proofs.LexRounds
import Verif.Proofs.Comments
import Verif.Proofs.Offset
import Verif.Spec.Source

/-! Where the tokens of a lexed stream are. -/

namespace Parsel

open Spec

/-! ### positions -/

theorem posAfter_newline (pre : Text) : posAfter (pre ++ ['\n']) = ⟨(posAfter pre).line + 1, 0⟩ := by
  simp [posAfter]; omega

theorem posAfter_step (pre : Text) (c : Char) :
    posAfter (pre ++ [c]) = if c = '\n' then ⟨(posAfter pre).line + 1, 0⟩ else ⟨(posAfter pre).line, (posAfter pre).column + 1⟩ := by
  split
  · rename_i h; subst h; exact posAfter_newline pre
  · rename_i h; exact posAfter_snoc pre c h

theorem advancePos_posAfter : ∀ (x pre : Text), advancePos (posAfter pre) x = posAfter (pre ++ x)
  | [], pre => by simp [advancePos]
  | c :: cs, pre => by
    rw [advancePos, ← posAfter_step, advancePos_posAfter cs]
    simp

theorem posOf_eq {src pre rest : Text} (h : src = pre ++ rest) : posOf src rest = posAfter pre := by
  subst h
  have : posAfter [] = ⟨1, 0⟩ := rfl
  unfold posOf
  rw [← this, advancePos_posAfter]
  simp

/-! ### what is skipped -/

theorem Spec.Blank.append {a b : Text} (ha : Blank a) (hb : Blank b) : Blank (a ++ b) := by
  induction ha with
  | nil => exact hb
  | white h _ ih => exact .white h ih
  | line h _ ih => rw [List.append_assoc]; exact .line h ih
  | block h _ ih => rw [List.append_assoc]; exact .block h ih

theorem takeLine_cut : ∀ s : Text, ∃ x, s = x ++ (takeLine s).2 ∧ '\n' ∉ x := by
  intro s
  fun_induction takeLine s with
  | case1 => exact ⟨[], rfl, by simp⟩
  | case2 cs => exact ⟨[], rfl, by simp⟩
  | case3 cs => exact ⟨['\r'], rfl, by decide⟩
  | case4 c cs h1 _ ih =>
    obtain ⟨x, hx, hn⟩ := ih
    refine ⟨c :: x, by rw [List.cons_append, ← hx], ?_⟩
    simp only [List.mem_cons, not_or]
    exact ⟨fun e => h1 e.symm, hn⟩

theorem blockLoop_cut : ∀ (depth : Nat) (read s : Text) {r : Text × Text}, blockLoop depth read s = some r →
    ∃ x, s = x ++ r.2 ∧ r.1 = read.reverse ++ x ∧ blockLoop depth read x = some (r.1, []) := by
  intro depth read s
  fun_induction blockLoop depth read s with
  | case1 depth read cs ih =>
    intro r h
    obtain ⟨x, h1, h2, h3⟩ := ih h
    exact ⟨'/' :: '*' :: x, by simp [← h1], by simp [h2], by rw [blockLoop]; exact h3⟩
  | case2 read cs =>
    intro r h
    cases h
    exact ⟨['*', '/'], rfl, by simp, by rw [blockLoop]; simp⟩
  | case3 depth read cs hne ih =>
    intro r h
    obtain ⟨x, h1, h2, h3⟩ := ih h
    exact ⟨'*' :: '/' :: x, by simp [← h1], by simp [h2], by rw [blockLoop, if_neg hne]; exact h3⟩
  | case4 depth read c cs hn1 hn2 ih =>
    intro r h
    obtain ⟨x, h1, h2, h3⟩ := ih h
    refine ⟨c :: x, by simp [← h1], by simp [h2], ?_⟩
    rw [blockLoop]
    · exact h3
    · rintro y rfl rfl
      exact hn1 (y ++ r.2) rfl (by simp [h1])
    · rintro y rfl rfl
      exact hn2 (y ++ r.2) rfl (by simp [h1])
  | case5 => intro r h; cases h

theorem blockComment_cut {s : Text} {r : Text × Text} (h : blockComment s = some r) : s = r.1 ++ r.2 ∧ blockComment r.1 = some (r.1, []) := by
  unfold blockComment at h
  split at h
  · rename_i hs
    obtain ⟨x, h1, h2, h3⟩ := blockLoop_cut _ _ _ h
    simp at h2
    subst h2
    refine ⟨h1, ?_⟩
    have : startsWith "/*".toList r.1 = true := by
      obtain ⟨t, ht⟩ := startsWith_iff.mp hs
      have hb := blockLoop_le _ _ _ h3
      rw [h1] at ht
      cases hx : r.1 with
      | nil => rw [hx] at hb; simp at hb
      | cons a x =>
        cases x with
        | nil => rw [hx] at h3; revert h3; rw [blockLoop.eq_def]; simp [blockLoop]
        | cons b x =>
          rw [hx] at ht
          simp at ht
          obtain ⟨rfl, rfl, _⟩ := ht
          exact startsWith_iff.mpr ⟨x, rfl⟩
    unfold blockComment
    rw [if_pos this]
    exact h3
  · cases h

theorem skipWhiteN_cut : ∀ (n : Nat) (s : Text), ∃ g, s = g ++ skipWhiteN n s ∧ Blank g
  | 0, s => ⟨[], by simp [skipWhiteN], .nil⟩
  | n + 1, s => by
    simp only [skipWhiteN]
    split
    · rename_i h
      simp only [Bool.and_eq_true] at h
      obtain ⟨r, hr⟩ := startsWith_iff.mp h.1.1
      have e : (takeLine s).2 = (takeLine r).2 := by rw [hr]; rfl
      obtain ⟨x, h1, h2⟩ := takeLine_cut r
      obtain ⟨g, h3, h4⟩ := skipWhiteN_cut n (takeLine r).2
      rw [e]
      refine ⟨('/' :: '/' :: x) ++ g, ?_, .line h2 h4⟩
      rw [List.append_assoc, ← h3, hr]
      show '/' :: '/' :: r = '/' :: '/' :: (x ++ _)
      rw [← h1]
    · split
      · rename_i h
        obtain ⟨r, hr⟩ := startsWith_iff.mp h
        obtain ⟨g, h3, h4⟩ := skipWhiteN_cut n (s.drop 4)
        refine ⟨"/**/".toList ++ g, ?_, .block (block_iff.mp (by decide +kernel)) h4⟩
        rw [List.append_assoc, ← h3, hr]
        rfl
      · split
        · cases hb : blockComment s with
          | none => exact ⟨[], rfl, .nil⟩
          | some r =>
            obtain ⟨h1, h2⟩ := blockComment_cut hb
            obtain ⟨g, h3, h4⟩ := skipWhiteN_cut n r.2
            refine ⟨r.1 ++ g, ?_, .block (block_iff.mp h2) h4⟩
            show s = r.1 ++ g ++ skipWhiteN n r.2
            rw [List.append_assoc, ← h3]
            exact h1
        · split
          · rename_i c cs _ _ _
            split
            · rename_i hw
              obtain ⟨g, h3, h4⟩ := skipWhiteN_cut n cs
              exact ⟨c :: g, by rw [List.cons_append, ← h3], .white hw h4⟩
            · exact ⟨[], rfl, .nil⟩
          · exact ⟨[], rfl, .nil⟩

theorem skipWhite_cut (s : Text) : ∃ g, s = g ++ skipWhite s ∧ Blank g := skipWhiteN_cut _ _

theorem docComment_cut {s : Text} {r : Text × Bool × Text} (h : docComment s = some r) : ∃ x, s = x ++ r.2.2 ∧ x ≠ [] := by
  have hlen := docComment_le h
  have fin : ∀ {x}, s = x ++ r.2.2 → ∃ x, s = x ++ r.2.2 ∧ x ≠ [] := by
    intro x hx
    refine ⟨x, hx, ?_⟩
    rintro rfl
    rw [hx] at hlen
    simp at hlen
  have line : ∃ x, s = x ++ (takeLine (s.drop 3)).2 := by
    obtain ⟨x, hx, _⟩ := takeLine_cut (s.drop 3)
    exact ⟨s.take 3 ++ x, by rw [List.append_assoc, ← hx, List.take_append_drop]⟩
  simp only [docComment] at h
  split at h
  · cases h; obtain ⟨x, hx⟩ := line; exact fin hx
  · split at h
    · cases hb : blockComment s with
      | none => rw [hb] at h; cases h
      | some q => rw [hb] at h; cases h; exact fin (blockComment_cut hb).1
    · split at h
      · split at h
        · cases h
        · cases h; obtain ⟨x, hx⟩ := line; exact fin hx
      · split at h
        · cases hb : blockComment s with
          | none => rw [hb] at h; cases h
          | some q => rw [hb] at h; cases h; exact fin (blockComment_cut hb).1
        · cases h

/-! ### the rounds -/

variable [Ext]

theorem Spec.Laid.append {docs : Bool} {pre a b : Text} {ts us : List TT} (h : Laid docs pre a ts) (h2 : Laid docs (pre ++ a) b us) :
    Laid docs pre (a ++ b) (ts ++ us) := by
  match h with
  | .blank (g := g) hg =>
    cases h2 with
    | blank hb => exact .blank (hg.append hb)
    | @token _ g' x ts rest us hb hne hs hr =>
      have e : g ++ (g' ++ x ++ rest) = (g ++ g') ++ x ++ rest := by simp
      rw [e, List.nil_append]
      exact .token (hg.append hb) hne (by rw [← List.append_assoc]; exact hs) (by rw [← List.append_assoc pre]; exact hr)
  | .token (g := g) (x := x) (ts := ts) (rest := rest) (us := us') hb hne hs hr =>
    have e1 : g ++ x ++ rest ++ b = g ++ x ++ (rest ++ b) := by simp
    have e2 : ts ++ us' ++ us = ts ++ (us' ++ us) := by simp
    rw [e1, e2]
    refine .token hb hne hs (Spec.Laid.append hr ?_)
    have e3 : pre ++ g ++ x ++ rest = pre ++ (g ++ x ++ rest) := by simp
    rw [e3]
    exact h2

/-- One more token. -/
theorem Spec.Laid.snoc {docs : Bool} {pre a g x : Text} {ts us : List TT} (h : Laid docs pre a ts) (hg : Blank g) (hx : x ≠ [])
    (hs : Spelled docs (pre ++ a ++ g) x us) : Laid docs pre (a ++ g ++ x) (ts ++ us) := by
  have h1 : Laid docs (pre ++ a) (g ++ x ++ []) (us ++ []) := .token hg hx hs (.blank .nil)
  have h2 := h.append h1
  simp only [List.append_nil, ← List.append_assoc] at h2
  exact h2

/-- The levels that enclose the current one, which begins after `p`. -/
inductive Levels (docs : Bool) (pre0 : Text) : Text → List (LineCol × Delim × List TT) → Prop
  | base : Levels docs pre0 pre0 []
  | up {q a o c d outer stk} : Levels docs pre0 q stk → Laid docs q a outer → Delims d o c →
      Levels docs pre0 (q ++ a ++ [o]) ((posAfter (q ++ a), d, outer) :: stk)

theorem openDelim_eq {c : Char} {d : Delim} (h : openDelim c = some d) : ∃ e, Delims d c e := by
  unfold openDelim at h
  split at h
  · rename_i e; subst e; cases h; exact ⟨_, .paren⟩
  · split at h
    · rename_i e; subst e; cases h; exact ⟨_, .bracket⟩
    · split at h
      · rename_i e; subst e; cases h; exact ⟨_, .brace⟩
      · cases h

theorem closeDelim_eq {c : Char} {d : Delim} (h : closeDelim c = some d) : ∀ {o e}, Delims d o e → e = c := by
  unfold closeDelim at h
  split at h
  · rename_i e; subst e; cases h; intro o e h; cases h; rfl
  · split at h
    · rename_i e; subst e; cases h; intro o e h; cases h; rfl
    · split at h
      · rename_i e; subst e; cases h; intro o e h; cases h; rfl
      · cases h

theorem lexLeaf_spelled (docs : Bool) (pre : Text) (l : LexLeaf) : Spelled docs pre l.text [l.tree (stretchSpan pre l.text)] := by
  cases l with
  | lit r => exact .lit
  | punct c spc => exact .punct
  | ident x => exact .ident

/-- The text read so far, on the current level and the enclosing ones. -/
def LexPosInv (docs : Bool) (pre0 src : Text) (st : LexState) : Prop :=
  ∃ p a, src = p ++ a ++ st.input ∧ Levels docs pre0 p st.stack ∧ Laid docs p a st.tokens

theorem lexRound_inv {docs : Bool} {pre0 src : Text} (hd : docs = true ∨ ∀ a b, src = a ++ b → docComment b = none) {st : LexState}
    (hi : LexPosInv docs pre0 src st) :
    (∀ st', lexRound src st = .inl st' → LexPosInv docs pre0 src st') ∧
    (∀ ts, lexRound src st = .inr (.ok ts) → ∃ x, src = pre0 ++ x ∧ Laid docs pre0 x ts) := by
  obtain ⟨p, a, hsrc, hlev, hlaid⟩ := hi
  obtain ⟨g, hg, hb⟩ := skipWhite_cut st.input
  have hsrc2 : src = (p ++ a ++ g) ++ skipWhite st.input := by rw [List.append_assoc, ← hg]; exact hsrc
  unfold lexRound
  simp only
  split
  · rename_i text inner rest hdoc
    have hdoc := Option.eq_some_of_filter_eq_some hdoc
    obtain ⟨x, hx, hne⟩ := docComment_cut hdoc
    simp only at hx
    refine ⟨fun st' h => ?_, fun ts h => by cases h⟩
    cases h
    have hdocs : docs = true := by
      rcases hd with hd | hd
      · exact hd
      · rw [hd _ _ hsrc2] at hdoc; cases hdoc
    have e1 : src = (p ++ a ++ g ++ x) ++ rest := by rw [List.append_assoc _ x, ← hx]; exact hsrc2
    refine ⟨p, a ++ g ++ x, by simp only [e1, List.append_assoc], hlev, ?_⟩
    have e2 : (⟨posOf src (skipWhite st.input), posOf src rest⟩ : Span) = stretchSpan (p ++ a ++ g) x := by
      rw [posOf_eq hsrc2, posOf_eq e1]; rfl
    rw [e2]
    exact hlaid.snoc hb hne (.doc hdocs (by rw [← hx]; exact hdoc))
  · split
    · rename_i hin
      split
      · rename_i hst
        refine ⟨fun st' h => by (cases h), fun ts h => ?_⟩
        cases h
        rw [hst] at hlev
        cases hlev
        rw [hin] at hsrc2
        refine ⟨a ++ g, by simpa using hsrc2, ?_⟩
        simpa using hlaid.append (.blank hb)
      · exact ⟨fun st' h => by (cases h), fun ts h => by (cases h)⟩
    · rename_i c cs hin
      rw [hin] at hsrc2
      have hsrc3 : src = (p ++ a ++ g ++ [c]) ++ cs := by rw [hsrc2]; simp
      split
      · rename_i d ho
        refine ⟨fun st' h => ?_, fun ts h => by cases h⟩
        cases h
        have ho : openDelim c = some d := by
          split at ho
          · cases ho
          · exact ho
        obtain ⟨e, hde⟩ := openDelim_eq ho
        refine ⟨p ++ (a ++ g) ++ [c], [], by simp only [hsrc3, List.append_assoc, List.append_nil, List.cons_append, List.nil_append], ?_, .blank .nil⟩
        rw [hin, posOf_eq hsrc2]
        have e : p ++ a ++ g = p ++ (a ++ g) := by simp
        rw [e]
        exact .up hlev (by simpa using hlaid.append (.blank hb)) hde
      · split
        · rename_i d hc
          split
          · exact ⟨fun st' h => by (first | cases h | contradiction), fun ts h => by cases h⟩
          · rename_i lo d' outer stack hst
            split
            · rename_i hdd
              subst hdd
              refine ⟨fun st' h => ?_, fun ts h => by cases h⟩
              cases h
              rw [hst] at hlev
              cases hlev with
              | @up q b o e _ _ _ hq hb' hde =>
                have := closeDelim_eq hc hde
                subst this
                refine ⟨q, b ++ (o :: (a ++ g) ++ [e]), by simp only [hsrc3, List.append_assoc, List.cons_append, List.nil_append], hq, ?_⟩
                have hsp : (⟨posAfter (q ++ b), posOf src cs⟩ : Span) = stretchSpan (q ++ b) (o :: (a ++ g) ++ [e]) := by
                  rw [posOf_eq hsrc3]
                  simp [stretchSpan]
                rw [hsp]
                have h1 := hb'.snoc (g := []) (x := o :: (a ++ g) ++ [e]) .nil (by simp)
                  (us := [.group d st.tokens (stretchSpan (q ++ b) (o :: (a ++ g) ++ [e]))])
                  (by rw [List.append_nil]; exact .group hde (by simpa using hlaid.append (.blank hb)))
                simpa using h1
            · exact ⟨fun st' h => by (first | cases h | contradiction), fun ts h => by cases h⟩
        · split
          · rename_i l rest hl
            refine ⟨fun st' h => ?_, fun ts h => by cases h⟩
            cases h
            obtain ⟨h1, h2, _⟩ := lexLeaf_cut hl
            rw [hin] at h1
            have hsrc4 : src = (p ++ a ++ g ++ l.text) ++ rest := by rw [List.append_assoc _ l.text, ← h1]; exact hsrc2
            refine ⟨p, a ++ g ++ l.text, by simp only [hsrc4, List.append_assoc], hlev, ?_⟩
            have hsp : (⟨posOf src (skipWhite st.input), posOf src rest⟩ : Span) = stretchSpan (p ++ a ++ g) l.text := by
              rw [hin, posOf_eq hsrc2, posOf_eq hsrc4]; rfl
            rw [hsp]
            exact hlaid.snoc hb h2 (lexLeaf_spelled docs _ l)
          · exact ⟨fun st' h => by (first | cases h | contradiction), fun ts h => by cases h⟩

theorem lexLoop_laid {docs : Bool} {pre0 src : Text} (hd : docs = true ∨ ∀ a b, src = a ++ b → docComment b = none) :
    ∀ (n : Nat) (st : LexState) {ts : List TT}, LexPosInv docs pre0 src st → lexLoop src n st = .ok ts → ∃ x, src = pre0 ++ x ∧ Laid docs pre0 x ts
  | 0, _, _, _, h => by cases h
  | n + 1, st, ts, hi, h => by
    simp only [lexLoop] at h
    have hr := lexRound_inv hd hi
    cases hl : lexRound src st with
    | inl st' => rw [hl] at h; exact lexLoop_laid hd n st' (hr.1 _ hl) h
    | inr r => rw [hl] at h; simp only at h; subst h; exact hr.2 _ hl

/-- A lexed stream lies in its source text. -/
theorem lex_laid {docs : Bool} {src : Text} (hd : docs = true ∨ ∀ a b, src = a ++ b → docComment b = none) {ts : List TT} (h : lex src = some ts) :
    ∃ bom x, IsBom bom ∧ src = bom ++ x ∧ Laid docs bom x ts := by
  have go : ∀ {bom x : Text}, IsBom bom → src = bom ++ x → lexText src x = .ok ts → ∃ bom x, IsBom bom ∧ src = bom ++ x ∧ Laid docs bom x ts := by
    intro bom x hb hs h
    obtain ⟨y, h1, h2⟩ := lexLoop_laid (pre0 := bom) hd _ _ ⟨bom, [], by simpa using hs, .base, .blank .nil⟩ h
    exact ⟨bom, y, hb, h1, h2⟩
  rw [lex_some] at h
  unfold lexAll at h
  split at h
  · rename_i c cs
    split at h
    · rename_i hc
      have : c = '\uFEFF' := by
        apply Char.ext
        apply UInt32.toNat_inj.mp
        rw [show c.val.toNat = c.toNat from rfl, hc]
        decide
      subst this
      exact go (.inr rfl) rfl h
    · exact go (.inl rfl) rfl h
  · exact go (.inl rfl) rfl h

end Parsel
