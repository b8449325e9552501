import Verif.Proofs.Fault
import Verif.Proofs.LayoutAt

/-! Laid out texts with a fault: where the lexer gives up. -/

namespace Parsel

open Spec

/-! ### the fault itself -/

/-- The lexer finds nothing here. -/
structure NoLex (s : Text) : Prop where
  skip : skipWhite s = s
  doc : docComment s = none
  more : ∃ c cs, s = c :: cs ∧ openDelim c = none ∧ closeDelim c = none
  leaf : lexLeaf s = none

theorem scanStep_end {k : StrKind} {m : Scan} {c : Char} (h : scanStep k m c = some none) : c = '"' := by
  have plain : plainStep k c = some none → c = '"' := by
    intro h
    unfold plainStep at h
    split at h
    · assumption
    · repeat' split at h
      all_goals cases h
  cases m <;> simp only [scanStep] at h
  all_goals first
    | exact plain h
    | (repeat' split at h) <;> first | exact plain h | cases h

theorem scanCooked_open {k : StrKind} : ∀ {s : Text} {m : Scan}, '"' ∉ s → scanCooked k m s = none
  | [], _, _ => rfl
  | c :: cs, m, h => by
    simp only [List.mem_cons, not_or] at h
    rw [scanCooked]
    split
    · rfl
    · rename_i e; exact absurd (scanStep_end e).symm h.1
    · exact scanCooked_open h.2

theorem blockLoop_open : ∀ (depth : Nat) (read s : Text), (∀ a b, s ≠ a ++ '*' :: '/' :: b) → blockLoop depth read s = none := by
  intro depth read s
  induction depth, read, s using blockLoop.induct with
  | case1 depth read cs ih => intro h; rw [blockLoop]; exact ih fun a b e => h ('/' :: '*' :: a) b (by rw [e]; rfl)
  | case2 read cs => intro h; exact absurd rfl (h [] cs)
  | case3 depth read cs _ _ => intro h; exact absurd rfl (h [] cs)
  | case4 depth read c cs h1 h2 ih =>
    intro h
    rw [blockLoop]
    · exact ih fun a b e => h (c :: a) b (by rw [e]; rfl)
    · exact h1
    · exact h2
  | case5 => intro _; simp [blockLoop]

theorem lexIdentAny_other {c : Char} (h : identStart c = false) (s : Text) : lexIdentAny (c :: s) = none := by
  have : c ≠ 'r' := by rintro rfl; revert h; decide
  have e : stripPrefix "r#".toList (c :: s) = none := by
    show (if 'r' = c then _ else none) = none
    rw [if_neg (Ne.symm this)]
  unfold lexIdentAny
  rw [e]
  simp [lexPlainIdent, h]

theorem lexLeaf_other {c : Char} {s : Text} (hl : lexLiteral (c :: s) = none) (hp : punctChar (c :: s) = none) (hi : identStart c = false) (ho : c ≠ '(') :
    lexLeaf (c :: s) = none := by
  have h2 : lexPunct (c :: s) = none := by unfold lexPunct; rw [hp]; rfl
  have h3 : lexIdent (c :: s) = none := by
    unfold lexIdent
    split
    · rfl
    · exact lexIdentAny_other hi s
  have h4 : stripPrefix errorText (c :: s) = none := by
    show (if '(' = c then _ else none) = none
    rw [if_neg (Ne.symm ho)]
  unfold lexLeaf
  rw [hl, h2, h3, h4]
  rfl

theorem noToken_noLex {s : Text} (h : NoToken s) : NoLex s := by
  cases h with
  | @char c rest hw hd hp hi hn =>
    have hs : c ≠ '/' := by rintro rfl; exact hp (by decide)
    have ht : TokStart (c :: rest) := ⟨fun d hd => by simp at hd; subst hd; exact hw, slash_head (by simpa using hs)⟩
    have hq : c ∉ "\"rbc'".toList := by
      intro hm
      have : ∀ c ∈ "\"rbc'".toList, identStart c = true ∨ c ∈ "()[]{}'\"".toList := by decide
      rcases this c hm with h | h
      · rw [hi] at h; cases h
      · exact hd h
    have no : ∀ e ∈ "()[]{}".toList, c ≠ e := by
      rintro e he rfl
      have : ∀ c ∈ "()[]{}".toList, c ∈ "()[]{}'\"".toList := by decide
      exact hd (this _ he)
    refine ⟨tokStart_skip ht, tokStart_doc ht, ⟨c, rest, rfl, ?_, ?_⟩, ?_⟩
    · simp [openDelim, no '(' (by decide), no '[' (by decide), no '{' (by decide)]
    · simp [closeDelim, no ')' (by decide), no ']' (by decide), no '}' (by decide)]
    · refine lexLeaf_other ?_ (punctChar_none hp rest) hi (no _ (by decide))
      rw [lexLiteral_other (by intro d hd; simp at hd; rw [← hd]; exact hq)]
      exact number_nondigit hn _
  | @string rest hq =>
    have ht : TokStart ('"' :: rest) := ⟨fun d hd => by simp at hd; subst hd; decide, slash_head (by simp)⟩
    refine ⟨tokStart_skip ht, tokStart_doc ht, ⟨_, _, rfl, by decide, by decide⟩, ?_⟩
    refine lexLeaf_other ?_ (punctChar_none (by decide) rest) (by decide) (by decide)
    show lexCooked .str rest = none
    unfold lexCooked
    rw [scanCooked_open hq]
    rfl
  | @comment rest hc =>
    have hb : blockComment ('/' :: '*' :: rest) = none := by
      unfold blockComment
      split
      · show blockLoop 0 [] ('/' :: '*' :: rest) = none
        rw [blockLoop]
        exact blockLoop_open _ _ _ hc
      · rfl
    have e1 : startsWith "//".toList ('/' :: '*' :: rest) = false := rfl
    have e2 : startsWith "/**/".toList ('/' :: '*' :: rest) = false := by
      rw [Bool.eq_false_iff]
      intro h
      obtain ⟨r, hr⟩ := startsWith_iff.mp h
      exact hc [] r (by simpa using hr)
    have e3 : startsWith "//!".toList ('/' :: '*' :: rest) = false := rfl
    have e4 : startsWith "///".toList ('/' :: '*' :: rest) = false := rfl
    refine ⟨?_, ?_, ⟨_, _, rfl, by decide, by decide⟩, ?_⟩
    · show skipWhiteN ((rest.length + 1) + 1) ('/' :: '*' :: rest) = _
      rw [skipWhiteN]
      simp only [e1, e2, hb, Bool.false_and, Bool.false_eq_true, if_false]
      split
      · rfl
      · rfl
    · unfold docComment
      simp only [e3, e4, hb, Bool.false_eq_true, if_false, Option.map_none]
      repeat' split
      all_goals rfl
    · refine lexLeaf_other (lexLiteral_punct (by decide) (by decide) _) ?_ (by decide) (by decide)
      exact punctChar_comment (.inr (startsWith_iff.mpr ⟨rest, rfl⟩))

/-! ### reading up to it -/

theorem delims_open {d : Delim} {o c : Char} (h : Delims d o c) : o ∈ breakChars := by cases h <;> decide

theorem error_free {x k : Text} (h : startsWith "/*ERROR*/".toList x = false) (hk : Brk k) {o : Char} : startsWith errorText (o :: (x ++ k)) = false := by
  have h1 : stripPrefix "/*ERROR*/".toList x = none := by
    unfold startsWith at h
    cases hx : stripPrefix "/*ERROR*/".toList x with
    | none => rfl
    | some r => rw [hx] at h; cases h
  have h2 := stripPrefix_none h1 (x := k) fun c hc hm => by
    have : ∀ c ∈ "/*ERROR*/".toList, c ∉ breakChars := by decide
    exact this c hm (hk c hc)
  rw [Bool.eq_false_iff]
  intro hs
  obtain ⟨r, hr⟩ := startsWith_iff.mp hs
  have : x ++ k = "/*ERROR*/".toList ++ (')' :: r) := (List.cons.inj hr).2
  rw [this, stripPrefix_append_self] at h2
  cases h2

variable [Ext]

theorem open_reads {src q : Text} {ds : List Delim} (h : OpenText q ds) : ∀ {k : Text}, Brk k → src = q ++ k →
    ∃ acc stk, kinds stk = ds ∧ lexFrom src ⟨q ++ k, [], []⟩ = lexFrom src ⟨k, acc, stk⟩ := by
  induction h with
  | base hw hl =>
    intro k hk hs
    obtain ⟨ts', _, _, e⟩ := layout_reads_at src hl hw (p := []) (k := k) [] [] hk (by rw [hs]; rfl)
    exact ⟨_, _, rfl, e⟩
  | @up q ds d o c ts x _ hd hw hl hx ih =>
    intro k hk hs
    obtain ⟨acc, stk, hks, e1⟩ := ih (k := o :: (x ++ k)) (brk_cons (delims_open hd) _) (by rw [hs]; simp)
    have e2 := lexFrom_open_at (src := src) (acc := acc) (stk := stk) (delims_facts hd).1 (error_free hx hk)
    obtain ⟨ts', _, _, e3⟩ := layout_reads_at src hl hw (p := q ++ [o]) (k := k) [] ((posOf src (o :: (x ++ k)), d, acc) :: stk) hk (by rw [hs]; simp)
    refine ⟨[] ++ ts', (posOf src (o :: (x ++ k)), d, acc) :: stk, ?_, ?_⟩
    · exact congrArg (d :: ·) hks
    · rw [List.append_assoc, List.cons_append, e1, e2, e3]

omit [Ext] in
theorem open_bom {q : Text} {ds : List Delim} (h : OpenText q ds) {k : Text} (hk : Brk k) : ∀ c, (q ++ k).head? = some c → c.toNat ≠ 0xFEFF := by
  induction h generalizing k with
  | @base ts x hw hl =>
    cases x with
    | nil => exact fun c hc => bom_break c (hk c hc)
    | cons e x => intro c hc; exact layout_bom hl hw c hc
  | @up q ds d o c ts x _ hd _ _ _ ih => rw [List.append_assoc]; exact ih (brk_cons (delims_open hd) (x ++ k))

theorem lexAll_open {src q k : Text} {ds : List Delim} (h : OpenText q ds) (hk : Brk k) (hs : src = q ++ k) :
    ∃ acc stk, kinds stk = ds ∧ lexAll src = lexFrom src ⟨k, acc, stk⟩ := by
  obtain ⟨acc, stk, h1, h2⟩ := open_reads h hk hs
  refine ⟨acc, stk, h1, ?_⟩
  rw [lexAll_plain (by rw [hs]; exact open_bom h hk), lexText_from, ← h2, ← hs]

theorem lexAll_unclosed {src q x : Text} {ds : List Delim} {d : Delim} {o c : Char} {ts : List TT} (h : OpenText q ds) (hd : Delims d o c) (hw : Writable ts)
    (hl : Layout ts x) (hx : startsWith "/*ERROR*/".toList x = false) (hs : src = q ++ o :: x) : lexAll src = .error (posAfter q) := by
  obtain ⟨acc, stk, _, e⟩ := lexAll_open h (brk_cons (delims_open hd) x) hs
  have e2 := lexFrom_open_at (src := src) (acc := acc) (stk := stk) (delims_facts hd).1 (error_free (o := o) hx brk_nil)
  obtain ⟨ts', _, _, e3⟩ := layout_reads_at src hl hw (p := q ++ [o]) (k := []) [] ((posAfter q, d, acc) :: stk) brk_nil (by rw [hs]; simp)
  rw [List.append_nil] at e2 e3
  rw [posOf_eq hs] at e2
  rw [e, e2, e3]
  refine lexFrom_done ?_
  rfl

theorem lexAll_close {src q more : Text} {ds : List Delim} {d : Delim} {o c : Char} (h : OpenText q ds) (hd : Delims d o c) (hne : ds.head? ≠ some d)
    (hs : src = q ++ c :: more) : lexAll src = .error (posAfter q) := by
  obtain ⟨acc, stk, hk, e⟩ := lexAll_open h (brk_cons (delims_facts hd).2.2.1 more) hs
  rw [e]
  have hc := (delims_facts hd).2.1
  have ht : TokStart (c :: more) := by
    constructor
    · intro e he; simp at he; subst he
      cases hd <;> decide
    · apply slash_head
      cases hd <;> simp
  have ho : openDelim c = none := by cases hd <;> decide
  refine lexFrom_done ?_
  unfold lexRound
  simp only [tokStart_skip ht, tokStart_doc ht, Option.filter_none, ho]
  rw [posOf_eq hs]
  cases stk with
  | nil => simp [hc]
  | cons f stk =>
    obtain ⟨lo, d', outer⟩ := f
    subst hk
    have : d ≠ d' := by rintro rfl; exact hne rfl
    simp [hc, this]

theorem lexAll_noToken {src q rest : Text} {ds : List Delim} {w : Char} (h : OpenText q ds) (hw : lexWhite w = true) (hr : NoToken rest)
    (hs : src = q ++ w :: rest) : lexAll src = .error (posAfter (q ++ [w])) := by
  obtain ⟨acc, stk, hk, e⟩ := lexAll_open h (brk_cons (white_break hw) rest) hs
  rw [e, show w :: rest = [w] ++ rest from rfl, lexFrom_white (by simpa using hw)]
  obtain ⟨h1, h2, ⟨c, cs, rfl, h3, h4⟩, h5⟩ := noToken_noLex hr
  refine lexFrom_done ?_
  unfold lexRound
  simp only [h1, h2, Option.filter_none]
  rw [posOf_eq (pre := q ++ [w]) (by rw [hs]; simp)]
  simp [h3, h4, h5]

end Parsel
