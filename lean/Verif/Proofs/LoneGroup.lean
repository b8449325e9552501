import Verif.Proofs.LexInside
import Verif.Proofs.Blind

/-! Texts of one group. -/

namespace Parsel

open Spec

variable [Ext]

/-! ### the source text that positions refer to -/

/-- The same levels, but for locations. -/
inductive StackAlike : List (LineCol × Delim × List TT) → List (LineCol × Delim × List TT) → Prop
  | nil : StackAlike [] []
  | cons {lo lo' d a b s s'} : SameShape a b → StackAlike s s' → StackAlike ((lo, d, a) :: s) ((lo', d, b) :: s')

theorem doc_alike (text : Text) (inner : Bool) (sp sp' : Span) : SameShape (docTokens text inner sp) (docTokens text inner sp') := by
  unfold docTokens
  cases inner
  · exact .punct (.group (.ident (.punct (.lit .nil))) .nil)
  · exact .punct (.punct (.group (.ident (.punct (.lit .nil))) .nil))

omit [Ext] in
theorem leaf_alike (l : LexLeaf) (sp sp' : Span) : SameShape [l.tree sp] [l.tree sp'] := by
  cases l with
  | lit r => exact .lit .nil
  | punct c spc => exact .punct .nil
  | ident x => exact .ident .nil

theorem lexFrom_alike {src src' : Text} {ts : List TT} : ∀ (n : Nat) (i : Text) (a b : List TT) (S S' : List (LineCol × Delim × List TT)), i.length ≤ n →
    SameShape a b → StackAlike S S' → lexFrom src ⟨i, a, S⟩ = .ok ts → ∃ ts', lexFrom src' ⟨i, b, S'⟩ = .ok ts' ∧ SameShape ts ts'
  | n, i, a, b, S, S', hn, hab, hS, h => by
    cases hr : lexRound src ⟨i, a, S⟩ with
    | inr r =>
      rw [lexFrom_done hr] at h
      subst h
      obtain ⟨h1, h2, h3⟩ := round_done hr
      simp only at h1 h2 h3
      subst h1 h2
      cases hS
      exact ⟨b, lone_end.mpr (ending_iff.mpr h3), hab⟩
    | inl st' =>
      have hle := lexRound_le hr
      rw [lexFrom_step hr] at h
      cases n with
      | zero => simp only at hle; omega
      | succ n =>
      simp only at hle
      have fits : st'.input.length ≤ n := by omega
      have go : ∀ {i' : Text} {a' b' : List TT} {S2 S2' : List (LineCol × Delim × List TT)}, i'.length ≤ n → SameShape a' b' → StackAlike S2 S2' →
          lexFrom src ⟨i', a', S2⟩ = .ok ts → lexRound src' ⟨i, b, S'⟩ = .inl ⟨i', b', S2'⟩ → ∃ ts', lexFrom src' ⟨i, b, S'⟩ = .ok ts' ∧ SameShape ts ts' := by
        intro i' a' b' S2 S2' k1 k2 k3 k4 k5
        rw [lexFrom_step k5]
        exact lexFrom_alike n i' a' b' S2 S2' k1 k2 k3 k4
      unfold lexRound at hr
      simp only at hr
      split at hr
      · rename_i q text inner rest hd
        cases hr
        refine go fits (hab.append (doc_alike text inner _ ⟨posOf src' (skipWhite i), posOf src' rest⟩)) hS h ?_
        unfold lexRound
        simp only [hd]
      · rename_i hd
        split at hr
        · split at hr <;> cases hr
        · rename_i c0 cs0 hin
          split at hr
          · rename_i d hop
            cases hr
            refine go fits .nil (.cons (lo' := posOf src' (skipWhite i)) hab hS) h ?_
            unfold lexRound
            rw [hin] at hd hop ⊢
            simp only [hd, hop]
          · rename_i hop
            split at hr
            · rename_i d hcl
              cases hS with
              | nil => cases hr
              | @cons lo lo' d2 o o' s s' h1 h2 =>
                simp only at hr
                split at hr
                · rename_i hdd
                  cases hr
                  refine go fits (h1.append (.group (sp' := ⟨lo', posOf src' cs0⟩) hab .nil)) h2 h ?_
                  unfold lexRound
                  rw [hin] at hd hop ⊢
                  simp only [hd, hop, hcl]
                  rw [if_pos hdd]
                · cases hr
            · rename_i hcl
              split at hr
              · rename_i l rest hl
                cases hr
                refine go fits (hab.append (leaf_alike l _ ⟨posOf src' (skipWhite i), posOf src' rest⟩)) hS h ?_
                unfold lexRound
                rw [hin] at hd hop hl ⊢
                simp only [hd, hop, hcl, hl]
              · cases hr

/-! ### no byte order mark inside -/

theorem from_not_bom {src i : Text} {st : List (LineCol × Delim × List TT)} {a ts : List TT} (h : lexFrom src ⟨i, a, st⟩ = .ok ts) :
    ∀ c, i.head? = some c → c.toNat ≠ 0xFEFF := by
  intro c hc hb
  have e : c = Char.ofNat 0xFEFF := by rw [← hb, Char.ofNat_toNat]
  subst e
  cases i with
  | nil => cases hc
  | cons d cs =>
    simp only [List.head?_cons, Option.some.injEq] at hc
    subst hc
    have ht : TokStart (Char.ofNat 0xFEFF :: cs) := ⟨fun d hd => by simp at hd; subst hd; decide, slash_head (by simp)⟩
    have hl : lexLeaf (Char.ofNat 0xFEFF :: cs) = none := by
      cases hl : lexLeaf (Char.ofNat 0xFEFF :: cs) with
      | none => rfl
      | some r =>
        exfalso
        obtain ⟨l, rest⟩ := r
        obtain ⟨h1, _, h3⟩ := lexLeaf_cut hl
        cases l with
        | lit r => exact lit_not_bom h3 rest (Char.ofNat 0xFEFF) (by rw [show r ++ rest = _ from h1.symm]; rfl) (by decide)
        | ident r => exact ident_not_bom h3 rest (Char.ofNat 0xFEFF) (by rw [show r ++ rest = _ from h1.symm]; rfl) (by decide)
        | punct p spc =>
          have hp := lexPunct_eq h3.2
          obtain ⟨e1, e2, _, _⟩ := punctChar_eq hp
          simp only at e1 e2
          have : Char.ofNat 0xFEFF = p := by simpa using (List.cons.inj e1).1
          subst this
          exact bom_punct _ e2 (by decide)
    have ho : openDelim (Char.ofNat 0xFEFF) = none := by decide
    have hcl : closeDelim (Char.ofNat 0xFEFF) = none := by decide
    have he : ∀ src, lexRound src ⟨Char.ofNat 0xFEFF :: cs, a, st⟩ = .inr (.error (posOf src (Char.ofNat 0xFEFF :: cs))) := by
      intro src
      unfold lexRound
      simp only [tokStart_skip ht, tokStart_doc ht, Option.filter_none, ho, hcl, hl, ite_self]
    rw [lexFrom_done (he src)] at h
    cases h

/-! ### one group -/

omit [Ext] in
theorem openDelim_close {o c : Char} {d : Delim} (ho : openDelim o = some d) (hc : closeDelim c = some d) : Delims d o c := by
  unfold openDelim at ho
  unfold closeDelim at hc
  split at ho
  · rename_i e; subst e; cases ho
    split at hc
    · rename_i e; subst e; exact .paren
    · split at hc
      · cases hc
      · split at hc <;> cases hc
  · split at ho
    · rename_i e; subst e; cases ho
      split at hc
      · cases hc
      · split at hc
        · rename_i e; subst e; exact .bracket
        · split at hc <;> cases hc
    · split at ho
      · rename_i e; subst e; cases ho
        split at hc
        · cases hc
        · split at hc
          · cases hc
          · split at hc
            · rename_i e; subst e; exact .brace
            · cases hc
      · cases ho

/-- The text of a group: the delimiters, and between them the text of its contents. -/
theorem lex_group {src : Text} {d : Delim} {inner : List TT} {sp : Span} (h : lex src = some [.group d inner sp]) :
    ∃ bom g o body c e inner', src = bom ++ (g ++ (o :: (body ++ [c]) ++ e)) ∧ IsBom bom ∧ Gap g ∧ Ending e ∧ Delims d o c ∧
      sp = stretchSpan (bom ++ g) (o :: (body ++ [c])) ∧ lex body = some inner' ∧ SameShape inner inner' := by
  rw [lex_some] at h
  obtain ⟨bom, i, h1, h2, h3⟩ := lexAll_cut src
  rw [h3] at h
  cases hr : lexRound src ⟨i, [], []⟩ with
  | inr r =>
    rw [lexFrom_done hr] at h
    subst h
    have := (round_done hr).2.1
    cases this
  | inl st' =>
    rw [lexFrom_step hr] at h
    obtain ⟨m, e, p⟩ := lexFrom_front _ st' (Nat.le_refl _) h
    unfold lexRound at hr
    simp only at hr
    split at hr
    · cases hr
      simp [LexState.front, frontOf, docTokens] at e
    · split at hr
      · cases hr
      · rename_i o cs hin
        obtain ⟨g, e1, hg⟩ := skip_gap (s := i) (by rw [hin]; simp)
        rw [hin] at e1
        split at hr
        · rename_i d' hop
          cases hr
          have hop' : openDelim o = some d' := by
            split at hop
            · cases hop
            · exact hop
          obtain ⟨body, c, rest, inner2, k1, k2, k3, k4⟩ := inside_cut cs.length cs (bom ++ (g ++ [o])) [] [] (posOf src (skipWhite i)) d' [] []
            (Nat.le_refl _) (by rw [h1, e1]; simp) h
          obtain ⟨m2, e2, _⟩ := lexFrom_front _ _ (Nat.le_refl _) k4
          simp only [LexState.front, frontOf, List.nil_append, List.singleton_append, List.cons.injEq, TT.group.injEq] at e2
          obtain ⟨⟨rfl, rfl, hsp⟩, rfl⟩ := e2
          obtain ⟨inner', j1, j2⟩ := lexFrom_alike (src' := body) body.length body [] [] [] [] (Nat.le_refl _) .nil .nil k3
          refine ⟨bom, g, o, body, c, rest, inner', by rw [h1, e1, k1]; simp, h2, hg, ?_, openDelim_close hop' k2, ?_, ?_, j2⟩
          · refine (lone_end (src := src) (acc := [TT.group d inner ⟨posOf src (skipWhite i), posOf src rest⟩])).mp ?_
            rw [hsp] at k4
            simpa using k4
          · rw [hsp, hin, k1]
            have := posOf_span (src := src) (p := bom ++ g) (x := o :: (body ++ [c])) (rest := rest) (k := []) (by rw [h1, e1, k1]; simp)
            simpa using this
          · rw [lex_some, lexAll_plain (from_not_bom j1)]
            exact j1
        · split at hr
          · cases hr
          · split at hr
            · rename_i l rest hl
              cases hr
              cases l <;> simp [LexState.front, frontOf, LexLeaf.tree] at e
            · cases hr

end Parsel
