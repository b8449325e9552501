import Verif.Proofs.Lone
import Verif.Proofs.NumText

/-! Texts of no, one or two tokens: exactly which they are. -/

namespace Parsel

open Spec

/-! ### words -/

theorem takeWhile_whole {p : Char → Bool} : ∀ {x : Text}, (∀ c ∈ x, p c = true) → x.takeWhile p = x ∧ x.dropWhile p = []
  | [], _ => ⟨rfl, rfl⟩
  | c :: x, h => by
    obtain ⟨h1, h2⟩ := takeWhile_whole (x := x) fun d hd => h d (List.mem_cons_of_mem _ hd)
    simp [h c List.mem_cons_self, h1, h2]

theorem plainIdent_iff {x : Text} : lexPlainIdent x = some (x, []) ↔ ∃ c w, x = c :: w ∧ identStart c = true ∧ ∀ d ∈ w, identCont d = true := by
  constructor
  · intro h
    cases x with
    | nil => cases h
    | cons c w =>
      rw [lexPlainIdent] at h
      split at h
      · rename_i hc
        simp only [Option.some.injEq, Prod.mk.injEq, List.cons.injEq, true_and] at h
        refine ⟨c, w, rfl, hc, fun d hd => ?_⟩
        have hd' : d ∈ w.takeWhile identCont := by rw [h.1]; exact hd
        exact (List.all_eq_true.mp List.all_takeWhile) d hd'
      · cases h
  · rintro ⟨c, w, rfl, hc, hw⟩
    obtain ⟨h1, h2⟩ := takeWhile_whole hw
    rw [lexPlainIdent, if_pos hc, h1, h2]

theorem word_iff {x : Text} : IdentText x ↔ Word x := by
  unfold IdentText
  constructor
  · intro h
    unfold lexIdentAny at h
    cases hs : stripPrefix "r#".toList x with
    | some y =>
      rw [hs] at h
      have hx : x = 'r' :: '#' :: y := stripPrefix_eq hs
      simp only at h
      cases hp : lexPlainIdent y with
      | none => rw [hp] at h; cases h
      | some q =>
        obtain ⟨z, rest⟩ := q
        rw [hp] at h
        simp only [Option.bind_some] at h
        split at h
        · cases h
        · rename_i hm
          simp only [Option.some.injEq, Prod.mk.injEq] at h
          obtain ⟨h1, rfl⟩ := h
          rw [hx] at h1
          have hz : z = y := by simpa using h1
          subst hz
          obtain ⟨c, w, rfl, hc, hw⟩ := plainIdent_iff.mp hp
          rw [hx]
          exact .raw hc hw hm
    | none =>
      rw [hs] at h
      obtain ⟨c, w, rfl, hc, hw⟩ := plainIdent_iff.mp h
      exact .plain hc hw
  · intro h
    unfold lexIdentAny
    cases h with
    | @plain c w hc hw =>
      have hs : stripPrefix "r#".toList (c :: w) = none := by
        cases hs : stripPrefix "r#".toList (c :: w) with
        | none => rfl
        | some y =>
          exfalso
          have hx : c :: w = 'r' :: '#' :: y := stripPrefix_eq hs
          simp only [List.cons.injEq] at hx
          have := hw '#' (by rw [hx.2]; exact List.mem_cons_self)
          revert this
          decide
      rw [hs]
      exact plainIdent_iff.mpr ⟨c, w, rfl, hc, hw⟩
    | @raw c w hc hw hm =>
      have hs : stripPrefix "r#".toList ('r' :: '#' :: c :: w) = some (c :: w) := by
        simp [stripPrefix]
      rw [hs]
      have : lexPlainIdent (c :: w) = some (c :: w, []) := plainIdent_iff.mpr ⟨c, w, rfl, hc, hw⟩
      simp only [this, Option.bind_some, if_neg hm]
      rfl

theorem not_bom {x k : Text} {c : Char} {cs : Text} (hx : x = c :: cs) (hc : c.toNat ≠ 0xFEFF) : ∀ d, (x ++ k).head? = some d → d.toNat ≠ 0xFEFF := by
  subst hx
  intro d hd
  simp at hd
  exact hd ▸ hc

theorem ident_not_bom {x : Text} (hx : IdentText x) (k : Text) : ∀ d, (x ++ k).head? = some d → d.toNat ≠ 0xFEFF := by
  obtain ⟨c, cs, rfl, hc⟩ := identText_start hx
  refine not_bom rfl fun e => ?_
  have : c = Char.ofNat 0xFEFF := by rw [← e, Char.ofNat_toNat]
  subst this
  revert hc
  decide

theorem lit_not_bom {x : Text} (hx : LitText x) (k : Text) : ∀ d, (x ++ k).head? = some d → d.toNat ≠ 0xFEFF := by
  rcases hx with hx | rfl
  · obtain ⟨c, cs, rfl, hc⟩ := litText_start hx
    refine not_bom rfl fun e => ?_
    have : c = Char.ofNat 0xFEFF := by rw [← e, Char.ofNat_toNat]
    subst this
    revert hc
    decide
  · exact not_bom (c := '(') (cs := "/*ERROR*/)".toList) rfl (by decide)

theorem ending_not_bom {e : Text} (h : Ending e) : ∀ c, e.head? = some c → c.toNat ≠ 0xFEFF := by
  intro c hc
  rcases ending_head h c hc with hw | ⟨rfl, _⟩
  · exact bom_break _ (white_break hw)
  · decide

variable [Ext]

/-! ### from the beginning -/

theorem lexAll_of {bom rest : Text} (hb : IsBom bom) (hr : ∀ c, rest.head? = some c → c.toNat ≠ 0xFEFF) :
    lexAll (bom ++ rest) = lexFrom (bom ++ rest) ⟨rest, [], []⟩ := by
  rcases hb with rfl | rfl
  · exact lexAll_plain hr
  · rfl

theorem lexAll_cut (src : Text) : ∃ bom rest, src = bom ++ rest ∧ IsBom bom ∧ lexAll src = lexFrom src ⟨rest, [], []⟩ := by
  cases src with
  | nil => exact ⟨[], [], rfl, .inl rfl, rfl⟩
  | cons c cs =>
    by_cases hc : c.toNat = 0xFEFF
    · have : c = Char.ofNat 0xFEFF := by rw [← hc, Char.ofNat_toNat]
      subst this
      exact ⟨['\uFEFF'], cs, rfl, .inr rfl, rfl⟩
    · exact ⟨[], c :: cs, rfl, .inl rfl, lexAll_plain fun d hd => by simp at hd; exact hd ▸ hc⟩

theorem lone_blank {src : Text} : lex src = some [] ↔ ∃ bom e, src = bom ++ e ∧ IsBom bom ∧ Ending e := by
  rw [lex_some]
  constructor
  · intro h
    obtain ⟨bom, rest, h1, h2, h3⟩ := lexAll_cut src
    rw [h3] at h
    exact ⟨bom, rest, h1, h2, lone_end.mp h⟩
  · rintro ⟨bom, e, rfl, hb, he⟩
    rw [lexAll_of hb (ending_not_bom he)]
    exact lone_end.mpr he

/-- The text is these tokens' texts with white space and comments. -/
theorem lone_word {src x : Text} {sp : Span} : lex src = some [.ident x sp] ↔
    ∃ bom g e, src = bom ++ (g ++ (x ++ e)) ∧ IsBom bom ∧ Gap g ∧ Ending e ∧ Word x ∧ sp = stretchSpan (bom ++ g) x := by
  rw [lex_some]
  constructor
  · intro h
    obtain ⟨bom, rest, h1, h2, h3⟩ := lexAll_cut src
    rw [h3] at h
    obtain ⟨g, l, e, e1, hg, hl, ht, hr⟩ := lone_leaf (acc := []) (ts := []) (fun _ _ _ hh => by simp at hh) h
    have hw := (lexLeaf_cut hl).2.2
    cases l with
    | ident y =>
      simp only [LexLeaf.tree, TT.ident.injEq] at ht
      obtain ⟨rfl, hsp⟩ := ht
      simp only [LexLeaf.text] at e1 hsp hw
      refine ⟨bom, g, e, by rw [h1, e1], h2, hg, lone_end.mp (by simpa using hr), word_iff.mp hw, ?_⟩
      rw [hsp]
      have := posOf_span (src := src) (p := bom ++ g) (x := x) (rest := e) (k := []) (by rw [h1, e1]; simp)
      simpa using this
    | lit r => cases ht
    | punct c spc => cases ht
  · rintro ⟨bom, g, e, rfl, hb, hg, he, hx, rfl⟩
    have hx' := word_iff.mpr hx
    rw [lexAll_of hb (gap_bom hg (ident_not_bom hx' e)), lexFrom_gap hg]
    obtain ⟨h1, h2, h3⟩ := lexLeaf_ident hx' (ending_sep he)
    rw [lexFrom_leaf_at h2 (fun c hc => ⟨.inr (h3 c hc).1, (h3 c hc).2⟩) h1]
    have := posOf_span (src := bom ++ (g ++ (x ++ e))) (p := bom ++ g) (x := x) (rest := e) (k := []) (by simp)
    rw [List.append_nil] at this
    rw [this]
    exact lone_end.mpr he

theorem lone_literal {src x : Text} {sp : Span} : lex src = some [.lit x sp] ↔
    ∃ bom g e, src = bom ++ (g ++ (x ++ e)) ∧ IsBom bom ∧ Gap g ∧ Ending e ∧ LitText x ∧ sp = stretchSpan (bom ++ g) x := by
  rw [lex_some]
  constructor
  · intro h
    obtain ⟨bom, rest, h1, h2, h3⟩ := lexAll_cut src
    rw [h3] at h
    obtain ⟨g, l, e, e1, hg, hl, ht, hr⟩ := lone_leaf (acc := []) (ts := []) (fun _ _ _ hh => by simp at hh) h
    have hw := (lexLeaf_cut hl).2.2
    cases l with
    | lit y =>
      simp only [LexLeaf.tree, TT.lit.injEq] at ht
      obtain ⟨rfl, hsp⟩ := ht
      simp only [LexLeaf.text] at e1 hsp hw
      refine ⟨bom, g, e, by rw [h1, e1], h2, hg, lone_end.mp (by simpa using hr), hw, ?_⟩
      rw [hsp]
      have := posOf_span (src := src) (p := bom ++ g) (x := x) (rest := e) (k := []) (by rw [h1, e1]; simp)
      simpa using this
    | ident r => cases ht
    | punct c spc => cases ht
  · rintro ⟨bom, g, e, rfl, hb, hg, he, hx, rfl⟩
    rw [lexAll_of hb (gap_bom hg (lit_not_bom hx e)), lexFrom_gap hg]
    obtain ⟨h1, h2, h3⟩ := lexLeaf_lit hx (ending_sep he) (fun _ => ending_num he x)
    rw [lexFrom_leaf_at h2 h3 h1]
    have := posOf_span (src := bom ++ (g ++ (x ++ e))) (p := bom ++ g) (x := x) (rest := e) (k := []) (by simp)
    rw [List.append_nil] at this
    rw [this]
    exact lone_end.mpr he

/-- A sign and a number. -/
theorem lone_minus {src x : Text} {q sp : Span} (hd : ∃ d ds, x = d :: ds ∧ d.isDigit = true) :
    (∃ spc, lex src = some [.punct '-' spc q, .lit x sp]) ↔
    ∃ bom g g' e, src = bom ++ (g ++ '-' :: (g' ++ (x ++ e))) ∧ IsBom bom ∧ Gap g ∧ Gap g' ∧ Ending e ∧ LitText x ∧ q = stretchSpan (bom ++ g) ['-'] ∧
      sp = stretchSpan (bom ++ (g ++ '-' :: g')) x := by
  constructor
  · rintro ⟨spc, h⟩
    rw [lex_some] at h
    obtain ⟨bom, rest, h1, h2, h3⟩ := lexAll_cut src
    rw [h3] at h
    obtain ⟨g, l, s, e1, hg, hl, ht, hr⟩ := lone_leaf (acc := []) (fun _ _ _ hh => by simp at hh) h
    cases l with
    | punct c spc' =>
      simp only [LexLeaf.tree, TT.punct.injEq] at ht
      obtain ⟨rfl, _, hq⟩ := ht
      simp only [LexLeaf.text] at e1 hq
      obtain ⟨g', l, e, e2, hg', hl, ht, hr⟩ := lone_leaf (fun _ _ _ hh => by simp at hh) hr
      have hw := (lexLeaf_cut hl).2.2
      cases l with
      | lit y =>
        simp only [LexLeaf.tree, TT.lit.injEq] at ht
        obtain ⟨rfl, hsp⟩ := ht
        simp only [LexLeaf.text] at e2 hsp hw
        refine ⟨bom, g, g', e, by rw [h1, e1, e2]; simp, h2, hg, hg', lone_end.mp (by simpa using hr), hw, ?_, ?_⟩
        · rw [hq]
          have := posOf_span (src := src) (p := bom ++ g) (x := ['-']) (rest := s) (k := []) (by rw [h1, e1]; simp)
          simpa using this
        · rw [hsp]
          have := posOf_span (src := src) (p := bom ++ (g ++ '-' :: g')) (x := x) (rest := e) (k := []) (by rw [h1, e1, e2]; simp)
          simpa using this
      | ident r => cases ht
      | punct c spc => cases ht
    | lit r => cases ht
    | ident r => cases ht
  · rintro ⟨bom, g, g', e, rfl, hb, hg, hg', he, hx, rfl, rfl⟩
    refine ⟨.alone, ?_⟩
    rw [lex_some]
    rw [lexAll_of hb (gap_bom hg (by intro c hc; simp at hc; subst hc; decide)), lexFrom_gap hg]
    have hclear : Clear '-' (g' ++ (x ++ e)) := by
      obtain ⟨d, ds, rfl, hdig⟩ := hd
      have hdp : ∀ c ∈ punctChars, c.isDigit = false := by decide
      cases g' with
      | nil => exact .inl fun c hc hm => by simp at hc; subst hc; rw [hdp d hm] at hdig; cases hdig
      | cons a g' =>
        rcases gap_head hg' (by simp) with ⟨c, t, he, hc⟩ | h | h
        · cases he
          refine .inl fun c' hc' hm => ?_
          simp at hc'
          subst hc'
          exact (break_separates a (white_break hc)).punct hm
        · obtain ⟨z, hz⟩ := startsWith_iff.mp h
          exact .inr ⟨by decide, .inl (startsWith_iff.mpr ⟨z ++ (d :: ds ++ e), by rw [hz]; simp⟩)⟩
        · obtain ⟨z, hz⟩ := startsWith_iff.mp h
          exact .inr ⟨by decide, .inr (startsWith_iff.mpr ⟨z ++ (d :: ds ++ e), by rw [hz]; simp⟩)⟩
    have hcp := clear_punct (k := []) hclear brk_nil
    rw [List.append_nil] at hcp
    obtain ⟨k1, k2⟩ := lexLeaf_single (c := '-') (by decide) (by decide) hcp.1 hcp.2
    rw [lexFrom_leaf_at k2 (fun d hd => by simp at hd; subst hd; exact ⟨.inr (by decide), by decide⟩) k1, lexFrom_gap hg']
    obtain ⟨h1, h2, h3⟩ := lexLeaf_lit hx (ending_sep he) (fun _ => ending_num he x)
    rw [lexFrom_leaf_at h2 h3 h1]
    have p1 := posOf_span (src := bom ++ (g ++ '-' :: (g' ++ (x ++ e)))) (p := bom ++ g) (x := ['-']) (rest := g' ++ (x ++ e)) (k := []) (by simp)
    have p2 := posOf_span (src := bom ++ (g ++ '-' :: (g' ++ (x ++ e)))) (p := bom ++ (g ++ '-' :: g')) (x := x) (rest := e) (k := []) (by simp)
    rw [List.append_nil] at p1 p2
    simp only [List.cons_append, List.nil_append] at p1
    rw [p1, p2]
    exact lone_end.mpr he

end Parsel
