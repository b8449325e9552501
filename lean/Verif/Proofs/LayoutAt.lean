import Verif.Proofs.Relayout
import Verif.Proofs.LexPos

/-! Layouts: where the tokens are, and putting layouts together. -/

namespace Parsel

open Spec

/-- A layout that begins right after the text `p`, with the locations of the tokens. -/
inductive LayoutAt : Text → List TT → Text → Prop
  | nil {p g} : Gap g → LayoutAt p [] g
  | ident {p g x ts rest} : Gap g → Parts x rest → LayoutAt (p ++ g ++ x) ts rest → LayoutAt p (.ident x (stretchSpan (p ++ g) x) :: ts) (g ++ (x ++ rest))
  | lit {p g x ts rest} : Gap g → Parts x rest → LayoutAt (p ++ g ++ x) ts rest → LayoutAt p (.lit x (stretchSpan (p ++ g) x) :: ts) (g ++ (x ++ rest))
  | alone {p g c ts rest} : Gap g → Clear c rest → LayoutAt (p ++ g ++ [c]) ts rest →
      LayoutAt p (.punct c .alone (stretchSpan (p ++ g) [c]) :: ts) (g ++ c :: rest)
  | joint {p g c ts rest} : Gap g → Tight rest → LayoutAt (p ++ g ++ [c]) ts rest →
      LayoutAt p (.punct c .joint (stretchSpan (p ++ g) [c]) :: ts) (g ++ c :: rest)
  | group {p g d o c inner body ts rest} : Gap g → Delims d o c → LayoutAt (p ++ g ++ [o]) inner body →
      startsWith "(/*ERROR*/)".toList (o :: body ++ [c]) = false → LayoutAt (p ++ g ++ (o :: body ++ [c])) ts rest →
      LayoutAt p (.group d inner (stretchSpan (p ++ g) (o :: body ++ [c])) :: ts) (g ++ o :: (body ++ c :: rest))

theorem LayoutAt.layout {p : Text} {ts : List TT} {x : Text} (h : LayoutAt p ts x) : Layout ts x := by
  induction h with
  | nil hg => exact .nil hg
  | ident h1 h2 _ ih => exact .ident h1 h2 ih
  | lit h1 h2 _ ih => exact .lit h1 h2 ih
  | alone h1 h2 _ ih => exact .alone h1 h2 ih
  | joint h1 h2 _ ih => exact .joint h1 h2 ih
  | group h1 h2 _ h3 _ ih1 ih2 => exact .group h1 h2 ih1 h3 ih2

theorem posOf_span {src p x rest k : Text} (h : src = p ++ (x ++ (rest ++ k))) : (⟨posOf src (x ++ (rest ++ k)), posOf src (rest ++ k)⟩ : Span) = stretchSpan p x := by
  rw [posOf_eq h, posOf_eq (pre := p ++ x) (by rw [h]; simp)]
  rfl

variable [Ext]

theorem layout_reads_at (src : Text) {ts : List TT} {x : Text} (h : Layout ts x) : Writable ts → ∀ {p k : Text} (acc : List TT)
    (stk : List (LineCol × Delim × List TT)), Brk k → src = p ++ (x ++ k) →
    ∃ ts', SameShape ts ts' ∧ LayoutAt p ts' x ∧ lexFrom src ⟨x ++ k, acc, stk⟩ = lexFrom src ⟨k, acc ++ ts', stk⟩ := by
  induction h with
  | nil hg =>
    intro _ p k acc stk hk _
    exact ⟨[], .nil, .nil hg, by rw [lexFrom_gap hg]; simp⟩
  | @ident g x sp ts rest hg hp _ ih =>
    intro hw p k acc stk hk hsrc
    cases hw with
    | ident hx hw =>
      rw [List.append_assoc, lexFrom_gap hg, List.append_assoc]
      obtain ⟨h1, h2, h3⟩ := lexLeaf_ident hx (parts_sep hp hk)
      have e1 := lexFrom_leaf_at (src := src) (acc := acc) (stk := stk) h2 (fun c hc => ⟨.inr (h3 c hc).1, (h3 c hc).2⟩) h1
      rw [posOf_span (p := p ++ g) (by rw [hsrc]; simp)] at e1
      obtain ⟨ts', hs, hl, e3⟩ := ih hw (p := p ++ g ++ x) (acc ++ [LexLeaf.tree (.ident x) (stretchSpan (p ++ g) x)]) stk hk (by rw [hsrc]; simp)
      refine ⟨.ident x (stretchSpan (p ++ g) x) :: ts', .ident hs, .ident hg hp hl, ?_⟩
      rw [e1, e3]
      simp [LexLeaf.tree]
  | @lit g x sp ts rest hg hp _ ih =>
    intro hw p k acc stk hk hsrc
    cases hw with
    | lit hx hw =>
      rw [List.append_assoc, lexFrom_gap hg, List.append_assoc]
      obtain ⟨h1, h2, h3⟩ := lexLeaf_lit hx (parts_sep hp hk) (parts_num hp hk)
      have e1 := lexFrom_leaf_at (src := src) (acc := acc) (stk := stk) h2 h3 h1
      rw [posOf_span (p := p ++ g) (by rw [hsrc]; simp)] at e1
      obtain ⟨ts', hs, hl, e3⟩ := ih hw (p := p ++ g ++ x) (acc ++ [LexLeaf.tree (.lit x) (stretchSpan (p ++ g) x)]) stk hk (by rw [hsrc]; simp)
      refine ⟨.lit x (stretchSpan (p ++ g) x) :: ts', .lit hs, .lit hg hp hl, ?_⟩
      rw [e1, e3]
      simp [LexLeaf.tree]
  | @alone g c sp ts rest hg hcl _ ih =>
    intro hw p k acc stk hk hsrc
    cases hw with
    | alone hc hq hw =>
      rw [List.append_assoc, lexFrom_gap hg, List.cons_append]
      obtain ⟨f1, f2⟩ := clear_punct hcl hk
      obtain ⟨h1, h2⟩ := lexLeaf_single hc hq f1 f2
      have hp := punct_facts hc
      have e1 := lexFrom_leaf_at (src := src) (acc := acc) (stk := stk) h2
        (fun d hd => by simp at hd; subst hd; exact ⟨.inr hp.2.2.1, hp.2.2.2.1⟩) h1
      rw [show c :: (rest ++ k) = [c] ++ (rest ++ k) from rfl, posOf_span (p := p ++ g) (by rw [hsrc]; simp)] at e1
      obtain ⟨ts', hs, hl, e3⟩ := ih hw (p := p ++ g ++ [c]) (acc ++ [LexLeaf.tree (.punct c .alone) (stretchSpan (p ++ g) [c])]) stk hk (by rw [hsrc]; simp)
      refine ⟨.punct c .alone (stretchSpan (p ++ g) [c]) :: ts', .punct hs, .alone hg hcl hl, ?_⟩
      rw [show c :: (rest ++ k) = [c] ++ (rest ++ k) from rfl, e1, e3]
      simp [LexLeaf.tree]
  | @joint g c sp ts rest hg ht hl ih =>
    intro hw p k acc stk hk hsrc
    cases hw with
    | @joint _ _ t ts hc hf hw =>
      rw [List.append_assoc, lexFrom_gap hg, List.cons_append]
      have key := layout_joint hc hf hw ht hl hk
      have hp := punct_facts hc
      have e1 := lexFrom_leaf_at (src := src) (acc := acc) (stk := stk) key.2
        (fun d hd => by simp at hd; subst hd; exact ⟨.inr hp.2.2.1, hp.2.2.2.1⟩) key.1
      rw [show c :: (rest ++ k) = [c] ++ (rest ++ k) from rfl, posOf_span (p := p ++ g) (by rw [hsrc]; simp)] at e1
      obtain ⟨ts', hs, hl', e3⟩ := ih hw (p := p ++ g ++ [c]) (acc ++ [LexLeaf.tree (.punct c .joint) (stretchSpan (p ++ g) [c])]) stk hk (by rw [hsrc]; simp)
      refine ⟨.punct c .joint (stretchSpan (p ++ g) [c]) :: ts', .punct hs, .joint hg ht hl', ?_⟩
      rw [show c :: (rest ++ k) = [c] ++ (rest ++ k) from rfl, e1, e3]
      simp [LexLeaf.tree]
  | @group g d o c inner body sp ts rest hg hd _ he _ ih1 ih2 =>
    intro hw p k acc stk hk hsrc
    cases hw with
    | group hw1 hw2 =>
      have ho := delims_facts hd
      rw [List.append_assoc, lexFrom_gap hg, List.cons_append, List.append_assoc, List.cons_append]
      have e1 := lexFrom_open_at (src := src) (acc := acc) (stk := stk) ho.1 (not_errorText hd he (rest ++ k))
      rw [posOf_eq (pre := p ++ g) (by rw [hsrc]; simp)] at e1
      obtain ⟨ts1, hs1, hl1, e2⟩ := ih1 hw1 (p := p ++ g ++ [o]) [] ((posAfter (p ++ g), d, acc) :: stk) (brk_cons ho.2.2.1 (rest ++ k)) (by rw [hsrc]; simp)
      have e3 := lexFrom_close_at (src := src) (s := rest ++ k) (lo := posAfter (p ++ g)) (acc := ts1) (outer := acc) (stk := stk) ho.2.1
      rw [posOf_eq (pre := p ++ g ++ (o :: body ++ [c])) (by rw [hsrc]; simp)] at e3
      obtain ⟨ts2, hs2, hl2, e4⟩ := ih2 hw2 (p := p ++ g ++ (o :: body ++ [c])) (acc ++ [.group d ts1 (stretchSpan (p ++ g) (o :: body ++ [c]))]) stk hk
        (by rw [hsrc]; simp)
      refine ⟨.group d ts1 (stretchSpan (p ++ g) (o :: body ++ [c])) :: ts2, .group hs1 hs2, .group hg hd hl1 he hl2, ?_⟩
      rw [e1, e2, List.nil_append, e3]
      exact e4.trans (by simp)

/-- The tokens of a text that is a layout of its tokens (or of tokens like these) are located where the layout has them. -/
theorem lex_layout_at {ts us : List TT} {x : Text} (h : Layout ts x) (hw : Writable ts) (hl : lex x = some us) : SameShape ts us ∧ LayoutAt [] us x := by
  obtain ⟨ts', hs, ha, e⟩ := layout_reads_at x h hw (p := []) (k := []) [] [] brk_nil (by simp)
  have hl' : lexText x x = .ok ts' := by
    rw [lexText_from]
    rw [List.append_nil] at e
    rw [e]
    exact lexFrom_end _ _
  have hb := layout_bom h hw
  have : lex x = some ts' := by
    rw [lex_some, lexAll_plain hb]
    exact hl'
  rw [this] at hl
  cases hl
  exact ⟨hs, ha⟩

/-! ### putting layouts together -/

omit [Ext]

theorem Spec.Gap.append {g h : Text} (hg : Gap g) (hh : Gap h) : Gap (g ++ h) := by
  induction hg with
  | nil => exact hh
  | white hc _ ih => exact .white hc ih
  | line h1 h2 h3 _ ih => rw [List.cons_append, List.cons_append, List.append_assoc, List.cons_append]; exact .line h1 h2 h3 ih
  | block h1 h2 h3 _ ih => rw [List.append_assoc]; exact .block h1 h2 h3 ih

theorem Spec.Layout.gap {g : Text} (hg : Gap g) {ts : List TT} {x : Text} (h : Layout ts x) : Layout ts (g ++ x) := by
  cases h with
  | nil h1 => exact .nil (hg.append h1)
  | ident h1 h2 h3 => rw [← List.append_assoc]; exact .ident (hg.append h1) h2 h3
  | lit h1 h2 h3 => rw [← List.append_assoc]; exact .lit (hg.append h1) h2 h3
  | alone h1 h2 h3 => rw [← List.append_assoc]; exact .alone (hg.append h1) h2 h3
  | joint h1 h2 h3 => rw [← List.append_assoc]; exact .joint (hg.append h1) h2 h3
  | group h1 h2 h3 h4 h5 => rw [← List.append_assoc]; exact .group (hg.append h1) h2 h3 h4 h5

theorem brk_kind {c : Char} (h : c ∈ breakChars) : lexWhite c = true ∨ c ∈ "()[]{}".toList := by
  have : ∀ c ∈ breakChars, lexWhite c = true ∨ c ∈ "()[]{}".toList := by decide
  exact this c h

theorem brk_not {c : Char} (h : c ∈ breakChars) : c ∉ punctChars := (break_separates c h).punct

/-- What may follow may also follow if it is cut off by white space or a closing delimiter. -/
theorem parts_cut {w a b y : Text} (h : Parts w (a ++ b)) (hy : Brk y) : Parts w (a ++ y) := by
  cases a with
  | nil =>
    refine ⟨fun c hc => ?_, fun _ => ⟨fun hc => brk_not (hy _ hc) (by decide), .inl ⟨fun hc => brk_not (hy _ hc) (by decide), fun hc => brk_not (hy _ hc) (by decide)⟩⟩⟩
    rcases brk_kind (hy c hc) with h | h
    · exact .inl h
    · exact .inr (.inl h)
  | cons c a => exact ⟨h.next, h.number⟩

theorem clear_brk {c : Char} {y : Text} (hy : Brk y) : Clear c y := .inl fun d hd => brk_not (hy d hd)

theorem clear_cut {c : Char} {a b y : Text} (h : Clear c (a ++ b)) (hc : a ≠ [] → ∀ p, p = "//".toList ∨ p = "/*".toList → startsWith p (a ++ b) = true → startsWith p a = true)
    (hy : Brk y) : Clear c (a ++ y) := by
  cases a with
  | nil => exact clear_brk hy
  | cons d a =>
    rcases h with h | ⟨h1, h2⟩
    · exact .inl h
    · refine .inr ⟨h1, ?_⟩
      rcases h2 with h2 | h2
      · obtain ⟨r, hr⟩ := startsWith_iff.mp (hc (by simp) _ (.inl rfl) h2)
        exact .inl (startsWith_iff.mpr ⟨r ++ y, by rw [hr]; simp⟩)
      · obtain ⟨r, hr⟩ := startsWith_iff.mp (hc (by simp) _ (.inr rfl) h2)
        exact .inr (startsWith_iff.mpr ⟨r ++ y, by rw [hr]; simp⟩)

theorem tight_cut {a b y : Text} (h : Tight (a ++ b)) (hne : a ≠ []) (hy : Brk y) : Tight (a ++ y) := by
  cases a with
  | nil => exact absurd rfl hne
  | cons d a =>
    have key : ∀ e f : Char, f ∈ punctChars → startsWith [e, f] (d :: (a ++ b)) = false → startsWith [e, f] (d :: (a ++ y)) = false := by
      intro e f hf h1
      rw [Bool.eq_false_iff] at h1 ⊢
      intro h2
      apply h1
      rw [startsWith_cons2] at h2 ⊢
      refine ⟨h2.1, ?_⟩
      cases a with
      | nil => exact absurd hf (brk_not (hy _ h2.2))
      | cons f' a => exact h2.2
    exact ⟨h.1, key _ _ (by decide) h.2.1, key _ _ (by decide) h.2.2⟩

theorem layout_nonempty {t : TT} {ts : List TT} {x : Text} (h : Layout (t :: ts) x) (hw : Writable (t :: ts)) : x ≠ [] := by
  cases h with
  | ident _ _ _ =>
    cases hw with
    | ident hx _ => obtain ⟨c, cs, rfl, _⟩ := identText_start hx; simp
  | lit _ _ _ =>
    cases hw with
    | lit hx _ =>
      rcases hx with hx | rfl
      · obtain ⟨c, cs, rfl, _⟩ := litText_start hx; simp
      · intro h
        have := congrArg List.length h
        simp at this
  | alone _ _ _ => simp
  | joint _ _ _ => simp
  | group _ _ _ _ _ => simp

/-- One layout after another. -/
theorem layout_append {us cs : List TT} {z y : Text} (h : Layout us z) (hw : Writable us) (hc : Layout cs y) (hy : Brk y) : Layout (us ++ cs) (z ++ y) := by
  induction h with
  | nil hg => exact hc.gap hg
  | @ident g x sp ts rest hg hp _ ih =>
    cases hw with
    | ident _ hw =>
      rw [List.append_assoc, List.append_assoc]
      exact .ident hg (parts_cut (b := []) (by simpa using hp) hy) (ih hw)
  | @lit g x sp ts rest hg hp _ ih =>
    cases hw with
    | lit _ hw =>
      rw [List.append_assoc, List.append_assoc]
      exact .lit hg (parts_cut (b := []) (by simpa using hp) hy) (ih hw)
  | @alone g c sp ts rest hg hp _ ih =>
    cases hw with
    | alone _ _ hw =>
      rw [List.append_assoc, List.cons_append]
      exact .alone hg (clear_cut (b := []) (by simpa using hp) (fun _ p _ h => by simpa using h) hy) (ih hw)
  | @joint g c sp ts rest hg hp hl ih =>
    cases hw with
    | joint _ _ hw =>
      rw [List.append_assoc, List.cons_append]
      exact .joint hg (tight_cut (b := []) (by simpa using hp) (layout_nonempty hl hw) hy) (ih hw)
  | @group g d o c inner body sp ts rest hg hd hl he _ _ ih =>
    cases hw with
    | group _ hw =>
      rw [List.append_assoc, List.cons_append, List.cons_append, List.append_assoc, List.cons_append]
      exact .group hg hd hl he (ih hw)

end Parsel
