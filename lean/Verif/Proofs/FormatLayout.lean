import Verif.Proofs.LayoutAt
import Verif.Proofs.Display

/-! What the formatter writes is a layout of the tokens. -/

namespace Parsel

open Spec

theorem gap_white {w : Text} (h : ∀ c ∈ w, lexWhite c = true) : Gap w := by
  induction w with
  | nil => exact .nil
  | cons c w ih => exact .white (h c List.mem_cons_self) (ih fun d hd => h d (List.mem_cons_of_mem _ hd))

theorem dissolve_writable {ts : List TT} (h : Writable ts) : Writable (dissolve ts) := by
  have app : ∀ {a : List TT}, Writable a → ∀ {b : List TT}, Writable b → Writable (a ++ b) := by
    intro a ha
    induction ha with
    | nil => exact fun hb => hb
    | ident h1 _ ih => exact fun hb => .ident h1 (ih hb)
    | lit h1 _ ih => exact fun hb => .lit h1 (ih hb)
    | alone h1 h2 _ ih => exact fun hb => .alone h1 h2 (ih hb)
    | joint h1 h2 _ ih => exact fun hb => .joint h1 h2 (ih hb)
    | group h1 _ _ ih => exact fun hb => .group h1 (ih hb)
  induction h with
  | nil => exact .nil
  | ident h1 _ ih => exact .ident h1 ih
  | lit h1 _ ih => exact .lit h1 ih
  | alone h1 h2 _ ih => exact .alone h1 h2 ih
  | @joint c sp t ts h1 h2 h3 ih =>
    have : ∀ t, Follows c t → dissolve (t :: ts) = t :: dissolve ts := by
      intro t h
      cases h <;> rfl
    rw [this t h2] at ih
    show Writable (dissolve (.punct c .joint sp :: t :: ts))
    rw [show dissolve (.punct c .joint sp :: t :: ts) = .punct c .joint sp :: dissolve (t :: ts) from rfl, this t h2]
    exact .joint h1 h2 ih
  | @group d inner sp ts _ _ ih1 ih2 =>
    by_cases hd : d = .none
    · subst hd
      simp only [dissolve, dissolveT]
      exact app ih1 ih2
    · rw [dissolve_group hd]
      exact .group ih1 ih2

theorem delims_of (d : Delim) (h : d ≠ .none) : Delims d (openChar d) (closeChar d) := by
  cases d <;> first | exact absurd rfl h | constructor

/-- What the formatter writes is a layout. -/
theorem format_layout {ind : Option Text} (hi : WhiteIndent ind) {ts : List TT} (h : Writable ts) : ∀ (L : Nat), Layout (dissolve ts) (loopText ind L .joint ts) := by
  induction h with
  | nil => exact fun L => .nil .nil
  | @ident x sp ts hx _ ih =>
    intro L
    rw [loop_ident]
    obtain ⟨w, hw, e2⟩ := alone_skip ind L ts
    have hb := brk_alone ind L ts brk_nil
    rw [List.append_nil] at hb
    refine .ident (g := []) .nil (by simpa using parts_cut (w := x) (a := []) (b := []) ⟨by simp, by simp⟩ hb) ?_
    rw [e2]
    exact (ih L).gap (gap_white hw)
  | @lit x sp ts hx _ ih =>
    intro L
    rw [loop_lit]
    obtain ⟨w, hw, e2⟩ := alone_skip ind L ts
    have hb := brk_alone ind L ts brk_nil
    rw [List.append_nil] at hb
    refine .lit (g := []) .nil (by simpa using parts_cut (w := x) (a := []) (b := []) ⟨by simp, by simp⟩ hb) ?_
    rw [e2]
    exact (ih L).gap (gap_white hw)
  | @alone c sp ts hc hq _ ih =>
    intro L
    rw [loop_punct_alone]
    obtain ⟨w, hw, e2⟩ := sep_skip hi L c ts
    have hb := brk_sep hi L c ts brk_nil
    rw [List.append_nil] at hb
    refine .alone (g := []) .nil (clear_brk hb) ?_
    rw [e2]
    exact (ih L).gap (gap_white hw)
  | @joint c sp t ts hc hf ht ih =>
    intro L
    rw [loop_punct_joint]
    refine .joint (g := []) .nil ?_ (ih L)
    have hst := (startOk_loop hi ht L brk_nil).comment
    rw [List.append_nil] at hst
    refine ⟨?_, hst.1, hst.2⟩
    intro d hd
    rw [Bool.eq_false_iff]
    intro hw
    cases hf with
    | @punct _ c' spc sp _ _ =>
      have hc' : c' ∈ punctChars := by cases ht <;> assumption
      have : d = c' := by
        cases spc with
        | alone => rw [loop_punct_alone] at hd; simpa using hd.symm
        | joint => rw [loop_punct_joint] at hd; simpa using hd.symm
      subst this
      exact brk_not (white_break hw) hc'
    | @char _ r sp _ h2 =>
      rw [loop_lit] at hd
      cases r with
      | nil => cases h2
      | cons e r =>
        simp at h2 hd
        subst h2 hd
        revert hw; decide
    | @lifetime x sp =>
      have hx : IdentText x := by cases ht; assumption
      obtain ⟨e, cs, rfl, he⟩ := identText_start hx
      rw [loop_ident] at hd
      simp at hd
      subst hd
      exact (identStart_facts he).1 (white_break hw)
    | @strange r sp i rest hr =>
      have hx : LitText r := by cases ht; assumption
      rw [loop_lit] at hd
      rcases hx with hx | rfl
      · obtain ⟨e, cs, rfl, he⟩ := litText_start hx
        simp at hd
        subst hd
        rcases he with he | he
        · have : ∀ c ∈ "\"rbc'".toList, lexWhite c = false := by decide
          have h2 := this e he
          rw [h2] at hw; cases hw
        · have := (break_separates e (white_break hw)).digit
          rw [this] at he; cases he
      · replace hd : some '(' = some d := hd
        cases hd
        revert hw; decide
  | @group d inner sp ts hin _ ih1 ih2 =>
    intro L
    by_cases hd : d = .none
    · subst hd
      rw [loop_none]
      obtain ⟨w, hw, e2⟩ := alone_skip ind L ts
      simp only [dissolve, dissolveT]
      refine Layout.gap (gap_white (indent_white hi L)) ?_
      have hb := brk_alone ind L ts brk_nil
      rw [List.append_nil] at hb
      refine layout_append (ih1 L) (dissolve_writable hin) ?_ hb
      rw [e2]
      exact (ih2 L).gap (gap_white hw)
    · rw [loop_group ind L d hd, dissolve_group hd]
      have hdl := delims_of d hd
      have hb : ∀ s, Brk (closeChar d :: s) := brk_cons (delims_facts hdl).2.2.1
      have hstart : StartOk (insideText ind L inner ++ [closeChar d]) := by
        cases hinner : inner.isEmpty with
        | true => simp only [insideText, hinner, if_true]; exact startOk_brk (hb _)
        | false =>
          rw [insideText_append ind L hinner]
          have hrest : Brk ((newlineText ind .joint ++ indentText ind L) ++ [closeChar d]) :=
            brk_white (newline_indent_white hi .joint L) (hb _)
          cases hw : newlineText ind .joint ++ indentText ind (L + 1) with
          | nil => exact startOk_loop hi hin (L + 1) hrest
          | cons c w =>
            have hc := newline_indent_white hi .joint (L + 1) c (by rw [hw]; exact List.mem_cons_self)
            exact startOk_brk (brk_cons (white_break hc) _)
      refine .group (g := []) .nil hdl ?_ ?_ ?_
      · cases hinner : inner with
        | nil => exact .nil .nil
        | cons t inner' =>
          rw [← hinner]
          have := insideText_append ind L (inner := inner) (by rw [hinner]; rfl) []
          rw [List.append_nil, List.append_nil] at this
          rw [this]
          refine Layout.gap (gap_white (newline_indent_white hi .joint (L + 1))) ?_
          have := layout_append (cs := []) (ih1 (L + 1)) (dissolve_writable hin) (.nil (gap_white (newline_indent_white hi .joint L)))
            (by have := brk_white (newline_indent_white hi .joint L) brk_nil; rwa [List.append_nil] at this)
          rwa [List.append_nil] at this
      · rw [Bool.eq_false_iff]
        intro hs
        obtain ⟨r, hr⟩ := startsWith_iff.mp hs
        rw [show "(/*ERROR*/)".toList = '(' :: '/' :: '*' :: "ERROR*/)".toList by decide] at hr
        have h1 : insideText ind L inner ++ [closeChar d] = '/' :: '*' :: ("ERROR*/)".toList ++ r) := (List.cons.inj hr).2
        have h2 := hstart.comment.2
        rw [h1] at h2
        exact absurd (startsWith_cons2.mpr ⟨rfl, rfl⟩) (by rw [Bool.eq_false_iff] at h2; exact h2)
      · obtain ⟨w, hw, e4⟩ := after_skip hi L ts
        rw [e4]
        exact (ih2 L).gap (gap_white hw)

/-- What `write_stream` writes is a layout of the tokens, without the invisible groups. -/
theorem write_layout {ind : Option Text} (hi : WhiteIndent ind) {ts : List TT} (h : Writable ts) (L : Nat) : Layout (dissolve ts) (writeText ind L ts) := by
  unfold writeText
  exact (format_layout hi h L).gap (gap_white (indent_white hi L))

variable [Ext]

/-- A leaf displays a layout of its tokens. -/
theorem displayLeaf_layout (laws : FloatLaws) {l : Leaf} {v : LeafVal} {ts : List TT} (hl : LeafText l v) (h : leafToTokens l v = some ts) :
    ∃ text, displayLeaf l v = some text ∧ Layout ts text := by
  obtain ⟨hw, hs⟩ := leafToTokens_writable laws hl h
  have fin : displayLeaf l v = some (loopText none 0 .joint ts) → ∃ text, displayLeaf l v = some text ∧ Layout ts text := by
    intro h1
    have := format_layout (ind := none) (by intro s h; cases h) hw 0
    rw [hs] at this
    exact ⟨_, h1, this⟩
  cases hl with
  | unit => cases h; exact fin rfl
  | @ident l x sp hx => cases h; exact fin (by simp [displayLeaf, loopText, treeText])
  | @keyword kw sp =>
    have h : (if identOk kw then some [TT.ident kw sp] else none) = some ts := h
    split at h
    · cases h; exact fin (by simp [displayLeaf, loopText, treeText])
    · cases h
  | kwToken hx => cases h; exact fin (by simp [displayLeaf, loopText, treeText])
  | @punct tok sps ht hn =>
    have h : some (punctTokens tok sps) = some ts := by
      rw [← h]
      unfold leafToTokens
      split <;> simp_all
    cases h
    exact fin (by rw [loop_punctTokens _ _ hn]; rfl)
  | @lit k l sp =>
    have h : litToTokens l sp = some ts := h
    have hd : displayLeaf (.lit k) (.lit l sp) = litText l := rfl
    rw [hd] at fin ⊢
    rw [litToTokens_text] at h
    by_cases hb : ∃ b, l = .bool b
    · obtain ⟨b, rfl⟩ := hb
      cases h
      exact fin (by simp [litText, loopText, treeText])
    · have h' : (litText l).map (fun r => pushLiteral r sp) = some ts := by
        cases l
        · exact absurd ⟨_, rfl⟩ hb
        all_goals exact h
      cases hr : litText l with
      | none => rw [hr] at h'; cases h'
      | some r =>
        rw [hr] at h' fin
        have h' : pushLiteral r sp = ts := by simpa using h'
        have hs := (litText_signed laws hr).resolve_right hb
        rcases pushLiteral_signed hs sp with ⟨h1, e⟩ | ⟨body, c, cs, er, h1, h2, h3, e⟩
        · rw [e] at h'
          subst h'
          exact fin (by simp [loopText, treeText])
        · rw [e] at h'
          subst h'
          refine ⟨_, rfl, ?_⟩
          rw [er]
          refine .alone (g := []) .nil ?_ ?_
          · subst h2
            refine .inl fun d hd => ?_
            simp at hd
            subst hd
            intro hm
            have : ∀ c ∈ punctChars, c.isDigit = false := by decide
            rw [this _ hm] at h3
            cases h3
          · have := Layout.lit (x := body) (sp := sp) (ts := []) (rest := []) (g := []) .nil ⟨by simp, by simp⟩ (.nil .nil)
            simpa using this

theorem formatNode_layout (laws : FloatLaws) (alternate : Bool) {v : Val} {ts : List TT} (hv : HasText v) (h : v.toTokens = some ts) :
    ∃ text, (formatNode .reliable alternate v).map Prod.fst = some text ∧ Layout ts text := by
  obtain ⟨hw, hs⟩ := toTokens_writable laws hv h
  have hi : WhiteIndent (if alternate then none else some "    ".toList) := by
    cases alternate
    · exact pretty_white
    · intro s h; cases h
  have h2 := write_layout hi hw 0
  rw [hs] at h2
  refine ⟨_, ?_, h2⟩
  unfold formatNode
  rw [h]
  simp only [Option.map_some, formatTokens_reliable]

/-- `Display` writes a layout of the tokens. -/
theorem display_layout (laws : FloatLaws) (alternate : Bool) {env : Env} : ∀ {v : Val} {t : Ty} {ts : List TT}, HasTy env t v → HasText v →
    v.toTokens = some ts → ∃ text, display alternate v = some text ∧ Layout ts text
  | .leaf l v, t, ts, _, hv, h => by
    rw [display]
    exact displayLeaf_layout laws hv h
  | .group d sp v, t, ts, _, hv, h => by
    simp only [display]
    exact formatNode_layout laws alternate hv h
  | .node tag vs, t, ts, ht, hv, h => by
    by_cases he : tag = .eitherLeft ∨ tag = .eitherRight
    · obtain ⟨t', w, rfl, hw⟩ := either_single ht rfl he
      have hwt : HasText w := hv.1
      rw [toTokens_single] at h
      have := display_layout laws alternate hw hwt h
      rcases he with rfl | rfl
      · simpa only [display, displayOnly] using this
      · simpa only [display, displayOnly] using this
    · have : display alternate (.node tag vs) = (formatNode .reliable alternate (.node tag vs)).map Prod.fst := by
        cases tag <;> simp_all [display]
      rw [this]
      exact formatNode_layout laws alternate hv h

end Parsel
