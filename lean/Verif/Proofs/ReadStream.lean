import Verif.Proofs.ReadBack

/-! What the formatter writes is read back as the same tokens: whole streams. -/

namespace Parsel

open Spec

theorem errorText_eq : errorText = '(' :: '/' :: '*' :: "ERROR*/)".toList := by decide

theorem insideText_append (ind : Option Text) (L : Nat) {inner : List TT} (h : inner.isEmpty = false) (s : Text) : insideText ind L inner ++ s =
    (newlineText ind .joint ++ indentText ind (L + 1)) ++ (loopText ind (L + 1) .joint inner ++ ((newlineText ind .joint ++ indentText ind L) ++ s)) := by
  simp [insideText, h]

variable [Ext]

/-- Reading the written text: the tokens that are added. -/
theorem readBack {ind : Option Text} (hi : WhiteIndent ind) (src : Text) {ts : List TT} (h : Writable ts) : ∀ (L : Nat) {k : Text} (acc : List TT)
    (stk : List (LineCol × Delim × List TT)), Brk k →
    ∃ ts', SameShape (dissolve ts) ts' ∧ lexFrom src ⟨loopText ind L .joint ts ++ k, acc, stk⟩ = lexFrom src ⟨k, acc ++ ts', stk⟩ := by
  induction h with
  | nil =>
    intro L k acc stk _
    exact ⟨[], .nil, by simp [loopText]⟩
  | @ident x sp ts hx _ ih =>
    intro L k acc stk hk
    rw [loop_ident, List.append_assoc]
    obtain ⟨h1, h2, h3⟩ := lexLeaf_ident hx (brk_alone ind L ts hk).sep
    obtain ⟨sp', e1⟩ := lexFrom_leaf (src := src) (acc := acc) (stk := stk) h2 (fun c hc => ⟨.inr (h3 c hc).1, (h3 c hc).2⟩) h1
    obtain ⟨w, hw, e2⟩ := alone_skip ind L ts
    obtain ⟨ts', hs, e3⟩ := ih L (acc ++ [LexLeaf.tree (.ident x) sp']) stk hk
    refine ⟨.ident x sp' :: ts', .ident hs, ?_⟩
    rw [e1, e2, List.append_assoc, lexFrom_white hw, e3]
    simp [LexLeaf.tree]
  | @lit r sp ts hr _ ih =>
    intro L k acc stk hk
    rw [loop_lit, List.append_assoc]
    obtain ⟨h1, h2, h3⟩ := lexLeaf_lit hr (brk_alone ind L ts hk).sep (fun _ => (brk_alone ind L ts hk).numSep _)
    obtain ⟨sp', e1⟩ := lexFrom_leaf (src := src) (acc := acc) (stk := stk) h2 h3 h1
    obtain ⟨w, hw, e2⟩ := alone_skip ind L ts
    obtain ⟨ts', hs, e3⟩ := ih L (acc ++ [LexLeaf.tree (.lit r) sp']) stk hk
    refine ⟨.lit r sp' :: ts', .lit hs, ?_⟩
    rw [e1, e2, List.append_assoc, lexFrom_white hw, e3]
    simp [LexLeaf.tree]
  | @alone c sp ts hc hq _ ih =>
    intro L k acc stk hk
    rw [loop_punct_alone, List.cons_append]
    obtain ⟨h1, h2⟩ := lexLeaf_alone hc hq (brk_sep hi L c ts hk)
    have hp := punct_facts hc
    obtain ⟨sp', e1⟩ := lexFrom_leaf (src := src) (acc := acc) (stk := stk) h2
      (fun d hd => by simp at hd; subst hd; exact ⟨.inr hp.2.2.1, hp.2.2.2.1⟩) h1
    obtain ⟨w, hw, e2⟩ := sep_skip hi L c ts
    obtain ⟨ts', hs, e3⟩ := ih L (acc ++ [LexLeaf.tree (.punct c .alone) sp']) stk hk
    refine ⟨.punct c .alone sp' :: ts', .punct hs, ?_⟩
    rw [e1, e2, List.append_assoc, lexFrom_white hw, e3]
    simp [LexLeaf.tree]
  | @joint c sp t ts hc hf ht ih =>
    intro L k acc stk hk
    rw [loop_punct_joint, List.cons_append]
    have key : lexLeaf (c :: (loopText ind L .joint (t :: ts) ++ k)) = some (.punct c .joint, loopText ind L .joint (t :: ts) ++ k) ∧
        TokStart (c :: (loopText ind L .joint (t :: ts) ++ k)) := by
      by_cases hq : c = '\''
      · subst hq
        cases hf with
        | punct h => exact absurd rfl h
        | char h => exact absurd rfl h
        | @lifetime x sp =>
          rw [loop_ident, List.append_assoc]
          have hx : IdentText x := by cases ht; assumption
          have hb := brk_alone ind L ts hk
          refine lexLeaf_quote (i := x) (rest := loopText ind L .alone ts ++ k) (by simpa using lexIdentAny_append hx hb.sep) ?_ ?_
          · exact brk_head hb (by decide)
          · exact brk_head hb (by decide)
        | @strange r sp i rest hr =>
          rw [loop_lit, List.append_assoc]
          have hb := brk_alone ind L ts hk
          exact lexLeaf_quote (lexIdentAny_append hr hb.sep) (by simp) (by simp)
      · obtain ⟨c', s, he, hn, hh⟩ := follows_head (ind := ind) (L := L) hf ts hq k
        have hst := startOk_loop hi ht L hk
        rw [he] at hst ⊢
        refine lexLeaf_joint hc hq ?_ hn hst.comment
        rcases hh with ⟨spc, sp, rfl⟩ | rfl
        · cases ht <;> assumption
        · decide
    have hp := punct_facts hc
    obtain ⟨sp', e1⟩ := lexFrom_leaf (src := src) (acc := acc) (stk := stk) key.2
      (fun d hd => by simp at hd; subst hd; exact ⟨.inr hp.2.2.1, hp.2.2.2.1⟩) key.1
    obtain ⟨ts', hs, e3⟩ := ih L (acc ++ [LexLeaf.tree (.punct c .joint) sp']) stk hk
    refine ⟨.punct c .joint sp' :: ts', .punct hs, ?_⟩
    rw [e1, e3]
    simp [LexLeaf.tree]
  | @group d inner sp ts hin _ ih1 ih2 =>
    intro L k acc stk hk
    by_cases hd : d = .none
    · subst hd
      rw [loop_none, List.append_assoc, List.append_assoc, lexFrom_white (indent_white hi L)]
      obtain ⟨ts1, hs1, e1⟩ := ih1 L acc stk (brk_alone ind L ts hk)
      obtain ⟨w, hw, e2⟩ := alone_skip ind L ts
      obtain ⟨ts2, hs2, e3⟩ := ih2 L (acc ++ ts1) stk hk
      refine ⟨ts1 ++ ts2, ?_, ?_⟩
      · simp only [dissolve, dissolveT]; exact hs1.append hs2
      · rw [e1, e2, List.append_assoc, lexFrom_white hw, e3, List.append_assoc]
    · rw [loop_group ind L d hd, List.cons_append, List.append_assoc]
      have ho : openDelim (openChar d) = some d ∧ closeDelim (closeChar d) = some d ∧ closeChar d ∈ breakChars := by
        cases d <;> first | exact absurd rfl hd | decide
      have hb : ∀ s, Brk (closeChar d :: s) := brk_cons ho.2.2
      have hstart : StartOk (insideText ind L inner ++ (closeChar d :: afterText ind L ts ++ k)) := by
        cases hinner : inner.isEmpty with
        | true => simp only [insideText, hinner, if_true]; exact startOk_brk (hb _)
        | false =>
          rw [insideText_append ind L hinner]
          have hrest : Brk ((newlineText ind .joint ++ indentText ind L) ++ (closeChar d :: afterText ind L ts ++ k)) :=
            brk_white (newline_indent_white hi .joint L) (hb _)
          cases hw : newlineText ind .joint ++ indentText ind (L + 1) with
          | nil => exact startOk_loop hi hin (L + 1) hrest
          | cons c w =>
            have hc := newline_indent_white hi .joint (L + 1) c (by rw [hw]; exact List.mem_cons_self)
            exact startOk_brk (brk_cons (white_break hc) _)
      have herr : startsWith errorText (openChar d :: (insideText ind L inner ++ (closeChar d :: afterText ind L ts ++ k))) = false := by
        rw [Bool.eq_false_iff]
        intro hs
        obtain ⟨r, hr⟩ := startsWith_iff.mp hs
        rw [errorText_eq] at hr
        have h1 : insideText ind L inner ++ (closeChar d :: afterText ind L ts ++ k) = '/' :: '*' :: ("ERROR*/)".toList ++ r) := (List.cons.inj hr).2
        have h2 := hstart.comment.2
        rw [h1] at h2
        exact absurd (startsWith_cons2.mpr ⟨rfl, rfl⟩) (by rw [Bool.eq_false_iff] at h2; exact h2)
      obtain ⟨lo, e1⟩ := lexFrom_open (src := src) (acc := acc) (stk := stk) ho.1 herr
      have hin' : ∃ ts1, SameShape (dissolve inner) ts1 ∧
          lexFrom src ⟨insideText ind L inner ++ (closeChar d :: afterText ind L ts ++ k), [], (lo, d, acc) :: stk⟩ =
            lexFrom src ⟨closeChar d :: afterText ind L ts ++ k, ts1, (lo, d, acc) :: stk⟩ := by
        cases inner with
        | nil => exact ⟨[], .nil, rfl⟩
        | cons t inner =>
          rw [insideText_append ind L rfl, lexFrom_white (newline_indent_white hi .joint (L + 1))]
          obtain ⟨ts1, hs1, e⟩ := ih1 (L + 1) [] ((lo, d, acc) :: stk)
            (brk_white (newline_indent_white hi .joint L) (hb (afterText ind L ts ++ k)))
          refine ⟨ts1, hs1, ?_⟩
          rw [List.cons_append, e, lexFrom_white (newline_indent_white hi .joint L)]
          rfl
      obtain ⟨ts1, hs1, e2⟩ := hin'
      obtain ⟨sp', e3⟩ := lexFrom_close (src := src) (s := afterText ind L ts ++ k) (lo := lo) (acc := ts1) (outer := acc) (stk := stk) ho.2.1
      obtain ⟨w, hw, e4⟩ := after_skip hi L ts
      obtain ⟨ts2, hs2, e5⟩ := ih2 L (acc ++ [.group d ts1 sp']) stk hk
      refine ⟨.group d ts1 sp' :: ts2, ?_, ?_⟩
      · rw [dissolve_group hd]; exact .group hs1 hs2
      · rw [e1, e2]
        rw [List.cons_append, e3, e4, List.append_assoc, lexFrom_white hw, e5]
        simp

/-- Reading what the formatter wrote from a fresh start. -/
theorem lex_writeText {ind : Option Text} (hi : WhiteIndent ind) {ts : List TT} (h : Writable ts) (L : Nat) :
    ∃ ts', lex (writeText ind L ts) = some ts' ∧ SameShape (dissolve ts) ts' := by
  obtain ⟨ts', hs, e⟩ := readBack hi (writeText ind L ts) h L (k := []) [] [] brk_nil
  refine ⟨ts', ?_, hs⟩
  have hl : lexText (writeText ind L ts) (writeText ind L ts) = .ok ts' := by
    rw [lexText_from]
    conv in LexState.mk _ _ _ => rw [show writeText ind L ts = indentText ind L ++ (loopText ind L .joint ts ++ []) by simp [writeText]]
    rw [lexFrom_white (indent_white hi L), e]
    exact lexFrom_end _ _
  have hb : ∀ c, (writeText ind L ts).head? = some c → c.toNat ≠ 0xFEFF := by
    have hst := startOk_loop hi h L brk_nil
    rw [List.append_nil] at hst
    intro c hc
    unfold writeText at hc
    cases hw : indentText ind L with
    | nil => rw [hw] at hc; exact hst.bom c hc
    | cons d w =>
      rw [hw] at hc
      simp at hc
      subst hc
      exact bom_break d (white_break (indent_white hi L d (by rw [hw]; exact List.mem_cons_self)))
  rw [lex_some, lexAll_plain hb]
  exact hl

end Parsel
