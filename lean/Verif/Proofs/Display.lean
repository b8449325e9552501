import Verif.Proofs.ValText
import Verif.Proofs.Layout
import Verif.Spec.Progress

/-! What `Display` writes. -/

namespace Parsel

open Spec

variable [Ext]

theorem loop_punctTokens : ∀ (tok : Text) (sps : List Span), sps.length = tok.length → loopText none 0 .joint (punctTokens tok sps) = tok := by
  intro tok
  induction tok with
  | nil => intro sps h; cases sps <;> rfl
  | cons c cs ih =>
    intro sps h
    cases sps with
    | nil => simp at h
    | cons sp sps =>
      simp at h
      cases cs with
      | nil =>
        have : sps = [] := by simpa using h
        subst this
        simp [punctTokens, loopText, treeText]
      | cons d ds =>
        have e : punctTokens (c :: d :: ds) (sp :: sps) = .punct c .joint sp :: punctTokens (d :: ds) sps := rfl
        have hi := ih sps h
        rw [e]
        simp only [loopText, treeText, hi]
        simp

/-- A minus sign directly before a number. -/
theorem lexLeaf_minus {k : Text} (hk : punctChar k = none) : lexLeaf ('-' :: k) = some (.punct '-' .alone, k) ∧ TokStart ('-' :: k) := by
  have hn : NoComment ('-' :: k) := slash_head (by simp)
  refine ⟨?_, tokStart_cons (by decide) (by decide)⟩
  unfold lexLeaf
  rw [lexLiteral_punct (by decide) (by decide)]
  have : lexPunct ('-' :: k) = some ('-', .alone, k) := by
    unfold lexPunct
    rw [punctChar_some (by decide) hn]
    simp only [Option.bind_some, hk]
    rfl
  rw [this]

theorem lex_minus {body : Text} {c : Char} {cs : Text} (hb : LitText body) (e : body = c :: cs) (hc : c.isDigit = true) (sp : Span) :
    ∃ ts', lex ('-' :: body) = some ts' ∧ SameShape [.punct '-' .alone sp, .lit body sp] ts' := by
  have hp : punctChar body = none := by
    rw [e]
    apply punctChar_none
    intro h
    have := (punct_facts h).2.1
    rw [hc] at this; cases this
  obtain ⟨h1, h2⟩ := lexLeaf_minus hp
  obtain ⟨sp1, e1⟩ := lexFrom_leaf (src := '-' :: body) (acc := []) (stk := []) h2 (fun d hd => by simp at hd; subst hd; exact ⟨.inr (by decide), by decide⟩) h1
  obtain ⟨k1, k2, k3⟩ := lexLeaf_lit hb brk_nil.sep (fun _ => brk_nil.numSep _)
  rw [List.append_nil] at k1 k2 k3
  obtain ⟨sp2, e2⟩ := lexFrom_leaf (src := '-' :: body) (acc := [] ++ [LexLeaf.tree (.punct '-' .alone) sp1]) (stk := []) k2 k3 k1
  refine ⟨[.punct '-' .alone sp1, .lit body sp2], ?_, .punct (.lit .nil)⟩
  have : lexAll ('-' :: body) = lexText ('-' :: body) ('-' :: body) := rfl
  rw [lex_some, this, lexText_from, e1, e2, lexFrom_end]
  rfl

theorem text_reads {ts : List TT} (h : Writable ts) (hs : Solid ts) : ∃ ts', lex (loopText none 0 .joint ts) = some ts' ∧ SameShape ts ts' := by
  obtain ⟨ts', h1, h2⟩ := lex_writeText (ind := none) (by intro s h; cases h) h 0
  rw [hs] at h2
  exact ⟨ts', h1, h2⟩

theorem texts_punctTokens : ∀ (tok : Text) (sps : List Span), sps.length = tok.length → (texts (punctTokens tok sps)).flatten = tok := by
  intro tok
  induction tok with
  | nil => intro sps h; cases sps <;> rfl
  | cons c cs ih =>
    intro sps h
    cases sps with
    | nil => simp at h
    | cons sp sps =>
      simp at h
      cases cs with
      | nil =>
        have : sps = [] := by simpa using h
        subst this
        rfl
      | cons d ds =>
        have e : punctTokens (c :: d :: ds) (sp :: sps) = .punct c .joint sp :: punctTokens (d :: ds) sps := rfl
        rw [e]
        simp only [texts, textsT, List.singleton_append, List.flatten_cons, ih sps h]

theorem spaced_flatten {p : Char → Prop} : ∀ (ts : List Text), Spaced p ts ts.flatten
  | [] => .nil (by simp)
  | t :: ts => by rw [List.flatten_cons]; exact Spec.Spaced.piece t (spaced_flatten ts)

/-- A leaf displays exactly the text of its tokens, without separators, and that text reads back as these tokens. -/
theorem displayLeaf_reads (laws : FloatLaws) {l : Leaf} {v : LeafVal} {ts : List TT} (hl : LeafText l v) (h : leafToTokens l v = some ts) :
    ∃ ts', displayLeaf l v = some (texts ts).flatten ∧ lex (texts ts).flatten = some ts' ∧ SameShape ts ts' := by
  obtain ⟨hw, hs⟩ := leafToTokens_writable laws hl h
  have fin : displayLeaf l v = some (texts ts).flatten → loopText none 0 .joint ts = (texts ts).flatten →
      ∃ ts', displayLeaf l v = some (texts ts).flatten ∧ lex (texts ts).flatten = some ts' ∧ SameShape ts ts' := by
    intro h1 h2
    obtain ⟨ts', k1, k2⟩ := text_reads hw hs
    rw [h2] at k1
    exact ⟨ts', h1, k1, k2⟩
  cases hl with
  | unit => cases h; exact fin (by simp [displayLeaf, texts]) rfl
  | @ident l x sp hx => cases h; exact fin (by simp [displayLeaf, texts, textsT]) (by simp [loopText, treeText, texts, textsT])
  | @keyword kw sp =>
    have h : (if identOk kw then some [TT.ident kw sp] else none) = some ts := h
    split at h
    · cases h; exact fin (by simp [displayLeaf, texts, textsT]) (by simp [loopText, treeText, texts, textsT])
    · cases h
  | kwToken hx => cases h; exact fin (by simp [displayLeaf, texts, textsT]) (by simp [loopText, treeText, texts, textsT])
  | @punct tok sps ht hn =>
    have h : some (punctTokens tok sps) = some ts := by
      rw [← h]
      unfold leafToTokens
      split <;> simp_all
    cases h
    exact fin (by rw [texts_punctTokens _ _ hn]; rfl) (by rw [loop_punctTokens _ _ hn, texts_punctTokens _ _ hn])
  | @lit k l sp =>
    have h : litToTokens l sp = some ts := h
    have hd : displayLeaf (.lit k) (.lit l sp) = litText l := rfl
    rw [hd] at fin ⊢
    rw [litToTokens_text] at h
    by_cases hb : ∃ b, l = .bool b
    · obtain ⟨b, rfl⟩ := hb
      cases h
      exact fin (by simp [litText, texts, textsT]) (by simp [loopText, treeText, texts, textsT])
    · have h' : (litText l).map (fun r => pushLiteral r sp) = some ts := by
        cases l
        · exact absurd ⟨_, rfl⟩ hb
        all_goals exact h
      cases hr : litText l with
      | none => rw [hr] at h'; cases h'
      | some r =>
        rw [hr] at h' fin
        have h' : pushLiteral r sp = ts := by simpa using h'
        have hs := (litText_signed laws hr).resolve_right hb
        rcases pushLiteral_signed hs sp with ⟨h1, e⟩ | ⟨body, c, cs, er, h1, h2, h3, e⟩
        · rw [e] at h'
          subst h'
          exact fin (by simp [texts, textsT]) (by simp [loopText, treeText, texts, textsT])
        · rw [e] at h'
          subst h'
          have et : (texts [TT.punct '-' .alone sp, .lit body sp]).flatten = '-' :: body := by simp [texts, textsT]
          rw [et, er]
          obtain ⟨ts', k1, k2⟩ := lex_minus h1 h2 h3 sp
          exact ⟨ts', rfl, k1, k2⟩

omit [Ext] in
theorem pretty_white : WhiteIndent (some "    ".toList) := by
  intro s h c hc
  cases h
  revert c
  decide

/-- `format_ast_node` writes the tokens, and what it writes reads back. -/
theorem formatNode_reads (laws : FloatLaws) (alternate : Bool) {v : Val} {ts : List TT} (hv : HasText v) (h : v.toTokens = some ts) :
    ∃ text ts', (formatNode .reliable alternate v).map Prod.fst = some text ∧
      Spaced (fun c => c = ' ' ∨ alternate = false ∧ c = '\n') (texts ts) text ∧ lex text = some ts' ∧ SameShape ts ts' := by
  obtain ⟨hw, hs⟩ := toTokens_writable laws hv h
  have hi : WhiteIndent (if alternate then none else some "    ".toList) := by
    cases alternate
    · exact pretty_white
    · intro s h; cases h
  obtain ⟨ts', h1, h2⟩ := lex_writeText hi hw 0
  rw [hs] at h2
  refine ⟨_, ts', ?_, ?_, h1, h2⟩
  · unfold formatNode
    rw [h]
    simp only [Option.map_some, formatTokens_reliable]
  · refine Spec.Spaced.imp ?_ (writeText_spaced _ 0 ts)
    rintro c (hc | ⟨s, hs, hc⟩)
    · exact .inl hc
    · cases alternate with
      | true => cases hs
      | false =>
        cases hs
        rcases hc with hc | hc
        · exact .inr ⟨rfl, hc⟩
        · left; revert c; decide

theorem either_single {env : Env} {t : Ty} {v : Val} : HasTy env t v → ∀ {tag vs}, v = .node tag vs → (tag = .eitherLeft ∨ tag = .eitherRight) →
    ∃ t' w, vs = [w] ∧ HasTy env t' w
  | .boxed h, _, _, e, ht => either_single h e ht
  | .left h, _, _, e, ht => by cases e; exact ⟨_, _, rfl, h⟩
  | .right h, _, _, e, ht => by cases e; exact ⟨_, _, rfl, h⟩
  | .leaf _, _, _, e, ht => by cases e
  | .struct .., _, _, e, ht => by cases e; simp at ht
  | .enum .., _, _, e, ht => by cases e; simp at ht
  | .absent, _, _, e, ht => by cases e; simp at ht
  | .present .., _, _, e, ht => by cases e; simp at ht
  | .paren _, _, _, e, ht => by cases e
  | .bracket _, _, _, e, ht => by cases e
  | .brace _, _, _, e, ht => by cases e
  | .punctuated .., _, _, e, ht => by cases e; simp at ht
  | .separated .., _, _, e, ht => by cases e; simp at ht
  | .any .., _, _, e, ht => by cases e; simp at ht
  | .leftRhs .., _, _, e, ht => by cases e; simp at ht
  | .leftBin .., _, _, e, ht => by cases e; simp at ht
  | .rightLhs .., _, _, e, ht => by cases e; simp at ht
  | .rightBin .., _, _, e, ht => by cases e; simp at ht

theorem toTokens_single (tag : Tag) (w : Val) : (Val.node tag [w]).toTokens = w.toTokens := by
  simp only [Val.toTokens, Val.toTokensL]
  cases w.toTokens <;> simp

/-- `Display` writes the tokens of the value, and what it writes reads back. -/
theorem display_reads (laws : FloatLaws) (alternate : Bool) {env : Env} : ∀ {v : Val} {t : Ty} {ts : List TT}, HasTy env t v → HasText v →
    v.toTokens = some ts → ∃ text ts', display alternate v = some text ∧
      Spaced (fun c => c = ' ' ∨ alternate = false ∧ c = '\n') (texts ts) text ∧ lex text = some ts' ∧ SameShape ts ts'
  | .leaf l v, t, ts, _, hv, h => by
    obtain ⟨ts', h1, h2, h3⟩ := displayLeaf_reads laws hv h
    exact ⟨_, ts', by rw [display]; exact h1, spaced_flatten _, h2, h3⟩
  | .group d sp v, t, ts, _, hv, h => by
    simp only [display]
    exact formatNode_reads laws alternate hv h
  | .node tag vs, t, ts, ht, hv, h => by
    by_cases he : tag = .eitherLeft ∨ tag = .eitherRight
    · obtain ⟨t', w, rfl, hw⟩ := either_single ht rfl he
      have hwt : HasText w := hv.1
      rw [toTokens_single] at h
      have := display_reads laws alternate hw hwt h
      rcases he with rfl | rfl
      · simpa only [display, displayOnly] using this
      · simpa only [display, displayOnly] using this
    · have : display alternate (.node tag vs) = (formatNode .reliable alternate (.node tag vs)).map Prod.fst := by
        cases tag <;> simp_all [display]
      rw [this]
      exact formatNode_reads laws alternate hv h

end Parsel
