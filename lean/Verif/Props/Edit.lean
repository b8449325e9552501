import Verif.Proofs.Edit
import Verif.Proofs.FormatLayout
import Verif.Props.Language
import Verif.Props.Layout

/-! C78: the text of a node can be replaced in the source. -/

namespace Parsel
open Spec

section
variable [Ext]

omit [Ext] in
theorem layout_visible {ts : List TT} {x : Text} (h : Layout ts x) : Visible ts := by
  induction h with
  | nil => exact visible_nil
  | ident _ _ _ ih => exact visible_cons (by simp) ih
  | lit _ _ _ ih => exact visible_cons (by simp) ih
  | alone _ _ _ ih => exact visible_cons (by simp) ih
  | joint _ _ _ ih => exact visible_cons (by simp) ih
  | group _ hd _ _ _ ih1 ih2 =>
    refine visible_cons ?_ ih2
    intro d i s h
    simp only [TT.group.injEq] at h
    obtain ⟨rfl, rfl, _⟩ := h
    exact ⟨by rintro rfl; (cases hd), ih1⟩

omit [Ext] in
theorem sameShape_split {x y b : List TT} : ∀ {a : List TT}, SameShape (a ++ x ++ y) b → ∃ a' x' y', b = a' ++ x' ++ y' ∧ SameShape x x'
  | [], h => by
    rw [List.nil_append] at h
    have : ∀ {x b : List TT}, SameShape (x ++ y) b → ∃ x' y', b = x' ++ y' ∧ SameShape x x' := by
      intro x
      induction x with
      | nil => exact fun {b} _ => ⟨[], b, rfl, .nil⟩
      | cons t x ih =>
        intro b h
        cases h with
        | ident h => obtain ⟨x', y', rfl, h2⟩ := ih h; exact ⟨_ :: x', y', rfl, .ident h2⟩
        | punct h => obtain ⟨x', y', rfl, h2⟩ := ih h; exact ⟨_ :: x', y', rfl, .punct h2⟩
        | lit h => obtain ⟨x', y', rfl, h2⟩ := ih h; exact ⟨_ :: x', y', rfl, .lit h2⟩
        | group h1 h => obtain ⟨x', y', rfl, h2⟩ := ih h; exact ⟨_ :: x', y', rfl, .group h1 h2⟩
    obtain ⟨x', y', rfl, h2⟩ := this h
    exact ⟨[], x', y', rfl, h2⟩
  | t :: a, h => by
    cases h with
    | ident h => obtain ⟨a', x', y', rfl, h2⟩ := sameShape_split (a := a) h; exact ⟨_ :: a', x', y', rfl, h2⟩
    | punct h => obtain ⟨a', x', y', rfl, h2⟩ := sameShape_split (a := a) h; exact ⟨_ :: a', x', y', rfl, h2⟩
    | lit h => obtain ⟨a', x', y', rfl, h2⟩ := sameShape_split (a := a) h; exact ⟨_ :: a', x', y', rfl, h2⟩
    | group h1 h => obtain ⟨a', x', y', rfl, h2⟩ := sameShape_split (a := a) h; exact ⟨_ :: a', x', y', rfl, h2⟩

omit [Ext] in
theorem sameShape_segment {x a : List TT} (h : Segment x a) : ∀ {b : List TT}, SameShape a b → ∃ x', SameShape x x' ∧ Segment x' b := by
  induction h with
  | here =>
    intro b hb
    obtain ⟨a', x', y', rfl, h⟩ := sameShape_split hb
    exact ⟨x', h, .here⟩
  | @inside a d inner sp c _ ih =>
    intro b hb
    have hb' : SameShape (a ++ [.group d inner sp] ++ c) b := by simpa using hb
    obtain ⟨a', x', y', rfl, h⟩ := sameShape_split hb'
    cases h with
    | group h1 h2 =>
      cases h2
      obtain ⟨x', h3, h4⟩ := ih h1
      exact ⟨x', h3, by rw [List.append_assoc]; exact .inside h4⟩

omit [Ext] in
theorem noMinusZero_shape {a b : List TT} (h : SameShape a b) (ha : Visible a) (hb : Visible b) (hz : NoMinusZero b) : NoMinusZero a := by
  intro spc sp r sp' hs
  rw [dissolve_visible ha] at hs
  obtain ⟨x', h1, h2⟩ := sameShape_segment hs h
  cases h1 with
  | punct h1 =>
    cases h1 with
    | lit h1 =>
      cases h1
      exact hz _ _ r _ (by rw [dissolve_visible hb]; exact h2)

/-- **C78.** In a grammar as in C76: `src` is a text that is laid out as in C66 and accepted as `v`; `w` is a node of `v` that has tokens; `v'` is `v` with `w'` in
the place of `w`, and a value of the type.  Then the location of `w` cuts `src` into the text before, of and after the node, and whatever text `z` of `w'` is put
in the place of the old one, with a space before and after it: the new text is accepted as `v'`, locations aside.  (The new text must have no `-0` in it: C30.) -/
theorem C78_edit (laws : FloatLaws) (signs : SignLaws) {env : Env} {G : List Ty} {n : Nat} (hG : ll1 env G n = true) {t : Ty}
    (ht : t ∈ G) (he : closesAtEnd env G n t = true) (hj : separable env G n = true)
    {src : Text} {ts : List TT} (hl : lex src = some ts) (hlay : Layout ts src) {v : Val} (ha : AcceptsStr env t src v) {w w' v' : Val} (hrep : Replaced w w' v v')
    (hv' : HasTy env t v') (hs' : Survives v') (hp : v'.toTokens ≠ none) {out : List TT} (ho : w.toTokens = some out) (hne : out ≠ []) :
    ∃ pre mid post, src = pre ++ mid ++ post ∧ nodeSpan out = stretchSpan pre mid ∧ sourceSubstring src (nodeSpan out) = some mid ∧
      ∀ us z, Layout us z → Writable us → Reads false w' us →
        (∀ ts', lex (pre ++ " ".toList ++ z ++ " ".toList ++ post) = some ts' → NoMinusZero ts') →
        ∃ u, AcceptsStr env t (pre ++ " ".toList ++ z ++ " ".toList ++ post) u ∧ Alike v' u := by
  obtain ⟨ts0, hl0, hacc, hr⟩ := acceptsStr_reads ha
  rw [hl] at hl0
  cases hl0
  have hvis := C60_visible hl
  have hw := (lex_writable hl).1
  obtain ⟨_, hat⟩ := lex_layout_at hlay hw hl
  obtain ⟨pl, b, e, hrb, hre⟩ := reads_replaced hrep hvis hr
  subst e
  -- the node's tokens
  obtain ⟨bom, x, _, hs, hla⟩ := C60_lexed hl
  have hpl := placed_laid hla (src := src) (post := []) (by simpa using hs)
  have hb := placed_segment (pl.segment b) hpl
  have hvb : Visible b := by
    have := pl.segment b
    clear hrb hre hb hpl hla hat hr hacc hlay
    generalize pl.fill b = ts at this hvis
    clear hl hw
    induction this with
    | here => exact hvis.left.right
    | inside _ ih => exact ih hvis.right.inner
  have hm := reads_spans w false b out hvb hrb ho
  have hpw : (b.map TT.span).Pairwise SpanLe := by cases hb with | mk h _ _ => exact h
  obtain ⟨k1, k2⟩ := hm.keeps hpw
  have hbne : b ≠ [] := by
    rintro rfl
    exact hne (List.map_eq_nil_iff.mp hm.of_nil)
  obtain ⟨pre, mid, post, hed⟩ := edit_place hbne hat hw
  have esp := hed.span
  rw [List.nil_append] at esp
  rw [esp] at k2
  have hsp : nodeSpan out = stretchSpan pre mid := nodeSpan_edges k1 k2
  have etext : src = pre ++ mid ++ post := by rw [hed.text]; simp
  refine ⟨pre, mid, post, etext, hsp, ?_, ?_⟩
  · rw [hsp, etext]
    exact (C46_byte_range pre mid post).2
  intro us z hz hu hru hmz
  have en : pre ++ " ".toList ++ z ++ " ".toList ++ post = pre ++ ' ' :: (z ++ ' ' :: post) := by
    rw [show " ".toList = [' '] by decide]; simp
  rw [en] at hmz ⊢
  have hlay' := hed.lays us z hz hu
  have hq : NoQuotes (pl.fill b) := by
    refine reads_quiet hvis hr ?_
    obtain ⟨s', n, hn⟩ := accepts_parses hacc
    obtain ⟨rest, left, hm, _⟩ := (parse_peg env n t _).1 v s' hn
    refine matches_leaves (fun l ts v rest h => ?_) hm
    cases h with
    | punct h => exact punctAt_quote h
    | _ => trivial
  have hw' := Place.writable hu hw hq
  obtain ⟨new, hnew, hshape⟩ := lex_layout hlay' hw'
  have hv1 := layout_visible hlay'
  have hz' := noMinusZero_shape hshape hv1 (C60_visible hnew) (hmz new hnew)
  have hord : Ordinary (pl.edit us) :=
    ⟨fun r sp ho => litText_unsigned ((writable_occurs hw' ho).2 r sp rfl), fun i sp ho => absurd ho (hv1 i sp)⟩
  have hacc' := (C76_language laws signs hG ht he hj hord hz' hp).mpr ⟨hv', hs', by rw [dissolve_visible hv1]; exact hre us hru⟩
  obtain ⟨u, ⟨m, hm⟩, hal⟩ := C31_accepts hshape hacc'
  refine ⟨u, ⟨m, ?_⟩, hal⟩
  unfold parseStr
  simp only [hnew]
  exact hm

/-- What `pretty` and `compact` write is a layout of the tokens of the node (so that C66 is about it, too). -/
theorem C66_formatted (laws : FloatLaws) (alternate : Bool) {v : Val} {ts : List TT} (hv : HasText v) (h : v.toTokens = some ts) :
    ∃ text, (formatNode .reliable alternate v).map Prod.fst = some text ∧ Layout ts text := formatNode_layout laws alternate hv h

/-- ... and what `to_string` writes. -/
theorem C66_displayed (laws : FloatLaws) (alternate : Bool) {env : Env} {t : Ty} {v : Val} {ts : List TT} (hv : HasTy env t v) (hx : HasText v)
    (h : v.toTokens = some ts) : ∃ text, display alternate v = some text ∧ Layout ts text := display_layout laws alternate hv hx h

/-- **C78**, with the text that `to_string` (or `{:#}`) makes of the new node. -/
theorem C78_displayed (laws : FloatLaws) (signs : SignLaws) {env : Env} {G : List Ty} {n : Nat} (hG : ll1 env G n = true) {t : Ty}
    (ht : t ∈ G) (he : closesAtEnd env G n t = true) (hj : separable env G n = true)
    {src : Text} {ts : List TT} (hl : lex src = some ts) (hlay : Layout ts src) {v : Val} (ha : AcceptsStr env t src v) {w w' v' : Val} (hrep : Replaced w w' v v')
    (hv' : HasTy env t v') (hs' : Survives v') (hp : v'.toTokens ≠ none) {out : List TT} (ho : w.toTokens = some out) (hne : out ≠ []) (alternate : Bool)
    {env' : Env} {t' : Ty} (hw' : HasTy env' t' w') (hx : HasText w') (hpw : w'.toTokens ≠ none) :
    ∃ pre mid post z, src = pre ++ mid ++ post ∧ nodeSpan out = stretchSpan pre mid ∧ sourceSubstring src (nodeSpan out) = some mid ∧ display alternate w' = some z ∧
      ((∀ ts', lex (pre ++ " ".toList ++ z ++ " ".toList ++ post) = some ts' → NoMinusZero ts') →
        ∃ u, AcceptsStr env t (pre ++ " ".toList ++ z ++ " ".toList ++ post) u ∧ Alike v' u) := by
  obtain ⟨pre, mid, post, e1, e2, e3, e4⟩ := C78_edit laws signs hG ht he hj hl hlay ha hrep hv' hs' hp ho hne
  obtain ⟨us, hus⟩ := Option.ne_none_iff_exists'.mp hpw
  obtain ⟨z, hz, hlz⟩ := display_layout laws alternate hw' hx hus
  exact ⟨pre, mid, post, z, e1, e2, e3, hz, e4 us z hlz (toTokens_writable laws hx hus).1 (formed_own laws (hasTy_formed hw') hus).1⟩

/-- **C78**, with a text that was itself read as the new node (by whatever type). -/
theorem C78_pasted (laws : FloatLaws) (signs : SignLaws) {env : Env} {G : List Ty} {n : Nat} (hG : ll1 env G n = true) {t : Ty}
    (ht : t ∈ G) (he : closesAtEnd env G n t = true) (hj : separable env G n = true)
    {src : Text} {ts : List TT} (hl : lex src = some ts) (hlay : Layout ts src) {v : Val} (ha : AcceptsStr env t src v) {w w' v' : Val} (hrep : Replaced w w' v v')
    (hv' : HasTy env t v') (hs' : Survives v') (hp : v'.toTokens ≠ none) {out : List TT} (ho : w.toTokens = some out) (hne : out ≠ [])
    {env' : Env} {t' : Ty} {z : Text} {us : List TT} (hlz : lex z = some us) (hz : Layout us z) (hz' : AcceptsStr env' t' z w') :
    ∃ pre mid post, src = pre ++ mid ++ post ∧ nodeSpan out = stretchSpan pre mid ∧ sourceSubstring src (nodeSpan out) = some mid ∧
      ((∀ ts', lex (pre ++ " ".toList ++ z ++ " ".toList ++ post) = some ts' → NoMinusZero ts') →
        ∃ u, AcceptsStr env t (pre ++ " ".toList ++ z ++ " ".toList ++ post) u ∧ Alike v' u) := by
  obtain ⟨pre, mid, post, e1, e2, e3, e4⟩ := C78_edit laws signs hG ht he hj hl hlay ha hrep hv' hs' hp ho hne
  obtain ⟨us', hl', _, hr⟩ := acceptsStr_reads hz'
  rw [hlz] at hl'
  cases hl'
  exact ⟨pre, mid, post, e1, e2, e3, e4 us z hz (lex_writable hlz).1 hr⟩

end

/-! ### an example -/

section
attribute [local instance] signExt

/-- The text to be edited. -/
def editSrc : Text := "let x = y/**/+( 7 );".toList

/-- Its tokens. -/
def editTokens : List TT :=
  [.ident "let".toList (spAt 0 3), .ident "x".toList (spAt 4 5), .punct '=' .alone (spAt 6 7), .ident "y".toList (spAt 8 9), .punct '+' .alone (spAt 13 14),
   .group .paren [.lit "7".toList (spAt 16 17)] (spAt 14 19), .punct ';' .alone (spAt 19 20)]

theorem edit_lexed : lex editSrc = some editTokens := rfl

theorem edit_laid : Layout editTokens editSrc := by
  have spc : Gap [' '] := .white (by decide) .nil
  have g0 : Gap "/**/".toList := .block (x := "/**/".toList) (g := []) (block_iff.mp (by decide)) (by decide) (by decide) .nil
  refine .ident .nil (parts_cons (by decide) (by decide) (by decide)) ?_
  refine .ident (g := [' ']) spc (parts_cons (by decide) (by decide) (by decide)) ?_
  refine .alone (g := [' ']) spc (clear_cons (by decide)) ?_
  refine .ident (g := [' ']) spc (parts_cons (by decide) (by decide) (by decide)) ?_
  refine .alone g0 (clear_cons (by decide)) ?_
  refine .group .nil .paren (body := " 7 ".toList) (.lit (g := [' ']) spc (parts_cons (by decide) (by decide) (by decide)) (.nil spc)) (by decide) ?_
  exact .alone .nil (.inl (by simp)) (.nil .nil)

/-- The value of the text, with something in the place of its second summand. -/
def editVal (w : Val) : Val :=
  .node (.ctor "Let".toList "Let".toList) [.leaf (.keyword "let".toList) (.mark [spAt 0 3]),
    .leaf (.customIdent ["let".toList]) (.ident "x".toList (spAt 4 5)),
    .leaf (.punct "=".toList) (.mark [spAt 6 7]),
    .node .leftBin [.node .leftRhs [.node (.ctor "Expr".toList "Var".toList) [.leaf (.customIdent ["let".toList]) (.ident "y".toList (spAt 8 9))]],
      .leaf (.punct "+".toList) (.mark [spAt 13 14]), w],
    .node .maybe [.leaf (.punct ";".toList) (.mark [spAt 19 20]), .leaf .empty .unit]]

/-- The summand `( 7 )`. -/
def editOld : Val :=
  .node (.ctor "Expr".toList "Group".toList) [.group .paren (spAt 14 19)
    (.node .leftRhs [.node (.ctor "Expr".toList "Num".toList) [.leaf (.lit .uint) (.lit (.uint 7) (spAt 16 17))]])]

/-- The summand `-z`, made by hand. -/
def editNew : Val :=
  .node (.ctor "Expr".toList "Neg".toList) [.leaf (.punct "-".toList) (.mark [.callSite]),
    .node (.ctor "Expr".toList "Var".toList) [.leaf (.customIdent ["let".toList]) (.ident "z".toList .callSite)]]

theorem edit_accepts : AcceptsStr demoEnv (.named "Let".toList) editSrc (editVal editOld) := ⟨20, by unfold parseStr; rw [edit_lexed]; rfl⟩

theorem editNew_typed : HasTy demoEnv (.named "Expr".toList) editNew :=
  (C76_sound (ts := [.punct '-' .alone .callSite, .ident "z".toList .callSite]) ⟨20, rfl⟩).1

theorem editVal_typed : HasTy demoEnv (.named "Let".toList) (editVal editNew) :=
  (C76_sound (ts := [.ident "let".toList (spAt 0 3), .ident "x".toList (spAt 4 5), .punct '=' .alone (spAt 6 7), .ident "y".toList (spAt 8 9),
    .punct '+' .alone (spAt 13 14), .punct '-' .alone .callSite, .ident "z".toList .callSite, .punct ';' .alone (spAt 19 20)]) ⟨20, rfl⟩).1

/-- The hypotheses are met: the summand `( 7 )` is at 1:14..1:19, and writing `-z` there, with spaces, gives the sum of `y` and `-z`. -/
example : ∃ z u, display false editNew = some z ∧ AcceptsStr demoEnv (.named "Let".toList) ("let x = y/**/+".toList ++ " ".toList ++ z ++ " ".toList ++ ";".toList) u ∧
    Alike (editVal editNew) u := by
  have hrep : Replaced editOld editNew (editVal editOld) (editVal editNew) :=
    .node (l := [_, _, _]) (.node (l := [_, _]) .here)
  have ho : editOld.toTokens = some [.group .paren [.lit "7".toList (spAt 16 17)] (spAt 14 19)] := rfl
  have hz : display false editNew = some "- z".toList := by decide +kernel
  obtain ⟨hG, he, ht⟩ := demo_ll1
  obtain ⟨pre, mid, post, z, e1, e2, e3, e4, e5⟩ := C78_displayed signExt_laws signExt_signs hG ht he
    (by decide +kernel) edit_lexed edit_laid edit_accepts hrep editVal_typed
    (solid_survives (grammar_of_ll1 signExt_laws hG).closed (solid_sound hG (by decide +kernel)) editVal_typed ht) (by decide +kernel) ho (by simp) false
    editNew_typed ⟨LeafText.punct (by unfold OperatorText; decide +kernel) rfl, ⟨LeafText.ident (show lexIdentAny _ = _ by decide +kernel), trivial⟩, trivial⟩ (by decide +kernel)
  have hk : ∀ k < 21, (posAfter (editSrc.take k) = ⟨1, 14⟩ → k = 14) ∧ (posAfter (editSrc.take k) = ⟨1, 19⟩ → k = 19) := by decide +kernel
  have hcut : ∀ {a b : Text}, editSrc = a ++ b → a = editSrc.take a.length ∧ b = editSrc.drop a.length ∧ a.length < 21 := by
    intro a b h
    have := congrArg List.length h
    rw [List.length_append, show editSrc.length = 20 by decide] at this
    rw [h]
    exact ⟨by simp, by simp, by omega⟩
  have e2' := congrArg Span.start e2
  have e2'' := congrArg Span.stop e2
  obtain ⟨p1, p2, p3⟩ := hcut (a := pre) (b := mid ++ post) (by rw [e1]; simp)
  obtain ⟨q1, q2, q3⟩ := hcut (a := pre ++ mid) (b := post) e1
  have l1 : pre.length = 14 := (hk _ p3).1 (by rw [← p1]; exact e2'.symm)
  have l2 : (pre ++ mid).length = 19 := (hk _ q3).2 (by rw [← q1]; exact e2''.symm)
  rw [l1] at p1
  rw [l2] at q2
  have e6 : pre = "let x = y/**/+".toList := p1.trans (by decide)
  have e7 : post = ";".toList := q2.trans (by decide)
  rw [hz] at e4
  cases e4
  subst e6 e7
  obtain ⟨u, hu, hal⟩ := e5 (fun ts' h => noMinusZero_of_B (by
    have : (match lex ("let x = y/**/+".toList ++ " ".toList ++ "- z".toList ++ " ".toList ++ ";".toList) with | some ts => minusZeroB (dissolve ts) | none => false) = false := by
      decide +kernel
    rw [h] at this; exact this))
  exact ⟨_, u, hz, hu, hal⟩

/-! ### what cannot be left out -/

theorem not_accepted {env : Env} {t : Ty} {src : Text} {n : Nat}
    (h : (match parseStr (parse env n t) src with | .err _ => true | _ => false) = true) : ¬ ∃ v, AcceptsStr env t src v := by
  rintro ⟨v, m, hv⟩
  unfold parseStr at h hv
  cases hl : lex src with
  | none => rw [hl] at hv; cases hv
  | some ts =>
    rw [hl] at h hv
    obtain ⟨s1, k, h1⟩ := accepts_parses ⟨m, hv⟩
    have hk : parse2 (parse env k t) ts = .ok v := by
      have h2 : parse2 (parse env m t) ts = .ok v := hv
      have e : parse env m t ⟨ts, .callSite, none⟩ = parse env k t ⟨ts, .callSite, none⟩ :=
        parse_unique (by intro e; simp only [parse2, e] at h2; cases h2) (by rw [h1]; simp)
      simp only [parse2] at h2 ⊢
      rw [← e]; exact h2
    have e : parse env n t ⟨ts, .callSite, none⟩ = parse env k t ⟨ts, .callSite, none⟩ :=
      parse_unique (by intro e; simp only [parse2, e] at h; cases h) (by rw [h1]; simp)
    have : parse2 (parse env n t) ts = .ok v := by
      simp only [parse2] at hk ⊢
      rw [e]; exact hk
    simp only [this] at h
    cases h

/-- `struct S(Ident, Either<Paren<Ident>, Ident>)`. -/
def callEnv : Env := fun x =>
  if x = "S".toList then .struct (tys [.leaf (.customIdent []), .either (.paren (.leaf (.customIdent []))) (.leaf (.customIdent []))]) else .enum []

/-- `struct P(LitUint, Token![.], Ident)`. -/
def dotEnv : Env := fun x =>
  if x = "P".toList then .struct (tys [.leaf (.lit .uint), .leaf (.punct ".".toList), .leaf (.customIdent [])]) else .enum []

/-- The spaces are needed: in `f(x)`, the text `y` in the place of `(x)` makes the one identifier `fy`. -/
theorem C78_spaces_needed : ∃ v w w' v' out ts,
    ll1 callEnv (typesFrom callEnv 8 [.named "S".toList]) 8 = true ∧ solid callEnv (typesFrom callEnv 8 [.named "S".toList]) 8 = true ∧ separable callEnv (typesFrom callEnv 8 [.named "S".toList]) 8 = true ∧
    closesAtEnd callEnv (typesFrom callEnv 8 [.named "S".toList]) 8 (.named "S".toList) = true ∧
    lex "f(x)".toList = some ts ∧ Layout ts "f(x)".toList ∧ AcceptsStr callEnv (.named "S".toList) "f(x)".toList v ∧ Replaced w w' v v' ∧
    HasTy callEnv (.named "S".toList) v' ∧ w.toTokens = some out ∧ nodeSpan out = stretchSpan "f".toList "(x)".toList ∧ display false w' = some "y".toList ∧
    (¬ ∃ u, AcceptsStr callEnv (.named "S".toList) "fy".toList u) ∧
    ∃ u, AcceptsStr callEnv (.named "S".toList) "f y ".toList u ∧ Alike v' u := by
  refine ⟨.node (.ctor "S".toList "S".toList) [.leaf (.customIdent []) (.ident "f".toList (spAt 0 1)), .node .eitherLeft [.group .paren (spAt 1 4)
      (.leaf (.customIdent []) (.ident "x".toList (spAt 2 3)))]], _, .node .eitherRight [.leaf (.customIdent []) (.ident "y".toList .callSite)], _, _, _,
    by decide +kernel, by decide +kernel, by decide +kernel, by decide +kernel, rfl, ?_, ⟨20, rfl⟩, .node (l := [_]) .here, ?_, rfl, by decide, by decide +kernel, ?_, ?_⟩
  · refine .ident .nil ⟨by intro d hd; simp at hd; subst hd; decide, fun h => absurd h (by decide)⟩ ?_
    exact .group .nil .paren (body := "x".toList) (.ident .nil ⟨by simp, by simp⟩ (.nil .nil)) (by decide) (.nil .nil)
  · exact (C76_sound (ts := [.ident "f".toList (spAt 0 1), .ident "y".toList .callSite]) ⟨20, rfl⟩).1
  · exact not_accepted (n := 20) (by decide +kernel)
  · exact ⟨.node (.ctor "S".toList "S".toList) [.leaf (.customIdent []) (.ident "f".toList (spAt 0 1)),
      .node .eitherRight [.leaf (.customIdent []) (.ident "y".toList (spAt 2 3))]], ⟨20, rfl⟩,
      .node (.cons (.leaf .ident) (.cons (.node (.cons (.leaf .ident) .nil)) .nil))⟩

/-- The layout is needed: `1.foo` is read as the number `1`, a dot and `foo`; but with a space after the dot, `1.` is a number with a fraction.  (The text is no
layout of its tokens: nothing is between the number and the dot.) -/
theorem C78_layout_needed : ∃ v w w' v' out ts,
    ll1 dotEnv (typesFrom dotEnv 8 [.named "P".toList]) 8 = true ∧ solid dotEnv (typesFrom dotEnv 8 [.named "P".toList]) 8 = true ∧ separable dotEnv (typesFrom dotEnv 8 [.named "P".toList]) 8 = true ∧
    closesAtEnd dotEnv (typesFrom dotEnv 8 [.named "P".toList]) 8 (.named "P".toList) = true ∧
    lex "1.foo".toList = some ts ∧ ¬ Layout ts "1.foo".toList ∧ AcceptsStr dotEnv (.named "P".toList) "1.foo".toList v ∧ Replaced w w' v v' ∧
    HasTy dotEnv (.named "P".toList) v' ∧ w.toTokens = some out ∧ nodeSpan out = stretchSpan "1.".toList "foo".toList ∧ display false w' = some "bar".toList ∧
    ¬ ∃ u, AcceptsStr dotEnv (.named "P".toList) "1. bar ".toList u := by
  refine ⟨.node (.ctor "P".toList "P".toList) [.leaf (.lit .uint) (.lit (.uint 1) (spAt 0 1)), .leaf (.punct ".".toList) (.mark [spAt 1 2]),
      .leaf (.customIdent []) (.ident "foo".toList (spAt 2 5))], _, .leaf (.customIdent []) (.ident "bar".toList .callSite), _, _,
    [.lit "1".toList (spAt 0 1), .punct '.' .alone (spAt 1 2), .ident "foo".toList (spAt 2 5)],
    by decide +kernel, by decide +kernel, by decide +kernel, by decide +kernel, rfl, ?_, ⟨20, rfl⟩, .node (l := [_, _]) .here, ?_, rfl, by decide, by decide +kernel, ?_⟩
  · intro h
    generalize e : "1.foo".toList = x at h
    cases h with
    | @lit g _ _ _ rest hg hp _ =>
      have hg' : g = [] := by
        refine Classical.byContradiction fun hne => ?_
        have e0 : '1' :: ".foo".toList = g ++ ("1".toList ++ rest) := e
        rcases gap_head hg hne with ⟨c, s, rfl, hc⟩ | h | h
        · rw [← (List.cons.inj e0).1] at hc
          exact absurd hc (by decide)
        all_goals
          obtain ⟨r, rfl⟩ := startsWith_iff.mp h
          exact absurd (List.cons.inj e0).1 (by decide)
      subst hg'
      have er : rest = ".foo".toList := by
        have e' : '1' :: ".foo".toList = '1' :: rest := e
        exact ((List.cons.inj e').2).symm
      subst er
      exact absurd rfl (hp.2 (by decide)).1
  · exact (C76_sound (ts := [.lit "1".toList (spAt 0 1), .punct '.' .alone (spAt 1 2), .ident "bar".toList .callSite]) ⟨20, rfl⟩).1
  · exact not_accepted (n := 20) (by decide +kernel)

end

end Parsel
