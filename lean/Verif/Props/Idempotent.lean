import Verif.Props.Respell

/-! C62: printed text does not depend on locations, so formatting a second time changes nothing. -/

namespace Parsel
open Spec

theorem sameShape_isEmpty {a b : List TT} (h : SameShape a b) : a.isEmpty = b.isEmpty := by cases h <;> rfl

/-- The loop of the formatter does the same on streams that differ in locations only. -/
theorem writeLoop_shape (w : Sink) {a b : List TT} (h : SameShape a b) : ∀ sp, writeLoop w sp a = writeLoop w sp b := by
  induction h with
  | nil => intro sp; rfl
  | ident h ih => intro sp; simp only [writeLoop, writeTree, ih, sameShape_isEmpty h]
  | punct h ih => intro sp; simp only [writeLoop, writeTree, ih, sameShape_isEmpty h]
  | lit h ih => intro sp; simp only [writeLoop, writeTree, ih, sameShape_isEmpty h]
  | @group d i j _ _ _ _ hi h ihi ih => intro sp; cases d <;> simp only [writeLoop, writeTree, ih, ihi, sameShape_isEmpty h, sameShape_isEmpty hi]

/-- **C62.** What `TokenStreamFormatter::write` does - the text, success, the state afterwards, on any writer - does not depend on the locations of the tokens. -/
theorem C62_write (w : Sink) {a b : List TT} (h : SameShape a b) (f : Fmt) : write w a f = write w b f := by
  simp only [write, writeLoop_shape w h]

/-- **C62** for the formatter: formatting what the lexer reads from formatted source text changes nothing more, for any indentation. -/
theorem C62_reformat [Ext] {src : Text} {ts : List TT} (h : lex src = some ts) {s : Text} {f : Fmt} (hf : withIndent s = some f) :
    ∃ ts', lex (write .reliable ts f).1.out = some ts' ∧ write .reliable ts' f = write .reliable ts f := by
  obtain ⟨ts', h1, h2⟩ := C40_source h hf
  exact ⟨ts', h1, (C62_write _ h2 f).symm⟩

/-- Two results of printing to tokens: both panic, or both succeed with the same tokens at possibly other locations. -/
def Spec.SamePrint : Option (List TT) → Option (List TT) → Prop
  | none, none => True
  | some a, some b => SameShape a b
  | _, _ => False

section
variable [Ext]

theorem punctTokens_shape : ∀ (tok : Text) (a b : List Span), a.length = b.length → SameShape (punctTokens tok a) (punctTokens tok b)
  | [], [], [], _ => .nil
  | [], _ :: _, _ :: _, _ => .nil
  | [c], [], [], _ => .nil
  | [c], [x], [y], _ => .punct .nil
  | [c], x :: x' :: a, y :: y' :: b, h => .punct .nil
  | c :: c' :: cs, [], [], _ => .nil
  | c :: c' :: cs, x :: a, y :: b, h => .punct (punctTokens_shape (c' :: cs) a b (by simpa using h))
  | _, [], _ :: _, h => by simp at h
  | _, _ :: _, [], h => by simp at h

theorem pushLiteral_shape (r : Text) (sp sp' : Span) : SameShape (pushLiteral r sp) (pushLiteral r sp') := by
  unfold pushLiteral
  split
  · exact .punct (.lit .nil)
  · exact .lit .nil

theorem litToTokens_shape (l : LitVal) (sp sp' : Span) : SamePrint (litToTokens l sp) (litToTokens l sp') := by
  cases l with
  | bool b => exact .ident .nil
  | byte b =>
    simp only [litToTokens]
    cases litByteRepr b with
    | none => trivial
    | some r => exact pushLiteral_shape _ _ _
  | float x =>
    simp only [litToTokens]
    cases floatLiteral x with
    | none => trivial
    | some r => exact pushLiteral_shape _ _ _
  | _ => exact pushLiteral_shape _ _ _

theorem leafToTokens_shape (l : Leaf) {v w : LeafVal} (h : LeafAlike v w) : SamePrint (leafToTokens l v) (leafToTokens l w) := by
  cases h with
  | unit => cases l <;> exact .nil
  | ident => cases l <;> exact .ident .nil
  | lit => cases l <;> exact litToTokens_shape _ _ _
  | @mark a b hl =>
    cases l with
    | punct tok =>
      have h := punctTokens_shape tok a b hl
      simpa only [leafToTokens, SamePrint] using h
    | keyword kw =>
      match a, b, hl with
      | [], [], _ => trivial
      | [x], [y], _ =>
        simp only [leafToTokens]
        split
        · exact .ident .nil
        · trivial
      | _ :: _ :: _, _ :: _ :: _, _ => trivial
    | kwToken kw =>
      match a, b, hl with
      | [], [], _ => trivial
      | [x], [y], _ => exact .ident .nil
      | _ :: _ :: _, _ :: _ :: _, _ => trivial
    | _ => simp only [leafToTokens, SamePrint]

mutual
/-- Values that differ in locations only print as tokens that differ in locations only. -/
theorem toTokens_shape : ∀ {v w : Val}, Alike v w → SamePrint v.toTokens w.toTokens
  | .leaf l _, _, .leaf h => leafToTokens_shape l h
  | .group d _ v, .group _ _ w, .group h => by
    have := toTokens_shape h
    simp only [Val.toTokens]
    revert this
    cases v.toTokens <;> cases w.toTokens <;> intro h
    · trivial
    · exact h.elim
    · exact h.elim
    · exact .group h .nil
  | .node _ _, .node _ _, .node h => toTokensL_shape h
theorem toTokensL_shape : ∀ {vs ws : List Val}, AlikeL vs ws → SamePrint (Val.toTokensL vs) (Val.toTokensL ws)
  | [], [], .nil => .nil
  | v :: vs, w :: ws, .cons h hs => by
    have h1 := toTokens_shape h
    have h2 := toTokensL_shape hs
    simp only [Val.toTokensL]
    revert h1 h2
    cases v.toTokens <;> cases w.toTokens <;> cases Val.toTokensL vs <;> cases Val.toTokensL ws <;> intro h1 h2 <;>
      first | trivial | exact h1.elim | exact h2.elim | exact SameShape.append h1 h2
end

/-- **C62.** `format_ast_node` and the like, on any writer, do not depend on the locations in the value. -/
theorem C62_format_node (w : Sink) (alternate : Bool) {v v' : Val} (h : Alike v v') : formatNode w alternate v = formatNode w alternate v' := by
  have := toTokens_shape h
  simp only [formatNode]
  revert this
  cases v.toTokens <;> cases v'.toTokens <;> intro h
  · rfl
  · exact h.elim
  · exact h.elim
  · simp only [Option.map_some, formatTokens, C62_write w h]

mutual
/-- **C62.** `Display` does not depend on the locations in the value (and neither does whether it panics). -/
theorem C62_display (alternate : Bool) : ∀ {v w : Val}, Alike v w → display alternate v = display alternate w
  | .leaf l _, _, .leaf h => by
    cases h with
    | unit => cases l <;> rfl
    | ident => cases l <;> rfl
    | lit => cases l <;> rfl
    | mark _ => cases l <;> rfl
  | .group d _ v, .group _ _ w, .group h => by
    rename_i sp sp'
    simp only [display, C62_format_node .reliable alternate (Alike.group (sp := sp) (sp' := sp') h)]
  | .node tag vs, .node _ ws, .node h => by
    have hn := C62_format_node .reliable alternate (Alike.node (tag := tag) h)
    have ho := displayOnly_alike alternate h
    cases tag <;> simp only [display, hn, ho]
theorem displayOnly_alike (alternate : Bool) : ∀ {vs ws : List Val}, AlikeL vs ws → displayOnly alternate vs = displayOnly alternate ws
  | [], [], .nil => rfl
  | v :: vs, w :: ws, .cons h _ => by simp only [displayOnly]; exact C62_display alternate h
end

/-- **C62.** Formatting is idempotent, in every grammar: if `from_str` of a text gives a value, `to_string` of it (pretty or compact) can be read again, and
`to_string` of that second value gives the same text - also in the other layout.  The conditions are those of C61. -/
theorem C62_idempotent (laws : FloatLaws) (signs : SignLaws) (alternate : Bool) {env : Env} {t : Ty}
    (hop : ∀ tok, Within env t (.leaf (.punct tok)) → OperatorText tok) {src : Text} {ts out : List TT} {v : Val} (hl : lex src = some ts)
    (h : AcceptsStr env t src v) (ho : v.toTokens = some out) (hz : NoMinusZero ts) (hj : SameJoins (GluedIn env t) ts out) :
    ∃ text w, display alternate v = some text ∧ AcceptsStr env t text w ∧ display alternate w = some text ∧
      display (!alternate) w = display (!alternate) v := by
  obtain ⟨text, w, h1, h2, h3⟩ := C61_text laws signs alternate hop hl h ho hz hj
  exact ⟨text, w, h1, h2, by rw [← C62_display alternate h3, h1], (C62_display _ h3).symm⟩

/-- **C62** in LL(1) grammars: the text of any value, read with `from_str`, gives a value with the same text. -/
theorem C62_stable (laws : FloatLaws) (alternate : Bool) {env : Env} {G : List Ty} (hG : Grammar env G) {t : Ty} (ht : t ∈ G)
    (hk : ∀ u, Grabs env t u → Refuses env u []) {v : Val} (hv : HasTy env t v) (hs : Survives v) (hx : HasText v) {ts : List TT}
    (hp : v.toTokens = some ts) : ∃ text w, display alternate v = some text ∧ AcceptsStr env t text w ∧ display alternate w = some text := by
  obtain ⟨text, w, h1, h2, h3⟩ := C13_from_str_to_string laws alternate hG ht hk hv hs hx hp
  exact ⟨text, w, h1, h2, by rw [← C62_display alternate h3, h1]⟩

/-- All operators among the types are made of punctuation characters and contain no comment. -/
def operatorsB (G : List Ty) : Bool := G.all fun t => match t with
  | .leaf (.punct tok) => !tok.isEmpty && tok.all (fun c => punctChars.contains c && c != '\'') && !pairIn '/' '/' tok && !pairIn '/' '*' tok
  | _ => true

omit [Ext] in
theorem operatorText_of_B {env : Env} {G : List Ty} (hG : closedB env G = true) (h : operatorsB G = true) {t : Ty} (ht : t ∈ G) {tok : Text}
    (hw : Within env t (.leaf (.punct tok))) : OperatorText tok := by
  have := List.all_eq_true.mp h _ (within_of_closed hG ht hw)
  simp only [Bool.and_eq_true, Bool.not_eq_true', List.all_eq_true, bne_iff_ne, List.contains_iff_mem] at this
  obtain ⟨⟨⟨h1, h2⟩, h3⟩, h4⟩ := this
  refine ⟨(fun e => by rw [e] at h1; cases h1), h2, fun hi => ?_, fun hi => ?_⟩
  · rw [pairIn_of_infix (c := '/') (c' := '/') hi] at h3; cases h3
  · rw [pairIn_of_infix (c := '/') (c' := '*') hi] at h4; cases h4

/-- **C62**, with all conditions checked by computation. -/
theorem C62_computed (laws : FloatLaws) (signs : SignLaws) (alternate : Bool) {env : Env} {G : List Ty} {t : Ty} {n : Nat} {src : Text}
    (h : reparses env G t n src = true) (hop : operatorsB G = true) :
    ∃ v text w, AcceptsStr env t src v ∧ display alternate v = some text ∧ AcceptsStr env t text w ∧ Alike v w ∧ display alternate w = some text := by
  simp only [reparses, Bool.and_eq_true] at h
  obtain ⟨⟨hG, ht⟩, h⟩ := h
  have ht := List.contains_iff_mem.mp ht
  cases hl : lex src with
  | none => rw [hl] at h; cases h
  | some ts =>
    rw [hl] at h
    simp only [] at h
    cases hp : parse2 (parse env n t) ts with
    | ok v =>
      rw [hp] at h
      simp only [] at h
      cases ho : v.toTokens with
      | none => rw [ho] at h; cases h
      | some out =>
        rw [ho] at h
        simp only [Bool.and_eq_true, Bool.not_eq_true'] at h
        obtain ⟨_, hv⟩ := lexed_ordinary hl
        have hacc : AcceptsStr env t src v := ⟨n, by simp only [parseStr, hl]; exact hp⟩
        obtain ⟨text, w, h1, h2, h3⟩ := C61_text laws signs alternate (fun tok hw => operatorText_of_B hG hop ht hw) hl hacc ho
          (noMinusZero_of_B (by rw [dissolve_visible hv]; exact h.1)) (sameJoins_of_B (fun _ _ => gluedB_of hG ht) _ _ _ (Nat.lt_succ_self _) h.2)
        exact ⟨v, text, w, hacc, h1, h2, h3, by rw [← C62_display alternate h3, h1]⟩
    | _ => rw [hp] at h; cases h

end

section
attribute [local instance] signExt

example (alternate : Bool) : ∃ v text w, AcceptsStr stmtEnv (.named "Prog".toList) stmtSrc v ∧ display alternate v = some text ∧
    AcceptsStr stmtEnv (.named "Prog".toList) text w ∧ Alike v w ∧ display alternate w = some text :=
  C62_computed signExt_laws signExt_signs alternate (G := stmtTypes) (n := 40) (by decide +kernel) (by decide +kernel)

end

end Parsel
