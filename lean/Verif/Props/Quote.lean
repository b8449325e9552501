import Verif.Proofs.Quote
import Verif.Props.Language
import Verif.Props.Readme

/-! C79: `try_parse_quote!` and `try_parse_quote_spanned!`. -/

namespace Parsel
open Spec

mutual
/-- Where the tokens of a template with a location are. -/
theorem respan_spans (sp : Span) : ∀ {ts : List TT} {t : TT}, Occurs t (respanT.go sp ts) → t.span = sp
  | [], _, h => by cases h
  | u :: ts, t, h => by
    rw [respanT.go] at h
    rcases occurs_append (a := [respanT sp u]) h with h | h
    · exact respanT_spans sp h
    · exact respan_spans sp h
/-- The same for one token tree. -/
theorem respanT_spans (sp : Span) : ∀ {u t : TT}, Occurs t [respanT sp u] → t.span = sp
  | .ident _ _, _, h => by rw [respanT] at h; cases h with | head => rfl | tail h => cases h
  | .punct _ _ _, _, h => by rw [respanT] at h; cases h with | head => rfl | tail h => cases h
  | .lit _ _, _, h => by rw [respanT] at h; cases h with | head => rfl | tail h => cases h
  | .group d i s, _, h => by
    rw [respanT] at h
    cases h with
    | head => rfl
    | tail h => cases h
    | inside h => exact respan_spans sp h
end

theorem run_spans {sp : Span} : ∀ {tok : Text} {t : TT}, Occurs t (punctTokens tok (tok.map fun _ => sp)) → t.span = sp
  | [], _, h => by cases h
  | [c], _, h => by cases h with | head => rfl | tail h => cases h
  | c :: c' :: tok, t, h => by
    have h : Occurs t (.punct c .joint sp :: punctTokens (c' :: tok) ((c' :: tok).map fun _ => sp)) := h
    cases h with
    | head => rfl
    | tail h => exact run_spans h

theorem respan_shape (sp : Span) : ∀ (ts : List TT), SameShape ts (respanT.go sp ts)
  | [] => .nil
  | .ident _ _ :: ts => .ident (respan_shape sp ts)
  | .punct _ _ _ :: ts => .punct (respan_shape sp ts)
  | .lit _ _ :: ts => .lit (respan_shape sp ts)
  | .group _ i _ :: ts => .group (respan_shape sp i) (respan_shape sp ts)

theorem sameShape_refl : ∀ (ts : List TT), SameShape ts ts
  | [] => .nil
  | .ident _ _ :: ts => .ident (sameShape_refl ts)
  | .punct _ _ _ :: ts => .punct (sameShape_refl ts)
  | .lit _ _ :: ts => .lit (sameShape_refl ts)
  | .group _ i _ :: ts => .group (sameShape_refl i) (sameShape_refl ts)

theorem run_shape {sp sp' : Span} : ∀ {tok : Text}, SameShape (punctTokens tok (tok.map fun _ => sp)) (punctTokens tok (tok.map fun _ => sp'))
  | [] => .nil
  | [_] => .punct .nil
  | _ :: _ :: _ => .punct run_shape

theorem sameShape_append {a a' b b' : List TT} (h1 : SameShape a a') (h2 : SameShape b b') : SameShape (a ++ b) (a' ++ b') := by
  induction h1 with
  | nil => exact h2
  | ident _ ih => exact .ident ih
  | punct _ ih => exact .punct ih
  | lit _ ih => exact .lit ih
  | group h _ _ ih => exact .group h ih

section
variable [Ext]

/-- **C79** in any grammar (whose operators cannot be mistaken for parts of longer ones): a template that spells out the node `v`, parts of which may be
interpolated, is parsed as exactly `v` - interpolated parts with their own locations, everything else at the location given to the macro -, if `v` is what its
printed form is parsed as. -/
theorem C79_template (laws : FloatLaws) (signs : SignLaws) {env : Env} {G : List Ty} {n : Nat} (hj : separable env G n = true) {t : Ty} (ht : t ∈ G) {v : Val}
    {out : List TT} (ho : v.toTokens = some out) (hb : Accepts env t out v) {sp : Option Span} {ps : List Piece} (hq : Quoted sp v ps)
    (hz : ∀ ts, expand sp ps = some ts → NoMinusZero ts) : ∃ m, tryParseQuote (parse env m t) sp ps = .ok v := by
  have hv := (C76_sound hb).1
  obtain ⟨ts, h1, h2, h3, h4⟩ := quoted_expands laws hq (hasTy_formed hv) ((C38_value_prints_iff hv).mp ⟨out, ho⟩)
  have hz := hz ts h1
  have hord : Ordinary ts := ⟨h4, fun i s h => absurd h (by have := visible_dissolve ts; rw [h3] at this; exact this i s)⟩
  have hr : Reads false v (dissolve ts) := by rwa [h3]
  obtain ⟨m, hm⟩ := accepts_written laws signs hb ho hr hord hz (joins_of laws signs hj ht hv ho hr hord hz)
  exact ⟨m, by simp only [tryParseQuote, h1]; exact hm⟩

/-- **C79.** In an LL(1) grammar (as in C76) this holds of every node that can be printed and survives it: what is interpolated becomes a node of its own
exactly where the template spells it out, whether it was parsed or built by hand. -/
theorem C79_interpolated (laws : FloatLaws) (signs : SignLaws) {env : Env} {G : List Ty} {n : Nat} (hG : ll1 env G n = true) {t : Ty}
    (ht : t ∈ G) (he : closesAtEnd env G n t = true) (hj : separable env G n = true) {v : Val} (hv : HasTy env t v) (hs : Survives v) (hp : Printable v)
    {sp : Option Span} {ps : List Piece} (hq : Quoted sp v ps) (hz : ∀ ts, expand sp ps = some ts → NoMinusZero ts) :
    ∃ m, tryParseQuote (parse env m t) sp ps = .ok v := by
  obtain ⟨out, ho⟩ := (C38_value_prints_iff hv).mpr hp
  exact C79_template laws signs hj ht ho (C12_checked laws hG ht he hv hs ho) hq hz

/-- In any grammar: what a template is parsed as is a node of the type asked for, and it stands for the tokens of the template, those of interpolated nodes
included, in this order and at their locations: nothing is left out or added. -/
theorem C79_sound {env : Env} {t : Ty} {sp : Option Span} {ps : List Piece} {v : Val} {m : Nat} (h : tryParseQuote (parse env m t) sp ps = .ok v) :
    ∃ ts, expand sp ps = some ts ∧ HasTy env t v ∧ Reads false v (dissolve ts) := by
  unfold tryParseQuote at h
  split at h
  · rename_i ts hts
    exact ⟨ts, hts, C76_sound ⟨m, h⟩⟩
  · cases h

/-! ### the locations -/

mutual
/-- **C79**: every token of the expansion of `quote_spanned!` is at the location given to it, or belongs to an interpolated node. -/
theorem C79_locations {sp : Span} : ∀ {ps : List Piece} {ts : List TT}, expand (some sp) ps = some ts → ∀ {t : TT}, Occurs t ts →
    t.span = sp ∨ ∃ w out, TemplateHas w ps ∧ w.toTokens = some out ∧ Occurs t out
  | [], ts, h, t, ho => by
    simp only [expand, Option.some.injEq] at h
    subst h; cases ho
  | p :: ps, ts, h, t, ho => by
    rw [expand] at h
    split at h
    · rename_i a b ha hb
      cases h
      rcases occurs_append ho with ho | ho
      · rcases piece_locations ha ho with h | ⟨w, out, h1, h2⟩
        · exact .inl h
        · exact .inr ⟨w, out, .inl h1, h2⟩
      · rcases C79_locations hb ho with h | ⟨w, out, h1, h2⟩
        · exact .inl h
        · exact .inr ⟨w, out, .inr h1, h2⟩
    · cases h
/-- The same for one piece. -/
theorem piece_locations {sp : Span} : ∀ {p : Piece} {ts : List TT}, expandPiece (some sp) p = some ts → ∀ {t : TT}, Occurs t ts →
    t.span = sp ∨ ∃ w out, PieceHas w p ∧ w.toTokens = some out ∧ Occurs t out
  | .ident x, ts, h, t, ho => by
    simp only [expandPiece, Option.some.injEq] at h
    subst h
    cases ho with
    | head => exact .inl rfl
    | tail h => cases h
  | .op tok, ts, h, t, ho => by
    simp only [expandPiece, Option.some.injEq] at h
    subst h
    exact .inl (run_spans ho)
  | .lit raw, ts, h, t, ho => by
    simp only [expandPiece, quoteLit, Option.map_eq_some_iff] at h
    obtain ⟨us, _, rfl⟩ := h
    exact .inl (respan_spans sp ho)
  | .group d ps, ts, h, t, ho => by
    simp only [expandPiece, Option.map_eq_some_iff] at h
    obtain ⟨us, hu, rfl⟩ := h
    cases ho with
    | head => exact .inl rfl
    | tail h => cases h
    | inside h => exact C79_locations hu h
  | .node v, ts, h, t, ho => .inr ⟨v, ts, rfl, h, ho⟩
end

mutual
/-- The expansions of a template at two locations, or without one. -/
theorem expand_shape (sp sp' : Option Span) : ∀ {ps : List Piece} {ts : List TT}, expand sp ps = some ts → ∃ ts', expand sp' ps = some ts' ∧ SameShape ts ts'
  | [], ts, h => by
    simp only [expand, Option.some.injEq] at h
    subst h; exact ⟨[], rfl, .nil⟩
  | p :: ps, ts, h => by
    rw [expand] at h
    split at h
    · rename_i a b ha hb
      cases h
      obtain ⟨a', h1, h2⟩ := piece_shape sp sp' ha
      obtain ⟨b', h3, h4⟩ := expand_shape sp sp' hb
      exact ⟨a' ++ b', by simp only [expand, h1, h3], sameShape_append h2 h4⟩
    · cases h
/-- The same for one piece. -/
theorem piece_shape (sp sp' : Option Span) : ∀ {p : Piece} {ts : List TT}, expandPiece sp p = some ts → ∃ ts', expandPiece sp' p = some ts' ∧ SameShape ts ts'
  | .ident x, ts, h => by
    simp only [expandPiece, Option.some.injEq] at h
    subst h; exact ⟨_, rfl, .ident .nil⟩
  | .op tok, ts, h => by
    simp only [expandPiece, Option.some.injEq] at h
    subst h; exact ⟨_, rfl, run_shape⟩
  | .lit raw, ts, h => by
    have key : ∀ us, lex raw = some us → ∀ sp, ∃ ts, quoteLit sp raw = some ts ∧ SameShape us ts := by
      intro us hu sp
      cases sp with
      | none => exact ⟨us, hu, sameShape_refl us⟩
      | some s => exact ⟨respanT.go s us, by simp only [quoteLit, hu, Option.map_some], respan_shape s us⟩
    rw [expandPiece] at h
    cases hl : lex raw with
    | none => cases sp <;> simp [quoteLit, hl] at h
    | some us =>
      obtain ⟨a, h1, h2⟩ := key us hl sp
      obtain ⟨b, h3, h4⟩ := key us hl sp'
      rw [h1] at h; cases h
      exact ⟨b, h3, sameShape_trans h2.symm h4⟩
  | .group d ps, ts, h => by
    simp only [expandPiece, Option.map_eq_some_iff] at h
    obtain ⟨us, hu, rfl⟩ := h
    obtain ⟨b, h1, h2⟩ := expand_shape sp sp' hu
    exact ⟨_, by simp only [expandPiece, h1, Option.map_some]; rfl, .group h2 .nil⟩
  | .node v, ts, h => ⟨ts, h, sameShape_refl ts⟩
end

/-- **C79**: the location given to the macro matters for locations only: with another one, or with none, the same template is accepted, too, with the same
value but for locations, ... -/
theorem C79_any_location {env : Env} {t : Ty} {sp : Option Span} (sp' : Option Span) {ps : List Piece} {v : Val} {m : Nat}
    (h : tryParseQuote (parse env m t) sp ps = .ok v) : ∃ m' w, tryParseQuote (parse env m' t) sp' ps = .ok w ∧ Alike v w := by
  unfold tryParseQuote at h
  split at h
  · rename_i ts hts
    obtain ⟨ts', h1, h2⟩ := expand_shape sp sp' hts
    obtain ⟨w, ⟨m', h3⟩, h4⟩ := C31_accepts h2 ⟨m, h⟩
    exact ⟨m', w, by simp only [tryParseQuote, h1]; exact h3, h4⟩
  · cases h

/-- ... or rejected, too. -/
theorem C79_any_location_rejected {env : Env} {t : Ty} {sp : Option Span} (sp' : Option Span) {ps : List Piece} {e : Err} {m : Nat}
    (h : tryParseQuote (parse env m t) sp ps = .err e) : ∃ m' e', tryParseQuote (parse env m' t) sp' ps = .err e' := by
  unfold tryParseQuote at h
  split at h
  · rename_i ts hts
    obtain ⟨ts', h1, h2⟩ := expand_shape sp sp' hts
    obtain ⟨e', m', h3⟩ := C31_rejects h2 ⟨m, h⟩
    exact ⟨m', e', by simp only [tryParseQuote, h1]; exact h3⟩
  · cases h

mutual
/-- The literals that are written in the template are literals (true of every template that the compiler lets pass). -/
def ProperPiece : Piece → Prop
  | .lit raw => LitText raw
  | .group _ ps => Proper ps
  | _ => True
/-- The same for whole templates. -/
def Proper : List Piece → Prop
  | [] => True
  | p :: ps => ProperPiece p ∧ Proper ps
end

mutual
theorem expand_none {sp : Option Span} : ∀ {ps : List Piece}, Proper ps → (expand sp ps = none ↔ ∃ w, TemplateHas w ps ∧ w.toTokens = none)
  | [], _ => by simp [expand, TemplateHas]
  | p :: ps, h => by
    have h1 := piece_none (sp := sp) h.1
    have h2 := expand_none (sp := sp) h.2
    have e : expand sp (p :: ps) = none ↔ expandPiece sp p = none ∨ expand sp ps = none := by
      rw [expand]
      cases expandPiece sp p <;> cases expand sp ps <;> simp
    rw [e, h1, h2]
    constructor
    · rintro (⟨w, a, b⟩ | ⟨w, a, b⟩)
      · exact ⟨w, .inl a, b⟩
      · exact ⟨w, .inr a, b⟩
    · rintro ⟨w, a | a, b⟩
      · exact .inl ⟨w, a, b⟩
      · exact .inr ⟨w, a, b⟩
theorem piece_none {sp : Option Span} : ∀ {p : Piece}, ProperPiece p → (expandPiece sp p = none ↔ ∃ w, PieceHas w p ∧ w.toTokens = none)
  | .ident _, _ => by simp [expandPiece, PieceHas]
  | .op _, _ => by simp [expandPiece, PieceHas]
  | .lit raw, h => by simp [expandPiece, PieceHas, quoteLit_single h]
  | .group d ps, h => by
    rw [expandPiece, Option.map_eq_none_iff]
    exact expand_none (ps := ps) h
  | .node v, _ => by simp [expandPiece, PieceHas]
end

/-- **C79**: making the tokens panics exactly if some interpolated node cannot be printed (C38); whatever the tokens are, they are then parsed. -/
theorem C79_panics {sp : Option Span} {ps : List Piece} (hp : Proper ps) {α : Type} (p : Parser α) :
    (∃ ts, expand sp ps = some ts ∧ tryParseQuote p sp ps = parse2 p ts) ∨ (tryParseQuote p sp ps = .panic ∧ ∃ w, TemplateHas w ps ∧ w.toTokens = none) := by
  cases h : expand sp ps with
  | some ts => exact .inl ⟨ts, rfl, by simp only [tryParseQuote, h]⟩
  | none => exact .inr ⟨by simp only [tryParseQuote, h], (expand_none hp).mp h⟩

/-- **C79** for repetitions: `#(#nodes)sep*` spells out the nodes with separators between them, `#(#nodes)*` just the nodes. -/
theorem C79_repeated (sp : Option Span) (tok : Text) (vs : List Val) :
    QuotedL sp (vs.intersperse (.leaf (.punct tok) (.mark (tok.map fun _ => writtenAt sp)))) (repeatPieces (some tok) vs) ∧ QuotedL sp vs (repeatPieces none vs) := by
  induction vs with
  | nil => exact ⟨.nil, .nil⟩
  | cons v vs ih =>
    cases vs with
    | nil => exact ⟨.cons (ps := [.node v]) .node .nil, .cons (ps := [.node v]) .node .nil⟩
    | cons w vs =>
      exact ⟨.cons (ps := [.node v]) .node (.cons (ps := [.op tok]) .punct ih.1), .cons (ps := [.node v]) .node ih.2⟩

end

/-! ### examples -/

/-- `Sum = Prod + ...`, `Prod = Atom * ...` (left associative), `enum Atom { Group(Paren<Box<Sum>>), Num(LitUint), Name(Ident) }`. -/
def sumEnv : Env := fun x =>
  if x = "Sum".toList then .struct (tys [.leftAssoc (.leaf (.punct "+".toList)) (.named "Prod".toList)])
  else if x = "Prod".toList then .struct (tys [.leftAssoc (.leaf (.punct "*".toList)) (.named "Atom".toList)])
  else if x = "Atom".toList then
    .enum [⟨"Group".toList, tys [.paren (.boxed (.named "Sum".toList))]⟩, ⟨"Num".toList, tys [.leaf (.lit .uint)]⟩, ⟨"Name".toList, tys [.leaf .rustIdent]⟩]
  else .enum []

/-- Its types. -/
def sumTypes : List Ty := typesFrom sumEnv 8 [.named "Sum".toList]

section
attribute [local instance] signExt

theorem sum_checks : ll1 sumEnv sumTypes 8 = true ∧ solid sumEnv sumTypes 8 = true ∧ separable sumEnv sumTypes 8 = true ∧ Ty.named "Sum".toList ∈ sumTypes ∧
    closesAtEnd sumEnv sumTypes 8 (.named "Sum".toList) = true := by
  refine ⟨?_, ?_, ?_, ?_, ?_⟩ <;> decide +kernel

/-- A number as an `Atom`. -/
def atomNum (n : Nat) (sp : Span) : Val := .node (.ctor "Atom".toList "Num".toList) [.leaf (.lit .uint) (.lit (.uint n) sp)]
/-- An `Atom` as a `Prod`. -/
def prodOne (a : Val) : Val := .node (.ctor "Prod".toList "Prod".toList) [.node .leftRhs [a]]
/-- Two `Atom`s as a `Prod`. -/
def prodTwo (a : Val) (sp : Span) (b : Val) : Val :=
  .node (.ctor "Prod".toList "Prod".toList) [.node .leftBin [.node .leftRhs [a], .leaf (.punct "*".toList) (.mark [sp]), b]]
/-- Two `Prod`s as a `Sum`. -/
def sumTwo (a : Val) (sp : Span) (b : Val) : Val :=
  .node (.ctor "Sum".toList "Sum".toList) [.node .leftBin [.node .leftRhs [a], .leaf (.punct "+".toList) (.mark [sp]), b]]
/-- A `Prod` as a `Sum`. -/
def sumOne (a : Val) : Val := .node (.ctor "Sum".toList "Sum".toList) [.node .leftRhs [a]]

/-- The node that `1+2` is parsed as. -/
def onePlusTwo : Val := sumTwo (prodOne (atomNum 1 (spAt 0 1))) (spAt 1 2) (prodOne (atomNum 2 (spAt 2 3)))

example : AcceptsStr sumEnv (.named "Sum".toList) "1+2".toList onePlusTwo := ⟨20, rfl⟩

/-- `Group(#s) * 3`. -/
def groupTimes : Val := sumOne (prodTwo (.node (.ctor "Atom".toList "Group".toList) [.group .paren .callSite onePlusTwo]) .callSite (atomNum 3 (spAt 0 1)))

theorem quoted_one {sp : Option Span} {v : Val} {ps : List Piece} {tag : Tag} (h : Quoted sp v ps) : Quoted sp (.node tag [v]) ps := by
  have := QuotedL.cons h .nil
  rw [List.append_nil] at this
  exact .parts this

/-- The hypotheses of C79_interpolated are met by `(#s) * 3`, ... -/
theorem group_quoted : Quoted none groupTimes [.group .paren [.node onePlusTwo], .op "*".toList, .lit "3".toList] :=
  quoted_one (quoted_one (quoted_one (.parts (.cons (ps := [.group .paren [.node onePlusTwo]]) (quoted_one (quoted_one (.group .node)))
    (.cons (ps := [.op "*".toList]) .punct (.cons (ps := [.lit "3".toList]) (quoted_one (.lit (.inl (by decide +kernel))
      (.uint (.plain (.here (by simp)) ((readNat_iff _ 3).mp (by decide +kernel)))))) .nil))))))

/-- ... so it is read as the product of a parenthesized `s` and 3. -/
example (laws : @FloatLaws signExt) (signs : @SignLaws signExt) : ∃ m, tryParseQuote (parse sumEnv m (.named "Sum".toList)) none
    [.group .paren [.node onePlusTwo], .op "*".toList, .lit "3".toList] = .ok groupTimes := by
  have hv : HasTy sumEnv (.named "Sum".toList) groupTimes := (C76_sound (ts := [.group .paren [.lit "1".toList (spAt 0 1), .punct '+' .alone (spAt 1 2),
    .lit "2".toList (spAt 2 3)] .callSite, .punct '*' .alone .callSite, .lit "3".toList (spAt 0 1)]) ⟨20, rfl⟩).1
  refine C79_interpolated laws signs sum_checks.1 sum_checks.2.2.2.1 sum_checks.2.2.2.2 sum_checks.2.2.1 hv
    (solid_survives (grammar_of_ll1 laws sum_checks.1).closed (solid_sound sum_checks.1 sum_checks.2.1) hv sum_checks.2.2.2.1) ?_ group_quoted ?_
  · simp [groupTimes, sumOne, prodTwo, atomNum, onePlusTwo, sumTwo, prodOne, Printable, PrintableL, LitVal.Finite]
  · intro ts h
    have : expand none [.group .paren [.node onePlusTwo], .op "*".toList, .lit "3".toList] =
      some [.group .paren [.lit "1".toList (spAt 0 1), .punct '+' .alone (spAt 1 2), .lit "2".toList (spAt 2 3)] .callSite, .punct '*' .alone .callSite, .lit "3".toList (spAt 0 1)] := rfl
    rw [this] at h
    cases h
    exact noMinusZero_of_B (by decide +kernel)

/-- `#s * 3` without the parentheses, however, is not the product of `s` and 3, but `1 + 2 * 3`: interpolated nodes are not kept together.  (A template that
does not spell out a node around them, as C79_interpolated asks for.) -/
theorem C79_not_hygienic :
    let v := sumTwo (prodOne (atomNum 1 (spAt 0 1))) (spAt 1 2) (prodTwo (atomNum 2 (spAt 2 3)) .callSite (atomNum 3 (spAt 0 1)))
    tryParseQuote (parse sumEnv 20 (.named "Sum".toList)) none [.node onePlusTwo, .op "*".toList, .lit "3".toList] = .ok v ∧ ¬ Inside onePlusTwo v := by
  refine ⟨rfl, ?_⟩
  have node : ∀ w tag vs, Inside w (.node tag vs) ↔ w = .node tag vs ∨ ∃ v ∈ vs, Inside w v := fun w tag vs =>
    ⟨fun h => by
      cases h with
      | here => exact .inl rfl
      | node h1 h2 => exact .inr ⟨_, h1, h2⟩,
     fun h => by
      rcases h with rfl | ⟨v, h1, h2⟩
      · exact .here
      · exact .node h1 h2⟩
  have leaf : ∀ w l v, Inside w (.leaf l v) ↔ w = .leaf l v := fun w l v =>
    ⟨fun h => by cases h; rfl, fun h => by rw [h]; exact .here⟩
  simp [node, leaf, onePlusTwo, sumTwo, prodOne, prodTwo, atomNum]

/-- The example in the documentation of `try_parse_quote!`: `true "text" 76u64` (say) as `Many<Lit>`. -/
example : tryParseQuote (parse sumEnv 20 (.punctuated (.leaf (.lit .any)) (.leaf .notEof))) none [.ident "true".toList, .lit "\"text\"".toList, .lit "76u64".toList] =
    .ok (.node .punctuated [.leaf (.lit .any) (.lit (.bool true) .callSite), .leaf .notEof .unit, .leaf (.lit .any) (.lit (.str "text".toList) (spAt 0 6)), .leaf .notEof .unit,
      .leaf (.lit .any) (.lit (.uint 76) (spAt 0 5))]) := rfl

/-- The example in the documentation of `try_parse_quote_spanned!`: `lorem, #interp, ipsum` as `Punctuated<Word, Token![,]>`. -/
example : tryParseQuote (parse sumEnv 20 (.punctuated (.leaf (.customIdent [])) (.leaf (.punct ",".toList)))) (some (spAt 0 25))
      [.ident "lorem".toList, .op ",".toList, .node (.leaf (.customIdent []) (.ident "quodsit".toList (spAt 0 7))), .op ",".toList, .ident "ipsum".toList] =
    .ok (.node .punctuated [.leaf (.customIdent []) (.ident "lorem".toList (spAt 0 25)), .leaf (.punct ",".toList) (.mark [spAt 0 25]),
      .leaf (.customIdent []) (.ident "quodsit".toList (spAt 0 7)), .leaf (.punct ",".toList) (.mark [spAt 0 25]),
      .leaf (.customIdent []) (.ident "ipsum".toList (spAt 0 25))]) := rfl

/-- A template with a node that cannot be printed (an infinite float) panics; C79_panics, C79_locations and C79_any_location are about all the templates above. -/
example : Proper [.node (.leaf (.lit .float) (.lit (.float (false, none)) spA))] ∧
    tryParseQuote (parse sumEnv 20 (.leaf (.lit .float))) none [.node (.leaf (.lit .float) (.lit (.float (false, none)) spA))] = .panic := ⟨⟨trivial, trivial⟩, rfl⟩

end
end Parsel
