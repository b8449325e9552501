import Verif.Proofs.Own
import Verif.Proofs.Joins
import Verif.Proofs.NoZero
import Verif.Props.Source
import Verif.Props.Idempotent

/-! C76: an LL(1) grammar accepts exactly the streams that its values stand for. -/

namespace Parsel
open Spec

section
variable [Ext]

/-- One half of C76, in every grammar: what is accepted as a value is a value of the type, and stands for exactly the tokens of the stream. -/
theorem C76_sound {env : Env} {t : Ty} {ts : List TT} {v : Val} (h : Accepts env t ts v) : HasTy env t v ∧ Reads false v (dissolve ts) := by
  obtain ⟨s', n, hn⟩ := accepts_parses h
  exact ⟨parse_hasTy _ n _ _ _ _ hn, C14_complete h⟩

/-- The other half, in an LL(1) grammar: every stream that a value of the type stands for - however literals in it are spelled, with or without invisible
groups - is accepted, as this value.  Nothing that the types allow is missed because an earlier alternative or a repetition was too greedy. -/
theorem C76_complete (laws : FloatLaws) (signs : SignLaws) {env : Env} {G : List Ty} {n : Nat} (hG : ll1 env G n = true) {t : Ty} (ht : t ∈ G)
    (he : closesAtEnd env G n t = true) {v : Val} (hv : HasTy env t v) (hs : Survives v) {ts out : List TT} (ho : v.toTokens = some out)
    (hr : Reads false v (dissolve ts)) (hord : Ordinary ts) (hz : NoMinusZero ts) (hj : SameJoins (GluedIn env t) (dissolve ts) out) : Accepts env t ts v :=
  accepts_written laws signs (C12_checked laws hG ht he hv hs ho) ho hr hord hz hj

/-- The printed form of a value - parsed or built by hand, in any grammar - is a stream that it stands for, so that nothing is printed that does not belong to
it, and nothing of it is left out. -/
theorem C76_printed (laws : FloatLaws) {env : Env} {t : Ty} {v : Val} (hv : HasTy env t v) {out : List TT} (ho : v.toTokens = some out) : Reads false v (dissolve out) := by
  obtain ⟨h1, h2⟩ := formed_own laws (hasTy_formed hv) ho
  rwa [h2]

/-- **C38** for all values, parsed or built by hand: a value can be printed exactly if no float in it is infinite and no keyword in it is a raw identifier. -/
theorem C38_value_prints_iff {env : Env} {t : Ty} {v : Val} (hv : HasTy env t v) : (∃ out, v.toTokens = some out) ↔ Printable v := by
  rw [← formed_prints (hasTy_formed hv), Option.isSome_iff_exists]

/-- Operators that cannot be mistaken for parts of longer ones: it does not matter how they are joined to what follows. -/
theorem joins_of (laws : FloatLaws) (signs : SignLaws) {env : Env} {G : List Ty} {n : Nat} (hj : separable env G n = true) {t : Ty} (ht : t ∈ G) {ts out : List TT} {v : Val} (hv : HasTy env t v) (ho : v.toTokens = some out) (hr : Reads false v (dissolve ts)) (hord : Ordinary ts)
    (hz : NoMinusZero ts) : SameJoins (GluedIn env t) (dissolve ts) out := by
  have hf := fine_of_ordinary hord hz
  exact sameJoins_of_unglued (reads_respelled laws signs v _ _ hr ho hf) hf.vis (separable_unglued hj ht hv ho)

omit [Ext] in
theorem separable_closed {env : Env} {G : List Ty} {n : Nat} (hj : separable env G n = true) : closedB env G = true := by
  unfold separable at hj
  simp only [Tables.closedAt, List.all_eq_true, Bool.and_eq_true] at hj
  refine List.all_eq_true.mpr fun t ht => List.all_eq_true.mpr fun u hu => ?_
  exact (hj t ht).1.1.1.1.1.1.1 u hu

/-- **C61** without a condition on the stream: in any grammar - LL(1) or not - whose operators cannot be mistaken for parts of longer ones, what is printed for an
accepted value is accepted, as this value. -/
theorem C61_separable (laws : FloatLaws) (signs : SignLaws) {env : Env} {G : List Ty} {n : Nat} (hj : separable env G n = true) {t : Ty} (ht : t ∈ G) {ts out : List TT}
    {v : Val} (h : Accepts env t ts v) (ho : v.toTokens = some out) (hord : Ordinary ts) (hz : NoMinusZero ts) : Accepts env t out v :=
  C61_reparse laws signs h ho hord hz (joins_of laws signs hj ht (C76_sound h).1 ho (C76_sound h).2 hord hz)

/-- **C61** and **C62** for text, likewise: `from_str` of the text that `to_string` makes of a value returned by `from_str` gives that value again, up to locations,
and printing that gives the same text. -/
theorem C61_separable_text (laws : FloatLaws) (signs : SignLaws) (alternate : Bool) {env : Env} {G : List Ty} {n : Nat} (hj : separable env G n = true) {t : Ty} (ht : t ∈ G)
    (hop : operatorsB G = true) {src : Text} {ts : List TT} {v : Val} (hl : lex src = some ts) (h : AcceptsStr env t src v) (hp : Printable v) (hz : NoMinusZero ts) :
    ∃ text w, display alternate v = some text ∧ AcceptsStr env t text w ∧ Alike v w ∧ display alternate w = some text := by
  obtain ⟨ts', hl', ha, hr⟩ := acceptsStr_reads h
  rw [hl] at hl'
  cases hl'
  obtain ⟨hord, hvis⟩ := lexed_ordinary hl
  obtain ⟨out, ho⟩ := (C38_value_prints_iff (C76_sound ha).1).mpr hp
  have hjo := joins_of laws signs hj ht (C76_sound ha).1 ho (C76_sound ha).2 hord hz
  rw [dissolve_visible hvis] at hjo
  obtain ⟨text, w, h1, h2, h3⟩ := C61_text laws signs alternate (fun tok hw => operatorText_of_B (separable_closed hj) hop ht hw) hl h ho hz hjo
  exact ⟨text, w, h1, h2, h3, by rw [← C62_display alternate h3]; exact h1⟩

/-- **C76.** In an LL(1) grammar whose operators cannot be mistaken for parts of longer ones (`separable`): a stream is accepted as `v` if and only if `v` is a
value of the type, stands for exactly the tokens of the stream, and survives printing (its `Lit`s are as the parser makes them, and no `Punctuated` in it ends in
something without tokens).  So the parser accepts the language that the types describe as a context-free grammar, and returns its derivation. -/
theorem C76_language (laws : FloatLaws) (signs : SignLaws) {env : Env} {G : List Ty} {n : Nat} (hG : ll1 env G n = true) {t : Ty} (ht : t ∈ G)
    (he : closesAtEnd env G n t = true) (hj : separable env G n = true) {ts : List TT} (hord : Ordinary ts) (hz : NoMinusZero ts) {v : Val}
    (hp : v.toTokens ≠ none) : Accepts env t ts v ↔ HasTy env t v ∧ Survives v ∧ Reads false v (dissolve ts) := by
  refine ⟨fun h => ⟨(C76_sound h).1, accepted_survives h hord hz, (C76_sound h).2⟩, fun ⟨hv, hs, hr⟩ => ?_⟩
  obtain ⟨out, ho⟩ := Option.ne_none_iff_exists'.mp hp
  exact C76_complete laws signs hG ht he hv hs ho hr hord hz (joins_of laws signs hj ht hv ho hr hord hz)

/-- **C76**: if there is no `Lit` and no `Punctuated` of parts that can be empty in the grammar (`solid`), every value survives printing. -/
theorem C76_language_solid (laws : FloatLaws) (signs : SignLaws) {env : Env} {G : List Ty} {n : Nat} (hG : ll1 env G n = true) (hsol : solid env G n = true) {t : Ty}
    (ht : t ∈ G) (he : closesAtEnd env G n t = true) (hj : separable env G n = true) {ts : List TT} (hord : Ordinary ts)
    (hz : NoMinusZero ts) {v : Val} (hp : v.toTokens ≠ none) : Accepts env t ts v ↔ HasTy env t v ∧ Reads false v (dissolve ts) := by
  rw [C76_language laws signs hG ht he hj hord hz hp]
  exact ⟨fun h => ⟨h.1, h.2.2⟩, fun h => ⟨h.1, solid_survives (grammar_of_ll1 laws hG).closed (solid_sound hG hsol) h.1 ht, h.2⟩⟩

/-- **C76**: such a grammar is unambiguous; no stream can be read in two ways. -/
theorem C76_unambiguous (laws : FloatLaws) (signs : SignLaws) {env : Env} {G : List Ty} {n : Nat} (hG : ll1 env G n = true)
    {t : Ty} (ht : t ∈ G) (he : closesAtEnd env G n t = true) (hj : separable env G n = true) {ts : List TT}
    (hord : Ordinary ts) (hz : NoMinusZero ts) {v w : Val} (hpv : v.toTokens ≠ none) (hpw : w.toTokens ≠ none) (hv : HasTy env t v) (hw : HasTy env t w)
    (hsv : Survives v) (hsw : Survives w) (hrv : Reads false v (dissolve ts)) (hrw : Reads false w (dissolve ts)) : v = w := by
  obtain ⟨_, a⟩ := accepts_parses ((C76_language laws signs hG ht he hj hord hz hpv).mpr ⟨hv, hsv, hrv⟩)
  obtain ⟨_, b⟩ := accepts_parses ((C76_language laws signs hG ht he hj hord hz hpw).mpr ⟨hw, hsw, hrw⟩)
  exact (parses_unique a b).1

end

section
attribute [local instance] signExt

/-- The hypotheses of C61_separable and C61_separable_text are met by a grammar that is not LL(1) and has `+`, `=` and `+=`: every program of it is read back from
what is printed for it, ... -/
theorem stmt_separable : ll1 stmtEnv stmtTypes 12 = false ∧ separable stmtEnv stmtTypes 12 = true ∧ operatorsB stmtTypes = true ∧ Ty.named "Prog".toList ∈ stmtTypes := by
  decide +kernel

/-- ... such as `stmtSrc`. -/
example : ∃ v text w, AcceptsStr stmtEnv (.named "Prog".toList) stmtSrc v ∧ display false v = some text ∧ AcceptsStr stmtEnv (.named "Prog".toList) text w ∧ Alike v w := by
  obtain ⟨v, _, _, h, _⟩ := C62_computed signExt_laws signExt_signs false (env := stmtEnv) (G := stmtTypes) (t := .named "Prog".toList) (n := 40) (src := stmtSrc)
    (by decide +kernel) (by decide +kernel)
  obtain ⟨ts, hl, ha, _⟩ := acceptsStr_reads h
  have hp : Printable v := by
    obtain ⟨v', out, h', ho, _⟩ := C61_computed signExt_laws signExt_signs (env := stmtEnv) (G := stmtTypes) (t := .named "Prog".toList) (n := 40) (src := stmtSrc) (by decide +kernel)
    obtain ⟨ts', hl', ha', _⟩ := acceptsStr_reads h'
    rw [hl] at hl'
    cases hl'
    obtain ⟨_, a⟩ := accepts_parses ha
    obtain ⟨_, b⟩ := accepts_parses ha'
    rw [(parses_unique a b).1]
    exact (C38_value_prints_iff (C76_sound ha').1).mp ⟨out, ho⟩
  have hz : NoMinusZero ts := noMinusZero_of_B (by
    have : (match lex stmtSrc with | some ts => minusZeroB (dissolve ts) | none => true) = false := by decide +kernel
    rw [hl] at this
    exact this)
  obtain ⟨text, w, h1, h2, h3, _⟩ := C61_separable_text signExt_laws signExt_signs false stmt_separable.2.1 stmt_separable.2.2.2 stmt_separable.2.2.1 hl h hp hz
  exact ⟨v, text, w, h, h1, h2, h3⟩

end

/-! ### the condition is needed -/

section
attribute [local instance] toyExt

/-- `struct S(Any<Ident>, Ident)`: the repetition leaves no identifier for the last field. -/
def greedyEnv : Env := fun x => if x = "S".toList then .struct (tys [.any (.leaf .rustIdent), .leaf .rustIdent]) else .enum []

/-- In a grammar that is not LL(1) the parser can miss what the types describe: the tokens `a` are those of an `S` without repetitions, but `S` rejects them. -/
theorem C76_ll1_needed : ∃ v ts, HasTy greedyEnv (.named "S".toList) v ∧ Reads false v (dissolve ts) ∧ (¬ ∃ w, Accepts greedyEnv (.named "S".toList) ts w) ∧
    ∃ e, Rejects greedyEnv (.named "S".toList) ts e := by
  have hr : Rejects greedyEnv (.named "S".toList) [.ident "a".toList spA] ⟨.callSite, "error parsing S::1, caused by:\nunexpected end of input, expected identifier".toList⟩ := ⟨6, rfl⟩
  refine ⟨.node (.ctor "S".toList "S".toList) [.node .any [], .leaf .rustIdent (.ident "a".toList spA)], _, ?_, ?_, ?_, _, hr⟩
  · exact .struct (fields := tys [.any (.leaf .rustIdent), .leaf .rustIdent]) rfl (.cons (.any (n := 0) .nil) (.cons (.leaf (.rustIdent (by decide))) .nil))
  · exact ⟨[], [.ident "a".toList spA], false, false, rfl, ⟨rfl, rfl⟩, ⟨[.ident "a".toList spA], [], false, false, rfl, ⟨rfl, .ident (.inr rfl)⟩, ⟨rfl, rfl⟩, rfl⟩, rfl⟩
  · rintro ⟨w, h⟩
    obtain ⟨s1, n, h1⟩ := accepts_parses h
    have h2 : parse greedyEnv 6 (.named "S".toList) ⟨[.ident "a".toList spA], .callSite, none⟩ = .err ⟨.callSite, "error parsing S::1, caused by:\nunexpected end of input, expected identifier".toList⟩ := rfl
    have := parse_unique (n := n) (m := 6) (by rw [h1]; simp) (by rw [h2]; simp)
    rw [h1, h2] at this
    cases this

/-- `struct T(Either<Token![==], Token![=]>, Token![=])`. -/
def eqEnv : Env := fun x =>
  if x = "T".toList then .struct (tys [.either (.leaf (.punct "==".toList)) (.leaf (.punct "=".toList)), .leaf (.punct "=".toList)]) else .enum []

/-- `struct D(Ident, Paren<Any<Ident>>, Token![->], LitInt, Maybe<Token![=>], Ident>)`, with operators of two characters. -/
def arrowEnv : Env := fun x =>
  if x = "D".toList then .struct (tys [.leaf .rustIdent, .paren (.any (.leaf .rustIdent)), .leaf (.punct "->".toList), .leaf (.lit .int),
    .maybe (.leaf (.punct "=>".toList)) (.leaf .rustIdent)]) else .enum []

/-- The types of `T` and of `D`. -/
def eqTypes : List Ty := typesFrom eqEnv 8 [.named "T".toList]
/-- The types of `T` and of `D`. -/
def arrowTypes : List Ty := typesFrom arrowEnv 8 [.named "D".toList]

/-- The hypotheses are met by a grammar with operators of several characters. -/
example : ll1 arrowEnv arrowTypes 8 = true ∧ solid arrowEnv arrowTypes 8 = true ∧ closesAtEnd arrowEnv arrowTypes 8 (.named "D".toList) = true ∧
    separable arrowEnv arrowTypes 8 = true ∧ Ty.leaf (.punct "->".toList) ∈ arrowTypes := by decide +kernel

/-- If an operator can be mistaken for a part of a longer one, the parser can miss what the types describe: the two tokens of `==` are those of a `T` with two `=`,
but written without a space they are one `==`, and `T` rejects them. -/
theorem C76_separable_needed : ll1 eqEnv eqTypes 8 = true ∧ solid eqEnv eqTypes 8 = true ∧ closesAtEnd eqEnv eqTypes 8 (.named "T".toList) = true ∧
    separable eqEnv eqTypes 8 = false ∧ ∃ v ts, HasTy eqEnv (.named "T".toList) v ∧ Ordinary ts ∧ NoMinusZero ts ∧ v.toTokens ≠ none ∧ Reads false v (dissolve ts) ∧
      lex "==".toList = some ts ∧ ¬ ∃ w, Accepts eqEnv (.named "T".toList) ts w := by
  have hl : lex "==".toList = some [.punct '=' .joint (spAt 0 1), .punct '=' .alone (spAt 1 2)] := by rfl
  refine ⟨by decide +kernel, by decide +kernel, by decide +kernel, by decide +kernel,
    .node (.ctor "T".toList "T".toList) [.node .eitherRight [.leaf (.punct "=".toList) (.mark [spAt 0 1])], .leaf (.punct "=".toList) (.mark [spAt 1 2])], _,
    (C76_sound (ts := [.punct '=' .alone (spAt 0 1), .punct '=' .alone (spAt 1 2)]) ⟨8, rfl⟩).1, ⟨?_, ?_⟩, noMinusZero_of_B (by decide +kernel), by decide +kernel, ?_, hl, ?_⟩
  · exact fun r sp ho => litText_unsigned ((writable_occurs (lex_writable hl).1 ho).2 r sp rfl)
  · exact fun i sp ho => absurd ho (C60_visible hl i sp)
  · exact ⟨[.punct '=' .joint (spAt 0 1)], [.punct '=' .alone (spAt 1 2)], false, false, rfl,
      ⟨[.punct '=' .joint (spAt 0 1)], [], false, false, rfl, ⟨rfl, .punct .last⟩, ⟨rfl, rfl⟩, rfl⟩,
      ⟨[.punct '=' .alone (spAt 1 2)], [], false, false, rfl, ⟨rfl, .punct .last⟩, ⟨rfl, rfl⟩, rfl⟩, rfl⟩
  · rintro ⟨w, h⟩
    obtain ⟨s1, n, h1⟩ := accepts_parses h
    have h2 : ∃ e, parse eqEnv 8 (.named "T".toList) ⟨[.punct '=' .joint (spAt 0 1), .punct '=' .alone (spAt 1 2)], .callSite, none⟩ = .err e := ⟨_, rfl⟩
    obtain ⟨e, h2⟩ := h2
    have := parse_unique (n := n) (m := 8) (by rw [h1]; simp) (by rw [h2]; simp)
    rw [h1, h2] at this
    cases this

end

section
attribute [local instance] signExt

/-- `struct C(Ident, Paren<Many<Lit>>)`. -/
def manyEnv : Env := fun x =>
  if x = "C".toList then .struct (tys [.leaf (.customIdent []), .paren (.punctuated (.leaf (.lit .any)) (.leaf .notEof))]) else .enum []

/-- The types of `C`. -/
def manyTypes : List Ty := typesFrom manyEnv 8 [.named "C".toList]

theorem many_checks : ll1 manyEnv manyTypes 8 = true ∧ closesAtEnd manyEnv manyTypes 8 (.named "C".toList) = true ∧ separable manyEnv manyTypes 8 = true ∧
    Ty.named "C".toList ∈ manyTypes ∧ solid manyEnv manyTypes 8 = false := by decide +kernel

/-- The value of `f(5 true)`, and what else may be between the parentheses. -/
def manyVal (more : List Val) : Val :=
  .node (.ctor "C".toList "C".toList) [.leaf (.customIdent []) (.ident "f".toList spA), .group .paren spA (.node .punctuated
    ([.leaf (.lit .any) (.lit (.uint 5) spA), .leaf .notEof .unit, .leaf (.lit .any) (.lit (.bool true) spA)] ++ more))]

/-- The tokens `f(5 true)`. -/
def manyTokens : List TT := [.ident "f".toList spA, .group .paren [.lit "5".toList spA, .ident "true".toList spA] spA]

theorem many_accepts : Accepts manyEnv (.named "C".toList) manyTokens (manyVal []) := ⟨9, rfl⟩

theorem many_ordinary : Ordinary manyTokens ∧ NoMinusZero manyTokens := by
  refine ⟨⟨?_, ?_⟩, noMinusZero_of_B (by decide +kernel)⟩
  · intro r sp ho
    unfold manyTokens at ho
    cases ho with
    | tail ho =>
      cases ho with
      | tail ho => cases ho
      | inside ho =>
        cases ho with
        | head => decide
        | tail ho => cases ho with | tail ho => cases ho
  · intro i sp ho
    unfold manyTokens at ho
    cases ho with
    | tail ho =>
      cases ho with
      | tail ho => cases ho
      | inside ho => cases ho with | tail ho => cases ho with | tail ho => cases ho

/-- The hypotheses of C76_language are met by a grammar with a `Many` and with `Lit`s. -/
example : HasTy manyEnv (.named "C".toList) (manyVal []) ∧ Survives (manyVal []) ∧ Reads false (manyVal []) (dissolve manyTokens) :=
  (C76_language signExt_laws signExt_signs many_checks.1 many_checks.2.2.2.1 many_checks.2.1 many_checks.2.2.1 many_ordinary.1 many_ordinary.2 (by decide +kernel)).mp many_accepts

/-- That the value survives has to be asked for: a value with a second `NotEof`, after the last literal, has the same tokens, but is not what is returned. -/
theorem C76_survives_needed : ll1 manyEnv manyTypes 8 = true ∧ closesAtEnd manyEnv manyTypes 8 (.named "C".toList) = true ∧ separable manyEnv manyTypes 8 = true ∧
    ∃ v ts, HasTy manyEnv (.named "C".toList) v ∧ Ordinary ts ∧ NoMinusZero ts ∧ v.toTokens ≠ none ∧ Reads false v (dissolve ts) ∧
      (∃ w, Accepts manyEnv (.named "C".toList) ts w) ∧ ¬ Accepts manyEnv (.named "C".toList) ts v := by
  have h5 : HasTy manyEnv (.leaf (.lit .any)) (.leaf (.lit .any) (.lit (.uint 5) spA)) ∧ Reads false (.leaf (.lit .any) (.lit (.uint 5) spA)) [.lit "5".toList spA] :=
    C76_sound (ts := [.lit "5".toList spA]) ⟨3, rfl⟩
  have ht : HasTy manyEnv (.leaf (.lit .any)) (.leaf (.lit .any) (.lit (.bool true) spA)) ∧ Reads false (.leaf (.lit .any) (.lit (.bool true) spA)) [.ident "true".toList spA] :=
    C76_sound (ts := [.ident "true".toList spA]) ⟨3, rfl⟩
  have hf : HasTy manyEnv (.leaf (.customIdent [])) (.leaf (.customIdent []) (.ident "f".toList spA)) ∧ Reads false (.leaf (.customIdent []) (.ident "f".toList spA)) [.ident "f".toList spA] :=
    C76_sound (ts := [.ident "f".toList spA]) ⟨3, rfl⟩
  have hn : HasTy manyEnv (.leaf .notEof) (.leaf .notEof .unit) := .leaf .notEof
  refine ⟨many_checks.1, many_checks.2.1, many_checks.2.2.1, manyVal [.leaf .notEof .unit], manyTokens, ?_, many_ordinary.1, many_ordinary.2, by decide +kernel, ?_, ⟨_, many_accepts⟩, ?_⟩
  · exact .struct (fields := tys [.leaf (.customIdent []), .paren (.punctuated (.leaf (.lit .any)) (.leaf .notEof))]) rfl
      (.cons hf.1 (.cons (.paren (.punctuated (n := 4) (.cons h5.1 (.cons hn (.cons ht.1 (.cons hn .nil)))))) .nil))
  · have e : dissolve manyTokens = manyTokens := rfl
    rw [e]
    refine ⟨[_], [_], false, false, rfl, hf.2, ⟨[_], [], false, false, rfl, ?_, ⟨rfl, rfl⟩, rfl⟩, rfl⟩
    refine ⟨[_, _], [], false, rfl, ?_, rfl⟩
    exact ⟨[_], [_], false, false, rfl, h5.2, ⟨[], [_], false, false, rfl, ⟨rfl, .unit (by simp)⟩, ⟨[_], [], false, false, rfl, ht.2,
      ⟨[], [], false, false, rfl, ⟨rfl, .unit (by simp)⟩, ⟨rfl, rfl⟩, rfl⟩, rfl⟩, rfl⟩, rfl⟩
  · intro h
    obtain ⟨_, a⟩ := accepts_parses h
    obtain ⟨_, b⟩ := accepts_parses many_accepts
    have := (parses_unique a b).1
    simp [manyVal] at this

end

end Parsel
