import Verif.Proofs.Compose

/-! C88: texts can be put together. -/

namespace Parsel
open Spec

section
variable [Ext]

/-- **C88.** In an LL(1) grammar with separable operators: a text put together from texts of the parts of a value (each with its own white space and comments, read by
whatever type), with spaces between them, is read as that value. -/
theorem C88_composed (laws : FloatLaws) (signs : SignLaws) {env : Env} {G : List Ty} {n : Nat} (hG : ll1 env G n = true) {t : Ty} (ht : t ∈ G)
    (he : closesAtEnd env G n t = true) (hj : separable env G n = true) {v : Val} (hv : HasTy env t v) (hs : Survives v) (hp : v.toTokens ≠ none) {x : Text}
    (hc : Composed v x) (hz : ∀ ts, lex x = some ts → NoMinusZero ts) : ∃ u, AcceptsStr env t x u ∧ Alike v u := by
  obtain ⟨us, h1, h2, h3⟩ := composed_own laws hc
  obtain ⟨new, hnew, hshape⟩ := lex_layout h1 h2
  have hv1 := layout_visible h1
  have hz' := noMinusZero_shape hshape hv1 (C60_visible hnew) (hz new hnew)
  have hord : Ordinary us :=
    ⟨fun r sp ho => litText_unsigned ((writable_occurs h2 ho).2 r sp rfl), fun i sp ho => absurd ho (hv1 i sp)⟩
  have hacc := (C76_language laws signs hG ht he hj hord hz' hp).mpr ⟨hv, hs, by rw [dissolve_visible hv1]; exact h3⟩
  obtain ⟨u, ⟨m, hm⟩, hal⟩ := C31_accepts hshape hacc
  refine ⟨u, ⟨m, ?_⟩, hal⟩
  unfold parseStr
  simp only [hnew]
  exact hm

theorem toTokensL_ne_append {vs ws : List Val} (h : Val.toTokensL vs ≠ none) (h' : Val.toTokensL ws ≠ none) : Val.toTokensL (vs ++ ws) ≠ none := by
  induction vs with
  | nil => exact h'
  | cons v vs ih =>
    simp only [Val.toTokensL, List.cons_append] at h ⊢
    cases hv : v.toTokens with
    | none => rw [hv] at h; simp at h
    | some a =>
      rw [hv] at h
      cases hvs : Val.toTokensL vs with
      | none => rw [hvs] at h; simp at h
      | some b =>
        have := ih (by rw [hvs]; simp)
        cases hx : Val.toTokensL (vs ++ ws) with
        | none => exact absurd hx this
        | some c => simp

/-- A text that is read as a type, with what is known of the value. -/
theorem read_text {env : Env} {t : Ty} {x : Text} {ts : List TT} {v : Val} (hl : lex x = some ts) (hlay : Layout ts x) (hz : NoMinusZero ts) (ha : AcceptsStr env t x v) :
    HasTy env t v ∧ Survives v ∧ Composed v x := by
  obtain ⟨us, hl', hacc, _⟩ := acceptsStr_reads ha
  rw [hl] at hl'
  cases hl'
  obtain ⟨m, hm⟩ := ha
  exact ⟨(C76_sound hacc).1, accepted_survives hacc (lexed_ordinary hl).1 hz, .read hl hlay hm⟩

/-- Two lists of items, one after the other, are the list of all items. -/
theorem C88_any (laws : FloatLaws) (signs : SignLaws) {env : Env} {G : List Ty} {n : Nat} (hG : ll1 env G n = true) {t : Ty} (ht : Ty.any t ∈ G)
    (he : closesAtEnd env G n (.any t) = true) (hj : separable env G n = true) {x y : Text} {xs ys : List TT} (hx : lex x = some xs) (hlx : Layout xs x) (hzx : NoMinusZero xs)
    (hy : lex y = some ys) (hly : Layout ys y) (hzy : NoMinusZero ys) {vs ws : List Val} (ha : AcceptsStr env (.any t) x (.node .any vs))
    (hb : AcceptsStr env (.any t) y (.node .any ws)) (hpv : Val.toTokensL vs ≠ none) (hpw : Val.toTokensL ws ≠ none)
    (hz : ∀ ts, lex (x ++ ' ' :: y) = some ts → NoMinusZero ts) :
    ∃ us, AcceptsStr env (.any t) (x ++ ' ' :: y) (.node .any us) ∧ AlikeL (vs ++ ws) us := by
  obtain ⟨hv, hsv, hcv⟩ := read_text hx hlx hzx ha
  obtain ⟨hw, hsw, hcw⟩ := read_text hy hly hzy hb
  cases hv with
  | @any _ i _ hv =>
    cases hw with
    | @any _ j _ hw =>
      obtain ⟨u, h1, h2⟩ := C88_composed laws signs hG ht he hj (v := .node .any (vs ++ ws)) (.any (n := i + j) (by
        rw [← List.replicate_append_replicate]; exact hasTys_append hv hw))
        ⟨(fun h => nomatch h), (survivesL_append _ _).mpr ⟨hsv.2, hsw.2⟩⟩ (toTokensL_ne_append hpv hpw) (.node (.append (.parts hcv) (.parts hcw))) hz
      cases h2 with
      | node h2 => exact ⟨_, h1, h2⟩

theorem alternate_even (t p : Ty) : ∀ (i j : Nat), alternate t p (2 * i + j) = alternate t p (2 * i) ++ alternate t p j
  | 0, j => by simp [alternate]
  | i + 1, j => by
    have e1 : 2 * (i + 1) + j = (2 * i + j) + 1 + 1 := by omega
    have e2 : 2 * (i + 1) = 2 * i + 1 + 1 := by omega
    rw [e1, e2]
    simp only [alternate, alternate_even t p i j, List.cons_append]

theorem alternate_join (t p : Ty) (i j : Nat) : alternate t p (2 * i + 1 + (j + 1)) = alternate t p (2 * i + 1) ++ p :: alternate t p j := by
  rw [show 2 * i + 1 + (j + 1) = 2 * i + (j + 1 + 1) by omega, alternate_even, alternate_even t p i 1]
  simp [alternate]

theorem toTokensL_single {v : Val} (h : v.toTokens ≠ none) : Val.toTokensL [v] ≠ none := by
  cases hv : v.toTokens with
  | none => exact absurd hv h
  | some a => simp [Val.toTokensL, hv]

/-- Two separated lists, with a separator between them, are the list of all items. -/
theorem C88_separated (laws : FloatLaws) (signs : SignLaws) {env : Env} {G : List Ty} {n : Nat} (hG : ll1 env G n = true) {t p : Ty} (ht : Ty.separated t p ∈ G)
    (he : closesAtEnd env G n (.separated t p) = true) (hj : separable env G n = true) {x s y : Text} {xs ss ys : List TT}
    (hx : lex x = some xs) (hlx : Layout xs x) (hzx : NoMinusZero xs) (hs : lex s = some ss) (hls : Layout ss s) (hzs : NoMinusZero ss)
    (hy : lex y = some ys) (hly : Layout ys y) (hzy : NoMinusZero ys) {vs ws : List Val} {q : Val} (ha : AcceptsStr env (.separated t p) x (.node .separated vs))
    (hq : AcceptsStr env p s q) (hb : AcceptsStr env (.separated t p) y (.node .separated ws)) (hpv : Val.toTokensL vs ≠ none) (hpq : q.toTokens ≠ none)
    (hpw : Val.toTokensL ws ≠ none) (hz : ∀ ts, lex (x ++ ' ' :: (s ++ ' ' :: y)) = some ts → NoMinusZero ts) :
    ∃ us, AcceptsStr env (.separated t p) (x ++ ' ' :: (s ++ ' ' :: y)) (.node .separated us) ∧ AlikeL (vs ++ q :: ws) us := by
  obtain ⟨hv, hsv, hcv⟩ := read_text hx hlx hzx ha
  obtain ⟨hqt, hsq, hcq⟩ := read_text hs hls hzs hq
  obtain ⟨hw, hsw, hcw⟩ := read_text hy hly hzy hb
  cases hv with
  | @separated _ _ i _ hv =>
    cases hw with
    | @separated _ _ j _ hw =>
      obtain ⟨u, h1, h2⟩ := C88_composed laws signs hG ht he hj (v := .node .separated (vs ++ ([q] ++ ws))) (.separated (n := i + j + 1) (by
        rw [show 2 * (i + j + 1) + 1 = 2 * i + 1 + (2 * j + 1 + 1) by omega, alternate_join]
        exact hasTys_append hv (.cons hqt hw)))
        ⟨(fun h => nomatch h), (survivesL_append _ _).mpr ⟨hsv.2, And.intro hsq hsw.2⟩⟩ (toTokensL_ne_append hpv (toTokensL_ne_append (toTokensL_single hpq) hpw))
        (.node (.append (.parts hcv) (.append (.one hcq) (.parts hcw)))) hz
      cases h2 with
      | node h2 => exact ⟨_, h1, h2⟩

theorem alternate_last {env : Env} : ∀ {i : Nat} {t p : Ty} {vs : List Val} {w : Val}, HasTys env (alternate t p i) vs → i % 2 = 0 → vs.getLast? = some w → HasTy env p w
  | 0, _, _, _, _, .nil, _, hw => by cases hw
  | 1, _, _, _, _, _, h, _ => by cases h
  | 2, _, _, _, _, .cons _ (.cons hp .nil), _, hw => by cases hw; exact hp
  | i + 3, t, p, _, w, .cons (vs := _ :: _) _ (.cons (vs := v :: vs) _ hs), h, hw =>
    alternate_last (i := i + 1) (t := t) hs (by omega) (by simpa using hw)

/-- Two `Many`s, one after the other, are the `Many` of all items. -/
theorem C88_many (laws : FloatLaws) (signs : SignLaws) {env : Env} {G : List Ty} {n : Nat} (hG : ll1 env G n = true) {t : Ty} (ht : Ty.punctuated t (.leaf .notEof) ∈ G)
    (he : closesAtEnd env G n (.punctuated t (.leaf .notEof)) = true) (hj : separable env G n = true) {x y : Text} {xs ys : List TT}
    (hx : lex x = some xs) (hlx : Layout xs x) (hzx : NoMinusZero xs) (hy : lex y = some ys) (hly : Layout ys y) (hzy : NoMinusZero ys) {vs ws : List Val}
    (ha : AcceptsStr env (.punctuated t (.leaf .notEof)) x (.node .punctuated vs)) (hb : AcceptsStr env (.punctuated t (.leaf .notEof)) y (.node .punctuated ws))
    (hv : vs ≠ []) (hw : ws ≠ []) (hpv : Val.toTokensL vs ≠ none) (hpw : Val.toTokensL ws ≠ none) (hz : ∀ ts, lex (x ++ ' ' :: y) = some ts → NoMinusZero ts) :
    ∃ us, AcceptsStr env (.punctuated t (.leaf .notEof)) (x ++ ' ' :: y) (.node .punctuated us) ∧ AlikeL (vs ++ .leaf .notEof .unit :: ws) us := by
  obtain ⟨hvt, hsv, hcv⟩ := read_text hx hlx hzx ha
  obtain ⟨hwt, hsw, hcw⟩ := read_text hy hly hzy hb
  cases hvt with
  | @punctuated _ _ i _ hvt =>
    cases hwt with
    | @punctuated _ _ j _ hwt =>
      have hodd : ∃ k, i = 2 * k + 1 := by
        rcases Nat.mod_two_eq_zero_or_one i with h | h
        · exfalso
          obtain ⟨w, hw⟩ := Option.ne_none_iff_exists'.mp (mt List.getLast?_eq_none_iff.mp hv)
          refine hsv.1 rfl w hw ?_
          have : HasTy env (.leaf .notEof) w := alternate_last hvt h hw
          cases this with
          | leaf h => cases h; rfl
        · exact ⟨i / 2, by omega⟩
      obtain ⟨k, rfl⟩ := hodd
      obtain ⟨u, h1, h2⟩ := C88_composed laws signs hG ht he hj (v := .node .punctuated (vs ++ (.leaf .notEof .unit :: ws))) (.punctuated (n := 2 * k + 1 + (j + 1)) (by
        rw [alternate_join]
        exact hasTys_append hvt (.cons (.leaf .notEof) hwt)))
        ⟨fun _ w h => hsw.1 rfl w (by rwa [show vs ++ Val.leaf .notEof .unit :: ws = (vs ++ [.leaf .notEof .unit]) ++ ws by simp, List.getLast?_append, Option.or_of_isSome (by simpa using hw)] at h), (survivesL_append _ _).mpr ⟨hsv.2, And.intro trivial hsw.2⟩⟩
        (toTokensL_ne_append hpv (toTokensL_ne_append (vs := [.leaf .notEof .unit]) (toTokensL_single (by simp [Val.toTokens, leafToTokens])) hpw))
        (.node (.append (.parts hcv) (.notEof (.parts hcw)))) hz
      cases h2 with
      | node h2 => exact ⟨_, h1, h2⟩

theorem pieces_composed {env : Env} : ∀ {us : List Ty} {xs : List Text} {vs : List Val}, Pieces env us xs vs →
    HasTys env us vs ∧ SurvivesL vs ∧ Val.toTokensL vs ≠ none ∧ ComposedL vs (spaced xs)
  | _, _, _, .nil => ⟨.nil, trivial, by simp [Val.toTokensL], .nil⟩
  | _, _, _, .cons hl hlay hz ha hp h => by
    obtain ⟨h1, h2, h3, h4⟩ := pieces_composed h
    obtain ⟨k1, k2, k3⟩ := read_text hl hlay hz ⟨_, ha⟩
    exact ⟨.cons k1 h1, And.intro k2 h2, toTokensL_ne_append (toTokensL_single hp) h3, .append (.one k3) h4⟩

/-- Texts of the fields of a struct, one after the other, are a text of the struct. -/
theorem C88_struct (laws : FloatLaws) (signs : SignLaws) {env : Env} {G : List Ty} {n : Nat} (hG : ll1 env G n = true) {name : Text} (ht : Ty.named name ∈ G)
    (he : closesAtEnd env G n (.named name) = true) (hj : separable env G n = true) {fields : Fields Ty} (hd : env name = .struct fields) {xs : List Text} {vs : List Val}
    (hps : Pieces env (fieldTypes fields) xs vs) (hz : ∀ ts, lex (spaced xs) = some ts → NoMinusZero ts) :
    ∃ us, AcceptsStr env (.named name) (spaced xs) (.node (.ctor name name) us) ∧ AlikeL vs us := by
  obtain ⟨h1, h2, h3, h4⟩ := pieces_composed hps
  obtain ⟨u, k1, k2⟩ := C88_composed laws signs hG ht he hj (.struct hd h1) ⟨(fun h => nomatch h), h2⟩ h3 (.node h4) hz
  cases k2 with
  | node k2 => exact ⟨_, k1, k2⟩

/-- Texts of the fields of a variant, one after the other, are a text of that variant, whatever other variants the enum has. -/
theorem C88_variant (laws : FloatLaws) (signs : SignLaws) {env : Env} {G : List Ty} {n : Nat} (hG : ll1 env G n = true) {name : Text} (ht : Ty.named name ∈ G)
    (he : closesAtEnd env G n (.named name) = true) (hj : separable env G n = true) {variants : List (VariantDef Ty)} (hd : env name = .enum variants) {w : VariantDef Ty}
    (hw : w ∈ variants) {xs : List Text} {vs : List Val} (hps : Pieces env (fieldTypes w.fields) xs vs) (hz : ∀ ts, lex (spaced xs) = some ts → NoMinusZero ts) :
    ∃ us, AcceptsStr env (.named name) (spaced xs) (.node (.ctor name w.ident) us) ∧ AlikeL vs us := by
  obtain ⟨h1, h2, h3, h4⟩ := pieces_composed hps
  obtain ⟨u, k1, k2⟩ := C88_composed laws signs hG ht he hj (.enum hd hw h1) ⟨(fun h => nomatch h), h2⟩ h3 (.node h4) hz
  cases k2 with
  | node k2 => exact ⟨_, k1, k2⟩

end


/-! ### examples -/

section
attribute [local instance] signExt

/-- `struct Stmt { name: Word, semi: Token![;] }` -/
def stepEnv : Env := fun x =>
  if x = "Stmt".toList then .struct (.named [("name".toList, fld (.leaf (.customIdent []))), ("semi".toList, fld (.leaf (.punct ";".toList)))])
  else .enum []

/-- The item `x;`. -/
def stepVal (x : Text) (a b : Nat) : Val :=
  .node (.ctor "Stmt".toList "Stmt".toList) [.leaf (.customIdent []) (.ident x (spAt a (a + 1))), .leaf (.punct ";".toList) (.mark [spAt b (b + 1)])]

theorem step_checks : ll1 stepEnv (typesFrom stepEnv 8 [.any (.named "Stmt".toList)]) 8 = true ∧
    closesAtEnd stepEnv (typesFrom stepEnv 8 [.any (.named "Stmt".toList)]) 8 (.any (.named "Stmt".toList)) = true ∧
    separable stepEnv (typesFrom stepEnv 8 [.any (.named "Stmt".toList)]) 8 = true ∧
    Ty.any (.named "Stmt".toList) ∈ typesFrom stepEnv 8 [.any (.named "Stmt".toList)] := by decide +kernel

/-- Two items and their text. -/
def stepsTokens : List TT := [.ident "a".toList (spAt 0 1), .punct ';' .alone (spAt 1 2), .ident "b".toList (spAt 7 8), .punct ';' .alone (spAt 9 10)]
def stepsText : Text := "a;/* */b ;".toList
/-- One item and its text. -/
def stepTokens : List TT := [.ident "c".toList (spAt 0 1), .punct ';' .alone (spAt 1 2)]
def stepText : Text := "c;".toList

theorem steps_laid : Layout stepsTokens stepsText := by
  have spc : Gap [' '] := .white (by decide) .nil
  have g0 : Gap "/* */".toList := .block (x := "/* */".toList) (g := []) (block_iff.mp (by decide)) (by decide) (by decide) .nil
  refine .ident .nil (parts_cons (by decide) (by decide) (by decide)) (.alone .nil (.inr ⟨by decide, .inr (by decide)⟩) ?_)
  exact .ident g0 (parts_cons (by decide) (by decide) (by decide)) (.alone (g := [' ']) spc (.inl (by simp)) (.nil .nil))

theorem step_laid : Layout stepTokens stepText :=
  .ident .nil (parts_cons (by decide) (by decide) (by decide)) (.alone .nil (.inl (by simp)) (.nil .nil))

theorem steps_lexed : lex stepsText = some stepsTokens := rfl
theorem step_lexed : lex stepText = some stepTokens := rfl

theorem steps_accepted : AcceptsStr stepEnv (.any (.named "Stmt".toList)) stepsText (.node .any [stepVal "a".toList 0 1, stepVal "b".toList 7 9]) :=
  ⟨20, by unfold parseStr; rw [steps_lexed]; rfl⟩
theorem step_accepted : AcceptsStr stepEnv (.any (.named "Stmt".toList)) stepText (.node .any [stepVal "c".toList 0 1]) :=
  ⟨20, by unfold parseStr; rw [step_lexed]; rfl⟩

/-- The hypotheses of C88_any (and with it C88_composed) are met: `a;/* */b ;` and `c;`. -/
example : ∃ us, AcceptsStr stepEnv (.any (.named "Stmt".toList)) (stepsText ++ ' ' :: stepText) (.node .any us) ∧
    AlikeL ([stepVal "a".toList 0 1, stepVal "b".toList 7 9] ++ [stepVal "c".toList 0 1]) us := by
  obtain ⟨h1, h2, h3, h4⟩ := step_checks
  refine C88_any signExt_laws signExt_signs h1 h4 h2 h3 steps_lexed steps_laid (noMinusZero_of_B (by decide +kernel)) step_lexed step_laid (noMinusZero_of_B (by decide +kernel))
    steps_accepted step_accepted (by decide +kernel) (by decide +kernel) (fun ts h => noMinusZero_of_B ?_)
  have : (match lex (stepsText ++ ' ' :: stepText) with | some ts => minusZeroB (dissolve ts) | none => false) = false := by decide +kernel
  rw [h] at this
  exact this

/-- The hypotheses of C88_struct are met: `c` and `;`. -/
example : ∃ us, AcceptsStr stepEnv (.named "Stmt".toList) "c ; ".toList (.node (.ctor "Stmt".toList "Stmt".toList) us) ∧
    AlikeL [.leaf (.customIdent []) (.ident "c".toList (spAt 0 1)), .leaf (.punct ";".toList) (.mark [spAt 0 1])] us := by
  have hps : Pieces stepEnv [.leaf (.customIdent []), .leaf (.punct ";".toList)] ["c".toList, ";".toList]
      [.leaf (.customIdent []) (.ident "c".toList (spAt 0 1)), .leaf (.punct ";".toList) (.mark [spAt 0 1])] := by
    refine .cons (ts := [.ident "c".toList (spAt 0 1)]) (n := 5) rfl ?_ (noMinusZero_of_B (by decide +kernel)) rfl (by decide +kernel)
      (.cons (ts := [.punct ';' .alone (spAt 0 1)]) (n := 5) rfl ?_ (noMinusZero_of_B (by decide +kernel)) rfl (by decide +kernel) .nil)
    · exact .ident .nil ⟨by simp, by simp⟩ (.nil .nil)
    · exact .alone .nil (.inl (by simp)) (.nil .nil)
  obtain ⟨h1, h2, h3, h4⟩ := step_checks
  have e : spaced ["c".toList, ";".toList] = "c ; ".toList := by decide
  rw [← e]
  refine C88_struct signExt_laws signExt_signs h1 (by decide +kernel) (by decide +kernel) h3
    (fields := .named [("name".toList, fld (.leaf (.customIdent []))), ("semi".toList, fld (.leaf (.punct ";".toList)))]) rfl hps (fun ts h => noMinusZero_of_B ?_)
  have : (match lex (spaced ["c".toList, ";".toList]) with | some ts => minusZeroB (dissolve ts) | none => false) = false := by decide +kernel
  rw [h] at this
  exact this

/-- `Many<Stmt>` -/
def stepMany : Ty := .punctuated (.named "Stmt".toList) (.leaf .notEof)

theorem stepMany_checks : ll1 stepEnv (typesFrom stepEnv 8 [stepMany]) 8 = true ∧ closesAtEnd stepEnv (typesFrom stepEnv 8 [stepMany]) 8 stepMany = true ∧
    separable stepEnv (typesFrom stepEnv 8 [stepMany]) 8 = true ∧ stepMany ∈ typesFrom stepEnv 8 [stepMany] := by decide +kernel

/-- The hypotheses of C88_many are met by the same texts. -/
example : ∃ us, AcceptsStr stepEnv stepMany (stepsText ++ ' ' :: stepText) (.node .punctuated us) ∧
    AlikeL ([stepVal "a".toList 0 1, .leaf .notEof .unit, stepVal "b".toList 7 9] ++ .leaf .notEof .unit :: [stepVal "c".toList 0 1]) us := by
  obtain ⟨h1, h2, h3, h4⟩ := stepMany_checks
  refine C88_many signExt_laws signExt_signs h1 h4 h2 h3 steps_lexed steps_laid (noMinusZero_of_B (by decide +kernel)) step_lexed step_laid (noMinusZero_of_B (by decide +kernel))
    ⟨20, by unfold parseStr; rw [steps_lexed]; rfl⟩ ⟨20, by unfold parseStr; rw [step_lexed]; rfl⟩ (by simp) (by simp) (by decide +kernel) (by decide +kernel)
    (fun ts h => noMinusZero_of_B ?_)
  have : (match lex (stepsText ++ ' ' :: stepText) with | some ts => minusZeroB (dissolve ts) | none => false) = false := by decide +kernel
  rw [h] at this
  exact this

/-- `Separated<Word, Token![,]>` -/
def wordList : Ty := .separated (.leaf (.customIdent [])) (.leaf (.punct ",".toList))

theorem wordList_checks : ll1 stepEnv (typesFrom stepEnv 8 [wordList]) 8 = true ∧ closesAtEnd stepEnv (typesFrom stepEnv 8 [wordList]) 8 wordList = true ∧
    separable stepEnv (typesFrom stepEnv 8 [wordList]) 8 = true ∧ wordList ∈ typesFrom stepEnv 8 [wordList] := by decide +kernel

/-- The hypotheses of C88_separated are met: `a`, `,` and `c`. -/
example : ∃ us, AcceptsStr stepEnv wordList ("a".toList ++ ' ' :: (",".toList ++ ' ' :: "c".toList)) (.node .separated us) ∧
    AlikeL ([.leaf (.customIdent []) (.ident "a".toList (spAt 0 1))] ++ .leaf (.punct ",".toList) (.mark [spAt 0 1]) ::
      [.leaf (.customIdent []) (.ident "c".toList (spAt 0 1))]) us := by
  obtain ⟨h1, h2, h3, h4⟩ := wordList_checks
  have word : ∀ (x : Text) sp, Layout [.ident x sp] x := fun x sp => by
    have := Layout.ident (x := x) (sp := sp) (rest := []) .nil ⟨by simp, by simp⟩ (.nil .nil)
    simpa using this
  refine C88_separated signExt_laws signExt_signs h1 h4 h2 h3 (x := "a".toList) (s := ",".toList) (y := "c".toList) (xs := [.ident "a".toList (spAt 0 1)]) (ss := [.punct ',' .alone (spAt 0 1)]) (ys := [.ident "c".toList (spAt 0 1)])
    rfl (word _ _) (noMinusZero_of_B (by decide +kernel)) rfl (.alone .nil (.inl (by simp)) (.nil .nil)) (noMinusZero_of_B (by decide +kernel)) rfl (word _ _)
    (noMinusZero_of_B (by decide +kernel)) ⟨20, rfl⟩ ⟨20, rfl⟩ ⟨20, rfl⟩ (by decide +kernel) (by decide +kernel) (by decide +kernel) (fun ts h => noMinusZero_of_B ?_)
  have : (match lex ("a".toList ++ ' ' :: (",".toList ++ ' ' :: "c".toList)) with | some ts => minusZeroB (dissolve ts) | none => false) = false := by decide +kernel
  rw [h] at this
  exact this

/-! ### what cannot be left out -/

/-- `enum T { Call(Word, Paren<Empty>), Name(Word), Unit(Paren<Empty>) }` -/
def unitEnv : Env := fun x =>
  if x = "T".toList then .enum [⟨"Call".toList, .unnamed [fld (.leaf (.customIdent [])), fld (.paren (.leaf .empty))]⟩,
    ⟨"Name".toList, .unnamed [fld (.leaf (.customIdent []))]⟩, ⟨"Unit".toList, .unnamed [fld (.paren (.leaf .empty))]⟩]
  else .enum []

/-- Without one-token lookahead: `f` and `()` are lists of one item each, and `f ()` is a list of one item, too. -/
theorem C88_ll1_needed : ∃ v w u,
    ll1 unitEnv (typesFrom unitEnv 8 [.any (.named "T".toList)]) 8 = false ∧ AcceptsStr unitEnv (.any (.named "T".toList)) "f".toList (.node .any [v]) ∧
    AcceptsStr unitEnv (.any (.named "T".toList)) "()".toList (.node .any [w]) ∧ AcceptsStr unitEnv (.any (.named "T".toList)) "f ()".toList (.node .any [u]) :=
  ⟨.node (.ctor "T".toList "Name".toList) [.leaf (.customIdent []) (.ident "f".toList (spAt 0 1))],
   .node (.ctor "T".toList "Unit".toList) [.group .paren (spAt 0 2) (.leaf .empty .unit)],
   .node (.ctor "T".toList "Call".toList) [.leaf (.customIdent []) (.ident "f".toList (spAt 0 1)), .group .paren (spAt 2 4) (.leaf .empty .unit)],
   by decide +kernel, ⟨20, rfl⟩, ⟨20, rfl⟩, ⟨20, rfl⟩⟩

theorem comment_lexed : lex "a;//".toList = some [.ident "a".toList (spAt 0 1), .punct ';' .alone (spAt 1 2)] ∧
    lex ("a;//".toList ++ ' ' :: stepText) = some [.ident "a".toList (spAt 0 1), .punct ';' .alone (spAt 1 2)] := ⟨rfl, rfl⟩

/-- A text whose last line is a comment is not a `Layout`: what is written behind it belongs to the comment. -/
theorem C88_layout_needed : AcceptsStr stepEnv (.any (.named "Stmt".toList)) "a;//".toList (.node .any [stepVal "a".toList 0 1]) ∧
    AcceptsStr stepEnv (.any (.named "Stmt".toList)) stepText (.node .any [stepVal "c".toList 0 1]) ∧
    AcceptsStr stepEnv (.any (.named "Stmt".toList)) ("a;//".toList ++ ' ' :: stepText) (.node .any [stepVal "a".toList 0 1]) :=
  ⟨⟨20, by unfold parseStr; rw [comment_lexed.1]; rfl⟩, step_accepted, ⟨20, by unfold parseStr; rw [comment_lexed.2]; rfl⟩⟩

end

end Parsel
