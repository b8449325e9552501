import Verif.Proofs.Evolve
import Verif.Props.Language

/-! C81: extending a grammar. -/

namespace Parsel
open Spec

section
variable [Ext]

/-- **C81.** If declarations are only extended (`Extends`), every node of an old type has a counterpart of the extended type ... -/
theorem C81_upgrade {env env' : Env} (he : Extends env env') {t u : Ty} (hw : Wider env' t u) {v : Val} (hv : HasTy env t v) : ∃ w, Upgrade env env' t u v w :=
  upgrade_exists he (sizeOf v + 1) v (by omega) hw hv

/-- **C81.** ... which is a value of it, is printed as the same tokens, and stands for the same tokens. -/
theorem C81_same_tokens {env env' : Env} {t u : Ty} {v w : Val} (h : Upgrade env env' t u v w) :
    HasTy env t v ∧ HasTy env' u w ∧ w.toTokens = v.toTokens ∧ ∀ ts, Reads false w ts ↔ Reads false v ts :=
  ⟨(upgrade_hasTy h).1, (upgrade_hasTy h).2, (upgrade_kept h).tokens, (upgrade_kept h).reads false⟩

/-- **C81.** If the extended grammar is LL(1) (and has no operators that are mistaken for parts of longer ones), it accepts every input that the old one accepts - of
which nothing is required -, and as the counterpart of the node. -/
theorem C81_accepts (laws : FloatLaws) (signs : SignLaws) {env env' : Env} (he : Extends env env') {G : List Ty} {n : Nat} (hG : ll1 env' G n = true) {t u : Ty} (hu : u ∈ G)
    (hc : closesAtEnd env' G n u = true) (hj : separable env' G n = true) (hw : Wider env' t u) {ts : List TT} (hord : Ordinary ts) (hz : NoMinusZero ts) {v : Val}
    (hp : v.toTokens ≠ none) (h : Accepts env t ts v) : ∃ w, Upgrade env env' t u v w ∧ Accepts env' u ts w := by
  obtain ⟨hv, hr⟩ := C76_sound h
  obtain ⟨w, hup⟩ := C81_upgrade he hw hv
  have k := upgrade_kept hup
  exact ⟨w, hup, (C76_language laws signs hG hu hc hj hord hz (by rw [k.tokens]; exact hp)).mpr
    ⟨(upgrade_hasTy hup).2, k.survives.mpr (accepted_survives h hord hz), (k.reads _ _).mpr hr⟩⟩

/-- **C81** for source texts. -/
theorem C81_text (laws : FloatLaws) (signs : SignLaws) {env env' : Env} (he : Extends env env') {G : List Ty} {n : Nat} (hG : ll1 env' G n = true) {t u : Ty} (hu : u ∈ G)
    (hc : closesAtEnd env' G n u = true) (hj : separable env' G n = true) (hw : Wider env' t u) {src : Text} {ts : List TT} (hl : lex src = some ts) (hz : NoMinusZero ts) {v : Val}
    (hp : v.toTokens ≠ none) (h : AcceptsStr env t src v) : ∃ w, Upgrade env env' t u v w ∧ AcceptsStr env' u src w := by
  obtain ⟨ts', hl', ha, _⟩ := acceptsStr_reads h
  cases hl.symm.trans hl'
  obtain ⟨w, hup, m, hm⟩ := C81_accepts laws signs he hG hu hc hj hw (lexed_ordinary hl).1 hz hp ha
  exact ⟨w, hup, m, by unfold parseStr; rw [hl]; exact hm⟩

/-- **C81.** Conversely, if the old grammar is LL(1): whatever the extended grammar reads as the counterpart of an old node, the old grammar reads as that node.  So
texts without the new features keep their meaning when they go back. -/
theorem C81_back (laws : FloatLaws) (signs : SignLaws) {env env' : Env} {G : List Ty} {n : Nat} (hG : ll1 env G n = true) {t u : Ty} (ht : t ∈ G)
    (hc : closesAtEnd env G n t = true) (hj : separable env G n = true) {ts : List TT} (hord : Ordinary ts) (hz : NoMinusZero ts) {v w : Val} (hup : Upgrade env env' t u v w)
    (hp : w.toTokens ≠ none) (h : Accepts env' u ts w) : Accepts env t ts v := by
  have k := upgrade_kept hup
  exact (C76_language laws signs hG ht hc hj hord hz (by rw [← k.tokens]; exact hp)).mpr
    ⟨(upgrade_hasTy hup).1, k.survives.mp (accepted_survives h hord hz), (k.reads _ _).mp (C76_sound h).2⟩

end

/-! ### examples -/

/-- Names; `let` and `return` are reserved. -/
def evName : Ty := .leaf (.customIdent ["let".toList, "return".toList])

/-- `let` name `=` number `;` -/
def evOld : Env := fun x =>
  if x = "Prog".toList then .struct (tys [.any (.named "Stmt".toList)])
  else if x = "Stmt".toList then .struct (tys [.leaf (.keyword "let".toList), evName, .leaf (.punct "=".toList), .leaf (.lit .uint), .leaf (.punct ";".toList)])
  else .enum []

/-- `Stmt` becomes an enum with `return` statements, `let` gets an optional type, and the number becomes a sum of numbers or names. -/
def evNew : Env := fun x =>
  if x = "Prog".toList then .struct (tys [.any (.named "Stmt".toList)])
  else if x = "Stmt".toList then .enum
    [⟨"Return".toList, tys [.leaf (.keyword "return".toList), .named "Expr".toList, .leaf (.punct ";".toList)]⟩,
     ⟨"Let".toList, tys [.leaf (.keyword "let".toList), evName, .maybe (.leaf (.punct ":".toList)) evName, .leaf (.punct "=".toList), .named "Expr".toList, .leaf (.punct ";".toList)]⟩]
  else if x = "Expr".toList then .struct (tys [.leftAssoc (.leaf (.punct "+".toList)) (.either (.leaf (.lit .uint)) evName)])
  else .enum []

/-- The types of the new grammar. -/
def evTypes : List Ty := typesFrom evNew 8 [.named "Prog".toList]

/-- The hypotheses of C81 are met. -/
theorem ev_extends : Extends evOld evNew := by
  intro x c ts h
  have e : ∀ {d}, evOld x = d → (x = "Prog".toList ∧ d = .struct (tys [.any (.named "Stmt".toList)])) ∨
      (x = "Stmt".toList ∧ d = .struct (tys [.leaf (.keyword "let".toList), evName, .leaf (.punct "=".toList), .leaf (.lit .uint), .leaf (.punct ";".toList)])) ∨ d = .enum [] := by
    rintro d rfl
    unfold evOld
    split
    · exact .inl ⟨‹_›, rfl⟩
    · split
      · exact .inr (.inl ⟨‹_›, rfl⟩)
      · exact .inr (.inr rfl)
  cases h with
  | struct h =>
    rcases e h with ⟨rfl, h'⟩ | ⟨rfl, h'⟩ | h'
    · cases h'
      exact ⟨_, _, .struct (f := tys [.any (.named "Stmt".toList)]) rfl, .cons (.any .named) .nil⟩
    · cases h'
      refine ⟨_, _, .variant (w := ⟨"Let".toList, tys [.leaf (.keyword "let".toList), evName, .maybe (.leaf (.punct ":".toList)) evName, .leaf (.punct "=".toList),
        .named "Expr".toList, .leaf (.punct ";".toList)]⟩) rfl (by simp), ?_⟩
      have hc : Case evNew "Expr".toList "Expr".toList [.leftAssoc (.leaf (.punct "+".toList)) (.either (.leaf (.lit .uint)) evName)] :=
        .struct (f := tys [.leftAssoc (.leaf (.punct "+".toList)) (.either (.leaf (.lit .uint)) evName)]) rfl
      exact .cons (.leaf .same) (.cons (.leaf .same) (.extra .maybe (.cons (.leaf .same) (.cons (.orVariant hc (.operandLeft (.orLeft (.leaf .same)))) (.cons (.leaf .same) .nil)))))
    · cases h'
  | variant h hw =>
    rcases e h with ⟨rfl, h'⟩ | ⟨rfl, h'⟩ | h'
    · cases h'
    · cases h'
    · cases h'; cases hw

theorem ev_checks : ll1 evNew evTypes 8 = true ∧ Ty.named "Prog".toList ∈ evTypes ∧ closesAtEnd evNew evTypes 8 (.named "Prog".toList) = true ∧ separable evNew evTypes 8 = true := by
  refine ⟨?_, ?_, ?_, ?_⟩ <;> decide +kernel

/-- So every old program is a new program, ... -/
theorem ev_programs [Ext] (laws : FloatLaws) (signs : SignLaws) {src : Text} {ts : List TT} (hl : lex src = some ts) (hz : NoMinusZero ts) {v : Val} (hp : v.toTokens ≠ none)
    (h : AcceptsStr evOld (.named "Prog".toList) src v) : ∃ w, Upgrade evOld evNew (.named "Prog".toList) (.named "Prog".toList) v w ∧ AcceptsStr evNew (.named "Prog".toList) src w :=
  C81_text laws signs ev_extends ev_checks.1 ev_checks.2.1 ev_checks.2.2.1 ev_checks.2.2.2 .named hl hz hp h

section
attribute [local instance] signExt

/-- ... such as this one. -/
example : ∃ v, AcceptsStr evOld (.named "Prog".toList) "let x=1;".toList v := acceptsStr_of (n := 30) (by decide +kernel)

example : ∃ v, AcceptsStr evNew (.named "Prog".toList) "let x:n=1+y;".toList v := acceptsStr_of (n := 40) (by decide +kernel)

/-- The hypotheses of C81_back are met as well. -/
example : ∃ v w ts, Upgrade evOld evNew (.named "Prog".toList) (.named "Prog".toList) v w ∧ Accepts evNew (.named "Prog".toList) ts w ∧ Ordinary ts ∧ NoMinusZero ts ∧
    w.toTokens ≠ none ∧ ll1 evOld (typesFrom evOld 8 [.named "Prog".toList]) 8 = true ∧ .named "Prog".toList ∈ typesFrom evOld 8 [.named "Prog".toList] ∧
    closesAtEnd evOld (typesFrom evOld 8 [.named "Prog".toList]) 8 (.named "Prog".toList) = true ∧ separable evOld (typesFrom evOld 8 [.named "Prog".toList]) 8 = true := by
  obtain ⟨ts, hl⟩ : ∃ ts, lex "let x=1;".toList = some ts := Option.isSome_iff_exists.mp (by decide +kernel)
  have hz : NoMinusZero ts := noMinusZero_of_B (by
    have : (match lex "let x=1;".toList with | some ts => !minusZeroB (dissolve ts) | none => false) = true := by decide +kernel
    rw [hl] at this
    simpa using this)
  have hp : (match parseStr (parse evOld 30 (.named "Prog".toList)) "let x=1;".toList with | .ok v => v.toTokens.isSome | _ => false) = true := by decide +kernel
  cases h : parseStr (parse evOld 30 (.named "Prog".toList)) "let x=1;".toList with
  | ok v =>
    rw [h] at hp
    obtain ⟨out, ho⟩ := Option.isSome_iff_exists.mp hp
    obtain ⟨w, hup, hw⟩ := ev_programs signExt_laws signExt_signs hl hz (by rw [ho]; simp) ⟨30, h⟩
    obtain ⟨ts', hl', ha, _⟩ := acceptsStr_reads hw
    cases hl.symm.trans hl'
    exact ⟨v, w, ts, hup, ha, (lexed_ordinary hl).1, hz, by rw [(C81_same_tokens hup).2.2.1, ho]; simp, by decide +kernel, by decide +kernel, by decide +kernel, by decide +kernel⟩
  | err e => rw [h] at hp; cases hp
  | panic => rw [h] at hp; cases hp
  | oof => rw [h] at hp; cases hp

end

/-! Without LL(1), adding a variant at the end of an enum can break programs: `struct S { x: Maybe<X, Empty>, b: B }`, `enum X { A(a) }`; `b` is accepted. -/

/-- The old grammar. -/
def evOld2 : Env := fun x =>
  if x = "S".toList then .struct (tys [.maybe (.named "X".toList) (.leaf .empty), .leaf (.keyword "b".toList)])
  else if x = "X".toList then .enum [⟨"A".toList, tys [.leaf (.keyword "a".toList)]⟩]
  else .enum []

/-- With a variant `B(b)` of `X`. -/
def evNew2 : Env := fun x =>
  if x = "S".toList then .struct (tys [.maybe (.named "X".toList) (.leaf .empty), .leaf (.keyword "b".toList)])
  else if x = "X".toList then .enum [⟨"A".toList, tys [.leaf (.keyword "a".toList)]⟩, ⟨"B".toList, tys [.leaf (.keyword "b".toList)]⟩]
  else .enum []

/-- **C81**: the condition is needed; `b` is not accepted any more. -/
theorem C81_ll1_needed [Ext] : Extends evOld2 evNew2 ∧ ll1 evNew2 (typesFrom evNew2 6 [.named "S".toList]) 6 = false ∧
    ∃ ts v, Accepts evOld2 (.named "S".toList) ts v ∧ ¬ ∃ w, Accepts evNew2 (.named "S".toList) ts w := by
  refine ⟨?_, by decide +kernel, [.ident "b".toList spA], _, ⟨20, rfl⟩, ?_⟩
  · intro x c ts h
    by_cases h1 : x = "S".toList
    · subst h1
      cases h with
      | struct h =>
        cases h
        exact ⟨_, _, .struct (f := tys [.maybe (.named "X".toList) (.leaf .empty), .leaf (.keyword "b".toList)]) rfl, .cons (.maybe .named (.leaf .same)) (.cons (.leaf .same) .nil)⟩
      | variant h => cases h
    · by_cases h2 : x = "X".toList
      · subst h2
        cases h with
        | struct h => cases h
        | variant h hw =>
          cases h
          rcases List.mem_cons.mp hw with rfl | hw
          · exact ⟨_, _, .variant (w := ⟨"A".toList, tys [.leaf (.keyword "a".toList)]⟩) rfl (by simp), .cons (.leaf .same) .nil⟩
          · cases hw
      · have e : evOld2 x = .enum [] := by unfold evOld2; rw [if_neg h1, if_neg h2]
        cases h with
        | struct h => rw [e] at h; cases h
        | variant h hw => rw [e] at h; cases h; cases hw
  · rintro ⟨w, h⟩
    obtain ⟨s1, n, h1⟩ := accepts_parses h
    obtain ⟨e, h2⟩ : ∃ e, parse evNew2 20 (.named "S".toList) ⟨[.ident "b".toList spA], .callSite, none⟩ = .err e := ⟨_, rfl⟩
    have := parse_unique (n := n) (m := 20) (by rw [h1]; simp) (by rw [h2]; simp)
    rw [h1, h2] at this
    cases this

end Parsel
