import Verif.Proofs.Print
import Verif.Proofs.Cell
import Verif.Props.Literal

/-! Whole grammars: what a successful parse has read (C11, C14, C15, C32, C60), printing (C38, C59), determinism (C57). -/

namespace Parsel
open Spec

/-! ### a grammar for the examples -/

/-- A field. -/
def fld (t : Ty) : FieldDef Ty := ⟨t, .ok false⟩

/-- `enum Expr { Group(Paren<Sum>), Neg { op: Token![-], arg: Box<Expr> }, Num(LitUint), Var(CustomIdent<["let"]>) }`,
`struct Let { kw: Let_, name: CustomIdent, eq: Token![=], value: Sum, semi: Maybe<Token![;], Empty> }` with
`Sum = LeftAssoc<Token![+], Expr>`. -/
def demoSum : Ty := .leftAssoc (.leaf (.punct "+".toList)) (.named "Expr".toList)

/-- See `demoSum`. -/
def demoEnv : Env := fun x =>
  if x = "Expr".toList then
    .enum [⟨"Group".toList, .unnamed [fld (.paren demoSum)]⟩,
      ⟨"Neg".toList, .named [("op".toList, fld (.leaf (.punct "-".toList))), ("arg".toList, fld (.boxed (.named "Expr".toList)))]⟩,
      ⟨"Num".toList, .unnamed [fld (.leaf (.lit .uint))]⟩,
      ⟨"Var".toList, .unnamed [fld (.leaf (.customIdent ["let".toList]))]⟩]
  else if x = "Let".toList then
    .struct (.named [("kw".toList, fld (.leaf (.keyword "let".toList))), ("name".toList, fld (.leaf (.customIdent ["let".toList]))),
      ("eq".toList, fld (.leaf (.punct "=".toList))), ("value".toList, fld demoSum),
      ("semi".toList, fld (.maybe (.leaf (.punct ";".toList)) (.leaf .empty)))])
  else .enum []

/-- A location on line 1. -/
def spAt (a b : Nat) : Span := ⟨⟨1, a⟩, ⟨1, b⟩⟩

/-- `let x = y + (7);` with an invisible group around `x =`. -/
def demoTokens : List TT :=
  [.ident "let".toList (spAt 0 3), .group .none [.ident "x".toList (spAt 4 5), .punct '=' .alone (spAt 6 7)] (spAt 4 7),
   .ident "y".toList (spAt 8 9), .punct '+' .alone (spAt 10 11),
   .group .paren [.lit "7".toList (spAt 13 14)] (spAt 12 15), .punct ';' .alone (spAt 15 16)]

section
attribute [local instance] toyExt

/-- The value of `demoTokens`. -/
def demoVal : Val :=
  .node (.ctor "Let".toList "Let".toList) [.leaf (.keyword "let".toList) (.mark [spAt 0 3]),
    .leaf (.customIdent ["let".toList]) (.ident "x".toList (spAt 4 5)),
    .leaf (.punct "=".toList) (.mark [spAt 6 7]),
    .node .leftBin [.node .leftRhs [.node (.ctor "Expr".toList "Var".toList) [.leaf (.customIdent ["let".toList]) (.ident "y".toList (spAt 8 9))]],
      .leaf (.punct "+".toList) (.mark [spAt 10 11]),
      .node (.ctor "Expr".toList "Group".toList) [.group .paren (spAt 12 15)
        (.node .leftRhs [.node (.ctor "Expr".toList "Num".toList) [.leaf (.lit .uint) (.lit (.uint 7) (spAt 13 14))]])]],
    .node .maybe [.leaf (.punct ";".toList) (.mark [spAt 15 16]), .leaf .empty .unit]]

theorem demo_accepts : Accepts demoEnv (.named "Let".toList) demoTokens demoVal := ⟨20, rfl⟩

/-- `(7 8)`: a group with contents left over. -/
def demoLeft : List TT := [.group .paren [.lit "7".toList (spAt 1 2), .lit "8".toList (spAt 3 4)] (spAt 0 5)]

theorem demoLeft_parses : ∃ v s', Parses demoEnv (.named "Expr".toList) ⟨demoLeft, .callSite, none⟩ v s' ∧ s'.cur = [] :=
  ⟨_, _, ⟨20, rfl⟩, rfl⟩
theorem demoLeft_rejected : Rejects demoEnv (.named "Expr".toList) demoLeft ⟨spAt 3 4, "unexpected token".toList⟩ := ⟨20, rfl⟩
end

section
variable [Ext]

/-! ### what was read -/

/-- C32: after a successful parse the remaining tokens are a suffix of the original ones, on the same nesting level; what was taken away are
exactly the tokens that the value stands for (with their locations). -/
theorem C32_reads_prefix {env : Env} {t : Ty} {s s' : PState} {v : Val} (h : Parses env t s v s') :
    s'.scope = s.scope ∧ ∃ pre left, dissolve s.cur = pre ++ dissolve s'.cur ∧ Reads left v pre ∧
      s'.unexp.isSome = (s.unexp.isSome || left) := by
  obtain ⟨n, h⟩ := h
  obtain ⟨h1, pre, i, h2, h3, h4⟩ := parse_reads env n t s v s' h
  exact ⟨h1, pre, i, h2, readsL_single.mp h3, h4⟩

/-- What `parse2` makes of a parse that has come to an end. -/
theorem parse2_of {env : Env} {t : Ty} {ts : List TT} {v : Val} {s' : PState} {n : Nat}
    (h : parse env n t ⟨ts, .callSite, none⟩ = .ok v s') :
    (s'.unexp.isSome = false ∧ dissolve s'.cur = [] → parse2 (parse env n t) ts = .ok v) ∧
    (¬ (s'.unexp.isSome = false ∧ dissolve s'.cur = []) → ∃ sp, parse2 (parse env n t) ts = .err ⟨sp, "unexpected token".toList⟩) := by
  simp only [parse2, h, unexpectedSpan]
  rw [dissolve_eq_nil_iff]
  cases hu : s'.unexp with
  | some sp => simp
  | none =>
    cases hc : uncons s'.cur with
    | none => simp
    | some p => simp

theorem accepts_parses {env : Env} {t : Ty} {ts : List TT} {v : Val} (h : Accepts env t ts v) :
    ∃ s', Parses env t ⟨ts, .callSite, none⟩ v s' := by
  obtain ⟨n, h⟩ := h
  cases h1 : parse env n t ⟨ts, .callSite, none⟩ with
  | ok w s' =>
    have h2 := parse2_of h1
    by_cases h3 : s'.unexp.isSome = false ∧ dissolve s'.cur = []
    · rw [h2.1 h3] at h; cases h; exact ⟨s', n, h1⟩
    · obtain ⟨sp, h4⟩ := h2.2 h3; rw [h4] at h; cases h
  | err e => simp [parse2, h1] at h
  | panic => simp [parse2, h1] at h
  | oof => simp [parse2, h1] at h

theorem parses_unique {env : Env} {t : Ty} {s s1 s2 : PState} {v w : Val} (h1 : Parses env t s v s1) (h2 : Parses env t s w s2) :
    v = w ∧ s1 = s2 := by
  obtain ⟨n, h1⟩ := h1
  obtain ⟨m, h2⟩ := h2
  have := parse_unique (env := env) (n := n) (m := m) (t := t) (s := s) (by rw [h1]; simp) (by rw [h2]; simp)
  rw [h1, h2] at this
  simpa using this

/-- C14: a stream that is accepted as a whole consists, at all nesting levels, of exactly the tokens that the value stands for: nothing is left
over anywhere. -/
theorem C14_complete {env : Env} {t : Ty} {ts : List TT} {v : Val} (h : Accepts env t ts v) : Reads false v (dissolve ts) := by
  obtain ⟨s', hp⟩ := accepts_parses h
  obtain ⟨_, pre, left, h1, h2, h3⟩ := C32_reads_prefix hp
  obtain ⟨n, h⟩ := h
  have hn : parse env n t ⟨ts, .callSite, none⟩ = .ok v s' := by
    obtain ⟨m, hm⟩ := hp
    have hne : parse env n t ⟨ts, .callSite, none⟩ ≠ .oof := by intro h0; simp [parse2, h0] at h
    rw [← hm]
    exact parse_unique hne (by rw [hm]; simp)
  by_cases hc : s'.unexp.isSome = false ∧ dissolve s'.cur = []
  · have hl : left = false := by rw [hc.1] at h3; simpa using h3.symm
    rw [h1, hc.2, List.append_nil, ← hl]
    exact h2
  · obtain ⟨sp, h4⟩ := (parse2_of hn).2 hc
    rw [h4] at h
    cases h

/-- C14, C15: what happens to a top-level parse whose production parses.  `left` says whether a delimited group *that the value stands for*
(whether it was parsed speculatively or not) has tokens that the value does not stand for.  The parse is accepted exactly if there is no such group
and no token after the production; otherwise it is rejected as "unexpected token".  Speculations that were given up play no role. -/
theorem C15_accepted_iff {env : Env} {t : Ty} {ts : List TT} {v : Val} {s' : PState} (h : Parses env t ⟨ts, .callSite, none⟩ v s') :
    ∃ pre left, dissolve ts = pre ++ dissolve s'.cur ∧ Reads left v pre ∧
      (left = false ∧ dissolve s'.cur = [] → Accepts env t ts v) ∧
      (left = true ∨ dissolve s'.cur ≠ [] → (∃ sp, Rejects env t ts ⟨sp, "unexpected token".toList⟩) ∧ ∀ w, ¬ Accepts env t ts w) := by
  obtain ⟨_, pre, left, h1, h2, h3⟩ := C32_reads_prefix h
  obtain ⟨n, hn⟩ := h
  have hp := parse2_of hn
  have hl : s'.unexp.isSome = left := by rw [h3]; simp
  refine ⟨pre, left, h1, h2, fun hc => ⟨n, hp.1 (by rw [hl]; exact hc)⟩, fun hc => ?_⟩
  have hc' : ¬ (s'.unexp.isSome = false ∧ dissolve s'.cur = []) := by
    rw [hl]; rintro ⟨h4, h5⟩; rcases hc with hc | hc
    · rw [h4] at hc; cases hc
    · exact hc h5
  obtain ⟨sp, h4⟩ := hp.2 hc'
  refine ⟨⟨sp, n, h4⟩, fun w hw => ?_⟩
  obtain ⟨m, hm⟩ := hw
  have hne : parse env m t ⟨ts, .callSite, none⟩ ≠ .oof := by intro h0; simp [parse2, h0] at hm
  have := parse_unique hne (by rw [hn]; simp)
  have heq : parse2 (parse env m t) ts = parse2 (parse env n t) ts := by simp only [parse2, this]
  rw [heq, h4] at hm
  cases hm

/-- C15: a recorded leftover is never forgotten and never replaced. -/
theorem C15_remembered {env : Env} {t : Ty} {s s' : PState} {v : Val} (h : Parses env t s v s') {sp : Span} (hu : s.unexp = some sp) :
    s'.unexp = some sp := by
  obtain ⟨n, h⟩ := h
  have h1 : s = (PState.over (some sp) s) := by cases s; simp only [PState.over] at *; simp [hu]
  rw [h1, parse_over] at h
  cases h2 : parse env n t s with
  | ok w s1 => rw [h2] at h; simp only [Res.over_ok, Res.ok.injEq] at h; rw [← h.2]; rfl
  | err e => rw [h2] at h; simp at h
  | panic => rw [h2] at h; simp at h
  | oof => rw [h2] at h; simp at h

/-- C15: going on from a successful speculative parse, its leftover is recorded unless there already is one. -/
theorem C15_speculation_recorded (s f : PState) : (s.advanceTo f).unexp.isSome = (s.unexp.isSome || f.unexp.isSome) := by
  cases s with
  | mk a b u => cases u <;> simp [PState.advanceTo]

end

section
attribute [local instance] toyExt
example : Accepts demoEnv (.named "Let".toList) demoTokens demoVal ∧ Reads false demoVal (dissolve demoTokens) :=
  ⟨demo_accepts, C14_complete demo_accepts⟩
example : (∃ v s', Parses demoEnv (.named "Expr".toList) ⟨demoLeft, .callSite, none⟩ v s' ∧ s'.cur = []) ∧
    Rejects demoEnv (.named "Expr".toList) demoLeft ⟨spAt 3 4, "unexpected token".toList⟩ := ⟨demoLeft_parses, demoLeft_rejected⟩
/-- A speculation that is given up (`Group` fails in the second operand after having looked into it) leaves no trace. -/
example : ∃ v, Accepts demoEnv (.either (.paren (.leaf .eof)) (.named "Expr".toList)) [.group .paren [.lit "7".toList (spAt 1 2)] (spAt 0 3)] v :=
  ⟨_, 20, rfl⟩
end

/-! ### printing -/

section
variable [Ext]

/-- C11: printing an accepted stream's value gives the same tokens back: the same identifiers, punctuation, delimiters and locations in the same
order; each literal is replaced by one of the same value. -/
theorem C11_reprint (laws : FloatLaws) {env : Env} {t : Ty} {ts out : List TT} {v : Val} (h : Accepts env t ts v) (ho : v.toTokens = some out) :
    SameTokens (dissolve ts) out := reads_printed laws v _ _ (C14_complete h) ho

/-- C11 in the middle of a stream: a production that parses and leaves no group half-read prints as the tokens it has read. -/
theorem C11_reprint_prefix (laws : FloatLaws) {env : Env} {t : Ty} {s s' : PState} {v : Val} {out : List TT} (h : Parses env t s v s')
    (hu : s'.unexp = none) (ho : v.toTokens = some out) : ∃ pre, dissolve s.cur = pre ++ dissolve s'.cur ∧ SameTokens pre out := by
  obtain ⟨_, pre, left, h1, h2, h3⟩ := C32_reads_prefix h
  have : left = false := by rw [hu] at h3; simp at h3; exact h3.2
  subst this
  exact ⟨pre, h1, reads_printed laws v _ _ h2 ho⟩

end

section
attribute [local instance] toyExt
/-- The example prints as itself, with the invisible group dissolved. -/
example : demoVal.toTokens = some (dissolve demoTokens) := rfl
example : SameTokens (dissolve demoTokens) (dissolve demoTokens) := C11_reprint toyExt_laws demo_accepts rfl
end

section
variable [Ext]

/-- C38: printing a parsed node panics exactly if the node contains an infinite float or a keyword whose spelling is not a plain word. -/
theorem C38_node_prints_iff {env : Env} {t : Ty} {s s' : PState} {v : Val} (h : Parses env t s v s') :
    (∃ out, v.toTokens = some out) ↔ Printable v := by
  obtain ⟨_, pre, left, _, h2, _⟩ := C32_reads_prefix h
  rw [← printable_iff v left pre h2, Option.isSome_iff_exists]

/-- C59: the value of a keyword type can be printed exactly if the keyword is a plain word. -/
theorem C59_keyword_prints_iff {env : Env} {kw : Text} {s s' : PState} {v : Val} (h : Parses env (.leaf (.keyword kw)) s v s') :
    (∃ out, v.toTokens = some out) ↔ identOk kw = true := by
  rw [C38_node_prints_iff h]
  obtain ⟨n, h⟩ := h
  cases n with
  | zero => cases h
  | succ n =>
    simp only [parse, leafParse, Res.map_map] at h
    cases h2 : keywordParse kw s with
    | ok sp s1 => rw [h2] at h; simp at h; rw [← h.1]; simp only [Printable]
    | err e => rw [h2] at h; cases h
    | panic => rw [h2] at h; cases h
    | oof => rw [h2] at h; cases h

/-- C59 (refutation): the keyword type of `r#try => Try;` parses `r#try`, and its value cannot be printed. -/
theorem C59_raw_keyword_refuted (env : Env) (sp : Span) :
    ∃ v, Accepts env (.leaf (.keyword "r#try".toList)) [.ident "r#try".toList sp] v ∧ v.toTokens = none :=
  ⟨.leaf (.keyword "r#try".toList) (.mark [sp]), ⟨1, rfl⟩, rfl⟩

/-- C57: parsing is a function of the stream: outcomes that are reached at all do not depend on how many steps were allowed. -/
theorem C57_deterministic {env : Env} {t : Ty} {s : PState} :
    (∀ v s1 w s2, Parses env t s v s1 → Parses env t s w s2 → v = w ∧ s1 = s2) ∧
    (∀ e e', Fails env t s e → Fails env t s e' → e = e') ∧
    (∀ v s1 e, Parses env t s v s1 → ¬ Fails env t s e) ∧
    (Panics env t s → (∀ v s1, ¬ Parses env t s v s1) ∧ ∀ e, ¬ Fails env t s e) ∧
    (Diverges env t s ↔ (∀ v s1, ¬ Parses env t s v s1) ∧ (∀ e, ¬ Fails env t s e) ∧ ¬ Panics env t s) := by
  have u : ∀ n m, parse env n t s ≠ .oof → parse env m t s ≠ .oof → parse env n t s = parse env m t s := fun n m => parse_unique
  refine ⟨fun v s1 w s2 h1 h2 => parses_unique h1 h2, ?_, ?_, ?_, ?_⟩
  · rintro e e' ⟨n, h1⟩ ⟨m, h2⟩
    have := u n m (by simp [h1]) (by simp [h2])
    rw [h1, h2] at this; simpa using this
  · rintro v s1 e ⟨n, h1⟩ ⟨m, h2⟩
    have := u n m (by simp [h1]) (by simp [h2])
    rw [h1, h2] at this; cases this
  · rintro ⟨n, h1⟩
    constructor
    · rintro v s1 ⟨m, h2⟩
      have := u n m (by simp [h1]) (by simp [h2])
      rw [h1, h2] at this; cases this
    · rintro e ⟨m, h2⟩
      have := u n m (by simp [h1]) (by simp [h2])
      rw [h1, h2] at this; cases this
  · constructor
    · intro hd
      refine ⟨?_, ?_, ?_⟩
      · rintro v s1 ⟨n, h⟩; rw [hd n] at h; cases h
      · rintro e ⟨n, h⟩; rw [hd n] at h; cases h
      · rintro ⟨n, h⟩; rw [hd n] at h; cases h
    · rintro ⟨h1, h2, h3⟩ n
      cases h : parse env n t s with
      | ok v s1 => exact absurd ⟨n, h⟩ (h1 v s1)
      | err e => exact absurd ⟨n, h⟩ (h2 e)
      | panic => exact absurd ⟨n, h⟩ h3
      | oof => rfl

/-- C57: what was recorded about earlier leftovers has no influence: the same value is read and the parser stops at the same place, or the same error
results. -/
theorem C57_record_irrelevant {env : Env} {t : Ty} {cur : List TT} {scope : Span} (u u' : Option Span) :
    (∀ v s1, Parses env t ⟨cur, scope, u⟩ v s1 → ∃ s2, Parses env t ⟨cur, scope, u'⟩ v s2 ∧ s2.cur = s1.cur ∧ s2.scope = s1.scope) ∧
    (∀ e, Fails env t ⟨cur, scope, u⟩ e → Fails env t ⟨cur, scope, u'⟩ e) := by
  have h0 : ∀ w, (⟨cur, scope, w⟩ : PState) = PState.over w ⟨cur, scope, none⟩ := by intro w; cases w <;> rfl
  constructor
  · rintro v s1 ⟨n, h⟩
    rw [h0, parse_over] at h
    cases h1 : parse env n t ⟨cur, scope, none⟩ with
    | ok w s0 =>
      rw [h1] at h
      simp only [Res.over_ok, Res.ok.injEq] at h
      refine ⟨s0.over u', ⟨n, ?_⟩, ?_, ?_⟩
      · rw [h0 u', parse_over, h1, h.1]; rfl
      · rw [← h.2]; rfl
      · rw [← h.2]; rfl
    | err e => rw [h1] at h; cases h
    | panic => rw [h1] at h; cases h
    | oof => rw [h1] at h; cases h
  · rintro e ⟨n, h⟩
    rw [h0, parse_over] at h
    refine ⟨n, ?_⟩
    rw [h0 u', parse_over]
    cases h1 : parse env n t ⟨cur, scope, none⟩ with
    | ok w s0 => rw [h1] at h; cases h
    | err e' => rw [h1] at h; simpa using h
    | panic => rw [h1] at h; cases h
    | oof => rw [h1] at h; cases h
end

section
attribute [local instance] toyExt
example : Printable demoVal := by
  obtain ⟨s', h⟩ := accepts_parses demo_accepts
  exact (C38_node_prints_iff h).mp ⟨_, rfl⟩
/-- `1e999` inside a grammar: parses, cannot be printed. -/
example : ∃ v, Accepts demoEnv (.any (.leaf (.lit .float))) [.lit "1e999".toList spA] v ∧ v.toTokens = none := ⟨_, ⟨5, rfl⟩, rfl⟩
example : identOk "let".toList = true ∧ identOk "r#try".toList = false := by decide
end

end Parsel
