import Verif.Proofs.PrecedenceCheck
import Verif.Props.Quote

/-! C80: precedence and associativity (`LeftAssoc` and `RightAssoc` inside each other, ast.rs 3255-3465, 3480-3658; the parsing loops are modelled by
`leftAssocLoop`/`rightAssocParse` in Model/Combinators.lean). -/

namespace Parsel
open Spec

section
variable [Ext]

/-- **C80.** What is parsed is the longest chain of operands and operators of any level, and the value is a tree of that chain which respects precedence and
associativity.  (Conversely, every chain is parsed.) -/
theorem C80_parses {env : Env} {A T : Ty} {L : List Level} (hT : Tower env A L T) (hx : LevelsApart env L) {s s' : PState} {v : Val} :
    Parses env T s v s' ↔ ∃ e rest left, Shows env A L T v e ∧ Respects env L e ∧ Run env L A s.cur e.first e.rest rest left ∧ s' = ⟨rest, s.scope, s.unexp.or left⟩ := by
  rw [C63_parses]
  constructor
  · rintro ⟨rest, left, h, rfl⟩
    obtain ⟨e, he, hr⟩ := matches_run hT hx h
    exact ⟨e, rest, left, he, he.respects, hr, rfl⟩
  · rintro ⟨e, rest, left, he, _, hr, rfl⟩
    obtain ⟨w, hw⟩ := run_matches hT hr
    obtain ⟨f, hf, hr'⟩ := matches_run hT hx hw
    obtain ⟨h1, h2, _, _⟩ := run_det hr hr'
    have := respects_unique hx.values he.respects hf.respects h1 h2
    subst this
    have := shows_value hx.values he hf
    subst this
    exact ⟨rest, left, hw, rfl⟩

/-- **C80.** The whole input is accepted exactly if it is such a chain, ... -/
theorem C80_accepts {env : Env} {A T : Ty} {L : List Level} (hT : Tower env A L T) (hx : LevelsApart env L) {ts : List TT} {v : Val} :
    Accepts env T ts v ↔ ∃ e rest, Shows env A L T v e ∧ Respects env L e ∧ Run env L A ts e.first e.rest rest none ∧ ∀ x r, ¬ Next rest x r := by
  rw [C63_accepts]
  constructor
  · rintro ⟨rest, h, hn⟩
    obtain ⟨e, he, hr⟩ := matches_run hT hx h
    exact ⟨e, rest, he, he.respects, hr, hn⟩
  · rintro ⟨e, rest, he, h2, hr, hn⟩
    obtain ⟨rest', left', hm, h⟩ := C63_parses.mp ((C80_parses hT hx (s := ⟨ts, .callSite, none⟩)).mpr ⟨e, rest, none, he, h2, hr, rfl⟩)
    simp only [Option.or_none, Option.none_or, PState.mk.injEq, true_and] at h
    obtain ⟨rfl, rfl⟩ := h
    exact ⟨rest, hm, hn⟩

/-- **C80.** ... and the parser fails exactly if an operand is missing. -/
theorem C80_fails {env : Env} {A T : Ty} {L : List Level} (hT : Tower env A L T) (hx : LevelsApart env L) {s : PState} :
    (∃ e, Fails env T s e) ↔ Missing env L A s.cur := by
  rw [C63_fails]
  exact ⟨noMatch_missing hT hx, missing_noMatch hT hx⟩

/-- **C80.** There is one chain at most at the front of an input. -/
theorem C80_one_chain {env : Env} {A : Ty} {L : List Level} {ts : List TT} {a b : Val} {xs ys : List (Val × Val)} {rest rest' : List TT} {left left' : Option Span}
    (h : Run env L A ts a xs rest left) (h' : Run env L A ts b ys rest' left') : a = b ∧ xs = ys ∧ rest = rest' ∧ left = left' := run_det h h'

/-- **C80.** Precedence and associativity determine the tree: a chain of operands and operators has exactly one tree that respects them. -/
theorem C80_one_tree {env : Env} {L : List Level} (hx : LevelsApart env L) (a : Val) (xs : List (Val × Val)) (hxs : ∀ x ∈ xs, OpOf env L x.1) :
    ∃ e : Infix, (Respects env L e ∧ e.first = a ∧ e.rest = xs) ∧ ∀ f : Infix, Respects env L f ∧ f.first = a ∧ f.rest = xs → f = e := by
  obtain ⟨e, h1, h2, h3⟩ := respects_exists L a xs hxs
  exact ⟨e, ⟨h1, h2, h3⟩, fun f ⟨f1, f2, f3⟩ => respects_unique hx.values f1 h1 (f2.trans h2.symm) (f3.trans h3.symm)⟩

/-- **C80.** So whatever is parsed is *the* tree of the chain that was read: any other tree of the same operands and operators, in the same order, violates precedence or
associativity. -/
theorem C80_only_tree {env : Env} {A T : Ty} {L : List Level} (hT : Tower env A L T) (hx : LevelsApart env L) {s s' : PState} {v : Val} (h : Parses env T s v s') {f : Infix}
    {rest : List TT} {left : Option Span} (hr : Run env L A s.cur f.first f.rest rest left) (hf : Respects env L f) : Shows env A L T v f := by
  obtain ⟨e, rest', left', h1, h2, h3, _⟩ := (C80_parses hT hx).mp h
  obtain ⟨e1, e2, _, _⟩ := run_det h3 hr
  exact respects_unique hx.values h2 hf e1 e2 ▸ h1

/-- **C80.** The type is exactly the type of the trees that respect precedence and associativity: a value stands for one such tree, each tree is the tree of one value. -/
theorem C80_values {env : Env} {A T : Ty} {L : List Level} (hT : Tower env A L T) (hx : LevelsApart env L) :
    (∀ v, HasTy env T v → ∃ e, Shows env A L T v e ∧ ∀ f, Shows env A L T v f → f = e) ∧
    (∀ v e, Shows env A L T v e → HasTy env T v ∧ Respects env L e ∧ e.Over env A) ∧
    (∀ e : Infix, Respects env L e → e.Over env A → ∃ v, Shows env A L T v e ∧ ∀ w, Shows env A L T w e → w = v) := by
  refine ⟨fun v hv => ?_, fun v e h => ⟨h.hasTy, h.respects, h.over⟩, fun e he ho => ?_⟩
  · obtain ⟨e, he⟩ := tower_shows hT v hv
    exact ⟨e, he, fun f hf => shows_tree hf he⟩
  · obtain ⟨v, hv⟩ := tree_shows hT hx.values he ho
    exact ⟨v, hv, fun w hw => shows_value hx.values hw hv⟩

theorem tokens_split : ∀ (as bs : List Val), Val.toTokensL (as ++ bs) = (Val.toTokensL as).bind fun x => (Val.toTokensL bs).map fun y => x ++ y
  | [], bs => by simp [Val.toTokensL]
  | a :: as, bs => by
    rw [List.cons_append, Val.toTokensL, tokens_split as bs, Val.toTokensL]
    cases a.toTokens <;> cases Val.toTokensL as <;> cases Val.toTokensL bs <;> simp

theorem shows_prints {env : Env} {A T : Ty} {L : List Level} {v : Val} {e : Infix} (h : Shows env A L T v e) :
    v.toTokens = Val.toTokensL (e.first :: e.rest.flatMap fun x => [x.1, x.2]) := by
  induction h with
  | operand => simp [Infix.first, Infix.rest, Val.toTokensL]
  | leftRhs _ ih => rw [← ih]; simp [Val.toTokens, Val.toTokensL]
  | rightLhs _ ih => rw [← ih]; simp [Val.toTokens, Val.toTokensL]
  | boxed _ ih => exact ih
  | newtype _ _ _ ih => rw [← ih]; simp [Val.toTokens, Val.toTokensL]
  | leftBin _ _ _ ih1 ih2 =>
    simp only [Infix.first, Infix.rest, List.flatMap_append, List.flatMap_cons, List.cons_append, List.nil_append, Val.toTokens]
    rw [← List.cons_append, tokens_split, ← ih1]
    have e : ∀ (op : Val) (vs : List Val), Val.toTokensL (op :: vs) = op.toTokens.bind fun a => (Val.toTokensL vs).map fun b => a ++ b := fun _ _ => rfl
    rw [e _ (_ :: _), e _ (_ :: _), e, e _ (Infix.first _ :: _), ← ih2]
    simp [Val.toTokensL]
  | rightBin _ _ _ ih1 ih2 =>
    simp only [Infix.first, Infix.rest, List.flatMap_append, List.flatMap_cons, List.cons_append, List.nil_append, Val.toTokens]
    rw [← List.cons_append, tokens_split, ← ih1]
    have e : ∀ (op : Val) (vs : List Val), Val.toTokensL (op :: vs) = op.toTokens.bind fun a => (Val.toTokensL vs).map fun b => a ++ b := fun _ _ => rfl
    rw [e _ (_ :: _), e _ (_ :: _), e, e _ (Infix.first _ :: _), ← ih2]
    simp [Val.toTokensL]

/-- **C80.** It is printed as that chain: no parentheses are added, none are needed. -/
theorem C80_prints {env : Env} {A T : Ty} {L : List Level} {v : Val} {e : Infix} (h : Shows env A L T v e) :
    v.toTokens = Val.toTokensL (e.first :: e.rest.flatMap fun x => [x.1, x.2]) := shows_prints h

/-- **C80.** Whether the operators can be told apart can be checked by computation. -/
theorem C80_checked {env : Env} {L : List Level} {n : Nat} (h : levelsApart env n L = true) : LevelsApart env L := levelsApart_sound h

end

/-! ### examples -/

/-- The grammar in the documentation of `LeftAssoc` (ast.rs 3274-3300), and with a level for powers, grouped to the right, as in the documentation of `RightAssoc`. -/
def calcEnv : Env := fun x =>
  if x = "AddOp".toList then .enum [⟨"Add".toList, tys [.leaf (.punct "+".toList)]⟩, ⟨"Sub".toList, tys [.leaf (.punct "-".toList)]⟩]
  else if x = "MulOp".toList then .enum [⟨"Mul".toList, tys [.leaf (.punct "*".toList)]⟩, ⟨"Div".toList, tys [.leaf (.punct "/".toList)]⟩]
  else if x = "Term".toList then
    .enum [⟨"Literal".toList, tys [.leaf (.lit .any)]⟩, ⟨"Variable".toList, tys [.leaf .rustIdent]⟩,
      ⟨"Group".toList, tys [.paren (.boxed (.leftAssoc (.named "AddOp".toList) (.leftAssoc (.named "MulOp".toList) (.named "Term".toList))))]⟩]
  else .enum []

/-- `Term` -/
def calcTerm : Ty := .named "Term".toList
/-- `type Expr = LeftAssoc<AddOp, LeftAssoc<MulOp, Term>>` -/
def calcExpr : Ty := .leftAssoc (.named "AddOp".toList) (.leftAssoc (.named "MulOp".toList) calcTerm)
/-- Its levels. -/
def calcLevels : List Level := [⟨.left, .named "AddOp".toList⟩, ⟨.left, .named "MulOp".toList⟩]
/-- `LeftAssoc<AddOp, LeftAssoc<MulOp, RightAssoc<Caret, Term>>>` -/
def powExpr : Ty := .leftAssoc (.named "AddOp".toList) (.leftAssoc (.named "MulOp".toList) (.rightAssoc (.leaf (.punct "^".toList)) calcTerm))
/-- Its levels. -/
def powLevels : List Level := [⟨.left, .named "AddOp".toList⟩, ⟨.left, .named "MulOp".toList⟩, ⟨.right, .leaf (.punct "^".toList)⟩]

section
variable [Ext]

/-- The hypotheses of C80 are met by both ... -/
theorem calc_levels : Tower calcEnv calcTerm calcLevels calcExpr ∧ LevelsApart calcEnv calcLevels :=
  ⟨.left (.left .operand), C80_checked (n := 4) (by decide +kernel)⟩

theorem pow_levels : Tower calcEnv calcTerm powLevels powExpr ∧ LevelsApart calcEnv powLevels :=
  ⟨.left (.left (.right .operand)), C80_checked (n := 4) (by decide +kernel)⟩

/-- ... and by the grammar of C79, which has a struct for each level. -/
example : Tower sumEnv (.named "Atom".toList) [⟨.left, .leaf (.punct "+".toList)⟩, ⟨.left, .leaf (.punct "*".toList)⟩] (.leftAssoc (.leaf (.punct "+".toList)) (.named "Prod".toList)) ∧
    LevelsApart sumEnv [⟨.left, .leaf (.punct "+".toList)⟩, ⟨.left, .leaf (.punct "*".toList)⟩] :=
  ⟨.left (.newtype (fields := tys [.leftAssoc (.leaf (.punct "*".toList)) (.named "Atom".toList)]) rfl rfl (.left .operand)), C80_checked (n := 4) (by decide +kernel)⟩

/-- A variable. -/
def calcVar (x : String) : Val := .node (.ctor "Term".toList "Variable".toList) [.leaf .rustIdent (.ident x.toList spA)]
/-- An operator of the enum `x`. -/
def calcOp (x variant tok : String) : Val := .node (.ctor x.toList variant.toList) [.leaf (.punct tok.toList) (.mark [spA])]
/-- A power. -/
def calcPow : Val := .leaf (.punct "^".toList) (.mark [spA])
/-- `a - b - c * d ^ e ^ f` -/
def powTokens : List TT :=
  [.ident "a".toList spA, .punct '-' .alone spA, .ident "b".toList spA, .punct '-' .alone spA, .ident "c".toList spA, .punct '*' .alone spA, .ident "d".toList spA,
   .punct '^' .alone spA, .ident "e".toList spA, .punct '^' .alone spA, .ident "f".toList spA]
/-- `((a - b) - (c * (d ^ (e ^ f))))` -/
def powTree : Infix :=
  .binary (.binary (.operand (calcVar "a")) (calcOp "AddOp" "Sub" "-") (.operand (calcVar "b"))) (calcOp "AddOp" "Sub" "-")
    (.binary (.operand (calcVar "c")) (calcOp "MulOp" "Mul" "*")
      (.binary (.operand (calcVar "d")) calcPow (.binary (.operand (calcVar "e")) calcPow (.operand (calcVar "f")))))
/-- The value of that. -/
def powVal : Val :=
  .node .leftBin [.node .leftBin [.node .leftRhs [.node .leftRhs [.node .rightLhs [calcVar "a"]]], calcOp "AddOp" "Sub" "-", .node .leftRhs [.node .rightLhs [calcVar "b"]]],
    calcOp "AddOp" "Sub" "-",
    .node .leftBin [.node .leftRhs [.node .rightLhs [calcVar "c"]], calcOp "MulOp" "Mul" "*",
      .node .rightBin [calcVar "d", calcPow, .node .rightBin [calcVar "e", calcPow, .node .rightLhs [calcVar "f"]]]]]

theorem pow_accepted : Accepts calcEnv powExpr powTokens powVal := ⟨30, rfl⟩

theorem calcVar_hasTy (x : String) (h : x.toList ∉ rustKeywords) : HasTy calcEnv calcTerm (calcVar x) :=
  .enum (w := ⟨"Variable".toList, tys [.leaf .rustIdent]⟩) rfl (by simp) (.cons (.leaf (.rustIdent h)) .nil)

theorem pow_shows : Shows calcEnv calcTerm powLevels powExpr powVal powTree := by
  have hv : ∀ x : String, x.toList ∉ rustKeywords → Shows calcEnv calcTerm [⟨.right, .leaf (.punct "^".toList)⟩] (.rightAssoc (.leaf (.punct "^".toList)) calcTerm)
      (.node .rightLhs [calcVar x]) (.operand (calcVar x)) := fun x h => .rightLhs (.operand (calcVar_hasTy x h))
  have hs : HasTy calcEnv (.named "AddOp".toList) (calcOp "AddOp" "Sub" "-") :=
    .enum (w := ⟨"Sub".toList, tys [.leaf (.punct "-".toList)]⟩) rfl (by simp) (.cons (.leaf (.punct rfl)) .nil)
  have hm : HasTy calcEnv (.named "MulOp".toList) (calcOp "MulOp" "Mul" "*") :=
    .enum (w := ⟨"Mul".toList, tys [.leaf (.punct "*".toList)]⟩) rfl (by simp) (.cons (.leaf (.punct rfl)) .nil)
  have hp : HasTy calcEnv (.leaf (.punct "^".toList)) calcPow := .leaf (.punct rfl)
  exact .leftBin (.leftBin (.leftRhs (.leftRhs (hv "a" (by decide +kernel)))) hs (.leftRhs (hv "b" (by decide +kernel)))) hs
    (.leftBin (.leftRhs (hv "c" (by decide +kernel))) hm
      (.rightBin (.operand (calcVar_hasTy "d" (by decide +kernel))) hp
        (.rightBin (.operand (calcVar_hasTy "e" (by decide +kernel))) hp (hv "f" (by decide +kernel)))))

/-- `a - b - c * d ^ e ^ f` is that tree, and any other tree of the chain violates precedence or associativity. -/
example : ∃ rest, Run calcEnv powLevels calcTerm powTokens powTree.first powTree.rest rest none ∧
    ∀ f : Infix, Respects calcEnv powLevels f → f.first = powTree.first → f.rest = powTree.rest → f = powTree := by
  obtain ⟨e, rest, h1, h2, h3, _⟩ := (C80_accepts pow_levels.1 pow_levels.2).mp pow_accepted
  cases shows_tree h1 pow_shows
  exact ⟨rest, h3, fun f hf f1 f2 => respects_unique pow_levels.2.values hf h2 f1 f2⟩

/-- The other grouping of `d ^ e ^ f` does not respect associativity. -/
example : ¬ Respects calcEnv powLevels (.binary (.binary (.operand (calcVar "d")) calcPow (.operand (calcVar "e"))) calcPow (.operand (calcVar "f"))) := by
  intro h
  have hp : HasTy calcEnv (.leaf (.punct "^".toList)) calcPow := .leaf (.punct rfl)
  have h' : Respects calcEnv powLevels (.binary (.operand (calcVar "d")) calcPow (.binary (.operand (calcVar "e")) calcPow (.operand (calcVar "f")))) := by
    refine .binary (looser := [_, _]) rfl hp ?_ ?_ .operand (.binary (looser := [_, _]) rfl hp ?_ ?_ .operand .operand)
    all_goals intro o ho; simp [Infix.ops, Infix.rest] at ho
    subst ho
    exact .inr ⟨rfl, hp⟩
  cases respects_unique pow_levels.2.values h h' rfl rfl

/-- An operand is missing in `a - * b`. -/
example : Missing calcEnv powLevels calcTerm [.ident "a".toList spA, .punct '-' .alone spA, .punct '*' .alone spA, .ident "b".toList spA] :=
  (C80_fails pow_levels.1 pow_levels.2 (s := ⟨_, .callSite, none⟩)).mp ⟨_, 30, rfl⟩

end

/-- If two levels share an operator, the looser level never sees it: with `LeftAssoc<Minus, RightAssoc<Minus, Term>>`, `a - b - c` is grouped to the right ... -/
example [Ext] : Accepts calcEnv (.leftAssoc (.leaf (.punct "-".toList)) (.rightAssoc (.leaf (.punct "-".toList)) calcTerm))
    [.ident "a".toList spA, .punct '-' .alone spA, .ident "b".toList spA, .punct '-' .alone spA, .ident "c".toList spA]
    (.node .leftRhs [.node .rightBin [calcVar "a", .leaf (.punct "-".toList) (.mark [spA]),
      .node .rightBin [calcVar "b", .leaf (.punct "-".toList) (.mark [spA]), .node .rightLhs [calcVar "c"]]]]) := ⟨30, rfl⟩

/-- ... and the check notices. -/
example : levelsApart calcEnv 4 [⟨.left, .leaf (.punct "-".toList)⟩, ⟨.right, .leaf (.punct "-".toList)⟩] = false := by decide +kernel

end Parsel
