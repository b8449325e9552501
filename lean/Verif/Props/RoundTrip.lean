import Verif.Proofs.LL1
import Verif.Proofs.Back
import Verif.Proofs.Survive
import Verif.Props.Locations
import Verif.Props.Format

/-! C12, C13: in an LL(1) grammar, printing and parsing again gives every value back. -/

namespace Parsel
open Spec

section
variable [Ext]

/-! ### C12 -/

/-- **C12**, in the middle of a stream: in an LL(1) grammar, a value of any of its types that has been printed reads back as itself - with the same
locations - if what follows (`k`) cannot be taken for a part of it; exactly `k` is left. -/
theorem C12_reads_back (laws : FloatLaws) {env : Env} {G : List Ty} (hG : Grammar env G) {t : Ty} (ht : t ∈ G) {v : Val} (hv : HasTy env t v)
    (hs : Survives v) {ts : List TT} (hp : v.toTokens = some ts) {k : List TT} (hk : ∀ u, Grabs env t u → Refuses env u k) (scope : Span)
    (unexp : Option Span) : Parses env t ⟨ts ++ k, scope, unexp⟩ v ⟨k, scope, unexp⟩ := by
  obtain ⟨n, hn⟩ := back_all laws hG _ v (Nat.lt_succ_self _) t ht hv hs ts k scope unexp hp hk
  exact ⟨n, hn n (Nat.le_refl _)⟩

/-- **C12** for whole streams: parsing the printed value succeeds, consumes all the tokens and returns the value. -/
theorem C12_accepts (laws : FloatLaws) {env : Env} {G : List Ty} (hG : Grammar env G) {t : Ty} (ht : t ∈ G) {v : Val} (hv : HasTy env t v)
    (hs : Survives v) {ts : List TT} (hp : v.toTokens = some ts) (hk : ∀ u, Grabs env t u → Refuses env u []) : Accepts env t ts v := by
  obtain ⟨n, hn⟩ := C12_reads_back laws hG ht hv hs hp hk .callSite none
  rw [List.append_nil] at hn
  exact ⟨n, (parse2_of hn).1 ⟨rfl, rfl⟩⟩

/-- Nothing else is accepted: whatever the printed tokens are parsed as, it is the value. -/
theorem C12_unique (laws : FloatLaws) {env : Env} {G : List Ty} (hG : Grammar env G) {t : Ty} (ht : t ∈ G) {v w : Val} (hv : HasTy env t v)
    (hs : Survives v) {ts : List TT} (hp : v.toTokens = some ts) (hk : ∀ u, Grabs env t u → Refuses env u []) (h : Accepts env t ts w) : w = v := by
  obtain ⟨s1, h1⟩ := accepts_parses h
  have h2 := C12_reads_back laws hG ht hv hs hp hk .callSite none
  rw [List.append_nil] at h2
  exact (parses_unique h1 h2).1

/-- **C12** with a check by computation: for a grammar that passes the checker, for every value of every type that nothing can follow. -/
theorem C12_checked (laws : FloatLaws) {env : Env} {G : List Ty} {n : Nat} (hG : ll1 env G n = true) {t : Ty} (ht : t ∈ G)
    (he : closesAtEnd env G n t = true) {v : Val} (hv : HasTy env t v) (hs : Survives v) {ts : List TT} (hp : v.toTokens = some ts) :
    Accepts env t ts v := C12_accepts laws (grammar_of_ll1 laws hG) ht hv hs hp (end_of_ll1 hG ht he)

/-- Every value of a grammar that passes comes out of the parser, and is the only one for its tokens: printing is injective (on values that survive). -/
theorem C12_injective (laws : FloatLaws) {env : Env} {G : List Ty} {n : Nat} (hG : ll1 env G n = true) {t : Ty} (ht : t ∈ G)
    (he : closesAtEnd env G n t = true) {v w : Val} (hv : HasTy env t v) (hw : HasTy env t w) (hsv : Survives v) (hsw : Survives w) {ts : List TT}
    (hpv : v.toTokens = some ts) (hpw : w.toTokens = some ts) : v = w :=
  C12_unique laws (grammar_of_ll1 laws hG) ht hw hsw hpw (end_of_ll1 hG ht he) (C12_checked laws hG ht he hv hsv hpv)

/-- What a parser returns - in any grammar, LL(1) or not - survives: `Survives` can fail only for values built by hand, or read from `-0` as a `Lit`. -/
theorem C12_parsed_survives {env : Env} {t : Ty} {s s' : PState} {v : Val} (h : Parses env t s v s') (hz : NoZero v) : Survives v := by
  obtain ⟨n, h⟩ := h
  exact parsed_survives h hz

/-- Parsing, printing and parsing again: the second parse gives the value of the first one back, always (but for `-0` read as a `Lit`: C37). -/
theorem C12_parsed (laws : FloatLaws) {env : Env} {G : List Ty} {n : Nat} (hG : ll1 env G n = true) {t : Ty} (ht : t ∈ G)
    (he : closesAtEnd env G n t = true) {ts out : List TT} {v : Val} (h : Accepts env t ts v) (hz : NoZero v) (ho : v.toTokens = some out) :
    Accepts env t out v := by
  obtain ⟨s', m, hm⟩ := accepts_parses h
  exact C12_checked laws hG ht he (parse_hasTy _ m _ _ _ _ hm) (parsed_survives hm hz) ho

/-- **C12** without a condition on the value, if the grammar has no `Lit`, no operator with a quote and no `Punctuated` with parts that can be empty. -/
theorem C12_solid (laws : FloatLaws) {env : Env} {G : List Ty} {n : Nat} (hG : ll1 env G n = true) (hsol : solid env G n = true) {t : Ty} (ht : t ∈ G)
    (he : closesAtEnd env G n t = true) {v : Val} (hv : HasTy env t v) {ts : List TT} (hp : v.toTokens = some ts) : Accepts env t ts v :=
  C12_checked laws hG ht he hv (solid_survives (grammar_of_ll1 laws hG).closed (solid_sound hG hsol) hv ht) hp

/-! ### C13 -/

/-- `from_str` of the text `src` returns `Ok(v)`. -/
def Spec.AcceptsStr (env : Env) (t : Ty) (src : Text) (v : Val) : Prop := ∃ n, parseStr (parse env n t) src = .ok v

/-- **C13.** In an LL(1) grammar: `to_string` (pretty or compact) of a value, read back with `from_str`, gives a value that differs at most in locations. -/
theorem C13_from_str_to_string (laws : FloatLaws) (alternate : Bool) {env : Env} {G : List Ty} (hG : Grammar env G) {t : Ty} (ht : t ∈ G)
    (hk : ∀ u, Grabs env t u → Refuses env u []) {v : Val} (hv : HasTy env t v) (hs : Survives v) (hx : HasText v) {ts : List TT}
    (hp : v.toTokens = some ts) : ∃ text w, display alternate v = some text ∧ AcceptsStr env t text w ∧ Alike v w := by
  obtain ⟨text, ts', h1, _, h3, h4⟩ := display_reads laws alternate hv hx hp
  obtain ⟨w, ⟨n, hw⟩, hal⟩ := C31_accepts h4 (C12_accepts laws hG ht hv hs hp hk)
  exact ⟨text, w, h1, ⟨n, by simp only [parseStr, h3]; exact hw⟩, hal⟩

/-- **C13** with a check by computation. -/
theorem C13_checked (laws : FloatLaws) (alternate : Bool) {env : Env} {G : List Ty} {n : Nat} (hG : ll1 env G n = true) {t : Ty} (ht : t ∈ G)
    (he : closesAtEnd env G n t = true) {v : Val} (hv : HasTy env t v) (hs : Survives v) (hx : HasText v) {ts : List TT} (hp : v.toTokens = some ts) :
    ∃ text w, display alternate v = some text ∧ AcceptsStr env t text w ∧ Alike v w :=
  C13_from_str_to_string laws alternate (grammar_of_ll1 laws hG) ht (end_of_ll1 hG ht he) hv hs hx hp

/-- **C13** without the condition `Survives`. -/
theorem C13_solid (laws : FloatLaws) (alternate : Bool) {env : Env} {G : List Ty} {n : Nat} (hG : ll1 env G n = true) (hsol : solid env G n = true) {t : Ty}
    (ht : t ∈ G) (he : closesAtEnd env G n t = true) {v : Val} (hv : HasTy env t v) (hx : HasText v) {ts : List TT} (hp : v.toTokens = some ts) :
    ∃ text w, display alternate v = some text ∧ AcceptsStr env t text w ∧ Alike v w :=
  C13_checked laws alternate hG ht he hv (solid_survives (grammar_of_ll1 laws hG).closed (solid_sound hG hsol) hv ht) hx hp

end

/-! ### grammars to which this applies -/

/-- A field of a type. -/
def Spec.tys (l : List Ty) : Fields Ty := .unnamed (l.map fld)

/-- Words that are not identifiers of the small language below. -/
def miniWords : List Text := ["let", "fn", "return", "true", "false"].map String.toList

/-- A small language:
`Prog = Stmt*`,
`Stmt = let Name = Sum ; | fn Name ( Name , ... [,] ) [-> Name] { Stmt* } | return Sum , ... ;`,
`Sum = Prod (+|-) ...` (left associative), `Prod = Pow * ...`, `Pow = Atom ^ ...` (right associative),
`Atom = ( Sum ) | LitUint | LitStr | LitBool | [ Atom Atom ... ] | - Atom | Name`. -/
def miniEnv : Env := fun x =>
  let name := Ty.leaf (.customIdent miniWords)
  let kw := fun (s : String) => Ty.leaf (.keyword s.toList)
  let op := fun (s : String) => Ty.leaf (.punct s.toList)
  let ty := fun (s : String) => Ty.named s.toList
  if x = "Prog".toList then .struct (tys [.any (ty "Stmt"), .leaf .eof])
  else if x = "Stmt".toList then
    .enum [⟨"Let".toList, tys [kw "let", name, op "=", ty "Sum", op ";"]⟩,
      ⟨"Fn".toList, tys [kw "fn", name, .paren (.punctuated name (op ",")), .maybe (op "->") name, .brace (.any (.boxed (ty "Stmt")))]⟩,
      ⟨"Return".toList, tys [kw "return", .separated (ty "Sum") (op ","), op ";"]⟩]
  else if x = "Sum".toList then .struct (tys [.leftAssoc (.either (op "+") (op "-")) (ty "Prod")])
  else if x = "Prod".toList then .struct (tys [.leftAssoc (op "*") (ty "Pow")])
  else if x = "Pow".toList then .struct (tys [.rightAssoc (op "^") (ty "Atom")])
  else if x = "Atom".toList then
    .enum [⟨"Group".toList, tys [.paren (.boxed (ty "Sum"))]⟩, ⟨"Neg".toList, tys [op "-", .boxed (ty "Atom")]⟩, ⟨"Num".toList, tys [.leaf (.lit .uint)]⟩,
      ⟨"Str".toList, tys [.leaf (.lit .str)]⟩, ⟨"Bool".toList, tys [.leaf (.lit .bool)]⟩,
      ⟨"List".toList, tys [.bracket (.punctuated (.boxed (ty "Atom")) (.leaf .notEof))]⟩, ⟨"Name".toList, tys [name]⟩]
  else .enum []

/-- All the types of the small language. -/
def miniTypes : List Ty := typesFrom miniEnv 12 [.named "Prog".toList]

/-- The small language passes, and so does the grammar of Props/Grammar.lean. -/
theorem mini_ll1 : ll1 miniEnv miniTypes 16 = true ∧ closesAtEnd miniEnv miniTypes 16 (.named "Prog".toList) = true ∧
    Ty.named "Prog".toList ∈ miniTypes := by decide +kernel

theorem demo_ll1 : ll1 demoEnv (typesFrom demoEnv 8 [.named "Let".toList]) 12 = true ∧
    closesAtEnd demoEnv (typesFrom demoEnv 8 [.named "Let".toList]) 12 (.named "Let".toList) = true ∧
    Ty.named "Let".toList ∈ typesFrom demoEnv 8 [.named "Let".toList] := by decide +kernel

section
attribute [local instance] toyExt

theorem demo_survives : Survives demoVal := by
  refine ⟨by simp, trivial, trivial, ?_, ⟨by simp, ⟨by simp, ⟨by simp, trivial, trivial⟩, trivial⟩, ?_, ?_, trivial⟩, ⟨by simp, ?_, trivial, trivial⟩, trivial⟩
  · show '\'' ∉ "=".toList; decide
  · show '\'' ∉ "+".toList; decide
  · exact ⟨by simp, ⟨by simp, ⟨by simp, trivial, trivial⟩, trivial⟩, trivial⟩
  · show '\'' ∉ ";".toList; decide

mutual
/-- `NoZero` can be decided. -/
def decNoZero : (v : Val) → Decidable (NoZero v)
  | .leaf l v => if h : l = .lit .any then
      match v with
      | .lit (.int z) sp => if hz : z = 0 then .isFalse fun hn => hn h sp (by rw [hz]) else .isTrue fun _ _ hv => by cases hv; exact hz rfl
      | .lit (.bool _) _ => .isTrue fun _ _ hv => by cases hv
      | .lit (.byte _) _ => .isTrue fun _ _ hv => by cases hv
      | .lit (.uint _) _ => .isTrue fun _ _ hv => by cases hv
      | .lit (.float _) _ => .isTrue fun _ _ hv => by cases hv
      | .lit (.char _) _ => .isTrue fun _ _ hv => by cases hv
      | .lit (.str _) _ => .isTrue fun _ _ hv => by cases hv
      | .lit (.byteStr _) _ => .isTrue fun _ _ hv => by cases hv
      | .unit => .isTrue fun _ _ hv => by cases hv
      | .ident _ _ => .isTrue fun _ _ hv => by cases hv
      | .mark _ => .isTrue fun _ _ hv => by cases hv
    else .isTrue fun h' => absurd h' h
  | .group _ _ v => decNoZero v
  | .node _ vs => decNoZeroL vs
/-- The same for lists. -/
def decNoZeroL : (vs : List Val) → Decidable (NoZeroL vs)
  | [] => .isTrue trivial
  | v :: vs =>
    have := decNoZero v
    have := decNoZeroL vs
    inferInstanceAs (Decidable (_ ∧ _))
end

instance (v : Val) : Decidable (NoZero v) := decNoZero v

example : Accepts demoEnv (.named "Let".toList) (demoVal.toTokens.getD []) demoVal :=
  C12_parsed toyExt_laws demo_ll1.1 demo_ll1.2.2 demo_ll1.2.1 demo_accepts (by decide +kernel) rfl

example : ∃ text w, display false demoVal = some text ∧ AcceptsStr demoEnv (.named "Let".toList) text w ∧ Alike demoVal w := by
  obtain ⟨s', n, hn⟩ := accepts_parses demo_accepts
  exact C13_checked toyExt_laws false demo_ll1.1 demo_ll1.2.2 demo_ll1.2.1 (parse_hasTy _ n _ _ _ _ hn) demo_survives demo_hasText rfl

instance (l : Leaf) (v : LeafVal) : Decidable (LeafSurvives l v) := by
  unfold LeafSurvives
  split <;> infer_instance

mutual
/-- `Survives` can be decided. -/
def decSurvives : (v : Val) → Decidable (Survives v)
  | .leaf l v => inferInstanceAs (Decidable (LeafSurvives l v))
  | .group _ _ v => decSurvives v
  | .node tag vs =>
    have : Decidable (tag = .punctuated → ∀ w, vs.getLast? = some w → w.toTokens ≠ some []) :=
      if h : tag = .punctuated then
        match hv : vs.getLast? with
        | none => .isTrue fun _ w hw => by cases hw
        | some w => match hw : w.toTokens with
          | some [] => .isFalse fun hn => hn h w rfl hw
          | none => .isTrue fun _ w' hw' => by cases hw'; rw [hw]; simp
          | some (t :: ts) => .isTrue fun _ w' hw' => by cases hw'; rw [hw]; simp
      else .isTrue fun h' => absurd h' h
    have := decSurvivesL vs
    inferInstanceAs (Decidable (_ ∧ _))
/-- The same for lists. -/
def decSurvivesL : (vs : List Val) → Decidable (SurvivesL vs)
  | [] => .isTrue trivial
  | v :: vs =>
    have := decSurvives v
    have := decSurvivesL vs
    inferInstanceAs (Decidable (_ ∧ _))
end

instance (v : Val) : Decidable (Survives v) := decSurvives v

/-- A program of the small language. -/
def miniText : Text := "let a = 1 + b * (2 - c) ^ 3; fn f(x, y,) -> z { return [1 \"s\" true [] (a)], - - 7; fn g() { } } return x;".toList

/-- It parses, survives and can be printed, so `C12_parsed` applies. -/
def miniCheck (src : Text) : Bool :=
  match parseStr (parse miniEnv 60 (.named "Prog".toList)) src with
  | .ok v => decide (Survives v) && decide (NoZero v) && v.toTokens.isSome
  | _ => false

theorem mini_check : miniCheck miniText = true := by decide +kernel

example : ∃ ts v out, lex miniText = some ts ∧ Accepts miniEnv (.named "Prog".toList) ts v ∧ Survives v ∧ v.toTokens = some out ∧
    Accepts miniEnv (.named "Prog".toList) out v := by
  have h := mini_check
  unfold miniCheck at h
  split at h
  · rename_i v hv
    simp only [Bool.and_eq_true, decide_eq_true_eq, Option.isSome_iff_exists] at h
    obtain ⟨⟨hs, hz⟩, out, ho⟩ := h
    unfold parseStr at hv
    split at hv
    · rename_i ts hl
      exact ⟨ts, v, out, hl, ⟨60, hv⟩, hs, ho, C12_parsed toyExt_laws mini_ll1.1 mini_ll1.2.2 mini_ll1.2.1 ⟨60, hv⟩ hz ho⟩
    · cases hv
  · cases h

end

/-! ### the condition is needed -/

/-- `Two = A(Ident) | B(Ident)`: the second variant can never be read. -/
def twoEnv : Env := fun x => if x = "Two".toList then .enum [⟨"A".toList, tys [.leaf .rustIdent]⟩, ⟨"B".toList, tys [.leaf .rustIdent]⟩] else .enum []

section
attribute [local instance] toyExt

/-- Without the condition, C12 is false: a `B` reads back as an `A`.  (The grammar is not LL(1).) -/
theorem C12_ambiguous : ∃ v w ts, HasTy twoEnv (.named "Two".toList) v ∧ Survives v ∧ v.toTokens = some ts ∧ Accepts twoEnv (.named "Two".toList) ts w ∧
    ¬ Accepts twoEnv (.named "Two".toList) ts v ∧ ∀ G, .named "Two".toList ∈ G → ¬ Grammar twoEnv G := by
  have hw : Accepts twoEnv (.named "Two".toList) [.ident "x".toList (spAt 0 1)]
      (.node (.ctor "Two".toList "A".toList) [.leaf .rustIdent (.ident "x".toList (spAt 0 1))]) := ⟨5, rfl⟩
  have hty : HasTy twoEnv (.named "Two".toList) (.node (.ctor "Two".toList "B".toList) [.leaf .rustIdent (.ident "x".toList (spAt 0 1))]) :=
    .enum (vs := [_]) (w := ⟨"B".toList, tys [.leaf .rustIdent]⟩) rfl (.tail _ (.head _)) (.cons (.leaf (.rustIdent (by decide))) .nil)
  have hsv : Survives (.node (.ctor "Two".toList "B".toList) [.leaf .rustIdent (.ident "x".toList (spAt 0 1))]) := ⟨by simp, trivial, trivial⟩
  have hno : ¬ Accepts twoEnv (.named "Two".toList) [.ident "x".toList (spAt 0 1)]
      (.node (.ctor "Two".toList "B".toList) [.leaf .rustIdent (.ident "x".toList (spAt 0 1))]) := by
    intro h
    obtain ⟨s1, h1⟩ := accepts_parses h
    obtain ⟨s2, h2⟩ := accepts_parses hw
    have := (parses_unique h1 h2).1
    injection this with h3 h4
    injection h3 with h5 h6
    revert h6
    decide
  refine ⟨_, _, _, hty, hsv, rfl, hw, hno, fun G hm hG => hno (C12_accepts toyExt_laws hG hm hty hsv rfl fun u hu => ?_)⟩
  have hx : twoEnv "Two".toList = .enum [⟨"A".toList, tys [.leaf .rustIdent]⟩, ⟨"B".toList, tys [.leaf .rustIdent]⟩] := rfl
  have hft : ∀ w ∈ [(⟨"A".toList, tys [.leaf .rustIdent]⟩ : VariantDef Ty), ⟨"B".toList, tys [.leaf .rustIdent]⟩], fieldTypes w.fields = [.leaf .rustIdent] := by
    intro w hw
    simp only [List.mem_cons, List.not_mem_nil, or_false] at hw
    rcases hw with rfl | rfl <;> rfl
  cases hu with
  | struct h => rw [hx] at h; cases h
  | @enum _ vs v pre t post _ h hv hs _ hg =>
    rw [hx] at h; injection h with h; subst h
    rw [hft _ hv] at hs
    cases pre with
    | nil => simp only [List.nil_append, List.cons.injEq] at hs; rw [← hs.1] at hg; cases hg
    | cons _ pre => cases pre <;> simp at hs
  | @earlier _ vs before v mid w after _ h hs he _ =>
    rw [hx] at h; injection h with h; subst h
    have hmem : w ∈ before ++ v :: (mid ++ w :: after) := by simp
    rw [← hs] at hmem
    have := he (.leaf .rustIdent) (by rw [hft _ hmem]; exact .head _)
    cases this
end

end Parsel
