import Verif.Proofs.Refactor
import Verif.Proofs.LinearCheck
import Verif.Props.Termination

/-! C82: rewriting parts of types, and whole recursive programs. -/

namespace Parsel
open Spec

section
variable [Ext]

/-- **C82** (congruence). If some parts of a type are replaced by exchangeable types, wherever they occur, the result is exchangeable. -/
theorem C82_congruence {env env' : Env} {t u : Ty} (h : ThroughTy (SameGrammar env env') t u) : SameGrammar env env' t u := by
  have h1 := into_within (fun _ _ h => (sameM_of h).into) h
  have h2 := into_within (R := fun t u => SameGrammar env env' u t) (fun _ _ h => (sameM_of h).back) (within_symm (fun _ _ h => h) h)
  exact SameM.grammar ⟨h1.left, h2.left, ⟨h1.fails, h2.fails⟩⟩

/-- **C82** (fields). If the fields of the variants of two declarations are exchangeable, one by one, so are the declared types. -/
theorem C82_fields {env env' : Env} {x y : Text} (h : Pointwise (Pointwise (SameGrammar env env')) (alternatives (env x)) (alternatives (env' y))) :
    SameGrammar env env' (.named x) (.named y) := by
  apply SameAlts.grammar
  generalize alternatives (env x) = as at h
  generalize alternatives (env' y) = bs at h
  induction h with
  | nil => exact ⟨fun h => absurd h matchesAlts_nil, fun h => absurd h matchesAlts_nil, by simp [NoMatchAlts]⟩
  | @cons us ws _ _ h _ ih =>
    rw [← List.singleton_append, ← List.singleton_append (x := ws)]
    refine SameAlts.append ?_ ih
    have : (∀ {ts vs rest l}, MatchesSeq env us ts vs rest l → ∃ ws', MatchesSeq env' ws ts ws' rest l ∧ Val.toTokensL ws' = Val.toTokensL vs) ∧
        (∀ {ts vs rest l}, MatchesSeq env' ws ts vs rest l → ∃ ws', MatchesSeq env us ts ws' rest l ∧ Val.toTokensL ws' = Val.toTokensL vs) ∧
        (∀ {ts}, NoMatchSeq env us ts ↔ NoMatchSeq env' ws ts) := by
      clear ih
      induction h with
      | nil =>
        refine ⟨fun h => ?_, fun h => ?_, ?_⟩
        · obtain ⟨rfl, rfl, rfl⟩ := matchesSeq_nil.mp h; exact ⟨_, .nil, rfl⟩
        · obtain ⟨rfl, rfl, rfl⟩ := matchesSeq_nil.mp h; exact ⟨_, .nil, rfl⟩
        · exact ⟨fun h => absurd h noMatchSeq_nil, fun h => absurd h noMatchSeq_nil⟩
      | cons h _ ih =>
        have hm := sameM_of h
        refine ⟨fun h => ?_, fun h => ?_, ?_⟩
        · obtain ⟨v, mid, l1, ws, l2, rfl, rfl, h1, h2⟩ := matchesSeq_cons.mp h
          obtain ⟨w, hw, e⟩ := hm.left h1
          obtain ⟨ws, hws, es⟩ := ih.1 h2
          exact ⟨_, .cons hw hws, by simp only [Val.toTokensL, e, es]⟩
        · obtain ⟨v, mid, l1, ws, l2, rfl, rfl, h1, h2⟩ := matchesSeq_cons.mp h
          obtain ⟨w, hw, e⟩ := hm.right h1
          obtain ⟨ws, hws, es⟩ := ih.2.1 h2
          exact ⟨_, .cons hw hws, by simp only [Val.toTokensL, e, es]⟩
        · intro ts
          rw [noMatchSeq_cons, noMatchSeq_cons]
          constructor
          · rintro (h | ⟨v, mid, l, h1, h2⟩)
            · exact .inl (hm.fails.mp h)
            · obtain ⟨w, hw, _⟩ := hm.left h1; exact .inr ⟨w, mid, l, hw, ih.2.2.mp h2⟩
          · rintro (h | ⟨v, mid, l, h1, h2⟩)
            · exact .inl (hm.fails.mpr h)
            · obtain ⟨w, hw, _⟩ := hm.right h1; exact .inr ⟨w, mid, l, hw, ih.2.2.mpr h2⟩
    refine ⟨fun h => ?_, fun h => ?_, ?_⟩
    · obtain ⟨ws, hw, e⟩ := this.1 (matchesAlts_one.mp h); exact ⟨ws, matchesAlts_one.mpr hw, e⟩
    · obtain ⟨ws, hw, e⟩ := this.2.1 (matchesAlts_one.mp h); exact ⟨ws, matchesAlts_one.mpr hw, e⟩
    · intro ts; rw [noMatchAlts_one, noMatchAlts_one]; exact this.2.2

/-- **C82** (rewritten programs, what they do is right). What the rewritten program accepts or rejects, the old one accepts (as the same tokens) or rejects. -/
theorem C82_sound {env env' : Env} {fresh : Text → Text} (h : Rewritten env env' fresh) {t : Ty} {s : PState} :
    (∀ {w s'}, Parses env' t s w s' → ∃ v, Parses env t s v s' ∧ v.toTokens = w.toTokens) ∧
    ((∃ e, Fails env' t s e) → ∃ e, Fails env t s e) := by
  have H := refold_of h
  constructor
  · intro w s' hp
    obtain ⟨rest, l, hm, rfl⟩ := C63_parses.mp hp
    obtain ⟨v, hv, e⟩ := refold_matches H hm
    exact ⟨v, C63_parses.mpr ⟨rest, l, hv, rfl⟩, e⟩
  · rw [C63_fails, C63_fails]
    exact refold_no H

/-- **C82** (rewritten programs that return). Where the rewritten program returns at all, it does exactly what the old one does. -/
theorem C82_refactor {env env' : Env} {fresh : Text → Text} (h : Rewritten env env' fresh) {t : Ty} {s : PState} (ends : Halts env' t s) :
    (∀ v s', Parses env t s v s' → ∃ w, Parses env' t s w s' ∧ w.toTokens = v.toTokens) ∧
    (∀ w s', Parses env' t s w s' → ∃ v, Parses env t s v s' ∧ v.toTokens = w.toTokens) ∧
    ((∃ e, Fails env t s e) ↔ ∃ e, Fails env' t s e) := by
  have hs := C82_sound h (t := t) (s := s)
  have nb : ∀ {v s'}, Parses env t s v s' → ¬ ∃ e, Fails env t s e := by
    intro v s' hp hf
    obtain ⟨rest, l, hm, rfl⟩ := C63_parses.mp hp
    exact (C63_deterministic hm).2 (C63_fails.mp hf)
  refine ⟨fun v s' hp => ?_, fun w s' hp => hs.1 hp, fun hf => ?_, hs.2⟩
  · rcases ends with ⟨w, s'', hw⟩ | hf
    · obtain ⟨v', hv, e⟩ := hs.1 hw
      obtain ⟨rfl, rfl⟩ := parses_unique hp hv
      exact ⟨w, hw, e.symm⟩
    · exact absurd (hs.2 hf) (nb hp)
  · rcases ends with ⟨w, s'', hw⟩ | hf'
    · obtain ⟨v', hv, e⟩ := hs.1 hw
      exact absurd hf (nb hv)
    · exact hf'

/-- **C82** (rewritten programs without left recursion and empty rounds). If the types of the rewritten program have no left recursion and no repetition whose rounds
can be empty, then on every input of proper tokens it does exactly what the old program does. -/
theorem C82_programs {env env' : Env} {fresh : Text → Text} (h : Rewritten env env' fresh) {G : List Ty} (closed : ∀ t ∈ G, ∀ u, PartOf env' u t → u ∈ G)
    (noLeftRecursion : ∀ t ∈ G, ¬ Chain (StartsWith env') t t) (rounds : ∀ t ∈ G, RoundsRead env' t) {t : Ty} (ht : t ∈ G) {ts : List TT} (hs : Readable ts) :
    (∀ v, Accepts env t ts v → ∃ w, Accepts env' t ts w ∧ w.toTokens = v.toTokens) ∧
    (∀ w, Accepts env' t ts w → ∃ v, Accepts env t ts v ∧ v.toTokens = w.toTokens) ∧
    ((∃ e, Rejects env t ts e) ↔ ∃ e, Rejects env' t ts e) := by
  have hh : Halts env' t ⟨ts, .callSite, none⟩ := C29_terminates closed noLeftRecursion rounds ht hs
  have H := refold_of h
  have hd : ∀ {v rest l}, Matches env t ts v rest l → ∃ w, Matches env' t ts w rest l ∧ w.toTokens = v.toTokens := by
    intro v rest l hm
    obtain ⟨w, hw, e⟩ := (C82_refactor h hh).1 v _ (C63_parses.mpr ⟨rest, l, hm, rfl⟩)
    obtain ⟨r', l', h1, h2⟩ := C63_parses.mp hw
    injection h2 with e1 _ e2
    rw [Option.none_or, Option.none_or] at e2
    subst e1 e2
    exact ⟨w, h1, e⟩
  have hn : NoMatch env t ts → NoMatch env' t ts := by
    intro hm
    have := (C82_refactor h hh).2.2.mp (C63_fails.mpr hm)
    exact C63_fails.mp this
  refine ⟨fun v hv => ?_, fun w hw => ?_, ?_⟩
  · obtain ⟨rest, h1, h2⟩ := C63_accepts.mp hv
    obtain ⟨w, hw, e⟩ := hd h1
    exact ⟨w, C63_accepts.mpr ⟨rest, hw, h2⟩, e⟩
  · obtain ⟨rest, h1, h2⟩ := C63_accepts.mp hw
    obtain ⟨v, hv, e⟩ := refold_matches H h1
    exact ⟨v, C63_accepts.mpr ⟨rest, hv, h2⟩, e⟩
  · rw [C63_rejects, C63_rejects]
    constructor
    · rintro (h | ⟨v, rest, l, h1, h2⟩)
      · exact .inl (hn h)
      · obtain ⟨w, hw, _⟩ := hd h1; exact .inr ⟨w, rest, l, hw, h2⟩
    · rintro (h | ⟨v, rest, l, h1, h2⟩)
      · exact .inl (refold_no H h)
      · obtain ⟨w, hw, _⟩ := refold_matches H h1; exact .inr ⟨w, rest, l, hw, h2⟩

/-! ### a refactoring -/

/-- The program
```
struct Block { stmts: Any<Stmt> }
enum Stmt { Do(Brace<Box<Block>>), Call(Name, Token![;]) }
```
and, beside it, what is to become of it:
```
enum Block2 { Cons(Stmt, Box<Block>), Nil }
enum Stmt2 { Do(Brace<Block>), Call(CallStmt) }
struct CallStmt { name: Name, semi: Token![;] }
```
with two steps on the way:
```
enum Steps { Cons(Stmt, Any<Stmt>), Nil }
enum Plain { Do(Brace<Block>), Call(Name, Token![;]) }
```
-/
def blockEnv : Env := fun x =>
  let name : Ty := .leaf (.customIdent [])
  let semi : Ty := .leaf (.punct ";".toList)
  let v := fun (x : String) (l : List Ty) => (⟨x.toList, .unnamed (l.map fld)⟩ : VariantDef Ty)
  if x = "Block".toList then .struct (.named [("stmts".toList, fld (.any (.named "Stmt".toList)))])
  else if x = "Stmt".toList then .enum [v "Do" [.brace (.boxed (.named "Block".toList))], v "Call" [name, semi]]
  else if x = "Block2".toList then .enum [v "Cons" [.named "Stmt".toList, .boxed (.named "Block".toList)], ⟨"Nil".toList, .unit⟩]
  else if x = "Stmt2".toList then .enum [v "Do" [.brace (.named "Block".toList)], v "Call" [.named "CallStmt".toList]]
  else if x = "CallStmt".toList then .struct (.named [("name".toList, fld name), ("semi".toList, fld semi)])
  else if x = "Steps".toList then .enum [v "Cons" [.named "Stmt".toList, .any (.named "Stmt".toList)], ⟨"Nil".toList, .unit⟩]
  else if x = "Plain".toList then .enum [v "Do" [.brace (.named "Block".toList)], v "Call" [name, semi]]
  else .enum []

/-- The new names. -/
def blockFresh (x : Text) : Text := if x = "Block".toList then "Block2".toList else if x = "Stmt".toList then "Stmt2".toList else x

/-- The program afterwards. -/
def blockEnv' : Env := fun x => blockEnv (blockFresh x)

theorem block_rewritten : Rewritten blockEnv blockEnv' blockFresh where
  body x := rfl
  same x := by
    have tr := C70_equivalence.2.2 blockEnv blockEnv blockEnv
    have sy := C70_equivalence.2.1 blockEnv blockEnv
    by_cases h1 : x = "Block".toList
    · subst h1
      -- struct Block { stmts: Any<Stmt> } -> Any<Stmt> -> Steps -> Block2
      have a : SameGrammar blockEnv blockEnv (.named "Block".toList) (.any (.named "Stmt".toList)) :=
        C70_newtype (f := .named [("stmts".toList, fld (.any (.named "Stmt".toList)))]) rfl rfl
      have b : SameGrammar blockEnv blockEnv (.any (.named "Stmt".toList)) (.named "Steps".toList) := C70_any_unrolled rfl
      have c : SameGrammar blockEnv blockEnv (.any (.named "Stmt".toList)) (.boxed (.named "Block".toList)) := tr _ _ _ (sy _ _ a) (sy _ _ (C70_box _ _))
      have d : SameGrammar blockEnv blockEnv (.named "Steps".toList) (.named "Block2".toList) :=
        C70_replace (a := []) (b := [[]]) (us := [.named "Stmt".toList]) (ws := []) c rfl rfl
      exact tr _ _ _ (tr _ _ _ a b) d
    · by_cases h2 : x = "Stmt".toList
      · subst h2
        -- unboxing inside the braces, and then a struct for the fields of `Call`
        have a : SameGrammar blockEnv blockEnv (.brace (.boxed (.named "Block".toList))) (.brace (.named "Block".toList)) :=
          C82_congruence (.brace (.here (C70_box _ _)))
        have b : SameGrammar blockEnv blockEnv (.named "Stmt".toList) (.named "Plain".toList) :=
          C70_replace (a := []) (b := [[.leaf (.customIdent []), .leaf (.punct ";".toList)]]) (us := []) (ws := []) a rfl rfl
        have c : SameGrammar blockEnv blockEnv (.named "Stmt2".toList) (.named "Plain".toList) :=
          C70_nested_struct (y := "CallStmt".toList) (a := [[.brace (.named "Block".toList)]]) (b := []) (us := []) (ws := []) rfl rfl rfl
        exact tr _ _ _ b (sy _ _ c)
      · rw [blockFresh, if_neg h1, if_neg h2]
        exact C70_equivalence.1 _ _

/-- The types of the program afterwards. -/
def blockTypes : List Ty :=
  [.named "Block".toList, .named "Stmt".toList, .named "CallStmt".toList, .boxed (.named "Block".toList), .brace (.named "Block".toList), .leaf (.customIdent []),
    .leaf (.punct ";".toList)]

/-- The two programs accept the same inputs, as the same tokens, and reject the same inputs. -/
theorem C82_blocks {ts : List TT} (hs : Readable ts) :
    (∀ v, Accepts blockEnv (.named "Block".toList) ts v → ∃ w, Accepts blockEnv' (.named "Block".toList) ts w ∧ w.toTokens = v.toTokens) ∧
    (∀ w, Accepts blockEnv' (.named "Block".toList) ts w → ∃ v, Accepts blockEnv (.named "Block".toList) ts v ∧ v.toTokens = w.toTokens) ∧
    ((∃ e, Rejects blockEnv (.named "Block".toList) ts e) ↔ ∃ e, Rejects blockEnv' (.named "Block".toList) ts e) := by
  have he : ends blockEnv' blockTypes 8 = true := by decide +kernel
  exact C82_programs block_rewritten (G := blockTypes) (fun _ ht _ hu => (ends_covers he).1.part ht hu)
    (fun _ ht hc => absurd ((ends_covers he).1.rank hc ht) (Nat.lt_irrefl _)) (fun _ ht => rounds_sound (ends_covers he).1 ht ((ends_covers he).2 _ ht))
    (by decide +kernel) hs

/-- `a; { b; }` -/
def blockSrc : List TT := [.ident "a".toList spA, .punct ';' .alone spA, .group .brace [.ident "b".toList spA, .punct ';' .alone spA] spA]

/-- Both accept `a; { b; }`. -/
example : (∃ v, Accepts blockEnv (.named "Block".toList) blockSrc v) ∧ ∃ v, Accepts blockEnv' (.named "Block".toList) blockSrc v := ⟨⟨_, 20, rfl⟩, ⟨_, 20, rfl⟩⟩

/-! ### why the rewritten program has to return -/

/-- `struct Unit { kw: a }` and `struct Unit2 { unit: Box<Unit> }`. -/
def loopEnv : Env := fun x =>
  if x = "Unit".toList then .struct (.named [("kw".toList, fld (.leaf (.keyword "a".toList)))])
  else if x = "Unit2".toList then .struct (.named [("unit".toList, fld (.boxed (.named "Unit".toList)))])
  else .enum []

def loopFresh (x : Text) : Text := if x = "Unit".toList then "Unit2".toList else x

/-- `struct Unit { unit: Box<Unit> }` -/
def loopEnv' : Env := fun x => loopEnv (loopFresh x)

/-- **C82.** Returning is needed: `struct Unit { kw: a }` and `struct Unit2 { unit: Box<Unit> }` are exchangeable, but after `Unit2` has been renamed to `Unit`, it
is left-recursive, and never returns. -/
theorem C82_returns_needed : Rewritten loopEnv loopEnv' loopFresh ∧ (∀ s, ¬ Halts loopEnv' (.named "Unit".toList) s) ∧
    ∃ v, Accepts loopEnv (.named "Unit".toList) [.ident "a".toList spA] v := by
  refine ⟨⟨fun x => ?_, fun x => rfl⟩, fun s => ?_, ⟨_, 10, rfl⟩⟩
  · by_cases h1 : x = "Unit".toList
    · subst h1
      have a : SameGrammar loopEnv loopEnv (.named "Unit2".toList) (.boxed (.named "Unit".toList)) :=
        C70_newtype (f := .named [("unit".toList, fld (.boxed (.named "Unit".toList)))]) rfl rfl
      have tr := C70_equivalence.2.2 loopEnv loopEnv loopEnv
      have sy := C70_equivalence.2.1 loopEnv loopEnv
      exact sy _ _ (tr _ _ _ a (C70_box _ _))
    · rw [loopFresh, if_neg h1]
      exact C70_equivalence.1 _ _
  · refine C30_no_outcome (C30_left_recursion (t := .named "Unit".toList) ?_ s)
    exact .more (b := .boxed (.named "Unit".toList)) (.struct (fields := .named [("unit".toList, fld (.boxed (.named "Unit".toList)))]) rfl rfl) (.one .boxed)

/-- The hypotheses of `C82_congruence` and `C82_fields` are met: `Any<Box<Name>>` for `Any<Name>` inside parentheses; a struct with a box taken away. -/
example (env : Env) (t p : Ty) : SameGrammar env env (.paren (.punctuated (.any (.boxed t)) p)) (.paren (.punctuated (.any t) p)) :=
  C82_congruence (.paren (.punctuated (.any (.here (C70_box _ _))) (.here (C70_equivalence.1 _ _))))

example : SameGrammar blockEnv blockEnv (.named "Stmt".toList) (.named "Plain".toList) :=
  C82_fields (.cons (.cons (C82_congruence (.brace (.here (C70_box _ _)))) .nil) (.cons (.cons (C70_equivalence.1 _ _) (.cons (C70_equivalence.1 _ _) .nil)) .nil))

end
end Parsel
