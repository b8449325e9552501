import Verif.Model.Grammar
import Verif.Proofs.Combinators
import Verif.Proofs.Derive

/-! A proof device: every `Parse` implementation of the grammar layer as an expression of a small language, so that facts about all of
them can be proved by one induction.  `parse_core` connects it with the model. -/

namespace Parsel
open Spec

variable [Ext]

section
variable {α β : Type}
@[simp] theorem Res.map_okc (f : α → β) (a : α) (s : PState) : (Res.ok a s).map f = .ok (f a) s := rfl
@[simp] theorem Res.map_errc (f : α → β) (e : Err) : (Res.err e : Res α).map f = .err e := rfl
@[simp] theorem Res.map_panicc (f : α → β) : (Res.panic : Res α).map f = .panic := rfl
@[simp] theorem Res.map_oofc (f : α → β) : (Res.oof : Res α).map f = .oof := rfl
@[simp] theorem Res.bind_okc (k : α → PState → Res β) (a : α) (s : PState) : (Res.ok a s).bind k = k a s := rfl
@[simp] theorem Res.bind_errc (k : α → PState → Res β) (e : Err) : (Res.err e : Res α).bind k = .err e := rfl
@[simp] theorem Res.bind_panicc (k : α → PState → Res β) : (Res.panic : Res α).bind k = .panic := rfl
@[simp] theorem Res.bind_oofc (k : α → PState → Res β) : (Res.oof : Res α).bind k = .oof := rfl
@[simp] theorem Res.mapErr_okc (f : Err → Err) (a : α) (s : PState) : (Res.ok a s).mapErr f = .ok a s := rfl
@[simp] theorem Res.mapErr_errc (f : Err → Err) (e : Err) : (Res.err e : Res α).mapErr f = .err (f e) := rfl
@[simp] theorem Res.mapErr_panicc (f : Err → Err) : (Res.panic : Res α).mapErr f = .panic := rfl
@[simp] theorem Res.mapErr_oofc (f : Err → Err) : (Res.oof : Res α).mapErr f = .oof := rfl
end

/-- How the children read by an expression are put together. -/
inductive Builder where
  | node (tag : Tag)
  | left
  | right

/-- The tree of `LeftAssoc` from operators and operands that follow `acc`. -/
def leftV (acc : Val) : List Val → Val
  | [] => acc
  | [o] => .node .leftBin [acc, o]
  | o :: r :: rest => leftV (.node .leftBin [acc, o, r]) rest

/-- The tree of `RightAssoc`. -/
def rightV (v0 : Val) : List Val → Val
  | [] => .node .rightLhs [v0]
  | [o] => .node .rightBin [v0, o]
  | o :: r :: rest => .node .rightBin [v0, o, rightV r rest]

/-- The node made of the children. -/
def Builder.apply : Builder → List Val → Val
  | .node tag, vs => .node tag vs
  | .left, v0 :: vs => leftV (.node .leftRhs [v0]) vs
  | .left, [] => .node .leftRhs []
  | .right, v0 :: vs => rightV v0 vs
  | .right, [] => .node .rightLhs []

/-- Parsing expressions. -/
inductive E where
  | ret
  | leaf (l : Leaf)
  | ty (t : Ty)
  | delim (d : Delim) (t : Ty)
  | fail (msg : Text)
  | seq (a b : E)
  | label (en ctor field : Text) (a : E)
  | attempt (a : E)
  | opt (a b : E)
  | alt (a b : E)
  | term (a b : E)
  | star (a b : E)
  | build (b : Builder) (a : E)

/-- Loop of `Punctuated`. -/
def termN (pa pb : Parser (List Val)) : Nat → Parser (List Val)
  | 0, _ => .oof
  | k + 1, s =>
    if s.isEmpty then .ok [] s
    else (pa s).bind fun vs s1 =>
      if s1.isEmpty then .ok vs s1
      else (pb s1).bind fun ws s2 => (termN pa pb k s2).map fun r => vs ++ (ws ++ r)

/-- Loop of `Separated` and `Any`. -/
def starN (pa pb : Parser (List Val)) : Nat → Parser (List Val)
  | 0, _ => .oof
  | k + 1, s =>
    match pa s.fork with
    | .ok vs f => (pb (s.advanceTo f)).bind fun ws s1 => (starN pa pb k s1).map fun r => vs ++ (ws ++ r)
    | .err _ => .ok [] s
    | .panic => .panic
    | .oof => .oof

/-- Running an expression; `P` runs types, `k` bounds loops. -/
def exec (P : Ty → Parser Val) (k : Nat) : E → Parser (List Val)
  | .ret, s => .ok [] s
  | .leaf l, s => (leafParse l s).map fun v => [.leaf l v]
  | .ty t, s => (P t s).map fun v => [v]
  | .delim d t, s => (delimited d (P t) s).map fun r => [.group d r.1 r.2]
  | .fail msg, s => .err (s.error msg)
  | .seq a b, s => (exec P k a s).bind fun vs s1 => (exec P k b s1).map fun ws => vs ++ ws
  | .label en ctor field a, s => (exec P k a s).mapErr fun e => chainError e en ctor field
  | .attempt a, s =>
    match exec P k a s.fork with
    | .ok vs f => .ok vs (s.advanceTo f)
    | .err e => .err e
    | .panic => .panic
    | .oof => .oof
  | .opt a b, s =>
    match exec P k a s.fork with
    | .ok vs f => (exec P k b (s.advanceTo f)).map fun ws => vs ++ ws
    | .err _ => .ok [] s
    | .panic => .panic
    | .oof => .oof
  | .alt a b, s =>
    match exec P k a s with
    | .ok vs s' => .ok vs s'
    | .err e1 =>
      match exec P k b s.fork with
      | .ok vs f => .ok vs (s.advanceTo f)
      | .err e2 => .err (maxByEnd e1 e2)
      | .panic => .panic
      | .oof => .oof
    | .panic => .panic
    | .oof => .oof
  | .term a b, s => termN (exec P k a) (exec P k b) k s
  | .star a b, s => starN (exec P k a) (exec P k b) k s
  | .build bu a, s => (exec P k a s).map fun vs => [bu.apply vs]

/-- The fields of a constructor. -/
def initsE : List (FieldInit Ty) → E
  | [] => .ret
  | i :: is => .seq (.label i.enumStr i.ctorStr i.fieldStr (.ty i.ty)) (initsE is)

/-- A constructor of the user type `x`. -/
def ctorE (x : Text) (c : CtorCode Ty) : E := .build (.node (.ctor x c.ctor)) (initsE c.inits)

/-- The variants that follow `e`. -/
def altsE (x : Text) (e : E) : List (CtorCode Ty) → E
  | [] => e
  | c :: cs => altsE x (.alt e (ctorE x c)) cs

/-- Generated code. -/
def codeE (x : Text) : ParseCode Ty → E
  | .struct c => ctorE x c
  | .enum [] => .fail "parsing an empty choice (enum) always fails".toList
  | .enum (c :: cs) => altsE x (.attempt (ctorE x c)) cs

/-- The expression of each type. -/
def body (env : Env) : Ty → E
  | .leaf l => .leaf l
  | .named x => codeE x (env.code x)
  | .boxed t => .ty t
  | .maybe p t => .build (.node .maybe) (.opt (.ty p) (.ty t))
  | .paren t => .delim .paren t
  | .bracket t => .delim .bracket t
  | .brace t => .delim .brace t
  | .punctuated t p => .build (.node .punctuated) (.term (.ty t) (.ty p))
  | .separated t p => .build (.node .separated) (.seq (.ty t) (.star (.ty p) (.ty t)))
  | .any t => .build (.node .any) (.star (.ty t) .ret)
  | .leftAssoc o r => .build .left (.seq (.ty r) (.star (.ty o) (.ty r)))
  | .rightAssoc o l => .build .right (.seq (.ty l) (.star (.ty o) (.ty l)))
  | .either l r => .alt (.attempt (.build (.node .eitherLeft) (.ty l))) (.build (.node .eitherRight) (.ty r))

/-! ### the connection -/

theorem evalInits_core (P : Ty → Parser Val) (k : Nat) (is : List (FieldInit Ty)) (s : PState) :
    evalInits P is s = exec P k (initsE is) s := by
  induction is generalizing s with
  | nil => rfl
  | cons i is ih =>
    simp only [evalInits, initsE, exec, evalInit]
    cases P i.ty s with
    | ok v s1 => simp only [Res.mapErr, Res.bind, Res.map, ih]; cases exec P k (initsE is) s1 <;> rfl
    | err e => rfl
    | panic => rfl
    | oof => rfl

theorem evalCtor_core (P : Ty → Parser Val) (k : Nat) (x : Text) (c : CtorCode Ty) (s : PState) :
    (evalCtor P c s).map (fun nd => [Val.node (.ctor x nd.ctor) nd.fields]) = exec P k (ctorE x c) s := by
  simp only [evalCtor, ctorE, exec, evalInits_core P k, Res.map_map, Builder.apply]

theorem evalVariants_core (P : Ty → Parser Val) (k : Nat) (x : Text) (cs : List (CtorCode Ty)) (s : PState) (e : E) :
    exec P k (altsE x e cs) s =
      match exec P k e s with
      | .ok vs s' => .ok vs s'
      | .err e1 => (evalVariants P cs (some e1) s).map (fun nd => [Val.node (.ctor x nd.ctor) nd.fields])
      | .panic => .panic
      | .oof => .oof := by
  induction cs generalizing e with
  | nil => simp only [altsE, evalVariants]; cases exec P k e s <;> rfl
  | cons c cs ih =>
    simp only [altsE, ih, exec]
    cases exec P k e s with
    | ok vs s' => rfl
    | panic => rfl
    | oof => rfl
    | err e1 =>
      simp only [← evalCtor_core P k, evalVariants, tryParseVariant]
      cases evalCtor P c s.fork with
      | ok nd f => rfl
      | panic => rfl
      | oof => rfl
      | err e2 => rfl

theorem evalParse_core (P : Ty → Parser Val) (k : Nat) (x : Text) (c : ParseCode Ty) (s : PState) :
    (evalParse P c s).map (fun nd => [Val.node (.ctor x nd.ctor) nd.fields]) = exec P k (codeE x c) s := by
  cases c with
  | struct c => exact evalCtor_core P k x c s
  | enum cs =>
    cases cs with
    | nil => rfl
    | cons c cs =>
      simp only [codeE, evalVariants_core, exec, evalParse, evalVariants, ← evalCtor_core P k, tryParseVariant]
      cases evalCtor P c s.fork <;> rfl

theorem termList_core (pt pp : Parser Val) (m : Nat) (s : PState) :
    (termList pt pp m s).map (fun r => Val.interleave ⟨r.1, r.2⟩)
      = termN (fun s => (pt s).map fun v => [v]) (fun s => (pp s).map fun v => [v]) m s := by
  induction m generalizing s with
  | zero => rfl
  | succ m ih =>
    simp only [termList, termN]
    split
    · rfl
    · cases pt s with
      | err e => rfl
      | panic => rfl
      | oof => rfl
      | ok v s1 =>
        simp only [Res.bind_okc, Res.map_okc]
        by_cases h1 : s1.isEmpty = true
        · simp only [h1, if_true]; rfl
        · simp only [h1]
          cases pp s1 with
          | err e => rfl
          | panic => rfl
          | oof => rfl
          | ok q s2 =>
            simp only [Res.map_okc, Res.bind_okc, ← ih s2]
            cases termList pt pp m s2 <;> simp [Val.interleave]

theorem sepList_core (pt pp : Parser Val) (m : Nat) (s : PState) :
    (sepList pt pp m s).map (fun r => r.flatMap fun x => [x.1, x.2])
      = starN (fun s => (pp s).map fun v => [v]) (fun s => (pt s).map fun v => [v]) m s := by
  induction m generalizing s with
  | zero => rfl
  | succ m ih =>
    simp only [sepList, starN]
    cases pp s.fork with
    | err e => rfl
    | panic => rfl
    | oof => rfl
    | ok v f =>
      simp only [Res.map_okc]
      cases pt (s.advanceTo f) with
      | err e => rfl
      | panic => rfl
      | oof => rfl
      | ok q s2 =>
        simp only [Res.bind_okc, Res.map_okc, ← ih s2]
        cases sepList pt pp m s2 <;> simp

theorem anyList_core (pt : Parser Val) (m : Nat) (s : PState) :
    anyList pt m s = starN (fun s => (pt s).map fun v => [v]) (fun s => .ok [] s) m s := by
  induction m generalizing s with
  | zero => rfl
  | succ m ih =>
    simp only [anyList, starN]
    cases pt s.fork with
    | err e => rfl
    | panic => rfl
    | oof => rfl
    | ok v f =>
      simp only [Res.map_okc, Res.bind_okc, ih (s.advanceTo f)]
      rfl

theorem interleave_ofFirstRest (inner : List (Val × Val)) (v0 : Val) (rest : List (Val × Val)) :
    Val.interleave (ofFirstRest inner v0 rest) =
      inner.flatMap (fun x => [x.1, x.2]) ++ v0 :: rest.flatMap (fun x => [x.1, x.2]) := by
  induction rest generalizing inner v0 with
  | nil => simp [ofFirstRest, Val.interleave]
  | cons x rest ih => obtain ⟨q, v⟩ := x; simp [ofFirstRest, ih]

theorem leftV_core (e : LeftAssoc Val Val) (rest : List (Val × Val)) :
    Val.ofLeft (leftLoop e rest) = leftV (Val.ofLeft e) (rest.flatMap fun x => [x.1, x.2]) := by
  induction rest generalizing e with
  | nil => rfl
  | cons x rest ih => obtain ⟨q, v⟩ := x; simp [leftLoop, ih, leftV, Val.ofLeft]

theorem rightV_core (v0 : Val) (rest : List (Val × Val)) :
    Val.ofRight (rightLoop (.lhs (shiftLast v0 rest).2) (shiftLast v0 rest).1.reverse)
      = rightV v0 (rest.flatMap fun x => [x.1, x.2]) := by
  induction rest generalizing v0 with
  | nil => rfl
  | cons x rest ih =>
    obtain ⟨q, v⟩ := x
    simp only [shiftLast, List.reverse_cons, rightLoop_append]
    simp [rightLoop, Val.ofRight, ih, rightV]

/-- Every type's parser is its expression. -/
theorem parse_core (env : Env) (n : Nat) (t : Ty) (s : PState) :
    (parse env (n + 1) t s).map (fun v => [v]) = exec (parse env n) n (body env t) s := by
  cases t with
  | leaf l => simp only [parse, body, exec, Res.map_map]
  | named x => simp only [parse, body, Res.map_map, evalParse_core _ n]
  | boxed t => simp only [parse, body, exec]
  | maybe p t =>
    simp only [parse, body, exec, maybeParse]
    cases parse env n p s.fork with
    | ok v f => simp only [Res.map_okc]; cases parse env n t (s.advanceTo f) <;> rfl
    | err e => rfl
    | panic => rfl
    | oof => rfl
  | paren t => simp only [parse, body, exec, parenParse, Res.map_map]
  | bracket t => simp only [parse, body, exec, bracketParse, Res.map_map]
  | brace t => simp only [parse, body, exec, braceParse, Res.map_map]
  | punctuated t p =>
    simp only [parse, body, exec, punctuatedParse_eq, ← termList_core, Res.map_map, Builder.apply]
  | separated t p =>
    simp only [parse, body, exec, separatedParse_eq, ← sepList_core, Res.map_map, Res.map_bind, Res.bind_map, Builder.apply,
      interleave_ofFirstRest]
    rfl
  | any t => simp only [parse, body, exec, anyParse_eq, anyList_core, Res.map_map, Builder.apply]
  | leftAssoc o r =>
    simp only [parse, body, exec, leftAssocParse, separatedParse_eq, ← sepList_core, Res.map_map, Res.map_bind, Res.bind_map]
    cases parse env n r s with
    | ok v s1 =>
      simp only [Res.bind_okc]
      cases sepList (parse env n r) (parse env n o) n s1 with
      | ok rs s2 => simp [leftAssocOf_ofFirstRest, Res.ofOption, Builder.apply, leftV_core, Val.ofLeft]
      | err e => rfl
      | panic => rfl
      | oof => rfl
    | err e => rfl
    | panic => rfl
    | oof => rfl
  | rightAssoc o r =>
    simp only [parse, body, exec, rightAssocParse, separatedParse_eq, ← sepList_core, Res.map_map, Res.map_bind, Res.bind_map]
    cases parse env n r s with
    | ok v s1 =>
      simp only [Res.bind_okc]
      cases sepList (parse env n r) (parse env n o) n s1 with
      | ok rs s2 => simp [rightAssocOf_ofFirstRest, Res.ofOption, Builder.apply, rightV_core]
      | err e => rfl
      | panic => rfl
      | oof => rfl
    | err e => rfl
    | panic => rfl
    | oof => rfl
  | either l r =>
    simp only [parse, body, exec, eitherParse]
    cases parse env n l s.fork with
    | ok v f => rfl
    | panic => rfl
    | oof => rfl
    | err e => simp only [Res.map_errc]; cases parse env n r s.fork <;> rfl

end Parsel
