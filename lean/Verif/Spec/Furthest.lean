import Verif.Spec.Source

/-
Specification vocabulary: how far a variant of an enum gets into the stream before it fails.
-/

namespace Parsel.Spec

mutual
/-- Number of tokens of a tree; a group has two delimiters. -/
def countT : TT → Nat
  | .group _ ts _ => count ts + 2
  | .ident _ _ => 1
  | .punct _ _ _ => 1
  | .lit _ _ => 1
/-- Number of tokens and delimiters of a stream, at all levels. -/
def count : List TT → Nat
  | [] => 0
  | t :: ts => countT t + count ts
end

mutual
/-- Where the tokens of a tree end, in reading order. -/
def placesT : TT → List LineCol
  | .group _ ts sp => sp.openOf.stop :: (places ts ++ [sp.closeOf.stop])
  | .ident _ sp => [sp.stop]
  | .punct _ _ sp => [sp.stop]
  | .lit _ sp => [sp.stop]
/-- Where the tokens and delimiters of a stream end, in reading order. -/
def places : List TT → List LineCol
  | [] => []
  | t :: ts => placesT t ++ places ts
end

/-- Positions increase along the stream. -/
def InOrder (ts : List TT) : Prop := (places ts).Pairwise fun a b => a.lt b = true

/-- From the position `ts` on a level that ends at `scope`, after `n` tokens (delimiters count), one is at the position `ts'` on a level that ends at
`scope'`. -/
inductive Passed : List TT → Span → Nat → List TT → Span → Prop
  | here {ts scope} : Passed ts scope 0 ts scope
  | over {t rest scope n ts' scope'} : Passed rest scope n ts' scope' → Passed (t :: rest) scope (countT t + n) ts' scope'
  | into {d inner sp rest scope n ts' scope'} : Passed inner sp.closeOf n ts' scope' → Passed (.group d inner sp :: rest) scope (n + 1) ts' scope'

/-- The location `sp` is that of the next token (opening delimiter), or of the end of the level if there is none (`k` = 0), or it is that of a number
with a minus sign, whose literal is one token further (`k` = 1). -/
inductive Looked : List TT → Span → Nat → Span → Prop
  | stop {scope} : Looked [] scope 0 scope
  | token {t ts scope} : Looked (t :: ts) scope 0 t.errSpan
  | number {spc sp1 r sp2 ts scope} : Looked (.punct '-' spc sp1 :: .lit r sp2 :: ts) scope 1 (sp1.join sp2)

variable [Ext]

/-- Variant `v` of the enum `x`, tried alone at `s`, fails with error `e`. -/
def VariantFails (env : Env) (x : Text) (s : PState) (v : VariantDef Ty) (e : Err) : Prop := ∃ n, VariantErr (parse env n) x s v e

/-- The error `e` of variant `v` of the enum `x` at `s` was raised `n` tokens further: there something on the path from one of its fields failed, and
the error is about the token there. -/
def GotTo (env : Env) (x : Text) (s : PState) (v : VariantDef Ty) (e : Err) (n : Nat) : Prop :=
  ∃ l ft path u s0 e0 m k, (l, ft) ∈ labelled v.fields ∧ Path env ft path u ∧ Passed s.cur s.scope m s0.cur s0.scope ∧ Basic env u s0 e0 ∧
    Looked s0.cur s0.scope k e0.span ∧ n = m + k ∧ e = ⟨e0.span, renderPath (⟨x, v.ident, l⟩ :: path) e0.msg⟩

/-- `e` is the error of a variant of the enum `x` at `s` that got furthest: `errs` are the errors of the variants, each of them was raised somewhere; `e`
is the one of variant number `i`; no variant's error was raised after more tokens, and no later variant's after as many. -/
def FurthestError (env : Env) (x : Text) (s : PState) (variants : List (VariantDef Ty)) (e : Err) : Prop :=
  ∃ errs : List Err, Each (VariantFails env x s) variants errs ∧
    (∀ (i : Nat) v err, variants[i]? = some v → errs[i]? = some err → ∃ n, GotTo env x s v err n) ∧
    ∃ (i : Nat) (v : VariantDef Ty), variants[i]? = some v ∧ errs[i]? = some e ∧
      ∀ n, GotTo env x s v e n → ∀ (j : Nat) w err m, variants[j]? = some w → errs[j]? = some err → GotTo env x s w err m → m ≤ n ∧ (i < j → m < n)

/-- The error `e` of the type `t` at `s` was raised `n` tokens further. -/
def Raised (env : Env) (t : Ty) (s : PState) (e : Err) (n : Nat) : Prop :=
  ∃ path u s0 e0 m k, Path env t path u ∧ Passed s.cur s.scope m s0.cur s0.scope ∧ Basic env u s0 e0 ∧
    Looked s0.cur s0.scope k e0.span ∧ n = m + k ∧ e = ⟨e0.span, renderPath path e0.msg⟩

/-- Both sides fail at `s` (each tried on a fork of its own), each of the errors was raised somewhere, and `e` is the one raised after more tokens; that of the
right side, if both were raised after as many. -/
def FurtherSide (env : Env) (l r : Ty) (s : PState) (e : Err) : Prop :=
  ∃ el er, Fails env l s.fork el ∧ Fails env r s.fork er ∧ (∃ i, Raised env l s el i) ∧ (∃ j, Raised env r s er j) ∧
    ∀ i j, Raised env l s el i → Raised env r s er j → (j < i → e = el) ∧ (i ≤ j → e = er)

end Parsel.Spec
