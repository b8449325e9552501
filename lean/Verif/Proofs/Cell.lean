import Verif.Proofs.Mono

/-! What happens does not depend on the record of unexpected tokens (C57). -/

namespace Parsel

/-- The same position with an unexpected token recorded earlier. -/
def PState.over (u : Option Span) (s : PState) : PState := ⟨s.cur, s.scope, u.orElse fun _ => s.unexp⟩

/-- The same outcome with an unexpected token recorded earlier. -/
def Res.over {α : Type} (u : Option Span) : Res α → Res α
  | .ok a s => .ok a (s.over u)
  | r => r

section
variable {α β : Type}
@[simp] theorem Res.over_ok (u : Option Span) (a : α) (s : PState) : (Res.ok a s).over u = .ok a (s.over u) := rfl
@[simp] theorem Res.over_err (u : Option Span) (e : Err) : (Res.err e : Res α).over u = .err e := rfl
@[simp] theorem Res.over_panic (u : Option Span) : (Res.panic : Res α).over u = .panic := rfl
@[simp] theorem Res.over_oof (u : Option Span) : (Res.oof : Res α).over u = .oof := rfl
theorem Res.over_map (u : Option Span) (r : Res α) (f : α → β) : (r.map f).over u = (r.over u).map f := by cases r <;> rfl
theorem Res.over_mapErr (u : Option Span) (r : Res α) (f : Err → Err) : (r.mapErr f).over u = (r.over u).mapErr f := by cases r <;> rfl
theorem Res.over_bind (u : Option Span) (r : Res α) (k : α → PState → Res β) (h : ∀ a s, k a (s.over u) = (k a s).over u) :
    (r.bind k).over u = (r.over u).bind k := by
  cases r with
  | ok a s => exact (h a s).symm
  | _ => rfl
end

@[simp] theorem PState.over_cur (u : Option Span) (s : PState) : (s.over u).cur = s.cur := rfl
@[simp] theorem PState.over_scope (u : Option Span) (s : PState) : (s.over u).scope = s.scope := rfl
@[simp] theorem PState.over_fork (u : Option Span) (s : PState) : (s.over u).fork = s.fork := rfl
@[simp] theorem PState.over_isEmpty (u : Option Span) (s : PState) : (s.over u).isEmpty = s.isEmpty := rfl
@[simp] theorem PState.over_error (u : Option Span) (s : PState) (m : Text) : (s.over u).error m = s.error m := rfl
@[simp] theorem PState.over_headSpan (u : Option Span) (s : PState) : (s.over u).headSpan = s.headSpan := rfl
theorem PState.over_advanceTo (u : Option Span) (s f : PState) : (s.over u).advanceTo f = (s.advanceTo f).over u := by
  cases u <;> rfl
theorem PState.over_dropUnexp (u : Option Span) (s : PState) : (s.over u).dropUnexp = u.orElse fun _ => s.dropUnexp := by
  cases u <;> rfl

theorem parseAnyIdent_over (u : Option Span) (s : PState) : parseAnyIdent (s.over u) = (parseAnyIdent s).over u := by
  simp only [parseAnyIdent, PState.over_cur, PState.over_error]; split <;> rfl

theorem synLit_over (u : Option Span) (s : PState) : synLitParse (s.over u) = (synLitParse s).over u := by
  simp only [synLitParse, PState.over_cur, PState.over_error]
  split
  · split <;> rfl
  · split
    · rfl
    · split <;> rfl
  · split
    · split
      · rfl
      · split <;> rfl
    · rfl
  · rfl

theorem synKind_over {α : Type} (m : Text) (pick : SynTok → Option α) (u : Option Span) (s : PState) :
    synKindParse m pick (s.over u) = (synKindParse m pick s).over u := by
  simp only [synKindParse, PState.over_error, synLit_over]
  cases synLitParse s with
  | ok a s' => obtain ⟨l, sp⟩ := a; simp only [Res.over_ok]; cases pick l <;> rfl
  | _ => rfl

theorem andThen_over {α β : Type} (u : Option Span) (r : Res (α × Span)) (f : α → Span → Except Err β) :
    (r.andThen f).over u = (r.over u).andThen f := by
  unfold Res.andThen
  refine Res.over_bind u r _ fun a s => ?_
  cases f a.1 a.2 <;> rfl

variable [Ext]

theorem litKind_over (k : LitKind) (u : Option Span) (s : PState) : litKindParse k (s.over u) = (litKindParse k s).over u := by
  cases k <;>
    simp only [litKindParse, litBoolParse, litByteParse, litIntParse, litUintParse, litFloatParse, litCharParse, litStrParse, litByteStrParse,
      litParse, synIntParse, Res.over_map, andThen_over, synKind_over, synLit_over]

theorem leaf_over (l : Leaf) (u : Option Span) (s : PState) : leafParse l (s.over u) = (leafParse l s).over u := by
  cases l with
  | empty => rfl
  | eof =>
    simp only [leafParse, eofParse]
    by_cases h : s.isEmpty = true
    · rw [if_pos h, if_pos (show (s.over u).isEmpty = true from h)]; rfl
    · rw [if_neg h, if_neg (show ¬ (s.over u).isEmpty = true from h)]; rfl
  | notEof =>
    simp only [leafParse, notEofParse]
    by_cases h : s.isEmpty = true
    · rw [if_pos h, if_pos (show (s.over u).isEmpty = true from h)]; rfl
    · rw [if_neg h, if_neg (show ¬ (s.over u).isEmpty = true from h)]; rfl
  | customIdent kws =>
    simp only [leafParse, customIdentParse, Res.over_map, parseAnyIdent_over]
    rw [Res.over_bind]
    intro a s
    cases customIdentTryFrom kws a <;> rfl
  | rustIdent =>
    simp only [leafParse, parseRustIdent, Res.over_map, PState.over_cur, PState.over_error]
    split
    · split <;> rfl
    · rfl
  | keyword kw =>
    simp only [leafParse, keywordParse, Res.over_map, parseAnyIdent_over]
    rw [Res.over_bind]
    intro a s
    split <;> rfl
  | kwToken kw =>
    simp only [leafParse, parseKwToken, Res.over_map, PState.over_cur, PState.over_error]
    split
    · split <;> rfl
    · rfl
  | punct tok =>
    simp only [leafParse, parsePunct, punctErrSpan, Res.over_map, PState.over_cur, PState.over_headSpan]
    split <;> rfl
  | lit k => simp only [leafParse, Res.over_map, litKind_over]

omit [Ext] in
theorem delimited_over {α : Type} {p : Parser α} (hp : ∀ u s, p (s.over u) = (p s).over u) (d : Delim) (u : Option Span) (s : PState) :
    delimited d p (s.over u) = (delimited d p s).over u := by
  simp only [delimited, PState.over_cur, PState.over_error]
  split
  · rename_i d' inner sp rest hu
    split
    · have : ({ cur := inner, scope := sp.closeOf, unexp := (s.over u).unexp } : PState) =
          (({ cur := inner, scope := sp.closeOf, unexp := s.unexp } : PState)).over u := rfl
      rw [this, hp]
      cases p _ with
      | ok v s' =>
        simp only [Res.over_ok, Res.bind_okc, PState.over_scope, PState.over_dropUnexp]
        rfl
      | _ => rfl
    · rfl
  · rfl

theorem termN_over {pa pb : Parser (List Val)} (ha : ∀ u s, pa (s.over u) = (pa s).over u) (hb : ∀ u s, pb (s.over u) = (pb s).over u) :
    ∀ k u s, termN pa pb k (s.over u) = (termN pa pb k s).over u
  | 0, _, _ => rfl
  | k + 1, u, s => by
    simp only [termN]
    by_cases h : s.isEmpty = true
    · rw [if_pos h, if_pos (show (s.over u).isEmpty = true from h)]; rfl
    · rw [if_neg h, if_neg (show ¬ (s.over u).isEmpty = true from h)]
      rw [ha, Res.over_bind]
      intro vs s1
      by_cases h1 : s1.isEmpty = true
      · rw [if_pos h1, if_pos (show (s1.over u).isEmpty = true from h1)]; rfl
      · rw [if_neg h1, if_neg (show ¬ (s1.over u).isEmpty = true from h1)]
        rw [hb, Res.over_bind]
        intro ws s2
        rw [termN_over ha hb k, Res.over_map]

theorem starN_over {pa pb : Parser (List Val)} (hb : ∀ u s, pb (s.over u) = (pb s).over u) :
    ∀ k u s, starN pa pb k (s.over u) = (starN pa pb k s).over u
  | 0, _, _ => rfl
  | k + 1, u, s => by
    simp only [starN, PState.over_fork]
    cases pa s.fork with
    | ok vs f =>
      simp only [PState.over_advanceTo]
      rw [hb, Res.over_bind]
      intro ws s2
      rw [starN_over hb k, Res.over_map]
    | _ => rfl

theorem exec_over {P : Ty → Parser Val} (hP : ∀ t u s, P t (s.over u) = (P t s).over u) (k : Nat) :
    ∀ (e : E) (u : Option Span) (s : PState), exec P k e (s.over u) = (exec P k e s).over u := by
  intro e
  induction e with
  | ret => intro u s; rfl
  | leaf l => intro u s; simp only [exec, Res.over_map, leaf_over]
  | ty t => intro u s; simp only [exec, Res.over_map, hP]
  | delim d t => intro u s; simp only [exec, Res.over_map, delimited_over (hP t)]
  | fail msg => intro u s; rfl
  | seq a b iha ihb =>
    intro u s
    simp only [exec, iha]
    rw [Res.over_bind]
    intro vs s1
    rw [ihb, Res.over_map]
  | label en c f a iha => intro u s; simp only [exec, Res.over_mapErr, iha]
  | attempt a iha =>
    intro u s
    simp only [exec, PState.over_fork]
    cases exec P k a s.fork with
    | ok vs f => simp only [PState.over_advanceTo, Res.over_ok]
    | _ => rfl
  | opt a b iha ihb =>
    intro u s
    simp only [exec, PState.over_fork]
    cases exec P k a s.fork with
    | ok vs f => simp only [PState.over_advanceTo, ihb, Res.over_map]
    | _ => rfl
  | alt a b iha ihb =>
    intro u s
    simp only [exec, PState.over_fork, iha]
    cases exec P k a s with
    | ok vs f => rfl
    | err e =>
      simp only [Res.over_err]
      cases exec P k b s.fork with
      | ok vs f => simp only [PState.over_advanceTo, Res.over_ok]
      | _ => rfl
    | _ => rfl
  | term a b iha ihb => intro u s; exact termN_over iha ihb k u s
  | star a b iha ihb => intro u s; exact starN_over ihb k u s
  | build bu a iha => intro u s; simp only [exec, iha, Res.over_map]

theorem single_inj {r r' : Res Val} (h : (r.map fun v => [v]) = (r'.map fun v => [v])) : r = r' := by
  cases r <;> cases r' <;> simp_all

theorem parse_over (env : Env) : ∀ (n : Nat) (t : Ty) (u : Option Span) (s : PState), parse env n t (s.over u) = (parse env n t s).over u
  | 0, _, _, _ => rfl
  | n + 1, t, u, s => by
    apply single_inj
    rw [← Res.over_map, parse_core, parse_core]
    exact exec_over (fun t u s => parse_over env n t u s) n _ u s

end Parsel
