import Verif.Proofs.Where
import Verif.Proofs.Origin
import Verif.Proofs.Steps
import Verif.Spec.Furthest

/-! How far variants get. -/

namespace Parsel

open Spec

mutual
theorem placesT_length : ∀ t : TT, (placesT t).length = countT t
  | .group _ ts _ => by simp [placesT, countT, places_length ts]
  | .ident _ _ => rfl
  | .punct _ _ _ => rfl
  | .lit _ _ => rfl
theorem places_length : ∀ ts : List TT, (places ts).length = count ts
  | [] => rfl
  | t :: ts => by simp [places, count, placesT_length t, places_length ts]
end

theorem places_append : ∀ a b : List TT, places (a ++ b) = places a ++ places b
  | [], b => rfl
  | t :: ts, b => by simp [places, places_append ts b]

theorem Spec.InOrder.tail {t : TT} {ts : List TT} (h : InOrder (t :: ts)) : InOrder ts := by
  unfold InOrder at h ⊢
  rw [places, List.pairwise_append] at h
  exact h.2.1

theorem Spec.InOrder.inner {d : Delim} {inner rest : List TT} {sp : Span} (h : InOrder (.group d inner sp :: rest)) :
    InOrder inner ∧ ∀ p ∈ places inner, p.lt sp.closeOf.stop = true := by
  unfold InOrder at h ⊢
  rw [places, placesT, List.pairwise_append, List.pairwise_cons, List.pairwise_append] at h
  exact ⟨h.1.2.1, fun p hp => h.1.2.2.2 p hp _ (by simp)⟩

/-- The failure after `n` tokens is located at the `n`-th place. -/
theorem passed_place {ts ts' : List TT} {sc sc' sp : Span} {n k : Nat} (h : Passed ts sc n ts' sc') : InOrder ts → Looked ts' sc' k sp →
    (places ts ++ [sc.stop])[n + k]? = some sp.stop := by
  induction h with
  | @here ts scope =>
    intro ho hl
    cases hl with
    | stop => rfl
    | @token t ts =>
      cases t with
      | group d inner sp => simp [places, placesT, TT.errSpan]
      | ident => simp [places, placesT, TT.errSpan, TT.span]
      | punct => simp [places, placesT, TT.errSpan, TT.span]
      | lit => simp [places, placesT, TT.errSpan, TT.span]
    | @number spc sp1 r sp2 ts =>
      have : sp1.stop.lt sp2.stop = true := by
        unfold InOrder at ho
        simp only [places, placesT, List.cons_append, List.nil_append, List.pairwise_cons] at ho
        exact ho.1 _ (by simp)
      simp [places, placesT, Span.join, this]
  | @over t rest scope n ts' scope' _ ih =>
    intro ho hl
    rw [places, List.append_assoc, List.getElem?_append_right (by rw [placesT_length]; omega), placesT_length]
    have := ih ho.tail hl
    rw [show countT t + n + k - countT t = n + k by omega]
    exact this
  | @into d inner sp rest scope n ts' scope' _ ih =>
    intro ho hl
    have h1 := ih ho.inner.1 hl
    have hlt : n + k < (places inner ++ [sp.closeOf.stop]).length := by
      rw [List.getElem?_eq_some_iff] at h1
      exact h1.1
    rw [places, placesT, show n + 1 + k = (n + k) + 1 by omega, List.cons_append, List.cons_append, List.getElem?_cons_succ,
      List.append_assoc, List.getElem?_append_left hlt]
    exact h1

theorem reach_passed {ts ts' : List TT} {sc sc' : Span} (h : Reach ts sc ts' sc') : Visible ts → Visible ts' ∧ ∃ n, Passed ts sc n ts' sc' := by
  induction h with
  | refl => intro hv; exact ⟨hv, 0, .here⟩
  | next hn _ ih =>
    intro hv
    have e := next_visible hv hn
    subst e
    obtain ⟨h1, n, h2⟩ := ih hv.tail
    exact ⟨h1, _, .over h2⟩
  | enter hn _ ih =>
    intro hv
    have e := next_visible hv hn
    subst e
    obtain ⟨h1, n, h2⟩ := ih hv.inner
    exact ⟨h1, _, .into h2⟩

theorem looked_of_locAt {ts : List TT} {sc sp : Span} (hv : Visible ts) (h : LocAt ts sc sp) : ∃ k, Looked ts sc k sp := by
  cases h with
  | stop => exact ⟨0, .stop⟩
  | head => exact ⟨0, .token⟩
  | token hn hg =>
    rename_i t rest
    have e := next_visible hv hn
    subst e
    refine ⟨0, ?_⟩
    cases t with
    | group d i s => exact absurd rfl (hg d i s)
    | ident => exact .token
    | punct => exact .token
    | lit => exact .token
  | number h1 h2 =>
    have e := next_visible hv h1
    subst e
    have e := next_visible hv.tail h2
    subst e
    exact ⟨1, .number⟩

variable [Ext]

theorem seqErr_origin {env : Env} {n : Nat} {ts : List Ty} {s : PState} {i : Nat} {e : Err} (h : SeqErr (parse env n) ts s i e) :
    ∃ t path u s0 e0, ts[i]? = some t ∧ Path env t path u ∧ Reach s.cur s.scope s0.cur s0.scope ∧ Basic env u s0 e0 ∧
      e = ⟨e0.span, renderPath path e0.msg⟩ := by
  induction h with
  | here h =>
    obtain ⟨path, u, s0, e0, h1, h2, h3, h4⟩ := parse_origin env n _ _ _ h
    exact ⟨_, path, u, s0, e0, rfl, h1, h2, h3, h4⟩
  | there h _ ih =>
    obtain ⟨t, path, u, s0, e0, h1, h2, h3, h4, h5⟩ := ih
    have hr := (parse_moves_true env n _ _ _ _ h).reach
    exact ⟨t, path, u, s0, e0, by simpa using h1, h2, hr.trans h3, h4, h5⟩

theorem variant_gotTo {env : Env} {x : Text} {s : PState} {v : VariantDef Ty} {e : Err} (hv : Visible s.cur) (h : VariantFails env x s v e) :
    ∃ n, GotTo env x s v e n := by
  obtain ⟨n, i, l, e0, h1, h2, rfl⟩ := h
  obtain ⟨t, path, u, s0, e1, h3, h4, h5, h6, rfl⟩ := seqErr_origin h1
  obtain ⟨hv', m, hp⟩ := reach_passed h5 hv
  obtain ⟨k, hk⟩ := looked_of_locAt hv' (basic_loc h6)
  refine ⟨m + k, l, t, path, u, s0, e1, m, k, ?_, h4, hp, h6, hk, rfl, by simp [renderPath]⟩
  unfold labelled
  rw [List.mem_iff_getElem?]
  exact ⟨i, by rw [List.getElem?_zip_eq_some]; exact ⟨h2, h3⟩⟩

/-- The count is determined by the location. -/
theorem gotTo_place {env : Env} {x : Text} {s : PState} {v : VariantDef Ty} {e : Err} {n : Nat} (ho : InOrder s.cur) (h : GotTo env x s v e n) :
    (places s.cur ++ [s.scope.stop])[n]? = some e.span.stop := by
  obtain ⟨l, ft, path, u, s0, e0, m, k, _, _, h3, _, h5, rfl, rfl⟩ := h
  exact passed_place h3 ho h5

theorem fails_enum {env : Env} {x : Text} {variants : List (VariantDef Ty)} (hx : env x = .enum variants) (hne : variants ≠ []) {s : PState} {e : Err}
    (h : Fails env (.named x) s e) : ∃ errs, Each (VariantFails env x s) variants errs ∧ IsLastFurthest errs e := by
  obtain ⟨n, h⟩ := h
  cases n with
  | zero => cases h
  | succ n =>
    simp only [parse, code_enum hx, Res.map_err, evalParse] at h
    rw [evalVariants_err] at h
    obtain ⟨errs, h1, h2⟩ := h
    have hne' : errs ≠ [] := by rintro rfl; cases h1; exact hne rfl
    obtain ⟨e', h3, h4⟩ := isLastFurthest_foldl_none errs hne'
    rw [h3] at h2
    simp only [Option.getD_some] at h2
    subst h2
    refine ⟨errs, ?_, h4⟩
    clear h3 h4 hne' hne hx
    induction h1 with
    | nil => exact .nil
    | cons h _ ih => exact .cons ⟨n, h⟩ ih

/-! ### lexed streams are in order -/

/-- Between two positions, strictly increasing. -/
def Between (a b : LineCol) (ps : List LineCol) : Prop := ps.Pairwise (fun a b => a.lt b = true) ∧ ∀ p ∈ ps, a.lt p = true ∧ p.le b = true

omit [Ext] in
theorem Between.append {a b c : LineCol} {ps qs : List LineCol} (h1 : Between a b ps) (h2 : Between b c qs) (hab : a.le b = true) (hbc : b.le c = true) :
    Between a c (ps ++ qs) := by
  refine ⟨List.pairwise_append.mpr ⟨h1.1, h2.1, fun p hp q hq => LineCol.lt_of_le_of_lt (h1.2 p hp).2 (h2.2 q hq).1⟩, ?_⟩
  intro p hp
  rcases List.mem_append.mp hp with hp | hp
  · exact ⟨(h1.2 p hp).1, LineCol.le_trans (h1.2 p hp).2 hbc⟩
  · exact ⟨LineCol.lt_of_le_of_lt hab (h2.2 p hp).1, (h2.2 p hp).2⟩

omit [Ext] in
theorem Between.one {a b : LineCol} (h : a.lt b = true) : Between a b [b] := ⟨by simp, by simpa using ⟨h, LineCol.le_refl b⟩⟩

omit [Ext] in
theorem open_place {pre body : Text} {d : Delim} {o c : Char} (h : Delims d o c) :
    (stretchSpan pre (o :: body ++ [c])).openOf.stop = posAfter (pre ++ [o]) ∧
    (stretchSpan pre (o :: body ++ [c])).closeOf.stop = posAfter (pre ++ (o :: body ++ [c])) := by
  have hne : posAfter pre ≠ posAfter (pre ++ (o :: body ++ [c])) := by
    intro e
    have := posAfter_lt (a := pre) (b := o :: body ++ [c]) (by simp)
    rw [← e, LineCol.lt_irrefl] at this
    cases this
  have ho : o ≠ '\n' := by cases h <;> decide
  refine ⟨?_, rfl⟩
  rw [posAfter_snoc _ _ ho]
  show (if posAfter pre = posAfter (pre ++ (o :: body ++ [c])) then _ else _) = _
  rw [if_neg hne]
  rfl

mutual
theorem spelled_between : ∀ {pre x : Text} {ts : List TT}, Spelled false pre x ts → x ≠ [] → Between (posAfter pre) (posAfter (pre ++ x)) (places ts)
  | _, _, _, .ident, hne => Between.one (posAfter_lt hne)
  | _, _, _, .punct, hne => Between.one (posAfter_lt hne)
  | _, _, _, .lit, hne => Between.one (posAfter_lt hne)
  | pre, _, _, .group (o := o) (c := c) (body := body) (inner := inner) hd hi, hne => by
    have h1 := laid_between hi
    obtain ⟨e1, e2⟩ := open_place (pre := pre) (body := body) hd
    simp only [places, placesT, e1, e2, List.append_nil]
    have a1 : Between (posAfter pre) (posAfter (pre ++ [o])) [posAfter (pre ++ [o])] := Between.one (posAfter_lt (by simp))
    have a2 : Between (posAfter (pre ++ [o] ++ body)) (posAfter (pre ++ (o :: body ++ [c]))) [posAfter (pre ++ (o :: body ++ [c]))] := by
      have e : pre ++ (o :: body ++ [c]) = (pre ++ [o] ++ body) ++ [c] := by simp
      rw [e]
      exact Between.one (posAfter_lt (by simp))
    have l1 : (posAfter pre).le (posAfter (pre ++ [o])) = true := posAfter_le _ _
    have l2 : (posAfter (pre ++ [o])).le (posAfter (pre ++ [o] ++ body)) = true := posAfter_le _ _
    have l3 : (posAfter (pre ++ [o] ++ body)).le (posAfter (pre ++ (o :: body ++ [c]))) = true := by
      have e : pre ++ (o :: body ++ [c]) = (pre ++ [o] ++ body) ++ [c] := by simp
      rw [e]
      exact posAfter_le _ _
    exact a1.append (h1.append a2 l2 l3) l1 (LineCol.le_trans l2 l3)
  | _, _, _, .doc hd _, _ => by cases hd
theorem laid_between : ∀ {pre x : Text} {ts : List TT}, Laid false pre x ts → Between (posAfter pre) (posAfter (pre ++ x)) (places ts)
  | _, _, _, .blank _ => ⟨.nil, by simp [places]⟩
  | pre, _, _, .token (g := g) (x := x) (ts := ts) (rest := rest) (us := us) hg hne hs hr => by
    have h1 := spelled_between hs hne
    have h2 := laid_between hr
    have e : places (ts ++ us) = places ts ++ places us := places_append ts us
    rw [e]
    have l1 : (posAfter (pre ++ g)).le (posAfter (pre ++ g ++ x)) = true := posAfter_le _ _
    have l2 : (posAfter (pre ++ g ++ x)).le (posAfter (pre ++ g ++ x ++ rest)) = true := posAfter_le _ _
    have l0 : (posAfter pre).le (posAfter (pre ++ g)) = true := posAfter_le _ _
    have h3 := h1.append h2 l1 l2
    have e2 : pre ++ (g ++ x ++ rest) = pre ++ g ++ x ++ rest := by simp
    rw [e2]
    exact ⟨h3.1, fun p hp => ⟨LineCol.lt_of_le_of_lt l0 (h3.2 p hp).1, (h3.2 p hp).2⟩⟩
end

end Parsel
