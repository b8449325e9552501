import Verif.Proofs.Reparse
import Verif.Proofs.Survive
import Verif.Props.Respell

/-! A value is determined by the tokens it stands for, up to what differs in more than locations; streams that are respelled are accepted alike, in both directions. -/

namespace Parsel
open Spec

section
variable [Ext]

theorem lit_unique {l : LitVal} {sp sp' : Span} {a o k k' : List TT} (hv : Visible a) (hv' : Visible o) (h : LitTokens a l sp) (h' : LitTokens o l sp')
    (e : a ++ k = o ++ k') : a = o ∧ sp = sp' := by
  have hl : a.length = o.length := by
    rcases litTokens_form hv h with ⟨t, rfl, ht⟩ | ⟨c, spc, s, t, rfl⟩ <;> rcases litTokens_form hv' h' with ⟨u, rfl, hu⟩ | ⟨c', spc', s', u, rfl⟩
    · rfl
    · simp only [List.cons_append, List.cons.injEq] at e; exact absurd e.1 (ht _ _ _)
    · simp only [List.cons_append, List.cons.injEq] at e; exact absurd e.1.symm (hu _ _ _)
    · rfl
  have hao := (List.append_inj e hl).1
  subst hao
  refine ⟨rfl, ?_⟩
  rcases litTokens_spans hv h with h1 | ⟨s, t, h1, rfl⟩ <;> rcases litTokens_spans hv' h' with h2 | ⟨s', t', h2, rfl⟩ <;> rw [h1] at h2 <;> simp_all

theorem leaf_unique {l : Leaf} {v w : LeafVal} {a o k k' : List TT} (hv : Visible a) (hv' : Visible o) (hal : LeafAlike v w) (h : LeafReads l v a)
    (h' : LeafReads l w o) (e : a ++ k = o ++ k') : a = o ∧ v = w := by
  cases h with
  | unit => cases hal; cases h'; exact ⟨rfl, rfl⟩
  | ident => cases hal; cases h'; simp_all
  | keyword =>
    cases h' with
    | unit => cases hal
    | keyword => simp_all
    | ident => cases hal
  | kwToken =>
    cases h' with
    | unit => cases hal
    | kwToken => simp_all
    | ident => cases hal
  | lit h =>
    cases hal
    cases h' with
    | lit h' =>
      obtain ⟨rfl, rfl⟩ := lit_unique hv hv' h h' e
      exact ⟨rfl, rfl⟩
  | punct h =>
    cases h' with
    | unit => cases hal
    | ident => cases hal
    | punct h' =>
      have hao := (List.append_inj e (by rw [(punctRun_length h).1, (punctRun_length h').1])).1
      subst hao
      have e1 := (punctRun_spans h).1
      have e2 := (punctRun_spans h').1
      exact ⟨rfl, by rw [← e1, ← e2]⟩

mutual
/-- Values that stand for the same tokens and differ at most in locations are the same. -/
theorem reads_unique : ∀ {v w : Val} {a o k k' : List TT}, Reads false v a → Reads false w o → Visible a → Visible o → Alike v w → a ++ k = o ++ k' →
    a = o ∧ v = w
  | .leaf l v, _, a, o, k, k', h, h', hv, hv', .leaf hal, e => by
    simp only [Reads] at h h'
    obtain ⟨h1, rfl⟩ := leaf_unique hv hv' hal h.2 h'.2 e
    exact ⟨h1, rfl⟩
  | .group dl sp v, _, a, o, k, k', h, h', hv, hv', .group hal, e => by
    simp only [Reads] at h h'
    obtain ⟨x, y, i, rfl, hw, hl⟩ := h
    simp only [Bool.false_eq, Bool.or_eq_false_iff, Bool.not_eq_false', List.isEmpty_iff] at hl
    obtain ⟨rfl, rfl⟩ := hl
    obtain ⟨x', y', i', rfl, hr', hl'⟩ := h'
    simp only [Bool.false_eq, Bool.or_eq_false_iff, Bool.not_eq_false', List.isEmpty_iff] at hl'
    obtain ⟨rfl, rfl⟩ := hl'
    simp only [List.append_nil] at e hv hv' ⊢
    simp only [List.cons_append, List.nil_append, List.cons.injEq, TT.group.injEq, true_and] at e
    obtain ⟨⟨rfl, rfl⟩, _⟩ := e
    obtain ⟨_, rfl⟩ := reads_unique (k := []) (k' := []) hw hr' hv.inner hv'.inner hal rfl
    exact ⟨rfl, rfl⟩
  | .node tag vs, _, a, o, k, k', h, h', hv, hv', .node hal, e => by
    simp only [Reads] at h h'
    obtain ⟨h1, rfl⟩ := readsL_unique h h' hv hv' hal e
    exact ⟨h1, rfl⟩
theorem readsL_unique : ∀ {vs ws : List Val} {a o k k' : List TT}, ReadsL false vs a → ReadsL false ws o → Visible a → Visible o → AlikeL vs ws →
    a ++ k = o ++ k' → a = o ∧ vs = ws
  | [], _, a, o, k, k', h, h', hv, hv', .nil, e => by
    simp only [ReadsL] at h h'
    rw [h.2, h'.2]; exact ⟨rfl, rfl⟩
  | v :: vs, _, a, o, k, k', h, h', hv, hv', .cons hal hals, e => by
    simp only [ReadsL] at h h'
    obtain ⟨x, y, i, j, rfl, h1, h2, hl⟩ := h
    simp only [Bool.false_eq, Bool.or_eq_false_iff] at hl
    obtain ⟨rfl, rfl⟩ := hl
    obtain ⟨x', y', i', j', rfl, h1', h2', hl'⟩ := h'
    simp only [Bool.false_eq, Bool.or_eq_false_iff] at hl'
    obtain ⟨rfl, rfl⟩ := hl'
    rw [List.append_assoc, List.append_assoc] at e
    obtain ⟨rfl, rfl⟩ := reads_unique h1 h1' hv.left hv'.left hal e
    obtain ⟨rfl, rfl⟩ := readsL_unique h2 h2' hv.right hv'.right hals (List.append_cancel_left e)
    exact ⟨rfl, rfl⟩
end

/-- Streams that are respelled are accepted alike: if the second one is, so is the first. -/
theorem accepts_spelled {env : Env} {t : Ty} {ts ts' : List TT} {w : Val} (hs : Respelled (GluedIn env t) ts ts') (h : Accepts env t ts' w) :
    ∃ v, Accepts env t ts v ∧ Alike v w := by
  obtain ⟨n, h⟩ := h
  have hb := parse_respelled (env := env) (t := t) n ⟨ts, .callSite, none⟩ ⟨ts', .callSite, none⟩ ⟨hs, rfl⟩
  simp only [parse2] at h
  generalize hr : parse env n t ⟨ts, .callSite, none⟩ = r at hb
  generalize hr' : parse env n t ⟨ts', .callSite, none⟩ = r' at hb h
  cases hb with
  | @ok a b s s' hv hss =>
    simp only [] at h
    have hu := hss.unexp
    have hc := respelled_head hss.cur
    cases hx : s'.unexp with
    | some sp => rw [hx] at h; simp only [] at h; cases h
    | none =>
      rw [hx] at hu h
      have hy : s.unexp = none := by cases hy : s.unexp <;> simp_all
      simp only [unexpectedSpan] at h
      generalize hcu : uncons s.cur = x at hc
      generalize hcu' : uncons s'.cur = y at hc h
      cases hc with
      | none =>
        simp only [Option.map_none, Top.ok.injEq] at h
        refine ⟨a, ⟨n, ?_⟩, h ▸ hv⟩
        simp only [parse2, hr, hy, unexpectedSpan, hcu, Option.map_none]
      | _ => simp at h
  | err => cases h
  | panic => cases h
  | oof => cases h

/-- From what is printed back to what was written: if the printed form of a value is accepted as this value, so is every stream that the value stands for. -/
theorem accepts_written (laws : FloatLaws) (signs : SignLaws) {env : Env} {t : Ty} {ts out : List TT} {v : Val} (h : Accepts env t out v)
    (ho : v.toTokens = some out) (hr : Reads false v (dissolve ts)) (hord : Ordinary ts) (hz : NoMinusZero ts)
    (hj : SameJoins (GluedIn env t) (dissolve ts) out) : Accepts env t ts v := by
  have hf := fine_of_ordinary hord hz
  have h1 := reads_respelled laws signs v _ _ hr ho hf
  have h2 := respelled_undissolve _ ts out (Nat.lt_succ_self _) hord.nonempty (respelled_of_joins h1 hf.vis hj)
  obtain ⟨w, hw, hal⟩ := accepts_spelled h2 h
  obtain ⟨_, rfl⟩ := reads_unique (k := []) (k' := []) (C14_complete hw) hr (visible_dissolve ts) (visible_dissolve ts) hal rfl
  exact hw

end

end Parsel
