import Verif.Proofs.Blind
import Verif.Props.Grammar

/-! C31: source locations never influence what is parsed. -/

namespace Parsel
open Spec

section
variable [Ext]

/-- **C31** (success). If a production parses, it parses every stream that differs only in locations, into a value that differs only in locations,
and leaves the corresponding tokens. -/
theorem C31_parses {env : Env} {t : Ty} {s s' s1 : PState} {v : Val} (hs : SameShape s.cur s'.cur) (h : Parses env t s v s1) :
    ∃ w s2, Parses env t s' w s2 ∧ Alike v w ∧ SameShape s1.cur s2.cur := by
  obtain ⟨s3, ⟨n, h3⟩, hc, _⟩ := (C57_record_irrelevant (cur := s.cur) (scope := s.scope) s.unexp s'.unexp).1 v s1 h
  have hb := parse_blind env n t ⟨s.cur, s.scope, s'.unexp⟩ s' ⟨hs, rfl⟩
  rw [h3] at hb
  generalize hr : parse env n t s' = r at hb
  cases hb with
  | ok hv hs2 => exact ⟨_, _, ⟨n, hr⟩, hv, hc ▸ hs2.cur⟩

/-- **C31** (failure). If a production fails, it fails on every stream that differs only in locations. -/
theorem C31_fails {env : Env} {t : Ty} {s s' : PState} {e : Err} (hs : SameShape s.cur s'.cur) (h : Fails env t s e) :
    ∃ e', Fails env t s' e' := by
  obtain ⟨n, h3⟩ := (C57_record_irrelevant (cur := s.cur) (scope := s.scope) s.unexp s'.unexp).2 e h
  have hb := parse_blind env n t ⟨s.cur, s.scope, s'.unexp⟩ s' ⟨hs, rfl⟩
  rw [h3] at hb
  generalize hr : parse env n t s' = r at hb
  cases hb with
  | err => exact ⟨_, n, hr⟩

/-- **C31** for whole streams: both are accepted, with values that differ only in locations, ... -/
theorem C31_accepts {env : Env} {t : Ty} {ts ts' : List TT} {v : Val} (hs : SameShape ts ts') (h : Accepts env t ts v) :
    ∃ w, Accepts env t ts' w ∧ Alike v w := by
  obtain ⟨n, h⟩ := h
  have hb := parse_blind env n t ⟨ts, .callSite, none⟩ ⟨ts', .callSite, none⟩ ⟨hs, rfl⟩
  simp only [parse2] at h
  generalize hr : parse env n t ⟨ts, .callSite, none⟩ = r at hb h
  generalize hr' : parse env n t ⟨ts', .callSite, none⟩ = r' at hb
  cases hb with
  | @ok a b s s' hv hss =>
    simp only [] at h
    have hu := hss.unexp
    have hc := same_uncons hss.cur
    cases hx : s.unexp with
    | some sp => rw [hx] at h; simp only [] at h; cases h
    | none =>
      rw [hx] at hu h
      have hy : s'.unexp = none := by cases hy : s'.unexp <;> simp_all
      simp only [unexpectedSpan] at h
      generalize hcu : uncons s.cur = x at hc h
      generalize hcu' : uncons s'.cur = y at hc
      cases hc with
      | none =>
        simp only [Option.map_none, Top.ok.injEq] at h
        subst h
        exact ⟨b, ⟨n, by simp only [parse2, hr', hy, unexpectedSpan, hcu', Option.map_none]⟩, hv⟩
      | ident _ => cases h
      | punct _ => cases h
      | lit _ => cases h
      | group _ _ => cases h
  | err => cases h
  | panic => cases h
  | oof => cases h

/-- ... or both are rejected. -/
theorem C31_rejects {env : Env} {t : Ty} {ts ts' : List TT} {e : Err} (hs : SameShape ts ts') (h : Rejects env t ts e) :
    ∃ e', Rejects env t ts' e' := by
  obtain ⟨n, h⟩ := h
  have hb := parse_blind env n t ⟨ts, .callSite, none⟩ ⟨ts', .callSite, none⟩ ⟨hs, rfl⟩
  cases h2 : parse2 (parse env n t) ts' with
  | err e' => exact ⟨e', n, h2⟩
  | ok w =>
    obtain ⟨v, ⟨m, hm⟩, _⟩ := C31_accepts hs.symm ⟨n, h2⟩
    exfalso
    have hne : parse env m t ⟨ts, .callSite, none⟩ ≠ .oof := by intro h0; simp [parse2, h0] at hm
    have hne' : parse env n t ⟨ts, .callSite, none⟩ ≠ .oof := by intro h0; simp [parse2, h0] at h
    have : parse2 (parse env m t) ts = parse2 (parse env n t) ts := by simp only [parse2, parse_unique hne hne']
    rw [this, h] at hm
    cases hm
  | panic =>
    exfalso
    simp only [parse2] at h h2
    generalize parse env n t ⟨ts, .callSite, none⟩ = r at hb h
    generalize parse env n t ⟨ts', .callSite, none⟩ = r' at hb h2
    cases hb with
    | ok => simp only [] at h2; split at h2
            · cases h2
            · split at h2 <;> cases h2
    | err => cases h2
    | panic => cases h
    | oof => cases h
  | oof =>
    exfalso
    simp only [parse2] at h h2
    generalize parse env n t ⟨ts, .callSite, none⟩ = r at hb h
    generalize parse env n t ⟨ts', .callSite, none⟩ = r' at hb h2
    cases hb with
    | ok => simp only [] at h2; split at h2
            · cases h2
            · split at h2 <;> cases h2
    | err => cases h2
    | panic => cases h
    | oof => cases h

end

section
attribute [local instance] toyExt
/-- Two streams that differ only in locations, and their values. -/
example : ∃ w, Accepts demoEnv (.named "Expr".toList) [.group .paren [.lit "7".toList spA] spA] w ∧
    Alike (.node (.ctor "Expr".toList "Group".toList) [.group .paren (spAt 0 3)
      (.node .leftRhs [.node (.ctor "Expr".toList "Num".toList) [.leaf (.lit .uint) (.lit (.uint 7) (spAt 1 2))]])]) w :=
  C31_accepts (.group (.lit .nil) .nil) (ts := [.group .paren [.lit "7".toList (spAt 1 2)] (spAt 0 3)]) ⟨20, rfl⟩
example : ∃ e, Rejects demoEnv (.named "Expr".toList) [.group .paren [.lit "7".toList spA, .lit "8".toList spA] spA] e :=
  C31_rejects (.group (.lit (.lit .nil)) .nil) demoLeft_rejected
end

end Parsel
