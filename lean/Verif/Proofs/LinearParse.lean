import Verif.Proofs.LinearStep

/-! The calls of `parse`, in the form of `StepS`; the bound on the work. -/

namespace Parsel
open Spec

variable [Ext]

/-- The position after a parse, if it succeeded. -/
def after {α : Type} : Res α → Option (List TT)
  | .ok _ s => some s.cur
  | _ => none

omit [Ext] in
theorem after_map {α β : Type} (f : α → β) (r : Res α) : after (r.map f) = after r := by cases r <;> rfl

/-- The work of a list of calls. -/
def cost (W : Ty → PState → Nat) (l : List Call) : Nat := (l.map fun c => W c.1 c.2).sum

omit [Ext] in
theorem cost_append (W : Ty → PState → Nat) (a b : List Call) : cost W (a ++ b) = cost W a + cost W b := by simp [cost]

omit [Ext] in
theorem cost_one (W : Ty → PState → Nat) (t : Ty) (s : PState) : cost W [(t, s)] = W t s := by simp [cost]

omit [Ext] in
theorem cost_cons (W : Ty → PState → Nat) (t : Ty) (s : PState) (l : List Call) : cost W ((t, s) :: l) = W t s + cost W l := by simp [cost]

omit [Ext] in
theorem cost_nil (W : Ty → PState → Nat) : cost W [] = 0 := rfl

/-- A call. -/
def CallS (P : Ty → Parser Val) (W : Ty → PState → Nat) (t : Ty) (c : List TT) (o : Option (List TT)) (k : Nat) : Prop :=
  ∃ s : PState, s.cur = c ∧ after (P t s) = o ∧ W t s = k

section
variable {P : Ty → Parser Val} {W : Ty → PState → Nat} {n : Nat}

theorem callS (t : Ty) (s : PState) : CallS P W t s.cur (after (P t s)) (W t s) := ⟨s, rfl, rfl, rfl⟩

theorem callS_of {t : Ty} {s : PState} {r : Res Val} (h : P t s = r) : CallS P W t s.cur (after r) (W t s) := ⟨s, rfl, by rw [h], rfl⟩

theorem seqS_inits : ∀ (is : List (FieldInit Ty)) (s : PState),
    SeqS (CallS P W) (is.map (·.ty)) s.cur (after (exec P n (initsE is) s)) (cost W (callsE P n (initsE is) s))
  | [], s => .nil
  | i :: is, s => by
    simp only [List.map_cons, initsE, exec, callsE, cost_append, cost_one]
    cases h : P i.ty s with
    | ok v s1 =>
      simp only [Res.map_okc, Res.mapErr_okc, Res.bind_okc, after_map]
      exact .cons (callS_of h) (seqS_inits is s1)
    | err e =>
      simp only [Res.map_errc, Res.mapErr_errc, Res.bind_errc, cost_nil, Nat.add_zero]
      exact .fail (callS_of h)
    | panic =>
      simp only [Res.map_panicc, Res.mapErr_panicc, Res.bind_panicc, cost_nil, Nat.add_zero]
      exact .fail (callS_of h)
    | oof =>
      simp only [Res.map_oofc, Res.mapErr_oofc, Res.bind_oofc, cost_nil, Nat.add_zero]
      exact .fail (callS_of h)

theorem altsE_done (x : Text) : ∀ (cs : List (CtorCode Ty)) (e : E) (s : PState), (∀ er, exec P n e s ≠ .err er) →
    exec P n (altsE x e cs) s = exec P n e s ∧ callsE P n (altsE x e cs) s = callsE P n e s
  | [], _, _, _ => ⟨rfl, rfl⟩
  | c :: cs, e, s, h => by
    have h1 : exec P n (.alt e (ctorE x c)) s = exec P n e s ∧ callsE P n (.alt e (ctorE x c)) s = callsE P n e s := by
      simp only [exec, callsE]
      cases hr : exec P n e s with
      | err er => exact absurd hr (h er)
      | ok vs s' => exact ⟨rfl, List.append_nil _⟩
      | panic => exact ⟨rfl, List.append_nil _⟩
      | oof => exact ⟨rfl, List.append_nil _⟩
    simp only [altsE]
    have := altsE_done x cs (.alt e (ctorE x c)) s (by rw [h1.1]; exact h)
    rw [this.1, this.2]; exact h1

theorem altS_more (x : Text) : ∀ (cs : List (CtorCode Ty)) (e : E) (s : PState) (er : Err), exec P n e s = .err er →
    ∃ k, AltS (CallS P W) (cs.map fun c => c.inits.map (·.ty)) s.cur (after (exec P n (altsE x e cs) s)) k ∧
      cost W (callsE P n (altsE x e cs) s) = cost W (callsE P n e s) + k
  | [], e, s, er, h => ⟨0, by simp only [altsE, h]; exact .nil, rfl⟩
  | c :: cs, e, s, er, h => by
    have hs := seqS_inits (P := P) (W := W) (n := n) c.inits s.fork
    have hk : cost W (callsE P n (.alt e (ctorE x c)) s) = cost W (callsE P n e s) + cost W (callsE P n (initsE c.inits) s.fork) := by
      simp only [callsE, h, ctorE, cost_append]
    simp only [altsE, List.map_cons]
    cases hc : exec P n (initsE c.inits) s.fork with
    | err e2 =>
      have h2 : ∃ er', exec P n (.alt e (ctorE x c)) s = .err er' := by
        simp only [exec, h, ctorE, hc, Res.map_errc]; exact ⟨_, rfl⟩
      obtain ⟨er', h2⟩ := h2
      obtain ⟨k, h3, h4⟩ := altS_more x cs _ s er' h2
      rw [hc] at hs
      exact ⟨_, .later hs h3, by rw [h4, hk, Nat.add_assoc]⟩
    | ok vs f =>
      have h2 : after (exec P n (.alt e (ctorE x c)) s) = some f.cur ∧ ∀ er', exec P n (.alt e (ctorE x c)) s ≠ .err er' := by
        simp only [exec, h, ctorE, hc, Res.map_okc]; exact ⟨rfl, by intro _ h; cases h⟩
      have h3 := altsE_done x cs _ s h2.2
      rw [hc] at hs
      exact ⟨_, by rw [h3.1, h2.1]; exact .here hs, by rw [h3.2, hk]⟩
    | panic =>
      have h2 : after (exec P n (.alt e (ctorE x c)) s) = none ∧ ∀ er', exec P n (.alt e (ctorE x c)) s ≠ .err er' := by
        simp only [exec, h, ctorE, hc, Res.map_panicc]; exact ⟨rfl, by intro _ h; cases h⟩
      have h3 := altsE_done x cs _ s h2.2
      rw [hc] at hs
      exact ⟨_, by rw [h3.1, h2.1]; exact .here hs, by rw [h3.2, hk]⟩
    | oof =>
      have h2 : after (exec P n (.alt e (ctorE x c)) s) = none ∧ ∀ er', exec P n (.alt e (ctorE x c)) s ≠ .err er' := by
        simp only [exec, h, ctorE, hc, Res.map_oofc]; exact ⟨rfl, by intro _ h; cases h⟩
      have h3 := altsE_done x cs _ s h2.2
      rw [hc] at hs
      exact ⟨_, by rw [h3.1, h2.1]; exact .here hs, by rw [h3.2, hk]⟩

theorem altS_enum (x : Text) : ∀ (cs : List (CtorCode Ty)) (s : PState),
    AltS (CallS P W) (cs.map fun c => c.inits.map (·.ty)) s.cur (after (exec P n (codeE x (.enum cs)) s)) (cost W (callsE P n (codeE x (.enum cs)) s))
  | [], s => .nil
  | c :: cs, s => by
    have hs := seqS_inits (P := P) (W := W) (n := n) c.inits s.fork
    have hk : callsE P n (.attempt (ctorE x c)) s = callsE P n (initsE c.inits) s.fork := rfl
    simp only [codeE, List.map_cons]
    cases hc : exec P n (initsE c.inits) s.fork with
    | err e2 =>
      have h2 : ∃ er', exec P n (.attempt (ctorE x c)) s = .err er' := by
        simp only [exec, ctorE, hc, Res.map_errc]; exact ⟨_, rfl⟩
      obtain ⟨er', h2⟩ := h2
      obtain ⟨k, h3, h4⟩ := altS_more (W := W) x cs _ s er' h2
      rw [hc] at hs
      rw [h4, hk]
      exact .later hs h3
    | ok vs f =>
      have h2 : after (exec P n (.attempt (ctorE x c)) s) = some f.cur ∧ ∀ er', exec P n (.attempt (ctorE x c)) s ≠ .err er' := by
        simp only [exec, ctorE, hc, Res.map_okc]; exact ⟨rfl, by intro _ h; cases h⟩
      have h3 := altsE_done x cs _ s h2.2
      rw [hc] at hs
      rw [h3.1, h2.1, h3.2, hk]; exact .here hs
    | panic =>
      have h2 : after (exec P n (.attempt (ctorE x c)) s) = none ∧ ∀ er', exec P n (.attempt (ctorE x c)) s ≠ .err er' := by
        simp only [exec, ctorE, hc, Res.map_panicc]; exact ⟨rfl, by intro _ h; cases h⟩
      have h3 := altsE_done x cs _ s h2.2
      rw [hc] at hs
      rw [h3.1, h2.1, h3.2, hk]; exact .here hs
    | oof =>
      have h2 : after (exec P n (.attempt (ctorE x c)) s) = none ∧ ∀ er', exec P n (.attempt (ctorE x c)) s ≠ .err er' := by
        simp only [exec, ctorE, hc, Res.map_oofc]; exact ⟨rfl, by intro _ h; cases h⟩
      have h3 := altsE_done x cs _ s h2.2
      rw [hc] at hs
      rw [h3.1, h2.1, h3.2, hk]; exact .here hs

theorem pairS_term (t p : Ty) : ∀ (k : Nat) (s : PState),
    PairS (CallS P W) t p s.cur (after (termN (exec P n (.ty t)) (exec P n (.ty p)) k s))
      (cost W (termC (exec P n (.ty t)) (exec P n (.ty p)) (callsE P n (.ty t)) (callsE P n (.ty p)) k s))
  | 0, s => .out
  | k + 1, s => by
    simp only [termN, termC, exec, callsE]
    by_cases he : s.isEmpty = true
    · rw [if_pos he, if_pos he]; exact .done
    rw [if_neg he, if_neg he, List.singleton_append, cost_cons]
    cases h : P t s with
    | ok v s1 =>
      simp only [Res.map_okc, Res.bind_okc]
      by_cases he1 : s1.isEmpty = true
      · rw [if_pos he1, if_pos he1]
        have h1 := callS_of (W := W) h
        have : s1.cur = [] := (isEmpty_iff _).mp he1
        simp only [after, this] at h1 ⊢
        rw [cost_nil, Nat.add_zero]
        exact .last h1
      rw [if_neg he1, if_neg he1, List.singleton_append, cost_cons]
      cases h' : P p s1 with
      | ok w s2 =>
        simp only [Res.map_okc, Res.bind_okc, after_map]
        have := pairS_term t p k s2
        rw [← Nat.add_assoc]
        exact .more (callS_of h) (callS_of h') this
      | err e =>
        simp only [Res.map_errc, Res.bind_errc, cost_nil, Nat.add_zero]
        exact .fail (callS_of h) (callS_of h')
      | panic =>
        simp only [Res.map_panicc, Res.bind_panicc, cost_nil, Nat.add_zero]
        exact .fail (callS_of h) (callS_of h')
      | oof =>
        simp only [Res.map_oofc, Res.bind_oofc, cost_nil, Nat.add_zero]
        exact .fail (callS_of h) (callS_of h')
    | err e =>
      simp only [Res.map_errc, Res.bind_errc, cost_nil, Nat.add_zero]
      exact .stuck (callS_of h)
    | panic =>
      simp only [Res.map_panicc, Res.bind_panicc, cost_nil, Nat.add_zero]
      exact .stuck (callS_of h)
    | oof =>
      simp only [Res.map_oofc, Res.bind_oofc, cost_nil, Nat.add_zero]
      exact .stuck (callS_of h)

theorem pairS_star (p t : Ty) : ∀ (k : Nat) (s : PState),
    PairS (CallS P W) p t s.cur (after (starN (exec P n (.ty p)) (exec P n (.ty t)) k s))
      (cost W (starC (exec P n (.ty p)) (exec P n (.ty t)) (callsE P n (.ty p)) (callsE P n (.ty t)) k s))
  | 0, s => .out
  | k + 1, s => by
    simp only [starN, starC, exec, callsE]
    rw [List.singleton_append, cost_cons]
    cases h : P p s.fork with
    | ok v f =>
      simp only [Res.map_okc]
      rw [List.singleton_append, cost_cons]
      have hp := callS_of (W := W) h
      cases h' : P t (s.advanceTo f) with
      | ok w s2 =>
        simp only [Res.map_okc, Res.bind_okc, after_map]
        have := pairS_star p t k s2
        rw [← Nat.add_assoc]
        exact .more hp (callS_of h') this
      | err e =>
        simp only [Res.map_errc, Res.bind_errc, cost_nil, Nat.add_zero]
        exact .fail hp (callS_of h')
      | panic =>
        simp only [Res.map_panicc, Res.bind_panicc, cost_nil, Nat.add_zero]
        exact .fail hp (callS_of h')
      | oof =>
        simp only [Res.map_oofc, Res.bind_oofc, cost_nil, Nat.add_zero]
        exact .fail hp (callS_of h')
    | err e =>
      simp only [Res.map_errc, cost_nil, Nat.add_zero]
      exact .stop (callS_of (s := s.fork) h)
    | panic =>
      simp only [Res.map_panicc, cost_nil, Nat.add_zero]
      exact .stuck (callS_of (s := s.fork) h)
    | oof =>
      simp only [Res.map_oofc, cost_nil, Nat.add_zero]
      exact .stuck (callS_of (s := s.fork) h)

theorem itemS_star (t : Ty) : ∀ (k : Nat) (s : PState),
    ItemS (CallS P W) t s.cur (after (starN (exec P n (.ty t)) (exec P n .ret) k s))
      (cost W (starC (exec P n (.ty t)) (exec P n .ret) (callsE P n (.ty t)) (callsE P n .ret) k s))
  | 0, s => .out
  | k + 1, s => by
    simp only [starN, starC, exec, callsE]
    rw [List.singleton_append, cost_cons]
    cases h : P t s.fork with
    | ok v f =>
      simp only [Res.map_okc, Res.bind_okc, after_map, List.nil_append]
      have := itemS_star t k (s.advanceTo f)
      exact .more (callS_of (s := s.fork) h) this
    | err e =>
      simp only [Res.map_errc, cost_nil, Nat.add_zero]
      exact .stop (callS_of (s := s.fork) h)
    | panic =>
      simp only [Res.map_panicc, cost_nil, Nat.add_zero]
      exact .stuck (callS_of (s := s.fork) h)
    | oof =>
      simp only [Res.map_oofc, cost_nil, Nat.add_zero]
      exact .stuck (callS_of (s := s.fork) h)

theorem listS_list (t p : Ty) (s : PState) :
    ListS (CallS P W) t p s.cur (after (exec P n (.seq (.ty t) (.star (.ty p) (.ty t))) s))
      (cost W (callsE P n (.seq (.ty t) (.star (.ty p) (.ty t))) s)) := by
  have hs := fun s1 => pairS_star (P := P) (W := W) (n := n) p t n s1
  simp only [exec, callsE]
  rw [List.singleton_append, cost_cons]
  cases h : P t s with
  | ok v s1 =>
    simp only [Res.map_okc, Res.bind_okc, after_map]
    exact .list (callS_of h) (hs s1)
  | err e =>
    simp only [Res.map_errc, Res.bind_errc, cost_nil, Nat.add_zero]
    exact .head (callS_of h)
  | panic =>
    simp only [Res.map_panicc, Res.bind_panicc, cost_nil, Nat.add_zero]
    exact .head (callS_of h)
  | oof =>
    simp only [Res.map_oofc, Res.bind_oofc, cost_nil, Nat.add_zero]
    exact .head (callS_of h)

theorem stepS_group {env : Env} {g : Ty} {d : Delim} {t : Ty} (hg : GroupTy g d t) (s : PState) :
    StepS (CallS P W) env g s.cur (after (exec P n (.delim d t) s)) (cost W (callsE P n (.delim d t) s) + 1) := by
  simp only [exec, callsE, after_map, delimited, insideCalls]
  cases hu : uncons s.cur with
  | none => exact .groupNo hg
  | some r =>
    obtain ⟨tok, rest⟩ := r
    cases tok with
    | group d' inner sp =>
      simp only
      by_cases hd : d' = d
      · rw [if_pos hd, if_pos hd, cost_one]
        subst hd
        refine .group (o := after (P t ⟨inner, sp.closeOf, s.unexp⟩)) hg ((uncons_iff _ _ _).mp hu) ⟨⟨inner, sp.closeOf, s.unexp⟩, rfl, rfl, rfl⟩ ?_
        intro m hm
        cases hr : P t ⟨inner, sp.closeOf, s.unexp⟩ <;> rw [hr] at hm <;> simp [after] at hm
        exact hm.symm
      · rw [if_neg hd, if_neg hd]
        exact .groupNo hg
    | ident _ _ => exact .groupNo hg
    | punct _ _ _ => exact .groupNo hg
    | lit _ _ => exact .groupNo hg

theorem stepS_exec (env : Env) (t : Ty) (s : PState) :
    StepS (CallS P W) env t s.cur (after (exec P n (body env t) s)) (cost W (callsE P n (body env t) s) + 1) := by
  cases t with
  | leaf l =>
    simp only [body, exec, callsE, after_map, cost_nil]
    cases h : leafParse l s with
    | ok v s' =>
      obtain ⟨rest, h1, h2⟩ := leaf_at.mp h
      subst h2
      exact .leafYes h1
    | err e => exact .leafNo
    | panic => exact .leafNo
    | oof => exact .leafNo
  | named x =>
    simp only [body]
    cases he : env x with
    | struct fields =>
      rw [code_struct he]
      have := seqS_inits (P := P) (W := W) (n := n) (expandFields none x fields).inits s
      rw [inits_ty_map] at this
      refine .struct he ?_
      simp only [codeE, ctorE, exec, callsE, after_map]
      exact this
    | enum vs =>
      rw [code_enum he]
      have := altS_enum (P := P) (W := W) (n := n) x (vs.map fun v => expandFields (some x) v.ident v.fields) s
      refine .enum he ?_
      have e : ((fun c : CtorCode Ty => c.inits.map (·.ty)) ∘ fun v : VariantDef Ty => expandFields (some x) v.ident v.fields)
          = fun v => fieldTypes v.fields := by
        funext v; exact inits_ty_map _ _ _
      rw [List.map_map, e] at this
      exact this
  | boxed t =>
    simp only [body, exec, callsE, after_map, cost_one]
    exact .boxed (callS t s)
  | maybe p t =>
    simp only [body, exec, callsE, after_map]
    rw [List.singleton_append, cost_cons]
    cases h : P p s.fork with
    | ok v f =>
      simp only [Res.map_okc, after_map, cost_one]
      exact .maybeSome (callS_of (s := s.fork) h) (callS t (s.advanceTo f))
    | err e =>
      simp only [Res.map_errc, cost_nil, Nat.add_zero]
      exact .maybeNone (callS_of (s := s.fork) h)
    | panic =>
      simp only [Res.map_panicc, cost_nil, Nat.add_zero]
      exact .maybeStuck (callS_of (s := s.fork) h)
    | oof =>
      simp only [Res.map_oofc, cost_nil, Nat.add_zero]
      exact .maybeStuck (callS_of (s := s.fork) h)
  | paren t => exact stepS_group .paren s
  | bracket t => exact stepS_group .bracket s
  | brace t => exact stepS_group .brace s
  | punctuated t p =>
    have := pairS_term (P := P) (W := W) (n := n) t p n s
    simp only [body, exec, callsE, after_map] at this ⊢
    exact .punctuated this
  | separated t p =>
    have := listS_list (P := P) (W := W) (n := n) t p s
    simp only [body, exec, callsE, after_map] at this ⊢
    exact .separated this
  | any t =>
    have := itemS_star (P := P) (W := W) (n := n) t n s
    simp only [body, exec, callsE, after_map] at this ⊢
    exact .any this
  | leftAssoc q r =>
    have := listS_list (P := P) (W := W) (n := n) r q s
    simp only [body, exec, callsE, after_map] at this ⊢
    exact .leftAssoc this
  | rightAssoc q l =>
    have := listS_list (P := P) (W := W) (n := n) l q s
    simp only [body, exec, callsE, after_map] at this ⊢
    exact .rightAssoc this
  | either l r =>
    refine .either ?_
    simp only [body, exec, callsE, cost_append, cost_one]
    have one : ∀ {x : Ty} {q : PState}, q.cur = s.cur → SeqS (CallS P W) [x] s.cur (after (P x q)) (W x q) := fun {x q} hq => by
      have h1 : CallS P W x s.cur (after (P x q)) (W x q) := ⟨q, hq, rfl, rfl⟩
      cases h : P x q with
      | ok v f => rw [h] at h1; have := SeqS.cons h1 SeqS.nil; rwa [Nat.add_zero] at this
      | err e => rw [h] at h1; exact .fail h1
      | panic => rw [h] at h1; exact .fail h1
      | oof => rw [h] at h1; exact .fail h1
    have hl := one (x := l) (q := s.fork) rfl
    have hr := one (x := r) (q := s.fork) rfl
    cases h : P l s.fork with
    | ok v f => rw [h] at hl; simp only [Res.map_okc, cost_nil, Nat.add_zero]; exact .here hl
    | err e =>
      rw [h] at hl; simp only [Res.map_errc]
      rw [cost_one]
      refine .later hl ?_
      cases h' : P r s.fork with
      | ok v f => rw [h'] at hr; simp only [Res.map_okc]; exact .here hr
      | err e => rw [h'] at hr; simp only [Res.map_errc]; exact .here hr
      | panic => rw [h'] at hr; simp only [Res.map_panicc]; exact .here hr
      | oof => rw [h'] at hr; simp only [Res.map_oofc]; exact .here hr
    | panic => rw [h] at hl; simp only [Res.map_panicc, cost_nil, Nat.add_zero]; exact .here hl
    | oof => rw [h] at hl; simp only [Res.map_oofc, cost_nil, Nat.add_zero]; exact .here hl

end

theorem stepS_parse (env : Env) (n : Nat) (t : Ty) (s : PState) :
    StepS (CallS (parse env n) (work env n)) env t s.cur (after (parse env (n + 1) t s)) (work env (n + 1) t s) := by
  have h := stepS_exec (P := parse env n) (W := work env n) (n := n) env t s
  rw [← parse_core, after_map] at h
  have e : work env (n + 1) t s = cost (work env n) (callsE (parse env n) n (body env t) s) + 1 := by
    simp only [work, calls_core, cost]; omega
  rw [e]
  exact h

/-! ### the bound -/

/-- Work where nothing is read. -/
def linB (A : Nat) : Nat → Nat
  | 0 => 1
  | i + 1 => 1 + A * linB A i

omit [Ext] in
theorem linB_mono (A : Nat) (hA : 1 ≤ A) : ∀ {i j : Nat}, i ≤ j → linB A i ≤ linB A j
  | 0, 0, _ => Nat.le_refl _
  | 0, j + 1, _ => by simp only [linB]; omega
  | i + 1, j + 1, h => by
    have := Nat.mul_le_mul_left A (linB_mono A hA (i := i) (j := j) (by omega))
    simp only [linB]; omega

theorem work_good {env : Env} {G : List Ty} {A N : Nat} (hG : DecisiveGrammar env G) (hA : 3 ≤ A) (hP : ∀ t ∈ G, (Tables.parts env t).length ≤ A)
    (hN : ∀ t ∈ G, ChainsLe (StartsWith env) N t) :
    ∀ (n i : Nat) (t : Ty), t ∈ G → i ≤ N → ChainsLe (StartsWith env) i t → ∀ c o k, CallS (parse env n) (work env n) t c o k →
      Good env ((N + 1) * (1 + (A + 8) * linB A N) + linB A N) (linB A i) ((i + 1) * (1 + (A + 8) * linB A N)) t c o k := by
  intro n
  induction n with
  | zero =>
    rintro i t ht hi hc c o k ⟨s, rfl, rfl, rfl⟩
    refine ⟨fun m h => (by cases h), fun _ m h => (by cases h), fun _ => Nat.zero_le _, fun m h => (by cases h), fun hz => ?_⟩
    have := Nat.le_mul_of_pos_right ((N + 1) * (1 + (A + 8) * linB A N) + linB A N) hz
    simp only [work]; omega
  | succ n ih =>
    rintro i t ht hi hc c o k ⟨s, rfl, rfl, rfl⟩
    have hst := stepS_parse env n t s
    have big : ∀ x, PartOf env x t → ∀ c o k, CallS (parse env n) (work env n) x c o k → Good env ((N + 1) * (1 + (A + 8) * linB A N) + linB A N) (linB A N)
        ((N + 1) * (1 + (A + 8) * linB A N)) x c o k := fun x hx => ih N x (hG.closed t ht x hx) (Nat.le_refl _) (hN x (hG.closed t ht x hx))
    cases i with
    | zero =>
      have h0 : ∀ x, ¬ StartsWith env t x := hc
      have g := step_good (b := 0) (d := 0) (A := A) (Nat.le_refl _) (Nat.zero_le _) hA (hP t ht) big (fun x hx => absurd hx (h0 x)) (hG.decisive t ht)
        (hG.rounds t ht) hst
      simpa only [linB, Nat.mul_zero, Nat.add_zero, Nat.zero_add, Nat.one_mul] using g
    | succ i =>
      have g := step_good (b := linB A i) (d := (i + 1) * (1 + (A + 8) * linB A N)) (A := A) (Nat.le_refl _) (linB_mono A (by omega) (by omega)) hA (hP t ht) big
        (fun x hx => ih i x (hG.closed t ht x (startsWith_partOf hx)) (by omega) (hc x hx)) (hG.decisive t ht) (hG.rounds t ht) hst
      have e : (i + 1 + 1) * (1 + (A + 8) * linB A N) = (i + 1) * (1 + (A + 8) * linB A N) + (1 + (A + 8) * linB A N) := by
        rw [Nat.add_mul (i + 1) 1, Nat.one_mul]
      rw [e]
      exact g

/-- The largest number of parts. -/
theorem exists_bound {α : Type} (f : α → Nat) : ∀ l : List α, ∃ A, 3 ≤ A ∧ ∀ a ∈ l, f a ≤ A
  | [] => ⟨3, Nat.le_refl _, fun _ h => by cases h⟩
  | a :: l => by
    obtain ⟨A, h1, h2⟩ := exists_bound f l
    refine ⟨max A (f a), by omega, fun x hx => ?_⟩
    rcases List.mem_cons.mp hx with rfl | hx
    · omega
    · have := h2 x hx; omega

theorem work_linear {env : Env} {G : List Ty} (hG : DecisiveGrammar env G) :
    ∃ C, ∀ n, ∀ t ∈ G, ∀ s : PState, work env n t s ≤ C * (TT.sizes s.cur + 1) := by
  obtain ⟨A, hA, hP⟩ := exists_bound (fun t => (Tables.parts env t).length) G
  have hN : ∀ t ∈ G, ChainsLe (StartsWith env) (G.length - 1) t := fun t ht =>
    chainsLe_of_closed (fun a ha b hb => hG.closed a ha b (startsWith_partOf hb)) hG.noLeftRecursion ht
  refine ⟨(G.length - 1 + 1) * (1 + (A + 8) * linB A (G.length - 1)) + linB A (G.length - 1), fun n t ht s => ?_⟩
  have g := work_good hG hA hP hN n (G.length - 1) t ht (Nat.le_refl _) (hN t ht) _ _ _ (callS t s)
  have := g.later (by omega)
  rw [Nat.mul_add, Nat.mul_one]
  omega

end Parsel
