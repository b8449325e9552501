import Verif.Proofs.PegSound
import Verif.Props.Grammar

/-! What the parser does is what the grammar says (Spec/Peg): completeness. -/

namespace Parsel
open Spec

variable [Ext]

variable {env : Env}

/-- The expression `e` yields `vs`. -/
def EOk (env : Env) (e : E) (s : PState) (vs : List Val) (s' : PState) : Prop := ∃ n, exec (parse env n) n e s = .ok vs s'

/-- The expression `e` fails. -/
def EErr (env : Env) (e : E) (s : PState) : Prop := ∃ n er, exec (parse env n) n e s = .err er

theorem exec_raise {e : E} {s : PState} {n m : Nat} (h : n ≤ m) (h1 : exec (parse env n) n e s ≠ .oof) :
    exec (parse env m) m e s = exec (parse env n) n e s := by
  rcases exec_mono (fun t s => parse_mono env n m h t s) h e s with h2 | h2
  · exact absurd h2 h1
  · exact h2.symm

theorem EOk.raise {e : E} {s s' : PState} {vs : List Val} {n m : Nat} (h : n ≤ m) (h1 : exec (parse env n) n e s = .ok vs s') :
    exec (parse env m) m e s = .ok vs s' := (exec_raise h (by rw [h1]; simp)).trans h1

theorem EErr.raise {e : E} {s : PState} {er : Err} {n m : Nat} (h : n ≤ m) (h1 : exec (parse env n) n e s = .err er) :
    exec (parse env m) m e s = .err er := (exec_raise h (by rw [h1]; simp)).trans h1

theorem EOk.ty {t : Ty} {s s' : PState} {v : Val} (h : Parses env t s v s') : EOk env (.ty t) s [v] s' := by
  obtain ⟨n, h⟩ := h; exact ⟨n, by simp [exec, h]⟩

theorem EErr.ty {t : Ty} {s : PState} (h : ∃ e, Fails env t s e) : EErr env (.ty t) s := by
  obtain ⟨e, n, h⟩ := h; exact ⟨n, e, by simp [exec, h]⟩

theorem EOk.parses {t : Ty} {s s' : PState} {v : Val} (h : EOk env (body env t) s [v] s') : Parses env t s v s' := by
  obtain ⟨n, h⟩ := h
  rw [← parse_core] at h
  obtain ⟨a, h1, h2⟩ := Res.map_ok.mp h
  injection h2 with h2
  subst h2
  exact ⟨n + 1, h1⟩

theorem EErr.fails {t : Ty} {s : PState} (h : EErr env (body env t) s) : ∃ e, Fails env t s e := by
  obtain ⟨n, e, h⟩ := h
  rw [← parse_core] at h
  exact ⟨e, n + 1, Res.map_err.mp h⟩

theorem EOk.seq {a b : E} {s s1 s2 : PState} {vs ws : List Val} (h1 : EOk env a s vs s1) (h2 : EOk env b s1 ws s2) :
    EOk env (.seq a b) s (vs ++ ws) s2 := by
  obtain ⟨n, h1⟩ := h1; obtain ⟨m, h2⟩ := h2
  refine ⟨max n m, ?_⟩
  simp only [exec, EOk.raise (Nat.le_max_left n m) h1, EOk.raise (Nat.le_max_right n m) h2, Res.bind_okc, Res.map_okc]

theorem EErr.seq1 {a b : E} {s : PState} (h1 : EErr env a s) : EErr env (.seq a b) s := by
  obtain ⟨n, e, h1⟩ := h1
  exact ⟨n, e, by simp only [exec, h1, Res.bind_errc]⟩

theorem EErr.seq2 {a b : E} {s s1 : PState} {vs : List Val} (h1 : EOk env a s vs s1) (h2 : EErr env b s1) : EErr env (.seq a b) s := by
  obtain ⟨n, h1⟩ := h1; obtain ⟨m, e, h2⟩ := h2
  refine ⟨max n m, e, ?_⟩
  simp only [exec, EOk.raise (Nat.le_max_left n m) h1, EErr.raise (Nat.le_max_right n m) h2, Res.bind_okc, Res.map_errc]

theorem EOk.build {a : E} {bu : Builder} {s s' : PState} {vs : List Val} (h : EOk env a s vs s') : EOk env (.build bu a) s [bu.apply vs] s' := by
  obtain ⟨n, h⟩ := h; exact ⟨n, by simp only [exec, h, Res.map_okc]⟩

theorem EErr.build {a : E} {bu : Builder} {s : PState} (h : EErr env a s) : EErr env (.build bu a) s := by
  obtain ⟨n, e, h⟩ := h; exact ⟨n, e, by simp only [exec, h, Res.map_errc]⟩

theorem EOk.label {a : E} {x y z : Text} {s s' : PState} {vs : List Val} (h : EOk env a s vs s') : EOk env (.label x y z a) s vs s' := by
  obtain ⟨n, h⟩ := h; exact ⟨n, by simp only [exec, h, Res.mapErr_okc]⟩

theorem EErr.label {a : E} {x y z : Text} {s : PState} (h : EErr env a s) : EErr env (.label x y z a) s := by
  obtain ⟨n, e, h⟩ := h; exact ⟨n, _, by simp only [exec, h, Res.mapErr_errc]; rfl⟩

theorem EOk.attempt {a : E} {s f : PState} {vs : List Val} (h : EOk env a s.fork vs f) : EOk env (.attempt a) s vs (s.advanceTo f) := by
  obtain ⟨n, h⟩ := h; exact ⟨n, by simp only [exec, h]⟩

theorem EErr.attempt {a : E} {s : PState} (h : EErr env a s.fork) : EErr env (.attempt a) s := by
  obtain ⟨n, e, h⟩ := h; exact ⟨n, e, by simp only [exec, h]⟩

theorem EOk.optSome {a b : E} {s f s' : PState} {vs ws : List Val} (h1 : EOk env a s.fork vs f) (h2 : EOk env b (s.advanceTo f) ws s') :
    EOk env (.opt a b) s (vs ++ ws) s' := by
  obtain ⟨n, h1⟩ := h1; obtain ⟨m, h2⟩ := h2
  refine ⟨max n m, ?_⟩
  simp only [exec, EOk.raise (Nat.le_max_left n m) h1, EOk.raise (Nat.le_max_right n m) h2, Res.map_okc]

theorem EOk.optNone {a b : E} {s : PState} (h1 : EErr env a s.fork) : EOk env (.opt a b) s [] s := by
  obtain ⟨n, e, h1⟩ := h1; exact ⟨n, by simp only [exec, h1]⟩

theorem EErr.opt {a b : E} {s f : PState} {vs : List Val} (h1 : EOk env a s.fork vs f) (h2 : EErr env b (s.advanceTo f)) :
    EErr env (.opt a b) s := by
  obtain ⟨n, h1⟩ := h1; obtain ⟨m, e, h2⟩ := h2
  refine ⟨max n m, e, ?_⟩
  simp only [exec, EOk.raise (Nat.le_max_left n m) h1, EErr.raise (Nat.le_max_right n m) h2, Res.map_errc]

theorem EOk.alt1 {a b : E} {s s' : PState} {vs : List Val} (h : EOk env a s vs s') : EOk env (.alt a b) s vs s' := by
  obtain ⟨n, h⟩ := h; exact ⟨n, by simp only [exec, h]⟩

theorem EOk.alt2 {a b : E} {s f : PState} {vs : List Val} (h1 : EErr env a s) (h2 : EOk env b s.fork vs f) :
    EOk env (.alt a b) s vs (s.advanceTo f) := by
  obtain ⟨n, e, h1⟩ := h1; obtain ⟨m, h2⟩ := h2
  refine ⟨max n m, ?_⟩
  simp only [exec, EErr.raise (Nat.le_max_left n m) h1, EOk.raise (Nat.le_max_right n m) h2]

theorem EErr.alt {a b : E} {s : PState} (h1 : EErr env a s) (h2 : EErr env b s.fork) : EErr env (.alt a b) s := by
  obtain ⟨n, e, h1⟩ := h1; obtain ⟨m, e', h2⟩ := h2
  refine ⟨max n m, maxByEnd e e', ?_⟩
  simp only [exec, EErr.raise (Nat.le_max_left n m) h1, EErr.raise (Nat.le_max_right n m) h2]

theorem starN_raise {a b : E} {s : PState} {n m : Nat} (h : n ≤ m)
    (h1 : starN (exec (parse env n) n a) (exec (parse env n) n b) n s ≠ .oof) :
    starN (exec (parse env (m + 1)) (m + 1) a) (exec (parse env (m + 1)) (m + 1) b) m s
      = starN (exec (parse env n) n a) (exec (parse env n) n b) n s := by
  have up : ∀ e s, (exec (parse env n) n e s).Le (exec (parse env (m + 1)) (m + 1) e s) :=
    exec_mono (fun t s => parse_mono env n (m + 1) (by omega) t s) (by omega)
  rcases starN_mono (up a) (up b) n m h s with h2 | h2
  · exact absurd h2 h1
  · exact h2.symm

theorem termN_raise {a b : E} {s : PState} {n m : Nat} (h : n ≤ m)
    (h1 : termN (exec (parse env n) n a) (exec (parse env n) n b) n s ≠ .oof) :
    termN (exec (parse env (m + 1)) (m + 1) a) (exec (parse env (m + 1)) (m + 1) b) m s
      = termN (exec (parse env n) n a) (exec (parse env n) n b) n s := by
  have up : ∀ e s, (exec (parse env n) n e s).Le (exec (parse env (m + 1)) (m + 1) e s) :=
    exec_mono (fun t s => parse_mono env n (m + 1) (by omega) t s) (by omega)
  rcases termN_mono (up a) (up b) n m h s with h2 | h2
  · exact absurd h2 h1
  · exact h2.symm

theorem EOk.starDone {a b : E} {s : PState} (h : EErr env a s.fork) : EOk env (.star a b) s [] s := by
  obtain ⟨n, e, h⟩ := h
  refine ⟨n + 1, ?_⟩
  simp only [exec, starN, EErr.raise (Nat.le_succ n) h]

theorem EOk.starMore {a b : E} {s f s1 s' : PState} {vs ws r : List Val} (h1 : EOk env a s.fork vs f) (h2 : EOk env b (s.advanceTo f) ws s1)
    (h3 : EOk env (.star a b) s1 r s') : EOk env (.star a b) s (vs ++ (ws ++ r)) s' := by
  obtain ⟨n, h1⟩ := h1; obtain ⟨m, h2⟩ := h2; obtain ⟨k, h3⟩ := h3
  refine ⟨max n (max m k) + 1, ?_⟩
  simp only [exec, starN, EOk.raise (show n ≤ max n (max m k) + 1 by omega) h1, EOk.raise (show m ≤ max n (max m k) + 1 by omega) h2, Res.bind_okc]
  simp only [exec] at h3
  rw [starN_raise (show k ≤ max n (max m k) by omega) (by rw [h3]; simp), h3]
  rfl

theorem EErr.starHere {a b : E} {s f : PState} {vs : List Val} (h1 : EOk env a s.fork vs f) (h2 : EErr env b (s.advanceTo f)) :
    EErr env (.star a b) s := by
  obtain ⟨n, h1⟩ := h1; obtain ⟨m, e, h2⟩ := h2
  refine ⟨max n m + 1, e, ?_⟩
  simp only [exec, starN, EOk.raise (show n ≤ max n m + 1 by omega) h1, EErr.raise (show m ≤ max n m + 1 by omega) h2, Res.bind_errc]

theorem EErr.starLater {a b : E} {s f s1 : PState} {vs ws : List Val} (h1 : EOk env a s.fork vs f) (h2 : EOk env b (s.advanceTo f) ws s1)
    (h3 : EErr env (.star a b) s1) : EErr env (.star a b) s := by
  obtain ⟨n, h1⟩ := h1; obtain ⟨m, h2⟩ := h2; obtain ⟨k, e, h3⟩ := h3
  refine ⟨max n (max m k) + 1, e, ?_⟩
  simp only [exec, starN, EOk.raise (show n ≤ max n (max m k) + 1 by omega) h1, EOk.raise (show m ≤ max n (max m k) + 1 by omega) h2, Res.bind_okc]
  simp only [exec] at h3
  rw [starN_raise (show k ≤ max n (max m k) by omega) (by rw [h3]; simp), h3]
  rfl

omit [Ext] in
theorem isEmpty_false {s : PState} (h : s.cur ≠ []) : s.isEmpty = false := by
  cases hs : s.isEmpty with
  | false => rfl
  | true => exact absurd ((isEmpty_iff s).mp hs) h

theorem EOk.termDone {a b : E} {s : PState} (h : s.cur = []) : EOk env (.term a b) s [] s := by
  refine ⟨1, ?_⟩
  simp only [exec, termN, (isEmpty_iff s).mpr h, if_true]

theorem EOk.termLast {a b : E} {s s1 : PState} {vs : List Val} (h0 : s.cur ≠ []) (h1 : EOk env a s vs s1) (h2 : s1.cur = []) :
    EOk env (.term a b) s vs s1 := by
  obtain ⟨n, h1⟩ := h1
  refine ⟨n + 1, ?_⟩
  simp only [exec, termN, isEmpty_false h0, EOk.raise (Nat.le_succ n) h1, Res.bind_okc, (isEmpty_iff s1).mpr h2, if_true, Bool.false_eq_true, if_false]

theorem EOk.termMore {a b : E} {s s1 s2 s' : PState} {vs ws r : List Val} (h0 : s.cur ≠ []) (h1 : EOk env a s vs s1) (h2 : s1.cur ≠ [])
    (h3 : EOk env b s1 ws s2) (h4 : EOk env (.term a b) s2 r s') : EOk env (.term a b) s (vs ++ (ws ++ r)) s' := by
  obtain ⟨n, h1⟩ := h1; obtain ⟨m, h3⟩ := h3; obtain ⟨k, h4⟩ := h4
  refine ⟨max n (max m k) + 1, ?_⟩
  simp only [exec, termN, isEmpty_false h0, EOk.raise (show n ≤ max n (max m k) + 1 by omega) h1, isEmpty_false h2,
    EOk.raise (show m ≤ max n (max m k) + 1 by omega) h3, Res.bind_okc, Bool.false_eq_true, if_false]
  simp only [exec] at h4
  rw [termN_raise (show k ≤ max n (max m k) by omega) (by rw [h4]; simp), h4]
  rfl

theorem EErr.termItem {a b : E} {s : PState} (h0 : s.cur ≠ []) (h1 : EErr env a s) : EErr env (.term a b) s := by
  obtain ⟨n, e, h1⟩ := h1
  refine ⟨n + 1, e, ?_⟩
  simp only [exec, termN, isEmpty_false h0, EErr.raise (Nat.le_succ n) h1, Res.bind_errc, Bool.false_eq_true, if_false]

theorem EErr.termSep {a b : E} {s s1 : PState} {vs : List Val} (h0 : s.cur ≠ []) (h1 : EOk env a s vs s1) (h2 : s1.cur ≠ []) (h3 : EErr env b s1) :
    EErr env (.term a b) s := by
  obtain ⟨n, h1⟩ := h1; obtain ⟨m, e, h3⟩ := h3
  refine ⟨max n m + 1, e, ?_⟩
  simp only [exec, termN, isEmpty_false h0, EOk.raise (show n ≤ max n m + 1 by omega) h1, isEmpty_false h2,
    EErr.raise (show m ≤ max n m + 1 by omega) h3, Res.bind_okc, Res.bind_errc, Bool.false_eq_true, if_false]

theorem EErr.termLater {a b : E} {s s1 s2 : PState} {vs ws : List Val} (h0 : s.cur ≠ []) (h1 : EOk env a s vs s1) (h2 : s1.cur ≠ [])
    (h3 : EOk env b s1 ws s2) (h4 : EErr env (.term a b) s2) : EErr env (.term a b) s := by
  obtain ⟨n, h1⟩ := h1; obtain ⟨m, h3⟩ := h3; obtain ⟨k, e, h4⟩ := h4
  refine ⟨max n (max m k) + 1, e, ?_⟩
  simp only [exec, termN, isEmpty_false h0, EOk.raise (show n ≤ max n (max m k) + 1 by omega) h1, isEmpty_false h2,
    EOk.raise (show m ≤ max n (max m k) + 1 by omega) h3, Res.bind_okc, Bool.false_eq_true, if_false]
  simp only [exec] at h4
  rw [termN_raise (show k ≤ max n (max m k) by omega) (by rw [h4]; simp), h4]
  rfl

theorem EOk.ret {s : PState} : EOk env .ret s [] s := ⟨0, rfl⟩

/-! ### variants -/

theorem EOk.alts {x : Text} {cs : List (CtorCode Ty)} : ∀ {e : E} {s s' : PState} {vs : List Val}, EOk env e s vs s' → EOk env (altsE x e cs) s vs s' := by
  induction cs with
  | nil => intro e s s' vs h; exact h
  | cons c cs ih => intro e s s' vs h; exact ih (.alt1 h)

theorem EOk.altsLater {x : Text} {pre post : List (CtorCode Ty)} {c : CtorCode Ty} : ∀ {e : E} {s f : PState} {vs : List Val}, EErr env e s →
    (∀ d ∈ pre, EErr env (ctorE x d) s.fork) → EOk env (ctorE x c) s.fork vs f → EOk env (altsE x e (pre ++ c :: post)) s vs (s.advanceTo f) := by
  induction pre with
  | nil => intro e s f vs h _ hc; exact EOk.alts (cs := post) (e := .alt e (ctorE x c)) (.alt2 h hc)
  | cons d pre ih =>
    intro e s f vs h hp hc
    exact ih (.alt h (hp d (by simp))) (fun u hu => hp u (by simp [hu])) hc

theorem EErr.alts {x : Text} {cs : List (CtorCode Ty)} : ∀ {e : E} {s : PState}, EErr env e s → (∀ d ∈ cs, EErr env (ctorE x d) s.fork) →
    EErr env (altsE x e cs) s := by
  induction cs with
  | nil => intro e s h _; exact h
  | cons c cs ih => intro e s h hp; exact ih (.alt h (hp c (by simp))) (fun u hu => hp u (by simp [hu]))

theorem EOk.code {x : Text} {pre post : List (CtorCode Ty)} {c : CtorCode Ty} {s f : PState} {vs : List Val}
    (hp : ∀ d ∈ pre, EErr env (ctorE x d) s.fork) (hc : EOk env (ctorE x c) s.fork vs f) :
    EOk env (codeE x (.enum (pre ++ c :: post))) s vs (s.advanceTo f) := by
  cases pre with
  | nil => exact EOk.alts (.attempt hc)
  | cons d pre => exact EOk.altsLater (.attempt (hp d (by simp))) (fun u hu => hp u (by simp [hu])) hc

theorem EErr.code {x : Text} {cs : List (CtorCode Ty)} {s : PState} (hp : ∀ d ∈ cs, EErr env (ctorE x d) s.fork) :
    EErr env (codeE x (.enum cs)) s := by
  cases cs with
  | nil => exact ⟨0, _, rfl⟩
  | cons d cs => exact EErr.alts (.attempt (hp d (by simp))) (fun u hu => hp u (by simp [hu]))

/-! ### trees -/

theorem leftTree_eq (acc : Val) (tail : List (Val × Val)) : leftV acc (tail.flatMap fun x => [x.1, x.2]) = leftTree acc tail := by
  induction tail generalizing acc with
  | nil => rfl
  | cons x xs ih => exact ih _

theorem rightTree_eq (v : Val) (tail : List (Val × Val)) : rightV v (tail.flatMap fun x => [x.1, x.2]) = rightTree v tail := by
  induction tail generalizing v with
  | nil => rfl
  | cons x xs ih => simp only [List.flatMap_cons, List.cons_append, List.nil_append, rightV, rightTree, ih]

omit [Ext] in
theorem advance_after (s : PState) (rest : List TT) (left : Option Span) : s.advanceTo (s.fork.after rest left) = s.after rest left := by
  unfold PState.advanceTo PState.after PState.fork
  cases s.unexp <;> simp

/-! ### the main induction -/

/-- What has to be shown for each judgement. -/
abbrev MOk (env : Env) (t : Ty) (ts : List TT) (v : Val) (rest : List TT) (left : Option Span) : Prop :=
  ∀ s : PState, s.cur = ts → Parses env t s v (s.after rest left)

theorem group_complete {g : Ty} {d : Delim} {t : Ty} (hg : GroupTy g d t) : body env g = .delim d t := by
  cases hg <;> rfl

theorem group_ok {g : Ty} {d : Delim} {t : Ty} {s : PState} {inner rest unread : List TT} {sp : Span} {v : Val} {l1 l2 : Option Span}
    (hg : GroupTy g d t) (hn : Next s.cur (.group d inner sp) rest) (h : Parses env t ⟨inner, sp.closeOf, s.unexp⟩ v ⟨unread, sp.closeOf, s.unexp.or l1⟩)
    (hf : FirstUnread unread l2) : Parses env g s (.group d sp v) (s.after rest (l1.or l2)) := by
  obtain ⟨n, h⟩ := h
  apply EOk.parses
  rw [group_complete hg]
  refine ⟨n, ?_⟩
  have : delimited d (parse env n t) s = .ok (sp, v) (s.after rest (l1.or l2)) := by
    rw [delimited_ok]
    exact ⟨inner, rest, _, hn, h, rfl, rfl, (dropUnexp_after hf (u := s.unexp) (l1 := l1) rfl).symm⟩
  simp only [exec, this, Res.map_okc]

theorem noGroup_err {g : Ty} {d : Delim} {t : Ty} {s : PState} (hg : GroupTy g d t) (hn : ∀ inner sp rest, ¬ Next s.cur (.group d inner sp) rest) :
    ∃ e, Fails env g s e := by
  apply EErr.fails
  rw [group_complete hg]
  refine ⟨0, s.error (delimMsg d), ?_⟩
  have : delimited d (parse env 0 t) s = .err (s.error (delimMsg d)) := (delimited_err d _ s _).mpr (.inr ⟨hn, rfl⟩)
  simp only [exec, this, Res.map_errc]

theorem inGroup_err {g : Ty} {d : Delim} {t : Ty} {s : PState} {inner rest : List TT} {sp : Span} (hg : GroupTy g d t)
    (hn : Next s.cur (.group d inner sp) rest) (h : ∃ e, Fails env t ⟨inner, sp.closeOf, s.unexp⟩ e) : ∃ e, Fails env g s e := by
  obtain ⟨e, n, h⟩ := h
  apply EErr.fails
  rw [group_complete hg]
  refine ⟨n, e, ?_⟩
  have : delimited d (parse env n t) s = .err e := (delimited_err d _ s _).mpr (.inl ⟨inner, sp, rest, hn, h⟩)
  simp only [exec, this, Res.map_errc]

/-- Completeness for matches. -/
theorem matches_parses {t : Ty} {ts : List TT} {v : Val} {rest : List TT} {left : Option Span} (h : Matches env t ts v rest left) :
    ∀ s : PState, s.cur = ts → Parses env t s v (s.after rest left) := by
  refine Matches.rec
    (motive_1 := fun t ts v rest left _ => ∀ s : PState, s.cur = ts → Parses env t s v (s.after rest left))
    (motive_2 := fun us ts vs rest left _ => ∀ is : List (FieldInit Ty), is.map (·.ty) = us → ∀ s : PState, s.cur = ts →
      EOk env (initsE is) s vs (s.after rest left))
    (motive_3 := fun t p ts vs rest left _ => ∀ s : PState, s.cur = ts → EOk env (.term (.ty t) (.ty p)) s vs (s.after rest left))
    (motive_4 := fun p t ts tail rest left _ => ∀ s : PState, s.cur = ts →
      EOk env (.star (.ty p) (.ty t)) s (tail.flatMap fun x => [x.1, x.2]) (s.after rest left))
    (motive_5 := fun t ts vs rest left _ => ∀ s : PState, s.cur = ts → EOk env (.star (.ty t) .ret) s vs (s.after rest left))
    (motive_6 := fun t ts _ => ∀ s : PState, s.cur = ts → ∃ e, Fails env t s e)
    (motive_7 := fun us ts _ => ∀ is : List (FieldInit Ty), is.map (·.ty) = us → ∀ s : PState, s.cur = ts → EErr env (initsE is) s)
    (motive_8 := fun t p ts _ => ∀ s : PState, s.cur = ts → EErr env (.term (.ty t) (.ty p)) s)
    (motive_9 := fun p t ts _ => ∀ s : PState, s.cur = ts → EErr env (.star (.ty p) (.ty t)) s)
    ?_ ?_ ?_ ?_ ?_ ?_ ?_ ?_ ?_ ?_ ?_ ?_ ?_ ?_
    ?_ ?_ ?_ ?_ ?_ ?_ ?_ ?_ ?_
    ?_ ?_ ?_ ?_ ?_ ?_ ?_ ?_ ?_ ?_ ?_ ?_ ?_ ?_ ?_
    ?_ ?_ ?_ ?_ ?_ ?_ ?_ h
  -- matches
  · intro l ts v rest h s hs
    subst hs
    refine ⟨1, ?_⟩
    simp only [parse, leaf_at.mpr ⟨_, h, rfl⟩, Res.map_okc, after_cur_eq]
  · intro x fields ts vs rest left hx _ ih s hs
    apply EOk.parses
    simp only [body, code_struct hx, codeE, ctorE]
    have := EOk.build (bu := .node (.ctor x (expandFields none x fields).ctor)) (ih _ (inits_ty_map none x fields) s hs)
    rw [expandFields_ctor] at this ⊢
    exact this
  · intro x before v after ts vs rest left hx _ _ ihb ih s hs
    apply EOk.parses
    simp only [body, code_enum hx, List.map_append, List.map_cons]
    rw [← advance_after]
    refine EOk.code (fun d hd => ?_) ?_
    · obtain ⟨u, hu, rfl⟩ := List.mem_map.mp hd
      exact .build (ihb u hu _ (inits_ty_map _ _ _) s.fork hs)
    · have := EOk.build (bu := .node (.ctor x (expandFields (some x) v.ident v.fields).ctor)) (ih _ (inits_ty_map (some x) v.ident v.fields) s.fork hs)
      unfold ctorE
      rw [expandFields_ctor] at this ⊢
      exact this
  · intro t ts v rest left _ ih s hs
    exact EOk.parses (.ty (ih s hs))
  · intro p t ts a mid l1 b rest l2 _ _ ih1 ih2 s hs
    apply EOk.parses
    refine EOk.build (bu := .node .maybe) (vs := [_, _]) (EOk.optSome (vs := [_]) (ws := [_]) (.ty (ih1 s.fork hs)) ?_)
    rw [advance_after, ← after_after]
    exact .ty (ih2 _ rfl)
  · intro p t ts _ ih s hs
    apply EOk.parses
    rw [← hs, after_none]
    exact EOk.build (bu := .node .maybe) (vs := []) (.optNone (.ty (ih s.fork hs)))
  · intro g d t ts inner sp rest v unread l1 l2 hg hn _ hf ih s hs
    subst hs
    exact group_ok hg hn (ih _ rfl) hf
  · intro t p ts vs rest left _ ih s hs
    exact EOk.parses (EOk.build (bu := .node .punctuated) (ih s hs))
  · intro t p ts v mid l1 tail rest l2 _ _ ih1 ih2 s hs
    apply EOk.parses
    rw [← after_after]
    exact EOk.build (bu := .node .separated) (vs := _ :: _) (EOk.seq (vs := [_]) (.ty (ih1 s hs)) (ih2 _ rfl))
  · intro t ts vs rest left _ ih s hs
    exact EOk.parses (EOk.build (bu := .node .any) (ih s hs))
  · intro o r ts v mid l1 tail rest l2 _ _ ih1 ih2 s hs
    apply EOk.parses
    rw [← after_after, ← leftTree_eq]
    exact EOk.build (bu := .left) (vs := _ :: _) (EOk.seq (vs := [_]) (.ty (ih1 s hs)) (ih2 _ rfl))
  · intro o l ts v mid l1 tail rest l2 _ _ ih1 ih2 s hs
    apply EOk.parses
    rw [← after_after, ← rightTree_eq]
    exact EOk.build (bu := .right) (vs := _ :: _) (EOk.seq (vs := [_]) (.ty (ih1 s hs)) (ih2 _ rfl))
  · intro l r ts v rest left _ ih s hs
    apply EOk.parses
    rw [← advance_after]
    exact .alt1 (.attempt (EOk.build (bu := .node .eitherLeft) (vs := [_]) (.ty (ih s.fork hs))))
  · intro l r ts v rest left _ _ ih1 ih2 s hs
    apply EOk.parses
    rw [← advance_after]
    exact .alt2 (.attempt (.build (.ty (ih1 s.fork hs)))) (EOk.build (bu := .node .eitherRight) (vs := [_]) (.ty (ih2 s.fork hs)))
  -- sequences
  · intro ts is h s hs
    cases is with
    | nil => rw [← hs, after_none]; exact .ret
    | cons _ _ => cases h
  · intro t us ts v mid l1 vs rest l2 _ _ ih1 ih2 is h s hs
    cases is with
    | nil => cases h
    | cons i is =>
      simp only [List.map_cons, List.cons.injEq] at h
      obtain ⟨rfl, h⟩ := h
      rw [← after_after]
      exact EOk.seq (vs := [_]) (.label (.ty (ih1 s hs))) (ih2 is h _ rfl)
  -- to the end
  · intro t p s hs
    rw [← hs, after_none]; exact .termDone hs
  · intro t p ts v left h0 _ ih s hs
    exact .termLast (by rw [hs]; exact h0) (.ty (ih s hs)) rfl
  · intro t p ts v mid l1 q next l2 vs rest l3 h0 _ h2 _ _ ih1 ih2 ih3 s hs
    rw [← after_after, ← after_after]
    exact EOk.termMore (vs := [_]) (ws := [_]) (by rw [hs]; exact h0) (.ty (ih1 s hs)) h2 (.ty (ih2 _ rfl)) (ih3 _ rfl)
  -- pairs
  · intro p t ts _ ih s hs
    rw [← hs, after_none]; exact .starDone (.ty (ih s.fork hs))
  · intro p t ts q mid l1 v next l2 tail rest l3 _ _ _ ih1 ih2 ih3 s hs
    rw [← after_after, ← after_after]
    refine EOk.starMore (vs := [_]) (ws := [_]) (.ty (ih1 s.fork hs)) ?_ (ih3 _ rfl)
    rw [advance_after]
    exact .ty (ih2 _ rfl)
  -- many
  · intro t ts _ ih s hs
    rw [← hs, after_none]; exact .starDone (.ty (ih s.fork hs))
  · intro t ts v mid l1 vs rest l2 _ _ ih1 ih2 s hs
    rw [← after_after]
    refine EOk.starMore (vs := [_]) (ws := []) (.ty (ih1 s.fork hs)) ?_ (ih2 _ rfl)
    rw [advance_after]
    exact .ret
  -- no match
  · intro l ts h s hs
    subst hs
    obtain ⟨e, h⟩ := leaf_not.mpr h
    exact ⟨e, 1, by simp only [parse, h, Res.map_errc]⟩
  · intro x fields ts hx _ ih s hs
    apply EErr.fails
    simp only [body, code_struct hx, codeE, ctorE]
    exact .build (ih _ (inits_ty_map none _ _) s hs)
  · intro x vs ts hx _ ih s hs
    apply EErr.fails
    simp only [body, code_enum hx]
    refine EErr.code (fun d hd => ?_)
    obtain ⟨u, hu, rfl⟩ := List.mem_map.mp hd
    exact .build (ih u hu _ (inits_ty_map _ _ _) s.fork hs)
  · intro t ts _ ih s hs
    exact EErr.fails (.ty (ih s hs))
  · intro p t ts a mid l1 _ _ ih1 ih2 s hs
    apply EErr.fails
    refine .build (.opt (.ty (ih1 s.fork hs)) ?_)
    rw [advance_after]
    exact .ty (ih2 _ rfl)
  · intro g d t ts hg hn s hs
    subst hs; exact noGroup_err hg hn
  · intro g d t ts inner sp rest hg hn _ ih s hs
    subst hs; exact inGroup_err hg hn (ih _ rfl)
  · intro t p ts _ ih s hs
    exact EErr.fails (.build (ih s hs))
  · intro t p ts _ ih s hs
    exact EErr.fails (.build (.seq1 (.ty (ih s hs))))
  · intro t p ts v mid l1 _ _ ih1 ih2 s hs
    exact EErr.fails (.build (.seq2 (.ty (ih1 s hs)) (ih2 _ rfl)))
  · intro t p ts _ ih s hs
    exact EErr.fails (.build (.seq1 (.ty (ih s hs))))
  · intro t p ts v mid l1 _ _ ih1 ih2 s hs
    exact EErr.fails (.build (.seq2 (.ty (ih1 s hs)) (ih2 _ rfl)))
  · intro t p ts _ ih s hs
    exact EErr.fails (.build (.seq1 (.ty (ih s hs))))
  · intro t p ts v mid l1 _ _ ih1 ih2 s hs
    exact EErr.fails (.build (.seq2 (.ty (ih1 s hs)) (ih2 _ rfl)))
  · intro l r ts _ _ ih1 ih2 s hs
    exact EErr.fails (.alt (.attempt (.build (.ty (ih1 s.fork hs)))) (.build (.ty (ih2 s.fork hs))))
  -- no sequence
  · intro t us ts _ ih is h s hs
    cases is with
    | nil => cases h
    | cons i is =>
      simp only [List.map_cons, List.cons.injEq] at h
      obtain ⟨rfl, h⟩ := h
      exact .seq1 (.label (.ty (ih s hs)))
  · intro t us ts v mid l1 _ _ ih1 ih2 is h s hs
    cases is with
    | nil => cases h
    | cons i is =>
      simp only [List.map_cons, List.cons.injEq] at h
      obtain ⟨rfl, h⟩ := h
      exact .seq2 (.label (.ty (ih1 s hs))) (ih2 is h _ rfl)
  -- not to the end
  · intro t p ts h0 _ ih s hs
    exact .termItem (by rw [hs]; exact h0) (.ty (ih s hs))
  · intro t p ts v mid l1 h0 _ h2 _ ih1 ih2 s hs
    exact .termSep (by rw [hs]; exact h0) (.ty (ih1 s hs)) h2 (.ty (ih2 _ rfl))
  · intro t p ts v mid l1 q next l2 h0 _ h2 _ _ ih1 ih2 ih3 s hs
    exact .termLater (by rw [hs]; exact h0) (.ty (ih1 s hs)) h2 (.ty (ih2 _ rfl)) (ih3 _ rfl)
  -- no pairs
  · intro p t ts q mid l1 _ _ ih1 ih2 s hs
    refine .starHere (.ty (ih1 s.fork hs)) ?_
    rw [advance_after]
    exact .ty (ih2 _ rfl)
  · intro p t ts q mid l1 v next l2 _ _ _ ih1 ih2 ih3 s hs
    refine EErr.starLater (ws := [v]) (s1 := (s.after mid l1).after next l2) (.ty (ih1 s.fork hs)) ?_ (ih3 _ rfl)
    rw [advance_after]
    exact .ty (ih2 _ rfl)

/-- Completeness for failures. -/
theorem noMatch_fails {t : Ty} {ts : List TT} (h : NoMatch env t ts) (s : PState) (hs : s.cur = ts) : ∃ e, Fails env t s e := by
  obtain ⟨n, hm⟩ := matches_parses (.maybeNone (t := .leaf .empty) h) { s with unexp := none } hs
  cases n with
  | zero => cases hm
  | succ n =>
    simp only [parse] at hm
    obtain ⟨⟨m⟩, h1, h2⟩ := Res.map_ok.mp hm
    rcases (C16_maybe_ok _ _ _ _ _).mp h1 with ⟨e, h3, _, _⟩ | ⟨a, f, b, _, _, h5⟩
    · have h4 : Fails env t ⟨s.cur, s.scope, none⟩ e := ⟨n, h3⟩
      exact ⟨e, (C57_record_irrelevant none s.unexp).2 e h4⟩
    · simp only at h5
      subst h5
      cases h2

end Parsel
