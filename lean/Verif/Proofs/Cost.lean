import Verif.Proofs.Work
import Verif.Proofs.PrintAs

/-! Rules to find out the outcome and the work of a parse. -/

namespace Parsel
open Spec

variable [Ext]

/-- `r` is success with the given value and position, or (`none`) failure. -/
def Res.Is {α : Type} (r : Res α) : Option (α × PState) → Prop
  | some (v, s) => r = .ok v s
  | none => ∃ e, r = .err e

/-- The work of a list of calls. -/
def workL (env : Env) (n : Nat) (cs : List Call) : Nat := (cs.map fun c => work env n c.1 c.2).sum

theorem workL_cons (env : Env) (n : Nat) (c : Call) (cs : List Call) : workL env n (c :: cs) = work env n c.1 c.2 + workL env n cs := by
  simp [workL]

theorem workL_nil (env : Env) (n : Nat) : workL env n [] = 0 := rfl

theorem workL_append (env : Env) (n : Nat) (a b : List Call) : workL env n (a ++ b) = workL env n a + workL env n b := by
  simp [workL]

/-- Outcome and work. -/
def Done (env : Env) (t : Ty) (s : PState) (o : Option (Val × PState)) (k : Nat) : Prop :=
  Eventually fun n => (parse env n t s).Is o ∧ work env n t s = k

/-- Outcome and work of fields. -/
def SeqDone (env : Env) (ts : List Ty) (s : PState) (o : Option (List Val × PState)) (k : Nat) : Prop :=
  Eventually fun n => (∀ is : List (FieldInit Ty), is.map (·.ty) = ts → (exec (parse env n) n (initsE is) s).Is o) ∧
    workL env n (seqCalls (parse env n) ts s) = k

/-- Outcome and work of rounds. -/
def PairDone (env : Env) (p t : Ty) (s : PState) (o : Option (List Val × PState)) (k : Nat) : Prop :=
  ∃ m0, Eventually fun n => ∀ m, m0 ≤ m → (starN (exec (parse env n) n (.ty p)) (exec (parse env n) n (.ty t)) m s).Is o ∧
    workL env n (pairCalls (parse env n) p t m s) = k

theorem Done.works {env : Env} {t : Ty} {s : PState} {o : Option (Val × PState)} {k : Nat} (h : Done env t s o k) : Works env t s k := by
  obtain ⟨N, h⟩ := h
  obtain ⟨h1, h2⟩ := h N (Nat.le_refl _)
  refine ⟨N, ?_, h2⟩
  rcases o with _ | ⟨v, s'⟩
  · obtain ⟨e, he⟩ := h1; rw [he]; simp
  · rw [show parse env N t s = _ from h1]; simp

theorem Done.leaf {env : Env} {l : Leaf} {s : PState} {o : Option (LeafVal × PState)} (h : (leafParse l s).Is o) :
    Done env (.leaf l) s (o.map fun x => (.leaf l x.1, x.2)) 1 := by
  refine .always fun n => ⟨?_, rfl⟩
  simp only [parse]
  rcases o with _ | ⟨v, s'⟩
  · obtain ⟨e, he⟩ := h; rw [he]; exact ⟨e, rfl⟩
  · rw [show leafParse l s = _ from h]; rfl

theorem Done.boxed {env : Env} {t : Ty} {s : PState} {o : Option (Val × PState)} {k : Nat} (h : Done env t s o k) :
    Done env (.boxed t) s o (k + 1) := by
  refine h.step fun n hn => ⟨hn.1, ?_⟩
  simp only [work, calls, List.map_cons, List.map_nil, List.sum_cons, List.sum_nil, hn.2]
  omega

theorem Done.paren {env : Env} {t : Ty} {s s' : PState} {v : Val} {k : Nat} {inner rest : List TT} {sp : Span}
    (hu : uncons s.cur = some (.group .paren inner sp, rest)) (h : Done env t ⟨inner, sp.closeOf, s.unexp⟩ (some (v, s')) k) :
    Done env (.paren t) s (some (.group .paren sp v, ⟨rest, s.scope, s'.dropUnexp⟩)) (k + 1) := by
  refine h.step fun n hn => ⟨?_, ?_⟩
  · show parse env (n + 1) (.paren t) s = _
    have h1 : parse env n t ⟨inner, sp.closeOf, s.unexp⟩ = .ok v s' := hn.1
    simp only [parse, parenParse, delimited, hu, if_true, h1, Res.bind_okc, Res.map_okc]
  · simp only [work, calls, insideCalls, hu, if_true, List.map_cons, List.map_nil, List.sum_cons, List.sum_nil, hn.2]
    omega

theorem SeqDone.nil {env : Env} {s : PState} : SeqDone env [] s (some ([], s)) 0 := by
  refine .always fun n => ⟨fun is h => ?_, rfl⟩
  rw [List.map_eq_nil_iff.mp h]; rfl

theorem SeqDone.fail {env : Env} {t : Ty} {ts : List Ty} {s : PState} {k : Nat} (h : Done env t s none k) : SeqDone env (t :: ts) s none k := by
  refine h.mono fun n hn => ?_
  obtain ⟨⟨e, he⟩, hk⟩ := hn
  refine ⟨fun is h => ?_, ?_⟩
  · obtain ⟨i, is, rfl⟩ : ∃ i is', is = i :: is' := by cases is with
      | nil => cases h
      | cons i is => exact ⟨i, is, rfl⟩
    simp only [List.map_cons, List.cons.injEq] at h
    exact ⟨_, by simp only [initsE, exec, h.1, he, Res.map_errc, Res.mapErr_errc, Res.bind_errc]; rfl⟩
  · simp only [seqCalls, he, workL_cons, workL_nil, hk]; rfl

theorem SeqDone.cons {env : Env} {t : Ty} {ts : List Ty} {s s1 s2 : PState} {v : Val} {vs : List Val} {k k' : Nat} (h : Done env t s (some (v, s1)) k)
    (h' : SeqDone env ts s1 (some (vs, s2)) k') : SeqDone env (t :: ts) s (some (v :: vs, s2)) (k + k') := by
  refine (h.and h').mono fun n hn => ?_
  obtain ⟨⟨h1, h2⟩, h3, h4⟩ := hn
  have h1 : parse env n t s = .ok v s1 := h1
  refine ⟨fun is h => ?_, ?_⟩
  · obtain ⟨i, is, rfl⟩ : ∃ i is', is = i :: is' := by cases is with
      | nil => cases h
      | cons i is => exact ⟨i, is, rfl⟩
    simp only [List.map_cons, List.cons.injEq] at h
    have h5 : exec (parse env n) n (initsE is) s1 = .ok vs s2 := h3 is h.2
    show exec (parse env n) n (initsE (i :: is)) s = _
    simp only [initsE, exec, h.1, h1, Res.map_okc, Res.mapErr_okc, Res.bind_okc, h5, List.cons_append, List.nil_append]
  · simp only [seqCalls, h1, workL_cons, h2, h4]

theorem SeqDone.later {env : Env} {t : Ty} {ts : List Ty} {s s1 : PState} {v : Val} {k k' : Nat} (h : Done env t s (some (v, s1)) k)
    (h' : SeqDone env ts s1 none k') : SeqDone env (t :: ts) s none (k + k') := by
  refine (h.and h').mono fun n hn => ?_
  obtain ⟨⟨h1, h2⟩, h3, h4⟩ := hn
  have h1 : parse env n t s = .ok v s1 := h1
  refine ⟨fun is h => ?_, ?_⟩
  · obtain ⟨i, is, rfl⟩ : ∃ i is', is = i :: is' := by cases is with
      | nil => cases h
      | cons i is => exact ⟨i, is, rfl⟩
    simp only [List.map_cons, List.cons.injEq] at h
    obtain ⟨e, h5⟩ := h3 is h.2
    exact ⟨e, by simp only [initsE, exec, h.1, h1, Res.map_okc, Res.mapErr_okc, Res.bind_okc, h5, Res.map_errc]⟩
  · simp only [seqCalls, h1, workL_cons, h2, h4]

theorem SeqDone.one {env : Env} {t : Ty} {s s1 : PState} {v : Val} {k : Nat} (h : Done env t s (some (v, s1)) k) :
    SeqDone env [t] s (some ([v], s1)) k := SeqDone.cons h .nil

/-- The alternatives all fail, and then one parses. -/
def AltDone (env : Env) (x : Text) (vs : List (VariantDef Ty)) (s : PState) (o : Option (Val × PState)) (k : Nat) : Prop :=
  Eventually fun n => (∀ err, ((evalVariants (parse env n) (vs.map fun v => expandFields (some x) v.ident v.fields) err s).map
      fun nd => Val.node (.ctor x nd.ctor) nd.fields).Is o) ∧
    workL env n (altCalls (parse env n) (vs.map fun v => fieldTypes v.fields) s.fork) = k

theorem AltDone.here {env : Env} {x : Text} {v : VariantDef Ty} {ws : List (VariantDef Ty)} {s f : PState} {vs : List Val} {k : Nat}
    (h : SeqDone env (fieldTypes v.fields) s.fork (some (vs, f)) k) :
    AltDone env x (v :: ws) s (some (.node (.ctor x v.ident) vs, s.advanceTo f)) k := by
  refine h.mono fun n hn => ?_
  obtain ⟨h1, h2⟩ := hn
  have h1 : exec (parse env n) n (initsE (expandFields (some x) v.ident v.fields).inits) s.fork = .ok vs f := h1 _ (inits_ty_map _ _ _)
  refine ⟨fun err => ?_, ?_⟩
  · show Res.map _ _ = _
    simp only [List.map_cons, evalVariants, tryParseVariant, evalCtor, evalInits_core _ n, h1, Res.map_okc, expandFields_ctor]
  · have h3 := seqFails_core (parse env n) n (expandFields (some x) v.ident v.fields).inits s.fork
    rw [inits_ty_map, h1] at h3
    simp only [List.map_cons, altCalls, h3, workL_append, h2, Bool.false_eq_true, if_false, workL_nil, Nat.add_zero]

theorem AltDone.later {env : Env} {x : Text} {v : VariantDef Ty} {ws : List (VariantDef Ty)} {s : PState} {o : Option (Val × PState)} {k k' : Nat}
    (h : SeqDone env (fieldTypes v.fields) s.fork none k) (h' : AltDone env x ws s o k') : AltDone env x (v :: ws) s o (k + k') := by
  refine (h.and h').mono fun n hn => ?_
  obtain ⟨⟨h1, h2⟩, h3, h4⟩ := hn
  obtain ⟨e, h1⟩ := h1 _ (inits_ty_map (some x) v.ident v.fields)
  refine ⟨fun err => ?_, ?_⟩
  · simp only [List.map_cons, evalVariants, tryParseVariant, evalCtor, evalInits_core _ n, h1, Res.map_errc]
    exact h3 _
  · have h5 := seqFails_core (parse env n) n (expandFields (some x) v.ident v.fields).inits s.fork
    rw [inits_ty_map, h1] at h5
    simp only [List.map_cons, altCalls, h5, workL_append, h2, if_true, h4]

theorem AltDone.none {env : Env} {x : Text} {s : PState} : AltDone env x [] s .none 0 :=
  .always fun n => ⟨fun err => ⟨_, rfl⟩, rfl⟩

theorem AltDone.done {env : Env} {x : Text} {vs : List (VariantDef Ty)} {s : PState} {o : Option (Val × PState)} {k : Nat} (he : env x = .enum vs)
    (h : AltDone env x vs s o k) : Done env (.named x) s o (k + 1) := by
  refine h.step fun n hn => ⟨?_, ?_⟩
  · simp only [parse, code_enum he, evalParse]
    exact hn.1 _
  · have := hn.2
    simp only [workL] at this
    simp only [work, calls, he, this]
    omega

theorem SeqDone.struct {env : Env} {x : Text} {fields : Fields Ty} {s s' : PState} {vs : List Val} {k : Nat} (he : env x = .struct fields)
    (h : SeqDone env (fieldTypes fields) s (some (vs, s')) k) : Done env (.named x) s (some (.node (.ctor x x) vs, s')) (k + 1) := by
  refine h.step fun n hn => ⟨?_, ?_⟩
  · show parse env (n + 1) (.named x) s = _
    have h1 : exec (parse env n) n (initsE (expandFields none x fields).inits) s = .ok vs s' := hn.1 _ (inits_ty_map _ _ _)
    simp only [parse, code_struct he, evalParse, evalCtor, evalInits_core _ n, h1, Res.map_okc, expandFields_ctor]
  · have := hn.2
    simp only [workL] at this
    simp only [work, calls, he, this]
    omega

/-! ### rounds -/

theorem PairDone.stop {env : Env} {p t : Ty} {s : PState} {k : Nat} (h : Done env p s.fork none k) : PairDone env p t s (some ([], s)) k := by
  refine ⟨1, h.mono fun n hn m hm => ?_⟩
  obtain ⟨⟨e, he⟩, hk⟩ := hn
  obtain ⟨m, rfl⟩ : ∃ m', m = m' + 1 := ⟨m - 1, by omega⟩
  refine ⟨?_, ?_⟩
  · show starN _ _ (m + 1) s = _
    simp only [starN, exec, he, Res.map_errc]
  · simp only [pairCalls, he, workL_cons, workL_nil, hk]; rfl

theorem PairDone.more {env : Env} {p t : Ty} {s f s1 s2 : PState} {v w : Val} {vs : List Val} {k k' k'' : Nat} (h : Done env p s.fork (some (v, f)) k)
    (h' : Done env t (s.advanceTo f) (some (w, s1)) k') (h'' : PairDone env p t s1 (some (vs, s2)) k'') :
    PairDone env p t s (some (v :: w :: vs, s2)) (k + (k' + k'')) := by
  obtain ⟨m0, h''⟩ := h''
  refine ⟨m0 + 1, ((h.and h').and h'').mono fun n hn m hm => ?_⟩
  obtain ⟨⟨⟨h1, h2⟩, h3, h4⟩, h5⟩ := hn
  have h1 : parse env n p s.fork = .ok v f := h1
  have h3 : parse env n t (s.advanceTo f) = .ok w s1 := h3
  obtain ⟨m, rfl⟩ : ∃ m', m = m' + 1 := ⟨m - 1, by omega⟩
  obtain ⟨h6, h7⟩ := h5 m (by omega)
  have h6 : starN (exec (parse env n) n (.ty p)) (exec (parse env n) n (.ty t)) m s1 = .ok vs s2 := h6
  refine ⟨?_, ?_⟩
  · show starN _ _ (m + 1) s = _
    rw [starN]
    have e1 : exec (parse env n) n (.ty p) s.fork = .ok [v] f := by simp only [exec, h1, Res.map_okc]
    have e2 : exec (parse env n) n (.ty t) (s.advanceTo f) = .ok [w] s1 := by simp only [exec, h3, Res.map_okc]
    simp only [e1, e2, Res.bind_okc, h6, Res.map_okc, List.cons_append, List.nil_append]
  · simp only [pairCalls, h1, h3, workL_cons, h2, h4, h7]

theorem Done.list {env : Env} {b : Builder} {q a p : Ty} {s s1 s2 : PState} {v : Val} {vs : List Val} {k k' : Nat}
    (hb : body env q = .build b (.seq (.ty a) (.star (.ty p) (.ty a))))
    (hc : ∀ n, calls (parse env n) env n q s = listCalls (parse env n) n a p s)
    (h : Done env a s (some (v, s1)) k) (h' : PairDone env p a s1 (some (vs, s2)) k') :
    Done env q s (some (b.apply (v :: vs), s2)) (k + k' + 1) := by
  obtain ⟨m0, h'⟩ := h'
  refine ((h.and h').and ⟨m0, fun n hn => hn⟩ : Eventually fun n => _ ∧ m0 ≤ n).step fun n hn => ?_
  obtain ⟨⟨⟨h1, h2⟩, h3⟩, h4⟩ := hn
  obtain ⟨h3, h5⟩ := h3 n h4
  have h1 : parse env n a s = .ok v s1 := h1
  refine ⟨?_, ?_⟩
  · show parse env (n + 1) q s = _
    refine map_single_inj ?_
    have h3 : starN (exec (parse env n) n (.ty p)) (exec (parse env n) n (.ty a)) n s1 = .ok vs s2 := h3
    rw [parse_core, hb]
    have h6 : exec (parse env n) n (.seq (.ty a) (.star (.ty p) (.ty a))) s = .ok (v :: vs) s2 := by
      rw [exec]
      have e1 : exec (parse env n) n (.ty a) s = .ok [v] s1 := by simp only [exec, h1, Res.map_okc]
      have e2 : exec (parse env n) n (.star (.ty p) (.ty a)) s1 = .ok vs s2 := h3
      simp only [e1, Res.bind_okc, e2, Res.map_okc, List.cons_append, List.nil_append]
    rw [exec, h6]; rfl
  · simp only [workL] at h5
    simp only [work, hc, listCalls, h1, List.map_cons, List.sum_cons, h5, h2]
    omega

theorem Done.leftAssoc {env : Env} {o r : Ty} {s s1 s2 : PState} {v : Val} {vs : List Val} {k k' : Nat} (h : Done env r s (some (v, s1)) k)
    (h' : PairDone env o r s1 (some (vs, s2)) k') : Done env (.leftAssoc o r) s (some (Builder.left.apply (v :: vs), s2)) (k + k' + 1) :=
  .list (b := .left) rfl (fun _ => rfl) h h'

theorem Done.rightAssoc {env : Env} {o l : Ty} {s s1 s2 : PState} {v : Val} {vs : List Val} {k k' : Nat} (h : Done env l s (some (v, s1)) k)
    (h' : PairDone env o l s1 (some (vs, s2)) k') : Done env (.rightAssoc o l) s (some (Builder.right.apply (v :: vs), s2)) (k + k' + 1) :=
  .list (b := .right) rfl (fun _ => rfl) h h'

theorem Done.separated {env : Env} {t p : Ty} {s s1 s2 : PState} {v : Val} {vs : List Val} {k k' : Nat} (h : Done env t s (some (v, s1)) k)
    (h' : PairDone env p t s1 (some (vs, s2)) k') : Done env (.separated t p) s (some ((Builder.node .separated).apply (v :: vs), s2)) (k + k' + 1) :=
  .list (b := .node .separated) rfl (fun _ => rfl) h h'

/-- The repetition stops right away. -/
theorem Done.any_stop {env : Env} {t : Ty} {s : PState} {k : Nat} (h : Done env t s.fork none k) :
    Done env (.any t) s (some (.node .any [], s)) (k + 1) := by
  refine (h.and ⟨1, fun n hn => hn⟩ : Eventually fun n => _ ∧ 1 ≤ n).step fun n hn => ?_
  obtain ⟨⟨⟨e, he⟩, hk⟩, hn⟩ := hn
  obtain ⟨n, rfl⟩ : ∃ m, n = m + 1 := ⟨n - 1, by omega⟩
  refine ⟨?_, ?_⟩
  · show parse env (n + 1 + 1) (.any t) s = _
    rw [parse]
    simp only [anyParse, he, anyLoop, Res.map_okc]
  · rw [work]
    simp only [calls, itemCalls, he, List.map_cons, List.map_nil, List.sum_cons, List.sum_nil, hk]
    omega

end Parsel
