import Verif.Proofs.Steps

/-! Where errors come from. -/

namespace Parsel
open Spec
variable [Ext]

omit [Ext] in
theorem Spec.Reach.trans {a b c : List TT} {sa sb sc : Span} (h1 : Reach a sa b sb) (h2 : Reach b sb c sc) : Reach a sa c sc := by
  induction h1 with
  | refl => exact h2
  | next h _ ih => exact .next h (ih h2)
  | enter h _ ih => exact .enter h (ih h2)

omit [Ext] in
theorem Spec.Steps.reach {a b : List TT} (h : Steps a b) (sc : Span) : Reach a sc b sc := by
  induction h with
  | refl => exact .refl
  | step h _ ih => exact .next h ih

omit [Ext] in
theorem Moves.reach {n : Prop} {s s' : PState} (h : Moves n s s') : Reach s.cur s.scope s'.cur s'.scope := by
  rw [h.1]; exact h.steps.reach _

/-- Where in an expression an error arises: the frames around, the state and the error there. -/
inductive Orig (P : Ty → Parser Val) : E → List Frame → PState → Err → Prop
  | leaf {l s e} : leafParse l s = .err e → Orig P (.leaf l) [] s e
  | ty {t s e} : P t s = .err e → Orig P (.ty t) [] s e
  | delimNo {d t s} : (∀ inner sp rest, ¬ Next s.cur (.group d inner sp) rest) → Orig P (.delim d t) [] s (s.error (delimMsg d))
  | delimIn {d t s e} : P t s = .err e → Orig P (.delim d t) [] s e
  | fail {msg s} : Orig P (.fail msg) [] s (s.error msg)
  | seqL {a b path s e} : Orig P a path s e → Orig P (.seq a b) path s e
  | seqR {a b path s e} : Orig P b path s e → Orig P (.seq a b) path s e
  | label {en c f a path s e} : Orig P a path s e → Orig P (.label en c f a) (⟨en, c, f⟩ :: path) s e
  | attempt {a path s e} : Orig P a path s e → Orig P (.attempt a) path s e
  | opt {a b path s e} : Orig P b path s e → Orig P (.opt a b) path s e
  | altL {a b path s e} : Orig P a path s e → Orig P (.alt a b) path s e
  | altR {a b path s e} : Orig P b path s e → Orig P (.alt a b) path s e
  | termL {a b path s e} : Orig P a path s e → Orig P (.term a b) path s e
  | termR {a b path s e} : Orig P b path s e → Orig P (.term a b) path s e
  | star {a b path s e} : Orig P b path s e → Orig P (.star a b) path s e
  | build {bu a path s e} : Orig P a path s e → Orig P (.build bu a) path s e

/-- The error `err` of running `e` at `s` arises somewhere in it. -/
def From (P : Ty → Parser Val) (e : E) (s : PState) (err : Err) : Prop :=
  ∃ path s0 e0, Orig P e path s0 e0 ∧ Reach s.cur s.scope s0.cur s0.scope ∧ err = ⟨e0.span, renderPath path e0.msg⟩

theorem From.lift {P : Ty → Parser Val} {a b : E} (hab : ∀ path s e, Orig P a path s e → Orig P b path s e) {s s1 : PState} {err : Err}
    (h : From P a s1 err) (hr : Reach s.cur s.scope s1.cur s1.scope) : From P b s err := by
  obtain ⟨path, s0, e0, h1, h2, h3⟩ := h
  exact ⟨path, s0, e0, hab _ _ _ h1, hr.trans h2, h3⟩

omit [Ext] in
theorem maxByEnd_or (a b : Err) : maxByEnd a b = a ∨ maxByEnd a b = b := by
  unfold maxByEnd; split <;> simp

theorem exec_origin {P : Ty → Parser Val} (hM : ∀ t s v s', P t s = .ok v s' → Moves True s s') (k : Nat) :
    ∀ (e : E) s err, exec P k e s = .err err → From P e s err := by
  have hm : ∀ (e : E) {s vs s'}, exec P k e s = .ok vs s' → Reach s.cur s.scope s'.cur s'.scope := by
    intro e s vs s' h
    exact (exec_moves (N := fun _ => True) hM k e _ _ _ h).reach
  intro e
  induction e with
  | ret => intro s err h; cases h
  | leaf l =>
    intro s err h
    simp only [exec, Res.map_err] at h
    exact ⟨[], s, err, .leaf h, .refl, rfl⟩
  | ty t =>
    intro s err h
    simp only [exec, Res.map_err] at h
    exact ⟨[], s, err, .ty h, .refl, rfl⟩
  | delim d t =>
    intro s err h
    simp only [exec, Res.map_err, delimited] at h
    have no : ∀ d' inner sp rest, uncons s.cur = some (.group d' inner sp, rest) → d' ≠ d →
        ∀ inner sp rest, ¬ Next s.cur (.group d inner sp) rest := by
      intro d' inner sp rest hu hd inner' sp' rest' hn
      rw [(uncons_iff _ _ _).mpr hn] at hu
      simp only [Option.some.injEq, Prod.mk.injEq, TT.group.injEq] at hu
      exact hd hu.1.1.symm
    split at h
    · rename_i d' inner sp rest hu
      split at h
      · rename_i hd
        cases h1 : P t { cur := inner, scope := sp.closeOf, unexp := s.unexp } with
        | err e =>
          rw [h1] at h
          simp only [Res.bind_errc, Res.err.injEq] at h
          subst h
          exact ⟨[], _, e, .delimIn h1, .enter ((uncons_iff _ _ _).mp hu) .refl, rfl⟩
        | ok v s' => rw [h1] at h; cases h
        | panic => rw [h1] at h; cases h
        | oof => rw [h1] at h; cases h
      · rename_i hd
        simp only [Res.err.injEq] at h
        subst h
        exact ⟨[], s, _, .delimNo (no _ _ _ _ hu hd), .refl, rfl⟩
    · rename_i hu
      simp only [Res.err.injEq] at h
      subst h
      refine ⟨[], s, _, .delimNo ?_, .refl, rfl⟩
      intro inner sp rest hn
      exact hu _ _ _ _ ((uncons_iff _ _ _).mpr hn)
  | fail msg =>
    intro s err h
    simp only [exec, Res.err.injEq] at h
    subst h
    exact ⟨[], s, _, .fail, .refl, rfl⟩
  | seq a b iha ihb =>
    intro s err h
    simp only [exec] at h
    cases h1 : exec P k a s with
    | ok vs s1 =>
      rw [h1] at h
      simp only [Res.bind_okc, Res.map_err] at h
      exact (ihb s1 err h).lift (fun _ _ _ => .seqR) (hm a h1)
    | err e => rw [h1] at h; simp only [Res.bind_errc, Res.err.injEq] at h; subst h; exact (iha s _ h1).lift (fun _ _ _ => .seqL) .refl
    | panic => rw [h1] at h; cases h
    | oof => rw [h1] at h; cases h
  | label en c f a iha =>
    intro s err h
    simp only [exec, Res.mapErr_err] at h
    obtain ⟨e, h1, h2⟩ := h
    obtain ⟨path, s0, e0, h3, h4, h5⟩ := iha s e h1
    refine ⟨_, s0, e0, .label h3, h4, ?_⟩
    rw [← h2, chainError_eq, h5]
    simp [renderPath]
  | attempt a iha =>
    intro s err h
    simp only [exec] at h
    cases h1 : exec P k a s.fork with
    | err e => rw [h1] at h; simp only [Res.err.injEq] at h; subst h; exact (iha s.fork _ h1).lift (fun _ _ _ => .attempt) .refl
    | ok v1 f => rw [h1] at h; cases h
    | panic => rw [h1] at h; cases h
    | oof => rw [h1] at h; cases h
  | opt a b iha ihb =>
    intro s err h
    simp only [exec] at h
    cases h1 : exec P k a s.fork with
    | ok v1 f =>
      rw [h1] at h
      simp only [Res.map_err] at h
      refine (ihb (s.advanceTo f) err h).lift (fun _ _ _ => .opt) ?_
      have := (exec_moves (N := fun _ => True) hM k a _ _ _ h1).advance.reach
      exact this
    | err e => rw [h1] at h; cases h
    | panic => rw [h1] at h; cases h
    | oof => rw [h1] at h; cases h
  | alt a b iha ihb =>
    intro s err h
    simp only [exec] at h
    cases h1 : exec P k a s with
    | err e1 =>
      rw [h1] at h
      simp only [] at h
      cases h2 : exec P k b s.fork with
      | err e2 =>
        rw [h2] at h
        simp only [Res.err.injEq] at h
        subst h
        rcases maxByEnd_or e1 e2 with h3 | h3
        · rw [h3]; exact (iha s _ h1).lift (fun _ _ _ => .altL) .refl
        · rw [h3]; exact (ihb s.fork _ h2).lift (fun _ _ _ => .altR) .refl
      | ok v1 f => rw [h2] at h; cases h
      | panic => rw [h2] at h; cases h
      | oof => rw [h2] at h; cases h
    | ok v1 f => rw [h1] at h; cases h
    | panic => rw [h1] at h; cases h
    | oof => rw [h1] at h; cases h
  | term a b iha ihb =>
    intro s err
    have : ∀ j s err, termN (exec P k a) (exec P k b) j s = .err err → From P (.term a b) s err := by
      intro j
      induction j with
      | zero => intro s err h; cases h
      | succ j ih =>
        intro s err h
        simp only [termN] at h
        split at h
        · cases h
        · cases h1 : exec P k a s with
          | err e => rw [h1] at h; simp only [Res.bind_errc, Res.err.injEq] at h; subst h; exact (iha s _ h1).lift (fun _ _ _ => .termL) .refl
          | panic => rw [h1] at h; cases h
          | oof => rw [h1] at h; cases h
          | ok vs s1 =>
            rw [h1] at h
            simp only [Res.bind_okc] at h
            split at h
            · cases h
            · cases h2 : exec P k b s1 with
              | err e =>
                rw [h2] at h; simp only [Res.bind_errc, Res.err.injEq] at h; subst h
                exact (ihb s1 _ h2).lift (fun _ _ _ => .termR) (hm a h1)
              | panic => rw [h2] at h; cases h
              | oof => rw [h2] at h; cases h
              | ok ws s2 =>
                rw [h2] at h
                simp only [Res.bind_okc, Res.map_err] at h
                exact (ih s2 err h).lift (fun _ _ _ h => h) ((hm a h1).trans (hm b h2))
    exact this k s err
  | star a b iha ihb =>
    intro s err
    have : ∀ j s err, starN (exec P k a) (exec P k b) j s = .err err → From P (.star a b) s err := by
      intro j
      induction j with
      | zero => intro s err h; cases h
      | succ j ih =>
        intro s err h
        simp only [starN] at h
        cases h1 : exec P k a s.fork with
        | err e => rw [h1] at h; cases h
        | panic => rw [h1] at h; cases h
        | oof => rw [h1] at h; cases h
        | ok vs s1 =>
          rw [h1] at h
          simp only [] at h
          have hr : Reach s.cur s.scope (s.advanceTo s1).cur (s.advanceTo s1).scope :=
            (exec_moves (N := fun _ => True) hM k a _ _ _ h1).advance.reach
          cases h2 : exec P k b (s.advanceTo s1) with
          | err e =>
            rw [h2] at h; simp only [Res.bind_errc, Res.err.injEq] at h; subst h
            exact (ihb _ _ h2).lift (fun _ _ _ => .star) hr
          | panic => rw [h2] at h; cases h
          | oof => rw [h2] at h; cases h
          | ok ws s2 =>
            rw [h2] at h
            simp only [Res.bind_okc, Res.map_err] at h
            exact (ih s2 err h).lift (fun _ _ _ h => h) (hr.trans (hm b h2))
    exact this k s err
  | build bu a iha =>
    intro s err h
    simp only [exec, Res.map_err] at h
    exact (iha s err h).lift (fun _ _ _ => .build) .refl

/-! ### from expressions to types -/

/-- The error `e` at `s` belongs to the path `path` from `t`: it is basic, or the error of a type at the end of the path. -/
def Ends (P : Ty → Parser Val) (env : Env) (t : Ty) (path : List Frame) (s : PState) (e : Err) : Prop :=
  (∃ u, Path env t path u ∧ Basic env u s e) ∨
  (∃ u, P u s = .err e ∧ ∀ path' w, Path env u path' w → Path env t (path ++ path') w)

omit [Ext] in
theorem code_struct {env : Env} {x : Text} {fields : Fields Ty} (h : env x = .struct fields) :
    env.code x = .struct (expandFields none x fields) := by simp [Env.code, h, TypeDef.item, expandParseBody]

omit [Ext] in
theorem code_enum {env : Env} {x : Text} {vs : List (VariantDef Ty)} (h : env x = .enum vs) :
    env.code x = .enum (vs.map fun v => expandFields (some x) v.ident v.fields) := by
  simp [Env.code, h, TypeDef.item, expandParseBody]

omit [Ext] in
theorem mem_zip_swap {α β : Type} {a : α} {b : β} : ∀ {l : List α} {m : List β}, (a, b) ∈ l.zip m → (b, a) ∈ m.zip l
  | [], _, h => by simp at h
  | _ :: _, [], h => by simp at h
  | x :: l, y :: m, h => by
    simp only [List.zip_cons_cons, List.mem_cons, Prod.mk.injEq] at h ⊢
    rcases h with ⟨h1, h2⟩ | h
    · exact .inl ⟨h2, h1⟩
    · exact .inr (mem_zip_swap h)

omit [Ext] in
theorem inits_mem {en : Option Text} {c : Text} {fs : Fields Ty} {i : FieldInit Ty} (h : i ∈ (expandFields en c fs).inits) :
    i.enumStr = en.getD [] ∧ i.ctorStr = c ∧ (i.fieldStr, i.ty) ∈ labelled fs := by
  rw [expandFields_inits] at h
  obtain ⟨⟨a, b⟩, h1, rfl⟩ := List.mem_map.mp h
  refine ⟨rfl, rfl, ?_⟩
  exact mem_zip_swap h1

theorem initsE_ends {P : Ty → Parser Val} {is : List (FieldInit Ty)} {path : List Frame} {s : PState} {e : Err} (h : Orig P (initsE is) path s e) :
    ∃ i ∈ is, path = [⟨i.enumStr, i.ctorStr, i.fieldStr⟩] ∧ P i.ty s = .err e := by
  induction is with
  | nil => cases h
  | cons i is ih =>
    cases h with
    | seqL h =>
      cases h with
      | label h => cases h with | ty h => exact ⟨i, List.mem_cons_self, rfl, h⟩
    | seqR h => obtain ⟨j, h1, h2⟩ := ih h; exact ⟨j, List.mem_cons_of_mem _ h1, h2⟩

theorem altsE_ends {P : Ty → Parser Val} {x : Text} {cs : List (CtorCode Ty)} {path : List Frame} {s : PState} {e : Err} :
    ∀ {a : E}, Orig P (altsE x a cs) path s e → Orig P a path s e ∨ ∃ c ∈ cs, Orig P (initsE c.inits) path s e := by
  induction cs with
  | nil => intro a h; exact .inl h
  | cons c cs ih =>
    intro a h
    rcases ih h with h | ⟨c', h1, h2⟩
    · cases h with
      | altL h => exact .inl h
      | altR h => cases h with | build h => exact .inr ⟨c, List.mem_cons_self, h⟩
    · exact .inr ⟨c', List.mem_cons_of_mem _ h1, h2⟩

theorem body_ends {P : Ty → Parser Val} {env : Env} {t : Ty} {path : List Frame} {s : PState} {e : Err} (h : Orig P (body env t) path s e) :
    Ends P env t path s e := by
  cases t with
  | leaf l => cases h with | leaf h => exact .inl ⟨_, .here, .leaf h⟩
  | named x =>
    simp only [body] at h
    cases hx : env x with
    | struct fields =>
      rw [code_struct hx] at h
      simp only [codeE, ctorE] at h
      cases h with
      | build h =>
        obtain ⟨i, h1, rfl, h2⟩ := initsE_ends h
        obtain ⟨e1, e2, e3⟩ := inits_mem h1
        refine .inr ⟨i.ty, h2, fun path' w hp => ?_⟩
        rw [e1, e2]
        exact .field hx e3 hp
    | enum vs =>
      rw [code_enum hx] at h
      cases vs with
      | nil => cases h with | fail => exact .inl ⟨_, .here, .emptyEnum hx⟩
      | cons v vs =>
        simp only [codeE, List.map_cons] at h
        have key : ∀ {w : VariantDef Ty}, w ∈ v :: vs → Orig P (initsE (expandFields (some x) w.ident w.fields).inits) path s e →
            Ends P env (.named x) path s e := by
          intro w hw h
          obtain ⟨i, h1, rfl, h2⟩ := initsE_ends h
          obtain ⟨e1, e2, e3⟩ := inits_mem h1
          refine .inr ⟨i.ty, h2, fun path' u hp => ?_⟩
          rw [e1, e2]
          exact .variant hx hw e3 hp
        rcases altsE_ends h with h | ⟨c, h1, h2⟩
        · cases h with | attempt h => cases h with | build h => exact key List.mem_cons_self h
        · obtain ⟨w, hw, rfl⟩ := List.mem_map.mp h1
          exact key (List.mem_cons_of_mem _ hw) h2
  | boxed t => cases h with | ty h => exact .inr ⟨_, h, fun _ _ => .boxed⟩
  | maybe p t =>
    cases h with
    | build h => cases h with | opt h => cases h with | ty h => exact .inr ⟨_, h, fun _ _ => .maybeInner⟩
  | paren t =>
    cases h with
    | delimNo h => exact .inl ⟨_, .here, .paren h⟩
    | delimIn h => exact .inr ⟨_, h, fun _ _ => .paren⟩
  | bracket t =>
    cases h with
    | delimNo h => exact .inl ⟨_, .here, .bracket h⟩
    | delimIn h => exact .inr ⟨_, h, fun _ _ => .bracket⟩
  | brace t =>
    cases h with
    | delimNo h => exact .inl ⟨_, .here, .brace h⟩
    | delimIn h => exact .inr ⟨_, h, fun _ _ => .brace⟩
  | punctuated t p =>
    cases h with
    | build h =>
      cases h with
      | termL h => cases h with | ty h => exact .inr ⟨_, h, fun _ _ => .punctuatedItem⟩
      | termR h => cases h with | ty h => exact .inr ⟨_, h, fun _ _ => .punctuatedSep⟩
  | separated t p =>
    cases h with
    | build h =>
      cases h with
      | seqL h => cases h with | ty h => exact .inr ⟨_, h, fun _ _ => .separatedItem⟩
      | seqR h => cases h with | star h => cases h with | ty h => exact .inr ⟨_, h, fun _ _ => .separatedItem⟩
  | any t => cases h with | build h => cases h with | star h => cases h
  | leftAssoc o r =>
    cases h with
    | build h =>
      cases h with
      | seqL h => cases h with | ty h => exact .inr ⟨_, h, fun _ _ => .leftOperand⟩
      | seqR h => cases h with | star h => cases h with | ty h => exact .inr ⟨_, h, fun _ _ => .leftOperand⟩
  | rightAssoc o l =>
    cases h with
    | build h =>
      cases h with
      | seqL h => cases h with | ty h => exact .inr ⟨_, h, fun _ _ => .rightOperand⟩
      | seqR h => cases h with | star h => cases h with | ty h => exact .inr ⟨_, h, fun _ _ => .rightOperand⟩
  | either l r =>
    cases h with
    | altL h => cases h with | attempt h => cases h with | build h => cases h with | ty h => exact .inr ⟨_, h, fun _ _ => .eitherLeft⟩
    | altR h => cases h with | build h => cases h with | ty h => exact .inr ⟨_, h, fun _ _ => .eitherRight⟩

theorem parse_origin (env : Env) : ∀ (n : Nat) (t : Ty) (s : PState) (e : Err), parse env n t s = .err e →
    ∃ path u s0 e0, Path env t path u ∧ Reach s.cur s.scope s0.cur s0.scope ∧ Basic env u s0 e0 ∧ e = ⟨e0.span, renderPath path e0.msg⟩
  | 0, _, _, _, h => by cases h
  | n + 1, t, s, e, h => by
    have h1 : exec (parse env n) n (body env t) s = .err e := by rw [← parse_core, h]; rfl
    obtain ⟨path, s0, e0, h2, h3, h4⟩ := exec_origin (parse_moves_true env n) n _ _ _ h1
    rcases body_ends h2 with ⟨u, h5, h6⟩ | ⟨u, h5, h6⟩
    · exact ⟨path, u, s0, e0, h5, h3, h6, h4⟩
    · obtain ⟨path', w, s1, e1, h7, h8, h9, h10⟩ := parse_origin env n u s0 e0 h5
      refine ⟨path ++ path', w, s1, e1, h6 _ _ h7, h3.trans h8, h9, ?_⟩
      rw [h4, h10]
      simp [renderPath]

/-- The location of a basic failure belongs to its position. -/
theorem basic_loc {env : Env} {u : Ty} {s : PState} {e : Err} (h : Basic env u s e) : LocAt s.cur s.scope e.span := by
  cases h with
  | leaf h =>
    rename_i l
    have := leaf_outcome l s
    rw [h] at this
    cases this with | err h => exact h
  | paren _ => exact locAt_error _ _
  | bracket _ => exact locAt_error _ _
  | brace _ => exact locAt_error _ _
  | emptyEnum _ => exact locAt_error _ _

end Parsel
