import Verif.Proofs.Origin

/-! Locations of errors belong to the input. -/

namespace Parsel
open Spec

theorem occurs_append_left {t : TT} {a : List TT} (b : List TT) (h : Occurs t a) : Occurs t (a ++ b) := by
  induction h with
  | head => exact .head
  | tail _ ih => exact .tail ih
  | inside h _ => exact .inside h

theorem occurs_append {t : TT} : ∀ {a b : List TT}, Occurs t (a ++ b) → Occurs t a ∨ Occurs t b
  | [], b, h => .inr h
  | u :: a, b, h => by
    cases h with
    | head => exact .inl .head
    | tail h => rcases occurs_append h with h | h
                · exact .inl (.tail h)
                · exact .inr h
    | inside h => exact .inl (.inside h)

theorem next_occurs {ts rest : List TT} {t : TT} (h : Next ts t rest) :
    Occurs t ts ∧ (∀ u, Occurs u rest → Occurs u ts) := by
  induction h with
  | here _ => exact ⟨.head, fun u h => .tail h⟩
  | @enter inner sp ts t rest _ ih =>
    have lift : ∀ u, Occurs u (inner ++ ts) → Occurs u (.group .none inner sp :: ts) := fun u h => by
      rcases occurs_append h with h | h
      · exact .inside h
      · exact .tail h
    exact ⟨lift _ ih.1, fun u h => lift u (ih.2 u h)⟩

theorem occurs_inside {d : Delim} {inner ts : List TT} {sp : Span} (h : Occurs (.group d inner sp) ts) : ∀ {u}, Occurs u inner → Occurs u ts := by
  intro u hu
  generalize hg : TT.group d inner sp = g at h
  induction h with
  | head => subst hg; exact .inside hu
  | tail _ ih => exact .tail ih
  | inside _ ih => exact .inside ih

theorem reach_occurs {ts ts' : List TT} {sc sc' : Span} (h : Reach ts sc ts' sc') :
    (∀ u, Occurs u ts' → Occurs u ts) ∧ (sc' = sc ∨ ∃ d inner sp, Occurs (.group d inner sp) ts ∧ sc' = sp.closeOf) := by
  induction h with
  | refl => exact ⟨fun _ h => h, .inl rfl⟩
  | next h _ ih =>
    refine ⟨fun u hu => (next_occurs h).2 u (ih.1 u hu), ?_⟩
    rcases ih.2 with h' | ⟨d, i, sp, h1, h2⟩
    · exact .inl h'
    · exact .inr ⟨d, i, sp, (next_occurs h).2 _ h1, h2⟩
  | enter h _ ih =>
    have hin := fun u => @occurs_inside _ _ _ _ (next_occurs h).1 u
    refine ⟨fun u hu => hin u (ih.1 u hu), ?_⟩
    rcases ih.2 with h' | ⟨d, i, sp, h1, h2⟩
    · exact .inr ⟨_, _, _, (next_occurs h).1, h'⟩
    · exact .inr ⟨d, i, sp, hin _ h1, h2⟩

theorem locAt_input {ts : List TT} {sc sp : Span} (h : LocAt ts sc sp) : InputLoc ts sp ∨ ts = [] ∧ sp = sc := by
  cases h with
  | stop => exact .inr ⟨rfl, rfl⟩
  | head =>
    rename_i t ts
    left
    cases t with
    | group d inner sp => exact .opening .head
    | ident => exact .token .head
    | punct => exact .token .head
    | lit => exact .token .head
  | token h _ => exact .inl (.token (next_occurs h).1)
  | number h1 h2 => exact .inl (.number (next_occurs h1).1 ((next_occurs h1).2 _ (next_occurs h2).1))

theorem Spec.InputLoc.lift {ts ts' : List TT} {sp : Span} (h : InputLoc ts' sp) (hl : ∀ u, Occurs u ts' → Occurs u ts) : InputLoc ts sp := by
  cases h with
  | token h => exact .token (hl _ h)
  | opening h => exact .opening (hl _ h)
  | closing h => exact .closing (hl _ h)
  | number h1 h2 => exact .number (hl _ h1) (hl _ h2)

/-- A location at a position that was reached is a location of the input, or the end of the outermost level. -/
theorem reach_loc {ts ts' : List TT} {sc sc' sp : Span} (hr : Reach ts sc ts' sc') (h : LocAt ts' sc' sp) :
    InputLoc ts sp ∨ ts' = [] ∧ sc' = sc ∧ sp = sc := by
  obtain ⟨h1, h2⟩ := reach_occurs hr
  rcases locAt_input h with h | ⟨h3, h4⟩
  · exact .inl (h.lift h1)
  · rcases h2 with h2 | ⟨d, i, sp', h2, h5⟩
    · exact .inr ⟨h3, h2, h4.trans h2⟩
    · left; rw [h4, h5]; exact .closing h2

variable [Ext]

/-- What happens to the record of leftovers: unchanged, or the location of a token at a position that was reached. -/
def Recorded (s : PState) (u : Option Span) : Prop :=
  u = s.unexp ∨ ∃ ts sc t rest, Reach s.cur s.scope ts sc ∧ Next ts t rest ∧ u = some t.span

omit [Ext] in
theorem Recorded.trans {s s1 : PState} {u : Option Span} (hr : Reach s.cur s.scope s1.cur s1.scope) (h1 : Recorded s s1.unexp)
    (h2 : Recorded s1 u) : Recorded s u := by
  rcases h2 with h2 | ⟨ts, sc, t, rest, h3, h4, h5⟩
  · rw [h2]; exact h1
  · exact .inr ⟨ts, sc, t, rest, hr.trans h3, h4, h5⟩

omit [Ext] in
theorem Recorded.advance {s f : PState} (h : Recorded s.fork f.unexp) : Recorded s (s.advanceTo f).unexp := by
  cases hs : s.unexp with
  | some sp => left; simp [PState.advanceTo, hs]
  | none =>
    have : (s.advanceTo f).unexp = f.unexp := by simp [PState.advanceTo, hs]
    rw [this]
    rcases h with h | ⟨ts, sc, t, rest, h3, h4, h5⟩
    · left; rw [h, hs]; rfl
    · exact .inr ⟨ts, sc, t, rest, h3, h4, h5⟩

omit [Ext] in
theorem Recorded.advanceReach {s f : PState} (h : Reach s.fork.cur s.fork.scope f.cur f.scope) (hf : f.scope = s.scope) :
    Reach s.cur s.scope (s.advanceTo f).cur (s.advanceTo f).scope := by
  rw [hf] at h; exact h

theorem exec_recorded {P : Ty → Parser Val} (hM : ∀ t s v s', P t s = .ok v s' → Moves True s s')
    (hP : ∀ t s v s', P t s = .ok v s' → Recorded s s'.unexp) (k : Nat) :
    ∀ (e : E) s vs s', exec P k e s = .ok vs s' → Recorded s s'.unexp := by
  have hm : ∀ (e : E) s vs s', exec P k e s = .ok vs s' → Moves True s s' := fun e s vs s' h =>
    (exec_moves (N := fun _ => True) hM k e _ _ _ h).imp fun _ => trivial
  intro e
  induction e with
  | ret => intro s vs s' h; simp only [exec, Res.ok.injEq] at h; obtain ⟨rfl, rfl⟩ := h; exact .inl rfl
  | leaf l =>
    intro s vs s' h
    obtain ⟨v, h1, rfl⟩ := Res.map_ok.mp h
    have h2 := leaf_outcome l s
    rw [h1] at h2
    cases h2 with | ok h' => exact .inl rfl
  | ty t => intro s vs s' h; obtain ⟨v, h1, rfl⟩ := Res.map_ok.mp h; exact hP _ _ _ _ h1
  | delim d t =>
    intro s vs s' h
    obtain ⟨⟨sp, v⟩, h1, rfl⟩ := Res.map_ok.mp h
    simp only [delimited] at h1
    split at h1
    · rename_i d' inner sp' rest hu
      split at h1
      · obtain ⟨v1, s1, h2, h3⟩ := Res.bind_ok.mp h1
        simp only [Res.ok.injEq] at h3
        obtain ⟨_, rfl⟩ := h3
        have hn := (uncons_iff _ _ _).mp hu
        have hr : Reach s.cur s.scope s1.cur s1.scope := .enter hn (hM _ _ _ _ h2).reach
        have h4 : Recorded s s1.unexp := by
          rcases hP _ _ _ _ h2 with h4 | ⟨ts, sc, t, rest, h5, h6, h7⟩
          · exact .inl h4
          · exact .inr ⟨ts, sc, t, rest, .enter hn h5, h6, h7⟩
        show Recorded s s1.dropUnexp
        unfold PState.dropUnexp
        cases hx : s1.unexp with
        | some sp => rw [hx] at h4; exact h4
        | none =>
          show Recorded s (unexpectedSpan s1.cur)
          unfold unexpectedSpan
          cases hu1 : uncons s1.cur with
          | none => rw [hx] at h4; exact h4
          | some y => exact .inr ⟨_, _, y.1, y.2, hr, (uncons_iff _ _ _).mp hu1, rfl⟩
      · cases h1
    · cases h1
  | fail msg => intro s vs s' h; cases h
  | seq a b iha ihb =>
    intro s vs s' h
    obtain ⟨v1, s1, h1, h2⟩ := Res.bind_ok.mp h
    obtain ⟨v2, h3, rfl⟩ := Res.map_ok.mp h2
    exact (iha _ _ _ h1).trans (hm _ _ _ _ h1).reach (ihb _ _ _ h3)
  | label en c f a iha => intro s vs s' h; exact iha _ _ _ (Res.mapErr_ok.mp h)
  | attempt a iha =>
    intro s vs s' h
    simp only [exec] at h
    cases h1 : exec P k a s.fork with
    | ok v1 f => rw [h1] at h; simp only [Res.ok.injEq] at h; obtain ⟨rfl, rfl⟩ := h; exact (iha s.fork _ _ h1).advance
    | err e => rw [h1] at h; cases h
    | panic => rw [h1] at h; cases h
    | oof => rw [h1] at h; cases h
  | opt a b iha ihb =>
    intro s vs s' h
    simp only [exec] at h
    cases h1 : exec P k a s.fork with
    | ok v1 f =>
      rw [h1] at h
      obtain ⟨v2, h3, rfl⟩ := Res.map_ok.mp h
      exact (iha s.fork _ _ h1).advance.trans (hm a s.fork _ _ h1).advance.reach (ihb _ _ _ h3)
    | err e => rw [h1] at h; simp only [Res.ok.injEq] at h; obtain ⟨rfl, rfl⟩ := h; exact .inl rfl
    | panic => rw [h1] at h; cases h
    | oof => rw [h1] at h; cases h
  | alt a b iha ihb =>
    intro s vs s' h
    simp only [exec] at h
    cases h1 : exec P k a s with
    | ok v1 f => rw [h1] at h; simp only [Res.ok.injEq] at h; obtain ⟨rfl, rfl⟩ := h; exact iha _ _ _ h1
    | err e =>
      rw [h1] at h
      simp only [] at h
      cases h2 : exec P k b s.fork with
      | ok v1 f => rw [h2] at h; simp only [Res.ok.injEq] at h; obtain ⟨rfl, rfl⟩ := h; exact (ihb s.fork _ _ h2).advance
      | err e => rw [h2] at h; cases h
      | panic => rw [h2] at h; cases h
      | oof => rw [h2] at h; cases h
    | panic => rw [h1] at h; cases h
    | oof => rw [h1] at h; cases h
  | term a b iha ihb =>
    have : ∀ j s vs s', termN (exec P k a) (exec P k b) j s = .ok vs s' → Recorded s s'.unexp := by
      intro j
      induction j with
      | zero => intro s vs s' h; cases h
      | succ j ih =>
        intro s vs s' h
        simp only [termN] at h
        split at h
        · simp only [Res.ok.injEq] at h; obtain ⟨rfl, rfl⟩ := h; exact .inl rfl
        · obtain ⟨v1, s1, h1, h2⟩ := Res.bind_ok.mp h
          split at h2
          · simp only [Res.ok.injEq] at h2; obtain ⟨rfl, rfl⟩ := h2; exact iha _ _ _ h1
          · obtain ⟨v2, s2, h3, h4⟩ := Res.bind_ok.mp h2
            obtain ⟨r, h5, rfl⟩ := Res.map_ok.mp h4
            exact (iha _ _ _ h1).trans (hm _ _ _ _ h1).reach ((ihb _ _ _ h3).trans (hm _ _ _ _ h3).reach (ih _ _ _ h5))
    exact this k
  | star a b iha ihb =>
    have : ∀ j s vs s', starN (exec P k a) (exec P k b) j s = .ok vs s' → Recorded s s'.unexp := by
      intro j
      induction j with
      | zero => intro s vs s' h; cases h
      | succ j ih =>
        intro s vs s' h
        simp only [starN] at h
        cases h1 : exec P k a s.fork with
        | ok v1 f =>
          rw [h1] at h
          obtain ⟨v2, s2, h3, h4⟩ := Res.bind_ok.mp h
          obtain ⟨r, h5, rfl⟩ := Res.map_ok.mp h4
          exact (iha s.fork _ _ h1).advance.trans (hm a s.fork _ _ h1).advance.reach
            ((ihb _ _ _ h3).trans (hm _ _ _ _ h3).reach (ih _ _ _ h5))
        | err e => rw [h1] at h; simp only [Res.ok.injEq] at h; obtain ⟨rfl, rfl⟩ := h; exact .inl rfl
        | panic => rw [h1] at h; cases h
        | oof => rw [h1] at h; cases h
    exact this k
  | build bu a iha =>
    intro s vs s' h
    obtain ⟨v, h1, rfl⟩ := Res.map_ok.mp h
    exact iha _ _ _ h1

theorem parse_recorded (env : Env) : ∀ (n : Nat) (t : Ty) (s : PState) (v : Val) (s' : PState), parse env n t s = .ok v s' → Recorded s s'.unexp
  | 0, _, _, _, _, h => by cases h
  | n + 1, t, s, v, s', h => by
    have h1 : exec (parse env n) n (body env t) s = .ok [v] s' := by rw [← parse_core, h]; rfl
    exact exec_recorded (parse_moves_true env n) (parse_recorded env n) n _ _ _ _ h1

end Parsel
