import Verif.Proofs.Leaf

/-! Success takes away tokens one by one; it takes none only where the grammar can be empty.  Panics come from unreadable literals. -/

namespace Parsel
open Spec
variable [Ext]

/-- The expression can succeed without taking a token (`N`: the same for types). -/
def E.Null (N : Ty → Prop) : E → Prop
  | .ret => True
  | .leaf l => l.silent = true
  | .ty t => N t
  | .delim _ _ => False
  | .fail _ => False
  | .seq a b => a.Null N ∧ b.Null N
  | .label _ _ _ a => a.Null N
  | .attempt a => a.Null N
  | .opt _ _ => True
  | .alt a b => a.Null N ∨ b.Null N
  | .term _ _ => True
  | .star _ _ => True
  | .build _ a => a.Null N

/-- From `s` to `s'` tokens were taken away; none only if `n`. -/
def Moves (n : Prop) (s s' : PState) : Prop := s'.scope = s.scope ∧ (n ∧ s'.cur = s.cur ∨ Plus s.cur s'.cur)

omit [Ext] in
theorem Moves.steps {n : Prop} {s s' : PState} (h : Moves n s s') : Steps s.cur s'.cur := by
  rcases h.2 with h | h
  · rw [h.2]; exact .refl
  · exact h.steps

omit [Ext] in
theorem Moves.refl {n : Prop} (hn : n) (s : PState) : Moves n s s := ⟨rfl, .inl ⟨hn, rfl⟩⟩

omit [Ext] in
theorem Moves.imp {n m : Prop} {s s' : PState} (h : Moves n s s') (hnm : n → m) : Moves m s s' :=
  ⟨h.1, h.2.imp (fun ⟨a, b⟩ => ⟨hnm a, b⟩) id⟩

omit [Ext] in
theorem Moves.trans {n m : Prop} {s s1 s2 : PState} (h1 : Moves n s s1) (h2 : Moves m s1 s2) : Moves (n ∧ m) s s2 := by
  refine ⟨h2.1.trans h1.1, ?_⟩
  rcases h1.2 with ⟨a, b⟩ | b
  · rcases h2.2 with ⟨c, d⟩ | d
    · exact .inl ⟨⟨a, c⟩, d.trans b⟩
    · rw [b] at d; exact .inr d
  · exact .inr (b.trans h2.steps)

omit [Ext] in
theorem Moves.advance {n : Prop} {s f : PState} (h : Moves n s.fork f) : Moves n s (s.advanceTo f) := ⟨rfl, h.2⟩

theorem termN_moves {pa pb : Parser (List Val)} {n m : Prop} (ha : ∀ s vs s', pa s = .ok vs s' → Moves n s s')
    (hb : ∀ s vs s', pb s = .ok vs s' → Moves m s s') : ∀ k s vs s', termN pa pb k s = .ok vs s' → Moves True s s'
  | 0, _, _, _, h => by cases h
  | k + 1, s, vs, s', h => by
    simp only [termN] at h
    split at h
    · simp only [Res.ok.injEq] at h; obtain ⟨rfl, rfl⟩ := h; exact .refl trivial _
    · obtain ⟨v1, s1, h1, h2⟩ := Res.bind_ok.mp h
      split at h2
      · simp only [Res.ok.injEq] at h2; obtain ⟨rfl, rfl⟩ := h2; exact (ha _ _ _ h1).imp fun _ => trivial
      · obtain ⟨v2, s2, h3, h4⟩ := Res.bind_ok.mp h2
        obtain ⟨r, h5, rfl⟩ := Res.map_ok.mp h4
        exact ((ha _ _ _ h1).trans ((hb _ _ _ h3).trans (termN_moves ha hb k s2 r s' h5))).imp fun _ => trivial

theorem starN_moves {pa pb : Parser (List Val)} {n m : Prop} (ha : ∀ s vs s', pa s = .ok vs s' → Moves n s s')
    (hb : ∀ s vs s', pb s = .ok vs s' → Moves m s s') : ∀ k s vs s', starN pa pb k s = .ok vs s' → Moves True s s'
  | 0, _, _, _, h => by cases h
  | k + 1, s, vs, s', h => by
    simp only [starN] at h
    cases h1 : pa s.fork with
    | ok v1 f =>
      rw [h1] at h
      obtain ⟨v2, s2, h3, h4⟩ := Res.bind_ok.mp h
      obtain ⟨r, h5, rfl⟩ := Res.map_ok.mp h4
      exact ((ha _ _ _ h1).advance.trans ((hb _ _ _ h3).trans (starN_moves ha hb k s2 r s' h5))).imp fun _ => trivial
    | err e => rw [h1] at h; simp only [Res.ok.injEq] at h; obtain ⟨rfl, rfl⟩ := h; exact .refl trivial _
    | panic => rw [h1] at h; cases h
    | oof => rw [h1] at h; cases h

omit [Ext] in
theorem delimited_moves {α : Type} {d : Delim} {p : Parser α} {s s' : PState} {a : Span × α} (h : delimited d p s = .ok a s') :
    Moves False s s' := by
  simp only [delimited] at h
  split at h
  · rename_i d' inner sp' rest hu
    split at h
    · obtain ⟨v1, s1, h1, h2⟩ := Res.bind_ok.mp h
      simp only [Res.ok.injEq] at h2
      obtain ⟨_, rfl⟩ := h2
      exact ⟨rfl, .inr (.one ((uncons_iff _ _ _).mp hu))⟩
    · cases h
  · cases h

theorem exec_moves {P : Ty → Parser Val} {N : Ty → Prop} (hP : ∀ t s v s', P t s = .ok v s' → Moves (N t) s s') (k : Nat) :
    ∀ (e : E) s vs s', exec P k e s = .ok vs s' → Moves (e.Null N) s s' := by
  intro e
  induction e with
  | ret => intro s vs s' h; simp only [exec, Res.ok.injEq] at h; obtain ⟨rfl, rfl⟩ := h; exact .refl trivial _
  | leaf l =>
    intro s vs s' h
    obtain ⟨v, h1, rfl⟩ := Res.map_ok.mp h
    have h2 := leaf_outcome l s
    rw [h1] at h2
    cases h2 with
    | ok h' => exact ⟨rfl, h'⟩
  | ty t => intro s vs s' h; obtain ⟨v, h1, rfl⟩ := Res.map_ok.mp h; exact hP _ _ _ _ h1
  | delim d t =>
    intro s vs s' h
    obtain ⟨⟨sp, v⟩, h1, rfl⟩ := Res.map_ok.mp h
    exact delimited_moves h1
  | fail msg => intro s vs s' h; cases h
  | seq a b iha ihb =>
    intro s vs s' h
    obtain ⟨v1, s1, h1, h2⟩ := Res.bind_ok.mp h
    obtain ⟨v2, h3, rfl⟩ := Res.map_ok.mp h2
    exact (iha _ _ _ h1).trans (ihb _ _ _ h3)
  | label en c f a iha => intro s vs s' h; exact iha _ _ _ (Res.mapErr_ok.mp h)
  | attempt a iha =>
    intro s vs s' h
    simp only [exec] at h
    cases h1 : exec P k a s.fork with
    | ok v1 f => rw [h1] at h; simp only [Res.ok.injEq] at h; obtain ⟨rfl, rfl⟩ := h; exact (iha _ _ _ h1).advance
    | err e => rw [h1] at h; cases h
    | panic => rw [h1] at h; cases h
    | oof => rw [h1] at h; cases h
  | opt a b iha ihb =>
    intro s vs s' h
    simp only [exec] at h
    cases h1 : exec P k a s.fork with
    | ok v1 f =>
      rw [h1] at h
      obtain ⟨v2, h3, rfl⟩ := Res.map_ok.mp h
      exact ((iha _ _ _ h1).advance.trans (ihb _ _ _ h3)).imp fun _ => trivial
    | err e => rw [h1] at h; simp only [Res.ok.injEq] at h; obtain ⟨rfl, rfl⟩ := h; exact .refl trivial _
    | panic => rw [h1] at h; cases h
    | oof => rw [h1] at h; cases h
  | alt a b iha ihb =>
    intro s vs s' h
    simp only [exec] at h
    cases h1 : exec P k a s with
    | ok v1 f => rw [h1] at h; simp only [Res.ok.injEq] at h; obtain ⟨rfl, rfl⟩ := h; exact (iha _ _ _ h1).imp .inl
    | err e =>
      rw [h1] at h
      simp only [] at h
      cases h2 : exec P k b s.fork with
      | ok v1 f => rw [h2] at h; simp only [Res.ok.injEq] at h; obtain ⟨rfl, rfl⟩ := h; exact (ihb _ _ _ h2).advance.imp .inr
      | err e => rw [h2] at h; cases h
      | panic => rw [h2] at h; cases h
      | oof => rw [h2] at h; cases h
    | panic => rw [h1] at h; cases h
    | oof => rw [h1] at h; cases h
  | term a b iha ihb => intro s vs s' h; exact termN_moves iha ihb k _ _ _ h
  | star a b iha ihb => intro s vs s' h; exact starN_moves iha ihb k _ _ _ h
  | build bu a iha =>
    intro s vs s' h
    obtain ⟨v, h1, rfl⟩ := Res.map_ok.mp h
    exact iha _ _ _ h1

theorem parse_moves_true (env : Env) : ∀ (n : Nat) (t : Ty) (s : PState) (v : Val) (s' : PState), parse env n t s = .ok v s' → Moves True s s'
  | 0, _, _, _, _, h => by cases h
  | n + 1, t, s, v, s', h => by
    have h1 : exec (parse env n) n (body env t) s = .ok [v] s' := by rw [← parse_core, h]; rfl
    exact (exec_moves (N := fun _ => True) (fun t s v s' h => parse_moves_true env n t s v s' h) n _ _ _ _ h1).imp fun _ => trivial

/-! ### panics -/

omit [Ext] in
theorem readable_append : ∀ (a b : List TT), Readable (a ++ b) ↔ Readable a ∧ Readable b
  | [], b => by simp [Readable]
  | t :: a, b => by simp [Readable, readable_append a b, and_assoc]

omit [Ext] in
theorem readable_next {ts rest : List TT} {t : TT} (h : Next ts t rest) (hr : Readable ts) : ReadableT t ∧ Readable rest := by
  induction h with
  | here h => simpa [Readable] using hr
  | enter _ ih =>
    simp only [Readable, ReadableT] at hr
    exact ih ((readable_append _ _).mpr hr)

omit [Ext] in
theorem readable_steps {a b : List TT} (h : Steps a b) (hr : Readable a) : Readable b := by
  induction h with
  | refl => exact hr
  | step h _ ih => exact ih (readable_next h hr).2

theorem leaf_no_panic {l : Leaf} {s : PState} (hr : Readable s.cur) : leafParse l s ≠ .panic := by
  intro h
  have h2 := leaf_outcome l s
  rw [h] at h2
  cases h2 with
  | panic h3 h4 =>
    obtain ⟨l, hl⟩ := (readable_next h3 hr).1
    rw [h4] at hl; cases hl

theorem exec_no_panic {P : Ty → Parser Val} (hM : ∀ t s v s', P t s = .ok v s' → Moves True s s')
    (hP : ∀ t s, Readable s.cur → P t s ≠ .panic) (k : Nat) : ∀ (e : E) s, Readable s.cur → exec P k e s ≠ .panic := by
  have hm : ∀ (e : E) {s vs s'}, exec P k e s = .ok vs s' → Readable s.cur → Readable s'.cur := by
    intro e s vs s' h hr
    exact readable_steps ((exec_moves (N := fun _ => True) hM k e _ _ _ h).steps) hr
  intro e
  induction e with
  | ret => intro s hr h; cases h
  | leaf l =>
    intro s hr h
    simp only [exec, Res.map_panic] at h
    exact leaf_no_panic hr h
  | ty t => intro s hr h; simp only [exec, Res.map_panic] at h; exact hP _ _ hr h
  | delim d t =>
    intro s hr h
    simp only [exec, Res.map_panic, delimited] at h
    split at h
    · rename_i d' inner sp rest hu
      split at h
      · cases h1 : P t { cur := inner, scope := sp.closeOf, unexp := s.unexp } with
        | panic =>
          have := (readable_next ((uncons_iff _ _ _).mp hu) hr).1
          exact hP t _ (by simpa only [ReadableT] using this) h1
        | ok v s' => rw [h1] at h; cases h
        | err e => rw [h1] at h; cases h
        | oof => rw [h1] at h; cases h
      · cases h
    · cases h
  | fail msg => intro s hr h; cases h
  | seq a b iha ihb =>
    intro s hr h
    simp only [exec] at h
    cases h1 : exec P k a s with
    | ok vs s1 =>
      rw [h1] at h
      simp only [Res.bind_okc, Res.map_panic] at h
      exact ihb s1 (hm a h1 hr) h
    | panic => exact iha s hr h1
    | err e => rw [h1] at h; cases h
    | oof => rw [h1] at h; cases h
  | label en c f a iha =>
    intro s hr h
    simp only [exec, Res.mapErr_panic] at h
    exact iha s hr h
  | attempt a iha =>
    intro s hr h
    simp only [exec] at h
    cases h1 : exec P k a s.fork with
    | panic => exact iha s.fork hr h1
    | ok v1 f => rw [h1] at h; cases h
    | err e => rw [h1] at h; cases h
    | oof => rw [h1] at h; cases h
  | opt a b iha ihb =>
    intro s hr h
    simp only [exec] at h
    cases h1 : exec P k a s.fork with
    | panic => exact iha s.fork hr h1
    | ok v1 f =>
      rw [h1] at h
      simp only [Res.map_panic] at h
      exact ihb (s.advanceTo f) (hm a (s := s.fork) (s' := f) h1 hr) h
    | err e => rw [h1] at h; cases h
    | oof => rw [h1] at h; cases h
  | alt a b iha ihb =>
    intro s hr h
    simp only [exec] at h
    cases h1 : exec P k a s with
    | panic => exact iha _ hr h1
    | ok v1 f => rw [h1] at h; cases h
    | err e =>
      rw [h1] at h
      simp only [] at h
      cases h2 : exec P k b s.fork with
      | panic => exact ihb s.fork hr h2
      | ok v1 f => rw [h2] at h; cases h
      | err e => rw [h2] at h; cases h
      | oof => rw [h2] at h; cases h
    | oof => rw [h1] at h; cases h
  | term a b iha ihb =>
    intro s hr
    simp only [exec]
    have : ∀ j s, Readable s.cur → termN (exec P k a) (exec P k b) j s ≠ .panic := by
      intro j
      induction j with
      | zero => intro s hr h; cases h
      | succ j ih =>
        intro s hr h
        simp only [termN] at h
        split at h
        · cases h
        · cases h1 : exec P k a s with
          | panic => exact iha _ hr h1
          | err e => rw [h1] at h; cases h
          | oof => rw [h1] at h; cases h
          | ok vs s1 =>
            rw [h1] at h
            simp only [Res.bind_okc] at h
            split at h
            · cases h
            · cases h2 : exec P k b s1 with
              | panic => exact ihb _ (hm a h1 hr) h2
              | err e => rw [h2] at h; cases h
              | oof => rw [h2] at h; cases h
              | ok ws s2 =>
                rw [h2] at h
                simp only [Res.bind_okc, Res.map_panic] at h
                exact ih s2 (hm b h2 (hm a h1 hr)) h
    exact this _ s hr
  | star a b iha ihb =>
    intro s hr
    have : ∀ j s, Readable s.cur → starN (exec P k a) (exec P k b) j s ≠ .panic := by
      intro j
      induction j with
      | zero => intro s hr h; cases h
      | succ j ih =>
        intro s hr h
        simp only [starN] at h
        cases h1 : exec P k a s.fork with
        | panic => exact iha s.fork hr h1
        | err e => rw [h1] at h; cases h
        | oof => rw [h1] at h; cases h
        | ok vs s1 =>
          rw [h1] at h
          simp only [] at h
          have hr1 : Readable (s.advanceTo s1).cur := hm a (s := s.fork) (s' := s1) h1 hr
          cases h2 : exec P k b (s.advanceTo s1) with
          | panic => exact ihb _ hr1 h2
          | err e => rw [h2] at h; cases h
          | oof => rw [h2] at h; cases h
          | ok ws s2 =>
            rw [h2] at h
            simp only [Res.bind_okc, Res.map_panic] at h
            exact ih s2 (hm b h2 hr1) h
    exact this _ s hr
  | build bu a iha =>
    intro s hr h
    simp only [exec, Res.map_panic] at h
    exact iha s hr h

theorem parse_no_panic (env : Env) : ∀ (n : Nat) (t : Ty) (s : PState), Readable s.cur → parse env n t s ≠ .panic
  | 0, _, _, _ => by intro h; cases h
  | n + 1, t, s, hr => by
    intro h
    have h1 : exec (parse env n) n (body env t) s = .panic := by rw [← parse_core, h]; rfl
    exact exec_no_panic (parse_moves_true env n) (parse_no_panic env n) n _ _ hr h1

end Parsel
