import Verif.Spec.Combinators

/-! Helper lemmas about the combinators. -/

namespace Parsel
open Spec

variable {P T L R O α β : Type}

theorem fork_eq_fresh (s : PState) : s.fork = fresh s := rfl

theorem advanceTo_eq_resume (s f : PState) : s.advanceTo f = resume s f := by
  unfold PState.advanceTo resume
  cases s.unexp <;> simp

/-! ### next token -/

mutual
theorem uncons_sound : ∀ (ts : List TT) (t : TT) (rest : List TT), uncons ts = some (t, rest) → Next ts t rest
  | [], _, _, h => by simp [uncons] at h
  | t0 :: ts, t, rest, h => by
    simp only [uncons] at h
    split at h
    · rename_i x inner hx
      simp only [Option.some.injEq, Prod.mk.injEq] at h
      obtain ⟨rfl, rfl⟩ := h
      exact unconsT_sound t0 x inner hx ts
    · rename_i hx
      have := unconsT_none t0 hx ts t rest
      exact this (uncons_sound ts t rest h)
theorem unconsT_sound : ∀ (t0 x : TT) (inner : List TT), unconsT t0 = some (x, inner) →
    ∀ ts, Next (t0 :: ts) x (inner ++ ts)
  | .group .none l sp, x, inner, h, ts => by
    simp only [unconsT] at h
    have h1 := uncons_sound l x inner h
    exact .enter (next_append h1 ts)
  | .group .paren _ _, _, _, h, ts => by
    simp only [unconsT, Option.some.injEq, Prod.mk.injEq] at h; obtain ⟨rfl, rfl⟩ := h; exact .here (by simp)
  | .group .bracket _ _, _, _, h, ts => by
    simp only [unconsT, Option.some.injEq, Prod.mk.injEq] at h; obtain ⟨rfl, rfl⟩ := h; exact .here (by simp)
  | .group .brace _ _, _, _, h, ts => by
    simp only [unconsT, Option.some.injEq, Prod.mk.injEq] at h; obtain ⟨rfl, rfl⟩ := h; exact .here (by simp)
  | .ident _ _, _, _, h, ts => by
    simp only [unconsT, Option.some.injEq, Prod.mk.injEq] at h; obtain ⟨rfl, rfl⟩ := h; exact .here (by simp)
  | .punct _ _ _, _, _, h, ts => by
    simp only [unconsT, Option.some.injEq, Prod.mk.injEq] at h; obtain ⟨rfl, rfl⟩ := h; exact .here (by simp)
  | .lit _ _, _, _, h, ts => by
    simp only [unconsT, Option.some.injEq, Prod.mk.injEq] at h; obtain ⟨rfl, rfl⟩ := h; exact .here (by simp)
theorem unconsT_none : ∀ (t0 : TT), unconsT t0 = none → ∀ ts t rest, Next ts t rest → Next (t0 :: ts) t rest
  | .group .none l sp, h, ts, t, rest, hn => by
    simp only [unconsT] at h
    exact .enter (uncons_none l h ts t rest hn)
  | .group .paren _ _, h, _, _, _, _ => by simp [unconsT] at h
  | .group .bracket _ _, h, _, _, _, _ => by simp [unconsT] at h
  | .group .brace _ _, h, _, _, _, _ => by simp [unconsT] at h
  | .ident _ _, h, _, _, _, _ => by simp [unconsT] at h
  | .punct _ _ _, h, _, _, _, _ => by simp [unconsT] at h
  | .lit _ _, h, _, _, _, _ => by simp [unconsT] at h
theorem uncons_none : ∀ (l : List TT), uncons l = none → ∀ ts t rest, Next ts t rest → Next (l ++ ts) t rest
  | [], _, _, _, _, hn => hn
  | t0 :: l, h, ts, t, rest, hn => by
    simp only [uncons] at h
    split at h
    · cases h
    · rename_i hx
      exact unconsT_none t0 hx (l ++ ts) t rest (uncons_none l h ts t rest hn)
theorem next_append : ∀ {l : List TT} {t : TT} {rest : List TT}, Next l t rest → ∀ ts, Next (l ++ ts) t (rest ++ ts)
  | _, _, _, .here h, ts => .here h
  | _, _, _, .enter h, ts => by
    have := next_append h ts
    rw [List.append_assoc] at this
    exact .enter this
end


theorem uncons_append (a b : List TT) :
    uncons (a ++ b) = match uncons a with
      | some (t, r) => some (t, r ++ b)
      | none => uncons b := by
  induction a with
  | nil => simp [uncons]
  | cons t a ih =>
    simp only [List.cons_append, uncons]
    cases unconsT t with
    | none => simpa using ih
    | some p => simp

theorem uncons_cons_none (inner : List TT) (sp : Span) (ts : List TT) :
    uncons (.group .none inner sp :: ts) = uncons (inner ++ ts) := by
  rw [uncons_append]
  simp only [uncons, unconsT]
  cases uncons inner <;> rfl

theorem uncons_cons_of_not_none {t : TT} (h : ∀ inner sp, t ≠ .group .none inner sp) (ts : List TT) :
    uncons (t :: ts) = some (t, ts) := by
  cases t with
  | group d inner sp => cases d <;> simp [uncons, unconsT] at h ⊢
  | ident _ _ => simp [uncons, unconsT]
  | punct _ _ _ => simp [uncons, unconsT]
  | lit _ _ => simp [uncons, unconsT]

/-- `uncons` computes the next token. -/
theorem uncons_iff (ts : List TT) (t : TT) (rest : List TT) : uncons ts = some (t, rest) ↔ Next ts t rest := by
  constructor
  · exact uncons_sound ts t rest
  · intro h
    induction h with
    | here h => exact uncons_cons_of_not_none h _
    | enter _ ih => rw [uncons_cons_none, ih]

theorem next_not_none {ts : List TT} {t : TT} {rest : List TT} (h : Next ts t rest) :
    ∀ inner sp, t ≠ .group .none inner sp := by
  induction h with
  | here h => exact h
  | enter _ ih => exact ih

/-! ### Res algebra -/

theorem Res.bind_ok {r : Res α} {k : α → PState → Res β} {b : β} {s : PState} :
    r.bind k = .ok b s ↔ ∃ a s1, r = .ok a s1 ∧ k a s1 = .ok b s := by
  cases r <;> simp [Res.bind]
  constructor
  · intro h; exact ⟨_, _, ⟨rfl, rfl⟩, h⟩
  · rintro ⟨_, _, ⟨rfl, rfl⟩, h⟩; exact h

theorem Res.bind_err {r : Res α} {k : α → PState → Res β} {e : Err} :
    r.bind k = .err e ↔ r = .err e ∨ ∃ a s1, r = .ok a s1 ∧ k a s1 = .err e := by
  cases r <;> simp [Res.bind]
  constructor
  · intro h; exact ⟨_, _, ⟨rfl, rfl⟩, h⟩
  · rintro ⟨_, _, ⟨rfl, rfl⟩, h⟩; exact h

theorem Res.bind_panic {r : Res α} {k : α → PState → Res β} :
    r.bind k = .panic ↔ r = .panic ∨ ∃ a s1, r = .ok a s1 ∧ k a s1 = .panic := by
  cases r <;> simp [Res.bind]
  constructor
  · intro h; exact ⟨_, _, ⟨rfl, rfl⟩, h⟩
  · rintro ⟨_, _, ⟨rfl, rfl⟩, h⟩; exact h

theorem Res.bind_oof {r : Res α} {k : α → PState → Res β} :
    r.bind k = .oof ↔ r = .oof ∨ ∃ a s1, r = .ok a s1 ∧ k a s1 = .oof := by
  cases r <;> simp [Res.bind]
  constructor
  · intro h; exact ⟨_, _, ⟨rfl, rfl⟩, h⟩
  · rintro ⟨_, _, ⟨rfl, rfl⟩, h⟩; exact h

theorem Res.map_ok {r : Res α} {f : α → β} {b : β} {s : PState} :
    r.map f = .ok b s ↔ ∃ a, r = .ok a s ∧ f a = b := by
  cases r <;> simp [Res.map]
  constructor
  · rintro ⟨h1, h2⟩; exact ⟨_, ⟨rfl, h2⟩, h1⟩
  · rintro ⟨a, ⟨h1, h2⟩, h3⟩; subst h1; exact ⟨h3, h2⟩

theorem Res.map_err {r : Res α} {f : α → β} {e : Err} : r.map f = .err e ↔ r = .err e := by
  cases r <;> simp [Res.map]

theorem Res.map_panic {r : Res α} {f : α → β} : r.map f = .panic ↔ r = .panic := by
  cases r <;> simp [Res.map]

theorem Res.map_oof {r : Res α} {f : α → β} : r.map f = .oof ↔ r = .oof := by
  cases r <;> simp [Res.map]

theorem Res.mapErr_ok {r : Res α} {f : Err → Err} {a : α} {s : PState} : r.mapErr f = .ok a s ↔ r = .ok a s := by
  cases r <;> simp [Res.mapErr]

theorem Res.mapErr_err {r : Res α} {f : Err → Err} {e : Err} : r.mapErr f = .err e ↔ ∃ e0, r = .err e0 ∧ f e0 = e := by
  cases r <;> simp [Res.mapErr]

theorem Res.mapErr_panic {r : Res α} {f : Err → Err} : r.mapErr f = .panic ↔ r = .panic := by
  cases r <;> simp [Res.mapErr]

theorem Res.mapErr_oof {r : Res α} {f : Err → Err} : r.mapErr f = .oof ↔ r = .oof := by
  cases r <;> simp [Res.mapErr]

/-! ### accumulator-free forms of the loops -/

/-- `terminatedLoop` without accumulator and without the assertions of the container. -/
def termList (t : Parser T) (p : Parser P) : Nat → Parser (List (T × P) × Option T)
  | 0, _ => .oof
  | n + 1, s =>
    if s.isEmpty then .ok ([], none) s
    else
      (t s).bind fun v s1 =>
        if s1.isEmpty then .ok ([], some v) s1
        else (p s1).bind fun q s2 => (termList t p n s2).map fun r => ((v, q) :: r.1, r.2)

theorem Res.bind_map {γ : Type} (r : Res α) (f : α → β) (k : β → PState → Res γ) :
    (r.map f).bind k = r.bind fun a s => k (f a) s := by cases r <;> rfl

theorem Res.map_bind {γ : Type} (r : Res α) (k : α → PState → Res β) (f : β → γ) :
    (r.bind k).map f = r.bind fun a s => (k a s).map f := by cases r <;> rfl

theorem Res.map_map {γ : Type} (r : Res α) (f : α → β) (g : β → γ) : (r.map f).map g = r.map (fun a => g (f a)) := by
  cases r <;> rfl

theorem terminatedLoop_eq (t : Parser T) (p : Parser P) (n : Nat) (inner : List (T × P)) (s : PState) :
    terminatedLoop t p n ⟨inner, none⟩ s = (termList t p n s).map fun r => ⟨inner ++ r.1, r.2⟩ := by
  induction n generalizing inner s with
  | zero => rfl
  | succ n ih =>
    simp only [terminatedLoop, termList]
    split
    · simp [Res.map]
    · cases t s with
      | err e => rfl
      | panic => rfl
      | oof => rfl
      | ok v s1 =>
        simp only [Res.bind, Punct.pushValue, Punct.emptyOrTrailing, Option.isNone_none, if_true, Res.ofOption]
        split
        · simp [Res.map]
        · cases p s1 with
          | err e => rfl
          | panic => rfl
          | oof => rfl
          | ok q s2 =>
            simp only [Res.bind, Punct.pushPunct, Res.ofOption, ih, Res.map_map]
            simp

/-- `punctuatedParse` in terms of `termList`. -/
theorem punctuatedParse_eq (n : Nat) (t : Parser T) (p : Parser P) (s : PState) :
    punctuatedParse n t p s = (termList t p n s).map fun r => ⟨r.1, r.2⟩ := by
  simp [punctuatedParse, Punct.empty, terminatedLoop_eq]

/-- `separatedLoop` without accumulator and assertions. -/
def sepList (t : Parser T) (p : Parser P) : Nat → Parser (List (P × T))
  | 0, _ => .oof
  | n + 1, s =>
    match p s.fork with
    | .ok q f => (t (s.advanceTo f)).bind fun v s1 => (sepList t p n s1).map fun r => (q, v) :: r
    | .err _ => .ok [] s
    | .panic => .panic
    | .oof => .oof

/-- The representation of the sequence `v0 (q1 v1) (q2 v2) ...` after what is already stored in `inner`. -/
def ofFirstRest (inner : List (T × P)) (v0 : T) : List (P × T) → Punct T P
  | [] => ⟨inner, some v0⟩
  | (q, v) :: rest => ofFirstRest (inner ++ [(v0, q)]) v rest

theorem separatedLoop_eq (t : Parser T) (p : Parser P) (n : Nat) (inner : List (T × P)) (v0 : T) (s : PState) :
    separatedLoop t p n ⟨inner, some v0⟩ s = (sepList t p n s).map fun r => ofFirstRest inner v0 r := by
  induction n generalizing inner v0 s with
  | zero => rfl
  | succ n ih =>
    simp only [separatedLoop, sepList]
    cases p s.fork with
    | err e => rfl
    | panic => rfl
    | oof => rfl
    | ok q f =>
      simp only []
      cases t (s.advanceTo f) with
      | err e => rfl
      | panic => rfl
      | oof => rfl
      | ok v s1 =>
        simp only [Res.bind, Punct.pushPunct, Punct.pushValue, Punct.emptyOrTrailing, Option.isNone_none, if_true,
          Res.ofOption, ih, Res.map_map]
        rfl

/-- `separatedParse` in terms of `sepList`. -/
theorem separatedParse_eq (n : Nat) (t : Parser T) (p : Parser P) (s : PState) :
    separatedParse n t p s
      = (t s).bind fun v0 s1 => (sepList t p n s1).map fun r => ⟨ofFirstRest [] v0 r⟩ := by
  unfold separatedParse
  cases t s with
  | err e => rfl
  | panic => rfl
  | oof => rfl
  | ok v0 s1 =>
    simp only [Res.bind, Punct.pushValue, Punct.empty, Punct.emptyOrTrailing, Option.isNone_none, if_true, Res.ofOption,
      separatedLoop_eq, Res.map_map]

/-- `anyLoop` without accumulator. -/
def anyList (t : Parser T) : Nat → Parser (List T)
  | 0, _ => .oof
  | n + 1, s =>
    match t s.fork with
    | .ok v f => (anyList t n (s.advanceTo f)).map fun r => v :: r
    | .err _ => .ok [] s
    | .panic => .panic
    | .oof => .oof

theorem anyLoop_eq (t : Parser T) (n : Nat) (acc : List T) (s : PState) :
    anyLoop t n acc s = (anyList t n s).map fun r => acc ++ r := by
  induction n generalizing acc s with
  | zero => rfl
  | succ n ih =>
    simp only [anyLoop, anyList]
    cases t s.fork with
    | err e => simp [Res.map]
    | panic => rfl
    | oof => rfl
    | ok v f => simp only [ih, Res.map_map, List.append_assoc, List.singleton_append]

theorem anyParse_eq (n : Nat) (t : Parser T) (s : PState) : anyParse n t s = (anyList t n s).map AnyV.mk := by
  simp [anyParse, anyLoop_eq, Res.map_map]

/-! ### the loops and their specifications -/

/-- Pairs of a stored sequence. -/
def pairsOf (r : List (T × P) × Option T) : List (Pair T P) := (Punct.mk r.1 r.2).pairs

theorem pairsOf_cons (v : T) (q : P) (r : List (T × P) × Option T) :
    pairsOf ((v, q) :: r.1, r.2) = .punctuated v q :: pairsOf r := by
  simp [pairsOf, Punct.pairs]

theorem isEmpty_iff (s : PState) : s.isEmpty = true ↔ s.cur = [] := by
  simp [PState.isEmpty]

theorem termList_ok (t : Parser T) (p : Parser P) (n : Nat) (s s' : PState) (r : List (T × P) × Option T)
    (h : termList t p n s = .ok r s') : Terminated t p s (pairsOf r) s' := by
  induction n generalizing s r with
  | zero => cases h
  | succ n ih =>
    simp only [termList] at h
    split at h
    · rename_i he
      injection h with h1 h2; subst h1; subst h2
      exact .nothing ((isEmpty_iff s).1 he)
    · rename_i he
      rw [isEmpty_iff] at he
      obtain ⟨v, s1, h1, h⟩ := Res.bind_ok.1 h
      split at h
      · rename_i he1
        injection h with h2 h3; subst h2; subst h3
        exact .last he h1 ((isEmpty_iff s1).1 he1)
      · rename_i he1
        rw [isEmpty_iff] at he1
        obtain ⟨q, s2, h2, h⟩ := Res.bind_ok.1 h
        obtain ⟨r', h3, h4⟩ := Res.map_ok.1 h
        subst h4
        rw [pairsOf_cons]
        exact .more he h1 he1 h2 (ih s2 r' h3)

theorem terminated_termList (t : Parser T) (p : Parser P) (s s' : PState) (ps : List (Pair T P))
    (h : Terminated t p s ps s') : ∃ n r, pairsOf r = ps ∧ termList t p n s = .ok r s' := by
  induction h with
  | nothing h => exact ⟨1, ([], none), rfl, by simp [termList, isEmpty_iff, h]⟩
  | last h0 h1 h2 => exact ⟨1, ([], some _), rfl, by simp [termList, isEmpty_iff, h0, h1, h2, Res.bind]⟩
  | @more _ v _ q _ _ _ h0 h1 h2 h3 _ ih =>
    obtain ⟨n, r, hr, ih⟩ := ih
    refine ⟨n + 1, ((v, q) :: r.1, r.2), ?_, ?_⟩
    · rw [pairsOf_cons, hr]
    · simp [termList, isEmpty_iff, h0, h1, h2, h3, Res.bind, ih, Res.map]

/-- A stored sequence is determined by its pairs. -/
theorem pairs_injective {a b : Punct T P} (h : a.pairs = b.pairs) : a = b := by
  obtain ⟨ai, al⟩ := a
  obtain ⟨bi, bl⟩ := b
  simp only [Punct.pairs] at h
  induction ai generalizing bi with
  | nil =>
    cases bi with
    | nil => cases al <;> cases bl <;> simp_all
    | cons y bi => cases al <;> simp at h
  | cons x ai ih =>
    cases bi with
    | nil => cases bl <;> simp at h
    | cons y bi =>
      simp only [List.map_cons, List.cons_append, List.cons.injEq, Pair.punctuated.injEq] at h
      have := ih bi h.2
      simp only [Punct.mk.injEq] at this ⊢
      exact ⟨by rw [this.1]; congr 1; exact Prod.ext h.1.1 h.1.2, this.2⟩

theorem termList_err (t : Parser T) (p : Parser P) (n : Nat) (s : PState) (e : Err)
    (h : termList t p n s = .err e) : TerminatedErr t p s e := by
  induction n generalizing s with
  | zero => cases h
  | succ n ih =>
    simp only [termList] at h
    split at h
    · cases h
    · rename_i he
      rw [isEmpty_iff] at he
      rcases Res.bind_err.1 h with h | ⟨v, s1, h1, h⟩
      · exact .item he h
      · split at h
        · cases h
        · rename_i he1
          rw [isEmpty_iff] at he1
          rcases Res.bind_err.1 h with h | ⟨q, s2, h2, h⟩
          · exact .sep he h1 he1 h
          · exact .more he h1 he1 h2 (ih s2 (Res.map_err.1 h))

theorem terminatedErr_termList (t : Parser T) (p : Parser P) (s : PState) (e : Err) (h : TerminatedErr t p s e) :
    ∃ n, termList t p n s = .err e := by
  induction h with
  | item h0 h1 => exact ⟨1, by simp [termList, isEmpty_iff, h0, h1, Res.bind]⟩
  | sep h0 h1 h2 h3 => exact ⟨1, by simp [termList, isEmpty_iff, h0, h1, h2, h3, Res.bind]⟩
  | more h0 h1 h2 h3 _ ih =>
    obtain ⟨n, ih⟩ := ih
    exact ⟨n + 1, by simp [termList, isEmpty_iff, h0, h1, h2, h3, Res.bind, ih, Res.map]⟩

theorem Spec.Terminated.end_empty {t : Parser T} {p : Parser P} {s s' : PState} {ps : List (Pair T P)}
    (h : Terminated t p s ps s') : s'.cur = [] := by
  induction h with
  | nothing h => exact h
  | last _ _ h => exact h
  | more _ _ _ _ _ ih => exact ih

theorem sepList_ok (t : Parser T) (p : Parser P) (n : Nat) (s s' : PState) (r : List (P × T))
    (h : sepList t p n s = .ok r s') : SepTail t p s r s' := by
  induction n generalizing s r with
  | zero => cases h
  | succ n ih =>
    simp only [sepList] at h
    cases hp : p s.fork with
    | err e => rw [hp] at h; injection h with h1 h2; subst h1; subst h2; exact .stop hp
    | panic => rw [hp] at h; cases h
    | oof => rw [hp] at h; cases h
    | ok q f =>
      rw [hp] at h
      obtain ⟨v, s1, h1, h⟩ := Res.bind_ok.1 h
      obtain ⟨r', h2, h3⟩ := Res.map_ok.1 h
      subst h3
      rw [advanceTo_eq_resume] at h1
      exact .more hp h1 (ih s1 r' h2)

theorem sepTail_sepList (t : Parser T) (p : Parser P) (s s' : PState) (r : List (P × T))
    (h : SepTail t p s r s') : ∃ n, sepList t p n s = .ok r s' := by
  induction h with
  | stop h => rw [← fork_eq_fresh] at h; exact ⟨1, by simp [sepList, h]⟩
  | more h1 h2 _ ih =>
    obtain ⟨n, ih⟩ := ih
    rw [← fork_eq_fresh] at h1
    rw [← advanceTo_eq_resume] at h2
    exact ⟨n + 1, by simp [sepList, h1, h2, Res.bind, ih, Res.map]⟩

theorem sepList_err (t : Parser T) (p : Parser P) (n : Nat) (s : PState) (e : Err)
    (h : sepList t p n s = .err e) : SepTailErr t p s e := by
  induction n generalizing s with
  | zero => cases h
  | succ n ih =>
    simp only [sepList] at h
    cases hp : p s.fork with
    | err e => rw [hp] at h; cases h
    | panic => rw [hp] at h; cases h
    | oof => rw [hp] at h; cases h
    | ok q f =>
      rw [hp] at h
      rcases Res.bind_err.1 h with h | ⟨v, s1, h1, h⟩
      · rw [advanceTo_eq_resume] at h; exact .item hp h
      · rw [advanceTo_eq_resume] at h1
        exact .more hp h1 (ih s1 (Res.map_err.1 h))

theorem sepTailErr_sepList (t : Parser T) (p : Parser P) (s : PState) (e : Err)
    (h : SepTailErr t p s e) : ∃ n, sepList t p n s = .err e := by
  induction h with
  | item h1 h2 =>
    rw [← fork_eq_fresh] at h1; rw [← advanceTo_eq_resume] at h2
    exact ⟨1, by simp [sepList, h1, h2, Res.bind]⟩
  | more h1 h2 _ ih =>
    obtain ⟨n, ih⟩ := ih
    rw [← fork_eq_fresh] at h1
    rw [← advanceTo_eq_resume] at h2
    exact ⟨n + 1, by simp [sepList, h1, h2, Res.bind, ih, Res.map]⟩

theorem anyList_ok (t : Parser T) (n : Nat) (s s' : PState) (r : List T)
    (h : anyList t n s = .ok r s') : Greedy t s r s' := by
  induction n generalizing s r with
  | zero => cases h
  | succ n ih =>
    simp only [anyList] at h
    cases hp : t s.fork with
    | err e => rw [hp] at h; injection h with h1 h2; subst h1; subst h2; exact .stop hp
    | panic => rw [hp] at h; cases h
    | oof => rw [hp] at h; cases h
    | ok v f =>
      rw [hp] at h
      obtain ⟨r', h2, h3⟩ := Res.map_ok.1 h
      subst h3
      rw [advanceTo_eq_resume] at h2
      exact .more hp (ih _ r' h2)

theorem greedy_anyList (t : Parser T) (s s' : PState) (r : List T) (h : Greedy t s r s') :
    ∃ n, anyList t n s = .ok r s' := by
  induction h with
  | stop h => rw [← fork_eq_fresh] at h; exact ⟨1, by simp [anyList, h]⟩
  | more h1 _ ih =>
    obtain ⟨n, ih⟩ := ih
    rw [← fork_eq_fresh] at h1
    rw [← advanceTo_eq_resume] at ih
    exact ⟨n + 1, by simp [anyList, h1, ih, Res.map]⟩

/-! ### representation of separated sequences -/

theorem ofFirstRest_pairs (inner : List (T × P)) (v0 : T) (rest : List (P × T)) :
    (ofFirstRest inner v0 rest).pairs
      = inner.map (fun x => Pair.punctuated x.1 x.2) ++ (ofFirstRest [] v0 rest).pairs := by
  induction rest generalizing inner v0 with
  | nil => simp [ofFirstRest, Punct.pairs]
  | cons x rest ih =>
    obtain ⟨q, v⟩ := x
    simp only [ofFirstRest]
    rw [ih, ih ([] ++ [(v0, q)])]
    simp

theorem ofFirstRest_cons_pairs (v0 : T) (q : P) (v : T) (rest : List (P × T)) :
    (ofFirstRest [] v0 ((q, v) :: rest)).pairs = .punctuated v0 q :: (ofFirstRest [] v rest).pairs := by
  rw [ofFirstRest, ofFirstRest_pairs]; simp

theorem ofFirstRest_nil_pairs (v0 : T) : (ofFirstRest ([] : List (T × P)) v0 []).pairs = [.stop v0] := rfl

theorem ofFirstRest_last_isSome (inner : List (T × P)) (v0 : T) (rest : List (P × T)) :
    (ofFirstRest inner v0 rest).last.isSome = true := by
  induction rest generalizing inner v0 with
  | nil => rfl
  | cons x rest ih => exact ih _ _

theorem ofFirstRest_len (inner : List (T × P)) (v0 : T) (rest : List (P × T)) :
    (ofFirstRest inner v0 rest).len = inner.length + rest.length + 1 := by
  induction rest generalizing inner v0 with
  | nil => simp [ofFirstRest, Punct.len]
  | cons x rest ih => rw [ofFirstRest, ih]; simp; omega

theorem firstRestLoop_ofFirstRest (p0 : P) (v0 : T) (rest : List (P × T)) :
    Separated.firstRestLoop p0 (ofFirstRest [] v0 rest).pairs = (p0, v0) :: rest := by
  induction rest generalizing p0 v0 with
  | nil => rfl
  | cons x rest ih =>
    obtain ⟨q, v⟩ := x
    rw [ofFirstRest_cons_pairs, Separated.firstRestLoop, ih]

theorem intoFirstRest_ofFirstRest (v0 : T) (rest : List (P × T)) :
    (Separated.mk (ofFirstRest [] v0 rest)).intoFirstRest = some (v0, rest) := by
  unfold Separated.intoFirstRest Separated.len
  simp only [ofFirstRest_len, Nat.add_eq_zero_iff, Nat.succ_ne_self, and_false, if_false, Option.bind_some]
  cases rest with
  | nil => rfl
  | cons x rest =>
    obtain ⟨q, v⟩ := x
    simp only [ofFirstRest_cons_pairs, firstRestLoop_ofFirstRest]

/-- `(v0, [(q1, v1), ...])` regrouped as `([(v0, q1), (v1, q2), ...], vn)`. -/
def shiftLast (v0 : T) : List (P × T) → List (T × P) × T
  | [] => ([], v0)
  | (q, v) :: rest => ((v0, q) :: (shiftLast v rest).1, (shiftLast v rest).2)

theorem lastRestLoop_ofFirstRest (acc : List (T × P)) (v0 : T) (rest : List (P × T)) :
    Separated.lastRestLoop acc (ofFirstRest [] v0 rest).pairs
      = some ((shiftLast v0 rest).2, acc ++ (shiftLast v0 rest).1) := by
  induction rest generalizing acc v0 with
  | nil => simp [ofFirstRest_nil_pairs, Separated.lastRestLoop, shiftLast]
  | cons x rest ih =>
    obtain ⟨q, v⟩ := x
    rw [ofFirstRest_cons_pairs, Separated.lastRestLoop, ih]
    simp [shiftLast]

theorem intoLastRest_ofFirstRest (v0 : T) (rest : List (P × T)) :
    (Separated.mk (ofFirstRest [] v0 rest)).intoLastRest = some ((shiftLast v0 rest).2, (shiftLast v0 rest).1) := by
  unfold Separated.intoLastRest Separated.len
  simp only [ofFirstRest_len, Nat.add_eq_zero_iff, Nat.succ_ne_self, and_false, if_false, Option.bind_some,
    lastRestLoop_ofFirstRest, List.nil_append]

theorem ofFirstRest_append (inner : List (T × P)) (v0 : T) (rest : List (P × T)) (q : P) (v : T) :
    ofFirstRest inner v0 (rest ++ [(q, v)]) =
      ⟨(ofFirstRest inner v0 rest).inner ++ ((ofFirstRest inner v0 rest).last.toList.map fun l => (l, q)), some v⟩ := by
  induction rest generalizing inner v0 with
  | nil => simp [ofFirstRest]
  | cons x rest ih => obtain ⟨q1, v1⟩ := x; simp only [List.cons_append, ofFirstRest]; rw [ih]

theorem exists_ofFirstRest_aux (inner done : List (T × P)) (l : T) :
    ∃ v0 rest, (⟨done ++ inner, some l⟩ : Punct T P) = ofFirstRest done v0 rest := by
  induction inner generalizing done with
  | nil => exact ⟨l, [], by simp [ofFirstRest]⟩
  | cons x inner ih =>
    obtain ⟨v, q⟩ := x
    obtain ⟨v1, rest, hr⟩ := ih (done ++ [(v, q)])
    exact ⟨v, (q, v1) :: rest, by rw [ofFirstRest, ← hr]; simp⟩

/-- Every non-empty sequence without trailing separator has that form. -/
theorem exists_ofFirstRest (s : Punct T P) (h : s.last.isSome = true) : ∃ v0 rest, s = ofFirstRest [] v0 rest := by
  obtain ⟨inner, last⟩ := s
  cases last with
  | none => simp at h
  | some l => exact exists_ofFirstRest_aux inner [] l

/-! ### trees -/

theorem leftLoop_reading (e : LeftAssoc O R) (rest : List (O × R)) :
    leftReading (leftLoop e rest) = ((leftReading e).1, (leftReading e).2 ++ rest) := by
  induction rest generalizing e with
  | nil => simp [leftLoop]
  | cons x rest ih =>
    obtain ⟨o, r⟩ := x
    simp [leftLoop, ih, leftReading]

theorem leftReading_injective {a b : LeftAssoc O R} (h : leftReading a = leftReading b) : a = b := by
  induction a generalizing b with
  | rhs r =>
    cases b with
    | rhs r' => simp [leftReading] at h; rw [h]
    | binary l o r' => simp [leftReading] at h
  | binary l o r ih =>
    cases b with
    | rhs r' => simp [leftReading] at h
    | binary l' o' r' =>
      simp only [leftReading, Prod.mk.injEq] at h
      obtain ⟨h1, h2⟩ := h
      have h3 := List.append_inj' h2 rfl
      simp at h3
      rw [ih (Prod.ext h1 h3.1), h3.2.1, h3.2.2]

theorem rightReading_injective {a b : RightAssoc O L} (h : rightReading a = rightReading b) : a = b := by
  induction a generalizing b with
  | lhs l =>
    cases b with
    | lhs l' => simp [rightReading] at h; rw [h]
    | binary l' o r' => simp [rightReading] at h
  | binary l o r ih =>
    cases b with
    | lhs r' => simp [rightReading] at h
    | binary l' o' r' =>
      simp only [rightReading, Prod.mk.injEq, List.cons.injEq] at h
      rw [ih (Prod.ext h.2.1.2 h.2.2), h.1, h.2.1.1]

theorem rightLoop_append (e : RightAssoc O L) (a b : List (L × O)) :
    rightLoop e (a ++ b) = rightLoop (rightLoop e a) b := by
  induction a generalizing e with
  | nil => rfl
  | cons x a ih => obtain ⟨l, o⟩ := x; simp [rightLoop, ih]

theorem rightLoop_reading (v0 : L) (rest : List (O × L)) :
    rightReading (rightLoop (.lhs (shiftLast v0 rest).2) (shiftLast v0 rest).1.reverse) = (v0, rest) := by
  induction rest generalizing v0 with
  | nil => rfl
  | cons x rest ih =>
    obtain ⟨o, v⟩ := x
    simp only [shiftLast, List.reverse_cons, rightLoop_append]
    simp only [rightLoop, rightReading, ih]

theorem leftAssocOf_ofFirstRest (v0 : R) (rest : List (O × R)) :
    leftAssocOf ⟨ofFirstRest [] v0 rest⟩ = some (leftLoop (.rhs v0) rest) := by
  simp [leftAssocOf, intoFirstRest_ofFirstRest]

theorem rightAssocOf_ofFirstRest (v0 : L) (rest : List (O × L)) :
    rightAssocOf ⟨ofFirstRest [] v0 rest⟩ =
      some (rightLoop (.lhs (shiftLast v0 rest).2) (shiftLast v0 rest).1.reverse) := by
  simp [rightAssocOf, intoLastRest_ofFirstRest]

end Parsel
