import Verif.Spec.Termination
import Verif.Proofs.Typed
import Verif.Proofs.Mono

/-! Termination of parsing. -/

namespace Parsel
open Spec

/-! ### sizes -/

theorem sizes_append : ∀ (a b : List TT), TT.sizes (a ++ b) = TT.sizes a + TT.sizes b
  | [], b => by simp [TT.sizes]
  | t :: a, b => by simp only [List.cons_append, TT.sizes, sizes_append a b]; omega

theorem size_pos (t : TT) : 0 < t.size := by cases t <;> simp [TT.size]

theorem next_size {ts rest : List TT} {t : TT} (h : Next ts t rest) :
    TT.sizes rest < TT.sizes ts ∧ ∀ d inner sp, t = .group d inner sp → TT.sizes inner < TT.sizes ts := by
  induction h with
  | @here t ts _ =>
    refine ⟨?_, ?_⟩
    · have := size_pos t; simp only [TT.sizes]; omega
    · rintro d inner sp rfl; simp only [TT.sizes, TT.size]; omega
  | @enter inner sp ts t rest _ ih =>
    have h1 : TT.sizes (inner ++ ts) ≤ TT.sizes (.group .none inner sp :: ts) := by
      rw [sizes_append]; simp only [TT.sizes, TT.size]; omega
    exact ⟨Nat.lt_of_lt_of_le ih.1 h1, fun d i s heq => Nat.lt_of_lt_of_le (ih.2 d i s heq) h1⟩

theorem steps_size {a b : List TT} (h : Steps a b) : TT.sizes b ≤ TT.sizes a := by
  induction h with
  | refl => exact Nat.le_refl _
  | step h _ ih => exact Nat.le_trans ih (Nat.le_of_lt (next_size h).1)

theorem plus_size {a b : List TT} (h : Plus a b) : TT.sizes b < TT.sizes a := by
  obtain ⟨t, c, h1, h2⟩ := h
  exact Nat.lt_of_le_of_lt (steps_size h2) (next_size h1).1

/-! ### finite acyclic relations -/

theorem Spec.Chain.trans {α : Type} {r : α → α → Prop} {a b c : α} (h1 : Chain r a b) (h2 : Chain r b c) : Chain r a c := by
  induction h1 with
  | one h => exact .more h h2
  | more h _ ih => exact .more h (ih h2)

open Classical in
theorem acc_of_finite {α : Type} (r : α → α → Prop) : ∀ (n : Nat) (L : List α) (a : α), L.length ≤ n → (∀ b, Chain r a b → b ∈ L) →
    (∀ b, Chain r a b → ¬ Chain r b b) → Acc (fun x y => r y x) a
  | 0, L, a, hl, hL, hn => by
    refine ⟨a, fun b hb => ?_⟩
    have := hL b (.one hb)
    have hL0 : L = [] := by cases L <;> simp_all
    rw [hL0] at this; cases this
  | n + 1, L, a, hl, hL, hn => by
    refine ⟨a, fun b hb => ?_⟩
    have hb' : Chain r a b := .one hb
    refine acc_of_finite r n (L.filter (· ≠ b)) b ?_ ?_ fun c hc => hn c (hb'.trans hc)
    · have : (L.filter (· ≠ b)).length < L.length := by
        rw [List.length_filter_lt_length_iff_exists]
        exact ⟨b, hL b hb', by simp⟩
      omega
    · intro c hc
      simp only [List.mem_filter, decide_eq_true_eq]
      refine ⟨hL c (hb'.trans hc), ?_⟩
      rintro rfl
      exact hn c hb' hc

variable [Ext]

/-! ### what can be empty -/

theorem inits_null {N : Ty → Prop} : ∀ {is : List (FieldInit Ty)}, (initsE is).Null N → ∀ i ∈ is, N i.ty
  | [], _, i, hi => by cases hi
  | j :: is, h, i, hi => by
    simp only [initsE, E.Null] at h
    rcases List.mem_cons.mp hi with rfl | hi
    · exact h.1
    · exact inits_null h.2 i hi

theorem fields_null {N : Ty → Prop} {en : Option Text} {x c : Text} {fs : Fields Ty} (h : (ctorE x (expandFields en c fs)).Null N) :
    ∀ t ∈ fieldTypes fs, N t := by
  intro t ht
  rw [← inits_ty_map en c fs] at ht
  obtain ⟨i, hi, rfl⟩ := List.mem_map.mp ht
  exact inits_null h i hi

theorem alts_null {N : Ty → Prop} {x : Text} : ∀ {cs : List (CtorCode Ty)} {e : E}, (altsE x e cs).Null N →
    e.Null N ∨ ∃ c ∈ cs, (ctorE x c).Null N
  | [], e, h => .inl h
  | c :: cs, e, h => by
    rcases alts_null (cs := cs) h with h | ⟨c', hc, h⟩
    · rcases h with h | h
      · exact .inl h
      · exact .inr ⟨c, by simp, h⟩
    · exact .inr ⟨c', by simp [hc], h⟩

theorem body_null {env : Env} {t : Ty} (h : (body env t).Null (CanBeEmpty env)) : CanBeEmpty env t := by
  cases t with
  | leaf l =>
    simp only [body, E.Null] at h
    cases l with
    | empty => exact .empty
    | eof => exact .eof
    | notEof => exact .notEof
    | punct tok => cases tok with
      | nil => exact .punct
      | cons => simp [Leaf.silent] at h
    | _ => simp [Leaf.silent] at h
  | named x =>
    simp only [body] at h
    cases he : env x with
    | struct fields =>
      rw [code_struct he] at h
      exact .struct he (fields_null (x := x) h)
    | enum vs =>
      rw [code_enum he] at h
      cases vs with
      | nil => exact absurd h id
      | cons w ws =>
        rcases alts_null (x := x) (e := .attempt (ctorE x (expandFields (some x) w.ident w.fields))) (cs := ws.map fun (w : VariantDef Ty) => expandFields (some x) w.ident w.fields) h with h | ⟨c, hc, h⟩
        · exact .enum he (by simp) (fields_null (x := x) h)
        · obtain ⟨w', hw, rfl⟩ := List.mem_map.mp hc
          exact .enum he (by simp [hw]) (fields_null (x := x) h)
  | boxed t => exact .boxed h
  | maybe p t => exact .maybe
  | paren t => exact absurd h id
  | bracket t => exact absurd h id
  | brace t => exact absurd h id
  | punctuated t p => exact .punctuated
  | separated t p => exact .separated h.1
  | any t => exact .any
  | leftAssoc o r => exact .leftAssoc h.1
  | rightAssoc o l => exact .rightAssoc h.1
  | either l r =>
    rcases h with h | h
    · exact .eitherLeft h
    · exact .eitherRight h

/-- Success without reading happens only for types that can be empty. -/
theorem parse_moves (env : Env) : ∀ (n : Nat) (t : Ty) (s : PState) (v : Val) (s' : PState), parse env n t s = .ok v s' →
    Moves (CanBeEmpty env t) s s'
  | 0, _, _, _, _, h => by cases h
  | n + 1, t, s, v, s', h => by
    have h1 : exec (parse env n) n (body env t) s = .ok [v] s' := by rw [← parse_core, h]; rfl
    exact (exec_moves (N := CanBeEmpty env) (parse_moves env n) n _ _ _ _ h1).imp body_null

/-! ### what expressions call -/

/-- Types called before a token is read. -/
def E.Heads (N : Ty → Prop) : E → Ty → Prop
  | .ret, _ => False
  | .leaf _, _ => False
  | .ty t, u => u = t
  | .delim _ _, _ => False
  | .fail _, _ => False
  | .seq a b, u => a.Heads N u ∨ (a.Null N ∧ b.Heads N u)
  | .label _ _ _ a, u => a.Heads N u
  | .attempt a, u => a.Heads N u
  | .opt a b, u => a.Heads N u ∨ (a.Null N ∧ b.Heads N u)
  | .alt a b, u => a.Heads N u ∨ b.Heads N u
  | .term a b, u => a.Heads N u ∨ (a.Null N ∧ b.Heads N u)
  | .star a b, u => a.Heads N u ∨ (a.Null N ∧ b.Heads N u)
  | .build _ a, u => a.Heads N u

/-- All types called. -/
def E.Uses : E → Ty → Prop
  | .ret, _ => False
  | .leaf _, _ => False
  | .ty t, u => u = t
  | .delim _ t, u => u = t
  | .fail _, _ => False
  | .seq a b, u => a.Uses u ∨ b.Uses u
  | .label _ _ _ a, u => a.Uses u
  | .attempt a, u => a.Uses u
  | .opt a b, u => a.Uses u ∨ b.Uses u
  | .alt a b, u => a.Uses u ∨ b.Uses u
  | .term a b, u => a.Uses u ∨ b.Uses u
  | .star a b, u => a.Uses u ∨ b.Uses u
  | .build _ a, u => a.Uses u

/-- No round of a loop can be empty. -/
def E.Loops (N : Ty → Prop) : E → Prop
  | .ret => True
  | .leaf _ => True
  | .ty _ => True
  | .delim _ _ => True
  | .fail _ => True
  | .seq a b => a.Loops N ∧ b.Loops N
  | .label _ _ _ a => a.Loops N
  | .attempt a => a.Loops N
  | .opt a b => a.Loops N ∧ b.Loops N
  | .alt a b => a.Loops N ∧ b.Loops N
  | .term a b => a.Loops N ∧ b.Loops N ∧ ¬ (a.Null N ∧ b.Null N)
  | .star a b => a.Loops N ∧ b.Loops N ∧ ¬ (a.Null N ∧ b.Null N)
  | .build _ a => a.Loops N

theorem heads_uses {N : Ty → Prop} {e : E} {u : Ty} (h : e.Heads N u) : e.Uses u := by
  induction e with
  | ret => exact h
  | leaf => exact h
  | ty => exact h
  | delim => exact absurd h id
  | fail => exact h
  | seq a b iha ihb => rcases h with h | h
                       · exact .inl (iha h)
                       · exact .inr (ihb h.2)
  | label _ _ _ a iha => exact iha h
  | attempt a iha => exact iha h
  | opt a b iha ihb => rcases h with h | h
                       · exact .inl (iha h)
                       · exact .inr (ihb h.2)
  | alt a b iha ihb => rcases h with h | h
                       · exact .inl (iha h)
                       · exact .inr (ihb h)
  | term a b iha ihb => rcases h with h | h
                        · exact .inl (iha h)
                        · exact .inr (ihb h.2)
  | star a b iha ihb => rcases h with h | h
                        · exact .inl (iha h)
                        · exact .inr (ihb h.2)
  | build _ a iha => exact iha h

/-! ### coming to an end -/

/-- From some amount of fuel on, the outcome is the same, and not "out of fuel". -/
def Finishes {α : Type} (f : Nat → Res α) : Prop := ∃ r, r ≠ .oof ∧ ∃ n, ∀ m, n ≤ m → f m = r

theorem Finishes.const {α : Type} {r : Res α} (h : r ≠ .oof) : Finishes fun _ => r := ⟨r, h, 0, fun _ _ => rfl⟩

theorem Finishes.then {α β : Type} {f : Nat → Res α} {g : Nat → Res α → Res β} (hf : Finishes f)
    (hg : ∀ r, r ≠ .oof → (∃ m, f m = r) → Finishes fun m => g m r) : Finishes fun m => g m (f m) := by
  obtain ⟨r, hr, n, hn⟩ := hf
  obtain ⟨r', hr', n', hn'⟩ := hg r hr ⟨n, hn n (Nat.le_refl _)⟩
  refine ⟨r', hr', max n n', fun m hm => ?_⟩
  show g m (f m) = r'
  rw [hn m (by omega)]
  exact hn' m (by omega)

theorem Finishes.parse {env : Env} {t : Ty} {s : PState} {n : Nat} (h : parse env n t s ≠ .oof) : Finishes fun m => parse env m t s :=
  ⟨_, h, n, fun _ hm => parse_stable hm h⟩

/-- The states where the types that an expression calls come to an end. -/
structure Safe (env : Env) (e : E) (s : PState) : Prop where
  heads : ∀ u s', e.Heads (CanBeEmpty env) u → s'.cur = s.cur → Finishes fun m => parse env m u s'
  uses : ∀ u s', e.Uses u → TT.sizes s'.cur < TT.sizes s.cur → Finishes fun m => parse env m u s'

theorem Safe.smaller {env : Env} {e : E} {s s' : PState} (h : Safe env e s) (hs : TT.sizes s'.cur < TT.sizes s.cur) : Safe env e s' :=
  ⟨fun u t hu ht => h.uses u t (heads_uses hu) (by rw [ht]; exact hs), fun u t hu ht => h.uses u t hu (Nat.lt_trans ht hs)⟩

theorem Safe.same {env : Env} {e : E} {s s' : PState} (h : Safe env e s) (hs : s'.cur = s.cur) : Safe env e s' :=
  ⟨fun u t hu ht => h.heads u t hu (ht.trans hs), fun u t hu ht => h.uses u t hu (by rw [← hs]; exact ht)⟩

theorem Safe.sub {env : Env} {e a : E} {s : PState} (h : Safe env e s) (h1 : ∀ u, a.Heads (CanBeEmpty env) u → e.Heads (CanBeEmpty env) u)
    (h2 : ∀ u, a.Uses u → e.Uses u) : Safe env a s :=
  ⟨fun u t hu ht => h.heads u t (h1 u hu) ht, fun u t hu ht => h.uses u t (h2 u hu) ht⟩

/-- The second part of a sequence is safe after the first part. -/
theorem Safe.after {env : Env} {e a b : E} {s s1 : PState} (h : Safe env e s) (hm : Moves (a.Null (CanBeEmpty env)) s s1)
    (h1 : ∀ u, a.Null (CanBeEmpty env) → b.Heads (CanBeEmpty env) u → e.Heads (CanBeEmpty env) u) (h2 : ∀ u, b.Uses u → e.Uses u) :
    Safe env b s1 := by
  rcases hm.2 with ⟨hn, hc⟩ | hp
  · exact ⟨fun u t hu ht => h.heads u t (h1 u hn hu) (ht.trans hc), fun u t hu ht => h.uses u t (h2 u hu) (by rw [← hc]; exact ht)⟩
  · have hs := plus_size hp
    exact ⟨fun u t hu ht => h.uses u t (h2 u (heads_uses hu)) (by rw [ht]; exact hs), fun u t hu ht => h.uses u t (h2 u hu) (Nat.lt_trans ht hs)⟩

theorem exec_ends {env : Env} : ∀ (e : E) (s : PState), e.Loops (CanBeEmpty env) → Safe env e s → Finishes fun m => exec (parse env m) m e s := by
  have hM : ∀ (m : Nat) (e : E) s vs s', exec (parse env m) m e s = .ok vs s' → Moves (e.Null (CanBeEmpty env)) s s' :=
    fun m => exec_moves (parse_moves env m) m
  intro e
  induction e with
  | ret => intro s _ _; exact .const (by simp)
  | leaf l =>
    intro s _ _
    refine .const ?_
    have := leaf_outcome l s
    intro h
    cases hl : leafParse l s <;> rw [hl] at h this <;> first | (cases h; done) | (cases this; done)
  | ty t =>
    intro s _ hs
    refine (hs.heads t s rfl rfl).then (g := fun _ r => r.map fun v => [v]) fun r hr _ => .const ?_
    cases r <;> simp_all
  | delim d t =>
    intro s _ hs
    simp only [exec, delimited]
    cases hu : uncons s.cur with
    | none => exact .const (by simp)
    | some y =>
      obtain ⟨tok, rest⟩ := y
      cases tok with
      | group d' inner sp =>
        simp only []
        split
        · have hsz := (next_size ((uncons_iff _ _ _).mp hu)).2 _ _ _ rfl
          refine (hs.uses t ⟨inner, sp.closeOf, s.unexp⟩ rfl hsz).then
            (g := fun _ r => (r.bind fun v s' => Res.ok (sp, v) { cur := rest, scope := s.scope, unexp := s'.dropUnexp }).map
              fun r => [Val.group d r.1 r.2]) fun r hr _ => .const ?_
          cases r <;> simp_all
        · exact .const (by simp)
      | ident => exact .const (by simp)
      | punct => exact .const (by simp)
      | lit => exact .const (by simp)
  | fail msg => intro s _ _; exact .const (by simp [exec])
  | seq a b iha ihb =>
    intro s hl hs
    have ha := iha s hl.1 (hs.sub (fun u h => .inl h) fun u h => .inl h)
    refine ha.then (g := fun m r => r.bind fun vs s1 => (exec (parse env m) m b s1).map fun ws => vs ++ ws) fun r hr ⟨m, hm⟩ => ?_
    cases r with
    | ok vs s1 =>
      have hb := ihb s1 hl.2 (hs.after (a := a) (hM m _ _ _ _ hm) (fun u h1 h2 => .inr ⟨h1, h2⟩) fun u h => .inr h)
      refine hb.then (g := fun _ r => r.map fun ws => vs ++ ws) fun r hr _ => .const ?_
      cases r <;> simp_all
    | err e => exact .const (by simp)
    | panic => exact .const (by simp)
    | oof => exact absurd rfl hr
  | label en c f a iha =>
    intro s hl hs
    refine (iha s hl ⟨hs.heads, hs.uses⟩).then (g := fun _ r => r.mapErr fun e => chainError e en c f) fun r hr _ => .const ?_
    cases r <;> simp_all
  | attempt a iha =>
    intro s hl hs
    have hs' : Safe env a s.fork := (Safe.mk hs.heads hs.uses : Safe env a s).same rfl
    refine (iha s.fork hl hs').then (g := fun _ r => match r with
      | .ok vs f => .ok vs (s.advanceTo f)
      | .err e => .err e
      | .panic => .panic
      | .oof => .oof) fun r hr _ => .const ?_
    cases r <;> simp_all
  | opt a b iha ihb =>
    intro s hl hs
    have ha := iha s.fork hl.1 ((hs.sub (fun u h => .inl h) fun u h => .inl h).same rfl)
    refine ha.then (g := fun m r => match r with
      | .ok vs f => (exec (parse env m) m b (s.advanceTo f)).map fun ws => vs ++ ws
      | .err _ => .ok [] s
      | .panic => .panic
      | .oof => .oof) fun r hr ⟨m, hm⟩ => ?_
    cases r with
    | ok vs f =>
      have hb := ihb (s.advanceTo f) hl.2 (hs.after (a := a) (hM m _ _ _ _ hm).advance (fun u h1 h2 => .inr ⟨h1, h2⟩) fun u h => .inr h)
      refine hb.then (g := fun _ r => r.map fun ws => vs ++ ws) fun r hr _ => .const ?_
      cases r <;> simp_all
    | err e => exact .const (by simp)
    | panic => exact .const (by simp)
    | oof => exact absurd rfl hr
  | alt a b iha ihb =>
    intro s hl hs
    have ha := iha s hl.1 (hs.sub (fun u h => .inl h) fun u h => .inl h)
    have hb := ihb s.fork hl.2 ((hs.sub (fun u h => .inr h) fun u h => .inr h).same rfl)
    refine ha.then (g := fun m r => match r with
      | .ok vs s' => .ok vs s'
      | .err e1 =>
        match exec (parse env m) m b s.fork with
        | .ok vs f => .ok vs (s.advanceTo f)
        | .err e2 => .err (maxByEnd e1 e2)
        | .panic => .panic
        | .oof => .oof
      | .panic => .panic
      | .oof => .oof) fun r hr _ => ?_
    cases r with
    | ok vs f => exact .const (by simp)
    | err e =>
      refine hb.then (g := fun _ r => match r with
        | .ok vs f => .ok vs (s.advanceTo f)
        | .err e2 => .err (maxByEnd e e2)
        | .panic => .panic
        | .oof => .oof) fun r hr _ => .const ?_
      cases r <;> simp_all
    | panic => exact .const (by simp)
    | oof => exact absurd rfl hr
  | term a b iha ihb =>
    have key : ∀ k s, TT.sizes s.cur < k → (E.term a b).Loops (CanBeEmpty env) → Safe env (.term a b) s →
        ∃ r, r ≠ .oof ∧ ∃ n, ∀ m, n ≤ m → ∀ j, n ≤ j → termN (exec (parse env m) m a) (exec (parse env m) m b) j s = r := by
      intro k
      induction k with
      | zero => intro s h; omega
      | succ k ih =>
        intro s hk hl hs
        by_cases he : s.isEmpty = true
        · refine ⟨.ok [] s, by simp, 1, fun m _ j hj => ?_⟩
          obtain ⟨j, rfl⟩ : ∃ j', j = j' + 1 := ⟨j - 1, by omega⟩
          simp only [termN, he, if_true]
        · have unfold1 : ∀ m j, termN (exec (parse env m) m a) (exec (parse env m) m b) (j + 1) s =
              (exec (parse env m) m a s).bind fun vs s1 =>
                if s1.isEmpty then .ok vs s1
                else (exec (parse env m) m b s1).bind fun ws s2 =>
                  (termN (exec (parse env m) m a) (exec (parse env m) m b) j s2).map fun r => vs ++ (ws ++ r) := by
            intro m j; simp only [termN, he]; rfl
          obtain ⟨r, hr, n, hn⟩ := iha s hl.1 (hs.sub (fun u h => .inl h) fun u h => .inl h)
          replace hn : ∀ m, n ≤ m → exec (parse env m) m a s = r := hn
          have stop : r.bind (fun vs s1 => (Res.oof : Res (List Val))) ≠ .oof → ∃ r, r ≠ .oof ∧ ∃ n, ∀ m, n ≤ m → ∀ j, n ≤ j →
              termN (exec (parse env m) m a) (exec (parse env m) m b) j s = r := by
            intro hne
            refine ⟨r.bind (fun vs s1 => (Res.oof : Res (List Val))), hne, n + 1, fun m hm j hj => ?_⟩
            obtain ⟨j, rfl⟩ : ∃ j', j = j' + 1 := ⟨j - 1, by omega⟩
            rw [unfold1, hn m (by omega)]
            cases r <;> simp_all
          cases r with
          | oof => exact absurd rfl hr
          | err e => exact stop (by simp)
          | panic => exact stop (by simp)
          | ok vs s1 =>
            by_cases he1 : s1.isEmpty = true
            · refine ⟨.ok vs s1, by simp, n + 1, fun m hm j hj => ?_⟩
              obtain ⟨j, rfl⟩ : ∃ j', j = j' + 1 := ⟨j - 1, by omega⟩
              rw [unfold1, hn m (by omega)]
              simp only [Res.bind_okc, he1, if_true]
            · have hmv := hM n _ _ _ _ (hn n (Nat.le_refl _))
              obtain ⟨r2, hr2, n2, hn2⟩ := ihb s1 hl.2.1 (hs.after (a := a) hmv (fun u h1 h2 => .inr ⟨h1, h2⟩) fun u h => .inr h)
              have stop2 : r2.bind (fun vs s1 => (Res.oof : Res (List Val))) ≠ .oof → ∃ r, r ≠ .oof ∧ ∃ n, ∀ m, n ≤ m → ∀ j, n ≤ j →
                  termN (exec (parse env m) m a) (exec (parse env m) m b) j s = r := by
                intro hne
                refine ⟨r2.bind (fun vs s1 => (Res.oof : Res (List Val))), hne, max n n2 + 1, fun m hm j hj => ?_⟩
                obtain ⟨j, rfl⟩ : ∃ j', j = j' + 1 := ⟨j - 1, by omega⟩
                rw [unfold1, hn m (by omega)]
                simp only [Res.bind_okc, he1]
                simp only [Bool.false_eq_true, if_false, hn2 m (by omega)]
                cases r2 <;> simp_all
              cases r2 with
              | oof => exact absurd rfl hr2
              | err e => exact stop2 (by simp)
              | panic => exact stop2 (by simp)
              | ok ws s2 =>
                have hmv2 := hmv.trans (hM n2 _ _ _ _ (hn2 n2 (Nat.le_refl _)))
                have hsz : TT.sizes s2.cur < TT.sizes s.cur := by
                  rcases hmv2.2 with h | h
                  · exact absurd h.1 hl.2.2
                  · exact plus_size h
                obtain ⟨r3, hr3, n3, hn3⟩ := ih s2 (by omega) hl (hs.smaller hsz)
                refine ⟨r3.map fun r => vs ++ (ws ++ r), ?_, max n (max n2 n3) + 1, fun m hm j hj => ?_⟩
                · cases r3 <;> simp_all
                · obtain ⟨j, rfl⟩ : ∃ j', j = j' + 1 := ⟨j - 1, by omega⟩
                  rw [unfold1, hn m (by omega)]
                  simp only [Res.bind_okc, he1]
                  simp only [Bool.false_eq_true, if_false, hn2 m (by omega), Res.bind_okc, hn3 m (by omega) j (by omega)]
    intro s hl hs
    obtain ⟨r, hr, n, hn⟩ := key _ s (Nat.lt_succ_self _) hl hs
    exact ⟨r, hr, n, fun m hm => hn m hm m hm⟩
  | star a b iha ihb =>
    have key : ∀ k s, TT.sizes s.cur < k → (E.star a b).Loops (CanBeEmpty env) → Safe env (.star a b) s →
        ∃ r, r ≠ .oof ∧ ∃ n, ∀ m, n ≤ m → ∀ j, n ≤ j → starN (exec (parse env m) m a) (exec (parse env m) m b) j s = r := by
      intro k
      induction k with
      | zero => intro s h; omega
      | succ k ih =>
        intro s hk hl hs
        obtain ⟨r, hr, n, hn⟩ := iha s.fork hl.1 ((hs.sub (fun u h => .inl h) fun u h => .inl h).same rfl)
        cases r with
        | oof => exact absurd rfl hr
        | err e =>
          refine ⟨.ok [] s, by simp, n + 1, fun m hm j hj => ?_⟩
          obtain ⟨j, rfl⟩ : ∃ j', j = j' + 1 := ⟨j - 1, by omega⟩
          simp only [starN, hn m (by omega)]
        | panic =>
          refine ⟨.panic, by simp, n + 1, fun m hm j hj => ?_⟩
          obtain ⟨j, rfl⟩ : ∃ j', j = j' + 1 := ⟨j - 1, by omega⟩
          simp only [starN, hn m (by omega)]
        | ok vs f =>
          have hmv := (hM n _ _ _ _ (hn n (Nat.le_refl _))).advance (s := s)
          obtain ⟨r2, hr2, n2, hn2⟩ := ihb (s.advanceTo f) hl.2.1 (hs.after (a := a) hmv (fun u h1 h2 => .inr ⟨h1, h2⟩) fun u h => .inr h)
          have stop2 : r2.bind (fun vs s1 => (Res.oof : Res (List Val))) ≠ .oof → ∃ r, r ≠ .oof ∧ ∃ n, ∀ m, n ≤ m → ∀ j, n ≤ j →
              starN (exec (parse env m) m a) (exec (parse env m) m b) j s = r := by
            intro hne
            refine ⟨r2.bind (fun vs s1 => (Res.oof : Res (List Val))), hne, max n n2 + 1, fun m hm j hj => ?_⟩
            obtain ⟨j, rfl⟩ : ∃ j', j = j' + 1 := ⟨j - 1, by omega⟩
            simp only [starN, hn m (by omega), hn2 m (by omega)]
            cases r2 <;> simp_all
          cases r2 with
          | oof => exact absurd rfl hr2
          | err e => exact stop2 (by simp)
          | panic => exact stop2 (by simp)
          | ok ws s2 =>
            have hmv2 := hmv.trans (hM n2 _ _ _ _ (hn2 n2 (Nat.le_refl _)))
            have hsz : TT.sizes s2.cur < TT.sizes s.cur := by
              rcases hmv2.2 with h | h
              · exact absurd h.1 hl.2.2
              · exact plus_size h
            obtain ⟨r3, hr3, n3, hn3⟩ := ih s2 (by omega) hl (hs.smaller hsz)
            refine ⟨r3.map fun r => vs ++ (ws ++ r), ?_, max n (max n2 n3) + 1, fun m hm j hj => ?_⟩
            · cases r3 <;> simp_all
            · obtain ⟨j, rfl⟩ : ∃ j', j = j' + 1 := ⟨j - 1, by omega⟩
              simp only [starN, hn m (by omega), hn2 m (by omega), Res.bind_okc, hn3 m (by omega) j (by omega)]
    intro s hl hs
    obtain ⟨r, hr, n, hn⟩ := key _ s (Nat.lt_succ_self _) hl hs
    exact ⟨r, hr, n, fun m hm => hn m hm m hm⟩
  | build bu a iha =>
    intro s hl hs
    refine (iha s hl ⟨hs.heads, hs.uses⟩).then (g := fun _ r => r.map fun vs => [bu.apply vs]) fun r hr _ => .const ?_
    cases r <;> simp_all

/-! ### types -/

theorem seqStarts_cons {env : Env} {t u : Ty} {ts : List Ty} (h : u = t ∨ CanBeEmpty env t ∧ SeqStarts env ts u) : SeqStarts env (t :: ts) u := by
  rcases h with rfl | ⟨h1, pre, post, rfl, h2⟩
  · exact ⟨[], ts, rfl, by simp⟩
  · refine ⟨t :: pre, post, rfl, ?_⟩
    intro w hw
    rcases List.mem_cons.mp hw with rfl | hw
    · exact h1
    · exact h2 w hw

theorem inits_heads {env : Env} : ∀ {is : List (FieldInit Ty)} {u : Ty}, (initsE is).Heads (CanBeEmpty env) u → SeqStarts env (is.map (·.ty)) u
  | [], u, h => absurd h id
  | i :: is, u, h => by
    rcases h with h | ⟨h1, h2⟩
    · exact seqStarts_cons (.inl h)
    · exact seqStarts_cons (.inr ⟨h1, inits_heads h2⟩)

theorem inits_uses : ∀ {is : List (FieldInit Ty)} {u : Ty}, (initsE is).Uses u → u ∈ is.map (·.ty)
  | [], u, h => absurd h id
  | i :: is, u, h => by
    rcases h with h | h
    · simp only [List.map_cons, List.mem_cons]; exact .inl h
    · simp only [List.map_cons, List.mem_cons]; exact .inr (inits_uses h)

theorem inits_loops {N : Ty → Prop} : ∀ {is : List (FieldInit Ty)}, (initsE is).Loops N
  | [] => trivial
  | _ :: _ => ⟨trivial, inits_loops⟩

theorem alts_heads {N : Ty → Prop} {x : Text} {u : Ty} : ∀ {cs : List (CtorCode Ty)} {e : E}, (altsE x e cs).Heads N u →
    e.Heads N u ∨ ∃ c ∈ cs, (ctorE x c).Heads N u
  | [], e, h => .inl h
  | c :: cs, e, h => by
    rcases alts_heads (cs := cs) h with h | ⟨c', hc, h⟩
    · rcases h with h | h
      · exact .inl h
      · exact .inr ⟨c, by simp, h⟩
    · exact .inr ⟨c', by simp [hc], h⟩

theorem alts_uses {x : Text} {u : Ty} : ∀ {cs : List (CtorCode Ty)} {e : E}, (altsE x e cs).Uses u →
    e.Uses u ∨ ∃ c ∈ cs, (ctorE x c).Uses u
  | [], e, h => .inl h
  | c :: cs, e, h => by
    rcases alts_uses (cs := cs) h with h | ⟨c', hc, h⟩
    · rcases h with h | h
      · exact .inl h
      · exact .inr ⟨c, by simp, h⟩
    · exact .inr ⟨c', by simp [hc], h⟩

theorem alts_loops {N : Ty → Prop} {x : Text} : ∀ {cs : List (CtorCode Ty)} {e : E}, e.Loops N → (altsE x e cs).Loops N
  | [], e, h => h
  | c :: cs, e, h => by
    show (altsE x (.alt e (ctorE x c)) cs).Loops N
    exact alts_loops ⟨h, inits_loops⟩

theorem body_heads {env : Env} {t u : Ty} (h : (body env t).Heads (CanBeEmpty env) u) : StartsWith env t u := by
  have pair : ∀ {a b : Ty}, u = a ∨ (CanBeEmpty env a ∧ u = b) → SeqStarts env [a, b] u := by
    intro a b h
    rcases h with h | ⟨h1, h2⟩
    · exact seqStarts_cons (.inl h)
    · exact seqStarts_cons (.inr ⟨h1, seqStarts_cons (.inl h2)⟩)
  have sep : ∀ {a b : Ty}, u = a ∨ CanBeEmpty env a ∧ (u = b ∨ CanBeEmpty env b ∧ u = a) → SeqStarts env [a, b] u := by
    intro a b h
    rcases h with h | ⟨h1, h2 | ⟨h2, h3⟩⟩
    · exact pair (.inl h)
    · exact pair (.inr ⟨h1, h2⟩)
    · exact pair (.inl h3)
  cases t with
  | leaf l => exact absurd h id
  | named x =>
    simp only [body] at h
    cases he : env x with
    | struct fields =>
      rw [code_struct he] at h
      have := inits_heads (is := (expandFields none x fields).inits) h
      rw [inits_ty_map] at this
      exact .struct he this
    | enum vs =>
      rw [code_enum he] at h
      cases vs with
      | nil => exact absurd h id
      | cons w ws =>
        rcases alts_heads (x := x) (e := .attempt (ctorE x (expandFields (some x) w.ident w.fields))) (cs := ws.map fun (w : VariantDef Ty) => expandFields (some x) w.ident w.fields) h with h | ⟨c, hc, h⟩
        · have := inits_heads (is := (expandFields (some x) w.ident w.fields).inits) h
          rw [inits_ty_map] at this
          exact .enum he (by simp) this
        · obtain ⟨w', hw, rfl⟩ := List.mem_map.mp hc
          have := inits_heads (is := (expandFields (some x) w'.ident w'.fields).inits) h
          rw [inits_ty_map] at this
          exact .enum he (by simp [hw]) this
  | boxed t => cases (show u = t from h); exact .boxed
  | maybe p t => exact .maybe (pair h)
  | paren t => exact absurd h id
  | bracket t => exact absurd h id
  | brace t => exact absurd h id
  | punctuated t p => exact .punctuated (pair h)
  | separated t p => exact .separated (sep h)
  | any t => rcases h with h | h
             · cases (show u = t from h); exact .any
             · exact absurd h.2 id
  | leftAssoc o r => exact .leftAssoc (sep h)
  | rightAssoc o l => exact .rightAssoc (sep h)
  | either l r => rcases h with h | h
                  · cases (show u = l from h); exact .eitherLeft
                  · cases (show u = r from h); exact .eitherRight

theorem body_uses {env : Env} {t u : Ty} (h : (body env t).Uses u) : PartOf env u t := by
  cases t with
  | leaf l => exact absurd h id
  | named x =>
    simp only [body] at h
    cases he : env x with
    | struct fields =>
      rw [code_struct he] at h
      have := inits_uses (is := (expandFields none x fields).inits) h
      rw [inits_ty_map] at this
      exact .struct he this
    | enum vs =>
      rw [code_enum he] at h
      cases vs with
      | nil => exact absurd h id
      | cons w ws =>
        rcases alts_uses (x := x) (e := .attempt (ctorE x (expandFields (some x) w.ident w.fields))) (cs := ws.map fun (w : VariantDef Ty) => expandFields (some x) w.ident w.fields) h with h | ⟨c, hc, h⟩
        · have := inits_uses (is := (expandFields (some x) w.ident w.fields).inits) h
          rw [inits_ty_map] at this
          exact .enum he (by simp) this
        · obtain ⟨w', hw, rfl⟩ := List.mem_map.mp hc
          have := inits_uses (is := (expandFields (some x) w'.ident w'.fields).inits) h
          rw [inits_ty_map] at this
          exact .enum he (by simp [hw]) this
  | boxed t => cases (show u = t from h); exact .boxed
  | maybe p t => exact .maybe (by simpa [body, E.Uses] using h)
  | paren t => cases (show u = t from h); exact .paren
  | bracket t => cases (show u = t from h); exact .bracket
  | brace t => cases (show u = t from h); exact .brace
  | punctuated t p => exact .punctuated (by simpa [body, E.Uses] using h)
  | separated t p => exact .separated (by simp [body, E.Uses] at h; rcases h with h | h | h <;> simp [h])
  | any t => rcases h with h | h
             · cases (show u = t from h); exact .any
             · exact absurd h id
  | leftAssoc o r => exact .leftAssoc (by simp [body, E.Uses] at h; rcases h with h | h | h <;> simp [h])
  | rightAssoc o l => exact .rightAssoc (by simp [body, E.Uses] at h; rcases h with h | h | h <;> simp [h])
  | either l r => exact .either (by simpa [body, E.Uses] using h)

theorem body_loops {env : Env} {t : Ty} (h : RoundsRead env t) : (body env t).Loops (CanBeEmpty env) := by
  cases t with
  | leaf l => trivial
  | named x =>
    simp only [body]
    cases he : env x with
    | struct fields => rw [code_struct he]; exact inits_loops
    | enum vs =>
      rw [code_enum he]
      cases vs with
      | nil => trivial
      | cons w ws =>
        exact alts_loops (e := .attempt (ctorE x (expandFields (some x) w.ident w.fields))) inits_loops
  | boxed t => trivial
  | maybe p t => exact ⟨trivial, trivial⟩
  | paren t => trivial
  | bracket t => trivial
  | brace t => trivial
  | punctuated t p => exact ⟨trivial, trivial, h⟩
  | separated t p => exact ⟨trivial, trivial, trivial, fun h' => h ⟨h'.2, h'.1⟩⟩
  | any t => exact ⟨trivial, trivial, fun h' => h h'.1⟩
  | leftAssoc o r => exact ⟨trivial, trivial, trivial, h⟩
  | rightAssoc o l => exact ⟨trivial, trivial, trivial, h⟩
  | either l r => exact ⟨trivial, trivial⟩

theorem parse_ends_of {env : Env} {t : Ty} {s : PState} (hl : RoundsRead env t) (hs : Safe env (body env t) s) : Finishes fun m => parse env m t s := by
  obtain ⟨r, hr, n, hn⟩ := exec_ends (body env t) s (body_loops hl) hs
  refine Finishes.parse (n := n + 1) fun h => hr ?_
  have := parse_core env n t s
  rw [h] at this
  rw [← hn n (Nat.le_refl _)]; exact this.symm

/-- Termination for a set of types that is closed under parts, has no left recursion and no empty rounds. -/
theorem parse_ends {env : Env} {G : Ty → Prop} (hG : ∀ t, G t → ∀ u, PartOf env u t → G u)
    (hW : ∀ t, G t → Acc (fun u w => StartsWith env w u) t) (hL : ∀ t, G t → RoundsRead env t) :
    ∀ (k : Nat) (t : Ty), G t → ∀ s : PState, TT.sizes s.cur < k → Finishes fun m => parse env m t s := by
  intro k
  induction k with
  | zero => intro t _ s h; omega
  | succ k ih =>
    intro t ht
    have hacc := hW t ht
    induction hacc with
    | intro t _ ih2 =>
      intro s hs
      refine parse_ends_of (hL t ht) ⟨fun u s' hu hc => ?_, fun u s' hu hc => ?_⟩
      · exact ih2 u (body_heads hu) (hG t ht u (body_uses (heads_uses hu))) s' (by rw [hc]; exact hs)
      · exact ih u (hG t ht u (body_uses hu)) s' (by omega)

end Parsel
