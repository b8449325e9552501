import Verif.Proofs.Terminate
import Verif.Proofs.Cell

/-! Parsing that does not terminate. -/

namespace Parsel
open Spec
variable [Ext]

/-- With any fuel, a parse that ends has its outcome or is out of fuel. -/
theorem parse_dich {env : Env} {n : Nat} {t : Ty} {s : PState} {r : Res Val} (h : parse env n t s = r) (m : Nat) :
    parse env m t s = .oof ∨ parse env m t s = r ∨ r = .oof := by
  by_cases h1 : parse env m t s = .oof
  · exact .inl h1
  · by_cases h2 : r = .oof
    · exact .inr (.inr h2)
    · exact .inr (.inl (by rw [← h]; exact parse_unique h1 (by rw [h]; exact h2)))

theorem parses_dich {env : Env} {t : Ty} {s s' : PState} {v : Val} (h : Parses env t s v s') (m : Nat) :
    parse env m t s = .oof ∨ parse env m t s = .ok v s' := by
  obtain ⟨n, hn⟩ := h
  rcases parse_dich hn m with h | h | h
  · exact .inl h
  · exact .inr h
  · cases h

theorem fails_dich {env : Env} {t : Ty} {s : PState} {e : Err} (h : Fails env t s e) (m : Nat) :
    parse env m t s = .oof ∨ parse env m t s = .err e := by
  obtain ⟨n, hn⟩ := h
  rcases parse_dich hn m with h | h | h
  · exact .inl h
  · exact .inr h
  · cases h

theorem oof_of_core {env : Env} {n : Nat} {t : Ty} {s : PState} (h : exec (parse env n) n (body env t) s = .oof) : parse env (n + 1) t s = .oof := by
  rw [← parse_core] at h
  cases h1 : parse env (n + 1) t s with
  | oof => rfl
  | _ => rw [h1] at h; cases h

theorem inits_oof {env : Env} {n : Nat} {u : Ty} {s' : PState} (hu : parse env n u s' = .oof) : ∀ (is : List (FieldInit Ty)) (pre post : List Ty) (s : PState),
    is.map (·.ty) = pre ++ u :: post → SeqParses env pre s s' → exec (parse env n) n (initsE is) s = .oof
  | [], pre, post, s, h, _ => by simp at h
  | i :: is, [], post, s, h, hp => by
    cases hp
    simp only [List.map_cons, List.nil_append, List.cons.injEq] at h
    simp only [initsE, exec, h.1, hu]; rfl
  | i :: is, p :: pre, post, s, h, hp => by
    cases hp with
    | cons h1 h2 =>
      simp only [List.map_cons, List.cons_append, List.cons.injEq] at h
      simp only [initsE, exec, h.1]
      rcases parses_dich h1 n with h3 | h3
      · rw [h3]; rfl
      · rw [h3]; simp only [Res.map_okc, Res.mapErr_okc, Res.bind_okc, inits_oof hu is pre post _ h.2 h2]; rfl

theorem inits_fail {env : Env} {n : Nat} {t : Ty} {s' : PState} {e : Err} (ht : Fails env t s' e) : ∀ (is : List (FieldInit Ty)) (pre post : List Ty) (s : PState),
    is.map (·.ty) = pre ++ t :: post → SeqParses env pre s s' →
    exec (parse env n) n (initsE is) s = .oof ∨ ∃ e', exec (parse env n) n (initsE is) s = .err e'
  | [], pre, post, s, h, _ => by simp at h
  | i :: is, [], post, s, h, hp => by
    cases hp
    simp only [List.map_cons, List.nil_append, List.cons.injEq] at h
    simp only [initsE, exec, h.1]
    rcases fails_dich ht n with h3 | h3
    · rw [h3]; exact .inl rfl
    · rw [h3]; exact .inr ⟨_, rfl⟩
  | i :: is, p :: pre, post, s, h, hp => by
    cases hp with
    | cons h1 h2 =>
      simp only [List.map_cons, List.cons_append, List.cons.injEq] at h
      simp only [initsE, exec, h.1]
      rcases parses_dich h1 n with h3 | h3
      · rw [h3]; exact .inl rfl
      · rw [h3]; simp only [Res.map_okc, Res.mapErr_okc, Res.bind_okc]
        rcases inits_fail ht is pre post _ h.2 h2 with h4 | ⟨e', h4⟩
        · rw [h4]; exact .inl rfl
        · rw [h4]; exact .inr ⟨_, rfl⟩

theorem alts_oof_first {P : Ty → Parser Val} {k : Nat} {x : Text} {s : PState} : ∀ (cs : List (CtorCode Ty)) (e : E),
    exec P k e s = .oof → exec P k (altsE x e cs) s = .oof
  | [], _, h => h
  | c :: cs, e, h => alts_oof_first cs _ (by simp only [exec, h])

theorem alts_oof {P : Ty → Parser Val} {k : Nat} {x : Text} {s : PState} {c : CtorCode Ty} {after : List (CtorCode Ty)}
    (hc : exec P k (ctorE x c) s.fork = .oof) : ∀ (before : List (CtorCode Ty)) (e : E),
    (exec P k e s = .oof ∨ ∃ e', exec P k e s = .err e') →
    (∀ b ∈ before, exec P k (ctorE x b) s.fork = .oof ∨ ∃ e', exec P k (ctorE x b) s.fork = .err e') →
    exec P k (altsE x e (before ++ c :: after)) s = .oof
  | [], e, he, _ => by
    refine alts_oof_first after (.alt e (ctorE x c)) ?_
    rcases he with he | ⟨e', he⟩
    · simp only [exec, he]
    · simp only [exec, he]; rw [hc]
  | b :: before, e, he, hb => by
    refine alts_oof hc before (.alt e (ctorE x b)) ?_ fun b' h => hb b' (by simp [h])
    rcases he with he | ⟨e', he⟩
    · left; simp only [exec, he]
    · rcases hb b (by simp) with h | ⟨e2, h⟩
      · left; simp only [exec, he, h]
      · right; simp only [exec, he, h]; exact ⟨_, rfl⟩

/-- If a parse is certain to parse `u` at `s'` and that does not end, then neither does the parse. -/
theorem runs_oof {env : Env} {t u : Ty} {s s' : PState} (h : Runs env t s u s') {n : Nat} (hu : parse env n u s' = .oof) :
    parse env (n + 1) t s = .oof := by
  apply oof_of_core
  cases h with
  | @struct x fields _ _ _ he hr =>
    obtain ⟨pre, post, hf, hp⟩ := hr
    simp only [body, code_struct he, codeE, ctorE, exec]
    rw [inits_oof hu _ pre post s (by rw [inits_ty_map]; exact hf) hp]; rfl
  | @enum x before v after _ _ _ he hb hr =>
    obtain ⟨pre, post, hf, hp⟩ := hr
    have hv : exec (parse env n) n (ctorE x (expandFields (some x) v.ident v.fields)) s.fork = .oof := by
      simp only [ctorE, exec]
      rw [inits_oof hu _ pre post _ (by rw [inits_ty_map]; exact hf) hp]; rfl
    have hb' : ∀ w ∈ before, exec (parse env n) n (ctorE x (expandFields (some x) w.ident w.fields)) s.fork = .oof ∨
        ∃ e', exec (parse env n) n (ctorE x (expandFields (some x) w.ident w.fields)) s.fork = .err e' := by
      intro w hw
      obtain ⟨pre, t, post, s1, e, hf, hp, ht⟩ := hb w hw
      simp only [ctorE, exec]
      rcases inits_fail (n := n) ht (expandFields (some x) w.ident w.fields).inits pre post _ (by rw [inits_ty_map]; exact hf) hp with h | ⟨e', h⟩
      · rw [h]; exact .inl rfl
      · rw [h]; exact .inr ⟨_, rfl⟩
    simp only [body, code_enum he]
    cases before with
    | nil =>
      refine alts_oof_first _ _ ?_
      simp only [exec]
      rw [hv]
    | cons w ws =>
      have hw := hb' w (by simp)
      show exec (parse env n) n (altsE x (.attempt (ctorE x (expandFields (some x) w.ident w.fields))) ((ws ++ v :: after).map _)) s = .oof
      rw [List.map_append, List.map_cons]
      refine alts_oof hv _ _ ?_ ?_
      · simp only [exec]
        rcases hw with hw | ⟨e, hw⟩
        · rw [hw]; exact .inl rfl
        · rw [hw]; exact .inr ⟨_, rfl⟩
      · intro b hbm
        obtain ⟨w', hw', rfl⟩ := List.mem_map.mp hbm
        exact hb' w' (by simp [hw'])
  | boxed => simp only [body, exec, hu]; rfl
  | maybePrefix => simp only [body, exec, hu]; rfl
  | maybeInner hp =>
    simp only [body, exec]
    rcases parses_dich hp n with h | h
    · rw [h]; rfl
    · rw [h]; simp only [Res.map_okc, hu]; rfl
  | paren hn =>
    simp only [body, exec, delimited, (uncons_iff _ _ _).mpr hn, if_true, hu]; rfl
  | bracket hn => simp only [body, exec, delimited, (uncons_iff _ _ _).mpr hn, if_true, hu]; rfl
  | brace hn => simp only [body, exec, delimited, (uncons_iff _ _ _).mpr hn, if_true, hu]; rfl
  | punctuated hne =>
    cases n with
    | zero => rfl
    | succ n =>
      have : s.isEmpty = false := by cases h : s.cur with
        | nil => exact absurd h hne
        | cons => simp [PState.isEmpty, h]
      simp only [body, exec, termN, this, hu]; rfl
  | separated => simp only [body, exec, hu]; rfl
  | any =>
    cases n with
    | zero => rfl
    | succ n => simp only [body, exec, starN, hu]; rfl
  | leftAssoc => simp only [body, exec, hu]; rfl
  | rightAssoc => simp only [body, exec, hu]; rfl
  | eitherLeft => simp only [body, exec, hu]; rfl
  | eitherRight hf =>
    simp only [body, exec]
    rcases fails_dich hf n with h | h
    · rw [h]; rfl
    · rw [h]; simp only [Res.map_errc, hu]; rfl

theorem runs_diverges {env : Env} (R : Ty → PState → Prop) (h : ∀ t s, R t s → ∃ u s', R u s' ∧ Runs env t s u s') :
    ∀ (n : Nat) {t : Ty} {s : PState}, R t s → parse env n t s = .oof
  | 0, _, _, _ => rfl
  | n + 1, t, s, hr => by
    obtain ⟨u, s', hr', hrun⟩ := h t s hr
    exact runs_oof hrun (runs_diverges R h n hr')

theorem firstParses_runs {env : Env} {t u : Ty} (h : FirstParses env t u) (s : PState) : ∃ s', Runs env t s u s' := by
  cases h with
  | struct he hf => exact ⟨s, .struct he ⟨[], _, hf, .nil⟩⟩
  | enum he hf => exact ⟨s.fork, .enum (before := []) he (by simp) ⟨[], _, hf, .nil⟩⟩
  | boxed => exact ⟨_, .boxed⟩
  | maybe => exact ⟨_, .maybePrefix⟩
  | separated => exact ⟨_, .separated⟩
  | any => exact ⟨_, .any⟩
  | leftAssoc => exact ⟨_, .leftAssoc⟩
  | rightAssoc => exact ⟨_, .rightAssoc⟩
  | either => exact ⟨_, .eitherLeft⟩

theorem chain_last {α : Type} {r : α → α → Prop} {a b : α} (h : Chain r a b) : ∃ c, r a c ∧ (c = b ∨ Chain r c b) := by
  cases h with
  | one h => exact ⟨_, h, .inl rfl⟩
  | more h h2 => exact ⟨_, h, .inr h2⟩

/-! ### idle rounds -/

/-- The outcome does not depend on tokens recorded earlier. -/
theorem idles_anywhere {env : Env} {t : Ty} {s : PState} (h : Idles env t s) (m : Nat) (s2 : PState) (hc : s2.cur = s.cur) (hs : s2.scope = s.scope) :
    parse env m t s2 = .oof ∨ ∃ v s3, parse env m t s2 = .ok v s3 ∧ s3.cur = s.cur ∧ s3.scope = s.scope := by
  obtain ⟨v, s', hp, hcur⟩ := h
  have h0 : s = (⟨s.cur, s.scope, none⟩ : PState).over s.unexp := by cases s with | mk c sc u => cases u <;> rfl
  have h2 : s2 = (⟨s.cur, s.scope, none⟩ : PState).over s2.unexp := by
    obtain ⟨c, sc, u⟩ := s2
    have hc : c = s.cur := hc
    have hs : sc = s.scope := hs
    subst hc hs
    cases u <;> rfl
  rcases parses_dich hp m with h | h
  · left
    rw [h0, parse_over] at h
    rw [h2, parse_over]
    cases hq : parse env m t ⟨s.cur, s.scope, none⟩ with
    | oof => rfl
    | _ => rw [hq] at h; cases h
  · right
    have hsc : s'.scope = s.scope := (parse_moves env m t s v s' h).1
    rw [h0, parse_over] at h
    rw [h2, parse_over]
    cases hq : parse env m t ⟨s.cur, s.scope, none⟩ with
    | ok v0 s0 =>
      rw [hq] at h
      simp only [Res.over_ok, Res.ok.injEq] at h
      refine ⟨v0, s0.over s2.unexp, rfl, ?_, ?_⟩
      · show s0.cur = s.cur
        rw [← hcur, ← h.2]; rfl
      · show s0.scope = s.scope
        rw [← hsc, ← h.2]; rfl
    | _ => rw [hq] at h; cases h

/-- Outcome of a parser on the states at a position: out of fuel, or nothing read. -/
def Stuck (p : Parser (List Val)) (c : List TT) (sc : Span) : Prop :=
  ∀ s : PState, s.cur = c → s.scope = sc → p s = .oof ∨ ∃ vs s', p s = .ok vs s' ∧ s'.cur = c ∧ s'.scope = sc

theorem starN_stuck {pa pb : Parser (List Val)} {c : List TT} {sc : Span} (ha : Stuck pa c sc) (hb : Stuck pb c sc) :
    ∀ (k : Nat) (s : PState), s.cur = c → s.scope = sc → starN pa pb k s = .oof
  | 0, _, _, _ => rfl
  | k + 1, s, h1, h2 => by
    simp only [starN]
    rcases ha s.fork h1 h2 with h | ⟨vs, f, h, hc, hs⟩
    · rw [h]
    · rw [h]; simp only []
      rcases hb (s.advanceTo f) hc h2 with h | ⟨ws, s1, h, hc', hs'⟩
      · rw [h]; rfl
      · rw [h]; simp only [Res.bind_okc, starN_stuck ha hb k s1 hc' hs']; rfl

theorem termN_stuck {pa pb : Parser (List Val)} {c : List TT} {sc : Span} (hc : c ≠ []) (ha : Stuck pa c sc) (hb : Stuck pb c sc) :
    ∀ (k : Nat) (s : PState), s.cur = c → s.scope = sc → termN pa pb k s = .oof
  | 0, _, _, _ => rfl
  | k + 1, s, h1, h2 => by
    have ne : ∀ s' : PState, s'.cur = c → s'.isEmpty = false := by
      intro s' h
      cases c with
      | nil => exact absurd rfl hc
      | cons => simp [PState.isEmpty, h]
    simp only [termN, ne s h1]
    rcases ha s h1 h2 with h | ⟨vs, s1, h, hc1, hs1⟩
    · rw [h]; rfl
    · rw [h]; simp only [Res.bind_okc, ne s1 hc1]
      rcases hb s1 hc1 hs1 with h | ⟨ws, s2, h, hc2, hs2⟩
      · rw [h]; rfl
      · rw [h]; simp only [Res.bind_okc, termN_stuck hc ha hb k s2 hc2 hs2]; rfl

theorem idles_stuck {env : Env} {t : Ty} {s : PState} (h : Idles env t s) (m : Nat) :
    Stuck (exec (parse env m) m (.ty t)) s.cur s.scope := by
  intro s2 hc hs
  rcases idles_anywhere h m s2 hc hs with h | ⟨v, s3, h, h'⟩
  · left; simp only [exec, h]; rfl
  · right; exact ⟨[v], s3, by simp only [exec, h]; rfl, h'⟩

theorem diverges_of_core {env : Env} {t : Ty} {s : PState} (h : ∀ n, exec (parse env n) n (body env t) s = .oof) : Diverges env t s
  | 0 => rfl
  | n + 1 => oof_of_core (h n)

theorem any_diverges {env : Env} {t : Ty} {s : PState} (h : Idles env t s) : Diverges env (.any t) s :=
  diverges_of_core fun n => by
    show (starN (exec (parse env n) n (.ty t)) (exec (parse env n) n .ret) n s).map _ = .oof
    rw [show starN (exec (parse env n) n (.ty t)) (exec (parse env n) n .ret) n s = .oof from
      starN_stuck (idles_stuck h n) (fun s2 h1 h2 => .inr ⟨[], s2, rfl, h1, h2⟩) n s rfl rfl]
    rfl

theorem star_diverges {env : Env} {t p : Ty} {s s1 : PState} {v : Val} (h : Parses env t s v s1) (hp : Idles env p s1) (ht : Idles env t s1) (n : Nat) :
    exec (parse env n) n (.seq (.ty t) (.star (.ty p) (.ty t))) s = .oof := by
  show ((parse env n t s).map fun v => [v]).bind (fun vs s1 => (starN (exec (parse env n) n (.ty p)) (exec (parse env n) n (.ty t)) n s1).map
    fun ws => vs ++ ws) = .oof
  rcases parses_dich h n with h | h
  · rw [h]; rfl
  · rw [h]
    simp only [Res.map_okc, Res.bind_okc]
    rw [show starN (exec (parse env n) n (.ty p)) (exec (parse env n) n (.ty t)) n s1 = .oof from
      starN_stuck (idles_stuck hp n) (idles_stuck ht n) n s1 rfl rfl]
    rfl

theorem punctuated_diverges {env : Env} {t p : Ty} {s : PState} (hne : s.cur ≠ []) (ht : Idles env t s) (hp : Idles env p s) :
    Diverges env (.punctuated t p) s :=
  diverges_of_core fun n => by
    show (termN (exec (parse env n) n (.ty t)) (exec (parse env n) n (.ty p)) n s).map _ = .oof
    rw [show termN (exec (parse env n) n (.ty t)) (exec (parse env n) n (.ty p)) n s = .oof from
      termN_stuck hne (idles_stuck ht n) (idles_stuck hp n) n s rfl rfl]
    rfl

/-! ### outcomes -/

theorem halts_of_finishes {env : Env} {t : Ty} {s : PState} (hr : Readable s.cur) (h : Finishes fun m => parse env m t s) : Halts env t s := by
  obtain ⟨r, hne, n, hn⟩ := h
  have hn := hn n (Nat.le_refl _)
  cases r with
  | ok v s' => exact .inl ⟨v, s', n, hn⟩
  | err e => exact .inr ⟨e, n, hn⟩
  | panic => exact absurd hn (parse_no_panic env n t s hr)
  | oof => exact absurd rfl hne

theorem finishes_of_halts {env : Env} {t : Ty} {s : PState} (h : Halts env t s) : Finishes fun m => parse env m t s := by
  rcases h with ⟨v, s', n, h⟩ | ⟨e, n, h⟩
  · exact .parse (n := n) (by rw [h]; simp)
  · exact .parse (n := n) (by rw [h]; simp)

omit [Ext] in
theorem startsWith_partOf {env : Env} {t u : Ty} (h : StartsWith env t u) : PartOf env u t := by
  have mem : ∀ {ts : List Ty}, SeqStarts env ts u → u ∈ ts := by
    rintro ts ⟨pre, post, rfl, _⟩; simp
  cases h with
  | struct he h => exact .struct he (mem h)
  | enum he hv h => exact .enum he hv (mem h)
  | boxed => exact .boxed
  | maybe h => exact .maybe (mem h)
  | punctuated h => exact .punctuated (mem h)
  | separated h => exact .separated (mem h)
  | any => exact .any
  | leftAssoc h => exact .leftAssoc (by have := mem h; simp at this ⊢; exact this.symm)
  | rightAssoc h => exact .rightAssoc (by have := mem h; simp at this ⊢; exact this.symm)
  | eitherLeft => exact .either (by simp)
  | eitherRight => exact .either (by simp)

theorem finishes_of_grammar {env : Env} {G : List Ty} (closed : ∀ t ∈ G, ∀ u, PartOf env u t → u ∈ G)
    (acyclic : ∀ t ∈ G, ¬ Chain (StartsWith env) t t) (rounds : ∀ t ∈ G, RoundsRead env t) {t : Ty} (ht : t ∈ G) (s : PState) :
    Finishes fun m => parse env m t s := by
  have hchain : ∀ {t u : Ty}, Chain (StartsWith env) t u → t ∈ G → u ∈ G := by
    intro t u h
    induction h with
    | one h => exact fun ht => closed _ ht _ (startsWith_partOf h)
    | more h _ ih => exact fun ht => ih (closed _ ht _ (startsWith_partOf h))
  refine parse_ends (G := (· ∈ G)) closed (fun t ht => ?_) rounds _ t ht s (Nat.lt_succ_self _)
  exact acc_of_finite _ _ G t (Nat.le_refl _) (fun b hb => hchain hb ht) fun b hb => acyclic b (hchain hb ht)

/-- Left-associative chains end if their operands and operators do. -/
theorem leftAssoc_finishes {env : Env} {o r : Ty} (ho : ∀ s, Finishes fun m => parse env m o s) (hr : ∀ s, Finishes fun m => parse env m r s)
    (hl : RoundsRead env (.leftAssoc o r)) (s : PState) : Finishes fun m => parse env m (.leftAssoc o r) s := by
  refine parse_ends_of hl ⟨fun u s' hu _ => ?_, fun u s' hu _ => ?_⟩
  · rcases hu with rfl | ⟨_, rfl | ⟨_, rfl⟩⟩
    · exact hr s'
    · exact ho s'
    · exact hr s'
  · rcases hu with rfl | rfl | rfl
    · exact hr s'
    · exact ho s'
    · exact hr s'

end Parsel
