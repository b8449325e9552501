import Verif.Proofs.PrintLead
import Verif.Proofs.Print
import Verif.Props.Literal

/-! In an LL(1) grammar, what is printed for a value is parsed as that value. -/

namespace Parsel
open Spec
variable [Ext]

/-- From some amount of fuel on, the outcome is `r`. -/
def Settles {α : Type} (f : Nat → Res α) (r : Res α) : Prop := ∃ n, ∀ m, n ≤ m → f m = r

omit [Ext] in
theorem Settles.const {α : Type} (r : Res α) : Settles (fun _ => r) r := ⟨0, fun _ _ => rfl⟩

omit [Ext] in
theorem Settles.then {α β : Type} {f : Nat → Res α} {g : Nat → Res α → Res β} {r : Res α} {r' : Res β} (hf : Settles f r)
    (hg : Settles (fun m => g m r) r') : Settles (fun m => g m (f m)) r' := by
  obtain ⟨n, hn⟩ := hf
  obtain ⟨n', hn'⟩ := hg
  refine ⟨max n n', fun m hm => ?_⟩
  show g m (f m) = r'
  rw [hn m (by omega)]
  exact hn' m (by omega)

omit [Ext] in
theorem Settles.map {α β : Type} {f : Nat → Res α} {r : Res α} (hf : Settles f r) (g : α → β) : Settles (fun m => (f m).map g) (r.map g) := by
  obtain ⟨n, hn⟩ := hf
  exact ⟨n, fun m hm => by show (f m).map g = _; rw [hn m hm]⟩

theorem settles_core {env : Env} {t : Ty} {s s' : PState} {v : Val} (h : Settles (fun m => exec (parse env m) m (body env t) s) (.ok [v] s')) :
    Settles (fun m => parse env m t s) (.ok v s') := by
  obtain ⟨n, hn⟩ := h
  refine ⟨n + 1, fun m hm => ?_⟩
  obtain ⟨m, rfl⟩ : ∃ m', m = m' + 1 := ⟨m - 1, by omega⟩
  have h1 : exec (parse env m) m (body env t) s = _ := hn m (by omega)
  rw [← parse_core] at h1
  show parse env (m + 1) t s = _
  cases hp : parse env (m + 1) t s with
  | ok w s'' => rw [hp] at h1; simp only [Res.map_okc, Res.ok.injEq, List.cons.injEq, and_true] at h1; rw [h1.1, h1.2]
  | err e => rw [hp] at h1; cases h1
  | panic => rw [hp] at h1; cases h1
  | oof => rw [hp] at h1; cases h1

omit [Ext] in
theorem advance_back (c c' : List TT) (sc : Span) (ux : Option Span) :
    PState.advanceTo ⟨c, sc, ux⟩ ⟨c', sc, none⟩ = ⟨c', sc, ux⟩ := by cases ux <;> rfl

/-- What is printed for the value is parsed as the value, unless what follows could be taken for a part of it. -/
def Back (env : Env) (t : Ty) (v : Val) : Prop := ∀ ts k sc ux, v.toTokens = some ts → (∀ u, Grabs env t u → Refuses env u k) →
  Settles (fun m => parse env m t ⟨ts ++ k, sc, ux⟩) (.ok v ⟨k, sc, ux⟩)

/-- The same for each of a list of values. -/
def Backs (env : Env) : List Ty → List Val → Prop
  | t :: ts, v :: vs => Back env t v ∧ Backs env ts vs
  | [], [] => True
  | _, _ => False

/-- After each value, what follows cannot be taken for a part of it. -/
def Follows (env : Env) (k : List TT) : List Ty → List Val → Prop
  | t :: ts, _ :: vs => (∀ b, Val.toTokensL vs = some b → ∀ u, Grabs env t u → Refuses env u (b ++ k)) ∧ Follows env k ts vs
  | [], [] => True
  | _, _ => False

omit [Ext] in
theorem seqApart_tail [Ext] {env : Env} {t : Ty} {ts : List Ty} (h : SeqApart env (t :: ts)) : SeqApart env ts :=
  fun pre x post he => h (t :: pre) x post (by rw [he]; rfl)

theorem follows_of {env : Env} {k : List TT} : ∀ {tys : List Ty} {vs : List Val}, SeqApart env tys → HasTys env tys vs →
    (∀ pre t post vpre v vpost, tys = pre ++ t :: post → vs = vpre ++ v :: vpost → pre.length = vpre.length → Val.toTokensL vpost = some [] →
      HasTys env post vpost → ∀ u, Grabs env t u → Refuses env u k) → Follows env k tys vs
  | [], [], _, .nil, _ => trivial
  | t :: tys, v :: vs, ha, .cons h hs, hk => by
    refine ⟨fun b hb u hu => ?_, follows_of (seqApart_tail ha) hs ?_⟩
    · by_cases hn : b = []
      · subst hn
        exact hk [] t tys [] v vs rfl rfl rfl hb hs u hu
      · obtain ⟨w, hw, vw, tw, rest, hv, htw, hne, rfl⟩ := (prints_lead hs b hb).2 hn
        rw [List.append_assoc]
        exact ha [] t tys rfl u w hu hw vw tw hv htw hne (rest ++ k)
    · intro pre t' post vpre v' vpost h1 h2 h3 h4
      exact hk (t :: pre) t' post (v :: vpre) v' vpost (by rw [h1]; rfl) (by rw [h2]; rfl) (by simp [h3]) h4

/-- If what follows cannot be taken for a part of the last value, or of a value after which nothing need be there. -/
theorem follows_of_last {env : Env} {k : List TT} {tys : List Ty} {vs : List Val} (ha : SeqApart env tys) (hs : HasTys env tys vs)
    (hk : ∀ pre t post, tys = pre ++ t :: post → (∀ y ∈ post, CanBeEmpty env y) → ∀ u, Grabs env t u → Refuses env u k) : Follows env k tys vs :=
  follows_of ha hs fun pre t post _ _ _ h1 _ _ h4 h5 => hk pre t post h1 ((prints_lead h5 [] h4).1 rfl)

/-! ### sequences -/

theorem inits_back {env : Env} {k : List TT} {sc : Span} {ux : Option Span} : ∀ (is : List (FieldInit Ty)) (vs : List Val) (ts : List TT),
    Backs env (is.map (·.ty)) vs → Follows env k (is.map (·.ty)) vs → Val.toTokensL vs = some ts →
    Settles (fun m => exec (parse env m) m (initsE is) ⟨ts ++ k, sc, ux⟩) (.ok vs ⟨k, sc, ux⟩)
  | [], [], ts, _, _, ht => by
    simp only [Val.toTokensL, Option.some.injEq] at ht
    subst ht
    exact .const _
  | i :: is, [], _, hb, _, _ => absurd hb id
  | [], v :: vs, _, hb, _, _ => absurd hb id
  | i :: is, v :: vs, ts, hb, hf, ht => by
    obtain ⟨a, b, ha, hb', rfl⟩ := toTokensL_cons ht
    have h1 := hb.1 a (b ++ k) sc ux ha (hf.1 b hb')
    have h2 := inits_back (sc := sc) (ux := ux) is vs b hb.2 hf.2 hb'
    simp only [initsE, exec, List.append_assoc]
    refine Settles.then (f := fun m => parse env m i.ty ⟨a ++ (b ++ k), sc, ux⟩)
      (g := fun m r => ((r.map fun v => [v]).mapErr fun e => chainError e i.enumStr i.ctorStr i.fieldStr).bind fun vs s1 =>
        (exec (parse env m) m (initsE is) s1).map fun ws => vs ++ ws) h1 ?_
    exact h2.map fun ws => [v] ++ ws

/-- Rounds of `Separated`, `LeftAssoc`, `RightAssoc`. -/
theorem star_back {env : Env} {k : List TT} {sc : Span} {ux : Option Span} {p t : Ty} (hp : ∃ e n, ∀ m, n ≤ m → parse env m p ⟨k, sc, none⟩ = .err e) :
    ∀ (n : Nat) (vs : List Val) (ts : List TT), Backs env (alternate p t (2 * n)) vs → Follows env k (alternate p t (2 * n)) vs →
    Val.toTokensL vs = some ts →
    ∃ N, ∀ m j, N ≤ m → N ≤ j → starN (exec (parse env m) m (.ty p)) (exec (parse env m) m (.ty t)) j ⟨ts ++ k, sc, ux⟩ = .ok vs ⟨k, sc, ux⟩
  | 0, [], ts, _, _, ht => by
    simp only [Val.toTokensL, Option.some.injEq] at ht
    subst ht
    obtain ⟨e, n, hn⟩ := hp
    refine ⟨n + 1, fun m j hm hj => ?_⟩
    obtain ⟨j, rfl⟩ : ∃ j', j = j' + 1 := ⟨j - 1, by omega⟩
    simp only [starN, exec, PState.fork, List.nil_append, hn m (by omega), Res.map_errc]
  | 0, v :: vs, _, hb, _, _ => absurd hb id
  | n + 1, [], _, hb, _, _ => absurd hb id
  | n + 1, [v], _, hb, _, _ => absurd hb.2 id
  | n + 1, v :: w :: vs, ts, hb, hf, ht => by
    obtain ⟨a, b', ha, hb', rfl⟩ := toTokensL_cons ht
    obtain ⟨b, c, hbb, hc, rfl⟩ := toTokensL_cons hb'
    obtain ⟨n1, h1⟩ := hb.1 a (b ++ c ++ k) sc none ha (hf.1 _ hb')
    obtain ⟨n2, h2⟩ := hb.2.1 b (c ++ k) sc ux hbb (hf.2.1 _ hc)
    obtain ⟨n3, h3⟩ := star_back (ux := ux) hp n vs c hb.2.2 hf.2.2 hc
    refine ⟨max (max n1 n2) n3 + 1, fun m j hm hj => ?_⟩
    obtain ⟨j, rfl⟩ : ∃ j', j = j' + 1 := ⟨j - 1, by omega⟩
    have h1 := h1 m (by omega)
    have h2 := h2 m (by omega)
    have h3 := h3 m j (by omega) (by omega)
    simp only [List.append_assoc] at h1 h2 ⊢
    simp only [starN, exec, PState.fork] at h3 ⊢
    rw [h1]
    simp only [Res.map_okc, advance_back]
    rw [h2]
    simp only [Res.map_okc, Res.bind_okc]
    rw [h3]
    rfl

/-- Rounds of `Any`. -/
theorem any_back {env : Env} {k : List TT} {sc : Span} {ux : Option Span} {t : Ty} (hp : ∃ e n, ∀ m, n ≤ m → parse env m t ⟨k, sc, none⟩ = .err e) :
    ∀ (n : Nat) (vs : List Val) (ts : List TT), Backs env (List.replicate n t) vs → Follows env k (List.replicate n t) vs →
    Val.toTokensL vs = some ts →
    ∃ N, ∀ m j, N ≤ m → N ≤ j → starN (exec (parse env m) m (.ty t)) (exec (parse env m) m .ret) j ⟨ts ++ k, sc, ux⟩ = .ok vs ⟨k, sc, ux⟩
  | 0, [], ts, _, _, ht => by
    simp only [Val.toTokensL, Option.some.injEq] at ht
    subst ht
    obtain ⟨e, n, hn⟩ := hp
    refine ⟨n + 1, fun m j hm hj => ?_⟩
    obtain ⟨j, rfl⟩ : ∃ j', j = j' + 1 := ⟨j - 1, by omega⟩
    simp only [starN, exec, PState.fork, List.nil_append, hn m (by omega), Res.map_errc]
  | 0, v :: vs, _, hb, _, _ => absurd hb id
  | n + 1, [], _, hb, _, _ => absurd hb id
  | n + 1, v :: vs, ts, hb, hf, ht => by
    obtain ⟨a, c, ha, hc, rfl⟩ := toTokensL_cons ht
    rw [List.replicate_succ] at hb hf
    obtain ⟨n1, h1⟩ := hb.1 a (c ++ k) sc none ha (hf.1 _ hc)
    obtain ⟨n3, h3⟩ := any_back (ux := ux) hp n vs c hb.2 hf.2 hc
    refine ⟨max n1 n3 + 1, fun m j hm hj => ?_⟩
    obtain ⟨j, rfl⟩ : ∃ j', j = j' + 1 := ⟨j - 1, by omega⟩
    have h1 := h1 m (by omega)
    have h3 := h3 m j (by omega) (by omega)
    simp only [List.append_assoc] at h1 ⊢
    simp only [starN, exec, PState.fork] at h3 ⊢
    rw [h1]
    simp only [Res.map_okc, advance_back, Res.bind_okc]
    rw [h3]
    rfl

theorem printed_last : ∀ {vs : List Val}, vs ≠ [] → (∀ w, vs.getLast? = some w → w.toTokens ≠ some []) → Val.toTokensL vs ≠ some []
  | [], h, _ => absurd rfl h
  | [v], _, hl => fun h => by
    obtain ⟨a, b, ha, hb, hn⟩ := toTokensL_cons h
    obtain ⟨rfl, rfl⟩ := List.append_eq_nil_iff.mp hn.symm
    exact hl v rfl ha
  | v :: w :: vs, _, hl => fun h => by
    obtain ⟨a, b, ha, hb, hn⟩ := toTokensL_cons h
    obtain ⟨rfl, rfl⟩ := List.append_eq_nil_iff.mp hn.symm
    exact printed_last (vs := w :: vs) (by simp) (fun x hx => hl x (by simpa [List.getLast?_cons_cons] using hx)) hb

/-- Rounds of `Punctuated`. -/
theorem term_back {env : Env} {sc : Span} {ux : Option Span} {t p : Ty} :
    ∀ (n : Nat) (vs : List Val) (ts : List TT), Backs env (alternate t p n) vs → Follows env [] (alternate t p n) vs →
    (∀ w, vs.getLast? = some w → w.toTokens ≠ some []) → Val.toTokensL vs = some ts →
    ∃ N, ∀ m j, N ≤ m → N ≤ j → termN (exec (parse env m) m (.ty t)) (exec (parse env m) m (.ty p)) j ⟨ts, sc, ux⟩ = .ok vs ⟨[], sc, ux⟩
  | 0, [], ts, _, _, _, ht => by
    simp only [Val.toTokensL, Option.some.injEq] at ht
    subst ht
    refine ⟨1, fun m j hm hj => ?_⟩
    obtain ⟨j, rfl⟩ : ∃ j', j = j' + 1 := ⟨j - 1, by omega⟩
    rfl
  | 0, v :: vs, _, hb, _, _, _ => absurd hb id
  | n + 1, [], _, hb, _, _, _ => absurd hb id
  | 1, v :: w :: vs, _, hb, _, _, _ => absurd hb.2 id
  | n + 2, [v], _, hb, _, _, _ => absurd hb.2 id
  | 1, [v], ts, hb, hf, hl, ht => by
    have hne : ts ≠ [] := fun h => printed_last (vs := [v]) (by simp) hl (h ▸ ht)
    obtain ⟨a, b, ha, hb', rfl⟩ := toTokensL_cons ht
    simp only [Val.toTokensL, Option.some.injEq] at hb'
    subst hb'
    obtain ⟨n1, h1⟩ := hb.1 a [] sc ux ha (by simpa using hf.1 [] rfl)
    refine ⟨n1 + 1, fun m j hm hj => ?_⟩
    obtain ⟨j, rfl⟩ : ∃ j', j = j' + 1 := ⟨j - 1, by omega⟩
    have h1 := h1 m (by omega)
    have he : PState.isEmpty ⟨a ++ [], sc, ux⟩ = false := by
      rw [Bool.eq_false_iff]; intro h; exact hne ((isEmpty_iff _).mp h)
    have he' : PState.isEmpty ⟨[], sc, ux⟩ = true := (isEmpty_iff _).mpr rfl
    simp only [termN, exec, he, h1, Res.map_okc, Res.bind_okc, he', if_true, if_false, Bool.false_eq_true]
  | n + 2, v :: w :: vs, ts, hb, hf, hl, ht => by
    have hne : ts ≠ [] := fun h => printed_last (vs := v :: w :: vs) (by simp) hl (h ▸ ht)
    have hl' : ∀ x, (w :: vs).getLast? = some x → x.toTokens ≠ some [] := fun x hx => hl x (by simpa [List.getLast?_cons_cons] using hx)
    obtain ⟨a, b', ha, hb', rfl⟩ := toTokensL_cons ht
    have hne' : b' ≠ [] := fun h => printed_last (vs := w :: vs) (by simp) hl' (h ▸ hb')
    obtain ⟨b, c, hbb, hc, rfl⟩ := toTokensL_cons hb'
    obtain ⟨n1, h1⟩ := hb.1 a (b ++ c ++ []) sc ux ha (hf.1 _ hb')
    obtain ⟨n2, h2⟩ := hb.2.1 b (c ++ []) sc ux hbb (hf.2.1 _ hc)
    obtain ⟨n3, h3⟩ := term_back (sc := sc) (ux := ux) n vs c hb.2.2 hf.2.2 (by
      cases vs with
      | nil => intro x hx; simp at hx
      | cons y ys => exact fun x hx => hl' x (by simpa [List.getLast?_cons_cons] using hx)) hc
    refine ⟨max (max n1 n2) n3 + 1, fun m j hm hj => ?_⟩
    obtain ⟨j, rfl⟩ : ∃ j', j = j' + 1 := ⟨j - 1, by omega⟩
    have h1 := h1 m (by omega)
    have h2 := h2 m (by omega)
    have h3 := h3 m j (by omega) (by omega)
    have he : PState.isEmpty ⟨a ++ (b ++ c), sc, ux⟩ = false := by
      rw [Bool.eq_false_iff]; intro h; exact hne ((isEmpty_iff _).mp h)
    have he' : PState.isEmpty ⟨b ++ c, sc, ux⟩ = false := by
      rw [Bool.eq_false_iff]; intro h; exact hne' ((isEmpty_iff _).mp h)
    simp only [List.append_nil] at h1 h2
    simp only [termN, exec] at h3 ⊢
    simp only [he, h1, Res.map_okc, Res.bind_okc, he', if_false, Bool.false_eq_true, h2]
    rw [h3]
    rfl

/-! ### alternatives -/

theorem alts_back_rest {P : Ty → Parser Val} {n : Nat} {x : Text} {s s' : PState} {vs : List Val} : ∀ (cs : List (CtorCode Ty)) (e : E),
    exec P n e s = .ok vs s' → exec P n (altsE x e cs) s = .ok vs s'
  | [], e, h => h
  | c :: cs, e, h => alts_back_rest cs (.alt e (ctorE x c)) (by simp only [exec, h])

theorem alts_back {P : Ty → Parser Val} {n : Nat} {x : Text} {s f : PState} {vs : List Val} {c : CtorCode Ty} (after : List (CtorCode Ty))
    (hc : exec P n (ctorE x c) s.fork = .ok vs f) : ∀ (before : List (CtorCode Ty)) (e : E) (er : Err), exec P n e s = .err er →
    (∀ b ∈ before, ∃ er, exec P n (ctorE x b) s.fork = .err er) → exec P n (altsE x e (before ++ c :: after)) s = .ok vs (s.advanceTo f)
  | [], e, er, he, _ => alts_back_rest after (.alt e (ctorE x c)) (by simp only [exec, he, hc])
  | b :: before, e, er, he, hb => by
    obtain ⟨er', hb'⟩ := hb b (by simp)
    exact alts_back after hc before (.alt e (ctorE x b)) (maxByEnd er er') (by simp only [exec, he, hb']) fun b' h => hb b' (by simp [h])

theorem enum_back {env : Env} {x : Text} {before after : List (CtorCode Ty)} {c : CtorCode Ty} {s f : PState} {v : Val}
    (hc : Settles (fun m => exec (parse env m) m (ctorE x c) s.fork) (.ok [v] f))
    (hb : ∀ b ∈ before, ∃ e n, ∀ m, n ≤ m → exec (parse env m) m (ctorE x b) s.fork = .err e) :
    Settles (fun m => exec (parse env m) m (codeE x (.enum (before ++ c :: after))) s) (.ok [v] (s.advanceTo f)) := by
  have hb' : ∃ N, ∀ m, N ≤ m → ∀ b ∈ before, ∃ e, exec (parse env m) m (ctorE x b) s.fork = .err e := by
    clear hc
    induction before with
    | nil => exact ⟨0, fun m _ b hb => by cases hb⟩
    | cons b bs ih =>
      obtain ⟨N, hN⟩ := ih fun b h => hb b (by simp [h])
      obtain ⟨e, n, hn⟩ := hb b (by simp)
      refine ⟨max N n, fun m hm b' hb' => ?_⟩
      rcases List.mem_cons.mp hb' with rfl | hb'
      · exact ⟨e, hn m (by omega)⟩
      · exact hN m (by omega) b' hb'
  obtain ⟨N, hN⟩ := hb'
  obtain ⟨n, hn⟩ := hc
  refine ⟨max N n, fun m hm => ?_⟩
  have h1 : exec (parse env m) m (ctorE x c) s.fork = _ := hn m (by omega)
  have h2 := hN m (by omega)
  cases before with
  | nil =>
    show exec (parse env m) m (altsE x (.attempt (ctorE x c)) after) s = _
    exact alts_back_rest after _ (by simp only [exec, h1])
  | cons b bs =>
    obtain ⟨e, he⟩ := h2 b (by simp)
    show exec (parse env m) m (altsE x (.attempt (ctorE x b)) (bs ++ c :: after)) s = _
    exact alts_back after h1 bs _ e (by simp only [exec, he]) fun b' hb' => h2 b' (by simp [hb'])

/-! ### leaves -/

theorem punctLoop_printed : ∀ (tok : Text) (sps : List Span) (k : List TT), sps.length = tok.length → '\'' ∉ tok →
    punctLoop tok (punctTokens tok sps ++ k) = some (sps, k)
  | [], [], k, _, _ => rfl
  | [c], [sp], k, _, hq => by
    have hc : c ≠ '\'' := fun h => hq (by simp [h])
    simp only [punctTokens, punctLoop, List.cons_append, List.nil_append]
    rw [(uncons_iff _ _ _).mpr (next_cons (by simp) _)]
    simp [hc]
  | c :: d :: tok, sp :: sq :: sps, k, hl, hq => by
    have hc : c ≠ '\'' := fun h => hq (by simp [h])
    have hp : punctTokens (c :: d :: tok) (sp :: sq :: sps) = .punct c .joint sp :: punctTokens (d :: tok) (sq :: sps) := by
      rw [punctTokens]; simp
    rw [hp]
    simp only [punctLoop, List.cons_append]
    rw [(uncons_iff _ _ _).mpr (next_cons (by simp) _)]
    have ih := punctLoop_printed (d :: tok) (sq :: sps) k (by simpa using hl) (fun h => hq (by simp [h]))
    simp only [hc, ih, ne_eq, not_false_eq_true, and_self, if_true]
  | [], _ :: _, _, hl, _ => by simp at hl
  | _ :: _, [], _, hl, _ => by simp at hl
  | [_], _ :: _ :: _, _, hl, _ => by simp at hl
  | _ :: _ :: _, [_], _, hl, _ => by simp at hl

theorem refuses_eof {env : Env} {k : List TT} (h : Refuses env (.leaf .eof) k) : k ≠ [] := by
  rintro rfl
  obtain ⟨e, n, hn⟩ := h .callSite none
  cases n with
  | zero => cases hn
  | succ n => simp [parse, leafParse, eofParse, PState.isEmpty] at hn

theorem refuses_notEof {env : Env} {k : List TT} (h : Refuses env (.leaf .notEof) k) : k = [] := by
  obtain ⟨e, n, hn⟩ := h .callSite none
  cases n with
  | zero => cases hn
  | succ n =>
    simp only [parse, leafParse, notEofParse] at hn
    split at hn
    · rename_i h; exact (isEmpty_iff _).mp h
    · cases hn

theorem leaf_back (laws : FloatLaws) {env : Env} {l : Leaf} {v : LeafVal} (h : LeafTy l v) (hs : LeafSurvives l v) {ts k : List TT} {sc : Span}
    {ux : Option Span} (ht : leafToTokens l v = some ts) (hk : ∀ u, Grabs env (.leaf l) u → Refuses env u k) :
    leafParse l ⟨ts ++ k, sc, ux⟩ = .ok v ⟨k, sc, ux⟩ := by
  have fin : ∀ {lv sp}, litToTokens lv sp = some ts → Spec.LitVal.Finite lv := fun h => (litToTokens_isSome _ _).mp (by rw [h]; rfl)
  cases h with
  | empty => simp only [leafToTokens, Option.some.injEq] at ht; subst ht; rfl
  | eof =>
    simp only [leafToTokens, Option.some.injEq] at ht; subst ht
    have := refuses_notEof (hk _ .eof)
    subst this; rfl
  | notEof =>
    simp only [leafToTokens, Option.some.injEq] at ht; subst ht
    have := refuses_eof (hk _ .notEof)
    have he : PState.isEmpty ⟨k, sc, ux⟩ = false := by rw [Bool.eq_false_iff]; intro h; exact this ((isEmpty_iff _).mp h)
    simp only [leafParse, notEofParse, List.nil_append, he, Bool.false_eq_true, if_false, Res.map_okc]
  | @customIdent kws x sp hx =>
    simp only [leafToTokens, Option.some.injEq] at ht; subst ht
    simp only [leafParse, customIdentParse, parseAnyIdent, List.cons_append, List.nil_append]
    rw [(uncons_iff _ _ _).mpr (next_cons (by simp) _)]
    have : kws.any (fun kw => decide (x = kw)) = false := by
      rw [Bool.eq_false_iff]; intro h
      obtain ⟨kw, hk, he⟩ := List.any_eq_true.mp h
      exact hx ((of_decide_eq_true he) ▸ hk)
    simp only [customIdentTryFrom, Res.bind_okc, this, Bool.false_eq_true, if_false, Res.map_okc]
  | @rustIdent x sp hx =>
    replace ht : some [TT.ident x sp] = some ts := ht
    injection ht with ht
    subst ht
    have hn : ¬ rustKeywords.contains x = true := fun h => hx (List.contains_iff_mem.mp h)
    have h1 : parseRustIdent ⟨[.ident x sp] ++ k, sc, ux⟩ = .ok (x, sp) ⟨k, sc, ux⟩ := by
      unfold parseRustIdent
      rw [show uncons ([TT.ident x sp] ++ k) = some (.ident x sp, k) from (uncons_iff _ _ _).mpr (next_cons (by simp) _)]
      exact if_neg hn
    show (parseRustIdent ⟨[.ident x sp] ++ k, sc, ux⟩).map _ = _
    rw [h1]; rfl
  | keyword =>
    simp only [leafToTokens] at ht
    split at ht
    · simp only [Option.some.injEq] at ht; subst ht
      simp only [leafParse, keywordParse, parseAnyIdent, List.cons_append, List.nil_append]
      rw [(uncons_iff _ _ _).mpr (next_cons (by simp) _)]
      simp only [Res.bind_okc, if_true, Res.map_okc]
    · cases ht
  | kwToken =>
    simp only [leafToTokens, Option.some.injEq] at ht; subst ht
    simp only [leafParse, parseKwToken, List.cons_append, List.nil_append]
    rw [(uncons_iff _ _ _).mpr (next_cons (by simp) _)]
    simp only [if_true, Res.map_okc]
  | punct hl =>
    simp only [leafToTokens, Option.some.injEq] at ht; subst ht
    simp only [leafParse, parsePunct, punctLoop_printed _ _ _ hl hs, Res.map_okc]
  | @bool b sp =>
    obtain ⟨t, h1, h2⟩ := C36_bool b sp ⟨ts ++ k, sc, ux⟩ k
    replace ht : litToTokens (.bool b) sp = some ts := ht
    rw [h1, Option.some.injEq] at ht; subst ht
    simp only [leafParse, litKindParse, h2 rfl, Res.map_okc]
  | @byte b sp =>
    obtain ⟨t, h1, h2⟩ := C36_byte b sp ⟨ts ++ k, sc, ux⟩ k
    replace ht : litToTokens (.byte b) sp = some ts := ht
    rw [h1, Option.some.injEq] at ht; subst ht
    simp only [leafParse, litKindParse, h2 rfl, Res.map_okc]
  | @int b sp hr =>
    obtain ⟨t, h1, h2⟩ := C36_int b hr sp ⟨ts ++ k, sc, ux⟩ k
    replace ht : litToTokens (.int b) sp = some ts := ht
    rw [h1, Option.some.injEq] at ht; subst ht
    simp only [leafParse, litKindParse, h2 rfl, Res.map_okc]
  | @uint b sp hr =>
    obtain ⟨t, h1, h2⟩ := C36_uint b hr sp ⟨ts ++ k, sc, ux⟩ k
    replace ht : litToTokens (.uint b) sp = some ts := ht
    rw [h1, Option.some.injEq] at ht; subst ht
    simp only [leafParse, litKindParse, h2 rfl, Res.map_okc]
  | @float b sp =>
    replace ht : litToTokens (.float b) sp = some ts := ht
    obtain ⟨t, h1, h2⟩ := C36_float laws b (fin ht) sp ⟨ts ++ k, sc, ux⟩ k
    rw [h1, Option.some.injEq] at ht; subst ht
    simp only [leafParse, litKindParse, h2 rfl, Res.map_okc]
  | @char b sp =>
    obtain ⟨t, h1, h2⟩ := C36_char b sp ⟨ts ++ k, sc, ux⟩ k
    replace ht : litToTokens (.char b) sp = some ts := ht
    rw [h1, Option.some.injEq] at ht; subst ht
    simp only [leafParse, litKindParse, h2 rfl, Res.map_okc]
  | @str b sp =>
    obtain ⟨t, h1, h2⟩ := C36_str b sp ⟨ts ++ k, sc, ux⟩ k
    replace ht : litToTokens (.str b) sp = some ts := ht
    rw [h1, Option.some.injEq] at ht; subst ht
    simp only [leafParse, litKindParse, h2 rfl, Res.map_okc]
  | @byteStr b sp =>
    obtain ⟨t, h1, h2⟩ := C36_byteStr b sp ⟨ts ++ k, sc, ux⟩ k
    replace ht : litToTokens (.byteStr b) sp = some ts := ht
    rw [h1, Option.some.injEq] at ht; subst ht
    simp only [leafParse, litKindParse, h2 rfl, Res.map_okc]
  | @any lv sp hr hneg =>
    replace ht : litToTokens lv sp = some ts := ht
    obtain ⟨t, h1, h2⟩ := C37_roundtrip laws lv hr (fin ht) (by cases lv <;> first | exact hs | trivial) sp ⟨ts ++ k, sc, ux⟩ k
    rw [h1, Option.some.injEq] at ht; subst ht
    simp only [leafParse, litKindParse, h2 rfl, Res.map_okc]

/-! ### chains -/

theorem hasTys_append {env : Env} : ∀ {ts us : List Ty} {vs ws : List Val}, HasTys env ts vs → HasTys env us ws → HasTys env (ts ++ us) (vs ++ ws)
  | [], _, [], _, .nil, h => h
  | _ :: _, _, _ :: _, _, .cons h hs, h' => .cons h (hasTys_append hs h')

omit [Ext] in
theorem alternate_snoc (t p : Ty) : ∀ n, alternate t p (2 * n + 1) ++ [p, t] = alternate t p (2 * (n + 1) + 1)
  | 0 => rfl
  | n + 1 => by
    show t :: p :: (alternate t p (2 * n + 1) ++ [p, t]) = _
    rw [alternate_snoc t p n]; rfl

theorem leftV_snoc (acc o r : Val) : ∀ (n : Nat) (l : List Val), l.length = 2 * n → leftV acc (l ++ [o, r]) = .node .leftBin [leftV acc l, o, r] := by
  intro n
  induction n generalizing acc with
  | zero => intro l hl; obtain rfl : l = [] := List.length_eq_zero_iff.mp hl; rfl
  | succ n ih =>
    intro l hl
    match l, hl with
    | a :: b :: l, hl => exact ih (.node .leftBin [acc, a, b]) l (by simp only [List.length_cons] at hl; omega)
    | [_], hl => simp at hl; omega
    | [], hl => simp at hl

theorem survivesL_append : ∀ (vs ws : List Val), SurvivesL (vs ++ ws) ↔ SurvivesL vs ∧ SurvivesL ws
  | [], ws => by simp [SurvivesL]
  | v :: vs, ws => by simp [SurvivesL, survivesL_append vs ws, and_assoc]

theorem toTokensL_append_eq : ∀ (vs ws : List Val), Val.toTokensL (vs ++ ws) = (Val.toTokensL vs).bind fun a => (Val.toTokensL ws).map fun b => a ++ b
  | [], ws => by simp [Val.toTokensL]
  | v :: vs, ws => by
    simp only [List.cons_append, Val.toTokensL, toTokensL_append_eq vs ws]
    cases v.toTokens <;> cases Val.toTokensL vs <;> cases Val.toTokensL ws <;> simp

theorem hasTys_length {env : Env} : ∀ {ts : List Ty} {vs : List Val}, HasTys env ts vs → ts.length = vs.length
  | [], [], .nil => rfl
  | _ :: _, _ :: _, .cons _ h => by simp [hasTys_length h]

omit [Ext] in
theorem length_alternate (t p : Ty) : ∀ n, (alternate t p n).length = n
  | 0 => rfl
  | n + 1 => by simp [alternate, length_alternate p t n]

/-- A `LeftAssoc` as a chain. -/
theorem left_chain {env : Env} {o r : Ty} : ∀ (v : Val), HasTy env (.leftAssoc o r) v → ∃ v0 vs n, v = leftV (.node .leftRhs [v0]) vs ∧
    HasTys env (alternate r o (2 * n + 1)) (v0 :: vs) ∧ (∀ w ∈ v0 :: vs, sizeOf w < sizeOf v) ∧ v.toTokens = Val.toTokensL (v0 :: vs) ∧
    (Survives v → SurvivesL (v0 :: vs))
  | _, .leftRhs h => ⟨_, [], 0, rfl, .cons h .nil, by simp; omega, rfl, fun h => by simpa [Survives] using h⟩
  | _, .leftBin (l := l) (op := op) (v := w) hl ho hr => by
    obtain ⟨v0, vs, n, rfl, h1, h2, h3, h4⟩ := left_chain l hl
    refine ⟨v0, vs ++ [op, w], n + 1, ?_, ?_, ?_, ?_, ?_⟩
    · rw [leftV_snoc _ _ _ n]
      have := hasTys_length h1
      simp only [length_alternate, List.length_cons] at this
      omega
    · rw [← alternate_snoc]
      exact hasTys_append h1 (.cons ho (.cons hr .nil))
    · intro x hx
      simp only [List.mem_cons, List.mem_append, List.not_mem_nil, or_false] at hx
      simp only [Val.node.sizeOf_spec, List.cons.sizeOf_spec]
      rcases hx with rfl | hx | rfl | rfl
      · have := h2 x (by simp); omega
      · have := h2 x (by simp [hx]); omega
      · omega
      · omega
    · rw [show v0 :: (vs ++ [op, w]) = (v0 :: vs) ++ [op, w] from rfl, toTokensL_append_eq, ← h3]
      rfl
    · intro hs
      simp only [Survives, SurvivesL] at hs
      rw [show v0 :: (vs ++ [op, w]) = (v0 :: vs) ++ [op, w] from rfl, survivesL_append]
      exact ⟨h4 hs.2.1, hs.2.2⟩

/-- A `RightAssoc` as a chain. -/
theorem right_chain {env : Env} {o r : Ty} : ∀ (v : Val), HasTy env (.rightAssoc o r) v → ∃ v0 vs n, v = rightV v0 vs ∧
    HasTys env (alternate r o (2 * n + 1)) (v0 :: vs) ∧ (∀ w ∈ v0 :: vs, sizeOf w < sizeOf v) ∧ v.toTokens = Val.toTokensL (v0 :: vs) ∧
    (Survives v → SurvivesL (v0 :: vs))
  | _, .rightLhs h => ⟨_, [], 0, rfl, .cons h .nil, by simp; omega, rfl, fun h => by simpa [Survives] using h⟩
  | _, .rightBin (r := l) (op := op) (v := w) hl ho hr => by
    obtain ⟨v0, vs, n, rfl, h1, h2, h3, h4⟩ := right_chain l hr
    refine ⟨w, op :: v0 :: vs, n + 1, rfl, .cons hl (.cons ho h1), ?_, ?_, ?_⟩
    · intro x hx
      simp only [List.mem_cons] at hx
      simp only [Val.node.sizeOf_spec, List.cons.sizeOf_spec]
      rcases hx with rfl | rfl | hx
      · omega
      · omega
      · have := h2 x (by simpa using hx); omega
    · simp only [Val.toTokens, Val.toTokensL] at h3 ⊢
      rw [h3]
      simp [Val.toTokensL]
    · intro hs
      simp only [Survives, SurvivesL] at hs ⊢
      exact ⟨hs.2.1, hs.2.2.1, by simpa [SurvivesL] using h4 hs.2.2.2.1⟩

end Parsel
