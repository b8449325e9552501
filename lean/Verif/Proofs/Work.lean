import Verif.Proofs.Diverge
import Verif.Spec.Work

/-! Calls of parsers: what they are, where they go, and how work and depth follow from them. -/

namespace Parsel
open Spec

variable [Ext]

/-! ### calls of expressions -/

def termC (pa pb : Parser (List Val)) (ca cb : PState → List Call) : Nat → PState → List Call
  | 0, _ => []
  | k + 1, s =>
    if s.isEmpty then []
    else ca s ++ (match pa s with
      | .ok _ s1 => if s1.isEmpty then [] else cb s1 ++ (match pb s1 with
        | .ok _ s2 => termC pa pb ca cb k s2
        | _ => [])
      | _ => [])

def starC (pa pb : Parser (List Val)) (ca cb : PState → List Call) : Nat → PState → List Call
  | 0, _ => []
  | k + 1, s => ca s.fork ++ (match pa s.fork with
    | .ok _ f => cb (s.advanceTo f) ++ (match pb (s.advanceTo f) with
      | .ok _ s1 => starC pa pb ca cb k s1
      | _ => [])
    | _ => [])

def callsE (P : Ty → Parser Val) (k : Nat) : E → PState → List Call
  | .ret, _ => []
  | .leaf _, _ => []
  | .ty t, s => [(t, s)]
  | .delim d t, s => insideCalls d t s
  | .fail _, _ => []
  | .seq a b, s => callsE P k a s ++ (match exec P k a s with
    | .ok _ s1 => callsE P k b s1
    | _ => [])
  | .label _ _ _ a, s => callsE P k a s
  | .attempt a, s => callsE P k a s.fork
  | .opt a b, s => callsE P k a s.fork ++ (match exec P k a s.fork with
    | .ok _ f => callsE P k b (s.advanceTo f)
    | _ => [])
  | .alt a b, s => callsE P k a s ++ (match exec P k a s with
    | .err _ => callsE P k b s.fork
    | _ => [])
  | .term a b, s => termC (exec P k a) (exec P k b) (callsE P k a) (callsE P k b) k s
  | .star a b, s => starC (exec P k a) (exec P k b) (callsE P k a) (callsE P k b) k s
  | .build _ a, s => callsE P k a s

theorem seqCalls_core (P : Ty → Parser Val) (k : Nat) : ∀ (is : List (FieldInit Ty)) (s : PState),
    seqCalls P (is.map (·.ty)) s = callsE P k (initsE is) s
  | [], s => rfl
  | i :: is, s => by
    simp only [List.map_cons, seqCalls, initsE, callsE, exec, List.cons_append, List.nil_append]
    cases P i.ty s with
    | ok v s1 => simp only [Res.map_okc, Res.mapErr_okc, seqCalls_core P k is]
    | err e => rfl
    | panic => rfl
    | oof => rfl

theorem seqFails_core (P : Ty → Parser Val) (k : Nat) : ∀ (is : List (FieldInit Ty)) (s : PState),
    seqFails P (is.map (·.ty)) s = match exec P k (initsE is) s with
      | .err _ => true
      | _ => false
  | [], s => rfl
  | i :: is, s => by
    simp only [List.map_cons, seqFails, initsE, exec]
    cases P i.ty s with
    | ok v s1 =>
      simp only [Res.map_okc, Res.mapErr_okc, seqFails_core P k is, Res.bind_okc]
      cases exec P k (initsE is) s1 <;> rfl
    | err e => rfl
    | panic => rfl
    | oof => rfl

theorem altCalls_core (P : Ty → Parser Val) (k : Nat) (x : Text) : ∀ (cs : List (CtorCode Ty)) (e : E) (s : PState),
    callsE P k (altsE x e cs) s = callsE P k e s ++ (match exec P k e s with
      | .err _ => altCalls P (cs.map fun c => c.inits.map (·.ty)) s.fork
      | _ => [])
  | [], e, s => by simp only [altsE, List.map_nil, altCalls]; cases exec P k e s <;> simp
  | c :: cs, e, s => by
    simp only [altsE, altCalls_core P k x cs, callsE, exec, List.map_cons, altCalls, ctorE, ← seqCalls_core P k, seqFails_core P k]
    cases exec P k e s with
    | ok vs s1 => simp
    | panic => simp
    | oof => simp
    | err e1 =>
      simp only [List.append_assoc]
      cases exec P k (initsE c.inits) s.fork <;> simp

theorem roundCalls_core (P : Ty → Parser Val) (m : Nat) (t p : Ty) : ∀ (k : Nat) (s : PState),
    roundCalls P t p k s = termC (exec P m (.ty t)) (exec P m (.ty p)) (callsE P m (.ty t)) (callsE P m (.ty p)) k s
  | 0, s => rfl
  | k + 1, s => by
    simp only [roundCalls, termC, callsE, exec, List.cons_append, List.nil_append]
    split
    · rfl
    · cases P t s with
      | ok v s1 =>
        simp only [Res.map_okc]
        split
        · rfl
        · cases P p s1 with
          | ok w s2 =>
            simp only [Res.map_okc, roundCalls_core P m t p k s2]
            rfl
          | _ => rfl
      | _ => rfl

theorem pairCalls_core (P : Ty → Parser Val) (m : Nat) (p t : Ty) : ∀ (k : Nat) (s : PState),
    pairCalls P p t k s = starC (exec P m (.ty p)) (exec P m (.ty t)) (callsE P m (.ty p)) (callsE P m (.ty t)) k s
  | 0, s => rfl
  | k + 1, s => by
    simp only [pairCalls, starC, callsE, exec, List.cons_append, List.nil_append]
    cases P p s.fork with
    | ok v f =>
      simp only [Res.map_okc]
      cases P t (s.advanceTo f) with
      | ok w s1 => simp only [Res.map_okc, pairCalls_core P m p t k s1]; rfl
      | _ => rfl
    | _ => rfl

theorem itemCalls_core (P : Ty → Parser Val) (m : Nat) (t : Ty) : ∀ (k : Nat) (s : PState),
    itemCalls P t k s = starC (exec P m (.ty t)) (exec P m .ret) (callsE P m (.ty t)) (callsE P m .ret) k s
  | 0, s => rfl
  | k + 1, s => by
    simp only [itemCalls, starC, callsE, exec, List.cons_append, List.nil_append]
    cases P t s.fork with
    | ok v f => simp only [Res.map_okc, itemCalls_core P m t k]; rfl
    | _ => rfl

theorem calls_core (env : Env) (P : Ty → Parser Val) (k : Nat) (t : Ty) (s : PState) : calls P env k t s = callsE P k (body env t) s := by
  have hl : ∀ (a b : Ty) s, listCalls P k a b s = callsE P k (.seq (.ty a) (.star (.ty b) (.ty a))) s := by
    intro a b s
    simp only [listCalls, callsE, pairCalls_core P k, List.cons_append, List.nil_append, exec]
    cases P a s <;> rfl
  cases t with
  | leaf l => rfl
  | named x =>
    simp only [calls, body]
    cases he : env x with
    | struct fields =>
      rw [code_struct he]
      simp only [codeE, ctorE, callsE, ← seqCalls_core, inits_ty_map]
    | enum vs =>
      rw [code_enum he]
      cases vs with
      | nil => rfl
      | cons v vs =>
        simp only [List.map_cons, codeE, altCalls_core, callsE, ctorE, altCalls, ← seqCalls_core, inits_ty_map, List.map_map, exec]
        congr 1
        rw [← inits_ty_map (some x) v.ident v.fields, seqFails_core P k]
        have : ((fun c : CtorCode Ty => c.inits.map (·.ty)) ∘ fun v : VariantDef Ty => expandFields (some x) v.ident v.fields)
            = fun v => fieldTypes v.fields := by
          funext v; exact inits_ty_map _ _ _
        rw [this]
        cases exec P k (initsE (expandFields (some x) v.ident v.fields).inits) s.fork <;> simp [PState.fork]
  | boxed t => rfl
  | maybe p t =>
    simp only [calls, body, callsE, exec, List.cons_append, List.nil_append]
    cases P p s.fork <;> rfl
  | paren t => rfl
  | bracket t => rfl
  | brace t => rfl
  | punctuated t p => exact roundCalls_core P k t p k s
  | separated t p => exact hl t p s
  | any t => exact itemCalls_core P k t k s
  | leftAssoc o r => exact hl r o s
  | rightAssoc o l => exact hl l o s
  | either l r =>
    have key : ∀ q q', P l s.fork = q → P r s.fork = q' → calls P env k (.either l r) s = callsE P k (body env (.either l r)) s := by
      intro q q' h1 h2
      cases q <;> cases q' <;> simp [calls, body, callsE, exec, altCalls, seqCalls, seqFails, h1, h2]
    exact key _ _ rfl rfl

theorem parseWith_core (env : Env) (P : Ty → Parser Val) (n : Nat) (t : Ty) (s : PState) :
    (parseWith env P n t s).map (fun v => [v]) = exec P n (body env t) s := by
  cases t with
  | leaf l => simp only [parseWith, body, exec, Res.map_map]
  | named x => simp only [parseWith, body, Res.map_map, evalParse_core _ n]
  | boxed t => simp only [parseWith, body, exec]
  | maybe p t =>
    simp only [parseWith, body, exec, maybeParse]
    cases P p s.fork with
    | ok v f => simp only [Res.map_okc]; cases P t (s.advanceTo f) <;> rfl
    | err e => rfl
    | panic => rfl
    | oof => rfl
  | paren t => simp only [parseWith, body, exec, parenParse, Res.map_map]
  | bracket t => simp only [parseWith, body, exec, bracketParse, Res.map_map]
  | brace t => simp only [parseWith, body, exec, braceParse, Res.map_map]
  | punctuated t p =>
    simp only [parseWith, body, exec, punctuatedParse_eq, ← termList_core, Res.map_map, Builder.apply]
  | separated t p =>
    simp only [parseWith, body, exec, separatedParse_eq, ← sepList_core, Res.map_map, Res.map_bind, Res.bind_map, Builder.apply,
      interleave_ofFirstRest]
    rfl
  | any t => simp only [parseWith, body, exec, anyParse_eq, anyList_core, Res.map_map, Builder.apply]
  | leftAssoc o r =>
    simp only [parseWith, body, exec, leftAssocParse, separatedParse_eq, ← sepList_core, Res.map_map, Res.map_bind, Res.bind_map]
    cases P r s with
    | ok v s1 =>
      simp only [Res.bind_okc]
      cases sepList (P r) (P o) n s1 with
      | ok rs s2 => simp [leftAssocOf_ofFirstRest, Res.ofOption, Builder.apply, leftV_core, Val.ofLeft]
      | err e => rfl
      | panic => rfl
      | oof => rfl
    | err e => rfl
    | panic => rfl
    | oof => rfl
  | rightAssoc o r =>
    simp only [parseWith, body, exec, rightAssocParse, separatedParse_eq, ← sepList_core, Res.map_map, Res.map_bind, Res.bind_map]
    cases P r s with
    | ok v s1 =>
      simp only [Res.bind_okc]
      cases sepList (P r) (P o) n s1 with
      | ok rs s2 => simp [rightAssocOf_ofFirstRest, Res.ofOption, Builder.apply, rightV_core]
      | err e => rfl
      | panic => rfl
      | oof => rfl
    | err e => rfl
    | panic => rfl
    | oof => rfl
  | either l r =>
    simp only [parseWith, body, exec, eitherParse]
    cases P l s.fork with
    | ok v f => rfl
    | panic => rfl
    | oof => rfl
    | err e => simp only [Res.map_errc]; cases P r s.fork <;> rfl

theorem parse_with (env : Env) (n : Nat) (t : Ty) (s : PState) : parse env (n + 1) t s = parseWith env (parse env n) n t s := by
  cases t <;> rfl

/-! ### the calls are all that matters -/

theorem delimited_agree {P Q : Parser Val} {d : Delim} {t : Ty} {s : PState} (h : ∀ c ∈ insideCalls d t s, Q c.2 = P c.2) :
    delimited d Q s = delimited d P s := by
  simp only [delimited, insideCalls] at *
  split
  · rename_i d' inner sp rest hu
    rw [hu] at h
    simp only at h
    split
    · rename_i hd
      rw [if_pos hd] at h
      rw [h _ (List.mem_singleton.mpr rfl)]
    · rfl
  · rfl

/-- More fuel and a parser that agrees on the calls: the same outcome and the same calls. -/
theorem exec_agree {P Q : Ty → Parser Val} {k m : Nat} (hkm : k ≤ m) : ∀ (e : E) (s : PState), exec P k e s ≠ .oof →
    (∀ c ∈ callsE P k e s, Q c.1 c.2 = P c.1 c.2) → exec Q m e s = exec P k e s ∧ callsE Q m e s = callsE P k e s := by
  intro e
  induction e with
  | ret => intro s _ _; exact ⟨rfl, rfl⟩
  | leaf l => intro s _ _; exact ⟨rfl, rfl⟩
  | ty t => intro s _ h; exact ⟨by simp only [exec]; rw [h (t, s) (by simp [callsE])], rfl⟩
  | delim d t =>
    intro s _ h
    refine ⟨?_, rfl⟩
    simp only [exec]
    rw [delimited_agree (t := t) (P := P t) fun c hc => ?_]
    have hc1 : c.1 = t := by
      simp only [insideCalls] at hc
      split at hc
      · split at hc
        · rw [List.mem_singleton.mp hc]
        · cases hc
      · cases hc
    have := h c hc
    rw [hc1] at this
    exact this
  | fail msg => intro s _ _; exact ⟨rfl, rfl⟩
  | seq a b iha ihb =>
    intro s hne h
    simp only [exec, callsE] at hne h ⊢
    have ha := iha s (fun h0 => hne (by rw [h0]; rfl)) fun c hc => h c (by simp [hc])
    rw [ha.1, ha.2]
    cases hr : exec P k a s with
    | ok vs s1 =>
      rw [hr] at h hne
      have hb := ihb s1 (fun h0 => hne (by rw [Res.bind_okc, h0]; rfl)) fun c hc => h c (by simp [hc])
      exact ⟨by rw [Res.bind_okc, hb.1]; rfl, by simp only [hb.2]⟩
    | _ => exact ⟨rfl, rfl⟩
  | label en c f a iha =>
    intro s hne h
    simp only [exec, callsE] at hne h ⊢
    have ha := iha s (fun h0 => hne (by rw [h0]; rfl)) h
    exact ⟨by rw [ha.1], ha.2⟩
  | attempt a iha =>
    intro s hne h
    simp only [exec, callsE] at hne h ⊢
    have ha := iha s.fork (fun h0 => hne (by rw [h0])) h
    exact ⟨by rw [ha.1], ha.2⟩
  | opt a b iha ihb =>
    intro s hne h
    simp only [exec, callsE] at hne h ⊢
    have ha := iha s.fork (fun h0 => hne (by rw [h0])) fun c hc => h c (by simp [hc])
    rw [ha.1, ha.2]
    cases hr : exec P k a s.fork with
    | ok vs f =>
      rw [hr] at h hne
      have hb := ihb (s.advanceTo f) (fun h0 => hne (by simp only [h0, Res.map_oofc])) fun c hc => h c (by simp [hc])
      exact ⟨by simp only [hb.1], by simp only [hb.2]⟩
    | _ => exact ⟨rfl, rfl⟩
  | alt a b iha ihb =>
    intro s hne h
    simp only [exec, callsE] at hne h ⊢
    have ha := iha s (fun h0 => hne (by rw [h0])) fun c hc => h c (by simp [hc])
    rw [ha.1, ha.2]
    cases hr : exec P k a s with
    | err e1 =>
      rw [hr] at h hne
      have hb := ihb s.fork (fun h0 => hne (by simp only [h0])) fun c hc => h c (by simp [hc])
      exact ⟨by simp only [hb.1], by simp only [hb.2]⟩
    | _ => exact ⟨rfl, rfl⟩
  | term a b iha ihb =>
    have key : ∀ j i s, j ≤ i → termN (exec P k a) (exec P k b) j s ≠ .oof →
        (∀ c ∈ termC (exec P k a) (exec P k b) (callsE P k a) (callsE P k b) j s, Q c.1 c.2 = P c.1 c.2) →
        termN (exec Q m a) (exec Q m b) i s = termN (exec P k a) (exec P k b) j s ∧
        termC (exec Q m a) (exec Q m b) (callsE Q m a) (callsE Q m b) i s = termC (exec P k a) (exec P k b) (callsE P k a) (callsE P k b) j s := by
      intro j
      induction j with
      | zero => intro i s _ hne; exact absurd rfl hne
      | succ j ih =>
        intro i s hi hne h
        obtain ⟨i, rfl⟩ : ∃ i', i = i' + 1 := ⟨i - 1, by omega⟩
        simp only [termN, termC] at hne h ⊢
        by_cases hs : s.isEmpty = true
        · simp only [hs, if_true, and_self]
        · simp only [hs] at hne h ⊢
          have ha := iha s (fun h0 => hne (by rw [h0]; rfl)) fun c hc => h c (List.mem_append_left _ hc)
          rw [ha.1, ha.2]
          cases hr : exec P k a s with
          | ok vs s1 =>
            rw [hr] at h hne
            simp only [Res.bind_okc] at hne h ⊢
            by_cases hs1 : s1.isEmpty = true
            · simp only [hs1, if_true, and_self]
            · simp only [hs1] at hne h ⊢
              have hb := ihb s1 (fun h0 => hne (by rw [h0]; rfl)) fun c hc => h c (List.mem_append_right _ (List.mem_append_left _ hc))
              rw [hb.1, hb.2]
              cases hr2 : exec P k b s1 with
              | ok ws s2 =>
                rw [hr2] at h hne
                simp only [Res.bind_okc] at hne h ⊢
                have := ih i s2 (by omega) (fun h0 => hne (by rw [h0]; rfl)) fun c hc => h c (List.mem_append_right _ (List.mem_append_right _ hc))
                rw [this.1, this.2]
                exact ⟨rfl, rfl⟩
              | _ => exact ⟨rfl, rfl⟩
          | _ => exact ⟨rfl, rfl⟩
    exact fun s hne h => key k m s hkm hne h
  | star a b iha ihb =>
    have key : ∀ j i s, j ≤ i → starN (exec P k a) (exec P k b) j s ≠ .oof →
        (∀ c ∈ starC (exec P k a) (exec P k b) (callsE P k a) (callsE P k b) j s, Q c.1 c.2 = P c.1 c.2) →
        starN (exec Q m a) (exec Q m b) i s = starN (exec P k a) (exec P k b) j s ∧
        starC (exec Q m a) (exec Q m b) (callsE Q m a) (callsE Q m b) i s = starC (exec P k a) (exec P k b) (callsE P k a) (callsE P k b) j s := by
      intro j
      induction j with
      | zero => intro i s _ hne; exact absurd rfl hne
      | succ j ih =>
        intro i s hi hne h
        obtain ⟨i, rfl⟩ : ∃ i', i = i' + 1 := ⟨i - 1, by omega⟩
        simp only [starN, starC] at hne h ⊢
        have ha := iha s.fork (fun h0 => hne (by rw [h0])) fun c hc => h c (List.mem_append_left _ hc)
        rw [ha.1, ha.2]
        cases hr : exec P k a s.fork with
        | ok vs f =>
          rw [hr] at h hne
          simp only at hne h ⊢
          have hb := ihb (s.advanceTo f) (fun h0 => hne (by rw [h0]; rfl)) fun c hc => h c (List.mem_append_right _ (List.mem_append_left _ hc))
          rw [hb.1, hb.2]
          cases hr2 : exec P k b (s.advanceTo f) with
          | ok ws s2 =>
            rw [hr2] at h hne
            simp only [Res.bind_okc] at hne h ⊢
            have := ih i s2 (by omega) (fun h0 => hne (by rw [h0]; rfl)) fun c hc => h c (List.mem_append_right _ (List.mem_append_right _ hc))
            rw [this.1, this.2]
            exact ⟨rfl, rfl⟩
          | _ => exact ⟨rfl, rfl⟩
        | _ => exact ⟨rfl, rfl⟩
    exact fun s hne h => key k m s hkm hne h
  | build bu a iha =>
    intro s hne h
    simp only [exec, callsE] at hne h ⊢
    have ha := iha s (fun h0 => hne (by rw [h0]; rfl)) h
    exact ⟨by rw [ha.1], ha.2⟩

/-- If one of the calls does not return, neither does the expression. -/
theorem exec_stuck {P : Ty → Parser Val} {k : Nat} : ∀ (e : E) (s : PState) (c : Call), c ∈ callsE P k e s → P c.1 c.2 = .oof → exec P k e s = .oof := by
  intro e
  induction e with
  | ret => intro s c hc; cases hc
  | leaf l => intro s c hc; cases hc
  | ty t => intro s c hc h; rw [List.mem_singleton.mp hc] at h; simp only [exec, h]; rfl
  | delim d t =>
    intro s c hc h
    simp only [exec, callsE, insideCalls, delimited] at hc ⊢
    split at hc
    · rename_i d' inner sp rest hu
      split at hc
      · rename_i hd
        rw [List.mem_singleton.mp hc] at h
        simp only [h, hu, hd, if_true]; rfl
      · cases hc
    · cases hc
  | fail msg => intro s c hc; cases hc
  | seq a b iha ihb =>
    intro s c hc h
    simp only [exec, callsE] at hc ⊢
    rcases List.mem_append.mp hc with hc | hc
    · rw [iha s c hc h]; rfl
    · split at hc
      · rename_i s1 hr; simp only [hr, Res.bind_okc, ihb s1 c hc h]; rfl
      · cases hc
  | label en cc f a iha => intro s c hc h; simp only [exec]; rw [iha s c hc h]; rfl
  | attempt a iha => intro s c hc h; simp only [exec]; rw [iha s.fork c hc h]
  | opt a b iha ihb =>
    intro s c hc h
    simp only [exec, callsE] at hc ⊢
    rcases List.mem_append.mp hc with hc | hc
    · rw [iha s.fork c hc h]
    · split at hc
      · rename_i s1 hr; simp only [hr, ihb _ c hc h]; rfl
      · cases hc
  | alt a b iha ihb =>
    intro s c hc h
    simp only [exec, callsE] at hc ⊢
    rcases List.mem_append.mp hc with hc | hc
    · rw [iha s c hc h]
    · split at hc
      · rename_i s1 hr; simp only [hr, ihb _ c hc h]
      · cases hc
  | term a b iha ihb =>
    have key : ∀ j s c, c ∈ termC (exec P k a) (exec P k b) (callsE P k a) (callsE P k b) j s → P c.1 c.2 = .oof →
        termN (exec P k a) (exec P k b) j s = .oof := by
      intro j
      induction j with
      | zero => intro s c hc; cases hc
      | succ j ih =>
        intro s c hc h
        simp only [termN, termC] at hc ⊢
        split at hc
        · cases hc
        · rename_i hs
          simp only [hs]
          rcases List.mem_append.mp hc with hc | hc
          · rw [iha s c hc h]; rfl
          · split at hc
            · rename_i s1 hr
              simp only [hr, Res.bind_okc]
              split at hc
              · cases hc
              · rename_i hs1
                simp only [hs1]
                rcases List.mem_append.mp hc with hc | hc
                · rw [ihb s1 c hc h]; rfl
                · split at hc
                  · rename_i s2 hr2; simp only [hr2, Res.bind_okc, ih s2 c hc h]; rfl
                  · cases hc
            · cases hc
    exact fun s c hc h => key k s c hc h
  | star a b iha ihb =>
    have key : ∀ j s c, c ∈ starC (exec P k a) (exec P k b) (callsE P k a) (callsE P k b) j s → P c.1 c.2 = .oof →
        starN (exec P k a) (exec P k b) j s = .oof := by
      intro j
      induction j with
      | zero => intro s c hc; cases hc
      | succ j ih =>
        intro s c hc h
        simp only [starN, starC] at hc ⊢
        rcases List.mem_append.mp hc with hc | hc
        · rw [iha s.fork c hc h]
        · split at hc
          · rename_i s1 hr
            simp only [hr]
            rcases List.mem_append.mp hc with hc | hc
            · rw [ihb _ c hc h]; rfl
            · split at hc
              · rename_i s2 hr2; simp only [hr2, Res.bind_okc, ih s2 c hc h]; rfl
              · cases hc
          · cases hc
    exact fun s c hc h => key k s c hc h
  | build bu a iha => intro s c hc h; simp only [exec]; rw [iha s c hc h]; rfl

theorem map_single_inj {r q : Res Val} (h : r.map (fun v => [v]) = q.map fun v => [v]) : r = q := by
  cases r <;> cases q <;> simp_all

theorem parse_ne_oof {env : Env} {n : Nat} {t : Ty} {s : PState} (h : parse env (n + 1) t s ≠ .oof) : exec (parse env n) n (body env t) s ≠ .oof := by
  rw [← parse_core]
  intro h0
  cases hr : parse env (n + 1) t s <;> rw [hr] at h0 <;> simp_all

/-- A parse that has come to an end makes the same calls with more fuel, and all of them have come to an end. -/
theorem calls_stable {env : Env} {n m : Nat} {t : Ty} {s : PState} (hnm : n ≤ m) (h : parse env (n + 1) t s ≠ .oof) :
    calls (parse env m) env m t s = calls (parse env n) env n t s ∧ ∀ c ∈ calls (parse env n) env n t s, parse env n c.1 c.2 ≠ .oof := by
  have h1 := parse_ne_oof h
  have h2 : ∀ c ∈ calls (parse env n) env n t s, parse env n c.1 c.2 ≠ .oof := fun c hc h0 => h1 (exec_stuck _ _ c (by rwa [calls_core] at hc) h0)
  refine ⟨?_, h2⟩
  rw [calls_core, calls_core]
  refine (exec_agree hnm _ _ h1 fun c hc => ?_).2
  exact parse_stable hnm (h2 c (by rwa [calls_core]))

theorem work_stable {env : Env} : ∀ {n m : Nat} {t : Ty} {s : PState}, n ≤ m → parse env n t s ≠ .oof → work env m t s = work env n t s
  | 0, _, _, _, _, h => absurd rfl h
  | n + 1, 0, _, _, h, _ => absurd h (by omega)
  | n + 1, m + 1, t, s, hnm, h => by
    obtain ⟨h1, h2⟩ := calls_stable (m := m) (by omega) h
    simp only [work, h1]
    congr 2
    exact List.map_congr_left fun c hc => work_stable (by omega) (h2 c hc)

theorem depth_stable {env : Env} : ∀ {n m : Nat} {t : Ty} {s : PState}, n ≤ m → parse env n t s ≠ .oof → depth env m t s = depth env n t s
  | 0, _, _, _, _, h => absurd rfl h
  | n + 1, 0, _, _, h, _ => absurd h (by omega)
  | n + 1, m + 1, t, s, hnm, h => by
    obtain ⟨h1, h2⟩ := calls_stable (m := m) (by omega) h
    simp only [depth, h1]
    congr 2
    exact List.map_congr_left fun c hc => depth_stable (by omega) (h2 c hc)

/-! ### where the calls go -/

/-- The call is at the start, or after some tokens, or in a group. -/
theorem callsE_at {P : Ty → Parser Val} {N : Ty → Prop} (hP : ∀ t s v s', P t s = .ok v s' → Moves (N t) s s') {k : Nat} :
    ∀ (e : E) (s : PState) (c : Call), c ∈ callsE P k e s →
      (c.2.cur = s.cur ∧ e.Heads N c.1) ∨ (TT.sizes c.2.cur < TT.sizes s.cur ∧ e.Uses c.1) := by
  have hM : ∀ (e : E) s vs s', exec P k e s = .ok vs s' → Moves (e.Null N) s s' := exec_moves hP k
  have after : ∀ {n : Prop} {s s1 : PState} {c : Call} {A B : Prop}, Moves n s s1 → (c.2.cur = s1.cur ∧ A) ∨ (TT.sizes c.2.cur < TT.sizes s1.cur ∧ B) →
      (A → B) → (c.2.cur = s.cur ∧ n ∧ A) ∨ (TT.sizes c.2.cur < TT.sizes s.cur ∧ B) := by
    intro n s s1 c A B hm h hab
    rcases hm.2 with ⟨hn, hc⟩ | hp
    · rcases h with h | h
      · exact .inl ⟨h.1.trans hc, hn, h.2⟩
      · exact .inr ⟨by rw [← hc]; exact h.1, h.2⟩
    · have hs := plus_size hp
      rcases h with h | h
      · exact .inr ⟨by rw [h.1]; exact hs, hab h.2⟩
      · exact .inr ⟨Nat.lt_trans h.1 hs, h.2⟩
  intro e
  induction e with
  | ret => intro s c hc; cases hc
  | leaf l => intro s c hc; cases hc
  | ty t => intro s c hc; rw [List.mem_singleton.mp hc]; exact .inl ⟨rfl, rfl⟩
  | delim d t =>
    intro s c hc
    simp only [callsE, insideCalls] at hc
    split at hc
    · rename_i d' inner sp rest hu
      split at hc
      · rw [List.mem_singleton.mp hc]
        exact .inr ⟨(next_size ((uncons_iff _ _ _).mp hu)).2 _ _ _ rfl, rfl⟩
      · cases hc
    · cases hc
  | fail msg => intro s c hc; cases hc
  | seq a b iha ihb =>
    intro s c hc
    simp only [callsE] at hc
    rcases List.mem_append.mp hc with hc | hc
    · exact (iha s c hc).imp (fun h => ⟨h.1, .inl h.2⟩) fun h => ⟨h.1, .inl h.2⟩
    · split at hc
      · rename_i s1 hr
        exact (after (hM _ _ _ _ hr) (ihb s1 c hc) heads_uses).imp (fun h => ⟨h.1, .inr h.2⟩) fun h => ⟨h.1, .inr h.2⟩
      · cases hc
  | label en cc f a iha => intro s c hc; exact iha s c hc
  | attempt a iha => intro s c hc; exact iha s.fork c hc
  | opt a b iha ihb =>
    intro s c hc
    simp only [callsE] at hc
    rcases List.mem_append.mp hc with hc | hc
    · exact (iha s.fork c hc).imp (fun h => ⟨h.1, .inl h.2⟩) fun h => ⟨h.1, .inl h.2⟩
    · split at hc
      · rename_i f hr
        exact (after ((hM _ _ _ _ hr).advance (s := s)) (ihb _ c hc) heads_uses).imp (fun h => ⟨h.1, .inr h.2⟩) fun h => ⟨h.1, .inr h.2⟩
      · cases hc
  | alt a b iha ihb =>
    intro s c hc
    simp only [callsE] at hc
    rcases List.mem_append.mp hc with hc | hc
    · exact (iha s c hc).imp (fun h => ⟨h.1, .inl h.2⟩) fun h => ⟨h.1, .inl h.2⟩
    · split at hc
      · exact (ihb s.fork c hc).imp (fun h => ⟨h.1, .inr h.2⟩) fun h => ⟨h.1, .inr h.2⟩
      · cases hc
  | term a b iha ihb =>
    have key : ∀ j s c, c ∈ termC (exec P k a) (exec P k b) (callsE P k a) (callsE P k b) j s →
        (c.2.cur = s.cur ∧ (E.term a b).Heads N c.1) ∨ (TT.sizes c.2.cur < TT.sizes s.cur ∧ (E.term a b).Uses c.1) := by
      intro j
      induction j with
      | zero => intro s c hc; cases hc
      | succ j ih =>
        intro s c hc
        simp only [termC] at hc
        split at hc
        · cases hc
        · rcases List.mem_append.mp hc with hc | hc
          · exact (iha s c hc).imp (fun h => ⟨h.1, .inl h.2⟩) fun h => ⟨h.1, .inl h.2⟩
          · split at hc
            · rename_i s1 hr
              split at hc
              · cases hc
              · have h1 := hM _ _ _ _ hr
                rcases List.mem_append.mp hc with hc | hc
                · exact (after h1 (ihb s1 c hc) heads_uses).imp (fun h => ⟨h.1, .inr h.2⟩) fun h => ⟨h.1, .inr h.2⟩
                · split at hc
                  · rename_i s2 hr2
                    exact (after (h1.trans (hM _ _ _ _ hr2)) (ih s2 c hc) heads_uses).imp (fun h => ⟨h.1, h.2.2⟩) id
                  · cases hc
            · cases hc
    exact fun s c hc => key k s c hc
  | star a b iha ihb =>
    have key : ∀ j s c, c ∈ starC (exec P k a) (exec P k b) (callsE P k a) (callsE P k b) j s →
        (c.2.cur = s.cur ∧ (E.star a b).Heads N c.1) ∨ (TT.sizes c.2.cur < TT.sizes s.cur ∧ (E.star a b).Uses c.1) := by
      intro j
      induction j with
      | zero => intro s c hc; cases hc
      | succ j ih =>
        intro s c hc
        simp only [starC] at hc
        rcases List.mem_append.mp hc with hc | hc
        · exact (iha s.fork c hc).imp (fun h => ⟨h.1, .inl h.2⟩) fun h => ⟨h.1, .inl h.2⟩
        · split at hc
          · rename_i f hr
            have h1 := (hM _ _ _ _ hr).advance (s := s)
            rcases List.mem_append.mp hc with hc | hc
            · exact (after h1 (ihb _ c hc) heads_uses).imp (fun h => ⟨h.1, .inr h.2⟩) fun h => ⟨h.1, .inr h.2⟩
            · split at hc
              · rename_i s2 hr2
                exact (after (h1.trans (hM _ _ _ _ hr2)) (ih s2 c hc) heads_uses).imp (fun h => ⟨h.1, h.2.2⟩) id
              · cases hc
          · cases hc
    exact fun s c hc => key k s c hc
  | build bu a iha => intro s c hc; exact iha s c hc

theorem calls_at {env : Env} {n : Nat} {t : Ty} {s : PState} {c : Call} (h : c ∈ calls (parse env n) env n t s) :
    (c.2.cur = s.cur ∧ StartsWith env t c.1) ∨ (TT.sizes c.2.cur < TT.sizes s.cur ∧ PartOf env c.1 t) := by
  rw [calls_core] at h
  exact (callsE_at (N := CanBeEmpty env) (parse_moves env n) _ _ _ h).imp (fun h => ⟨h.1, body_heads h.2⟩) fun h => ⟨h.1, body_uses h.2⟩

/-! ### chains -/

/-- All chains from `a` have at most `n` steps. -/
def ChainsLe {α : Type} (r : α → α → Prop) : Nat → α → Prop
  | 0, a => ∀ b, ¬ r a b
  | n + 1, a => ∀ b, r a b → ChainsLe r n b

open Classical in
omit [Ext] in
theorem chainsLe_of_finite {α : Type} (r : α → α → Prop) : ∀ (n : Nat) (L : List α) (a : α), L.length ≤ n → (∀ b, Chain r a b → b ∈ L) →
    (∀ b, Chain r a b → ¬ Chain r b b) → ChainsLe r n a
  | 0, L, a, hl, hL, hn => fun b hb => by
    have := hL b (.one hb)
    have hL0 : L = [] := by cases L <;> simp_all
    rw [hL0] at this; cases this
  | n + 1, L, a, hl, hL, hn => fun b hb => by
    have hb' : Chain r a b := .one hb
    refine chainsLe_of_finite r n (L.filter (· ≠ b)) b ?_ ?_ fun c hc => hn c (hb'.trans hc)
    · have : (L.filter (· ≠ b)).length < L.length := by
        rw [List.length_filter_lt_length_iff_exists]
        exact ⟨b, hL b hb', by simp⟩
      omega
    · intro c hc
      simp only [List.mem_filter, decide_eq_true_eq]
      refine ⟨hL c (hb'.trans hc), ?_⟩
      rintro rfl
      exact hn c hb' hc

open Classical in
omit [Ext] in
/-- ... starting inside the list. -/
theorem chainsLe_of_closed {α : Type} {r : α → α → Prop} {L : List α} (hc : ∀ a ∈ L, ∀ b, r a b → b ∈ L) (hn : ∀ a ∈ L, ¬ Chain r a a) {a : α}
    (ha : a ∈ L) : ChainsLe r (L.length - 1) a := by
  have hL : ∀ {a b}, Chain r a b → a ∈ L → b ∈ L := by
    intro a b h
    induction h with
    | one h => exact fun ha => hc _ ha _ h
    | more h _ ih => exact fun ha => ih (hc _ ha _ h)
  refine chainsLe_of_finite r (L.length - 1) (L.filter (· ≠ a)) a ?_ (fun b hb => ?_) fun b hb => hn b (hL hb ha)
  · have : (L.filter (· ≠ a)).length < L.length := by
      rw [List.length_filter_lt_length_iff_exists]
      exact ⟨a, ha, by simp⟩
    omega
  · simp only [List.mem_filter, decide_eq_true_eq]
    exact ⟨hL hb ha, fun h => hn a ha (by rw [h] at hb; exact hb)⟩

omit [Ext] in
theorem foldr_max_le {α : Type} {f : α → Nat} {B : Nat} : ∀ {l : List α}, (∀ a ∈ l, f a ≤ B) → (l.map f).foldr max 0 ≤ B
  | [], _ => Nat.zero_le _
  | a :: l, h => by
    simp only [List.map_cons, List.foldr_cons]
    exact Nat.max_le.mpr ⟨h a (by simp), foldr_max_le fun b hb => h b (by simp [hb])⟩

omit [Ext] in
theorem le_foldr_max {α : Type} {f : α → Nat} : ∀ {l : List α} {a : α}, a ∈ l → f a ≤ (l.map f).foldr max 0
  | b :: l, a, h => by
    simp only [List.map_cons, List.foldr_cons]
    rcases List.mem_cons.mp h with rfl | h
    · exact Nat.le_max_left _ _
    · exact Nat.le_trans (le_foldr_max h) (Nat.le_max_right _ _)

theorem depth_bound {env : Env} {G : Ty → Prop} {N : Nat} (hG : ∀ t, G t → ∀ u, PartOf env u t → G u)
    (hW : ∀ t, G t → ChainsLe (StartsWith env) N t) :
    ∀ (n i : Nat) (t : Ty) (s : PState), G t → ChainsLe (StartsWith env) i t → depth env n t s ≤ TT.sizes s.cur * (N + 1) + i + 1 := by
  intro n
  induction n with
  | zero => intro i t s _ _; exact Nat.zero_le _
  | succ n ih =>
    intro i t s ht hi
    simp only [depth]
    have : ((calls (parse env n) env n t s).map fun c => depth env n c.1 c.2).foldr max 0 ≤ TT.sizes s.cur * (N + 1) + i := by
      refine foldr_max_le fun c hc => ?_
      rcases calls_at hc with ⟨h1, h2⟩ | ⟨h1, h2⟩
      · cases i with
        | zero => exact absurd h2 (hi _)
        | succ i =>
          have := ih i c.1 c.2 (hG t ht _ (startsWith_partOf h2)) (hi _ h2)
          rw [h1] at this
          omega
      · have hu := hG t ht _ h2
        have := ih N c.1 c.2 hu (hW _ hu)
        have h3 : (TT.sizes c.2.cur + 1) * (N + 1) ≤ TT.sizes s.cur * (N + 1) := Nat.mul_le_mul_right _ h1
        rw [Nat.succ_mul] at h3
        omega
    omega

/-! ### nesting of delimiters -/

omit [Ext] in
theorem nest_append : ∀ (a b : List TT), nest (a ++ b) = max (nest a) (nest b)
  | [], b => by simp [nest]
  | t :: a, b => by simp only [List.cons_append, nest, nest_append a b]; omega

omit [Ext] in
theorem nest_next {ts rest : List TT} {t : TT} (h : Next ts t rest) : nest rest ≤ nest ts ∧ nestT t ≤ nest ts := by
  induction h with
  | here => simp only [nest]; omega
  | enter _ ih => simp only [nest, nestT, nest_append] at ih ⊢; omega

omit [Ext] in
theorem nest_steps {a b : List TT} (h : Steps a b) : nest b ≤ nest a := by
  induction h with
  | refl => exact Nat.le_refl _
  | step h _ ih => exact Nat.le_trans ih (nest_next h).1

theorem nest_moves {N : Prop} {s s' : PState} (h : Moves N s s') : nest s'.cur ≤ nest s.cur := nest_steps h.steps

theorem inside_nest {d : Delim} {t : Ty} {s : PState} {c : Call} (hc : c ∈ insideCalls d t s) : nest c.2.cur < nest s.cur := by
  simp only [insideCalls] at hc
  split at hc
  · rename_i d' inner sp rest hu
    split at hc
    · rw [List.mem_singleton.mp hc]
      have := (nest_next ((uncons_iff _ _ _).mp hu)).2
      simp only [nestT] at this
      show nest inner < _
      omega
    · cases hc
  · cases hc

theorem callsE_nest {P : Ty → Parser Val} {N : Ty → Prop} (hP : ∀ t s v s', P t s = .ok v s' → Moves (N t) s s') {k : Nat} :
    ∀ (e : E) (s : PState) (c : Call), c ∈ callsE P k e s → nest c.2.cur ≤ nest s.cur := by
  have hM : ∀ (e : E) s vs s', exec P k e s = .ok vs s' → Moves (e.Null N) s s' := exec_moves hP k
  intro e
  induction e with
  | ret => intro s c hc; cases hc
  | leaf l => intro s c hc; cases hc
  | ty t => intro s c hc; rw [List.mem_singleton.mp hc]; exact Nat.le_refl _
  | delim d t => intro s c hc; exact Nat.le_of_lt (inside_nest hc)
  | fail msg => intro s c hc; cases hc
  | seq a b iha ihb =>
    intro s c hc
    simp only [callsE] at hc
    rcases List.mem_append.mp hc with hc | hc
    · exact iha s c hc
    · split at hc
      · rename_i s1 hr
        exact Nat.le_trans (ihb s1 c hc) (nest_moves (hM _ _ _ _ hr))
      · cases hc
  | label en cc f a iha => intro s c hc; exact iha s c hc
  | attempt a iha => intro s c hc; exact iha s.fork c hc
  | opt a b iha ihb =>
    intro s c hc
    simp only [callsE] at hc
    rcases List.mem_append.mp hc with hc | hc
    · exact iha s.fork c hc
    · split at hc
      · rename_i f hr
        exact Nat.le_trans (ihb _ c hc) (nest_moves ((hM _ _ _ _ hr).advance (s := s)))
      · cases hc
  | alt a b iha ihb =>
    intro s c hc
    simp only [callsE] at hc
    rcases List.mem_append.mp hc with hc | hc
    · exact iha s c hc
    · split at hc
      · exact ihb s.fork c hc
      · cases hc
  | term a b iha ihb =>
    have key : ∀ j s c, c ∈ termC (exec P k a) (exec P k b) (callsE P k a) (callsE P k b) j s → nest c.2.cur ≤ nest s.cur := by
      intro j
      induction j with
      | zero => intro s c hc; cases hc
      | succ j ih =>
        intro s c hc
        simp only [termC] at hc
        split at hc
        · cases hc
        · rcases List.mem_append.mp hc with hc | hc
          · exact iha s c hc
          · split at hc
            · rename_i s1 hr
              split at hc
              · cases hc
              · have h1 := nest_moves (hM _ _ _ _ hr)
                rcases List.mem_append.mp hc with hc | hc
                · exact Nat.le_trans (ihb s1 c hc) h1
                · split at hc
                  · rename_i s2 hr2
                    exact Nat.le_trans (ih s2 c hc) (Nat.le_trans (nest_moves (hM _ _ _ _ hr2)) h1)
                  · cases hc
            · cases hc
    exact fun s c hc => key k s c hc
  | star a b iha ihb =>
    have key : ∀ j s c, c ∈ starC (exec P k a) (exec P k b) (callsE P k a) (callsE P k b) j s → nest c.2.cur ≤ nest s.cur := by
      intro j
      induction j with
      | zero => intro s c hc; cases hc
      | succ j ih =>
        intro s c hc
        simp only [starC] at hc
        rcases List.mem_append.mp hc with hc | hc
        · exact iha s.fork c hc
        · split at hc
          · rename_i f hr
            have h1 := nest_moves ((hM _ _ _ _ hr).advance (s := s))
            rcases List.mem_append.mp hc with hc | hc
            · exact Nat.le_trans (ihb _ c hc) h1
            · split at hc
              · rename_i s2 hr2
                exact Nat.le_trans (ih s2 c hc) (Nat.le_trans (nest_moves (hM _ _ _ _ hr2)) h1)
              · cases hc
          · cases hc
    exact fun s c hc => key k s c hc
  | build bu a iha => intro s c hc; exact iha s c hc

theorem calls_nest {env : Env} {n : Nat} {t : Ty} {s : PState} {c : Call} (h : c ∈ calls (parse env n) env n t s) :
    (nest c.2.cur ≤ nest s.cur ∧ Beside env t c.1) ∨ (nest c.2.cur < nest s.cur ∧ PartOf env c.1 t) := by
  have hp : PartOf env c.1 t := by
    rcases calls_at h with h | h
    · exact startsWith_partOf h.2
    · exact h.2
  have hle : nest c.2.cur ≤ nest s.cur := by
    rw [calls_core] at h
    exact callsE_nest (N := CanBeEmpty env) (parse_moves env n) _ _ _ h
  cases t with
  | paren t => exact .inr ⟨inside_nest (d := .paren) (t := t) h, hp⟩
  | bracket t => exact .inr ⟨inside_nest (d := .bracket) (t := t) h, hp⟩
  | brace t => exact .inr ⟨inside_nest (d := .brace) (t := t) h, hp⟩
  | _ => exact .inl ⟨hle, hp, by intro v; simp⟩

theorem depth_nest {env : Env} {G : Ty → Prop} {N : Nat} (hG : ∀ t, G t → ∀ u, PartOf env u t → G u)
    (hW : ∀ t, G t → ChainsLe (Beside env) N t) :
    ∀ (n i : Nat) (t : Ty) (s : PState), G t → ChainsLe (Beside env) i t → depth env n t s ≤ nest s.cur * (N + 1) + i + 1 := by
  intro n
  induction n with
  | zero => intro i t s _ _; exact Nat.zero_le _
  | succ n ih =>
    intro i t s ht hi
    simp only [depth]
    have : ((calls (parse env n) env n t s).map fun c => depth env n c.1 c.2).foldr max 0 ≤ nest s.cur * (N + 1) + i := by
      refine foldr_max_le fun c hc => ?_
      rcases calls_nest hc with ⟨h1, h2⟩ | ⟨h1, h2⟩
      · cases i with
        | zero => exact absurd h2 (hi _)
        | succ i =>
          have := ih i c.1 c.2 (hG t ht _ h2.1) (hi _ h2)
          have h3 : nest c.2.cur * (N + 1) ≤ nest s.cur * (N + 1) := Nat.mul_le_mul_right _ h1
          omega
      · have hu := hG t ht _ h2
        have := ih N c.1 c.2 hu (hW _ hu)
        have h3 : (nest c.2.cur + 1) * (N + 1) ≤ nest s.cur * (N + 1) := Nat.mul_le_mul_right _ h1
        rw [Nat.succ_mul] at h3
        omega
    omega

end Parsel
