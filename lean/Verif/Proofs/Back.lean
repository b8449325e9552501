import Verif.Proofs.RoundTrip

/-! The round trip, by induction on the value. -/

namespace Parsel
open Spec
variable [Ext]

theorem backs_of {env : Env} {H : Ty → Val → Prop} (hH : ∀ t v, H t v → HasTy env t v → Survives v → Back env t v) :
    ∀ {tys : List Ty} {vs : List Val}, HasTys env tys vs → SurvivesL vs → (∀ t ∈ tys, ∀ v ∈ vs, H t v) → Backs env tys vs
  | [], [], .nil, _, _ => trivial
  | t :: tys, v :: vs, .cons h hs, hl, hm => by
    simp only [SurvivesL] at hl
    exact ⟨hH t v (hm t (by simp) v (by simp)) h hl.1, backs_of hH hs hl.2 fun t' ht v' hv => hm t' (by simp [ht]) v' (by simp [hv])⟩

theorem size_child {tag : Tag} {vs : List Val} {w : Val} (h : w ∈ vs) : sizeOf w < sizeOf (Val.node tag vs) := by
  have := List.sizeOf_lt_of_mem h
  simp only [Val.node.sizeOf_spec]
  omega

section
variable {env : Env} {G : List Ty}

theorem group_back {d : Delim} {t : Ty} {sp : Span} {v : Val} (hb : Back env t v) (hk : ∀ u, Grabs env t u → Refuses env u []) {ts k : List TT}
    {sc : Span} {ux : Option Span} (ht : (Val.group d sp v).toTokens = some ts) (hd : d ≠ .none) :
    Settles (fun m => exec (parse env m) m (.delim d t) ⟨ts ++ k, sc, ux⟩) (.ok [.group d sp v] ⟨k, sc, ux⟩) := by
  simp only [Val.toTokens, Option.map_eq_some_iff] at ht
  obtain ⟨a, ha, rfl⟩ := ht
  obtain ⟨n, hn⟩ := hb a [] sp.closeOf ux ha hk
  refine ⟨n, fun m hm => ?_⟩
  have h1 := hn m hm
  simp only [List.append_nil] at h1
  simp only [exec, delimited, delimToTokens, List.cons_append, List.nil_append]
  rw [(uncons_iff _ _ _).mpr (next_cons (by simp [hd]) _)]
  simp only [if_true]
  rw [h1]
  simp only [Res.bind_okc, Res.map_okc, PState.dropUnexp, unexpectedSpan, uncons, Option.map_none]
  cases ux <;> rfl

/-- Fields of a constructor. -/
theorem ctor_back {en : Option Text} {x c : Text} {fs : Fields Ty} {vs : List Val} {ts k : List TT} {sc : Span} {ux : Option Span}
    (hb : Backs env (fieldTypes fs) vs) (hf : Follows env k (fieldTypes fs) vs) (ht : Val.toTokensL vs = some ts) :
    Settles (fun m => exec (parse env m) m (ctorE x (expandFields en c fs)) ⟨ts ++ k, sc, ux⟩) (.ok [.node (.ctor x c) vs] ⟨k, sc, ux⟩) := by
  have hm : (expandFields en c fs).inits.map (·.ty) = fieldTypes fs := inits_ty_map en c fs
  have h := inits_back (env := env) (k := k) (sc := sc) (ux := ux) (expandFields en c fs).inits vs ts (hm ▸ hb) (hm ▸ hf) ht
  have h2 := h.map fun vs => [Builder.apply (.node (.ctor x (expandFields en c fs).ctor)) vs]
  rw [expandFields_ctor] at h2
  simp only [ctorE, exec, expandFields_ctor]
  exact h2

/-- `Separated`, `LeftAssoc` and `RightAssoc`. -/
theorem chain_back (hG : Grammar env G) {t p : Ty} {bu : Builder} {v0 : Val} {vs : List Val} {n : Nat} {ts k : List TT} {sc : Span} {ux : Option Span}
    (hpG : p ∈ G) (hskip : ¬ Skippable env p) (ha : SeqApart env (alternate t p (2 * n + 1))) (hs : HasTys env (alternate t p (2 * n + 1)) (v0 :: vs))
    (hb : Backs env (alternate t p (2 * n + 1)) (v0 :: vs)) (ht : Val.toTokensL (v0 :: vs) = some ts)
    (hk : ∀ pre x post, alternate t p (2 * n + 1) = pre ++ x :: post → (∀ y ∈ post, CanBeEmpty env y) → ∀ u, Grabs env x u → Refuses env u k)
    (hp : ∀ u, Lead env p u → Refuses env u k) :
    Settles (fun m => exec (parse env m) m (.build bu (.seq (.ty t) (.star (.ty p) (.ty t)))) ⟨ts ++ k, sc, ux⟩) (.ok [bu.apply (v0 :: vs)] ⟨k, sc, ux⟩) := by
  have hf := follows_of_last ha hs hk
  obtain ⟨a, b, haa, hbb, rfl⟩ := toTokensL_cons ht
  obtain ⟨n1, h1⟩ := hb.1 a (b ++ k) sc ux haa (hf.1 b hbb)
  obtain ⟨n2, h2⟩ := star_back (env := env) (k := k) (sc := sc) (ux := ux) (p := p) (t := t)
    (fails_of_refused hG hpG hskip (s := ⟨k, sc, none⟩) hp) n vs b hb.2 hf.2 hbb
  refine ⟨max n1 n2, fun m hm => ?_⟩
  replace h1 : parse env m t ⟨a ++ (b ++ k), sc, ux⟩ = _ := h1 m (by omega)
  have h2 := h2 m m (by omega) (by omega)
  simp only [List.append_assoc]
  simp only [exec] at h2 ⊢
  rw [h1]
  simp only [Res.map_okc, Res.bind_okc]
  rw [h2]
  rfl

theorem named_struct (hG : Grammar env G) {x : Text} {fields : Fields Ty} (he : env x = .struct fields) (ht : .named x ∈ G) :
    SeqApart env (fieldTypes fields) := by
  have := hG.predictive _ ht
  simp only [Predictive, he] at this
  exact this

theorem named_enum (hG : Grammar env G) {x : Text} {vs : List (VariantDef Ty)} (he : env x = .enum vs) (ht : .named x ∈ G) :
    (∀ v ∈ vs, SeqApart env (fieldTypes v.fields)) ∧
        ∀ before v mid w after, vs = before ++ v :: (mid ++ w :: after) →
          (¬ ∀ t ∈ fieldTypes v.fields, Skippable env t) ∧
          ∀ u b, SeqLead env (fieldTypes v.fields) u → SeqLead env (fieldTypes w.fields) b → Apart env u b := by
  have := hG.predictive _ ht
  simp only [Predictive, he] at this
  exact this

/-- If nothing printed or what is printed starts with another leaf, then the leads are refused. -/
theorem refuse_printed {tys : List Ty} {vs : List Val} {ts k : List TT} {u : Ty} (hs : HasTys env tys vs) (ht : Val.toTokensL vs = some ts)
    (ha : ∀ b, SeqLead env tys b → Apart env u b) (hk : (∀ y ∈ tys, CanBeEmpty env y) → Refuses env u k) : Refuses env u (ts ++ k) := by
  obtain ⟨h1, h2⟩ := prints_lead hs ts ht
  by_cases hn : ts = []
  · subst hn; exact hk (h1 rfl)
  · obtain ⟨w, hw, vw, tw, rest, hv, htw, hne, rfl⟩ := h2 hn
    rw [List.append_assoc]
    exact ha w hw vw tw hv htw hne (rest ++ k)

theorem back_all (laws : FloatLaws) (hG : Grammar env G) : ∀ (n : Nat) (v : Val), sizeOf v < n → ∀ t ∈ G, HasTy env t v → Survives v → Back env t v := by
  intro n
  induction n with
  | zero => intro v hv; omega
  | succ n ih =>
    intro v hv t
    have backs : ∀ {tys vs}, HasTys env tys vs → SurvivesL vs → (∀ t ∈ tys, t ∈ G) → (∀ w ∈ vs, sizeOf w < sizeOf v) → Backs env tys vs := by
      intro tys vs h1 h2 h3 h4
      exact backs_of (H := fun t w => t ∈ G ∧ sizeOf w < n) (fun t w h => ih w h.2 t h.1) h1 h2 fun t ht w hw => ⟨h3 t ht, by have := h4 w hw; omega⟩
    induction t with
    | leaf l =>
      intro ht hty hsv ts k sc ux hts hk
      cases hty with
      | leaf hl =>
        refine ⟨1, fun m hm => ?_⟩
        obtain ⟨m, rfl⟩ : ∃ m', m = m' + 1 := ⟨m - 1, by omega⟩
        simp only [parse]
        rw [leaf_back laws hl (by simpa [Survives] using hsv) hts hk]
        rfl
    | named x =>
      intro ht hty hsv ts k sc ux hts hk
      refine settles_core ?_
      simp only [body]
      cases hty with
      | @struct _ fields vs he hs =>
        rw [code_struct he]
        have hsv : SurvivesL vs := by simpa [Survives] using hsv
        have hb := backs hs hsv (fun t h => hG.closed _ ht _ (.struct he h)) fun w hw => size_child hw
        have hf := follows_of_last (named_struct hG he ht) hs fun pre t post h1 h2 u hu => hk u (.struct he h1 h2 hu)
        exact ctor_back hb hf hts
      | @enum _ variants w vs he hw hs =>
        rw [code_enum he]
        have hsv : SurvivesL vs := by simpa [Survives] using hsv
        have hb := backs hs hsv (fun t h => hG.closed _ ht _ (.enum he hw h)) fun w hw => size_child hw
        obtain ⟨hp1, hp2⟩ := named_enum hG he ht
        have hf := follows_of_last (hp1 w hw) hs fun pre t post h1 h2 u hu => hk u (.enum he hw h1 h2 hu)
        obtain ⟨before, after, rfl⟩ := List.append_of_mem hw
        simp only [List.map_append, List.map_cons]
        have := enum_back (env := env) (x := x) (before := before.map fun v => expandFields (some x) v.ident v.fields)
          (after := after.map fun v => expandFields (some x) v.ident v.fields) (s := ⟨ts ++ k, sc, ux⟩) (f := ⟨k, sc, none⟩)
          (ctor_back (en := some x) (x := x) (c := w.ident) (sc := sc) (ux := none) hb hf hts) ?_
        · rw [advance_back] at this; exact this
        · intro c hc
          obtain ⟨y, hy, rfl⟩ := List.mem_map.mp hc
          obtain ⟨b1, b2, rfl⟩ := List.append_of_mem hy
          have hsplit : (b1 ++ y :: b2) ++ w :: after = b1 ++ y :: (b2 ++ w :: after) := by simp
          obtain ⟨hns, hap⟩ := hp2 b1 y b2 w after hsplit
          refine ctor_refused hG (fun t h => hG.closed _ ht _ (.enum he (by simp) h)) hns fun u hu => ?_
          exact refuse_printed hs hts (fun b hb => hap u b hu hb) fun hall => hk u (.earlier he hsplit hall hu)
    | boxed t iht =>
      intro ht hty hsv ts k sc ux hts hk
      cases hty with
      | boxed h =>
        refine settles_core ?_
        exact (iht (hG.closed _ ht _ .boxed) h hsv ts k sc ux hts fun u hu => hk u (.boxed hu)).map fun v => [v]
    | maybe p t _ _ =>
      intro ht hty hsv ts k sc ux hts hk
      have hpG : p ∈ G := hG.closed _ ht _ (.maybe (by simp))
      have htG : t ∈ G := hG.closed _ ht _ (.maybe (by simp))
      obtain ⟨hns, hap⟩ := hG.predictive _ ht
      refine settles_core ?_
      simp only [body]
      cases hty with
      | absent =>
        simp only [Val.toTokens, Val.toTokensL, Option.some.injEq] at hts
        subst hts
        obtain ⟨e, n, hn⟩ := fails_of_refused hG hpG hns (s := ⟨k, sc, none⟩) fun u hu => hk u (.maybePrefix hu)
        refine ⟨n, fun m hm => ?_⟩
        simp only [exec, PState.fork, List.nil_append, hn m hm, Res.map_errc, Res.map_okc, Builder.apply]
      | @present _ _ v w hpv hw =>
        have hsv : SurvivesL [v, w] := by simpa [Survives] using hsv
        have hs : HasTys env [p, t] [v, w] := .cons hpv (.cons hw .nil)
        have hb := backs hs hsv (by simp [hpG, htG]) fun w hw => size_child hw
        have hf : Follows env k [p, t] [v, w] := follows_of_last hap hs fun pre x post h1 h2 u hu => by
          cases pre with
          | nil => simp only [List.nil_append, List.cons.injEq] at h1; obtain ⟨rfl, rfl⟩ := h1; exact hk u (.maybeEnd (h2 _ (by simp)) hu)
          | cons y pre => cases pre with
            | nil => simp only [List.cons_append, List.nil_append, List.cons.injEq] at h1; obtain ⟨_, rfl, rfl⟩ := h1; exact hk u (.maybeInner hu)
            | cons => simp at h1
        obtain ⟨a, b', ha, hb', rfl⟩ := toTokensL_cons (v := v) (vs := [w]) hts
        obtain ⟨b, c, hbb, hc, rfl⟩ := toTokensL_cons hb'
        simp only [Val.toTokensL, Option.some.injEq] at hc
        subst hc
        obtain ⟨n1, h1⟩ := hb.1 a (b ++ [] ++ k) sc none ha (hf.1 _ hb')
        obtain ⟨n2, h2⟩ := hb.2.1 b ([] ++ k) sc ux hbb (hf.2.1 _ rfl)
        refine ⟨max n1 n2, fun m hm => ?_⟩
        have h1 := h1 m (by omega)
        have h2 := h2 m (by omega)
        simp only [List.append_assoc, List.nil_append] at h1 h2 ⊢
        simp only [exec, PState.fork]
        rw [h1]
        simp only [Res.map_okc, advance_back]
        rw [h2]
        rfl
    | paren t _ =>
      intro ht hty hsv ts k sc ux hts hk
      cases hty with
      | @paren _ sp v h =>
        refine settles_core (group_back (ih v (by simp only [Val.group.sizeOf_spec] at hv; omega) t (hG.closed _ ht _ .paren) h (by simpa [Survives] using hsv))
          (hG.predictive _ ht) hts (by simp))
    | bracket t _ =>
      intro ht hty hsv ts k sc ux hts hk
      cases hty with
      | @bracket _ sp v h =>
        refine settles_core (group_back (ih v (by simp only [Val.group.sizeOf_spec] at hv; omega) t (hG.closed _ ht _ .bracket) h (by simpa [Survives] using hsv))
          (hG.predictive _ ht) hts (by simp))
    | brace t _ =>
      intro ht hty hsv ts k sc ux hts hk
      cases hty with
      | @brace _ sp v h =>
        refine settles_core (group_back (ih v (by simp only [Val.group.sizeOf_spec] at hv; omega) t (hG.closed _ ht _ .brace) h (by simpa [Survives] using hsv))
          (hG.predictive _ ht) hts (by simp))
    | punctuated t p _ _ =>
      intro ht hty hsv ts k sc ux hts hk
      have hpG : p ∈ G := hG.closed _ ht _ (.punctuated (by simp))
      have htG : t ∈ G := hG.closed _ ht _ (.punctuated (by simp))
      obtain ⟨hap, hlt, hlp⟩ := hG.predictive _ ht
      have hk0 : k = [] := refuses_notEof (hk _ .punctuated)
      subst hk0
      refine settles_core ?_
      simp only [body]
      cases hty with
      | @punctuated _ _ n vs hs =>
        simp only [Survives] at hsv
        obtain ⟨hlast, hsv⟩ := hsv
        replace hlast := hlast trivial
        have hb := backs hs hsv (fun x hx => by rcases mem_alternate hx with rfl | rfl <;> assumption) fun w hw => size_child hw
        have hf : Follows env [] (alternate t p n) vs := follows_of (hap n) hs fun pre x post vpre w vpost h1 h2 h3 h4 h5 u hu => by
          have hv0 : vpost = [] := by
            cases hvp : vpost with
            | nil => rfl
            | cons y ys =>
              refine absurd h4 (printed_last (by simp [hvp]) fun z hz => hlast z ?_)
              rw [h2, hvp] at *
              rw [List.getLast?_append, List.getLast?_cons_cons, hz]; rfl
          subst hv0
          have hwl : w.toTokens ≠ some [] := hlast w (by rw [h2]; simp)
          rcases mem_alternate (t := t) (p := p) (n := n) (x := x) (by rw [h1]; simp) with rfl | rfl
          · exact hlt u hu
          · rcases hlp with rfl | hlp
            · exfalso
              have hp0 : post = [] := by cases h5; rfl
              subst hp0
              have hw : HasTy env (.leaf .notEof) w := by
                have : ∀ {pre : List Ty} {vpre : List Val}, pre.length = vpre.length → HasTys env (pre ++ [.leaf .notEof]) (vpre ++ [w]) → HasTy env (.leaf .notEof) w := by
                  intro pre
                  induction pre with
                  | nil => intro vpre hl h; cases vpre with
                    | nil => cases h with | cons h _ => exact h
                    | cons => simp at hl
                  | cons y pre ihp => intro vpre hl h; cases vpre with
                    | nil => simp at hl
                    | cons z vpre => cases h with | cons _ h => exact ihp (by simpa using hl) h
                exact this h3 (by rw [← h1, ← h2]; exact hs)
              cases hw with
              | leaf hl => cases hl; exact hwl rfl
            · exact hlp u hu
        obtain ⟨N, hN⟩ := term_back (sc := sc) (ux := ux) n vs ts hb hf hlast hts
        refine ⟨N, fun m hm => ?_⟩
        have h1 := hN m m hm hm
        simp only [exec, List.append_nil] at h1 ⊢
        rw [h1]
        rfl
    | separated t p _ _ =>
      intro ht hty hsv ts k sc ux hts hk
      have hpG : p ∈ G := hG.closed _ ht _ (.separated (by simp))
      have htG : t ∈ G := hG.closed _ ht _ (.separated (by simp))
      obtain ⟨hns, hap⟩ := hG.predictive _ ht
      refine settles_core ?_
      cases hty with
      | @separated _ _ n vs hs =>
        have hsv : SurvivesL vs := by simpa [Survives] using hsv
        have hb := backs hs hsv (fun x hx => by rcases mem_alternate hx with rfl | rfl <;> assumption) fun w hw => size_child hw
        cases vs with
        | nil => cases hs
        | cons v0 vs =>
          exact chain_back hG hpG hns (hap _) hs hb hts (fun pre x post h1 h2 u hu => hk u (.separated h1 h2 hu)) fun u hu => hk u (.separator hu)
    | any t _ =>
      intro ht hty hsv ts k sc ux hts hk
      have htG : t ∈ G := hG.closed _ ht _ .any
      obtain ⟨hns, hap⟩ := hG.predictive _ ht
      refine settles_core ?_
      simp only [body]
      cases hty with
      | @any _ n vs hs =>
        have hsv : SurvivesL vs := by simpa [Survives] using hsv
        have hb := backs hs hsv (fun x hx => by rw [(List.mem_replicate.mp hx).2]; exact htG) fun w hw => size_child hw
        have hf := follows_of_last (hap n) hs fun pre x post h1 h2 u hu => hk u (.any h1 h2 hu)
        obtain ⟨N, hN⟩ := any_back (sc := sc) (ux := ux) (fails_of_refused hG htG hns (s := ⟨k, sc, none⟩) fun u hu => hk u (.item hu)) n vs ts hb hf hts
        refine ⟨N, fun m hm => ?_⟩
        have h1 := hN m m hm hm
        show (starN (exec (parse env m) m (.ty t)) (exec (parse env m) m .ret) m ⟨ts ++ k, sc, ux⟩).map _ = _
        rw [h1]
        rfl
    | leftAssoc o r _ _ =>
      intro ht hty hsv ts k sc ux hts hk
      have hoG : o ∈ G := hG.closed _ ht _ (.leftAssoc (by simp))
      have hrG : r ∈ G := hG.closed _ ht _ (.leftAssoc (by simp))
      obtain ⟨hns, hap⟩ := hG.predictive _ ht
      refine settles_core ?_
      obtain ⟨v0, vs, n', rfl, hs, hsz, htk, hsv'⟩ := left_chain v hty
      have hb := backs hs (hsv' hsv) (fun x hx => by rcases mem_alternate hx with rfl | rfl <;> assumption) hsz
      exact chain_back hG hoG hns (hap _) hs hb (htk ▸ hts) (fun pre x post h1 h2 u hu => hk u (.leftAssoc h1 h2 hu)) fun u hu => hk u (.leftOperator hu)
    | rightAssoc o r _ _ =>
      intro ht hty hsv ts k sc ux hts hk
      have hoG : o ∈ G := hG.closed _ ht _ (.rightAssoc (by simp))
      have hrG : r ∈ G := hG.closed _ ht _ (.rightAssoc (by simp))
      obtain ⟨hns, hap⟩ := hG.predictive _ ht
      refine settles_core ?_
      obtain ⟨v0, vs, n', rfl, hs, hsz, htk, hsv'⟩ := right_chain v hty
      have hb := backs hs (hsv' hsv) (fun x hx => by rcases mem_alternate hx with rfl | rfl <;> assumption) hsz
      exact chain_back hG hoG hns (hap _) hs hb (htk ▸ hts) (fun pre x post h1 h2 u hu => hk u (.rightAssoc h1 h2 hu)) fun u hu => hk u (.rightOperator hu)
    | either l r _ _ =>
      intro ht hty hsv ts k sc ux hts hk
      have hlG : l ∈ G := hG.closed _ ht _ (.either (by simp))
      have hrG : r ∈ G := hG.closed _ ht _ (.either (by simp))
      obtain ⟨hns, hap⟩ := hG.predictive _ ht
      refine settles_core ?_
      simp only [body]
      cases hty with
      | @left _ _ v h =>
        have hts : v.toTokens = some ts := by
          obtain ⟨a, b, ha, hb, rfl⟩ := toTokensL_cons (v := v) (vs := []) hts
          simp only [Val.toTokensL, Option.some.injEq] at hb; subst hb; simpa using ha
        obtain ⟨n1, h1⟩ := ih v (by have := size_child (tag := .eitherLeft) (w := v) (vs := [v]) (by simp); omega) l hlG h (by simpa [Survives, SurvivesL] using hsv)
          ts k sc none hts fun u hu => hk u (.eitherLeft hu)
        refine ⟨n1, fun m hm => ?_⟩
        replace h1 : parse env m l ⟨ts ++ k, sc, none⟩ = _ := h1 m hm
        simp only [exec, PState.fork]
        rw [h1]
        simp only [Res.map_okc, advance_back, Builder.apply]
      | @right _ _ v h =>
        have hts' : v.toTokens = some ts := by
          obtain ⟨a, b, ha, hb, rfl⟩ := toTokensL_cons (v := v) (vs := []) hts
          simp only [Val.toTokensL, Option.some.injEq] at hb; subst hb; simpa using ha
        obtain ⟨n1, h1⟩ := ih v (by have := size_child (tag := .eitherRight) (w := v) (vs := [v]) (by simp); omega) r hrG h (by simpa [Survives, SurvivesL] using hsv)
          ts k sc none hts' fun u hu => hk u (.eitherRight hu)
        obtain ⟨e, n2, h2⟩ := fails_of_refused hG hlG hns (s := ⟨ts ++ k, sc, none⟩) fun u hu =>
          refuse_printed (tys := [r]) (vs := [v]) (.cons h .nil) hts (fun b hb => by
            rcases seqLead_inv hb with hb | ⟨_, w, ⟨pre, post, hh, _⟩, _⟩
            · exact hap u b hu hb
            · cases pre <;> simp at hh) fun hall => hk u (.eitherFirst (hall r (by simp)) hu)
        refine ⟨max n1 n2, fun m hm => ?_⟩
        replace h1 : parse env m r ⟨ts ++ k, sc, none⟩ = _ := h1 m (by omega)
        have h2 := h2 m (by omega)
        simp only [exec, PState.fork]
        rw [h2]
        simp only [Res.map_errc]
        rw [h1]
        simp only [Res.map_okc, advance_back, Builder.apply]

end

end Parsel
