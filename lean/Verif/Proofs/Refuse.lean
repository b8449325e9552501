import Verif.Spec.Predict
import Verif.Proofs.Diverge

/-! If nothing that a type can start with is there, parsing it fails, or succeeds without reading if no leaf of it has to be there. -/

namespace Parsel
open Spec
variable [Ext]

/-- No panic; success only if `N`, and without reading. -/
def Quiet {α : Type} (N : Prop) (s : PState) : Res α → Prop
  | .ok _ s' => N ∧ s'.cur = s.cur
  | .err _ => True
  | .panic => False
  | .oof => True

/-- Without leaves and groups of its own. -/
def E.Plain : E → Prop
  | .ret => True
  | .leaf _ => False
  | .ty _ => True
  | .delim _ _ => False
  | .fail _ => True
  | .seq a b => a.Plain ∧ b.Plain
  | .label _ _ _ a => a.Plain
  | .attempt a => a.Plain
  | .opt a b => a.Plain ∧ b.Plain
  | .alt a b => a.Plain ∧ b.Plain
  | .term a b => a.Plain ∧ b.Plain
  | .star a b => a.Plain ∧ b.Plain
  | .build _ a => a.Plain

theorem null_imp {M N : Ty → Prop} (h : ∀ t, M t → N t) : ∀ {e : E}, e.Null M → e.Null N := by
  intro e
  induction e with
  | ret => exact id
  | leaf => exact id
  | ty t => exact h t
  | delim => exact id
  | fail => exact id
  | seq a b iha ihb => exact fun h => ⟨iha h.1, ihb h.2⟩
  | label _ _ _ a iha => exact iha
  | attempt a iha => exact iha
  | opt a b _ _ => exact id
  | alt a b iha ihb => exact Or.imp iha ihb
  | term a b _ _ => exact id
  | star a b _ _ => exact id
  | build _ a iha => exact iha

omit [Ext] in
theorem Quiet.map {α β : Type} {N : Prop} {s : PState} {r : Res α} (h : Quiet N s r) (f : α → β) : Quiet N s (r.map f) := by
  cases r <;> exact h

omit [Ext] in
theorem Quiet.imp {α : Type} {M N : Prop} {s s0 : PState} {r : Res α} (h : Quiet M s r) (hi : M → N) (hs : s.cur = s0.cur) : Quiet N s0 r := by
  cases r with
  | ok a s' => exact ⟨hi h.1, h.2.trans hs⟩
  | _ => exact h

theorem termN_quiet {pa pb : Parser (List Val)} {A B : Prop} {c : List TT} (ha : ∀ s, s.cur = c → Quiet A s (pa s))
    (hb : A → ∀ s, s.cur = c → Quiet B s (pb s)) : ∀ k s, s.cur = c → Quiet True s (termN pa pb k s)
  | 0, _, _ => trivial
  | k + 1, s, hs => by
    simp only [termN]
    split
    · exact ⟨trivial, rfl⟩
    · have h1 := ha s hs
      cases h : pa s with
      | ok vs s1 =>
        rw [h] at h1
        simp only [Res.bind_okc]
        split
        · exact ⟨trivial, h1.2⟩
        · have h2 := hb h1.1 s1 (h1.2.trans hs)
          cases h' : pb s1 with
          | ok ws s2 =>
            rw [h'] at h2
            exact (termN_quiet ha hb k s2 ((h2.2.trans h1.2).trans hs)).map _ |>.imp id (h2.2.trans h1.2)
          | err e => trivial
          | panic => rw [h'] at h2; exact h2
          | oof => trivial
      | err e => trivial
      | panic => rw [h] at h1; exact h1
      | oof => trivial

theorem starN_quiet {pa pb : Parser (List Val)} {A B : Prop} {c : List TT} (ha : ∀ s, s.cur = c → Quiet A s (pa s))
    (hb : A → ∀ s, s.cur = c → Quiet B s (pb s)) : ∀ k s, s.cur = c → Quiet True s (starN pa pb k s)
  | 0, _, _ => trivial
  | k + 1, s, hs => by
    simp only [starN]
    have h1 := ha s.fork hs
    cases h : pa s.fork with
    | ok vs s1 =>
      rw [h] at h1
      have hc : (s.advanceTo s1).cur = s.cur := h1.2
      have h2 := hb h1.1 (s.advanceTo s1) (hc.trans hs)
      simp only []
      cases h' : pb (s.advanceTo s1) with
      | ok ws s2 =>
        rw [h'] at h2
        exact (starN_quiet ha hb k s2 ((h2.2.trans hc).trans hs)).map _ |>.imp id (h2.2.trans hc)
      | err e => trivial
      | panic => rw [h'] at h2; exact h2
      | oof => trivial
    | err e => exact ⟨trivial, rfl⟩
    | panic => rw [h] at h1; exact h1
    | oof => trivial

theorem exec_quiet {P : Ty → Parser Val} {M N : Ty → Prop} (hMN : ∀ t, M t → N t) (k : Nat) : ∀ (e : E) (c : List TT), e.Plain →
    (∀ u, e.Heads N u → ∀ s, s.cur = c → Quiet (M u) s (P u s)) → ∀ s, s.cur = c → Quiet (e.Null M) s (exec P k e s) := by
  intro e
  induction e with
  | ret => intro c _ _ s _; exact ⟨trivial, rfl⟩
  | leaf l => intro c hp; exact absurd hp id
  | ty t => intro c _ h s hs; exact (h t rfl s hs).map _
  | delim => intro c hp; exact absurd hp id
  | fail m => intro c _ _ s _; trivial
  | seq a b iha ihb =>
    intro c hp h s hs
    have h1 := iha c hp.1 (fun u hu => h u (.inl hu)) s hs
    simp only [exec]
    cases ha : exec P k a s with
    | ok vs s1 =>
      rw [ha] at h1
      have h2 := ihb c hp.2 (fun u hu => h u (.inr ⟨null_imp hMN h1.1, hu⟩)) s1 (h1.2.trans hs)
      exact (h2.map fun ws => vs ++ ws).imp (fun hb => ⟨h1.1, hb⟩) h1.2
    | err e => trivial
    | panic => rw [ha] at h1; exact h1
    | oof => trivial
  | label en ct f a iha =>
    intro c hp h s hs
    have h1 := iha c hp h s hs
    simp only [exec]
    cases ha : exec P k a s with
    | ok vs s1 => rw [ha] at h1; exact h1
    | err e => trivial
    | panic => rw [ha] at h1; exact h1
    | oof => trivial
  | attempt a iha =>
    intro c hp h s hs
    have h1 := iha c hp h s.fork hs
    simp only [exec]
    cases ha : exec P k a s.fork with
    | ok vs s1 => rw [ha] at h1; exact h1
    | err e => trivial
    | panic => rw [ha] at h1; exact h1
    | oof => trivial
  | opt a b iha ihb =>
    intro c hp h s hs
    have h1 := iha c hp.1 (fun u hu => h u (.inl hu)) s.fork hs
    simp only [exec]
    cases ha : exec P k a s.fork with
    | ok vs s1 =>
      rw [ha] at h1
      have hc : (s.advanceTo s1).cur = s.cur := h1.2
      have h2 := ihb c hp.2 (fun u hu => h u (.inr ⟨null_imp hMN h1.1, hu⟩)) (s.advanceTo s1) (hc.trans hs)
      exact (h2.map fun ws => vs ++ ws).imp (fun hb => trivial) hc
    | err e => exact ⟨trivial, rfl⟩
    | panic => rw [ha] at h1; exact h1
    | oof => trivial
  | alt a b iha ihb =>
    intro c hp h s hs
    have h1 := iha c hp.1 (fun u hu => h u (.inl hu)) s hs
    have h2 := ihb c hp.2 (fun u hu => h u (.inr hu)) s.fork hs
    simp only [exec]
    cases ha : exec P k a s with
    | ok vs s1 => rw [ha] at h1; exact ⟨.inl h1.1, h1.2⟩
    | err e =>
      simp only []
      cases hb : exec P k b s.fork with
      | ok vs s1 => rw [hb] at h2; exact ⟨.inr h2.1, h2.2⟩
      | err e => trivial
      | panic => rw [hb] at h2; exact h2
      | oof => trivial
    | panic => rw [ha] at h1; exact h1
    | oof => trivial
  | term a b iha ihb =>
    intro c hp h s hs
    exact termN_quiet (iha c hp.1 fun u hu => h u (.inl hu)) (fun hn => ihb c hp.2 fun u hu => h u (.inr ⟨null_imp hMN hn, hu⟩)) k s hs
  | star a b iha ihb =>
    intro c hp h s hs
    exact starN_quiet (iha c hp.1 fun u hu => h u (.inl hu)) (fun hn => ihb c hp.2 fun u hu => h u (.inr ⟨null_imp hMN hn, hu⟩)) k s hs
  | build bu a iha =>
    intro c hp h s hs
    exact (iha c hp h s hs).map _

omit [Ext] in
theorem skippable_canBeEmpty {env : Env} {t : Ty} (h : Skippable env t) : CanBeEmpty env t := by
  induction h with
  | empty => exact .empty
  | punct => exact .punct
  | struct he _ ih => exact .struct he ih
  | enum he hv _ ih => exact .enum he hv ih
  | boxed _ ih => exact .boxed ih
  | maybe => exact .maybe
  | punctuated => exact .punctuated
  | any => exact .any
  | separated _ ih => exact .separated ih
  | leftAssoc _ ih => exact .leftAssoc ih
  | rightAssoc _ ih => exact .rightAssoc ih
  | eitherLeft _ ih => exact .eitherLeft ih
  | eitherRight _ ih => exact .eitherRight ih

theorem inits_plain : ∀ (is : List (FieldInit Ty)), (initsE is).Plain
  | [] => trivial
  | _ :: is => ⟨trivial, inits_plain is⟩

theorem alts_plain {x : Text} : ∀ (cs : List (CtorCode Ty)) {e : E}, e.Plain → (altsE x e cs).Plain
  | [], _, h => h
  | c :: cs, _, h => alts_plain cs ⟨h, inits_plain c.inits⟩

/-- Leaves and groups have no further structure at their beginning. -/
def Ty.IsNode : Ty → Prop
  | .leaf _ => False
  | .paren _ => False
  | .bracket _ => False
  | .brace _ => False
  | _ => True

theorem body_plain (env : Env) : ∀ {t : Ty}, t.IsNode → (body env t).Plain := by
  intro t ht
  cases t with
  | leaf => exact absurd ht id
  | paren => exact absurd ht id
  | bracket => exact absurd ht id
  | brace => exact absurd ht id
  | named x =>
    simp only [body]
    cases env.code x with
    | struct c => exact inits_plain c.inits
    | enum cs => cases cs with
      | nil => trivial
      | cons c cs => exact alts_plain cs (inits_plain c.inits)
  | boxed => trivial
  | maybe => exact ⟨trivial, trivial⟩
  | punctuated => exact ⟨trivial, trivial⟩
  | separated => exact ⟨trivial, trivial, trivial⟩
  | any => exact ⟨trivial, trivial⟩
  | leftAssoc => exact ⟨trivial, trivial, trivial⟩
  | rightAssoc => exact ⟨trivial, trivial, trivial⟩
  | either => exact ⟨trivial, trivial⟩

theorem body_skip {env : Env} {t : Ty} (ht : t.IsNode) (h : (body env t).Null (Skippable env)) : Skippable env t := by
  cases t with
  | leaf => exact absurd ht id
  | paren => exact absurd ht id
  | bracket => exact absurd ht id
  | brace => exact absurd ht id
  | named x =>
    simp only [body] at h
    cases he : env x with
    | struct fields =>
      rw [code_struct he] at h
      exact .struct he (fields_null (x := x) h)
    | enum vs =>
      rw [code_enum he] at h
      cases vs with
      | nil => exact absurd h id
      | cons w ws =>
        rcases alts_null (x := x) (e := .attempt (ctorE x (expandFields (some x) w.ident w.fields))) (cs := ws.map fun (w : VariantDef Ty) => expandFields (some x) w.ident w.fields) h with h | ⟨c, hc, h⟩
        · exact .enum he (by simp) (fields_null (x := x) h)
        · obtain ⟨w', hw, rfl⟩ := List.mem_map.mp hc
          exact .enum he (by simp [hw]) (fields_null (x := x) h)
  | boxed t => exact .boxed h
  | maybe p t => exact .maybe
  | punctuated t p => exact .punctuated
  | separated t p => exact .separated h.1
  | any t => exact .any
  | leftAssoc o r => exact .leftAssoc h.1
  | rightAssoc o l => exact .rightAssoc h.1
  | either l r =>
    rcases h with h | h
    · exact .eitherLeft h
    · exact .eitherRight h

omit [Ext] in
theorem lead_starts {env : Env} {t u w : Ty} (h : StartsWith env t u) (hl : Lead env u w) : Lead env t w := by
  obtain ⟨hi, rfl | hc⟩ := hl
  · exact ⟨hi, .inr (.one h)⟩
  · exact ⟨hi, .inr (.more h hc)⟩

theorem refuses_quiet {env : Env} {u : Ty} {s : PState} (h : Refuses env u s.cur) (n : Nat) (N : Prop) : Quiet N s (parse env n u s) := by
  obtain ⟨e, m, hm⟩ := h s.scope s.unexp
  cases hp : parse env n u s with
  | oof => trivial
  | err e => trivial
  | ok v s' =>
    have := parse_unique (env := env) (n := n) (m := m) (t := u) (s := s) (by rw [hp]; simp) (by rw [show parse env m u s = _ from hm]; simp)
    rw [hp, show parse env m u s = _ from hm] at this
    cases this
  | panic =>
    have := parse_unique (env := env) (n := n) (m := m) (t := u) (s := s) (by rw [hp]; simp) (by rw [show parse env m u s = _ from hm]; simp)
    rw [hp, show parse env m u s = _ from hm] at this
    cases this

/-- Parsing where nothing that the type can start with is there. -/
theorem parse_quiet (env : Env) : ∀ (n : Nat) (t : Ty) (s : PState), (∀ u, Lead env t u → Refuses env u s.cur) →
    Quiet (Skippable env t) s (parse env n t s)
  | 0, _, _, _ => trivial
  | n + 1, t, s, h => by
    by_cases hi : IsLead t
    · exact refuses_quiet (h t ⟨hi, .inl rfl⟩) _ _
    · by_cases hn : t.IsNode
      · have h1 := exec_quiet (P := parse env n) (M := Skippable env) (N := CanBeEmpty env) (fun _ => skippable_canBeEmpty) n (body env t) s.cur
          (body_plain env hn) (fun u hu s' hs => parse_quiet env n u s' fun w hw => by rw [hs]; exact h w (lead_starts (body_heads hu) hw)) s rfl
        rw [← parse_core] at h1
        have h2 : Quiet ((body env t).Null (Skippable env)) s (parse env (n + 1) t s) := by
          cases hp : parse env (n + 1) t s <;> rw [hp] at h1 <;> exact h1
        exact h2.imp (body_skip hn) rfl
      · cases t with
        | leaf l => cases l with
          | empty => exact ⟨.empty, rfl⟩
          | punct tok => cases tok with
            | nil => exact ⟨.punct, rfl⟩
            | cons => exact absurd trivial hi
          | _ => exact absurd trivial hi
        | paren => exact absurd trivial hi
        | bracket => exact absurd trivial hi
        | brace => exact absurd trivial hi
        | _ => exact absurd trivial hn

section
variable {env : Env} {G : List Ty}

theorem Spec.Grammar.finishes (hG : Grammar env G) {t : Ty} (ht : t ∈ G) (s : PState) : Finishes fun m => parse env m t s :=
  finishes_of_grammar hG.closed hG.noLeftRecursion hG.rounds ht s

theorem err_of_quiet {α : Type} {N : Prop} {s : PState} {r : Res α} (h : Quiet N s r) (hn : ¬ N) (hr : r ≠ .oof) : ∃ e, r = .err e := by
  cases r with
  | ok => exact absurd h.1 hn
  | err e => exact ⟨e, rfl⟩
  | panic => exact absurd h id
  | oof => exact absurd rfl hr

/-- A type of the grammar that needs a leaf fails if none is there that it can start with. -/
theorem fails_of_refused (hG : Grammar env G) {t : Ty} (ht : t ∈ G) (hn : ¬ Skippable env t) {s : PState}
    (h : ∀ u, Lead env t u → Refuses env u s.cur) : ∃ e n, ∀ m, n ≤ m → parse env m t s = .err e := by
  obtain ⟨r, hr, n, hm⟩ := hG.finishes ht s
  have h0 : parse env n t s = r := hm n (Nat.le_refl _)
  obtain ⟨e, rfl⟩ := err_of_quiet (h0 ▸ parse_quiet env n t s h) hn hr
  exact ⟨e, n, hm⟩

theorem inits_finish (hP : ∀ t ∈ G, ∀ s, Finishes fun m => parse env m t s) : ∀ (is : List (FieldInit Ty)), (∀ i ∈ is, i.ty ∈ G) → ∀ s,
    Finishes fun m => exec (parse env m) m (initsE is) s
  | [], _, s => .const (by simp)
  | i :: is, hi, s => by
    have ih := inits_finish hP is (fun j hj => hi j (by simp [hj]))
    simp only [initsE, exec]
    refine Finishes.then (f := fun m => parse env m i.ty s)
      (g := fun m r => ((r.map fun v => [v]).mapErr fun e => chainError e i.enumStr i.ctorStr i.fieldStr).bind fun vs s1 =>
        (exec (parse env m) m (initsE is) s1).map fun ws => vs ++ ws) (hP i.ty (hi i (by simp)) s) fun r hr _ => ?_
    cases r with
    | ok v s1 =>
      simp only [Res.map_okc, Res.mapErr_okc, Res.bind_okc]
      refine Finishes.then (f := fun m => exec (parse env m) m (initsE is) s1) (g := fun _ r => r.map fun ws => [v] ++ ws) (ih s1) fun r hr _ => ?_
      exact .const (by cases r <;> simp at hr ⊢)
    | err e => exact .const (by simp)
    | panic => exact .const (by simp)
    | oof => exact absurd rfl hr

/-- The fields of a constructor fail if nothing is there that they can start with. -/
theorem ctor_refused (hG : Grammar env G) {en : Option Text} {x c : Text} {fs : Fields Ty} (hfs : ∀ t ∈ fieldTypes fs, t ∈ G)
    (hn : ¬ ∀ t ∈ fieldTypes fs, Skippable env t) {s : PState} (h : ∀ u, SeqLead env (fieldTypes fs) u → Refuses env u s.cur) :
    ∃ e n, ∀ m, n ≤ m → exec (parse env m) m (ctorE x (expandFields en c fs)) s = .err e := by
  have hm : (expandFields en c fs).inits.map (·.ty) = fieldTypes fs := inits_ty_map en c fs
  have hf := inits_finish (env := env) (G := G) (fun t ht s => hG.finishes ht s) (expandFields en c fs).inits
    (fun i hi => hfs _ (by rw [← hm]; exact List.mem_map.mpr ⟨i, hi, rfl⟩)) s
  obtain ⟨r, hr, n, hrn⟩ := hf
  have hq := fun m => exec_quiet (P := parse env m) (M := Skippable env) (N := CanBeEmpty env) (fun _ => skippable_canBeEmpty) m
    (initsE (expandFields en c fs).inits) s.cur (inits_plain _) (fun u hu s' hs => parse_quiet env m u s' fun w hw => by
      rw [hs]; exact h w ⟨u, hm ▸ inits_heads hu, hw⟩) s rfl
  have h0 : exec (parse env n) n (initsE (expandFields en c fs).inits) s = r := hrn n (Nat.le_refl _)
  obtain ⟨e, rfl⟩ := err_of_quiet (h0 ▸ hq n) (fun hnull => hn fun t ht => by
    rw [← hm] at ht
    obtain ⟨i, hi, rfl⟩ := List.mem_map.mp ht
    exact inits_null hnull i hi) hr
  refine ⟨e, n, fun m hle => ?_⟩
  simp only [ctorE, exec, hrn m hle, Res.map_errc]

end

end Parsel
