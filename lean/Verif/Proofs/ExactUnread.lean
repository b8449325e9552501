import Verif.Proofs.ExactRead

/-! Tokens that are left unread in a group are left unread whatever follows. -/

namespace Parsel
open Spec

variable [Ext] {env : Env} {G : List Ty} {k : Nat}

/-- Token `sp` was left unread in `ts`; everything that agrees with `ts` up to it has the property `No`. -/
def LeftIn (k : Nat) (ts : List TT) (sp : Span) (No : List TT → Prop) : Prop :=
  ∀ sc, ∃ m x cur sc', Passed ts sc m (x :: cur) sc' ∧ sp = x.span ∧ ∀ new, Visible new → Agree k m ts new → No new

omit [Ext] in
theorem LeftIn.imp {ts : List TT} {sp : Span} {No No' : List TT → Prop} (h : LeftIn k ts sp No) (hi : ∀ new, Visible new → Ahead k ts new → No new → No' new) : LeftIn k ts sp No' := by
  intro sc
  obtain ⟨m, x, cur, sc', h1, h2, h3⟩ := h sc
  exact ⟨m, x, cur, sc', h1, h2, fun new hv ha => hi new hv ha.ahead (h3 new hv ha)⟩

theorem PromptGrammar.leftBehind (hG : PromptGrammar env G (k + 2)) {u : Ty} (hu : u ∈ G) {ts mid : List TT} {v : Val} {l : Option Span} (hv : Visible ts) (hm : Matches env u ts v mid l)
    {sp : Span} {No : List TT → Prop} (h : LeftIn (k + 2) mid sp No) : LeftIn (k + 2) ts sp fun new => ∀ v' mid' l', Matches env u new v' mid' l' → No mid' := by
  intro sc
  obtain ⟨a, e, _⟩ := matches_split hm hv
  obtain ⟨m, x, cur, sc', h1, h2, h3⟩ := h sc
  refine ⟨count a + m, x, cur, sc', by rw [e]; exact passed_behind h1 a, h2, fun new hn ha v' mid' l' hm' => ?_⟩
  rw [e] at ha
  obtain ⟨new', rfl, ha'⟩ := ha.split
  have := hG.same hm hu hv e hn ha'.ahead hm'
  subst this
  exact h3 _ hn.right ha'

omit [Ext] in
theorem or_ne_left {a b : Option Span} (h : a ≠ none) : a.or b ≠ none := by cases a <;> simp_all

omit [Ext] in
theorem or_ne_right {a b : Option Span} (h : b ≠ none) : a.or b ≠ none := by cases a <;> simp_all

omit [Ext] in
theorem passed_le {ts cur : List TT} {sc sc' : Span} {n : Nat} (h : Passed ts sc n cur sc') : n ≤ count ts := by
  induction h with
  | here => exact Nat.zero_le _
  | over _ ih => rw [count]; omega
  | into _ ih => rw [count, countT]; omega

omit [Ext] in
theorem firstUnread_some {ts : List TT} {l : Option Span} (hv : Visible ts) (hne : ts ≠ []) (h : FirstUnread ts l) : l ≠ none := by
  cases h with
  | nothing h =>
    cases ts with
    | nil => exact absurd rfl hne
    | cons t ts => exact absurd (.here fun i sp e => by subst e; exact hv _ _ .head) (h t ts)
  | token _ => simp

/-- A node that ends before a token. -/
theorem PromptGrammar.leftHere (hG : PromptGrammar env G (k + 2)) {t : Ty} (ht : t ∈ G) {ts rest : List TT} {v : Val} {l : Option Span} (hv : Visible ts) (hm : Matches env t ts v rest l)
    {sp : Span} (hu : FirstUnread rest (some sp)) :
    LeftIn (k + 2) ts sp fun new => ∀ v' rest' l', Matches env t new v' rest' l' → ∀ l2, FirstUnread rest' l2 → l2 ≠ none := by
  have h0 : Visible rest := by
    obtain ⟨a, e, _⟩ := matches_split hm hv
    rw [e] at hv
    exact hv.right
  have base : LeftIn (k + 2) rest sp fun new => ∀ l2, FirstUnread new l2 → l2 ≠ none := by
    intro sc
    cases hu with
    | token hn =>
      have e := next_visible h0 hn
      subst e
      refine ⟨0, _, _, sc, .here, rfl, fun new hn ha l2 hl => firstUnread_some hn ?_ hl⟩
      rintro rfl
      cases ha.ahead
  exact hG.leftBehind ht hv hm base

mutual
theorem PromptGrammar.left (hG : PromptGrammar env G (k + 2)) : ∀ {t : Ty} {ts : List TT} {v : Val} {rest : List TT} {left : Option Span}, Matches env t ts v rest left → t ∈ G →
    Visible ts → ∀ {sp}, left = some sp → LeftIn (k + 2) ts sp fun new => ∀ v' rest' left', Matches env t new v' rest' left' → left' ≠ none
  | _, _, _, _, _, .leaf _, _, _, _, e => by cases e
  | _, _, _, _, _, .struct hx h1, ht, hv, _, e => by
    refine (hG.leftSeq h1 (fun u hu => hG.closed _ ht _ (.struct hx hu)) hv e).imp fun new hn ha no v' rest' left' hm => ?_
    cases hm with
    | group hg => cases hg
    | enum hx' => rw [hx] at hx'; cases hx'
    | struct hx' hm => rw [hx] at hx'; cases hx'; exact no _ _ _ hm
  | _, _, _, _, _, .enum hx b1 h1, ht, hv, _, e => by
    refine (hG.leftSeq h1 (fun u hu => hG.closed _ ht _ (.enum hx (by simp) hu)) hv e).imp fun new hn ha no v' rest' left' hm => ?_
    cases hm with
    | group hg => cases hg
    | struct hx' => rw [hx] at hx'; cases hx'
    | enum hx' b2 hm =>
      have hvar := hG.variant hv hn ha ht hx b1 h1 hx' b2 hm
      subst hvar
      exact no _ _ _ hm
  | _, _, _, _, _, .boxed h1, ht, hv, _, e => by
    refine (hG.left h1 (hG.closed _ ht _ .boxed) hv e).imp fun new hn ha no v' rest' left' hm => ?_
    cases hm with
    | group hg => cases hg
    | boxed hm => exact no _ _ _ hm
  | _, _, _, _, _, .maybeSome (l1 := l1) h1 h2, ht, hv, _, e => by
    have hp := hG.prompt _ ht
    have i1 := fun (sp' : Span) (e' : l1 = some sp') => hG.left h1 (hG.closed _ ht _ (.maybe (by simp))) hv e'
    cases l1 with
    | some l =>
      simp only [Option.some_or, Option.some.injEq] at e
      refine (i1 _ (congrArg some e)).imp fun new hn ha no v' rest' left' hm => ?_
      cases hm with
      | group hg => cases hg
      | maybeNone hno => exact (single_apart hv hn ha hp h1 hno).elim
      | maybeSome m1 _ => exact or_ne_left (no _ _ _ m1)
    | none =>
      simp only [Option.none_or] at e
      have hv1 := (matches_split h1 hv).elim fun a h => (h.1 ▸ hv : Visible (a ++ _)).right
      refine (hG.leftBehind (hG.closed _ ht _ (.maybe (by simp))) hv h1 (hG.left h2 (hG.closed _ ht _ (.maybe (by simp))) hv1 e)).imp fun new hn ha no v' rest' left' hm => ?_
      cases hm with
      | group hg => cases hg
      | maybeNone hno => exact (single_apart hv hn ha hp h1 hno).elim
      | maybeSome m1 m2 => exact or_ne_right (no _ _ _ m1 _ _ _ m2)
  | _, _, _, _, _, .maybeNone _, _, _, _, e => by cases e
  | _, ts, _, _, _, .group (d := d) (t := t) (inner := inner) (sp := gsp) (l1 := l1) (l2 := l2) hg hx h1 hu, ht, hv, sp, e => by
    have ht1 : t ∈ G := hG.closed _ ht _ (by cases hg <;> constructor)
    have hvi : Visible inner := by
      have e1 := next_visible hv hx
      rw [e1] at hv
      exact hv.inner
    have i1 := fun (sp' : Span) (e' : l1 = some sp') => hG.left h1 ht1 hvi e'
    have e1 := next_visible hv hx
    subst e1
    have key : LeftIn (k + 2) inner sp fun new => ∀ v' rest' l', Matches env t new v' rest' l' → ∀ l2', FirstUnread rest' l2' → l'.or l2' ≠ none := by
      cases l1 with
      | some l =>
        simp only [Option.some_or, Option.some.injEq] at e
        exact (i1 _ (congrArg some e)).imp fun new _ _ no v' rest' l' hm l2' _ => or_ne_left (no _ _ _ hm)
      | none =>
        simp only [Option.none_or] at e
        subst e
        exact (hG.leftHere ht1 hv.inner h1 hu).imp fun new _ _ no v' rest' l' hm l2' hu' => or_ne_right (no _ _ _ hm _ hu')
    intro sc
    obtain ⟨m, x, cur, sc', p1, p2, p3⟩ := key gsp.closeOf
    refine ⟨m + 1, x, cur, sc', .into p1, p2, fun new hn ha v' rest' left' hm => ?_⟩
    obtain ⟨j, more, rfl, ha'⟩ := ha.inside (passed_le p1)
    have fin : ∀ {t' i' sp' r' v' u' a b}, t' = t → Next (.group d j gsp :: more) (.group d i' sp') r' → Matches env t' i' v' u' a → FirstUnread u' b → a.or b ≠ none := by
      rintro t' i' sp' r' v' u' a b rfl hn' hm hf
      have := next_visible hn hn'
      cases this
      exact p3 _ hn.inner ha' _ _ _ hm _ hf
    cases hg with
    | paren => cases hm with | group hg' hn' hm hf => cases hg'; exact fin rfl hn' hm hf
    | bracket => cases hm with | group hg' hn' hm hf => cases hg'; exact fin rfl hn' hm hf
    | brace => cases hm with | group hg' hn' hm hf => cases hg'; exact fin rfl hn' hm hf
  | _, _, _, _, _, .punctuated h1, ht, hv, _, e => by
    refine (hG.leftToEnd h1 (hG.closed _ ht _ (.punctuated (by simp))) (hG.closed _ ht _ (.punctuated (by simp))) hv e).imp fun new hn ha no v' rest' left' hm => ?_
    cases hm with
    | group hg => cases hg
    | punctuated hm => exact no _ _ _ hm
  | _, _, _, _, _, .separated (t := t) (p := p) (l1 := l1) h1 h2, ht, hv, _, e => by
    have t1 : t ∈ G := hG.closed _ ht _ (.separated (by simp))
    have i1 := fun (sp' : Span) (e' : l1 = some sp') => hG.left h1 t1 hv e'
    have hp := hG.prompt _ ht
    cases l1 with
    | some l =>
      simp only [Option.some_or, Option.some.injEq] at e
      refine (i1 _ (congrArg some e)).imp fun new hn ha no v' rest' left' hm => ?_
      cases hm with
      | group hg => cases hg
      | separated m1 _ => exact or_ne_left (no _ _ _ m1)
    | none =>
      simp only [Option.none_or] at e
      have hv1 := (matches_split h1 hv).elim fun a h => (h.1 ▸ hv : Visible (a ++ _)).right
      refine (hG.leftBehind t1 hv h1 (hG.leftTail h2 (hG.closed _ ht _ (.separated (by simp))) t1 hp hv1 e)).imp fun new hn ha no v' rest' left' hm => ?_
      cases hm with
      | group hg => cases hg
      | separated m1 m2 => exact or_ne_right (no _ _ _ m1 _ _ _ m2)
  | _, _, _, _, _, .any h1, ht, hv, _, e => by
    refine (hG.leftMany h1 (hG.closed _ ht _ .any) (hG.prompt _ ht) hv e).imp fun new hn ha no v' rest' left' hm => ?_
    cases hm with
    | group hg => cases hg
    | any hm => exact no _ _ _ hm
  | _, _, _, _, _, .leftAssoc (o := p) (r := t) (l1 := l1) h1 h2, ht, hv, _, e => by
    have t1 : t ∈ G := hG.closed _ ht _ (.leftAssoc (by simp))
    have i1 := fun (sp' : Span) (e' : l1 = some sp') => hG.left h1 t1 hv e'
    have hp := hG.prompt _ ht
    cases l1 with
    | some l =>
      simp only [Option.some_or, Option.some.injEq] at e
      refine (i1 _ (congrArg some e)).imp fun new hn ha no v' rest' left' hm => ?_
      cases hm with
      | group hg => cases hg
      | leftAssoc m1 _ => exact or_ne_left (no _ _ _ m1)
    | none =>
      simp only [Option.none_or] at e
      have hv1 := (matches_split h1 hv).elim fun a h => (h.1 ▸ hv : Visible (a ++ _)).right
      refine (hG.leftBehind t1 hv h1 (hG.leftTail h2 (hG.closed _ ht _ (.leftAssoc (by simp))) t1 hp hv1 e)).imp fun new hn ha no v' rest' left' hm => ?_
      cases hm with
      | group hg => cases hg
      | leftAssoc m1 m2 => exact or_ne_right (no _ _ _ m1 _ _ _ m2)
  | _, _, _, _, _, .rightAssoc (o := p) (l := t) (l1 := l1) h1 h2, ht, hv, _, e => by
    have t1 : t ∈ G := hG.closed _ ht _ (.rightAssoc (by simp))
    have i1 := fun (sp' : Span) (e' : l1 = some sp') => hG.left h1 t1 hv e'
    have hp := hG.prompt _ ht
    cases l1 with
    | some l =>
      simp only [Option.some_or, Option.some.injEq] at e
      refine (i1 _ (congrArg some e)).imp fun new hn ha no v' rest' left' hm => ?_
      cases hm with
      | group hg => cases hg
      | rightAssoc m1 _ => exact or_ne_left (no _ _ _ m1)
    | none =>
      simp only [Option.none_or] at e
      have hv1 := (matches_split h1 hv).elim fun a h => (h.1 ▸ hv : Visible (a ++ _)).right
      refine (hG.leftBehind t1 hv h1 (hG.leftTail h2 (hG.closed _ ht _ (.rightAssoc (by simp))) t1 hp hv1 e)).imp fun new hn ha no v' rest' left' hm => ?_
      cases hm with
      | group hg => cases hg
      | rightAssoc m1 m2 => exact or_ne_right (no _ _ _ m1 _ _ _ m2)
  | _, _, _, _, _, .eitherLeft h1, ht, hv, _, e => by
    refine (hG.left h1 (hG.closed _ ht _ (.either (by simp))) hv e).imp fun new hn ha no v' rest' left' hm => ?_
    cases hm with
    | group hg => cases hg
    | eitherLeft hm => exact no _ _ _ hm
    | eitherRight hno hm => exact (hG.sides hv hn ha ht h1 hno hm).elim
  | _, _, _, _, _, .eitherRight hno h1, ht, hv, _, e => by
    refine (hG.left h1 (hG.closed _ ht _ (.either (by simp))) hv e).imp fun new hn ha no v' rest' left' hm => ?_
    cases hm with
    | group hg => cases hg
    | eitherLeft hm => exact (hG.sides hn hv ha.symm ht hm hno h1).elim
    | eitherRight _ hm => exact no _ _ _ hm
theorem PromptGrammar.leftSeq (hG : PromptGrammar env G (k + 2)) : ∀ {us : List Ty} {ts : List TT} {vs : List Val} {rest : List TT} {left : Option Span},
    MatchesSeq env us ts vs rest left → (∀ u ∈ us, u ∈ G) →
    Visible ts → ∀ {sp}, left = some sp → LeftIn (k + 2) ts sp fun new => ∀ v' rest' left', MatchesSeq env us new v' rest' left' → left' ≠ none
  | _, _, _, _, _, .nil, _, _, _, e => by cases e
  | _, _, _, _, _, .cons (l1 := l1) h1 h2, ht, hv, _, e => by
    have i1 := fun (sp' : Span) (e' : l1 = some sp') => hG.left h1 (ht _ (by simp)) hv e'
    cases l1 with
    | some l =>
      simp only [Option.some_or, Option.some.injEq] at e
      refine (i1 _ (congrArg some e)).imp fun new hn ha no v' rest' left' hm => ?_
      cases hm with
      | cons m1 _ => exact or_ne_left (no _ _ _ m1)
    | none =>
      simp only [Option.none_or] at e
      have hv1 := (matches_split h1 hv).elim fun a h => (h.1 ▸ hv : Visible (a ++ _)).right
      refine (hG.leftBehind (ht _ (by simp)) hv h1 (hG.leftSeq h2 (fun u hu => ht u (by simp [hu])) hv1 e)).imp fun new hn ha no v' rest' left' hm => ?_
      cases hm with
      | cons m1 m2 => exact or_ne_right (no _ _ _ m1 _ _ _ m2)
theorem PromptGrammar.leftToEnd (hG : PromptGrammar env G (k + 2)) : ∀ {t p : Ty} {ts : List TT} {vs : List Val} {rest : List TT} {left : Option Span},
    MatchesToEnd env t p ts vs rest left → t ∈ G → p ∈ G →
    Visible ts → ∀ {sp}, left = some sp → LeftIn (k + 2) ts sp fun new => ∀ v' rest' left', MatchesToEnd env t p new v' rest' left' → left' ≠ none
  | _, _, _, _, _, _, .done, _, _, _, _, e => by cases e
  | _, _, _, _, _, _, .last hne h1, ht, hp, hv, _, e => by
    refine (hG.left h1 ht hv e).imp fun new hn ha no v' rest' left' hm => ?_
    cases hm with
    | done => exact absurd ha.symm.nil hne
    | last _ hm => exact no _ _ _ hm
    | more _ m1 _ _ _ => exact or_ne_left (no _ _ _ m1)
  | t, p, ts, _, _, _, .more (mid := mid) (l1 := l1) (l2 := l2) hne h1 hne2 h2 h3, ht, hp, hv, sp, e => by
    have hv1 := (matches_split h1 hv).elim fun a h => (h.1 ▸ hv : Visible (a ++ _)).right
    have hv2 := (matches_split h2 hv1).elim fun a h => (h.1 ▸ hv1 : Visible (a ++ _)).right
    have i1 := fun (sp' : Span) (e' : l1 = some sp') => hG.left h1 ht hv e'
    have i2 := fun (sp' : Span) (e' : l2 = some sp') => hG.left h2 hp hv1 e'
    have i3 := fun (sp' : Span) (e' : _ = some sp') => hG.leftToEnd h3 ht hp hv2 e'
    -- on the other side there is also something behind the first item
    have stop : LeftIn (k + 2) mid sp (fun new => new ≠ [] ∧ ∀ q next l2, Matches env p new q next l2 → (l2 ≠ none ∨ ∀ vs rest l3, MatchesToEnd env t p next vs rest l3 → l3 ≠ none)) ∨ l1 = some sp := by
      cases l1 with
      | some l => simp only [Option.some_or] at e; exact .inr e
      | none =>
        left
        simp only [Option.none_or] at e
        cases l2 with
        | some l =>
          simp only [Option.some_or] at e
          exact (i2 _ e).imp fun new hn ha no => ⟨fun h => by subst h; exact hne2 ha.symm.nil, fun q next l2 hm => .inl (no _ _ _ hm)⟩
        | none =>
          simp only [Option.none_or] at e
          exact (hG.leftBehind hp hv1 h2 (i3 _ e)).imp fun new hn ha no => ⟨fun h => by subst h; exact hne2 ha.symm.nil, fun q next l2 hm => .inr (no _ _ _ hm)⟩
    rcases stop with stop | rfl
    · refine (hG.leftBehind ht hv h1 stop).imp fun new hn ha no v' rest' left' hm => ?_
      cases hm with
      | done => exact absurd ha.symm.nil hne
      | last _ hm => exact absurd rfl (no _ _ _ hm).1
      | more _ m1 _ m2 m3 =>
        rcases (no _ _ _ m1).2 _ _ _ m2 with h | h
        · exact or_ne_right (or_ne_left h)
        · exact or_ne_right (or_ne_right (h _ _ _ m3))
    · refine (i1 _ rfl).imp fun new hn ha no v' rest' left' hm => ?_
      cases hm with
      | done => exact absurd ha.symm.nil hne
      | last _ hm => exact no _ _ _ hm
      | more _ m1 _ _ _ => exact or_ne_left (no _ _ _ m1)
theorem PromptGrammar.leftTail (hG : PromptGrammar env G (k + 2)) : ∀ {p t : Ty} {ts : List TT} {tail : List (Val × Val)} {rest : List TT} {left : Option Span},
    MatchesTail env p t ts tail rest left → p ∈ G → t ∈ G → Single env (k + 2) p →
    Visible ts → ∀ {sp}, left = some sp → LeftIn (k + 2) ts sp fun new => ∀ v' rest' left', MatchesTail env p t new v' rest' left' → left' ≠ none
  | _, _, _, _, _, _, .done _, _, _, _, _, _, e => by cases e
  | _, _, _, _, _, _, .more (l1 := l1) (l2 := l2) h1 h2 h3, hp, ht, hs, hv, _, e => by
    have hv1 := (matches_split h1 hv).elim fun a h => (h.1 ▸ hv : Visible (a ++ _)).right
    have hv2 := (matches_split h2 hv1).elim fun a h => (h.1 ▸ hv1 : Visible (a ++ _)).right
    have i1 := fun (sp' : Span) (e' : l1 = some sp') => hG.left h1 hp hv e'
    have i2 := fun (sp' : Span) (e' : l2 = some sp') => hG.left h2 ht hv1 e'
    cases l1 with
    | some l =>
      simp only [Option.some_or, Option.some.injEq] at e
      refine (i1 _ (congrArg some e)).imp fun new hn ha no v' rest' left' hm => ?_
      cases hm with
      | done hno => exact (single_apart hv hn ha hs h1 hno).elim
      | more m1 _ _ => exact or_ne_left (no _ _ _ m1)
    | none =>
      simp only [Option.none_or] at e
      cases l2 with
      | some l =>
        simp only [Option.some_or] at e
        refine (hG.leftBehind hp hv h1 (i2 _ e)).imp fun new hn ha no v' rest' left' hm => ?_
        cases hm with
        | done hno => exact (single_apart hv hn ha hs h1 hno).elim
        | more m1 m2 _ => exact or_ne_right (or_ne_left (no _ _ _ m1 _ _ _ m2))
      | none =>
        simp only [Option.none_or] at e
        refine (hG.leftBehind hp hv h1 (hG.leftBehind ht hv1 h2 (hG.leftTail h3 hp ht hs hv2 e))).imp fun new hn ha no v' rest' left' hm => ?_
        cases hm with
        | done hno => exact (single_apart hv hn ha hs h1 hno).elim
        | more m1 m2 m3 => exact or_ne_right (or_ne_right (no _ _ _ m1 _ _ _ m2 _ _ _ m3))
theorem PromptGrammar.leftMany (hG : PromptGrammar env G (k + 2)) : ∀ {t : Ty} {ts : List TT} {vs : List Val} {rest : List TT} {left : Option Span},
    MatchesMany env t ts vs rest left → t ∈ G → Single env (k + 2) t →
    Visible ts → ∀ {sp}, left = some sp → LeftIn (k + 2) ts sp fun new => ∀ v' rest' left', MatchesMany env t new v' rest' left' → left' ≠ none
  | _, _, _, _, _, .done _, _, _, _, _, e => by cases e
  | _, _, _, _, _, .more (l1 := l1) h1 h2, ht, hs, hv, _, e => by
    have i1 := fun (sp' : Span) (e' : l1 = some sp') => hG.left h1 ht hv e'
    have hv1 := (matches_split h1 hv).elim fun a h => (h.1 ▸ hv : Visible (a ++ _)).right
    cases l1 with
    | some l =>
      simp only [Option.some_or, Option.some.injEq] at e
      refine (i1 _ (congrArg some e)).imp fun new hn ha no v' rest' left' hm => ?_
      cases hm with
      | done hno => exact (single_apart hv hn ha hs h1 hno).elim
      | more m1 _ => exact or_ne_left (no _ _ _ m1)
    | none =>
      simp only [Option.none_or] at e
      refine (hG.leftBehind ht hv h1 (hG.leftMany h2 ht hs hv1 e)).imp fun new hn ha no v' rest' left' hm => ?_
      cases hm with
      | done hno => exact (single_apart hv hn ha hs h1 hno).elim
      | more m1 m2 => exact or_ne_right (no _ _ _ m1 _ _ _ m2)
end

end Parsel
