import Verif.Props.Laws

/-! C71: renaming and boxing in whole programs. -/

namespace Parsel
open Spec

section
variable [Ext]

/-! ### whole programs: renaming and boxing -/

/-- A type without the boxes around it. -/
def stripBox : Ty → Ty
  | .boxed t => stripBox t
  | t => t

theorem matches_strip {env : Env} {t : Ty} {ts : List TT} {v : Val} {rest : List TT} {l : Option Span} :
    Matches env (stripBox t) ts v rest l ↔ Matches env t ts v rest l := by
  induction t with
  | boxed t ih => rw [stripBox, ih, matches_boxed]
  | _ => rw [stripBox]; simp

theorem noMatch_strip {env : Env} {t : Ty} {ts : List TT} : NoMatch env (stripBox t) ts ↔ NoMatch env t ts := by
  induction t with
  | boxed t ih => rw [stripBox, ih, noMatch_boxed]
  | _ => rw [stripBox]; simp

/-- What a type looks like that is alike to a given one. -/
def AlikeTo (R : Text → Text → Prop) (t u : Ty) : Prop :=
  match t with
  | .leaf l => stripBox u = .leaf l
  | .named x => ∃ y, stripBox u = .named y ∧ R x y
  | .boxed t => AlikeTy R t u
  | .maybe p t => ∃ p' t', stripBox u = .maybe p' t' ∧ AlikeTy R p p' ∧ AlikeTy R t t'
  | .paren t => ∃ t', stripBox u = .paren t' ∧ AlikeTy R t t'
  | .bracket t => ∃ t', stripBox u = .bracket t' ∧ AlikeTy R t t'
  | .brace t => ∃ t', stripBox u = .brace t' ∧ AlikeTy R t t'
  | .punctuated t p => ∃ t' p', stripBox u = .punctuated t' p' ∧ AlikeTy R t t' ∧ AlikeTy R p p'
  | .separated t p => ∃ t' p', stripBox u = .separated t' p' ∧ AlikeTy R t t' ∧ AlikeTy R p p'
  | .any t => ∃ t', stripBox u = .any t' ∧ AlikeTy R t t'
  | .leftAssoc o r => ∃ o' r', stripBox u = .leftAssoc o' r' ∧ AlikeTy R o o' ∧ AlikeTy R r r'
  | .rightAssoc o r => ∃ o' r', stripBox u = .rightAssoc o' r' ∧ AlikeTy R o o' ∧ AlikeTy R r r'
  | .either a b => ∃ a' b', stripBox u = .either a' b' ∧ AlikeTy R a a' ∧ AlikeTy R b b'

omit [Ext] in
theorem alike_to {R : Text → Text → Prop} {t u : Ty} (h : AlikeTy R t u) : AlikeTo R t u := by
  induction h with
  | leaf => rfl
  | named h => exact ⟨_, rfl, h⟩
  | boxLeft h _ => exact h
  | @boxRight t u h ih =>
    cases t with
    | boxed t =>
      have ih : AlikeTy R t u := ih
      exact .boxRight ih
    | _ => exact ih
  | maybe h1 h2 => exact ⟨_, _, rfl, h1, h2⟩
  | paren h => exact ⟨_, rfl, h⟩
  | bracket h => exact ⟨_, rfl, h⟩
  | brace h => exact ⟨_, rfl, h⟩
  | punctuated h1 h2 => exact ⟨_, _, rfl, h1, h2⟩
  | separated h1 h2 => exact ⟨_, _, rfl, h1, h2⟩
  | any h => exact ⟨_, rfl, h⟩
  | leftAssoc h1 h2 => exact ⟨_, _, rfl, h1, h2⟩
  | rightAssoc h1 h2 => exact ⟨_, _, rfl, h1, h2⟩
  | either h1 h2 => exact ⟨_, _, rfl, h1, h2⟩

omit [Ext] in
theorem alike_symm {R : Text → Text → Prop} {t u : Ty} (h : AlikeTy R t u) : AlikeTy (fun x y => R y x) u t := by
  induction h with
  | leaf => exact .leaf
  | named h => exact .named h
  | boxLeft _ ih => exact .boxRight ih
  | boxRight _ ih => exact .boxLeft ih
  | maybe _ _ h1 h2 => exact .maybe h1 h2
  | paren _ h => exact .paren h
  | bracket _ h => exact .bracket h
  | brace _ h => exact .brace h
  | punctuated _ _ h1 h2 => exact .punctuated h1 h2
  | separated _ _ h1 h2 => exact .separated h1 h2
  | any _ h => exact .any h
  | leftAssoc _ _ h1 h2 => exact .leftAssoc h1 h2
  | rightAssoc _ _ h1 h2 => exact .rightAssoc h1 h2
  | either _ _ h1 h2 => exact .either h1 h2

omit [Ext] in
theorem pointwise_symm {R : α → β → Prop} {S : β → α → Prop} (hS : ∀ a b, R a b → S b a) {as : List α} {bs : List β} (h : Pointwise R as bs) : Pointwise S bs as := by
  induction h with
  | nil => exact .nil
  | cons h _ ih => exact .cons (hS _ _ h) ih

omit [Ext] in
theorem pointwise_split {R : α → β → Prop} {as : List α} {a : α} {as' : List α} {bs : List β} (h : Pointwise R (as ++ a :: as') bs) :
    ∃ cs b cs', bs = cs ++ b :: cs' ∧ Pointwise R as cs ∧ R a b ∧ Pointwise R as' cs' := by
  induction as generalizing bs with
  | nil => cases h with | cons h1 h2 => exact ⟨[], _, _, rfl, .nil, h1, h2⟩
  | cons x as ih =>
    cases h with
    | cons h1 h2 =>
      obtain ⟨cs, b, cs', rfl, h3, h4, h5⟩ := ih h2
      exact ⟨_ :: cs, b, cs', rfl, .cons h1 h3, h4, h5⟩

omit [Ext] in
theorem pointwise_mem {R : α → β → Prop} {as : List α} {bs : List β} (h : Pointwise R as bs) {b : β} (hb : b ∈ bs) : ∃ a ∈ as, R a b := by
  induction h with
  | nil => cases hb
  | cons h1 _ ih =>
    cases hb with
    | head => exact ⟨_, .head _, h1⟩
    | tail _ hb => obtain ⟨a, ha, hr⟩ := ih hb; exact ⟨a, .tail _ ha, hr⟩

/-- The declarations that `R` relates are alike. -/
def RelatedDecls (env env' : Env) (R : Text → Text → Prop) : Prop :=
  ∀ x y, R x y → Pointwise (Pointwise (AlikeTy R)) (alternatives (env x)) (alternatives (env' y))

theorem alike_matches {env env' : Env} {R : Text → Text → Prop} (hR : RelatedDecls env env' R) :
    (∀ {t ts v rest l}, Matches env t ts v rest l → ∀ u, AlikeTy R t u → ∃ w, Matches env' u ts w rest l ∧ w.toTokens = v.toTokens) ∧
    (∀ {t ts}, NoMatch env t ts → ∀ u, AlikeTy R t u → NoMatch env' u ts) := by
  have m1 : ∀ {t ts v rest l}, Matches env t ts v rest l → ∀ u, AlikeTy R t u → ∃ w, Matches env' u ts w rest l ∧ w.toTokens = v.toTokens := by
    intro t ts v rest l h
    refine Matches.rec
      (motive_1 := fun t ts v rest l _ => ∀ u, AlikeTy R t u → ∃ w, Matches env' u ts w rest l ∧ w.toTokens = v.toTokens)
      (motive_2 := fun us ts vs rest l _ => ∀ us', Pointwise (AlikeTy R) us us' → ∃ ws, MatchesSeq env' us' ts ws rest l ∧ Val.toTokensL ws = Val.toTokensL vs)
      (motive_3 := fun t p ts vs rest l _ => ∀ t' p', AlikeTy R t t' → AlikeTy R p p' → ∃ ws, MatchesToEnd env' t' p' ts ws rest l ∧ Val.toTokensL ws = Val.toTokensL vs)
      (motive_4 := fun p t ts tail rest l _ => ∀ p' t', AlikeTy R p p' → AlikeTy R t t' → ∃ tail', MatchesTail env' p' t' ts tail' rest l ∧
        Val.toTokensL (tail'.flatMap fun x => [x.1, x.2]) = Val.toTokensL (tail.flatMap fun x => [x.1, x.2]))
      (motive_5 := fun t ts vs rest l _ => ∀ u, AlikeTy R t u → ∃ ws, MatchesMany env' u ts ws rest l ∧ Val.toTokensL ws = Val.toTokensL vs)
      (motive_6 := fun t ts _ => ∀ u, AlikeTy R t u → NoMatch env' u ts)
      (motive_7 := fun us ts _ => ∀ us', Pointwise (AlikeTy R) us us' → NoMatchSeq env' us' ts)
      (motive_8 := fun t p ts _ => ∀ t' p', AlikeTy R t t' → AlikeTy R p p' → NoMatchToEnd env' t' p' ts)
      (motive_9 := fun p t ts _ => ∀ p' t', AlikeTy R p p' → AlikeTy R t t' → NoMatchTail env' p' t' ts)
      ?_ ?_ ?_ ?_ ?_ ?_ ?_ ?_ ?_ ?_ ?_ ?_ ?_ ?_
      ?_ ?_ ?_ ?_ ?_ ?_ ?_ ?_ ?_
      ?_ ?_ ?_ ?_ ?_ ?_ ?_ ?_ ?_ ?_ ?_ ?_ ?_ ?_ ?_
      ?_ ?_ ?_ ?_ ?_ ?_ ?_ h
    case refine_1 =>
      intro l ts v rest h u hu
      have hu : stripBox u = .leaf l := alike_to hu
      exact ⟨_, matches_strip.mp (by rw [hu]; exact .leaf h), rfl⟩
    case refine_2 =>
      intro x f ts vs rest l he h ih u hu
      obtain ⟨y, hs, hxy⟩ := alike_to hu
      have hd := hR x y hxy
      rw [he, alternatives] at hd
      obtain ⟨cs, b, cs', e, hc, hb, _⟩ := pointwise_split (as := []) hd
      obtain ⟨ws, hw, ht⟩ := ih b hb
      cases hc
      obtain ⟨tag, hm⟩ := alts_matches (env := env') (x := y) ⟨[], b, cs', e, by simp, hw⟩
      exact ⟨_, matches_strip.mp (by rw [hs]; exact hm), by simp only [Val.toTokens, ht]⟩
    case refine_3 =>
      intro x before w after ts vs rest l he hb h ihb ih u hu
      obtain ⟨y, hs, hxy⟩ := alike_to hu
      have hd := hR x y hxy
      rw [he, alternatives, List.map_append, List.map_cons] at hd
      obtain ⟨cs, b, cs', e, hc, hb, _⟩ := pointwise_split hd
      obtain ⟨ws, hw, ht⟩ := ih b hb
      obtain ⟨tag, hm⟩ := alts_matches (env := env') (x := y) ⟨cs, b, cs', e, (fun c hc' => by
        obtain ⟨a, ha, hr⟩ := pointwise_mem hc hc'
        obtain ⟨w', hw', rfl⟩ := List.mem_map.mp ha
        exact ihb w' hw' c hr), hw⟩
      exact ⟨_, matches_strip.mp (by rw [hs]; exact hm), by simp only [Val.toTokens, ht]⟩
    case refine_4 =>
      intro t ts v rest l _ ih u hu
      exact ih u (alike_to hu)
    case refine_5 =>
      intro p t ts a mid l1 b rest l2 _ _ ih1 ih2 u hu
      obtain ⟨p', t', hs, hp, ht⟩ := alike_to hu
      obtain ⟨w1, h1, e1⟩ := ih1 p' hp
      obtain ⟨w2, h2, e2⟩ := ih2 t' ht
      exact ⟨_, matches_strip.mp (by rw [hs]; exact .maybeSome h1 h2), by simp only [Val.toTokens, Val.toTokensL, e1, e2]⟩
    case refine_6 =>
      intro p t ts _ ih u hu
      obtain ⟨p', t', hs, hp, ht⟩ := alike_to hu
      exact ⟨_, matches_strip.mp (by rw [hs]; exact .maybeNone (ih p' hp)), rfl⟩
    case refine_7 =>
      intro g d t ts inner sp rest v unread l1 l2 hg hn _ hf ih u hu
      cases hg <;>
      · obtain ⟨t', hs, ht⟩ := alike_to hu
        obtain ⟨w, hw, e⟩ := ih t' ht
        exact ⟨_, matches_strip.mp (by rw [hs]; exact .group (by constructor) hn hw hf), by simp only [Val.toTokens, e]⟩
    case refine_8 =>
      intro t p ts vs rest l _ ih u hu
      obtain ⟨t', p', hs, ht, hp⟩ := alike_to hu
      obtain ⟨ws, hw, e⟩ := ih t' p' ht hp
      exact ⟨_, matches_strip.mp (by rw [hs]; exact .punctuated hw), by simp only [Val.toTokens, e]⟩
    case refine_9 =>
      intro t p ts v mid l1 tail rest l2 _ _ ih1 ih2 u hu
      obtain ⟨t', p', hs, ht, hp⟩ := alike_to hu
      obtain ⟨w, hw, e⟩ := ih1 t' ht
      obtain ⟨ws, hws, es⟩ := ih2 p' t' hp ht
      exact ⟨_, matches_strip.mp (by rw [hs]; exact .separated hw hws), by simp only [Val.toTokens, Val.toTokensL, e, es]⟩
    case refine_10 =>
      intro t ts vs rest l _ ih u hu
      obtain ⟨t', hs, ht⟩ := alike_to hu
      obtain ⟨ws, hw, e⟩ := ih t' ht
      exact ⟨_, matches_strip.mp (by rw [hs]; exact .any hw), by simp only [Val.toTokens, e]⟩
    case refine_11 =>
      intro o t ts v mid l1 tail rest l2 _ _ ih1 ih2 u hu
      obtain ⟨o', t', hs, ho, ht⟩ := alike_to hu
      obtain ⟨w, hw, e⟩ := ih1 t' ht
      obtain ⟨ws, hws, es⟩ := ih2 o' t' ho ht
      exact ⟨_, matches_strip.mp (by rw [hs]; exact .leftAssoc hw hws), by simp only [leftTree_tokens, Val.toTokens, Val.toTokensL, e, es]⟩
    case refine_12 =>
      intro o t ts v mid l1 tail rest l2 _ _ ih1 ih2 u hu
      obtain ⟨o', t', hs, ho, ht⟩ := alike_to hu
      obtain ⟨w, hw, e⟩ := ih1 t' ht
      obtain ⟨ws, hws, es⟩ := ih2 o' t' ho ht
      exact ⟨_, matches_strip.mp (by rw [hs]; exact .rightAssoc hw hws), by simp only [rightTree_tokens, Val.toTokens, Val.toTokensL, e, es]⟩
    case refine_13 =>
      intro a b ts v rest l _ ih u hu
      obtain ⟨a', b', hs, ha, hb⟩ := alike_to hu
      obtain ⟨w, hw, e⟩ := ih a' ha
      exact ⟨_, matches_strip.mp (by rw [hs]; exact .eitherLeft hw), by simp only [Val.toTokens, Val.toTokensL, e]⟩
    case refine_14 =>
      intro a b ts v rest l _ _ ih1 ih2 u hu
      obtain ⟨a', b', hs, ha, hb⟩ := alike_to hu
      obtain ⟨w, hw, e⟩ := ih2 b' hb
      exact ⟨_, matches_strip.mp (by rw [hs]; exact .eitherRight (ih1 a' ha) hw), by simp only [Val.toTokens, Val.toTokensL, e]⟩
    case refine_15 => intro ts us' hu; cases hu; exact ⟨_, .nil, rfl⟩
    case refine_16 =>
      intro t us ts v mid l1 vs rest l2 _ _ ih1 ih2 us' hu
      cases hu with
      | cons h1 h2 =>
        obtain ⟨w, hw, e⟩ := ih1 _ h1
        obtain ⟨ws, hws, es⟩ := ih2 _ h2
        exact ⟨_, .cons hw hws, by simp only [Val.toTokensL, e, es]⟩
    case refine_17 => intros; exact ⟨_, .done, rfl⟩
    case refine_18 =>
      intro t p ts v l hne _ ih t' p' ht hp
      obtain ⟨w, hw, e⟩ := ih t' ht
      exact ⟨_, .last hne hw, by simp only [Val.toTokensL, e]⟩
    case refine_19 =>
      intro t p ts v mid l1 q next l2 vs rest l3 hne _ hne' _ _ ih1 ih2 ih3 t' p' ht hp
      obtain ⟨w, hw, e⟩ := ih1 t' ht
      obtain ⟨w2, hw2, e2⟩ := ih2 p' hp
      obtain ⟨ws, hws, es⟩ := ih3 t' p' ht hp
      exact ⟨_, .more hne hw hne' hw2 hws, by simp only [Val.toTokensL, e, e2, es]⟩
    case refine_20 => intro p t ts _ ih p' t' hp ht; exact ⟨_, .done (ih p' hp), rfl⟩
    case refine_21 =>
      intro p t ts q mid l1 v next l2 tail rest l3 _ _ _ ih1 ih2 ih3 p' t' hp ht
      obtain ⟨w, hw, e⟩ := ih1 p' hp
      obtain ⟨w2, hw2, e2⟩ := ih2 t' ht
      obtain ⟨ws, hws, es⟩ := ih3 p' t' hp ht
      exact ⟨_, .more hw hw2 hws, by simp only [List.flatMap_cons, List.cons_append, List.nil_append, Val.toTokensL, e, e2, es]⟩
    case refine_22 => intro t ts _ ih u hu; exact ⟨_, .done (ih u hu), rfl⟩
    case refine_23 =>
      intro t ts v mid l1 vs rest l2 _ _ ih1 ih2 u hu
      obtain ⟨w, hw, e⟩ := ih1 u hu
      obtain ⟨ws, hws, es⟩ := ih2 u hu
      exact ⟨_, .more hw hws, by simp only [Val.toTokensL, e, es]⟩
    case refine_24 =>
      intro l ts h u hu
      have hu : stripBox u = .leaf l := alike_to hu
      exact noMatch_strip.mp (by rw [hu]; exact .leaf h)
    case refine_25 =>
      intro x f ts he h ih u hu
      obtain ⟨y, hs, hxy⟩ := alike_to hu
      have hd := hR x y hxy
      rw [he, alternatives] at hd
      refine noMatch_strip.mp ?_
      rw [hs, noMatch_named]
      intro c hc
      obtain ⟨a, ha, hr⟩ := pointwise_mem hd hc
      rw [List.mem_singleton] at ha
      subst ha
      exact ih c hr
    case refine_26 =>
      intro x vs ts he h ih u hu
      obtain ⟨y, hs, hxy⟩ := alike_to hu
      have hd := hR x y hxy
      rw [he, alternatives] at hd
      refine noMatch_strip.mp ?_
      rw [hs, noMatch_named]
      intro c hc
      obtain ⟨a, ha, hr⟩ := pointwise_mem hd hc
      obtain ⟨w', hw', rfl⟩ := List.mem_map.mp ha
      exact ih w' hw' c hr
    case refine_27 => intro t ts _ ih u hu; exact ih u (alike_to hu)
    case refine_28 =>
      intro p t ts a mid l1 _ _ ih1 ih2 u hu
      obtain ⟨p', t', hs, hp, ht⟩ := alike_to hu
      obtain ⟨w, hw, _⟩ := ih1 p' hp
      exact noMatch_strip.mp (by rw [hs]; exact .maybe hw (ih2 t' ht))
    case refine_29 =>
      intro g d t ts hg hn u hu
      cases hg <;>
      · obtain ⟨t', hs, ht⟩ := alike_to hu
        exact noMatch_strip.mp (by rw [hs]; exact .noGroup (by constructor) hn)
    case refine_30 =>
      intro g d t ts inner sp rest hg hn _ ih u hu
      cases hg <;>
      · obtain ⟨t', hs, ht⟩ := alike_to hu
        exact noMatch_strip.mp (by rw [hs]; exact .inGroup (by constructor) hn (ih t' ht))
    case refine_31 =>
      intro t p ts _ ih u hu
      obtain ⟨t', p', hs, ht, hp⟩ := alike_to hu
      exact noMatch_strip.mp (by rw [hs]; exact .punctuated (ih t' p' ht hp))
    case refine_32 =>
      intro t p ts _ ih u hu
      obtain ⟨t', p', hs, ht, hp⟩ := alike_to hu
      exact noMatch_strip.mp (by rw [hs]; exact .separatedHead (ih t' ht))
    case refine_33 =>
      intro t p ts v mid l1 _ _ ih1 ih2 u hu
      obtain ⟨t', p', hs, ht, hp⟩ := alike_to hu
      obtain ⟨w, hw, _⟩ := ih1 t' ht
      exact noMatch_strip.mp (by rw [hs]; exact .separatedTail hw (ih2 p' t' hp ht))
    case refine_34 =>
      intro t p ts _ ih u hu
      obtain ⟨o', t', hs, ho, ht⟩ := alike_to hu
      exact noMatch_strip.mp (by rw [hs]; exact .leftAssocHead (ih t' ht))
    case refine_35 =>
      intro t p ts v mid l1 _ _ ih1 ih2 u hu
      obtain ⟨o', t', hs, ho, ht⟩ := alike_to hu
      obtain ⟨w, hw, _⟩ := ih1 t' ht
      exact noMatch_strip.mp (by rw [hs]; exact .leftAssocTail hw (ih2 o' t' ho ht))
    case refine_36 =>
      intro t p ts _ ih u hu
      obtain ⟨o', t', hs, ho, ht⟩ := alike_to hu
      exact noMatch_strip.mp (by rw [hs]; exact .rightAssocHead (ih t' ht))
    case refine_37 =>
      intro t p ts v mid l1 _ _ ih1 ih2 u hu
      obtain ⟨o', t', hs, ho, ht⟩ := alike_to hu
      obtain ⟨w, hw, _⟩ := ih1 t' ht
      exact noMatch_strip.mp (by rw [hs]; exact .rightAssocTail hw (ih2 o' t' ho ht))
    case refine_38 =>
      intro a b ts _ _ ih1 ih2 u hu
      obtain ⟨a', b', hs, ha, hb⟩ := alike_to hu
      exact noMatch_strip.mp (by rw [hs]; exact .either (ih1 a' ha) (ih2 b' hb))
    case refine_39 =>
      intro t us ts _ ih us' hu
      cases hu with
      | cons h1 h2 => exact .here (ih _ h1)
    case refine_40 =>
      intro t us ts v mid l _ _ ih1 ih2 us' hu
      cases hu with
      | cons h1 h2 =>
        obtain ⟨w, hw, _⟩ := ih1 _ h1
        exact .later hw (ih2 _ h2)
    case refine_41 => intro t p ts hne _ ih t' p' ht hp; exact .item hne (ih t' ht)
    case refine_42 =>
      intro t p ts v mid l hne _ hne' _ ih1 ih2 t' p' ht hp
      obtain ⟨w, hw, _⟩ := ih1 t' ht
      exact .separator hne hw hne' (ih2 p' hp)
    case refine_43 =>
      intro t p ts v mid l q next l2 hne _ hne' _ _ ih1 ih2 ih3 t' p' ht hp
      obtain ⟨w, hw, _⟩ := ih1 t' ht
      obtain ⟨w2, hw2, _⟩ := ih2 p' hp
      exact .later hne hw hne' hw2 (ih3 t' p' ht hp)
    case refine_44 =>
      intro p t ts q mid l _ _ ih1 ih2 p' t' hp ht
      obtain ⟨w, hw, _⟩ := ih1 p' hp
      exact .here hw (ih2 t' ht)
    case refine_45 =>
      intro p t ts q mid l v next l2 _ _ _ ih1 ih2 ih3 p' t' hp ht
      obtain ⟨w, hw, _⟩ := ih1 p' hp
      obtain ⟨w2, hw2, _⟩ := ih2 t' ht
      exact .later hw hw2 (ih3 p' t' hp ht)
  refine ⟨m1, fun {t ts} h u hu => ?_⟩
  obtain ⟨w, hw, _⟩ := m1 (.any (.done h)) (.any u) (.any hu)
  obtain ⟨vs, _, hm⟩ := matches_any.mp hw
  exact many_stops hm

/-- **C71.** Two programs whose declared types correspond - in any way, as long as corresponding types have the same shape of variants and fields with types that are
equal up to boxes and up to the correspondence - are the same grammar, type by type.  In particular types, variants and fields can be renamed, tuple fields
given names, and boxes added or taken away anywhere, also in recursive declarations. -/
theorem C71_alike {env env' : Env} {R : Text → Text → Prop}
    (hR : ∀ x y, R x y → Pointwise (Pointwise (AlikeTy R)) (alternatives (env x)) (alternatives (env' y))) {t u : Ty} (h : AlikeTy R t u) :
    SameGrammar env env' t u := by
  have hR' : RelatedDecls env' env (fun x y => R y x) := fun y x hxy =>
    pointwise_symm (fun _ _ h => pointwise_symm (fun _ _ h => alike_symm h) h) (hR x y hxy)
  exact SameM.grammar
    { left := fun hm => (alike_matches hR).1 hm u h
      right := fun hm => (alike_matches hR').1 hm t (alike_symm h)
      fails := ⟨fun hm => (alike_matches hR).2 hm u h, fun hm => (alike_matches hR').2 hm t (alike_symm h)⟩ }

end

/-- `Sum` under another name, with a tuple struct, and boxes elsewhere. -/
def renEnv : Env := fun x =>
  -- struct Total(Box<Name>, Box<Maybe<Token![+], Total>>)
  if x = "Total".toList then .struct (.unnamed [fld (.boxed (.leaf (.customIdent []))),
    fld (.boxed (.maybe (.leaf (.punct "+".toList)) (.named "Total".toList)))])
  else .enum []

section
attribute [local instance] toyExt
example : SameGrammar lawEnv renEnv (.any (.named "Sum".toList)) (.any (.boxed (.named "Total".toList))) :=
  C71_alike (R := fun x y => x = "Sum".toList ∧ y = "Total".toList)
    (by
      rintro x y ⟨rfl, rfl⟩
      exact .cons (.cons (.boxRight .leaf) (.cons (.boxRight (.maybe .leaf (.boxLeft (.named ⟨rfl, rfl⟩)))) .nil)) .nil)
    (.any (.boxRight (.named ⟨rfl, rfl⟩)))
example : ∃ v, Accepts renEnv (.any (.named "Total".toList)) [.ident "a".toList spA, .punct '+' .alone spA, .ident "b".toList spA, .ident "c".toList spA] v := ⟨_, 20, rfl⟩
end

end Parsel
