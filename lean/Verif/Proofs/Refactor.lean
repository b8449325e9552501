import Verif.Spec.Refactor
import Verif.Props.Rename

/-! Rewriting inside types, and whole programs. -/

namespace Parsel
open Spec

section
variable [Ext]

/-! ### one type constructor at a time -/

/-- One direction of the exchange. -/
structure Into (env env' : Env) (t u : Ty) : Prop where
  left : ∀ {ts v rest l}, Matches env t ts v rest l → ∃ w, Matches env' u ts w rest l ∧ w.toTokens = v.toTokens
  fails : ∀ {ts}, NoMatch env t ts → NoMatch env' u ts

theorem into_tail {env env' : Env} {p p' t t' : Ty} (hp : Into env env' p p') (ht : Into env env' t t') {tail : List (Val × Val)} :
    ∀ {ts rest l}, MatchesTail env p t ts tail rest l → ∃ tail', MatchesTail env' p' t' ts tail' rest l ∧
      Val.toTokensL (tail'.flatMap fun x => [x.1, x.2]) = Val.toTokensL (tail.flatMap fun x => [x.1, x.2]) := by
  induction tail with
  | nil => intro ts rest l h; cases h with | done h => exact ⟨[], .done (hp.fails h), rfl⟩
  | cons x tail ih =>
    intro ts rest l h
    cases h with
    | more h1 h2 h3 =>
      obtain ⟨w, hw, e⟩ := hp.left h1
      obtain ⟨w2, hw2, e2⟩ := ht.left h2
      obtain ⟨ws, hws, es⟩ := ih h3
      exact ⟨_, .more hw hw2 hws, by simp only [List.flatMap_cons, List.cons_append, List.nil_append, Val.toTokensL, e, e2, es]⟩

theorem into_many {env env' : Env} {t t' : Ty} (ht : Into env env' t t') {vs : List Val} :
    ∀ {ts rest l}, MatchesMany env t ts vs rest l → ∃ ws, MatchesMany env' t' ts ws rest l ∧ Val.toTokensL ws = Val.toTokensL vs := by
  induction vs with
  | nil => intro ts rest l h; cases h with | done h => exact ⟨[], .done (ht.fails h), rfl⟩
  | cons v vs ih =>
    intro ts rest l h
    cases h with
    | more h1 h2 =>
      obtain ⟨w, hw, e⟩ := ht.left h1
      obtain ⟨ws, hws, es⟩ := ih h2
      exact ⟨_, .more hw hws, by simp only [Val.toTokensL, e, es]⟩

theorem into_toEnd {env env' : Env} {p p' t t' : Ty} (hp : Into env env' p p') (ht : Into env env' t t') :
    ∀ {ts vs rest l}, MatchesToEnd env t p ts vs rest l → ∃ ws, MatchesToEnd env' t' p' ts ws rest l ∧ Val.toTokensL ws = Val.toTokensL vs
  | _, _, _, _, .done => ⟨_, .done, rfl⟩
  | _, _, _, _, .last hne h =>
    have ⟨w, hw, e⟩ := ht.left h
    ⟨_, .last hne hw, by simp only [Val.toTokensL, e]⟩
  | _, _, _, _, .more hne h1 hne' h2 h3 =>
    have ⟨w, hw, e⟩ := ht.left h1
    have ⟨w2, hw2, e2⟩ := hp.left h2
    have ⟨ws, hws, es⟩ := into_toEnd hp ht h3
    ⟨_, .more hne hw hne' hw2 hws, by simp only [Val.toTokensL, e, e2, es]⟩

theorem into_noToEnd {env env' : Env} {p p' t t' : Ty} (hp : Into env env' p p') (ht : Into env env' t t') :
    ∀ {ts}, NoMatchToEnd env t p ts → NoMatchToEnd env' t' p' ts
  | _, .item hne h => .item hne (ht.fails h)
  | _, .separator hne h hne' h2 => have ⟨_, hw, _⟩ := ht.left h; .separator hne hw hne' (hp.fails h2)
  | _, .later hne h hne' h2 h3 => have ⟨_, hw, _⟩ := ht.left h; have ⟨_, hw2, _⟩ := hp.left h2; .later hne hw hne' hw2 (into_noToEnd hp ht h3)

theorem into_noTail {env env' : Env} {p p' t t' : Ty} (hp : Into env env' p p') (ht : Into env env' t t') :
    ∀ {ts}, NoMatchTail env p t ts → NoMatchTail env' p' t' ts
  | _, .here h h2 => have ⟨_, hw, _⟩ := hp.left h; .here hw (ht.fails h2)
  | _, .later h h2 h3 => have ⟨_, hw, _⟩ := hp.left h; have ⟨_, hw2, _⟩ := ht.left h2; .later hw hw2 (into_noTail hp ht h3)

theorem into_group {env env' : Env} {g g' t t' : Ty} {d : Delim} (hg : GroupTy g d t) (hg' : GroupTy g' d t') (h : Into env env' t t') : Into env env' g g' where
  left hm := by
    cases hg <;>
    · cases hm with
      | group hg2 hn h1 hu =>
        cases hg2
        obtain ⟨w, hw, e⟩ := h.left h1
        exact ⟨_, .group hg' hn hw hu, by simp only [Val.toTokens, e]⟩
  fails hm := by
    cases hg <;>
    · cases hm with
      | noGroup hg2 hn => cases hg2; exact .noGroup hg' hn
      | inGroup hg2 hn h1 => cases hg2; exact .inGroup hg' hn (h.fails h1)

/-- Rewriting the parts of a type. -/
theorem into_within {env env' : Env} {R : Ty → Ty → Prop} (hR : ∀ t u, R t u → Into env env' t u) {t u : Ty} (h : ThroughTy R t u) : Into env env' t u := by
  induction h with
  | here h => exact hR _ _ h
  | leaf =>
    refine ⟨fun h => ?_, fun h => ?_⟩
    · cases h with
      | leaf h => exact ⟨_, .leaf h, rfl⟩
      | group h => cases h
    · cases h with
      | leaf h => exact .leaf h
      | noGroup h => cases h
      | inGroup h => cases h
  | boxed _ ih =>
    exact ⟨(fun h => have ⟨w, hw, e⟩ := ih.left (matches_boxed.mp h); ⟨w, .boxed hw, e⟩), fun h => .boxed (ih.fails (noMatch_boxed.mp h))⟩
  | maybe _ _ ihp iht =>
    refine ⟨fun h => ?_, fun h => ?_⟩
    · cases h with
      | group h => cases h
      | maybeSome h1 h2 =>
        obtain ⟨w, hw, e⟩ := ihp.left h1
        obtain ⟨w2, hw2, e2⟩ := iht.left h2
        exact ⟨_, .maybeSome hw hw2, by simp only [Val.toTokens, Val.toTokensL, e, e2]⟩
      | maybeNone h => exact ⟨_, .maybeNone (ihp.fails h), rfl⟩
    · cases h with
      | noGroup h => cases h
      | inGroup h => cases h
      | maybe h1 h2 => obtain ⟨w, hw, _⟩ := ihp.left h1; exact .maybe hw (iht.fails h2)
  | paren _ ih => exact into_group .paren .paren ih
  | bracket _ ih => exact into_group .bracket .bracket ih
  | brace _ ih => exact into_group .brace .brace ih
  | punctuated _ _ iht ihp =>
    refine ⟨fun h => ?_, fun h => ?_⟩
    · cases h with
      | group h => cases h
      | punctuated h =>
        obtain ⟨ws, hw, e⟩ := into_toEnd ihp iht h
        exact ⟨_, .punctuated hw, by simp only [Val.toTokens, e]⟩
    · cases h with
      | noGroup h => cases h
      | inGroup h => cases h
      | punctuated h => exact .punctuated (into_noToEnd ihp iht h)
  | separated _ _ iht ihp =>
    refine ⟨fun h => ?_, fun h => ?_⟩
    · cases h with
      | group h => cases h
      | separated h1 h2 =>
        obtain ⟨w, hw, e⟩ := iht.left h1
        obtain ⟨ws, hws, es⟩ := into_tail ihp iht h2
        exact ⟨_, .separated hw hws, by simp only [Val.toTokens, Val.toTokensL, e, es]⟩
    · cases h with
      | noGroup h => cases h
      | inGroup h => cases h
      | separatedHead h => exact .separatedHead (iht.fails h)
      | separatedTail h1 h2 => obtain ⟨w, hw, _⟩ := iht.left h1; exact .separatedTail hw (into_noTail ihp iht h2)
  | any _ ih =>
    refine ⟨fun h => ?_, fun h => ?_⟩
    · cases h with
      | group h => cases h
      | any h =>
        obtain ⟨ws, hw, e⟩ := into_many ih h
        exact ⟨_, .any hw, by simp only [Val.toTokens, e]⟩
    · cases h with
      | noGroup h => cases h
      | inGroup h => cases h
  | leftAssoc _ _ ihp iht =>
    refine ⟨fun h => ?_, fun h => ?_⟩
    · cases h with
      | group h => cases h
      | leftAssoc h1 h2 =>
        obtain ⟨w, hw, e⟩ := iht.left h1
        obtain ⟨ws, hws, es⟩ := into_tail ihp iht h2
        exact ⟨_, .leftAssoc hw hws, by simp only [leftTree_tokens, Val.toTokens, Val.toTokensL, e, es]⟩
    · cases h with
      | noGroup h => cases h
      | inGroup h => cases h
      | leftAssocHead h => exact .leftAssocHead (iht.fails h)
      | leftAssocTail h1 h2 => obtain ⟨w, hw, _⟩ := iht.left h1; exact .leftAssocTail hw (into_noTail ihp iht h2)
  | rightAssoc _ _ ihp iht =>
    refine ⟨fun h => ?_, fun h => ?_⟩
    · cases h with
      | group h => cases h
      | rightAssoc h1 h2 =>
        obtain ⟨w, hw, e⟩ := iht.left h1
        obtain ⟨ws, hws, es⟩ := into_tail ihp iht h2
        exact ⟨_, .rightAssoc hw hws, by simp only [rightTree_tokens, Val.toTokensL, e, es]⟩
    · cases h with
      | noGroup h => cases h
      | inGroup h => cases h
      | rightAssocHead h => exact .rightAssocHead (iht.fails h)
      | rightAssocTail h1 h2 => obtain ⟨w, hw, _⟩ := iht.left h1; exact .rightAssocTail hw (into_noTail ihp iht h2)
  | either _ _ iha ihb =>
    refine ⟨fun h => ?_, fun h => ?_⟩
    · rcases matches_either.mp h with ⟨w, rfl, h0⟩ | ⟨w, rfl, h1, h2⟩
      · obtain ⟨w, hw, e⟩ := iha.left h0
        exact ⟨_, .eitherLeft hw, by simp only [Val.toTokens, Val.toTokensL, e]⟩
      · obtain ⟨w, hw, e⟩ := ihb.left h2
        exact ⟨_, .eitherRight (iha.fails h1) hw, by simp only [Val.toTokens, Val.toTokensL, e]⟩
    · obtain ⟨h1, h2⟩ := noMatch_either.mp h
      exact .either (iha.fails h1) (ihb.fails h2)

omit [Ext] in
theorem within_symm {R S : Ty → Ty → Prop} (hS : ∀ t u, R t u → S u t) {t u : Ty} (h : ThroughTy R t u) : ThroughTy S u t := by
  induction h with
  | here h => exact .here (hS _ _ h)
  | leaf => exact .leaf
  | boxed _ h => exact .boxed h
  | maybe _ _ h1 h2 => exact .maybe h1 h2
  | paren _ h => exact .paren h
  | bracket _ h => exact .bracket h
  | brace _ h => exact .brace h
  | punctuated _ _ h1 h2 => exact .punctuated h1 h2
  | separated _ _ h1 h2 => exact .separated h1 h2
  | any _ h => exact .any h
  | leftAssoc _ _ h1 h2 => exact .leftAssoc h1 h2
  | rightAssoc _ _ h1 h2 => exact .rightAssoc h1 h2
  | either _ _ h1 h2 => exact .either h1 h2

theorem SameM.into {env env' : Env} {t u : Ty} (h : SameM env env' t u) : Into env env' t u := ⟨h.left, h.fails.mp⟩
theorem SameM.back {env env' : Env} {t u : Ty} (h : SameM env env' t u) : Into env' env u t := ⟨h.right, h.fails.mpr⟩

/-! ### whole programs -/

/-- The alternatives of the new declarations, read with the old declarations, give what the old declarations give. -/
structure Refold (env env' : Env) : Prop where
  hit : ∀ {x ts vs rest l}, MatchesAlts env (alternatives (env' x)) ts vs rest l → ∃ w, Matches env (.named x) ts w rest l ∧ w.toTokens = Val.toTokensL vs
  miss : ∀ {x ts}, NoMatchAlts env (alternatives (env' x)) ts → NoMatch env (.named x) ts

mutual

theorem refold_matches {env env' : Env} (H : Refold env env') : ∀ {t ts v rest l}, Matches env' t ts v rest l → ∃ w, Matches env t ts w rest l ∧ w.toTokens = v.toTokens
  | _, _, _, _, _, .leaf h => ⟨_, .leaf h, rfl⟩
  | _, _, _, _, _, .struct he h => by
    obtain ⟨ws, hw, e⟩ := refold_seq H h
    obtain ⟨w, hm, e'⟩ := H.hit ⟨[], _, [], by rw [he]; rfl, by simp, hw⟩
    exact ⟨w, hm, by simp only [Val.toTokens, e', e]⟩
  | _, _, _, _, _, .enum (before := before) (v := v) (after := after) he hb h => by
    obtain ⟨ws, hw, e⟩ := refold_seq H h
    obtain ⟨w, hm, e'⟩ := H.hit ⟨before.map fun v => fieldTypes v.fields, _, after.map fun v => fieldTypes v.fields, by rw [he]; simp [alternatives], (fun c hc => by
      obtain ⟨u, hu, rfl⟩ := List.mem_map.mp hc
      exact refold_noSeq H (hb u hu)), hw⟩
    exact ⟨w, hm, by simp only [Val.toTokens, e', e]⟩
  | _, _, _, _, _, .boxed h => have ⟨w, hw, e⟩ := refold_matches H h; ⟨w, .boxed hw, e⟩
  | _, _, _, _, _, .maybeSome h1 h2 =>
    have ⟨_, hw, e⟩ := refold_matches H h1
    have ⟨_, hw2, e2⟩ := refold_matches H h2
    ⟨_, .maybeSome hw hw2, by simp only [Val.toTokens, Val.toTokensL, e, e2]⟩
  | _, _, _, _, _, .maybeNone h => ⟨_, .maybeNone (refold_no H h), rfl⟩
  | _, _, _, _, _, .group hg hn h hu =>
    have ⟨_, hw, e⟩ := refold_matches H h
    ⟨_, .group hg hn hw hu, by simp only [Val.toTokens, e]⟩
  | _, _, _, _, _, .punctuated h => have ⟨_, hw, e⟩ := refold_toEnd H h; ⟨_, .punctuated hw, by simp only [Val.toTokens, e]⟩
  | _, _, _, _, _, .separated h1 h2 =>
    have ⟨_, hw, e⟩ := refold_matches H h1
    have ⟨_, hws, es⟩ := refold_tail H h2
    ⟨_, .separated hw hws, by simp only [Val.toTokens, Val.toTokensL, e, es]⟩
  | _, _, _, _, _, .any h => have ⟨_, hw, e⟩ := refold_many H h; ⟨_, .any hw, by simp only [Val.toTokens, e]⟩
  | _, _, _, _, _, .leftAssoc h1 h2 =>
    have ⟨_, hw, e⟩ := refold_matches H h1
    have ⟨_, hws, es⟩ := refold_tail H h2
    ⟨_, .leftAssoc hw hws, by simp only [leftTree_tokens, Val.toTokens, Val.toTokensL, e, es]⟩
  | _, _, _, _, _, .rightAssoc h1 h2 =>
    have ⟨_, hw, e⟩ := refold_matches H h1
    have ⟨_, hws, es⟩ := refold_tail H h2
    ⟨_, .rightAssoc hw hws, by simp only [rightTree_tokens, Val.toTokensL, e, es]⟩
  | _, _, _, _, _, .eitherLeft h => have ⟨_, hw, e⟩ := refold_matches H h; ⟨_, .eitherLeft hw, by simp only [Val.toTokens, Val.toTokensL, e]⟩
  | _, _, _, _, _, .eitherRight h1 h =>
    have ⟨_, hw, e⟩ := refold_matches H h
    ⟨_, .eitherRight (refold_no H h1) hw, by simp only [Val.toTokens, Val.toTokensL, e]⟩

theorem refold_seq {env env' : Env} (H : Refold env env') : ∀ {us ts vs rest l}, MatchesSeq env' us ts vs rest l →
    ∃ ws, MatchesSeq env us ts ws rest l ∧ Val.toTokensL ws = Val.toTokensL vs
  | _, _, _, _, _, .nil => ⟨_, .nil, rfl⟩
  | _, _, _, _, _, .cons h1 h2 =>
    have ⟨_, hw, e⟩ := refold_matches H h1
    have ⟨_, hws, es⟩ := refold_seq H h2
    ⟨_, .cons hw hws, by simp only [Val.toTokensL, e, es]⟩

theorem refold_toEnd {env env' : Env} (H : Refold env env') : ∀ {t p ts vs rest l}, MatchesToEnd env' t p ts vs rest l →
    ∃ ws, MatchesToEnd env t p ts ws rest l ∧ Val.toTokensL ws = Val.toTokensL vs
  | _, _, _, _, _, _, .done => ⟨_, .done, rfl⟩
  | _, _, _, _, _, _, .last hne h => have ⟨_, hw, e⟩ := refold_matches H h; ⟨_, .last hne hw, by simp only [Val.toTokensL, e]⟩
  | _, _, _, _, _, _, .more hne h1 hne' h2 h3 =>
    have ⟨_, hw, e⟩ := refold_matches H h1
    have ⟨_, hw2, e2⟩ := refold_matches H h2
    have ⟨_, hws, es⟩ := refold_toEnd H h3
    ⟨_, .more hne hw hne' hw2 hws, by simp only [Val.toTokensL, e, e2, es]⟩

theorem refold_tail {env env' : Env} (H : Refold env env') : ∀ {p t ts tail rest l}, MatchesTail env' p t ts tail rest l →
    ∃ tail', MatchesTail env p t ts tail' rest l ∧ Val.toTokensL (tail'.flatMap fun x => [x.1, x.2]) = Val.toTokensL (tail.flatMap fun x => [x.1, x.2])
  | _, _, _, _, _, _, .done h => ⟨_, .done (refold_no H h), rfl⟩
  | _, _, _, _, _, _, .more h1 h2 h3 =>
    have ⟨_, hw, e⟩ := refold_matches H h1
    have ⟨_, hw2, e2⟩ := refold_matches H h2
    have ⟨_, hws, es⟩ := refold_tail H h3
    ⟨_, .more hw hw2 hws, by simp only [List.flatMap_cons, List.cons_append, List.nil_append, Val.toTokensL, e, e2, es]⟩

theorem refold_many {env env' : Env} (H : Refold env env') : ∀ {t ts vs rest l}, MatchesMany env' t ts vs rest l →
    ∃ ws, MatchesMany env t ts ws rest l ∧ Val.toTokensL ws = Val.toTokensL vs
  | _, _, _, _, _, .done h => ⟨_, .done (refold_no H h), rfl⟩
  | _, _, _, _, _, .more h1 h2 =>
    have ⟨_, hw, e⟩ := refold_matches H h1
    have ⟨_, hws, es⟩ := refold_many H h2
    ⟨_, .more hw hws, by simp only [Val.toTokensL, e, es]⟩

theorem refold_no {env env' : Env} (H : Refold env env') : ∀ {t ts}, NoMatch env' t ts → NoMatch env t ts
  | _, _, .leaf h => .leaf h
  | _, _, .struct he h => H.miss (by
      rw [he]
      intro c hc
      have hc : c = _ := List.mem_singleton.mp hc
      subst hc
      exact refold_noSeq H h)
  | _, _, .enum he h => H.miss (by
      rw [he]
      intro c hc
      obtain ⟨u, hu, rfl⟩ := List.mem_map.mp hc
      exact refold_noSeq H (h u hu))
  | _, _, .boxed h => .boxed (refold_no H h)
  | _, _, .maybe h1 h2 => have ⟨_, hw, _⟩ := refold_matches H h1; .maybe hw (refold_no H h2)
  | _, _, .noGroup hg hn => .noGroup hg hn
  | _, _, .inGroup hg hn h => .inGroup hg hn (refold_no H h)
  | _, _, .punctuated h => .punctuated (refold_noToEnd H h)
  | _, _, .separatedHead h => .separatedHead (refold_no H h)
  | _, _, .separatedTail h1 h2 => have ⟨_, hw, _⟩ := refold_matches H h1; .separatedTail hw (refold_noTail H h2)
  | _, _, .leftAssocHead h => .leftAssocHead (refold_no H h)
  | _, _, .leftAssocTail h1 h2 => have ⟨_, hw, _⟩ := refold_matches H h1; .leftAssocTail hw (refold_noTail H h2)
  | _, _, .rightAssocHead h => .rightAssocHead (refold_no H h)
  | _, _, .rightAssocTail h1 h2 => have ⟨_, hw, _⟩ := refold_matches H h1; .rightAssocTail hw (refold_noTail H h2)
  | _, _, .either h1 h2 => .either (refold_no H h1) (refold_no H h2)

theorem refold_noSeq {env env' : Env} (H : Refold env env') : ∀ {us ts}, NoMatchSeq env' us ts → NoMatchSeq env us ts
  | _, _, .here h => .here (refold_no H h)
  | _, _, .later h1 h2 => have ⟨_, hw, _⟩ := refold_matches H h1; .later hw (refold_noSeq H h2)

theorem refold_noToEnd {env env' : Env} (H : Refold env env') : ∀ {t p ts}, NoMatchToEnd env' t p ts → NoMatchToEnd env t p ts
  | _, _, _, .item hne h => .item hne (refold_no H h)
  | _, _, _, .separator hne h1 hne' h2 => have ⟨_, hw, _⟩ := refold_matches H h1; .separator hne hw hne' (refold_no H h2)
  | _, _, _, .later hne h1 hne' h2 h3 =>
    have ⟨_, hw, _⟩ := refold_matches H h1
    have ⟨_, hw2, _⟩ := refold_matches H h2
    .later hne hw hne' hw2 (refold_noToEnd H h3)

theorem refold_noTail {env env' : Env} (H : Refold env env') : ∀ {p t ts}, NoMatchTail env' p t ts → NoMatchTail env p t ts
  | _, _, _, .here h1 h2 => have ⟨_, hw, _⟩ := refold_matches H h1; .here hw (refold_no H h2)
  | _, _, _, .later h1 h2 h3 =>
    have ⟨_, hw, _⟩ := refold_matches H h1
    have ⟨_, hw2, _⟩ := refold_matches H h2
    .later hw hw2 (refold_noTail H h3)

end

theorem refold_of {env env' : Env} {fresh : Text → Text} (h : Rewritten env env' fresh) : Refold env env' where
  hit {x ts vs rest l} hm := by
    rw [h.body] at hm
    obtain ⟨tag, hm⟩ := alts_matches (env := env) (x := fresh x) hm
    obtain ⟨w, hw, e⟩ := (sameM_of (h.same x)).right hm
    exact ⟨w, hw, by rw [e, Val.toTokens]⟩
  miss {x ts} hm := by
    rw [h.body] at hm
    exact (sameM_of (h.same x)).fails.mpr (noMatch_named.mpr hm)

end
end Parsel
