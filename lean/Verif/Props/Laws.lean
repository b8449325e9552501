import Verif.Spec.Laws
import Verif.Props.Peg

/-! C70: laws of grammars - rewriting a grammar without changing its language. -/

namespace Parsel
open Spec

section
variable [Ext]

/-- The same at the level of matches. -/
structure SameM (env env' : Env) (t u : Ty) : Prop where
  left : ∀ {ts v rest l}, Matches env t ts v rest l → ∃ w, Matches env' u ts w rest l ∧ w.toTokens = v.toTokens
  right : ∀ {ts w rest l}, Matches env' u ts w rest l → ∃ v, Matches env t ts v rest l ∧ v.toTokens = w.toTokens
  fails : ∀ {ts}, NoMatch env t ts ↔ NoMatch env' u ts

theorem SameM.grammar {env env' : Env} {t u : Ty} (h : SameM env env' t u) : SameGrammar env env' t u where
  left s v s' hp := by
    obtain ⟨rest, l, hm, rfl⟩ := C63_parses.mp hp
    obtain ⟨w, hw, ht⟩ := h.left hm
    exact ⟨w, C63_parses.mpr ⟨rest, l, hw, rfl⟩, ht⟩
  right s v s' hp := by
    obtain ⟨rest, l, hm, rfl⟩ := C63_parses.mp hp
    obtain ⟨w, hw, ht⟩ := h.right hm
    exact ⟨w, C63_parses.mpr ⟨rest, l, hw, rfl⟩, ht⟩
  fails s := by rw [C63_fails, C63_fails]; exact h.fails

theorem sameM_of {env env' : Env} {t u : Ty} (h : SameGrammar env env' t u) : SameM env env' t u where
  left {ts v rest l} hm := by
    obtain ⟨w, hw, ht⟩ := h.left ⟨ts, .callSite, none⟩ v _ (C63_parses.mpr ⟨rest, l, hm, rfl⟩)
    obtain ⟨r', l', h1, h2⟩ := C63_parses.mp hw
    injection h2 with e1 _ e2
    rw [Option.none_or, Option.none_or] at e2
    subst e1 e2
    exact ⟨w, h1, ht⟩
  right {ts v rest l} hm := by
    obtain ⟨w, hw, ht⟩ := h.right ⟨ts, .callSite, none⟩ v _ (C63_parses.mpr ⟨rest, l, hm, rfl⟩)
    obtain ⟨r', l', h1, h2⟩ := C63_parses.mp hw
    injection h2 with e1 _ e2
    rw [Option.none_or, Option.none_or] at e2
    subst e1 e2
    exact ⟨w, h1, ht⟩
  fails {ts} := by
    have := h.fails ⟨ts, .callSite, none⟩
    rw [C63_fails, C63_fails] at this
    exact this

theorem tokensL_append (a b : List Val) : Val.toTokensL (a ++ b) = (Val.toTokensL a).bind fun x => (Val.toTokensL b).map fun y => x ++ y := by
  induction a with
  | nil => simp [Val.toTokensL]
  | cons v a ih =>
    simp only [List.cons_append, Val.toTokensL, ih]
    cases v.toTokens with
    | none => rfl
    | some x =>
      cases Val.toTokensL a with
      | none => rfl
      | some y =>
        cases Val.toTokensL b with
        | none => rfl
        | some z => simp

theorem toTokensL_one (v : Val) : Val.toTokensL [v] = v.toTokens := by
  simp only [Val.toTokensL]
  cases v.toTokens <;> simp

theorem toTokensL_congr {a b : List Val} (h : a.map Val.toTokens = b.map Val.toTokens) : Val.toTokensL a = Val.toTokensL b := by
  induction a generalizing b with
  | nil => cases b with
    | nil => rfl
    | cons => cases h
  | cons v a ih => cases b with
    | nil => cases h
    | cons w b =>
      simp only [List.map_cons, List.cons.injEq] at h
      simp only [Val.toTokensL, h.1, ih h.2]

/-- The operators and operands of a tree in order. -/
theorem leftTree_tokens (acc : Val) (tail : List (Val × Val)) : (leftTree acc tail).toTokens = Val.toTokensL (acc :: tail.flatMap fun x => [x.1, x.2]) := by
  induction tail generalizing acc with
  | nil => exact (toTokensL_one acc).symm
  | cons x tail ih =>
    obtain ⟨op, r⟩ := x
    rw [leftTree, ih]
    simp only [List.flatMap_cons, List.cons_append, List.nil_append]
    rw [show acc :: op :: r :: tail.flatMap (fun x => [x.1, x.2]) = [acc, op, r] ++ tail.flatMap (fun x => [x.1, x.2]) from rfl, tokensL_append]
    rw [Val.toTokensL, Val.toTokens]

theorem rightTree_tokens (first : Val) (tail : List (Val × Val)) : (rightTree first tail).toTokens = Val.toTokensL (first :: tail.flatMap fun x => [x.1, x.2]) := by
  induction tail generalizing first with
  | nil => rfl
  | cons x tail ih =>
    obtain ⟨op, r⟩ := x
    rw [rightTree, Val.toTokens]
    simp only [List.flatMap_cons, List.cons_append, List.nil_append]
    simp only [Val.toTokensL, ih]
    cases first.toTokens <;> cases op.toTokens <;> cases r.toTokens <;> cases Val.toTokensL (tail.flatMap fun x => [x.1, x.2]) <;> simp

/-! ### an equivalence relation -/

/-- Exchangeability is an equivalence relation. -/
theorem C70_equivalence : (∀ env t, SameGrammar env env t t) ∧ (∀ env env' t u, SameGrammar env env' t u → SameGrammar env' env u t) ∧
    ∀ env env' env'' t u w, SameGrammar env env' t u → SameGrammar env' env'' u w → SameGrammar env env'' t w := by
  refine ⟨fun env t => ⟨fun s v s' h => ⟨v, h, rfl⟩, fun s v s' h => ⟨v, h, rfl⟩, fun s => Iff.rfl⟩,
    fun env env' t u h => ⟨h.right, h.left, fun s => (h.fails s).symm⟩, ?_⟩
  intro env env' env'' t u w h1 h2
  refine ⟨fun s v s' h => ?_, fun s v s' h => ?_, fun s => (h1.fails s).trans (h2.fails s)⟩
  · obtain ⟨a, ha, ta⟩ := h1.left s v s' h
    obtain ⟨b, hb, tb⟩ := h2.left s a s' ha
    exact ⟨b, hb, tb.trans ta⟩
  · obtain ⟨a, ha, ta⟩ := h2.right s v s' h
    obtain ⟨b, hb, tb⟩ := h1.right s a s' ha
    exact ⟨b, hb, tb.trans ta⟩

/-- Exchangeable types accept the same inputs, giving nodes that print the same, and reject the same inputs. -/
theorem C70_same_inputs {env env' : Env} {t u : Ty} (h : SameGrammar env env' t u) (ts : List TT) :
    (∀ v, Accepts env t ts v → ∃ w, Accepts env' u ts w ∧ w.toTokens = v.toTokens) ∧
    (∀ w, Accepts env' u ts w → ∃ v, Accepts env t ts v ∧ v.toTokens = w.toTokens) ∧
    ((∃ e, Rejects env t ts e) ↔ ∃ e, Rejects env' u ts e) := by
  have hm := sameM_of h
  refine ⟨fun v hv => ?_, fun v hv => ?_, ?_⟩
  · obtain ⟨rest, h1, h2⟩ := C63_accepts.mp hv
    obtain ⟨w, hw, ht⟩ := hm.left h1
    exact ⟨w, C63_accepts.mpr ⟨rest, hw, h2⟩, ht⟩
  · obtain ⟨rest, h1, h2⟩ := C63_accepts.mp hv
    obtain ⟨w, hw, ht⟩ := hm.right h1
    exact ⟨w, C63_accepts.mpr ⟨rest, hw, h2⟩, ht⟩
  · rw [C63_rejects, C63_rejects]
    constructor
    · rintro (h | ⟨v, rest, l, h1, h2⟩)
      · exact .inl (hm.fails.mp h)
      · obtain ⟨w, hw, _⟩ := hm.left h1; exact .inr ⟨w, rest, l, hw, h2⟩
    · rintro (h | ⟨v, rest, l, h1, h2⟩)
      · exact .inl (hm.fails.mpr h)
      · obtain ⟨w, hw, _⟩ := hm.right h1; exact .inr ⟨w, rest, l, hw, h2⟩

/-! ### the grammar, type by type -/

theorem matches_boxed {env : Env} {t : Ty} {ts : List TT} {v : Val} {rest : List TT} {l : Option Span} :
    Matches env (.boxed t) ts v rest l ↔ Matches env t ts v rest l :=
  ⟨(fun h => by
    cases h with
    | boxed h => exact h
    | group h => cases h), .boxed⟩

theorem noMatch_boxed {env : Env} {t : Ty} {ts : List TT} : NoMatch env (.boxed t) ts ↔ NoMatch env t ts :=
  ⟨(fun h => by
    cases h with
    | boxed h => exact h
    | noGroup h => cases h
    | inGroup h => cases h), .boxed⟩

theorem matches_either {env : Env} {a b : Ty} {ts : List TT} {v : Val} {rest : List TT} {l : Option Span} :
    Matches env (.either a b) ts v rest l ↔ (∃ w, v = .node .eitherLeft [w] ∧ Matches env a ts w rest l) ∨
      (∃ w, v = .node .eitherRight [w] ∧ NoMatch env a ts ∧ Matches env b ts w rest l) := by
  constructor
  · intro h
    cases h with
    | group h => cases h
    | eitherLeft h => exact .inl ⟨_, rfl, h⟩
    | eitherRight h1 h2 => exact .inr ⟨_, rfl, h1, h2⟩
  · rintro (⟨w, rfl, h⟩ | ⟨w, rfl, h1, h2⟩)
    · exact .eitherLeft h
    · exact .eitherRight h1 h2

theorem noMatch_either {env : Env} {a b : Ty} {ts : List TT} : NoMatch env (.either a b) ts ↔ NoMatch env a ts ∧ NoMatch env b ts := by
  constructor
  · intro h
    cases h with
    | noGroup h => cases h
    | inGroup h => cases h
    | either h1 h2 => exact ⟨h1, h2⟩
  · rintro ⟨h1, h2⟩; exact .either h1 h2

theorem matches_struct {env : Env} {x : Text} {f : Fields Ty} (he : env x = .struct f) {ts : List TT} {v : Val} {rest : List TT} {l : Option Span} :
    Matches env (.named x) ts v rest l ↔ ∃ vs, v = .node (.ctor x x) vs ∧ MatchesSeq env (fieldTypes f) ts vs rest l := by
  constructor
  · intro h
    cases h with
    | group h => cases h
    | struct he' h => rw [he] at he'; injection he' with he'; subst he'; exact ⟨_, rfl, h⟩
    | enum he' _ _ => rw [he] at he'; cases he'
  · rintro ⟨vs, rfl, h⟩; exact .struct he h

theorem noMatch_struct {env : Env} {x : Text} {f : Fields Ty} (he : env x = .struct f) {ts : List TT} :
    NoMatch env (.named x) ts ↔ NoMatchSeq env (fieldTypes f) ts := by
  constructor
  · intro h
    cases h with
    | noGroup h => cases h
    | inGroup h => cases h
    | struct he' h => rw [he] at he'; injection he' with he'; subst he'; exact h
    | enum he' _ => rw [he] at he'; cases he'
  · exact .struct he

theorem matches_enum {env : Env} {x : Text} {vs : List (VariantDef Ty)} (he : env x = .enum vs) {ts : List TT} {v : Val} {rest : List TT} {l : Option Span} :
    Matches env (.named x) ts v rest l ↔ ∃ before w after ws, vs = before ++ w :: after ∧ v = .node (.ctor x w.ident) ws ∧
      (∀ u ∈ before, NoMatchSeq env (fieldTypes u.fields) ts) ∧ MatchesSeq env (fieldTypes w.fields) ts ws rest l := by
  constructor
  · intro h
    cases h with
    | group h => cases h
    | struct he' h => rw [he] at he'; cases he'
    | enum he' h1 h2 => rw [he] at he'; injection he' with he'; exact ⟨_, _, _, _, he', rfl, h1, h2⟩
  · rintro ⟨before, w, after, ws, rfl, rfl, h1, h2⟩; exact .enum he h1 h2

theorem noMatch_enum {env : Env} {x : Text} {vs : List (VariantDef Ty)} (he : env x = .enum vs) {ts : List TT} :
    NoMatch env (.named x) ts ↔ ∀ v ∈ vs, NoMatchSeq env (fieldTypes v.fields) ts := by
  constructor
  · intro h
    cases h with
    | noGroup h => cases h
    | inGroup h => cases h
    | struct he' h => rw [he] at he'; cases he'
    | enum he' h => rw [he] at he'; injection he' with he'; subst he'; exact h
  · exact .enum he

theorem matchesSeq_nil {env : Env} {ts : List TT} {vs : List Val} {rest : List TT} {l : Option Span} :
    MatchesSeq env [] ts vs rest l ↔ vs = [] ∧ rest = ts ∧ l = none :=
  ⟨fun h => by cases h; exact ⟨rfl, rfl, rfl⟩, by rintro ⟨rfl, rfl, rfl⟩; exact .nil⟩

theorem matchesSeq_cons {env : Env} {t : Ty} {us : List Ty} {ts : List TT} {vs : List Val} {rest : List TT} {l : Option Span} :
    MatchesSeq env (t :: us) ts vs rest l ↔ ∃ v mid l1 ws l2, vs = v :: ws ∧ l = l1.or l2 ∧ Matches env t ts v mid l1 ∧ MatchesSeq env us mid ws rest l2 :=
  ⟨fun h => by cases h with | cons h1 h2 => exact ⟨_, _, _, _, _, rfl, rfl, h1, h2⟩, by rintro ⟨_, _, _, _, _, rfl, rfl, h1, h2⟩; exact .cons h1 h2⟩

theorem matchesSeq_one {env : Env} {t : Ty} {ts : List TT} {vs : List Val} {rest : List TT} {l : Option Span} :
    MatchesSeq env [t] ts vs rest l ↔ ∃ v, vs = [v] ∧ Matches env t ts v rest l := by
  rw [matchesSeq_cons]
  constructor
  · rintro ⟨v, mid, l1, ws, l2, rfl, rfl, h1, h2⟩
    obtain ⟨rfl, rfl, rfl⟩ := matchesSeq_nil.mp h2
    exact ⟨v, rfl, by rw [Option.or_none]; exact h1⟩
  · rintro ⟨v, rfl, h⟩
    exact ⟨v, rest, l, [], none, rfl, by rw [Option.or_none], h, .nil⟩

theorem matchesSeq_append {env : Env} {us ws : List Ty} {ts : List TT} {vs : List Val} {rest : List TT} {l : Option Span} :
    MatchesSeq env (us ++ ws) ts vs rest l ↔ ∃ v1 v2 mid l1 l2, vs = v1 ++ v2 ∧ l = l1.or l2 ∧ MatchesSeq env us ts v1 mid l1 ∧ MatchesSeq env ws mid v2 rest l2 := by
  induction us generalizing ts vs l with
  | nil =>
    constructor
    · intro h; exact ⟨[], vs, ts, none, l, rfl, by simp, .nil, h⟩
    · rintro ⟨v1, v2, mid, l1, l2, rfl, rfl, h1, h2⟩
      obtain ⟨rfl, rfl, rfl⟩ := matchesSeq_nil.mp h1
      simpa using h2
  | cons t us ih =>
    rw [List.cons_append, matchesSeq_cons]
    constructor
    · rintro ⟨v, mid, l1, vs', l2, rfl, rfl, h1, h2⟩
      obtain ⟨v1, v2, mid', l1', l2', rfl, rfl, h3, h4⟩ := ih.mp h2
      exact ⟨v :: v1, v2, mid', l1.or l1', l2', rfl, by rw [Option.or_assoc], .cons h1 h3, h4⟩
    · rintro ⟨v1, v2, mid, l1, l2, rfl, rfl, h1, h2⟩
      obtain ⟨v, mid', la, ws', lb, rfl, rfl, h3, h4⟩ := matchesSeq_cons.mp h1
      exact ⟨v, mid', la, ws' ++ v2, lb.or l2, rfl, by rw [Option.or_assoc], h3, ih.mpr ⟨ws', v2, mid, lb, l2, rfl, rfl, h4, h2⟩⟩

theorem noMatchSeq_nil {env : Env} {ts : List TT} : ¬ NoMatchSeq env [] ts := fun h => by cases h

theorem noMatchSeq_cons {env : Env} {t : Ty} {us : List Ty} {ts : List TT} :
    NoMatchSeq env (t :: us) ts ↔ NoMatch env t ts ∨ ∃ v mid l, Matches env t ts v mid l ∧ NoMatchSeq env us mid := by
  constructor
  · intro h
    cases h with
    | here h => exact .inl h
    | later h1 h2 => exact .inr ⟨_, _, _, h1, h2⟩
  · rintro (h | ⟨_, _, _, h1, h2⟩)
    · exact .here h
    · exact .later h1 h2

theorem noMatchSeq_one {env : Env} {t : Ty} {ts : List TT} : NoMatchSeq env [t] ts ↔ NoMatch env t ts := by
  rw [noMatchSeq_cons]
  exact ⟨fun h => h.elim id fun ⟨_, _, _, _, h⟩ => absurd h noMatchSeq_nil, .inl⟩

theorem noMatchSeq_append {env : Env} {us ws : List Ty} {ts : List TT} :
    NoMatchSeq env (us ++ ws) ts ↔ NoMatchSeq env us ts ∨ ∃ v mid l, MatchesSeq env us ts v mid l ∧ NoMatchSeq env ws mid := by
  induction us generalizing ts with
  | nil =>
    constructor
    · intro h; exact .inr ⟨[], ts, none, .nil, h⟩
    · rintro (h | ⟨v, mid, l, h1, h2⟩)
      · exact absurd h noMatchSeq_nil
      · obtain ⟨_, rfl, _⟩ := matchesSeq_nil.mp h1; exact h2
  | cons t us ih =>
    rw [List.cons_append, noMatchSeq_cons, noMatchSeq_cons]
    constructor
    · rintro (h | ⟨v, mid, l, h1, h2⟩)
      · exact .inl (.inl h)
      · rcases ih.mp h2 with h | ⟨v', mid', l', h3, h4⟩
        · exact .inl (.inr ⟨v, mid, l, h1, h⟩)
        · exact .inr ⟨v :: v', mid', l.or l', .cons h1 h3, h4⟩
    · rintro ((h | ⟨v, mid, l, h1, h2⟩) | ⟨v, mid, l, h1, h2⟩)
      · exact .inl h
      · exact .inr ⟨v, mid, l, h1, ih.mpr (.inl h2)⟩
      · obtain ⟨v', mid', la, ws', lb, rfl, rfl, h3, h4⟩ := matchesSeq_cons.mp h1
        exact .inr ⟨v', mid', la, h3, ih.mpr (.inr ⟨ws', mid, lb, h4, h2⟩)⟩

theorem matchesSeq_unique {env : Env} {us : List Ty} {ts : List TT} {vs ws : List Val} {rest rest' : List TT} {l l' : Option Span}
    (h : MatchesSeq env us ts vs rest l) (h' : MatchesSeq env us ts ws rest' l') : ws = vs ∧ rest' = rest ∧ l' = l := by
  induction us generalizing ts vs ws l l' with
  | nil =>
    obtain ⟨rfl, rfl, rfl⟩ := matchesSeq_nil.mp h
    exact matchesSeq_nil.mp h'
  | cons t us ih =>
    obtain ⟨v, mid, la, vs', lb, rfl, rfl, h3, h4⟩ := matchesSeq_cons.mp h
    obtain ⟨v', mid', la', vs'', lb', rfl, rfl, h5, h6⟩ := matchesSeq_cons.mp h'
    obtain ⟨rfl, rfl, rfl⟩ := (C63_deterministic h3).1 _ _ _ h5
    obtain ⟨rfl, rfl, rfl⟩ := ih h4 h6
    exact ⟨rfl, rfl, rfl⟩

theorem matchesSeq_not {env : Env} {us : List Ty} {ts : List TT} {vs : List Val} {rest : List TT} {l : Option Span}
    (h : MatchesSeq env us ts vs rest l) : ¬ NoMatchSeq env us ts := by
  induction us generalizing ts vs l with
  | nil => exact noMatchSeq_nil
  | cons t us ih =>
    obtain ⟨v, mid, la, vs', lb, rfl, rfl, h3, h4⟩ := matchesSeq_cons.mp h
    rw [noMatchSeq_cons]
    rintro (h | ⟨v', mid', l', h5, h6⟩)
    · exact (C63_deterministic h3).2 h
    · obtain ⟨rfl, rfl, rfl⟩ := (C63_deterministic h3).1 _ _ _ h5
      exact ih h4 h6

/-! ### laws -/

/-- **C70** (`Box`). `Box<T>` is `T`. -/
theorem C70_box (env : Env) (t : Ty) : SameGrammar env env (.boxed t) t := SameM.grammar
  { left := fun h => ⟨_, matches_boxed.mp h, rfl⟩
    right := fun h => ⟨_, matches_boxed.mpr h, rfl⟩
    fails := noMatch_boxed }

/-- **C70** (newtypes). A struct with one field is the type of the field. -/
theorem C70_newtype {env : Env} {x : Text} {f : Fields Ty} {t : Ty} (he : env x = .struct f) (hf : fieldTypes f = [t]) : SameGrammar env env (.named x) t := SameM.grammar
  { left := fun h => by
      obtain ⟨vs, rfl, h'⟩ := (matches_struct he).mp h
      rw [hf, matchesSeq_one] at h'
      obtain ⟨v, rfl, h''⟩ := h'
      exact ⟨v, h'', (toTokensL_one v).symm⟩
    right := fun {ts w rest l} h => ⟨_, (matches_struct he).mpr ⟨[w], rfl, by rw [hf, matchesSeq_one]; exact ⟨w, rfl, h⟩⟩, toTokensL_one w⟩
    fails := by intro ts; rw [noMatch_struct he, hf, noMatchSeq_one] }

/-- **C70** (sequences with operators). `Separated<T, O>`, `LeftAssoc<O, T>` and `RightAssoc<O, T>` are the same grammar, they only differ in the trees they
build. -/
theorem C70_left_separated (env : Env) (o t : Ty) : SameGrammar env env (.leftAssoc o t) (.separated t o) := SameM.grammar
  { left := fun h => by
      cases h with
      | group h => cases h
      | leftAssoc h1 h2 =>
        refine ⟨_, .separated h1 h2, ?_⟩
        rw [leftTree_tokens, Val.toTokens, Val.toTokensL, Val.toTokensL, Val.toTokens, toTokensL_one]
    right := fun h => by
      cases h with
      | group h => cases h
      | separated h1 h2 =>
        refine ⟨_, .leftAssoc h1 h2, ?_⟩
        rw [leftTree_tokens, Val.toTokens, Val.toTokensL, Val.toTokensL, Val.toTokens, toTokensL_one]
    fails := ⟨fun h => by
      cases h with
      | noGroup h => cases h
      | inGroup h => cases h
      | leftAssocHead h => exact .separatedHead h
      | leftAssocTail h1 h2 => exact .separatedTail h1 h2, fun h => by
      cases h with
      | noGroup h => cases h
      | inGroup h => cases h
      | separatedHead h => exact .leftAssocHead h
      | separatedTail h1 h2 => exact .leftAssocTail h1 h2⟩ }

theorem C70_right_separated (env : Env) (o t : Ty) : SameGrammar env env (.rightAssoc o t) (.separated t o) := SameM.grammar
  { left := fun h => by
      cases h with
      | group h => cases h
      | rightAssoc h1 h2 => exact ⟨_, .separated h1 h2, by rw [rightTree_tokens, Val.toTokens]⟩
    right := fun h => by
      cases h with
      | group h => cases h
      | separated h1 h2 => exact ⟨_, .rightAssoc h1 h2, by rw [rightTree_tokens, Val.toTokens]⟩
    fails := ⟨fun h => by
      cases h with
      | noGroup h => cases h
      | inGroup h => cases h
      | rightAssocHead h => exact .separatedHead h
      | rightAssocTail h1 h2 => exact .separatedTail h1 h2, fun h => by
      cases h with
      | noGroup h => cases h
      | inGroup h => cases h
      | separatedHead h => exact .rightAssocHead h
      | separatedTail h1 h2 => exact .rightAssocTail h1 h2⟩ }

/-- **C70** (choice). `Either<A, B>` is an enum with two variants of one field each. -/
theorem C70_either_enum {env : Env} {x : Text} {u w : VariantDef Ty} {a b : Ty} (he : env x = .enum [u, w]) (hu : fieldTypes u.fields = [a])
    (hw : fieldTypes w.fields = [b]) : SameGrammar env env (.either a b) (.named x) := SameM.grammar
  { left := fun h => by
      rcases matches_either.mp h with ⟨v, rfl, h'⟩ | ⟨v, rfl, h1, h2⟩
      · exact ⟨_, (matches_enum he).mpr ⟨[], u, [w], [v], rfl, rfl, by simp, by rw [hu, matchesSeq_one]; exact ⟨v, rfl, h'⟩⟩, rfl⟩
      · exact ⟨_, (matches_enum he).mpr ⟨[u], w, [], [v], rfl, rfl, by simp only [List.mem_singleton, forall_eq, hu, noMatchSeq_one]; exact h1,
          by rw [hw, matchesSeq_one]; exact ⟨v, rfl, h2⟩⟩, rfl⟩
    right := fun h => by
      obtain ⟨before, y, after, ws, e, rfl, h1, h2⟩ := (matches_enum he).mp h
      match before, e, h1 with
      | [], e, _ =>
        injection e with e1 e2; subst e1
        rw [hu, matchesSeq_one] at h2
        obtain ⟨v, rfl, h2⟩ := h2
        exact ⟨_, .eitherLeft h2, rfl⟩
      | [u'], e, h1 =>
        injection e with e1 e2; injection e2 with e2 _; subst e1 e2
        rw [hw, matchesSeq_one] at h2
        obtain ⟨v, rfl, h2⟩ := h2
        have := h1 u (.head _)
        rw [hu, noMatchSeq_one] at this
        exact ⟨_, .eitherRight this h2, rfl⟩
      | _ :: _ :: before, e, _ =>
        have := congrArg List.length e
        simp at this
    fails := by
      intro ts
      rw [noMatch_either, noMatch_enum he]
      simp only [List.mem_cons, List.not_mem_nil, or_false, forall_eq_or_imp, forall_eq, hu, hw, noMatchSeq_one] }

/-- **C70** (choice is associative). -/
theorem C70_either_assoc (env : Env) (a b c : Ty) : SameGrammar env env (.either (.either a b) c) (.either a (.either b c)) := SameM.grammar
  { left := fun h => by
      rcases matches_either.mp h with ⟨v, rfl, h'⟩ | ⟨v, rfl, h1, h2⟩
      · rcases matches_either.mp h' with ⟨v, rfl, h''⟩ | ⟨v, rfl, h1, h2⟩
        · exact ⟨_, .eitherLeft h'', by simp only [Val.toTokens, toTokensL_one]⟩
        · exact ⟨_, .eitherRight h1 (.eitherLeft h2), by simp only [Val.toTokens, toTokensL_one]⟩
      · rw [noMatch_either] at h1
        exact ⟨_, .eitherRight h1.1 (.eitherRight h1.2 h2), by simp only [Val.toTokens, toTokensL_one]⟩
    right := fun h => by
      rcases matches_either.mp h with ⟨v, rfl, h'⟩ | ⟨v, rfl, h1, h2⟩
      · exact ⟨_, .eitherLeft (.eitherLeft h'), by simp only [Val.toTokens, toTokensL_one]⟩
      · rcases matches_either.mp h2 with ⟨v, rfl, h'⟩ | ⟨v, rfl, h3, h4⟩
        · exact ⟨_, .eitherLeft (.eitherRight h1 h'), by simp only [Val.toTokens, toTokensL_one]⟩
        · exact ⟨_, .eitherRight (.either h1 h3) h4, by simp only [Val.toTokens, toTokensL_one]⟩
    fails := by intro ts; simp only [noMatch_either, and_assoc] }

/-- **C70** (choice is idempotent). -/
theorem C70_either_same (env : Env) (a : Ty) : SameGrammar env env (.either a a) a := SameM.grammar
  { left := fun h => by
      rcases matches_either.mp h with ⟨v, rfl, h'⟩ | ⟨v, rfl, h1, h2⟩
      · exact ⟨_, h', by simp only [Val.toTokens, toTokensL_one]⟩
      · exact absurd h1 (C63_deterministic h2).2
    right := fun h => ⟨_, .eitherLeft h, by simp only [Val.toTokens, toTokensL_one]⟩
    fails := by intro ts; simp only [noMatch_either, and_self] }

theorem matches_empty {env : Env} {ts : List TT} {v : Val} {rest : List TT} {l : Option Span} :
    Matches env (.leaf .empty) ts v rest l ↔ v = .leaf .empty .unit ∧ rest = ts ∧ l = none := by
  constructor
  · intro h
    cases h with
    | group h => cases h
    | leaf h => cases h; exact ⟨rfl, rfl, rfl⟩
  · rintro ⟨rfl, rfl, rfl⟩; exact .leaf .empty

theorem noMatch_empty {env : Env} {ts : List TT} : ¬ NoMatch env (.leaf .empty) ts := (C63_deterministic (.leaf (.empty (ts := ts)))).2

theorem matches_maybe {env : Env} {p t : Ty} {ts : List TT} {v : Val} {rest : List TT} {l : Option Span} :
    Matches env (.maybe p t) ts v rest l ↔ (∃ a mid l1 b l2, v = .node .maybe [a, b] ∧ l = l1.or l2 ∧ Matches env p ts a mid l1 ∧ Matches env t mid b rest l2) ∨
      (v = .node .maybe [] ∧ rest = ts ∧ l = none ∧ NoMatch env p ts) := by
  constructor
  · intro h
    cases h with
    | group h => cases h
    | maybeSome h1 h2 => exact .inl ⟨_, _, _, _, _, rfl, rfl, h1, h2⟩
    | maybeNone h => exact .inr ⟨rfl, rfl, rfl, h⟩
  · rintro (⟨_, _, _, _, _, rfl, rfl, h1, h2⟩ | ⟨rfl, rfl, rfl, h⟩)
    · exact .maybeSome h1 h2
    · exact .maybeNone h

theorem noMatch_maybe {env : Env} {p t : Ty} {ts : List TT} : NoMatch env (.maybe p t) ts ↔ ∃ a mid l1, Matches env p ts a mid l1 ∧ NoMatch env t mid := by
  constructor
  · intro h
    cases h with
    | noGroup h => cases h
    | inGroup h => cases h
    | maybe h1 h2 => exact ⟨_, _, _, h1, h2⟩
  · rintro ⟨_, _, _, h1, h2⟩; exact .maybe h1 h2

@[simp] theorem emptyLeaf_tokens : leafToTokens .empty .unit = some [] := rfl
theorem empty_tokens : (Val.leaf .empty .unit).toTokens = some [] := rfl

/-- **C70** (`Maybe` without contents). `Maybe<P, Empty>` is `Either<P, Empty>`. -/
theorem C70_maybe_empty (env : Env) (p : Ty) : SameGrammar env env (.maybe p (.leaf .empty)) (.either p (.leaf .empty)) := SameM.grammar
  { left := fun {ts v rest l} h => by
      rcases matches_maybe.mp h with ⟨a, mid, l1, b, l2, rfl, rfl, h1, h2⟩ | ⟨rfl, rfl, rfl, h'⟩
      · obtain ⟨rfl, rfl, rfl⟩ := matches_empty.mp h2
        rw [Option.or_none]
        exact ⟨_, .eitherLeft h1, by simp [Val.toTokens, Val.toTokensL, empty_tokens]⟩
      · exact ⟨_, .eitherRight h' (.leaf .empty), by simp [Val.toTokens, Val.toTokensL, empty_tokens]⟩
    right := fun {ts v rest l} h => by
      rcases matches_either.mp h with ⟨v, rfl, h'⟩ | ⟨v, rfl, h1, h2⟩
      · exact ⟨_, matches_maybe.mpr (.inl ⟨v, rest, l, _, none, rfl, by rw [Option.or_none], h', .leaf .empty⟩), by simp [Val.toTokens, Val.toTokensL, empty_tokens]⟩
      · obtain ⟨rfl, rfl, rfl⟩ := matches_empty.mp h2
        exact ⟨_, .maybeNone h1, by simp [Val.toTokens, Val.toTokensL, empty_tokens]⟩
    fails := by
      intro ts
      rw [noMatch_either, noMatch_maybe]
      constructor
      · rintro ⟨_, _, _, _, h⟩; exact absurd h noMatch_empty
      · rintro ⟨_, h⟩; exact absurd h noMatch_empty }

/-! ### declarations -/

/-- The first of the alternatives that matches. -/
def MatchesAlts (env : Env) (alts : List (List Ty)) (ts : List TT) (vs : List Val) (rest : List TT) (l : Option Span) : Prop :=
  ∃ before us after, alts = before ++ us :: after ∧ (∀ u ∈ before, NoMatchSeq env u ts) ∧ MatchesSeq env us ts vs rest l

def NoMatchAlts (env : Env) (alts : List (List Ty)) (ts : List TT) : Prop := ∀ u ∈ alts, NoMatchSeq env u ts

theorem matches_named {env : Env} {x : Text} {ts : List TT} {v : Val} {rest : List TT} {l : Option Span} :
    Matches env (.named x) ts v rest l → ∃ tag vs, v = .node tag vs ∧ MatchesAlts env (alternatives (env x)) ts vs rest l := by
  intro h
  cases he : env x with
  | struct f =>
    obtain ⟨vs, rfl, h'⟩ := (matches_struct he).mp h
    exact ⟨_, vs, rfl, [], _, [], rfl, by simp, h'⟩
  | enum ws =>
    obtain ⟨before, w, after, vs, rfl, rfl, h1, h2⟩ := (matches_enum he).mp h
    refine ⟨_, vs, rfl, before.map fun v => fieldTypes v.fields, _, after.map fun v => fieldTypes v.fields, by simp [alternatives], ?_, h2⟩
    intro u hu
    obtain ⟨w', hw, rfl⟩ := List.mem_map.mp hu
    exact h1 w' hw

theorem alts_matches {env : Env} {x : Text} {ts : List TT} {vs : List Val} {rest : List TT} {l : Option Span}
    (h : MatchesAlts env (alternatives (env x)) ts vs rest l) : ∃ tag, Matches env (.named x) ts (.node tag vs) rest l := by
  obtain ⟨before, us, after, ha, hb, hm⟩ := h
  cases he : env x with
  | struct f =>
    rw [he, alternatives] at ha
    match before, ha, hb with
    | [], ha, _ =>
      injection ha with ha _
      subst ha
      exact ⟨_, .struct he hm⟩
    | _ :: b, ha, _ =>
      have := congrArg List.length ha
      simp at this
  | enum ws =>
    rw [he, alternatives] at ha
    obtain ⟨b, a, rfl, rfl, ha'⟩ := List.map_eq_append_iff.mp ha
    obtain ⟨w, a', rfl, rfl, rfl⟩ := List.map_eq_cons_iff.mp ha'
    exact ⟨_, .enum he (fun u hu => hb _ (List.mem_map.mpr ⟨u, hu, rfl⟩)) hm⟩

theorem noMatch_named {env : Env} {x : Text} {ts : List TT} : NoMatch env (.named x) ts ↔ NoMatchAlts env (alternatives (env x)) ts := by
  cases he : env x with
  | struct f => rw [noMatch_struct he]; simp [NoMatchAlts, alternatives]
  | enum ws => rw [noMatch_enum he]; simp [NoMatchAlts, alternatives]

/-- Exchangeable lists of alternatives. -/
structure SameAlts (env env' : Env) (as bs : List (List Ty)) : Prop where
  left : ∀ {ts vs rest l}, MatchesAlts env as ts vs rest l → ∃ ws, MatchesAlts env' bs ts ws rest l ∧ Val.toTokensL ws = Val.toTokensL vs
  right : ∀ {ts vs rest l}, MatchesAlts env' bs ts vs rest l → ∃ ws, MatchesAlts env as ts ws rest l ∧ Val.toTokensL ws = Val.toTokensL vs
  fails : ∀ {ts}, NoMatchAlts env as ts ↔ NoMatchAlts env' bs ts

theorem SameAlts.grammar {env env' : Env} {x y : Text} (h : SameAlts env env' (alternatives (env x)) (alternatives (env' y))) :
    SameGrammar env env' (.named x) (.named y) := SameM.grammar
  { left := fun hm => by
      obtain ⟨tag, vs, rfl, hm'⟩ := matches_named hm
      obtain ⟨ws, hw, ht⟩ := h.left hm'
      obtain ⟨tag', hw'⟩ := alts_matches hw
      exact ⟨_, hw', ht⟩
    right := fun hm => by
      obtain ⟨tag, vs, rfl, hm'⟩ := matches_named hm
      obtain ⟨ws, hw, ht⟩ := h.right hm'
      obtain ⟨tag', hw'⟩ := alts_matches hw
      exact ⟨_, hw', ht⟩
    fails := by intro ts; rw [noMatch_named, noMatch_named]; exact h.fails }

theorem SameAlts.refl (env : Env) (as : List (List Ty)) : SameAlts env env as as := ⟨fun h => ⟨_, h, rfl⟩, fun h => ⟨_, h, rfl⟩, Iff.rfl⟩
theorem SameAlts.symm {env env' : Env} {as bs : List (List Ty)} (h : SameAlts env env' as bs) : SameAlts env' env bs as := ⟨h.right, h.left, h.fails.symm⟩

theorem matchesAlts_append {env : Env} {as bs : List (List Ty)} {ts : List TT} {vs : List Val} {rest : List TT} {l : Option Span} :
    MatchesAlts env (as ++ bs) ts vs rest l ↔ MatchesAlts env as ts vs rest l ∨ (NoMatchAlts env as ts ∧ MatchesAlts env bs ts vs rest l) := by
  constructor
  · rintro ⟨before, us, after, ha, hb, hm⟩
    rcases List.append_eq_append_iff.mp ha with ⟨c, rfl, h⟩ | ⟨c, rfl, h⟩
    · exact .inr ⟨fun u hu => hb u (List.mem_append_left _ hu), c, us, after, h, fun u hu => hb u (List.mem_append_right _ hu), hm⟩
    · cases c with
      | nil =>
        simp only [List.nil_append] at h
        exact .inr ⟨fun u hu => hb u (by simpa using hu), [], us, after, h.symm, by simp, hm⟩
      | cons c1 c =>
        injection h with h1 h2
        subst h1
        exact .inl ⟨before, us, c, rfl, hb, hm⟩
  · rintro (⟨before, us, after, rfl, hb, hm⟩ | ⟨ha, before, us, after, rfl, hb, hm⟩)
    · exact ⟨before, us, after ++ bs, by simp, hb, hm⟩
    · refine ⟨as ++ before, us, after, by simp, ?_, hm⟩
      intro u hu
      rcases List.mem_append.mp hu with hu | hu
      · exact ha u hu
      · exact hb u hu

theorem noMatchAlts_append {env : Env} {as bs : List (List Ty)} {ts : List TT} : NoMatchAlts env (as ++ bs) ts ↔ NoMatchAlts env as ts ∧ NoMatchAlts env bs ts := by
  simp only [NoMatchAlts, List.mem_append, or_imp, forall_and]

theorem SameAlts.append {env env' : Env} {as bs as' bs' : List (List Ty)} (h : SameAlts env env' as bs) (h' : SameAlts env env' as' bs') :
    SameAlts env env' (as ++ as') (bs ++ bs') where
  left hm := by
    rcases matchesAlts_append.mp hm with hm | ⟨h1, hm⟩
    · obtain ⟨ws, hw, ht⟩ := h.left hm
      exact ⟨ws, matchesAlts_append.mpr (.inl hw), ht⟩
    · obtain ⟨ws, hw, ht⟩ := h'.left hm
      exact ⟨ws, matchesAlts_append.mpr (.inr ⟨h.fails.mp h1, hw⟩), ht⟩
  right hm := by
    rcases matchesAlts_append.mp hm with hm | ⟨h1, hm⟩
    · obtain ⟨ws, hw, ht⟩ := h.right hm
      exact ⟨ws, matchesAlts_append.mpr (.inl hw), ht⟩
    · obtain ⟨ws, hw, ht⟩ := h'.right hm
      exact ⟨ws, matchesAlts_append.mpr (.inr ⟨h.fails.mpr h1, hw⟩), ht⟩
  fails := by intro ts; rw [noMatchAlts_append, noMatchAlts_append, h.fails, h'.fails]

theorem matchesAlts_one {env : Env} {us : List Ty} {ts : List TT} {vs : List Val} {rest : List TT} {l : Option Span} :
    MatchesAlts env [us] ts vs rest l ↔ MatchesSeq env us ts vs rest l := by
  constructor
  · rintro ⟨before, us', after, ha, _, hm⟩
    match before, ha with
    | [], ha => injection ha with ha _; subst ha; exact hm
    | _ :: b, ha => have := congrArg List.length ha; simp at this
  · intro h; exact ⟨[], us, [], rfl, by simp, h⟩

theorem noMatchAlts_one {env : Env} {us : List Ty} {ts : List TT} : NoMatchAlts env [us] ts ↔ NoMatchSeq env us ts := by simp [NoMatchAlts]

theorem matchesAlts_nil {env : Env} {ts : List TT} {vs : List Val} {rest : List TT} {l : Option Span} : ¬ MatchesAlts env [] ts vs rest l := by
  rintro ⟨b, u, a, h, _⟩
  simp at h

theorem matchesAlts_cons {env : Env} {us : List Ty} {as : List (List Ty)} {ts : List TT} {vs : List Val} {rest : List TT} {l : Option Span} :
    MatchesAlts env (us :: as) ts vs rest l ↔ MatchesSeq env us ts vs rest l ∨ (NoMatchSeq env us ts ∧ MatchesAlts env as ts vs rest l) := by
  rw [show us :: as = [us] ++ as from rfl, matchesAlts_append, matchesAlts_one, noMatchAlts_one]

theorem noMatchAlts_cons {env : Env} {us : List Ty} {as : List (List Ty)} {ts : List TT} :
    NoMatchAlts env (us :: as) ts ↔ NoMatchSeq env us ts ∧ NoMatchAlts env as ts := by
  simp only [NoMatchAlts, List.mem_cons, forall_eq_or_imp]

/-- Replacing the middle of a list of alternatives. -/
theorem SameAlts.middle {env env' : Env} {a b : List (List Ty)} {x y : Text} {as bs : List (List Ty)} (hx : alternatives (env x) = a ++ as ++ b)
    (hy : alternatives (env' y) = a ++ bs ++ b) (ha : SameAlts env env' a a) (hb : SameAlts env env' b b) (h : SameAlts env env' as bs) :
    SameGrammar env env' (.named x) (.named y) := by
  apply SameAlts.grammar
  rw [hx, hy]
  exact (ha.append h).append hb

/-- **C70** (names). Declarations with the same alternatives are the same grammar: the names of types, variants and fields do not matter, nor does the kind
of fields; a struct is the same as an enum with one variant. -/
theorem C70_names {env : Env} {x y : Text} (h : alternatives (env x) = alternatives (env y)) : SameGrammar env env (.named x) (.named y) := by
  apply SameAlts.grammar
  rw [h]
  exact .refl env _

/-- **C70** (nested structs). A field whose type is a struct can be replaced by the fields of this struct. -/
theorem C70_nested_struct {env : Env} {x x' y : Text} {a b : List (List Ty)} {us ws : List Ty} {f : Fields Ty} (hy : env y = .struct f)
    (hx : alternatives (env x) = a ++ [us ++ .named y :: ws] ++ b) (hx' : alternatives (env x') = a ++ [us ++ (fieldTypes f ++ ws)] ++ b) :
    SameGrammar env env (.named x) (.named x') := by
  refine SameAlts.middle hx hx' (.refl _ _) (.refl _ _) ⟨fun h => ?_, fun h => ?_, fun {ts} => ?_⟩
  · simp only [matchesAlts_one, matchesSeq_append, matchesSeq_cons, matches_struct hy] at h ⊢
    obtain ⟨v1, v2, mid, l1, l2, rfl, rfl, h1, v, mid', l1', vs, l2', rfl, rfl, ⟨vs', rfl, h2⟩, h3⟩ := h
    refine ⟨_, ⟨v1, _, mid, l1, _, rfl, rfl, h1, vs', vs, mid', l1', l2', rfl, rfl, h2, h3⟩, ?_⟩
    simp only [tokensL_append, Val.toTokensL, Val.toTokens]
  · simp only [matchesAlts_one, matchesSeq_append, matchesSeq_cons, matches_struct hy] at h ⊢
    obtain ⟨v1, v2, mid, l1, l2, rfl, rfl, h1, vs', vs, mid', l1', l2', rfl, rfl, h2, h3⟩ := h
    refine ⟨_, ⟨v1, _, mid, l1, _, rfl, rfl, h1, _, mid', l1', vs, l2', rfl, rfl, ⟨vs', rfl, h2⟩, h3⟩, ?_⟩
    simp only [tokensL_append, Val.toTokensL, Val.toTokens]
  · simp only [noMatchAlts_one, noMatchSeq_append, noMatchSeq_cons, noMatch_struct hy, matches_struct hy]
    refine or_congr Iff.rfl ⟨?_, ?_⟩
    · rintro ⟨v, mid, l, h1, h2 | ⟨_, mid', l', ⟨vs, rfl, h2⟩, h3⟩⟩
      · exact ⟨v, mid, l, h1, .inl h2⟩
      · exact ⟨v, mid, l, h1, .inr ⟨vs, mid', l', h2, h3⟩⟩
    · rintro ⟨v, mid, l, h1, h2 | ⟨vs, mid', l', h2, h3⟩⟩
      · exact ⟨v, mid, l, h1, .inl h2⟩
      · exact ⟨v, mid, l, h1, .inr ⟨_, mid', l', ⟨vs, rfl, h2⟩, h3⟩⟩

/-- **C70** (nested enums). A variant with one field whose type is an enum (or a struct) can be replaced by the variants of this enum. -/
theorem C70_nested_enum {env : Env} {x x' y : Text} {a b : List (List Ty)} (hx : alternatives (env x) = a ++ [[.named y]] ++ b)
    (hx' : alternatives (env x') = a ++ alternatives (env y) ++ b) : SameGrammar env env (.named x) (.named x') := by
  refine SameAlts.middle hx hx' (.refl _ _) (.refl _ _) ⟨fun h => ?_, fun h => ?_, fun {ts} => ?_⟩
  · rw [matchesAlts_one, matchesSeq_one] at h
    obtain ⟨v, rfl, h⟩ := h
    obtain ⟨tag, vs, rfl, h'⟩ := matches_named h
    exact ⟨vs, h', by rw [toTokensL_one, Val.toTokens]⟩
  · obtain ⟨tag, h'⟩ := alts_matches h
    exact ⟨[_], matchesAlts_one.mpr (matchesSeq_one.mpr ⟨_, rfl, h'⟩), by rw [toTokensL_one, Val.toTokens]⟩
  · rw [noMatchAlts_one, noMatchSeq_one, noMatch_named]

/-- **C70** (factoring). If neighbouring variants start with the same fields, these can be parsed once, followed by an enum of the different rests. -/
theorem C70_factor {env : Env} {x x' y : Text} {a b : List (List Ty)} {ps : List Ty} (hx : alternatives (env x) = a ++ (alternatives (env y)).map (ps ++ ·) ++ b)
    (hx' : alternatives (env x') = a ++ [ps ++ [.named y]] ++ b) (hy : alternatives (env y) ≠ []) : SameGrammar env env (.named x) (.named x') := by
  have key1 : ∀ (as : List (List Ty)) ts vs rest l, MatchesAlts env (as.map (ps ++ ·)) ts vs rest l ↔
      ∃ v1 v2 mid l1 l2, vs = v1 ++ v2 ∧ l = l1.or l2 ∧ MatchesSeq env ps ts v1 mid l1 ∧ MatchesAlts env as mid v2 rest l2 := by
    intro as ts vs rest l
    induction as generalizing vs l with
    | nil =>
      constructor
      · intro h; exact absurd h matchesAlts_nil
      · rintro ⟨_, _, _, _, _, _, _, _, h⟩; exact absurd h matchesAlts_nil
    | cons us as ih =>
      rw [List.map_cons, matchesAlts_cons, matchesSeq_append, noMatchSeq_append, ih]
      constructor
      · rintro (⟨v1, v2, mid, l1, l2, rfl, rfl, h1, h2⟩ | ⟨h0 | ⟨v0, mid0, l0, h3, h4⟩, v1, v2, mid, l1, l2, rfl, rfl, h1, h2⟩)
        · exact ⟨v1, v2, mid, l1, l2, rfl, rfl, h1, matchesAlts_cons.mpr (.inl h2)⟩
        · exact absurd h0 (matchesSeq_not h1)
        · obtain ⟨rfl, rfl, rfl⟩ := matchesSeq_unique h1 h3
          exact ⟨_, v2, _, _, l2, rfl, rfl, h1, matchesAlts_cons.mpr (.inr ⟨h4, h2⟩)⟩
      · rintro ⟨v1, v2, mid, l1, l2, rfl, rfl, h1, h2⟩
        rcases matchesAlts_cons.mp h2 with h2 | ⟨h3, h2⟩
        · exact .inl ⟨v1, v2, mid, l1, l2, rfl, rfl, h1, h2⟩
        · exact .inr ⟨.inr ⟨_, _, _, h1, h3⟩, v1, v2, mid, l1, l2, rfl, rfl, h1, h2⟩
  have key2 : ∀ (as : List (List Ty)) ts, as ≠ [] → (NoMatchAlts env (as.map (ps ++ ·)) ts ↔
      NoMatchSeq env ps ts ∨ ∃ v mid l, MatchesSeq env ps ts v mid l ∧ NoMatchAlts env as mid) := by
    intro as ts hne
    constructor
    · intro h
      match as, hne with
      | us :: as, _ =>
        rw [List.map_cons, noMatchAlts_cons, noMatchSeq_append] at h
        obtain ⟨h1 | ⟨v, mid, l, h1, h2⟩, h⟩ := h
        · exact .inl h1
        · refine .inr ⟨v, mid, l, h1, ?_⟩
          rw [noMatchAlts_cons]
          refine ⟨h2, fun u hu => ?_⟩
          have := h (ps ++ u) (List.mem_map.mpr ⟨u, hu, rfl⟩)
          rcases noMatchSeq_append.mp this with h3 | ⟨v', mid', l', h3, h4⟩
          · exact absurd h3 (matchesSeq_not h1)
          · obtain ⟨rfl, rfl, rfl⟩ := matchesSeq_unique h1 h3
            exact h4
    · rintro (h | ⟨v, mid, l, h1, h2⟩) u hu
      · obtain ⟨u', hu', rfl⟩ := List.mem_map.mp hu
        exact noMatchSeq_append.mpr (.inl h)
      · obtain ⟨u', hu', rfl⟩ := List.mem_map.mp hu
        exact noMatchSeq_append.mpr (.inr ⟨_, _, _, h1, h2 u' hu'⟩)
  refine SameAlts.middle hx hx' (.refl _ _) (.refl _ _) ⟨fun h => ?_, fun h => ?_, fun {ts} => ?_⟩
  · obtain ⟨v1, v2, mid, l1, l2, rfl, rfl, h1, h2⟩ := (key1 _ _ _ _ _).mp h
    obtain ⟨tag, h3⟩ := alts_matches h2
    refine ⟨_, matchesAlts_one.mpr (matchesSeq_append.mpr ⟨v1, _, mid, l1, l2, rfl, rfl, h1, matchesSeq_one.mpr ⟨_, rfl, h3⟩⟩), ?_⟩
    rw [tokensL_append, tokensL_append, toTokensL_one, Val.toTokens]
  · obtain ⟨v1, v2, mid, l1, l2, rfl, rfl, h1, h2⟩ := matchesSeq_append.mp (matchesAlts_one.mp h)
    obtain ⟨v, rfl, h3⟩ := matchesSeq_one.mp h2
    obtain ⟨tag, vs, rfl, h4⟩ := matches_named h3
    refine ⟨_, (key1 _ _ _ _ _).mpr ⟨v1, vs, mid, l1, l2, rfl, rfl, h1, h4⟩, ?_⟩
    rw [tokensL_append, tokensL_append, toTokensL_one, Val.toTokens]
  · rw [key2 _ _ hy, noMatchAlts_one, noMatchSeq_append]
    simp only [noMatchSeq_one, noMatch_named]

/-- **C70** (`Empty`). A field of type `Empty` can be left out. -/
theorem C70_empty_field {env : Env} {x x' : Text} {a b : List (List Ty)} {us ws : List Ty} (hx : alternatives (env x) = a ++ [us ++ .leaf .empty :: ws] ++ b)
    (hx' : alternatives (env x') = a ++ [us ++ ws] ++ b) : SameGrammar env env (.named x) (.named x') := by
  refine SameAlts.middle hx hx' (.refl _ _) (.refl _ _) ⟨fun h => ?_, fun h => ?_, fun {ts} => ?_⟩
  · simp only [matchesAlts_one, matchesSeq_append, matchesSeq_cons, matches_empty] at h ⊢
    obtain ⟨v1, v2, mid, l1, l2, rfl, rfl, h1, v, mid', l1', vs, l2', rfl, rfl, ⟨rfl, rfl, rfl⟩, h3⟩ := h
    refine ⟨_, ⟨v1, _, _, l1, _, rfl, rfl, h1, h3⟩, ?_⟩
    simp [tokensL_append, Val.toTokensL, empty_tokens]
  · simp only [matchesAlts_one, matchesSeq_append, matchesSeq_cons, matches_empty] at h ⊢
    obtain ⟨v1, v2, mid, l1, l2, rfl, rfl, h1, h3⟩ := h
    refine ⟨_, ⟨v1, _, _, l1, _, rfl, rfl, h1, _, _, _, v2, l2, rfl, rfl, ⟨rfl, rfl, rfl⟩, h3⟩, ?_⟩
    simp [tokensL_append, Val.toTokensL, empty_tokens]
  · simp only [noMatchAlts_one, noMatchSeq_append, noMatchSeq_cons, matches_empty, noMatch_empty, false_or]
    refine or_congr Iff.rfl ⟨?_, ?_⟩
    · rintro ⟨v, mid, l, h1, _, _, _, ⟨rfl, rfl, rfl⟩, h2⟩; exact ⟨v, _, l, h1, h2⟩
    · rintro ⟨v, mid, l, h1, h2⟩; exact ⟨v, mid, l, h1, _, _, _, ⟨rfl, rfl, rfl⟩, h2⟩

/-- **C70** (replacement). The type of a field can be exchanged for another one that is the same grammar. -/
theorem C70_replace {env : Env} {x x' : Text} {a b : List (List Ty)} {us ws : List Ty} {t u : Ty} (h : SameGrammar env env t u)
    (hx : alternatives (env x) = a ++ [us ++ t :: ws] ++ b) (hx' : alternatives (env x') = a ++ [us ++ u :: ws] ++ b) :
    SameGrammar env env (.named x) (.named x') := by
  have hm := sameM_of h
  refine SameAlts.middle hx hx' (.refl _ _) (.refl _ _) ⟨fun h => ?_, fun h => ?_, fun {ts} => ?_⟩
  · simp only [matchesAlts_one, matchesSeq_append, matchesSeq_cons] at h ⊢
    obtain ⟨v1, v2, mid, l1, l2, rfl, rfl, h1, v, mid', l1', vs, l2', rfl, rfl, h2, h3⟩ := h
    obtain ⟨w, hw, ht⟩ := hm.left h2
    refine ⟨_, ⟨v1, _, _, l1, _, rfl, rfl, h1, w, _, _, vs, _, rfl, rfl, hw, h3⟩, ?_⟩
    simp only [tokensL_append, Val.toTokensL, ht]
  · simp only [matchesAlts_one, matchesSeq_append, matchesSeq_cons] at h ⊢
    obtain ⟨v1, v2, mid, l1, l2, rfl, rfl, h1, v, mid', l1', vs, l2', rfl, rfl, h2, h3⟩ := h
    obtain ⟨w, hw, ht⟩ := hm.right h2
    refine ⟨_, ⟨v1, _, _, l1, _, rfl, rfl, h1, w, _, _, vs, _, rfl, rfl, hw, h3⟩, ?_⟩
    simp only [tokensL_append, Val.toTokensL, ht]
  · simp only [noMatchAlts_one, noMatchSeq_append, noMatchSeq_cons]
    refine or_congr Iff.rfl ⟨?_, ?_⟩
    · rintro ⟨v, mid, l, h1, h2 | ⟨v', mid', l', h2, h3⟩⟩
      · exact ⟨v, mid, l, h1, .inl (hm.fails.mp h2)⟩
      · obtain ⟨w, hw, _⟩ := hm.left h2; exact ⟨v, mid, l, h1, .inr ⟨w, _, _, hw, h3⟩⟩
    · rintro ⟨v, mid, l, h1, h2 | ⟨v', mid', l', h2, h3⟩⟩
      · exact ⟨v, mid, l, h1, .inl (hm.fails.mpr h2)⟩
      · obtain ⟨w, hw, _⟩ := hm.right h2; exact ⟨v, mid, l, h1, .inr ⟨w, _, _, hw, h3⟩⟩

/-- **C70** (dead variants). A variant whose fields start with all the fields of an earlier variant is never produced: leaving it out changes nothing. -/
theorem C70_dead_variant {env : Env} {x x' : Text} {a b c : List (List Ty)} {us ws : List Ty} (hx : alternatives (env x) = a ++ us :: (b ++ (us ++ ws) :: c))
    (hx' : alternatives (env x') = a ++ us :: (b ++ c)) : SameGrammar env env (.named x) (.named x') := by
  apply SameAlts.grammar
  rw [hx, hx']
  refine (SameAlts.refl env a).append ⟨fun h => ⟨_, ?_, rfl⟩, fun h => ⟨_, ?_, rfl⟩, fun {ts} => ?_⟩
  · simp only [matchesAlts_cons, matchesAlts_append, noMatchSeq_append, noMatchAlts_append] at h ⊢
    rcases h with h | ⟨h1, h | ⟨h2, h | ⟨_, h⟩⟩⟩
    · exact .inl h
    · exact .inr ⟨h1, .inl h⟩
    · obtain ⟨_, _, _, _, _, _, _, h3, _⟩ := matchesSeq_append.mp h
      exact absurd h1 (matchesSeq_not h3)
    · exact .inr ⟨h1, .inr ⟨h2, h⟩⟩
  · simp only [matchesAlts_cons, matchesAlts_append, noMatchSeq_append, noMatchAlts_append] at h ⊢
    rcases h with h | ⟨h1, h | ⟨h2, h⟩⟩
    · exact .inl h
    · exact .inr ⟨h1, .inl h⟩
    · exact .inr ⟨h1, .inr ⟨h2, .inr ⟨.inl h1, h⟩⟩⟩
  · simp only [noMatchAlts_cons, noMatchAlts_append, noMatchSeq_append]
    constructor
    · rintro ⟨h1, h2, _, h3⟩; exact ⟨h1, h2, h3⟩
    · rintro ⟨h1, h2, h3⟩; exact ⟨h1, h2, .inl h1, h3⟩

theorem disjoint_matches {env : Env} {t u : Ty} (h : Disjoint env t u) {ts : List TT} :
    (∀ {v rest l}, Matches env t ts v rest l → NoMatch env u ts) ∧ ∀ {v rest l}, Matches env u ts v rest l → NoMatch env t ts :=
  ⟨fun hm => C63_fails.mp ((h ⟨ts, .callSite, none⟩ _ _).1 (C63_parses.mpr ⟨_, _, hm, rfl⟩)),
   fun hm => C63_fails.mp ((h ⟨ts, .callSite, none⟩ _ _).2 (C63_parses.mpr ⟨_, _, hm, rfl⟩))⟩

/-- **C70** (order of choices). Choices that exclude each other may be tried in any order. -/
theorem C70_either_comm {env : Env} {t u : Ty} (h : Disjoint env t u) : SameGrammar env env (.either t u) (.either u t) := SameM.grammar
  { left := fun hm => by
      rcases matches_either.mp hm with ⟨v, rfl, h'⟩ | ⟨v, rfl, h1, h2⟩
      · exact ⟨_, .eitherRight ((disjoint_matches h).1 h') h', by simp only [Val.toTokens]⟩
      · exact ⟨_, .eitherLeft h2, by simp only [Val.toTokens]⟩
    right := fun hm => by
      rcases matches_either.mp hm with ⟨v, rfl, h'⟩ | ⟨v, rfl, h1, h2⟩
      · exact ⟨_, .eitherRight ((disjoint_matches h).2 h') h', by simp only [Val.toTokens]⟩
      · exact ⟨_, .eitherLeft h2, by simp only [Val.toTokens]⟩
    fails := by intro ts; simp only [noMatch_either, and_comm] }

/-- The same for neighbouring variants of an enum. -/
theorem C70_variants_comm {env : Env} {x x' : Text} {a b : List (List Ty)} {t u : Ty} (h : Disjoint env t u)
    (hx : alternatives (env x) = a ++ [[t], [u]] ++ b) (hx' : alternatives (env x') = a ++ [[u], [t]] ++ b) : SameGrammar env env (.named x) (.named x') := by
  have key : ∀ t u, Disjoint env t u → ∀ {ts vs rest l}, MatchesAlts env [[t], [u]] ts vs rest l → MatchesAlts env [[u], [t]] ts vs rest l := by
    intro t u h ts vs rest l hm
    simp only [matchesAlts_cons, matchesSeq_one, noMatchSeq_one] at hm ⊢
    rcases hm with ⟨v, rfl, hm⟩ | ⟨h1, ⟨v, rfl, hm⟩ | ⟨_, hm⟩⟩
    · exact .inr ⟨(disjoint_matches h).1 hm, .inl ⟨v, rfl, hm⟩⟩
    · exact .inl ⟨v, rfl, hm⟩
    · exact absurd hm matchesAlts_nil
  refine SameAlts.middle hx hx' (.refl _ _) (.refl _ _) ⟨fun h' => ⟨_, key t u h h', rfl⟩, fun h' => ⟨_, key u t (fun s v s' => ⟨(h s v s').2, (h s v s').1⟩) h', rfl⟩, fun {ts} => ?_⟩
  simp only [noMatchAlts_cons]
  constructor <;> rintro ⟨h1, h2, h3⟩ <;> exact ⟨h2, h1, h3⟩

theorem many_stops {env : Env} {t : Ty} {ts : List TT} {vs : List Val} {rest : List TT} {l : Option Span} (h : MatchesMany env t ts vs rest l) : NoMatch env t rest := by
  induction vs generalizing ts l with
  | nil => cases h with | done h => exact h
  | cons v vs ih => cases h with | more _ h => exact ih h

theorem matches_any {env : Env} {t : Ty} {ts : List TT} {v : Val} {rest : List TT} {l : Option Span} :
    Matches env (.any t) ts v rest l ↔ ∃ vs, v = .node .any vs ∧ MatchesMany env t ts vs rest l := by
  constructor
  · intro h
    cases h with
    | group h => cases h
    | any h => exact ⟨_, rfl, h⟩
  · rintro ⟨vs, rfl, h⟩; exact .any h

theorem noMatch_any {env : Env} {t : Ty} {ts : List TT} : ¬ NoMatch env (.any t) ts := by
  intro h
  cases h with
  | noGroup h => cases h
  | inGroup h => cases h

/-- **C70** (repetition is greedy). After `Any<T>` there is no `T`: a struct with these two fields in succession can never be parsed. -/
theorem C70_greedy {env : Env} {x : Text} {f : Fields Ty} {us ws : List Ty} {t : Ty} (he : env x = .struct f) (hf : fieldTypes f = us ++ .any t :: t :: ws) (s : PState)
    (v : Val) (s' : PState) : ¬ Parses env (.named x) s v s' := by
  intro h
  obtain ⟨rest, l, hm, _⟩ := C63_parses.mp h
  rw [matches_struct he, hf] at hm
  simp only [matchesSeq_append, matchesSeq_cons, matches_any] at hm
  obtain ⟨_, _, _, _, _, _, _, _, _, _, _, _, _, _, _, _, _, ⟨_, _, h1⟩, _, _, _, _, _, _, _, h2, _⟩ := hm
  exact (C63_deterministic h2).2 (many_stops h1)

/-- **C70** (repetition, unrolled). `Any<T>` is an enum of `T` followed by `Any<T>`, and of nothing. -/
theorem C70_any_unrolled {env : Env} {x : Text} {t : Ty} (hx : alternatives (env x) = [[t, .any t], []]) : SameGrammar env env (.any t) (.named x) := SameM.grammar
  { left := fun {ts v rest l} h => by
      obtain ⟨vs, rfl, h'⟩ := matches_any.mp h
      cases h' with
      | done h1 =>
        obtain ⟨tag, hm⟩ := alts_matches (x := x) (vs := []) (by rw [hx, matchesAlts_cons, matchesAlts_cons]; exact .inr ⟨.here h1, .inl .nil⟩)
        exact ⟨_, hm, rfl⟩
      | @more _ _ v mid l1 vs _ l2 h1 h2 =>
        obtain ⟨tag, hm⟩ := alts_matches (x := x) (vs := [v, .node .any vs]) (rest := rest) (l := l1.or l2) (ts := ts)
          (by rw [hx, matchesAlts_cons]; exact .inl (.cons h1 (matchesSeq_one.mpr ⟨_, rfl, .any h2⟩)))
        refine ⟨_, hm, ?_⟩
        simp only [Val.toTokens, Val.toTokensL, Option.map_some, List.append_nil]
        cases Val.toTokensL vs <;> rfl
    right := fun {ts v rest l} h => by
      obtain ⟨tag, vs, rfl, h'⟩ := matches_named h
      rw [hx, matchesAlts_cons, matchesAlts_cons] at h'
      rcases h' with h1 | ⟨h1, h2 | ⟨_, h2⟩⟩
      · simp only [matchesSeq_cons, matchesSeq_nil, matches_any] at h1
        obtain ⟨v, mid, l1, _, l2, rfl, rfl, h2, _, _, _, _, _, rfl, rfl, ⟨vs, rfl, h3⟩, rfl, rfl, rfl⟩ := h1
        refine ⟨_, .any (.more h2 (by rw [Option.or_none]; exact h3)), ?_⟩
        simp only [Val.toTokens, Val.toTokensL, Option.map_some, List.append_nil]
        cases Val.toTokensL vs <;> rfl
      · obtain ⟨rfl, rfl, rfl⟩ := matchesSeq_nil.mp h2
        simp only [noMatchSeq_cons, noMatch_any, false_or] at h1
        rcases h1 with h1 | ⟨_, _, _, _, _, _, _, _, h1⟩
        · exact ⟨_, .any (.done h1), rfl⟩
        · exact absurd h1 noMatchSeq_nil
      · exact absurd h2 matchesAlts_nil
    fails := by
      intro ts
      rw [noMatch_named, hx, noMatchAlts_cons, noMatchAlts_one]
      constructor
      · intro h; exact absurd h noMatch_any
      · rintro ⟨_, h⟩; exact absurd h noMatchSeq_nil }

theorem alts_two {env : Env} {x : Text} {us ws : List Ty} (hx : alternatives (env x) = [us, ws]) {ts : List TT} {v : Val} {rest : List TT} {l : Option Span} :
    Matches env (.named x) ts v rest l → ∃ tag vs, v = .node tag vs ∧ (MatchesSeq env us ts vs rest l ∨ NoMatchSeq env us ts ∧ MatchesSeq env ws ts vs rest l) := by
  intro h
  obtain ⟨tag, vs, rfl, h'⟩ := matches_named h
  rw [hx, matchesAlts_cons, matchesAlts_one] at h'
  exact ⟨tag, vs, rfl, h'⟩

/-- Right recursion, read off: what a recursive enum matches is a repetition. -/
theorem many_of_recursive {env : Env} {x : Text} {t : Ty} (hx : alternatives (env x) = [[t, .boxed (.named x)], []]) {u : Ty} {ts : List TT} {v : Val} {rest : List TT}
    {l : Option Span} (h : Matches env u ts v rest l) :
    (u = .named x ∨ u = .boxed (.named x)) → ∃ vs, MatchesMany env t ts vs rest l ∧ Val.toTokensL vs = v.toTokens := by
  refine Matches.rec
    (motive_1 := fun u ts v rest l _ => (u = .named x ∨ u = .boxed (.named x)) → ∃ vs, MatchesMany env t ts vs rest l ∧ Val.toTokensL vs = v.toTokens)
    (motive_2 := fun us ts ws rest l _ => (us = [t, .boxed (.named x)] → ∃ vs, MatchesMany env t ts vs rest l ∧ Val.toTokensL vs = Val.toTokensL ws) ∧
      (us = [.boxed (.named x)] → ∃ vs, MatchesMany env t ts vs rest l ∧ Val.toTokensL vs = Val.toTokensL ws))
    (motive_3 := fun _ _ _ _ _ _ _ => True) (motive_4 := fun _ _ _ _ _ _ _ => True) (motive_5 := fun _ _ _ _ _ _ => True)
    (motive_6 := fun _ _ _ => True) (motive_7 := fun _ _ _ => True) (motive_8 := fun _ _ _ _ => True) (motive_9 := fun _ _ _ _ => True)
    ?_ ?_ ?_ ?_ ?_ ?_ ?_ ?_ ?_ ?_ ?_ ?_ ?_ ?_
    ?_ ?_ ?_ ?_ ?_ ?_ ?_ ?_ ?_
    ?_ ?_ ?_ ?_ ?_ ?_ ?_ ?_ ?_ ?_ ?_ ?_ ?_ ?_ ?_
    ?_ ?_ ?_ ?_ ?_ ?_ ?_ h
  case refine_2 =>
    intro y f ts vs rest l he _ _ hu
    rcases hu with hu | hu <;> cases hu
    rw [he, alternatives] at hx
    have := congrArg List.length hx; simp at this
  case refine_3 =>
    intro y before w after ts vs rest l he hb hm _ ih hu
    rcases hu with hu | hu <;> cases hu
    rw [he, alternatives, List.map_append, List.map_cons] at hx
    match before, hx, hb with
    | [], hx, _ =>
      injection hx with hx _
      obtain ⟨vs', h1, h2⟩ := ih.1 hx
      exact ⟨vs', h1, h2⟩
    | [w'], hx, hb =>
      injection hx with hx1 hx
      injection hx with hx _
      have hb := hb w' (.head _)
      dsimp only at hx1
      rw [hx1, noMatchSeq_cons] at hb
      rw [hx] at hm
      obtain ⟨rfl, rfl, rfl⟩ := matchesSeq_nil.mp hm
      rcases hb with hb | ⟨v, mid, l, h1, h2⟩
      · exact ⟨[], .done hb, rfl⟩
      · rw [noMatchSeq_one, noMatch_boxed, noMatch_named] at h2
        have := h2 [] (by rw [he]; simp [alternatives, hx])
        exact absurd this noMatchSeq_nil
    | _ :: _ :: before, hx, _ => have := congrArg List.length hx; simp at this
  case refine_4 =>
    intro t ts v rest l _ ih hu
    rcases hu with hu | hu <;> cases hu
    exact ih (.inl rfl)
  case refine_15 => exact fun {_} => ⟨(fun h => by cases h), (fun h => by cases h)⟩
  case refine_16 =>
    intro u us ts v mid l1 vs rest l2 h1 h2 ih1 ih2
    constructor
    · intro hu
      injection hu with hu1 hu
      subst hu1
      obtain ⟨vs', h3, h4⟩ := ih2.2 hu
      exact ⟨v :: vs', .more h1 h3, by simp only [Val.toTokensL, h4]⟩
    · intro hu
      injection hu with hu1 hu
      subst hu
      obtain ⟨vs', h3, h4⟩ := ih1 (.inr hu1)
      obtain ⟨rfl, rfl, rfl⟩ := matchesSeq_nil.mp h2
      exact ⟨vs', by rw [Option.or_none]; exact h3, by rw [h4, toTokensL_one]⟩
  case refine_7 => intros; rename_i hg _ _ _ _ hu; rcases hu with rfl | rfl <;> cases hg
  all_goals intros
  all_goals first
    | trivial
    | (rename_i hu; rcases hu with hu | hu <;> cases hu)

/-- **C70** (repetition, recursively). `Any<T>` is the recursive enum of `T` followed by itself (in a box), and of nothing. -/
theorem C70_any_recursive {env : Env} {x : Text} {t : Ty} (hx : alternatives (env x) = [[t, .boxed (.named x)], []]) : SameGrammar env env (.any t) (.named x) := SameM.grammar
  { left := fun {ts v rest l} h => by
      obtain ⟨vs, rfl, h'⟩ := matches_any.mp h
      have key : ∀ vs ts l, MatchesMany env t ts vs rest l → ∃ tag ws, Matches env (.named x) ts (.node tag ws) rest l ∧ Val.toTokensL ws = Val.toTokensL vs := by
        intro vs
        induction vs with
        | nil =>
          intro ts l h
          cases h with
          | done h1 =>
            obtain ⟨tag, hm⟩ := alts_matches (x := x) (vs := []) (by rw [hx, matchesAlts_cons, matchesAlts_cons]; exact .inr ⟨.here h1, .inl .nil⟩)
            exact ⟨_, _, hm, rfl⟩
        | cons v vs ih =>
          intro ts l h
          cases h with
          | @more _ _ _ mid l1 _ _ l2 h1 h2 =>
            obtain ⟨tag, ws, h3, h4⟩ := ih _ _ h2
            obtain ⟨tag', hm⟩ := alts_matches (x := x) (vs := [v, .node tag ws]) (rest := rest) (l := l1.or l2) (ts := ts)
              (by rw [hx, matchesAlts_cons]; exact .inl (.cons h1 (matchesSeq_one.mpr ⟨_, rfl, .boxed h3⟩)))
            refine ⟨_, _, hm, ?_⟩
            rw [Val.toTokensL, toTokensL_one, Val.toTokens, h4, Val.toTokensL]
      obtain ⟨tag, ws, h1, h2⟩ := key vs ts l h'
      exact ⟨_, h1, h2⟩
    right := fun {ts v rest l} h => by
      obtain ⟨vs, h1, h2⟩ := many_of_recursive hx h (.inl rfl)
      exact ⟨_, .any h1, h2⟩
    fails := by
      intro ts
      rw [noMatch_named, hx, noMatchAlts_cons, noMatchAlts_one]
      constructor
      · intro h; exact absurd h noMatch_any
      · rintro ⟨_, h⟩; exact absurd h noMatchSeq_nil }

theorem matches_right {env : Env} {o t : Ty} {ts : List TT} {v : Val} {rest : List TT} {l : Option Span} :
    Matches env (.rightAssoc o t) ts v rest l ↔ ∃ a mid l1 tail l2, v = rightTree a tail ∧ l = l1.or l2 ∧ Matches env t ts a mid l1 ∧ MatchesTail env o t mid tail rest l2 := by
  constructor
  · intro h
    cases h with
    | group h => cases h
    | rightAssoc h1 h2 => exact ⟨_, _, _, _, _, rfl, rfl, h1, h2⟩
  · rintro ⟨_, _, _, _, _, rfl, rfl, h1, h2⟩; exact .rightAssoc h1 h2

theorem noMatch_right {env : Env} {o t : Ty} {ts : List TT} :
    NoMatch env (.rightAssoc o t) ts ↔ NoMatch env t ts ∨ ∃ a mid l, Matches env t ts a mid l ∧ NoMatchTail env o t mid := by
  constructor
  · intro h
    cases h with
    | noGroup h => cases h
    | inGroup h => cases h
    | rightAssocHead h => exact .inl h
    | rightAssocTail h1 h2 => exact .inr ⟨_, _, _, h1, h2⟩
  · rintro (h | ⟨_, _, _, h1, h2⟩)
    · exact .rightAssocHead h
    · exact .rightAssocTail h1 h2

/-- Right recursion, read off: what a right recursive struct matches is a list of operators and operands. -/
theorem tail_of_recursive {env : Env} {x : Text} {f : Fields Ty} {o t : Ty} (he : env x = .struct f) (hf : fieldTypes f = [t, .maybe o (.boxed (.named x))]) {u : Ty}
    {ts : List TT} {v : Val} {rest : List TT} {l : Option Span} (h : Matches env u ts v rest l) :
    ((u = .named x ∨ u = .boxed (.named x)) → ∃ a mid l1 tail l2, l = l1.or l2 ∧ Matches env t ts a mid l1 ∧ MatchesTail env o t mid tail rest l2 ∧
        v.toTokens = Val.toTokensL (a :: tail.flatMap fun x => [x.1, x.2])) ∧
    (u = .maybe o (.boxed (.named x)) → ∃ tail, MatchesTail env o t ts tail rest l ∧ v.toTokens = Val.toTokensL (tail.flatMap fun x => [x.1, x.2])) := by
  refine Matches.rec
    (motive_1 := fun u ts v rest l _ => ((u = .named x ∨ u = .boxed (.named x)) → ∃ a mid l1 tail l2, l = l1.or l2 ∧ Matches env t ts a mid l1 ∧
        MatchesTail env o t mid tail rest l2 ∧ v.toTokens = Val.toTokensL (a :: tail.flatMap fun x => [x.1, x.2])) ∧
      (u = .maybe o (.boxed (.named x)) → ∃ tail, MatchesTail env o t ts tail rest l ∧ v.toTokens = Val.toTokensL (tail.flatMap fun x => [x.1, x.2])))
    (motive_2 := fun us ts ws rest l _ => (us = [t, .maybe o (.boxed (.named x))] → ∃ a mid l1 tail l2, l = l1.or l2 ∧ Matches env t ts a mid l1 ∧
        MatchesTail env o t mid tail rest l2 ∧ Val.toTokensL ws = Val.toTokensL (a :: tail.flatMap fun x => [x.1, x.2])) ∧
      (us = [.maybe o (.boxed (.named x))] → ∃ tail, MatchesTail env o t ts tail rest l ∧ Val.toTokensL ws = Val.toTokensL (tail.flatMap fun x => [x.1, x.2])))
    (motive_3 := fun _ _ _ _ _ _ _ => True) (motive_4 := fun _ _ _ _ _ _ _ => True) (motive_5 := fun _ _ _ _ _ _ => True)
    (motive_6 := fun _ _ _ => True) (motive_7 := fun _ _ _ => True) (motive_8 := fun _ _ _ _ => True) (motive_9 := fun _ _ _ _ => True)
    ?_ ?_ ?_ ?_ ?_ ?_ ?_ ?_ ?_ ?_ ?_ ?_ ?_ ?_
    ?_ ?_ ?_ ?_ ?_ ?_ ?_ ?_ ?_
    ?_ ?_ ?_ ?_ ?_ ?_ ?_ ?_ ?_ ?_ ?_ ?_ ?_ ?_ ?_
    ?_ ?_ ?_ ?_ ?_ ?_ ?_ h
  case refine_2 =>
    intro y f' ts vs rest l he' _ ih
    refine ⟨fun hu => ?_, fun hu => by cases hu⟩
    rcases hu with hu | hu <;> cases hu
    rw [he] at he'
    injection he' with he'
    subst he'
    exact ih.1 hf
  case refine_3 =>
    intro y before w after ts vs rest l he' hb hm _ ih
    refine ⟨fun hu => ?_, fun hu => by cases hu⟩
    rcases hu with hu | hu <;> cases hu
    rw [he] at he'
    cases he'
  case refine_4 =>
    intro t ts v rest l _ ih
    refine ⟨fun hu => ?_, fun hu => by cases hu⟩
    rcases hu with hu | hu <;> cases hu
    exact ih.1 (.inl rfl)
  case refine_5 =>
    intro p u ts q mid l1 b rest l2 h1 h2 _ ih
    refine ⟨(fun hu => by rcases hu with hu | hu <;> cases hu), fun hu => ?_⟩
    injection hu with hu1 hu2
    subst hu1
    obtain ⟨a, mid', l1', tail, l2', rfl, h3, h4, h5⟩ := ih.1 (.inr hu2)
    refine ⟨(q, a) :: tail, .more h1 h3 h4, ?_⟩
    rw [Val.toTokens, Val.toTokensL, toTokensL_one, h5]
    rfl
  case refine_6 =>
    intro p u ts h1 _
    refine ⟨(fun hu => by rcases hu with hu | hu <;> cases hu), fun hu => ?_⟩
    injection hu with hu1 hu2
    subst hu1
    exact ⟨[], .done h1, rfl⟩
  case refine_15 => exact fun {_} => ⟨(fun h => by cases h), (fun h => by cases h)⟩
  case refine_16 =>
    intro u us ts v mid l1 vs rest l2 h1 h2 ih1 ih2
    constructor
    · intro hu
      injection hu with hu1 hu
      subst hu1
      obtain ⟨tail, h3, h4⟩ := ih2.2 hu
      exact ⟨v, mid, l1, tail, l2, rfl, h1, h3, by simp only [Val.toTokensL, h4]⟩
    · intro hu
      injection hu with hu1 hu
      subst hu
      obtain ⟨tail, h3, h4⟩ := ih1.2 hu1
      obtain ⟨rfl, rfl, rfl⟩ := matchesSeq_nil.mp h2
      exact ⟨tail, by rw [Option.or_none]; exact h3, by rw [← h4, toTokensL_one]⟩
  case refine_7 => intros; rename_i hg _ _ _ _; exact ⟨(fun hu => by rcases hu with rfl | rfl <;> cases hg), (fun hu => by subst hu; cases hg)⟩
  all_goals intros
  all_goals first
    | trivial
    | exact ⟨(fun hu => by rcases hu with hu | hu <;> cases hu), (fun hu => by cases hu)⟩

theorem recursive_of_tail {env : Env} {x : Text} {f : Fields Ty} {o t : Ty} (he : env x = .struct f) (hf : fieldTypes f = [t, .maybe o (.boxed (.named x))])
    {tail : List (Val × Val)} {ts rest : List TT} {l : Option Span} (h : MatchesTail env o t ts tail rest l) :
    ∃ w, Matches env (.maybe o (.boxed (.named x))) ts w rest l ∧ w.toTokens = Val.toTokensL (tail.flatMap fun x => [x.1, x.2]) := by
  induction tail generalizing ts l with
  | nil => cases h with | done h => exact ⟨_, .maybeNone h, rfl⟩
  | cons q tail ih =>
    cases h with
    | @more _ _ _ q mid l1 v next l2 _ _ l3 h1 h2 h3 =>
      obtain ⟨w, hw, ht⟩ := ih h3
      have hm : Matches env (.named x) mid (.node (.ctor x x) [v, w]) rest (l2.or l3) :=
        (matches_struct he).mpr ⟨_, rfl, by rw [hf]; exact .cons h2 (matchesSeq_one.mpr ⟨_, rfl, hw⟩)⟩
      refine ⟨_, .maybeSome h1 (.boxed hm), ?_⟩
      simp only [List.flatMap_cons, List.cons_append, List.nil_append]
      rw [Val.toTokens, Val.toTokensL, toTokensL_one, Val.toTokens, Val.toTokensL, toTokensL_one, ht]
      rfl

/-- Failures of right recursion. -/
theorem noTail_of_recursive {env : Env} {x : Text} {f : Fields Ty} {o t : Ty} (he : env x = .struct f) (hf : fieldTypes f = [t, .maybe o (.boxed (.named x))]) {u : Ty}
    {ts : List TT} (h : NoMatch env u ts) :
    ((u = .named x ∨ u = .boxed (.named x)) → NoMatch env t ts ∨ ∃ a mid l, Matches env t ts a mid l ∧ NoMatchTail env o t mid) ∧
    (u = .maybe o (.boxed (.named x)) → NoMatchTail env o t ts) := by
  refine NoMatch.rec
    (motive_1 := fun _ _ _ _ _ _ => True) (motive_2 := fun _ _ _ _ _ _ => True)
    (motive_3 := fun _ _ _ _ _ _ _ => True) (motive_4 := fun _ _ _ _ _ _ _ => True) (motive_5 := fun _ _ _ _ _ _ => True)
    (motive_6 := fun u ts _ => ((u = .named x ∨ u = .boxed (.named x)) → NoMatch env t ts ∨ ∃ a mid l, Matches env t ts a mid l ∧ NoMatchTail env o t mid) ∧
      (u = .maybe o (.boxed (.named x)) → NoMatchTail env o t ts))
    (motive_7 := fun us ts _ => (us = [t, .maybe o (.boxed (.named x))] → NoMatch env t ts ∨ ∃ a mid l, Matches env t ts a mid l ∧ NoMatchTail env o t mid) ∧
      (us = [.maybe o (.boxed (.named x))] → NoMatchTail env o t ts))
    (motive_8 := fun _ _ _ _ => True) (motive_9 := fun _ _ _ _ => True)
    ?_ ?_ ?_ ?_ ?_ ?_ ?_ ?_ ?_ ?_ ?_ ?_ ?_ ?_
    ?_ ?_ ?_ ?_ ?_ ?_ ?_ ?_ ?_
    ?_ ?_ ?_ ?_ ?_ ?_ ?_ ?_ ?_ ?_ ?_ ?_ ?_ ?_ ?_
    ?_ ?_ ?_ ?_ ?_ ?_ ?_ h
  case refine_25 =>
    intro y f' ts he' _ ih
    refine ⟨fun hu => ?_, fun hu => by cases hu⟩
    rcases hu with hu | hu <;> cases hu
    rw [he] at he'
    injection he' with he'
    subst he'
    exact ih.1 hf
  case refine_26 =>
    intro y vs ts he' _ _
    refine ⟨fun hu => ?_, fun hu => by cases hu⟩
    rcases hu with hu | hu <;> cases hu
    rw [he] at he'
    cases he'
  case refine_27 =>
    intro t ts _ ih
    refine ⟨fun hu => ?_, fun hu => by cases hu⟩
    rcases hu with hu | hu <;> cases hu
    exact ih.1 (.inl rfl)
  case refine_28 =>
    intro p u ts a mid l1 h1 h2 _ ih
    refine ⟨(fun hu => by rcases hu with hu | hu <;> cases hu), fun hu => ?_⟩
    injection hu with hu1 hu2
    subst hu1
    rcases ih.1 (.inr hu2) with h3 | ⟨a, mid', l, h3, h4⟩
    · exact .here h1 h3
    · exact .later h1 h3 h4
  case refine_29 => intros; rename_i hg _; exact ⟨(fun hu => by rcases hu with rfl | rfl <;> cases hg), (fun hu => by subst hu; cases hg)⟩
  case refine_30 => intros; rename_i hg _ _ _; exact ⟨(fun hu => by rcases hu with rfl | rfl <;> cases hg), (fun hu => by subst hu; cases hg)⟩
  case refine_39 =>
    intro u us ts h1 ih
    constructor
    · intro hu
      injection hu with hu1 hu
      subst hu1
      exact .inl h1
    · intro hu
      injection hu with hu1 hu
      exact ih.2 hu1
  case refine_40 =>
    intro u us ts v mid l h1 h2 ih1 ih2
    constructor
    · intro hu
      injection hu with hu1 hu
      subst hu1
      exact .inr ⟨_, _, _, h1, ih2.2 hu⟩
    · intro hu
      injection hu with hu1 hu
      subst hu
      exact absurd h2 noMatchSeq_nil
  all_goals intros
  all_goals first
    | trivial
    | exact ⟨(fun hu => by rcases hu with hu | hu <;> cases hu), (fun hu => by cases hu)⟩

theorem recursive_of_noTail {env : Env} {x : Text} {f : Fields Ty} {o t : Ty} (he : env x = .struct f) (hf : fieldTypes f = [t, .maybe o (.boxed (.named x))])
    {ts : List TT} (h : NoMatchTail env o t ts) : NoMatch env (.maybe o (.boxed (.named x))) ts := by
  have key : ∀ {p u : Ty} {ts : List TT}, NoMatchTail env p u ts → p = o → u = t → NoMatch env (.maybe o (.boxed (.named x))) ts := by
    intro p u ts h
    refine NoMatchTail.rec
      (motive_1 := fun _ _ _ _ _ _ => True) (motive_2 := fun _ _ _ _ _ _ => True)
      (motive_3 := fun _ _ _ _ _ _ _ => True) (motive_4 := fun _ _ _ _ _ _ _ => True) (motive_5 := fun _ _ _ _ _ _ => True)
      (motive_6 := fun _ _ _ => True) (motive_7 := fun _ _ _ => True) (motive_8 := fun _ _ _ _ => True)
      (motive_9 := fun p u ts _ => p = o → u = t → NoMatch env (.maybe o (.boxed (.named x))) ts)
      ?_ ?_ ?_ ?_ ?_ ?_ ?_ ?_ ?_ ?_ ?_ ?_ ?_ ?_
      ?_ ?_ ?_ ?_ ?_ ?_ ?_ ?_ ?_
      ?_ ?_ ?_ ?_ ?_ ?_ ?_ ?_ ?_ ?_ ?_ ?_ ?_ ?_ ?_
      ?_ ?_ ?_ ?_ ?_ ?_ ?_ h
    case refine_44 =>
      rintro p u ts q mid l h1 h2 _ _ rfl rfl
      refine .maybe h1 (.boxed ((noMatch_struct he).mpr ?_))
      rw [hf]; exact .here h2
    case refine_45 =>
      rintro p u ts q mid l v next l2 h1 h2 _ _ _ ih rfl rfl
      refine .maybe h1 (.boxed ((noMatch_struct he).mpr ?_))
      rw [hf]; exact .later h2 (noMatchSeq_one.mpr (ih rfl rfl))
    all_goals intros
    all_goals trivial
  exact key h rfl rfl

/-- **C70** (right recursion). `RightAssoc<O, T>` is the right recursive struct of a `T` and, if an operator follows, of the operator and (in a box) the same
struct again. -/
theorem C70_right_recursive {env : Env} {x : Text} {f : Fields Ty} {o t : Ty} (he : env x = .struct f) (hf : fieldTypes f = [t, .maybe o (.boxed (.named x))]) :
    SameGrammar env env (.rightAssoc o t) (.named x) := SameM.grammar
  { left := fun {ts v rest l} h => by
      obtain ⟨a, mid, l1, tail, l2, rfl, rfl, h1, h2⟩ := matches_right.mp h
      obtain ⟨w, hw, ht⟩ := recursive_of_tail he hf h2
      refine ⟨_, (matches_struct he).mpr ⟨_, rfl, by rw [hf]; exact .cons h1 (matchesSeq_one.mpr ⟨_, rfl, hw⟩)⟩, ?_⟩
      rw [rightTree_tokens, Val.toTokens, Val.toTokensL, toTokensL_one, ht]
      rfl
    right := fun {ts v rest l} h => by
      obtain ⟨a, mid, l1, tail, l2, rfl, h1, h2, h3⟩ := (tail_of_recursive he hf h).1 (.inl rfl)
      exact ⟨_, .rightAssoc h1 h2, by rw [rightTree_tokens, h3]⟩
    fails := by
      intro ts
      constructor
      · intro h
        rw [noMatch_struct he, hf]
        rcases noMatch_right.mp h with h1 | ⟨a, mid, l, h1, h2⟩
        · exact .here h1
        · exact .later h1 (noMatchSeq_one.mpr (recursive_of_noTail he hf h2))
      · intro h
        exact noMatch_right.mpr ((noTail_of_recursive he hf h).1 (.inl rfl)) }

/-- **C70** (keywords). Different keywords exclude each other. -/
theorem C70_keywords_disjoint (env : Env) {k k' : Text} (h : k ≠ k') : Disjoint env (.leaf (.keyword k)) (.leaf (.keyword k')) := by
  have key : ∀ {k k' : Text}, k ≠ k' → ∀ {s v s'}, Parses env (.leaf (.keyword k)) s v s' → ∃ e, Fails env (.leaf (.keyword k')) s e := by
    intro k k' h s v s' hp
    obtain ⟨c, rest, hl, rfl, rfl⟩ := C64_leaf.mp hp
    cases hl with
    | keyword hn =>
      refine C63_fails.mpr (.leaf ⟨fun v rest' hl => ?_, fun hb => ?_⟩)
      · cases hl with
        | keyword hn' =>
          have e1 := (uncons_iff _ _ _).mpr hn
          rw [(uncons_iff _ _ _).mpr hn'] at e1
          injection e1 with e1
          injection e1 with e1 _
          injection e1 with e1 _
          exact h e1.symm
      · obtain ⟨⟨k, hk⟩, _⟩ := hb; cases hk
  exact fun s v s' => ⟨key h, key h.symm⟩

end

/-! ### examples -/

/-- A program with several ways of saying the same. -/
def lawEnv : Env := fun x =>
  -- struct Sum { first: Name, rest: Maybe<Token![+], Box<Sum>> }
  if x = "Sum".toList then .struct (.named [("first".toList, fld (.leaf (.customIdent []))),
    ("rest".toList, fld (.maybe (.leaf (.punct "+".toList)) (.boxed (.named "Sum".toList))))])
  -- enum Names { Cons(Name, Box<Names>), Nil }
  else if x = "Names".toList then .enum [⟨"Cons".toList, .unnamed [fld (.leaf (.customIdent [])), fld (.boxed (.named "Names".toList))]⟩, ⟨"Nil".toList, .unit⟩]
  -- enum Stmt { Set(Name, Token![=], LitUint), Call(Name, Paren<Empty>) }
  else if x = "Stmt".toList then .enum [⟨"Set".toList, .unnamed [fld (.leaf (.customIdent [])), fld (.leaf (.punct "=".toList)), fld (.leaf (.lit .uint))]⟩,
    ⟨"Call".toList, .unnamed [fld (.leaf (.customIdent [])), fld (.paren (.leaf .empty))]⟩]
  -- enum Action { Set(Token![=], LitUint), Call(Paren<Empty>) }
  else if x = "Action".toList then .enum [⟨"Set".toList, .unnamed [fld (.leaf (.punct "=".toList)), fld (.leaf (.lit .uint))]⟩,
    ⟨"Call".toList, .unnamed [fld (.paren (.leaf .empty))]⟩]
  -- struct Short { name: Name, action: Action }
  else if x = "Short".toList then .struct (.named [("name".toList, fld (.leaf (.customIdent []))), ("action".toList, fld (.named "Action".toList))])
  -- struct Greedy(Any<Name>, Name)
  else if x = "Greedy".toList then .struct (.unnamed [fld (.any (.leaf (.customIdent []))), fld (.leaf (.customIdent []))])
  else .enum []

section
attribute [local instance] toyExt

example : SameGrammar lawEnv lawEnv (.rightAssoc (.leaf (.punct "+".toList)) (.leaf (.customIdent []))) (.named "Sum".toList) :=
  C70_right_recursive (f := .named [("first".toList, fld (.leaf (.customIdent []))),
    ("rest".toList, fld (.maybe (.leaf (.punct "+".toList)) (.boxed (.named "Sum".toList))))]) rfl rfl
example : SameGrammar lawEnv lawEnv (.any (.leaf (.customIdent []))) (.named "Names".toList) := C70_any_recursive rfl
example : SameGrammar lawEnv lawEnv (.named "Stmt".toList) (.named "Short".toList) :=
  C70_factor (y := "Action".toList) (a := []) (b := []) (ps := [.leaf (.customIdent [])]) rfl rfl (by decide +kernel)
example (s : PState) (v : Val) (s' : PState) : ¬ Parses lawEnv (.named "Greedy".toList) s v s' :=
  C70_greedy (f := .unnamed [fld (.any (.leaf (.customIdent []))), fld (.leaf (.customIdent []))]) (us := []) (ws := []) (t := .leaf (.customIdent [])) rfl rfl s v s'
/-- The inputs exist: `a + b`, with either grammar. -/
example : ∃ v, Accepts lawEnv (.named "Sum".toList) [.ident "a".toList spA, .punct '+' .alone spA, .ident "b".toList spA] v := ⟨_, 20, rfl⟩
example : ∃ v, Accepts lawEnv (.named "Short".toList) [.ident "a".toList spA, .group .paren [] spA] v := ⟨_, 20, rfl⟩
example : ∃ v, Accepts lawEnv (.named "Stmt".toList) [.ident "a".toList spA, .group .paren [] spA] v := ⟨_, 20, rfl⟩
example : SameGrammar lawEnv lawEnv (.either (.leaf (.keyword "a".toList)) (.leaf (.keyword "b".toList)))
    (.either (.leaf (.keyword "b".toList)) (.leaf (.keyword "a".toList))) := C70_either_comm (C70_keywords_disjoint _ (by decide))
/-- More of them; `a`, `b`, `c` are keywords. -/
def lawEnv2 : Env :=
  let kw := fun (x : String) => Ty.leaf (.keyword x.toList)
  let v := fun (x : String) (l : List Ty) => (⟨x.toList, (.unnamed (l.map fld))⟩ : VariantDef Ty)
  fun x =>
  -- enum AB { A(a), B(b) }, enum BA { B(b), A(a) }, enum Same { X(a), Y(b) }
  if x = "AB".toList then .enum [v "A" [kw "a"], v "B" [kw "b"]]
  else if x = "BA".toList then .enum [v "B" [kw "b"], v "A" [kw "a"]]
  else if x = "Same".toList then .enum [v "X" [kw "a"], v "Y" [kw "b"]]
  -- enum Nested { AB(AB), C(c) }, enum Flat { A(a), B(b), C(c) }
  else if x = "Nested".toList then .enum [v "AB" [.named "AB".toList], v "C" [kw "c"]]
  else if x = "Flat".toList then .enum [v "A" [kw "a"], v "B" [kw "b"], v "C" [kw "c"]]
  -- struct Pair(a, b), struct Triple(Pair, c), struct Plain(a, b, c), struct Padded(a, Empty, b, c)
  else if x = "Pair".toList then .struct (.unnamed ([kw "a", kw "b"].map fld))
  else if x = "Triple".toList then .struct (.unnamed ([.named "Pair".toList, kw "c"].map fld))
  else if x = "Plain".toList then .struct (.unnamed ([kw "a", kw "b", kw "c"].map fld))
  else if x = "Padded".toList then .struct (.unnamed ([kw "a", .leaf .empty, kw "b", kw "c"].map fld))
  -- struct New(AB), struct Uses(c, New), struct Direct(c, AB)
  else if x = "New".toList then .struct (.unnamed ([.named "AB".toList].map fld))
  else if x = "Uses".toList then .struct (.unnamed ([kw "c", .named "New".toList].map fld))
  else if x = "Direct".toList then .struct (.unnamed ([kw "c", .named "AB".toList].map fld))
  -- enum Dead { A(a), B(b), AC(a, c) }: the last variant is never reached
  else if x = "Dead".toList then .enum [v "A" [kw "a"], v "B" [kw "b"], v "AC" [kw "a", kw "c"]]
  -- enum Unrolled { More(a, Any<a>), Done }
  else if x = "Unrolled".toList then .enum [v "More" [kw "a", .any (kw "a")], ⟨"Done".toList, .unit⟩]
  else .enum []

/-- The hypotheses of the other laws are met. -/
example : SameGrammar lawEnv2 lawEnv2 (.either (.leaf (.keyword "a".toList)) (.leaf (.keyword "b".toList))) (.named "AB".toList) :=
  C70_either_enum (u := ⟨"A".toList, (.unnamed ([.leaf (.keyword "a".toList)].map fld))⟩) (w := ⟨"B".toList, (.unnamed ([.leaf (.keyword "b".toList)].map fld))⟩) rfl rfl rfl
example : SameGrammar lawEnv2 lawEnv2 (.named "AB".toList) (.named "Same".toList) := C70_names rfl
example : SameGrammar lawEnv2 lawEnv2 (.named "AB".toList) (.named "BA".toList) :=
  C70_variants_comm (a := []) (b := []) (C70_keywords_disjoint _ (by decide : "a".toList ≠ "b".toList)) rfl rfl
example : SameGrammar lawEnv2 lawEnv2 (.named "Nested".toList) (.named "Flat".toList) :=
  C70_nested_enum (y := "AB".toList) (a := []) (b := [[.leaf (.keyword "c".toList)]]) rfl rfl
example : SameGrammar lawEnv2 lawEnv2 (.named "Triple".toList) (.named "Plain".toList) :=
  C70_nested_struct (y := "Pair".toList) (f := (.unnamed ([.leaf (.keyword "a".toList), .leaf (.keyword "b".toList)].map fld))) (a := []) (b := []) (us := [])
    (ws := [.leaf (.keyword "c".toList)]) rfl rfl rfl
example : SameGrammar lawEnv2 lawEnv2 (.named "Padded".toList) (.named "Plain".toList) :=
  C70_empty_field (a := []) (b := []) (us := [.leaf (.keyword "a".toList)]) (ws := [.leaf (.keyword "b".toList), .leaf (.keyword "c".toList)]) rfl rfl
example : SameGrammar lawEnv2 lawEnv2 (.named "Uses".toList) (.named "Direct".toList) :=
  C70_replace (t := .named "New".toList) (u := .named "AB".toList) (a := []) (b := []) (us := [.leaf (.keyword "c".toList)]) (ws := [])
    (C70_newtype (f := (.unnamed ([.named "AB".toList].map fld))) rfl rfl) rfl rfl
example : SameGrammar lawEnv2 lawEnv2 (.named "Dead".toList) (.named "AB".toList) :=
  C70_dead_variant (a := []) (b := [[.leaf (.keyword "b".toList)]]) (c := []) (us := [.leaf (.keyword "a".toList)]) (ws := [.leaf (.keyword "c".toList)]) rfl rfl
example : SameGrammar lawEnv2 lawEnv2 (.any (.leaf (.keyword "a".toList))) (.named "Unrolled".toList) := C70_any_unrolled rfl
/-- ... and the types accept something: `a b c`, `c b`, `a a a`. -/
example : (∃ v, Accepts lawEnv2 (.named "Triple".toList) [.ident "a".toList spA, .ident "b".toList spA, .ident "c".toList spA] v) ∧
    (∃ v, Accepts lawEnv2 (.named "Uses".toList) [.ident "c".toList spA, .ident "b".toList spA] v) ∧
    ∃ v, Accepts lawEnv2 (.named "Unrolled".toList) [.ident "a".toList spA, .ident "a".toList spA, .ident "a".toList spA] v := ⟨⟨_, 20, rfl⟩, ⟨_, 20, rfl⟩, ⟨_, 20, rfl⟩⟩
end

end Parsel
