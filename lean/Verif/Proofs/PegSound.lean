import Verif.Proofs.Peg

/-! What the parser does is what the grammar says (Spec/Peg): soundness. -/

namespace Parsel
open Spec

variable [Ext]

/-- The stream after reading up to `rest`, `left` having been left unread in a group. -/
def PState.after (s : PState) (rest : List TT) (left : Option Span) : PState := ⟨rest, s.scope, s.unexp.or left⟩

omit [Ext] in
@[simp] theorem after_cur (s : PState) (rest : List TT) (left : Option Span) : (s.after rest left).cur = rest := rfl

omit [Ext] in
theorem after_after (s : PState) (a b : List TT) (l1 l2 : Option Span) : (s.after a l1).after b l2 = s.after b (l1.or l2) := by
  simp [PState.after, Option.or_assoc]

omit [Ext] in
theorem after_none (s : PState) : s.after s.cur none = s := by simp [PState.after]

omit [Ext] in
theorem resume_after (s : PState) (rest : List TT) (left : Option Span) : resume s ((fresh s).after rest left) = s.after rest left := by
  unfold resume fresh PState.after
  cases s.unexp <;> simp

omit [Ext] in
theorem after_cur_eq (s : PState) (rest : List TT) : ({ s with cur := rest } : PState) = s.after rest none := by
  simp [PState.after]

omit [Ext] in
theorem firstUnread_iff (ts : List TT) (l : Option Span) : FirstUnread ts l ↔ unexpectedSpan ts = l := by
  unfold unexpectedSpan
  constructor
  · intro h
    cases h with
    | nothing h =>
      cases hu : uncons ts with
      | none => rfl
      | some x => exact absurd ((uncons_iff _ _ _).mp hu) (h _ _)
    | token h => rw [(uncons_iff _ _ _).mpr h]; rfl
  · rintro rfl
    cases hu : uncons ts with
    | none =>
      refine .nothing fun t rest h => ?_
      rw [(uncons_iff _ _ _).mpr h] at hu; cases hu
    | some x => exact .token ((uncons_iff _ _ _).mp hu)

omit [Ext] in
theorem dropUnexp_after {s : PState} {u : Option Span} {l1 l2 : Option Span} {rest : List TT} (h : FirstUnread rest l2)
    (hs : s = ⟨rest, s.scope, u.or l1⟩) : s.dropUnexp = u.or (l1.or l2) := by
  rw [firstUnread_iff] at h
  rw [hs]
  unfold PState.dropUnexp
  simp only [h]
  cases u <;> cases l1 <;> rfl

/-- The parsers `P` do what the grammar says. -/
def PegOk (env : Env) (P : Ty → Parser Val) : Prop :=
  ∀ t s, (∀ v s', P t s = .ok v s' → ∃ rest left, Matches env t s.cur v rest left ∧ s' = s.after rest left) ∧
    ∀ e, P t s = .err e → NoMatch env t s.cur

variable {env : Env} {P : Ty → Parser Val}

theorem PegOk.seq (h : PegOk env P) {us : List Ty} {s s' : PState} {vs : List Val} (hs : SeqOk P us s vs s') :
    ∃ rest left, MatchesSeq env us s.cur vs rest left ∧ s' = s.after rest left := by
  induction hs with
  | nil s => exact ⟨_, _, .nil, (after_none s).symm⟩
  | cons h1 _ ih =>
    obtain ⟨r1, l1, hm, rfl⟩ := (h _ _).1 _ _ h1
    obtain ⟨r2, l2, hm2, rfl⟩ := ih
    exact ⟨r2, l1.or l2, .cons hm hm2, after_after ..⟩

theorem PegOk.seqErr (h : PegOk env P) {us : List Ty} {s : PState} {i : Nat} {e : Err} (hs : SeqErr P us s i e) : NoMatchSeq env us s.cur := by
  induction hs with
  | here h1 => exact .here ((h _ _).2 _ h1)
  | there h1 _ ih =>
    obtain ⟨r1, l1, hm, rfl⟩ := (h _ _).1 _ _ h1
    exact .later hm ih

/-- Values and separators of pairs in order. -/
def pairVals : List (Pair Val Val) → List Val
  | [] => []
  | .punctuated v q :: rest => v :: q :: pairVals rest
  | .stop v :: rest => v :: pairVals rest

theorem PegOk.term (h : PegOk env P) {t p : Ty} {s s' : PState} {ps : List (Pair Val Val)} (hs : Terminated (P t) (P p) s ps s') :
    ∃ rest left, MatchesToEnd env t p s.cur (pairVals ps) rest left ∧ s' = s.after rest left := by
  induction hs with
  | @nothing s hc => exact ⟨[], none, by rw [hc]; exact .done, by rw [← hc]; exact (after_none s).symm⟩
  | last h0 h1 hc =>
    obtain ⟨r1, l1, hm, rfl⟩ := (h _ _).1 _ _ h1
    simp only [after_cur] at hc
    subst hc
    exact ⟨[], l1, .last h0 hm, rfl⟩
  | more h0 h1 h2 h3 _ ih =>
    obtain ⟨r1, l1, hm, rfl⟩ := (h _ _).1 _ _ h1
    obtain ⟨r2, l2, hm2, rfl⟩ := (h _ _).1 _ _ h3
    obtain ⟨r3, l3, hm3, rfl⟩ := ih
    exact ⟨r3, l1.or (l2.or l3), .more h0 hm h2 hm2 hm3, by rw [after_after, after_after]⟩

theorem PegOk.termErr (h : PegOk env P) {t p : Ty} {s : PState} {e : Err} (hs : TerminatedErr (P t) (P p) s e) :
    NoMatchToEnd env t p s.cur := by
  induction hs with
  | item h0 h1 => exact .item h0 ((h _ _).2 _ h1)
  | sep h0 h1 h2 h3 =>
    obtain ⟨r1, l1, hm, rfl⟩ := (h _ _).1 _ _ h1
    exact .separator h0 hm h2 ((h _ _).2 _ h3)
  | more h0 h1 h2 h3 _ ih =>
    obtain ⟨r1, l1, hm, rfl⟩ := (h _ _).1 _ _ h1
    obtain ⟨r2, l2, hm2, rfl⟩ := (h _ _).1 _ _ h3
    exact .later h0 hm h2 hm2 ih

theorem PegOk.tail (h : PegOk env P) {t p : Ty} {s s' : PState} {ps : List (Val × Val)} (hs : SepTail (P t) (P p) s ps s') :
    ∃ rest left, MatchesTail env p t s.cur ps rest left ∧ s' = s.after rest left := by
  induction hs with
  | @stop s e h1 => exact ⟨s.cur, none, .done ((h _ (fresh s)).2 _ h1), (after_none s).symm⟩
  | @more s q f v s1 rest s' h1 h2 _ ih =>
    obtain ⟨r1, l1, hm, rfl⟩ := (h _ _).1 _ _ h1
    rw [resume_after] at h2
    obtain ⟨r2, l2, hm2, rfl⟩ := (h _ _).1 _ _ h2
    obtain ⟨r3, l3, hm3, rfl⟩ := ih
    exact ⟨r3, l1.or (l2.or l3), .more hm hm2 hm3, by rw [after_after, after_after]⟩

theorem PegOk.tailErr (h : PegOk env P) {t p : Ty} {s : PState} {e : Err} (hs : SepTailErr (P t) (P p) s e) : NoMatchTail env p t s.cur := by
  induction hs with
  | item h1 h2 =>
    obtain ⟨r1, l1, hm, rfl⟩ := (h _ _).1 _ _ h1
    rw [resume_after] at h2
    exact .here hm ((h _ _).2 _ h2)
  | more h1 h2 _ ih =>
    obtain ⟨r1, l1, hm, rfl⟩ := (h _ _).1 _ _ h1
    rw [resume_after] at h2
    obtain ⟨r2, l2, hm2, rfl⟩ := (h _ _).1 _ _ h2
    exact .later hm hm2 ih

theorem PegOk.many (h : PegOk env P) {t : Ty} {s s' : PState} {vs : List Val} (hs : Greedy (P t) s vs s') :
    ∃ rest left, MatchesMany env t s.cur vs rest left ∧ s' = s.after rest left := by
  induction hs with
  | @stop s e h1 => exact ⟨s.cur, none, .done ((h _ (fresh s)).2 _ h1), (after_none s).symm⟩
  | more h1 _ ih =>
    obtain ⟨r1, l1, hm, rfl⟩ := (h _ _).1 _ _ h1
    rw [resume_after] at ih
    obtain ⟨r3, l3, hm3, rfl⟩ := ih
    exact ⟨r3, l1.or l3, .more hm hm3, by rw [after_after]⟩

theorem interleave_pairs (r : Punct Val Val) : Val.interleave r = pairVals r.pairs := by
  obtain ⟨inner, last⟩ := r
  unfold Val.interleave Punct.pairs
  induction inner with
  | nil => cases last <;> rfl
  | cons x xs ih => simp only [List.flatMap_cons, List.map_cons, List.cons_append, pairVals, List.nil_append]; rw [← ih]

/-- A left-leaning tree from its reading. -/
theorem ofLeft_reading (tree : LeftAssoc Val Val) :
    Val.ofLeft tree = leftTree (.node .leftRhs [(leftReading tree).1]) (leftReading tree).2 := by
  have snoc : ∀ (xs : List (Val × Val)) (acc op r : Val), leftTree acc (xs ++ [(op, r)]) = .node .leftBin [leftTree acc xs, op, r] := by
    intro xs
    induction xs with
    | nil => intro acc op r; rfl
    | cons x xs ih => intro acc op r; exact ih _ _ _
  induction tree with
  | rhs r => rfl
  | binary l op r ih => simp only [Val.ofLeft, leftReading]; rw [snoc, ih]

/-- A right-leaning tree from its reading. -/
theorem ofRight_reading (tree : RightAssoc Val Val) : Val.ofRight tree = rightTree (rightReading tree).1 (rightReading tree).2 := by
  induction tree with
  | lhs r => rfl
  | binary l op r ih => simp only [Val.ofRight, rightReading, rightTree]; rw [← ih]

theorem group_sound (h : PegOk env P) {g : Ty} {d : Delim} {t : Ty} (hg : GroupTy g d t) (s : PState) :
    (∀ sp v s', delimited d (P t) s = .ok (sp, v) s' → ∃ rest left, Matches env g s.cur (.group d sp v) rest left ∧ s' = s.after rest left) ∧
    ∀ e, delimited d (P t) s = .err e → NoMatch env g s.cur := by
  constructor
  · intro sp v s' hd
    obtain ⟨inner, rest, s1, hn, hp, h1, h2, h3⟩ := (delimited_ok d _ s s' sp v).mp hd
    obtain ⟨r1, l1, hm, rfl⟩ := (h _ _).1 _ _ hp
    have hf : FirstUnread r1 (unexpectedSpan r1) := (firstUnread_iff _ _).mpr rfl
    refine ⟨rest, l1.or (unexpectedSpan r1), .group hg hn hm hf, ?_⟩
    obtain ⟨c, sc, u⟩ := s'
    simp only at h1 h2 h3
    subst h1 h2 h3
    rw [dropUnexp_after hf (u := s.unexp) (l1 := l1) rfl]
    rfl
  · intro e hd
    rcases (delimited_err d _ s e).mp hd with ⟨inner, sp, rest, hn, hp⟩ | ⟨hn, _⟩
    · exact .inGroup hg hn ((h _ _).2 _ hp)
    · exact .noGroup hg hn

theorem parse_peg (env : Env) : ∀ n, PegOk env (parse env n)
  | 0 => fun t s => ⟨(fun _ _ h => nomatch h), (fun _ h => nomatch h)⟩
  | n + 1 => by
    have ih := parse_peg env n
    intro t s
    cases t with
    | leaf l =>
      simp only [parse]
      refine ⟨fun v s' h => ?_, fun e h => ?_⟩
      · obtain ⟨a, h1, rfl⟩ := Res.map_ok.mp h
        obtain ⟨rest, h2, rfl⟩ := leaf_at.mp h1
        exact ⟨rest, none, .leaf h2, after_cur_eq ..⟩
      · exact .leaf (leaf_not.mp ⟨e, Res.map_err.mp h⟩)
    | named x =>
      simp only [parse]
      cases hx : env x with
      | struct fields =>
        rw [code_struct hx]
        simp only [evalParse]
        refine ⟨fun v s' h => ?_, fun e h => ?_⟩
        · obtain ⟨a, h1, rfl⟩ := Res.map_ok.mp h
          obtain ⟨h2, h3⟩ := (evalCtor_ok _ none x fields s s' a).mp h1
          obtain ⟨rest, left, hm, rfl⟩ := ih.seq h3
          exact ⟨rest, left, by rw [h2]; exact .struct hx hm, rfl⟩
        · obtain ⟨i, l, e0, h1, _⟩ := (evalCtor_err _ none x fields s e).mp (Res.map_err.mp h)
          exact .struct hx (ih.seqErr h1)
      | enum vs =>
        rw [code_enum hx]
        simp only [evalParse]
        refine ⟨fun v s' h => ?_, fun e h => ?_⟩
        · obtain ⟨a, h1, rfl⟩ := Res.map_ok.mp h
          rw [evalVariants_ok] at h1
          obtain ⟨pre, v, post, f, hvs, hpre, hn, hs, rfl⟩ := h1
          obtain ⟨rest, left, hm, rfl⟩ := ih.seq hs
          refine ⟨rest, left, ?_, ?_⟩
          · rw [hn]
            refine .enum (by rw [hx, hvs]) (fun u hu => ?_) hm
            obtain ⟨i, e, h2⟩ := hpre u hu
            exact ih.seqErr (s := s.fork) h2
          · unfold PState.advanceTo PState.after
            cases s.unexp <;> simp [PState.fork]
        · have h1 := Res.map_err.mp h
          rw [evalVariants_err] at h1
          obtain ⟨errs, h2, h3⟩ := h1
          clear h3
          refine .enum hx (fun v hv => ?_)
          clear h hx
          induction h2 with
          | nil => cases hv
          | cons h3 _ ih2 =>
            rcases List.mem_cons.mp hv with rfl | hv
            · obtain ⟨i, l, e0, h4, _⟩ := h3
              exact ih.seqErr (s := s.fork) h4
            · exact ih2 hv
    | boxed t =>
      refine ⟨fun v s' h => ?_, fun e h => ?_⟩
      · obtain ⟨rest, left, hm, rfl⟩ := (ih t s).1 v s' h
        exact ⟨rest, left, .boxed hm, rfl⟩
      · exact .boxed ((ih t s).2 e h)
    | maybe p t =>
      simp only [parse]
      refine ⟨fun v s' h => ?_, fun e h => ?_⟩
      · obtain ⟨⟨m⟩, h1, rfl⟩ := Res.map_ok.mp h
        rcases (C16_maybe_ok _ _ _ _ _).mp h1 with ⟨e, h2, h3, rfl⟩ | ⟨a, f, b, h2, h3, h4⟩
        · simp only at h3
          subst h3
          exact ⟨_, none, .maybeNone ((ih _ (fresh _)).2 _ h2), (after_none _).symm⟩
        · simp only at h4
          subst h4
          obtain ⟨r1, l1, hm, rfl⟩ := (ih _ _).1 _ _ h2
          rw [resume_after] at h3
          obtain ⟨r2, l2, hm2, rfl⟩ := (ih _ _).1 _ _ h3
          exact ⟨r2, l1.or l2, .maybeSome hm hm2, after_after ..⟩
      · obtain ⟨a, f, h2, h3⟩ := (C16_maybe_err _ _ _ _).mp (Res.map_err.mp h)
        obtain ⟨r1, l1, hm, rfl⟩ := (ih _ _).1 _ _ h2
        rw [resume_after] at h3
        exact .maybe hm ((ih _ _).2 _ h3)
    | paren t =>
      simp only [parse]
      have hg := group_sound ih (.paren (t := t)) s
      refine ⟨fun v s' h => ?_, fun e h => ?_⟩
      · obtain ⟨⟨sp, w⟩, h1, rfl⟩ := Res.map_ok.mp h
        exact hg.1 _ _ _ h1
      · exact hg.2 _ (Res.map_err.mp h)
    | bracket t =>
      simp only [parse]
      have hg := group_sound ih (.bracket (t := t)) s
      refine ⟨fun v s' h => ?_, fun e h => ?_⟩
      · obtain ⟨⟨sp, w⟩, h1, rfl⟩ := Res.map_ok.mp h
        exact hg.1 _ _ _ h1
      · exact hg.2 _ (Res.map_err.mp h)
    | brace t =>
      simp only [parse]
      have hg := group_sound ih (.brace (t := t)) s
      refine ⟨fun v s' h => ?_, fun e h => ?_⟩
      · obtain ⟨⟨sp, w⟩, h1, rfl⟩ := Res.map_ok.mp h
        exact hg.1 _ _ _ h1
      · exact hg.2 _ (Res.map_err.mp h)
    | punctuated t p =>
      simp only [parse]
      refine ⟨fun v s' h => ?_, fun e h => ?_⟩
      · obtain ⟨r, h1, rfl⟩ := Res.map_ok.mp h
        obtain ⟨rest, left, hm, rfl⟩ := ih.term ((C18_punctuated_ok _ _ _ _ _).mp ⟨_, h1⟩)
        exact ⟨rest, left, by rw [interleave_pairs]; exact .punctuated hm, rfl⟩
      · exact .punctuated (ih.termErr ((C18_punctuated_err _ _ _ _).mp ⟨_, Res.map_err.mp h⟩))
    | separated t p =>
      simp only [parse]
      refine ⟨fun v s' h => ?_, fun e h => ?_⟩
      · obtain ⟨r, h1, rfl⟩ := Res.map_ok.mp h
        rw [separatedParse_eq] at h1
        obtain ⟨v0, s1, h2, h3⟩ := Res.bind_ok.mp h1
        obtain ⟨x, h4, h5⟩ := Res.map_ok.mp h3
        obtain ⟨r1, l1, hm, rfl⟩ := (ih _ _).1 _ _ h2
        obtain ⟨r2, l2, hm2, rfl⟩ := ih.tail (sepList_ok _ _ _ _ _ _ h4)
        refine ⟨r2, l1.or l2, ?_, after_after ..⟩
        have : Val.interleave r.inner = v0 :: x.flatMap fun x => [x.1, x.2] := by
          rw [← h5]; exact interleave_ofFirstRest [] v0 x
        rw [this]
        exact .separated hm hm2
      · rcases (C19_separated_err _ _ _ _).mp ⟨_, Res.map_err.mp h⟩ with h1 | ⟨v0, s1, h1, h2⟩
        · exact .separatedHead ((ih _ _).2 _ h1)
        · obtain ⟨r1, l1, hm, rfl⟩ := (ih _ _).1 _ _ h1
          exact .separatedTail hm (ih.tailErr h2)
    | any t =>
      simp only [parse]
      refine ⟨fun v s' h => ?_, fun e h => ?_⟩
      · obtain ⟨r, h1, rfl⟩ := Res.map_ok.mp h
        obtain ⟨rest, left, hm, rfl⟩ := ih.many ((C20_any_ok _ _ _ _).mp ⟨_, h1⟩)
        exact ⟨rest, left, .any hm, rfl⟩
      · exact absurd (Res.map_err.mp h) (C20_any_never_fails _ _ _ _)
    | leftAssoc o r =>
      simp only [parse]
      refine ⟨fun v s' h => ?_, fun e h => ?_⟩
      · obtain ⟨tree, h1, rfl⟩ := Res.map_ok.mp h
        obtain ⟨s1, h2, h3⟩ := (C21_left_assoc_ok _ _ _ _ _).mp ⟨_, h1⟩
        obtain ⟨r1, l1, hm, rfl⟩ := (ih _ _).1 _ _ h2
        obtain ⟨r2, l2, hm2, rfl⟩ := ih.tail h3
        exact ⟨r2, l1.or l2, by rw [ofLeft_reading]; exact .leftAssoc hm hm2, after_after ..⟩
      · have h1 := ((C21_left_assoc_iff_separated _ _ _ s s).2.2 e).mp (Res.map_err.mp h)
        rcases (C19_separated_err _ _ _ _).mp ⟨_, h1⟩ with h1 | ⟨v0, s1, h1, h2⟩
        · exact .leftAssocHead ((ih _ _).2 _ h1)
        · obtain ⟨r1, l1, hm, rfl⟩ := (ih _ _).1 _ _ h1
          exact .leftAssocTail hm (ih.tailErr h2)
    | rightAssoc o r =>
      simp only [parse]
      refine ⟨fun v s' h => ?_, fun e h => ?_⟩
      · obtain ⟨tree, h1, rfl⟩ := Res.map_ok.mp h
        obtain ⟨s1, h2, h3⟩ := (C22_right_assoc_ok _ _ _ _ _).mp ⟨_, h1⟩
        obtain ⟨r1, l1, hm, rfl⟩ := (ih _ _).1 _ _ h2
        obtain ⟨r2, l2, hm2, rfl⟩ := ih.tail h3
        exact ⟨r2, l1.or l2, by rw [ofRight_reading]; exact .rightAssoc hm hm2, after_after ..⟩
      · have h1 := ((C22_right_assoc_iff_separated _ _ _ s s).2.2 e).mp (Res.map_err.mp h)
        rcases (C19_separated_err _ _ _ _).mp ⟨_, h1⟩ with h1 | ⟨v0, s1, h1, h2⟩
        · exact .rightAssocHead ((ih _ _).2 _ h1)
        · obtain ⟨r1, l1, hm, rfl⟩ := (ih _ _).1 _ _ h1
          exact .rightAssocTail hm (ih.tailErr h2)
    | either l r =>
      simp only [parse]
      refine ⟨fun v s' h => ?_, fun e h => ?_⟩
      · obtain ⟨w, h1, rfl⟩ := Res.map_ok.mp h
        cases w with
        | left a =>
          obtain ⟨f, h2, rfl⟩ := ((C23_either_ok _ _ s s').1 a).mp h1
          obtain ⟨r1, l1, hm, rfl⟩ := (ih _ _).1 _ _ h2
          exact ⟨r1, l1, .eitherLeft hm, resume_after ..⟩
        | right a =>
          obtain ⟨e, f, h2, h3, rfl⟩ := ((C23_either_ok _ _ s s').2 a).mp h1
          obtain ⟨r1, l1, hm, rfl⟩ := (ih _ _).1 _ _ h3
          exact ⟨r1, l1, .eitherRight ((ih _ (fresh _)).2 _ h2) hm, resume_after ..⟩
      · obtain ⟨⟨e1, h1⟩, e2, h2⟩ := (C23_either_err _ _ s).mp ⟨e, Res.map_err.mp h⟩
        exact .either ((ih _ (fresh _)).2 _ h1) ((ih _ (fresh _)).2 _ h2)

end Parsel
