import Verif.Proofs.Combinators
import Verif.Props.Derive

/-! Properties of the helper node types of ast.rs: C16-C26.  `p`, `t`, `l`, `r`, `o` stand for the `Parse` implementations of the
type parameters and are arbitrary. -/

namespace Parsel
open Spec

variable {P T L R O X : Type}

/-! #### C16 -/

/-- **C16.** `Maybe<P, T>` is absent, with nothing consumed, exactly when `P` does not parse; it is present exactly when `P`
parses and `T` parses right after it. -/
theorem C16_maybe_ok (p : Parser P) (t : Parser T) (s s' : PState) (m : Maybe P T) :
    maybeParse p t s = .ok m s' ↔
      (∃ e, p (fresh s) = .err e ∧ m.inner = none ∧ s' = s) ∨
      (∃ a f b, p (fresh s) = .ok a f ∧ t (resume s f) = .ok b s' ∧ m.inner = some (a, b)) := by
  obtain ⟨m⟩ := m
  unfold maybeParse
  rw [fork_eq_fresh]
  cases hp : p (fresh s) with
  | err e => simp [Maybe.new, eq_comm]
  | panic => simp
  | oof => simp
  | ok a f =>
    simp only [advanceTo_eq_resume]
    constructor
    · intro h
      obtain ⟨b, s1, h1, h2⟩ := Res.bind_ok.1 h
      simp only [Res.ok.injEq, Maybe.mk.injEq] at h2
      obtain ⟨rfl, rfl⟩ := h2
      exact .inr ⟨a, f, b, rfl, h1, rfl⟩
    · rintro (⟨e, h, -⟩ | ⟨a', f', b, h, h1, h2⟩)
      · cases h
      · injection h with h3 h4; subst h3; subst h4
        change m = _ at h2; subst h2
        rw [h1]; rfl

/-- **C16** (failure). `Maybe<P, T>` fails exactly when `P` parses and `T`, right after it, fails; never because of `P`. -/
theorem C16_maybe_err (p : Parser P) (t : Parser T) (s : PState) (e : Err) :
    maybeParse p t s = .err e ↔ ∃ a f, p (fresh s) = .ok a f ∧ t (resume s f) = .err e := by
  unfold maybeParse
  rw [fork_eq_fresh]
  cases hp : p (fresh s) with
  | err e => simp
  | panic => simp
  | oof => simp
  | ok a f =>
    simp only [advanceTo_eq_resume]
    constructor
    · intro h
      rcases Res.bind_err.1 h with h | ⟨_, _, _, h⟩
      · exact ⟨a, f, rfl, h⟩
      · cases h
    · rintro ⟨_, _, h, h1⟩
      injection h with h2 h3; subst h3
      rw [h1]; rfl

/-- All three outcomes occur: absent, present, prefix without rest. -/
example : (∃ s', maybeParse (keywordParse "x".toList) wordParse exState = .ok ⟨none⟩ s') ∧
    (∃ a b s', maybeParse (keywordParse "a".toList) wordParse exState = .ok ⟨some (a, b)⟩ s') ∧
    (∃ e, maybeParse (keywordParse "a".toList) (keywordParse "x".toList) exState = .err e) :=
  ⟨⟨_, rfl⟩, ⟨_, _, _, rfl⟩, ⟨_, rfl⟩⟩

/-! #### C17 -/

theorem delimited_ok (d : Delim) (p : Parser T) (s s' : PState) (sp : Span) (v : T) :
    delimited d p s = .ok (sp, v) s' ↔
      ∃ inner rest s1, Next s.cur (.group d inner sp) rest ∧ p ⟨inner, sp.closeOf, s.unexp⟩ = .ok v s1 ∧
        s'.cur = rest ∧ s'.scope = s.scope ∧ s'.unexp = s1.dropUnexp := by
  unfold delimited
  cases hu : uncons s.cur with
  | none =>
    simp only [reduceCtorEq, false_iff]
    rintro ⟨inner, rest, s1, hn, -⟩
    rw [← uncons_iff, hu] at hn; cases hn
  | some x =>
    obtain ⟨tt, rest⟩ := x
    cases tt with
    | group d' inner sp' =>
      simp only []
      split
      · rename_i hd
        subst hd
        constructor
        · intro h
          obtain ⟨a, s1, h1, h2⟩ := Res.bind_ok.1 h
          injection h2 with h2 h3
          injection h2 with h4 h5
          subst h3; subst h4; subst h5
          exact ⟨inner, rest, s1, (uncons_iff _ _ _).1 hu, h1, rfl, rfl, rfl⟩
        · rintro ⟨inner1, rest1, s1, hn, hp, h1, h2, h3⟩
          rw [← uncons_iff, hu] at hn
          simp only [Option.some.injEq, Prod.mk.injEq, TT.group.injEq] at hn
          obtain ⟨⟨-, rfl, rfl⟩, rfl⟩ := hn
          rw [hp]
          obtain ⟨c, sc, u⟩ := s'
          simp only at h1 h2 h3
          subst h1; subst h2; subst h3; rfl
      · rename_i hd
        simp only [reduceCtorEq, false_iff]
        rintro ⟨inner1, rest1, s1, hn, -⟩
        rw [← uncons_iff, hu] at hn
        simp only [Option.some.injEq, Prod.mk.injEq, TT.group.injEq] at hn
        exact hd hn.1.1
    | _ =>
      simp only [reduceCtorEq, false_iff]
      rintro ⟨inner, rest, s1, hn, -⟩
      rw [← uncons_iff, hu] at hn; simp at hn

theorem dropUnexp_iff (s : PState) (sp : Span) :
    s.dropUnexp = some sp ↔ s.unexp = some sp ∨ (s.unexp = none ∧ ∃ t r, Next s.cur t r ∧ t.span = sp) := by
  unfold PState.dropUnexp unexpectedSpan
  cases hu : s.unexp with
  | some x => simp
  | none =>
    simp only [Option.orElse_none, Option.map_eq_some_iff, reduceCtorEq, true_and, false_or]
    constructor
    · rintro ⟨⟨t, r⟩, h1, h2⟩; exact ⟨t, r, (uncons_iff _ _ _).1 h1, h2⟩
    · rintro ⟨t, r, h1, h2⟩; exact ⟨(t, r), (uncons_iff _ _ _).2 h1, h2⟩

/-- What parsing a delimited node means: the next token is a group of delimiter `d` whose contents, as a stream of their own
ending at the closing delimiter, start with the inner production; exactly this one token tree is consumed; the first unread
token, if one was already recorded or is left in the group, stays recorded. -/
def Spec.IsDelimited (d : Delim) (p : Parser T) (s : PState) (sp : Span) (v : T) (s' : PState) : Prop :=
  ∃ inner rest s1, Next s.cur (.group d inner sp) rest ∧ p ⟨inner, sp.closeOf, s.unexp⟩ = .ok v s1 ∧
    s'.cur = rest ∧ s'.scope = s.scope ∧
    ∀ x, s'.unexp = some x ↔ s1.unexp = some x ∨ (s1.unexp = none ∧ ∃ t r, Next s1.cur t r ∧ t.span = x)

theorem delimited_isDelimited (d : Delim) (p : Parser T) (s s' : PState) (sp : Span) (v : T) :
    delimited d p s = .ok (sp, v) s' ↔ IsDelimited d p s sp v s' := by
  rw [delimited_ok]
  unfold IsDelimited
  simp only [← dropUnexp_iff]
  constructor
  · rintro ⟨i, r, s1, h1, h2, h3, h4, h5⟩
    exact ⟨i, r, s1, h1, h2, h3, h4, by simp [h5]⟩
  · rintro ⟨i, r, s1, h1, h2, h3, h4, h5⟩
    exact ⟨i, r, s1, h1, h2, h3, h4, Option.ext h5⟩

/-- **C17.** `Paren`, `Bracket` and `Brace` accept exactly one group of their own delimiter. -/
theorem C17_delimited_ok (p : Parser T) (s s' : PState) (sp : Span) (v : T) :
    (parenParse p s = .ok (sp, v) s' ↔ IsDelimited .paren p s sp v s') ∧
    (bracketParse p s = .ok (sp, v) s' ↔ IsDelimited .bracket p s sp v s') ∧
    (braceParse p s = .ok (sp, v) s' ↔ IsDelimited .brace p s sp v s') :=
  ⟨delimited_isDelimited .., delimited_isDelimited .., delimited_isDelimited ..⟩

theorem delimited_err (d : Delim) (p : Parser T) (s : PState) (e : Err) :
    delimited d p s = .err e ↔
      (∃ inner sp rest, Next s.cur (.group d inner sp) rest ∧ p ⟨inner, sp.closeOf, s.unexp⟩ = .err e) ∨
      ((∀ inner sp rest, ¬ Next s.cur (.group d inner sp) rest) ∧ e = s.error (delimMsg d)) := by
  unfold delimited
  simp only [← uncons_iff]
  cases hu : uncons s.cur with
  | none => simp [eq_comm]
  | some x =>
    obtain ⟨tt, rest⟩ := x
    cases tt with
    | group d' inner sp' =>
      simp only []
      split
      · rename_i hd
        subst hd
        constructor
        · intro h
          rcases Res.bind_err.1 h with h | ⟨_, _, _, h⟩
          · exact .inl ⟨inner, sp', rest, rfl, h⟩
          · cases h
        · rintro (⟨i, sp, r, h, h1⟩ | ⟨h, -⟩)
          · simp only [Option.some.injEq, Prod.mk.injEq, TT.group.injEq, true_and] at h
            obtain ⟨⟨rfl, rfl⟩, rfl⟩ := h
            rw [h1]; rfl
          · exact absurd rfl (h inner sp' rest)
      · rename_i hd
        constructor
        · intro h
          injection h with h
          refine .inr ⟨?_, h.symm⟩
          intro i sp r h
          simp only [Option.some.injEq, Prod.mk.injEq, TT.group.injEq] at h
          exact hd h.1.1
        · rintro (⟨i, sp, r, h, h1⟩ | ⟨h, h1⟩)
          · simp only [Option.some.injEq, Prod.mk.injEq, TT.group.injEq] at h
            exact absurd h.1.1 hd
          · rw [h1]
    | _ => simp [eq_comm]

/-- **C17** (failure). They fail exactly when the next token is not such a group, or the inner production fails on its contents
(with that error). -/
theorem C17_delimited_err (p : Parser T) (s : PState) (e : Err) :
    (parenParse p s = .err e ↔
      (∃ inner sp rest, Next s.cur (.group .paren inner sp) rest ∧ p ⟨inner, sp.closeOf, s.unexp⟩ = .err e) ∨
      ((∀ inner sp rest, ¬ Next s.cur (.group .paren inner sp) rest) ∧ e = s.error "expected parentheses".toList)) ∧
    (bracketParse p s = .err e ↔
      (∃ inner sp rest, Next s.cur (.group .bracket inner sp) rest ∧ p ⟨inner, sp.closeOf, s.unexp⟩ = .err e) ∨
      ((∀ inner sp rest, ¬ Next s.cur (.group .bracket inner sp) rest) ∧ e = s.error "expected square brackets".toList)) ∧
    (braceParse p s = .err e ↔
      (∃ inner sp rest, Next s.cur (.group .brace inner sp) rest ∧ p ⟨inner, sp.closeOf, s.unexp⟩ = .err e) ∨
      ((∀ inner sp rest, ¬ Next s.cur (.group .brace inner sp) rest) ∧ e = s.error "expected curly braces".toList)) :=
  ⟨delimited_err .., delimited_err .., delimited_err ..⟩

/-- **C17** (printing). A delimited node prints as exactly one group of its delimiter, around exactly the inner tokens, so
parsing it consumes exactly what it printed. -/
theorem C17_delimited_print (d : Delim) (hd : d ≠ .none) (sp : Span) (inner rest : List TT) (p : Parser T) (s s1 : PState) (v : T)
    (hs : s.cur = delimToTokens d sp inner ++ rest) (hp : p ⟨inner, sp.closeOf, s.unexp⟩ = .ok v s1) :
    ∃ s', delimited d p s = .ok (sp, v) s' ∧ s'.cur = rest := by
  refine ⟨⟨rest, s.scope, s1.dropUnexp⟩, ?_, rfl⟩
  rw [delimited_ok]
  refine ⟨inner, rest, s1, ?_, hp, rfl, rfl, rfl⟩
  rw [hs]
  exact .here (by intro i sp' h; injection h with h; exact hd h)

/-- `(a) b`: a parenthesised word, one tree consumed; with leftovers `(a b)` they are recorded. -/
example : (∃ v s', parenParse wordParse ⟨[.group .paren [exIdent "a" 1] ⟨⟨1, 0⟩, ⟨1, 3⟩⟩, exIdent "b" 4], .callSite, none⟩
      = .ok v s' ∧ s'.cur.length = 1 ∧ s'.unexp = none) ∧
    (∃ v s', parenParse wordParse ⟨[.group .paren [exIdent "a" 1, exIdent "b" 3] ⟨⟨1, 0⟩, ⟨1, 5⟩⟩], .callSite, none⟩
      = .ok v s' ∧ s'.unexp = some ⟨⟨1, 3⟩, ⟨1, 4⟩⟩) ∧
    (∃ e, bracketParse wordParse ⟨[.group .paren [exIdent "a" 1] ⟨⟨1, 0⟩, ⟨1, 3⟩⟩], .callSite, none⟩ = .err e) :=
  ⟨⟨_, _, rfl, rfl, rfl⟩, ⟨_, _, rfl, rfl⟩, ⟨_, rfl⟩⟩

/-! #### C18 -/

/-- **C18.** `Punctuated<T, P>` succeeds (after finitely many rounds of its loop) exactly if the entire remaining stream is
`T P T P ...` with an optional trailing `P`, or nothing; the pairs are stored in order. -/
theorem C18_punctuated_ok (t : Parser T) (p : Parser P) (s s' : PState) (r : Punct T P) :
    (∃ fuel, punctuatedParse fuel t p s = .ok r s') ↔ Terminated t p s r.pairs s' := by
  constructor
  · rintro ⟨n, h⟩
    rw [punctuatedParse_eq] at h
    obtain ⟨x, h1, h2⟩ := Res.map_ok.1 h
    subst h2
    exact termList_ok t p n s s' x h1
  · intro h
    obtain ⟨n, x, hx, h1⟩ := terminated_termList t p s s' _ h
    refine ⟨n, ?_⟩
    rw [punctuatedParse_eq, h1]
    exact congrArg (fun y => Res.ok y s') (pairs_injective hx)

/-- **C18.** Nothing of the stream is left after success. -/
theorem C18_punctuated_consumes_all (fuel : Nat) (t : Parser T) (p : Parser P) (s s' : PState) (r : Punct T P)
    (h : punctuatedParse fuel t p s = .ok r s') : s'.cur = [] :=
  ((C18_punctuated_ok t p s s' r).1 ⟨fuel, h⟩).end_empty

/-- **C18** (failure). It fails exactly when, reading `T P T P ...`, an item or a separator is due (something is left) but fails. -/
theorem C18_punctuated_err (t : Parser T) (p : Parser P) (s : PState) (e : Err) :
    (∃ fuel, punctuatedParse fuel t p s = .err e) ↔ TerminatedErr t p s e := by
  constructor
  · rintro ⟨n, h⟩
    rw [punctuatedParse_eq] at h
    exact termList_err t p n s e (Res.map_err.1 h)
  · intro h
    obtain ⟨n, h1⟩ := terminatedErr_termList t p s e h
    exact ⟨n, by rw [punctuatedParse_eq, h1]; rfl⟩

/-- The whole rest of the stream is a sequence of items `t` and nothing else. -/
inductive Spec.AllItems (t : Parser T) : PState → List T → PState → Prop
  | nil {s} : s.cur = [] → AllItems t s [] s
  | cons {s v s1 vs s'} : s.cur ≠ [] → t s = .ok v s1 → AllItems t s1 vs s' → AllItems t s (v :: vs) s'

theorem Spec.Terminated.nonempty {t : Parser T} {p : Parser P} {s s' : PState} {ps : List (Pair T P)}
    (h : Terminated t p s ps s') (hs : s.cur ≠ []) : ps ≠ [] := by
  cases h with
  | nothing h => exact absurd h hs
  | last _ _ _ => simp
  | more _ _ _ _ _ => simp

theorem many_aux (t : Parser T) (s s' : PState) (ps : List (Pair T Unit)) (h : Terminated t notEofParse s ps s') :
    ∃ r : Punct T Unit, r.pairs = ps ∧ (r.inner = [] ∨ r.last.isSome) ∧ AllItems t s r.values s' := by
  induction h with
  | nothing h => exact ⟨⟨[], none⟩, rfl, .inl rfl, .nil h⟩
  | @last s v s1 h0 h1 h2 => exact ⟨⟨[], some v⟩, rfl, .inl rfl, .cons h0 h1 (.nil h2)⟩
  | @more s v s1 q s2 rest s'' h0 h1 h2 h3 h4 ih =>
    obtain ⟨r, hr, hl, ha⟩ := ih
    have hs2 : s2 = s1 := by
      unfold notEofParse at h3
      split at h3
      · cases h3
      · injection h3 with _ h3; exact h3.symm
    subst hs2
    have hne := h4.nonempty h2
    refine ⟨⟨(v, q) :: r.inner, r.last⟩, by rw [← hr]; simp [Punct.pairs], .inr ?_, ?_⟩
    · rcases hl with hl | hl
      · cases hlast : r.last with
        | some _ => rfl
        | none => exfalso; apply hne; rw [← hr]; simp [Punct.pairs, hl, hlast]
      · exact hl
    · simpa [Punct.values] using AllItems.cons h0 h1 ha

theorem allItems_terminated (t : Parser T) (s s' : PState) (vs : List T) (h : AllItems t s vs s') :
    ∃ r : Punct T Unit, r.values = vs ∧ Terminated t notEofParse s r.pairs s' := by
  induction h with
  | nil h => exact ⟨⟨[], none⟩, rfl, .nothing h⟩
  | @cons s v s1 vs s' h0 h1 _ ih =>
    obtain ⟨r, hr, ht⟩ := ih
    by_cases hs : s1.cur = []
    · have hnil : r.pairs = [] ∧ s' = s1 := by
        generalize hps : r.pairs = ps at ht
        cases ht with
        | nothing _ => exact ⟨rfl, rfl⟩
        | last h _ _ => exact absurd hs h
        | more h _ _ _ _ => exact absurd hs h
      have hv : vs = [] := by
        have h1 := hnil.1
        rw [← hr]
        obtain ⟨i, l⟩ := r
        cases l <;> simp [Punct.pairs] at h1
        subst h1; rfl
      refine ⟨⟨[], some v⟩, by simp [Punct.values, hv], ?_⟩
      rw [hnil.2]
      exact .last h0 h1 hs
    · refine ⟨⟨(v, ()) :: r.inner, r.last⟩, by rw [← hr]; simp [Punct.values], ?_⟩
      have : (Punct.mk ((v, ()) :: r.inner) r.last).pairs = .punctuated v () :: r.pairs := by simp [Punct.pairs]
      rw [this]
      refine .more h0 h1 hs ?_ ht
      unfold notEofParse
      rw [if_neg]
      simpa [isEmpty_iff] using hs

/-- **C18** (`Many`). `Many<T>` succeeds with items `vs` exactly if the entire rest of the stream is the sequence `vs` of `T`s; it
never stores a trailing separator. -/
theorem C18_many_ok (t : Parser T) (s s' : PState) (vs : List T) :
    (∃ fuel r, manyParse fuel t s = .ok r s' ∧ r.values = vs ∧ (r.inner = [] ∨ r.last.isSome)) ↔ AllItems t s vs s' := by
  constructor
  · rintro ⟨n, r, h, rfl, -⟩
    have := (C18_punctuated_ok t notEofParse s s' r).1 ⟨n, h⟩
    obtain ⟨r', h1, -, h2⟩ := many_aux t s s' _ this
    rw [← pairs_injective h1]; exact h2
  · intro h
    obtain ⟨r, hr, ht⟩ := allItems_terminated t s s' vs h
    obtain ⟨n, hn⟩ := (C18_punctuated_ok t notEofParse s s' r).2 ht
    obtain ⟨r', h1, h2, -⟩ := many_aux t s s' _ ht
    rw [pairs_injective h1] at h2
    exact ⟨n, r, hn, hr, h2⟩

/-- `a b` as `Punctuated<Word, b>` (a trailing separator), as `Many<Word>`, and a failing one. -/
example : (∃ v q s', punctuatedParse 5 wordParse (keywordParse "b".toList) exState = .ok ⟨[(v, q)], none⟩ s') ∧
    (∃ v w q s', manyParse 5 wordParse exState = .ok ⟨[(v, q)], some w⟩ s') ∧
    (∃ e, punctuatedParse 5 wordParse (keywordParse "c".toList) exState = .err e) :=
  ⟨⟨_, _, _, rfl⟩, ⟨_, _, _, _, rfl⟩, ⟨_, rfl⟩⟩

/-! #### C19 -/

/-- **C19.** `Separated<T, P>` succeeds exactly if the stream starts with `T (P T)*`, the repetition stopping at the first place
where `P` does not parse; the result decomposes into exactly the parsed sequence. -/
theorem C19_separated_ok (t : Parser T) (p : Parser P) (s s' : PState) (r : Separated T P) :
    (∃ fuel, separatedParse fuel t p s = .ok r s') ↔
      r.inner.last.isSome ∧ ∃ head s1 rest, r.intoFirstRest = some (head, rest) ∧ t s = .ok head s1 ∧ SepTail t p s1 rest s' := by
  constructor
  · rintro ⟨n, h⟩
    rw [separatedParse_eq] at h
    obtain ⟨v0, s1, h1, h⟩ := Res.bind_ok.1 h
    obtain ⟨x, h2, h3⟩ := Res.map_ok.1 h
    subst h3
    exact ⟨ofFirstRest_last_isSome _ _ _, v0, s1, x, intoFirstRest_ofFirstRest v0 x, h1, sepList_ok t p n s1 s' x h2⟩
  · rintro ⟨hl, v0, s1, x, hr, h1, h2⟩
    obtain ⟨n, h3⟩ := sepTail_sepList t p s1 s' x h2
    refine ⟨n, ?_⟩
    rw [separatedParse_eq, h1]
    simp only [Res.bind, h3, Res.map]
    obtain ⟨w0, y, hy⟩ := exists_ofFirstRest r.inner hl
    have : r = ⟨ofFirstRest [] w0 y⟩ := by rw [← hy]
    rw [this, intoFirstRest_ofFirstRest] at hr
    simp only [Option.some.injEq, Prod.mk.injEq] at hr
    rw [this, hr.1, hr.2]

/-- **C19** (failure). It fails exactly when there is no first item, or some separator is not followed by an item. -/
theorem C19_separated_err (t : Parser T) (p : Parser P) (s : PState) (e : Err) :
    (∃ fuel, separatedParse fuel t p s = .err e) ↔
      t s = .err e ∨ ∃ head s1, t s = .ok head s1 ∧ SepTailErr t p s1 e := by
  constructor
  · rintro ⟨n, h⟩
    rw [separatedParse_eq] at h
    rcases Res.bind_err.1 h with h | ⟨v0, s1, h1, h⟩
    · exact .inl h
    · exact .inr ⟨v0, s1, h1, sepList_err t p n s1 e (Res.map_err.1 h)⟩
  · rintro (h | ⟨v0, s1, h1, h⟩)
    · exact ⟨0, by rw [separatedParse_eq, h]; rfl⟩
    · obtain ⟨n, h2⟩ := sepTailErr_sepList t p s1 e h
      exact ⟨n, by rw [separatedParse_eq, h1]; simp [Res.bind, h2, Res.map]⟩

/-- `a , b`: one separator; `a b`: stops in front of `b`; `a ,`: error. -/
def exComma (c : Nat) : TT := .punct ',' .alone ⟨⟨1, c⟩, ⟨1, c + 1⟩⟩
example : (∃ v w q s', separatedParse 5 wordParse (parsePunct ",".toList) ⟨[exIdent "a" 0, exComma 1, exIdent "b" 2], .callSite, none⟩
      = .ok ⟨⟨[(v, q)], some w⟩⟩ s' ∧ s'.cur = []) ∧
    (∃ v s', separatedParse 5 wordParse (parsePunct ",".toList) exState = .ok ⟨⟨[], some v⟩⟩ s' ∧ s'.cur.length = 1) ∧
    (∃ e, separatedParse 5 wordParse (parsePunct ",".toList) ⟨[exIdent "a" 0, exComma 1], .callSite, none⟩ = .err e) :=
  ⟨⟨_, _, _, _, rfl, rfl⟩, ⟨_, _, rfl, rfl⟩, ⟨_, rfl⟩⟩

/-! #### C20 -/

/-- **C20.** `Any<T>` collects consecutive `T`s and stops in front of the first place where `T` fails. -/
theorem C20_any_ok (t : Parser T) (s s' : PState) (r : AnyV T) :
    (∃ fuel, anyParse fuel t s = .ok r s') ↔ Greedy t s r.inner s' := by
  obtain ⟨r⟩ := r
  constructor
  · rintro ⟨n, h⟩
    rw [anyParse_eq] at h
    obtain ⟨x, h1, h2⟩ := Res.map_ok.1 h
    injection h2 with h2; subst h2
    exact anyList_ok t n s s' x h1
  · intro h
    obtain ⟨n, h1⟩ := greedy_anyList t s s' r h
    exact ⟨n, by rw [anyParse_eq, h1]; rfl⟩

/-- **C20.** `Any<T>` never fails. -/
theorem C20_any_never_fails (fuel : Nat) (t : Parser T) (s : PState) (e : Err) : anyParse fuel t s ≠ .err e := by
  rw [anyParse_eq]
  intro h
  rw [Res.map_err] at h
  induction fuel generalizing s with
  | zero => cases h
  | succ n ih =>
    simp only [anyList] at h
    cases hp : t s.fork with
    | ok v f => rw [hp] at h; exact ih _ (Res.map_err.1 h)
    | err _ => rw [hp] at h; cases h
    | panic => rw [hp] at h; cases h
    | oof => rw [hp] at h; cases h

example : (∃ v s', anyParse 5 (keywordParse "a".toList) exState = .ok ⟨[v]⟩ s' ∧ s'.cur.length = 1) ∧
    (∃ s', anyParse 5 (keywordParse "b".toList) exState = .ok ⟨[]⟩ s' ∧ s'.cur.length = 2) :=
  ⟨⟨_, _, rfl, rfl⟩, ⟨_, rfl, rfl⟩⟩

/-! #### C21, C22 -/

theorem leftAssocParse_eq (n : Nat) (o : Parser O) (r : Parser R) (s : PState) :
    leftAssocParse n o r s = (r s).bind fun v0 s1 => (sepList r o n s1).map fun x => leftLoop (.rhs v0) x := by
  unfold leftAssocParse
  rw [separatedParse_eq]
  cases r s with
  | ok v0 s1 =>
    cases h : sepList r o n s1 <;> simp [Res.bind, Res.map, h, leftAssocOf_ofFirstRest, Res.ofOption]
  | _ => rfl

theorem rightAssocParse_eq (n : Nat) (o : Parser O) (r : Parser L) (s : PState) :
    rightAssocParse n o r s = (r s).bind fun v0 s1 => (sepList r o n s1).map fun x =>
      rightLoop (.lhs (shiftLast v0 x).2) (shiftLast v0 x).1.reverse := by
  unfold rightAssocParse
  rw [separatedParse_eq]
  cases r s with
  | ok v0 s1 =>
    cases h : sepList r o n s1 <;> simp [Res.bind, Res.map, h, rightAssocOf_ofFirstRest, Res.ofOption]
  | _ => rfl

/-- **C21.** `LeftAssoc<O, R>` parses to `tree` exactly if the in-order reading of `tree` is the sequence at the front of the
stream. (The type of the tree makes every right operand a bare `R`; so the tree is the left-leaning one.) -/
theorem C21_left_assoc_ok (o : Parser O) (r : Parser R) (s s' : PState) (tree : LeftAssoc O R) :
    (∃ fuel, leftAssocParse fuel o r s = .ok tree s') ↔
      ∃ s1, r s = .ok (leftReading tree).1 s1 ∧ SepTail r o s1 (leftReading tree).2 s' := by
  constructor
  · rintro ⟨n, h⟩
    rw [leftAssocParse_eq] at h
    obtain ⟨v0, s1, h1, h⟩ := Res.bind_ok.1 h
    obtain ⟨x, h2, h3⟩ := Res.map_ok.1 h
    subst h3
    simp only [leftLoop_reading, leftReading, List.nil_append]
    exact ⟨s1, h1, sepList_ok r o n s1 s' x h2⟩
  · rintro ⟨s1, h1, h2⟩
    obtain ⟨n, h3⟩ := sepTail_sepList r o s1 s' _ h2
    refine ⟨n, ?_⟩
    rw [leftAssocParse_eq, h1]
    simp only [Res.bind, h3, Res.map]
    congr 1
    apply leftReading_injective
    simp [leftLoop_reading, leftReading]

/-- **C21.** It accepts exactly what `Separated` accepts, with the same sequence. -/
theorem C21_left_assoc_iff_separated (fuel : Nat) (o : Parser O) (r : Parser R) (s s' : PState) :
    (∀ tree, leftAssocParse fuel o r s = .ok tree s' → ∃ seq, separatedParse fuel r o s = .ok seq s' ∧
      seq.intoFirstRest = some (leftReading tree)) ∧
    (∀ seq, separatedParse fuel r o s = .ok seq s' → ∃ tree, leftAssocParse fuel o r s = .ok tree s' ∧
      seq.intoFirstRest = some (leftReading tree)) ∧
    (∀ e, leftAssocParse fuel o r s = .err e ↔ separatedParse fuel r o s = .err e) := by
  rw [leftAssocParse_eq, separatedParse_eq]
  cases r s with
  | err e => simp [Res.bind]
  | panic => simp [Res.bind]
  | oof => simp [Res.bind]
  | ok v0 s1 =>
    simp only [Res.bind]
    cases sepList r o fuel s1 with
    | err e => simp [Res.map]
    | panic => simp [Res.map]
    | oof => simp [Res.map]
    | ok x s2 =>
      simp only [Res.map, Res.ok.injEq, reduceCtorEq, implies_true, and_true]
      refine ⟨?_, ?_⟩
      · rintro tree ⟨rfl, rfl⟩
        exact ⟨_, ⟨rfl, rfl⟩, by rw [intoFirstRest_ofFirstRest, leftLoop_reading]; simp [leftReading]⟩
      · rintro seq ⟨rfl, rfl⟩
        exact ⟨_, ⟨rfl, rfl⟩, by rw [intoFirstRest_ofFirstRest, leftLoop_reading]; simp [leftReading]⟩

/-- **C21** (printing). Printing the tree gives the sequence back. -/
theorem C21_left_assoc_print (f : O → List X) (g : R → List X) (tree : LeftAssoc O R) :
    tree.toTokens f g = g (leftReading tree).1 ++ (leftReading tree).2.flatMap fun x => f x.1 ++ g x.2 := by
  induction tree with
  | rhs r => simp [LeftAssoc.toTokens, leftReading]
  | binary l op r ih => simp [LeftAssoc.toTokens, leftReading, ih]

/-- **C22.** `RightAssoc<O, L>` parses to `tree` exactly if the in-order reading of `tree` is the sequence at the front of the
stream. (The type of the tree makes every left operand a bare `L`; so the tree is the right-leaning one.) -/
theorem C22_right_assoc_ok (o : Parser O) (l : Parser L) (s s' : PState) (tree : RightAssoc O L) :
    (∃ fuel, rightAssocParse fuel o l s = .ok tree s') ↔
      ∃ s1, l s = .ok (rightReading tree).1 s1 ∧ SepTail l o s1 (rightReading tree).2 s' := by
  constructor
  · rintro ⟨n, h⟩
    rw [rightAssocParse_eq] at h
    obtain ⟨v0, s1, h1, h⟩ := Res.bind_ok.1 h
    obtain ⟨x, h2, h3⟩ := Res.map_ok.1 h
    subst h3
    simp only [rightLoop_reading]
    exact ⟨s1, h1, sepList_ok l o n s1 s' x h2⟩
  · rintro ⟨s1, h1, h2⟩
    obtain ⟨n, h3⟩ := sepTail_sepList l o s1 s' _ h2
    refine ⟨n, ?_⟩
    rw [rightAssocParse_eq, h1]
    simp only [Res.bind, h3, Res.map]
    congr 1
    apply rightReading_injective
    simp [rightLoop_reading]

/-- **C22.** It accepts exactly what `Separated` accepts, with the same sequence. -/
theorem C22_right_assoc_iff_separated (fuel : Nat) (o : Parser O) (l : Parser L) (s s' : PState) :
    (∀ tree, rightAssocParse fuel o l s = .ok tree s' → ∃ seq, separatedParse fuel l o s = .ok seq s' ∧
      seq.intoFirstRest = some (rightReading tree)) ∧
    (∀ seq, separatedParse fuel l o s = .ok seq s' → ∃ tree, rightAssocParse fuel o l s = .ok tree s' ∧
      seq.intoFirstRest = some (rightReading tree)) ∧
    (∀ e, rightAssocParse fuel o l s = .err e ↔ separatedParse fuel l o s = .err e) := by
  rw [rightAssocParse_eq, separatedParse_eq]
  cases l s with
  | err e => simp [Res.bind]
  | panic => simp [Res.bind]
  | oof => simp [Res.bind]
  | ok v0 s1 =>
    simp only [Res.bind]
    cases sepList l o fuel s1 with
    | err e => simp [Res.map]
    | panic => simp [Res.map]
    | oof => simp [Res.map]
    | ok x s2 =>
      simp only [Res.map, Res.ok.injEq, reduceCtorEq, implies_true, and_true]
      refine ⟨?_, ?_⟩
      · rintro tree ⟨rfl, rfl⟩
        exact ⟨_, ⟨rfl, rfl⟩, by rw [intoFirstRest_ofFirstRest, rightLoop_reading]⟩
      · rintro seq ⟨rfl, rfl⟩
        exact ⟨_, ⟨rfl, rfl⟩, by rw [intoFirstRest_ofFirstRest, rightLoop_reading]⟩

/-- **C22** (printing). Printing the tree gives the sequence back. -/
theorem C22_right_assoc_print (f : O → List X) (g : L → List X) (tree : RightAssoc O L) :
    tree.toTokens f g = g (rightReading tree).1 ++ (rightReading tree).2.flatMap fun x => f x.1 ++ g x.2 := by
  induction tree with
  | lhs r => simp [RightAssoc.toTokens, rightReading]
  | binary l op r ih => simp [RightAssoc.toTokens, rightReading, ih]

/-- `a , b , c` as both trees. -/
def exSeq : PState := ⟨[exIdent "a" 0, exComma 1, exIdent "b" 2, exComma 3, exIdent "c" 4], .callSite, none⟩
example : (∃ a b c o1 o2 s', leftAssocParse 5 (parsePunct ",".toList) wordParse exSeq
      = .ok (.binary (.binary (.rhs a) o1 b) o2 c) s') ∧
    (∃ a b c o1 o2 s', rightAssocParse 5 (parsePunct ",".toList) wordParse exSeq
      = .ok (.binary a o1 (.binary b o2 (.lhs c))) s') :=
  ⟨⟨_, _, _, _, _, _, rfl⟩, ⟨_, _, _, _, _, _, rfl⟩⟩

/-! #### C23 -/

/-- **C23.** `Either<L, R>` is `Left` exactly if `L` parses, `Right` exactly if `L` fails and `R`, from the same position, parses; it
consumes what the chosen side consumes. -/
theorem C23_either_ok (l : Parser L) (r : Parser R) (s s' : PState) :
    (∀ x, eitherParse l r s = .ok (.left x) s' ↔ ∃ f, l (fresh s) = .ok x f ∧ s' = resume s f) ∧
    (∀ y, eitherParse l r s = .ok (.right y) s' ↔
      ∃ e f, l (fresh s) = .err e ∧ r (fresh s) = .ok y f ∧ s' = resume s f) := by
  unfold eitherParse
  rw [fork_eq_fresh]
  cases l (fresh s) with
  | ok x f =>
    simp [advanceTo_eq_resume, eq_comm]
    intro y
    constructor
    · rintro ⟨rfl, rfl⟩; exact ⟨_, ⟨rfl, rfl⟩, rfl⟩
    · rintro ⟨_, ⟨rfl, rfl⟩, rfl⟩; exact ⟨rfl, rfl⟩
  | panic => simp
  | oof => simp
  | err e =>
    cases r (fresh s) with
    | ok x f =>
      simp [advanceTo_eq_resume, eq_comm]
      intro y
      constructor
      · rintro ⟨rfl, rfl⟩; exact ⟨_, ⟨rfl, rfl⟩, rfl⟩
      · rintro ⟨_, ⟨rfl, rfl⟩, rfl⟩; exact ⟨rfl, rfl⟩
    | _ => simp

/-- **C23** (failure). It fails exactly if both sides fail. -/
theorem C23_either_err (l : Parser L) (r : Parser R) (s : PState) :
    (∃ e, eitherParse l r s = .err e) ↔ (∃ e, l (fresh s) = .err e) ∧ (∃ e, r (fresh s) = .err e) := by
  unfold eitherParse
  rw [fork_eq_fresh]
  cases l (fresh s) with
  | err e => cases r (fresh s) <;> simp
  | _ => simp

example : (∃ x s', eitherParse (keywordParse "a".toList) wordParse exState = .ok (.left x) s') ∧
    (∃ x s', eitherParse (keywordParse "b".toList) wordParse exState = .ok (.right x) s') ∧
    (∃ e, eitherParse (keywordParse "b".toList) (keywordParse "c".toList) exState = .err e) :=
  ⟨⟨_, _, rfl⟩, ⟨_, _, rfl⟩, ⟨_, rfl⟩⟩

/-! #### C24 -/

/-- **C24.** `Empty` always parses; `Eof` parses exactly at the end of the current level, `NotEof` exactly elsewhere, and each fails
where the other parses; none of them changes the stream. -/
theorem C24_empty_eof_noteof (s : PState) :
    emptyParse s = .ok () s ∧
    (∀ s', eofParse s = .ok () s' ↔ s.cur = [] ∧ s' = s) ∧
    (∀ s', notEofParse s = .ok () s' ↔ s.cur ≠ [] ∧ s' = s) ∧
    ((∃ e, eofParse s = .err e) ↔ s.cur ≠ []) ∧ ((∃ e, notEofParse s = .err e) ↔ s.cur = []) := by
  unfold emptyParse eofParse notEofParse
  by_cases h : s.cur = []
  · have h1 : s.isEmpty = true := (isEmpty_iff s).2 h
    simp [h, h1, eq_comm]
  · have h1 : s.isEmpty = false := by simpa [PState.isEmpty] using h
    simp [h, h1, eq_comm]

/-! #### C25, C26 -/

theorem parseAnyIdent_ok (s s' : PState) (x : Text) (sp : Span) :
    parseAnyIdent s = .ok (x, sp) s' ↔ ∃ rest, Next s.cur (.ident x sp) rest ∧ s' = { s with cur := rest } := by
  unfold parseAnyIdent
  simp only [← uncons_iff]
  cases uncons s.cur with
  | none => simp
  | some y =>
    obtain ⟨t, rest⟩ := y
    cases t <;> simp
    constructor
    · rintro ⟨⟨rfl, rfl⟩, rfl⟩; exact ⟨_, ⟨⟨rfl, rfl⟩, rfl⟩, rfl⟩
    · rintro ⟨_, ⟨⟨rfl, rfl⟩, rfl⟩, rfl⟩; exact ⟨⟨rfl, rfl⟩, rfl⟩

theorem parseAnyIdent_err (s : PState) :
    (∃ e, parseAnyIdent s = .err e) ↔ ∀ x sp rest, ¬ Next s.cur (.ident x sp) rest := by
  unfold parseAnyIdent
  simp only [← uncons_iff]
  cases uncons s.cur with
  | none => simp
  | some y =>
    obtain ⟨t, rest⟩ := y
    cases t <;> simp

/-- **C25.** `CustomIdent<K>` accepts exactly one identifier token, exactly those whose spelling is not a keyword of `K`. -/
theorem C25_custom_ident_ok (kws : List Text) (s s' : PState) (x : Text) (sp : Span) :
    customIdentParse kws s = .ok (x, sp) s' ↔
      x ∉ kws ∧ ∃ rest, Next s.cur (.ident x sp) rest ∧ s' = { s with cur := rest } := by
  unfold customIdentParse
  rw [Res.bind_ok]
  constructor
  · rintro ⟨⟨y, spy⟩, s1, h1, h2⟩
    unfold customIdentTryFrom at h2
    by_cases hk : y ∈ kws
    · rw [if_pos (by simpa using hk)] at h2; cases h2
    · rw [if_neg (by simpa using hk)] at h2
      simp only [Res.ok.injEq, Prod.mk.injEq] at h2
      obtain ⟨⟨rfl, rfl⟩, rfl⟩ := h2
      exact ⟨hk, (parseAnyIdent_ok _ _ _ _).1 h1⟩
  · rintro ⟨hk, h⟩
    refine ⟨_, _, (parseAnyIdent_ok _ _ _ _).2 h, ?_⟩
    unfold customIdentTryFrom
    rw [if_neg (by simpa using hk)]

/-- **C25** (failure). It fails exactly if the next token is not an identifier, or is one spelled like a keyword. -/
theorem C25_custom_ident_err (kws : List Text) (s : PState) :
    (∃ e, customIdentParse kws s = .err e) ↔ ∀ x sp rest, Next s.cur (.ident x sp) rest → x ∈ kws := by
  unfold customIdentParse
  constructor
  · rintro ⟨e, h⟩ x sp rest hn
    rcases Res.bind_err.1 h with h | ⟨⟨y, spy⟩, s1, h1, h2⟩
    · exact absurd hn ((parseAnyIdent_err s).1 ⟨e, h⟩ x sp rest)
    · obtain ⟨rest', hn', -⟩ := (parseAnyIdent_ok _ _ _ _).1 h1
      rw [← uncons_iff] at hn hn'
      rw [hn] at hn'
      simp only [Option.some.injEq, Prod.mk.injEq, TT.ident.injEq] at hn'
      obtain ⟨⟨rfl, rfl⟩, rfl⟩ := hn'
      unfold customIdentTryFrom at h2
      by_cases hk : x ∈ kws
      · exact hk
      · rw [if_neg (by simpa using hk)] at h2; cases h2
  · intro h
    cases hp : parseAnyIdent s with
    | err e => exact ⟨e, rfl⟩
    | panic => unfold parseAnyIdent at hp; split at hp <;> cases hp
    | oof => unfold parseAnyIdent at hp; split at hp <;> cases hp
    | ok y s1 =>
      obtain ⟨x, sp⟩ := y
      obtain ⟨rest, hn, -⟩ := (parseAnyIdent_ok _ _ _ _).1 hp
      have := h x sp rest hn
      unfold customIdentTryFrom
      simp only [Res.bind]
      rw [if_pos (by simpa using this)]
      exact ⟨_, rfl⟩

/-- **C25** (where a keyword is reported). On a word of the list the error says that a keyword was found, and is located at that very
word. -/
theorem C25_keyword_reported (kws : List Text) (s : PState) (x : Text) (sp : Span) (rest : List TT)
    (hn : Next s.cur (.ident x sp) rest) (hk : x ∈ kws) :
    customIdentParse kws s = .err ⟨sp, "expected identifier, found keyword".toList⟩ := by
  have hp := (parseAnyIdent_ok s _ x sp).2 ⟨rest, hn, rfl⟩
  unfold customIdentParse
  rw [hp]
  show (match customIdentTryFrom kws (x, sp) with
    | .ok v => Res.ok v _
    | .error e => .err e) = _
  unfold customIdentTryFrom
  rw [if_pos (by simpa using hk)]

/-- **C25** (`Word`). `Word` accepts every identifier token, Rust keywords and `_` included. -/
theorem C25_word_ok (s s' : PState) (x : Text) (sp : Span) :
    wordParse s = .ok (x, sp) s' ↔ ∃ rest, Next s.cur (.ident x sp) rest ∧ s' = { s with cur := rest } := by
  unfold wordParse
  rw [C25_custom_ident_ok]
  simp

/-- **C25** (`TryFrom<Ident>`). Conversion from an identifier accepts exactly the identifiers that parsing accepts, and keeps them. -/
theorem C25_try_from (kws : List Text) (x : Text) (sp : Span) (y : Text × Span) :
    customIdentTryFrom kws (x, sp) = .ok y ↔ y = (x, sp) ∧ x ∉ kws := by
  unfold customIdentTryFrom
  by_cases hk : x ∈ kws
  · rw [if_pos (by simpa using hk)]; simp [hk]
  · rw [if_neg (by simpa using hk)]; simp [hk, eq_comm]

/-- `r#fn` is not the keyword `fn`. -/
example : (∃ sp s', customIdentParse ["fn".toList] ⟨[exIdent "r#fn" 0], .callSite, none⟩ = .ok ("r#fn".toList, sp) s') ∧
    (∃ e, customIdentParse ["fn".toList] ⟨[exIdent "fn" 0], .callSite, none⟩ = .err e) ∧
    (∃ sp s', wordParse ⟨[exIdent "fn" 0], .callSite, none⟩ = .ok ("fn".toList, sp) s') :=
  ⟨⟨_, _, rfl⟩, ⟨_, rfl⟩, ⟨_, _, rfl⟩⟩

/-- **C26.** A keyword type accepts exactly one identifier token with exactly its own spelling. -/
theorem C26_keyword_ok (kw : Text) (s s' : PState) (sp : Span) :
    keywordParse kw s = .ok sp s' ↔ ∃ rest, Next s.cur (.ident kw sp) rest ∧ s' = { s with cur := rest } := by
  unfold keywordParse
  rw [Res.bind_ok]
  constructor
  · rintro ⟨⟨y, spy⟩, s1, h1, h2⟩
    split at h2
    · rename_i he
      simp only at he h2
      injection h2 with h3 h4
      subst he; subst h3; subst h4
      exact (parseAnyIdent_ok _ _ _ _).1 h1
    · cases h2
  · intro h
    refine ⟨_, _, (parseAnyIdent_ok _ _ _ _).2 h, ?_⟩
    simp

/-- **C26** (failure). A keyword type fails exactly if the next token is not an identifier, or is one with another spelling. -/
theorem C26_keyword_err (kw : Text) (s : PState) :
    (∃ e, keywordParse kw s = .err e) ↔ ∀ x sp rest, Next s.cur (.ident x sp) rest → x ≠ kw := by
  constructor
  · rintro ⟨e, h⟩ x sp rest hn rfl
    rw [(C26_keyword_ok x s _ sp).2 ⟨rest, hn, rfl⟩] at h
    cases h
  · intro h
    unfold keywordParse
    cases hp : parseAnyIdent s with
    | err e => exact ⟨e, rfl⟩
    | panic => unfold parseAnyIdent at hp; split at hp <;> cases hp
    | oof => unfold parseAnyIdent at hp; split at hp <;> cases hp
    | ok y s1 =>
      obtain ⟨x, sp⟩ := y
      obtain ⟨rest, hn, -⟩ := (parseAnyIdent_ok _ _ _ _).1 hp
      simp only [Res.bind]
      rw [if_neg (h x sp rest hn)]
      exact ⟨_, rfl⟩

/-- **C26** (where another word is reported). On a word with another spelling the error names the expected keyword, and is located at
the offending word. -/
theorem C26_other_word_reported (kw : Text) (s : PState) (x : Text) (sp : Span) (rest : List TT)
    (hn : Next s.cur (.ident x sp) rest) (hx : x ≠ kw) :
    keywordParse kw s = .err ⟨sp, "expected keyword `".toList ++ kw ++ "`".toList⟩ := by
  have hp := (parseAnyIdent_ok s _ x sp).2 ⟨rest, hn, rfl⟩
  unfold keywordParse
  rw [hp]
  simp only [Res.bind]
  rw [if_neg hx]

/-- **C26.** For every `define_keywords!` block and every identifier token: the block's identifier type accepts it, or one of the
block's keyword types does, and never both. -/
theorem C26_partition (b : KeywordBlock) (x : Text) (sp : Span) (rest : List TT) (scope : Span) (u : Option Span) :
    let s : PState := ⟨.ident x sp :: rest, scope, u⟩
    let asIdent := ∃ v s', customIdentParse b.keywords s = .ok v s'
    let asKeyword := ∃ kw ∈ b.types, ∃ v s', keywordParse kw s = .ok v s'
    (asIdent ∨ asKeyword) ∧ ¬ (asIdent ∧ asKeyword) := by
  intro s asIdent asKeyword
  have hnext : Next s.cur (.ident x sp) rest := .here (by simp)
  have huniq : ∀ {y spy r}, Next s.cur (.ident y spy) r → y = x := by
    intro y spy r h
    rw [← uncons_iff] at h hnext
    rw [h] at hnext
    simp only [Option.some.injEq, Prod.mk.injEq, TT.ident.injEq] at hnext
    exact hnext.1.1
  have hset : b.keywords = b.types := by simp [KeywordBlock.keywords, KeywordBlock.types]
  have hi : asIdent ↔ x ∉ b.types := by
    constructor
    · rintro ⟨⟨y, spy⟩, s', h⟩
      obtain ⟨h1, r, h2, -⟩ := (C25_custom_ident_ok _ _ _ _ _).1 h
      rw [huniq h2, hset] at h1; exact h1
    · intro h
      exact ⟨_, _, (C25_custom_ident_ok b.keywords s _ x sp).2 ⟨by rw [hset]; exact h, rest, hnext, rfl⟩⟩
  have hk : asKeyword ↔ x ∈ b.types := by
    constructor
    · rintro ⟨kw, hkw, v, s', h⟩
      obtain ⟨r, h2, -⟩ := (C26_keyword_ok _ _ _ _).1 h
      rw [← huniq h2]; exact hkw
    · intro h
      exact ⟨x, h, sp, _, (C26_keyword_ok x s _ sp).2 ⟨rest, hnext, rfl⟩⟩
  rw [hi, hk]
  exact ⟨(Classical.em _).symm, fun ⟨h1, h2⟩ => h1 h2⟩

/-- The underscore entry takes part: with it, `_` is a keyword and not an identifier; without it, the other way round. -/
example : (∃ e, customIdentParse (KeywordBlock.mk ["if".toList] true).keywords ⟨[exIdent "_" 0], .callSite, none⟩ = .err e) ∧
    (∃ v s', customIdentParse (KeywordBlock.mk ["if".toList] false).keywords ⟨[exIdent "_" 0], .callSite, none⟩ = .ok v s') :=
  ⟨⟨_, rfl⟩, ⟨_, _, rfl⟩⟩

end Parsel
