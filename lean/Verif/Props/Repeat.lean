import Verif.Proofs.ViableKit
import Verif.Props.Peg
import Verif.Props.Laws
import Verif.Props.Combinators
import Verif.Proofs.Cell
import Verif.Props.Viable

/-! C89: how the repetition types compare on complete inputs. -/

namespace Parsel
open Spec

section
variable [Ext]

/-- At the end of the tokens nothing is left, and conversely. -/
theorem visible_end {ts : List TT} (hv : Visible ts) : (∀ x r, ¬ Next ts x r) ↔ ts = [] := by
  constructor
  · intro h
    cases ts with
    | nil => rfl
    | cons t ts =>
      refine absurd (Next.here ?_) (h t ts)
      intro inner sp e
      subst e
      exact hv inner sp (.head ..)
  · rintro rfl x r h
    cases h

theorem or_none {a b : Option Span} (h : none = a.or b) : a = none ∧ b = none := by
  cases a with
  | none => exact ⟨rfl, by simpa using h.symm⟩
  | some _ => cases h

theorem accepts_visible {env : Env} {t : Ty} {ts : List TT} {v : Val} (hv : Visible ts) : Accepts env t ts v ↔ Matches env t ts v [] none := by
  rw [C63_accepts]
  constructor
  · rintro ⟨rest, h, he⟩
    obtain ⟨a, ha, _⟩ := matches_split h hv
    have hr : Visible rest := by rw [ha] at hv; exact hv.right
    rw [(visible_end hr).mp he] at h
    exact h
  · intro h
    exact ⟨[], h, fun x r hn => by cases hn⟩

theorem not_both' {env : Env} {t : Ty} {ts : List TT} {v : Val} {rest : List TT} {left : Option Span} (h : Matches env t ts v rest left) (hn : NoMatch env t ts) : False :=
  (C63_deterministic h).2 hn

theorem many_inv {env : Env} {t : Ty} {ts : List TT} {v : Val} {vs : List Val} {rest : List TT} {o : Option Span} (h : MatchesMany env t ts (v :: vs) rest o) (ho : o = none) :
    ∃ mid, Matches env t ts v mid none ∧ MatchesMany env t mid vs rest none := by
  cases h with
  | more h1 h2 =>
    obtain ⟨e1, e2⟩ := or_none ho.symm
    subst e1 e2
    exact ⟨_, h1, h2⟩

theorem tail_inv {env : Env} {p t : Ty} {ts : List TT} {q v : Val} {tail : List (Val × Val)} {rest : List TT} {o : Option Span} (h : MatchesTail env p t ts ((q, v) :: tail) rest o)
    (ho : o = none) : ∃ mid next, Matches env p ts q mid none ∧ Matches env t mid v next none ∧ MatchesTail env p t next tail rest none := by
  cases h with
  | more h1 h2 h3 =>
    obtain ⟨e1, ho'⟩ := or_none ho.symm
    obtain ⟨e2, e3⟩ := or_none ho'.symm
    subst e1 e2 e3
    exact ⟨_, _, h1, h2, h3⟩

theorem or3_none {a b c : Option Span} (h : a.or (b.or c) = none) : a = none ∧ b = none ∧ c = none :=
  ⟨(or_none h.symm).1, or_none (or_none h.symm).2.symm⟩

theorem punct_inv {env : Env} {t p : Ty} {ts : List TT} {w : Val} {rest : List TT} {l : Option Span} (h : Matches env (.punctuated t p) ts w rest l) :
    ∃ ws, w = .node .punctuated ws ∧ MatchesToEnd env t p ts ws rest l := by
  cases h with
  | group h => cases h
  | punctuated h => exact ⟨_, rfl, h⟩

theorem sep_inv {env : Env} {t p : Ty} {ts : List TT} {w : Val} {rest : List TT} {l : Option Span} (h : Matches env (.separated t p) ts w rest l) (hl : l = none) :
    ∃ v mid tail, w = .node .separated (v :: tail.flatMap fun x => [x.1, x.2]) ∧ Matches env t ts v mid none ∧ MatchesTail env p t mid tail rest none := by
  cases h with
  | group h => cases h
  | separated h1 h2 =>
    obtain ⟨e1, e2⟩ := or_none hl.symm
    subst e1 e2
    exact ⟨_, _, _, rfl, h1, h2⟩

theorem notEof_inv {env : Env} {ts : List TT} {w : Val} {rest : List TT} {l : Option Span} (h : Matches env (.leaf .notEof) ts w rest l) : w = .leaf .notEof .unit ∧ rest = ts := by
  cases h with
  | group h => cases h
  | leaf h =>
    cases h with
    | notEof _ => exact ⟨rfl, rfl⟩

/-- The separator of `Many`: nothing, but something has to follow. -/
abbrev stillGoing : Val := .leaf .notEof .unit

theorem many_of_any {env : Env} {t : Ty} (hn : NoMatch env t []) : ∀ (vs : List Val) (ts : List TT), MatchesMany env t ts vs [] none →
    MatchesToEnd env t (.leaf .notEof) ts (vs.intersperse stillGoing) [] none
  | [], ts, h => by cases h; exact .done
  | v :: vs, ts, h => by
    obtain ⟨mid, h1, h2⟩ := many_inv h rfl
    have hts : ts ≠ [] := fun e => not_both' h1 (e ▸ hn)
    cases vs with
    | nil =>
      have hmid : mid = [] := by cases h2; rfl
      subst hmid
      exact .last hts h1
    | cons w ws =>
      have ih := many_of_any hn (w :: ws) _ h2
      have hmid : mid ≠ [] := by
        rintro rfl
        obtain ⟨_, h3, _⟩ := many_inv h2 rfl
        exact not_both' h3 hn
      exact .more (l1 := none) (l2 := none) hts h1 hmid (.leaf (.notEof hmid)) ih

theorem any_of_many {env : Env} {t : Ty} (hn : NoMatch env t []) {p : Ty} {ts : List TT} {ws : List Val} {rest : List TT} {left : Option Span}
    (h : MatchesToEnd env t p ts ws rest left) (hp : p = .leaf .notEof) : left = none → ∃ vs, MatchesMany env t ts vs [] none ∧ ws = vs.intersperse stillGoing := by
  match h with
  | .done => exact fun _ => ⟨[], .done hn, rfl⟩
  | .last (v := v) _ h1 =>
    rintro rfl
    exact ⟨[v], .more (l1 := none) (l2 := none) h1 (.done hn), rfl⟩
  | .more (v := v) (mid := mid) (next := next) (vs := us) h0 h1 hm h2 h3 =>
    subst hp
    intro hl
    obtain ⟨e1, e2, e3⟩ := or3_none hl
    subst e1 e2 e3
    obtain ⟨vs, h4, h5⟩ := any_of_many hn h3 rfl rfl
    obtain ⟨rfl, rfl⟩ := notEof_inv h2
    refine ⟨v :: vs, .more (l1 := none) (l2 := none) h1 h4, ?_⟩
    cases vs with
    | nil =>
      exact absurd (by cases h4; rfl) hm
    | cons w ws => rw [h5]; rfl

/-- **C89** (`Many` and `Any`). As a whole program, `Many<T>` and `Any<T>` accept the same inputs, with the same items. -/
theorem C89_many_any {env : Env} {t : Ty} {ts : List TT} {w : Val} (hv : Visible ts) (hn : NoMatch env t []) :
    Accepts env (.punctuated t (.leaf .notEof)) ts w ↔
      ∃ vs, Accepts env (.any t) ts (.node .any vs) ∧ w = .node .punctuated (vs.intersperse (.leaf .notEof .unit)) := by
  rw [accepts_visible hv]
  constructor
  · intro h
    obtain ⟨ws, rfl, h'⟩ := punct_inv h
    obtain ⟨vs, h1, h2⟩ := any_of_many hn h' rfl rfl
    exact ⟨vs, (accepts_visible hv).mpr (.any h1), by rw [h2]⟩
  · rintro ⟨vs, h, rfl⟩
    rw [accepts_visible hv] at h
    obtain ⟨_, e, h⟩ := matches_any.mp h
    cases e
    exact .punctuated (many_of_any hn vs ts h)

theorem toEnd_of_tail {env : Env} {t p : Ty} (hn : NoMatch env t []) (hp : NoMatch env p []) : ∀ (tail : List (Val × Val)) (ts : List TT) (v : Val) (mid : List TT),
    Matches env t ts v mid none → MatchesTail env p t mid tail [] none → MatchesToEnd env t p ts (v :: tail.flatMap fun x => [x.1, x.2]) [] none
  | [], ts, v, mid, h1, h2 => by
    cases h2
    exact .last (fun e => not_both' h1 (e ▸ hn)) h1
  | (q, w) :: tail, ts, v, mid, h1, h2 => by
    obtain ⟨_, _, h3, h4, h5⟩ := tail_inv h2 rfl
    exact .more (l1 := none) (l2 := none) (fun e => not_both' h1 (e ▸ hn)) h1 (fun e => not_both' h3 (e ▸ hp)) h3 (toEnd_of_tail hn hp tail _ w _ h4 h5)

theorem tail_of_toEnd {env : Env} {t p : Ty} (hp : NoMatch env p []) {ts : List TT} {ws : List Val} {rest : List TT} {left : Option Span}
    (h : MatchesToEnd env t p ts ws rest left) : left = none → ws.length % 2 = 1 → ∃ v mid tail, Matches env t ts v mid none ∧ MatchesTail env p t mid tail [] none ∧
      ws = v :: tail.flatMap fun x => [x.1, x.2] := by
  match h with
  | .done => intro _ h; simp at h
  | .last (v := v) _ h1 =>
    rintro rfl _
    exact ⟨v, [], [], h1, .done hp, rfl⟩
  | .more (v := v) (mid := mid) (q := q) (next := next) (vs := us) h0 h1 hm h2 h3 =>
    intro hl ho
    obtain ⟨e1, e2, e3⟩ := or3_none hl
    subst e1 e2 e3
    obtain ⟨w, m, tail, h4, h5, h6⟩ := tail_of_toEnd hp h3 rfl (by simp at ho; omega)
    exact ⟨v, mid, (q, w) :: tail, h1, .more (l1 := none) (l2 := none) h2 h4 h5, by rw [h6]; rfl⟩

theorem pairs_odd : ∀ (tail : List (Val × Val)) (v : Val), (v :: tail.flatMap fun x => [x.1, x.2]).length % 2 = 1
  | [], _ => rfl
  | (q, w) :: tail, v => by
    have := pairs_odd tail w
    simp at this ⊢
    omega

/-- **C89** (`Separated` and `Punctuated`). As a whole program, `Separated<T, P>` accepts what `Punctuated<T, P>` accepts without a trailing separator (and not
empty), with the same items and separators. -/
theorem C89_separated {env : Env} {t p : Ty} {ts : List TT} {ws : List Val} (hv : Visible ts) (hn : NoMatch env t []) (hp : NoMatch env p []) :
    Accepts env (.separated t p) ts (.node .separated ws) ↔ Accepts env (.punctuated t p) ts (.node .punctuated ws) ∧ ws.length % 2 = 1 := by
  rw [accepts_visible hv, accepts_visible hv]
  constructor
  · intro h
    obtain ⟨v, mid, tail, e, h1, h2⟩ := sep_inv h rfl
    cases e
    exact ⟨.punctuated (toEnd_of_tail hn hp _ _ _ _ h1 h2), pairs_odd _ _⟩
  · rintro ⟨h, ho⟩
    obtain ⟨_, e, h⟩ := punct_inv h
    cases e
    obtain ⟨v, mid, tail, h1, h2, rfl⟩ := tail_of_toEnd hp h rfl ho
    exact .separated (l1 := none) (l2 := none) h1 h2

theorem noTail_of_toEnd {env : Env} {t p : Ty} (hn : NoMatch env t []) {ts : List TT} {ws : List Val} {rest : List TT} {left : Option Span}
    (h : MatchesToEnd env t p ts ws rest left) : ws.length % 2 = 0 → NoMatch env t ts ∨ ∃ v mid l, Matches env t ts v mid l ∧ NoMatchTail env p t mid := by
  match h with
  | .done => exact fun _ => .inl hn
  | .last _ _ => intro h; simp at h
  | .more (v := v) (mid := mid) (q := q) (next := next) (vs := us) h0 h1 hm h2 h3 =>
    intro ho
    refine .inr ⟨_, _, _, h1, ?_⟩
    rcases noTail_of_toEnd hn h3 (by simp at ho; omega) with h4 | ⟨w, m, l, h4, h5⟩
    · exact .here h2 h4
    · exact .later h2 h4 h5

/-- **C89** (a trailing separator). Where `Punctuated<T, P>` accepts with a trailing separator (or nothing at all), `Separated<T, P>` fails: not even an optional
separator after it helps. -/
theorem C89_trailing {env : Env} {t p : Ty} {ts : List TT} {ws : List Val} (hn : NoMatch env t []) (h : Accepts env (.punctuated t p) ts (.node .punctuated ws))
    (he : ws.length % 2 = 0) :
    (∀ s, s.cur = ts → ∃ e, Fails env (.separated t p) s e) ∧
    ∀ x fields us, env x = .struct fields → fieldTypes fields = .separated t p :: us → ∃ e, Rejects env (.named x) ts e := by
  obtain ⟨rest, hm, _⟩ := C63_accepts.mp h
  have hno : NoMatch env (.separated t p) ts := by
    obtain ⟨_, e, hm⟩ := punct_inv hm
    cases e
    rcases noTail_of_toEnd hn hm he with h1 | ⟨_, _, _, h1, h2⟩
    · exact .separatedHead h1
    · exact .separatedTail h1 h2
  refine ⟨fun s hs => noMatch_fails hno s hs, fun x fields us hx hf => ?_⟩
  exact C63_rejects.mpr (.inl (.struct hx (by rw [hf]; exact .here hno)))

/-- **C89** (errors of `Any`). `Any<T>` itself never fails: a program that is one is only ever rejected for what it leaves unread. -/
theorem C89_any_error {env : Env} {t : Ty} {ts : List TT} {e : Err} (h : Rejects env (.any t) ts e) : e.msg = "unexpected token".toList := by
  rcases rejected_cases h with ⟨n, h⟩ | ⟨_, _, _, _, _, _, _, _, rfl⟩
  · exact absurd (C63_fails.mp ⟨e, n, h⟩) noMatch_any
  · rfl

theorem terminatedErr_stable {env : Env} {n m : Nat} (hnm : n ≤ m) {t p : Ty} {s : PState} {e : Err} (h : TerminatedErr (parse env n t) (parse env n p) s e) :
    TerminatedErr (parse env m t) (parse env m p) s e := by
  have lift : ∀ {t : Ty} {s : PState} {r : Res Val}, parse env n t s = r → r ≠ .oof → parse env m t s = r := fun h hr => by
    rw [← h]; exact parse_stable hnm (by rw [h]; exact hr)
  induction h with
  | item h0 h1 => exact .item h0 (lift h1 nofun)
  | sep h0 h1 h2 h3 => exact .sep h0 (lift h1 nofun) h2 (lift h3 nofun)
  | more h0 h1 h2 h3 _ ih => exact .more h0 (lift h1 nofun) h2 (lift h3 nofun) ih

theorem terminatedErr_unique {T P : Type} {t : Parser T} {p : Parser P} {s : PState} {e e' : Err} (h : TerminatedErr t p s e) (h' : TerminatedErr t p s e') : e = e' := by
  induction h with
  | item h0 h1 =>
    cases h' with
    | item _ h1' => rw [h1] at h1'; cases h1'; rfl
    | sep _ h1' => rw [h1] at h1'; cases h1'
    | more _ h1' => rw [h1] at h1'; cases h1'
  | sep h0 h1 h2 h3 =>
    cases h' with
    | item _ h1' => rw [h1] at h1'; cases h1'
    | sep _ h1' _ h3' => rw [h1] at h1'; cases h1'; rw [h3] at h3'; cases h3'; rfl
    | more _ h1' _ h3' => rw [h1] at h1'; cases h1'; rw [h3] at h3'; cases h3'
  | more h0 h1 h2 h3 _ ih =>
    cases h' with
    | item _ h1' => rw [h1] at h1'; cases h1'
    | sep _ h1' _ h3' => rw [h1] at h1'; cases h1'; rw [h3] at h3'; cases h3'
    | more _ h1' _ h3' h4' => rw [h1] at h1'; cases h1'; rw [h3] at h3'; cases h3'; exact ih h4'

/-- Items of a repetition, then one that fails. -/
theorem fails_punctuated {env : Env} {n : Nat} {t p : Ty} {s : PState} {e : Err} (h : TerminatedErr (parse env n t) (parse env n p) s e) (hn : NoMatchToEnd env t p s.cur) :
    Fails env (.punctuated t p) s e := by
  obtain ⟨e', m, hm⟩ := noMatch_fails (.punctuated hn) s rfl
  cases m with
  | zero => cases hm
  | succ m =>
    have h1 := (C18_punctuated_err _ _ _ _).mp ⟨m, Res.map_err.mp hm⟩
    have : e = e' := terminatedErr_unique (terminatedErr_stable (Nat.le_max_left n m) h) (terminatedErr_stable (Nat.le_max_right n m) h1)
    subst this
    exact ⟨m + 1, hm⟩

theorem over_fresh (s : PState) : (fresh s).over s.unexp = s := by
  obtain ⟨c, sc, u⟩ := s
  cases u <;> rfl

theorem over_resume (s f : PState) (h : f.scope = s.scope) : f.over s.unexp = resume s f := by
  obtain ⟨c, sc, u⟩ := s
  obtain ⟨c', sc', u'⟩ := f
  simp only at h
  subst h
  cases u <;> rfl

theorem greedy_err {env : Env} {n : Nat} {t : Ty} (hn : NoMatch env t []) {s s' : PState} {vs : List Val} (h : Greedy (parse env n t) s vs s') (hs : s'.cur ≠ []) :
    ∃ e, parse env n t s' = .err e ∧ s.cur ≠ [] ∧ TerminatedErr (parse env n t) (parse env n (.leaf .notEof)) s e ∧ NoMatchToEnd env t (.leaf .notEof) s.cur := by
  induction h with
  | @stop s e h =>
    have h1 : parse env n t s = .err e := by
      have := parse_over env n t s.unexp (fresh s)
      rw [over_fresh, h] at this
      exact this
    exact ⟨e, h1, hs, .item hs h1, .item hs (C63_fails.mp ⟨e, n, h1⟩)⟩
  | @more s v f rest s' h _ ih =>
    obtain ⟨e, h1, h2, h3, h4⟩ := ih hs
    have hf := (parse_peg env n t _).1 v f h
    obtain ⟨r, l, hm, hfe⟩ := hf
    have hp : parse env n t s = .ok v (resume s f) := by
      have := parse_over env n t s.unexp (fresh s)
      rw [over_fresh, h] at this
      rw [this, Res.over_ok, over_resume]
      rw [hfe]; rfl
    have hcur : s.cur ≠ [] := by
      intro he
      have : (fresh s).cur = [] := he
      rw [this] at hm
      exact not_both' hm hn
    cases n with
    | zero => cases h1
    | succ n =>
      have he : parse env (n + 1) (.leaf .notEof) (resume s f) = .ok (.leaf .notEof .unit) (resume s f) := by
        generalize resume s f = g at h2
        obtain ⟨c, sc, u⟩ := g
        cases c with
        | nil => exact absurd rfl h2
        | cons => rfl
      refine ⟨e, h1, hcur, .more hcur hp h2 he h3, ?_⟩
      obtain ⟨r, l, hm, hfe⟩ := (parse_peg env _ _ _).1 _ _ hp
      obtain ⟨r2, l2, hm2, hfe2⟩ := (parse_peg env _ _ _).1 _ _ he
      have e1 : (resume s f).cur = r := by rw [hfe]; rfl
      rw [e1] at h2 hm2 h4
      obtain ⟨_, rfl⟩ := notEof_inv hm2
      exact .later hcur hm h2 hm2 h4

/-- **C89** (errors of `Many`). Where `Any<T>` stops before the end, because `T` fails there with some error, `Many<T>` fails with that error. -/
theorem C89_many_error {env : Env} {t : Ty} {s s' : PState} {v : Val} {e : Err} (hn : NoMatch env t []) (h : Parses env (.any t) s v s') (hs : s'.cur ≠ [])
    (he : Fails env t s' e) : Fails env (.punctuated t (.leaf .notEof)) s e := by
  obtain ⟨n, h⟩ := h
  cases n with
  | zero => cases h
  | succ n =>
    simp only [parse] at h
    obtain ⟨r, h1, _⟩ := Res.map_ok.mp h
    obtain ⟨e', h2, _, h3, h4⟩ := greedy_err hn ((C20_any_ok _ _ _ _).mp ⟨n, h1⟩) hs
    obtain ⟨m, he⟩ := he
    have := parse_unique (n := n) (m := m) (by rw [h2]; nofun) (by rw [he]; nofun) (env := env) (t := t) (s := s')
    rw [h2, he] at this
    cases this
    exact fails_punctuated h3 h4

end

/-! ### Examples -/

section
attribute [local instance] toyExt

/-- `enum E { A(Paren<Any<Ident>>), B(Paren<LitInt>) }`, and `M` with `Many` in the place of `Any`. -/
def repeatEnv : Env := fun x =>
  if x = "E".toList then .enum [⟨"A".toList, tys [.paren (.any (.leaf (.customIdent [])))]⟩, ⟨"B".toList, tys [.paren (.leaf (.lit .int))]⟩]
  else if x = "M".toList then .enum [⟨"A".toList, tys [.paren (.punctuated (.leaf (.customIdent [])) (.leaf .notEof))]⟩, ⟨"B".toList, tys [.paren (.leaf (.lit .int))]⟩]
  else if x = "S".toList then .struct (tys [.separated (.leaf (.customIdent [])) (.leaf (.punct ",".toList)), .maybe (.leaf (.punct ",".toList)) (.leaf .empty)])
  else .enum []

def wordA : Val := .leaf (.customIdent []) (.ident "a".toList spA)
def commaV : Val := .leaf (.punct ",".toList) (.mark [spA])
def aTok : TT := .ident "a".toList spA
def commaTok : TT := .punct ',' .alone spA

theorem visible_flat {ts : List TT} (h : ∀ x ∈ ts, ∀ inner sp, x ≠ .group .none inner sp) (hg : ∀ x ∈ ts, ∀ d inner sp, x ≠ .group d inner sp) : Visible ts := by
  intro inner sp ho
  induction ts with
  | nil => cases ho
  | cons t ts ih =>
    cases ho with
    | head => exact h _ (List.mem_cons_self ..) inner sp rfl
    | tail ho => exact ih (fun x hx => h x (List.mem_cons_of_mem _ hx)) (fun x hx => hg x (List.mem_cons_of_mem _ hx)) ho
    | inside _ => exact hg _ (List.mem_cons_self ..) _ _ _ rfl

theorem noWord_end : NoMatch repeatEnv (.leaf (.customIdent [])) [] := C63_fails (s := ⟨[], .callSite, none⟩).mp ⟨_, 1, rfl⟩
theorem noComma_end : NoMatch repeatEnv (.leaf (.punct ",".toList)) [] := C63_fails (s := ⟨[], .callSite, none⟩).mp ⟨_, 1, rfl⟩

theorem visible_two : Visible [aTok, aTok] := visible_flat (by simp [aTok]) (by simp [aTok])
theorem visible_list : Visible [aTok, commaTok, aTok] := visible_flat (by simp [aTok, commaTok]) (by simp [aTok, commaTok])

/-- `a a` as `Any` and so as `Many`. -/
example : Accepts repeatEnv (.punctuated (.leaf (.customIdent [])) (.leaf .notEof)) [aTok, aTok] (.node .punctuated [wordA, .leaf .notEof .unit, wordA]) :=
  (C89_many_any visible_two noWord_end).mpr ⟨[wordA, wordA], ⟨9, rfl⟩, rfl⟩

/-- `a, a` as `Punctuated` and so as `Separated`. -/
example : Accepts repeatEnv (.separated (.leaf (.customIdent [])) (.leaf (.punct ",".toList))) [aTok, commaTok, aTok] (.node .separated [wordA, commaV, wordA]) :=
  (C89_separated visible_list noWord_end noComma_end).mpr ⟨⟨9, rfl⟩, rfl⟩

/-- `a, a,` is a `Punctuated`, but no `Separated` with an optional comma after it. -/
example : ∃ e, Rejects repeatEnv (.named "S".toList) [aTok, commaTok, aTok, commaTok] e :=
  (C89_trailing (p := .leaf (.punct ",".toList)) (ws := [wordA, commaV, wordA, commaV]) noWord_end ⟨9, rfl⟩ rfl).2 _ _ _ rfl rfl

/-- `a 5`: `Any<Ident>` stops at the number; `Many<Ident>` reports what the identifier reports there. -/
example : Fails repeatEnv (.punctuated (.leaf (.customIdent [])) (.leaf .notEof)) ⟨[aTok, .lit "5".toList spA], .callSite, none⟩ ⟨spA, "expected ident".toList⟩ :=
  C89_many_error (v := .node .any [wordA]) (s' := ⟨[.lit "5".toList spA], .callSite, none⟩) noWord_end ⟨9, rfl⟩ nofun ⟨1, rfl⟩

/-- **C89** (inside other types they differ). Inside a delimited alternative `Any` and `Many` are not interchangeable: `(5)` is an `M` but no `E`. -/
theorem C89_inside_differs : (∃ e, Rejects repeatEnv (.named "E".toList) [.group .paren [.lit "5".toList spA] spA] e) ∧
    ∃ v, Accepts repeatEnv (.named "M".toList) [.group .paren [.lit "5".toList spA] spA] v := ⟨⟨_, 20, rfl⟩, ⟨_, 20, rfl⟩⟩

theorem many_empty_never {env : Env} {t : Ty} {ts : List TT} {vs : List Val} {rest : List TT} {l : Option Span} (h : MatchesMany env t ts vs rest l) : t = .leaf .empty → False := by
  match h with
  | .done h =>
    rintro rfl
    cases h with
    | leaf h => exact h.1 _ _ .empty
    | noGroup h => cases h
    | inGroup h => cases h
  | .more _ h => exact many_empty_never h

/-- **C89** (items must not be empty). Without the condition on the item the two differ: `Many<Empty>` accepts the empty input, `Any<Empty>` accepts nothing. -/
theorem C89_item_needed : Accepts repeatEnv (.punctuated (.leaf .empty) (.leaf .notEof)) [] (.node .punctuated []) ∧ ∀ ts v, ¬ Accepts repeatEnv (.any (.leaf .empty)) ts v := by
  refine ⟨⟨9, rfl⟩, fun ts v h => ?_⟩
  obtain ⟨_, h, _⟩ := C63_accepts.mp h
  obtain ⟨_, _, h⟩ := matches_any.mp h
  exact many_empty_never h rfl

end

end Parsel
