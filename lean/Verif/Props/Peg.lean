import Verif.Proofs.PegComplete
import Verif.Props.Errors
import Verif.Props.Termination

/-! C63, C64: a grammar accepts exactly what it says, read as a parsing expression grammar over plain token lists (`Spec/Peg.lean`). -/

namespace Parsel
open Spec

section
variable [Ext]

/-- **C63.** Parsing succeeds exactly if the grammar matches the tokens in front; value, rest of the input and the token recorded as
unexpected are those of the match.  The scope of the stream has no influence. -/
theorem C63_parses {env : Env} {t : Ty} {s : PState} {v : Val} {s' : PState} :
    Parses env t s v s' ↔ ∃ rest left, Matches env t s.cur v rest left ∧ s' = ⟨rest, s.scope, s.unexp.or left⟩ := by
  constructor
  · rintro ⟨n, h⟩
    exact (parse_peg env n t s).1 v s' h
  · rintro ⟨rest, left, h, rfl⟩
    exact matches_parses h s rfl

/-- **C63.** Parsing fails exactly if the grammar does not match. -/
theorem C63_fails {env : Env} {t : Ty} {s : PState} : (∃ e, Fails env t s e) ↔ NoMatch env t s.cur := by
  constructor
  · rintro ⟨e, n, h⟩
    exact (parse_peg env n t s).2 e h
  · intro h
    exact noMatch_fails h s rfl

/-- **C63.** A grammar matches in one way at most, and never both matches and does not. -/
theorem C63_deterministic {env : Env} {t : Ty} {ts : List TT} {v : Val} {rest : List TT} {left : Option Span} (h : Matches env t ts v rest left) :
    (∀ w rest' left', Matches env t ts w rest' left' → w = v ∧ rest' = rest ∧ left' = left) ∧ ¬ NoMatch env t ts := by
  have h1 := matches_parses h ⟨ts, .callSite, none⟩ rfl
  constructor
  · intro w rest' left' h'
    obtain ⟨rfl, e⟩ := parses_unique h1 (matches_parses h' ⟨ts, .callSite, none⟩ rfl)
    simp only [PState.after, Option.none_or, PState.mk.injEq, true_and] at e
    exact ⟨rfl, e.1.symm, e.2.symm⟩
  · intro h'
    obtain ⟨e, m, h2⟩ := noMatch_fails h' ⟨ts, .callSite, none⟩ rfl
    obtain ⟨n, h1⟩ := h1
    have := parse_unique (env := env) (n := n) (m := m) (t := t) (s := ⟨ts, .callSite, none⟩) (by rw [h1]; simp) (by rw [h2]; simp)
    rw [h1, h2] at this
    cases this

/-- **C63.** On tokens as a lexer makes them the parser runs for ever exactly where the grammar neither matches nor fails to. -/
theorem C63_diverges {env : Env} {t : Ty} {s : PState} (hr : Readable s.cur) :
    Diverges env t s ↔ (¬ ∃ v rest left, Matches env t s.cur v rest left) ∧ ¬ NoMatch env t s.cur := by
  constructor
  · intro h
    constructor
    · rintro ⟨v, rest, left, hm⟩
      obtain ⟨n, h1⟩ := matches_parses hm s rfl
      rw [h n] at h1; cases h1
    · intro hm
      obtain ⟨e, n, h1⟩ := noMatch_fails hm s rfl
      rw [h n] at h1; cases h1
  · rintro ⟨h1, h2⟩ n
    cases h : parse env n t s with
    | ok v s' =>
      obtain ⟨rest, left, hm, _⟩ := (parse_peg env n t s).1 v s' h
      exact absurd ⟨v, rest, left, hm⟩ h1
    | err e => exact absurd ((parse_peg env n t s).2 e h) h2
    | panic => exact absurd h (parse_no_panic env n t s hr)
    | oof => rfl

/-- What `parse2` does with a match. -/
theorem parse2_matches {env : Env} {t : Ty} {ts : List TT} {v : Val} {rest : List TT} {left l2 : Option Span} (h : Matches env t ts v rest left)
    (hu : FirstUnread rest l2) : ∃ n, parse2 (parse env n t) ts = match left.or l2 with
      | some sp => .err ⟨sp, "unexpected token".toList⟩
      | none => .ok v := by
  obtain ⟨n, h1⟩ := matches_parses h ⟨ts, .callSite, none⟩ rfl
  refine ⟨n, ?_⟩
  have hu' := (firstUnread_iff _ _).mp hu
  simp only [parse2, h1, PState.after, Option.none_or]
  cases left with
  | some sp => rfl
  | none => simp only [hu', Option.none_or]; cases l2 <;> rfl

/-- What `parse2` says, in terms of matches. -/
theorem matches_parse2 (env : Env) (n : Nat) (t : Ty) (ts : List TT) :
    (∀ v, parse2 (parse env n t) ts = .ok v → ∃ rest, Matches env t ts v rest none ∧ FirstUnread rest none) ∧
    ∀ e, parse2 (parse env n t) ts = .err e → NoMatch env t ts ∨ ∃ v rest left l2 sp, Matches env t ts v rest left ∧ FirstUnread rest l2 ∧
      left.or l2 = some sp ∧ e = ⟨sp, "unexpected token".toList⟩ := by
  cases h : parse env n t ⟨ts, .callSite, none⟩ with
  | ok w s' =>
    obtain ⟨rest, left, hm, rfl⟩ := (parse_peg env n t _).1 w s' h
    have hu := (firstUnread_iff rest (unexpectedSpan rest)).mpr rfl
    simp only [parse2, h, PState.after, Option.none_or]
    cases left with
    | some sp =>
      refine ⟨fun v hv => (by cases hv), fun e he => .inr ⟨w, rest, some sp, _, sp, hm, hu, rfl, ?_⟩⟩
      cases he; rfl
    | none =>
      cases hs : unexpectedSpan rest with
      | some sp =>
        rw [hs] at hu
        refine ⟨fun v hv => (by cases hv), fun e he => .inr ⟨w, rest, none, _, sp, hm, hu, rfl, ?_⟩⟩
        cases he; rfl
      | none =>
        rw [hs] at hu
        refine ⟨fun v hv => ⟨rest, ?_, hu⟩, fun e he => (by cases he)⟩
        cases hv; exact hm
  | err e =>
    simp only [parse2, h]
    exact ⟨fun v hv => (by cases hv), fun _ _ => .inl ((parse_peg env n t _).2 e h)⟩
  | panic => simp only [parse2, h]; exact ⟨fun v hv => (by cases hv), fun v hv => (by cases hv)⟩
  | oof => simp only [parse2, h]; exact ⟨fun v hv => (by cases hv), fun v hv => (by cases hv)⟩

/-- **C63** for whole inputs: `parse2` returns `v` exactly if the grammar matches `v` with nothing left unread, at the end or inside a group. -/
theorem C63_accepts {env : Env} {t : Ty} {ts : List TT} {v : Val} :
    Accepts env t ts v ↔ ∃ rest, Matches env t ts v rest none ∧ ∀ x r, ¬ Next rest x r := by
  constructor
  · rintro ⟨n, h⟩
    obtain ⟨rest, hm, hu⟩ := (matches_parse2 env n t ts).1 v h
    refine ⟨rest, hm, ?_⟩
    cases hu; assumption
  · rintro ⟨rest, hm, hn⟩
    obtain ⟨n, h⟩ := parse2_matches hm (.nothing hn)
    exact ⟨n, h⟩

/-- **C63** for whole inputs: `parse2` returns an error exactly if the grammar does not match, or it matches and something is left unread. -/
theorem C63_rejects {env : Env} {t : Ty} {ts : List TT} :
    (∃ e, Rejects env t ts e) ↔ NoMatch env t ts ∨ ∃ v rest left, Matches env t ts v rest left ∧ (left ≠ none ∨ ∃ x r, Next rest x r) := by
  constructor
  · rintro ⟨e, n, h⟩
    rcases (matches_parse2 env n t ts).2 e h with h | ⟨v, rest, left, l2, sp, hm, hu, hl, _⟩
    · exact .inl h
    · refine .inr ⟨v, rest, left, hm, ?_⟩
      cases left with
      | some sp => exact .inl (by simp)
      | none =>
        cases hu with
        | nothing => cases hl
        | token hn => exact .inr ⟨_, _, hn⟩
  · rintro (h | ⟨v, rest, left, hm, h⟩)
    · obtain ⟨e, n, h1⟩ := noMatch_fails h ⟨ts, .callSite, none⟩ rfl
      exact ⟨e, n, by simp only [parse2, h1]⟩
    · have hu := (firstUnread_iff rest (unexpectedSpan rest)).mpr rfl
      obtain ⟨n, h2⟩ := parse2_matches hm hu
      cases hl : left.or (unexpectedSpan rest) with
      | some sp => rw [hl] at h2; exact ⟨_, n, h2⟩
      | none =>
        cases left with
        | some sp => cases hl
        | none =>
          rw [Option.none_or] at hl
          rw [hl] at hu
          rcases h with h | ⟨x, r, h⟩
          · exact absurd rfl h
          · cases hu with
            | nothing hn => exact absurd h (hn x r)

/-- **C63** for whole inputs, the error: what is left unread is reported where it stands, the contents of groups first. -/
theorem C63_unread_reported {env : Env} {t : Ty} {ts : List TT} {v : Val} {rest : List TT} {left l2 : Option Span} {sp : Span}
    (h : Matches env t ts v rest left) (hu : FirstUnread rest l2) (hl : left.or l2 = some sp) :
    Rejects env t ts ⟨sp, "unexpected token".toList⟩ := by
  obtain ⟨n, h2⟩ := parse2_matches h hu
  rw [hl] at h2
  exact ⟨n, h2⟩

/-- **C64.** What each leaf type reads: its parser succeeds exactly on the tokens that `LeafAt` describes, and takes just these. -/
theorem C64_leaf {env : Env} {l : Leaf} {s s' : PState} {v : Val} :
    Parses env (.leaf l) s v s' ↔ ∃ c rest, LeafAt l s.cur c rest ∧ v = .leaf l c ∧ s' = { s with cur := rest } := by
  rw [C63_parses]
  constructor
  · rintro ⟨rest, left, h, rfl⟩
    cases h with
    | leaf h => exact ⟨_, _, h, rfl, by simp⟩
    | group hg => cases hg
  · rintro ⟨c, rest, h, rfl, rfl⟩
    exact ⟨rest, none, .leaf h, by simp⟩

/-- **C64.** On tokens as a lexer makes them, a leaf type fails exactly where its description does not apply. -/
theorem C64_leaf_fails {env : Env} {l : Leaf} {s : PState} (hr : Readable s.cur) :
    (∃ e, Fails env (.leaf l) s e) ↔ ∀ c rest, ¬ LeafAt l s.cur c rest := by
  rw [C63_fails]
  constructor
  · intro h
    cases h with
    | leaf h => exact h.1
    | noGroup hg => cases hg
    | inGroup hg => cases hg
  · intro h
    refine .leaf ⟨h, ?_⟩
    rintro ⟨_, r, sp, rest, hn, he⟩
    obtain ⟨l, hl⟩ := (readable_next hn hr).1
    rw [hl] at he
    cases he

end

section
attribute [local instance] toyExt

example : ∃ rest, Matches demoEnv (.named "Let".toList) demoTokens demoVal rest none ∧ ∀ x r, ¬ Next rest x r := C63_accepts.mp demo_accepts
example : NoMatch demoEnv (.named "Let".toList) badTokens := C63_fails.mp ⟨_, bad_fails⟩
/-- By hand: `+ x +` as pairs of `+` and a name; the second `+` lacks its name. -/
example : NoMatchTail demoEnv (.leaf (.punct "+".toList)) (.leaf (.customIdent []))
    [.punct '+' .alone spA, .ident "x".toList spA, .punct '+' .alone spA] :=
  .later (.leaf (.punct (.last (by decide) (.here (by simp)))))
    (.leaf (.customIdent (.here (by simp)) (by simp)))
    (.here (.leaf (.punct (.last (by decide) (.here (by simp)))))
      (.leaf ⟨(fun _ _ h => by cases h with | customIdent h => cases h), (by rintro ⟨⟨k, hk⟩, _⟩; cases hk)⟩))
/-- By hand: the first variant does not match, the second one does. -/
example : Matches demoEnv (.either (.leaf (.punct "+=".toList)) (.leaf (.punct "+".toList))) [.punct '+' .alone spA, .punct '=' .alone spA]
    (.node .eitherRight [.leaf (.punct "+".toList) (.mark [spA])]) [.punct '=' .alone spA] none := by
  refine .eitherRight (.leaf ⟨fun v rest h => ?_, by rintro ⟨⟨k, hk⟩, _⟩; cases hk⟩)
    (.leaf (.punct (.last (by decide) (.here (by simp)))))
  cases h with
  | punct h =>
    cases h with
    | more _ _ h _ =>
      cases h
example : LeafAt (.lit .int) [.punct '-' .alone spA, .lit "0x1F".toList spA] (.lit (.int (-31)) (spA.join spA)) [] :=
  .lit (.int (neg := true) (n := 31) (.minus (.here (by simp)) (.here (by simp)) ((readNat_iff _ _).mp (by decide))) (by unfold InI64 signed; decide))
/-- `enum X { A(Box<X>) }` neither matches nor fails to. -/
example : (¬ ∃ v rest left, Matches (fun _ => .enum [⟨"A".toList, .unnamed [fld (.boxed (.named "X".toList))]⟩]) (.named "X".toList) [] v rest left) ∧
    ¬ NoMatch (fun _ => .enum [⟨"A".toList, .unnamed [fld (.boxed (.named "X".toList))]⟩]) (.named "X".toList) [] :=
  (C63_diverges (s := ⟨[], .callSite, none⟩) (by simp [Readable])).mp (C30_left_recursive_enum rfl rfl _)
end

end Parsel
