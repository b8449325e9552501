import Verif.Spec.Progress
import Verif.Proofs.Core
import Verif.Proofs.Literal

/-! What leaf parsers can do. -/

namespace Parsel
open Spec

theorem Spec.Steps.trans {a b c : List TT} (h1 : Steps a b) (h2 : Steps b c) : Steps a c := by
  induction h1 with
  | refl => exact h2
  | step h _ ih => exact .step h (ih h2)

theorem Spec.Steps.one {a b : List TT} {t : TT} (h : Next a t b) : Steps a b := .step h .refl

theorem Spec.Plus.one {a b : List TT} {t : TT} (h : Next a t b) : Plus a b := ⟨t, b, h, .refl⟩

theorem Spec.Plus.steps {a b : List TT} (h : Plus a b) : Steps a b := by
  obtain ⟨t, c, h1, h2⟩ := h; exact .step h1 h2

theorem Spec.Plus.trans {a b c : List TT} (h1 : Plus a b) (h2 : Steps b c) : Plus a c := by
  obtain ⟨t, d, h3, h4⟩ := h1; exact ⟨t, d, h3, h4.trans h2⟩

theorem Spec.Steps.plus {a b c : List TT} (h1 : Steps a b) (h2 : Plus b c) : Plus a c := by
  cases h1 with
  | refl => exact h2
  | step h h' => exact ⟨_, _, h, h'.trans h2.steps⟩

theorem locAt_error (s : PState) (m : Text) : LocAt s.cur s.scope (s.error m).span := by
  unfold PState.error
  cases h : s.cur with
  | nil => exact .stop
  | cons t ts => exact .head

theorem locAt_headSpan (s : PState) : LocAt s.cur s.scope s.headSpan := by
  unfold PState.headSpan
  cases h : s.cur with
  | nil => exact .stop
  | cons t ts => exact .head

/-- Leaves that can succeed without taking a token. -/
def Leaf.silent : Leaf → Bool
  | .empty => true
  | .eof => true
  | .notEof => true
  | .punct tok => tok.isEmpty
  | _ => false

/-- What a leaf parser can do at `s`. -/
inductive LeafOutcome {α : Type} (silent : Bool) (s : PState) : Res α → Prop
  | ok {a rest} : (silent = true ∧ rest = s.cur) ∨ Plus s.cur rest → LeafOutcome silent s (.ok a { s with cur := rest })
  | err {e} : LocAt s.cur s.scope e.span → LeafOutcome silent s (.err e)
  | panic {r sp rest} : Next s.cur (.lit r sp) rest → readLit r = none → LeafOutcome silent s .panic

theorem LeafOutcome.map {α β : Type} {b : Bool} {s : PState} {r : Res α} (h : LeafOutcome b s r) (f : α → β) : LeafOutcome b s (r.map f) := by
  cases h with
  | ok h => exact .ok h
  | err h => exact .err h
  | panic h1 h2 => exact .panic h1 h2

/-- What reading a literal can do at `s`. -/
inductive LitOutcome {α : Type} (s : PState) : Res (α × Span) → Prop
  | ok {a sp rest} : Plus s.cur rest → LocAt s.cur s.scope sp → LitOutcome s (.ok (a, sp) { s with cur := rest })
  | err {e} : LocAt s.cur s.scope e.span → LitOutcome s (.err e)
  | panic {r sp rest} : Next s.cur (.lit r sp) rest → readLit r = none → LitOutcome s .panic

theorem LitOutcome.leaf {α : Type} {s : PState} {r : Res (α × Span)} (h : LitOutcome s r) : LeafOutcome false s r := by
  cases h with
  | ok h _ => exact .ok (.inr h)
  | err h => exact .err h
  | panic h1 h2 => exact .panic h1 h2

theorem synLit_outcome (s : PState) : LitOutcome s (synLitParse s) := by
  unfold synLitParse
  split
  · rename_i r sp rest hu
    have hn := (uncons_iff _ _ _).mp hu
    split
    · exact .ok (.one hn) (.token hn (by simp))
    · rename_i hr; exact .panic hn hr
  · rename_i x sp rest hu
    have hn := (uncons_iff _ _ _).mp hu
    split
    · exact .ok (.one hn) (.token hn (by simp))
    · split
      · exact .ok (.one hn) (.token hn (by simp))
      · exact .err (locAt_error _ _)
  · rename_i spc sp rest hu
    have hn := (uncons_iff _ _ _).mp hu
    split
    · rename_i r sp2 rest2 hu2
      have hn2 := (uncons_iff _ _ _).mp hu2
      have hp : Plus s.cur rest2 := ⟨_, _, hn, .one hn2⟩
      split
      · exact .ok hp (.number hn hn2)
      · split
        · exact .ok hp (.number hn hn2)
        · exact .err (locAt_error _ _)
    · exact .err (locAt_error _ _)
  · exact .err (locAt_error _ _)

theorem synKind_outcome {α : Type} (m : Text) (pick : SynTok → Option α) (s : PState) : LitOutcome s (synKindParse m pick s) := by
  unfold synKindParse
  have h := synLit_outcome s
  cases h1 : synLitParse s with
  | ok a s' =>
    rw [h1] at h
    obtain ⟨l, sp⟩ := a
    simp only []
    cases h with
    | ok h2 h3 =>
      cases pick l with
      | none => exact .err (locAt_error _ _)
      | some a => exact .ok h2 h3
  | err e => exact .err (locAt_error _ _)
  | panic => rw [h1] at h; cases h with | panic h2 h3 => exact .panic h2 h3
  | oof => rw [h1] at h; cases h

theorem andThen_outcome {α β : Type} {s : PState} {r : Res (α × Span)} {f : α → Span → Except Err β} (h : LitOutcome s r)
    (hf : ∀ a sp e, f a sp = .error e → e.span = sp) : LitOutcome s (r.andThen f) := by
  cases h with
  | ok h2 h3 =>
    rename_i a sp rest
    simp only [Res.andThen, Res.bind_okc]
    cases h4 : f a sp with
    | ok b => exact .ok h2 h3
    | error e => refine .err ?_; rw [hf _ _ _ h4]; exact h3
  | err h => exact .err h
  | panic h1 h2 => exact .panic h1 h2

variable [Ext]

omit [Ext] in
theorem litIntOf_span {d : Text} {sp : Span} {e : Err} (h : litIntOf d sp = .error e) : e.span = sp := by
  unfold litIntOf at h; split at h <;> simp at h; rw [← h]

omit [Ext] in
theorem litUintOf_span {d : Text} {sp : Span} {e : Err} (h : litUintOf d sp = .error e) : e.span = sp := by
  unfold litUintOf at h; split at h <;> simp at h; rw [← h]

theorem litFloatOf_span {d : Text} {sp : Span} {e : Err} (h : litFloatOf d sp = .error e) : e.span = sp := by
  unfold litFloatOf at h; split at h <;> simp at h; rw [← h]

omit [Ext] in
theorem exceptMap_error {α β ε : Type} {x : Except ε α} {f : α → β} {e : ε} (h : x.map f = .error e) : x = .error e := by
  cases x <;> simp [Except.map] at h; rw [h]

theorem litTryFrom_span {l : SynTok} {sp : Span} {e : Err} (h : litTryFrom l sp = .error e) : e.span = sp := by
  unfold litTryFrom at h
  split at h
  · cases h
  · cases h
  · split at h
    · exact litIntOf_span (exceptMap_error h)
    · exact litUintOf_span (exceptMap_error h)
  · exact litFloatOf_span (exceptMap_error h)
  · cases h
  · cases h
  · cases h
  · injection h with h; rw [← h]
  · injection h with h; rw [← h]

theorem litKind_outcome (k : LitKind) (s : PState) : LeafOutcome false s (litKindParse k s) := by
  cases k with
  | bool => exact (synKind_outcome _ _ s).leaf.map _
  | byte => exact (synKind_outcome _ _ s).leaf.map _
  | int => exact (andThen_outcome (synKind_outcome _ _ s) fun _ _ _ h => litIntOf_span h).leaf.map _
  | uint => exact (andThen_outcome (synKind_outcome _ _ s) fun _ _ _ h => litUintOf_span h).leaf.map _
  | float => exact (andThen_outcome (synKind_outcome _ _ s) fun _ _ _ h => litFloatOf_span h).leaf.map _
  | char => exact (synKind_outcome _ _ s).leaf.map _
  | str => exact (synKind_outcome _ _ s).leaf.map _
  | byteStr => exact (synKind_outcome _ _ s).leaf.map _
  | any => exact (andThen_outcome (f := litTryFrom) (synLit_outcome s) fun _ _ _ h => litTryFrom_span h).leaf

omit [Ext] in
theorem punctLoop_plus : ∀ (tok : Text) (cur : List TT) (sps : List Span) (rest : List TT), punctLoop tok cur = some (sps, rest) →
    (tok.isEmpty = true ∧ rest = cur) ∨ Plus cur rest
  | [], cur, sps, rest, h => by simp only [punctLoop, Option.some.injEq, Prod.mk.injEq] at h; exact .inl ⟨rfl, h.2.symm⟩
  | [c], cur, sps, rest, h => by
    simp only [punctLoop] at h
    split at h
    · rename_i c' spc sp rest' hu
      split at h
      · simp only [Option.some.injEq, Prod.mk.injEq] at h
        obtain ⟨rfl, rfl⟩ := h
        exact .inr (.one ((uncons_iff _ _ _).mp hu))
      · cases h
    · cases h
  | c :: c2 :: cs, cur, sps, rest, h => by
    simp only [punctLoop] at h
    split at h
    · rename_i c' spc sp rest' hu
      split at h
      · split at h
        · rename_i sps' rest'' hr
          simp only [Option.some.injEq, Prod.mk.injEq] at h
          obtain ⟨rfl, rfl⟩ := h
          rcases punctLoop_plus (c2 :: cs) rest' sps' rest'' hr with h1 | h1
          · cases h1.1
          · exact .inr ⟨_, _, (uncons_iff _ _ _).mp hu, h1.steps⟩
        · cases h
      · cases h
    · cases h

omit [Ext] in
theorem anyIdent_outcome (s : PState) : LitOutcome s (parseAnyIdent s) := by
  unfold parseAnyIdent
  split
  · rename_i x sp rest hu
    have hn := (uncons_iff _ _ _).mp hu
    exact .ok (.one hn) (.token hn (by simp))
  · exact .err (locAt_error _ _)

theorem leaf_outcome (l : Leaf) (s : PState) : LeafOutcome l.silent s (leafParse l s) := by
  cases l with
  | empty => exact .ok (.inl ⟨rfl, rfl⟩)
  | eof =>
    refine LeafOutcome.map ?_ _
    unfold eofParse
    split
    · exact .ok (.inl ⟨rfl, rfl⟩)
    · exact .err (locAt_error _ _)
  | notEof =>
    refine LeafOutcome.map ?_ _
    unfold notEofParse
    split
    · exact .err (locAt_error _ _)
    · exact .ok (.inl ⟨rfl, rfl⟩)
  | customIdent kws =>
    refine LeafOutcome.map ?_ _
    have h := anyIdent_outcome s
    unfold customIdentParse
    cases h1 : parseAnyIdent s with
    | ok a s' =>
      rw [h1] at h
      cases h with
      | ok h2 h3 =>
        rename_i x sp rest
        simp only [Res.bind_okc, customIdentTryFrom]
        by_cases hk : (kws.any fun kw => decide (x = kw)) = true
        · simp only [hk, if_true]; exact .err h3
        · simp only [hk]; exact .ok (.inr h2)
    | err e => rw [h1] at h; cases h with | err h => exact .err h
    | panic => rw [h1] at h; cases h with | panic h2 h3 => exact .panic h2 h3
    | oof => rw [h1] at h; cases h
  | rustIdent =>
    refine LeafOutcome.map ?_ _
    unfold parseRustIdent
    split
    · rename_i x sp rest hu
      split
      · exact .err (locAt_error _ _)
      · exact .ok (.inr (.one ((uncons_iff _ _ _).mp hu)))
    · exact .err (locAt_error _ _)
  | keyword kw =>
    refine LeafOutcome.map ?_ _
    have h := anyIdent_outcome s
    unfold keywordParse
    cases h1 : parseAnyIdent s with
    | ok a s' =>
      rw [h1] at h
      cases h with
      | ok h2 h3 =>
        simp only [Res.bind_okc]
        split
        · exact .ok (.inr h2)
        · exact .err h3
    | err e => rw [h1] at h; cases h with | err h => exact .err h
    | panic => rw [h1] at h; cases h with | panic h2 h3 => exact .panic h2 h3
    | oof => rw [h1] at h; cases h
  | kwToken kw =>
    refine LeafOutcome.map ?_ _
    unfold parseKwToken
    split
    · rename_i x sp rest hu
      split
      · exact .ok (.inr (.one ((uncons_iff _ _ _).mp hu)))
      · exact .err (locAt_error _ _)
    · exact .err (locAt_error _ _)
  | punct tok =>
    refine LeafOutcome.map ?_ _
    unfold parsePunct
    split
    · rename_i sps rest h
      exact .ok (punctLoop_plus _ _ _ _ h)
    · refine .err ?_
      unfold punctErrSpan
      split
      · rename_i c spc sp rest hu
        split
        · exact .token ((uncons_iff _ _ _).mp hu) (by simp)
        · exact locAt_headSpan s
      · exact locAt_headSpan s
  | lit k => exact (litKind_outcome k s).map _

end Parsel
