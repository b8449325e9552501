import Verif.Model.Format

/-! The formatter as a function from streams to text. -/

namespace Parsel

/-- The indentation of a level. -/
def indentText (ind : Option Text) (L : Nat) : Text :=
  match ind with
  | some s => (List.replicate L s).flatten
  | none => []

/-- What `write_newline` writes. -/
def newlineText (ind : Option Text) (sp : Spacing) : Text :=
  match ind with
  | some _ => ['\n']
  | none =>
    match sp with
    | .alone => [' ']
    | .joint => []

/-- What a group writes. -/
def groupText (ind : Option Text) (L : Nat) (d : Delim) (isEmpty : Bool) (inner : Text) (last : Bool) (alone joint : Text) : Text :=
  [openChar d] ++ ((if isEmpty then [] else newlineText ind .joint ++ (inner ++ (newlineText ind .joint ++ indentText ind L))) ++
    ([closeChar d] ++ (if last then alone else (newlineText ind .alone ++ indentText ind L) ++ joint)))

mutual
/-- What the loop writes. -/
def loopText (ind : Option Text) (L : Nat) : Spacing → List TT → Text
  | _, [] => []
  | sp, t :: rest =>
    (match sp with
      | .joint => []
      | .alone => [' ']) ++ treeText ind L t rest.isEmpty (loopText ind L .alone rest) (loopText ind L .joint rest)
/-- What a token tree and the rest of the loop write. -/
def treeText (ind : Option Text) (L : Nat) : TT → Bool → Text → Text → Text
  | .lit repr _, _, alone, _ => repr ++ alone
  | .ident x _, _, alone, _ => x ++ alone
  | .punct c sp _, last, alone, joint =>
    [c] ++
      (if (c = ',' ∨ c = ';') ∧ sp = .alone ∧ last = false then (newlineText ind sp ++ indentText ind L) ++ joint
      else
        match sp with
        | .alone => alone
        | .joint => joint)
  | .group .none inner _, _, alone, _ => (indentText ind L ++ loopText ind L .joint inner) ++ alone
  | .group .paren inner _, last, alone, joint => groupText ind L .paren inner.isEmpty (indentText ind (L + 1) ++ loopText ind (L + 1) .joint inner) last alone joint
  | .group .bracket inner _, last, alone, joint => groupText ind L .bracket inner.isEmpty (indentText ind (L + 1) ++ loopText ind (L + 1) .joint inner) last alone joint
  | .group .brace inner _, last, alone, joint => groupText ind L .brace inner.isEmpty (indentText ind (L + 1) ++ loopText ind (L + 1) .joint inner) last alone joint
end

/-- What `write` writes. -/
def writeText (ind : Option Text) (L : Nat) (ts : List TT) : Text := indentText ind L ++ loopText ind L .joint ts

/-- The step writes `text`, going from level `L` to `L'`; if it fails, it has written a prefix.  It fails exactly if one of its calls to the writer
fails, and makes no call after that. -/
def Does (w : Sink) (ind : Option Text) (L L' : Nat) (step : FmtStep) (text : Text) : Prop :=
  ∀ f : Fmt, f.level = L → f.indent = ind → f.calls ≤ (step f).1.calls ∧
    ((step f).2 = true → (step f).1.out = f.out ++ text ∧ (step f).1.level = L' ∧ (step f).1.indent = ind ∧
      ∀ i, f.calls ≤ i → i < (step f).1.calls → w i = none) ∧
    ((step f).2 = false → (∃ p, p <+: text ∧ (step f).1.out = f.out ++ p) ∧ f.calls < (step f).1.calls ∧ w ((step f).1.calls - 1) ≠ none ∧
      ∀ i, f.calls ≤ i → i + 1 < (step f).1.calls → w i = none)

theorem does_ok {w : Sink} {ind : Option Text} {L : Nat} : Does w ind L L fmtOk [] := by
  intro f h1 h2
  exact ⟨Nat.le_refl _, fun _ => ⟨by simp [fmtOk], h1, h2, fun i h h' => absurd h' (by simp [fmtOk]; omega)⟩, fun h => absurd h (by simp [fmtOk])⟩

theorem does_put {w : Sink} {ind : Option Text} {L : Nat} (t : Text) : Does w ind L L (put w t) t := by
  intro f h1 h2
  unfold put
  cases hw : w f.calls with
  | none =>
    refine ⟨Nat.le_succ _, fun _ => ⟨rfl, h1, h2, fun i h h' => ?_⟩, fun h => absurd h (by simp)⟩
    have : i = f.calls := by simp at h'; omega
    rw [this, hw]
  | some k =>
    refine ⟨Nat.le_succ _, fun h => absurd h (by simp), fun _ => ⟨⟨t.take k, List.take_prefix k t, rfl⟩, Nat.lt_succ_self _, ?_, fun i h h' => ?_⟩⟩
    · simp [hw]
    · simp at h'; omega

theorem Does.andThen {w : Sink} {ind : Option Text} {L L' L'' : Nat} {a b : FmtStep} {s t : Text} (ha : Does w ind L L' a s)
    (hb : Does w ind L' L'' b t) : Does w ind L L'' (a.andThen b) (s ++ t) := by
  intro f h1 h2
  unfold FmtStep.andThen
  obtain ⟨le, ok, bad⟩ := ha f h1 h2
  cases hf : a f with
  | mk f' r =>
    rw [hf] at ok bad le
    replace le : f.calls ≤ f'.calls := le
    cases r with
    | true =>
      obtain ⟨ho, hl, hi, hc⟩ := ok rfl
      obtain ⟨le2, ok2, bad2⟩ := hb f' hl hi
      replace hc : ∀ i, f.calls ≤ i → i < f'.calls → w i = none := hc
      have ho : f'.out = f.out ++ s := ho
      refine ⟨Nat.le_trans le le2, fun h => ?_, fun h => ?_⟩
      · obtain ⟨h1, h2, h3, h4⟩ := ok2 h
        refine ⟨by rw [h1, ho, List.append_assoc], h2, h3, fun i k1 k2 => ?_⟩
        by_cases hlt : i < f'.calls
        · exact hc i k1 hlt
        · exact h4 i (by omega) k2
      · obtain ⟨⟨p, h1, h2⟩, h3, h4, h5⟩ := bad2 h
        refine ⟨⟨s ++ p, (List.prefix_append_right_inj s).mpr h1, by rw [h2, ho, List.append_assoc]⟩, Nat.lt_of_le_of_lt le h3, h4, fun i k1 k2 => ?_⟩
        by_cases hlt : i < f'.calls
        · exact hc i k1 hlt
        · exact h5 i (by omega) k2
    | false =>
      obtain ⟨⟨p, h1, h2⟩, h3⟩ := bad rfl
      exact ⟨le, fun h => absurd h (by simp), fun _ => ⟨⟨p, h1.trans (List.prefix_append _ _), h2⟩, h3⟩⟩

theorem does_times {w : Sink} {ind : Option Text} {L : Nat} (t : Text) : ∀ n, Does w ind L L (putTimes w t n) (List.replicate n t).flatten
  | 0 => does_ok
  | n + 1 => (does_put t).andThen (does_times t n)

theorem does_indent {w : Sink} {ind : Option Text} {L : Nat} : Does w ind L L (writeIndent w) (indentText ind L) := by
  intro f h1 h2
  cases ind with
  | none =>
    have : writeIndent w f = fmtOk f := by simp [writeIndent, h2, fmtOk]
    rw [this]; exact does_ok f h1 h2
  | some s =>
    have : writeIndent w f = putTimes w s L f := by simp [writeIndent, h2, h1]
    rw [this]; exact does_times s L f h1 h2

theorem does_newline {w : Sink} {ind : Option Text} {L : Nat} (sp : Spacing) : Does w ind L L (writeNewline w sp) (newlineText ind sp) := by
  intro f h1 h2
  cases ind with
  | none =>
    cases sp with
    | alone =>
      have : writeNewline w .alone f = put w [' '] f := by simp [writeNewline, h2]
      rw [this]; exact does_put _ f h1 h2
    | joint =>
      have : writeNewline w .joint f = fmtOk f := by simp [writeNewline, h2, fmtOk]
      rw [this]; exact does_ok f h1 h2
  | some s =>
    have : writeNewline w sp f = put w ['\n'] f := by simp [writeNewline, h2]
    rw [this]; exact does_put _ f h1 h2

theorem does_newlineIndent {w : Sink} {ind : Option Text} {L : Nat} (sp : Spacing) :
    Does w ind L L (writeNewlineAndIndent w sp) (newlineText ind sp ++ indentText ind L) := (does_newline sp).andThen does_indent

theorem does_level {w : Sink} {ind : Option Text} {L : Nat} (g : Nat → Nat) : Does w ind L (g L) (setLevel g) [] := by
  intro f h1 h2
  exact ⟨Nat.le_refl _, fun _ => ⟨by simp [setLevel], by simp [setLevel, h1], h2, fun i h h' => absurd h' (by simp [setLevel]; omega)⟩,
    fun h => absurd h (by simp [setLevel])⟩

theorem does_group {w : Sink} {ind : Option Text} {L : Nat} {d : Delim} {e last : Bool} {inner alone joint : FmtStep} {ti ta tj : Text}
    (hi : Does w ind (L + 1) (L + 1) inner ti) (ha : Does w ind L L alone ta) (hj : Does w ind L L joint tj) :
    Does w ind L L (writeGroup w d e inner last alone joint) (groupText ind L d e ti last ta tj) := by
  refine (does_put _).andThen (.andThen (L' := L) ?_ ((does_put _).andThen ?_))
  · cases e with
    | true => exact does_ok
    | false =>
      have := (does_level (w := w) (ind := ind) (L := L) (· + 1)).andThen ((does_newline .joint).andThen (hi.andThen
        ((does_level (· - 1)).andThen (does_newlineIndent .joint))))
      simpa using this
  · cases last with
    | true => exact ha
    | false => exact (does_newlineIndent .alone).andThen hj

mutual
theorem does_loop (w : Sink) (ind : Option Text) : ∀ (L : Nat) (sp : Spacing) (ts : List TT), Does w ind L L (writeLoop w sp ts) (loopText ind L sp ts)
  | L, sp, [] => by simp only [writeLoop, loopText]; exact does_ok
  | L, sp, t :: rest => by
    simp only [writeLoop, loopText]
    refine .andThen ?_ (does_tree w ind L t _ _ _ _ _ (does_loop w ind L .alone rest) (does_loop w ind L .joint rest))
    cases sp
    · exact does_put _
    · exact does_ok
theorem does_tree (w : Sink) (ind : Option Text) : ∀ (L : Nat) (t : TT) (last : Bool) (alone joint : FmtStep) (ta tj : Text),
    Does w ind L L alone ta → Does w ind L L joint tj → Does w ind L L (writeTree w t last alone joint) (treeText ind L t last ta tj)
  | L, .lit repr _, last, alone, joint, ta, tj, ha, _ => by simp only [writeTree, treeText]; exact (does_put _).andThen ha
  | L, .ident x _, last, alone, joint, ta, tj, ha, _ => by simp only [writeTree, treeText]; exact (does_put _).andThen ha
  | L, .punct c sp _, last, alone, joint, ta, tj, ha, hj => by
    simp only [writeTree, treeText]
    refine (does_put _).andThen ?_
    split
    · exact (does_newlineIndent sp).andThen hj
    · cases sp
      · exact ha
      · exact hj
  | L, .group .none inner _, last, alone, joint, ta, tj, ha, _ => by
    simp only [writeTree, treeText]
    exact (does_indent.andThen (does_loop w ind L .joint inner)).andThen ha
  | L, .group .paren inner _, last, alone, joint, ta, tj, ha, hj => by
    simp only [writeTree, treeText]
    exact does_group (does_indent.andThen (does_loop w ind (L + 1) .joint inner)) ha hj
  | L, .group .bracket inner _, last, alone, joint, ta, tj, ha, hj => by
    simp only [writeTree, treeText]
    exact does_group (does_indent.andThen (does_loop w ind (L + 1) .joint inner)) ha hj
  | L, .group .brace inner _, last, alone, joint, ta, tj, ha, hj => by
    simp only [writeTree, treeText]
    exact does_group (does_indent.andThen (does_loop w ind (L + 1) .joint inner)) ha hj
end

theorem does_write (w : Sink) (ind : Option Text) (L : Nat) (ts : List TT) : Does w ind L L (write w ts) (writeText ind L ts) :=
  does_indent.andThen (does_loop w ind L .joint ts)

/-- A reliable writer gets the whole text. -/
theorem write_reliable (ts : List TT) (f : Fmt) :
    (write .reliable ts f).2 = true ∧ (write .reliable ts f).1.out = f.out ++ writeText f.indent f.level ts ∧
      (write .reliable ts f).1.level = f.level ∧ (write .reliable ts f).1.indent = f.indent := by
  obtain ⟨_, h1, h2⟩ := does_write .reliable f.indent f.level ts f rfl rfl
  cases h : (write .reliable ts f).2 with
  | true => exact ⟨rfl, (h1 h).1, (h1 h).2.1, (h1 h).2.2.1⟩
  | false => exact absurd rfl (h2 h).2.2.1

theorem formatTokens_reliable (alternate : Bool) (ts : List TT) :
    formatTokens .reliable alternate ts = (writeText (if alternate then none else some "    ".toList) 0 ts, true) := by
  unfold formatTokens
  cases alternate
  · have h := write_reliable ts Fmt.pretty
    cases hf : write .reliable ts Fmt.pretty with
    | mk f ok =>
      rw [hf] at h
      simp only [Bool.false_eq_true, if_false, hf]
      exact Prod.ext (by rw [h.2.1]; rfl) h.1
  · have h := write_reliable ts Fmt.compact
    cases hf : write .reliable ts Fmt.compact with
    | mk f ok =>
      rw [hf] at h
      simp only [if_true, hf]
      exact Prod.ext (by rw [h.2.1]; rfl) h.1

end Parsel
