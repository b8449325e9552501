import Verif.Proofs.Format
import Verif.Spec.Format

/-! Layout of formatted text. -/

namespace Parsel

open Spec

theorem Spec.Spaced.imp {p q : Char → Prop} (h : ∀ c, p c → q c) {ts : List Text} {out : Text} (hs : Spaced p ts out) : Spaced q ts out := by
  induction hs with
  | nil hg => exact .nil fun c hc => h c (hg c hc)
  | cons hg _ ih => exact .cons (fun c hc => h c (hg c hc)) ih

theorem Spec.Spaced.gap {p : Char → Prop} {g : Text} (h : ∀ c ∈ g, p c) {ts : List Text} {out : Text} (hs : Spaced p ts out) : Spaced p ts (g ++ out) := by
  have both : ∀ {g' : Text}, (∀ c ∈ g', p c) → ∀ c ∈ g ++ g', p c := fun hg c hc => (List.mem_append.mp hc).elim (h c) (hg c)
  cases hs with
  | nil hg => exact .nil (both hg)
  | cons hg hs =>
    rw [← List.append_assoc, ← List.append_assoc]
    exact .cons (both hg) hs

theorem Spec.Spaced.piece {p : Char → Prop} (t : Text) {ts : List Text} {out : Text} (hs : Spaced p ts out) : Spaced p (t :: ts) (t ++ out) := by
  have := Spaced.cons (gap := []) (t := t) (by simp) hs
  simpa using this

/-- What may stand between the tokens. -/
def GapChar (ind : Option Text) (c : Char) : Prop := c = ' ' ∨ ∃ s, ind = some s ∧ (c = '\n' ∨ c ∈ s)

theorem indent_gap (ind : Option Text) (L : Nat) : ∀ c ∈ indentText ind L, GapChar ind c := by
  cases ind with
  | none => simp [indentText]
  | some s =>
    intro c hc
    simp only [indentText, List.mem_flatten] at hc
    obtain ⟨l, hl, hc⟩ := hc
    rw [(List.mem_replicate.mp hl).2] at hc
    exact .inr ⟨s, rfl, .inr hc⟩

theorem newline_gap (ind : Option Text) (sp : Spacing) : ∀ c ∈ newlineText ind sp, GapChar ind c := by
  cases ind with
  | none => cases sp <;> simp [newlineText, GapChar]
  | some s =>
    intro c hc
    simp only [newlineText, List.mem_singleton] at hc
    exact .inr ⟨s, rfl, .inl hc⟩

theorem newlineIndent_gap (ind : Option Text) (sp : Spacing) (L : Nat) : ∀ c ∈ newlineText ind sp ++ indentText ind L, GapChar ind c :=
  fun c hc => (List.mem_append.mp hc).elim (newline_gap ind sp c) (indent_gap ind L c)

theorem spaced_append {ind : Option Text} {a b : List Text} {x y : Text} (ha : Spaced (GapChar ind) a x) (hb : Spaced (GapChar ind) b y) :
    Spaced (GapChar ind) (a ++ b) (x ++ y) := by
  induction ha with
  | nil hg => exact hb.gap hg
  | cons hg _ ih =>
    rw [List.append_assoc]
    exact .cons hg ih

theorem spaced_group {ind : Option Text} {L : Nat} {d : Delim} {inner : List TT} {ti : Text} (hi : Spaced (GapChar ind) (texts inner) ti)
    {last : Bool} {ta tj : Text} {R : List Text} (ha : Spaced (GapChar ind) R ta) (hj : Spaced (GapChar ind) R tj) :
    Spaced (GapChar ind) ([[openChar d]] ++ texts inner ++ [[closeChar d]] ++ R) (groupText ind L d inner.isEmpty ti last ta tj) := by
  have hr : Spaced (GapChar ind) R (if last then ta else (newlineText ind .alone ++ indentText ind L) ++ tj) := by
    cases last
    · exact hj.gap (newlineIndent_gap ind .alone L)
    · exact ha
  have hc := Spaced.piece [closeChar d] hr
  unfold groupText
  have e : [[openChar d]] ++ texts inner ++ [[closeChar d]] ++ R = [openChar d] :: (texts inner ++ [closeChar d] :: R) := by simp
  rw [e]
  apply Spaced.piece
  refine spaced_append ?_ hc
  cases hn : inner.isEmpty with
  | true =>
    have : inner = [] := List.isEmpty_iff.mp hn
    subst this
    exact .nil (by simp)
  | false =>
    have h1 := spaced_append hi (Spaced.nil (newlineIndent_gap ind .joint L))
    simp only [List.append_nil] at h1
    exact h1.gap (newline_gap ind .joint)

mutual
theorem loopText_spaced (ind : Option Text) : ∀ (L : Nat) (sp : Spacing) (ts : List TT), Spaced (GapChar ind) (texts ts) (loopText ind L sp ts)
  | L, sp, [] => .nil (by simp [loopText])
  | L, sp, t :: rest => by
    simp only [loopText, texts]
    refine Spec.Spaced.gap ?_ (treeText_spaced ind L t _ (loopText_spaced ind L .alone rest) (loopText_spaced ind L .joint rest))
    cases sp
    · intro c hc; exact .inl (List.mem_singleton.mp hc)
    · simp
theorem treeText_spaced (ind : Option Text) : ∀ (L : Nat) (t : TT) (last : Bool) {ta tj : Text} {R : List Text},
    Spaced (GapChar ind) R ta → Spaced (GapChar ind) R tj → Spaced (GapChar ind) (textsT t ++ R) (treeText ind L t last ta tj)
  | L, .lit repr _, last, ta, tj, R, ha, _ => by simp only [treeText, textsT]; exact Spaced.piece _ ha
  | L, .ident x _, last, ta, tj, R, ha, _ => by simp only [treeText, textsT]; exact Spaced.piece _ ha
  | L, .punct c sp _, last, ta, tj, R, ha, hj => by
    simp only [treeText, textsT]
    apply Spaced.piece
    split
    · exact hj.gap (newlineIndent_gap ind sp L)
    · cases sp
      · exact ha
      · exact hj
  | L, .group .none inner _, last, ta, tj, R, ha, _ => by
    simp only [treeText, textsT]
    exact spaced_append ((loopText_spaced ind L .joint inner).gap (indent_gap ind L)) ha
  | L, .group .paren inner _, last, ta, tj, R, ha, hj => by
    simp only [treeText, textsT]
    exact spaced_group (d := .paren) ((loopText_spaced ind (L + 1) .joint inner).gap (indent_gap ind (L + 1))) ha hj
  | L, .group .bracket inner _, last, ta, tj, R, ha, hj => by
    simp only [treeText, textsT]
    exact spaced_group (d := .bracket) ((loopText_spaced ind (L + 1) .joint inner).gap (indent_gap ind (L + 1))) ha hj
  | L, .group .brace inner _, last, ta, tj, R, ha, hj => by
    simp only [treeText, textsT]
    exact spaced_group (d := .brace) ((loopText_spaced ind (L + 1) .joint inner).gap (indent_gap ind (L + 1))) ha hj
end

theorem writeText_spaced (ind : Option Text) (L : Nat) (ts : List TT) : Spaced (GapChar ind) (texts ts) (writeText ind L ts) :=
  (loopText_spaced ind L .joint ts).gap (indent_gap ind L)

/-- What is written before a token tree does not depend on it, nor on what follows. -/
theorem loopText_before (ind : Option Text) (L : Nat) : ∀ (pre : List TT) (sp : Spacing), ∃ A, ∀ (t : TT) (rest : List TT),
    loopText ind L sp (pre ++ t :: rest) = A ++ treeText ind L t rest.isEmpty (loopText ind L .alone rest) (loopText ind L .joint rest)
  | [], sp => ⟨_, fun t rest => by simp only [List.nil_append, loopText]; rfl⟩
  | u :: pre, sp => by
    obtain ⟨A, hA⟩ := loopText_before ind L pre .alone
    obtain ⟨J, hJ⟩ := loopText_before ind L pre .joint
    have hn : ∀ (t : TT) (rest : List TT), (pre ++ t :: rest).isEmpty = false := fun t rest => by cases pre <;> rfl
    have key : ∃ X, ∀ (t : TT) (rest : List TT), treeText ind L u (pre ++ t :: rest).isEmpty (loopText ind L .alone (pre ++ t :: rest))
        (loopText ind L .joint (pre ++ t :: rest)) = X ++ treeText ind L t rest.isEmpty (loopText ind L .alone rest) (loopText ind L .joint rest) := by
      cases u with
      | ident x sp => exact ⟨x ++ A, fun t rest => by simp only [treeText, hA, List.append_assoc]⟩
      | lit x sp => exact ⟨x ++ A, fun t rest => by simp only [treeText, hA, List.append_assoc]⟩
      | punct c spc sp =>
        cases spc with
        | joint => exact ⟨[c] ++ J, fun t rest => by simp [treeText, hJ]⟩
        | alone =>
          by_cases hc : c = ',' ∨ c = ';'
          · exact ⟨[c] ++ ((newlineText ind .alone ++ indentText ind L) ++ J), fun t rest => by
              simp only [treeText, hn, hJ, hc, and_self, if_true, List.append_assoc]⟩
          · exact ⟨[c] ++ A, fun t rest => by simp only [treeText, hA, hc, false_and, if_false, List.append_assoc]⟩
      | group d inner sp =>
        have grp : ∀ d ti, ∃ X, ∀ (t : TT) (rest : List TT), groupText ind L d inner.isEmpty ti (pre ++ t :: rest).isEmpty (loopText ind L .alone (pre ++ t :: rest))
            (loopText ind L .joint (pre ++ t :: rest)) = X ++ treeText ind L t rest.isEmpty (loopText ind L .alone rest) (loopText ind L .joint rest) :=
          fun d ti => ⟨[openChar d] ++ ((if inner.isEmpty then [] else newlineText ind .joint ++ (ti ++ (newlineText ind .joint ++ indentText ind L))) ++
            ([closeChar d] ++ ((newlineText ind .alone ++ indentText ind L) ++ J))), fun t rest => by
              simp only [groupText, hn, hJ, Bool.false_eq_true, if_false, List.append_assoc]⟩
        cases d with
        | none => exact ⟨(indentText ind L ++ loopText ind L .joint inner) ++ A, fun t rest => by simp only [treeText, hA, List.append_assoc]⟩
        | paren => obtain ⟨X, hX⟩ := grp .paren (indentText ind (L + 1) ++ loopText ind (L + 1) .joint inner); exact ⟨X, fun t rest => by simp only [treeText, hX]⟩
        | bracket => obtain ⟨X, hX⟩ := grp .bracket (indentText ind (L + 1) ++ loopText ind (L + 1) .joint inner); exact ⟨X, fun t rest => by simp only [treeText, hX]⟩
        | brace => obtain ⟨X, hX⟩ := grp .brace (indentText ind (L + 1) ++ loopText ind (L + 1) .joint inner); exact ⟨X, fun t rest => by simp only [treeText, hX]⟩
    obtain ⟨X, hX⟩ := key
    cases sp
    · exact ⟨[' '] ++ X, fun t rest => by simp only [List.cons_append, loopText, hX, List.append_assoc]⟩
    · exact ⟨X, fun t rest => by simp only [List.cons_append, loopText, hX, List.nil_append]⟩

theorem writeText_before (ind : Option Text) (L : Nat) (pre : List TT) : ∃ A, ∀ (t : TT) (rest : List TT),
    writeText ind L (pre ++ t :: rest) = A ++ treeText ind L t rest.isEmpty (loopText ind L .alone rest) (loopText ind L .joint rest) := by
  obtain ⟨A, hA⟩ := loopText_before ind L pre .joint
  exact ⟨indentText ind L ++ A, fun t rest => by rw [writeText, hA, List.append_assoc]⟩

theorem treeText_group (ind : Option Text) (L : Nat) {d : Delim} (hd : d ≠ .none) (inner : List TT) (sp : Span) (last : Bool) (ta tj : Text) :
    treeText ind L (.group d inner sp) last ta tj = groupText ind L d inner.isEmpty (indentText ind (L + 1) ++ loopText ind (L + 1) .joint inner) last ta tj := by
  cases d with
  | none => exact absurd rfl hd
  | paren => simp only [treeText]
  | bracket => simp only [treeText]
  | brace => simp only [treeText]

end Parsel
