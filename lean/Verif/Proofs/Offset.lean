import Verif.Spec.Offset
import Verif.Proofs.Decimal

/-! Helper lemmas about source positions. -/

namespace Parsel
open Spec

theorem utf8Len_append (a b : Text) : utf8Len (a ++ b) = utf8Len a + utf8Len b := by simp [utf8Len]

theorem utf8Len_flatten (ls : List Text) : utf8Len ls.flatten = (ls.map utf8Len).sum := by
  induction ls with
  | nil => rfl
  | cons l ls ih => simp [utf8Len_append, ih]

theorem utf8Size_pos (c : Char) : 0 < c.utf8Size := Char.utf8Size_pos c

/-- Completed lines and current line after reading `pre`, starting inside the line `l`. -/
def scan (l : Text) : Text → List Text × Text
  | [] => ([], l)
  | c :: cs => if c = '\n' then ((l ++ [c]) :: (scan [] cs).1, (scan [] cs).2) else scan (l ++ [c]) cs

theorem splitLinesAux_append (l pre post : Text) :
    splitLinesAux l (pre ++ post) = (scan l pre).1 ++ splitLinesAux (scan l pre).2 post := by
  induction pre generalizing l with
  | nil => rfl
  | cons c pre ih =>
    simp only [List.cons_append, splitLinesAux, scan]
    split
    · simp [ih]
    · exact ih _

theorem scan_length (l pre : Text) : (scan l pre).1.length = pre.count '\n' := by
  induction pre generalizing l with
  | nil => rfl
  | cons c pre ih =>
    simp only [scan]
    split
    · rename_i h; subst h; simp [ih]
    · rename_i h; rw [ih, List.count_cons_of_ne h]

theorem scan_flatten (l pre : Text) : (scan l pre).1.flatten ++ (scan l pre).2 = l ++ pre := by
  induction pre generalizing l with
  | nil => simp [scan]
  | cons c pre ih =>
    simp only [scan]
    split
    · rename_i h; subst h
      have := ih []
      simp only [List.flatten_cons, List.append_assoc, this]
      simp
    · rw [ih]; simp

theorem takeWhile_stop {α : Type} (p : α → Bool) (a b : List α) (x : α) (hx : p x = false) :
    (a ++ x :: b).takeWhile p = a.takeWhile p := by
  induction a with
  | nil => simp [hx]
  | cons y a ih => simp only [List.cons_append, List.takeWhile_cons]; split <;> simp [ih]

theorem takeWhile_all {α : Type} (p : α → Bool) (a : List α) (h : ∀ x ∈ a, p x = true) : a.takeWhile p = a := by
  induction a with
  | nil => rfl
  | cons y a ih => rw [List.takeWhile_cons, if_pos (h y (by simp)), ih (fun x hx => h x (by simp [hx]))]

theorem scan_last (l pre : Text) (hl : ∀ c ∈ l, c ≠ '\n') :
    (scan l pre).2.reverse = (pre.reverse ++ l.reverse).takeWhile (fun c => c ≠ '\n') := by
  induction pre generalizing l with
  | nil =>
    simp only [scan, List.reverse_nil, List.nil_append]
    rw [takeWhile_all]
    simpa using hl
  | cons c pre ih =>
    simp only [scan]
    split
    · rename_i h; subst h
      rw [ih [] (by simp)]
      simp only [List.reverse_nil, List.append_nil, List.reverse_cons, List.append_assoc, List.cons_append, List.nil_append]
      exact (takeWhile_stop _ _ _ _ (by simp)).symm
    · rename_i h
      rw [ih (l ++ [c])]
      · simp
      · intro x hx
        rcases List.mem_append.1 hx with hx | hx
        · exact hl x hx
        · rw [List.mem_singleton.1 hx]; exact h

theorem scan_posAfter (pre : Text) : posAfter pre = ⟨1 + (scan [] pre).1.length, (scan [] pre).2.length⟩ := by
  rw [posAfter, scan_length]
  have := scan_last [] pre (by simp)
  rw [← List.length_reverse (as := (scan [] pre).2), this]
  simp

theorem splitLinesAux_head (l post : Text) :
    (splitLinesAux l post = [] ∧ l = []) ∨ ∃ x rest, splitLinesAux l post = (l ++ x) :: rest := by
  induction post generalizing l with
  | nil =>
    cases l with
    | nil => simp [splitLinesAux]
    | cons a l => right; exact ⟨[], [], by simp [splitLinesAux]⟩
  | cons c post ih =>
    simp only [splitLinesAux]
    split
    · right; exact ⟨[c], _, rfl⟩
    · rcases ih (l ++ [c]) with ⟨_, h⟩ | ⟨x, rest, h⟩
      · simp at h
      · right; exact ⟨c :: x, rest, by rw [h]; simp⟩

theorem splitLines_flatten (source : Text) : (splitLines source).flatten = source := by
  have h1 := splitLinesAux_append [] source []
  rw [List.append_nil] at h1
  have h2 := scan_flatten [] source
  unfold splitLines
  rw [h1]
  simp only [splitLinesAux]
  split
  · rename_i h
    simp only [List.isEmpty_iff] at h
    rw [h] at h2
    simpa using h2
  · simpa using h2

/-- Offset of a position inside a line. -/
theorem charIndex_getD (line : Text) (n : Nat) : (charIndexNth line n).getD (utf8Len line) = utf8Len (line.take n) := by
  unfold charIndexNth
  split
  · rfl
  · rename_i h; rw [List.take_of_length_le (by omega)]; rfl

theorem byteOffset_eq (source : Text) (loc : LineCol) :
    byteOffset source loc = utf8Len (((splitLines source).take (loc.line - 1)).flatten ++
      ((splitLines source)[loc.line - 1]?.getD []).take loc.column) := by
  unfold byteOffset
  simp only [utf8Len_append, utf8Len_flatten]
  congr 1
  cases (splitLines source)[loc.line - 1]? with
  | none => simp [utf8Len]
  | some line => simp [charIndex_getD]

/-- The text before a position. -/
theorem prefix_at (pre post : Text) :
    ((splitLines (pre ++ post)).take ((posAfter pre).line - 1)).flatten ++
      ((splitLines (pre ++ post))[(posAfter pre).line - 1]?.getD []).take (posAfter pre).column = pre := by
  rw [scan_posAfter]
  simp only [Nat.add_sub_cancel_left]
  unfold splitLines
  rw [splitLinesAux_append, List.take_left', List.getElem?_append_right (Nat.le_refl _), Nat.sub_self]
  · rcases splitLinesAux_head (scan [] pre).2 post with ⟨h, h1⟩ | ⟨x, rest, h⟩
    · rw [h]
      have := scan_flatten [] pre
      rw [h1] at this
      simpa using this
    · rw [h]
      simp only [List.getElem?_cons_zero, Option.getD_some, List.take_left]
      simpa using scan_flatten [] pre
  · rfl

theorem byteOffset_posAfter (pre post : Text) : byteOffset (pre ++ post) (posAfter pre) = utf8Len pre := by
  rw [byteOffset_eq, prefix_at]

theorem charOffset_posAfter (pre post : Text) : charOffset (pre ++ post) (posAfter pre) = pre.length := by
  unfold charOffset
  rw [scan_posAfter]
  simp only [Nat.add_sub_cancel_left]
  unfold splitLines
  rw [splitLinesAux_append, List.take_left' rfl]
  have := congrArg List.length (scan_flatten [] pre)
  simpa [List.flatMap_id] using this

theorem splitAtByte_append (a b : Text) : splitAtByte (a ++ b) (utf8Len a) = some (a, b) := by
  induction a with
  | nil => cases b <;> rfl
  | cons c a ih =>
    have hc : utf8Len (c :: a) = c.utf8Size + utf8Len a := by simp [utf8Len]
    obtain ⟨k, hk⟩ : ∃ k, utf8Len (c :: a) = k + 1 := ⟨utf8Len (c :: a) - 1, by have := utf8Size_pos c; omega⟩
    rw [hk, List.cons_append, splitAtByte, if_pos (by omega)]
    have : k + 1 - c.utf8Size = utf8Len a := by omega
    rw [this, ih]; rfl

theorem sliceBytes_append (pre mid post : Text) :
    sliceBytes (pre ++ mid ++ post) (utf8Len pre, utf8Len (pre ++ mid)) = some mid := by
  unfold sliceBytes
  rw [if_pos (by simp [utf8Len_append])]
  simp only [splitAtByte_append, Option.bind_some, Option.map_some]

theorem isBoundary_byteOffset (source : Text) (loc : LineCol) : IsBoundary source (byteOffset source loc) := by
  rw [byteOffset_eq]
  refine ⟨_, (((splitLines source)[loc.line - 1]?.getD []).drop loc.column) ++ ((splitLines source).drop (loc.line - 1 + 1)).flatten,
    ?_, rfl⟩
  generalize hL : splitLines source = L
  have hf : L.flatten = source := by rw [← hL]; exact splitLines_flatten source
  rw [← hf]
  have h1 : L.flatten = (L.take (loc.line - 1)).flatten ++ (L.drop (loc.line - 1)).flatten := by
    rw [← List.flatten_append, List.take_append_drop]
  have h2 : (L.drop (loc.line - 1)).flatten = L[loc.line - 1]?.getD [] ++ (L.drop (loc.line - 1 + 1)).flatten := by
    cases h : L[loc.line - 1]? with
    | none =>
      have := List.getElem?_eq_none_iff.1 h
      rw [List.drop_eq_nil_of_le this, List.drop_eq_nil_of_le (by omega)]; rfl
    | some line =>
      obtain ⟨hlt, hget⟩ := List.getElem?_eq_some_iff.1 h
      rw [List.drop_eq_getElem_cons hlt, hget]; rfl
  rw [h1, h2]
  simp only [List.append_assoc]
  congr 1
  rw [← List.append_assoc, List.take_append_drop]

theorem utf8Len_le_of_prefix {a b : Text} (h : a <+: b) : utf8Len a ≤ utf8Len b := by
  obtain ⟨x, rfl⟩ := h
  simp [utf8Len_append]

theorem byteOffset_le (source : Text) (loc : LineCol) : byteOffset source loc ≤ utf8Len source := by
  obtain ⟨a, b, h1, h2⟩ := isBoundary_byteOffset source loc
  rw [h2]; exact utf8Len_le_of_prefix ⟨b, h1.symm⟩

theorem flatten_take_prefix (L : List Text) {i j : Nat} (h : i ≤ j) : (L.take i).flatten <+: (L.take j).flatten := by
  have : (L.take i) <+: (L.take j) := List.take_prefix_take_left h
  obtain ⟨x, hx⟩ := this
  exact ⟨x.flatten, by rw [← hx]; simp⟩

theorem byteOffset_mono (source : Text) (a b : LineCol) (ha : 1 ≤ a.line) (h : a.le b = true) :
    byteOffset source a ≤ byteOffset source b := by
  rw [byteOffset_eq, byteOffset_eq]
  have hb : ¬ (b.lt a = true) := by simpa [LineCol.le] using h
  simp only [LineCol.lt, Bool.or_eq_true, decide_eq_true_eq, Bool.and_eq_true, not_or, not_and] at hb
  rcases Nat.lt_or_ge a.line b.line with hl | hl
  · apply utf8Len_le_of_prefix
    refine List.IsPrefix.trans ?_ (List.prefix_append _ _)
    refine List.IsPrefix.trans ?_ (flatten_take_prefix (splitLines source) (show a.line ≤ b.line - 1 by omega))
    have : a.line = a.line - 1 + 1 := by omega
    conv => rhs; rw [this]
    rw [List.take_add_one, List.flatten_append]
    apply (List.prefix_append_right_inj _).2
    cases (splitLines source)[a.line - 1]? with
    | none => simp
    | some line => simpa using List.take_prefix _ _
  · have he : a.line = b.line := by omega
    rw [he]
    apply utf8Len_le_of_prefix
    apply (List.prefix_append_right_inj _).2
    exact List.take_prefix_take_left (by omega)

theorem sliceBytes_isSome (source : Text) (x y : Nat) (hx : IsBoundary source x) (hy : IsBoundary source y) (h : x ≤ y) :
    (sliceBytes source (x, y)).isSome = true := by
  obtain ⟨a, b, h1, rfl⟩ := hx
  obtain ⟨c, d, h2, rfl⟩ := hy
  have hpre : a <+: c := by
    have ha : a <+: source := ⟨b, h1.symm⟩
    have hc : c <+: source := ⟨d, h2.symm⟩
    rcases List.prefix_or_prefix_of_prefix ha hc with h' | h'
    · exact h'
    · obtain ⟨z, hz⟩ := h'
      rw [← hz, utf8Len_append] at h
      cases z with
      | nil => exact ⟨[], by simpa using hz.symm⟩
      | cons w z =>
        have : utf8Len (w :: z) = w.utf8Size + utf8Len z := by simp [utf8Len]
        have := utf8Size_pos w
        omega
  obtain ⟨m, rfl⟩ := hpre
  rw [h2, sliceBytes_append]; rfl

/-! ### displayed spans -/

theorem digits_split {a b : Text} {c d : Char} {r r' : Text} (ha : ∀ x ∈ a, x.isDigit = true) (hb : ∀ x ∈ b, x.isDigit = true)
    (hc : c.isDigit = false) (hd : d.isDigit = false) (h : a ++ c :: r = b ++ d :: r') : a = b ∧ c = d ∧ r = r' := by
  induction a generalizing b with
  | nil =>
    cases b with
    | nil => simpa using h
    | cons y b =>
      simp only [List.nil_append, List.cons_append, List.cons.injEq] at h
      rw [h.1, hb y (by simp)] at hc; cases hc
  | cons x a ih =>
    cases b with
    | nil =>
      simp only [List.nil_append, List.cons_append, List.cons.injEq] at h
      rw [← h.1, ha x (by simp)] at hd; cases hd
    | cons y b =>
      simp only [List.cons_append, List.cons.injEq] at h
      have := ih (b := b) (fun z hz => ha z (by simp [hz])) (fun z hz => hb z (by simp [hz])) h.2
      exact ⟨by rw [h.1, this.1], this.2⟩

theorem posAfter_snoc (pre : Text) (c : Char) (hc : c ≠ '\n') :
    posAfter (pre ++ [c]) = ⟨(posAfter pre).line, (posAfter pre).column + 1⟩ := by
  simp [posAfter, hc]

end Parsel
