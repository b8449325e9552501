import Verif.Proofs.Offset

/-! Properties of source locations: C46, C47, C48, C49. -/

namespace Parsel
open Spec

/-- **C46.** For every source text and every stretch `mid` of it, the byte range of a node spanning that stretch is the byte
interval of exactly that stretch, and `source_substring` returns exactly its text. -/
theorem C46_byte_range (pre mid post : Text) :
    byteRange (pre ++ mid ++ post) (stretchSpan pre mid) = (utf8Len pre, utf8Len pre + utf8Len mid) ∧
    sourceSubstring (pre ++ mid ++ post) (stretchSpan pre mid) = some mid := by
  have h1 : byteOffset (pre ++ mid ++ post) (posAfter pre) = utf8Len pre := by
    rw [List.append_assoc]; exact byteOffset_posAfter _ _
  have h2 : byteOffset (pre ++ mid ++ post) (posAfter (pre ++ mid)) = utf8Len (pre ++ mid) := byteOffset_posAfter _ _
  constructor
  · simp only [byteRange, stretchSpan, h1, h2, utf8Len_append]
  · simp only [sourceSubstring, byteRange, stretchSpan, h1, h2, sliceBytes_append]

/-- `ű` and a line break before, multi-byte characters inside. -/
example : sourceSubstring "a\nű = wíőzs;\n".toList (stretchSpan "a\nű = ".toList "wíőzs".toList) = some "wíőzs".toList ∧
    stretchSpan "a\nű = ".toList "wíőzs".toList = ⟨⟨2, 4⟩, ⟨2, 9⟩⟩ ∧
    byteRange "a\nű = wíőzs;\n".toList ⟨⟨2, 4⟩, ⟨2, 9⟩⟩ = (7, 14) := by decide

/-- **C47.** The same for `char_range`, counted in characters. -/
theorem C47_char_range (pre mid post : Text) :
    charRange (pre ++ mid ++ post) (stretchSpan pre mid) = (pre.length, pre.length + mid.length) := by
  have h1 : charOffset (pre ++ mid ++ post) (posAfter pre) = pre.length := by
    rw [List.append_assoc]; exact charOffset_posAfter _ _
  have h2 : charOffset (pre ++ mid ++ post) (posAfter (pre ++ mid)) = (pre ++ mid).length := charOffset_posAfter _ _
  simp only [charRange, stretchSpan, h1, h2, List.length_append]

/-- **C48.** Whatever text a span is resolved against, both ends of `byte_range` are within the text and on character boundaries,
and they are in order if the ends of the span are; then `source_substring` does not panic. (Lines are counted from 1.) -/
theorem C48_byte_range_safe (source : Text) (sp : Span) :
    IsBoundary source (byteRange source sp).1 ∧ IsBoundary source (byteRange source sp).2 ∧
    (byteRange source sp).1 ≤ utf8Len source ∧ (byteRange source sp).2 ≤ utf8Len source ∧
    (1 ≤ sp.start.line → sp.start.le sp.stop = true →
      (byteRange source sp).1 ≤ (byteRange source sp).2 ∧ (sourceSubstring source sp).isSome) := by
  refine ⟨isBoundary_byteOffset _ _, isBoundary_byteOffset _ _, byteOffset_le _ _, byteOffset_le _ _, ?_⟩
  intro h1 h2
  have hle := byteOffset_mono source sp.start sp.stop h1 h2
  exact ⟨hle, sliceBytes_isSome source _ _ (isBoundary_byteOffset _ _) (isBoundary_byteOffset _ _) hle⟩

/-- **C48** (the other range). `char_range` gives no such guarantee: for a span that does not belong to the text it can exceed the
text and be inverted, although the span itself is in order. -/
theorem C48_char_range_unbounded : ∃ (source : Text) (sp : Span), 1 ≤ sp.start.line ∧ sp.start.le sp.stop = true ∧
    source.length < (charRange source sp).1 ∧ (charRange source sp).2 < (charRange source sp).1 :=
  ⟨"ab".toList, ⟨⟨1, 9⟩, ⟨2, 1⟩⟩, by decide, by decide, by decide, by decide⟩

/-- A span that is out of range in every way still yields a valid slice. -/
example : sourceSubstring "é\nb".toList ⟨⟨1, 7⟩, ⟨9, 9⟩⟩ = some "b".toList := by decide

/-- **C49.** The display of the span of a stretch is `line:column..line:column` of its first and its last character, both counted
from 1 (`first` is the text before the first character, `lastPre` the text before the last one). -/
theorem C49_display_one_based_inclusive (pre m : Text) (c : Char) (hc : c ≠ '\n') :
    let first := posAfter pre
    let last := posAfter (pre ++ m)
    spanDisplay (stretchSpan pre (m ++ [c])) =
      natText first.line ++ ":".toList ++ natText (first.column + 1) ++ "..".toList ++
        natText last.line ++ ":".toList ++ natText (last.column + 1) := by
  intro first last
  simp only [spanDisplay, stretchSpan, ← List.append_assoc]
  rw [posAfter_snoc (pre ++ m) c hc]

/-- **C49.** Two spans display alike only if they are the same range. -/
theorem C49_display_injective (a b : Span) (h : spanDisplay a = spanDisplay b) : a = b := by
  obtain ⟨⟨al, ac⟩, ⟨bl, bc⟩⟩ := a
  obtain ⟨⟨al', ac'⟩, ⟨bl', bc'⟩⟩ := b
  have hcolon : ":".toList = [':'] := rfl
  have hdots : "..".toList = ['.', '.'] := rfl
  simp only [spanDisplay, List.append_assoc, hcolon, hdots, List.cons_append, List.nil_append] at h
  have d : ∀ n, ∀ x ∈ natText n, x.isDigit = true := fun n x hx => natText_isDigit hx
  obtain ⟨h1, -, h⟩ := digits_split (d _) (d _) (by decide) (by decide) h
  obtain ⟨h2, -, h⟩ := digits_split (d _) (d _) (by decide) (by decide) h
  simp only [List.cons.injEq, true_and] at h
  obtain ⟨h3, -, h4⟩ := digits_split (d _) (d _) (by decide) (by decide) h
  have := natText_injective h1
  have := natText_injective h2
  have := natText_injective h3
  have := natText_injective h4
  simp only [Span.mk.injEq, LineCol.mk.injEq]
  omega

example : spanDisplay (stretchSpan "x\n  ".toList "abc".toList) = "2:3..2:5".toList := by decide

end Parsel
