import Verif.Proofs.Edit
import Verif.Proofs.NoZero

/-! Segments of streams. -/

namespace Parsel
open Spec

theorem segment_cons {s : List TT} (t : TT) {l : List TT} (h : Segment s l) : Segment s (t :: l) := by
  cases h with
  | @here a c => exact Segment.here (a := t :: a) (c := c)
  | @inside a d inner sp c h => exact Segment.inside (a := t :: a) h

theorem segment_left {s a : List TT} (h : Segment s a) (c : List TT) : Segment s (a ++ c) := by
  cases h with
  | @here a' c' =>
    have : a' ++ s ++ c' ++ c = a' ++ s ++ (c' ++ c) := by simp
    rw [this]
    exact .here
  | @inside a' d inner sp c' h =>
    rw [List.append_assoc, List.cons_append]
    exact .inside h

theorem segment_right {s c : List TT} (h : Segment s c) : ∀ a : List TT, Segment s (a ++ c)
  | [] => h
  | t :: a => segment_cons t (segment_right h a)

theorem segment_trans {s b ts : List TT} (h1 : Segment s b) (h2 : Segment b ts) : Segment s ts := by
  induction h2 with
  | here => exact segment_left (segment_right h1 _) _
  | inside _ ih => exact .inside ih

/-- A minus sign and a literal next to each other are so before the last punctuation is set apart. -/
theorem segment_loose {spc : Spacing} {sp sp' : Span} {r : Text} : ∀ {b : List TT}, Segment [.punct '-' spc sp, .lit r sp'] (loose b) →
    Segment [.punct '-' spc sp, .lit r sp'] b
  | [], h => h
  | [t], h => by
    by_cases ht : ∃ c spc sp, t = .punct c spc sp
    · obtain ⟨c, spc', sp2, rfl⟩ := ht
      simp only [loose] at h
      generalize hl : [TT.punct c .alone sp2] = l at h
      cases h with
      | @here a c =>
        have := congrArg List.length hl
        simp at this
        omega
      | @inside a d inner sp3 c h =>
        have := congrArg List.length hl
        have e : a = [] := by
          cases a with
          | nil => rfl
          | cons x a => simp at this
        subst e
        simp at hl
    · rw [loose_one (fun c spc sp e => ht ⟨c, spc, sp, e⟩)] at h
      exact h
  | t :: u :: b, h => by
    rw [loose_cons] at h
    generalize hl : t :: loose (u :: b) = l at h
    cases h with
    | @here a c =>
      cases a with
      | cons x a =>
        simp only [List.cons_append, List.cons.injEq] at hl
        obtain ⟨rfl, hl⟩ := hl
        have h' : Segment [.punct '-' spc sp, .lit r sp'] (loose (u :: b)) := by rw [hl]; exact .here
        exact segment_cons _ (segment_loose h')
      | nil =>
        simp only [List.nil_append, List.cons_append, List.cons.injEq] at hl
        obtain ⟨rfl, hl⟩ := hl
        have hu : u = .lit r sp' := by
          cases b with
          | nil =>
            cases u with
            | punct c spc sp => simp [loose] at hl
            | lit r2 sp4 => simp [loose] at hl ⊢; exact hl.1
            | _ => simp [loose] at hl
          | cons w b => rw [loose_cons] at hl; simp at hl; exact hl.1
        subst hu
        exact Segment.here (a := []) (c := b)
    | @inside a d inner sp3 c h =>
      cases a with
      | cons x a =>
        simp only [List.cons_append, List.cons.injEq] at hl
        obtain ⟨rfl, hl⟩ := hl
        have h' : Segment [.punct '-' spc sp, .lit r sp'] (loose (u :: b)) := by rw [hl]; exact .inside h
        exact segment_cons _ (segment_loose h')
      | nil =>
        simp only [List.nil_append, List.cons.injEq] at hl
        obtain ⟨rfl, _⟩ := hl
        exact Segment.inside (a := []) h

/-- A token of the stream with its last punctuation set apart. -/
theorem occurs_loose {t : TT} : ∀ {b : List TT}, Occurs t (loose b) → (∃ c sp, t = .punct c .alone sp) ∨ Occurs t b
  | [], h => .inr h
  | [u], h => by
    by_cases ht : ∃ c spc sp, u = .punct c spc sp
    · obtain ⟨c, spc', sp2, rfl⟩ := ht
      simp only [loose] at h
      cases h with
      | head => exact .inl ⟨_, _, rfl⟩
      | tail h => cases h
    · rw [loose_one (fun c spc sp e => ht ⟨c, spc, sp, e⟩)] at h
      exact .inr h
  | u :: w :: b, h => by
    rw [loose_cons] at h
    cases h with
    | head => exact .inr .head
    | tail h => exact (occurs_loose h).imp id .tail
    | inside h => exact .inr (.inside h)

theorem visible_loose {b : List TT} (h : Visible b) : Visible (loose b) := by
  intro i sp ho
  rcases occurs_loose ho with ⟨c, sp', e⟩ | ho
  · cases e
  · exact h i sp ho

theorem noMinusZero_part {b ts : List TT} (hv : Visible ts) (hb : Visible b) (hs : Segment b ts) (hz : NoMinusZero ts) : NoMinusZero (loose b) := by
  intro spc sp r sp' h
  rw [dissolve_visible (visible_loose hb)] at h
  refine hz spc sp r sp' ?_
  rw [dissolve_visible hv]
  exact segment_trans (segment_loose h) hs

theorem Place.own {b : List TT} : ∀ {p : Place}, Writable (p.fill b) → NoQuotes (p.fill b) → Writable (loose b)
  | .here a c, h, hq => by
    have := writable_loose .nil (writable_right h) (NoQuotes.left (b := c) (NoQuotes.right hq))
    simpa using this
  | .inside a d sp p c, h, hq => by
    have h1 := writable_right h
    have h2 : NoQuotes (p.fill b) := (NoQuotes.right hq).inner
    cases h1 with
    | group h1 _ => exact Place.own h1 h2

theorem Place.visible {b : List TT} : ∀ {p : Place}, Visible (p.fill b) → Visible b
  | .here a c, h => h.right.left
  | .inside a d sp p c, h => Place.visible h.right.inner

variable [Ext]

theorem inside_survives {w v : Val} (h : Inside w v) : Survives v → Survives w := by
  induction h with
  | here => exact id
  | group _ ih => intro hs; exact ih (by simpa only [Survives] using hs)
  | @node tag v vs hm _ ih =>
    intro hs
    simp only [Survives] at hs
    refine ih ?_
    have := hs.2
    clear hs ih
    induction vs with
    | nil => cases hm
    | cons u vs ihv =>
      simp only [SurvivesL] at this
      cases hm with
      | head => exact this.1
      | tail _ hm => exact ihv hm this.2

theorem inside_replaced {w v : Val} (h : Inside w v) : Replaced w w v v := by
  induction h with
  | here => exact .here
  | group _ ih => exact .group ih
  | node hm _ ih =>
    obtain ⟨l, r, rfl⟩ := List.append_of_mem hm
    exact .node ih

end Parsel
