import Verif.Spec.Source
import Verif.Proofs.LexRounds

/-! Block comments. -/

namespace Parsel

open Spec

theorem commentBody_ne {a : Text} (h : CommentBody a) : a ≠ [] := by cases h <;> simp

/-- As many nested comments' ends as are open. -/
inductive Bodies : Nat → Text → Prop
  | zero : Bodies 0 []
  | succ {d a b} : CommentBody a → Bodies d b → Bodies (d + 1) (a ++ b)

theorem blockLoop_bodies : ∀ (n d : Nat) (read x : Text) {r : Text × Text}, x.length ≤ n → blockLoop (d + 1) read x = some r → ∃ z, x = z ++ r.2 ∧ Bodies (d + 1) z
  | n, d, read, [], r, _, h => by cases h
  | 0, _, _, c :: cs, _, hn, _ => by simp at hn
  | n + 1, d, read, c :: cs, r, hn, h => by
    simp only [List.length_cons, Nat.add_le_add_iff_right] at hn
    rw [blockLoop.eq_def] at h
    split at h
    · rename_i d' read' cs' heq
      cases heq
      obtain ⟨z, e, hz⟩ := blockLoop_bodies n _ _ _ (by simp at hn; omega) h
      cases hz with
      | succ ha hb =>
        cases hb with
        | @succ _ a2 b2 ha2 hb2 =>
          refine ⟨_, ?_, .succ (.nested ha ha2) hb2⟩
          rw [e]; simp
    · rename_i d' read' cs' heq
      cases heq
      split at h
      · rename_i hd
        have : d = 0 := by omega
        subst this
        cases h
        exact ⟨['*', '/'], rfl, .succ (b := []) .close .zero⟩
      · rename_i hd
        obtain ⟨k, rfl⟩ : ∃ k, d = k + 1 := ⟨d - 1, by omega⟩
        obtain ⟨z, e, hz⟩ := blockLoop_bodies n k _ _ (by simp at hn; omega) h
        exact ⟨['*', '/'] ++ z, by rw [e]; rfl, .succ .close hz⟩
    · rename_i h1 h2 heq
      cases heq
      obtain ⟨z, e, hz⟩ := blockLoop_bodies n d _ _ hn h
      cases hz with
      | @succ _ a b ha hb =>
        have hne := commentBody_ne ha
        refine ⟨(c :: a) ++ b, by rw [e]; simp, .succ (.char ?_ ?_ ha) hb⟩
        · rintro rfl hh
          cases a with
          | nil => cases hh
          | cons y a =>
            simp at hh; subst hh
            exact h1 _ rfl (by rw [e]; rfl)
        · rintro rfl hh
          cases a with
          | nil => cases hh
          | cons y a =>
            simp at hh; subst hh
            exact h2 _ rfl (by rw [e]; rfl)
    · rename_i heq; cases heq

theorem bodies_blockLoop {a : Text} (h : CommentBody a) : ∀ (d : Nat) (read r : Text),
    blockLoop (d + 1) read (a ++ r) = if d = 0 then some (read.reverse ++ a, r) else blockLoop d (a.reverse ++ read) r := by
  induction h with
  | close =>
    intro d read r
    rw [List.cons_append, List.cons_append, List.nil_append, blockLoop]
    by_cases hd : d = 0
    · subst hd; simp
    · rw [if_neg (by omega), if_neg hd]; rfl
  | @nested a b _ _ iha ihb =>
    intro d read r
    have : '/' :: '*' :: (a ++ b) ++ r = '/' :: '*' :: (a ++ (b ++ r)) := by simp
    rw [this, blockLoop, iha, if_neg (by omega), ihb]
    simp
  | @char c x h1 h2 hx ih =>
    intro d read r
    have hne := commentBody_ne hx
    have hh : (x ++ r).head? = x.head? := by cases x with
      | nil => exact absurd rfl hne
      | cons y x => rfl
    rw [List.cons_append, blockLoop.eq_def]
    split
    · rename_i heq
      obtain ⟨e1, e2⟩ := List.cons.inj heq
      exact absurd (by rw [← hh, e2]; rfl) (h1 e1)
    · rename_i heq
      obtain ⟨e1, e2⟩ := List.cons.inj heq
      exact absurd (by rw [← hh, e2]; rfl) (h2 e1)
    · rename_i heq
      cases heq
      rw [ih]
      simp
    · rename_i heq; cases heq

/-- The lexer's block comments. -/
theorem block_iff {x : Text} : blockComment x = some (x, []) ↔ BlockComment x := by
  have open_ : ∀ b, blockComment ('/' :: '*' :: b) = blockLoop 1 ['*', '/'] b := by
    intro b
    unfold blockComment
    rw [if_pos (by simp [startsWith, stripPrefix]), blockLoop]
  constructor
  · intro h
    have hs : ∃ b, x = '/' :: '*' :: b := by
      unfold blockComment at h
      split at h
      · rename_i hs
        obtain ⟨b, rfl⟩ := startsWith_iff.mp hs
        exact ⟨b, rfl⟩
      · cases h
    obtain ⟨b, rfl⟩ := hs
    rw [open_] at h
    obtain ⟨z, e, hz⟩ := blockLoop_bodies _ 0 _ b (Nat.le_refl _) h
    cases hz with
    | @succ _ a c ha hc =>
      cases hc
      simp only [List.append_nil] at e
      subst e
      exact .mk ha
  · intro h
    cases h with
    | mk hb =>
      rw [open_]
      have := bodies_blockLoop hb 0 ['*', '/'] []
      rw [List.append_nil] at this
      rw [this]
      rfl

end Parsel
