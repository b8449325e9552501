import Verif.Spec.Compose
import Verif.Props.Edit

/-! A composed text is a layout of tokens that the value reads. -/

namespace Parsel
open Spec

section
variable [Ext]

/-- The text is a layout of tokens that the value reads. -/
structure Own (v : Val) (x : Text) (us : List TT) : Prop where
  lays : Layout us x
  writes : Writable us
  reads : Reads false v us

/-- The same for a list. -/
structure OwnL (vs : List Val) (x : Text) (us : List TT) : Prop where
  lays : Layout us x
  writes : Writable us
  reads : ReadsL false vs us

mutual
theorem composed_own (laws : FloatLaws) : ∀ {v : Val} {x : Text}, Composed v x → ∃ us, Own v x us
  | _, _, .read hl hlay ha => by
    obtain ⟨us, hl', _, hr⟩ := acceptsStr_reads ⟨_, ha⟩
    rw [hl] at hl'
    cases hl'
    exact ⟨_, hlay, (lex_writable hl).1, hr⟩
  | _, _, .shown (alternate := alternate) hv hx hp hd => by
    cases hus : Val.toTokens _ with
    | none => exact absurd hus hp
    | some us =>
      obtain ⟨z, hz, hlz⟩ := display_layout laws alternate hv hx hus
      rw [hd] at hz
      cases hz
      exact ⟨us, hlz, (toTokens_writable laws hx hus).1, (formed_own laws (hasTy_formed hv) hus).1⟩
  | _, _, .group (d := d) (sp := sp') (x := x) hd h => by
    obtain ⟨us, h1, h2, h3⟩ := composed_own laws h
    refine ⟨[.group d us sp'], ?_, .group h2 .nil, us, [], false, by simp, h3, rfl⟩
    have sp : Gap [' '] := .white (by decide) .nil
    have hb : Layout us (' ' :: (x ++ [' '])) := by
      have := (layout_append h1 h2 (.nil sp) (brk_space [])).gap sp
      rwa [List.append_nil] at this
    have := Layout.group (sp := sp') (o := _) (c := _) .nil hd hb (by cases hd <;> rfl) (.nil .nil)
    simpa using this
  | _, _, .node h => by
    obtain ⟨us, h1, h2, h3⟩ := composedL_own laws h
    exact ⟨us, h1, h2, h3⟩
theorem composedL_own (laws : FloatLaws) : ∀ {vs : List Val} {x : Text}, ComposedL vs x → ∃ us, OwnL vs x us
  | _, _, .nil => ⟨[], .nil .nil, .nil, rfl, rfl⟩
  | _, _, .notEof h => by
    obtain ⟨us, h1, h2, h3⟩ := composedL_own laws h
    exact ⟨us, h1, h2, [], us, false, false, rfl, ⟨rfl, .unit (.inr (.inr rfl))⟩, h3, rfl⟩
  | _, _, .one h => by
    obtain ⟨us, h1, h2, h3⟩ := composed_own laws h
    exact ⟨us, h1, h2, us, [], false, false, by simp, h3, ⟨rfl, rfl⟩, rfl⟩
  | _, _, .parts h => by
    obtain ⟨us, h1, h2, h3⟩ := composed_own laws h
    exact ⟨us, h1, h2, h3⟩
  | _, _, .append h h' => by
    obtain ⟨us, h1, h2, h3⟩ := composedL_own laws h
    obtain ⟨cs, k1, k2, k3⟩ := composedL_own laws h'
    have sp : Gap [' '] := .white (by decide) .nil
    exact ⟨us ++ cs, layout_append h1 h2 (k1.gap sp) (brk_space _), Writable.append h2 k2, readsL_append h3 k3⟩
end

end

end Parsel
